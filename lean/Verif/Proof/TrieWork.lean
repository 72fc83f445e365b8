import Verif.Model.TrieWork
import Verif.Proof.TrieMemory
import Verif.Proof.TrieInsert
import Mathlib.Tactic.Ring

/-! # Work of a `Trie`: the counting model computes the same, and bounds -/

namespace Trie.Work
open Cpp

variable {α β : Type}

theorem out_bind (x : Job α) (f : α → Job β) : (x >>= f).out = x.out >>= fun a => (f a).out := by
  show (Job.bind x f).out = _
  unfold Job.bind
  cases x.out <;> rfl

theorem out_ite (c : Prop) [Decidable c] (x y : Job α) : (if c then x else y).out = if c then x.out else y.out := by
  split <;> rfl

@[simp] theorem out_free (x : Out α) : (free x).out = x := rfl
@[simp] theorem out_copied (n : Nat) : (copied n).out = .ok () := rfl
@[simp] theorem out_again (n : Nat) : (again n).out = .ok () := rfl
@[simp] theorem out_get (a : AA Int) (p : Int) : (get a p).out = a.get p := rfl
@[simp] theorem out_getc (a : AA Int) (p : Int) : (getc a p).out = a.getc p := rfl
@[simp] theorem out_getT (a : AA Str) (p : Int) : (getT a p).out = a.get p := rfl
@[simp] theorem out_getcT (a : AA Str) (p : Int) : (getcT a p).out = a.getc p := rfl
@[simp] theorem out_setBase (st : St) (p v : Int) : (setBase st p v).out = Trie.setBase st p v := rfl
@[simp] theorem out_setCheck (st : St) (p v : Int) : (setCheck st p v).out = Trie.setCheck st p v := rfl
@[simp] theorem out_setTailAt (st : St) (p : Int) (v : Str) : (setTailAt st p v).out = Trie.setTailAt st p v := rfl

theorem foldlM_out {σ ι : Type} (f : σ → ι → Job σ) (g : σ → ι → Out σ) (h : ∀ s i, (f s i).out = g s i) :
    ∀ (l : List ι) (s : σ), (l.foldlM f s).out = l.foldlM g s := by
  intro l
  induction l with
  | nil => intro s; rfl
  | cons i l ih =>
    intro s
    rw [List.foldlM_cons, List.foldlM_cons, out_bind, h]
    congr 1
    funext a
    exact ih a

theorem retrieve_out (ms : Mapper) (st : St) : ∀ (w : Str) (n : Int), (retrieve ms st n w).out = Trie.retrieve ms st n w := by
  intro w
  induction w with
  | nil => intro n; rfl
  | cons c rest ih =>
    intro n
    rw [retrieve, Trie.retrieve]
    simp only [out_bind, out_ite, out_free, out_get, out_getc, out_getcT, out_copied, ih, Out.ok_bind]

theorem allFree_out (check : AA Int) (q : Int) (list : List Int) : (allFree check q list).out =
    list.foldlM (fun ok i => do if ok then .ok (decide ((← check.getc (q + i)) = -1)) else .ok false) true := by
  unfold allFree
  refine foldlM_out _ _ (fun ok i => ?_) list true
  rw [out_ite, out_bind]
  rfl

theorem checkAvailableFrom_out (check : AA Int) (list : List Int) : ∀ (f : Nat) (q : Int),
    (checkAvailableFrom check list f q).out = Trie.checkAvailableFrom check list f q := by
  intro f
  induction f with
  | zero => intro q; rfl
  | succ f ih =>
    intro q
    rw [checkAvailableFrom, Trie.checkAvailableFrom, out_bind, allFree_out]
    congr 1
    funext b
    rw [out_ite, ih]
    rfl

@[simp] theorem checkAvailable_out (st : St) (list : List Int) : (checkAvailable st list).out = Trie.checkAvailable st list :=
  checkAvailableFrom_out _ _ _ _

@[simp] theorem outArcs_out (st : St) (n : Int) : (outArcs st n).out = Trie.outArcs st n := by
  unfold outArcs Trie.outArcs
  rw [out_bind]
  show (st.base.get n >>= _) = (st.base.get n >>= _)
  congr 1
  funext b
  refine foldlM_out _ _ (fun l i => ?_) _ _
  rw [out_bind]
  simp only [out_ite, out_free, out_getc]

@[simp] theorem setTail_out (st : St) (n next : Int) (rest : Str) : (setTail st n next rest).out = Trie.setTail st n next rest := by
  unfold setTail Trie.setTail
  simp only [out_bind, out_copied, Out.ok_bind, out_setTailAt, out_setBase, out_setCheck]

@[simp] theorem newTail_out (st : St) (x : Int) (rest : Str) : (newTail st x rest).out = (do
    let (p, st) := nextTail st
    let st ← Trie.setBase st x (-p - 2)
    Trie.setTailAt st p rest) := by
  unfold newTail
  simp only [out_bind, out_copied, Out.ok_bind, out_setTailAt, out_setBase]

theorem chain_out (ms : Mapper) : ∀ (cs : Str) (st : St) (next : Int), (chain ms st next cs).out = Trie.chain ms st next cs := by
  intro cs
  induction cs with
  | nil => intro st next; rfl
  | cons c cs ih =>
    intro st next
    rw [chain, Trie.chain]
    simp only [out_bind, out_free, out_get, out_setBase, out_setCheck, checkAvailable_out, ih]

theorem split_out (ms mo : Mapper) (st : St) (next : Int) (rest : Str) :
    (split ms mo st next rest).out = Trie.split ms mo st next rest := by
  unfold split Trie.split oldSide newSide
  simp only [out_bind, out_ite, out_free, out_get, out_getT, out_setBase, out_setCheck, out_setTailAt, checkAvailable_out,
    out_copied, Out.ok_bind, newTail_out, chain_out]

theorem moveArc_out (tb nb : Int) (s : St × Int) (j : Int) : (moveArc tb nb s j).out = Trie.moveArc tb nb s j := by
  obtain ⟨st, no⟩ := s
  unfold moveArc Trie.moveArc moveKids
  have hf : ∀ (st : St) (l : List Int), (l.foldlM (fun (st : St) k => do let b ← get st.base (tb + j); setCheck st (b + k) (nb + j)) st).out =
      l.foldlM (fun st k => do Trie.setCheck st ((← st.base.get (tb + j)) + k) (nb + j)) st := by
    intro st l
    refine foldlM_out _ _ (fun st k => ?_) l st
    rw [out_bind]; rfl
  simp only [out_bind, out_ite, out_free, out_get, out_setBase, out_setCheck, outArcs_out, hf, bind_assoc]

theorem relocate_out (st : St) (n next i : Int) (rest : Str) : (relocate st n next i rest).out = Trie.relocate st n next i rest := by
  unfold relocate Trie.relocate choose newArc
  have hf : ∀ (tb nb : Int) (l : List Int) (s : St × Int), (l.foldlM (moveArc tb nb) s).out = l.foldlM (Trie.moveArc tb nb) s :=
    fun tb nb l s => foldlM_out _ _ (moveArc_out tb nb) l s
  simp only [out_bind, out_ite, out_free, out_get, out_setBase, out_setCheck, outArcs_out, checkAvailable_out, out_again,
    Out.ok_bind, newTail_out, hf]

theorem insertGo_out (ms mo : Mapper) (st : St) : ∀ (w : Str) (n : Int), (insertGo ms mo st n w).out = Trie.insertGo ms mo st n w := by
  intro w
  induction w with
  | nil => intro n; rfl
  | cons c rest ih =>
    intro n
    rw [insertGo, Trie.insertGo]
    simp only [out_bind, out_ite, out_free, out_get, out_getc, out_copied, out_again, Out.ok_bind, setTail_out, split_out,
      relocate_out, ih]

@[simp] theorem contain_out (ms : Mapper) (st : St) (w : Str) : (contain ms st w).out = Trie.contain ms st w := by
  unfold contain Trie.contain
  rw [out_bind, out_copied, Out.ok_bind, retrieve_out]

theorem insert_out (ms mo : Mapper) (st : St) (w : Str) : (insert ms mo st w).out = Trie.insert ms mo st w := by
  unfold insert Trie.insert
  simp only [out_bind, out_ite, out_free, contain_out, out_copied, Out.ok_bind, insertGo_out]

theorem removeGo_out (ms : Mapper) (st : St) : ∀ (w : Str) (n : Int), (removeGo ms st n w).out = Trie.removeGo ms st n w := by
  intro w
  induction w with
  | nil => intro n; rw [removeGo, Trie.removeGo, out_bind]; rfl
  | cons c rest ih =>
    intro n
    rw [removeGo, Trie.removeGo]
    simp only [out_bind, out_ite, out_free, out_get, out_getcT, out_setBase, out_setCheck, out_copied, ih, Out.ok_bind]

theorem remove_out (ms : Mapper) (st : St) (w : Str) : (remove ms st w).out = Trie.remove ms st w := by
  unfold remove Trie.remove
  simp only [out_bind, out_free, removeGo_out, out_copied, Out.ok_bind]

/-! ### bounds -/

/-- At most `A` accesses and `C` copied characters. -/
def Le (A C : Nat) (x : Job α) : Prop := x.acc ≤ A ∧ x.chars ≤ C

theorem Le.seq {A C a c : Nat} {x : Job α} {f : α → Job β} (hx : Le a c x) (ha : a ≤ A) (hc : c ≤ C)
    (hf : ∀ y, x.out = .ok y → Le (A - a) (C - c) (f y)) : Le A C (x >>= f) := by
  show Le A C (Job.bind x f)
  obtain ⟨h1, h2⟩ := hx
  unfold Job.bind
  cases e : x.out with
  | ok y =>
    obtain ⟨k1, k2⟩ := hf y e
    exact ⟨show x.acc + (f y).acc ≤ A by omega, show x.chars + (f y).chars ≤ C by omega⟩
  | exit => exact ⟨show x.acc ≤ A by omega, show x.chars ≤ C by omega⟩
  | ub => exact ⟨show x.acc ≤ A by omega, show x.chars ≤ C by omega⟩
  | diverge => exact ⟨show x.acc ≤ A by omega, show x.chars ≤ C by omega⟩

theorem Le.mono {A C a c : Nat} {x : Job α} (hx : Le a c x) (ha : a ≤ A) (hc : c ≤ C) : Le A C x :=
  ⟨hx.1.trans ha, hx.2.trans hc⟩

theorem le_free {A C : Nat} (x : Out α) : Le A C (free x) := ⟨Nat.zero_le _, Nat.zero_le _⟩
theorem le_copied (n : Nat) : Le 0 n (copied n) := ⟨le_refl _, le_refl _⟩
theorem le_again (n : Nat) : Le n 0 (again n) := ⟨le_refl _, le_refl _⟩
theorem le_get (a : AA Int) (p : Int) : Le 1 0 (get a p) := ⟨le_refl _, le_refl _⟩
theorem le_getc (a : AA Int) (p : Int) : Le 1 0 (getc a p) := ⟨le_refl _, le_refl _⟩
theorem le_setBase (st : St) (p v : Int) : Le 1 0 (setBase st p v) := ⟨le_refl _, le_refl _⟩
theorem le_setCheck (st : St) (p v : Int) : Le 1 0 (setCheck st p v) := ⟨le_refl _, le_refl _⟩
theorem le_setTailAt (st : St) (p : Int) (v : Str) : Le 1 v.length (setTailAt st p v) := ⟨le_refl _, le_refl _⟩

/-- No stored tail is longer than `T`. -/
def TL (T : Nat) (st : St) : Prop := ∀ p, (st.tail.at p).length ≤ T

theorem TL.getc {T : Nat} {st : St} (h : TL T st) (p : Int) : len (st.tail.getc p) ≤ T := by
  have hp := h p
  unfold AA.getc
  unfold AA.at at hp
  split
  · rename_i h1
    rw [if_pos h1] at hp
    split
    · exact hp
    · exact Nat.zero_le _
  · rename_i h1
    rw [if_neg h1] at hp
    exact hp

theorem TL.get {T : Nat} {st : St} (h : TL T st) (p : Int) : len (st.tail.get p) ≤ T := by
  have hp := h p
  unfold AA.get
  unfold AA.at at hp
  split
  · rename_i h1
    rw [if_pos h1.2] at hp
    exact hp
  · exact Nat.zero_le _

theorem le_getcT {T : Nat} {st : St} (h : TL T st) (p : Int) : Le 1 T (getcT st.tail p) := ⟨le_refl _, h.getc p⟩
theorem le_getT {T : Nat} {st : St} (h : TL T st) (p : Int) : Le 1 T (getT st.tail p) := ⟨le_refl _, h.get p⟩

theorem retrieve_le {ms : Mapper} {st : St} {T : Nat} (hT : TL T st) : ∀ (w : Str) (n : Int),
    Le (3 * w.length + 2) (T + w.length) (retrieve ms st n w) := by
  intro w
  induction w with
  | nil => intro n; exact le_free _
  | cons c rest ih =>
    intro n
    rw [retrieve, List.length_cons]
    refine Le.seq (le_free (A := 0) (C := 0) _) (by omega) (by omega) fun i _ => ?_
    refine Le.seq (le_get _ _) (by omega) (by omega) fun b _ => ?_
    refine Le.seq (le_getc _ _) (by omega) (by omega) fun k _ => ?_
    split
    · exact le_free _
    refine Le.seq (le_getc _ _) (by omega) (by omega) fun b' _ => ?_
    split
    · split
      · exact le_free _
      refine Le.seq (le_get _ _) (by omega) (by omega) fun b2 _ => ?_
      refine Le.seq (le_getcT hT _) (by omega) (by omega) fun t _ => ?_
      refine Le.seq (le_copied _) (by omega) (by omega) fun _ _ => le_free _
    · exact (ih _).mono (by omega) (by omega)

theorem contain_le {ms : Mapper} {st : St} {T : Nat} (hT : TL T st) (w : Str) :
    Le (3 * w.length + 5) (T + 2 * w.length + 2) (contain ms st w) := by
  unfold contain
  refine Le.seq (le_copied _) (by omega) (by omega) fun _ _ => ?_
  have := retrieve_le (ms := ms) hT (w ++ [endChar]) 0
  rw [List.length_append, List.length_singleton] at this
  exact this.mono (by omega) (by omega)

theorem removeGo_le {ms : Mapper} {st : St} {T : Nat} (hT : TL T st) : ∀ (w : Str) (n : Int),
    Le (3 * w.length + 4) (T + w.length) (removeGo ms st n w) := by
  intro w
  induction w with
  | nil =>
    intro n
    rw [removeGo]
    exact Le.seq (le_setCheck _ _ _) (by simp) (by simp) fun _ _ => le_free _
  | cons c rest ih =>
    intro n
    rw [removeGo, List.length_cons]
    refine Le.seq (le_free (A := 0) (C := 0) _) (by omega) (by omega) fun i _ => ?_
    refine Le.seq (le_get _ _) (by omega) (by omega) fun b _ => ?_
    refine Le.seq (le_get _ _) (by omega) (by omega) fun k _ => ?_
    split
    · exact le_free _
    refine Le.seq (le_get _ _) (by omega) (by omega) fun b' _ => ?_
    split
    · refine Le.seq (le_get _ _) (by omega) (by omega) fun b2 _ => ?_
      refine Le.seq (le_getcT hT _) (by omega) (by omega) fun t _ => ?_
      refine Le.seq (le_copied _) (by omega) (by omega) fun _ _ => ?_
      split
      · refine Le.seq (le_setBase _ _ _) (by omega) (by omega) fun _ _ => ?_
        exact Le.seq (le_setCheck _ _ _) (by omega) (by omega) fun _ _ => le_free _
      · exact le_free _
    · exact (ih _).mono (by omega) (by omega)

theorem remove_le {ms : Mapper} {st : St} {T : Nat} (hT : TL T st) (w : Str) :
    Le (3 * w.length + 7) (T + 2 * w.length + 2) (remove ms st w) := by
  unfold remove
  refine Le.seq (le_copied _) (by omega) (by omega) fun _ _ => ?_
  have := removeGo_le (ms := ms) hT (w ++ [endChar]) 0
  rw [List.length_append, List.length_singleton] at this
  exact Le.seq (this.mono (by omega) (le_refl _)) (le_refl _) (by omega) fun _ _ => le_free _

theorem foldlM_le {σ ι : Type} {f : σ → ι → Job σ} {a : Nat} (h : ∀ s i, Le a 0 (f s i)) :
    ∀ (l : List ι) (s : σ), Le (l.length * a) 0 (l.foldlM f s) := by
  intro l
  induction l with
  | nil => intro s; exact ⟨Nat.zero_le _, le_refl _⟩
  | cons i l ih =>
    intro s
    rw [List.foldlM_cons, List.length_cons, Nat.succ_mul]
    refine Le.seq (h s i) (by omega) (by omega) fun s' _ => (ih s').mono (by omega) (by omega)

theorem allFree_le (check : AA Int) (q : Int) (list : List Int) : Le list.length 0 (allFree check q list) := by
  unfold allFree
  refine (foldlM_le (a := 1) (fun ok i => ?_) list true).mono (by omega) (le_refl _)
  split
  · exact Le.seq (le_getc _ _) (le_refl _) (le_refl _) fun _ _ => le_free _
  · exact le_free _

theorem checkAvailableFrom_le (check : AA Int) (list : List Int) : ∀ (f : Nat) (q : Int),
    Le (f * list.length) 0 (checkAvailableFrom check list f q) := by
  intro f
  induction f with
  | zero => intro q; exact le_free _
  | succ f ih =>
    intro q
    rw [checkAvailableFrom, Nat.succ_mul]
    refine Le.seq (allFree_le _ _ _) (by omega) (le_refl _) fun b _ => ?_
    split
    · exact le_free _
    · exact (ih _).mono (by omega) (le_refl _)

theorem checkAvailable_le {N L : Nat} {K : Int} {st : St} (B : Bd N K st) {list : List Int} (hl : list.length ≤ L) :
    Le ((N + 1) * L) 0 (checkAvailable st list) := by
  have := B.ks
  exact (checkAvailableFrom_le _ _ _ _).mono (Nat.mul_le_mul (by omega) hl) (le_refl _)

theorem outArcs_le (st : St) (n : Int) : Le 28 0 (outArcs st n) := by
  unfold outArcs
  refine Le.seq (le_get _ _) (by omega) (le_refl _) fun b _ => ?_
  refine (foldlM_le (a := 1) (fun l i => ?_) _ _).mono (by simp) (le_refl _)
  refine Le.seq (le_getc _ _) (le_refl _) (le_refl _) fun _ _ => ?_
  split <;> exact le_free _

theorem outArcs_length {st : St} {n : Int} {l : List Int} (e : Trie.outArcs st n = .ok l) : l.length ≤ 27 := by
  unfold Trie.outArcs at e
  obtain ⟨b, -, e⟩ := Out.bind_eq_ok.1 e
  have key : ∀ (is acc l : List Int),
      is.foldlM (fun l i => do if (← st.check.getc (b + i)) = n then .ok (l ++ [i]) else .ok l) acc = Out.ok l →
      l.length ≤ acc.length + is.length := by
    intro is
    induction is with
    | nil =>
      intro acc l e
      injection e with e
      subst e
      simp
    | cons i is ih =>
      intro acc l e
      rw [List.foldlM_cons] at e
      obtain ⟨acc', e1, e⟩ := Out.bind_eq_ok.1 e
      have h := ih acc' l e
      obtain ⟨c, -, e1⟩ := Out.bind_eq_ok.1 e1
      split at e1 <;>
      · injection e1 with e1
        subst e1
        simp only [List.length_append, List.length_cons, List.length_nil] at h ⊢
        omega
  have := key _ _ _ e
  simpa using this

theorem setTail_le (st : St) (n next : Int) (rest : Str) : Le 3 (2 * rest.length) (setTail st n next rest) := by
  unfold setTail
  refine Le.seq (le_copied _) (by omega) (by omega) fun _ _ => ?_
  refine Le.seq (le_setTailAt _ _ _) (by omega) (by omega) fun _ _ => ?_
  refine Le.seq (le_setBase _ _ _) (by omega) (by omega) fun _ _ => ?_
  exact (le_setCheck _ _ _).mono (by omega) (by omega)

theorem newTail_le (st : St) (x : Int) (rest : Str) : Le 2 (2 * rest.length) (newTail st x rest) := by
  unfold newTail
  refine Le.seq (le_setBase _ _ _) (by omega) (by omega) fun _ _ => ?_
  refine Le.seq (le_copied _) (by omega) (by omega) fun _ _ => ?_
  exact (le_setTailAt _ _ _).mono (by omega) (by omega)

theorem chain_le {ms : Mapper} (hm : Small ms) {K : Int} : ∀ (cs : Str) {N : Nat} {st : St} {next : Int}, Bd N K st →
    next < st.base.size ∨ next + 27 ≤ N → Le (cs.length * (N + 54 * cs.length + 4)) 0 (chain ms st next cs) := by
  intro cs
  induction cs with
  | nil => intro N st next _ _; exact le_free _
  | cons c cs ih =>
    intro N st next B hn
    rw [chain, List.length_cons, Nat.succ_mul]
    generalize hX : N + 54 * (cs.length + 1) + 4 = X
    refine Le.seq (le_free (A := 0) (C := 0) _) (by omega) (le_refl _) fun j hj => ?_
    refine Le.seq (checkAvailable_le (L := 1) B (by simp)) (by omega) (le_refl _) fun q hq => ?_
    refine Le.seq (le_setBase _ _ _) (by omega) (le_refl _) fun st1 h1 => ?_
    refine Le.seq (le_setCheck _ _ _) (by omega) (le_refl _) fun st2 h2 => ?_
    refine Le.seq (le_get _ _) (by omega) (le_refl _) fun b hb => ?_
    rw [out_free] at hj
    rw [checkAvailable_out] at hq
    rw [out_setBase] at h1
    rw [out_setCheck] at h2
    rw [out_get] at hb
    have hj := hm _ _ hj
    obtain ⟨hq0, hq⟩ := Trie.checkAvailable_le B hq
    have hp := B.p0
    obtain ⟨B1, p1, t1, v1⟩ := setBase_bd (M' := N) B h1 hn (le_refl _) (by omega) hq
    obtain ⟨B2, p2, t2, v2⟩ := setCheck_bd (M' := N + 54) B1 h2 (by omega) (by omega)
    have hb' := (AA.get_inv hb).2.2
    rw [v2, v1] at hb'
    have := ih (N := N + 54) (next := b + j) (by push_cast; exact B2) (by push_cast; omega)
    rw [show N + 54 + 54 * cs.length + 4 = X by omega] at this
    exact this.mono (by omega) (by omega)

theorem oldSide_le (st : St) (q ctv temp : Int) (ct : Byte) (t : Str) : Le 2 (2 * t.length) (oldSide st q ctv temp ct t) := by
  unfold oldSide
  split
  · exact Le.seq (le_setBase _ _ _) (by omega) (by omega) fun _ _ => le_free _
  · refine Le.seq (le_setBase _ _ _) (by omega) (by omega) fun _ _ => ?_
    refine Le.seq (le_copied _) (by omega) (by omega) fun _ _ => ?_
    exact (le_setTailAt _ _ _).mono (by omega) (by omega)

theorem newSide_le (st : St) (x : Int) (cn : Byte) (rest : Str) : Le 2 (2 * rest.length) (newSide st x cn rest) := by
  unfold newSide
  split
  · exact (le_setBase _ _ _).mono (by omega) (by omega)
  · exact newTail_le _ _ _

theorem len_eq {x : Out Str} {s : Str} (h : x = .ok s) : len x = s.length := by rw [h]; rfl

theorem split_le {ms mo : Mapper} (hm : Small ms) {K : Int} {N L T : Nat} {st : St} (B : Bd N K st) (hT : TL T st) {next : Int}
    {rest : Str} (hL : rest.length ≤ L) :
    Le (L * (N + 54 * L + 4) + 2 * (N + 54 * L + 1) + 9) (3 * T + 4 * L) (split ms mo st next rest) := by
  unfold split
  refine Le.seq (le_get _ _) (by omega) (by omega) fun b hb => ?_
  refine Le.seq (le_getT hT _) (by omega) (by omega) fun tt htt => ?_
  have hpl : (commonPrefix rest tt).length ≤ rest.length := commonPrefix_le rest tt
  rw [out_get] at hb
  rw [out_getT] at htt
  have htl : tt.length ≤ T := by rw [← len_eq htt]; exact hT.get _
  obtain ⟨b0, b1, b2, b3⟩ := B.get hb
  have hd := tt.length_drop (i := (commonPrefix rest tt).length + 1)
  have hd2 := rest.length_drop (i := (commonPrefix rest tt).length + 1)
  refine Le.seq (le_copied _) (by omega) (by omega) fun _ _ => ?_
  have hmul : (commonPrefix rest tt).length * (N + 54 * (commonPrefix rest tt).length + 4) ≤ L * (N + 54 * L + 4) :=
    Nat.mul_le_mul (by omega) (by omega)
  refine Le.seq (chain_le hm _ B (Or.inl b1)) (by omega) (by omega) fun r hr => ?_
  refine Le.seq (le_free (A := 0) (C := 0) _) (by omega) (by omega) fun ct _ => ?_
  refine Le.seq (le_free (A := 0) (C := 0) _) (by omega) (by omega) fun ctv _ => ?_
  refine Le.seq (le_free (A := 0) (C := 0) _) (by omega) (by omega) fun cn _ => ?_
  refine Le.seq (le_free (A := 0) (C := 0) _) (by omega) (by omega) fun cnv _ => ?_
  obtain ⟨st1, next1⟩ := r
  rw [chain_out] at hr
  obtain ⟨B1, -⟩ := chain_bd hm _ B (Or.inl b1) hr
  have B2 : Bd (N + 54 * (commonPrefix rest tt).length : Nat) K st1 := by push_cast; exact B1
  refine Le.seq (checkAvailable_le (L := 2) B2 (by simp)) (by omega) (by omega) fun q _ => ?_
  refine Le.seq (le_setBase _ _ _) (by omega) (by omega) fun _ _ => ?_
  refine Le.seq (oldSide_le _ _ _ _ _ _) (by omega) (by omega) fun _ _ => ?_
  refine Le.seq (le_setCheck _ _ _) (by omega) (by omega) fun _ _ => ?_
  refine Le.seq (newSide_le _ _ _ _) (by omega) (by omega) fun _ _ => ?_
  exact (le_setCheck _ _ _).mono (by omega) (by omega)

theorem moveKids_le (st : St) (old new : Int) : Le 83 0 (moveKids st old new) := by
  unfold moveKids
  refine Le.seq (le_get _ _) (by omega) (by omega) fun b _ => ?_
  split
  · refine Le.seq (outArcs_le _ _) (by omega) (by omega) fun l hl => ?_
    rw [outArcs_out] at hl
    have h27 := outArcs_length hl
    refine (foldlM_le (a := 2) (fun s k => ?_) l st).mono (by omega) (le_refl _)
    refine Le.seq (le_get _ _) (by omega) (by omega) fun _ _ => ?_
    exact (le_setCheck _ _ _).mono (by omega) (by omega)
  · exact le_free _

theorem moveArc_le (tb nb : Int) (s : St × Int) (j : Int) : Le 89 0 (moveArc tb nb s j) := by
  unfold moveArc
  refine Le.seq (le_get _ _) (by omega) (by omega) fun _ _ => ?_
  refine Le.seq (le_setBase _ _ _) (by omega) (by omega) fun _ _ => ?_
  refine Le.seq (le_get _ _) (by omega) (by omega) fun _ _ => ?_
  refine Le.seq (le_setCheck _ _ _) (by omega) (by omega) fun _ _ => ?_
  refine Le.seq (moveKids_le _ _ _) (by omega) (by omega) fun _ _ => ?_
  refine Le.seq (le_setBase _ _ _) (by omega) (by omega) fun _ _ => ?_
  exact Le.seq (le_setCheck _ _ _) (by omega) (by omega) fun _ _ => le_free _

theorem choose_le {N : Nat} {K : Int} {st : St} (B : Bd N K st) {n i other : Int} {lN lC : List Int} (hN : lN.length ≤ 27)
    (hC : lC.length ≤ 27) : Le (1 + (N + 1) * 27) 0 (choose st n i other lN lC) ∧
      ∀ r, (choose st n i other lN lC).out = .ok r → r.2.1.length ≤ 27 := by
  unfold choose
  split
  · refine ⟨Le.seq (checkAvailable_le (L := 27) B (by simp; omega)) (by omega) (by omega) fun _ _ => le_free _, fun r h => ?_⟩
    rw [out_bind] at h
    obtain ⟨q, -, h⟩ := Out.bind_eq_ok.1 h
    injection h with h
    rw [← h]; exact hN
  · refine ⟨Le.seq (le_again _) (by omega) (by omega) fun _ _ =>
      Le.seq (checkAvailable_le (L := 27) B hC) (by omega) (by omega) fun _ _ => le_free _, fun r h => ?_⟩
    rw [out_bind, out_again, Out.ok_bind, out_bind] at h
    obtain ⟨q, -, h⟩ := Out.bind_eq_ok.1 h
    injection h with h
    rw [← h]; exact hC

theorem newArc_le (st : St) (x i : Int) (rest : Str) : Le 2 (2 * rest.length) (newArc st x i rest) := by
  unfold newArc
  split
  · exact (le_setBase _ _ _).mono (by omega) (by omega)
  · exact newTail_le _ _ _

theorem relocate_le {N : Nat} {K : Int} {st : St} (B : Bd N K st) (n next i : Int) (rest : Str) :
    Le (27 * N + 2500) (2 * rest.length) (relocate st n next i rest) := by
  unfold relocate
  refine Le.seq (outArcs_le _ _) (by omega) (by omega) fun lN hN => ?_
  refine Le.seq (le_get _ _) (by omega) (by omega) fun o _ => ?_
  refine Le.seq (outArcs_le _ _) (by omega) (by omega) fun lC hC => ?_
  rw [outArcs_out] at hN hC
  obtain ⟨c1, c2⟩ := choose_le B (n := n) (i := i) (other := o) (outArcs_length hN) (outArcs_length hC)
  refine Le.seq c1 (by omega) (by omega) fun r hr => ?_
  have h27 := c2 r hr
  refine Le.seq (le_get _ _) (by omega) (by omega) fun _ _ => ?_
  refine Le.seq (le_setBase _ _ _) (by omega) (by omega) fun _ _ => ?_
  refine Le.seq ((foldlM_le (moveArc_le _ _) _ _).mono (Nat.mul_le_mul_right 89 h27) (le_refl _)) (by omega) (by omega) fun _ _ => ?_
  refine Le.seq (le_get _ _) (by omega) (by omega) fun _ _ => ?_
  refine Le.seq (newArc_le _ _ _ _) (by omega) (by omega) fun _ _ => ?_
  exact (le_setCheck _ _ _).mono (by omega) (by omega)

theorem insertGo_le {ms mo : Mapper} (hm : Small ms) {K : Int} {N L T : Nat} {st : St} (B : Bd N K st) (hT : TL T st) :
    ∀ (w : Str) (n : Int), w.length ≤ L + 1 →
    Le (5 * w.length + (L * (N + 54 * L + 4) + 2 * (N + 54 * L + 1) + 9 + (27 * N + 2500))) (3 * T + 4 * L)
      (insertGo ms mo st n w) := by
  intro w
  induction w with
  | nil => intro n _; exact le_free _
  | cons c rest ih =>
    intro n hw
    rw [insertGo]
    rw [List.length_cons] at hw ⊢
    generalize hY : L * (N + 54 * L + 4) = Y at ih ⊢
    refine Le.seq (le_free (A := 0) (C := 0) _) (by omega) (by omega) fun i _ => ?_
    refine Le.seq (le_get _ _) (by omega) (by omega) fun b _ => ?_
    refine Le.seq (le_getc _ _) (by omega) (by omega) fun k _ => ?_
    split
    · refine Le.seq (le_copied _) (by omega) (by omega) fun _ _ => ?_
      exact (setTail_le _ _ _ _).mono (by omega) (by omega)
    refine Le.seq (le_get _ _) (by omega) (by omega) fun k' _ => ?_
    split
    · refine Le.seq (le_get _ _) (by omega) (by omega) fun b' _ => ?_
      split
      · have := split_le (mo := mo) hm B hT (next := b + i) (show rest.length ≤ L by omega)
        rw [hY] at this
        exact this.mono (by omega) (by omega)
      · refine Le.seq (le_again _) (by omega) (by omega) fun _ _ => ?_
        exact (ih _ (by omega)).mono (by omega) (by omega)
    · refine Le.seq (le_again _) (by omega) (by omega) fun _ _ => ?_
      exact (relocate_le B _ _ _ _).mono (by omega) (by omega)

theorem insert_le {ms mo : Mapper} (hm : Small ms) {K : Int} {N T : Nat} {st : St} (B : Bd N K st) (hT : TL T st) (w : Str) :
    Le ((w.length + 29) * (N + 54 * w.length + 100)) (4 * T + 7 * w.length + 3) (insert ms mo st w) := by
  have hi := insertGo_le (mo := mo) (L := w.length) hm B hT (w ++ [endChar]) 0 (by simp)
  rw [List.length_append, List.length_singleton] at hi
  have e : (w.length + 29) * (N + 54 * w.length + 100) = w.length * (N + 54 * w.length + 4) + 96 * w.length + 29 * N +
      1566 * w.length + 2900 := by ring
  rw [e]
  generalize w.length * (N + 54 * w.length + 4) = Y at hi ⊢
  unfold insert
  refine Le.seq (contain_le hT w) (by omega) (by omega) fun b _ => ?_
  split
  · exact le_free _
  refine Le.seq (le_copied _) (by omega) (by omega) fun _ _ => ?_
  refine Le.seq hi (by omega) (by omega) fun _ _ => le_free _

/-! ### the lengths of the stored tails -/

/-- What holds of the result. -/
def Post (P : α → Prop) (x : Job α) : Prop := ∀ y, x.out = .ok y → P y

theorem Post.seq {x : Job α} {f : α → Job β} {Q : α → Prop} {P : β → Prop} (hx : Post Q x)
    (hf : ∀ y, x.out = .ok y → Q y → Post P (f y)) : Post P (x >>= f) := by
  intro z h
  rw [out_bind] at h
  obtain ⟨y, h1, h2⟩ := Out.bind_eq_ok.1 h
  exact hf y h1 (hx y h1) z h2

theorem Post.any (x : Job α) : Post (fun _ => True) x := fun _ _ => trivial

theorem post_free {P : α → Prop} {y : α} (h : P y) : Post P (free (.ok y)) := by
  intro z e
  injection e with e
  exact e ▸ h

theorem post_setBase {T : Nat} {st : St} (h : TL T st) (p v : Int) : Post (TL T) (setBase st p v) := by
  intro st' e
  rw [out_setBase] at e
  unfold Trie.setBase at e
  obtain ⟨b, -, e⟩ := Out.bind_eq_ok.1 e
  injection e with e
  exact e ▸ h

theorem post_setCheck {T : Nat} {st : St} (h : TL T st) (p v : Int) : Post (TL T) (setCheck st p v) := by
  intro st' e
  rw [out_setCheck] at e
  unfold Trie.setCheck at e
  obtain ⟨b, -, e⟩ := Out.bind_eq_ok.1 e
  injection e with e
  exact e ▸ h

theorem post_setTailAt {T : Nat} {st : St} (h : TL T st) (p : Int) {v : Str} (hv : v.length ≤ T) :
    Post (TL T) (setTailAt st p v) := by
  intro st' e
  rw [out_setTailAt] at e
  unfold Trie.setTailAt at e
  obtain ⟨b, hb, e⟩ := Out.bind_eq_ok.1 e
  injection e with e
  subst e
  by_cases hp : 0 ≤ p
  · rw [AA.set_ok _ hp] at hb
    injection hb with hb
    subst hb
    intro q
    show ((st.tail.put p v).at q).length ≤ T
    rw [AA.at_put]
    split
    · exact hv
    · exact h q
  · unfold AA.set at hb
    rw [if_neg hp] at hb
    cases hb

theorem TL.nextTail {T : Nat} {st : St} (h : TL T st) : TL T (nextTail st).2 := by
  unfold Trie.nextTail
  cases st.tailList <;> exact h

theorem post_foldlM {σ ι : Type} {f : σ → ι → Job σ} {P : σ → Prop} (h : ∀ s i, P s → Post P (f s i)) :
    ∀ (l : List ι) (s : σ), P s → Post P (l.foldlM f s) := by
  intro l
  induction l with
  | nil => intro s hs; exact post_free hs
  | cons i l ih =>
    intro s hs
    rw [List.foldlM_cons]
    exact (h s i hs).seq fun s' _ hs' => ih s' hs'

theorem post_setTail {T : Nat} {st : St} (h : TL T st) (n next : Int) {rest : Str} (hr : rest.length ≤ T) :
    Post (TL T) (setTail st n next rest) := by
  unfold setTail
  refine (Post.any _).seq fun _ _ _ => ?_
  refine (post_setTailAt h.nextTail _ hr).seq fun _ _ h1 => ?_
  exact (post_setBase h1 _ _).seq fun _ _ h2 => post_setCheck h2 _ _

theorem post_newTail {T : Nat} {st : St} (h : TL T st) (x : Int) {rest : Str} (hr : rest.length ≤ T) :
    Post (TL T) (newTail st x rest) := by
  unfold newTail
  refine (post_setBase h.nextTail _ _).seq fun _ _ h1 => ?_
  exact (Post.any _).seq fun _ _ _ => post_setTailAt h1 _ hr

theorem post_chain {ms : Mapper} {T : Nat} : ∀ (cs : Str) {st : St} (next : Int), TL T st →
    Post (fun r => TL T r.1) (chain ms st next cs) := by
  intro cs
  induction cs with
  | nil => intro st next h; exact post_free h
  | cons c cs ih =>
    intro st next h
    rw [chain]
    refine (Post.any _).seq fun _ _ _ => (Post.any _).seq fun _ _ _ => ?_
    refine (post_setBase h _ _).seq fun _ _ h1 => ?_
    refine (post_setCheck h1 _ _).seq fun _ _ h2 => ?_
    exact (Post.any _).seq fun _ _ _ => ih _ h2

theorem post_split {ms mo : Mapper} {T : Nat} {st : St} (h : TL T st) (next : Int) {rest : Str} (hr : rest.length ≤ T) :
    Post (TL T) (split ms mo st next rest) := by
  unfold split
  refine (Post.any _).seq fun b _ _ => (Post.any _).seq fun tt htt _ => ?_
  rw [out_getT] at htt
  have htl : tt.length ≤ T := by rw [← len_eq htt]; exact h.get _
  refine (Post.any _).seq fun _ _ _ => ?_
  refine (post_chain _ _ h).seq fun r _ h1 => ?_
  refine (Post.any _).seq fun ct _ _ => (Post.any _).seq fun _ _ _ => (Post.any _).seq fun cn _ _ =>
    (Post.any _).seq fun _ _ _ => (Post.any _).seq fun _ _ _ => ?_
  have hd := tt.length_drop (i := (commonPrefix rest tt).length + 1)
  have hd2 := rest.length_drop (i := (commonPrefix rest tt).length + 1)
  refine (post_setBase h1 _ _).seq fun _ _ h2 => ?_
  refine Post.seq (Q := TL T) ?_ fun _ _ h3 => ?_
  · unfold oldSide
    split
    · exact (post_setBase h2 _ _).seq fun _ _ h3 => post_free h3
    · refine (post_setBase h2 _ _).seq fun _ _ h3 => (Post.any _).seq fun _ _ _ => post_setTailAt h3 _ (by omega)
  refine (post_setCheck h3 _ _).seq fun _ _ h4 => ?_
  refine Post.seq (Q := TL T) ?_ fun _ _ h5 => post_setCheck h5 _ _
  unfold newSide
  split
  · exact post_setBase h4 _ _
  · exact post_newTail h4 _ (by omega)

theorem post_moveArc {T : Nat} (tb nb : Int) (s : St × Int) (j : Int) (h : TL T s.1) :
    Post (fun r => TL T r.1) (moveArc tb nb s j) := by
  unfold moveArc
  refine (Post.any _).seq fun _ _ _ => ?_
  refine (post_setBase h _ _).seq fun _ _ h1 => (Post.any _).seq fun _ _ _ => ?_
  refine (post_setCheck h1 _ _).seq fun _ _ h2 => ?_
  refine Post.seq (Q := TL T) ?_ fun _ _ h3 => ?_
  · unfold moveKids
    refine (Post.any _).seq fun _ _ _ => ?_
    split
    · refine (Post.any _).seq fun l _ _ => ?_
      exact post_foldlM (fun s k hs => (Post.any _).seq fun _ _ _ => post_setCheck hs _ _) l _ h2
    · exact post_free h2
  refine (post_setBase h3 _ _).seq fun _ _ h4 => ?_
  exact (post_setCheck h4 _ _).seq fun _ _ h5 => post_free h5

theorem post_relocate {T : Nat} {st : St} (h : TL T st) (n next i : Int) {rest : Str} (hr : rest.length ≤ T) :
    Post (TL T) (relocate st n next i rest) := by
  unfold relocate
  refine (Post.any _).seq fun _ _ _ => (Post.any _).seq fun _ _ _ => (Post.any _).seq fun _ _ _ =>
    (Post.any _).seq fun c _ _ => (Post.any _).seq fun _ _ _ => ?_
  refine (post_setBase h _ _).seq fun _ _ h1 => ?_
  refine (post_foldlM (P := fun r : St × Int => TL T r.1) (fun s j hs => post_moveArc _ _ s j hs) _ _ h1).seq fun s _ h2 => ?_
  refine (Post.any _).seq fun _ _ _ => ?_
  refine Post.seq (Q := TL T) ?_ fun _ _ h3 => post_setCheck h3 _ _
  unfold newArc
  split
  · exact post_setBase h2 _ _
  · exact post_newTail h2 _ hr

theorem post_insertGo {ms mo : Mapper} {T : Nat} {st : St} (h : TL T st) : ∀ (w : Str) (n : Int), w.length ≤ T + 1 →
    Post (TL T) (insertGo ms mo st n w) := by
  intro w
  induction w with
  | nil => intro n _; exact post_free h
  | cons c rest ih =>
    intro n hw
    rw [List.length_cons] at hw
    rw [insertGo]
    refine (Post.any _).seq fun _ _ _ => (Post.any _).seq fun _ _ _ => (Post.any _).seq fun _ _ _ => ?_
    split
    · exact (Post.any _).seq fun _ _ _ => post_setTail h _ _ (by omega)
    refine (Post.any _).seq fun _ _ _ => ?_
    split
    · refine (Post.any _).seq fun _ _ _ => ?_
      split
      · exact post_split h _ (by omega)
      · exact (Post.any _).seq fun _ _ _ => ih _ (by omega)
    · exact (Post.any _).seq fun _ _ _ => post_relocate h _ _ _ (by omega)

theorem insert_tl {ms mo : Mapper} {T : Nat} {st st' : St} (h : TL T st) {w : Str} (hw : w.length ≤ T)
    (e : Trie.insert ms mo st w = .ok st') : TL T st' := by
  rw [← insert_out] at e
  revert e
  revert st'
  show Post (TL T) (insert ms mo st w)
  unfold insert
  refine (Post.any _).seq fun _ _ _ => ?_
  split
  · exact post_free h
  · refine (Post.any _).seq fun _ _ _ => ?_
    exact (post_insertGo h _ _ (by simp; omega)).seq fun _ _ h1 => post_free h1

theorem post_removeGo {ms : Mapper} {T : Nat} {st : St} (h : TL T st) : ∀ (w : Str) (n : Int),
    Post (fun r => TL T r.1) (removeGo ms st n w) := by
  intro w
  induction w with
  | nil => intro n; rw [removeGo]; exact (post_setCheck h _ _).seq fun _ _ h1 => post_free h1
  | cons c rest ih =>
    intro n
    rw [removeGo]
    refine (Post.any _).seq fun _ _ _ => (Post.any _).seq fun _ _ _ => (Post.any _).seq fun _ _ _ => ?_
    split
    · exact post_free h
    refine (Post.any _).seq fun _ _ _ => ?_
    split
    · refine (Post.any _).seq fun _ _ _ => (Post.any _).seq fun _ _ _ => (Post.any _).seq fun _ _ _ => ?_
      split
      · refine (post_setBase h _ _).seq fun _ _ h1 => ?_
        exact (post_setCheck h1 _ _).seq fun _ _ h2 => post_free h2
      · exact post_free h
    · exact ih _

theorem remove_tl {ms : Mapper} {T : Nat} {st st' : St} (h : TL T st) {w : Str}
    (e : Trie.remove ms st w = .ok st') : TL T st' := by
  rw [← remove_out] at e
  revert e
  revert st'
  show Post (TL T) (remove ms st w)
  unfold remove
  refine (Post.any _).seq fun _ _ _ => ?_
  refine (post_removeGo h _ _).seq fun r _ h1 => ?_
  intro z e
  injection e with e
  subst e
  split <;> exact h1

theorem run_tl {T : Nat} {ops : List (Bool × Str)} (hT : ∀ op ∈ ops, op.1 = true → op.2.length ≤ T) {st : St}
    (e : run ops = .ok st) : TL T st := by
  unfold run at e
  obtain ⟨st0, h0, e⟩ := Out.bind_eq_ok.1 e
  have H0 : TL T st0 := by
    unfold new at h0
    obtain ⟨b, -, h0⟩ := Out.bind_eq_ok.1 h0
    injection h0 with h0
    subst h0
    intro p
    unfold AA.at AA.new
    split <;> exact Nat.zero_le _
  have gen : ∀ (ops : List (Bool × Str)) (s : St), (∀ op ∈ ops, op.1 = true → op.2.length ≤ T) → TL T s →
      ops.foldlM (fun st op => if op.1 then Trie.insert mapChar mapChar st op.2 else Trie.remove mapChar st op.2) s = Out.ok st →
      TL T st := by
    intro ops
    induction ops with
    | nil => intro s _ hs e; injection e with e; exact e ▸ hs
    | cons op ops ih =>
      intro s hT hs e
      rw [List.foldlM_cons] at e
      obtain ⟨s1, e1, e2⟩ := Out.bind_eq_ok.1 e
      refine ih s1 (fun o ho => hT o (List.mem_cons_of_mem _ ho)) ?_ e2
      obtain ⟨ins, w⟩ := op
      cases ins with
      | true => exact insert_tl hs (hT _ List.mem_cons_self rfl) e1
      | false => exact remove_tl hs e1
  exact gen ops st0 hT H0 e

/-! ### how much a long common prefix costs -/

theorem bind_run {x : Job α} {f : α → Job β} {z : β} (h : (x >>= f).out = .ok z) :
    ∃ y, x.out = .ok y ∧ (f y).out = .ok z ∧ (x >>= f).acc = x.acc + (f y).acc := by
  rw [out_bind] at h
  obtain ⟨y, h1, h2⟩ := Out.bind_eq_ok.1 h
  refine ⟨y, h1, h2, ?_⟩
  show (Job.bind x f).acc = _
  unfold Job.bind
  rw [h1]

theorem bind_ok {x : Job α} {f : α → Job β} {y : α} (h : x.out = .ok y) :
    x >>= f = ⟨x.acc + (f y).acc, x.chars + (f y).chars, (f y).out⟩ := by
  show Job.bind x f = _
  unfold Job.bind
  rw [h]

theorem allFree_one {check : AA Int} {q j : Int} {b : Bool} (h : (allFree check q [j]).out = .ok b) :
    (allFree check q [j]).acc = 1 ∧ 0 ≤ q + j ∧ b = decide (check.at (q + j) = -1) ∨
    (allFree check q [j]).acc = 1 ∧ check.size ≤ q + j ∧ b = decide (check.at (q + j) = -1) := by
  unfold allFree at h ⊢
  rw [List.foldlM_cons] at h ⊢
  obtain ⟨b', h1, h2, e⟩ := bind_run h
  rw [e]
  injection h2 with h2
  subst h2
  simp only [if_true] at h1 ⊢
  obtain ⟨k, k1, k2, e'⟩ := bind_run h1
  rw [e']
  injection k2 with k2
  subst k2
  rw [out_getc] at k1
  unfold AA.getc at k1
  unfold AA.at
  split at k1
  · rename_i hs
    split at k1
    · rename_i h0
      injection k1 with k1
      left
      refine ⟨rfl, h0, ?_⟩
      rw [if_pos hs, k1]
    · cases k1
  · rename_i hs
    injection k1 with k1
    right
    refine ⟨rfl, by omega, ?_⟩
    rw [if_neg hs, k1]

theorem checkAvailableFrom_one {check : AA Int} {j : Int} : ∀ (f : Nat) (q r : Int),
    (checkAvailableFrom check [j] f q).out = .ok r →
    q ≤ r ∧ r - q + 1 ≤ (checkAvailableFrom check [j] f q).acc ∧ check.at (r + j) = -1 ∧
    ∀ x, q ≤ x → x < r → check.at (x + j) ≠ -1 := by
  intro f
  induction f with
  | zero => intro q r h; cases h
  | succ f ih =>
    intro q r h
    rw [checkAvailableFrom] at h ⊢
    obtain ⟨b, h1, h2, e⟩ := bind_run h
    rw [e]
    have ha : (allFree check q [j]).acc = 1 ∧ b = decide (check.at (q + j) = -1) := by
      rcases allFree_one h1 with ⟨a1, -, a2⟩ | ⟨a1, -, a2⟩ <;> exact ⟨a1, a2⟩
    rw [ha.1]
    by_cases hb : b = true
    · rw [if_pos hb] at h2 ⊢
      injection h2 with h2
      subst h2
      rw [ha.2, decide_eq_true_eq] at hb
      refine ⟨le_refl _, by push_cast; omega, hb, fun x h1 h2 => by omega⟩
    · rw [if_neg hb] at h2 ⊢
      obtain ⟨i1, i2, i3, i4⟩ := ih _ _ h2
      rw [ha.2, decide_eq_true_eq] at hb
      refine ⟨by omega, by push_cast; omega, i3, fun x hx1 hx2 => ?_⟩
      by_cases hx : x = q
      · subst hx; exact hb
      · exact i4 x (by omega) hx2

theorem setBase_inv {st st' : St} {p v : Int} (e : Trie.setBase st p v = .ok st') : 0 ≤ p ∧ st'.check = st.check := by
  unfold Trie.setBase AA.set at e
  split at e
  · rename_i h
    injection e with e
    subst e
    exact ⟨h, rfl⟩
  · cases e

theorem setCheck_inv {st st' : St} {p v : Int} (e : Trie.setCheck st p v = .ok st') : st'.check = st.check.put p v := by
  unfold Trie.setCheck at e
  obtain ⟨b, hb, e⟩ := Out.bind_eq_ok.1 e
  injection e with e
  subst e
  by_cases hp : 0 ≤ p
  · rw [AA.set_ok _ hp] at hb
    injection hb with hb
    exact hb.symm
  · unfold AA.set at hb
    rw [if_neg hp] at hb
    cases hb

/-- Once the slots `j … j+k-1` are taken, `n` further letters `c` look at `k+1, k+2, …` slots. -/
theorem chain_ge {ms : Mapper} {c : Byte} {j : Int} (hj : ms c = .ok j) : ∀ (n k : Nat) {st : St} {next : Int}
    {r : St × Int}, (∀ x : Int, j ≤ x → x < j + k → st.check.at x ≠ -1) →
    (chain ms st next (List.replicate n c)).out = .ok r →
    n * (2 * k + n + 1) ≤ 2 * (chain ms st next (List.replicate n c)).acc := by
  intro n
  induction n with
  | zero => intros; simp
  | succ n ih =>
    intro k st next r hk h
    rw [List.replicate_succ, chain] at h ⊢
    obtain ⟨j', h1, h, e1⟩ := bind_run h
    rw [e1]
    rw [out_free, hj] at h1
    injection h1 with h1
    subst h1
    obtain ⟨q, h2, h, e2⟩ := bind_run h
    rw [e2]
    obtain ⟨st1, h3, h, e3⟩ := bind_run h
    rw [e3]
    obtain ⟨st2, h4, h, e4⟩ := bind_run h
    rw [e4]
    obtain ⟨b, h5, h, e5⟩ := bind_run h
    rw [e5]
    rw [out_setBase] at h3
    rw [out_setCheck] at h4
    obtain ⟨p1, p2⟩ := setBase_inv h3
    have p3 := setCheck_inv h4
    rw [p2] at p3
    obtain ⟨q1, q2, q3, q4⟩ := checkAvailableFrom_one _ _ _ h2
    have hq : (k : Int) ≤ q := by
      by_contra hc
      exact hk (q + j) (by omega) (by omega) q3
    have := ih (k + 1) (st := st2) (next := b + j) (r := r) ?_ h
    · change q - 0 + 1 ≤ ((checkAvailable st [j]).acc : Int) at q2
      have hq' : k + 1 ≤ (checkAvailable st [j]).acc := by omega
      generalize (checkAvailable st [j]).acc = A at hq' ⊢
      generalize (chain ms st2 (b + j) (List.replicate n c)).acc = B at this ⊢
      have hr : (n + 1) * (2 * k + (n + 1) + 1) = n * (2 * (k + 1) + n + 1) + 2 * k + 2 := by ring
      rw [hr]
      omega
    · intro x hx1 hx2
      rw [p3, AA.at_put]
      split
      · omega
      · by_cases hx : x < j + k
        · exact hk x hx1 hx
        · have hxe : x = k + j := by push_cast at hx2; omega
          rw [hxe]
          rename_i hne
          exact q4 k (by omega) (by omega)

/-- Looking up the word "a", when the only word stored is `a` and a rest `t`. -/
theorem contain_a {st : St} {t : Str} (h1 : st.base.get 0 = .ok 0) (h2 : st.check.getc 2 = .ok 0) (h3 : st.base.get 2 = .ok (-2))
    (h4 : st.base.getc 2 = .ok (-2)) (h5 : st.tail.getc 0 = .ok t) :
    t.length ≤ (contain mapChar st [97]).chars := by
  have m : (free (mapChar 97)).out = .ok 2 := by decide +kernel
  show t.length ≤ (contain mapChar st [97]).chars
  unfold contain
  rw [bind_ok (y := ()) rfl]
  show t.length ≤ 2 + (retrieve mapChar st 0 [97, 1]).chars
  rw [retrieve, bind_ok m, bind_ok (y := 0) h1, bind_ok (y := 0) h2]
  rw [if_neg (by decide), bind_ok (y := -2) h4, if_pos (by decide), if_neg (by decide), bind_ok (y := -2) h3, bind_ok (y := t) h5]
  show t.length ≤ 2 + (0 + (0 + (0 + (0 + (0 + (len (st.tail.getc 0) + 1))))))
  rw [h5]
  show t.length ≤ 2 + (0 + (0 + (0 + (0 + (0 + (t.length + 1))))))
  omega

/-- Inserting `aⁿ⁺¹c`, when the only word stored is `aⁿ⁺¹b`. -/
theorem insert_a {st st' : St} {n : Nat} (h1 : st.base.get 0 = .ok 0) (h2 : st.check.getc 2 = .ok 0)
    (h2' : st.check.get 2 = .ok 0) (h3 : st.base.get 2 = .ok (-2)) (h5 : st.tail.get 0 = .ok (List.replicate n 97 ++ [98, 1]))
    (hc : Trie.contain mapChar st (List.replicate (n + 1) 97 ++ [99]) = .ok false)
    (h : Trie.insert mapChar mapChar st (List.replicate (n + 1) 97 ++ [99]) = .ok st') :
    n * (n + 1) ≤ 2 * (insert mapChar mapChar st (List.replicate (n + 1) 97 ++ [99])).acc := by
  have m : (free (mapChar 97)).out = .ok 2 := by decide +kernel
  rw [← insert_out] at h
  unfold insert at h ⊢
  obtain ⟨b, e1, h, a1⟩ := bind_run h
  rw [a1]
  rw [contain_out, hc] at e1
  injection e1 with e1
  subst e1
  rw [if_neg (by decide)] at h ⊢
  obtain ⟨_, -, h, a2⟩ := bind_run h
  rw [a2]
  obtain ⟨st1, h, -, a3⟩ := bind_run h
  rw [a3]
  rw [List.replicate_succ, List.cons_append, List.cons_append, insertGo] at h ⊢
  rw [bind_ok m, bind_ok (y := 0) h1, bind_ok (y := 0) h2, if_neg (by decide), bind_ok (y := 0) h2', if_pos (by decide),
    bind_ok (y := -2) h3, if_pos (by decide)] at h ⊢
  change (split mapChar mapChar st 2 (List.replicate n 97 ++ [99] ++ [endChar])).out = .ok st1 at h
  have key : n * (n + 1) ≤ 2 * (split mapChar mapChar st 2 (List.replicate n 97 ++ [99] ++ [endChar])).acc := by
    unfold split at h ⊢
    rw [bind_ok (y := -2) h3] at h ⊢
    change ((getT st.tail 0 >>= _).out = .ok st1) at h
    obtain ⟨tt, e2, h, a4⟩ := bind_run h
    change n * (n + 1) ≤ 2 * (1 + (getT st.tail 0 >>= _).acc)
    rw [a4]
    rw [out_getT, h5] at e2
    injection e2 with e2
    subst e2
    rw [show commonPrefix (List.replicate n 97 ++ [99] ++ [endChar]) (List.replicate n 97 ++ [98, 1]) = List.replicate n 97 by
      rw [List.append_assoc]; exact commonPrefix_spec _ _ _ _ _ (by decide)] at h ⊢
    obtain ⟨_, -, h, a5⟩ := bind_run h
    rw [a5]
    obtain ⟨r, e3, h, a6⟩ := bind_run h
    rw [a6]
    have := chain_ge (ms := mapChar) (c := 97) (j := 2) (by decide +kernel) n 0 (by intro x h1 h2; push_cast at h2; omega) e3
    simp only [Nat.mul_zero, Nat.zero_add] at this
    omega
  show _ ≤ 2 * (_ + (_ + ((0 + (1 + (1 + (1 + (1 + (split mapChar mapChar st 2 (List.replicate n 97 ++ [99] ++ [endChar])).acc))))) + _)))
  omega

end Trie.Work
