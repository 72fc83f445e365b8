import Verif.Spec.MatrixHeap
import Mathlib.Data.List.Perm.Basic
import Mathlib.Algebra.BigOperators.Intervals

/-! # Lemmas about the memory of matrices -/

namespace Matrix.Mem
open Cpp Spec

variable {α : Type}

/-! ### loops -/

/-- A loop over `0, …, n - 1` with an invariant. -/
theorem range_loop {σ : Type} (P : Nat → σ → Prop) (f : σ → Nat → Out σ) :
    ∀ (n : Nat) (s : σ), P 0 s → (∀ k, k < n → ∀ s, P k s → ∃ s', f s k = .ok s' ∧ P (k + 1) s') →
    ∃ s', (List.range n).foldlM f s = .ok s' ∧ P n s' := by
  intro n
  induction n with
  | zero => intro s h _; exact ⟨s, rfl, h⟩
  | succ n ih =>
    intro s h hs
    obtain ⟨s1, e1, h1⟩ := ih s h fun k hk => hs k (by omega)
    obtain ⟨s2, e2, h2⟩ := hs n (by omega) s1 h1
    refine ⟨s2, ?_, h2⟩
    rw [List.range_succ, List.foldlM_append, e1, Out.ok_bind, List.foldlM_cons, e2, Out.ok_bind]; rfl

/-! ### a matrix in memory -/

/-- The matrix `o` whose first rows are at `ps`; `V` tells the entries (`none`: not yet written). -/
structure Part (h : Heap α) (o : Obj) (ps : List Nat) (n m : Nat) (V : Nat → Nat → Option α) : Prop where
  row : o.row = n
  col : o.col = m
  len : ps.length ≤ n
  ptr : h.cell o.elem = some (.ptrs (ps.map some ++ List.replicate (n - ps.length) none))
  vals : ∀ i p, ps[i]? = some p → ∃ l, h.cell p = some (.vals l) ∧ l.length = m ∧ ∀ j, j < m → l[j]? = some (V i j)

/-- The blocks of a matrix. -/
def fp (o : Obj) (ps : List Nat) : List Nat := o.elem :: ps

/-- The complete matrix `o` holds the value `A`. -/
def Own (h : Heap α) (o : Obj) (ps : List Nat) (A : Value α) : Prop :=
  Part h o ps A.rows A.cols (fun i j => some (A.entry i j)) ∧ ps.length = A.rows

theorem Part.congr {h : Heap α} {o : Obj} {ps : List Nat} {n m : Nat} {V W : Nat → Nat → Option α} (P : Part h o ps n m V)
    (e : ∀ i, i < ps.length → ∀ j, j < m → V i j = W i j) : Part h o ps n m W := by
  refine ⟨P.row, P.col, P.len, P.ptr, fun i p hi => ?_⟩
  obtain ⟨l, h1, h2, h3⟩ := P.vals i p hi
  exact ⟨l, h1, h2, fun j hj => by rw [h3 j hj, e i (List.getElem?_eq_some_iff.1 hi).1 j hj]⟩

theorem Part.frame {h h' : Heap α} {o : Obj} {ps : List Nat} {n m : Nat} {V : Nat → Nat → Option α} (P : Part h o ps n m V)
    (e : ∀ a ∈ fp o ps, h'.cell a = h.cell a) : Part h' o ps n m V := by
  refine ⟨P.row, P.col, P.len, by rw [e _ (by simp [fp])]; exact P.ptr, fun i p hi => ?_⟩
  rw [e p (by simp [fp, List.mem_of_getElem? hi])]
  exact P.vals i p hi

theorem Own.frame {h h' : Heap α} {o : Obj} {ps : List Nat} {A : Value α} (P : Own h o ps A)
    (e : ∀ a ∈ fp o ps, h'.cell a = h.cell a) : Own h' o ps A := ⟨P.1.frame e, P.2⟩

theorem Part.rowPtr {h : Heap α} {o : Obj} {ps : List Nat} {n m : Nat} {V : Nat → Nat → Option α} (P : Part h o ps n m V)
    {i p : Nat} (hi : ps[i]? = some p) : rowPtr h o i = .ok p := by
  have hl := (List.getElem?_eq_some_iff.1 hi).1
  simp only [Mem.rowPtr, Heap.ptrs, P.ptr, Out.ok_bind, entry]
  rw [List.getElem?_append_left (by simpa using hl)]
  simp [hi]

theorem Part.get {h : Heap α} {o : Obj} {ps : List Nat} {n m : Nat} {V : Nat → Nat → Option α} (P : Part h o ps n m V)
    {i j : Nat} (hi : i < ps.length) (hj : j < m) {x : α} (hx : V i j = some x) : get h o i j = .ok x := by
  have hp : ps[i]? = some ps[i] := List.getElem?_eq_getElem hi
  obtain ⟨l, h1, h2, h3⟩ := P.vals i _ hp
  simp only [Mem.get, P.rowPtr hp, Out.ok_bind, Heap.vals, h1, entry, h3 j hj, hx]

theorem Own.get {h : Heap α} {o : Obj} {ps : List Nat} {A : Value α} (P : Own h o ps A)
    {i j : Nat} (hi : i < A.rows) (hj : j < A.cols) : get h o i j = .ok (A.entry i j) :=
  P.1.get (by rw [P.2]; exact hi) hj rfl

/-- `h'` differs from `h` in the contents of the blocks `F` only. -/
structure Within (h h' : Heap α) (F : List Nat) : Prop where
  frame : ∀ a, a ∉ F → h'.cell a = h.cell a
  next : h'.next = h.next
  live : ∀ a, (h'.cell a).isSome = (h.cell a).isSome

theorem Within.refl (h : Heap α) (F : List Nat) : Within h h F := ⟨fun _ _ => rfl, rfl, fun _ => rfl⟩

theorem Within.trans {h h' h'' : Heap α} {F : List Nat} (w : Within h h' F) (w' : Within h' h'' F) : Within h h'' F :=
  ⟨fun a ha => (w'.frame a ha).trans (w.frame a ha), w'.next.trans w.next, fun a => (w'.live a).trans (w.live a)⟩

/-- One entry is replaced. -/
def upd (V : Nat → Nat → Option α) (i j : Nat) (x : α) : Nat → Nat → Option α :=
  fun a b => if a = i ∧ b = j then some x else V a b

theorem Part.set {h : Heap α} {o : Obj} {ps : List Nat} {n m : Nat} {V : Nat → Nat → Option α} (P : Part h o ps n m V)
    (nd : (fp o ps).Nodup) {i j : Nat} (hi : i < ps.length) (hj : j < m) (x : α) :
    ∃ h', set h o i j x = .ok h' ∧ Part h' o ps n m (upd V i j x) ∧ Within h h' (fp o ps) := by
  have hp : ps[i]? = some ps[i] := List.getElem?_eq_getElem hi
  obtain ⟨l, h1, h2, h3⟩ := P.vals i _ hp
  have hne : o.elem ∉ ps := by unfold fp at nd; exact (List.nodup_cons.1 nd).1
  have hnd : ps.Nodup := by unfold fp at nd; exact (List.nodup_cons.1 nd).2
  refine ⟨h.put ps[i] (.vals (l.set j (some x))), ?_, ⟨P.row, P.col, P.len, ?_, fun a p ha => ?_⟩, ⟨fun a ha => ?_, rfl, fun a => ?_⟩⟩
  · simp only [Mem.set, P.rowPtr hp, Out.ok_bind, Heap.vals, h1]
    rw [if_pos (by omega)]
  · simp only [Heap.put]
    rw [if_neg (fun e => hne (by rw [e]; exact List.getElem_mem hi))]
    exact P.ptr
  · simp only [Heap.put]
    by_cases e : a = i
    · subst e
      have : p = ps[a] := by rw [hp] at ha; injection ha with ha; exact ha.symm
      subst this
      rw [if_pos rfl]
      refine ⟨_, rfl, by simpa using h2, fun b hb => ?_⟩
      by_cases eb : b = j
      · subst eb; simp [upd, h2, hb]
      · rw [List.getElem?_set_ne (by omega), h3 b hb]; simp [upd, eb]
    · have hpa : p ≠ ps[i] := by
        intro hpe
        have ha' := (List.getElem?_eq_some_iff.1 ha)
        obtain ⟨ha1, ha2⟩ := ha'
        exact e ((hnd.getElem_inj_iff).1 (ha2.trans hpe))
      rw [if_neg hpa]
      obtain ⟨l', q1, q2, q3⟩ := P.vals a p ha
      exact ⟨l', q1, q2, fun b hb => by rw [q3 b hb]; simp [upd, e]⟩
  · simp only [Heap.put]
    rw [if_neg]
    intro e
    exact ha (by rw [e]; simp [fp])
  · simp only [Heap.put]
    split
    · rename_i e; rw [e, h1]; rfl
    · rfl

/-- The entries while a loop over the cells is at `(i, j)`. -/
def mix (V F : Nat → Nat → Option α) (i j : Nat) : Nat → Nat → Option α :=
  fun a b => if a < i ∨ (a = i ∧ b < j) then F a b else V a b

/-- A loop over all cells of a matrix which writes only to this matrix. -/
theorem cells_ok {body : Heap α → Nat → Nat → Out (Heap α)} {h : Heap α} {o : Obj} {ps : List Nat} {n m : Nat}
    {V : Nat → Nat → Option α} (F : Nat → Nat → α) (P : Part h o ps n m V) (hl : ps.length = n)
    (hb : ∀ i, i < n → ∀ j, j < m → ∀ h', Part h' o ps n m (mix V (fun a b => some (F a b)) i j) → Within h h' (fp o ps) →
      ∃ h'', body h' i j = .ok h'' ∧ Part h'' o ps n m (upd (mix V (fun a b => some (F a b)) i j) i j (F i j)) ∧
        Within h' h'' (fp o ps)) :
    ∃ h', cells n m body h = .ok h' ∧ Part h' o ps n m (fun a b => some (F a b)) ∧ Within h h' (fp o ps) := by
  obtain ⟨h', e, P', W'⟩ := range_loop
    (fun i h' => Part h' o ps n m (mix V (fun a b => some (F a b)) i 0) ∧ Within h h' (fp o ps))
    (fun h i => (List.range m).foldlM (fun h j => body h i j) h) n h
    ⟨P.congr fun i _ j _ => by simp [mix], Within.refl _ _⟩ (by
      intro i hi h1 ⟨P1, W1⟩
      obtain ⟨h2, e2, P2, W2⟩ := range_loop
        (fun j h' => Part h' o ps n m (mix V (fun a b => some (F a b)) i j) ∧ Within h h' (fp o ps))
        (fun h j => body h i j) m h1 ⟨P1, W1⟩ (by
          intro j hj h2 ⟨P2, W2⟩
          obtain ⟨h3, e3, P3, W3⟩ := hb i hi j hj h2 P2 W2
          refine ⟨h3, e3, P3.congr fun a _ b _ => ?_, W2.trans W3⟩
          unfold upd mix
          by_cases c : a = i ∧ b = j
          · obtain ⟨rfl, rfl⟩ := c; simp
          · rw [if_neg c]
            by_cases c1 : a < i ∨ a = i ∧ b < j
            · rw [if_pos c1, if_pos (by omega)]
            · rw [if_neg c1, if_neg (by omega)])
      refine ⟨h2, e2, P2.congr fun a _ b hb => ?_, W2⟩
      unfold mix
      by_cases c1 : a < i ∨ a = i ∧ b < m
      · rw [if_pos c1, if_pos (by omega)]
      · rw [if_neg c1, if_neg (by omega)])
  refine ⟨h', e, P'.congr fun a ha b _ => ?_, W'⟩
  unfold mix
  rw [if_pos (by omega)]

/-! ### construction -/

/-- `h'` has the new blocks `L` and otherwise the contents of `h`. -/
structure Fresh (h h' : Heap α) (L : List Nat) : Prop where
  old : ∀ a, a < h.next → h'.cell a = h.cell a
  next : h.next ≤ h'.next
  bound : ∀ a ∈ L, h.next ≤ a ∧ a < h'.next
  live : ∀ a, h.next ≤ a → ((h'.cell a).isSome ↔ a ∈ L)

/-- One more row. -/
theorem Part.newRow {h0 h : Heap α} {o : Obj} {ps : List Nat} {n m : Nat} {V : Nat → Nat → Option α} (P : Part h o ps n m V)
    (hV : ∀ j, V ps.length j = none) (hl : ps.length < n) (nd : (fp o ps).Nodup) (fr : Fresh h0 h (fp o ps)) :
    ∃ h', newRow o h ps.length = .ok (h.next, h') ∧ Part h' o (ps ++ [h.next]) n m V ∧ (fp o (ps ++ [h.next])).Nodup ∧
      Fresh h0 h' (fp o (ps ++ [h.next])) := by
  have hne : o.elem ≠ h.next := by have := (fr.bound o.elem (by simp [fp])).2; omega
  have hnp : h.next ∉ ps := fun hc => by have := (fr.bound h.next (by simp [fp, hc])).2; omega
  have hen : o.elem ∉ ps := by unfold fp at nd; exact (List.nodup_cons.1 nd).1
  have hpn : ps.Nodup := by unfold fp at nd; exact (List.nodup_cons.1 nd).2
  refine ⟨⟨fun x => if x = o.elem then some (.ptrs ((ps ++ [h.next]).map some ++ List.replicate (n - (ps.length + 1)) none))
      else if x = h.next then some (.vals (List.replicate m none)) else h.cell x, h.next + 1⟩, ?_, ⟨P.row, P.col, ?_, ?_, ?_⟩, ?_, ?_⟩
  · simp only [Mem.newRow, Heap.alloc, Heap.ptrs, if_neg hne, P.ptr, Out.ok_bind]
    rw [if_pos (by simp; omega)]
    simp only [Heap.put]
    congr 3
    funext x
    by_cases e : x = o.elem
    · rw [if_pos e, if_pos e]
      congr 2
      obtain ⟨d, hd⟩ : ∃ d, n - ps.length = d + 1 := ⟨n - ps.length - 1, by omega⟩
      rw [hd, List.replicate_succ, List.set_append_right _ _ (by simp), show n - (ps.length + 1) = d by omega]
      simp
    · rw [if_neg e, if_neg e, P.col]
  · simp; omega
  · simp
  · intro i p hi
    dsimp only
    by_cases e : i < ps.length
    · rw [List.getElem?_append_left e] at hi
      have hp := List.mem_of_getElem? hi
      rw [if_neg (fun c : p = o.elem => hen (c ▸ hp)), if_neg (fun c : p = h.next => hnp (c ▸ hp))]
      exact P.vals i p hi
    · rw [List.getElem?_append_right (by omega)] at hi
      obtain ⟨k, hk⟩ : ∃ k, i - ps.length = k := ⟨_, rfl⟩
      rw [hk] at hi
      cases k with
      | succ k => simp at hi
      | zero =>
        simp at hi
        subst hi
        have : i = ps.length := by omega
        subst this
        rw [if_neg (Ne.symm hne), if_pos rfl]
        exact ⟨_, rfl, by simp, fun j hj => by simp [hj, hV]⟩
  · unfold fp at *
    rw [List.nodup_cons, List.nodup_append]
    refine ⟨?_, hpn, by simp, ?_⟩
    · simp [hen, hne]
    · intro a ha b hb
      simp at hb
      subst hb
      exact fun c => hnp (c ▸ ha)
  · refine ⟨fun a ha => ?_, ?_, fun a ha => ?_, fun a ha => ?_⟩
    · have b1 := (fr.bound o.elem (by simp [fp])).1
      have b2 := fr.next
      dsimp only
      rw [if_neg (by omega), if_neg (by omega), fr.old a ha]
    · have := fr.next; dsimp only; omega
    · have b2 := fr.next
      dsimp only
      simp [fp] at ha
      rcases ha with ha | ha | ha
      · have := fr.bound a (by simp [fp, ha]); omega
      · have := fr.bound a (by simp [fp, ha]); omega
      · omega
    · dsimp only
      by_cases e1 : a = o.elem
      · simp [e1, fp]
      · rw [if_neg e1]
        by_cases e2 : a = h.next
        · simp [e2, fp]
        · rw [if_neg e2, fr.live a ha]; simp [fp, e1, e2]

theorem Fresh.within {h0 h h' : Heap α} {L : List Nat} (fr : Fresh h0 h L) (w : Within h h' L) : Fresh h0 h' L := by
  refine ⟨fun a ha => ?_, by rw [w.next]; exact fr.next, fun a ha => by rw [w.next]; exact fr.bound a ha, fun a ha => ?_⟩
  · rw [w.frame a (fun hm => by have := (fr.bound a hm).1; omega), fr.old a ha]
  · rw [w.live a]; exact fr.live a ha

/-- the array of row pointers -/
theorem start_ok (h : Heap α) (hw : ∀ a, h.next ≤ a → h.cell a = none) (n m : Nat) (V : Nat → Nat → Option α) :
    Part (h.alloc (.ptrs (List.replicate n none))).2 ⟨h.next, n, m⟩ [] n m V ∧
      Fresh h (h.alloc (.ptrs (List.replicate n none))).2 (fp ⟨h.next, n, m⟩ []) := by
  refine ⟨⟨rfl, rfl, by simp, by simp [Heap.alloc], by simp⟩, ⟨fun a ha => ?_, ?_, fun a ha => ?_, fun a ha => ?_⟩⟩
  · simp only [Heap.alloc]; rw [if_neg (by omega)]
  · simp [Heap.alloc]
  · simp [fp] at ha; subst ha; simp [Heap.alloc]
  · simp only [Heap.alloc, fp]
    by_cases e : a = h.next
    · simp [e]
    · rw [if_neg e, hw a ha]; simp [e]

/-- The entries when the first `k` rows are done. -/
def rowsDone (F : Nat → Nat → α) (k : Nat) : Nat → Nat → Option α := fun i j => if i < k then some (F i j) else none

theorem fill_ok {src : Heap α → Nat → Nat → Out α} {h : Heap α} (hw : ∀ a, h.next ≤ a → h.cell a = none) (n m : Nat)
    (F : Nat → Nat → α)
    (hs : ∀ i, i < n → ∀ j, j < m → ∀ h', (∀ a, a < h.next → h'.cell a = h.cell a) → src h' i j = .ok (F i j)) :
    ∃ o ps h', fill src h n m = .ok (o, h') ∧ Own h' o ps ⟨n, m, F⟩ ∧ (fp o ps).Nodup ∧ Fresh h h' (fp o ps) := by
  unfold fill
  obtain ⟨P0, F0⟩ := start_ok h hw n m (rowsDone F 0)
  obtain ⟨h', e, ps, P, nd, fr, hl⟩ := range_loop
    (fun k h' => ∃ ps, Part h' ⟨h.next, n, m⟩ ps n m (rowsDone F k) ∧ (fp ⟨h.next, n, m⟩ ps).Nodup ∧
      Fresh h h' (fp ⟨h.next, n, m⟩ ps) ∧ ps.length = k)
    (fun h' i => do
      let (_, h') ← newRow ⟨h.next, n, m⟩ h' i
      (List.range m).foldlM (fun h' j => do
        let v ← src h' i j
        set h' ⟨h.next, n, m⟩ i j v) h') n (h.alloc (.ptrs (List.replicate n none))).2
    ⟨[], P0, by simp [fp], F0, rfl⟩ (by
      rintro k hk h1 ⟨ps, P1, nd1, fr1, rfl⟩
      obtain ⟨h2, e2, P2, nd2, fr2⟩ := P1.newRow (fun j => by simp [rowsDone]) hk nd1 fr1
      rw [e2, Out.ok_bind]
      dsimp only
      obtain ⟨h3, e3, P3, W3⟩ := range_loop
        (fun t h' => Part h' ⟨h.next, n, m⟩ (ps ++ [h1.next]) n m (mix (rowsDone F ps.length) (fun a b => some (F a b)) ps.length t) ∧
          Within h2 h' (fp ⟨h.next, n, m⟩ (ps ++ [h1.next])))
        (fun h' j => do
          let v ← src h' ps.length j
          set h' ⟨h.next, n, m⟩ ps.length j v) m h2
        ⟨P2.congr fun a _ b _ => by
            unfold mix rowsDone
            by_cases c : a < ps.length <;> simp [c], Within.refl _ _⟩ (by
          intro j hj h3 ⟨P3, W3⟩
          rw [hs ps.length hk j hj h3 (fr2.within W3).old, Out.ok_bind]
          obtain ⟨h4, e4, P4, W4⟩ := P3.set nd2 (i := ps.length) (j := j) (by simp) hj (F ps.length j)
          refine ⟨h4, e4, P4.congr fun a _ b _ => ?_, W3.trans W4⟩
          unfold upd mix
          by_cases c : a = ps.length ∧ b = j
          · obtain ⟨rfl, rfl⟩ := c; simp
          · rw [if_neg c]
            by_cases c1 : a < ps.length ∨ a = ps.length ∧ b < j
            · rw [if_pos c1, if_pos (by omega)]
            · rw [if_neg c1, if_neg (by omega)])
      refine ⟨h3, e3, _, P3.congr fun a _ b hb => ?_, nd2, fr2.within W3, by simp⟩
      unfold mix rowsDone
      by_cases c : a < ps.length + 1
      · rw [if_pos (by omega), if_pos c]
      · rw [if_neg (by omega), if_neg (by omega), if_neg c])
  refine ⟨⟨h.next, n, m⟩, ps, h', ?_, ⟨P.congr fun a ha b _ => ?_, hl⟩, nd, fr⟩
  · simp only [Heap.alloc] at e ⊢
    rw [e]; rfl
  · unfold rowsDone; rw [if_pos (by omega)]

theorem make_ok {ar : Arith α} {h : Heap α} (hw : ∀ a, h.next ≤ a → h.cell a = none) (n m : Nat) :
    ∃ o ps h', make ar h n m = .ok (o, h') ∧ Own h' o ps ⟨n, m, fun _ _ => ar.zero⟩ ∧ (fp o ps).Nodup ∧ Fresh h h' (fp o ps) := by
  unfold make
  obtain ⟨P0, F0⟩ := start_ok h hw n m (rowsDone (fun _ _ => ar.zero) 0)
  obtain ⟨h', e, ps, P, nd, fr, hl⟩ := range_loop
    (fun k h' => ∃ ps, Part h' ⟨h.next, n, m⟩ ps n m (rowsDone (fun _ _ => ar.zero) k) ∧ (fp ⟨h.next, n, m⟩ ps).Nodup ∧
      Fresh h h' (fp ⟨h.next, n, m⟩ ps) ∧ ps.length = k)
    (fun h' i => do
      let (a, h') ← newRow ⟨h.next, n, m⟩ h' i
      .ok (h'.put a (.vals (List.replicate m (some ar.zero))))) n (h.alloc (.ptrs (List.replicate n none))).2
    ⟨[], P0, by simp [fp], F0, rfl⟩ (by
      rintro k hk h1 ⟨ps, P1, nd1, fr1, rfl⟩
      obtain ⟨h2, e2, P2, nd2, fr2⟩ := P1.newRow (fun j => by simp [rowsDone]) hk nd1 fr1
      rw [e2, Out.ok_bind]
      dsimp only
      have hlast : (ps ++ [h1.next])[ps.length]? = some h1.next := by simp
      obtain ⟨l0, q1, -, -⟩ := P2.vals _ _ hlast
      have hne : h.next ≠ h1.next := by
        have := (fr1.bound h.next (by simp [fp])).2; omega
      have W : Within h2 (h2.put h1.next (.vals (List.replicate m (some ar.zero)))) (fp ⟨h.next, n, m⟩ (ps ++ [h1.next])) := by
        refine ⟨fun a ha => ?_, rfl, fun a => ?_⟩
        · simp only [Heap.put]
          rw [if_neg]
          intro e; exact ha (by rw [e]; simp [fp])
        · simp only [Heap.put]
          split
          · rename_i e; rw [e, q1]; rfl
          · rfl
      refine ⟨_, rfl, ps ++ [h1.next], ⟨P2.row, P2.col, P2.len, ?_, fun i p hi => ?_⟩, nd2, fr2.within W, by simp⟩
      · simp only [Heap.put]
        rw [if_neg hne]; exact P2.ptr
      · simp only [Heap.put]
        by_cases e : i = ps.length
        · subst e
          rw [hlast] at hi
          injection hi with hi
          subst hi
          rw [if_pos rfl]
          exact ⟨_, rfl, by simp, fun j hj => by simp [hj, rowsDone]⟩
        · have hi' := (List.getElem?_eq_some_iff.1 hi).1
          simp at hi'
          rw [List.getElem?_append_left (by omega)] at hi
          have : p ≠ h1.next := by
            have := (fr1.bound p (by simp [fp, List.mem_of_getElem? hi])).2; omega
          rw [if_neg this]
          obtain ⟨l, r1, r2, r3⟩ := P2.vals i p (by rw [List.getElem?_append_left (by omega)]; exact hi)
          refine ⟨l, r1, r2, fun j hj => ?_⟩
          rw [r3 j hj]
          unfold rowsDone
          rw [if_pos (by omega), if_pos (by omega)])
  refine ⟨⟨h.next, n, m⟩, ps, h', ?_, ⟨P.congr fun a ha b _ => ?_, hl⟩, nd, fr⟩
  · simp only [Heap.alloc] at e ⊢
    rw [e]; rfl
  · unfold rowsDone; rw [if_pos (by omega)]

/-! ### destruction -/

theorem clear_ok {h : Heap α} {o : Obj} {ps : List Nat} {A : Value α} (P : Own h o ps A) (nd : (fp o ps).Nodup) :
    ∃ h', clear h o = .ok h' ∧ h'.next = h.next ∧ ∀ a, h'.cell a = if a ∈ fp o ps then none else h.cell a := by
  have hen : o.elem ∉ ps := by unfold fp at nd; exact (List.nodup_cons.1 nd).1
  have hpn : ps.Nodup := by unfold fp at nd; exact (List.nodup_cons.1 nd).2
  unfold clear
  obtain ⟨h1, e1, n1, c1⟩ := range_loop
    (fun k (h' : Heap α) => h'.next = h.next ∧ ∀ a, h'.cell a = if a ∈ ps.take k then none else h.cell a)
    (fun h i => do h.free (← rowPtr h o i)) o.row h ⟨rfl, by simp⟩ (by
      intro k hk h1 ⟨n1, c1⟩
      have hk' : k < ps.length := by rw [P.2, ← P.1.row]; exact hk
      have hp : ps[k]? = some ps[k] := List.getElem?_eq_getElem hk'
      have hnt : ps[k] ∉ ps.take k := by
        intro hc
        obtain ⟨i, hi, he⟩ := List.getElem_of_mem hc
        simp at hi
        rw [List.getElem_take] at he
        have := (hpn.getElem_inj_iff).1 he
        omega
      have hr : rowPtr h1 o k = .ok ps[k] := by
        have hc : h1.cell o.elem = h.cell o.elem := by
          rw [c1, if_neg fun hc => hen (List.mem_of_mem_take hc)]
        have := P.1.rowPtr hp
        simp only [Mem.rowPtr, Heap.ptrs, hc] at this ⊢
        exact this
      rw [hr, Out.ok_bind]
      obtain ⟨l, q1, -, -⟩ := P.1.vals k _ hp
      have hs : (h1.cell ps[k]).isSome = true := by rw [c1, if_neg hnt, q1]; rfl
      refine ⟨⟨fun x => if x = ps[k] then none else h1.cell x, h1.next⟩, by simp only [Heap.free, hs, if_true], n1, fun a => ?_⟩
      dsimp only
      have hm : a ∈ ps.take (k + 1) ↔ a ∈ ps.take k ∨ a = ps[k] := by
        rw [List.take_succ_eq_append_getElem hk', List.mem_append, List.mem_singleton]
      rw [c1]
      by_cases e : a = ps[k]
      · rw [if_pos e, if_pos (hm.2 (Or.inr e))]
      · rw [if_neg e]
        by_cases e2 : a ∈ ps.take k
        · rw [if_pos e2, if_pos (hm.2 (Or.inl e2))]
        · rw [if_neg e2, if_neg fun hc => (hm.1 hc).elim e2 e])
  rw [e1, Out.ok_bind]
  have hfull : ps.take o.row = ps := List.take_of_length_le (by rw [P.2, P.1.row])
  have hs : (h1.cell o.elem).isSome = true := by rw [c1, hfull, if_neg hen, P.1.ptr]; rfl
  refine ⟨⟨fun x => if x = o.elem then none else h1.cell x, h1.next⟩, by simp only [Heap.free, hs, if_true], n1, fun a => ?_⟩
  dsimp only
  rw [c1, hfull]
  by_cases e : a = o.elem
  · simp [e, fp]
  · simp [e, fp]

/-! ### operations -/

theorem Fresh.trans {h h1 h2 : Heap α} {L1 L2 : List Nat} (f1 : Fresh h h1 L1) (f2 : Fresh h1 h2 L2) : Fresh h h2 (L2 ++ L1) := by
  have n1 := f1.next
  have n2 := f2.next
  refine ⟨fun a ha => ?_, by omega, fun a ha => ?_, fun a ha => ?_⟩
  · rw [f2.old a (by omega), f1.old a ha]
  · rcases List.mem_append.1 ha with hm | hm
    · have := f2.bound a hm; omega
    · have := f1.bound a hm; omega
  · rw [List.mem_append]
    by_cases c : a < h1.next
    · rw [f2.old a c, f1.live a ha]
      exact ⟨Or.inr, fun hm => hm.elim (fun hm => by have := f2.bound a hm; omega) id⟩
    · rw [f2.live a (by omega)]
      exact ⟨Or.inl, fun hm => hm.elim id (fun hm => by have := f1.bound a hm; omega)⟩

theorem Fresh.nodup {h h1 h2 : Heap α} {L1 L2 : List Nat} (f1 : Fresh h h1 L1) (f2 : Fresh h1 h2 L2) (n1 : L1.Nodup)
    (n2 : L2.Nodup) : (L2 ++ L1).Nodup := by
  refine List.nodup_append.2 ⟨n2, n1, fun a ha b hb e => ?_⟩
  have := f2.bound a ha
  have := f1.bound b hb
  omega

theorem Fresh.wf {h h' : Heap α} {L : List Nat} (f : Fresh h h' L) : ∀ a, h'.next ≤ a → h'.cell a = none := by
  intro a ha
  have n := f.next
  cases hc : h'.cell a with
  | none => rfl
  | some b =>
    have := (f.live a (by omega)).1 (by rw [hc]; rfl)
    have := f.bound a this
    omega

theorem Own.lt {h : Heap α} {o : Obj} {ps : List Nat} {A : Value α} (P : Own h o ps A)
    (hw : ∀ a, h.next ≤ a → h.cell a = none) : ∀ a ∈ fp o ps, a < h.next := by
  intro a ha
  by_contra hc
  have hn := hw a (by omega)
  rcases List.mem_cons.1 ha with rfl | hm
  · rw [P.1.ptr] at hn; cases hn
  · obtain ⟨i, hi, rfl⟩ := List.getElem_of_mem hm
    obtain ⟨l, q, -, -⟩ := P.1.vals i _ (List.getElem?_eq_getElem hi)
    rw [q] at hn; cases hn

/-- A matrix that was there before a construction is there afterwards. -/
theorem Own.fresh {h h' : Heap α} {o : Obj} {ps : List Nat} {A : Value α} {L : List Nat} (P : Own h o ps A)
    (hw : ∀ a, h.next ≤ a → h.cell a = none) (f : Fresh h h' L) : Own h' o ps A :=
  P.frame fun a ha => f.old a (P.lt hw a ha)

theorem deepCopy_ok {h : Heap α} {o : Obj} {ps : List Nat} {A : Value α} (P : Own h o ps A)
    (hw : ∀ a, h.next ≤ a → h.cell a = none) :
    ∃ o' ps' h', deepCopy h o = .ok (o', h') ∧ Own h' o' ps' A ∧ (fp o' ps').Nodup ∧ Fresh h h' (fp o' ps') := by
  unfold deepCopy
  rw [P.1.row, P.1.col]
  exact fill_ok hw A.rows A.cols A.entry fun i hi j hj h' e =>
    (P.frame fun a ha => e a (P.lt hw a ha)).get hi hj

theorem combine_ok {f : α → α → Out α} {g : α → α → α} (hf : ∀ x y, f x y = .ok (g x y)) {ar : Arith α} {h : Heap α} {oA oB : Obj}
    {pA pB : List Nat} {A B : Value α} (PA : Own h oA pA A) (PB : Own h oB pB B) (hw : ∀ a, h.next ≤ a → h.cell a = none)
    (hr : A.rows = B.rows) (hc : A.cols = B.cols) :
    ∃ o ps h', combine ar f h oA oB = .ok (o, h') ∧ Own h' o ps ⟨A.rows, A.cols, fun i j => g (A.entry i j) (B.entry i j)⟩ ∧
      (fp o ps).Nodup ∧ Fresh h h' (fp o ps) := by
  unfold combine
  rw [if_neg (by rw [PA.1.row, PB.1.row, PA.1.col, PB.1.col]; exact fun c => c ⟨hr, hc⟩)]
  rw [PA.1.row, PA.1.col]
  obtain ⟨o, ps, h1, e1, P1, nd, f1⟩ := make_ok (ar := ar) hw A.rows A.cols
  rw [e1, Out.ok_bind]
  dsimp only
  obtain ⟨h2, e2, P2, W2⟩ := cells_ok (fun i j => g (A.entry i j) (B.entry i j)) P1.1 P1.2 (body := fun h i j => do
    let x ← get h oA i j
    let y ← get h oB i j
    set h o i j (← f x y)) (by
      intro i hi j hj h' P' W'
      have fr := f1.within W'
      rw [(PA.fresh hw fr).get hi hj, Out.ok_bind, (PB.fresh hw fr).get (hr ▸ hi) (hc ▸ hj), Out.ok_bind, hf, Out.ok_bind]
      exact P'.set nd (by rw [P1.2]; exact hi) hj _)
  rw [e2, Out.ok_bind]
  exact ⟨o, ps, h2, rfl, ⟨P2, P1.2⟩, nd, f1.within W2⟩

theorem combineAssign_ok {f : α → α → Out α} {g : α → α → α} (hf : ∀ x y, f x y = .ok (g x y)) {h : Heap α} {oA oB : Obj}
    {pA pB : List Nat} {A B : Value α} (PA : Own h oA pA A) (PB : Own h oB pB B) (nd : (fp oA pA).Nodup)
    (hd : (oA = oB ∧ A = B) ∨ ∀ a ∈ fp oB pB, a ∉ fp oA pA) (hr : A.rows = B.rows) (hc : A.cols = B.cols) :
    ∃ h', combineAssign f h oA oB = .ok h' ∧ Own h' oA pA ⟨A.rows, A.cols, fun i j => g (A.entry i j) (B.entry i j)⟩ ∧
      Within h h' (fp oA pA) := by
  unfold combineAssign
  rw [if_neg (by rw [PA.1.row, PB.1.row, PA.1.col, PB.1.col]; exact fun c => c ⟨hr, hc⟩)]
  rw [PA.1.row, PA.1.col]
  obtain ⟨h2, e2, P2, W2⟩ := cells_ok (fun i j => g (A.entry i j) (B.entry i j)) PA.1 PA.2 (body := fun h i j => do
    let x ← get h oA i j
    let y ← get h oB i j
    set h oA i j (← f x y)) (by
      intro i hi j hj h' P' W'
      have hx : get h' oA i j = .ok (A.entry i j) := P'.get (by rw [PA.2]; exact hi) hj (by simp [mix])
      have hy : get h' oB i j = .ok (B.entry i j) := by
        rcases hd with ⟨rfl, rfl⟩ | hd
        · exact hx
        · exact (PB.frame fun a ha => W'.frame a (hd a ha)).get (hr ▸ hi) (hc ▸ hj)
      rw [hx, Out.ok_bind, hy, Out.ok_bind, hf, Out.ok_bind]
      exact P'.set nd (by rw [PA.2]; exact hi) hj _)
  exact ⟨h2, e2, ⟨P2, PA.2⟩, W2⟩

section
variable [Field α] [DecidableEq α]

theorem dotLoop_ok {h : Heap α} {oA oB o : Obj} {pA pB ps : List Nat} {A B : Value α} {n m : Nat} {V : Nat → Nat → Option α}
    (PA : Own h oA pA A) (PB : Own h oB pB B) (P : Part h o ps n m V) (nd : (fp o ps).Nodup)
    (dA : ∀ a ∈ fp oA pA, a ∉ fp o ps) (dB : ∀ a ∈ fp oB pB, a ∉ fp o ps) (hc : A.cols = B.rows) {i j : Nat}
    (hi : i < A.rows) (hj : j < B.cols) (hi' : i < ps.length) (hj' : j < m) (hV : V i j = some 0) :
    ∃ h', dotLoop (Arith.exact α) o oA oB h i j = .ok h' ∧
      Part h' o ps n m (upd V i j (∑ k ∈ Finset.range A.cols, A.entry i k * B.entry k j)) ∧ Within h h' (fp o ps) := by
  unfold dotLoop
  rw [PA.1.col]
  refine range_loop (fun t h' => Part h' o ps n m (upd V i j (∑ k ∈ Finset.range t, A.entry i k * B.entry k j)) ∧
    Within h h' (fp o ps)) _ A.cols h ⟨P.congr fun a _ b _ => ?_, Within.refl _ _⟩ ?_
  · unfold upd
    by_cases c : a = i ∧ b = j
    · obtain ⟨rfl, rfl⟩ := c; simp [hV]
    · rw [if_neg c]
  · intro k hk h1 ⟨P1, W1⟩
    have hx : get h1 oA i k = .ok (A.entry i k) := (PA.frame fun a ha => W1.frame a (dA a ha)).get hi hk
    have hy : get h1 oB k j = .ok (B.entry k j) := (PB.frame fun a ha => W1.frame a (dB a ha)).get (hc ▸ hk) hj
    have hz : get h1 o i j = .ok (∑ k ∈ Finset.range k, A.entry i k * B.entry k j) := P1.get hi' hj' (by simp [upd])
    simp only [hx, hy, hz, Out.ok_bind, Arith.exact]
    obtain ⟨h2, e2, P2, W2⟩ := P1.set nd hi' hj' ((∑ k ∈ Finset.range k, A.entry i k * B.entry k j) + A.entry i k * B.entry k j)
    refine ⟨h2, e2, P2.congr fun a _ b _ => ?_, W1.trans W2⟩
    unfold upd
    by_cases c : a = i ∧ b = j
    · rw [if_pos c, if_pos c, Finset.sum_range_succ]
    · rw [if_neg c, if_neg c, if_neg c]

theorem timesRet_ok {h : Heap α} {oA oB : Obj} {pA pB : List Nat} {A B : Value α} (PA : Own h oA pA A) (PB : Own h oB pB B)
    (hw : ∀ a, h.next ≤ a → h.cell a = none) (hc : A.cols = B.rows) :
    ∃ o ps h', (do
      let (_, h) := h.alloc .mat
      let (ret, h) ← make (Arith.exact α) h oA.row oB.col
      let h ← cells ret.row ret.col (dotLoop (Arith.exact α) ret oA oB) h
      .ok (ret, h)) = .ok (o, h') ∧
      Own h' o ps ⟨A.rows, B.cols, fun i j => ∑ k ∈ Finset.range A.cols, A.entry i k * B.entry k j⟩ ∧ (fp o ps ++ [h.next]).Nodup ∧
      Fresh h h' (fp o ps ++ [h.next]) := by
  have f0 : Fresh h (h.alloc .mat).2 [h.next] := by
    refine ⟨fun a ha => ?_, by simp [Heap.alloc], fun a ha => ?_, fun a ha => ?_⟩
    · simp only [Heap.alloc]; rw [if_neg (by omega)]
    · simp at ha; subst ha; simp [Heap.alloc]
    · simp only [Heap.alloc]
      by_cases e : a = h.next
      · simp [e]
      · rw [if_neg e, hw a ha]; simp [e]
  obtain ⟨o1, p1, h1, e1, P1, nd1, f1⟩ := make_ok (ar := Arith.exact α) f0.wf A.rows B.cols
  rw [PA.1.row, PB.1.col]
  dsimp only at e1 ⊢
  rw [e1, Out.ok_bind]
  dsimp only
  rw [P1.1.row, P1.1.col]
  have ff := f0.trans f1
  have hdis : ∀ {oX : Obj} {pX : List Nat} {X : Value α}, Own h oX pX X → ∀ a ∈ fp oX pX, a ∉ fp o1 p1 := by
    intro oX pX X PX a ha hm
    have := PX.lt hw a ha
    have := (f1.bound a hm).1
    have := f0.next
    omega
  obtain ⟨h2, e2, P2, W2⟩ := cells_ok (body := dotLoop (Arith.exact α) o1 oA oB)
    (fun i j => ∑ k ∈ Finset.range A.cols, A.entry i k * B.entry k j) P1.1 P1.2 (by
      intro i hi j hj h' P' W'
      have key : ∀ {oX : Obj} {pX : List Nat} {X : Value α}, Own h oX pX X → Own h' oX pX X := by
        intro oX pX X PX
        exact PX.frame fun a ha => by rw [W'.frame a (hdis PX a ha), ff.old a (PX.lt hw a ha)]
      exact dotLoop_ok (key PA) (key PB) P' nd1 (hdis PA) (hdis PB) hc hi hj (by rw [P1.2]; exact hi) hj
        (by simp [mix, Arith.exact]))
  rw [e2, Out.ok_bind]
  exact ⟨o1, p1, h2, rfl, ⟨P2, P1.2⟩, f0.nodup f1 (by simp) nd1, f0.trans (f1.within W2)⟩

theorem times_ok {h : Heap α} {oA oB : Obj} {pA pB : List Nat} {A B : Value α} (PA : Own h oA pA A) (PB : Own h oB pB B)
    (hw : ∀ a, h.next ≤ a → h.cell a = none) (hc : A.cols = B.rows) :
    ∃ o ps h' L, times (Arith.exact α) h oA oB = .ok (o, h') ∧
      Own h' o ps ⟨A.rows, B.cols, fun i j => ∑ k ∈ Finset.range A.cols, A.entry i k * B.entry k j⟩ ∧
      (fp o ps ++ L).Nodup ∧ Fresh h h' (fp o ps ++ L) ∧ L.length = A.rows + 2 := by
  obtain ⟨o1, p1, h1, e1, P1, nd1, f1⟩ := timesRet_ok PA PB hw hc
  unfold times
  rw [if_neg (by rw [PA.1.col, PB.1.row]; exact fun c => c hc)]
  obtain ⟨o3, p3, h3, e3, P3, nd3, f3⟩ := deepCopy_ok P1 f1.wf
  dsimp only at e1 ⊢
  refine ⟨o3, p3, h3, fp o1 p1 ++ [h.next], ?_, P3, f1.nodup f3 nd1 nd3, f1.trans f3, by simp [fp, P1.2]⟩
  cases hm : make (Arith.exact α) (h.alloc .mat).2 oA.row oB.col with
  | ok r =>
    rw [hm] at e1
    simp only [Out.ok_bind] at e1 ⊢
    cases hk : cells r.1.row r.1.col (dotLoop (Arith.exact α) r.1 oA oB) r.2 with
    | ok h3 =>
      rw [hk] at e1
      simp only [Out.ok_bind] at e1 ⊢
      injection e1 with e1
      injection e1 with e1 e1'
      subst e1' e1
      exact e3
    | _ => rw [hk] at e1; cases e1
  | _ => rw [hm] at e1; cases e1

/-- The blocks an operation never gives back. -/
def opLeak (A : Value α) : BinOp → Nat
  | .times => A.rows + 2
  | _ => 0

theorem binop_ok {h : Heap α} {oA oB : Obj} {pA pB : List Nat} {A B v : Value α} (PA : Own h oA pA A) (PB : Own h oB pB B)
    (hw : ∀ a, h.next ≤ a → h.cell a = none) {p : BinOp} (hv : op A B p = some v) :
    ∃ o ps h' L, binop (Arith.exact α) h oA oB p = .ok (o, h') ∧ Own h' o ps v ∧
      (fp o ps ++ L).Nodup ∧ Fresh h h' (fp o ps ++ L) ∧ L.length = opLeak A p := by
  cases p with
  | plus =>
    simp only [op] at hv
    split at hv
    · rename_i hs
      injection hv with hv
      subst hv
      obtain ⟨o, ps, h', e, P, nd, f⟩ := combine_ok (ar := Arith.exact α) (f := (Arith.exact α).add) (g := (· + ·)) (fun _ _ => rfl)
        PA PB hw hs.1 hs.2
      exact ⟨o, ps, h', [], e, P, by simpa using nd, by simpa using f, rfl⟩
    · cases hv
  | minus =>
    simp only [op] at hv
    split at hv
    · rename_i hs
      injection hv with hv
      subst hv
      obtain ⟨o, ps, h', e, P, nd, f⟩ := combine_ok (ar := Arith.exact α) (f := (Arith.exact α).sub) (g := (· - ·)) (fun _ _ => rfl)
        PA PB hw hs.1 hs.2
      exact ⟨o, ps, h', [], e, P, by simpa using nd, by simpa using f, rfl⟩
    · cases hv
  | times =>
    simp only [op] at hv
    split at hv
    · rename_i hs
      injection hv with hv
      subst hv
      obtain ⟨o, ps, h', L, e, P, nd, f, hl⟩ := times_ok PA PB hw hs
      exact ⟨o, ps, h', L, e, P, nd, f, hl⟩
    · cases hv

end

/-! ### the whole memory -/

/-- A variable: the object, its rows, its value. -/
structure Slot (α : Type) where
  o : Obj
  ps : List Nat
  v : Value α

/-- Its blocks. -/
def Slot.foot (s : Slot α) : List Nat := fp s.o s.ps

/-- The memory consists of the blocks of the variables `S` and the forgotten blocks `K`. -/
structure Inv (h : Heap α) (S : List (Slot α)) (K : List Nat) : Prop where
  own : ∀ s ∈ S, Own h s.o s.ps s.v
  nd : (S.flatMap Slot.foot ++ K).Nodup
  live : ∀ a, (h.cell a).isSome = true ↔ a ∈ S.flatMap Slot.foot ++ K
  wf : ∀ a, h.next ≤ a → h.cell a = none

theorem Inv.perm {h : Heap α} {S T : List (Slot α)} {K : List Nat} (I : Inv h S K) (p : S.Perm T) : Inv h T K := by
  have q : (S.flatMap Slot.foot ++ K).Perm (T.flatMap Slot.foot ++ K) := (p.flatMap_right _).append_right K
  exact ⟨fun s hs => I.own s (p.mem_iff.2 hs), q.nodup_iff.1 I.nd, fun a => (I.live a).trans q.mem_iff, I.wf⟩

theorem Inv.push {h h' : Heap α} {S : List (Slot α)} {K L : List Nat} (I : Inv h S K) {s : Slot α}
    (f : Fresh h h' (s.foot ++ L)) (nd : (s.foot ++ L).Nodup) (P : Own h' s.o s.ps s.v) : Inv h' (s :: S) (L ++ K) := by
  have hlt : ∀ a ∈ S.flatMap Slot.foot ++ K, a < h.next := by
    intro a ha
    by_contra hc
    have := (I.live a).2 ha
    rw [I.wf a (by omega)] at this
    cases this
  have q : ((s :: S).flatMap Slot.foot ++ (L ++ K)).Perm ((s.foot ++ L) ++ (S.flatMap Slot.foot ++ K)) := by
    rw [List.flatMap_cons, List.append_assoc, List.append_assoc]
    refine List.Perm.append_left _ ?_
    rw [← List.append_assoc, ← List.append_assoc]
    exact List.perm_append_comm.append_right K
  refine ⟨fun t ht => ?_, q.nodup_iff.2 (List.nodup_append.2 ⟨nd, I.nd, fun a ha b hb e => ?_⟩), fun a => ?_, f.wf⟩
  · rcases List.mem_cons.1 ht with rfl | ht
    · exact P
    · exact (I.own t ht).fresh I.wf f
  · have := (f.bound a ha).1
    have := hlt b hb
    omega
  · rw [q.mem_iff, List.mem_append]
    by_cases c : a < h.next
    · rw [f.old a c, I.live a]
      exact ⟨Or.inr, fun hm => hm.elim (fun hm => by have := (f.bound a hm).1; omega) id⟩
    · rw [f.live a (by omega)]
      exact ⟨Or.inl, fun hm => hm.elim id (fun hm => by have := hlt a hm; omega)⟩

theorem Inv.modify {h h' : Heap α} {S : List (Slot α)} {K : List Nat} {s : Slot α} (I : Inv h (s :: S) K)
    (w : Within h h' s.foot) {v : Value α} (P : Own h' s.o s.ps v) : Inv h' (⟨s.o, s.ps, v⟩ :: S) K := by
  refine ⟨fun t ht => ?_, I.nd, fun a => by rw [w.live a]; exact I.live a, fun a ha => ?_⟩
  · rcases List.mem_cons.1 ht with rfl | ht
    · exact P
    · refine (I.own t (List.mem_cons_of_mem _ ht)).frame fun a ha => w.frame a fun hm => ?_
      have nd := I.nd
      rw [List.flatMap_cons, List.append_assoc] at nd
      exact (List.nodup_append.1 nd).2.2 a hm a
        (List.mem_append_left _ (List.mem_flatMap.2 ⟨t, ht, ha⟩)) rfl
  · have := w.live a
    rw [I.wf a (by rw [← w.next]; exact ha)] at this
    cases hc : h'.cell a with
    | none => rfl
    | some b => rw [hc] at this; cases this

theorem Inv.clear {h : Heap α} {S : List (Slot α)} {K : List Nat} {s : Slot α} (I : Inv h (s :: S) K) :
    ∃ h', clear h s.o = .ok h' ∧ Inv h' S K := by
  have nd := I.nd
  rw [List.flatMap_cons, List.append_assoc] at nd
  obtain ⟨nd1, nd2, nd3⟩ := List.nodup_append.1 nd
  obtain ⟨h', e, n, c⟩ := clear_ok (I.own s List.mem_cons_self) nd1
  refine ⟨h', e, ⟨fun t ht => ?_, nd2, fun a => ?_, fun a ha => ?_⟩⟩
  · refine (I.own t (List.mem_cons_of_mem _ ht)).frame fun a ha => ?_
    have hn : a ∉ fp s.o s.ps := fun hm => nd3 a hm a (List.mem_append_left _ (List.mem_flatMap.2 ⟨t, ht, ha⟩)) rfl
    rw [c, if_neg hn]
  · rw [c]
    have hl := I.live a
    rw [List.flatMap_cons, List.append_assoc, List.mem_append] at hl
    by_cases hm : a ∈ fp s.o s.ps
    · rw [if_pos hm]
      exact ⟨fun hc => absurd hc (by simp), fun hc => absurd rfl (nd3 a hm a hc)⟩
    · rw [if_neg hm, hl]
      exact ⟨fun hc => hc.elim (fun q => absurd q hm) id, Or.inr⟩
  · rw [c, I.wf a (by rw [← n]; exact ha)]; simp

theorem Inv.disjoint {h : Heap α} {S : List (Slot α)} {K : List Nat} {s t : Slot α} (I : Inv h (s :: S) K) (ht : t ∈ S) :
    ∀ a ∈ t.foot, a ∉ s.foot := by
  intro a ha hm
  have nd := I.nd
  rw [List.flatMap_cons, List.append_assoc] at nd
  exact (List.nodup_append.1 nd).2.2 a hm a (List.mem_append_left _ (List.mem_flatMap.2 ⟨t, ht, ha⟩)) rfl

theorem Inv.nodup {h : Heap α} {S : List (Slot α)} {K : List Nat} {s : Slot α} (I : Inv h (s :: S) K) : s.foot.Nodup := by
  have nd := I.nd
  rw [List.flatMap_cons, List.append_assoc] at nd
  exact (List.nodup_append.1 nd).1

theorem perm_at {β : Type} {S : List β} {x : Nat} {s : β} (hx : S[x]? = some s) : S.Perm (s :: S.eraseIdx x) := by
  obtain ⟨h, rfl⟩ := List.getElem?_eq_some_iff.1 hx
  exact (List.getElem_cons_eraseIdx_perm h).symm

theorem perm_set {β : Type} {S : List β} {x : Nat} {s : β} (hx : S[x]? = some s) (t : β) : (t :: S.eraseIdx x).Perm (S.set x t) := by
  obtain ⟨h, -⟩ := List.getElem?_eq_some_iff.1 hx
  exact (List.set_perm_cons_eraseIdx h t).symm

theorem mem_erase {β : Type} {S : List β} {x y : Nat} {t : β} (hy : S[y]? = some t) (hxy : x ≠ y) : t ∈ S.eraseIdx x :=
  List.mem_eraseIdx_iff_getElem?.2 ⟨y, Ne.symm hxy, hy⟩

theorem set_self {β : Type} {S : List β} {x : Nat} {s : β} (hx : S[x]? = some s) : S.set x s = S := by
  obtain ⟨h, rfl⟩ := List.getElem?_eq_some_iff.1 hx
  exact List.set_getElem_self h

theorem slot_of {S : List (Slot α)} {x : Nat} {A : Value α} (h : (S.map Slot.v)[x]? = some A) :
    ∃ s, S[x]? = some s ∧ s.v = A ∧ var (S.map Slot.o) x = .ok s.o := by
  rw [List.getElem?_map] at h
  cases hs : S[x]? with
  | none => rw [hs] at h; cases h
  | some s =>
    rw [hs] at h
    injection h with h
    exact ⟨s, rfl, h, by simp [var, hs]⟩

/-- A change of the variable `x` in place. -/
theorem combineAt {h : Heap α} {S : List (Slot α)} {K : List Nat} (I : Inv h S K) {f : α → α → Out α} {g : α → α → α}
    (hf : ∀ x y, f x y = .ok (g x y)) {x y : Nat} {s t : Slot α} (hx : S[x]? = some s) (hy : S[y]? = some t)
    (hr : s.v.rows = t.v.rows) (hc : s.v.cols = t.v.cols) :
    ∃ h', combineAssign f h s.o t.o = .ok h' ∧
      Inv h' (S.set x ⟨s.o, s.ps, ⟨s.v.rows, s.v.cols, fun i j => g (s.v.entry i j) (t.v.entry i j)⟩⟩) K := by
  have I' := I.perm (perm_at hx)
  obtain ⟨h', e, P, w⟩ := combineAssign_ok hf (I.own s (List.mem_of_getElem? hx)) (I.own t (List.mem_of_getElem? hy)) I'.nodup
    (by
      by_cases c : x = y
      · subst c
        rw [hx] at hy
        injection hy with hy
        subst hy
        exact Or.inl ⟨rfl, rfl⟩
      · exact Or.inr (I'.disjoint (mem_erase hy c))) hr hc
  exact ⟨h', e, (I'.modify w P).perm (perm_set hx _)⟩

section
variable [Field α] [DecidableEq α]

theorem timesAssign_ub {h : Heap α} {oA oB : Obj} {pA pB : List Nat} {A B : Value α} (PA : Own h oA pA A) (PB : Own h oB pB B)
    (nA : (fp oA pA).Nodup) (hw : ∀ a, h.next ≤ a → h.cell a = none) (hc : A.cols = B.rows) :
    timesAssign (Arith.exact α) h oA oB = .ub := by
  obtain ⟨o1, p1, h1, e1, P1, nd1, f1⟩ : ∃ o ps h', (do
      let (_, h) := h.alloc .mat
      let (ret, h) ← make (Arith.exact α) h oA.row oB.col
      let h ← cells ret.row ret.col (dotLoop (Arith.exact α) ret oA oB) h
      .ok (ret, h)) = .ok (o, h') ∧
      Own h' o ps ⟨A.rows, B.cols, fun i j => ∑ k ∈ Finset.range A.cols, A.entry i k * B.entry k j⟩ ∧ (fp o ps ++ [h.next]).Nodup ∧
      Fresh h h' (fp o ps ++ [h.next]) := timesRet_ok PA PB hw hc
  unfold timesAssign
  rw [if_neg (by rw [PA.1.col, PB.1.row]; exact fun c => c hc)]
  have PA1 := PA.fresh hw f1
  obtain ⟨h2, e2, -, c2⟩ := clear_ok PA1 nA
  have hcl : clear h2 oA = .ub := by
    have hn : h2.cell oA.elem = none := by rw [c2, if_pos (by simp [fp])]
    unfold clear
    cases hr : oA.row with
    | zero => simp [Heap.free, hn]
    | succ n =>
      rw [List.range_succ_eq_map, List.foldlM_cons]
      simp [Mem.rowPtr, Heap.ptrs, hn]
  dsimp only at e1 ⊢
  cases hm : make (Arith.exact α) (h.alloc .mat).2 oA.row oB.col with
  | ok r =>
    rw [hm] at e1
    simp only [Out.ok_bind] at e1 ⊢
    cases hk : cells r.1.row r.1.col (dotLoop (Arith.exact α) r.1 oA oB) r.2 with
    | ok h3 =>
      rw [hk] at e1
      simp only [Out.ok_bind] at e1 ⊢
      injection e1 with e1
      injection e1 with e1 e1'
      subst e1'
      rw [e2, Out.ok_bind, assign, hcl]; rfl
    | _ => rw [hk] at e1; cases e1
  | _ => rw [hm] at e1; cases e1

theorem step_ok {h : Heap α} {S : List (Slot α)} {K : List Nat} (I : Inv h S K) {st : Stmt α} (hn : st.NotMulTo) {env' : List (Value α)}
    (hs : Spec.step (S.map Slot.v) st = some env') :
    ∃ h' S' L, Mem.step (Arith.exact α) (S.map Slot.o, h) st = .ok (S'.map Slot.o, h') ∧ env' = S'.map Slot.v ∧
      Inv h' S' (L ++ K) ∧ L.length = leak (S.map Slot.v) st := by
  cases st with
  | declare n m =>
    simp only [Spec.step] at hs
    injection hs with hs
    obtain ⟨o, ps, h', e, P, nd, f⟩ := make_ok (ar := Arith.exact α) I.wf n m
    refine ⟨h', S ++ [⟨o, ps, ⟨n, m, fun _ _ => 0⟩⟩], [], by simp [Mem.step, e, Out.ok_bind], by simp [← hs], ?_, rfl⟩
    exact (I.push (L := []) (s := ⟨o, ps, ⟨n, m, fun _ _ => 0⟩⟩) (by simpa [Slot.foot] using f) (by simpa [Slot.foot] using nd)
      P).perm (List.perm_append_singleton _ _).symm
  | declareRows ini =>
    cases ini with
    | nil => simp [Spec.step] at hs
    | cons first rest =>
      simp only [Spec.step] at hs
      split at hs
      · rename_i hl
        injection hs with hs
        obtain ⟨o, ps, h', e, P, nd, f⟩ := fill_ok (src := fun _ i j => iniAt (first :: rest) i j) I.wf (first :: rest).length
          first.length (fun i j => ((first :: rest).getD i []).getD j 0) (by
            intro i hi j hj h' _
            have e1 : (first :: rest)[i]? = some (first :: rest)[i] := List.getElem?_eq_getElem hi
            have hj' : j < (first :: rest)[i].length := lt_of_lt_of_le hj (hl _ (List.getElem_mem hi))
            unfold iniAt
            rw [e1]
            dsimp only
            rw [List.getElem?_eq_getElem hj']
            simp only [List.getD_eq_getElem?_getD, e1, Option.getD_some, List.getElem?_eq_getElem hj'])
        refine ⟨h', S ++ [⟨o, ps, ⟨(first :: rest).length, first.length, fun i j => ((first :: rest).getD i []).getD j 0⟩⟩], [],
          by simp only [Mem.step, ofRows, e, Out.ok_bind, List.map_append, List.map_cons, List.map_nil], by simp [← hs], ?_, rfl⟩
        exact (I.push (L := []) (s := ⟨o, ps, ⟨(first :: rest).length, first.length, fun i j => ((first :: rest).getD i []).getD j 0⟩⟩)
          (by simpa [Slot.foot] using f) (by simpa [Slot.foot] using nd) P).perm (List.perm_append_singleton _ _).symm
      · cases hs
  | declareCopy y =>
    simp only [Spec.step, Option.bind_eq_bind, Option.bind_eq_some_iff] at hs
    obtain ⟨A, hy, hs⟩ := hs
    injection hs with hs
    obtain ⟨t, ht, rfl, hv⟩ := slot_of hy
    obtain ⟨o, ps, h', e, P, nd, f⟩ := deepCopy_ok (I.own t (List.mem_of_getElem? ht)) I.wf
    refine ⟨h', S ++ [⟨o, ps, t.v⟩], [], by simp [Mem.step, hv, e, Out.ok_bind], by simp [← hs], ?_, rfl⟩
    exact (I.push (L := []) (s := ⟨o, ps, t.v⟩) (by simpa [Slot.foot] using f) (by simpa [Slot.foot] using nd)
      P).perm (List.perm_append_singleton _ _).symm
  | declareOp p y z =>
    simp only [Spec.step, Option.bind_eq_bind, Option.bind_eq_some_iff] at hs
    obtain ⟨A, hy, B, hz, v, hv, hs⟩ := hs
    injection hs with hs
    have hA := hy
    obtain ⟨t, ht, rfl, hvt⟩ := slot_of hy
    obtain ⟨u, hu, rfl, hvu⟩ := slot_of hz
    obtain ⟨o, ps, h', L, e, P, nd, f, hl⟩ := binop_ok (I.own t (List.mem_of_getElem? ht)) (I.own u (List.mem_of_getElem? hu)) I.wf hv
    refine ⟨h', S ++ [⟨o, ps, v⟩], L, by simp [Mem.step, hvt, hvu, e, Out.ok_bind], by simp [← hs], ?_, ?_⟩
    · exact (I.push (s := ⟨o, ps, v⟩) f nd P).perm (List.perm_append_singleton _ _).symm
    · rw [hl]
      cases p <;> simp only [opLeak, leak, hA, Option.elim]
  | assign x y =>
    simp only [Spec.step, Option.bind_eq_bind, Option.bind_eq_some_iff] at hs
    obtain ⟨A, hx, B, hy, hs⟩ := hs
    injection hs with hs
    obtain ⟨s, hsx, rfl, hvs⟩ := slot_of hx
    obtain ⟨t, hty, rfl, hvt⟩ := slot_of hy
    by_cases c : x = y
    · subst c
      rw [hsx] at hty
      injection hty with hty
      subst hty
      refine ⟨h, S, [], by simp [Mem.step, assignVar, hvs, Out.ok_bind], ?_, I, rfl⟩
      rw [← hs]
      obtain ⟨hlt, hge⟩ := List.getElem?_eq_some_iff.1 hx
      rw [← hge, List.set_getElem_self]
    · obtain ⟨h1, e1, I1⟩ := (I.perm (perm_at hsx)).clear
      obtain ⟨o, ps, h2, e2, P, nd, f⟩ := deepCopy_ok (I1.own t (mem_erase hty c)) I1.wf
      refine ⟨h2, S.set x ⟨o, ps, t.v⟩, [], ?_, ?_, ?_, rfl⟩
      · simp only [Mem.step, assignVar, hvs, hvt, Out.ok_bind, if_neg c, assign, e1, e2, List.map_set]
      · rw [← hs, List.map_set]
      · exact (I1.push (L := []) (s := ⟨o, ps, t.v⟩) (by simpa [Slot.foot] using f) (by simpa [Slot.foot] using nd)
          P).perm (perm_set hsx _)
  | assignOp p x y z =>
    simp only [Spec.step, Option.bind_eq_bind, Option.bind_eq_some_iff] at hs
    obtain ⟨A0, hx, A, hy, B, hz, v, hv, hs⟩ := hs
    injection hs with hs
    have hA := hy
    obtain ⟨s, hsx, rfl, hvs⟩ := slot_of hx
    obtain ⟨t, ht, rfl, hvt⟩ := slot_of hy
    obtain ⟨u, hu, rfl, hvu⟩ := slot_of hz
    obtain ⟨o, ps, h1, L, e, P, nd, f, hl⟩ := binop_ok (I.own t (List.mem_of_getElem? ht)) (I.own u (List.mem_of_getElem? hu)) I.wf hv
    have I1 := I.push (s := ⟨o, ps, v⟩) f nd P
    obtain ⟨h2, e2, I2⟩ := (I1.perm (((perm_at hsx).cons _).trans (List.Perm.swap _ _ _))).clear
    obtain ⟨o3, p3, h3, e3, P3, nd3, f3⟩ := deepCopy_ok (I2.own _ List.mem_cons_self) I2.wf
    have I3 := I2.push (L := []) (s := ⟨o3, p3, v⟩) (by simpa [Slot.foot] using f3) (by simpa [Slot.foot] using nd3) P3
    obtain ⟨h4, e4, I4⟩ := (I3.perm (List.Perm.swap _ _ _)).clear
    refine ⟨h4, S.set x ⟨o3, p3, v⟩, L, ?_, ?_, I4.perm (perm_set hsx _), ?_⟩
    · dsimp only at e3 e4
      simp only [Mem.step, hvs, hvt, hvu, Out.ok_bind, e, assign, e2, e3, e4, List.map_set]
    · rw [← hs, List.map_set]
    · rw [hl]
      cases p <;> simp only [opLeak, leak, hA, Option.elim]
  | addTo x y =>
    simp only [Spec.step, Option.bind_eq_bind, Option.bind_eq_some_iff] at hs
    obtain ⟨A, hx, B, hy, v, hv, hs⟩ := hs
    injection hs with hs
    obtain ⟨s, hsx, rfl, hvs⟩ := slot_of hx
    obtain ⟨t, hty, rfl, hvt⟩ := slot_of hy
    simp only [op] at hv
    split at hv
    · rename_i hh
      injection hv with hv
      subst hv
      obtain ⟨h', e, I'⟩ := combineAt I (f := (Arith.exact α).add) (g := (· + ·)) (fun _ _ => rfl) hsx hty hh.1 hh.2
      refine ⟨h', _, [], ?_, ?_, I', rfl⟩
      · simp only [Mem.step, hvs, hvt, Out.ok_bind, e, List.map_set]
        congr 2
        exact (set_self (by simp [hsx])).symm
      · rw [← hs, List.map_set]
    · cases hv
  | subFrom x y =>
    simp only [Spec.step, Option.bind_eq_bind, Option.bind_eq_some_iff] at hs
    obtain ⟨A, hx, B, hy, v, hv, hs⟩ := hs
    injection hs with hs
    obtain ⟨s, hsx, rfl, hvs⟩ := slot_of hx
    obtain ⟨t, hty, rfl, hvt⟩ := slot_of hy
    simp only [op] at hv
    split at hv
    · rename_i hh
      injection hv with hv
      subst hv
      obtain ⟨h', e, I'⟩ := combineAt I (f := (Arith.exact α).sub) (g := (· - ·)) (fun _ _ => rfl) hsx hty hh.1 hh.2
      refine ⟨h', _, [], ?_, ?_, I', rfl⟩
      · simp only [Mem.step, hvs, hvt, Out.ok_bind, e, List.map_set]
        congr 2
        exact (set_self (by simp [hsx])).symm
      · rw [← hs, List.map_set]
    · cases hv
  | mulTo x y => exact hn.elim
  | write x i j v =>
    simp only [Spec.step, Option.bind_eq_bind, Option.bind_eq_some_iff] at hs
    obtain ⟨A, hx, hs⟩ := hs
    obtain ⟨s, hsx, rfl, hvs⟩ := slot_of hx
    split at hs
    · rename_i hh
      injection hs with hs
      have I' := I.perm (perm_at hsx)
      have P0 := I.own s (List.mem_of_getElem? hsx)
      obtain ⟨h', e, P, w⟩ := P0.1.set I'.nodup (by rw [P0.2]; exact hh.1) hh.2 v
      refine ⟨h', S.set x ⟨s.o, s.ps, ⟨s.v.rows, s.v.cols, fun a b => if a = i ∧ b = j then v else s.v.entry a b⟩⟩, [], ?_, ?_, ?_, rfl⟩
      · simp only [Mem.step, hvs, Out.ok_bind, e, List.map_set]
        congr 2
        exact (set_self (by simp [hsx])).symm
      · rw [← hs, List.map_set]
      · refine (I'.modify w (v := ⟨s.v.rows, s.v.cols, fun a b => if a = i ∧ b = j then v else s.v.entry a b⟩)
          ⟨P.congr fun a _ b _ => ?_, P0.2⟩).perm (perm_set hsx _)
        by_cases c : a = i ∧ b = j
        · simp [upd, c]
        · simp [upd, c]
    · cases hs

theorem run_ok : ∀ (prog : List (Stmt α)), (∀ st ∈ prog, st.NotMulTo) → ∀ {h : Heap α} {S : List (Slot α)} {K : List Nat}, Inv h S K → ∀ {env' : List (Value α)},
    prog.foldlM Spec.step (S.map Slot.v) = some env' →
    ∃ h' S' L, prog.foldlM (Mem.step (Arith.exact α)) (S.map Slot.o, h) = .ok (S'.map Slot.o, h') ∧ env' = S'.map Slot.v ∧
      Inv h' S' (L ++ K) ∧ L.length = leaked (S.map Slot.v) prog := by
  intro prog
  induction prog with
  | nil =>
    intro _ h S K I env' he
    injection he with he
    exact ⟨h, S, [], rfl, he.symm, I, rfl⟩
  | cons st prog ih =>
    intro hn h S K I env' he
    rw [List.foldlM_cons, Option.bind_eq_bind, Option.bind_eq_some_iff] at he
    obtain ⟨env1, hs, he⟩ := he
    obtain ⟨h1, S1, L1, e1, rfl, I1, l1⟩ := step_ok I (hn st List.mem_cons_self) hs
    obtain ⟨h2, S2, L2, e2, rfl, I2, l2⟩ := ih (fun t ht => hn t (List.mem_cons_of_mem _ ht)) I1 he
    refine ⟨h2, S2, L2 ++ L1, ?_, rfl, by rw [List.append_assoc]; exact I2, ?_⟩
    · rw [List.foldlM_cons, e1, Out.ok_bind, e2]
    · rw [List.length_append, leaked, hs, l1, l2, Option.elim, Nat.add_comm]

end

theorem clearAll_ok : ∀ (S : List (Slot α)) {h : Heap α} {K : List Nat}, Inv h S K →
    ∃ h', (S.map Slot.o).foldlM clear h = .ok h' ∧ Inv h' [] K := by
  intro S
  induction S with
  | nil => intro h K I; exact ⟨h, rfl, I⟩
  | cons s S ih =>
    intro h K I
    obtain ⟨h1, e1, I1⟩ := I.clear
    obtain ⟨h2, e2, I2⟩ := ih I1
    exact ⟨h2, by rw [List.map_cons, List.foldlM_cons, e1, Out.ok_bind, e2], I2⟩

theorem endScope_ok {S : List (Slot α)} {h : Heap α} {K : List Nat} (I : Inv h S K) :
    ∃ h', endScope (S.map Slot.o, h) = .ok h' ∧ Live h' K.length := by
  obtain ⟨h', e, I'⟩ := clearAll_ok S.reverse (I.perm (List.reverse_perm S).symm)
  refine ⟨h', by rw [endScope, ← List.map_reverse, e], K, by simpa using I'.nd, rfl, fun a => by simpa using I'.live a⟩

theorem inv_empty : Inv (Heap.empty : Heap α) [] [] := ⟨by simp, by simp, by simp [Heap.empty], by simp [Heap.empty]⟩

end Matrix.Mem
