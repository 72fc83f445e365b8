import Verif.Proof.BST
import Verif.Spec.BSTUse

/-! # Values of nodes do not disturb the tree; neighbours of any node -/

namespace BST
open Cpp Spec

variable {rk vl : Nat → Int}

theorem holds_upd {h : Heap} {p : Nat} {v : Int} {nd : Nd} (hp : h p = some nd) : ∀ {t : T} {fa : Option Nat},
    Holds rk vl h t fa → Holds rk (upd vl p v) (store h p { nd with val := v }) t fa := by
  intro t
  induction t with
  | nil => intro _ _; trivial
  | node l q r ihl ihr =>
    intro fa ⟨h1, h2, h3⟩
    refine ⟨?_, ihl h2, ihr h3⟩
    unfold store upd
    by_cases e : q = p
    · subst e
      rw [hp] at h1
      injection h1 with h1
      subst h1
      simp
    · simp [e, h1]

theorem isTree_upd {s : St} {ks : List Nat} {p : Nat} {v : Int} {nd : Nd} (hp : s.heap p = some nd) (H : IsTree rk vl s ks) :
    IsTree rk (upd vl p v) { s with heap := store s.heap p { nd with val := v } } ks := by
  obtain ⟨t, hs, hr, hk⟩ := H
  exact ⟨t, holds_upd hp hs, hr, hk⟩

theorem holds_node {h : Heap} {p : Nat} : ∀ {t : T} {fa : Option Nat}, Holds rk vl h t fa → p ∈ t.keys →
    ∃ a b c, h p = some ⟨a, b, c, rk p, vl p⟩ := by
  intro t
  induction t with
  | nil => intro _ _ hm; simp [T.keys] at hm
  | node l q r ihl ihr =>
    intro fa ⟨h1, h2, h3⟩ hm
    simp [T.keys] at hm
    rcases hm with hm | rfl | hm
    · exact ihl h2 hm
    · exact ⟨_, _, _, h1⟩
    · exact ihr h3 hm

/-- the objects: those in the tree, the new ones, and those erased -/
structure Inv (n : Nat) (rk vl : Nat → Int) (s : St) (used ks : List Nat) : Prop where
  tree : IsTree rk vl s ks
  sub : ∀ p ∈ ks, p ∈ used
  lt : ∀ p ∈ used, p < n
  fresh : ∀ p < n, p ∉ used → s.heap p = some (mkNode (rk p) (vl p))
  all : ∀ p < n, ∃ a b c, s.heap p = some ⟨a, b, c, rk p, vl p⟩

theorem Inv.set {n : Nat} {s : St} {used ks : List Nat} {p : Nat} {v : Int} (I : Inv n rk vl s used ks) (hp : p < n) :
    ∃ h, setVal s.heap p v = .ok h ∧ Inv n rk (upd vl p v) { s with heap := h } used ks := by
  obtain ⟨a, b, c, e⟩ := I.all p hp
  have hs : setVal s.heap p v = .ok (store s.heap p ⟨a, b, c, rk p, v⟩) := by
    unfold setVal ld
    rw [e]
    rfl
  refine ⟨_, hs, isTree_upd e I.tree, I.sub, I.lt, fun q hq hu => ?_, fun q hq => ?_⟩
  · have h1 := I.fresh q hq hu
    show store s.heap p _ q = _
    unfold store upd
    by_cases eq : q = p
    · subst eq
      rw [e] at h1
      simp only [mkNode, Option.some.injEq, Nd.mk.injEq] at h1
      simp [mkNode, h1]
    · simp [eq, h1]
  · show ∃ a b c, store s.heap p _ q = _
    unfold store upd
    by_cases eq : q = p
    · subst eq; simp
    · obtain ⟨a, b, c, e⟩ := I.all q hq
      exact ⟨a, b, c, by simp [eq, e]⟩

theorem place_mem {p q : Nat} {ks : List Nat} : q ∈ place rk p ks ↔ q = p ∨ q ∈ ks := by
  unfold place
  rw [List.mem_append, List.mem_cons]
  conv_rhs => rw [← List.takeWhile_append_dropWhile (p := fun p' => decide (rk p' ≤ rk p)) (l := ks), List.mem_append]
  tauto

theorem place_length {p : Nat} {ks : List Nat} : (place rk p ks).length = ks.length + 1 := by
  unfold place
  rw [List.length_append, List.length_cons]
  have := congrArg List.length (List.takeWhile_append_dropWhile (p := fun p' => decide (rk p' ≤ rk p)) (l := ks))
  rw [List.length_append] at this
  omega

/-- objects outside the tree are not touched, those in it keep rank and value -/
theorem Inv.insert {n fuel : Nat} {s : St} {used ks : List Nat} {p : Nat} (I : Inv n rk vl s used ks) (hp : p < n) (hu : p ∉ used)
    (hf : ks.length + 1 < fuel) : ∃ s', BST.insert fuel s p = .ok s' ∧ Inv n rk vl s' (p :: used) (place rk p ks) := by
  have hnew : p ∉ ks := fun h => hu (I.sub p h)
  obtain ⟨s', ls, rs, e, -, hks, h1, h2, H, F⟩ := insert_tree (fuel := fuel) I.tree (I.fresh p hp hu) hnew hf
  have epl : place rk p ks = ls ++ p :: rs := by rw [hks]; exact place_eq h1 h2
  refine ⟨s', e, by rw [epl]; exact H, fun q hq => ?_, fun q hq => ?_, fun q hq hqu => ?_, fun q hq => ?_⟩
  · rcases place_mem.1 hq with rfl | h
    · exact List.mem_cons_self
    · exact List.mem_cons_of_mem _ (I.sub q h)
  · rcases List.mem_cons.1 hq with rfl | h
    · exact hp
    · exact I.lt q h
  · rw [List.mem_cons, not_or] at hqu
    rw [F q hqu.1 (fun h => hqu.2 (I.sub q h))]
    exact I.fresh q hq hqu.2
  · by_cases hm : q ∈ place rk p ks
    · rw [epl] at hm
      obtain ⟨t, hs, -, hk, -⟩ := H
      rw [← hk] at hm
      exact holds_node hs hm
    · rw [place_mem, not_or] at hm
      rw [F q hm.1 hm.2]
      exact I.all q hq

/-- the erased node keeps its rank and value -/
theorem erase_first_self {s : St} {ks : List Nat} {x fuel : Nat} (H : IsTree rk vl s (x :: ks)) (hf : ks.length + 1 < fuel)
    {s' : St} (he : erase fuel s x = .ok s') : ∃ a b c, s'.heap x = some ⟨a, b, c, rk x, vl x⟩ := by
  obtain ⟨s1, a, b, e, hs, hr, hk, F⟩ := splay_tree H (List.mem_cons_self) (fuel := fuel) (by simpa using hf)
  obtain ⟨-, -, -, -, hn, ho⟩ := H
  obtain ⟨h1, h2⟩ := split_unique (L := []) (by simpa using hn) (by simpa using hk.symm)
  have ha : a = .nil := by
    cases a with
    | nil => rfl
    | node l p r => simp [T.keys] at h1
  subst ha
  subst h2
  rw [erase, e, Out.ok_bind, ld_ok hs.1, Out.ok_bind] at he
  cases b with
  | nil =>
    have : s' = ⟨s1.heap, none⟩ := by
      change Out.ok _ = Out.ok _ at he
      injection he with he
      exact he.symm
    rw [this]
    exact ⟨_, _, _, hs.1⟩
  | node l p r =>
    have hp := hs.2.2.1
    change (do Out.ok (⟨← setFa s1.heap p none, some p⟩ : St)) = Out.ok s' at he
    rw [setFa_ok hp, Out.ok_bind] at he
    injection he with he
    rw [← he]
    refine ⟨_, _, _, Eq.trans (store_ne _ _ ?_) hs.1⟩
    rintro rfl
    exact (List.nodup_cons.1 hn).1 (by simp [T.keys])

theorem Inv.erase {n fuel : Nat} {s : St} {used ks : List Nat} {p : Nat} (I : Inv n rk vl s used (p :: ks))
    (hf : ks.length + 1 < fuel) : ∃ s', BST.erase fuel s p = .ok s' ∧ Inv n rk vl s' used ks := by
  obtain ⟨s', e, H, F⟩ := erase_first (fuel := fuel) I.tree hf
  refine ⟨s', e, H, fun q hq => I.sub q (List.mem_cons_of_mem _ hq), I.lt, fun q hq hqu => ?_, fun q hq => ?_⟩
  · rw [F q (fun h => hqu (I.sub q h))]
    exact I.fresh q hq hqu
  · by_cases hm : q ∈ p :: ks
    · rcases List.mem_cons.1 hm with rfl | hm
      · exact erase_first_self I.tree hf e
      · obtain ⟨t, hs, -, hk, -⟩ := H
        rw [← hk] at hm
        exact holds_node hs hm
    · rw [F q hm]
      exact I.all q hq

theorem exec_may {n fuel : Nat} : ∀ (us : List Use) (vl : Nat → Int) (s : St) (used ks : List Nat), Inv n rk vl s used ks →
    Legal n rk used ks us → ks.length + us.length + 1 < fuel →
    ∃ out s', exec fuel s us = .ok (out, s') ∧ May rk ks vl us out := by
  intro us
  induction us with
  | nil => intro vl s used ks _ _ _; exact ⟨[], s, rfl, rfl⟩
  | cons u us ih =>
    intro vl s used ks I L hf
    simp only [List.length_cons] at hf
    cases u with
    | insert p =>
      obtain ⟨h1, h2, L⟩ := L
      obtain ⟨s', e, I'⟩ := I.insert h1 h2 (fuel := fuel) (by omega)
      obtain ⟨out, s2, e2, M⟩ := ih vl s' _ _ I' L (by rw [place_length]; omega)
      exact ⟨out, s2, by rw [exec, e, Out.ok_bind, e2], M⟩
    | erase p =>
      obtain ⟨h1, L⟩ := L
      cases ks with
      | nil => cases h1
      | cons q ks =>
        injection h1 with h1
        subst h1
        simp only [List.length_cons] at hf
        obtain ⟨s', e, I'⟩ := I.erase (fuel := fuel) (by omega)
        obtain ⟨out, s2, e2, M⟩ := ih vl s' _ _ I' L (by omega)
        refine ⟨out, s2, by rw [exec, e, Out.ok_bind, e2], ?_⟩
        show May rk ((q :: ks).erase q) vl us out
        rw [List.erase_cons_head]
        exact M
    | setVal p v =>
      obtain ⟨h1, L⟩ := L
      obtain ⟨h, e, I'⟩ := I.set (v := v) h1
      obtain ⟨out, s2, e2, M⟩ := ih _ _ _ _ I' L (by omega)
      exact ⟨out, s2, by rw [exec, e, Out.ok_bind, e2], M⟩
    | getVal p =>
      obtain ⟨h1, L⟩ := L
      obtain ⟨a, b, c, e⟩ := I.all p h1
      obtain ⟨out, s2, e2, M⟩ := ih vl s _ _ I L (by omega)
      exact ⟨some (vl p) :: out, s2, by rw [exec, getVal, ld_ok e, Out.ok_bind, Out.ok_bind, e2]; rfl, out, rfl, M⟩
    | getRank p =>
      obtain ⟨h1, L⟩ := L
      obtain ⟨a, b, c, e⟩ := I.all p h1
      obtain ⟨out, s2, e2, M⟩ := ih vl s _ _ I L (by omega)
      exact ⟨some (rk p) :: out, s2, by rw [exec, getRank, ld_ok e, Out.ok_bind, Out.ok_bind, e2]; rfl, out, rfl, M⟩
    | find k =>
      obtain ⟨out, s2, e2, M⟩ := ih vl s _ _ I L (by omega)
      obtain ⟨r, er, a1, a2⟩ := find_tree I.tree (fuel := fuel) (by omega) k
      refine ⟨r.map vl :: out, s2, ?_, r, out, ?_, rfl, M⟩
      · cases r with
        | none => rw [exec, er, Out.ok_bind, Out.ok_bind, e2]; rfl
        | some p =>
          obtain ⟨a, b, c, e⟩ := I.all p (I.lt p (I.sub p (a1 p rfl).1))
          simp only [exec, er, Out.ok_bind, getVal, ld_ok e, e2]
          rfl
      · cases r with
        | none => exact a2 rfl
        | some p => exact a1 p rfl
    | findSet k v =>
      obtain ⟨r, er, a1, a2⟩ := find_tree I.tree (fuel := fuel) (by omega) k
      cases r with
      | none =>
        obtain ⟨out, s2, e2, M⟩ := ih vl s _ _ I L (by omega)
        exact ⟨out, s2, by rw [exec, er, Out.ok_bind]; exact e2, none, a2 rfl, M⟩
      | some p =>
        obtain ⟨h, e, I'⟩ := I.set (v := v) (I.lt p (I.sub p (a1 p rfl).1))
        obtain ⟨out, s2, e2, M⟩ := ih _ _ _ _ I' L (by omega)
        exact ⟨out, s2, by rw [exec, er, Out.ok_bind]; simp only [e, Out.ok_bind, e2], some p, a1 p rfl, M⟩

/-! ### neighbours of any node -/

theorem neighbours_any {s : St} {x fuel : Nat} : ∀ (t : T) (fa : Option Nat) (ls rs : List Nat), Holds rk vl s.heap t fa →
    t.keys = ls ++ x :: rs → t.keys.Nodup → t.keys.length ≤ fuel →
    (pre fuel s.heap x = .ok none ∨ pre fuel s.heap x = .ok ls.getLast?) ∧
      (suf fuel s.heap x = .ok none ∨ suf fuel s.heap x = .ok rs.head?) := by
  intro t
  induction t with
  | nil => intro fa ls rs _ h; simp [T.keys] at h
  | node l p r ihl ihr =>
    intro fa ls rs hs hk hn hf
    have hn' := hn
    simp only [T.keys] at hk hn hf
    simp only [List.length_append, List.length_cons] at hf
    have hmem : x ∈ l.keys ++ p :: r.keys := by rw [hk]; simp
    rw [List.mem_append, List.mem_cons] at hmem
    rw [List.nodup_append, List.nodup_cons] at hn
    obtain ⟨nl, ⟨np, nr⟩, nd⟩ := hn
    rcases hmem with hm | rfl | hm
    · obtain ⟨a, b, e⟩ := List.append_of_mem hm
      have e2 : ls ++ x :: rs = a ++ x :: (b ++ p :: r.keys) := by rw [← hk, e]; simp
      have hnd : (a ++ x :: (b ++ p :: r.keys)).Nodup := by rw [← e2, ← hk]; exact hn'
      obtain ⟨e3, e4⟩ := split_unique hnd e2.symm
      obtain ⟨h1, h2⟩ := ihl (some p) a b hs.2.1 e nl (by omega)
      subst e3 e4
      refine ⟨h1, ?_⟩
      rcases h2 with h2 | h2
      · exact .inl h2
      · cases b with
        | nil => exact .inl h2
        | cons y b => exact .inr h2
    · have hnd : (l.keys ++ x :: r.keys).Nodup := hn'
      obtain ⟨e3, e4⟩ := split_unique hnd hk
      subst e3 e4
      constructor
      · rw [pre, ld_ok hs.1, Out.ok_bind]
        cases l with
        | nil => exact .inl rfl
        | node l1 lp l2 =>
          right
          obtain ⟨m, e, hm⟩ := last_right (fuel := fuel) (q := lp) hs.2.1.down rfl (by omega)
          show (do Out.ok (some (← farthest s.heap true fuel lp))) = _
          rw [e, hm]; rfl
      · rw [suf, ld_ok hs.1, Out.ok_bind]
        cases r with
        | nil => exact .inl rfl
        | node l1 lp l2 =>
          right
          obtain ⟨m, e, hm⟩ := first_left (fuel := fuel) (q := lp) hs.2.2.down rfl (by omega)
          show (do Out.ok (some (← farthest s.heap false fuel lp))) = _
          rw [e, hm]; rfl
    · obtain ⟨a, b, e⟩ := List.append_of_mem hm
      have e2 : ls ++ x :: rs = (l.keys ++ p :: a) ++ x :: b := by rw [← hk, e]; simp
      have hnd : ((l.keys ++ p :: a) ++ x :: b).Nodup := by rw [← e2, ← hk]; exact hn'
      obtain ⟨e3, e4⟩ := split_unique hnd e2.symm
      obtain ⟨h1, h2⟩ := ihr (some p) a b hs.2.2 e nr (by omega)
      subst e3 e4
      refine ⟨?_, h2⟩
      rcases h1 with h1 | h1
      · exact .inl h1
      · rcases List.eq_nil_or_concat a with rfl | ⟨a, y, rfl⟩
        · exact .inl h1
        · right
          rw [h1, List.concat_eq_append, ← List.cons_append, ← List.append_assoc, List.getLast?_concat, List.getLast?_concat]

/-- one answer for each link of the tree -/
theorem neighbours_count {h : Heap} {fuel : Nat} : ∀ (t : T) (fa : Option Nat), Holds rk vl h t fa → t.keys.length ≤ fuel →
    t.keys.countP (fun x => decide (pre fuel h x ≠ .ok none)) + t.keys.countP (fun x => decide (suf fuel h x ≠ .ok none)) =
      t.keys.length - 1 := by
  intro t
  induction t with
  | nil => intro fa _ _; rfl
  | node l p r ihl ihr =>
    intro fa hs hf
    simp only [T.keys, List.length_append, List.length_cons] at hf
    have h1 := ihl _ hs.2.1 (by omega)
    have h2 := ihr _ hs.2.2 (by omega)
    have e1 : (if decide (pre fuel h p ≠ .ok none) then 1 else 0) + (l.keys.length - 1) = l.keys.length := by
      cases l with
      | nil =>
        rw [show pre fuel h p = .ok none by rw [pre, ld_ok hs.1, Out.ok_bind]; rfl]
        rfl
      | node l1 lp l2 =>
        obtain ⟨m, e, -⟩ := last_right (fuel := fuel) (q := lp) hs.2.1.down rfl (by omega)
        rw [show pre fuel h p = .ok (some m) by
          rw [pre, ld_ok hs.1, Out.ok_bind]
          show (do Out.ok (some (← farthest h true fuel lp))) = _
          rw [e]; rfl]
        rw [if_pos (by simp)]
        simp only [T.keys, List.length_append, List.length_cons]
        omega
    have e2 : (if decide (suf fuel h p ≠ .ok none) then 1 else 0) + (r.keys.length - 1) = r.keys.length := by
      cases r with
      | nil =>
        rw [show suf fuel h p = .ok none by rw [suf, ld_ok hs.1, Out.ok_bind]; rfl]
        rfl
      | node l1 lp l2 =>
        obtain ⟨m, e, -⟩ := first_left (fuel := fuel) (q := lp) hs.2.2.down rfl (by omega)
        rw [show suf fuel h p = .ok (some m) by
          rw [suf, ld_ok hs.1, Out.ok_bind]
          show (do Out.ok (some (← farthest h false fuel lp))) = _
          rw [e]; rfl]
        rw [if_pos (by simp)]
        simp only [T.keys, List.length_append, List.length_cons]
        omega
    simp only [T.keys, List.countP_append, List.countP_cons, List.length_append, List.length_cons] at *
    omega

theorem mayFind_unique {ks : List Nat} {k : Int} (hi : ∀ p q, rk p = rk q → p = q) :
    ∀ {r r' : Option Nat}, MayFind rk ks k r → MayFind rk ks k r' → r = r'
  | none, none, _, _ => rfl
  | none, some _, h, h' => absurd h'.2 (h _ h'.1)
  | some _, none, h, h' => absurd h.2 (h' _ h.1)
  | some _, some _, h, h' => by rw [hi _ _ (h.2.trans h'.2.symm)]

theorem may_unique (hi : ∀ p q, rk p = rk q → p = q) : ∀ (us : List Use) (ks : List Nat) (vl : Nat → Int)
    (out out' : List (Option Int)), May rk ks vl us out → May rk ks vl us out' → out = out' := by
  intro us
  induction us with
  | nil => intro ks vl out out' h h'; exact Eq.trans h (Eq.symm h')
  | cons u us ih =>
    intro ks vl out out' h h'
    cases u with
    | insert p => exact ih _ _ _ _ h h'
    | erase p => exact ih _ _ _ _ h h'
    | setVal p v => exact ih _ _ _ _ h h'
    | getVal p =>
      obtain ⟨o, rfl, h⟩ := h
      obtain ⟨o', rfl, h'⟩ := h'
      rw [ih _ _ _ _ h h']
    | getRank p =>
      obtain ⟨o, rfl, h⟩ := h
      obtain ⟨o', rfl, h'⟩ := h'
      rw [ih _ _ _ _ h h']
    | find k =>
      obtain ⟨r, o, m, rfl, h⟩ := h
      obtain ⟨r', o', m', rfl, h'⟩ := h'
      rw [ih _ _ _ _ h h', mayFind_unique hi m m']
    | findSet k v =>
      obtain ⟨r, m, h⟩ := h
      obtain ⟨r', m', h'⟩ := h'
      cases mayFind_unique hi m m'
      exact ih _ _ _ _ h h'

theorem Inv.init {n : Nat} {h : Heap} (hx : ∀ p < n, h p = some (mkNode (rk p) (vl p))) : Inv n rk vl ⟨h, none⟩ [] [] :=
  ⟨isTree_empty h, by simp, by simp, fun q hq _ => hx q hq, fun q hq => ⟨_, _, _, hx q hq⟩⟩

end BST
