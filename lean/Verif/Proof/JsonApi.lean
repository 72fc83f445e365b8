import Verif.Spec.JsonApi
import Verif.Proof.JsonLoad

/-! # Helper lemmas for the access functions of JSONObject -/

namespace Json
open Cpp Spec

theorem find?_put (k k' : Str) (v : Value) (m : List (Str × Value)) :
    (put k v m).find? (fun q => q.1 = k') = if k' = k then some (k, v) else m.find? (fun q => q.1 = k') := by
  induction m with
  | nil =>
    by_cases h : k' = k
    · subst h; simp [put]
    · simp [put, h, Ne.symm h]
  | cons p m ih =>
    obtain ⟨k1, v1⟩ := p
    unfold put
    split
    · rename_i h1
      subst h1
      by_cases h : k' = k
      · subst h; simp
      · simp [h, Ne.symm h]
    · rename_i h1
      split
      · by_cases h : k' = k
        · subst h; simp
        · simp [h, Ne.symm h]
      · rw [List.find?_cons, ih]
        by_cases h : k' = k
        · subst h; simp [Ne.symm h1]
        · simp [h, List.find?_cons]

theorem lookup_eq (k : Str) (m : List (Str × Value)) :
    m.lookup k = (m.find? (fun q => q.1 = k)).map Prod.snd := by
  induction m with
  | nil => rfl
  | cons p m ih =>
    rw [List.lookup_cons, List.find?_cons]
    by_cases h : p.1 = k
    · subst h; simp
    · have hb : (k == p.1) = false := by simpa using Ne.symm h
      simp [h, hb, ih]

theorem find_key (k : Str) (p : List Step) (m : List (Str × Value)) :
    find (.key k :: p) (.obj m) = (m.lookup k).bind (find p) := by
  rw [lookup_eq, find]
  cases m.find? (fun q => q.1 = k) <;> rfl

theorem find_null {q : List Step} {e : Value} (h : find q .null = some e) : q = [] ∧ e = .null := by
  cases q with
  | nil => simp [find] at h; exact ⟨rfl, h.symm⟩
  | cons s q => cases s <;> simp [find] at h

theorem lookup_put (k k' : Str) (v : Value) (m : List (Str × Value)) :
    (put k v m).lookup k' = if k' = k then some v else m.lookup k' := by
  rw [lookup_eq, find?_put, lookup_eq]
  split <;> simp

theorem find_obj_of {k : Str} {q : List Step} {v e : Value} (h : find (.key k :: q) v = some e) :
    ∃ u, (asObj v).lookup k = some u ∧ find q u = some e := by
  cases v with
  | obj m =>
    rw [find_key] at h
    cases hl : m.lookup k with
    | none => rw [hl] at h; cases h
    | some u => rw [hl] at h; exact ⟨u, hl, h⟩
  | _ => simp [find] at h

theorem find_arr_of {i : Int} {q : List Step} {v e : Value} (h : find (.idx i :: q) v = some e) :
    0 ≤ i ∧ ∃ u, (asArr v)[i.toNat]? = some u ∧ find q u = some e := by
  cases v with
  | arr l =>
    rw [find] at h
    split at h
    · cases h
    · cases hl : l[i.toNat]? with
      | none => rw [hl] at h; cases h
      | some u => rw [hl] at h; exact ⟨by omega, u, hl, h⟩
  | _ => simp [find] at h

theorem find_asObj (k : Str) (q : List Step) (v : Value) :
    find (.key k :: q) (.obj (asObj v)) = find (.key k :: q) v := by
  cases v <;> simp [asObj, find]

theorem find_asArr (i : Int) (q : List Step) (v : Value) :
    find (.idx i :: q) (.arr (asArr v)) = find (.idx i :: q) v := by
  cases v <;> simp [asArr, find]

/-- the array after `resize` -/
def grow (l : List Value) (i : Int) : List Value :=
  if i ≥ l.length then l ++ List.replicate ((i + 1).toNat - l.length) .null else l

theorem grow_len {l : List Value} {i : Int} (h : 0 ≤ i) : i.toNat < (grow l i).length ∧
    (grow l i).length = max l.length (i.toNat + 1) := by
  unfold grow
  split
  · simp; omega
  · omega

theorem grow_get {l : List Value} {i : Int} (j : Nat) :
    (grow l i)[j]? = l[j]? ∨ ((grow l i)[j]? = some .null ∧ l[j]? = none) := by
  unfold grow
  split
  · rw [List.getElem?_append]
    by_cases hj : j < l.length
    · rw [if_pos hj]; exact .inl rfl
    · rw [if_neg hj, List.getElem?_replicate]
      split
      · right
        exact ⟨rfl, by simp; omega⟩
      · left
        simp; omega
  · exact .inl rfl

theorem update_idx {x : Value} {i : Int} {p : List Step} {v : Value} (h : 0 ≤ i ∧ i < INT_MAX) :
    update x (.idx i :: p) v = (do
      .ok (.arr ((grow (asArr v) i).set i.toNat (← update x p ((grow (asArr v) i).getD i.toNat .null))))) := by
  conv_lhs => unfold update
  dsimp only
  have hi : Cpp.int (i + 1) = .ok (i + 1) := int_ok (by unfold IsInt INT_MIN INT_MAX at *; omega)
  unfold grow
  by_cases hl : i ≥ (asArr v).length
  · rw [if_pos hl, if_pos hl, hi]
    simp only [Out.ok_bind]
    rw [if_neg (by omega)]
  · rw [if_neg hl, if_neg hl]
    simp only [Out.ok_bind]
    rw [if_neg (by omega)]

theorem update_ok {x : Value} (p : List Step) : ∀ v : Value, Indices p → ∃ v', update x p v = .ok v' ∧ find p v' = some x ∧
    (∀ q e, Apart p q → find q v = some e → find q v' = some e) ∧
    (∀ q e, Apart p q → find q v' = some e → find q v = some e ∨ e = .null) := by
  induction p with
  | nil =>
    intro v _
    refine ⟨x, rfl, rfl, ?_, ?_⟩
    · intro q e h; cases h
    · intro q e h; cases h
  | cons s p ih =>
    intro v hi
    have hi' : Indices p := fun i h => hi i (by simp [h])
    cases s with
    | key k =>
      obtain ⟨v', e1, e2, e3, e4⟩ := ih (mapAt (asObj v) k) hi'
      refine ⟨.obj (put k v' (asObj v)), ?_, ?_, fun q e ha hq => ?_, fun q e ha hq => ?_⟩
      · unfold update; rw [e1]; rfl
      · rw [find_key, lookup_put, if_pos rfl]; exact e2
      · cases ha with
        | @key _ k' hk _ q =>
          obtain ⟨u, hu, hq⟩ := find_obj_of hq
          rw [find_key, lookup_put, if_neg (Ne.symm hk), hu]; exact hq
        | @step _ _ q ha =>
          obtain ⟨u, hu, hq⟩ := find_obj_of hq
          rw [find_key, lookup_put, if_pos rfl]
          refine e3 q e ha ?_
          unfold mapAt
          rw [hu]; exact hq
      · cases ha with
        | @key _ k' hk _ q =>
          rw [find_key, lookup_put, if_neg (Ne.symm hk), ← find_key, find_asObj] at hq
          exact .inl hq
        | @step _ _ q ha =>
          rw [find_key, lookup_put, if_pos rfl] at hq
          rcases e4 q e ha hq with h | h
          · rw [← find_asObj, find_key]
            unfold mapAt at h
            cases hl : (asObj v).lookup k with
            | none =>
              rw [hl] at h
              exact .inr (find_null h).2
            | some u => rw [hl] at h; exact .inl h
          · exact .inr h
    | idx i =>
      have hi0 := hi i (by simp)
      obtain ⟨v', e1, e2, e3, e4⟩ := ih ((grow (asArr v) i).getD i.toNat .null) hi'
      have hg := (grow_len (l := asArr v) hi0.1).1
      have hfind : ∀ j q, 0 ≤ j → find (.idx j :: q) (.arr ((grow (asArr v) i).set i.toNat v')) =
          if j = i then find q v' else ((grow (asArr v) i)[j.toNat]?).bind (find q) := by
        intro j q hj
        rw [find, if_neg (by omega)]
        by_cases hji : j = i
        · subst hji
          rw [if_pos rfl, List.getElem?_set_self hg]; rfl
        · rw [if_neg hji, List.getElem?_set_ne (by omega)]
      have hget : (grow (asArr v) i).getD i.toNat .null = (asArr v)[i.toNat]?.getD .null := by
        rw [List.getD_eq_getElem?_getD]
        rcases grow_get (l := asArr v) (i := i) i.toNat with h | ⟨h1, h2⟩
        · rw [h]
        · rw [h1, h2]; rfl
      refine ⟨.arr ((grow (asArr v) i).set i.toNat v'), ?_, ?_, fun q e ha hq => ?_, fun q e ha hq => ?_⟩
      · rw [update_idx hi0, e1]; rfl
      · rw [hfind i p hi0.1, if_pos rfl]; exact e2
      · cases ha with
        | @idx _ j hj _ q =>
          obtain ⟨hj0, u, hu, hq⟩ := find_arr_of hq
          rw [hfind j q hj0, if_neg (Ne.symm hj)]
          rcases grow_get (l := asArr v) (i := i) j.toNat with h | ⟨h1, h2⟩
          · rw [h, hu]; exact hq
          · rw [h2] at hu; cases hu
        | @step _ _ q ha =>
          obtain ⟨hj0, u, hu, hq⟩ := find_arr_of hq
          rw [hfind i q hj0, if_pos rfl]
          refine e3 q e ha ?_
          rw [hget, hu]; exact hq
      · cases ha with
        | @idx _ j hj _ q =>
          have hj0 : 0 ≤ j := (find_arr_of hq).1
          rw [hfind j q hj0, if_neg (Ne.symm hj)] at hq
          rcases grow_get (l := asArr v) (i := i) j.toNat with h | ⟨h1, h2⟩
          · rw [h] at hq
            left
            rw [← find_asArr, find, if_neg (by omega)]; exact hq
          · rw [h1] at hq
            exact .inr (find_null hq).2
        | @step _ _ q ha =>
          rw [hfind i q hi0.1, if_pos rfl] at hq
          rcases e4 q e ha hq with h | h
          · rw [hget] at h
            cases hl : (asArr v)[i.toNat]? with
            | none =>
              rw [hl] at h
              exact .inr (find_null h).2
            | some u =>
              rw [hl] at h
              left
              rw [← find_asArr, find, if_neg (by omega), hl]; exact h
          · exact .inr h

theorem put_length {k : Str} {v : Value} {m : List (Str × Value)} (hs : m.Pairwise fun a b => a.1 < b.1) :
    (put k v m).length = if m.lookup k = none then m.length + 1 else m.length := by
  induction m with
  | nil => rfl
  | cons p m ih =>
    obtain ⟨k1, v1⟩ := p
    rw [List.pairwise_cons] at hs
    unfold put
    rw [List.lookup_cons]
    by_cases h : k = k1
    · subst h; simp
    · rw [if_neg h]
      have hb : (k == k1) = false := by simpa using h
      simp only [hb]
      split
      · rename_i hlt
        have : m.lookup k = none := by
          rw [lookup_eq, Option.map_eq_none_iff, List.find?_eq_none]
          intro q hq he
          simp at he
          have h1 := hs.1 q hq
          rw [he] at h1
          exact List.lt_irrefl _ (List.lt_trans hlt h1)
        simp [this]
      · rw [List.length_cons, ih hs.2]
        split <;> simp

theorem peek_find {p : List Step} : ∀ {v e : Value}, Indices p → find p v = some e → peek p v = .ok e := by
  induction p with
  | nil => intro v e _ h; simp [find] at h; rw [peek, h]
  | cons s p ih =>
    intro v e hi h
    have hi' : Indices p := fun i h => hi i (by simp [h])
    cases s with
    | key k =>
      obtain ⟨u, hu, hf⟩ := find_obj_of h
      rw [peek, mapAt, hu]
      exact ih hi' hf
    | idx i =>
      obtain ⟨h0, u, hu, hf⟩ := find_arr_of h
      have hlt : i.toNat < (asArr v).length := by
        rcases Nat.lt_or_ge i.toNat (asArr v).length with h | h
        · exact h
        · rw [List.getElem?_eq_none h] at hu; cases hu
      unfold peek
      rw [if_neg (by omega)]
      show (if i < 0 then _ else _) = _
      rw [if_neg (by omega), List.getD_eq_getElem?_getD, hu]
      exact ih hi' hf

theorem put_same {k : Str} {u : Value} {m : List (Str × Value)} (hs : m.Pairwise fun a b => a.1 < b.1)
    (h : m.lookup k = some u) : put k u m = m := by
  induction m with
  | nil => cases h
  | cons p m ih =>
    obtain ⟨k1, v1⟩ := p
    rw [List.pairwise_cons] at hs
    rw [List.lookup_cons] at h
    unfold put
    by_cases hk : k = k1
    · subst hk
      simp at h
      rw [if_pos rfl, h]
    · have hb : (k == k1) = false := by simpa using hk
      simp only [hb] at h
      rw [if_neg hk, if_neg, ih hs.2 h]
      intro hlt
      have : ∃ q ∈ m, q.1 = k := by
        rw [lookup_eq, Option.map_eq_some_iff] at h
        obtain ⟨q, hq, _⟩ := h
        exact ⟨q, List.mem_of_find?_eq_some hq, by simpa using List.find?_some hq⟩
      obtain ⟨q, hq, he⟩ := this
      have h1 := hs.1 q hq
      rw [he] at h1
      exact List.lt_irrefl _ (List.lt_trans hlt h1)

/-- writing back what is there changes nothing -/
theorem update_same {p : List Step} : ∀ {v e : Value}, Indices p → Ordered v → find p v = some e → update e p v = .ok v := by
  induction p with
  | nil => intro v e _ _ h; simp [find] at h; rw [update, h]
  | cons s p ih =>
    intro v e hi ho h
    have hi' : Indices p := fun i h => hi i (by simp [h])
    cases s with
    | key k =>
      cases ho with
      | obj m hs hm =>
        obtain ⟨u, hu, hf⟩ := find_obj_of h
        have hu' : m.lookup k = some u := hu
        have hmem : ∃ q ∈ m, q.2 = u := by
          rw [lookup_eq, Option.map_eq_some_iff] at hu'
          obtain ⟨q, hq, hq'⟩ := hu'
          exact ⟨q, List.mem_of_find?_eq_some hq, hq'⟩
        obtain ⟨q, hq, rfl⟩ := hmem
        have := ih hi' (hm q hq) hf
        unfold update
        rw [mapAt, hu]
        show (update e p q.2 >>= _) = _
        rw [this]
        simp only [Out.ok_bind, asObj]
        rw [put_same hs hu']
      | _ => simp [find] at h
    | idx i =>
      have hi0 := hi i (by simp)
      cases ho with
      | arr l hl =>
        obtain ⟨h0, u, hu, hf⟩ := find_arr_of h
        have hu' : l[i.toNat]? = some u := hu
        have hlt : i.toNat < l.length := by
          rcases Nat.lt_or_ge i.toNat l.length with h | h
          · exact h
          · rw [List.getElem?_eq_none h] at hu'; cases hu'
        have hg : grow l i = l := by unfold grow; rw [if_neg (by omega)]
        rw [update_idx hi0]
        simp only [asArr]
        rw [hg, List.getD_eq_getElem?_getD, hu', Option.getD_some, ih hi' (hl u (List.mem_of_getElem? hu')) hf]
        simp only [Out.ok_bind]
        rw [List.getElem?_eq_getElem hlt] at hu'
        rw [← Option.some.inj hu', List.set_getElem_self]
      | _ => simp [find] at h

theorem appendAll_eq (xs : List Value) : ∀ l, appendAll xs (.arr l) = .arr (l ++ xs) := by
  induction xs with
  | nil => intro l; simp [appendAll]
  | cons x xs ih =>
    intro l
    have := ih (l ++ [x])
    simp [appendAll, append, asArr] at this ⊢
    exact this

/-- the loop of the constructor from an initializer list, for keys that are strings -/
theorem initGo_ok (ps : List (Str × Value)) : ∀ m : List (Str × Value),
    initGo (ps.flatMap fun p => [.str p.1, p.2]) (.obj m) =
      .ok (.obj (ps.foldl (fun m p => put (jsonEscape p.1) p.2 m) m)) := by
  induction ps with
  | nil => intro m; rfl
  | cons p ps ih =>
    intro m
    simp only [List.flatMap_cons, List.cons_append, List.nil_append, List.foldl_cons]
    unfold initGo
    simp only [update, Out.ok_bind, asObj]
    exact ih _

theorem foldl_put_sorted (ps : List (Str × Value)) (f : Str → Str) : ∀ m : List (Str × Value),
    (m.Pairwise fun a b => a.1 < b.1) →
    (ps.foldl (fun m p => put (f p.1) p.2 m) m).Pairwise fun a b => a.1 < b.1 := by
  induction ps with
  | nil => intro m h; exact h
  | cons p ps ih => intro m h; exact ih _ (put_sorted _ _ h)

theorem foldl_put_lookup (ps : List (Str × Value)) (k : Str) : ∀ m : List (Str × Value),
    (ps.foldl (fun m p => put p.1 p.2 m) m).lookup k =
      match ps.reverse.find? (fun q => q.1 = k) with
      | some q => some q.2
      | none => m.lookup k := by
  induction ps with
  | nil => intro m; rfl
  | cons p ps ih =>
    intro m
    rw [List.foldl_cons, ih, List.reverse_cons, List.find?_append]
    cases h : ps.reverse.find? (fun q => q.1 = k) with
    | some q => rfl
    | none =>
      simp only [Option.none_or, lookup_put]
      by_cases hk : p.1 = k
      · subst hk; simp
      · simp [hk, Ne.symm hk]

end Json
