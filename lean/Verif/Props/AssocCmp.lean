import Verif.Proof.AssocCmp
import Verif.Props.Assoc
import Verif.Props.Sequence

/-! # Property C152: comparison of Map, Set, MultiSet and MultiMap

`cmpEq`, `cmpNe`, `cmpLt`, `cmpLe`, `cmpGt`, `cmpGe` are the six operators, on containers given by the order of iteration.
`Spec.value`, `Spec.mem`, `Spec.mult` say what a history of calls left (see C55 and C56). -/

namespace Cont.Props
open Cpp

variable {κ ν α : Type} [LinearOrder κ] [LinearOrder ν] [LinearOrder α]

/-- C152: two Maps are `==` just if every key has the same value (or none) in both, whatever calls made them. -/
theorem C152_map (d d' : ν) (calls calls' : List (Map.Call κ ν)) :
    cmpEq (calls.foldl (Map.call d) []) (calls'.foldl (Map.call d') []) = true ↔
      ∀ k, Spec.value d k calls.reverse = Spec.value d' k calls'.reverse := by
  obtain ⟨s, h, -⟩ := C55_map d calls
  obtain ⟨s', h', -⟩ := C55_map d' calls'
  rw [cmpEq_iff]
  constructor
  · intro e k
    apply Option.ext
    intro v
    rw [← h, ← h', e]
  · intro e
    apply mmap_ext (s.imp fun h => h.le) (s'.imp fun h => h.le)
    have key : ∀ {m : List (κ × ν)}, m.Pairwise (fun a b => a.1 < b.1) → ∀ k,
        m.filter (fun p => decide (p.1 = k)) = ((Stl.mapFind k m).map fun v => (k, v)).toList := by
      intro m hm k
      have h1 : (m.filter (fun p => decide (p.1 = k))).Pairwise (fun a b => a.1 < b.1) := hm.filter _
      have h2 : ∀ p, p ∈ m.filter (fun p => decide (p.1 = k)) ↔ Stl.mapFind k m = some p.2 ∧ p.1 = k := by
        rintro ⟨k', v⟩
        rw [List.mem_filter, decide_eq_true_iff, mapFind_iff hm]
        constructor
        · rintro ⟨h, rfl⟩; exact ⟨h, rfl⟩
        · rintro ⟨h, rfl⟩; exact ⟨h, rfl⟩
      cases hl : m.filter (fun p => decide (p.1 = k)) with
      | nil =>
        cases hf : Stl.mapFind k m with
        | none => rfl
        | some v =>
          have := (h2 (k, v)).2 ⟨hf, rfl⟩
          rw [hl] at this; cases this
      | cons p l =>
        rw [hl] at h1 h2
        obtain ⟨hp, rfl⟩ := (h2 p).1 (by simp)
        rw [hp]
        cases l with
        | nil => rfl
        | cons q l =>
          have hq := ((h2 q).1 (by simp)).2
          have := (List.pairwise_cons.1 h1).1 q (by simp)
          rw [hq] at this
          exact absurd this (lt_irrefl _)
    intro k
    rw [key s, key s']
    congr 2
    apply Option.ext
    intro v
    rw [mapFind_iff s, mapFind_iff s', h, h']
    exact iff_of_eq (congrArg (· = some v) (e k))

example : cmpEq (([.set 2 7, .set 1 5, .erase 2, .index 3] : List (Map.Call Nat Nat)).foldl (Map.call 0) [])
    (([.set 3 9, .set 1 6, .set 1 5, .set 3 0] : List (Map.Call Nat Nat)).foldl (Map.call 0) []) = true := by decide

/-- C152: two Sets are `==` just if they have the same values, and one is `<` another just if, at the least value `x` that is in
one of them but not in both: `x` is in the first and the second has a greater value, or `x` is in the second and the first has
no greater value. -/
theorem C152_set (calls calls' : List (Set.Call α)) :
    (cmpEq (calls.foldl Set.call []) (calls'.foldl Set.call []) = true ↔ ∀ x, Spec.mem x calls.reverse = Spec.mem x calls'.reverse) ∧
    (cmpLt less (calls.foldl Set.call []) (calls'.foldl Set.call []) = true ↔
      ∃ x, (∀ y, y < x → Spec.mem y calls.reverse = Spec.mem y calls'.reverse) ∧
        (Spec.mem x calls.reverse = true ∧ Spec.mem x calls'.reverse = false ∧ (∃ z, x < z ∧ Spec.mem z calls'.reverse = true) ∨
         Spec.mem x calls.reverse = false ∧ Spec.mem x calls'.reverse = true ∧ ∀ z, x < z → Spec.mem z calls.reverse = false)) := by
  obtain ⟨s, h, -⟩ := C55_set calls
  obtain ⟨s', h', -⟩ := C55_set calls'
  have hb : ∀ x (l : List α) (c : List (Set.Call α)), (x ∈ l ↔ Spec.mem x c = true) → (x ∉ l ↔ Spec.mem x c = false) := by
    intro x l c h
    rw [h]; simp
  constructor
  · rw [cmpEq_iff, sorted_ext s s']
    exact forall_congr' fun x => by rw [h, h']; exact Bool.eq_iff_iff.symm
  · rw [cmpLt, sorted_lt s s']
    refine exists_congr fun x => and_congr (forall_congr' fun y => forall_congr' fun _ => by rw [h, h']; exact Bool.eq_iff_iff.symm) (or_congr ?_ ?_)
    · refine and_congr (h x) (and_congr (hb _ _ _ (h' x)) (exists_congr fun z => ?_))
      rw [h', and_comm]
    · rw [hb _ _ _ (h x), h' x]
      refine and_congr_right fun h1 => and_congr_right fun _ => ?_
      constructor
      · intro hz z hxz
        rw [← hb _ _ _ (h z)]
        exact fun hm => lt_irrefl _ (hxz.trans (hz z hm))
      · intro hz z hm
        rcases lt_trichotomy z x with h2 | rfl | h2
        · exact h2
        · rw [h, h1] at hm; cases hm
        · have := hz z h2
          rw [h, this] at hm; cases hm

example : cmpLt less (([.insert 5, .insert 2, .insert 9] : List (Set.Call Nat)).foldl Set.call [])
    (([.insert 7, .insert 2] : List (Set.Call Nat)).foldl Set.call []) = true := by decide

/-- C152: two MultiSets are `==` just if every value occurs equally often in both. -/
theorem C152_multiset (calls calls' : List (MultiSet.Call α)) (s s' : List α) (h : calls.foldlM MultiSet.call [] = .ok s)
    (h' : calls'.foldlM MultiSet.call [] = .ok s') :
    cmpEq s s' = true ↔ ∀ x, Spec.mult x calls.reverse = Spec.mult x calls'.reverse := by
  obtain ⟨h1, h2⟩ := (C56_multiset_runs calls).2.2 s h
  obtain ⟨h1', h2'⟩ := (C56_multiset_runs calls').2.2 s' h'
  rw [cmpEq_iff, sorted_ext_count h1 h1']
  exact forall_congr' fun x => by rw [h2, h2']

example : ([.insert 5, .insert 2, .insert 5, .erase 5, .insert 5] : List (MultiSet.Call Nat)).foldlM MultiSet.call [] = .ok [2, 5] ∧
    ([.insert 5, .insert 2] : List (MultiSet.Call Nat)).foldlM MultiSet.call [] = .ok [2, 5] ∧ cmpEq [2, 5] [2, 5] = true :=
  ⟨rfl, rfl, rfl⟩

/-- C152 as stated – containers with the same contents are `==` – is false for MultiMaps: the order of the pairs with one key
counts. -/
theorem C152_multimap_refuted : ∃ ps qs : List (Nat × Nat), ps.Perm qs ∧ cmpEq (MultiMap.init ps) (MultiMap.init qs) = false :=
  ⟨[(1, 2), (1, 3)], [(1, 3), (1, 2)], by decide, by decide⟩

/-- C152, what holds for MultiMaps: made of lists of pairs, with some keys erased afterwards, they are `==` just if every key has
the same values in the same order in both. -/
theorem C152_multimap_partial (ps qs : List (κ × ν)) (es fs : List κ) :
    cmpEq (es.foldl MultiMap.erase (MultiMap.init ps)) (fs.foldl MultiMap.erase (MultiMap.init qs)) = true ↔
      ∀ k, (if k ∈ es then [] else (ps.filter fun p => decide (p.1 = k)).map Prod.snd) =
        if k ∈ fs then [] else (qs.filter fun p => decide (p.1 = k)).map Prod.snd := by
  obtain ⟨s1, f1⟩ := mmap_init ps
  obtain ⟨s2, f2⟩ := mmap_init qs
  obtain ⟨s3, f3⟩ := mmap_erased es _ s1
  obtain ⟨s4, f4⟩ := mmap_erased fs _ s2
  rw [cmpEq_iff]
  have hmap : ∀ (l : List (κ × ν)) (k : κ), ((l.filter fun p => decide (p.1 = k)).map Prod.snd).map (fun v => (k, v)) =
      l.filter fun p => decide (p.1 = k) := by
    intro l k
    rw [List.map_map]
    conv_rhs => rw [← List.map_id (l.filter fun p => decide (p.1 = k))]
    apply List.map_congr_left
    rintro ⟨k', v⟩ hm
    obtain ⟨-, h⟩ := List.mem_filter.1 hm
    have : k' = k := by simpa using h
    subst this; rfl
  constructor
  · intro e k
    have h1 := f3 k
    rw [e, f4 k, f1, f2] at h1
    have h2 := congrArg (List.map Prod.snd) h1
    rw [apply_ite (List.map Prod.snd), apply_ite (List.map Prod.snd), List.map_nil] at h2
    exact h2.symm
  · intro h
    apply mmap_ext s3 s4
    intro k
    rw [f3, f4, f1, f2]
    have h1 := congrArg (List.map fun v => (k, v)) (h k)
    rw [apply_ite (List.map fun v => (k, v)), apply_ite (List.map fun v => (k, v)), List.map_nil, hmap, hmap] at h1
    exact h1

example : cmpEq ([2].foldl MultiMap.erase (MultiMap.init [(3, 1), (2, 5), (1, 4), (3, 0)])) ([7].foldl MultiMap.erase
    (MultiMap.init [(1, 4), (3, 1), (3, 0)])) = true := by decide

/-- **C56.**  Of a MultiMap made of a list of pairs, with some keys erased afterwards: `count` is the number of pairs of the list with
the key, or 0 if it was erased; `find` is the set of their values; the iteration is in order of the keys. -/
theorem C56_multimap_erased (ps : List (κ × ν)) (es : List κ) (hlen : (ps.length : Int) ≤ INT_MAX) (k : κ) :
    let m := es.foldl MultiMap.erase (MultiMap.init ps)
    MultiMap.count m k = (if k ∈ es then 0 else (ps.filter fun p => decide (p.1 = k)).length) ∧
    (MultiMap.find m k).Pairwise (· < ·) ∧ (∀ v, v ∈ MultiMap.find m k ↔ k ∉ es ∧ (k, v) ∈ ps) ∧
    m.Pairwise (fun a b => a.1 ≤ b.1) := by
  intro m
  obtain ⟨s1, f1⟩ := mmap_init ps
  obtain ⟨s3, f3⟩ := mmap_erased es _ s1
  have hf : m.filter (fun p => decide (p.1 = k)) = if k ∈ es then [] else ps.filter fun p => decide (p.1 = k) := by
    rw [← f1]; exact f3 k
  have hc : Stl.mmapRange k m = (m.filter fun p => decide (p.1 = k)).map Prod.snd := mmapRange_eq s3 k
  have hs := foldl_setInsert (Stl.mmapRange k m) [] .nil
  have hl := List.length_filter_le (fun p : κ × ν => decide (p.1 = k)) ps
  refine ⟨?_, hs.1, fun v => ?_, s3⟩
  · rw [MultiMap.count, hc, List.length_map, hf]
    split
    · rfl
    · rw [toInt_small (by unfold INT_MAX at hlen; omega)]
  · have e : MultiMap.find m k = (Stl.mmapRange k m).foldl (fun s x => Stl.setInsert x s) [] := rfl
    rw [e, hs.2, hc, hf]
    by_cases he : k ∈ es <;> simp [he]

example : MultiMap.count ([4].foldl MultiMap.erase (MultiMap.init [(3, 1), (4, 5), (3, 1), (3, 0)])) 3 = 3 ∧
    MultiMap.find ([4].foldl MultiMap.erase (MultiMap.init [(3, 1), (4, 5), (3, 1), (3, 0)])) 3 = [0, 1] := by decide

/-- C152: the six operators of Set and MultiSet belong to one linear order: exactly one of `<`, `==`, `>` holds, `<=`, `>=` and `!=`
are the negations of `>`, `<` and `==`, and `<` is transitive. -/
theorem C152_order (m m' m'' : List α) :
    (cmpLt less m m').toNat + (cmpEq m m').toNat + (cmpGt less m m').toNat = 1 ∧ cmpLe less m m' = !cmpGt less m m' ∧
    cmpGe less m m' = !cmpLt less m m' ∧ cmpNe m m' = !cmpEq m m' ∧ cmpGt less m m' = cmpLt less m' m ∧
    (cmpLt less m m' = true → cmpLt less m' m'' = true → cmpLt less m m'' = true) := by
  refine ⟨?_, rfl, rfl, rfl, rfl, fun a b => C84_transitive m m' m'' a b⟩
  have h : cmpEq m m' = Vector.eq m m' := by
    rw [Bool.eq_iff_iff, cmpEq_iff, Vector.eq, decide_eq_true_iff]
  rw [h]
  exact C84_trichotomy m m'

/-- C152: the same for Map and MultiMap, whose elements are compared first by the key and then by the value. -/
theorem C152_order_pairs (m m' m'' : List (κ × ν)) :
    (cmpLt pairLess m m').toNat + (cmpEq m m').toNat + (cmpGt pairLess m m').toNat = 1 ∧ cmpLe pairLess m m' = !cmpGt pairLess m m' ∧
    cmpGe pairLess m m' = !cmpLt pairLess m m' ∧ cmpNe m m' = !cmpEq m m' ∧ cmpGt pairLess m m' = cmpLt pairLess m' m ∧
    (cmpLt pairLess m m' = true → cmpLt pairLess m' m'' = true → cmpLt pairLess m m'' = true) := by
  have hl : ∀ a b : List (κ × ν), cmpLt pairLess a b = cmpLt less (a.map toLex) (b.map toLex) := fun a b =>
    lexLt_map toLex pairLess less pairLess_lex a b
  have he : ∀ a b : List (κ × ν), cmpEq a b = cmpEq (a.map toLex) (b.map toLex) := fun a b => by
    rw [Bool.eq_iff_iff, cmpEq_iff, cmpEq_iff]
    exact (List.map_inj_right fun x y e => toLex.injective e).symm
  obtain ⟨h1, -, -, -, -, h6⟩ := C152_order (m.map toLex) (m'.map toLex) (m''.map toLex)
  refine ⟨?_, rfl, rfl, rfl, rfl, fun a b => ?_⟩
  · show (cmpLt pairLess m m').toNat + (cmpEq m m').toNat + (cmpLt pairLess m' m).toNat = 1
    rw [hl, hl, he]; exact h1
  · rw [hl] at a b ⊢; exact h6 a b

example : cmpLt pairLess [(1, 5), (2, 0)] [(1, 5), (2, 3)] = true ∧ cmpLt pairLess [(1, 5), (2, 3)] [(1, 6)] = true := by decide

end Cont.Props
