import Verif.Proof.Assoc
import Mathlib.Data.List.Induction
import Mathlib.Tactic.ByContra

/-! # Map, Set, MultiSet, MultiMap: properties C55, C56

The keys and elements are compared with a linear order. -/

namespace Cont.Props
open Cpp

variable {κ ν α : Type} [LinearOrder κ] [LinearOrder α]

/-! ## Map -/

/-- **C55.**  After any calls on an empty Map: the iteration is in strictly increasing order of keys and lists exactly the
keys that have a value, each with its value; `contains` and `get` tell the same, and `get` of a missing key ends the
program; `m[key]` gives the value, or the default value if there is none. -/
theorem C55_map (dflt : ν) (calls : List (Map.Call κ ν)) :
    let m := calls.foldl (Map.call dflt) []
    let value := fun k => Spec.value dflt k calls.reverse
    m.Pairwise (fun a b => a.1 < b.1) ∧ (∀ k v, (k, v) ∈ m ↔ value k = some v) ∧
    (∀ k, Map.contains m k = (value k).isSome) ∧
    (∀ k v, value k = some v → Map.get m k = .ok v ∧ (Map.index dflt m k).1 = v) ∧
    (∀ k, value k = none → Map.get m k = .exit ∧ (Map.index dflt m k).1 = dflt) := by
  intro m value
  have h := map_history dflt calls.reverse
  rw [List.foldr_reverse] at h
  obtain ⟨h1, h2⟩ := h
  change ∀ k, Stl.mapFind k m = value k at h2
  change m.Pairwise _ at h1
  refine ⟨h1, fun k v => by rw [← h2, mapFind_iff h1], fun k => by rw [Map.contains, h2], fun k v hv => ?_, fun k hv => ?_⟩
  · simp [Map.get, Map.keyCheck, Map.index, h2, hv]
  · simp [Map.get, Map.keyCheck, Map.index, h2, hv]

/-- **C55.**  `size` is the number of different keys, `isEmpty` tells whether there is none. -/
theorem C55_map_size (dflt : ν) (calls : List (Map.Call κ ν)) (m : List (κ × ν)) (hm : m = calls.foldl (Map.call dflt) [])
    (hlen : (m.length : Int) ≤ INT_MAX) :
    (∃ ks : List κ, ks.Nodup ∧ (∀ k, k ∈ ks ↔ Map.contains m k = true) ∧ Map.size m = ks.length) ∧
    (Map.isEmpty m = true ↔ ∀ k, Map.contains m k = false) := by
  have h1 := (C55_map dflt calls).1
  rw [← hm] at h1
  have hmem : ∀ k, Map.contains m k = true ↔ ∃ v, (k, v) ∈ m := by
    intro k
    rw [Map.contains, Option.isSome_iff_exists]
    exact exists_congr fun v => mapFind_iff h1 k v
  refine ⟨⟨m.map Prod.fst, ?_, fun k => ?_, ?_⟩, ?_⟩
  · rw [List.Nodup, List.pairwise_map]
    exact h1.imp fun h => h.ne
  · rw [hmem, List.mem_map]
    constructor
    · rintro ⟨p, hp, rfl⟩; exact ⟨_, hp⟩
    · rintro ⟨v, hv⟩; exact ⟨_, hv, rfl⟩
  · rw [Map.size, toInt_small (by unfold INT_MAX at hlen; omega), List.length_map]
  · rw [Map.isEmpty, List.isEmpty_iff]
    constructor
    · rintro rfl k; rfl
    · intro h
      cases m with
      | nil => rfl
      | cons p m =>
        have := (hmem p.1).2 ⟨p.2, by simp⟩
        rw [h] at this
        cases this

/-- **C55.**  A Map made of a list of pairs has the first value of each key of the list. -/
theorem C55_map_init (ps : List (κ × ν)) :
    (Map.init ps).Pairwise (fun a b => a.1 < b.1) ∧
    ∀ k v, (k, v) ∈ Map.init ps ↔ ∃ l₁ l₂, ps = l₁ ++ (k, v) :: l₂ ∧ ∀ p ∈ l₁, p.1 ≠ k := by
  have key : (Map.init ps).Pairwise (fun a b => a.1 < b.1) ∧
      ∀ k, Stl.mapFind k (Map.init ps) = (ps.find? fun p => decide (p.1 = k)).map Prod.snd := by
    unfold Map.init
    suffices ∀ (ps m : List (κ × ν)), m.Pairwise (fun a b => a.1 < b.1) →
        (ps.foldl (fun m p => Stl.mapInsert p.1 p.2 m) m).Pairwise (fun a b => a.1 < b.1) ∧
        ∀ k, Stl.mapFind k (ps.foldl (fun m p => Stl.mapInsert p.1 p.2 m) m) =
          (Stl.mapFind k m).or ((ps.find? fun p => decide (p.1 = k)).map Prod.snd) by
      have h := this ps [] .nil
      exact ⟨h.1, fun k => by rw [h.2]; rfl⟩
    intro ps
    induction ps with
    | nil => intro m hm; exact ⟨hm, fun k => by simp⟩
    | cons p ps ih =>
      obtain ⟨k1, v1⟩ := p
      intro m hm
      rw [List.foldl_cons]
      by_cases hf : Stl.mapFind k1 m = none
      · rw [(mapInsert_eq _ _ _).1 hf]
        have h := ih _ (mapPut_sorted hm k1 v1)
        refine ⟨h.1, fun k => ?_⟩
        rw [h.2, mapFind_put, List.find?_cons]
        by_cases e : k1 = k
        · subst e; simp [hf]
        · simp [e]
      · rw [(mapInsert_eq _ _ _).2 hf]
        have h := ih _ hm
        refine ⟨h.1, fun k => ?_⟩
        rw [h.2, List.find?_cons]
        by_cases e : k1 = k
        · subst e
          obtain ⟨w, hw⟩ := Option.ne_none_iff_exists'.1 hf
          simp [hw]
        · simp [e]
  refine ⟨key.1, fun k v => ?_⟩
  rw [← mapFind_iff key.1, key.2, Option.map_eq_some_iff]
  constructor
  · rintro ⟨p, hp, rfl⟩
    obtain ⟨h1, l₁, l₂, e, h2⟩ := List.find?_eq_some_iff_append.1 hp
    have e1 : p.1 = k := by simpa using h1
    subst e1
    exact ⟨l₁, l₂, e, fun q hq => by simpa using h2 q hq⟩
  · rintro ⟨l₁, l₂, e, h⟩
    exact ⟨(k, v), List.find?_eq_some_iff_append.2 ⟨by simp, l₁, l₂, e, fun q hq => by simpa using h q hq⟩, rfl⟩

/-- calls with a key set twice, one erased, one made by `m[key]` -/
def mapCalls : List (Map.Call Nat Int) := [.set 3 7, .set 1 5, .set 3 8, .index 9, .set 2 0, .erase 1]

example : mapCalls.foldl (Map.call 0) [] = [(2, 0), (3, 8), (9, 0)] := rfl
example : Map.get (mapCalls.foldl (Map.call 0) []) 3 = .ok 8 := ((C55_map 0 mapCalls).2.2.2.1 3 8 rfl).1
example : Map.get (mapCalls.foldl (Map.call 0) []) 1 = .exit := ((C55_map 0 mapCalls).2.2.2.2 1 rfl).1
example : (Map.isEmpty (mapCalls.foldl (Map.call 0) []) = true ↔ ∀ k, Map.contains (mapCalls.foldl (Map.call 0) []) k = false) :=
  (C55_map_size 0 mapCalls _ rfl (by decide)).2
example : Map.init [(3, 'a'), (1, 'b'), (3, 'c')] = [(1, 'b'), (3, 'a')] := rfl
example : (3, 'a') ∈ Map.init [(1, 'b'), (3, 'a'), (3, 'c')] :=
  ((C55_map_init _).2 3 'a').2 ⟨[(1, 'b')], [(3, 'c')], rfl, by simp⟩

/-! ## Set -/

/-- **C55.**  After any calls on an empty Set the iteration is in strictly increasing order and lists exactly the values
inserted since their last erasure; `contains` tells the same. -/
theorem C55_set (calls : List (Set.Call α)) :
    let s := calls.foldl Set.call []
    s.Pairwise (· < ·) ∧ (∀ x, x ∈ s ↔ Spec.mem x calls.reverse = true) ∧
    ∀ x, Set.contains s x = Spec.mem x calls.reverse := by
  intro s
  have h := set_history calls.reverse
  rw [List.foldr_reverse] at h
  obtain ⟨h1, h2⟩ := h
  refine ⟨h1, h2, fun x => Bool.eq_iff_iff.2 ?_⟩
  rw [← h2]
  exact setFind_iff (h1.imp fun h => h.le) x

/-- **C55.**  `size` is the number of different values, `isEmpty` tells whether there is none; a Set made of a list has just
the values of the list, in increasing order. -/
theorem C55_set_size (s xs : List α) (hs : s.Pairwise (· < ·)) (hlen : (s.length : Int) ≤ INT_MAX) :
    s.Nodup ∧ Set.size s = s.length ∧ (Set.isEmpty s = true ↔ ∀ x, Set.contains s x = false) ∧
    (Set.init xs).Pairwise (· < ·) ∧ ∀ x, x ∈ Set.init xs ↔ x ∈ xs := by
  have hi := foldl_setInsert xs [] .nil
  refine ⟨hs.imp fun h => h.ne, by rw [Set.size, toInt_small (by unfold INT_MAX at hlen; omega)], ?_, hi.1, fun x => by rw [Set.init, hi.2]; simp⟩
  rw [Set.isEmpty, List.isEmpty_iff]
  constructor
  · rintro rfl x; rfl
  · intro h
    cases s with
    | nil => rfl
    | cons y s =>
      have := (setFind_iff (hs.imp fun h => h.le) y).2 (by simp)
      rw [← Set.contains, h] at this
      cases this

/-- calls with a value inserted twice and one erased -/
def setCalls : List (Set.Call Nat) := [.insert 5, .insert 2, .insert 5, .insert 7, .erase 2]

example : setCalls.foldl Set.call [] = [5, 7] := rfl
example : Set.contains (setCalls.foldl Set.call []) 2 = false := (C55_set setCalls).2.2 2
example : Set.size [2, 5, 7] = 3 ∧ Set.init [5, 2, 7, 2] = [2, 5, 7] :=
  ⟨(C55_set_size [2, 5, 7] [1] (by decide) (by decide)).2.1, rfl⟩

/-! ## MultiSet -/

/-- **C56.**  A history of calls on an empty MultiSet never has undefined behaviour: it ends the program just if it erases a
value that is not there at that time. -/
theorem C56_multiset_runs (calls : List (MultiSet.Call α)) :
    ((∀ l₁ x l₂, calls = l₁ ++ .erase x :: l₂ → Spec.mult x l₁.reverse ≠ 0) →
      ∃ s, calls.foldlM MultiSet.call [] = .ok s) ∧
    (∀ l₁ x l₂, calls = l₁ ++ .erase x :: l₂ → Spec.mult x l₁.reverse = 0 →
      calls.foldlM MultiSet.call [] = .exit) ∧
    (∀ s, calls.foldlM MultiSet.call [] = .ok s → s.Pairwise (· ≤ ·) ∧
      ∀ x, s.count x = Spec.mult x calls.reverse) := by
  induction calls using List.reverseRecOn with
  | nil =>
    refine ⟨fun _ => ⟨[], rfl⟩, fun l₁ x l₂ h => by simp at h, fun s h => ?_⟩
    cases h
    exact ⟨.nil, fun x => rfl⟩
  | append_singleton calls c ih =>
    obtain ⟨ih1, ih2, ih3⟩ := ih
    have hstep : (calls ++ [c]).foldlM MultiSet.call ([] : List α) =
        (calls.foldlM MultiSet.call []) >>= fun s => MultiSet.call s c := by
      rw [List.foldlM_append]
      congr 1
      funext s
      change (MultiSet.call s c >>= pure) = _
      rw [bind_pure]
    have hcount0 : ∀ s, calls.foldlM MultiSet.call [] = .ok s → ∀ x, (Stl.setFind x s = false ↔ Spec.mult x calls.reverse = 0) := by
      intro s hs x
      obtain ⟨h1, h2⟩ := ih3 s hs
      rw [← h2, List.count_eq_zero, ← setFind_iff h1, Bool.not_eq_true]
    refine ⟨fun h => ?_, fun l₁ x l₂ h h0 => ?_, fun s h => ?_⟩
    · obtain ⟨s, hs⟩ := ih1 fun l₁ x l₂ e => h l₁ x (l₂ ++ [c]) (by rw [e]; simp)
      rw [hstep, hs, Out.ok_bind]
      cases c with
      | insert x => exact ⟨_, rfl⟩
      | clear => exact ⟨_, rfl⟩
      | erase x =>
        have := h calls x [] rfl
        exact ⟨_, if_neg fun e => this ((hcount0 s hs x).1 e)⟩
    · rw [hstep]
      rcases List.eq_nil_or_concat l₂ with rfl | ⟨l', c', rfl⟩
      · obtain ⟨e1, e2⟩ := List.append_inj' h rfl
        subst e1
        cases e2
        by_cases hb : ∃ s, calls.foldlM MultiSet.call [] = .ok s
        · obtain ⟨s, hs⟩ := hb
          rw [hs, Out.ok_bind]
          exact if_pos ((hcount0 s hs x).2 h0)
        · have : ∃ l₁ x l₂, calls = l₁ ++ .erase x :: l₂ ∧ Spec.mult x l₁.reverse = 0 := by
            by_contra hn
            exact hb (ih1 fun l₁ x l₂ e hm => hn ⟨l₁, x, l₂, e, hm⟩)
          obtain ⟨l₁, x, l₂, e, hm⟩ := this
          rw [ih2 l₁ x l₂ e hm]
          rfl
      · rw [List.concat_eq_append, ← List.cons_append, ← List.append_assoc] at h
        obtain ⟨e1, _⟩ := List.append_inj' h rfl
        rw [ih2 l₁ x l' e1 h0]
        rfl
    · rw [hstep, Out.bind_eq_ok] at h
      obtain ⟨t, ht, h⟩ := h
      obtain ⟨h1, h2⟩ := ih3 t ht
      rw [List.reverse_append, List.reverse_singleton, List.singleton_append]
      cases c with
      | insert y =>
        cases h
        refine ⟨msetInsert_sorted h1 y, fun x => ?_⟩
        rw [MultiSet.insert, count_msetInsert, h2, Spec.mult]
      | clear =>
        cases h
        exact ⟨.nil, fun x => rfl⟩
      | erase y =>
        rw [MultiSet.call, MultiSet.erase] at h
        split at h
        · cases h
        · cases h
          rw [setErase_eq h1]
          refine ⟨h1.sublist List.filter_sublist, fun x => ?_⟩
          rw [Spec.mult, ← h2]
          split
          · subst_vars
            rw [List.count_eq_zero]
            intro hm
            simpa using (List.mem_filter.1 hm).2
          · rename_i e
            rw [List.count_filter]
            simpa using Ne.symm e

/-- **C56.**  After a history of calls on an empty MultiSet, `count` is the number of insertions of the value since its last
erasure, `contains` tells whether there was one, `size` is the number of elements, and iteration is in increasing order. -/
theorem C56_multiset (calls : List (MultiSet.Call α)) (s : List α) (h : calls.foldlM MultiSet.call [] = .ok s)
    (hlen : (s.length : Int) ≤ INT_MAX) :
    (∀ x, MultiSet.count s x = Spec.mult x calls.reverse) ∧
    (∀ x, MultiSet.contains s x = decide (Spec.mult x calls.reverse > 0)) ∧
    s.Pairwise (· ≤ ·) ∧ (∀ x, s.count x = Spec.mult x calls.reverse) ∧ MultiSet.size s = s.length ∧
    (MultiSet.isEmpty s = true ↔ ∀ x, Spec.mult x calls.reverse = 0) := by
  obtain ⟨h1, h2⟩ := (C56_multiset_runs calls).2.2 s h
  refine ⟨fun x => ?_, fun x => ?_, h1, h2, by rw [MultiSet.size, toInt_small (by unfold INT_MAX at hlen; omega)], ?_⟩
  · have := List.count_le_length (l := s) (a := x)
    rw [MultiSet.count, setCount_eq h1, toInt_small (by unfold INT_MAX at hlen; omega), h2]
  · rw [MultiSet.contains, Bool.eq_iff_iff, setFind_iff h1, decide_eq_true_iff, ← h2]
    exact List.count_pos_iff.symm
  · simp only [← h2, List.count_eq_zero]
    rw [MultiSet.isEmpty, List.isEmpty_iff, List.eq_nil_iff_forall_not_mem]

/-- **C56.**  A MultiSet made of a list has the values of the list in increasing order, each as often as in the list. -/
theorem C56_multiset_init (xs : List α) :
    (MultiSet.init xs).Pairwise (· ≤ ·) ∧ ∀ x, (MultiSet.init xs).count x = xs.count x := by
  unfold MultiSet.init
  suffices ∀ (xs s : List α), s.Pairwise (· ≤ ·) → (xs.foldl (fun s x => Stl.msetInsert x s) s).Pairwise (· ≤ ·) ∧
      ∀ x, (xs.foldl (fun s x => Stl.msetInsert x s) s).count x = xs.count x + s.count x by
    simpa using this xs [] .nil
  intro xs
  induction xs with
  | nil => intro s hs; exact ⟨hs, fun x => by simp⟩
  | cons y xs ih =>
    intro s hs
    have h := ih _ (msetInsert_sorted hs y)
    refine ⟨h.1, fun x => ?_⟩
    rw [List.foldl_cons, h.2, count_msetInsert, List.count_cons]
    by_cases e : y = x
    · simp [e]; omega
    · simp [e]

/-- calls with a value inserted again after its erasure -/
def msetCalls : List (MultiSet.Call Nat) := [.insert 5, .insert 2, .insert 5, .erase 5, .insert 5, .insert 2]

example : msetCalls.foldlM MultiSet.call [] = .ok [2, 2, 5] := rfl
example : MultiSet.count [2, 2, 5] 2 = 2 := (C56_multiset msetCalls [2, 2, 5] rfl (by decide)).1 2
example : [MultiSet.Call.insert 5, .erase 5, .erase 5].foldlM MultiSet.call [] = .exit :=
  (C56_multiset_runs _).2.1 [.insert 5, .erase 5] 5 [] rfl rfl
example : (MultiSet.init [4, 1, 4]).count 4 = 2 := (C56_multiset_init [4, 1, 4]).2 4

/-! ## MultiMap -/

/-- **C56.**  A MultiMap made of a list of pairs has all of them, in order of the keys; pairs with the same key keep their
order. -/
theorem C56_multimap_init (ps : List (κ × ν)) :
    (MultiMap.init ps).Pairwise (fun a b => a.1 ≤ b.1) ∧
    ∀ k, (MultiMap.init ps).filter (fun p => decide (p.1 = k)) = ps.filter (fun p => decide (p.1 = k)) := mmap_init ps

/-- **C56.**  Of a MultiMap with the pairs `m` in order of the keys: `count` is the number of pairs with the key, `find` the
set of their values in increasing order, `erase` takes all these pairs away and no other, `size` is the number of pairs. -/
theorem C56_multimap [LinearOrder ν] (m : List (κ × ν)) (hm : m.Pairwise fun a b => a.1 ≤ b.1)
    (hlen : (m.length : Int) ≤ INT_MAX) (k : κ) :
    MultiMap.count m k = (m.filter fun p => decide (p.1 = k)).length ∧
    (MultiMap.find m k).Pairwise (· < ·) ∧ (∀ v, v ∈ MultiMap.find m k ↔ (k, v) ∈ m) ∧
    MultiMap.erase m k = m.filter (fun p => decide (p.1 ≠ k)) ∧ MultiMap.size m = m.length ∧
    (MultiMap.isEmpty m = true ↔ ∀ p, p ∉ m) := by
  have hf := foldl_setInsert (Stl.mmapRange k m) [] .nil
  refine ⟨?_, hf.1, fun v => ?_, mapErase_eq hm k, by rw [MultiMap.size, toInt_small (by unfold INT_MAX at hlen; omega)], ?_⟩
  · have := List.length_filter_le (fun p : κ × ν => decide (p.1 = k)) m
    rw [MultiMap.count, mmapRange_eq hm, List.length_map, toInt_small (by unfold INT_MAX at hlen; omega)]
  · have e : MultiMap.find m k = (Stl.mmapRange k m).foldl (fun s x => Stl.setInsert x s) [] := rfl
    rw [e, hf.2, mmapRange_eq hm]
    simp
  · rw [MultiMap.isEmpty, List.isEmpty_iff, List.eq_nil_iff_forall_not_mem]

example : MultiMap.init [(2, 'b'), (1, 'x'), (2, 'a'), (2, 'b')] = [(1, 'x'), (2, 'b'), (2, 'a'), (2, 'b')] := rfl
example : MultiMap.count [(1, 9), (2, 5), (2, 4), (2, 5)] 2 = 3 ∧ MultiMap.find [(1, 9), (2, 5), (2, 4), (2, 5)] 2 = [4, 5] :=
  ⟨(C56_multimap [(1, 9), (2, 5), (2, 4), (2, 5)] (by decide) (by decide) 2).1, rfl⟩

end Cont.Props
