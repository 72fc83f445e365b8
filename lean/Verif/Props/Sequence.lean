import Verif.Proof.Sequence
import Verif.Spec.Sequence

/-! # Vector, List, Stack, Queue: properties C51, C52, C53, C54, C84 -/

namespace Cont.Props
open Cpp Spec

variable {α : Type}

/-! ## Vector -/

/-- **C51.**  `get` (and `operator[]`) gives the element at an index in range, and ends the program for any other. -/
theorem C51_get (v : List α) (i : Int) :
    (∀ j : Nat, i = j → ∀ h : j < v.length, Vector.get v i = .ok v[j]) ∧
    (i < 0 ∨ i ≥ v.length → Vector.get v i = .exit) := by
  rw [get_eq]
  refine ⟨?_, fun h => dif_neg (by omega)⟩
  rintro j rfl h
  rw [dif_pos (by omega)]
  simp

/-- **C51.**  `first` and `last` give the first and the last element, and end the program if there is none. -/
theorem C51_ends (v : List α) (x : α) :
    Vector.first (x :: v) = .ok x ∧ Vector.last (v ++ [x]) = .ok x ∧
    Vector.first ([] : List α) = .exit ∧ Vector.last ([] : List α) = .exit := by
  refine ⟨by rw [first_eq]; simp, by rw [last_eq]; simp, rfl, rfl⟩

/-- **C51.**  `insert` at an index from 0 to the size puts the value there and moves the elements from there on by one; it
ends the program for any other index. -/
theorem C51_insert (v : List α) (i : Int) (x : α) :
    (0 ≤ i ∧ i ≤ v.length → ∃ w, Vector.insert v i x = .ok w ∧ w.length = v.length + 1 ∧
      ∀ j : Nat, w[j]? = if (j : Int) < i then v[j]? else if j = i then some x else v[j - 1]?) ∧
    (i < 0 ∨ i > v.length → Vector.insert v i x = .exit) := by
  rw [insert_eq]
  refine ⟨fun h => ⟨_, if_pos h, by simp; omega, fun j => ?_⟩, fun h => if_neg (by omega)⟩
  rw [get_insert (by omega)]
  by_cases h1 : (j : Int) < i
  · rw [if_pos (by omega), if_pos h1]
  · rw [if_neg (by omega), if_neg h1]
    by_cases h2 : (j : Int) = i
    · rw [if_pos (by omega), if_pos h2]
    · rw [if_neg (by omega), if_neg h2]

/-- **C51.**  `erase` at an index in range takes the element away and moves the later ones by one; it ends the program for
any other index. -/
theorem C51_erase (v : List α) (i : Int) :
    (0 ≤ i ∧ i < v.length → ∃ w, Vector.erase v i = .ok w ∧ w.length + 1 = v.length ∧
      ∀ j : Nat, w[j]? = if (j : Int) < i then v[j]? else v[j + 1]?) ∧
    (i < 0 ∨ i ≥ v.length → Vector.erase v i = .exit) := by
  rw [erase_eq]
  refine ⟨fun h => ⟨_, if_pos h, by simp; omega, fun j => ?_⟩, fun h => if_neg (by omega)⟩
  rw [get_erase (by omega)]
  by_cases h1 : (j : Int) < i
  · rw [if_pos (by omega), if_pos h1]
  · rw [if_neg (by omega), if_neg h1]

/-- **C51.**  `set` (and assignment to `v[i]`) changes the element at an index in range and nothing else; it ends the
program for any other index. -/
theorem C51_set (v : List α) (i : Int) (x : α) :
    (0 ≤ i ∧ i < v.length → ∃ w, Vector.set v i x = .ok w ∧ w.length = v.length ∧
      ∀ j : Nat, j < v.length → w[j]? = if j = i then some x else v[j]?) ∧
    (i < 0 ∨ i ≥ v.length → Vector.set v i x = .exit) := by
  rw [set_eq]
  refine ⟨fun h => ⟨_, if_pos h, by simp, fun j hj => ?_⟩, fun h => if_neg (by omega)⟩
  rw [List.getElem?_set]
  by_cases h1 : (j : Int) = i
  · rw [if_pos (by omega), if_pos (by omega), if_pos h1]
  · rw [if_neg (by omega), if_neg h1]

/-- **C51.**  `push` puts the value behind the others, `pop` takes the last away and returns it, and ends the program if
there is none. -/
theorem C51_push_pop (v : List α) (x : α) :
    (Vector.push v x).length = v.length + 1 ∧ (∀ j, j < v.length → (Vector.push v x)[j]? = v[j]?) ∧
    (Vector.push v x)[v.length]? = some x ∧ Vector.pop (Vector.push v x) = .ok (x, v) ∧
    Vector.pop ([] : List α) = .exit := by
  refine ⟨by simp [Vector.push], fun j h => ?_, by simp [Vector.push], ?_, rfl⟩
  · rw [Vector.push, List.getElem?_append_left h]
  · rw [pop_eq, dif_pos (by simp [Vector.push])]; simp [Vector.push]

/-- **C51.**  `size` is the number of elements (below 2^31), `isEmpty` says whether it is 0; `Vector(n, x)` has `n` elements,
all of them `x`. -/
theorem C51_size (v : List α) (h : v.length < 2147483648) (n : Nat) (x : α) :
    Vector.size v = v.length ∧ (Vector.isEmpty v = true ↔ Vector.size v = 0) ∧
    (Vector.new n x).length = n ∧ ∀ y ∈ Vector.new n x, y = x := by
  have hs : Vector.size v = v.length := toInt_small h
  refine ⟨hs, ?_, by simp [Vector.new], fun y hy => List.eq_of_mem_replicate hy⟩
  rw [hs]
  cases v
  · simp [Vector.isEmpty]
  · simp [Vector.isEmpty]; omega

/-- **C51.**  No sequence of calls has undefined behaviour. -/
theorem C51_safe (cs : List (Vector.Call α)) (v : List α) :
    (∃ r, Vector.calls v cs = .ok r) ∨ Vector.calls v cs = .exit := by
  induction cs generalizing v with
  | nil => exact .inl ⟨_, rfl⟩
  | cons c cs ih =>
    have hc := call_safe v c
    rw [Vector.calls]
    cases he : Vector.call v c with
    | ok p =>
      obtain ⟨r, w⟩ := p
      simp only [Out.ok_bind]
      rcases ih w with ⟨q, hq⟩ | hq
      · rw [hq]; exact .inl ⟨_, rfl⟩
      · rw [hq]; exact .inr rfl
    | exit => exact .inr rfl
    | ub => exact absurd he hc.1
    | diverge => exact absurd he hc.2

example : Vector.get [10, 20, 30] 2 = .ok 30 := (C51_get [10, 20, 30] 2).1 2 rfl (by decide)
example : Vector.get [10, 20, 30] 3 = .exit := (C51_get [10, 20, 30] 3).2 (by decide)
example : Vector.insert [10, 20] 2 5 = .ok [10, 20, 5] ∧ Vector.insert [10, 20] 3 5 = .exit := by decide
example : ∃ w, Vector.insert [10, 20] 1 5 = .ok w ∧ w.length = 3 := by
  obtain ⟨w, h1, h2, _⟩ := (C51_insert [10, 20] 1 5).1 (by decide)
  exact ⟨w, h1, h2⟩
example : ∃ w, Vector.erase [10, 20] 1 = .ok w ∧ w.length + 1 = 2 := by
  obtain ⟨w, h1, h2, _⟩ := (C51_erase [10, 20] 1).1 (by decide)
  exact ⟨w, h1, h2⟩
example : ∃ w, Vector.set [10, 20] 1 7 = .ok w ∧ w.length = 2 := by
  obtain ⟨w, h1, h2, _⟩ := (C51_set [10, 20] 1 7).1 (by decide)
  exact ⟨w, h1, h2⟩
example : Vector.calls [1] [.push 2, .insert 0 3, .pop, .get 0, .erase 1] = .ok ([2, 3], [3]) := by decide
example : Vector.size [1, 2] = 2 := (C51_size [1, 2] (by decide) 0 0).1

/-! ## comparison -/

/-- **C84.**  The comparison operators of the sequences are those of the lexicographic order. -/
theorem C84_lexicographic [LinearOrder α] (v w : List α) :
    (Vector.lt (fun a b => decide (a < b)) v w = true ↔ v < w) ∧ (Vector.gt (fun a b => decide (a < b)) v w = true ↔ w < v) ∧
    (Vector.le (fun a b => decide (a < b)) v w = true ↔ v < w ∨ v = w) ∧
    (Vector.ge (fun a b => decide (a < b)) v w = true ↔ w < v ∨ w = v) ∧ (Vector.eq v w = true ↔ v = w) ∧
    (Vector.ne v w = true ↔ v ≠ w) := by
  unfold Vector.lt Vector.gt Vector.le Vector.ge Vector.ne Vector.eq
  rw [lexLt_iff, lexLt_iff]
  simp only [decide_eq_true_eq, Bool.not_eq_true', decide_eq_false_iff_not, List.not_lt, true_and, ne_eq, and_true]
  exact ⟨List.le_iff_lt_or_eq, List.le_iff_lt_or_eq⟩

/-- **C84.**  Of `v < w`, `v == w` and `v > w` just one holds. -/
theorem C84_trichotomy [LinearOrder α] (v w : List α) :
    ((Vector.lt (fun a b => decide (a < b)) v w).toNat + (Vector.eq v w).toNat +
      (Vector.gt (fun a b => decide (a < b)) v w).toNat) = 1 := by
  unfold Vector.lt Vector.gt Vector.eq
  rw [lexLt_iff, lexLt_iff]
  by_cases h : v = w
  · subst h
    simp [List.lt_irrefl]
  · by_cases h1 : v < w
    · have h2 : ¬ w < v := fun h2 => List.lt_irrefl _ (List.lt_trans h1 h2)
      simp [h, h1, h2]
    · have h2 : w < v := by
        rcases List.le_iff_lt_or_eq.1 (List.not_lt.1 h1) with h2 | h2
        · exact h2
        · exact absurd h2.symm h
      simp [h, h1, h2]

/-- **C84.**  The order is transitive. -/
theorem C84_transitive [LinearOrder α] (u v w : List α) (h : Vector.lt (fun a b => decide (a < b)) u v = true)
    (h' : Vector.lt (fun a b => decide (a < b)) v w = true) : Vector.lt (fun a b => decide (a < b)) u w = true := by
  unfold Vector.lt at *
  rw [lexLt_iff] at *
  simp only [decide_eq_true_eq] at *
  exact List.lt_trans h h'

example : Vector.lt (fun a b : Int => decide (a < b)) [1, 2] [1, 2, 0] = true ∧
    Vector.lt (fun a b : Int => decide (a < b)) [1, 2, 0] [1, 3] = true ∧
    Vector.lt (fun a b : Int => decide (a < b)) [1, 2] [1, 3] = true :=
  ⟨by decide, by decide, C84_transitive [1, 2] [1, 2, 0] [1, 3] (by decide) (by decide)⟩

/-! ## List -/

/-- **C52.**  `operator[]` gives the element at an index in range, and ends the program for any other. -/
theorem C52_get_partial (l : List α) (i : Int) :
    (∀ j : Nat, i = j → ∀ h : j < l.length, Lst.get l i = .ok l[j]) ∧
    (i < 0 ∨ i ≥ l.length → Lst.get l i = .exit) := by
  rw [lget_eq]
  refine ⟨?_, fun h => dif_neg (by omega)⟩
  rintro j rfl h
  rw [dif_pos (by omega)]
  simp

/-- **C52.**  `insert`, as in `C51_insert`. -/
theorem C52_insert_partial (l : List α) (i : Int) (x : α) :
    (0 ≤ i ∧ i ≤ l.length → ∃ w, Lst.insert l i x = .ok w ∧ w.length = l.length + 1 ∧
      ∀ j : Nat, w[j]? = if (j : Int) < i then l[j]? else if j = i then some x else l[j - 1]?) ∧
    (i < 0 ∨ i > l.length → Lst.insert l i x = .exit) := C51_insert l i x

/-- **C52.**  `erase`, as in `C51_erase`. -/
theorem C52_erase_partial (l : List α) (i : Int) :
    (0 ≤ i ∧ i < l.length → ∃ w, Lst.erase l i = .ok w ∧ w.length + 1 = l.length ∧
      ∀ j : Nat, w[j]? = if (j : Int) < i then l[j]? else l[j + 1]?) ∧
    (i < 0 ∨ i ≥ l.length → Lst.erase l i = .exit) := C51_erase l i

/-- **C52.**  The two ends: `first`, `last`, `push`, `push_front`, `pop`, `pop_front`. -/
theorem C52_ends_partial (l : List α) (x : α) :
    Lst.first (Lst.pushFront l x) = .ok x ∧ Lst.last (Lst.push l x) = .ok x ∧
    Lst.popFront (Lst.pushFront l x) = .ok (x, l) ∧ Lst.pop (Lst.push l x) = .ok (x, l) ∧
    (∀ j, (Lst.pushFront l x)[j + 1]? = l[j]?) ∧ (∀ j, j < l.length → (Lst.push l x)[j]? = l[j]?) ∧
    Lst.first ([] : List α) = .exit ∧ Lst.last ([] : List α) = .exit ∧ Lst.pop ([] : List α) = .exit ∧
    Lst.popFront ([] : List α) = .exit := by
  refine ⟨rfl, (C51_ends l x).2.1, rfl, (C51_push_pop l x).2.2.2.1, fun j => by simp [Lst.pushFront],
    (C51_push_pop l x).2.1, rfl, rfl, rfl, rfl⟩

/-- **C52.**  `sort` gives the elements in order, each as often as before. -/
theorem C52_sort_partial [LinearOrder α] (l : List α) :
    (Lst.sort l).Pairwise (· ≤ ·) ∧ ∀ x, (Lst.sort l).count x = l.count x := by
  refine ⟨?_, fun x => (List.mergeSort_perm l _).count_eq x⟩
  have := List.pairwise_mergeSort (le := fun a b : α => decide (a ≤ b)) (by simpa using fun a b c => le_trans)
    (by simpa using le_total) l
  unfold Lst.sort Stl.sort
  simpa using this

/-- **C52.**  `reverse` turns the order of the elements around. -/
theorem C52_reverse_partial (l : List α) : (Lst.reverse l).length = l.length ∧
    ∀ j, j < l.length → (Lst.reverse l)[j]? = l[l.length - 1 - j]? :=
  ⟨by simp [Lst.reverse], fun j h => by rw [Lst.reverse, List.getElem?_reverse h]⟩

/-- **C52.**  `size` is the number of elements (below 2^31), `isEmpty` says whether it is 0; `List(n, x)` has `n` elements,
all of them `x`. -/
theorem C52_size_partial (l : List α) (h : l.length < 2147483648) (n : Nat) (x : α) :
    Lst.size l = l.length ∧ (Lst.isEmpty l = true ↔ Lst.size l = 0) ∧
    (Lst.new n x).length = n ∧ ∀ y ∈ Lst.new n x, y = x := by
  have hs : Lst.size l = l.length := toInt_small h
  refine ⟨hs, ?_, by simp [Lst.new], fun y hy => List.eq_of_mem_replicate hy⟩
  rw [hs]
  cases l
  · simp [Lst.isEmpty]
  · simp [Lst.isEmpty]; omega

example : Lst.size [1, 2] = 2 := (C52_size_partial [1, 2] (by decide) 0 0).1

/-- **C52.**  `merge` of two sorted lists gives the elements of both in order, and leaves the other list empty. -/
theorem C52_merge_partial [LinearOrder α] (l l' : List α) (h : l.Pairwise (· ≤ ·)) (h' : l'.Pairwise (· ≤ ·)) :
    ∃ m, Lst.merge l l' = .ok (m, []) ∧ m.Pairwise (· ≤ ·) ∧ ∀ x, m.count x = l.count x + l'.count x := by
  refine ⟨_, by rw [Lst.merge, Stl.merge, if_pos ⟨h, h'⟩]; rfl, ?_, fun x => ?_⟩
  · have := List.pairwise_merge (le := fun a b : α => decide (a ≤ b)) (by simpa using fun a b c => le_trans)
      (by simpa using le_total) l l' (by simpa using h) (by simpa using h')
    simpa using this
  · rw [(List.merge_perm_append (le := fun a b : α => decide (a ≤ b))).count_eq, List.count_append]

/-- **C52, refuted.**  `merge` does not check that the lists are sorted, as `std::list::merge` requires. -/
theorem C52_refuted : Lst.merge [(2 : Int), 1] [3] = .ub := by decide

/-- **C52.**  No sequence of calls other than `merge` has undefined behaviour. -/
theorem C52_safe_partial [LinearOrder α] (cs : List (Lst.Call α)) (l : List α) :
    (∃ r, Lst.calls l cs = .ok r) ∨ Lst.calls l cs = .exit := by
  induction cs generalizing l with
  | nil => exact .inl ⟨_, rfl⟩
  | cons c cs ih =>
    have hc := lcall_safe l c
    rw [Lst.calls]
    cases he : Lst.call l c with
    | ok p =>
      obtain ⟨r, w⟩ := p
      simp only [Out.ok_bind]
      rcases ih w with ⟨q, hq⟩ | hq
      · rw [hq]; exact .inl ⟨_, rfl⟩
      · rw [hq]; exact .inr rfl
    | exit => exact .inr rfl
    | ub => exact absurd he hc.1
    | diverge => exact absurd he hc.2

example : Lst.get [10, 20, 30] 1 = .ok 20 := (C52_get_partial [10, 20, 30] 1).1 1 rfl (by decide)
example : ∃ m, Lst.merge [(1 : Int), 4] [2, 4] = .ok (m, []) ∧ m.count 4 = 2 := by
  obtain ⟨m, h1, _, h3⟩ := C52_merge_partial [(1 : Int), 4] [2, 4] (by decide) (by decide)
  exact ⟨m, h1, by rw [h3]; decide⟩
example : ∃ w, Lst.insert [10, 20] 2 5 = .ok w ∧ w.length = 3 := by
  obtain ⟨w, h1, h2, _⟩ := (C52_insert_partial [10, 20] 2 5).1 (by decide)
  exact ⟨w, h1, h2⟩
example : ∃ w, Lst.erase [10, 20] 0 = .ok w ∧ w.length + 1 = 2 := by
  obtain ⟨w, h1, h2, _⟩ := (C52_erase_partial [10, 20] 0).1 (by decide)
  exact ⟨w, h1, h2⟩
example : (Lst.reverse [1, 2, 3])[0]? = some 3 := by rw [(C52_reverse_partial [1, 2, 3]).2 0 (by decide)]; rfl

/-! ## Stack -/

theorem balanced_calls {h : List (Stack.Call α)} (hb : Balanced h) : ∀ s, ∃ r, Stack.calls s h = .ok (r, s) := by
  induction hb with
  | nil => intro s; exact ⟨[], rfl⟩
  | nest x _ _ ih ih' =>
    intro s
    obtain ⟨r, hr⟩ := ih (s ++ [x])
    obtain ⟨r', hr'⟩ := ih' s
    refine ⟨r ++ x :: r', ?_⟩
    rw [scalls_append]
    simp only [Stack.calls, Stack.call, Stack.push, Out.ok_bind, hr, spop, hr']
    simp

/-- **C53.**  Whatever is on the stack: after pushing `x` and any calls in which every push is followed by its own pop, `pop`
returns `x` and leaves what was on the stack before, and `top` returns `x`. -/
theorem C53_lifo (s : List α) (x : α) (h : List (Stack.Call α)) (hb : Balanced h) : ∃ r,
    Stack.calls s (.push x :: h ++ [.pop]) = .ok (r ++ [x], s) ∧
    Stack.calls s (.push x :: h ++ [.top]) = .ok (r ++ [x], Stack.push s x) := by
  obtain ⟨r, hr⟩ := balanced_calls hb (s ++ [x])
  refine ⟨r, ?_, ?_⟩
  · rw [scalls_append]
    simp only [Stack.calls, Stack.call, Stack.push, Out.ok_bind, hr, spop]
    simp
  · rw [scalls_append]
    simp only [Stack.calls, Stack.call, Stack.push, Out.ok_bind, hr, stop]
    simp

/-- **C53.**  `pop` and `top` of an empty stack end the program, and these are the only calls that do: no sequence of calls
has undefined behaviour. -/
theorem C53_empty : Stack.pop ([] : List α) = .exit ∧ Stack.top ([] : List α) = .exit ∧
    (∀ s : List α, s ≠ [] → ∃ x s', Stack.pop s = .ok (x, s') ∧ Stack.top s = .ok x) ∧
    ∀ (cs : List (Stack.Call α)) (s : List α), (∃ r, Stack.calls s cs = .ok r) ∨ Stack.calls s cs = .exit := by
  have hne : ∀ s : List α, s ≠ [] → ∃ x s', Stack.pop s = .ok (x, s') ∧ Stack.top s = .ok x := by
    intro s hs
    rw [← List.dropLast_concat_getLast hs]
    exact ⟨_, _, spop _ _, stop _ _⟩
  refine ⟨rfl, rfl, hne, fun cs => ?_⟩
  induction cs with
  | nil => intro s; exact .inl ⟨_, rfl⟩
  | cons c cs ih =>
    intro s
    rw [Stack.calls]
    have hgo : ∀ r w, (∃ q, (do
        let (rs, s) ← Stack.calls w cs
        Out.ok ((r : Option α).toList ++ rs, s)) = .ok q) ∨ (do
        let (rs, s) ← Stack.calls w cs
        Out.ok ((r : Option α).toList ++ rs, s)) = .exit := by
      intro r w
      rcases ih w with ⟨q, hq⟩ | hq
      · rw [hq]; exact .inl ⟨_, rfl⟩
      · rw [hq]; exact .inr rfl
    cases c with
    | push x => exact hgo none _
    | clear =>
      simp only [Stack.call, sclear, Out.ok_bind]
      exact hgo none _
    | pop =>
      by_cases hs : s = []
      · subst hs; exact .inr rfl
      · obtain ⟨x, s', h1, _⟩ := hne s hs
        simp only [Stack.call, h1, Out.ok_bind]
        exact hgo (some x) _
    | top =>
      by_cases hs : s = []
      · subst hs; exact .inr rfl
      · obtain ⟨x, s', _, h2⟩ := hne s hs
        simp only [Stack.call, h2, Out.ok_bind]
        exact hgo (some x) _

/-- **C53.**  `push` adds one to the size, `clear` makes it 0, and `isEmpty` says whether it is 0. -/
theorem C53_size (s : List α) (x : α) (h : s.length < 2147483647) :
    Stack.size (Stack.push s x) = Stack.size s + 1 ∧ (∃ s', Stack.clear s = .ok s' ∧ Stack.size s' = 0) ∧
    (Stack.isEmpty s = true ↔ Stack.size s = 0) := by
  have hs : Stack.size s = s.length := toInt_small (by omega)
  refine ⟨?_, ⟨[], sclear s, rfl⟩, ?_⟩
  · rw [hs, Stack.size, toInt_small (by simp [Stack.push]; omega)]
    simp [Stack.push]
  · rw [hs]
    cases s
    · simp [Stack.isEmpty]
    · simp [Stack.isEmpty]; omega

example : ∃ r, Stack.calls [7] ([.push 1] ++ [.push 2, .pop] ++ [.pop]) = .ok (r ++ [1], [7]) := by
  obtain ⟨r, h, _⟩ := C53_lifo [7] 1 [.push 2, .pop] (.nest 2 .nil .nil)
  exact ⟨r, h⟩
example : Stack.size (Stack.push [7] 1) = 2 := (C53_size [7] 1 (by decide)).1

/-! ## Queue -/

/-- **C54.**  In every history, the values taken out, followed by those still inside, are those which were inside, followed
by those put in, in order: first in, first out. -/
theorem C54_fifo_partial (q : List α) (cs : List (Queue.Call α)) (out q' : List α) (h : Queue.calls q cs = .ok (out, q')) :
    out ++ q' = q ++ enqueued cs ∧ out.length = dequeues cs := by
  induction cs generalizing q out with
  | nil => cases h; simp [enqueued, dequeues]
  | cons c cs ih =>
    cases c with
    | enqueue x =>
      have := ih _ _ h
      simpa [Queue.enqueue, enqueued, dequeues] using this
    | dequeue =>
      cases q with
      | nil => cases h
      | cons y q =>
        rw [Queue.calls] at h
        have e : Queue.dequeue (y :: q) = .ok (y, q) := rfl
        rw [e, Out.ok_bind] at h
        cases hc : Queue.calls q cs with
        | ok p =>
          obtain ⟨o, w⟩ := p
          simp only [hc, Out.ok_bind] at h
          cases h
          have := ih _ _ hc
          simpa [enqueued, dequeues] using this
        | _ => simp only [hc] at h; cases h

/-- **C54.**  A history succeeds if at no time more values were taken out than there were; otherwise it ends the program. -/
theorem C54_empty_partial (q : List α) (cs : List (Queue.Call α)) :
    ((∀ p, p <+: cs → dequeues p ≤ q.length + (enqueued p).length) → ∃ r, Queue.calls q cs = .ok r) ∧
    ((∃ p, p <+: cs ∧ dequeues p > q.length + (enqueued p).length) → Queue.calls q cs = .exit) := by
  induction cs generalizing q with
  | nil =>
    refine ⟨fun _ => ⟨_, rfl⟩, ?_⟩
    rintro ⟨p, hp, hd⟩
    rw [List.prefix_nil] at hp
    subst hp
    simp [dequeues] at hd
  | cons c cs ih =>
    cases c with
    | enqueue x =>
      refine ⟨fun h => (ih _).1 fun p hp => ?_, ?_⟩
      · have := h (.enqueue x :: p) (by simpa using hp)
        simp [dequeues, enqueued, Queue.enqueue] at this ⊢
        omega
      · rintro ⟨p, hp, hd⟩
        cases p with
        | nil => simp [dequeues] at hd
        | cons c p =>
          rw [List.cons_prefix_cons] at hp
          obtain ⟨rfl, hp⟩ := hp
          refine (ih (Queue.enqueue q x)).2 ⟨p, hp, ?_⟩
          simp [dequeues, enqueued, Queue.enqueue] at hd ⊢
          omega
    | dequeue =>
      cases q with
      | nil =>
        refine ⟨fun h => ?_, fun _ => rfl⟩
        have := h [.dequeue] (by simp)
        simp [dequeues, enqueued] at this
      | cons y q =>
        have e : Queue.dequeue (y :: q) = .ok (y, q) := rfl
        rw [Queue.calls, e]
        simp only [Out.ok_bind]
        refine ⟨fun h => ?_, ?_⟩
        · obtain ⟨r, hr⟩ := (ih q).1 fun p hp => by
            have := h (.dequeue :: p) (by simpa using hp)
            simp [dequeues, enqueued] at this ⊢
            omega
          rw [hr]
          exact ⟨_, rfl⟩
        · rintro ⟨p, hp, hd⟩
          cases p with
          | nil => simp [dequeues] at hd
          | cons c p =>
            rw [List.cons_prefix_cons] at hp
            obtain ⟨rfl, hp⟩ := hp
            rw [(ih q).2 ⟨p, hp, by simp [dequeues, enqueued] at hd ⊢; omega⟩]
            rfl

/-- **C54.**  `first` and `last` of a queue that is not empty give the value to be taken out next and the one put in last;
`clear` empties the queue; sizes. -/
theorem C54_ends_partial (q : List α) (x : α) (h : q.length < 2147483647) :
    (∀ y q', Queue.dequeue q = .ok (y, q') → Queue.first q = .ok y ∧ Queue.size q' + 1 = Queue.size q) ∧
    Queue.last (Queue.enqueue q x) = .ok x ∧ Queue.size (Queue.enqueue q x) = Queue.size q + 1 ∧
    Queue.clear q = .ok [] ∧ (Queue.isEmpty q = true ↔ Queue.size q = 0) := by
  have hs : Queue.size q = q.length := toInt_small (by omega)
  refine ⟨?_, by simp [Queue.last, Queue.enqueue, Stl.back], ?_, qclear q, ?_⟩
  · intro y q' hd
    cases q with
    | nil => cases hd
    | cons z q =>
      cases hd
      refine ⟨rfl, ?_⟩
      rw [hs, Queue.size, toInt_small (by simp at h; omega)]
      simp
  · rw [hs, Queue.size, toInt_small (by simp [Queue.enqueue]; omega)]
    simp [Queue.enqueue]
  · rw [hs]
    cases q
    · simp [Queue.isEmpty]
    · simp [Queue.isEmpty]; omega

/-- **C54, refuted.**  `first` and `last` of an empty queue do not end the program: undefined behaviour. -/
theorem C54_refuted : Queue.first ([] : List Int) = .ub ∧ Queue.last ([] : List Int) = .ub := ⟨rfl, rfl⟩

example : Queue.calls [5] [.enqueue 6, .dequeue, .enqueue 7, .dequeue] = .ok ([5, 6], [7]) := rfl
example : [5, 6] ++ [7] = [5] ++ enqueued [.enqueue 6, .dequeue, .enqueue 7, .dequeue] :=
  (C54_fifo_partial [5] [.enqueue 6, .dequeue, .enqueue 7, .dequeue] [5, 6] [7] rfl).1
example : Queue.calls [5] [.dequeue, .dequeue] = .exit :=
  (C54_empty_partial [5] [.dequeue, .dequeue]).2 ⟨[.dequeue, .dequeue], by simp, by decide⟩
example : Queue.first [5, 6] = .ok 5 := ((C54_ends_partial [5, 6] 7 (by decide)).1 5 [6] rfl).1

end Cont.Props
