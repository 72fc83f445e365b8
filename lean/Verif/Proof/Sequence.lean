import Verif.Model.Sequence
import Mathlib.Order.Lattice

/-! # Helper lemmas for Vector, List, Stack, Queue -/

namespace Cont
open Cpp

variable {α : Type}

theorem insert_eq {l : List α} {i : Int} {x : α} : Vector.insert l i x =
    if 0 ≤ i ∧ i ≤ l.length then .ok (l.take i.toNat ++ x :: l.drop i.toNat) else .exit := by
  unfold Vector.insert Stl.advance Stl.insertAt
  by_cases h : 0 ≤ i ∧ i ≤ l.length
  · rw [if_neg (by omega), if_pos h, if_pos (by omega)]
    simp only [Out.ok_bind]
    rw [if_pos (by omega)]
    simp
  · rw [if_pos (by omega), if_neg h]

theorem erase_eq {l : List α} {i : Int} : Vector.erase l i =
    if 0 ≤ i ∧ i < l.length then .ok (l.take i.toNat ++ l.drop (i.toNat + 1)) else .exit := by
  unfold Vector.erase Vector.boundaryCheck Stl.advance Stl.eraseAt
  by_cases h : 0 ≤ i ∧ i < l.length
  · rw [if_neg (by omega), if_pos h]
    simp only [Out.ok_bind]
    rw [if_pos (by omega)]
    simp only [Out.ok_bind]
    rw [if_pos (by omega)]
    simp
  · rw [if_pos (by omega), if_neg h]
    rfl

theorem get_eq {l : List α} {i : Int} : Vector.get l i =
    if h : 0 ≤ i ∧ i < l.length then .ok (l[i.toNat]'(by omega)) else .exit := by
  unfold Vector.get Vector.boundaryCheck Stl.at'
  by_cases h : 0 ≤ i ∧ i < l.length
  · rw [if_neg (by omega), dif_pos h]
    simp only [Out.ok_bind]
    rw [List.getElem?_eq_getElem (by omega)]
  · rw [if_pos (by omega), dif_neg h]
    rfl

theorem walk_eq (l : List α) : ∀ (n : Nat) (h : n < l.length), Lst.walk l n = .ok l[n] := by
  induction l with
  | nil => intro n h; simp at h
  | cons x l ih =>
    intro n h
    cases n with
    | zero => rfl
    | succ n => exact ih n (by simpa using h)

theorem lget_eq {l : List α} {i : Int} : Lst.get l i =
    if h : 0 ≤ i ∧ i < l.length then .ok (l[i.toNat]'(by omega)) else .exit := by
  unfold Lst.get Lst.boundaryCheck
  by_cases h : 0 ≤ i ∧ i < l.length
  · rw [if_neg (by omega), dif_pos h]
    exact walk_eq l _ (by omega)
  · rw [if_pos (by omega), dif_neg h]
    rfl

theorem set_eq {l : List α} {i : Int} {x : α} : Vector.set l i x =
    if 0 ≤ i ∧ i < l.length then .ok (l.set i.toNat x) else .exit := by
  unfold Vector.set Vector.boundaryCheck Stl.setAt
  by_cases h : 0 ≤ i ∧ i < l.length
  · rw [if_neg (by omega), if_pos h]
    simp only [Out.ok_bind]
    rw [if_pos (by omega)]
  · rw [if_pos (by omega), if_neg h]
    rfl

theorem first_eq {l : List α} : Vector.first l = if h : l ≠ [] then .ok (l.head h) else .exit := by
  cases l <;> simp [Vector.first, Vector.emptyCheck, Stl.front]

theorem last_eq {l : List α} : Vector.last l = if h : l ≠ [] then .ok (l.getLast h) else .exit := by
  by_cases h : l = []
  · subst h; rfl
  · rw [dif_pos h]
    simp [Vector.last, Vector.emptyCheck, Stl.back, List.getLast?_eq_some_getLast h, h]

theorem pop_eq {l : List α} : Vector.pop l = if h : l ≠ [] then .ok (l.getLast h, l.dropLast) else .exit := by
  by_cases h : l = []
  · subst h; rfl
  · rw [dif_pos h]
    simp [Vector.pop, Vector.emptyCheck, Stl.back, Stl.popBack, List.getLast?_eq_some_getLast h, h]

theorem popFront_eq {l : List α} : Lst.popFront l = if h : l ≠ [] then .ok (l.head h, l.tail) else .exit := by
  cases l <;> simp [Lst.popFront, Lst.emptyCheck, Stl.front, Stl.popFront]

theorem call_safe (v : List α) (c : Vector.Call α) : Vector.call v c ≠ .ub ∧ Vector.call v c ≠ .diverge := by
  cases c with
  | get i =>
    rw [Vector.call, get_eq]
    split <;> simp
  | first => rw [Vector.call, first_eq]; split <;> simp
  | last => rw [Vector.call, last_eq]; split <;> simp
  | clear => simp [Vector.call]
  | insert i x => rw [Vector.call, insert_eq]; split <;> simp
  | erase i => rw [Vector.call, erase_eq]; split <;> simp
  | set i x => rw [Vector.call, set_eq]; split <;> simp
  | push x => simp [Vector.call]
  | pop => rw [Vector.call, pop_eq]; split <;> simp

theorem lcall_safe [LinearOrder α] (v : List α) (c : Lst.Call α) : Lst.call v c ≠ .ub ∧ Lst.call v c ≠ .diverge := by
  cases c with
  | get i => rw [Lst.call, lget_eq]; split <;> simp
  | first =>
    have e : Lst.first v = Vector.first v := rfl
    rw [Lst.call, e, first_eq]; split <;> simp
  | last =>
    have e : Lst.last v = Vector.last v := rfl
    rw [Lst.call, e, last_eq]; split <;> simp
  | clear => simp [Lst.call]
  | insert i x =>
    have e : Lst.insert v i x = Vector.insert v i x := rfl
    rw [Lst.call, e, insert_eq]; split <;> simp
  | erase i =>
    have e : Lst.erase v i = Vector.erase v i := rfl
    rw [Lst.call, e, erase_eq]; split <;> simp
  | push x => simp [Lst.call]
  | pushFront x => simp [Lst.call]
  | pop =>
    have e : Lst.pop v = Vector.pop v := rfl
    rw [Lst.call, e, pop_eq]; split <;> simp
  | popFront => rw [Lst.call, popFront_eq]; split <;> simp
  | sort => simp [Lst.call]
  | reverse => simp [Lst.call]

theorem get_insert {l : List α} {n : Nat} {x : α} (h : n ≤ l.length) (j : Nat) :
    (l.take n ++ x :: l.drop n)[j]? = if j < n then l[j]? else if j = n then some x else l[j - 1]? := by
  rw [List.getElem?_append]
  have hl : (l.take n).length = n := by simp; omega
  rw [hl]
  split
  · rw [List.getElem?_take_of_lt (by assumption)]
  · split
    · subst_vars; simp
    · rw [List.getElem?_cons, if_neg (by omega), List.getElem?_drop]
      congr 1
      omega

theorem get_erase {l : List α} {n : Nat} (h : n < l.length) (j : Nat) :
    (l.take n ++ l.drop (n + 1))[j]? = if j < n then l[j]? else l[j + 1]? := by
  rw [List.getElem?_append]
  have hl : (l.take n).length = n := by simp; omega
  rw [hl]
  split
  · rw [List.getElem?_take_of_lt (by assumption)]
  · rw [List.getElem?_drop]
    congr 1
    omega

/-! ## lexicographic comparison -/

theorem lexLt_iff [LinearOrder α] (l : List α) : ∀ l', Stl.lexLt (fun a b => decide (a < b)) l l' = decide (l < l') := by
  induction l with
  | nil => intro l'; cases l' <;> simp [Stl.lexLt]
  | cons x l ih =>
    intro l'
    cases l' with
    | nil => simp [Stl.lexLt]
    | cons y l' =>
      rw [Stl.lexLt, ih, Bool.eq_iff_iff]
      simp only [Bool.or_eq_true, Bool.and_eq_true, Bool.not_eq_true', decide_eq_true_eq, decide_eq_false_iff_not,
        List.cons_lt_cons_iff]
      constructor
      · rintro (h | ⟨h, h'⟩)
        · exact .inl h
        · rcases lt_or_eq_of_le (not_lt.1 h) with h1 | h1
          · exact .inl h1
          · exact .inr ⟨h1, h'⟩
      · rintro (h | ⟨h, h'⟩)
        · exact .inl h
        · exact .inr ⟨by simp [h], h'⟩

/-! ## Stack -/

theorem spop (s : List α) (x : α) : Stack.pop (s ++ [x]) = .ok (x, s) := by
  simp [Stack.pop, Stack.emptyCheck, Stl.back, Stl.popBack]

theorem stop (s : List α) (x : α) : Stack.top (s ++ [x]) = .ok x := by
  simp [Stack.top, Stack.emptyCheck, Stl.back]

theorem sclear (s : List α) : Stack.clear s = .ok [] := by
  unfold Stack.clear
  suffices ∀ n (s : List α), s.length = n → Stack.clearGo n s = .ok [] from this _ s rfl
  intro n
  induction n with
  | zero => intro s h; rw [List.length_eq_zero_iff.1 h]; rfl
  | succ n ih =>
    intro s h
    have hs : s ≠ [] := by intro e; subst e; simp at h
    simp [Stack.clearGo, Stl.popBack, hs]
    exact ih _ (by simp [h])

theorem qclear (s : List α) : Queue.clear s = .ok [] := by
  unfold Queue.clear
  induction s with
  | nil => rfl
  | cons x s ih => exact ih

theorem scalls_append (cs cs' : List (Stack.Call α)) : ∀ s, Stack.calls s (cs ++ cs') = (do
    let (r, s) ← Stack.calls s cs
    let (r', s) ← Stack.calls s cs'
    .ok (r ++ r', s)) := by
  induction cs with
  | nil =>
    intro s
    simp only [List.nil_append, Stack.calls, Out.ok_bind]
    cases Stack.calls s cs' <;> rfl
  | cons c cs ih =>
    intro s
    simp only [List.cons_append, Stack.calls, bind_assoc]
    congr 1
    funext p
    obtain ⟨r, s'⟩ := p
    simp only [ih, bind_assoc, Out.ok_bind]
    congr 1
    funext p
    obtain ⟨r1, s1⟩ := p
    simp only
    congr 1
    funext p
    simp

end Cont
