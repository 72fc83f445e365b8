import Verif.Proof.JsonDepth
import Verif.Props.JsonStack

/-! # C188: the stack for writing, copying and destroying a JSON value -/

namespace Json
open Cpp Spec

/-- The property C188: some fixed number of nested calls suffices to write, copy and destroy every value. -/
def C188 : Prop := ∃ D : Nat, ∀ v : Value,
  (∀ tab depth, dumpD tab D depth v = .ok (dump tab depth v)) ∧ copyD D v = .ok v ∧ destroyD D v = .ok ()

/-- C188, exactly: `dump`, the copy constructor and the destructor each need as many nested calls as there are values in each
other, and no more: with room for that many they do what they do without a limit, with less room they overflow the stack. -/
theorem C188_partial (D : Nat) (v : Value) :
    (levels v ≤ D → (∀ tab depth, dumpD tab D depth v = .ok (dump tab depth v)) ∧ copyD D v = .ok v ∧ destroyD D v = .ok ()) ∧
    (D < levels v → (∀ tab depth, dumpD tab D depth v = .ub) ∧ copyD D v = .ub ∧ destroyD D v = .ub) := by
  refine ⟨fun h => ⟨fun tab depth => ?_, ?_, ?_⟩, fun h => ⟨fun tab depth => ?_, ?_, ?_⟩⟩
  · rw [dumpD_eq, if_pos h]
  · rw [copyD_eq, if_pos h]
  · rw [destroyD_eq, if_pos h]
  · rw [dumpD_eq, if_neg (by omega)]
  · rw [copyD_eq, if_neg (by omega)]
  · rw [destroyD_eq, if_neg (by omega)]

/-- **C148, what the stack needs to hold at least.**  With any room `loadJSON` either overflows the stack or does what it does
without a limit; it overflows if there is room for fewer nested calls than there are values in each other in the result. -/
theorem C148_needed_partial (D : Nat) (str : Str) :
    (loadJSOND D str = .ub ∨ loadJSOND D str = loadJSON str) ∧
    ∀ v, loadJSON str = .ok v → D < levels v → loadJSOND D str = .ub := by
  refine ⟨loadD_or D str, fun v h hD => ?_⟩
  rcases loadD_or D str with e | e
  · exact e
  · have := loadD_levels (e.trans h)
    omega

/-- C188: a value that `loadJSON` could read with room for `D` nested calls can be written, copied and destroyed with room for
`D` nested calls. -/
theorem C188_loaded_partial (D : Nat) (str : Str) (v : Value) (h : loadJSOND D str = .ok v) :
    (∀ tab depth, dumpD tab D depth v = .ok (dump tab depth v)) ∧ copyD D v = .ok v ∧ destroyD D v = .ok () :=
  (C188_partial D v).1 (loadD_levels h)

theorem levels_nest (n : Nat) : levels (nest n) = n + 1 := by
  induction n with
  | zero => rfl
  | succ n ih => simp only [nest, levels, levelsArr, ih]; omega

/-- C188 is false: whatever the room, `D + 1` arrays in each other cannot be written, copied or destroyed. -/
theorem C188_refuted : ¬ C188 := by
  rintro ⟨D, h⟩
  have h1 := (h (nest D)).2.2
  rw [((C188_partial D (nest D)).2 (by rw [levels_nest]; omega)).2.2] at h1
  cases h1

/-- C188: so a value made step by step by putting it into an array overflows the stack when the variable is destroyed, at a number
of steps that equals the room, although each step by itself was in order. -/
theorem C188_wrapped_refuted (n D : Nat) : destroyD D (nest n) = if n < D then .ok () else .ub := by
  rw [destroyD_eq, levels_nest]
  by_cases c : n < D
  · rw [if_pos c, if_pos (by omega)]
  · rw [if_neg c, if_neg (by omega)]

example : levels (.obj [(bytes ['a'], .arr [.int 1, .arr []]), (bytes ['b'], .null)]) = 3 := rfl

example : loadJSOND 7 (nestText 8) = .ub := (C148_needed_partial 7 _).2 (nest 7)
  ((loadD_eq (D := 9) (by decide)).symm.trans ((C148_nested_partial 7 9).2 (by omega))) (by rw [levels_nest]; omega)

example : loadJSOND 9 (nestText 8) = .ok (nest 7) := (C148_nested_partial 7 9).2 (by omega)

example : dumpD (bytes [' ']) 3 1 (.arr [.arr [.int 1], .int 2]) = .ok (bytes ['[', '[', '1', ']', ',', ' ', '2', ']']) := by rfl
example : dumpD (bytes [' ']) 2 1 (.arr [.arr [.int 1], .int 2]) = .ub := by rfl

end Json
