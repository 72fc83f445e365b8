import Verif.Cpp

/-! # More fuel changes nothing but divergence -/

namespace Cpp

/-- Either `a` ran out of fuel or both are the same. -/
def Le {α : Type} (a b : Out α) : Prop := a = .diverge ∨ a = b

theorem Le.rfl {α : Type} {a : Out α} : Le a a := .inr (Eq.refl _)

theorem Le.div {α : Type} {b : Out α} : Le .diverge b := .inl (Eq.refl _)

theorem Le.bind {α β : Type} {a b : Out α} {f g : α → Out β} (h : Le a b) (hf : ∀ x, Le (f x) (g x)) :
    Le (a >>= f) (b >>= g) := by
  rcases h with h | h
  · subst h; exact .inl (Eq.refl _)
  · subst h
    cases a with
    | ok x => exact hf x
    | exit => exact .rfl
    | ub => exact .rfl
    | diverge => exact .rfl

theorem Le.ok {α : Type} {a b : Out α} {x : α} (h : Le a b) (e : a = .ok x) : b = .ok x := by
  rcases h with h | h
  · rw [h] at e; cases e
  · rw [← h]; exact e

end Cpp
