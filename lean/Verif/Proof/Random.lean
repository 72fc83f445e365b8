import Verif.Model.Random
import Verif.Spec.Random
import Verif.Proof.Double
import Mathlib.Tactic.Linarith
import Mathlib.Data.Int.CardIntervalMod
import Mathlib.SetTheory.Cardinal.Finite

/-! # Lemmas about the generator -/

namespace Rand
open Cpp

variable {E : Engine}

/-- the output the engine gives next -/
abbrev out (s : E.σ) : Nat := (E.draw s).1.val
/-- the state of the engine after this -/
abbrev aft (s : E.σ) : E.σ := (E.draw s).2

theorem bind_run {α β : Type} (x : R E α) (f : α → R E β) (s : E.σ) :
    (x >>= f) s = (x s).bind fun p => f p.1 p.2 := rfl
theorem lift_run {α : Type} (x : Out α) (s : E.σ) :
    (StateT.lift x : R E α) s = x >>= fun a => .ok (a, s) := rfl
theorem pure_run {α : Type} (x : α) (s : E.σ) : (pure x : R E α) s = .ok (x, s) := rfl
theorem draw_run (s : E.σ) : (draw : R E Int) s = .ok ((out s : Int), aft s) := rfl

theorem nextInt2_run (min max : Int) (s : E.σ) (h : min < max) (hd : max - min ≤ INT_MAX)
    (h1 : IsInt min) (h2 : IsInt max) :
    nextInt2 min max s = .ok (((out s % (max - min).toNat : Nat) : Int) + min, aft s) := by
  unfold nextInt2
  rw [if_neg (by omega), bind_run, draw_run]
  simp only [Out.bind]
  rw [bind_run, lift_run, int_ok (by constructor <;> [(have : INT_MIN = -2147483648 := rfl); skip] <;> omega)]
  simp only [Out.ok_bind, Out.bind]
  have hm : INT_MAX = 2147483647 := rfl
  have hmin : INT_MIN = -2147483648 := rfl
  have e : ((out s : Int) % (max - min)).toNat = out s % (max - min).toNat := by
    have : (max - min) = ((max - min).toNat : Int) := by omega
    rw [this, ← Int.natCast_mod, Int.toNat_natCast, Int.toNat_natCast]
  have hlt : out s % (max - min).toNat < (max - min).toNat := Nat.mod_lt _ (by omega)
  rw [lift_run, e, toInt_small (by omega), int_ok]
  · rfl
  · obtain ⟨a, b⟩ := h1; obtain ⟨c, d⟩ := h2
    constructor <;> omega

theorem nextInt0_run (s : E.σ) : nextInt0 s =
    if out s % 4294967296 < 2147483648
    then .ok (((out s % 4294967296 : Nat) : Int) - 2147483648, aft s) else .ub := by
  unfold nextInt0
  rw [bind_run, draw_run]
  simp only [Out.bind]
  have hm : INT_MAX = 2147483647 := rfl
  have hmin : INT_MIN = -2147483648 := rfl
  have hd : (INT_MAX + 1 - INT_MIN) % 2 ^ 64 = 4294967296 := by decide
  rw [hd, lift_run]
  have e : ((out s : Int) % 4294967296).toNat = out s % 4294967296 := by omega
  rw [e]
  have hlt : out s % 4294967296 < 4294967296 := Nat.mod_lt _ (by omega)
  split
  · rw [toInt_small (by omega), int_ok (by constructor <;> omega)]
    simp only [Out.ok_bind, hmin]
    congr 1
  · unfold toInt
    dsimp only
    rw [Nat.mod_eq_of_lt hlt, if_neg (by omega)]
    unfold int
    rw [if_neg (by intro h; obtain ⟨a, b⟩ := h; omega)]
    rfl

theorem nextInt1_run (max : Int) (s : E.σ) (h : 0 < max) (h2 : IsInt max) :
    nextInt1 max s = .ok (((out s % max.toNat : Nat) : Int), aft s) := by
  unfold nextInt1
  rw [if_neg (by omega), nextInt2_run 0 max s h (by have := h2.2; omega) (by decide) h2]
  simp

theorem nextBool_run (s : E.σ) : nextBool s = .ok (decide (out s % 2 = 1), aft s) := by
  unfold nextBool
  rw [bind_run, nextInt1_run 2 s (by omega) (by decide)]
  simp only [Out.bind, pure_run]
  have : ((2 : Int).toNat) = 2 := rfl
  rw [this]
  congr 2
  rw [decide_eq_decide]
  omega

/-- Numbers below a multiple or not of `d` with a given remainder. -/
theorem card_mod (n d v : Nat) (hv : v < d) :
    n / d ≤ Nat.card {g : Fin n // g.val % d = v} ∧
      Nat.card {g : Fin n // g.val % d = v} ≤ n / d + 1 := by
  have e : Nat.card {g : Fin n // g.val % d = v} = n.count (fun x => x ≡ v [MOD d]) := by
    rw [Nat.count_eq_card_filter_range, ← Nat.card_eq_finsetCard]
    refine Nat.card_congr ⟨fun g => ⟨g.1.1, ?_⟩, fun x => ⟨⟨x.1, ?_⟩, ?_⟩, fun _ => rfl, fun _ => rfl⟩
    · rw [Finset.mem_filter, Finset.mem_range]
      refine ⟨g.1.2, ?_⟩
      show g.1.val % d = v % d
      rw [g.2, Nat.mod_eq_of_lt hv]
    · exact Finset.mem_range.1 (Finset.mem_filter.1 x.2).1
    · have : x.1 % d = v % d := (Finset.mem_filter.1 x.2).2
      exact this.trans (Nat.mod_eq_of_lt hv)
  rw [e, Nat.count_modEq_card _ (by omega)]
  split <;> omega

end Rand
