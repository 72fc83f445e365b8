import Verif.Proof.GcdTypes
import Verif.Spec.GcdTypes

/-! # C149: `gcd` and `lcm` for arguments of two integer types -/

namespace GcdTypes
open Cpp Spec

theorem keepsSign_iff (t u : ITy) : KeepsSign t u ↔ (arith t u).signed = true := by
  cases t <;> cases u <;> decide

theorem arith_type (t u : ITy) : arith t u = arithType t u := by
  cases t <;> cases u <;> decide

theorem common_type (t u : ITy) : common t u = commonType t u := by
  cases t <;> cases u <;> decide

theorem fit_of {t u : ITy} {a b : Int} (ha : t.In a) (hb : u.In b) (h : KeepsSign t u ∨ (0 ≤ a ∧ 0 ≤ b)) : Fit t u a b :=
  ⟨ha, hb, h.imp (keepsSign_iff t u).1 id⟩

theorem not_extreme {t u : ITy} {a b : Int} (h : KeepsSign t u ∨ (0 ≤ a ∧ 0 ≤ b)) (hx : ¬ Extreme t u a b) :
    ¬ (a = (arith t u).min ∧ b = -1) ∧ ¬ (a = -1 ∧ b = (arith t u).min) := by
  rcases h with h | h
  · have e : (arith t u).min = if t = .i64 ∨ u = .i64 then -9223372036854775808 else -2147483648 := by
      revert h; cases t <;> cases u <;> decide
    rw [e]
    unfold Extreme at hx
    exact ⟨fun h => hx (.inl h), fun h => hx (.inr h)⟩
  · exact ⟨fun h' => by omega, fun h' => by omega⟩

/-- **C149.**  For all integer types and all values, `gcd` ends with a greatest common divisor. -/
def C149 : Prop := ∀ (t u : ITy) (a b : Int), t.In a → u.In b → ∃ fuel g, gcd t u fuel a b = .ok g ∧ g.natAbs = Int.gcd a b

/-- **C149** (refuted: no result).  For a negative `short` and the `unsigned` 2^31 the loop never ends. -/
theorem C149_endless_refuted (a : Int) (h1 : -32768 ≤ a) (h2 : a < 0) (fuel : Nat) :
    gcd .i16 .u32 fuel a 2147483648 = .diverge := by
  have e1 : remAssign .i16 .u32 a 2147483648 = .ok a := by
    simp only [remAssign, arith, ITy.promote, ITy.conv, ITy.signed, ITy.bits]
    have h3 : a % 4294967296 = 4294967296 + a := by omega
    have h4 : (4294967296 + a).tmod 2147483648 = 2147483648 + a := by
      rw [Int.tmod_eq_emod_of_nonneg (by omega)]; omega
    simp [h3, h4, Int.bmod]
    omega
  have e2 : remAssign .u32 .i16 2147483648 a = .ok 2147483648 := by
    simp only [remAssign, arith, ITy.promote, ITy.conv, ITy.signed, ITy.bits]
    have h3 : a % 4294967296 = 4294967296 + a := by omega
    have h4 : (2147483648 : Int).tmod (4294967296 + a) = 2147483648 := by
      rw [Int.tmod_eq_emod_of_nonneg (by omega), Int.emod_eq_of_lt (by omega) (by omega)]
    simp [h3, h4]
    omega
  unfold gcd
  rw [if_pos (by decide)]
  induction fuel with
  | zero => rfl
  | succ fuel ih =>
    rw [gcdGo, e1, Out.ok_bind, if_neg (by omega), e2, Out.ok_bind, if_neg (by decide), ih]

example : gcd .i16 .u32 1000000 (-6) 2147483648 = .diverge := C149_endless_refuted (-6) (by decide) (by decide) _

/-- **C149** (refuted). -/
theorem C149_refuted : ¬ C149 := by
  intro h
  obtain ⟨fuel, g, e, -⟩ := h .i16 .u32 (-6) 2147483648 (by decide) (by decide)
  rw [C149_endless_refuted _ (by decide) (by decide)] at e
  cases e

/-- **C149** (refuted: wrong result).  `gcd(-6, 9u)` is 1. -/
theorem C149_wrong_refuted (fuel : Nat) (h : 2 ≤ fuel) : gcd .i32 .u32 fuel (-6) 9 = .ok 1 := by
  obtain ⟨k, rfl⟩ : ∃ k, fuel = k + 2 := ⟨fuel - 2, by omega⟩
  rfl

example : gcd .i32 .u32 7 (-6) 9 = .ok 1 ∧ Int.gcd (-6) 9 = 3 := ⟨C149_wrong_refuted 7 (by omega), by decide⟩

/-- **C149** (partial).  The statement holds, and the result is a value of the common type, if both values are not negative
or the types are such that nothing is made unsigned, except for the pairs of -1 and the least value. -/
theorem C149_gcd_partial (t u : ITy) (a b : Int) (ha : t.In a) (hb : u.In b) (h : KeepsSign t u ∨ (0 ≤ a ∧ 0 ≤ b))
    (hx : ¬ Extreme t u a b) : ∃ g, (∀ fuel, b.natAbs < fuel → gcd t u fuel a b = .ok g) ∧ g.natAbs = Int.gcd a b ∧
      (0 ≤ a → 0 ≤ b → 0 ≤ g) ∧ (commonType t u).In g := by
  obtain ⟨n1, n2⟩ := not_extreme h hx
  obtain ⟨g, e, h1, h2, h3⟩ := gcd_ok (fit_of ha hb h) n1 n2 (Nat.lt_succ_self b.natAbs)
  refine ⟨g, fun fuel hf => ?_, h1, h2, common_type t u ▸ h3⟩
  obtain ⟨g', e', -⟩ := gcd_ok (fit_of ha hb h) n1 n2 hf
  rw [e', gcd_fuel e e']

/-- an `unsigned` and a negative `long long`; two `unsigned`s; a `short` and an `unsigned char` -/
example : (∃ g, gcd .u32 .i64 9 12 (-8) = .ok g ∧ g.natAbs = 4) ∧ (∃ g, gcd .u32 .u32 5000000000 4294967295 4294967290 = .ok g ∧ g.natAbs = 5) ∧
    ∃ g, gcd .i16 .u8 256 (-150) 100 = .ok g ∧ g.natAbs = 50 := by
  obtain ⟨g, e, h, -⟩ := C149_gcd_partial .u32 .i64 12 (-8) (by decide) (by decide) (.inl (by decide)) (by unfold Extreme; decide)
  obtain ⟨g', e', h', -⟩ := C149_gcd_partial .u32 .u32 4294967295 4294967290 (by decide) (by decide) (.inr (by decide)) (by unfold Extreme; decide)
  obtain ⟨g2, e2, h2, -⟩ := C149_gcd_partial .i16 .u8 (-150) 100 (by decide) (by decide) (.inl (by decide)) (by unfold Extreme; decide)
  exact ⟨⟨g, e 9 (by decide), h⟩, ⟨g', e' _ (by decide), h'⟩, ⟨g2, e2 _ (by decide), h2⟩⟩

/-- **C149** (the excluded pairs).  With the least `int` and -1 both orders are undefined. -/
theorem C149_extreme_refuted (fuel : Nat) (h : 0 < fuel) :
    gcd .i32 .i32 fuel (-2147483648) (-1) = .ub ∧ gcd .i32 .i32 fuel (-1) (-2147483648) = .ub ∧
    gcd .i64 .i16 fuel (-9223372036854775808) (-1) = .ub := by
  obtain ⟨k, rfl⟩ : ∃ k, fuel = k + 1 := ⟨fuel - 1, by omega⟩
  exact ⟨rfl, rfl, rfl⟩

example : gcd .i32 .i32 1 (-2147483648) (-1) = .ub := (C149_extreme_refuted 1 (by omega)).1

/-- **C149** (partial, `lcm`).  Under the same conditions, if not both arguments are 0, the product fits into the type of the
multiplication and the least common multiple into the common type, `lcm` gives a least common multiple. -/
theorem C149_lcm_partial (t u : ITy) (a b : Int) (ha : t.In a) (hb : u.In b) (h : KeepsSign t u ∨ (0 ≤ a ∧ 0 ≤ b))
    (hx : ¬ Extreme t u a b) (h0 : a ≠ 0 ∨ b ≠ 0) (hp : (arithType t u).In (a * b))
    (hl : (Int.lcm a b : Int) ≤ (commonType t u).max) :
    ∃ m, (∀ fuel, b.natAbs < fuel → lcm t u fuel a b = .ok m) ∧ m.natAbs = Int.lcm a b ∧ (0 ≤ a → 0 ≤ b → 0 ≤ m) := by
  obtain ⟨n1, n2⟩ := not_extreme h hx
  have hF := fit_of ha hb h
  rw [← arith_type] at hp
  rw [← common_type] at hl
  obtain ⟨m, e, h1, h2⟩ := lcm_ok hF h0 n1 n2 hp hl (Nat.lt_succ_self b.natAbs)
  refine ⟨m, fun fuel hf => ?_, h1, h2⟩
  obtain ⟨g, eg, -⟩ := gcd_ok hF n1 n2 (Nat.lt_succ_self b.natAbs)
  obtain ⟨g', eg', -⟩ := gcd_ok hF n1 n2 hf
  rw [← e]
  unfold lcm
  rw [eg, eg', gcd_fuel eg eg']

/-- the product 6000000000 of two `int`s does not fit an `int`, but that of an `int` and a `long long` fits -/
example : ∃ m, lcm .i32 .i64 100001 60000 100000 = .ok m ∧ m.natAbs = 300000 := by
  obtain ⟨m, e, h, -⟩ := C149_lcm_partial .i32 .i64 60000 100000 (by decide) (by decide) (.inl (by decide)) (by unfold Extreme; decide)
    (by decide) (by decide) (by decide)
  exact ⟨m, e _ (by decide), h⟩

/-- **C149** (refuted, `lcm`).  For two `short`s the product is an `int`, but the result is cut to a `short`: the least common
multiple 90300 of 300 and 301 is returned as 24764. -/
theorem C149_lcm_refuted (fuel : Nat) (h : 2 ≤ fuel) : lcm .i16 .i16 fuel 300 301 = .ok 24764 := by
  obtain ⟨k, rfl⟩ : ∃ k, fuel = k + 2 := ⟨fuel - 2, by omega⟩
  rfl

example : lcm .i16 .i16 2 300 301 = .ok 24764 ∧ Int.lcm 300 301 = 90300 := ⟨C149_lcm_refuted 2 (by omega), by decide⟩

end GcdTypes
