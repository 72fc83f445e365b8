import Verif.Proof.RandomDouble

/-! # Properties of Random: C59, C60, C61, C88

The outputs of the engine are arbitrary: the theorems hold for every engine `E` and every state `s`
of it, and `(E.draw s).1` is the 64-bit number the engine yields in this state. -/

set_option exponentiation.threshold 2000

namespace Rand.Props
open Cpp Spec Rand

/-- An engine for the examples: it counts. -/
def counter : Engine := ⟨Fin (2 ^ 64), id, fun s => (s, s + 1)⟩

instance : DecidableEq counter.σ := inferInstanceAs (DecidableEq (Fin (2 ^ 64)))

/-! ### C59 nextInt(min, max) -/

/-- **C59, what holds.**  If `max - min` fits into an `int`, `nextInt(min, max)` returns a value in
`[min, max)` for every output of the engine. -/
theorem C59_range_partial (E : Engine) (s : E.σ) (min max : Int) (hmin : IsInt min) (hmax : IsInt max)
    (h : min < max) (hd : max - min ≤ INT_MAX) :
    ∃ v, nextInt2 min max s = .ok (v, (E.draw s).2) ∧ min ≤ v ∧ v < max := by
  refine ⟨_, nextInt2_run min max s h hd hmin hmax, ?_, ?_⟩
  · omega
  · have : out s % (max - min).toNat < (max - min).toNat := Nat.mod_lt _ (by omega)
    omega

/-- **C59, what holds.**  Every value of the range is returned for some output of the engine. -/
theorem C59_cover_partial (min max : Int) (hmin : IsInt min) (hmax : IsInt max)
    (hd : max - min ≤ INT_MAX) (v : Int) (h1 : min ≤ v) (h2 : v < max) :
    ∃ g : Fin (2 ^ 64), ∀ (E : Engine) (s : E.σ), (E.draw s).1 = g →
      nextInt2 min max s = .ok (v, (E.draw s).2) := by
  have hm : INT_MAX = 2147483647 := rfl
  refine ⟨⟨(v - min).toNat, by omega⟩, fun E s hg => ?_⟩
  rw [nextInt2_run min max s (by omega) hd hmin hmax]
  have : out s = (v - min).toNat := by unfold out; rw [hg]
  rw [this, Nat.mod_eq_of_lt (by omega)]
  have : (((v - min).toNat : Nat) : Int) + min = v := by omega
  rw [this]

/-- **C59.**  If `max <= min`, and for `nextInt(max)` if `max <= 0`, the program is ended. -/
theorem C59_invalid (E : Engine) (s : E.σ) (min max : Int) :
    (max ≤ min → nextInt2 min max s = .exit) ∧ (max ≤ 0 → nextInt1 max s = .exit) := by
  refine ⟨fun h => ?_, fun h => ?_⟩
  · unfold nextInt2; rw [if_pos h]; rfl
  · unfold nextInt1; rw [if_pos h]; rfl

/-- **C59.**  `nextInt(max)` is in `[0, max)`. -/
theorem C59_max (E : Engine) (s : E.σ) (max : Int) (hmax : IsInt max) (h : 0 < max) :
    ∃ v, nextInt1 max s = .ok (v, (E.draw s).2) ∧ 0 ≤ v ∧ v < max := by
  refine ⟨_, nextInt1_run max s h hmax, by omega, ?_⟩
  have : out s % max.toNat < max.toNat := Nat.mod_lt _ (by omega)
  omega

/-- **C59, refuted.**  If `max - min` does not fit into an `int`, the behaviour is undefined, e.g. for
`nextInt(-2000000000, 2000000000)`, whatever the engine yields. -/
theorem C59_refuted :
    (∀ (E : Engine) (s : E.σ), nextInt2 (-2000000000) 2000000000 s = .ub) ∧
    ∀ (E : Engine) (s : E.σ) (min max : Int), max - min > INT_MAX → nextInt2 min max s = .ub := by
  have key : ∀ (E : Engine) (s : E.σ) (min max : Int), max - min > INT_MAX → nextInt2 min max s = .ub := by
    intro E s min max h
    have hm : INT_MAX = 2147483647 := rfl
    unfold nextInt2
    rw [if_neg (by omega), bind_run, draw_run]
    simp only [Out.bind]
    rw [bind_run, lift_run]
    unfold int
    rw [if_neg (by rintro ⟨_, _⟩; omega)]
    rfl
  exact ⟨fun E s => key E s _ _ (by decide), key⟩

example : IsInt (-5) ∧ IsInt 6 ∧ (-5 : Int) < 6 ∧ (6 : Int) - -5 ≤ INT_MAX := by decide
example : (nextInt2 (-5) 6 : R counter Int) (17 : Fin (2 ^ 64)) = .ok (1, (18 : Fin (2 ^ 64))) := by
  decide +kernel

/-! ### C60 nextInt() -/

/-- **C60, refuted.**  For one half of the outputs of the engine the behaviour of `nextInt()` is
undefined, e.g. for 2147483648. -/
theorem C60_refuted (E : Engine) (s : E.σ) :
    nextInt0 s = .ub ↔ 2 ^ 31 ≤ (E.draw s).1.val % 2 ^ 32 := by
  rw [nextInt0_run]
  show (if (E.draw s).1.val % 4294967296 < 2147483648 then _ else _) = _ ↔ _
  split <;> simp <;> omega

/-- **C60, what holds.**  For the other half of the outputs `nextInt()` returns a negative `int`, and
every negative `int` is returned for some output. -/
theorem C60_negative_partial :
    (∀ (E : Engine) (s : E.σ), (E.draw s).1.val % 2 ^ 32 < 2 ^ 31 →
      ∃ v, nextInt0 s = .ok (v, (E.draw s).2) ∧ IsInt v ∧ v < 0) ∧
    ∀ v, IsInt v → v < 0 → ∃ g : Fin (2 ^ 64), ∀ (E : Engine) (s : E.σ), (E.draw s).1 = g →
      nextInt0 s = .ok (v, (E.draw s).2) := by
  have hmin : INT_MIN = -2147483648 := rfl
  have hmax : INT_MAX = 2147483647 := rfl
  constructor
  · intro E s h
    have h' : out s % 4294967296 < 2147483648 := h
    refine ⟨((out s % 4294967296 : Nat) : Int) - 2147483648, ?_, ?_, ?_⟩
    · rw [nextInt0_run, if_pos h']
    · constructor <;> omega
    · omega
  · intro v ⟨h1, _⟩ h
    refine ⟨⟨(v + 2147483648).toNat, by omega⟩, fun E s hg => ?_⟩
    rw [nextInt0_run]
    have : out s = (v + 2147483648).toNat := by unfold out; rw [hg]
    rw [this, if_pos (by omega)]
    have : (((v + 2147483648).toNat % 4294967296 : Nat) : Int) - 2147483648 = v := by omega
    rw [this]

example : (counter.draw (2147483648 : Fin (2 ^ 64))).1.val % 2 ^ 32 ≥ 2 ^ 31 := by decide +kernel
example : (nextInt0 : R counter Int) (2147483648 : Fin (2 ^ 64)) = .ub := by decide +kernel
example : (nextInt0 : R counter Int) (5 : Fin (2 ^ 64)) = .ok (-2147483643, (6 : Fin (2 ^ 64))) := by
  decide +kernel

/-! ### C88 uniformity -/

/-- **C88, what holds.**  Each value of the range is returned for ⌊2^64/d⌋ or ⌊2^64/d⌋ + 1 of the
2^64 outputs of the engine, where `d = max - min` is the number of values (if `d` fits into an
`int`). -/
theorem C88_int_partial (min max : Int) (hmin : IsInt min) (hmax : IsInt max) (hd : max - min ≤ INT_MAX)
    (v : Int) (h1 : min ≤ v) (h2 : v < max) :
    (2 ^ 64 : Int) / (max - min) ≤
      Nat.card {g : Fin (2 ^ 64) // ∀ (E : Engine) (s : E.σ), (E.draw s).1 = g →
        nextInt2 min max s = .ok (v, (E.draw s).2)} ∧
    (Nat.card {g : Fin (2 ^ 64) // ∀ (E : Engine) (s : E.σ), (E.draw s).1 = g →
        nextInt2 min max s = .ok (v, (E.draw s).2)} : Int) ≤ (2 ^ 64 : Int) / (max - min) + 1 := by
  have e : Nat.card {g : Fin (2 ^ 64) // ∀ (E : Engine) (s : E.σ), (E.draw s).1 = g →
        nextInt2 min max s = .ok (v, (E.draw s).2)}
      = Nat.card {g : Fin (2 ^ 64) // g.val % (max - min).toNat = (v - min).toNat} := by
    refine Nat.card_congr (Equiv.subtypeEquivRight fun g => ?_)
    constructor
    · intro h
      have := h ⟨Unit, fun _ => (), fun _ => (g, ())⟩ () rfl
      rw [nextInt2_run min max _ (by omega) hd hmin hmax] at this
      simp only [Out.ok.injEq, Prod.mk.injEq] at this
      have := this.1
      unfold out at this
      dsimp only at this
      omega
    · intro h E s hg
      rw [nextInt2_run min max s (by omega) hd hmin hmax]
      have : out s = g.val := by unfold out; rw [hg]
      rw [this, h]
      have : (((v - min).toNat : Nat) : Int) + min = v := by omega
      rw [this]
  rw [e]
  obtain ⟨a, b⟩ := card_mod (2 ^ 64) (max - min).toNat (v - min).toNat (by omega)
  have e2 : (2 ^ 64 : Int) / (max - min) = ((2 ^ 64 / (max - min).toNat : Nat) : Int) := by
    rw [Int.natCast_div]
    have : (((max - min).toNat : Nat) : Int) = max - min := by omega
    rw [this]
    norm_cast
  rw [e2]
  omega

/-- **C88, refuted.**  In a range with more values than the greatest `int` no value is ever returned,
although each ought to be for at least 4294967296 outputs, e.g. 0 by `nextInt(-2000000000, 2000000000)`. -/
theorem C88_refuted :
    Nat.card {g : Fin (2 ^ 64) // ∀ (E : Engine) (s : E.σ), (E.draw s).1 = g →
        nextInt2 (-2000000000) 2000000000 s = .ok (0, (E.draw s).2)} = 0 ∧
    4294967296 ≤ (2 ^ 64 : Int) / (2000000000 - -2000000000) := by
  refine ⟨?_, by norm_num⟩
  rw [Nat.card_eq_zero]
  left
  refine ⟨fun g => ?_⟩
  have h := g.2 ⟨Unit, fun _ => (), fun _ => (g.1, ())⟩ () rfl
  rw [C59_refuted.1] at h
  cases h

/-- **C88.**  `nextBool()` always returns, and is `true` for exactly one half of the outputs. -/
theorem C88_bool :
    (∀ (E : Engine) (s : E.σ), ∃ b, nextBool s = .ok (b, (E.draw s).2)) ∧
    Nat.card {g : Fin (2 ^ 64) // ∀ (E : Engine) (s : E.σ), (E.draw s).1 = g →
        nextBool s = .ok (true, (E.draw s).2)} = 2 ^ 63 := by
  refine ⟨fun E s => ⟨_, nextBool_run s⟩, ?_⟩
  have e : Nat.card {g : Fin (2 ^ 64) // ∀ (E : Engine) (s : E.σ), (E.draw s).1 = g →
        nextBool s = .ok (true, (E.draw s).2)} = Nat.card (Fin (2 ^ 63)) := by
    refine Nat.card_congr ⟨fun g => ⟨g.1.val / 2, by have := g.1.isLt; omega⟩,
      fun x => ⟨⟨2 * x.val + 1, by have := x.isLt; omega⟩, ?_⟩, ?_, ?_⟩
    · intro E s hg
      rw [nextBool_run]
      have : out s = 2 * x.val + 1 := by unfold out; rw [hg]
      rw [this]
      have : (2 * x.val + 1) % 2 = 1 := by omega
      rw [this]
      simp
    · rintro ⟨g, hg⟩
      have := hg ⟨Unit, fun _ => (), fun _ => (g, ())⟩ () rfl
      rw [nextBool_run] at this
      simp only [Out.ok.injEq, Prod.mk.injEq, decide_eq_true_eq] at this
      have := this.1
      unfold out at this
      dsimp only at this
      apply Subtype.ext
      apply Fin.ext
      dsimp only
      omega
    · intro x
      apply Fin.ext
      dsimp only
      omega
  rw [e, Nat.card_fin]

example : IsInt 1 ∧ IsInt 7 ∧ (7 : Int) - 1 ≤ INT_MAX ∧ (1 : Int) ≤ 6 ∧ (6 : Int) < 7 := by decide
example : (nextBool : R counter Bool) (17 : Fin (2 ^ 64)) = .ok (true, (18 : Fin (2 ^ 64))) := by decide +kernel

/-! ### C61 nextDouble -/

/-- **C61, what holds.**  For doubles `min ≤ max` of absolute value at most `2^1022`,
`nextDouble(min, max)` returns a finite double that is not below `min`, and the result grows with the
output of the engine. -/
theorem C61_lower_partial (E : Engine) (s : E.σ) (min max : ℚ) (hmin : IsDouble min) (h : min ≤ max)
    (h1 : |min| ≤ 2 ^ 1022) (h2 : |max| ≤ 2 ^ 1022) :
    ∃ q, nextDouble2 (Dbl.fin min) (Dbl.fin max) s = .ok (Dbl.fin q, (E.draw s).2) ∧ IsDouble q ∧ min ≤ q ∧
      ∀ (E' : Engine) (s' : E'.σ) q', nextDouble2 (Dbl.fin min) (Dbl.fin max) s' = .ok (Dbl.fin q', (E'.draw s').2) →
        (E.draw s).1.val ≤ (E'.draw s').1.val → q ≤ q' := by
  refine ⟨_, nextDouble2_run min max h h1 h2 s, ndVal_isDouble h h1 h2 (E.draw s).1.isLt,
    ndVal_ge hmin h _, ?_⟩
  intro E' s' q' hq hg
  rw [nextDouble2_run min max h h1 h2 s'] at hq
  simp only [Out.ok.injEq, Prod.mk.injEq, Dbl.fin.injEq, and_true] at hq
  rw [← hq]
  exact ndVal_mono h hg

/-- **C61, what holds.**  `nextDouble(max)` is in `[0, max]`. -/
theorem C61_max_partial (E : Engine) (s : E.σ) (max : ℚ) (hmax : IsDouble max) (h : 0 ≤ max)
    (h2 : |max| ≤ 2 ^ 1022) :
    ∃ q, nextDouble1 (Dbl.fin max) s = .ok (Dbl.fin q, (E.draw s).2) ∧ IsDouble q ∧ 0 ≤ q ∧ q ≤ max := by
  have h0 : ((0 : Int) : Dbl) = Dbl.fin 0 := by decide +kernel
  have hz : |(0 : ℚ)| ≤ 2 ^ 1022 := by norm_num
  have hd : IsDouble 0 := ⟨0, 0, by norm_num, by norm_num, by norm_num, by norm_num⟩
  unfold nextDouble1
  rw [h0, if_neg (by rw [fin_lt]; linarith)]
  exact ⟨_, nextDouble2_run 0 max h hz h2 s, ndVal_isDouble h hz h2 (E.draw s).1.isLt,
    ndVal_ge hd h _, ndVal_zero_le hmax h (E.draw s).1.isLt⟩

/-- **C61, what holds and what does not.**  `nextDouble()` is in `[0, 1]`; it is 1 for exactly the
1024 greatest outputs of the engine. -/
theorem C61_unit_partial (E : Engine) (s : E.σ) :
    ∃ q, nextDouble0 s = .ok (Dbl.fin q, (E.draw s).2) ∧ 0 ≤ q ∧ q ≤ 1 ∧
      (q = 1 ↔ 2 ^ 64 - 1024 ≤ (E.draw s).1.val) := by
  have h0 : ((0 : Int) : Dbl) = Dbl.fin 0 := by decide +kernel
  have h1 : ((1 : Int) : Dbl) = Dbl.fin 1 := by decide +kernel
  unfold nextDouble0
  rw [h0, h1, nextDouble2_run 0 1 (by norm_num) (by norm_num) (by norm_num), ndVal_one]
  exact ⟨_, rfl, unif_nonneg _, unif_le_one (E.draw s).1.isLt, unif_eq_one_iff (E.draw s).1.isLt⟩

/-- **C61.**  If `max < min` the program is ended; likewise `nextDouble(max)` if `max < 0`. -/
theorem C61_invalid (E : Engine) (s : E.σ) (min max : Dbl) :
    (max < min → nextDouble2 min max s = .exit) ∧ (max < Dbl.fin 0 → nextDouble1 max s = .exit) := by
  refine ⟨fun h => ?_, fun h => ?_⟩
  · unfold nextDouble2; rw [if_pos h]; rfl
  · have h0 : ((0 : Int) : Dbl) = Dbl.fin 0 := by decide +kernel
    unfold nextDouble1; rw [h0, if_pos h]; rfl

/-- **C61, refuted.**  The upper end is not excluded, as documented.
* `nextDouble()` is 1 if the engine yields `2^64 - 1`;
* `nextDouble(2^53, 2^53 + 2)` is `2^53 + 2` for almost one half of the outputs: all above
  `2^63 + 2047`;
* `nextDouble(-1, 3 * 2^-54)` is `2^-52`, beyond `max`, if the engine yields `2^64 - 1`;
* `nextDouble(-m, m)` is never a finite number for the greatest double `m`. -/
theorem C61_refuted :
    (∀ (E : Engine) (s : E.σ), (E.draw s).1 = 2 ^ 64 - 1 →
      nextDouble0 s = .ok (Dbl.fin 1, (E.draw s).2)) ∧
    (∀ (E : Engine) (s : E.σ), 2 ^ 63 + 2048 ≤ (E.draw s).1.val →
      nextDouble2 (Dbl.fin (2 ^ 53)) (Dbl.fin (2 ^ 53 + 2)) s = .ok (Dbl.fin (2 ^ 53 + 2), (E.draw s).2)) ∧
    (IsDouble (3 / 2 ^ 54) ∧ (2 : ℚ) / 2 ^ 53 > 3 / 2 ^ 54 ∧
      ∀ (E : Engine) (s : E.σ), (E.draw s).1 = 2 ^ 64 - 1 →
        nextDouble2 (Dbl.fin (-1)) (Dbl.fin (3 / 2 ^ 54)) s = .ok (Dbl.fin (2 / 2 ^ 53), (E.draw s).2)) ∧
    (IsDouble ((2 ^ 53 - 1) * 2 ^ 971) ∧
      ∀ (E : Engine) (s : E.σ) q s', nextDouble2 (Dbl.fin (-((2 ^ 53 - 1) * 2 ^ 971)))
        (Dbl.fin ((2 ^ 53 - 1) * 2 ^ 971)) s ≠ .ok (Dbl.fin q, s')) := by
  have hmaxg : (((2 : Fin (2 ^ 64)) ^ 64 - 1 : Fin (2 ^ 64))).val = 2 ^ 64 - 1 := by decide +kernel
  refine ⟨?_, ?_, ⟨?_, ?_, ?_⟩, ?_, ?_⟩
  · intro E s hg
    obtain ⟨q, h1, _, _, h2⟩ := C61_unit_partial E s
    rw [h1, h2.2 (by rw [hg, hmaxg]; omega)]
  · intro E s hg
    have hab : (2 : ℚ) ^ 53 ≤ 2 ^ 53 + 2 := by norm_num
    rw [nextDouble2_run _ _ hab (by norm_num) (by norm_num)]
    have h1 := ndVal_mono hab hg
    have h2 := ndVal_mono hab (g := (E.draw s).1.val) (g' := 2 ^ 64 - 1)
      (by have := (E.draw s).1.isLt; omega)
    have h3 : ndVal (2 ^ 63 + 2048) (2 ^ 53) (2 ^ 53 + 2) = 2 ^ 53 + 2 := by decide +kernel
    have h4 : ndVal (2 ^ 64 - 1) (2 ^ 53) (2 ^ 53 + 2) = 2 ^ 53 + 2 := by decide +kernel
    rw [h3] at h1
    rw [h4] at h2
    rw [le_antisymm h2 h1]
  · exact ⟨3, -54, by norm_num, by norm_num, by norm_num, by norm_num⟩
  · norm_num
  · intro E s hg
    rw [nextDouble2_run _ _ (by norm_num) (by norm_num) (by norm_num)]
    have h3 : ndVal (2 ^ 64 - 1) (-1) (3 / 2 ^ 54) = 2 / 2 ^ 53 := by decide +kernel
    have h4 : out s = 2 ^ 64 - 1 := by unfold out; rw [hg, hmaxg]
    rw [h4, h3]
  · exact ⟨2 ^ 53 - 1, 971, by norm_num, by norm_num, by norm_num, by norm_num⟩
  · intro E s q s'
    unfold nextDouble2
    rw [if_neg (by rw [fin_lt]; norm_num), bind_run, draw_run]
    simp only [Out.bind]
    rw [gen_div _ (E.draw s).1.isLt, pure_run]
    have h1 : Dbl.fin ((2 ^ 53 - 1) * 2 ^ 971) - Dbl.fin (-((2 ^ 53 - 1) * 2 ^ 971)) = .inf false := by
      decide +kernel
    rw [h1]
    show Out.ok (Dbl.add (if unif (out s) = 0 then _ else _) _, _) ≠ _
    split <;> simp [Dbl.add]

example : IsDouble (-3 / 2) ∧ (-3 / 2 : ℚ) ≤ 1 ∧ |(-3 / 2 : ℚ)| ≤ 2 ^ 1022 ∧ |(1 : ℚ)| ≤ 2 ^ 1022 :=
  ⟨⟨-3, -1, by norm_num, by norm_num, by norm_num, by norm_num⟩, by norm_num, by norm_num, by norm_num⟩
example : (nextDouble2 (Dbl.fin (-3 / 2)) (Dbl.fin 1) : R counter Dbl) (2 ^ 62 : Fin (2 ^ 64))
    = .ok (Dbl.fin (-7 / 8), (2 ^ 62 + 1 : Fin (2 ^ 64))) := by decide +kernel
example : (nextDouble0 : R counter Dbl) (2 ^ 64 - 1024 : Fin (2 ^ 64))
    = .ok (Dbl.fin 1, (2 ^ 64 - 1023 : Fin (2 ^ 64))) := by decide +kernel

end Rand.Props
