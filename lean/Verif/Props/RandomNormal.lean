import Verif.Proof.RandomNormal3
import Verif.Props.Random

/-! # C144: the samples of the continuous distributions in binary64

`m` is any set of functions of `<cmath>` of which only what the hypotheses say is known; `Libm.dbl` is one that rounds the exact
values correctly. -/

set_option exponentiation.threshold 2000

namespace Rand.Props
open Cpp Spec Rand Rand.Nrm Geo.Acc

/-- **C144, `NormalDistribution`.**  In binary64 `next()` fails to return only while every pair of outputs gives a point outside the
unit disc (or, up to rounding, on its border or in its centre).  Otherwise the first call consumes the outputs up to the accepted
pair and returns, up to a relative error of `2^-49`, `mean + stddev * z` with the value `z` of the polar method at a point within
`2^-51` of the accepted one; so it is finite, and at most 13 standard deviations from the mean.  The second call returns the other
value of the same point without drawing, and the third begins again. -/
theorem C144_normal (m : Libm Dbl) (hlog : LogAcc m.log) (hsq : m.sqrt = Libm.dbl.sqrt) (mean sd : ℚ) (hm : |mean| ≤ 2 ^ 900)
    (h0 : 0 < sd) (h1 : sd ≤ 2 ^ 900) (E : Engine) (s : E.σ) (fuel : Nat) :
    ∃ d, normalInit (Dbl.fin mean) (Dbl.fin sd) = .ok d ∧
      ((normalNext m fuel d s = .diverge ∧ ∀ i < fuel, OffDisc E s i) ∨
        ∃ j < fuel, (∀ i < j, OffDisc E s i) ∧ ∃ (u v w : ℝ) (q1 q2 : ℚ) (d1 d2 : Normal Dbl),
          |u - pointU E s j| ≤ 2 ^ (-51 : Int) ∧ |v - pointV E s j| ≤ 2 ^ (-51 : Int) ∧
          |w - (u ^ 2 + v ^ 2)| ≤ 2 ^ (-51 : Int) * (u ^ 2 + v ^ 2) ∧ 0 < w ∧ w ≤ 1 ∧
          normalNext m fuel d s = .ok ((Dbl.fin q1, d1), stateAt E s (2 * j + 2)) ∧
          NearlyNormal mean sd (u * polarFactor w) q1 ∧ |u * polarFactor w| ≤ 13 ∧
          (∀ (s' : E.σ) (fuel' : Nat), normalNext m fuel' d1 s' = .ok ((Dbl.fin q2, d2), s')) ∧
          NearlyNormal mean sd (v * polarFactor w) q2 ∧ |v * polarFactor w| ≤ 13 ∧
          ∀ (s' : E.σ) (fuel' : Nat), normalNext m fuel' d2 s' = normalNext m fuel' d s') := by
  have hi : normalInit (Dbl.fin mean) (Dbl.fin sd) = .ok ⟨Dbl.fin mean, Dbl.fin sd, none, false⟩ := by
    unfold normalInit
    rw [zero_dbl, if_neg]
    rw [fin_le]
    linarith
  refine ⟨_, hi, ?_⟩
  rcases normalNext_total m fuel ⟨Dbl.fin mean, Dbl.fin sd, none, false⟩ rfl s with ⟨hd, ho⟩ | ⟨r, hr⟩
  · exact .inl ⟨hd, fun i hi => offDisc_of s i (ho i hi)⟩
  · right
    obtain ⟨j, x, y, w, q1, z2, hj, hx, hy, -, w0, w1, rl, hrej, rfl, n1, r2⟩ :=
      normalNext_dbl m hlog hsq mean sd hm h0 h1 none s fuel r hr
    have rl' : Rel 2 ((y : ℝ) ^ 2 + (x : ℝ) ^ 2) (w : ℝ) := by rw [add_comm]; exact rl
    obtain ⟨q2, e2, n2⟩ := finish mean sd z2 _ r2 (z_bound rl' w0 w1) hm h0 h1
    refine ⟨j, hj, fun i hi => offDisc_of s i (hrej i hi), x, y, w, q1, q2, _, ⟨Dbl.fin mean, Dbl.fin sd, some (Dbl.fin z2), false⟩,
      ?_, ?_, ?_, ?_, ?_, hr, n1, z_bound rl w0 w1, ?_, n2, z_bound rl' w0 w1, ?_⟩
    · rw [hx]; exact pm_near (E.draw _).1.isLt
    · rw [hy]; exact pm_near (E.draw _).1.isLt
    · have he := rl.err (by norm_num)
      rw [abs_of_nonneg (by positivity : 0 ≤ (x : ℝ) ^ 2 + (y : ℝ) ^ 2)] at he
      refine he.trans (mul_le_mul_of_nonneg_right ?_ (by positivity))
      rw [← u_eq]
      norm_num
    · have : 0 < w := lt_of_lt_of_le (by positivity) w0
      exact_mod_cast this
    · exact_mod_cast w1
    · intro s' fuel'
      show Out.ok ((Dbl.fin z2 * Dbl.fin sd + Dbl.fin mean, _), s') = _
      rw [e2]
    · intro s' fuel'
      rfl

/-- **C144, `GammaDistribution` with a fractional shape** (what holds).  For `0 < k < 2^31` whose fractional part is at least
`2^-1021` and `0 < theta ≤ 2^900`, `next()` returns a finite number that is not negative, if it returns and none of the outputs it
draws is one of the 1024 largest.  Missing: outputs from `2^64 - 1024` on (C91), and that the number has the right distribution
(C96 in exact arithmetic). -/
theorem C144_gamma_partial (m : Libm Dbl) (hm : LogOk m.log) (hp : PowUnit m.pow) (hi : m.toInt = Libm.dbl.toInt)
    (hfl : m.floor = Libm.dbl.floor) (k theta : ℚ) (hk0 : 0 < k) (hk : k < 2 ^ 31) (hd : 2 ^ (-1021 : Int) ≤ k - ⌊k⌋)
    (ht : 0 < theta) (ht1 : theta ≤ 2 ^ 900) (E : Engine) (s : E.σ) (fuel : Nat)
    (hs : ∀ i < ⌊k⌋.toNat + 3 * fuel, outAt E s i < 2 ^ 64 - 1024) :
    ∃ d, gammaInit (Dbl.fin k) (Dbl.fin theta) = .ok d ∧ (gammaNext m fuel d s = .diverge ∨
      ∃ (j : Nat) (q : ℚ), gammaNext m fuel d s = .ok (Dbl.fin q, stateAt E s (⌊k⌋.toNat + 3 * j + 3)) ∧ 0 ≤ q) := by
  refine ⟨⟨Dbl.fin k, Dbl.fin theta⟩, ?_, gammaNext_frac m hm hp hi hfl k theta hk hd hk0 ht ht1 fuel s hs⟩
  unfold gammaInit
  rw [zero_dbl, if_neg]
  rw [fin_le, fin_le]
  rintro (h | h) <;> linarith

/-- **C144, `StudentTDistribution(2 n)`** (what holds).  In either order of evaluation `next()` returns a finite number, of at most
`2^48`, if it returns and all the outputs it draws lie between `2^11` and `2^64 - 1025`. -/
theorem C144_student_partial (m : Libm Dbl) (hm : LogOk m.log) (hl : LogAcc m.log) (hsq : m.sqrt = Libm.dbl.sqrt)
    (hi : m.toInt = Libm.dbl.toInt) (hfl : m.floor = Libm.dbl.floor) (n : Nat) (h1 : 0 < n) (hn : (n : Int) ≤ INT_MAX) (left : Bool)
    (E : Engine) (s : E.σ) (fuel : Nat)
    (hs : ∀ i < n + 2 * fuel, 2 ^ 11 ≤ outAt E s i ∧ outAt E s i < 2 ^ 64 - 1024) :
    studentTInit (Dbl.fin (2 * n)) = .ok (Dbl.fin (2 * n)) ∧ (studentTNext m fuel left (Dbl.fin (2 * n)) s = .diverge ∨
      ∃ j < fuel, ∃ q : ℚ, studentTNext m fuel left (Dbl.fin (2 * n)) s = .ok (Dbl.fin q, stateAt E s (n + 2 * j + 2)) ∧
        |q| ≤ 2 ^ 48) := by
  constructor
  · unfold studentTInit
    rw [zero_dbl, if_neg]
    rw [fin_le]
    have : (0 : ℚ) < n := by exact_mod_cast h1
    linarith
  have eo : ∀ a i, outAt E (stateAt E s a) i = outAt E s (i + a) := by
    intro a i
    unfold outAt stateAt
    rw [Function.iterate_add_apply]
  have es : ∀ a i, stateAt E (stateAt E s a) i = stateAt E s (a + i) := by
    intro a i
    unfold stateAt
    rw [← Function.iterate_add_apply, Nat.add_comm]
  have nb : ∀ Z : ℝ, |Z| ≤ 13 → ∀ q : ℚ, NearlyNormal ((0 : ℚ) : ℝ) ((1 : ℚ) : ℝ) Z q → |(q : ℝ)| ≤ 14 := by
    intro Z hZ q hq
    unfold NearlyNormal at hq
    rw [Rat.cast_zero, Rat.cast_one, zero_add, one_mul, abs_zero, zero_add, one_mul] at hq
    have h2 : (2 : ℝ) ^ (-49 : Int) * |Z| ≤ 2 ^ (-49 : Int) * 13 := mul_le_mul_of_nonneg_left hZ (by positivity)
    have h3 : (2 : ℝ) ^ (-49 : Int) * 13 ≤ 1 / 2 := by norm_num
    have h4 : (2 : ℝ) ^ (-1073 : Int) ≤ 1 / 2 := by
      calc (2 : ℝ) ^ (-1073 : Int) ≤ 2 ^ (-1 : Int) := zpow_le_zpow_right₀ (by norm_num) (by norm_num)
        _ = 1 / 2 := by norm_num
    have h5 := abs_sub_abs_le_abs_sub (q : ℝ) Z
    have h6 : |(q : ℝ) - Z| ≤ 1 / 2 + 1 / 2 := hq.trans (add_le_add (h2.trans h3) h4)
    clear hq h2 h3 h4
    linarith
  obtain ⟨d, hd, -⟩ := C144_normal m hl hsq 0 1 (by norm_num) (by norm_num) (by norm_num) E s fuel
  have nrm : ∀ s' : E.σ, normalNext m fuel d s' = .diverge ∨ ∃ j < fuel, ∃ (q : ℚ) (d1 : Normal Dbl),
      normalNext m fuel d s' = .ok ((Dbl.fin q, d1), stateAt E s' (2 * j + 2)) ∧ |(q : ℝ)| ≤ 14 := by
    intro s'
    obtain ⟨d', hd', h⟩ := C144_normal m hl hsq 0 1 (by norm_num) (by norm_num) (by norm_num) E s' fuel
    have : d' = d := by rw [hd] at hd'; cases hd'; rfl
    subst this
    rcases h with ⟨h, -⟩ | ⟨j, hj, -, u, v, w, q1, q2, d1, d2, -, -, -, -, -, h, hq, hz, -⟩
    · exact .inl h
    · exact .inr ⟨j, hj, q1, d1, h, nb _ hz _ hq⟩
  unfold studentTNext
  rw [zero_dbl, one_dbl, bind_run, lift_run, hd]
  simp only [Out.ok_bind, Out.bind]
  rw [bind_run, lift_run, chiSquaredInit_dbl n h1 hn]
  simp only [Out.ok_bind, Out.bind]
  cases left with
  | true =>
    simp only [if_true]
    rcases nrm s with h | ⟨j, hj, q, d1, h, hq⟩
    · left
      rw [bind_run, h]; rfl
    · right
      obtain ⟨y, ey, hy⟩ := chi_dbl m hm hl hi hfl n h1 hn fuel (stateAt E s (2 * j + 2)) (fun i hi => by
        rw [eo]; exact hs _ (by omega))
      obtain ⟨Q, eQ, hQ⟩ := student_mul m hsq n hn q y hq hy
      refine ⟨j, hj, Q, ?_, hQ⟩
      rw [bind_run, h]
      simp only [Out.bind]
      rw [bind_run, ey]
      simp only [Out.bind]
      rw [pure_run, eQ, es, show 2 * j + 2 + n = n + 2 * j + 2 by omega]
  | false =>
    simp only [Bool.false_eq_true, if_false]
    obtain ⟨y, ey, hy⟩ := chi_dbl m hm hl hi hfl n h1 hn fuel s (fun i hi => hs _ (by omega))
    rw [bind_run, ey]
    simp only [Out.bind]
    rcases nrm (stateAt E s n) with h | ⟨j, hj, q, d1, h, hq⟩
    · left
      rw [bind_run, h]; rfl
    · right
      obtain ⟨Q, eQ, hQ⟩ := student_mul m hsq n hn q y hq hy
      refine ⟨j, hj, Q, ?_, hQ⟩
      rw [bind_run, h]
      simp only [Out.bind]
      rw [pure_run, eQ, es, show n + (2 * j + 2) = n + 2 * j + 2 by omega]

/-- An engine with the outputs 0, `3 * 2^62`, `2^62`, `3 * 2^62`, ... -/
def zeroFirst : Engine := ⟨Nat, fun _ => 0, fun s => (if s = 0 then 0 else if s % 2 = 1 then 3 * 2 ^ 62 else 2 ^ 62, s + 1)⟩

/-- **C144, refuted for `StudentTDistribution`.**  `StudentTDistribution(2).next()` need not return a finite number: if the operands
of `*` are evaluated from right to left and the first output is 0, the sample of the chi-squared distribution is 0 and the result is
no number (with a signed zero it is the square root of `2 / -0`, NaN; with the single zero of the model it is infinite). -/
theorem C144_student_refuted :
    ∃ (E : Engine) (s s' : E.σ) (x : Dbl), studentTNext Libm.dbl 1 false (Dbl.fin 2) s = .ok (x, s') ∧ ∀ q : ℚ, x ≠ Dbl.fin q := by
  have hz : ∃ (s : zeroFirst.σ), outAt zeroFirst s 0 = 0 ∧ outAt zeroFirst s 1 = 3 * 2 ^ 62 ∧ outAt zeroFirst s 2 = 2 ^ 62 :=
    ⟨(0 : Nat), by decide +kernel, by decide +kernel, by decide +kernel⟩
  generalize zeroFirst = E at hz
  obtain ⟨s, h0, h1, h2⟩ := hz
  refine ⟨E, s, ?_⟩
  obtain ⟨d, hd, h⟩ := C144_normal Libm.dbl logAcc_dbl rfl 0 1 (by norm_num) (by norm_num) (by norm_num) E (stateAt E s 1) 1
  have hdisc : ¬ OffDisc E (stateAt E s 1) 0 := by
    rw [outAt_succ] at h1 h2
    have hu : pointU E (stateAt E s 1) 0 = 2 * ((3 * 2 ^ 62 : ℝ) / (2 ^ 64 - 1)) - 1 := by
      show 2 * (((outAt E (E.draw s).2 0 : Nat) : ℝ) / (2 ^ 64 - 1)) - 1 = _
      rw [h1]; norm_num
    have hv : pointV E (stateAt E s 1) 0 = 2 * ((2 ^ 62 : ℝ) / (2 ^ 64 - 1)) - 1 := by
      show 2 * (((outAt E (E.draw s).2 1 : Nat) : ℝ) / (2 ^ 64 - 1)) - 1 = _
      rw [h2]; norm_num
    unfold OffDisc
    rw [hu, hv]
    norm_num
  have ey := chi_zero s h0
  rcases h with ⟨-, h⟩ | ⟨j, hj, -, u, v, w, q1, q2, d1, d2, -, -, -, -, -, h, -⟩
  · exact absurd (h 0 (by omega)) hdisc
  refine ⟨stateAt E (stateAt E s 1) (2 * j + 2), Dbl.fin q1 * Dbl.inf false, ?_, ?_⟩
  · have hc := chiSquaredInit_dbl 1 (by decide) (by decide)
    rw [show (2 * ((1 : Nat) : ℚ)) = 2 by norm_num] at hc
    unfold studentTNext
    rw [zero_dbl, one_dbl, bind_run, lift_run, hd]
    simp only [Out.ok_bind, Out.bind]
    rw [bind_run, lift_run, hc]
    simp only [Out.ok_bind, Out.bind]
    simp only [Bool.false_eq_true, if_false]
    rw [bind_run, ey]
    simp only [Out.bind]
    rw [bind_run, h]
    simp only [Out.bind]
    rw [pure_run]
    have : Dbl.fin 2 / Dbl.fin 0 = Dbl.inf false := by decide +kernel
    rw [this]
    rfl
  · intro q hq
    change (if q1 = 0 then Dbl.nan else Dbl.inf (decide (q1 < 0) ^^ false)) = _ at hq
    split at hq <;> cases hq

-- the hypotheses on the library, and cases
example : LogAcc Libm.dbl.log ∧ LogOk Libm.dbl.log ∧ PowUnit Libm.dbl.pow := ⟨logAcc_dbl, logOk_dbl, powUnit_dbl⟩
example : ∀ i < ⌊(5 / 2 : ℚ)⌋.toNat + 3 * 4, outAt counter (5 : Fin (2 ^ 64)) i < 2 ^ 64 - 1024 := by decide +kernel
example : (2 : ℚ) ^ (-1021 : Int) ≤ 5 / 2 - ⌊(5 / 2 : ℚ)⌋ := by
  have : ⌊(5 / 2 : ℚ)⌋ = 2 := by decide +kernel
  rw [this]
  exact le_trans (zpow_le_zpow_right₀ (by norm_num) (by norm_num : (-1021 : Int) ≤ -1)) (by norm_num)
example : ∀ i < 3 + 2 * 4, 2 ^ 11 ≤ outAt counter (5000 : Fin (2 ^ 64)) i ∧ outAt counter (5000 : Fin (2 ^ 64)) i < 2 ^ 64 - 1024 := by
  decide +kernel

end Rand.Props
