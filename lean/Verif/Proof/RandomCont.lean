import Verif.Model.RandomCont
import Verif.Proof.RandomDiscrete
import Mathlib.Algebra.Order.Field.Power
import Mathlib.Tactic.FieldSimp
import Mathlib.Tactic.Linarith

/-! # The continuous samplers: helper lemmas -/

namespace Rand
open Cpp Spec

variable {E : Engine}

theorem stateAt_zero (s : E.σ) : stateAt E s 0 = s := rfl

theorem stateAt_succ (s : E.σ) (i : Nat) : stateAt E s (i + 1) = stateAt E (E.draw s).2 i := by
  unfold stateAt
  rw [Function.iterate_succ_apply]

theorem stateAt_succ' (s : E.σ) (i : Nat) : stateAt E s (i + 1) = (E.draw (stateAt E s i)).2 := by
  unfold stateAt
  rw [Function.iterate_succ_apply']

theorem outAt_succ (s : E.σ) (i : Nat) : outAt E s (i + 1) = outAt E (E.draw s).2 i := by
  unfold outAt
  rw [stateAt_succ]

theorem unitAt_succ (s : E.σ) (i : Nat) : unitAt E s (i + 1) = unitAt E (E.draw s).2 i := by
  unfold unitAt
  rw [outAt_succ]

theorem outAt_zero (s : E.σ) : outAt E s 0 = (E.draw s).1.val := rfl

theorem unitAt_zero (s : E.σ) : unitAt E s 0 = ((E.draw s).1.val : ℝ) / (2 ^ 64 - 1) := rfl

theorem unitAt_nonneg (s : E.σ) (i : Nat) : 0 ≤ unitAt E s i := by
  unfold unitAt
  apply div_nonneg (by positivity)
  norm_num

theorem unitAt_lt (s : E.σ) (i : Nat) (h : outAt E s i < 2 ^ 64 - 1) : unitAt E s i < 1 := by
  unfold unitAt
  rw [div_lt_one (by norm_num)]
  have h1 : ((outAt E s i + 1 : Nat) : ℝ) ≤ ((2 ^ 64 - 1 : Nat) : ℝ) := by exact_mod_cast h
  have h2 : ((2 ^ 64 - 1 : Nat) : ℝ) = 2 ^ 64 - 1 := by norm_num
  push_cast at h1
  linarith

theorem oneMinus_real (s : E.σ) : oneMinus s = .ok (1 - unitAt E s 0, (E.draw s).2) := by
  unfold oneMinus
  rw [bind_run, nextDouble0_real]
  simp only [Out.bind]
  rw [pure_run, unitAt_zero]
  push_cast
  rfl

theorem gammaSum_real (n : Nat) (a : ℝ) (s : E.σ) :
    gammaSum Libm.real n a s
      = .ok (a + ∑ i ∈ Finset.range n, Real.log (1 - unitAt E s i), stateAt E s n) := by
  induction n generalizing a s with
  | zero => simp [gammaSum, pure_run, stateAt_zero]
  | succ n ih =>
    unfold gammaSum
    rw [bind_run, oneMinus_real]
    simp only [Out.bind]
    rw [ih, Finset.sum_range_succ']
    congr 2
    · show a + Real.log (1 - unitAt E s 0) + _ = _
      simp only [unitAt_succ]
      ring

theorem gamma_int_real (fuel n : Nat) (hn : (n : Int) ≤ INT_MAX) (theta : ℝ) (s : E.σ) :
    gammaNext Libm.real fuel ⟨n, theta⟩ s
      = .ok (theta * -(∑ i ∈ Finset.range n, Real.log (1 - unitAt E s i)), stateAt E s n) := by
  have hm : INT_MIN = -2147483648 := rfl
  have hf : ⌊(n : ℝ)⌋ = (n : Int) := Int.floor_natCast n
  have ht : Libm.real.toInt (n : ℝ) = .ok (n : Int) := by
    show truncInt (n : ℝ) = _
    unfold truncInt
    rw [if_pos (by positivity), hf, int_ok ⟨by omega, hn⟩]
  unfold gammaNext
  rw [bind_run, lift_run, ht]
  simp only [Out.ok_bind, Out.bind]
  rw [bind_run, Int.toNat_natCast, gammaSum_real]
  simp only [Out.bind]
  have hd : (n : ℝ) - Libm.real.floor (n : ℝ) = 0 := by
    show (n : ℝ) - ((⌊(n : ℝ)⌋ : Int) : ℝ) = 0
    rw [hf]; simp
  rw [hd, if_pos (by simp), pure_run]
  simp

/-! ### The polar method -/

theorem nextDouble2_pm (s : E.σ) : nextDouble2 (-((1 : Int) : ℝ)) ((1 : Int) : ℝ) s
    = .ok (2 * unitAt E s 0 - 1, (E.draw s).2) := by
  unfold nextDouble2
  rw [if_neg (by norm_num), bind_run, draw_run]
  simp only [Out.bind, pure_run]
  congr 2
  rw [unitAt_zero]
  push_cast
  ring

theorem normalReject_step (fuel : Nat) (s : E.σ) (u v : ℝ) (hu : u = 2 * unitAt E s 0 - 1)
    (hv : v = 2 * unitAt E s 1 - 1) :
    normalReject (D := ℝ) (fuel + 1) s =
      if u * u + v * v = 0 ∨ 1 < u * u + v * v then normalReject fuel (stateAt E s 2)
      else .ok ((u, v, u * u + v * v), stateAt E s 2) := by
  conv_lhs => unfold normalReject
  rw [bind_run, nextDouble2_pm, ← hu]
  simp only [Out.bind]
  rw [bind_run, nextDouble2_pm, ← unitAt_succ s 0, ← hv]
  simp only [Out.bind]
  have e : ((u * u + v * v ≤ ((0 : Int) : ℝ) ∧ ((0 : Int) : ℝ) ≤ u * u + v * v) ∨
      ((1 : Int) : ℝ) < u * u + v * v) ↔ (u * u + v * v = 0 ∨ 1 < u * u + v * v) := by
    rw [← le_antisymm_iff]
    push_cast
    rfl
  by_cases h : u * u + v * v = 0 ∨ 1 < u * u + v * v
  · rw [if_pos h, if_pos (e.2 h)]; rfl
  · rw [if_neg h, if_neg (mt e.1 h)]; rfl

theorem normalReject_find (j : Nat) (s : E.σ) (fuel : Nat) (hf : j < fuel)
    (hr : ∀ i < j, (2 * unitAt E s (2 * i) - 1) ^ 2 + (2 * unitAt E s (2 * i + 1) - 1) ^ 2 = 0 ∨
      1 < (2 * unitAt E s (2 * i) - 1) ^ 2 + (2 * unitAt E s (2 * i + 1) - 1) ^ 2)
    (u v : ℝ) (hu : u = 2 * unitAt E s (2 * j) - 1) (hv : v = 2 * unitAt E s (2 * j + 1) - 1)
    (h0 : 0 < u ^ 2 + v ^ 2) (h1 : u ^ 2 + v ^ 2 ≤ 1) :
    normalReject (D := ℝ) fuel s = .ok ((u, v, u ^ 2 + v ^ 2), stateAt E s (2 * j + 2)) := by
  induction j generalizing s fuel with
  | zero =>
    obtain ⟨fuel, rfl⟩ : ∃ f, fuel = f + 1 := ⟨fuel - 1, by omega⟩
    rw [normalReject_step fuel s u v hu hv, if_neg, sq, sq]
    rw [sq, sq] at h0 h1
    rintro (h | h) <;> linarith
  | succ j ih =>
    obtain ⟨fuel, rfl⟩ : ∃ f, fuel = f + 1 := ⟨fuel - 1, by omega⟩
    have e2 : ∀ i, unitAt E (stateAt E s 2) i = unitAt E s (i + 2) := by
      intro i
      rw [unitAt_succ, unitAt_succ]; rfl
    have e3 : ∀ i, stateAt E (stateAt E s 2) i = stateAt E s (i + 2) := by
      intro i
      rw [stateAt_succ, stateAt_succ]; rfl
    rw [normalReject_step fuel s _ _ rfl rfl, if_pos (by have := hr 0 (by omega); rwa [sq, sq] at this),
      ih (stateAt E s 2) fuel (by omega) ?_ (by rw [e2]; exact hu) (by rw [e2]; exact hv), e3]
    · rfl
    · intro i hi
      have := hr (i + 1) (by omega)
      rw [e2, e2]
      exact this

theorem normalReject_none (s : E.σ) (fuel : Nat)
    (hr : ∀ i < fuel, (2 * unitAt E s (2 * i) - 1) ^ 2 + (2 * unitAt E s (2 * i + 1) - 1) ^ 2 = 0 ∨
      1 < (2 * unitAt E s (2 * i) - 1) ^ 2 + (2 * unitAt E s (2 * i + 1) - 1) ^ 2) :
    normalReject (D := ℝ) fuel s = .diverge := by
  induction fuel generalizing s with
  | zero => rfl
  | succ fuel ih =>
    have e2 : ∀ i, unitAt E (stateAt E s 2) i = unitAt E s (i + 2) := by
      intro i
      rw [unitAt_succ, unitAt_succ]; rfl
    rw [normalReject_step fuel s _ _ rfl rfl, if_pos (by have := hr 0 (by omega); rwa [sq, sq] at this)]
    apply ih
    intro i hi
    have := hr (i + 1) (by omega)
    rw [e2, e2]
    exact this

theorem normalNext_real (fuel : Nat) (mean stddev : ℝ) (sp : Option ℝ) (s s' : E.σ) (u v w : ℝ)
    (h : normalReject fuel s = .ok ((u, v, w), s')) :
    normalNext Libm.real fuel ⟨mean, stddev, sp, false⟩ s =
      .ok ((u * Real.sqrt (-2 * Real.log w / w) * stddev + mean,
        ⟨mean, stddev, some (v * Real.sqrt (-2 * Real.log w / w)), true⟩), s') := by
  unfold normalNext
  rw [if_neg (by simp), bind_run, h]
  simp only [Out.bind]
  rw [pure_run]
  simp [Libm.real]

/-! ### StudentTDistribution -/

theorem normalInit_std : normalInit (((0 : Int)) : ℝ) ((1 : Int) : ℝ) = .ok ⟨0, 1, none, false⟩ := by
  unfold normalInit
  rw [if_neg (by norm_num)]
  simp

theorem chiSquaredInit_even (n : Nat) (hn : 0 < n) :
    chiSquaredInit (2 * (n : ℝ)) = .ok ⟨(n : ℝ), 2⟩ := by
  unfold chiSquaredInit gammaInit
  have h : (0 : ℝ) < n := by exact_mod_cast hn
  have e : 2 * (n : ℝ) / ((2 : Int) : ℝ) = n := by push_cast; field_simp
  rw [e, if_neg]
  · norm_num
  · push_cast
    rintro (h | h) <;> linarith

theorem studentT_left (fuel n : Nat) (h1 : 0 < n) (hn : (n : Int) ≤ INT_MAX) (s s' : E.σ) (u v w : ℝ)
    (h : normalReject fuel s = .ok ((u, v, w), s')) :
    studentTNext Libm.real fuel true (2 * (n : ℝ)) s =
      .ok (u * Real.sqrt (-2 * Real.log w / w) * Real.sqrt (2 * n /
        (2 * -(∑ i ∈ Finset.range n, Real.log (1 - unitAt E s' i)))), stateAt E s' n) := by
  unfold studentTNext
  rw [bind_run, lift_run, normalInit_std]
  simp only [Out.ok_bind, Out.bind]
  rw [bind_run, lift_run, chiSquaredInit_even n h1]
  simp only [Out.ok_bind, Out.bind]
  rw [if_pos trivial, bind_run, normalNext_real fuel 0 1 none s _ _ _ _ h]
  simp only [Out.bind]
  rw [bind_run, gamma_int_real fuel n hn 2 s']
  simp only [Out.bind]
  rw [pure_run, mul_one, add_zero]
  rfl

theorem studentT_right (fuel n : Nat) (h1 : 0 < n) (hn : (n : Int) ≤ INT_MAX) (s s' : E.σ) (u v w : ℝ)
    (h : normalReject fuel (stateAt E s n) = .ok ((u, v, w), s')) :
    studentTNext Libm.real fuel false (2 * (n : ℝ)) s =
      .ok (u * Real.sqrt (-2 * Real.log w / w) * Real.sqrt (2 * n /
        (2 * -(∑ i ∈ Finset.range n, Real.log (1 - unitAt E s i)))), s') := by
  unfold studentTNext
  rw [bind_run, lift_run, normalInit_std]
  simp only [Out.ok_bind, Out.bind]
  rw [bind_run, lift_run, chiSquaredInit_even n h1]
  simp only [Out.ok_bind, Out.bind]
  rw [if_neg (by simp), bind_run, gamma_int_real fuel n hn 2 s]
  simp only [Out.bind]
  rw [bind_run, normalNext_real fuel 0 1 none _ _ _ _ _ h]
  simp only [Out.bind]
  rw [pure_run, mul_one, add_zero]
  rfl

/-! ### The acceptance-rejection loop of GammaDistribution -/

theorem stateAt_add (s : E.σ) (i j : Nat) : stateAt E (stateAt E s i) j = stateAt E s (j + i) := by
  unfold stateAt
  rw [Function.iterate_add_apply]

theorem unitAt_add (s : E.σ) (i j : Nat) : unitAt E (stateAt E s i) j = unitAt E s (j + i) := by
  unfold unitAt outAt
  rw [stateAt_add]

theorem outAt_add (s : E.σ) (i j : Nat) : outAt E (stateAt E s i) j = outAt E s (j + i) := by
  unfold outAt
  rw [stateAt_add]

/-- One round: the condition `ita > ...` says that `w` exceeds the ratio of the two densities. -/
theorem gammaReject_step (delta : ℝ) (fuel : Nat) (s : E.σ) (u v w : ℝ)
    (hu : u = 1 - unitAt E s 0) (hv : v = 1 - unitAt E s 1) (hw : w = 1 - unitAt E s 2) (hv0 : 0 < v)
    (hv1 : v ≤ 1) :
    gammaReject Libm.real delta (fuel + 1) s =
      if u ≤ Real.exp 1 / (Real.exp 1 + delta) then
        if Real.exp (-v ^ (1 / delta)) < w then gammaReject Libm.real delta fuel (stateAt E s 3)
        else .ok (v ^ (1 / delta), stateAt E s 3)
      else
        if (1 - Real.log v) ^ (delta - 1) < w then gammaReject Libm.real delta fuel (stateAt E s 3)
        else .ok (1 - Real.log v, stateAt E s 3) := by
  have hvp : 0 < v ^ (1 / delta) := Real.rpow_pos_of_pos hv0 _
  have hlv : Real.log v ≤ 0 := Real.log_nonpos hv0.le hv1
  conv_lhs => unfold gammaReject
  dsimp only
  rw [bind_run, oneMinus_real, ← hu]
  simp only [Out.bind]
  rw [bind_run, oneMinus_real, ← unitAt_succ s 0, ← hv]
  simp only [Out.bind]
  rw [bind_run, oneMinus_real, ← unitAt_succ _ 0, ← unitAt_succ s 1, ← hw]
  simp only [Out.bind]
  have h1 : ((1 : Int) : ℝ) = 1 := by norm_num
  rw [h1]
  by_cases hc : u ≤ Real.exp 1 / (Real.exp 1 + delta)
  · rw [if_pos (show u ≤ Libm.real.e / (Libm.real.e + delta) from hc), if_pos hc]
    have hp : 0 < (v ^ (1 / delta)) ^ (delta - 1) := Real.rpow_pos_of_pos hvp _
    have e : ((v ^ (1 / delta)) ^ (delta - 1) * Real.exp (-v ^ (1 / delta)) <
        w * (v ^ (1 / delta)) ^ (delta - 1)) ↔ Real.exp (-v ^ (1 / delta)) < w := by
      rw [mul_comm, mul_lt_mul_iff_left₀ hp]
    by_cases h : Real.exp (-v ^ (1 / delta)) < w
    · rw [if_pos h]
      exact congrFun (if_pos (e.2 h)) _
    · rw [if_neg h]
      exact congrFun (if_neg (mt e.1 h)) _
  · rw [if_neg (show ¬ u ≤ Libm.real.e / (Libm.real.e + delta) from hc), if_neg hc]
    have hp : 0 < Real.exp (-(1 - Real.log v)) := Real.exp_pos _
    have e : ((1 - Real.log v) ^ (delta - 1) * Real.exp (-(1 - Real.log v)) <
        w * Real.exp (-(1 - Real.log v))) ↔ (1 - Real.log v) ^ (delta - 1) < w :=
      mul_lt_mul_iff_left₀ hp
    by_cases h : (1 - Real.log v) ^ (delta - 1) < w
    · rw [if_pos h]
      exact congrFun (if_pos (e.2 h)) _
    · rw [if_neg h]
      exact congrFun (if_neg (mt e.1 h)) _

theorem gammaReject_round (delta : ℝ) (fuel : Nat) (s : E.σ) (u v w : ℝ)
    (hu : u = 1 - unitAt E s 0) (hv : v = 1 - unitAt E s 1) (hw : w = 1 - unitAt E s 2) (hv0 : 0 < v)
    (hv1 : v ≤ 1) :
    (adAccepts delta u v w →
      gammaReject Libm.real delta (fuel + 1) s = .ok (adCandidate delta u v, stateAt E s 3)) ∧
    (¬ adAccepts delta u v w → gammaReject Libm.real delta (fuel + 1) s =
      gammaReject Libm.real delta fuel (stateAt E s 3)) := by
  rw [gammaReject_step delta fuel s u v w hu hv hw hv0 hv1]
  unfold adAccepts adCandidate
  by_cases hc : u ≤ Real.exp 1 / (Real.exp 1 + delta)
  · simp only [if_pos hc]
    exact ⟨fun h => if_neg (not_lt.2 h), fun h => if_pos (not_le.1 h)⟩
  · simp only [if_neg hc]
    exact ⟨fun h => if_neg (not_lt.2 h), fun h => if_pos (not_le.1 h)⟩

theorem gammaReject_find (delta : ℝ) (j : Nat) (s : E.σ) (fuel : Nat) (hf : j < fuel)
    (hg : ∀ i ≤ j, outAt E s (3 * i + 1) < 2 ^ 64 - 1)
    (hr : ∀ i < j, ¬ adAccepts delta (1 - unitAt E s (3 * i)) (1 - unitAt E s (3 * i + 1))
      (1 - unitAt E s (3 * i + 2)))
    (ha : adAccepts delta (1 - unitAt E s (3 * j)) (1 - unitAt E s (3 * j + 1)) (1 - unitAt E s (3 * j + 2))) :
    gammaReject Libm.real delta fuel s =
      .ok (adCandidate delta (1 - unitAt E s (3 * j)) (1 - unitAt E s (3 * j + 1)), stateAt E s (3 * j + 3)) := by
  induction j generalizing s fuel with
  | zero =>
    obtain ⟨fuel, rfl⟩ : ∃ f, fuel = f + 1 := ⟨fuel - 1, by omega⟩
    have h1 := unitAt_lt s 1 (hg 0 le_rfl)
    have h2 := unitAt_nonneg s 1
    exact (gammaReject_round delta fuel s _ _ _ rfl rfl rfl (by linarith) (by linarith)).1 ha
  | succ j ih =>
    obtain ⟨fuel, rfl⟩ : ∃ f, fuel = f + 1 := ⟨fuel - 1, by omega⟩
    have h1 := unitAt_lt s 1 (hg 0 (by omega))
    have h2 := unitAt_nonneg s 1
    rw [(gammaReject_round delta fuel s _ _ _ rfl rfl rfl (by linarith) (by linarith)).2 (hr 0 (by omega)),
      ih (stateAt E s 3) fuel (by omega)]
    · rw [unitAt_add, unitAt_add, stateAt_add]
      have e1 : 3 * j + 3 = 3 * (j + 1) := by omega
      have e2 : 3 * j + 1 + 3 = 3 * (j + 1) + 1 := by omega
      rw [e2, e1]
    · intro i hi
      rw [outAt_add]
      exact hg (i + 1) (by omega)
    · intro i hi
      rw [unitAt_add, unitAt_add, unitAt_add]
      exact hr (i + 1) (by omega)
    · rw [unitAt_add, unitAt_add, unitAt_add]
      exact ha

theorem gamma_real (fuel : Nat) (k theta x : ℝ) (hk0 : 0 < k) (hk : k < INT_MAX + 1)
    (hd : k ≠ (⌊k⌋ : ℝ)) (s s' : E.σ)
    (h : gammaReject Libm.real (k - (⌊k⌋ : ℝ)) fuel (stateAt E s ⌊k⌋.toNat) = .ok (x, s')) :
    gammaNext Libm.real fuel ⟨k, theta⟩ s
      = .ok (theta * (x - ∑ i ∈ Finset.range ⌊k⌋.toNat, Real.log (1 - unitAt E s i)), s') := by
  have hm : INT_MIN = -2147483648 := rfl
  have h0 : 0 ≤ ⌊k⌋ := Int.floor_nonneg.2 hk0.le
  have h1 : ⌊k⌋ < INT_MAX + 1 := by
    rw [Int.floor_lt]
    push_cast
    exact hk
  have ht : Libm.real.toInt k = .ok ⌊k⌋ := by
    show truncInt k = _
    unfold truncInt
    rw [if_pos hk0.le, int_ok ⟨by omega, by omega⟩]
  unfold gammaNext
  rw [bind_run, lift_run, ht]
  simp only [Out.ok_bind, Out.bind]
  rw [bind_run, gammaSum_real]
  simp only [Out.bind]
  have hdd : ¬ (k - Libm.real.floor k ≤ ((0 : Int) : ℝ) ∧ ((0 : Int) : ℝ) ≤ k - Libm.real.floor k) := by
    show ¬ (k - (⌊k⌋ : ℝ) ≤ _ ∧ _ ≤ k - (⌊k⌋ : ℝ))
    push_cast
    rw [← le_antisymm_iff, sub_eq_zero]
    exact hd
  rw [if_neg hdd, bind_run]
  have h' : gammaReject Libm.real (k - Libm.real.floor k) fuel (stateAt E s ⌊k⌋.toNat) = .ok (x, s') := h
  rw [h']
  simp only [Out.bind]
  rw [pure_run]
  simp

end Rand
