import Verif.Proof.RandomNormal2

/-! # Gamma samples with a fractional shape, and Student t samples, in binary64 -/

set_option exponentiation.threshold 2000

namespace Rand.Nrm
open Cpp Spec Rand Geo.Acc

variable {E : Engine}

theorem normalReject_total (fuel : Nat) (s : E.σ) :
    (normalReject (D := Dbl) fuel s = .diverge ∧ ∀ i < fuel, sq2 (pm (outAt E s (2 * i))) (pm (outAt E s (2 * i + 1))) = 0 ∨
        1 < sq2 (pm (outAt E s (2 * i))) (pm (outAt E s (2 * i + 1)))) ∨ ∃ r, normalReject (D := Dbl) fuel s = .ok r := by
  induction fuel generalizing s with
  | zero => exact .inl ⟨rfl, by omega⟩
  | succ fuel ih =>
    rw [normalReject_dbl fuel s _ _ rfl rfl]
    split
    · rename_i hc
      rcases ih (stateAt E s 2) with ⟨h, ho⟩ | h
      · refine .inl ⟨h, fun i hi => ?_⟩
        cases i with
        | zero => exact hc
        | succ i =>
          have := ho i (by omega)
          have e : ∀ a, outAt E (stateAt E s 2) a = outAt E s (a + 2) := by
            intro a
            rw [outAt_succ, outAt_succ]; rfl
          rw [e, e] at this
          exact this
      · exact .inr h
    · exact .inr ⟨_, rfl⟩

theorem normalNext_total (m : Libm Dbl) (fuel : Nat) (d : Normal Dbl) (hd : d.hasSpare = false) (s : E.σ) :
    (normalNext m fuel d s = .diverge ∧ ∀ i < fuel, sq2 (pm (outAt E s (2 * i))) (pm (outAt E s (2 * i + 1))) = 0 ∨
        1 < sq2 (pm (outAt E s (2 * i))) (pm (outAt E s (2 * i + 1)))) ∨ ∃ r, normalNext m fuel d s = .ok r := by
  unfold normalNext
  rw [if_neg (by simp [hd]), bind_run]
  rcases normalReject_total fuel s with ⟨h, ho⟩ | ⟨r, h⟩
  · rw [h]; exact .inl ⟨rfl, ho⟩
  · rw [h]; exact .inr ⟨_, rfl⟩

theorem powUnit_dbl : PowUnit Libm.dbl.pow := by
  intro v y h0 h1 hy
  have hv : 0 < v := lt_of_lt_of_le (by positivity) h0
  have hvr : (0 : ℝ) < v := by exact_mod_cast hv
  have hvr1 : (v : ℝ) ≤ 1 := by exact_mod_cast h1
  have hyr : (0 : ℝ) ≤ y := by exact_mod_cast hy.le
  have p0 : 0 ≤ (v : ℝ) ^ (y : ℝ) := Real.rpow_nonneg hvr.le _
  have p1 : (v : ℝ) ^ (y : ℝ) ≤ 1 := Real.rpow_le_one hvr.le hvr1 hyr
  refine ⟨fl ((v : ℝ) ^ (y : ℝ)), ?_, fl_nonneg p0, ?_⟩
  · show (if v = 0 then _ else if 0 < v ∨ _ then _ else _) = _
    rw [if_neg hv.ne', if_pos (.inl hv)]
    apply round_real
    rw [abs_of_nonneg p0]
    exact p1.trans (by norm_num)
  · have h := fl_mono p1
    have e : fl (1 : ℝ) = 1 := by
      have := fl_cast 1
      push_cast at this
      rw [this]
      decide +kernel
    rwa [e] at h

/-- the accepted candidate is a number from 0 to 65 -/
theorem gammaReject_dbl (m : Libm Dbl) (hm : LogOk m.log) (hp : PowUnit m.pow) (delta : ℚ) (h0 : 2 ^ (-1021 : Int) ≤ delta)
    (h1 : delta ≤ 1) (fuel : Nat) (s : E.σ) (hs : ∀ i < 3 * fuel, outAt E s i < 2 ^ 64 - 1024) :
    gammaReject m (Dbl.fin delta) fuel s = .diverge ∨
      ∃ (j : Nat) (q : ℚ), gammaReject m (Dbl.fin delta) fuel s = .ok (Dbl.fin q, stateAt E s (3 * j + 3)) ∧ 0 ≤ q ∧ q ≤ 65 := by
  have hd : 0 < delta := lt_of_lt_of_le (by positivity) h0
  have f1 : fl (1 : ℚ) = 1 := by decide +kernel
  have f65 : fl (65 : ℚ) = 65 := by decide +kernel
  have hq1 : 1 ≤ 1 / delta := by rw [le_div_iff₀ hd]; linarith
  have hinv : ((1 : Int) : Dbl) / Dbl.fin delta = Dbl.fin (fl (1 / delta)) := by
    rw [one_dbl]
    show (if delta = 0 then _ else _) = _
    rw [if_neg hd.ne']
    apply round_fin
    rw [abs_of_nonneg (by linarith), div_le_iff₀ hd]
    calc (1 : ℚ) = 2 ^ 1021 * 2 ^ (-1021 : Int) := by rw [zpow_neg]; norm_num
      _ ≤ maxDouble * delta := mul_le_mul (by unfold maxDouble; norm_num) h0 (by positivity) (by unfold maxDouble; norm_num)
  have hpos : 0 < fl (1 / delta) := by
    have := fl_mono hq1
    rw [f1] at this
    linarith
  induction fuel generalizing s with
  | zero => left; rfl
  | succ fuel ih =>
    obtain ⟨u, hu, hu1, -, hu2⟩ := oneMinus_dbl s
    obtain ⟨v, hv, hv1, -, hv2⟩ := oneMinus_dbl (E.draw s).2
    obtain ⟨w, hw, hw1, -, hw2⟩ := oneMinus_dbl (E.draw (E.draw s).2).2
    have hv3 : 2 ^ (-53 : Int) ≤ v := hv2 (by have := hs 1 (by omega); rwa [outAt_succ] at this)
    obtain ⟨y, hy, hy0, hy1⟩ := hm.2 v hv3 hv1
    obtain ⟨p, ep, hp0, hp1⟩ := hp v _ hv3 hv1 hpos
    have e3 : ∀ i, outAt E (stateAt E s 3) i = outAt E s (i + 3) := by
      intro i
      rw [outAt_succ, outAt_succ, outAt_succ]; rfl
    have e4 : ∀ i, stateAt E (stateAt E s 3) i = stateAt E s (i + 3) := by
      intro i
      rw [stateAt_succ, stateAt_succ, stateAt_succ]; rfl
    have ih' := ih (stateAt E s 3) (fun i hi => by rw [e3]; exact hs (i + 3) (by omega))
    have sub1 : ((1 : Int) : Dbl) - m.log (Dbl.fin v) = Dbl.fin (fl (1 - y)) := by
      rw [one_dbl, hy]
      apply sub_dbl
      apply big_le
      rw [abs_of_nonneg (by linarith)]
      linarith
    have c0 : 0 ≤ fl (1 - y) := fl_nonneg (by linarith)
    have c1 : fl (1 - y) ≤ 65 := by
      have := fl_mono (show 1 - y ≤ 65 by linarith)
      rwa [f65] at this
    have key : ∀ (c : ℚ) (ita : Dbl), 0 ≤ c → c ≤ 65 →
        ((if m.pow (Dbl.fin c) (Dbl.fin delta - ((1 : Int) : Dbl)) * m.exp (-Dbl.fin c) < ita then
          gammaReject m (Dbl.fin delta) fuel else pure (Dbl.fin c)) : R E Dbl) (stateAt E s 3) = .diverge ∨
        ∃ (j : Nat) (q : ℚ), ((if m.pow (Dbl.fin c) (Dbl.fin delta - ((1 : Int) : Dbl)) * m.exp (-Dbl.fin c) < ita then
          gammaReject m (Dbl.fin delta) fuel else pure (Dbl.fin c)) : R E Dbl) (stateAt E s 3) =
            .ok (Dbl.fin q, stateAt E s (3 * j + 3)) ∧ 0 ≤ q ∧ q ≤ 65 := by
      intro c ita hc0 hc1
      split
      · rcases ih' with h | ⟨j, q, h, h2⟩
        · exact .inl h
        · refine .inr ⟨j + 1, q, ?_, h2⟩
          rw [h, e4]
          rfl
      · exact .inr ⟨0, c, rfl, hc0, hc1⟩
    have er : ∀ f : Dbl → Dbl → Dbl → R E Dbl, ((do
        let u ← oneMinus
        let v ← oneMinus
        let w ← oneMinus
        f u v w : R E Dbl) s) = f (Dbl.fin u) (Dbl.fin v) (Dbl.fin w) (stateAt E s 3) := by
      intro f
      rw [bind_run, hu]
      simp only [Out.bind]
      rw [bind_run, hv]
      simp only [Out.bind]
      rw [bind_run, hw]
      simp only [Out.bind]
      rfl
    unfold gammaReject
    dsimp only
    rw [er]
    by_cases hc : Dbl.fin u ≤ m.e / (m.e + Dbl.fin delta)
    · simp only [if_pos hc, hinv, ep]
      exact key p _ hp0 (by linarith)
    · simp only [if_neg hc, sub1]
      exact key _ _ c0 c1

theorem gammaNext_frac (m : Libm Dbl) (hm : LogOk m.log) (hp : PowUnit m.pow) (hi : m.toInt = Libm.dbl.toInt)
    (hfl : m.floor = Libm.dbl.floor) (k theta : ℚ) (hk : k < 2 ^ 31) (hd : 2 ^ (-1021 : Int) ≤ k - ⌊k⌋) (hk0 : 0 < k)
    (ht : 0 < theta) (ht1 : theta ≤ 2 ^ 900) (fuel : Nat) (s : E.σ)
    (hs : ∀ i < ⌊k⌋.toNat + 3 * fuel, outAt E s i < 2 ^ 64 - 1024) :
    gammaNext m fuel ⟨Dbl.fin k, Dbl.fin theta⟩ s = .diverge ∨
      ∃ (j : Nat) (q : ℚ), gammaNext m fuel ⟨Dbl.fin k, Dbl.fin theta⟩ s =
        .ok (Dbl.fin q, stateAt E s (⌊k⌋.toNat + 3 * j + 3)) ∧ 0 ≤ q := by
  have hmn : INT_MIN = -2147483648 := rfl
  have hmx : INT_MAX = 2147483647 := rfl
  have f0 : 0 ≤ ⌊k⌋ := Int.floor_nonneg.2 hk0.le
  have f1 : ⌊k⌋ < 2 ^ 31 := by rw [Int.floor_lt]; exact_mod_cast hk
  have htoInt : m.toInt (Dbl.fin k) = .ok ⌊k⌋ := by
    rw [hi]
    show truncInt k = _
    unfold truncInt
    rw [if_pos hk0.le, int_ok ⟨by omega, by omega⟩]
  have hlt : k - ⌊k⌋ < 1 := by have := Int.lt_floor_add_one k; linarith
  have fo : fl (1 : ℚ) = 1 := by decide +kernel
  have hdelta : Dbl.fin k - m.floor (Dbl.fin k) = Dbl.fin (fl (k - ⌊k⌋)) := by
    rw [hfl]
    apply sub_dbl
    apply big_le
    rw [abs_of_nonneg (le_trans (by positivity) hd)]
    linarith
  have d0 : 2 ^ (-1021 : Int) ≤ fl (k - ⌊k⌋) := by
    have h := fl_mono hd
    have e : fl ((2 : ℚ) ^ (-1021 : Int)) = 2 ^ (-1021 : Int) := by
      have := fl_exact (m := 1) (k := -1021) (by decide) (by decide)
      simpa using this
    rwa [e] at h
  have d1 : fl (k - ⌊k⌋) ≤ 1 := by
    have := fl_mono hlt.le
    rwa [fo] at this
  have dpos : (0 : ℚ) < fl (k - ⌊k⌋) := lt_of_lt_of_le (by positivity) d0
  obtain ⟨b, hb, hb0, hb1⟩ := gammaSum_dbl m hm ⌊k⌋.toNat 0 (by omega) 0 le_rfl (by simp) s (fun i hi => hs i (by omega))
  have hbb : -b ≤ 2 ^ 37 := by
    have : ((0 + ⌊k⌋.toNat : Nat) : ℚ) ≤ 2 ^ 31 := by exact_mod_cast (by omega : 0 + ⌊k⌋.toNat ≤ 2 ^ 31)
    linarith
  have eo : ∀ i, outAt E (stateAt E s ⌊k⌋.toNat) i = outAt E s (i + ⌊k⌋.toNat) := by
    intro i
    unfold outAt stateAt
    rw [Function.iterate_add_apply]
  have es : ∀ i, stateAt E (stateAt E s ⌊k⌋.toNat) i = stateAt E s (⌊k⌋.toNat + i) := by
    intro i
    unfold stateAt
    rw [← Function.iterate_add_apply, Nat.add_comm]
  have hr := gammaReject_dbl m hm hp _ d0 d1 fuel (stateAt E s ⌊k⌋.toNat) (fun i hi => by rw [eo]; exact hs _ (by omega))
  have hun : gammaNext m fuel ⟨Dbl.fin k, Dbl.fin theta⟩ s =
      ((do let ksi ← gammaReject m (Dbl.fin (fl (k - ⌊k⌋))) fuel
           pure (Dbl.fin theta * (ksi - Dbl.fin b)) : R E Dbl)) (stateAt E s ⌊k⌋.toNat) := by
    unfold gammaNext
    rw [bind_run, lift_run, htoInt]
    simp only [Out.ok_bind, Out.bind]
    rw [bind_run, zero_dbl, hb]
    simp only [Out.bind]
    rw [hdelta, if_neg]
    rw [fin_le, fin_le]
    rintro ⟨h, -⟩
    linarith
  rw [hun]
  rcases hr with h | ⟨j, q, h, h2, h3⟩
  · left
    rw [bind_run, h]
    rfl
  · right
    have n1 : 0 ≤ q - b := by linarith
    have e1 : Dbl.fin q - Dbl.fin b = Dbl.fin (fl (q - b)) := by
      apply sub_dbl
      apply big_le
      rw [abs_of_nonneg n1]
      linarith
    have n2 : 0 ≤ fl (q - b) := fl_nonneg n1
    have n3 : fl (q - b) ≤ 2 ^ 38 := by
      have := fl_mono (show q - b ≤ 2 ^ 38 by linarith)
      have e : fl ((2 : ℚ) ^ 38) = 2 ^ 38 := by decide +kernel
      rwa [e] at this
    have n4 : 0 ≤ theta * fl (q - b) := mul_nonneg ht.le n2
    have e2 : Dbl.fin theta * Dbl.fin (fl (q - b)) = Dbl.fin (fl (theta * fl (q - b))) := by
      apply round_fin
      rw [abs_of_nonneg n4]
      calc theta * fl (q - b) ≤ 2 ^ 900 * 2 ^ 38 := mul_le_mul ht1 n3 n2 (by positivity)
        _ ≤ maxDouble := by unfold maxDouble; norm_num
    refine ⟨j, fl (theta * fl (q - b)), ?_, fl_nonneg n4⟩
    rw [bind_run, h]
    simp only [Out.bind]
    rw [pure_run, e1, e2, es]
    rfl

/-! ## Student's t -/

/-- the sum of logarithms is negative if the outputs are not too small -/
theorem gammaSum_neg (m : Libm Dbl) (hm : LogOk m.log) (hl : LogAcc m.log) (n : Nat) (i : Nat) (hi : i + n ≤ 2 ^ 40) (a : ℚ)
    (ha0 : a ≤ 0) (ha : -(64 * (i : ℚ)) ≤ a) (hneg : 0 < n ∨ a ≤ -2 ^ (-54 : Int)) (s : E.σ)
    (hs : ∀ j < n, 2 ^ 11 ≤ outAt E s j ∧ outAt E s j < 2 ^ 64 - 1024) :
    ∃ b : ℚ, gammaSum m n (Dbl.fin a) s = .ok (Dbl.fin b, stateAt E s n) ∧ b ≤ -2 ^ (-54 : Int) ∧
      -(64 * ((i + n : Nat) : ℚ)) ≤ b := by
  induction n generalizing i a s with
  | zero => exact ⟨a, rfl, hneg.resolve_left (by omega), ha⟩
  | succ n ih =>
    have hg := hs 0 (by omega)
    rw [outAt_zero] at hg
    have hn : nextDouble0 s = .ok (Dbl.fin (unif (E.draw s).1.val), (E.draw s).2) := by
      unfold nextDouble0
      rw [zero_dbl, one_dbl, nextDouble2_run 0 1 (by norm_num) (by norm_num) (by norm_num), ndVal_one]
    have hu0 := unif_nonneg (E.draw s).1.val
    have hu1 := unif_le_one (E.draw s).1.isLt
    have hu2 : 2 ^ (-53 : Int) ≤ unif (E.draw s).1.val := by
      have h1 : unif (2 ^ 11) ≤ unif (E.draw s).1.val := unif_mono hg.1
      have h2 : unif (2 ^ 11) = 2 ^ (-53 : Int) := by decide +kernel
      rwa [h2] at h1
    have hx : oneMinus s = .ok (Dbl.fin (fl (1 - unif (E.draw s).1.val)), (E.draw s).2) := by
      unfold oneMinus
      rw [bind_run, hn]
      simp only [Out.bind]
      rw [pure_run, one_dbl, sub_dbl]
      apply big_le
      rw [abs_of_nonneg (by linarith)]
      linarith
    have hx0 : 2 ^ (-53 : Int) ≤ fl (1 - unif (E.draw s).1.val) := by
      have h1 : unif (E.draw s).1.val ≤ unif (2 ^ 64 - 1025) := unif_mono (by omega)
      have h2 : unif (2 ^ 64 - 1025) = 1 - 2 ^ (-53 : Int) := by decide +kernel
      have h3 := fl_mono (show 2 ^ (-53 : Int) ≤ 1 - unif (E.draw s).1.val by linarith)
      have h4 : fl ((2 : ℚ) ^ (-53 : Int)) = 2 ^ (-53 : Int) := by decide +kernel
      rwa [h4] at h3
    have hx1 : fl (1 - unif (E.draw s).1.val) ≤ 1 - 2 ^ (-53 : Int) := by
      have h3 := fl_mono (show 1 - unif (E.draw s).1.val ≤ 1 - 2 ^ (-53 : Int) by linarith)
      have h4 : fl (1 - (2 : ℚ) ^ (-53 : Int)) = 1 - 2 ^ (-53 : Int) := by decide +kernel
      rwa [h4] at h3
    have hxd : IsDouble (fl (1 - unif (E.draw s).1.val)) := by
      apply fl_isDouble
      have hp : (0 : ℚ) < 2 ^ (-53 : Int) := by positivity
      rw [abs_of_nonneg (by linarith)]
      exact lt_of_le_of_lt (show _ ≤ (1 : ℚ) by linarith) (by norm_num)
    generalize fl (1 - unif (E.draw s).1.val) = x at *
    have hp : (0 : ℚ) < 2 ^ (-53 : Int) := by positivity
    obtain ⟨y, hy, hy0, hy1⟩ := hm.2 x hx0 (by linarith)
    obtain ⟨y', hy', he⟩ := hl x hxd (le_trans (zpow_le_zpow_right₀ (by norm_num) (by norm_num)) hx0) (by linarith)
    have : y' = y := by rw [hy] at hy'; cases hy'; rfl
    subst this
    have hy2 : y' ≤ -2 ^ (-54 : Int) := by
      have hxr : (0 : ℝ) < x := by exact_mod_cast (lt_of_lt_of_le hp hx0)
      have h4 := Real.log_le_sub_one_of_pos hxr
      have h5 : (x : ℝ) ≤ 1 - 2 ^ (-53 : Int) := by
        have : (x : ℝ) ≤ ((1 - 2 ^ (-53 : Int) : ℚ) : ℝ) := by exact_mod_cast hx1
        rw [Rat.cast_sub, zpow_cast] at this
        simpa using this
      have hpr : (0 : ℝ) < 2 ^ (-53 : Int) := by positivity
      have h6 : Real.log (x : ℝ) ≤ -2 ^ (-53 : Int) := by linarith
      rw [abs_of_nonpos (by linarith : Real.log (x : ℝ) ≤ 0), e52] at he
      have h7 := (abs_le.1 he).2
      have hu1 : u ≤ 1 / 1000 := by unfold u; norm_num
      have hu0 := u_pos
      have h8 : (y' : ℝ) ≤ Real.log x / 2 := by nlinarith
      have h9 : (2 : ℝ) ^ (-54 : Int) = 2 ^ (-53 : Int) / 2 := by
        rw [show (-54 : Int) = -53 - 1 by norm_num, zpow_sub₀ (by norm_num)]; norm_num
      have h10 : (y' : ℝ) ≤ -2 ^ (-54 : Int) := by
        rw [h9]
        generalize (2 : ℝ) ^ (-53 : Int) = p at *
        linarith
      have : (y' : ℝ) ≤ ((-2 ^ (-54 : Int) : ℚ) : ℝ) := by rw [Rat.cast_neg, zpow_cast]; exact h10
      exact_mod_cast this
    have hb : (-(64 * ((i + 1 : Nat) : ℚ))) ≤ a + y' := by push_cast; linarith
    have hadd : Dbl.fin a + Dbl.fin y' = Dbl.fin (fl (a + y')) := by
      apply round_fin
      apply big_le
      rw [abs_of_nonpos (by linarith)]
      have : ((i + 1 : Nat) : ℚ) ≤ 2 ^ 40 := by exact_mod_cast (by omega : i + 1 ≤ 2 ^ 40)
      linarith
    have h54 : fl (-(2 : ℚ) ^ (-54 : Int)) = -2 ^ (-54 : Int) := by decide +kernel
    have h1 : fl (a + y') ≤ -2 ^ (-54 : Int) := by
      have := fl_mono (show a + y' ≤ -2 ^ (-54 : Int) by linarith)
      rwa [h54] at this
    have h2 : -(64 * ((i + 1 : Nat) : ℚ)) ≤ fl (a + y') := by
      have := fl_mono hb
      rwa [fl_mul64 _ (by omega)] at this
    have hp54 : (0 : ℚ) < 2 ^ (-54 : Int) := by positivity
    obtain ⟨b, hb, hb0, hb1⟩ := ih (i + 1) (by omega) (fl (a + y')) (by linarith) h2 (.inr h1) (E.draw s).2 (by
      intro j hj
      rw [← outAt_succ]
      exact hs (j + 1) (by omega))
    refine ⟨b, ?_, hb0, ?_⟩
    · unfold gammaSum
      rw [bind_run, hx]
      simp only [Out.bind]
      rw [hy, hadd, hb, stateAt_succ]
    · have e : i + (n + 1) = i + 1 + n := by omega
      rw [e]; exact hb1

theorem fl_nat_exact (n : Nat) (h : n ≤ 2 ^ 53) : fl (n : ℚ) = n := by
  have := fl_exact (m := n) (k := 0) (by rw [abs_of_nonneg (by omega)]; exact_mod_cast h) (by omega)
  rw [zpow_zero, mul_one] at this
  exact_mod_cast this

theorem div_dbl (a b : ℚ) (hb : b ≠ 0) (h : |a / b| ≤ maxDouble) : Dbl.fin a / Dbl.fin b = Dbl.fin (fl (a / b)) := by
  show (if b = 0 then _ else _) = _
  rw [if_neg hb]
  exact round_fin h

theorem chiSquaredInit_dbl (n : Nat) (h1 : 0 < n) (hn : (n : Int) ≤ INT_MAX) :
    chiSquaredInit (Dbl.fin (2 * n)) = .ok ⟨Dbl.fin n, Dbl.fin 2⟩ := by
  have hM : INT_MAX = 2147483647 := rfl
  have hp : (0 : ℚ) < n := by exact_mod_cast h1
  have hle : (n : ℚ) ≤ 2 ^ 31 := by exact_mod_cast (by omega : n ≤ 2 ^ 31)
  unfold chiSquaredInit gammaInit
  have e : Dbl.fin (2 * n) / ((2 : Int) : Dbl) = Dbl.fin n := by
    have e1 : (2 * (n : ℚ)) / 2 = n := by ring
    rw [two_dbl, div_dbl _ _ (by norm_num), e1, fl_nat_exact n (by omega)]
    rw [e1]
    apply big_le
    rw [abs_of_pos hp]
    linarith
  rw [e, two_dbl, zero_dbl, if_neg]
  show ¬(Dbl.fin _ ≤ Dbl.fin _ ∨ Dbl.fin _ ≤ Dbl.fin _)
  rw [fin_le, fin_le]
  rintro (h | h)
  · linarith
  · norm_num at h

/-- the samples of the chi-squared distribution -/
theorem chi_dbl (m : Libm Dbl) (hm : LogOk m.log) (hl : LogAcc m.log) (hi : m.toInt = Libm.dbl.toInt)
    (hfl : m.floor = Libm.dbl.floor) (n : Nat) (h1 : 0 < n) (hn : (n : Int) ≤ INT_MAX) (fuel : Nat) (s : E.σ)
    (hs : ∀ j < n, 2 ^ 11 ≤ outAt E s j ∧ outAt E s j < 2 ^ 64 - 1024) :
    ∃ y : ℚ, gammaNext m fuel ⟨Dbl.fin n, Dbl.fin 2⟩ s = .ok (Dbl.fin y, stateAt E s n) ∧ 2 ^ (-53 : Int) ≤ y := by
  have hM : INT_MAX = 2147483647 := rfl
  obtain ⟨b, hb, hb0, hb1⟩ := gammaSum_neg m hm hl n 0 (by omega) 0 le_rfl (by simp) (.inl h1) s hs
  have hnq : ((0 + n : Nat) : ℚ) ≤ 2 ^ 31 := by exact_mod_cast (by omega : 0 + n ≤ 2 ^ 31)
  have hp54 : (0 : ℚ) < 2 ^ (-54 : Int) := by positivity
  refine ⟨fl (2 * -b), ?_, ?_⟩
  · rw [gammaNext_dbl m hi hfl fuel n hn _ _ s _ hb]
    have : Dbl.fin 2 * -Dbl.fin b = Dbl.fin (fl (2 * -b)) := by
      apply round_fin
      apply big_le
      rw [abs_of_nonneg (by linarith)]
      linarith
    rw [this]
  · have h3 : (2 : ℚ) ^ (-53 : Int) ≤ 2 * -b := by
      have : (2 : ℚ) ^ (-53 : Int) = 2 * 2 ^ (-54 : Int) := by norm_num
      rw [this]; linarith
    have h4 : fl ((2 : ℚ) ^ (-53 : Int)) = 2 ^ (-53 : Int) := by decide +kernel
    have := fl_mono h3
    rwa [h4] at this

theorem student_mul (m : Libm Dbl) (hsq : m.sqrt = Libm.dbl.sqrt) (n : Nat) (hn : (n : Int) ≤ INT_MAX) (x y : ℚ)
    (hx : |(x : ℝ)| ≤ 14) (hy : 2 ^ (-53 : Int) ≤ y) :
    ∃ q : ℚ, Dbl.fin x * m.sqrt (Dbl.fin (2 * n) / Dbl.fin y) = Dbl.fin q ∧ |q| ≤ 2 ^ 48 := by
  have hM : INT_MAX = 2147483647 := rfl
  have hy0 : 0 < y := lt_of_lt_of_le (by positivity) hy
  have hle : (n : ℚ) ≤ 2 ^ 31 := by exact_mod_cast (by omega : n ≤ 2 ^ 31)
  have n0 : (0 : ℚ) ≤ 2 * n / y := by positivity
  have n1 : (2 * n / y : ℚ) ≤ 2 ^ 85 := by
    rw [div_le_iff₀ hy0]
    calc (2 * n : ℚ) ≤ 2 ^ 85 * 2 ^ (-53 : Int) := by norm_num; linarith
      _ ≤ 2 ^ 85 * y := mul_le_mul_of_nonneg_left hy (by positivity)
  have hM85 : (2 : ℚ) ^ 85 ≤ maxDouble := by unfold maxDouble; norm_num
  have e1 : Dbl.fin (2 * n) / Dbl.fin y = Dbl.fin (fl (2 * n / y)) := by
    show (if y = 0 then _ else _) = _
    rw [if_neg hy0.ne']
    apply round_fin
    rw [abs_of_nonneg n0]
    linarith
  have q0 := fl_nonneg n0
  have q1 : fl (2 * n / y : ℚ) ≤ 2 ^ 85 := by
    have h := fl_mono n1
    have e : fl ((2 : ℚ) ^ 85) = 2 ^ 85 := by
      have := fl_exact (m := 1) (k := 85) (by decide) (by decide)
      simpa using this
    rwa [e] at h
  generalize fl (2 * n / y : ℚ) = Q at *
  have hQ1 : (Q : ℝ) ≤ 2 ^ 85 := by exact_mod_cast q1
  have hr : Real.sqrt (Q : ℝ) ≤ 2 ^ 43 := by
    rw [Real.sqrt_le_left (by positivity)]
    exact hQ1.trans (by norm_num)
  have e2 : m.sqrt (Dbl.fin Q) = Dbl.fin (fl (Real.sqrt (Q : ℝ))) := by
    rw [hsq]
    show (if Q < 0 then _ else _) = _
    rw [if_neg (not_lt.2 q0)]
    apply round_real
    rw [abs_of_nonneg (Real.sqrt_nonneg _)]
    exact hr.trans (by norm_num)
  have r0 : 0 ≤ fl (Real.sqrt (Q : ℝ)) := fl_nonneg (Real.sqrt_nonneg _)
  have r1 : fl (Real.sqrt (Q : ℝ)) ≤ 2 ^ 43 := by
    have h := fl_mono hr
    have e : fl ((2 : ℝ) ^ 43) = 2 ^ 43 := by
      have := fl_cast (2 ^ 43)
      push_cast at this
      rw [this]
      decide +kernel
    rwa [e] at h
  generalize fl (Real.sqrt (Q : ℝ)) = R at *
  have hxq : |x| ≤ 14 := by
    rw [← Rat.cast_abs] at hx
    exact_mod_cast hx
  have p1 : |x * R| ≤ 2 ^ 48 := by
    rw [abs_mul, abs_of_nonneg r0]
    calc |x| * R ≤ 14 * 2 ^ 43 := mul_le_mul hxq r1 r0 (by norm_num)
      _ ≤ 2 ^ 48 := by norm_num
  refine ⟨fl (x * R), ?_, ?_⟩
  · rw [e1, e2]
    apply round_fin
    apply big_le
    exact p1.trans (by norm_num)
  · rw [abs_fl]
    have h := fl_mono p1
    have e : fl ((2 : ℚ) ^ 48) = 2 ^ 48 := by decide +kernel
    rwa [e] at h

theorem chi_zero (s : E.σ) (h0 : outAt E s 0 = 0) :
    gammaNext Libm.dbl 1 ⟨Dbl.fin ((1 : Nat) : ℚ), Dbl.fin 2⟩ s = .ok (Dbl.fin 0, stateAt E s 1) := by
  have e1 : Libm.dbl.log (Dbl.fin 1) = Dbl.fin 0 := by
    have h1 : IsDouble 1 := by
      have e : fl (1 : ℚ) = 1 := by decide +kernel
      have := fl_isDouble (x := (1 : ℚ)) (by rw [e]; norm_num)
      rwa [e] at this
    obtain ⟨y, hy, he⟩ := logAcc_dbl 1 h1 (by norm_num) (by norm_num)
    rw [Rat.cast_one, Real.log_one, abs_zero, mul_zero, sub_zero] at he
    have : y = 0 := by exact_mod_cast abs_nonpos_iff.1 he
    rw [hy, this]
  have hn : nextDouble0 s = .ok (Dbl.fin 0, (E.draw s).2) := by
    unfold nextDouble0
    rw [zero_dbl, one_dbl, nextDouble2_run 0 1 (by norm_num) (by norm_num) (by norm_num), ndVal_one]
    change Out.ok (Dbl.fin (unif (outAt E s 0)), _) = _
    rw [h0, show unif 0 = 0 by decide +kernel]
  have ho : oneMinus s = .ok (Dbl.fin 1, (E.draw s).2) := by
    unfold oneMinus
    rw [bind_run, hn]
    simp only [Out.bind]
    rw [pure_run, show ((1 : Int) : Dbl) - Dbl.fin 0 = Dbl.fin 1 by decide +kernel]
  have hsum : gammaSum Libm.dbl 1 (Dbl.fin 0) s = .ok (Dbl.fin 0, (E.draw s).2) := by
    unfold gammaSum
    rw [bind_run, ho]
    simp only [Out.bind]
    rw [e1, show Dbl.fin 0 + Dbl.fin 0 = Dbl.fin 0 by decide +kernel]
    rfl
  rw [gammaNext_dbl Libm.dbl rfl rfl 1 1 (by decide) _ _ s _ hsum, show Dbl.fin 2 * -Dbl.fin 0 = Dbl.fin 0 by decide +kernel]
  rfl

/-- from the rounded coordinates to the exact point -/
theorem offDisc_of {E : Engine} (s : E.σ) (i : Nat)
    (h : sq2 (pm (outAt E s (2 * i))) (pm (outAt E s (2 * i + 1))) = 0 ∨
      1 < sq2 (pm (outAt E s (2 * i))) (pm (outAt E s (2 * i + 1)))) : OffDisc E s i := by
  have b1 : outAt E s (2 * i) < 2 ^ 64 := (E.draw _).1.isLt
  have b2 : outAt E s (2 * i + 1) < 2 ^ 64 := (E.draw _).1.isLt
  have n1 : |(pm (outAt E s (2 * i)) : ℝ) - pointU E s i| ≤ 2 ^ (-51 : Int) := pm_near b1
  have n2 : |(pm (outAt E s (2 * i + 1)) : ℝ) - pointV E s i| ≤ 2 ^ (-51 : Int) := pm_near b2
  have a1 := pm_abs b1
  have a2 := pm_abs b2
  obtain ⟨r, -⟩ := sq2_rel (pm_big (outAt E s (2 * i))) (pm_big (outAt E s (2 * i + 1)))
  unfold OffDisc
  generalize pointU E s i = U at *
  generalize pointV E s i = V at *
  generalize pm (outAt E s (2 * i)) = x at *
  generalize pm (outAt E s (2 * i + 1)) = y at *
  have a1r : |(x : ℝ)| ≤ 1 := by rw [← Rat.cast_abs]; exact_mod_cast a1
  have a2r : |(y : ℝ)| ≤ 1 := by rw [← Rat.cast_abs]; exact_mod_cast a2
  have key : ∀ a A : ℝ, |a| ≤ 1 → |a - A| ≤ 2 ^ (-51 : Int) → a ^ 2 - 3 * 2 ^ (-51 : Int) ≤ A ^ 2 := by
    intro a A ha hA
    have p1 : (2 : ℝ) ^ (-51 : Int) ≤ 1 := by norm_num
    have p0 : (0 : ℝ) < 2 ^ (-51 : Int) := by positivity
    generalize (2 : ℝ) ^ (-51 : Int) = e at *
    have h1 := abs_le.1 ha
    have h2 := abs_le.1 hA
    nlinarith
  rcases h with h | h
  · left
    rw [h] at r
    have hz : (x : ℝ) ^ 2 + (y : ℝ) ^ 2 = 0 := by
      have hlo := r.lo (by positivity)
      have l2 : 1 - (2 : Nat) * u ≤ (1 - u) ^ 2 := lo_ge 2
      have hu1 : u ≤ 1 / 1000 := by unfold u; norm_num
      push_cast at l2 hlo
      have h0 : 0 ≤ (x : ℝ) ^ 2 + (y : ℝ) ^ 2 := by positivity
      nlinarith
    have hx : (x : ℝ) = 0 := by nlinarith [sq_nonneg (x : ℝ), sq_nonneg (y : ℝ)]
    have hy : (y : ℝ) = 0 := by nlinarith [sq_nonneg (x : ℝ), sq_nonneg (y : ℝ)]
    rw [hx, zero_sub, abs_neg] at n1
    rw [hy, zero_sub, abs_neg] at n2
    have e1 := pow_le_pow_left₀ (abs_nonneg _) n1 2
    have e2 := pow_le_pow_left₀ (abs_nonneg _) n2 2
    rw [sq_abs] at e1 e2
    have : ((2 : ℝ) ^ (-51 : Int)) ^ 2 + ((2 : ℝ) ^ (-51 : Int)) ^ 2 ≤ 2 ^ (-100 : Int) := by norm_num
    linarith
  · right
    have hr : (1 : ℝ) < (sq2 x y : ℝ) := by exact_mod_cast h
    have k1 := key _ _ a1r n1
    have k2 := key _ _ a2r n2
    have h0 : 0 ≤ (x : ℝ) ^ 2 + (y : ℝ) ^ 2 := by positivity
    have he := r.err (by norm_num)
    rw [abs_of_nonneg h0] at he
    have h2 := (abs_le.1 he).2
    have hb : (x : ℝ) ^ 2 + (y : ℝ) ^ 2 ≤ 2 := by
      have := abs_le.1 a1r
      have := abs_le.1 a2r
      nlinarith
    have hu : u = 2 ^ (-53 : Int) := u_eq.symm
    have hu0 := u_pos
    have h3 : 1 - 8 * u ≤ (x : ℝ) ^ 2 + (y : ℝ) ^ 2 := by
      norm_num at h2
      nlinarith
    have h4 : 8 * u + 6 * 2 ^ (-51 : Int) ≤ (2 : ℝ) ^ (-48 : Int) := by rw [hu]; norm_num
    linarith

end Rand.Nrm
