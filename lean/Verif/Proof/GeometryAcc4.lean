import Verif.Proof.GeometryAcc3

/-! # Accuracy in binary64: segments -/

set_option exponentiation.threshold 2000

namespace Geo.Acc
open Cpp Geo Geo.Spec

theorem vlen_add (p q : Fin 2 → ℝ) : vlen (fun i => p i + q i) ≤ vlen p + vlen q := by
  have h1 := vlen_nonneg p
  have h2 := vlen_nonneg q
  have h3 := cs_dot p q
  have e1 := vlen_sq p
  have e2 := vlen_sq q
  have e3 := vlen_sq fun i => p i + q i
  simp only [Fin.sum_univ_two] at e1 e2 e3
  have h4 := le_abs_self (p 0 * q 0)
  have h5 := le_abs_self (p 1 * q 1)
  apply le_of_sq_le_sq _ (by linarith)
  nlinarith
where
  le_of_sq_le_sq {a b : ℝ} (h : a ^ 2 ≤ b ^ 2) (hb : 0 ≤ b) : a ≤ b := by
    by_contra hc
    push Not at hc
    nlinarith

theorem vlen_le_of {p : Fin 2 → ℝ} {c : ℝ} (h : ∀ i, |p i| ≤ 3 * c) : vlen p ≤ 5 * c := by
  have hc : 0 ≤ c := by linarith [(abs_nonneg (p 0)).trans (h 0)]
  rw [vlen2, Real.sqrt_le_left (by linarith)]
  have h0 := pow_le_pow_left₀ (abs_nonneg _) (h 0) 2
  have h1 := pow_le_pow_left₀ (abs_nonneg _) (h 1) 2
  rw [sq_abs] at h0 h1
  nlinarith

/-- what is known about the distance from a segment -/
theorem seg_facts {P A v : Fin 2 → ℝ} {d : ℝ} (hv : 0 < vlen v) (hd : IsDist (segment A v) P d) {W W' : Fin 2 → ℝ}
    (hW : W = fun i => P i - A i) (hW' : W' = fun i => P i - A i - v i) {D D' : ℝ} (hD : D = v 0 * W 0 + v 1 * W 1)
    (hD' : D' = v 0 * W' 0 + v 1 * W' 1) {h : ℝ} (hh : h = |cross v W / vlen v|) :
    d ≤ vlen W ∧ d ≤ vlen W' ∧ h ≤ d ∧ (D ≤ 0 → d = vlen W) ∧ (0 ≤ D' → d = vlen W') ∧ (0 ≤ D → D' ≤ 0 → d = h) ∧
    vlen W ≤ h + |D| / vlen v ∧ vlen W' ≤ h + |D'| / vlen v := by
  have hL2 := vlen_sq v
  rw [Fin.sum_univ_two] at hL2
  set L := vlen v with hL
  have hDD : D' = D - L ^ 2 := by rw [hL2, hD, hD', hW, hW']; ring
  have hh0 : 0 ≤ h := by rw [hh]; exact abs_nonneg _
  have hhL : h ^ 2 * L ^ 2 = cross v W ^ 2 := by
    rw [hh, sq_abs, div_pow]
    field_simp
  have hdist : ∀ t, Spec.dist P (fun i => A i + t * v i) ^ 2 * L ^ 2 = cross v W ^ 2 + (D - t * L ^ 2) ^ 2 := by
    intro t
    rw [dist2, Real.sq_sqrt (by positivity), hL2, hD, hW]
    unfold cross
    ring
  have hW0 : Spec.dist P (fun i => A i + 0 * v i) = vlen W := by
    rw [dist_eq, hW]
    congr 1
    funext i
    ring
  have hW1 : Spec.dist P (fun i => A i + 1 * v i) = vlen W' := by
    rw [dist_eq, hW']
    congr 1
    funext i
    ring
  have hd0 : 0 ≤ d := by
    obtain ⟨⟨X, _, hX⟩, _⟩ := hd
    rw [← hX]
    exact Real.sqrt_nonneg _
  have hle : ∀ t, 0 ≤ t → t ≤ 1 → d ≤ Spec.dist P (fun i => A i + t * v i) := fun t h0 h1 =>
    hd.2 _ ⟨t, h0, h1, fun i => rfl⟩
  obtain ⟨t, ht0, ht1, ht⟩ : ∃ t, 0 ≤ t ∧ t ≤ 1 ∧ d = Spec.dist P (fun i => A i + t * v i) := by
    obtain ⟨⟨X, ⟨t, h0, h1, hX⟩, hX2⟩, _⟩ := hd
    have : X = fun i => A i + t * v i := funext hX
    exact ⟨t, h0, h1, by rw [← hX2, this]⟩
  have hdt := hdist t
  rw [← ht] at hdt
  have hLsq : 0 < L ^ 2 := by positivity
  have cmp : ∀ {a b : ℝ}, 0 ≤ b → a ^ 2 * L ^ 2 ≤ b ^ 2 * L ^ 2 → a ≤ b := by
    intro a b hb hab
    have := le_of_mul_le_mul_right hab hLsq
    by_contra hc
    push Not at hc
    nlinarith
  have hw := hdist 0
  have hw' := hdist 1
  rw [hW0] at hw
  rw [hW1] at hw'
  refine ⟨hW0 ▸ hle 0 le_rfl zero_le_one, hW1 ▸ hle 1 zero_le_one le_rfl, cmp hd0 (by rw [hhL, hdt]; nlinarith [sq_nonneg (D - t * L ^ 2)]),
    fun h0 => le_antisymm (hW0 ▸ hle 0 le_rfl zero_le_one) (cmp hd0 ?_),
    fun h0 => le_antisymm (hW1 ▸ hle 1 zero_le_one le_rfl) (cmp hd0 ?_), fun h0 h1 => ?_, ?_, ?_⟩
  · rw [hw, hdt]
    have : 0 ≤ t * L ^ 2 := by positivity
    nlinarith
  · rw [hw', hdt]
    rw [hDD] at h0
    have : t * L ^ 2 ≤ 1 * L ^ 2 := mul_le_mul_of_nonneg_right ht1 hLsq.le
    nlinarith
  · rw [hDD] at h1
    have hf := hdist (D / L ^ 2)
    rw [div_mul_cancel₀ _ hLsq.ne', sub_self, zero_pow two_ne_zero, add_zero] at hf
    have h2 := hle (D / L ^ 2) (by positivity) ((div_le_one hLsq).2 (by linarith))
    refine le_antisymm (h2.trans (cmp hh0 ?_)) (cmp hd0 (by rw [hhL, hdt]; nlinarith [sq_nonneg (D - t * L ^ 2)]))
    rw [hf, hhL]
  · refine cmp (by positivity) ?_
    rw [hw, zero_mul, sub_zero, add_sq, add_mul, add_mul, hhL, div_pow, sq_abs, div_mul_cancel₀ _ hLsq.ne']
    have : 0 ≤ 2 * h * (|D| / L) * L ^ 2 := by positivity
    linarith
  · refine cmp (by positivity) ?_
    rw [hw', one_mul, ← hDD, add_sq, add_mul, add_mul, hhL, div_pow, sq_abs, div_mul_cancel₀ _ hLsq.ne']
    have : 0 ≤ 2 * h * (|D'| / L) * L ^ 2 := by positivity
    linarith

theorem eps_near : ∃ e : ℚ, Fp.dbl.eps = .fin e ∧ 0 < e ∧ (e : ℝ) ≤ 1 / 10 ^ 6 + 1 / 10 ^ 20 := by
  have h : |(1 / 10 ^ 6 : ℚ)| ≤ 2 ^ 1000 := by
    rw [abs_of_pos (by norm_num)]
    norm_num
  obtain ⟨e, he, h0, -⟩ := eps_bounds
  refine ⟨e, he, h0, ?_⟩
  have h2 : Fp.dbl.eps = .fin (fl (1 / 10 ^ 6 : ℚ)) := round_fin h
  rw [h2] at he
  rw [← Dbl.fin.inj he]
  have h3 := Geo.fl_err (1 / 10 ^ 6 : ℚ)
  rw [abs_of_pos (show (0 : ℚ) < 1 / 10 ^ 6 by norm_num), abs_le] at h3
  have h4 : (2 : ℚ) ^ (-53 : Int) * (1 / 10 ^ 6) + 2 ^ (-1075 : Int) ≤ 1 / 10 ^ 20 := by norm_num
  have h5 : fl (1 / 10 ^ 6 : ℚ) ≤ 1 / 10 ^ 6 + 1 / 10 ^ 20 := by linarith [h3.2]
  have h6 : ((fl (1 / 10 ^ 6 : ℚ) : ℚ) : ℝ) ≤ ((1 / 10 ^ 6 + 1 / 10 ^ 20 : ℚ) : ℝ) := Rat.cast_le.2 h5
  push_cast at h6
  exact h6

theorem dcmp_dbl (c : ℚ) {e : ℚ} (he : Fp.dbl.eps = .fin e) (h0 : 0 < e) :
    (dcmp Fp.dbl (.fin c) < 0 ↔ c ≤ -e) ∧ (0 < dcmp Fp.dbl (.fin c) ↔ e ≤ c) := by
  unfold dcmp
  rw [he, dzero]
  have hl : ∀ a b : ℚ, (Dbl.fin a < Dbl.fin b) ↔ a < b := fun a b => by
    show Dbl.lt (.fin a) (.fin b) = true ↔ _
    simp [Dbl.lt]
  have hf : Fp.dbl.fabs (.fin c) = .fin |c| := rfl
  simp only [hf, hl, Int.cast_zero]
  split_ifs with h1 h2
  · rw [abs_lt] at h1
    exact ⟨⟨fun h => absurd h (by norm_num), fun h => by linarith⟩, ⟨fun h => absurd h (by norm_num), fun h => by linarith⟩⟩
  · rw [not_lt, le_abs] at h1
    refine ⟨⟨fun h => absurd h (by norm_num), fun h => by linarith⟩, ⟨fun _ => ?_, fun _ => by norm_num⟩⟩
    rcases h1 with h1 | h1 <;> linarith
  · rw [not_lt, le_abs] at h1
    refine ⟨⟨fun _ => ?_, fun _ => by norm_num⟩, ⟨fun h => absurd h (by norm_num), fun h => by linarith⟩⟩
    rcases h1 with h1 | h1 <;> linarith

theorem ar_delta {w w' a b x y : ℝ} (hw : 0 ≤ w) (hw' : 0 ≤ w') (h1 : a ≤ 2 * u * w) (h2 : b ≤ 2 * u * x) (h3 : x ≤ a + w')
    (h4 : y ≤ b + a) : y ≤ 3 * (u * (w + w')) := by
  have hu := u_small
  have hu0 := u_pos
  have h9 : 2 * u * x ≤ 2 * u * (2 * u * w + w') := mul_le_mul_of_nonneg_left (by linarith) (by linarith)
  have h10 : 2 * u * (2 * u * w) ≤ 1 * (u * w) := by
    have : 0 ≤ u * w := by positivity
    nlinarith
  nlinarith [mul_nonneg hu0.le hw']

theorem ar_dot {w w' L x : ℝ} (hw : 0 ≤ w) (hw' : 0 ≤ w') (hL : 0 ≤ L) (h : x ≤ w' + 5 * (u * (w + w'))) :
    4 * u * (L * x) ≤ 5 * (u * (w + w')) * L ∧ 4 * u * x ≤ 5 * (u * (w + w')) := by
  have hu := u_small
  have hu0 := u_pos
  have hSS : 0 ≤ u * (w + w') := by positivity
  have h5 : u * (5 * (u * (w + w'))) ≤ 1 / 4 * (u * (w + w')) := by nlinarith
  have h6 : u * w' ≤ u * (w + w') := mul_le_mul_of_nonneg_left (by linarith) hu0.le
  have h7 : 4 * u * x ≤ 5 * (u * (w + w')) := by
    have := mul_le_mul_of_nonneg_left h (show 0 ≤ 4 * u by linarith)
    linarith
  refine ⟨?_, h7⟩
  have := mul_le_mul_of_nonneg_right h7 hL
  linarith

/-- the three cases of `disToSegment` -/
theorem ar_cases {c c' D D' e L h d w w' l2 l3 q s E : ℝ} (hs : 0 ≤ s) (hL : 0 < L) (he0 : 0 < e) (he : e ≤ E)
    (f1 : d ≤ w) (f2 : d ≤ w') (f3 : h ≤ d) (f4 : D ≤ 0 → d = w) (f5 : 0 ≤ D' → d = w') (f6 : 0 ≤ D → D' ≤ 0 → d = h)
    (f7 : w ≤ h + |D| / L) (f8 : w' ≤ h + |D'| / L) (hcD : |c - D| ≤ 5 * s * L) (hcD' : |c' - D'| ≤ 10 * s * L)
    (hl2 : |l2 - w| ≤ 5 * s) (hl3 : |l3 - w'| ≤ 10 * s) (hq : |q - h| ≤ 12 * s) :
    (c ≤ -e → |l2 - d| ≤ 32 * s + E / L) ∧ (e ≤ c' → |l3 - d| ≤ 32 * s + E / L) ∧
    (-e < c → c' < e → |q - d| ≤ 32 * s + E / L) := by
  have hE : 0 ≤ E / L := div_nonneg (by linarith) hL.le
  rw [abs_le] at hcD hcD' hl2 hl3 hq
  refine ⟨fun i1 => ?_, fun i2 => ?_, fun i1 i2 => ?_⟩
  · have hDle : D ≤ 5 * s * L := by linarith
    have : w ≤ d + 5 * s := by
      rcases le_or_gt D 0 with h0 | h0
      · rw [f4 h0]; linarith
      · have : |D| / L ≤ 5 * s := by
          rw [abs_of_pos h0, div_le_iff₀ hL]; exact hDle
        linarith
    rw [abs_le]
    constructor <;> linarith
  · have hDge : -(10 * s * L) ≤ D' := by linarith
    have : w' ≤ d + 10 * s := by
      rcases le_or_gt 0 D' with h0 | h0
      · rw [f5 h0]; linarith
      · have : |D'| / L ≤ 10 * s := by
          rw [abs_of_neg h0, div_le_iff₀ hL]; linarith
        linarith
    rw [abs_le]
    constructor <;> linarith
  · have hsplit : (E + 10 * s * L) / L = E / L + 10 * s := by field_simp
    have hsL : 0 ≤ s * L := mul_nonneg hs hL.le
    have : d ≤ h + (E / L + 10 * s) := by
      rcases le_or_gt D 0 with h0 | h0
      · have h1 : |D| / L ≤ E / L + 10 * s := by
          rw [abs_of_nonpos h0, ← hsplit]
          apply div_le_div_of_nonneg_right _ hL.le
          linarith
        linarith
      · rcases le_or_gt D' 0 with h1 | h1
        · rw [f6 h0.le h1]; linarith
        · have h1 : |D'| / L ≤ E / L + 10 * s := by
            rw [abs_of_pos h1, ← hsplit]
            apply div_le_div_of_nonneg_right _ hL.le
            linarith
          linarith
    rw [abs_le]
    constructor <;> linarith

/-- the distance from a segment -/
theorem seg_err {P A v : Fin 2 → ℚ} (hP : ∀ i, Moderate (P i)) (hA : ∀ i, Moderate (A i)) (hv : ∀ i, Moderate (v i)) (hv0 : v ≠ 0)
    {d : ℝ} (hd : IsDist (segment (real A) (real v)) (real P) d) (n : Nat) :
    ∃ z : ℚ, ((disToSegment Fp.dbl (fun i => Dbl.fin (P i)) ⟨fun i => Dbl.fin (A i), fun i => Dbl.fin (v i)⟩).run n).1 = .fin z ∧
      |(z : ℝ) - d| ≤ 32 * u * (vlen (fun i => (P i : ℝ) - A i) + vlen (fun i => (P i : ℝ) - A i - v i)) +
        (1 / 10 ^ 6 + 1 / 10 ^ 20) / vlen (real v) := by
  obtain ⟨s1, s2, s3, s4⟩ := sub_moderate hP hA
  set W : Fin 2 → ℝ := fun i => (P i : ℝ) - A i with hW
  set W' : Fin 2 → ℝ := fun i => (P i : ℝ) - A i - v i with hW'
  set v2 : Fin 2 → ℚ := fun i => fl (P i - A i) with hv2
  have hreal : real v ≠ 0 := fun h => hv0 (funext fun i => by
    have : (v i : ℝ) = 0 := congrFun h i
    exact_mod_cast this)
  have hL := vlen_pos hreal
  have hvg : ∀ i, Grid (-452) (v i) := fun i => grid_of_moderate (hv i)
  have hvb : ∀ i, |(v i : ℝ)| ≤ 2 ^ 400 := fun i => moderate_le (hv i)
  have up : ∀ {a b : Nat} {x : ℝ}, x ≤ 2 ^ a → a ≤ b → x ≤ 2 ^ b := fun h hab => h.trans (pow_le_pow_right₀ (by norm_num) hab)
  have hu := u_small
  have hu0 := u_pos
  have hWn := vlen_nonneg W
  have hWn' := vlen_nonneg W'
  -- the third vector
  set v3 : Fin 2 → ℚ := fun i => fl (v2 i - v i) with hv3
  have g3 : ∀ i, Grid (-452) (v2 i - v i) := fun i => (s2 i).sub (hvg i)
  have hv2b : ∀ i, |(v2 i : ℝ)| ≤ 2 ^ 402 := fun i => by
    have h1 := (s3 i).double (by norm_num)
    have h2 := s4 i
    rw [show (2 : ℝ) ^ 402 = 2 * 2 ^ 401 by rw [pow_succ]; ring]
    show |((fl (P i - A i) : ℚ) : ℝ)| ≤ _
    generalize (2 : ℝ) ^ 401 = B at *
    linarith
  have hv2v : ∀ i, |(v2 i : ℝ) - v i| ≤ 2 ^ 403 := fun i => by
    have h1 := abs_sub (v2 i : ℝ) (v i)
    have h2 := up (hvb i) (show 400 ≤ 402 by norm_num)
    have h3 := hv2b i
    rw [show (2 : ℝ) ^ 403 = 2 * 2 ^ 402 by rw [pow_succ _ 402]; ring]
    generalize (2 : ℝ) ^ 402 = B at *
    linarith
  have r3 : ∀ i, Rel 1 ((v2 i : ℝ) - v i) (v3 i) := fun i => by
    have := (g3 i).rel (by norm_num)
    push_cast at this
    exact this
  have s5 : (fun i => Dbl.fin (P i) - Dbl.fin (A i) - Dbl.fin (v i)) = fun i => Dbl.fin (v3 i) := by
    funext i
    rw [congrFun s1 i]
    show Dbl.round (v2 i + -v i) = _
    rw [← sub_eq_add_neg]
    apply roundq
    push_cast
    exact up (hv2v i) (by norm_num)
  have hv3b : ∀ i, |(v3 i : ℝ)| ≤ 2 ^ 430 := fun i => by
    have h1 := (r3 i).double (by norm_num)
    have h2 := hv2v i
    refine up (b := 430) (a := 404) ?_ (by norm_num)
    rw [show (2 : ℝ) ^ 404 = 2 * 2 ^ 403 by rw [pow_succ _ 403]; ring]
    generalize (2 : ℝ) ^ 403 = B at *
    linarith
  have hδ : vlen (fun i => (v3 i : ℝ) - W' i) ≤ 5 * (u * (vlen W + vlen W')) := by
    apply vlen_le_of
    intro i
    have h1 := (s3 i).err (by norm_num)
    have h2 := (r3 i).err (by norm_num)
    norm_num at h1 h2
    have h3 := abs_le_vlen W i
    have h4 := abs_le_vlen W' i
    have h5 : |(v2 i : ℝ) - v i| ≤ |(v2 i : ℝ) - W i| + |W' i| := by
      have := abs_add_le ((v2 i : ℝ) - W i) (W' i)
      rwa [show (v2 i : ℝ) - W i + W' i = v2 i - v i by rw [hW, hW']; ring] at this
    have h6 : |(v3 i : ℝ) - W' i| ≤ |(v3 i : ℝ) - (v2 i - v i)| + |(v2 i : ℝ) - W i| := by
      have := abs_add_le ((v3 i : ℝ) - (v2 i - v i)) ((v2 i : ℝ) - W i)
      rwa [show (v3 i : ℝ) - (v2 i - v i) + (v2 i - W i) = v3 i - W' i by rw [hW, hW']; ring] at this
    have h7 : |(v2 i : ℝ) - W i| ≤ 2 * u * |W i| := h1
    have h8 : |(v2 i : ℝ) - W i| ≤ 2 * u * vlen W := h7.trans (mul_le_mul_of_nonneg_left h3 (by linarith))
    exact ar_delta hWn hWn' h8 h2 (by linarith) h6
  have hv3W : vlen (real v3) ≤ vlen W' + 5 * (u * (vlen W + vlen W')) := by
    have := vlen_add W' (fun i => (v3 i : ℝ) - W' i)
    have e : (fun i => W' i + ((v3 i : ℝ) - W' i)) = real v3 := by
      funext i
      show W' i + ((v3 i : ℝ) - W' i) = v3 i
      ring
    rw [e] at this
    linarith
  have hv3W' : vlen W' ≤ vlen (real v3) + 5 * (u * (vlen W + vlen W')) := by
    have := vlen_add (real v3) (fun i => W' i - (v3 i : ℝ))
    have e : (fun i => real v3 i + (W' i - (v3 i : ℝ))) = W' := by
      funext i
      show (v3 i : ℝ) + (W' i - v3 i) = W' i
      ring
    have e2 : vlen (fun i => W' i - (v3 i : ℝ)) = vlen (fun i => (v3 i : ℝ) - W' i) := by
      rw [vlen2, vlen2]
      congr 1
      ring
    rw [e, e2] at this
    linarith
  -- the two dot products
  obtain ⟨c, hc, hce⟩ := dot_err v v2 W hvg s2 s3 (by norm_num) (by norm_num) (fun i => up (hvb i) (by norm_num))
    (fun i => up (s4 i) (by norm_num))
  obtain ⟨c', hc', hce'⟩ := dot_err v v3 (real v3) (e := 0) hvg (fun i => (g3 i).fl) (fun i => Rel.refl _) (by norm_num) (by norm_num)
    (fun i => up (hvb i) (by norm_num)) hv3b
  obtain ⟨l2, hl2, hl2r, -, -⟩ := len_rel W v2 (e := 1) s3 (fun i => big_of_grid (s2 i)) (by norm_num) (by norm_num)
    (fun i => up (s4 i) (by norm_num))
  obtain ⟨l3, hl3, hl3r, -, -⟩ := len_rel (real v3) v3 (e := 0) (fun i => Rel.refl _) (fun i => big_of_grid (g3 i).fl) (by norm_num) (by norm_num)
    hv3b
  obtain ⟨q, hq, hqe⟩ := line_err hv hv0 s2 s3 s4
  obtain ⟨e, he, he0, he1⟩ := eps_near
  have f := seg_facts (D := v 0 * W 0 + v 1 * W 1) (D' := v 0 * W' 0 + v 1 * W' 1) hL hd (W := W) (W' := W') rfl rfl rfl rfl rfl
  simp only [Fin.sum_univ_two] at hce hce'
  set D : ℝ := v 0 * W 0 + v 1 * W 1 with hD
  set D' : ℝ := v 0 * W' 0 + v 1 * W' 1 with hD'
  set h := |cross (real v) W / vlen (real v)| with hh
  obtain ⟨f1, f2, f3, f4, f5, f6, f7, f8⟩ := f
  set L := vlen (real v) with hLd
  set w := vlen W
  set w' := vlen W'
  have hSS : 0 ≤ u * (w + w') := by positivity
  obtain ⟨k1, k2⟩ := ar_dot hWn hWn' hL.le hv3W
  have hcD : |(c : ℝ) - D| ≤ 5 * (u * (w + w')) * L := by
    refine hce.trans ?_
    have h1 := mul_le_mul_of_nonneg_left (cs_dot (real v) W) (show 0 ≤ 5 * u by linarith)
    have h2 : 5 * u * (L * w) ≤ 5 * (u * (w + w')) * L := by
      have := mul_nonneg (mul_nonneg hu0.le hWn') hL.le
      linarith
    rw [show ((2 : Nat) : ℝ) + (1 : Nat) + 2 = 5 by norm_num]
    exact h1.trans h2
  have hcD' : |(c' : ℝ) - D'| ≤ 10 * (u * (w + w')) * L := by
    have h1 : |(c' : ℝ) - (v 0 * real v3 0 + v 1 * real v3 1)| ≤ 4 * u * (L * vlen (real v3)) := by
      refine hce'.trans ?_
      rw [show ((2 : Nat) : ℝ) + (0 : Nat) + 2 = 4 by norm_num]
      exact mul_le_mul_of_nonneg_left (cs_dot (real v) (real v3)) (by linarith)
    have h2 : |(v 0 * real v3 0 + v 1 * real v3 1) - D'| ≤ L * (5 * (u * (w + w'))) := by
      refine le_trans ?_ (mul_le_mul_of_nonneg_left hδ hL.le)
      refine le_trans ?_ (cs_dot (real v) _)
      refine le_trans (le_of_eq ?_) (abs_add_le _ _)
      congr 1
      rw [hD']
      show (v 0 : ℝ) * v3 0 + v 1 * v3 1 - _ = v 0 * (v3 0 - W' 0) + v 1 * (v3 1 - W' 1)
      ring
    have h3 := abs_add_le ((c' : ℝ) - (v 0 * real v3 0 + v 1 * real v3 1)) ((v 0 * real v3 0 + v 1 * real v3 1) - D')
    rw [sub_add_sub_cancel] at h3
    linarith
  have hl2e : |(l2 : ℝ) - w| ≤ 5 * (u * (w + w')) := by
    have h1 := hl2r.err (by norm_num)
    rw [abs_of_nonneg (show 0 ≤ w from hWn)] at h1
    norm_num at h1
    have := mul_nonneg hu0.le hWn'
    linarith
  have hl3e : |(l3 : ℝ) - w'| ≤ 10 * (u * (w + w')) := by
    have h1 := hl3r.err (by norm_num)
    rw [abs_of_nonneg (vlen_nonneg _)] at h1
    norm_num at h1
    rw [abs_le] at h1 ⊢
    constructor <;> linarith
  have hqe2 : |(q : ℝ) - h| ≤ 12 * (u * (w + w')) := by
    refine hqe.trans ?_
    have := mul_nonneg hu0.le hWn'
    linarith
  have he0' : (0 : ℝ) < e := by exact_mod_cast he0
  obtain ⟨t1, t2, t3⟩ := ar_cases hSS hL he0' he1 f1 f2 f3 f4 f5 f6 f7 f8 hcD hcD' hl2e hl3e hqe2
  rw [disToSegment_run]
  dsimp only
  rw [s1, s5, hc, hc', hl2, hl3, hq]
  obtain ⟨d1, -⟩ := dcmp_dbl c he he0
  obtain ⟨-, d2⟩ := dcmp_dbl c' he he0
  simp only [d1, d2]
  rw [mul_assoc 32 u]
  split_ifs with i1 i2
  · exact ⟨l2, rfl, t1 (by exact_mod_cast i1)⟩
  · exact ⟨l3, rfl, t2 (by exact_mod_cast i2)⟩
  · rw [not_le] at i1 i2
    exact ⟨q, rfl, t3 (by exact_mod_cast i1) (by exact_mod_cast i2)⟩

end Geo.Acc
