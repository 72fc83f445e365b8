import Verif.Spec.RandomUse
import Verif.Proof.RandomQuantile
import Mathlib.MeasureTheory.Integral.Lebesgue.Add
import Mathlib.Topology.Algebra.InfiniteSum.ENNReal
import Mathlib.Analysis.SpecialFunctions.Gamma.BohrMollerup

/-! # Helper lemmas for the outputs that a sampler takes -/

namespace Rand
open Cpp Spec MeasureTheory ProbabilityTheory
open scoped ENNReal

variable {E : Engine} {β γ : Type}

/-! ### The number of rounds -/

theorem rounds_eq {F : Smp β} {A : Set β} {ω : ℕ → ℝ} {j : ℕ} (h : results F ω j ∈ A)
    (hr : ∀ i < j, results F ω i ∉ A) : rounds F A ω = ((j + 1 : ℕ) : ℕ∞) := by
  unfold rounds
  apply le_antisymm
  · exact iInf₂_le j h
  · refine le_iInf₂ fun i hi => ?_
    have : j ≤ i := not_lt.1 fun hlt => hr i hlt hi
    exact_mod_cast Nat.succ_le_succ this

theorem rounds_top {F : Smp β} {A : Set β} {ω : ℕ → ℝ} (h : ∀ j, results F ω j ∉ A) : rounds F A ω = ⊤ := by
  unfold rounds
  simp [h]

/-- either there is a first round, or none -/
theorem rounds_cases (F : Smp β) (A : Set β) (ω : ℕ → ℝ) :
    (∃ j, results F ω j ∈ A ∧ (∀ i < j, results F ω i ∉ A) ∧ rounds F A ω = ((j + 1 : ℕ) : ℕ∞)) ∨
    ((∀ j, results F ω j ∉ A) ∧ rounds F A ω = ⊤) := by
  classical
  by_cases h : ∃ j, results F ω j ∈ A
  · exact .inl ⟨Nat.find h, Nat.find_spec h, fun i hi => Nat.find_min h hi,
      rounds_eq (Nat.find_spec h) fun i hi => Nat.find_min h hi⟩
  · push Not at h
    exact .inr ⟨h, rounds_top h⟩

theorem lt_rounds {F : Smp β} {A : Set β} {ω : ℕ → ℝ} {n : ℕ} :
    (n : ℕ∞) < rounds F A ω ↔ ∀ i < n, results F ω i ∉ A := by
  rcases rounds_cases F A ω with ⟨j, h1, h2, h3⟩ | ⟨h1, h2⟩
  · rw [h3]
    constructor
    · intro h i hi
      have : n < j + 1 := by exact_mod_cast h
      exact h2 i (by omega)
    · intro h
      have : ¬ j < n := fun hj => h j hj h1
      exact_mod_cast (by omega : n < j + 1)
  · rw [h2]
    exact ⟨fun _ i _ => h1 i, fun _ => ENat.natCast_lt_top n⟩

theorem rounds_sum (F : Smp β) (A : Set β) (ω : ℕ → ℝ) :
    ((rounds F A ω : ℕ∞) : ℝ≥0∞) = ∑' n : ℕ, {ω | (n : ℕ∞) < rounds F A ω}.indicator 1 ω := by
  rcases rounds_cases F A ω with ⟨j, h1, h2, h3⟩ | ⟨h1, h2⟩
  · rw [tsum_eq_sum (s := Finset.range (j + 1)), Finset.sum_congr rfl (g := fun _ => 1)]
    · rw [h3]
      simp
    · intro n hn
      rw [Set.indicator_of_mem]
      · rfl
      · show (n : ℕ∞) < rounds F A ω
        rw [h3]
        exact_mod_cast Finset.mem_range.1 hn
    · intro n hn
      rw [Set.indicator_of_notMem]
      show ¬ (n : ℕ∞) < rounds F A ω
      rw [h3]
      have := mt Finset.mem_range.2 hn
      exact_mod_cast this
  · have e : (fun n : ℕ => {ω | (n : ℕ∞) < rounds F A ω}.indicator (1 : (ℕ → ℝ) → ℝ≥0∞) ω) = fun _ => 1 := by
      funext n
      rw [Set.indicator_of_mem]
      · rfl
      · show (n : ℕ∞) < rounds F A ω
        rw [h2]
        exact ENat.natCast_lt_top n
    rw [e, h2, ENNReal.tsum_const_eq_top_of_ne_zero one_ne_zero]
    rfl

variable [MeasurableSpace β]

/-- the number of rounds is geometric -/
theorem rounds_tail {F : Smp β} {μ : Measure β} [IsProbabilityMeasure μ] (h : Samples F μ) {A : Set β}
    (hA : MeasurableSet A) (n : ℕ) :
    MeasurableSet {ω | (n : ℕ∞) < rounds F A ω} ∧ ideal {ω | (n : ℕ∞) < rounds F A ω} = (1 - μ A) ^ n := by
  have := h.first n (fun _ => Aᶜ) (fun _ => hA.compl) Set.univ MeasurableSet.univ
  have e : {ω | (∀ i < n, results F ω i ∈ Aᶜ) ∧ (fun ω => (F ω).2)^[n] ω ∈ Set.univ} =
      {ω | (n : ℕ∞) < rounds F A ω} := by
    ext ω
    refine Iff.trans ?_ lt_rounds.symm
    exact ⟨fun h => h.1, fun h => ⟨h, trivial⟩⟩
  rw [e, Finset.prod_const, Finset.card_range, measure_univ, mul_one, prob_compl_eq_one_sub hA] at this
  exact this

theorem measurable_rounds {F : Smp β} {μ : Measure β} [IsProbabilityMeasure μ] (h : Samples F μ) {A : Set β}
    (hA : MeasurableSet A) : Measurable fun ω => ((rounds F A ω : ℕ∞) : ℝ≥0∞) := by
  have e : (fun ω => ((rounds F A ω : ℕ∞) : ℝ≥0∞)) =
      fun ω => ∑' n : ℕ, {ω | (n : ℕ∞) < rounds F A ω}.indicator 1 ω := funext (rounds_sum F A)
  rw [e]
  exact Measurable.tsum fun n => measurable_one.indicator (rounds_tail h hA n).1

/-- the mean number of rounds -/
theorem rounds_mean {F : Smp β} {μ : Measure β} [IsProbabilityMeasure μ] (h : Samples F μ) {A : Set β}
    (hA : MeasurableSet A) : ∫⁻ ω, ((rounds F A ω : ℕ∞) : ℝ≥0∞) ∂ideal = (μ A)⁻¹ := by
  simp_rw [rounds_sum]
  rw [lintegral_tsum fun n => (measurable_one.indicator (rounds_tail h hA n).1).aemeasurable]
  simp_rw [fun n => lintegral_indicator_one (μ := ideal) (rounds_tail h hA n).1, fun n => (rounds_tail h hA n).2]
  rw [ENNReal.tsum_geometric, ENNReal.sub_sub_cancel ENNReal.one_ne_top prob_le_one]

/-- the sequence left is ideal again -/
theorem Spec.Samples.map_snd {F : Smp β} {μ : Measure β} [IsProbabilityMeasure μ] (h : Samples F μ) :
    ideal.map (fun ω => (F ω).2) = ideal := by
  have : (fun ω => (F ω).2) = Prod.snd ∘ F := rfl
  rw [this, ← Measure.map_map measurable_snd h.1, h.2, Measure.map_snd_prod, measure_univ, one_smul]

theorem shift_eq (n : ℕ) (ω : ℕ → ℝ) : (fun ω => (next ω).2)^[n] ω = fun i => ω (i + n) := by
  induction n with
  | zero => rfl
  | succ n ih =>
    rw [Function.iterate_succ_apply', ih]
    funext i
    show ω (i + 1 + n) = ω (i + (n + 1))
    congr 1
    omega

theorem ideal_shift (n : ℕ) : MeasurePreserving (fun (ω : ℕ → ℝ) i => ω (i + n)) ideal ideal := by
  have h : MeasurePreserving (fun ω => (next ω).2) ideal ideal :=
    ⟨measurable_snd.comp samples_next.1, samples_next.map_snd⟩
  have := h.iterate n
  convert this using 1
  funext ω
  exact (shift_eq n ω).symm

/-! ### The code -/

omit [MeasurableSpace β]

theorem takes_pure (x : ℕ → β) : Takes (fun fuel => (pure (x fuel) : R E β)) fun _ => 0 := by
  intro s
  refine ⟨fun m (hm : (0 : ℕ∞) = m) _ => ?_, fun h => absurd h (by simp)⟩
  have : m = 0 := by exact_mod_cast hm.symm
  subst this
  exact ⟨fun fuel => .inr ⟨x fuel, rfl⟩, 0, fun _ _ h => by cases h⟩

/-- one piece of code after another -/
theorem Spec.Takes.bind {f : ℕ → R E β} {L : (ℕ → ℝ) → ℕ → ℝ} {N : (ℕ → ℝ) → ℕ∞} {g : ℕ → β → R E γ} {M : (ℕ → ℝ) → ℕ∞}
    (hf : Takes f N) (hF : ∀ ω (m : ℕ), N ω = m → L ω = fun i => ω (i + m))
    (hg : ∀ x : ℕ → β, Takes (fun fuel => g fuel (x fuel)) M) :
    Takes (fun fuel => f fuel >>= g fuel) fun ω => N ω + M (L ω) := by
  intro s
  obtain ⟨f1, f2⟩ := hf s
  refine ⟨fun m (hm : N (unitAt E s) + M (L (unitAt E s)) = m) ho => ?_, fun ht ho fuel => ?_⟩
  · have hN : N (unitAt E s) ≠ ⊤ := fun h => by rw [h, top_add] at hm; exact absurd hm (by simp)
    obtain ⟨m1, h1⟩ := ENat.ne_top_iff_exists.1 hN
    have hs := hF _ _ h1.symm
    rw [← unitAt_shift] at hs
    rw [hs, ← h1] at hm
    have hM : M (unitAt E (stateAt E s m1)) ≠ ⊤ := fun h => by rw [h, add_top] at hm; exact absurd hm (by simp)
    obtain ⟨m2, h2⟩ := ENat.ne_top_iff_exists.1 hM
    rw [← h2] at hm
    have hmm : m = m2 + m1 := by
      have : m1 + m2 = m := by exact_mod_cast hm
      omega
    subst hmm
    obtain ⟨a1, n1, a2⟩ := f1 m1 h1.symm fun i hi => ho i (by omega)
    have ho2 : ∀ i < m2, outAt E (stateAt E s m1) i < 2 ^ 64 - 1 := fun i hi => by
      rw [outAt_add]
      exact ho _ (by omega)
    have run : ∀ fuel v, f fuel s = .ok (v, stateAt E s m1) →
        (f fuel >>= g fuel) s = g fuel v (stateAt E s m1) := by
      intro fuel v h
      rw [bind_run, h]
      rfl
    classical
    let x : ℕ → β := fun fuel => if h : ∃ v, f fuel s = .ok (v, stateAt E s m1) then h.choose else
      (show ∃ v : β, True from by
        rcases a1 n1 with h | ⟨v, _⟩
        · exact absurd h (a2 n1 le_rfl)
        · exact ⟨v, trivial⟩).choose
    have hx : ∀ fuel v, f fuel s = .ok (v, stateAt E s m1) → x fuel = v := by
      intro fuel v h
      have hex : ∃ v, f fuel s = .ok (v, stateAt E s m1) := ⟨v, h⟩
      have : x fuel = hex.choose := dif_pos hex
      have h2 := h.symm.trans hex.choose_spec
      injection h2 with h2
      injection h2 with h2 _
      rw [this, ← h2]
    obtain ⟨b1, n2, b2⟩ := ((hg x) (stateAt E s m1)).1 m2 h2.symm ho2
    refine ⟨fun fuel => ?_, max n1 n2, fun fuel hfu => ?_⟩
    · show (f fuel >>= g fuel) s = _ ∨ ∃ v, (f fuel >>= g fuel) s = _
      rcases a1 fuel with h | ⟨v, h⟩
      · exact .inl (by rw [bind_run, h]; rfl)
      · rw [run fuel v h, ← hx fuel v h]
        rcases b1 fuel with h3 | ⟨w, h3⟩
        · exact .inl h3
        · exact .inr ⟨w, h3.trans (by rw [stateAt_add])⟩
    · show (f fuel >>= g fuel) s ≠ _
      rcases a1 fuel with h | ⟨v, h⟩
      · exact absurd h (a2 fuel (le_trans (le_max_left _ _) hfu))
      · rw [run fuel v h, ← hx fuel v h]
        exact b2 fuel (le_trans (le_max_right _ _) hfu)
  · have ht : N (unitAt E s) + M (L (unitAt E s)) = ⊤ := ht
    by_cases hN : N (unitAt E s) = ⊤
    · show (f fuel >>= g fuel) s = _
      rw [bind_run, f2 hN ho fuel]
      rfl
    · obtain ⟨m1, h1⟩ := ENat.ne_top_iff_exists.1 hN
      have hs := hF _ _ h1.symm
      rw [← unitAt_shift] at hs
      rw [hs, ← h1] at ht
      have hM : M (unitAt E (stateAt E s m1)) = ⊤ := by
        rcases WithTop.add_eq_top.1 ht with h | h
        · exact absurd h (ENat.natCast_ne_top m1)
        · exact h
      obtain ⟨a1, -⟩ := f1 m1 h1.symm fun i _ => ho i
      rcases a1 fuel with h | ⟨v, h⟩
      · show (f fuel >>= g fuel) s = _
        rw [bind_run, h]
        rfl
      · have := ((hg fun _ => v) (stateAt E s m1)).2 hM (fun i => by rw [outAt_add]; exact ho _) fuel
        show (f fuel >>= g fuel) s = _
        rw [bind_run, h]
        exact this

/-! ### The normal numbers -/

theorem square_iter (j : ℕ) (ω : ℕ → ℝ) : (fun ω => (square ω).2)^[j] ω = fun i => ω (i + 2 * j) := by
  induction j with
  | zero => rfl
  | succ n ih =>
    rw [Function.iterate_succ_apply', ih]
    funext i
    show ω (i + 2 + 2 * n) = ω (i + 2 * (n + 1))
    congr 1
    omega

theorem triple_iter (j : ℕ) (ω : ℕ → ℝ) : (fun ω => (triple ω).2)^[j] ω = fun i => ω (i + 3 * j) := by
  induction j with
  | zero => rfl
  | succ n ih =>
    rw [Function.iterate_succ_apply', ih]
    funext i
    show ω (i + 3 + 3 * n) = ω (i + 3 * (n + 1))
    congr 1
    omega

theorem square_results (j : ℕ) (ω : ℕ → ℝ) :
    results square ω j = (2 * ω (2 * j) - 1, 2 * ω (2 * j + 1) - 1) := by
  unfold results
  rw [square_iter]
  show (2 * ω (0 + 2 * j) - 1, 2 * ω (1 + 2 * j) - 1) = _
  rw [zero_add, add_comm 1]

theorem triple_results (j : ℕ) (ω : ℕ → ℝ) :
    results triple ω j = (1 - ω (3 * j), 1 - ω (3 * j + 1), 1 - ω (3 * j + 2)) := by
  unfold results
  rw [triple_iter]
  show (1 - ω (0 + 3 * j), 1 - ω (1 + 3 * j), 1 - ω (2 + 3 * j)) = _
  rw [zero_add, add_comm 1, add_comm 2]

theorem normalUse_left {mean sd : ℝ} {ω : ℕ → ℝ} {m : ℕ} (h : normalUse ω = m) :
    (normalSmp mean sd ω).2 = fun i => ω (i + m) := by
  unfold normalUse at h
  rcases rounds_cases square disc ω with ⟨j, h1, h2, h3⟩ | ⟨h1, h2⟩
  · have hm : m = 2 * (j + 1) := by
      rw [h3] at h
      exact_mod_cast h.symm
    show (repeatUntil square disc (0, 0) ω).2 = _
    rw [repeatUntil_eq h1 h2, ← Function.iterate_succ_apply' (fun ω => (square ω).2), square_iter, hm]
  · rw [h2, ENat.mul_top (by simp)] at h
    exact absurd h (by simp)

theorem not_disc {q : ℝ × ℝ} : q ∉ disc ↔ q.1 ^ 2 + q.2 ^ 2 = 0 ∨ 1 < q.1 ^ 2 + q.2 ^ 2 := by
  have h0 : 0 ≤ q.1 ^ 2 + q.2 ^ 2 := by positivity
  show ¬ (0 < _ ∧ _ ≤ (1 : ℝ)) ↔ _
  constructor
  · intro h
    by_contra hc
    push Not at hc
    exact h ⟨lt_of_le_of_ne h0 (Ne.symm hc.1), hc.2⟩
  · rintro (h | h) ⟨h1, h2⟩ <;> linarith

theorem normalReject_diverge {fuel : Nat} {s : E.σ} (h : ∀ i < fuel, results square (unitAt E s) i ∉ disc) :
    normalReject (D := ℝ) fuel s = .diverge := by
  refine normalReject_none s fuel fun i hi => ?_
  have := not_disc.1 (h i hi)
  rw [square_results] at this
  exact this

theorem takes_normalReject : Takes (fun fuel => (normalReject fuel : R E (ℝ × ℝ × ℝ))) normalUse := by
  intro s
  unfold normalUse
  rcases rounds_cases square disc (unitAt E s) with ⟨j, h1, h2, h3⟩ | ⟨h1, h2⟩
  · rw [h3]
    refine ⟨fun m hm _ => ?_, fun h => absurd h ?_⟩
    · have hm : m = 2 * j + 2 := by
        have : 2 * (j + 1) = m := by exact_mod_cast hm
        omega
      subst hm
      have ok : ∀ fuel, j < fuel → ∃ v, normalReject (D := ℝ) fuel s = .ok (v, stateAt E s (2 * j + 2)) := by
        intro fuel hf
        rw [square_results] at h1
        refine ⟨_, normalReject_find j s fuel hf (fun i hi => ?_) _ _ rfl rfl h1.1 h1.2⟩
        have := not_disc.1 (h2 i hi)
        rw [square_results] at this
        exact this
      refine ⟨fun fuel => ?_, j + 1, fun fuel hf => ?_⟩
      · by_cases hf : j < fuel
        · exact .inr (ok fuel hf)
        · exact .inl (normalReject_diverge fun i hi => h2 i (by omega))
      · obtain ⟨v, hv⟩ := ok fuel hf
        intro h
        have := hv.symm.trans h
        cases this
    · exact_mod_cast ENat.natCast_ne_top (2 * (j + 1))
  · rw [h2, ENat.mul_top (by simp)]
    refine ⟨fun m hm => absurd hm (by simp), fun _ _ fuel => normalReject_diverge fun i _ => h1 i⟩

theorem takes_normal_one (mean sd : ℝ) :
    Takes (fun fuel => (normalNext Libm.real fuel ⟨mean, sd, none, false⟩ : R E _)) normalUse := by
  have h := (takes_normalReject (E := E)).bind (L := fun ω => (normalSmp 0 1 ω).2)
    (fun ω m hm => normalUse_left (mean := 0) (sd := 1) hm)
    (g := fun _ v => pure (v.1 * Libm.real.sqrt (-((2 : Int) : ℝ) * Libm.real.log v.2.2 / v.2.2) * sd + mean,
      (⟨mean, sd, some (v.2.1 * Libm.real.sqrt (-((2 : Int) : ℝ) * Libm.real.log v.2.2 / v.2.2)), true⟩ : Normal ℝ)))
    (M := fun _ => 0) fun x => takes_pure _
  simp only [add_zero] at h
  exact h

/-! ### The gamma numbers -/

theorem gammaReject_none (delta : ℝ) (fuel : Nat) (s : E.σ) (hg : ∀ i < fuel, outAt E s (3 * i + 1) < 2 ^ 64 - 1)
    (h : ∀ i < fuel, results triple (unitAt E s) i ∉ {t | adAccepts delta t.1 t.2.1 t.2.2}) :
    gammaReject Libm.real delta fuel s = .diverge := by
  induction fuel generalizing s with
  | zero => rfl
  | succ fuel ih =>
    have h1 := unitAt_lt s 1 (hg 0 (by omega))
    have h2 := unitAt_nonneg s 1
    have hr := gammaReject_round delta fuel s _ _ _ rfl rfl rfl (by linarith) (by linarith)
    have h0 := h 0 (by omega)
    rw [triple_results] at h0
    rw [hr.2 h0]
    refine ih _ (fun i hi => ?_) fun i hi => ?_
    · rw [outAt_add]
      exact hg (i + 1) (by omega)
    · have := h (i + 1) (by omega)
      rw [triple_results] at this ⊢
      rw [unitAt_add, unitAt_add, unitAt_add]
      exact this

theorem takes_gammaReject (delta : ℝ) : Takes (fun fuel => (gammaReject Libm.real delta fuel : R E ℝ))
    fun ω => 3 * rounds triple {t | adAccepts delta t.1 t.2.1 t.2.2} ω := by
  intro s
  dsimp only
  rcases rounds_cases triple {t | adAccepts delta t.1 t.2.1 t.2.2} (unitAt E s) with ⟨j, h1, h2, h3⟩ | ⟨h1, h2⟩
  · rw [h3]
    refine ⟨fun m hm ho => ?_, fun h => absurd h ?_⟩
    · have hm : m = 3 * j + 3 := by
        have : 3 * (j + 1) = m := by exact_mod_cast hm
        omega
      subst hm
      have ok : ∀ fuel, j < fuel → ∃ v, gammaReject Libm.real delta fuel s = .ok (v, stateAt E s (3 * j + 3)) := by
        intro fuel hf
        rw [triple_results] at h1
        refine ⟨_, gammaReject_find delta j s fuel hf (fun i hi => ho _ (by omega)) (fun i hi => ?_) h1⟩
        have := h2 i hi
        rw [triple_results] at this
        exact this
      refine ⟨fun fuel => ?_, j + 1, fun fuel hf => ?_⟩
      · by_cases hf : j < fuel
        · exact .inr (ok fuel hf)
        · exact .inl (gammaReject_none delta fuel s (fun i hi => ho _ (by omega)) fun i hi => h2 i (by omega))
      · obtain ⟨v, hv⟩ := ok fuel hf
        intro h
        have := hv.symm.trans h
        cases this
    · exact_mod_cast ENat.natCast_ne_top (3 * (j + 1))
  · rw [h2, ENat.mul_top (by simp)]
    refine ⟨fun m hm => absurd hm (by simp), fun _ ho fuel => gammaReject_none delta fuel s (fun i _ => ho _) fun i _ => h1 i⟩

theorem expSum_left (F : Smp ℝ) (n : ℕ) (ω : ℕ → ℝ) : (expSum F n ω).2 = (F fun i => ω (i + n)).2 := by
  induction n generalizing ω with
  | zero => rfl
  | succ n ih =>
    show (expSum F n (expSmp ω).2).2 = _
    rw [ih]
    congr 2

theorem gammaUse_left {k theta : ℝ} {ω : ℕ → ℝ} {m : ℕ} (h : gammaUse k ω = m) :
    (gammaSmp k theta ω).2 = fun i => ω (i + m) := by
  unfold gammaUse at h
  show (expSum (if k = ⌊k⌋ then fun ω => (0, ω) else adSmp (k - ⌊k⌋)) ⌊k⌋.toNat ω).2 = _
  rw [expSum_left]
  by_cases hk : k = ⌊k⌋
  · rw [if_pos hk, add_zero] at h
    rw [if_pos hk]
    have : ⌊k⌋.toNat = m := by exact_mod_cast h
    rw [← this]
  · rw [if_neg hk] at h
    rw [if_neg hk]
    show (repeatUntil triple {t | adAccepts (k - ⌊k⌋) t.1 t.2.1 t.2.2} (0, 0, 0) fun i => ω (i + ⌊k⌋.toNat)).2 = _
    rcases rounds_cases triple {t | adAccepts (k - ⌊k⌋) t.1 t.2.1 t.2.2} (fun i => ω (i + ⌊k⌋.toNat)) with
      ⟨j, h1, h2, h3⟩ | ⟨h1, h2⟩
    · rw [h3] at h
      have hm : ⌊k⌋.toNat + 3 * (j + 1) = m := by exact_mod_cast h
      rw [repeatUntil_eq h1 h2, ← Function.iterate_succ_apply' (fun ω => (triple ω).2), triple_iter]
      funext i
      congr 1
      omega
    · rw [h2, ENat.mul_top (by simp), add_top] at h
      exact absurd h (by simp)

theorem gamma_run (fuel : Nat) (k theta : ℝ) (hk0 : 0 < k) (hk : k < INT_MAX + 1) (hd : k ≠ (⌊k⌋ : ℝ)) (s : E.σ)
    (h : gammaReject Libm.real (k - (⌊k⌋ : ℝ)) fuel (stateAt E s ⌊k⌋.toNat) = .diverge) :
    gammaNext Libm.real fuel ⟨k, theta⟩ s = .diverge := by
  have hm : INT_MIN = -2147483648 := rfl
  have h0 : 0 ≤ ⌊k⌋ := Int.floor_nonneg.2 hk0.le
  have h1 : ⌊k⌋ < INT_MAX + 1 := by
    rw [Int.floor_lt]
    push_cast
    exact hk
  have ht : Libm.real.toInt k = .ok ⌊k⌋ := by
    show truncInt k = _
    unfold truncInt
    rw [if_pos hk0.le, int_ok ⟨by omega, by omega⟩]
  unfold gammaNext
  rw [bind_run, lift_run, ht]
  simp only [Out.ok_bind, Out.bind]
  rw [bind_run, gammaSum_real]
  simp only [Out.bind]
  have hdd : ¬ (k - Libm.real.floor k ≤ ((0 : Int) : ℝ) ∧ ((0 : Int) : ℝ) ≤ k - Libm.real.floor k) := by
    show ¬ (k - (⌊k⌋ : ℝ) ≤ _ ∧ _ ≤ k - (⌊k⌋ : ℝ))
    push_cast
    rw [← le_antisymm_iff, sub_eq_zero]
    exact hd
  rw [if_neg hdd, bind_run]
  have h' : gammaReject Libm.real (k - Libm.real.floor k) fuel (stateAt E s ⌊k⌋.toNat) = .diverge := h
  rw [h']
  rfl

theorem takes_gamma {k theta : ℝ} (hk0 : 0 < k) (hk : k < INT_MAX + 1) :
    Takes (fun fuel => (gammaNext Libm.real fuel ⟨k, theta⟩ : R E ℝ)) (gammaUse k) := by
  intro s
  have hf0 : 0 ≤ ⌊k⌋ := Int.floor_nonneg.2 hk0.le
  have hf1 : ⌊k⌋ < INT_MAX + 1 := by
    rw [Int.floor_lt]
    push_cast
    exact hk
  unfold gammaUse
  by_cases hd : k = ⌊k⌋
  · simp only [if_pos hd, add_zero]
    have hkn : k = ((⌊k⌋.toNat : ℕ) : ℝ) := by
      have e : ((⌊k⌋.toNat : ℕ) : ℝ) = ((⌊k⌋ : ℤ) : ℝ) := by
        rw [← Int.cast_natCast, Int.toNat_of_nonneg hf0]
      rw [e]
      exact hd
    refine ⟨fun m hm _ => ?_, fun h => absurd h (by simp)⟩
    have hm : m = ⌊k⌋.toNat := by exact_mod_cast hm.symm
    subst hm
    have run := fun fuel => gamma_int_real (E := E) fuel ⌊k⌋.toNat (by omega) theta s
    rw [← hkn] at run
    exact ⟨fun fuel => .inr ⟨_, run fuel⟩, 0, fun fuel _ h => by rw [run fuel] at h; cases h⟩
  · simp only [if_neg hd]
    obtain ⟨t1, t2⟩ := takes_gammaReject (E := E) (k - ⌊k⌋) (stateAt E s ⌊k⌋.toNat)
    rw [unitAt_shift] at t1 t2
    have dv : ∀ fuel, gammaReject Libm.real (k - (⌊k⌋ : ℝ)) fuel (stateAt E s ⌊k⌋.toNat) = .diverge →
        gammaNext Libm.real fuel ⟨k, theta⟩ s = .diverge := fun fuel h => gamma_run fuel k theta hk0 hk hd s h
    refine ⟨fun m hm ho => ?_, fun h ho fuel => ?_⟩
    · have hN : 3 * rounds triple {t | adAccepts (k - ⌊k⌋) t.1 t.2.1 t.2.2} (fun i => unitAt E s (i + ⌊k⌋.toNat)) ≠ ⊤ :=
        fun h => by rw [h, add_top] at hm; exact absurd hm (by simp)
      obtain ⟨m1, h1⟩ := ENat.ne_top_iff_exists.1 hN
      rw [← h1] at hm
      have hm : ⌊k⌋.toNat + m1 = m := by exact_mod_cast hm
      obtain ⟨a1, n1, a2⟩ := t1 m1 h1.symm fun i hi => by rw [outAt_add]; exact ho _ (by omega)
      have ok : ∀ fuel v, gammaReject Libm.real (k - (⌊k⌋ : ℝ)) fuel (stateAt E s ⌊k⌋.toNat) =
          .ok (v, stateAt E (stateAt E s ⌊k⌋.toNat) m1) →
          ∃ v, gammaNext Libm.real fuel ⟨k, theta⟩ s = .ok (v, stateAt E s m) := by
        intro fuel v h
        have := gamma_real fuel k theta v hk0 hk hd s _ h
        rw [stateAt_add, add_comm m1, hm] at this
        exact ⟨_, this⟩
      refine ⟨fun fuel => ?_, n1, fun fuel hfu => ?_⟩
      · rcases a1 fuel with h | ⟨v, h⟩
        · exact .inl (dv fuel h)
        · exact .inr (ok fuel v h)
      · rcases a1 fuel with h | ⟨v, h⟩
        · exact absurd h (a2 fuel hfu)
        · obtain ⟨w, hw⟩ := ok fuel v h
          intro hc
          have := hw.symm.trans hc
          cases this
    · refine dv fuel (t2 ?_ (fun i => by rw [outAt_add]; exact ho _) fuel)
      rcases WithTop.add_eq_top.1 h with h | h
      · exact absurd h (ENat.natCast_ne_top _)
      · exact h

theorem takes_studentT {r : ℝ} (hr : 0 < r) (hr2 : r / 2 < INT_MAX + 1) (left : Bool) :
    Takes (fun fuel => (studentTNext Libm.real fuel left r : R E ℝ)) (studentTUse left r) := by
  have hl : ∀ {α β : Type} (x : α) (g : α → R E β), (StateT.lift (Out.ok x) >>= g : R E β) = g x := by
    intro α β x g
    rfl
  have h2 : 0 < r / 2 := by positivity
  unfold studentTNext
  simp only [normalInit_std, hl, chiSquaredInit_pos hr]
  have hn : ∀ y : ℕ → ℝ, Takes (fun fuel => (normalNext Libm.real fuel ⟨0, 1, none, false⟩ >>= fun p =>
      pure (p.1 * Libm.real.sqrt (r / y fuel)) : R E ℝ)) normalUse := by
    intro y
    have := (takes_normal_one (E := E) 0 1).bind (L := fun ω => (normalSmp 0 1 ω).2)
      (fun ω m hm => normalUse_left hm) (M := fun _ => 0)
      (g := fun fuel p => pure (p.1 * Libm.real.sqrt (r / y fuel))) fun x => takes_pure _
    simp only [add_zero] at this
    exact this
  have hg : ∀ x : ℕ → ℝ, Takes (fun fuel => (gammaNext Libm.real fuel ⟨r / 2, 2⟩ >>= fun y =>
      pure (x fuel * Libm.real.sqrt (r / y)) : R E ℝ)) (gammaUse (r / 2)) := by
    intro x
    have := (takes_gamma (E := E) (theta := 2) h2 hr2).bind (L := fun ω => (gammaSmp (r / 2) 2 ω).2)
      (fun ω m hm => gammaUse_left hm) (M := fun _ => 0)
      (g := fun fuel y => pure (x fuel * Libm.real.sqrt (r / y))) fun y => takes_pure _
    simp only [add_zero] at this
    exact this
  cases left
  · exact (takes_gamma (E := E) (theta := 2) h2 hr2).bind (L := fun ω => (gammaSmp (r / 2) 2 ω).2)
      (fun ω m hm => gammaUse_left hm) (M := normalUse)
      (g := fun fuel y => normalNext Libm.real fuel ⟨0, 1, none, false⟩ >>= fun p =>
        pure (p.1 * Libm.real.sqrt (r / y))) hn
  · exact (takes_normal_one (E := E) 0 1).bind (L := fun ω => (normalSmp 0 1 ω).2)
      (fun ω m hm => normalUse_left hm) (M := gammaUse (r / 2))
      (g := fun fuel p => gammaNext Libm.real fuel ⟨r / 2, 2⟩ >>= fun y =>
        pure (p.1 * Libm.real.sqrt (r / y))) fun x => hg fun fuel => (x fuel).1

/-! ### The means -/

theorem square_law : ∃ μ : Measure (ℝ × ℝ), IsProbabilityMeasure μ ∧ Samples square μ ∧
    μ disc = ENNReal.ofReal (Real.pi / 4) := by
  set U := volume.restrict (Set.Icc (0 : ℝ) 1) with hU
  have hφ : Measurable fun p : ℝ × ℝ => (2 * p.1 - 1, 2 * p.2 - 1) := by fun_prop
  have hs : Samples square ((U.prod U).map fun p => (2 * p.1 - 1, 2 * p.2 - 1)) :=
    (samples_next.pair samples_next).map hφ
  refine ⟨_, Measure.isProbabilityMeasure_map hφ.aemeasurable, hs, ?_⟩
  have := polar_law MeasurableSet.univ
  rw [measure_univ, mul_one, Set.preimage_univ, Set.inter_univ] at this
  rw [Measure.map_apply hφ measurableSet_disc, ← this]
  rfl

theorem triple_law {d : ℝ} (h0 : 0 < d) (h1 : d < 1) : ∃ μ : Measure (ℝ × ℝ × ℝ), IsProbabilityMeasure μ ∧ Samples triple μ ∧
    μ {t | adAccepts d t.1 t.2.1 t.2.2} =
      ENNReal.ofReal (Real.exp 1 / (Real.exp 1 + d) * (d * Real.Gamma d)) := by
  have := isProbabilityMeasure_gammaMeasure h0 one_pos
  refine ⟨_, inferInstance, samples_triple, ?_⟩
  have := ad_law h0 h1 MeasurableSet.univ
  rwa [measure_univ, mul_one, Set.preimage_univ, Set.inter_univ] at this

theorem measurable_normalUse : Measurable fun ω => (normalUse ω : ℝ≥0∞) := by
  obtain ⟨μ, _, hs, _⟩ := square_law
  unfold normalUse
  simp only [ENat.toENNReal_mul]
  exact (measurable_rounds hs measurableSet_disc).const_mul _

theorem mean_normal : meanOf normalUse = ENNReal.ofReal (8 / Real.pi) := by
  obtain ⟨μ, _, hs, hp⟩ := square_law
  unfold meanOf normalUse
  simp only [ENat.toENNReal_mul]
  rw [lintegral_const_mul _ (measurable_rounds hs measurableSet_disc), rounds_mean hs measurableSet_disc, hp,
    ← ENNReal.ofReal_inv_of_pos (by positivity)]
  show ((2 : ℕ∞) : ℝ≥0∞) * _ = _
  rw [ENat.toENNReal_ofNat, ← ENNReal.ofReal_ofNat 2, ← ENNReal.ofReal_mul (by norm_num)]
  congr 1
  field_simp
  norm_num

theorem measurable_gammaUse (k : ℝ) : Measurable fun ω => (gammaUse k ω : ℝ≥0∞) := by
  unfold gammaUse
  by_cases hd : k = ⌊k⌋
  · simp only [if_pos hd]
    exact measurable_const
  · simp only [if_neg hd, ENat.toENNReal_mul, ENat.toENNReal_add]
    have h1 : 0 < k - ⌊k⌋ := lt_of_le_of_ne (by linarith [Int.floor_le k]) (fun h => hd (by linarith))
    have h2 : k - ⌊k⌋ < 1 := by linarith [Int.lt_floor_add_one k]
    obtain ⟨μ, _, hs, _⟩ := triple_law h1 h2
    exact (((measurable_rounds hs (measurableSet_adAccepts _)).comp (ideal_shift _).measurable).const_mul _).const_add _

theorem mean_gamma (k : ℝ) : meanOf (gammaUse k) = (⌊k⌋.toNat : ℝ≥0∞) + if k = ⌊k⌋ then 0 else
    ENNReal.ofReal (3 * (Real.exp 1 + (k - ⌊k⌋)) / (Real.exp 1 * Real.Gamma (1 + (k - ⌊k⌋)))) := by
  unfold meanOf gammaUse
  by_cases hd : k = ⌊k⌋
  · simp only [if_pos hd, add_zero]
    rw [lintegral_const, measure_univ, mul_one, ENat.toENNReal_coe]
  · simp only [if_neg hd, ENat.toENNReal_mul, ENat.toENNReal_add]
    have h1 : 0 < k - ⌊k⌋ := lt_of_le_of_ne (by linarith [Int.floor_le k]) (fun h => hd (by linarith))
    have h2 : k - ⌊k⌋ < 1 := by linarith [Int.lt_floor_add_one k]
    obtain ⟨μ, _, hs, hp⟩ := triple_law h1 h2
    have hm := measurable_rounds hs (measurableSet_adAccepts (k - ⌊k⌋))
    have hG := Real.Gamma_pos_of_pos h1
    have he := Real.exp_pos 1
    have hms : Measurable fun ω : ℕ → ℝ =>
        ((rounds triple {t | adAccepts (k - ⌊k⌋) t.1 t.2.1 t.2.2} fun i => ω (i + ⌊k⌋.toNat) : ℕ∞) : ℝ≥0∞) :=
      hm.comp (ideal_shift _).measurable
    rw [lintegral_add_left measurable_const, lintegral_const, measure_univ, mul_one,
      lintegral_const_mul _ hms,
      (ideal_shift ⌊k⌋.toNat).lintegral_comp hm, rounds_mean hs (measurableSet_adAccepts _), hp,
      ← ENNReal.ofReal_inv_of_pos (by positivity), ENat.toENNReal_coe, ENat.toENNReal_ofNat, ← ENNReal.ofReal_ofNat 3,
      ← ENNReal.ofReal_mul (by norm_num), add_comm 1, Real.Gamma_add_one h1.ne']
    congr 2
    field_simp

/-- a bound for the gamma function between 1 and 2 -/
theorem gamma_low {d : ℝ} (h0 : 0 < d) (h1 : d < 1) : Real.pi / 4 ≤ Real.Gamma (1 + d) := by
  have cv := Real.convexOn_log_Gamma.2
  have hc := cv (show 1 + d ∈ Set.Ioi (0 : ℝ) from by rw [Set.mem_Ioi]; linarith)
    (show 2 - d ∈ Set.Ioi (0 : ℝ) from by rw [Set.mem_Ioi]; linarith)
    (by norm_num : (0 : ℝ) ≤ 1 / 2) (by norm_num : (0 : ℝ) ≤ 1 / 2) (by norm_num)
  have e : (1 / 2 : ℝ) • (1 + d) + (1 / 2 : ℝ) • (2 - d) = 1 / 2 + 1 := by simp only [smul_eq_mul]; ring
  rw [e] at hc
  simp only [Function.comp, smul_eq_mul] at hc
  have g1 := Real.Gamma_pos_of_pos (show (0 : ℝ) < 1 + d by linarith)
  have g2 := Real.Gamma_pos_of_pos (show (0 : ℝ) < 2 - d by linarith)
  have g3 := Real.Gamma_pos_of_pos (show (0 : ℝ) < 1 / 2 + 1 by norm_num)
  have cu := Real.convexOn_Gamma.2
  have u := cu (show (1 : ℝ) ∈ Set.Ioi (0 : ℝ) from by rw [Set.mem_Ioi]; norm_num)
    (show (2 : ℝ) ∈ Set.Ioi (0 : ℝ) from by rw [Set.mem_Ioi]; norm_num)
    h0.le (by linarith : (0 : ℝ) ≤ 1 - d) (by ring)
  have e2 : d • (1 : ℝ) + (1 - d) • (2 : ℝ) = 2 - d := by simp only [smul_eq_mul]; ring
  rw [e2, Real.Gamma_one, Real.Gamma_two] at u
  simp only [smul_eq_mul] at u
  have hle : Real.log (Real.Gamma (2 - d)) ≤ 0 := Real.log_nonpos g2.le (by linarith)
  have h3 : Real.log (Real.Gamma (1 / 2 + 1) ^ 2) ≤ Real.log (Real.Gamma (1 + d)) := by
    rw [Real.log_pow]
    push_cast
    linarith
  have h4 := (Real.log_le_log_iff (by positivity) g1).1 h3
  rw [Real.Gamma_add_one (by norm_num), Real.Gamma_one_half_eq, mul_pow, Real.sq_sqrt Real.pi_pos.le] at h4
  linarith

theorem mean_studentT {r : ℝ} (hr : 0 < r) (left : Bool) :
    meanOf (studentTUse left r) = meanOf normalUse + meanOf (gammaUse (r / 2)) := by
  have h2 : 0 < r / 2 := by positivity
  have := isProbabilityMeasure_gammaMeasure h2 (by norm_num : (0 : ℝ) < 1 / 2)
  have hn := samples_normal 0 (stddev := 1)
  have hg := samples_gamma h2 (two_pos (α := ℝ))
  unfold meanOf studentTUse
  cases left
  · simp only [Bool.false_eq_true, if_false, ENat.toENNReal_add]
    have mp : MeasurePreserving (fun ω => (gammaSmp (r / 2) 2 ω).2) ideal ideal :=
      ⟨measurable_snd.comp hg.1, hg.map_snd⟩
    rw [lintegral_add_left (measurable_gammaUse _), mp.lintegral_comp measurable_normalUse, add_comm]
  · simp only [if_true, ENat.toENNReal_add]
    have mp : MeasurePreserving (fun ω => (normalSmp 0 1 ω).2) ideal ideal :=
      ⟨measurable_snd.comp hn.1, hn.map_snd⟩
    rw [lintegral_add_left measurable_normalUse, mp.lintegral_comp (measurable_gammaUse _)]

/-! ### One output -/

theorem one_then {f : R E β} (hf : TakesOne f) (g : β → Out γ) : TakesOne (f >>= fun x => StateT.lift (g x)) := by
  intro s v s' h
  rw [bind_run] at h
  obtain ⟨⟨a, s1⟩, h1, h2⟩ := Out.bind_eq_ok.1 h
  rw [lift_run] at h2
  obtain ⟨w, _, h3⟩ := Out.bind_eq_ok.1 h2
  cases h3
  exact hf s a _ h1

theorem one_draw : TakesOne (draw : R E Int) := by
  intro s v s' h
  rw [draw_run] at h
  cases h
  rfl

theorem one_nextInt2 (min max : Int) : TakesOne (nextInt2 min max : R E Int) := by
  intro s v s' h
  unfold nextInt2 at h
  by_cases hc : max ≤ min
  · rw [if_pos hc] at h
    cases h
  · rw [if_neg hc] at h
    exact one_then one_draw (fun g => int (max - min) >>= fun d => int (toInt (g % d).toNat + min)) s v s' (by
      rw [← h, bind_run, bind_run, draw_run]
      simp only [Out.bind]
      rw [lift_run, bind_run, lift_run]
      cases int (max - min) <;> rfl)

section
variable {D : Type} [Add D] [Sub D] [Mul D] [Div D] [IntCast D] [LT D] [DecidableLT D]

theorem one_nextDouble2 (min max : D) : TakesOne (nextDouble2 min max : R E D) := by
  intro s v s' h
  unfold nextDouble2 at h
  by_cases hc : max < min
  · rw [if_pos hc] at h
    cases h
  · rw [if_neg hc] at h
    exact one_then one_draw (fun g => .ok ((g : D) / ((2 ^ 64 - 1 : Int) : D) * (max - min) + min)) s v s' h

end

end Rand
