import Verif.Spec.RandomLaw

/-! # Lemmas about procedures that consume an ideal sequence of random numbers -/

namespace Rand
open MeasureTheory Spec ENNReal

section general
variable {β γ : Type} [MeasurableSpace β] [MeasurableSpace γ]

instance unif_prob : IsProbabilityMeasure (volume.restrict (Set.Icc (0 : ℝ) 1)) :=
  ⟨by rw [Measure.restrict_apply_univ, Real.volume_Icc]; norm_num⟩

instance : IsProbabilityMeasure ideal := by unfold ideal; infer_instance

/-- the first number and the others -/
theorem samples_next : Samples next (volume.restrict (Set.Icc (0 : ℝ) 1)) := by
  have hm : Measurable next := by
    unfold next
    exact (measurable_pi_apply 0).prodMk (measurable_pi_lambda _ fun i => measurable_pi_apply _)
  refine ⟨hm, ?_⟩
  set U := volume.restrict (Set.Icc (0 : ℝ) 1) with hU
  let cons : ℝ × (ℕ → ℝ) → ℕ → ℝ := fun p i => Nat.casesOn i p.1 p.2
  have hc : Measurable cons := by
    refine measurable_pi_lambda _ fun i => ?_
    cases i with
    | zero => exact measurable_fst
    | succ i => exact (measurable_pi_apply i).comp measurable_snd
  have key : (U.prod ideal).map cons = ideal := by
    refine Measure.eq_infinitePi _ fun s t ht => ?_
    classical
    rw [Measure.map_apply hc (MeasurableSet.pi s.countable_toSet fun i _ => ht i)]
    obtain ⟨n, hn⟩ : ∃ n, s ⊆ Finset.range n := Finset.exists_nat_subset_range s
    have hn1 : s ⊆ Finset.range (n + 1) := hn.trans (Finset.range_mono (Nat.le_succ n))
    let t' : ℕ → Set ℝ := fun i => if i ∈ s then t i else Set.univ
    have ht' : ∀ i, MeasurableSet (t' i) := fun i => by
      show MeasurableSet (if i ∈ s then t i else Set.univ)
      split <;> [exact ht i; exact MeasurableSet.univ]
    have e : cons ⁻¹' (s : Set ℕ).pi t = t' 0 ×ˢ (Finset.range n : Set ℕ).pi fun i => t' (i + 1) := by
      ext p
      constructor
      · intro hp
        have h2 : ∀ i, cons p i ∈ t' i := by
          intro i
          show _ ∈ (if i ∈ s then t i else Set.univ)
          split
          · exact hp i ‹_›
          · trivial
        exact ⟨h2 0, fun i _ => h2 (i + 1)⟩
      · rintro ⟨h1, h2⟩ i hi
        have hin : i < n := Finset.mem_range.1 (hn hi)
        have h3 : cons p i ∈ t' i := by
          cases i with
          | zero => exact h1
          | succ i => exact h2 i (by simp; omega)
        have e : t' i = t i := if_pos hi
        exact e ▸ h3
    rw [e, Measure.prod_prod]
    have : ideal ((Finset.range n : Set ℕ).pi fun i => t' (i + 1)) = ∏ i ∈ Finset.range n, U (t' (i + 1)) :=
      Measure.infinitePi_pi _ fun i _ => ht' _
    rw [this, mul_comm, ← Finset.prod_range_succ' (fun i => U (t' i)),
      ← Finset.prod_subset hn1 (fun i _ hi => by
        show U (if i ∈ s then t i else Set.univ) = 1
        rw [if_neg hi, measure_univ])]
    exact Finset.prod_congr rfl fun i hi => by
      show U (if i ∈ s then t i else Set.univ) = _
      rw [if_pos hi]
  conv_lhs => rw [← key]
  rw [Measure.map_map hm hc]
  have : next ∘ cons = id := rfl
  rw [this, Measure.map_id]

/-- the law of the result alone -/
theorem Spec.Samples.map_fst {F : Smp β} {ν : Measure β} [SFinite ν] (h : Samples F ν) :
    ideal.map (fun ω => (F ω).1) = ν := by
  have : (fun ω => (F ω).1) = Prod.fst ∘ F := rfl
  rw [this, ← Measure.map_map measurable_fst h.1, h.2, Measure.map_fst_prod, measure_univ, one_smul]

/-- a function of the result -/
theorem Spec.Samples.map {F : Smp β} {ν : Measure β} [SFinite ν] (h : Samples F ν) {f : β → γ} (hf : Measurable f) :
    Samples (fun ω => (f (F ω).1, (F ω).2)) (ν.map f) := by
  refine ⟨(hf.comp (measurable_fst.comp h.1)).prodMk (measurable_snd.comp h.1), ?_⟩
  have : (fun ω => (f (F ω).1, (F ω).2)) = Prod.map f id ∘ F := rfl
  rw [this, ← Measure.map_map (hf.prodMap measurable_id) h.1, h.2]
  have := Measure.map_prod_map ν ideal hf measurable_id
  rw [← this, Measure.map_id]

/-- one procedure after another -/
theorem Spec.Samples.pair {F : Smp β} {G : Smp γ} {ν : Measure β} {ρ : Measure γ} [SFinite ν] [SFinite ρ]
    (h : Samples F ν) (hG : Samples G ρ) :
    Samples (fun ω => (((F ω).1, (G (F ω).2).1), (G (F ω).2).2)) (ν.prod ρ) := by
  have hm : Measurable fun p : β × (ℕ → ℝ) => ((p.1, (G p.2).1), (G p.2).2) :=
    (measurable_fst.prodMk ((measurable_fst.comp hG.1).comp measurable_snd)).prodMk
      ((measurable_snd.comp hG.1).comp measurable_snd)
  refine ⟨hm.comp h.1, ?_⟩
  have : (fun ω => (((F ω).1, (G (F ω).2).1), (G (F ω).2).2)) =
      (fun p : β × (ℕ → ℝ) => ((p.1, (G p.2).1), (G p.2).2)) ∘ F := rfl
  rw [this, ← Measure.map_map hm h.1, h.2]
  have e : (fun p : β × (ℕ → ℝ) => ((p.1, (G p.2).1), (G p.2).2)) =
      MeasurableEquiv.prodAssoc.symm ∘ Prod.map id G := rfl
  rw [e, ← Measure.map_map MeasurableEquiv.prodAssoc.symm.measurable (measurable_id.prodMap hG.1)]
  have := Measure.map_prod_map ν ideal (measurable_id (α := β)) hG.1
  rw [← this, Measure.map_id, hG.2, ← Measure.prodAssoc_prod,
    Measure.map_map MeasurableEquiv.prodAssoc.symm.measurable MeasurableEquiv.prodAssoc.measurable,
    MeasurableEquiv.symm_comp_self, Measure.map_id]

/-- the probability that the first `n` results lie in given sets and the numbers left in `C` -/
theorem Spec.Samples.first {F : Smp β} {ν : Measure β} [SFinite ν] (h : Samples F ν) (n : ℕ) :
    ∀ (t : ℕ → Set β) (_ : ∀ i, MeasurableSet (t i)) (C : Set (ℕ → ℝ)) (_ : MeasurableSet C),
    MeasurableSet {ω | (∀ i < n, results F ω i ∈ t i) ∧ (fun ω => (F ω).2)^[n] ω ∈ C} ∧
    ideal {ω | (∀ i < n, results F ω i ∈ t i) ∧ (fun ω => (F ω).2)^[n] ω ∈ C} =
      (∏ i ∈ Finset.range n, ν (t i)) * ideal C := by
  induction n with
  | zero => intro t _ C hC; simpa using hC
  | succ n ih =>
    intro t ht C hC
    obtain ⟨i1, i2⟩ := ih (fun i => t (i + 1)) (fun i => ht _) C hC
    have e : {ω | (∀ i < n + 1, results F ω i ∈ t i) ∧ (fun ω => (F ω).2)^[n + 1] ω ∈ C} =
        F ⁻¹' (t 0 ×ˢ {ω | (∀ i < n, results F ω i ∈ t (i + 1)) ∧ (fun ω => (F ω).2)^[n] ω ∈ C}) := by
      ext ω
      constructor
      · rintro ⟨h1, h2⟩
        exact ⟨h1 0 (by omega), fun i hi => h1 (i + 1) (by omega), h2⟩
      · rintro ⟨h1, h2, h3⟩
        refine ⟨fun i hi => ?_, h3⟩
        cases i with
        | zero => exact h1
        | succ i => exact h2 i (by omega)
    have hm := (ht 0).prod i1
    refine ⟨e ▸ h.1 hm, ?_⟩
    rw [e, ← Measure.map_apply h.1 hm, h.2, Measure.prod_prod, i2, Finset.prod_range_succ', mul_comm _ (ν (t 0)),
      mul_assoc]

/-- successive results are independent -/
theorem Spec.Samples.iid {F : Smp β} {ν : Measure β} [IsProbabilityMeasure ν] (h : Samples F ν) :
    ideal.map (results F) = Measure.infinitePi fun _ => ν := by
  have hm : Measurable (results F) := by
    refine measurable_pi_lambda _ fun j => ?_
    have : Measurable ((fun ω => (F ω).2)^[j]) := (measurable_snd.comp h.1).iterate j
    exact (measurable_fst.comp h.1).comp this
  refine Measure.eq_infinitePi _ fun s t ht => ?_
  classical
  rw [Measure.map_apply hm (MeasurableSet.pi s.countable_toSet fun i _ => ht i)]
  obtain ⟨n, hn⟩ : ∃ n, s ⊆ Finset.range n := Finset.exists_nat_subset_range s
  have := (h.first n (fun i => if i ∈ s then t i else Set.univ) (fun i => by split <;> [exact ht i; exact MeasurableSet.univ])
    Set.univ MeasurableSet.univ).2
  have e : {ω | (∀ i < n, results F ω i ∈ if i ∈ s then t i else Set.univ) ∧ (fun ω => (F ω).2)^[n] ω ∈ Set.univ} =
      results F ⁻¹' (s : Set ℕ).pi t := by
    ext ω
    constructor
    · rintro ⟨h1, -⟩ i hi
      have := h1 i (Finset.mem_range.1 (hn hi))
      rwa [if_pos (Finset.mem_coe.1 hi)] at this
    · intro h1
      refine ⟨fun i _ => ?_, trivial⟩
      by_cases hi : i ∈ s
      · rw [if_pos hi]; exact h1 i hi
      · rw [if_neg hi]; trivial
  rw [e] at this
  rw [this, measure_univ, mul_one, ← Finset.prod_subset hn (fun i _ hi => by rw [if_neg hi, measure_univ])]
  exact Finset.prod_congr rfl fun i hi => by rw [if_pos hi]

omit [MeasurableSpace β] in
theorem repeatUntil_eq {F : Smp β} {A : Set β} {d : β} {ω : ℕ → ℝ} {j : ℕ} (h : results F ω j ∈ A)
    (hr : ∀ i < j, results F ω i ∉ A) : repeatUntil F A d ω = F ((fun ω => (F ω).2)^[j] ω) := by
  classical
  have hex : ∃ j, results F ω j ∈ A := ⟨j, h⟩
  have hj : Nat.find hex = j := (Nat.find_eq_iff hex).2 ⟨h, fun i hi => hr i hi⟩
  unfold repeatUntil
  rw [dif_pos hex]
  have : ∀ (inst : DecidablePred fun j => results F ω j ∈ A),
      F ((fun ω => (F ω).2)^[@Nat.find _ inst hex] ω) = F ((fun ω => (F ω).2)^[j] ω) := by
    intro inst
    rw [show @Nat.find _ inst hex = j by convert hj]
  exact this _

theorem measurable_repeatUntil {F : Smp β} (hF : Measurable F) {A : Set β} (hA : MeasurableSet A) (d : β) :
    Measurable (repeatUntil F A d) := by
  classical
  have hit : ∀ j, Measurable ((fun ω => (F ω).2)^[j]) := fun j => (measurable_snd.comp hF).iterate j
  have hres : ∀ j, MeasurableSet ((fun ω => results F ω j) ⁻¹' A) := fun j =>
    ((measurable_fst.comp hF).comp (hit j)) hA
  have hp : ∀ ω : ℕ → ℝ, ∃ n, results F ω n ∈ A ∨ ∀ m, results F ω m ∉ A := by
    intro ω
    by_cases h : ∃ j, results F ω j ∈ A
    · exact ⟨h.choose, .inl h.choose_spec⟩
    · exact ⟨0, .inr fun m hm => h ⟨m, hm⟩⟩
  have hm := Measurable.find (α := ℕ → ℝ)
    (f := fun n ω => if results F ω n ∈ A then F ((fun ω => (F ω).2)^[n] ω) else (d, ω))
    (p := fun n ω => results F ω n ∈ A ∨ ∀ m, results F ω m ∉ A)
    (fun n => Measurable.ite (hres n) (hF.comp (hit n)) (measurable_const.prodMk measurable_id))
    (fun n => by
      have : {x : ℕ → ℝ | results F x n ∈ A ∨ ∀ m, results F x m ∉ A} =
          (fun x => results F x n) ⁻¹' A ∪ ⋂ m, ((fun x : ℕ → ℝ => results F x m) ⁻¹' A)ᶜ := by ext; simp
      rw [this]
      exact (hres n).union (MeasurableSet.iInter fun m => (hres m).compl)) hp
  convert hm using 1
  funext ω
  by_cases h : ∃ j, results F ω j ∈ A
  · have hf : Nat.find (hp ω) = Nat.find h := by
      rw [Nat.find_eq_iff]
      refine ⟨.inl (Nat.find_spec h), fun i hi hc => ?_⟩
      rcases hc with hc | hc
      · exact Nat.find_min h hi hc
      · exact hc _ (Nat.find_spec h)
    rw [hf, if_pos (Nat.find_spec h)]
    exact repeatUntil_eq (Nat.find_spec h) fun i hi => Nat.find_min h hi
  · unfold repeatUntil
    rw [dif_neg h, if_neg fun hc => h ⟨_, hc⟩]

/-- rejection sampling: if `μ` restricted to `A` is carried by `X` to a multiple of `ν`, then the first
accepted value has the law `ν` -/
theorem Spec.Samples.reject {F : Smp β} {μ : Measure β} [IsProbabilityMeasure μ] (hF : Samples F μ)
    {ν : Measure γ} [IsProbabilityMeasure ν]
    {A : Set β} (hA : MeasurableSet A) {X : β → γ} (hX : Measurable X) (d : β) {p : ℝ≥0∞} (hp : p ≠ 0)
    (h : ∀ B, MeasurableSet B → μ (A ∩ X ⁻¹' B) = p * ν B) :
    Samples (fun ω => (X (repeatUntil F A d ω).1, (repeatUntil F A d ω).2)) ν := by
  have hpA : μ A = p := by
    have := h Set.univ MeasurableSet.univ
    simpa using this
  have hp1 : p ≤ 1 := hpA ▸ prob_le_one
  have hpt : p ≠ ∞ := ne_top_of_le_ne_top one_ne_top hp1
  have hmR := measurable_repeatUntil hF.1 hA d
  have hmG : Measurable fun ω => (X (repeatUntil F A d ω).1, (repeatUntil F A d ω).2) :=
    (hX.comp (measurable_fst.comp hmR)).prodMk (measurable_snd.comp hmR)
  refine ⟨hmG, ?_⟩
  have : IsProbabilityMeasure (ν.prod ideal) := inferInstance
  symm
  refine Measure.prod_eq fun B C hB hC => ?_
  rw [Measure.map_apply hmG (hB.prod hC)]
  let E : Set γ → Set (ℕ → ℝ) → ℕ → Set (ℕ → ℝ) := fun B C j =>
    {ω | (∀ i < j + 1, results F ω i ∈ if i < j then Aᶜ else A ∩ X ⁻¹' B) ∧ (fun ω => (F ω).2)^[j + 1] ω ∈ C}
  have hmt : ∀ B, MeasurableSet B → ∀ j i : ℕ, MeasurableSet (if i < j then Aᶜ else A ∩ X ⁻¹' B) := by
    intro B hB j i
    split
    · exact hA.compl
    · exact hA.inter (hX hB)
  have hE : ∀ B, MeasurableSet B → ∀ C, MeasurableSet C → ∀ j,
      MeasurableSet (E B C j) ∧ ideal (E B C j) = (1 - p) ^ j * (p * ν B * ideal C) := by
    intro B hB C hC j
    obtain ⟨h1, h2⟩ := hF.first (j + 1) _ (hmt B hB j) C hC
    refine ⟨h1, h2.trans ?_⟩
    rw [Finset.prod_range_succ, if_neg (lt_irrefl _), h B hB, mul_assoc, Finset.prod_congr rfl (g := fun _ => 1 - p)]
    · rw [Finset.prod_const, Finset.card_range]
    · intro i hi
      rw [if_pos (Finset.mem_range.1 hi), prob_compl_eq_one_sub hA, hpA]
  have memE : ∀ B C j ω, ω ∈ E B C j ↔ (∀ i < j, results F ω i ∉ A) ∧ results F ω j ∈ A ∧
      X (results F ω j) ∈ B ∧ (fun ω => (F ω).2)^[j + 1] ω ∈ C := by
    intro B C j ω
    constructor
    · rintro ⟨hω, hc⟩
      refine ⟨fun i hi => ?_, ?_⟩
      · have := hω i (by omega)
        rw [if_pos hi] at this
        exact this
      · have := hω j (by omega)
        rw [if_neg (lt_irrefl _)] at this
        exact ⟨this.1, this.2, hc⟩
    · rintro ⟨h1, h2, h3, h4⟩
      refine ⟨fun i hi => ?_, h4⟩
      by_cases hij : i < j
      · rw [if_pos hij]; exact h1 i hij
      · have : i = j := by omega
        subst this
        rw [if_neg hij]
        exact ⟨h2, h3⟩
  have hU : ∀ B, MeasurableSet B → ∀ C, MeasurableSet C → ideal (⋃ j, E B C j) = ν B * ideal C := by
    intro B hB C hC
    rw [measure_iUnion _ fun j => (hE B hB C hC j).1]
    · simp_rw [fun j => (hE B hB C hC j).2]
      rw [ENNReal.tsum_mul_right, ENNReal.tsum_geometric, ENNReal.sub_sub_cancel one_ne_top hp1, mul_assoc,
        ← mul_assoc, ENNReal.inv_mul_cancel hp hpt, one_mul]
    · intro i j hij
      rw [Function.onFun, Set.disjoint_left]
      intro ω hi hj
      rw [memE] at hi hj
      rcases lt_or_gt_of_ne hij with hl | hl
      · exact hj.1 i hl hi.2.1
      · exact hi.1 j hl hj.2.1
  have hN : ideal {ω | ¬ ∃ j, results F ω j ∈ A} = 0 := by
    have h1 := hU Set.univ MeasurableSet.univ Set.univ MeasurableSet.univ
    rw [measure_univ, measure_univ, mul_one] at h1
    have h2 : {ω : ℕ → ℝ | ¬ ∃ j, results F ω j ∈ A} ⊆ (⋃ j, E Set.univ Set.univ j)ᶜ := by
      intro ω hω hc
      obtain ⟨j, hj⟩ := Set.mem_iUnion.1 hc
      exact hω ⟨j, ((memE _ _ _ _).1 hj).2.1⟩
    refine measure_mono_null h2 ?_
    rw [prob_compl_eq_one_sub (MeasurableSet.iUnion fun j => (hE _ MeasurableSet.univ _ MeasurableSet.univ j).1), h1,
      tsub_self]
  rw [← hU B hB C hC]
  classical
  refine measure_congr ?_
  have hae : ∀ᵐ ω ∂ideal, ∃ j, results F ω j ∈ A := hN
  filter_upwards [hae] with ω hω
  have hspec := Nat.find_spec hω
  have hmin : ∀ i < Nat.find hω, results F ω i ∉ A := fun i hi => Nat.find_min hω hi
  have hv := repeatUntil_eq (d := d) hspec hmin
  have hs : (fun ω => (F ω).2)^[Nat.find hω + 1] ω = (repeatUntil F A d ω).2 := by
    rw [Function.iterate_succ_apply', hv]
  have hr : results F ω (Nat.find hω) = (repeatUntil F A d ω).1 := by rw [hv]; rfl
  apply propext
  show (X (repeatUntil F A d ω).1 ∈ B ∧ (repeatUntil F A d ω).2 ∈ C) ↔ ω ∈ ⋃ j, E B C j
  rw [Set.mem_iUnion]
  constructor
  · rintro ⟨hb, hc⟩
    exact ⟨Nat.find hω, (memE _ _ _ _).2 ⟨hmin, hspec, hr ▸ hb, hs ▸ hc⟩⟩
  · rintro ⟨j, hj⟩
    obtain ⟨h1, h2, h3, h4⟩ := (memE _ _ _ _).1 hj
    have : Nat.find hω = j := (Nat.find_eq_iff hω).2 ⟨h2, fun i hi => h1 i hi⟩
    rw [← this] at h3 h4
    exact ⟨hr ▸ h3, hs ▸ h4⟩

end general
end Rand
