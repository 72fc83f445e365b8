import Verif.Proof.RandomChain
import Verif.Proof.RandomCount

/-! # The discrete samplers in binary64 -/

namespace Rand.Err
open Cpp Spec Rand Finset

/-! ### Counting outputs of the engine -/

/-- the number of outputs of the engine below a threshold -/
theorem card_unif {T : ℚ} (h0 : 0 ≤ T) :
    |(Nat.card {g : Fin (2 ^ 64) // unif g.val < T} : ℝ) / 2 ^ 64 - ((min T 1 : ℚ) : ℝ)| ≤ 1 / 2 ^ 52 := by
  obtain ⟨c, hc, hg⟩ := exists_cut (2 ^ 64) (fun g => unif g < T) (fun a b h hb => (unif_mono h).trans_lt hb)
  rw [card_cut (2 ^ 64) c hc _ hg]
  have hc0 : (0 : ℚ) ≤ c := by positivity
  have hcq : (c : ℚ) ≤ 2 ^ 64 := by exact_mod_cast hc
  have key : |(c : ℚ) / 2 ^ 64 - min T 1| ≤ 1 / 2 ^ 52 := by
    rw [abs_le]
    constructor
    · rcases Nat.lt_or_eq_of_le hc with h | h
      · have h2 := mt (hg c h).1 (lt_irrefl c)
        unfold unif at h2
        rw [not_lt, le_div_iff₀ (by positivity)] at h2
        have h3 := (abs_le.1 (fl_nat_rel c)).2
        have h4 := min_le_left T 1
        rw [neg_le_sub_iff_le_add, ← sub_le_iff_le_add, le_div_iff₀ (by positivity)]
        nlinarith
      · have : (c : ℚ) = 2 ^ 64 := by exact_mod_cast h
        have h4 := min_le_right T 1
        have h5 : (0 : ℚ) ≤ 1 / 2 ^ 52 := by positivity
        rw [this, div_self (by positivity)]
        linarith
    · rcases Nat.eq_zero_or_pos c with h | h
      · subst h
        have : 0 ≤ min T 1 := le_min h0 (by norm_num)
        have h5 : (0 : ℚ) ≤ 1 / 2 ^ 52 := by positivity
        rw [Nat.cast_zero, zero_div]
        linarith
      · have h2 := (hg (c - 1) (by omega)).2 (by omega)
        have h5 := unif_le_one (show c - 1 < 2 ^ 64 by omega)
        have h6 : unif (c - 1) ≤ min T 1 := le_min h2.le h5
        unfold unif at h6
        rw [div_le_iff₀ (by positivity)] at h6
        have h3 := (abs_le.1 (fl_nat_rel (c - 1))).1
        have h4 : ((c - 1 : Nat) : ℚ) = c - 1 := by rw [Nat.cast_sub h, Nat.cast_one]
        rw [h4] at h3 h6
        rw [sub_le_iff_le_add, div_le_iff₀ (by positivity)]
        have : ((c : ℚ) - 1) / 2 ^ 53 ≤ c / 2 ^ 53 := by
          apply div_le_div_of_nonneg_right (by linarith) (by positivity)
        nlinarith
  have := (Rat.cast_le (K := ℝ)).2 key
  push_cast at this ⊢
  exact this

/-- the samplers that return the first `k` whose threshold is above the scaled output -/
def Finds (f : ∀ E : Engine, R E Int) (T : Nat → ℚ) (K : Nat) : Prop :=
  ∀ (E : Engine) (s : E.σ) (j : Nat), j ≤ K → (f E s = .ok ((j : Int), (E.draw s).2) ↔
    unif (E.draw s).1.val < T j ∧ ∀ i < j, T i ≤ unif (E.draw s).1.val)

theorem exists_first {T : Nat → ℚ} {x : ℚ} (k : Nat) (h : x < T k) : ∃ j ≤ k, x < T j ∧ ∀ i < j, T i ≤ x := by
  induction k using Nat.strongRecOn with
  | _ k ih =>
    by_cases hc : ∀ i < k, T i ≤ x
    · exact ⟨k, le_rfl, h, hc⟩
    · push Not at hc
      obtain ⟨i, hi, hx⟩ := hc
      obtain ⟨j, hj, hj'⟩ := ih i hi hx
      exact ⟨j, by omega, hj'⟩

theorem mono_upto {T : Nat → ℚ} {K : Nat} (hT : ∀ k, k + 1 ≤ K → T k ≤ T (k + 1)) {i j : Nat} (h : i ≤ j) (hj : j ≤ K) :
    T i ≤ T j := by
  induction h with
  | refl => exact le_rfl
  | step _ ih => exact (ih (by omega)).trans (hT _ hj)

/-- how many outputs make the sampler return at most `k` -/
theorem card_le {f : ∀ E : Engine, R E Int} {T : Nat → ℚ} {K : Nat} (hf : Finds f T K)
    (hT : ∀ k, k + 1 ≤ K → T k ≤ T (k + 1)) (h0 : 0 ≤ T 0) (k : Nat) (hk : k ≤ K) {F e : ℝ}
    (he : |((min (T k) 1 : ℚ) : ℝ) - F| ≤ e) :
    |(Nat.card {g : Fin (2 ^ 64) // ∀ (E : Engine) (s : E.σ), (E.draw s).1 = g →
        ∃ j : Nat, j ≤ k ∧ f E s = .ok ((j : Int), (E.draw s).2)} : ℝ) / 2 ^ 64 - F| ≤ e + 1 / 2 ^ 52 := by
  have e1 : Nat.card {g : Fin (2 ^ 64) // ∀ (E : Engine) (s : E.σ), (E.draw s).1 = g →
        ∃ j : Nat, j ≤ k ∧ f E s = .ok ((j : Int), (E.draw s).2)}
      = Nat.card {g : Fin (2 ^ 64) // unif g.val < T k} := by
    refine Nat.card_congr (Equiv.subtypeEquivRight fun g => ?_)
    constructor
    · intro h
      obtain ⟨j, hj, h⟩ := h ⟨Unit, fun _ => (), fun _ => (g, ())⟩ () rfl
      have := ((hf _ _ j (by omega)).1 h).1
      exact lt_of_lt_of_le this (mono_upto hT hj hk)
    · intro h E s hgs
      obtain ⟨j, hj, h1, h2⟩ := exists_first k h
      exact ⟨j, hj, (hf E s j (by omega)).2 ⟨by rw [hgs]; exact h1, by rw [hgs]; exact h2⟩⟩
  rw [e1]
  have h1 := card_unif (h0.trans (mono_upto hT (Nat.zero_le k) hk))
  rw [abs_le] at he h1 ⊢
  constructor <;> linarith

theorem card_split {N : Nat} {A B C : Fin N → Prop} (h : ∀ g, A g ↔ B g ∨ C g) (hd : ∀ g, B g → ¬C g) :
    Nat.card {g // A g} = Nat.card {g // B g} + Nat.card {g // C g} := by
  classical
  simp only [Nat.card_eq_fintype_card, Fintype.card_subtype]
  rw [← Finset.card_union_of_disjoint]
  · congr 1
    ext g
    simp [h]
  · rw [Finset.disjoint_left]
    intro g h3 h4
    simp only [Finset.mem_filter, Finset.mem_univ, true_and] at h3 h4
    exact hd g h3 h4

/-- how many outputs make the sampler return `k` -/
theorem card_eq {f : ∀ E : Engine, R E Int} {T : Nat → ℚ} {K : Nat} (hf : Finds f T K)
    (hT : ∀ k, k + 1 ≤ K → T k ≤ T (k + 1)) (h0 : 0 ≤ T 0) (k : Nat) (hk : k ≤ K) {F : Nat → ℝ} {e p : ℝ}
    (he : ∀ j ≤ k, |((min (T j) 1 : ℚ) : ℝ) - F j| ≤ e) (hp : p = F k - (if k = 0 then 0 else F (k - 1))) :
    |(Nat.card {g : Fin (2 ^ 64) // ∀ (E : Engine) (s : E.σ), (E.draw s).1 = g →
        f E s = .ok ((k : Int), (E.draw s).2)} : ℝ) / 2 ^ 64 - p| ≤ 2 * e + 2 / 2 ^ 52 := by
  have e0 : Nat.card {g : Fin (2 ^ 64) // ∀ (E : Engine) (s : E.σ), (E.draw s).1 = g →
        f E s = .ok ((k : Int), (E.draw s).2)}
      = Nat.card {g : Fin (2 ^ 64) // unif g.val < T k ∧ ∀ i < k, T i ≤ unif g.val} := by
    refine Nat.card_congr (Equiv.subtypeEquivRight fun g => ?_)
    constructor
    · intro h
      have h' := h ⟨Unit, fun _ => (), fun _ => (g, ())⟩ () rfl
      have := (hf _ _ k hk).1 h'
      exact this
    · intro h E s hgs
      exact (hf E s k hk).2 ⟨by rw [hgs]; exact h.1, by rw [hgs]; exact h.2⟩
  rw [e0, hp]
  have h1 := card_unif (h0.trans (mono_upto hT (Nat.zero_le k) hk))
  have he1 := he k le_rfl
  have hmn : (0 : ℝ) ≤ e := (abs_nonneg _).trans he1
  cases k with
  | zero =>
    have : Nat.card {g : Fin (2 ^ 64) // unif g.val < T 0 ∧ ∀ i < 0, T i ≤ unif g.val}
        = Nat.card {g : Fin (2 ^ 64) // unif g.val < T 0} :=
      Nat.card_congr (Equiv.subtypeEquivRight fun g => by simp)
    rw [this, if_pos rfl]
    rw [abs_le] at he1 h1 ⊢
    constructor <;> linarith
  | succ k =>
    rw [if_neg (by omega), Nat.add_sub_cancel]
    have h2 := card_unif (h0.trans (mono_upto hT (Nat.zero_le k) (by omega)))
    have he2 := he k (by omega)
    have hTk := hT k hk
    have hsplit : Nat.card {g : Fin (2 ^ 64) // unif g.val < T (k + 1)} =
        Nat.card {g : Fin (2 ^ 64) // unif g.val < T (k + 1) ∧ ∀ i < k + 1, T i ≤ unif g.val} +
        Nat.card {g : Fin (2 ^ 64) // unif g.val < T k} := by
      apply card_split
      · intro g
        constructor
        · intro h
          rcases lt_or_ge (unif g.val) (T k) with hg | hg
          · exact .inr hg
          · exact .inl ⟨h, fun i hi => (mono_upto hT (by omega) (by omega : k ≤ K)).trans hg⟩
        · rintro (h | h)
          · exact h.1
          · exact lt_of_lt_of_le h hTk
      · intro g h3 h4
        exact absurd h4 (not_lt.2 (h3.2 k (by omega)))
    have hs : (Nat.card {g : Fin (2 ^ 64) // unif g.val < T (k + 1) ∧ ∀ i < k + 1, T i ≤ unif g.val} : ℝ)
        = Nat.card {g : Fin (2 ^ 64) // unif g.val < T (k + 1)} - Nat.card {g : Fin (2 ^ 64) // unif g.val < T k} := by
      rw [hsplit]; push_cast; ring
    rw [hs, sub_div]
    rw [abs_le] at he1 h1 he2 h2 ⊢
    constructor <;> linarith

/-! ### Powers -/

theorem pow_dbl {p : ℚ} (h0 : 0 < p) (h1 : p ≤ 1) (e : Nat) : ∀ (i j : Nat) (a : ℚ) (base : Dbl), tiny ≤ (p : ℝ) ^ (i + j * e) →
    ((i + j * e : Nat) : ℝ) * u ≤ 1 / 4 → 0 < i → 0 < j → Appr 0 (i - 1) ((p : ℝ) ^ i) a → fl a = a →
    (e ≠ 0 → ∃ b, base = .fin b ∧ Appr 0 (j - 1) ((p : ℝ) ^ j) b) →
    ∃ q, MathFns.genericLoop (fun x y => .ok (x * y)) (Dbl.fin a) base e = .ok (.fin q) ∧
      Appr 0 (i + j * e - 1) ((p : ℝ) ^ (i + j * e)) q ∧ fl q = q := by
  have hp0 : (0 : ℝ) < p := by exact_mod_cast h0
  have hp1 : (p : ℝ) ≤ 1 := by exact_mod_cast h1
  have ht := tiny_pos
  -- a product of two powers, rounded
  have step : ∀ (i j : Nat) (a b : ℚ), 0 < i → 0 < j → tiny ≤ (p : ℝ) ^ (i + j) → ((i + j : Nat) : ℝ) * u ≤ 1 / 4 →
      Appr 0 (i - 1) ((p : ℝ) ^ i) a → Appr 0 (j - 1) ((p : ℝ) ^ j) b →
      Dbl.fin a * Dbl.fin b = .fin (fl (a * b)) ∧ Appr 0 (i + j - 1) ((p : ℝ) ^ (i + j)) (fl (a * b)) := by
    intro i j a b hi hj htn hu ha hb
    have hab := Appr.mul0 (by positivity) (by positivity) ha hb
    rw [← pow_add] at hab
    have hx1 : (p : ℝ) ^ (i + j) ≤ 1 := pow_le_one₀ hp0.le hp1
    have hu' : ((i - 1 + (j - 1) : Nat) : ℝ) * u ≤ 1 / 4 := by
      refine le_trans (mul_le_mul_of_nonneg_right ?_ u_pos.le) hu
      have : i - 1 + (j - 1) ≤ i + j := by omega
      exact_mod_cast this
    constructor
    · rw [Stats.mul_dbl, Stats.round_small]
      rw [abs_of_nonneg hab.nonneg]
      have h3 := hab.hi
      have h4 := hi_le (i - 1 + (j - 1)) (by linarith)
      have h5 : ((a * b : ℚ) : ℝ) ≤ 2 := by
        have h6 := hi_ge (i - 1 + (j - 1))
        rw [add_zero] at h3
        nlinarith
      have h6 : a * b ≤ 2 := by exact_mod_cast h5
      exact h6.trans (by norm_num)
    · rw [show i + j - 1 = i - 1 + (j - 1) + 1 by omega]
      apply hab.round0
      right
      apply normal_of_tiny
      refine le_trans ?_ hab.lo
      rw [sub_zero]
      have h3 := lo_ge (i - 1 + (j - 1))
      have h5 : (1 : ℝ) / 2 ≤ (1 - u) ^ (i - 1 + (j - 1)) := by linarith
      nlinarith
  induction e using Nat.strongRecOn with
  | _ e ih =>
    intro i j a base htn hu hi hj ha hfa hB
    unfold MathFns.genericLoop
    by_cases he : e = 0
    · subst he
      rw [if_pos rfl]
      exact ⟨a, rfl, by simpa using ha, hfa⟩
    rw [if_neg he]
    obtain ⟨b, rfl, hb⟩ := hB he
    have hmono : ∀ n ≤ i + j * e, tiny ≤ (p : ℝ) ^ n ∧ ((n : Nat) : ℝ) * u ≤ 1 / 4 := by
      intro n hn
      refine ⟨htn.trans (pow_le_pow_of_le_one hp0.le hp1 hn), le_trans (mul_le_mul_of_nonneg_right ?_ u_pos.le) hu⟩
      exact_mod_cast hn
    have hje : j ≤ j * e := Nat.le_mul_of_pos_right _ (by omega)
    have hbase : e / 2 ≠ 0 → ∃ b', Dbl.fin b * Dbl.fin b = .fin b' ∧ Appr 0 (2 * j - 1) ((p : ℝ) ^ (2 * j)) b' := by
      intro h2
      have h2e : 2 ≤ e := by omega
      have : j + j ≤ i + j * e := by nlinarith
      obtain ⟨h3, h4⟩ := step j j b b hj hj (hmono _ this).1 (hmono _ this).2 hb hb
      exact ⟨_, h3, by rw [two_mul]; exact h4⟩
    by_cases hodd : e % 2 = 1
    · rw [if_pos hodd]
      obtain ⟨h3, h4⟩ := step i j a b hi hj (hmono _ (by omega)).1 (hmono _ (by omega)).2 ha hb
      rw [h3]
      simp only [Out.ok_bind]
      have hsum : i + j + 2 * j * (e / 2) = i + j * e := by
        conv_rhs => rw [← Nat.div_add_mod e 2, hodd]
        ring
      obtain ⟨q, h5, h6, h7⟩ := ih (e / 2) (by omega) (i + j) (2 * j) (fl (a * b)) (Dbl.fin b * Dbl.fin b)
        (by rw [hsum]; exact htn) (by rw [hsum]; exact hu) (by omega) (by omega) h4 (fl_idem _) hbase
      rw [hsum] at h6
      exact ⟨q, h5, h6, h7⟩
    · rw [if_neg hodd]
      simp only [Out.ok_bind]
      have hsum : i + 2 * j * (e / 2) = i + j * e := by
        conv_rhs => rw [← Nat.div_add_mod e 2, show e % 2 = 0 by omega]
        ring
      obtain ⟨q, h5, h6, h7⟩ := ih (e / 2) (by omega) i (2 * j) a (Dbl.fin b * Dbl.fin b)
        (by rw [hsum]; exact htn) (by rw [hsum]; exact hu) hi (by omega) ha hfa hbase
      rw [hsum] at h6
      exact ⟨q, h5, h6, h7⟩

theorem genericPow_dbl {p : ℚ} (h0 : 0 < p) (h1 : p ≤ 1) (hfix : fl p = p) {r : Nat} (hr : 0 < r) (ht : tiny ≤ (p : ℝ) ^ r)
    (hu : (r : ℝ) * u ≤ 1 / 4) (one : Dbl) :
    ∃ q, MathFns.genericBinaryPow one (fun x y => .ok (x * y)) (Dbl.fin p) (r : Int) = .ok (.fin q) ∧
      Appr 0 r ((p : ℝ) ^ r) q ∧ fl q = q := by
  have hself : Appr 0 0 ((p : ℝ) ^ 1) p := by rw [pow_one]; exact Appr.self h0.le
  have hp0 : (0 : ℝ) ≤ p := by exact_mod_cast h0.le
  unfold MathFns.genericBinaryPow
  rw [if_neg (by omega)]
  by_cases h : (r : Int) = 1
  · rw [if_pos h]
    obtain rfl : r = 1 := by omega
    exact ⟨p, rfl, hself.mono (by positivity) le_rfl le_rfl (by omega), hfix⟩
  · rw [if_neg h, if_neg (by omega), show ((r : Int) - 1).toNat = r - 1 by omega]
    have e : 1 + 1 * (r - 1) = r := by omega
    obtain ⟨q, h2, h3, h4⟩ := pow_dbl h0 h1 (r - 1) 1 1 p (.fin p) (by rw [e]; exact ht) (by rw [e]; exact hu) (by omega)
      (by omega) hself hfix (fun _ => ⟨p, rfl, hself⟩)
    rw [e] at h3
    exact ⟨q, h2, h3.mono (by positivity) le_rfl le_rfl (by omega), h4⟩

end Rand.Err
