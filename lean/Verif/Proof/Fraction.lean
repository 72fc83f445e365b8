import Verif.Spec.Fraction
import Verif.Proof.Gcd
import Mathlib.Tactic.FieldSimp
import Mathlib.Tactic.Positivity
import Mathlib.Data.Rat.Cast.Order

namespace Fraction
open Cpp MathFns Spec

theorem gcd_ok_spec {a b g : Int} (ha : IsInt a) (hb : IsInt b) (h : MathFns.gcd a b = .ok g) :
    g.natAbs = Int.gcd a b := by
  by_cases h1 : a = INT_MIN ∧ b = -1
  · rw [gcd_ub a b (.inl h1)] at h; cases h
  by_cases h2 : a = -1 ∧ b = INT_MIN
  · rw [gcd_ub a b (.inr h2)] at h; cases h
  obtain ⟨g', e, _, e2, _⟩ := gcd_spec a b ha hb h1 h2
  rw [e] at h; cases h; exact e2

theorem quot_ok {a b c : Int} (h : quot a b = .ok c) (hd : b ∣ a) : b * c = a := by
  unfold quot at h
  split at h
  · cases h
  split at h
  · cases h
  cases h
  exact Int.mul_tdiv_cancel' hd

theorem quot_isInt {a b c : Int} (ha : IsInt a) (h : quot a b = .ok c) : IsInt c := by
  unfold quot at h
  split at h
  · cases h
  rename_i hb
  split at h
  · cases h
  rename_i hn
  cases h
  have h1 : (a.tdiv b).natAbs = a.natAbs / b.natAbs := Int.natAbs_tdiv a b
  have h2 : a.natAbs / b.natAbs ≤ a.natAbs := Nat.div_le_self _ _
  have h3 := natAbs_le_of_isInt ha
  by_cases h4 : a.natAbs = 2147483648
  · have ha' : a = INT_MIN := by unfold IsInt INT_MIN INT_MAX at *; omega
    by_cases h5 : b = 1
    · subst h5; rw [Int.tdiv_one]; exact ha
    · have hb2 : 2 ≤ b.natAbs := by
        have : b ≠ -1 := fun h => hn ⟨ha', h⟩
        omega
      have : a.natAbs / b.natAbs ≤ a.natAbs / 2 := Nat.div_le_div_left hb2 (by omega)
      unfold IsInt INT_MIN INT_MAX; omega
  · unfold IsInt INT_MIN INT_MAX; omega

/-- Everything the constructor guarantees on a normal return. -/
theorem mk2_spec {n d : Int} {f : Frac} (hn : IsInt n) (hd : IsInt d) (h : mk2 n d = .ok f) :
    Canonical f ∧ d ≠ 0 ∧ f.num * d = n * f.den := by
  unfold mk2 at h
  by_cases hd0 : d = 0
  · rw [if_pos hd0] at h; cases h
  rw [if_neg hd0] at h
  obtain ⟨g, hg, h⟩ := Out.bind_eq_ok.mp h
  obtain ⟨n1, h1, h⟩ := Out.bind_eq_ok.mp h
  obtain ⟨d1, h2, h⟩ := Out.bind_eq_ok.mp h
  obtain ⟨n2, h3, h⟩ := Out.bind_eq_ok.mp h
  obtain ⟨d2, h4, h⟩ := Out.bind_eq_ok.mp h
  cases h
  have hga := gcd_ok_spec hn hd hg
  have hgn : g ∣ n := by
    rw [← Int.natAbs_dvd, hga]; exact Int.gcd_dvd_left ..
  have hgd : g ∣ d := by
    rw [← Int.natAbs_dvd, hga]; exact Int.gcd_dvd_right ..
  have e1 := quot_ok h1 hgn
  have e2 := quot_ok h2 hgd
  have hg0 : g ≠ 0 := by rintro rfl; simp at e2; exact hd0 e2.symm
  have hgpos : 0 < g.natAbs := Int.natAbs_pos.mpr hg0
  have hco : Int.gcd n1 d1 = 1 := by
    have : Int.gcd (g * n1) (g * d1) = g.natAbs * Int.gcd n1 d1 := Int.gcd_mul_left ..
    rw [e1, e2, ← hga] at this
    exact Nat.eq_of_mul_eq_mul_left hgpos (by rw [← this, mul_one])
  have hd1 : d1 ≠ 0 := by rintro rfl; simp at e2; exact hd0 e2.symm
  rw [int_eq_ok] at h4
  obtain ⟨i4, rfl⟩ := h4
  by_cases hs : d1 < 0
  · rw [if_pos hs, int_eq_ok] at h3
    obtain ⟨i3, rfl⟩ := h3
    refine ⟨⟨i3, i4, by simp; omega, ?_⟩, hd0, ?_⟩
    · simp only
      rw [← hco]; unfold Int.gcd; rw [Int.natAbs_natCast]; try rw [Int.natAbs_mul, Int.natAbs_neg, Int.natAbs_one, Nat.mul_one]
    · have : (d1.natAbs : Int) = -d1 := by omega
      simp only [this, ← e1, ← e2]; ring
  · rw [if_neg hs] at h3
    cases h3
    refine ⟨⟨quot_isInt hn h1, i4, by simp; omega, ?_⟩, hd0, ?_⟩
    · simp only
      rw [← hco]; unfold Int.gcd; rw [Int.natAbs_natCast]; try rw [Int.natAbs_mul, Int.natAbs_neg, Int.natAbs_one, Nat.mul_one]
    · have : (d1.natAbs : Int) = d1 := by omega
      simp only [this, ← e1, ← e2]; ring

theorem small_ne {x : Int} (h : Small x) : x ≠ INT_MIN := by
  unfold Small INT_MAX at h; unfold INT_MIN; omega

theorem small_isInt {x : Int} (h : Small x) : IsInt x := by
  unfold Small INT_MAX at h; unfold IsInt INT_MIN INT_MAX; omega

theorem isInt_small_iff {x : Int} : Small x ↔ x.natAbs ≤ 2147483647 := by
  unfold Small INT_MAX; omega

/-- The constructor returns normally for all arguments other than `INT_MIN`. -/
theorem mk2_defined {n d : Int} (hn : Small n) (hd : Small d) (h0 : d ≠ 0) :
    ∃ f, mk2 n d = .ok f := by
  unfold mk2
  rw [if_neg h0]
  obtain ⟨g, e, _, hg, _⟩ := gcd_spec n d (small_isInt hn) (small_isInt hd)
    (fun h => small_ne hn h.1) (fun h => small_ne hd h.2)
  have hg0 : g ≠ 0 := by
    rintro rfl
    rw [Int.natAbs_zero] at hg
    exact h0 (Int.gcd_eq_zero_iff.mp hg.symm).2
  have q : ∀ x, Small x → quot x g = .ok (x.tdiv g) ∧ Small (x.tdiv g) := by
    intro x hx
    constructor
    · unfold quot
      rw [if_neg hg0, if_neg (fun h => small_ne hx h.1)]
    · rw [isInt_small_iff, Int.natAbs_tdiv]
      exact (Nat.div_le_self _ _).trans (isInt_small_iff.mp hx)
  rw [e, Out.ok_bind, (q n hn).1, Out.ok_bind, (q d hd).1, Out.ok_bind]
  have sd := isInt_small_iff.mp (q d hd).2
  have sn := isInt_small_iff.mp (q n hn).2
  split
  · rw [int_ok (by apply small_isInt; rw [isInt_small_iff, Int.natAbs_mul]; simpa using sn),
      Out.ok_bind, int_ok (by apply small_isInt; rw [isInt_small_iff]; simpa using sd), Out.ok_bind]
    exact ⟨_, rfl⟩
  · rw [Out.ok_bind, int_ok (by apply small_isInt; rw [isInt_small_iff]; simpa using sd),
      Out.ok_bind]
    exact ⟨_, rfl⟩

theorem val_of_cross {f : Frac} {n d : Int} (hf : Canonical f) (h0 : d ≠ 0)
    (h : f.num * d = n * f.den) : val f = (n : ℚ) / (d : ℚ) := by
  unfold val
  have h1 : (f.den : ℚ) ≠ 0 := by exact_mod_cast hf.den_pos.ne'
  have h2 : (d : ℚ) ≠ 0 := by exact_mod_cast h0
  rw [div_eq_div_iff h1 h2]
  exact_mod_cast h

theorem mk2_val {n d : Int} {f : Frac} (hn : IsInt n) (hd : IsInt d) (h : mk2 n d = .ok f) :
    Canonical f ∧ val f = (n : ℚ) / (d : ℚ) := by
  obtain ⟨c, h0, e⟩ := mk2_spec hn hd h
  exact ⟨c, val_of_cross c h0 e⟩

theorem den_ne {f : Frac} (h : Canonical f) : (f.den : ℚ) ≠ 0 := by exact_mod_cast h.den_pos.ne'

theorem add_val {a b c : Frac} (ha : Canonical a) (hb : Canonical b) (h : add a b = .ok c) :
    Canonical c ∧ val c = val a + val b := by
  unfold add at h
  obtain ⟨p, h1, h⟩ := Out.bind_eq_ok.mp h
  obtain ⟨q, h2, h⟩ := Out.bind_eq_ok.mp h
  obtain ⟨n, h3, h⟩ := Out.bind_eq_ok.mp h
  obtain ⟨d, h4, h⟩ := Out.bind_eq_ok.mp h
  rw [int_eq_ok] at h1 h2 h3 h4
  obtain ⟨_, rfl⟩ := h1
  obtain ⟨_, rfl⟩ := h2
  obtain ⟨i3, rfl⟩ := h3
  obtain ⟨i4, rfl⟩ := h4
  obtain ⟨hc, hv⟩ := mk2_val i3 i4 h
  refine ⟨hc, ?_⟩
  rw [hv]
  have := den_ne ha
  have := den_ne hb
  unfold val
  push_cast
  field_simp

theorem sub_val {a b c : Frac} (ha : Canonical a) (hb : Canonical b) (h : sub a b = .ok c) :
    Canonical c ∧ val c = val a - val b := by
  unfold sub at h
  obtain ⟨p, h1, h⟩ := Out.bind_eq_ok.mp h
  obtain ⟨q, h2, h⟩ := Out.bind_eq_ok.mp h
  obtain ⟨n, h3, h⟩ := Out.bind_eq_ok.mp h
  obtain ⟨d, h4, h⟩ := Out.bind_eq_ok.mp h
  rw [int_eq_ok] at h1 h2 h3 h4
  obtain ⟨_, rfl⟩ := h1
  obtain ⟨_, rfl⟩ := h2
  obtain ⟨i3, rfl⟩ := h3
  obtain ⟨i4, rfl⟩ := h4
  obtain ⟨hc, hv⟩ := mk2_val i3 i4 h
  refine ⟨hc, ?_⟩
  rw [hv]
  have := den_ne ha
  have := den_ne hb
  unfold val
  push_cast
  field_simp

theorem mul_val {a b c : Frac} (h : mul a b = .ok c) :
    Canonical c ∧ val c = val a * val b := by
  unfold mul at h
  obtain ⟨n, h3, h⟩ := Out.bind_eq_ok.mp h
  obtain ⟨d, h4, h⟩ := Out.bind_eq_ok.mp h
  rw [int_eq_ok] at h3 h4
  obtain ⟨i3, rfl⟩ := h3
  obtain ⟨i4, rfl⟩ := h4
  obtain ⟨hc, hv⟩ := mk2_val i3 i4 h
  refine ⟨hc, ?_⟩
  rw [hv]
  unfold val
  push_cast
  rw [mul_div_mul_comm]

theorem div_val {a b c : Frac} (h : div a b = .ok c) :
    Canonical c ∧ val c = val a / val b := by
  unfold div at h
  obtain ⟨n, h3, h⟩ := Out.bind_eq_ok.mp h
  obtain ⟨d, h4, h⟩ := Out.bind_eq_ok.mp h
  rw [int_eq_ok] at h3 h4
  obtain ⟨i3, rfl⟩ := h3
  obtain ⟨i4, rfl⟩ := h4
  obtain ⟨hc, hv⟩ := mk2_val i3 i4 h
  refine ⟨hc, ?_⟩
  rw [hv]
  unfold val
  push_cast
  rw [div_div_div_eq]

theorem out_eta (x : Out Frac) : (x >>= fun tmp => Out.ok (⟨tmp.num, tmp.den⟩ : Frac)) = x := by
  cases x <;> simp

theorem addAssign_eq (a b : Frac) : addAssign a b = add a b := by
  unfold addAssign add; simp only [out_eta]
theorem subAssign_eq (a b : Frac) : subAssign a b = sub a b := by
  unfold subAssign sub; simp only [out_eta]
theorem mulAssign_eq (a b : Frac) : mulAssign a b = mul a b := by
  unfold mulAssign mul; simp only [out_eta]

theorem ofInt_eq (v : Int) : ofInt v = .ok ⟨v, 1⟩ := by
  unfold ofInt mk2
  rw [if_neg (by decide)]
  have hg : MathFns.gcd v 1 = .ok 1 := by
    unfold MathFns.gcd
    rw [if_pos (by decide)]
    unfold gcdLoop
    rw [dif_neg (by decide), if_neg (by intro h; exact absurd h.2 (by decide)),
      dif_pos (Int.tmod_one v)]
    rfl
  have hq : quot v 1 = .ok v := by
    unfold quot
    rw [if_neg (by decide), if_neg (by intro h; exact absurd h.2 (by decide)), Int.tdiv_one]
  have hq1 : quot 1 1 = .ok 1 := by decide
  rw [hg, Out.ok_bind, hq, Out.ok_bind, hq1, Out.ok_bind, if_neg (by decide), Out.ok_bind]
  rfl

theorem ofInt_canonical (v : Int) (h : IsInt v) : Canonical ⟨v, 1⟩ :=
  ⟨h, (by decide : IsInt 1), (by decide : (0 : Int) < 1), by simp⟩

theorem val_ofInt (v : Int) : val ⟨v, 1⟩ = v := by unfold val; simp

theorem val_inj {a b : Frac} (ha : Canonical a) (hb : Canonical b) (h : val a = val b) : a = b := by
  unfold val at h
  rw [div_eq_div_iff (den_ne ha) (den_ne hb)] at h
  have h' : a.num * b.den = b.num * a.den := by exact_mod_cast h
  have d1 : a.den ∣ b.den := by
    apply Int.dvd_of_dvd_mul_right_of_gcd_one (b := a.num)
    · rw [h']; exact Dvd.intro_left _ rfl
    · rw [Int.gcd_comm]; exact ha.coprime
  have d2 : b.den ∣ a.den := by
    apply Int.dvd_of_dvd_mul_right_of_gcd_one (b := b.num)
    · rw [← h']; exact Dvd.intro_left _ rfl
    · rw [Int.gcd_comm]; exact hb.coprime
  have e : a.den = b.den := Int.dvd_antisymm ha.den_pos.le hb.den_pos.le d1 d2
  have e2 : a.num = b.num := by
    rw [e] at h'
    exact Int.eq_of_mul_eq_mul_right hb.den_pos.ne' h'
  cases a; cases b; simp_all

theorem val_lt {a b : Frac} (ha : Canonical a) (hb : Canonical b) :
    val a < val b ↔ a.num * b.den < a.den * b.num := by
  unfold val
  have h1 : (0 : ℚ) < a.den := by exact_mod_cast ha.den_pos
  have h2 : (0 : ℚ) < b.den := by exact_mod_cast hb.den_pos
  rw [div_lt_div_iff₀ h1 h2, mul_comm (b.num : ℚ)]
  exact_mod_cast Iff.rfl

theorem val_le {a b : Frac} (ha : Canonical a) (hb : Canonical b) :
    val a ≤ val b ↔ a.num * b.den ≤ a.den * b.num := by
  unfold val
  have h1 : (0 : ℚ) < a.den := by exact_mod_cast ha.den_pos
  have h2 : (0 : ℚ) < b.den := by exact_mod_cast hb.den_pos
  rw [div_le_div_iff₀ h1 h2, mul_comm (b.num : ℚ)]
  exact_mod_cast Iff.rfl

end Fraction
