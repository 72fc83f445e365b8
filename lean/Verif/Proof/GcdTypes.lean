import Verif.Model.GcdTypes
import Mathlib.Data.Int.GCD

/-! # Helper lemmas for `gcd` and `lcm` of two integer types -/

namespace GcdTypes
open Cpp

theorem conv_of_in {t : ITy} {x : Int} (h : t.In x) : t.conv x = x := by
  cases t <;> simp [ITy.In, ITy.min, ITy.max, ITy.bits, ITy.signed, ITy.conv, Int.bmod] at * <;> omega

theorem in_zero (t : ITy) : t.min ≤ 0 ∧ 0 ≤ t.max := by cases t <;> decide

theorem arith_comm (t u : ITy) : arith t u = arith u t := by cases t <;> cases u <;> rfl

theorem common_comm (t u : ITy) : common t u = common u t := by cases t <;> cases u <;> rfl

/-- The arguments keep their values when they are converted to the arithmetic type. -/
structure Fit (t u : ITy) (a b : Int) : Prop where
  left : t.In a
  right : u.In b
  sign : (arith t u).signed = true ∨ (0 ≤ a ∧ 0 ≤ b)

theorem Fit.symm {t u : ITy} {a b : Int} (h : Fit t u a b) : Fit u t b a :=
  ⟨h.right, h.left, by rw [arith_comm]; exact h.sign.imp id And.symm⟩

theorem Fit.inl {t u : ITy} {a b : Int} (h : Fit t u a b) : (arith t u).In a := by
  obtain ⟨h1, h2, h3⟩ := h
  cases t <;> cases u <;>
    simp [ITy.In, ITy.min, ITy.max, ITy.bits, ITy.signed, arith, ITy.promote] at * <;> omega

theorem Fit.inr {t u : ITy} {a b : Int} (h : Fit t u a b) : (arith t u).In b := by
  rw [arith_comm]; exact h.symm.inl

theorem tmod_in {t : ITy} {a : Int} (h : t.In a) (b : Int) : t.In (a.tmod b) := by
  have h0 := in_zero t
  have h3 : (a.tmod b).natAbs ≤ a.natAbs := by rw [Int.natAbs_tmod]; exact Nat.mod_le _ _
  rcases Int.le_total 0 a with ha | ha
  · have h1 := Int.tmod_nonneg b ha
    exact ⟨by have := h.1; omega, by have := h.2; omega⟩
  · have h1 := Int.tmod_nonneg b (show 0 ≤ -a by omega)
    rw [Int.neg_tmod] at h1
    exact ⟨by have := h.1; omega, by have := h.2; omega⟩

theorem remAssign_ok {t u : ITy} {a b : Int} (h : Fit t u a b) (hb : b ≠ 0)
    (hn : ¬ (a = (arith t u).min ∧ b = -1)) : remAssign t u a b = .ok (a.tmod b) ∧ Fit t u (a.tmod b) b := by
  constructor
  · unfold remAssign
    simp only [conv_of_in h.inl, conv_of_in h.inr]
    rw [if_neg hb, if_neg (fun h => hn h.2), conv_of_in (tmod_in h.left b)]
  · exact ⟨tmod_in h.left b, h.right, h.sign.imp id fun h => ⟨Int.tmod_nonneg b h.1, h.2⟩⟩

theorem common_in {t u : ITy} {a b : Int} (h : Fit t u a b) : (b = 0 → (common t u).In a) ∧ (a = 0 → (common t u).In b) := by
  unfold common
  split
  · rename_i e
    subst e
    exact ⟨fun _ => h.left, fun _ => h.right⟩
  · exact ⟨fun _ => h.inl, fun _ => h.inr⟩

theorem op_in {t : ITy} {x : Int} (h : t.In x) : t.op x = .ok x := by
  unfold ITy.op
  by_cases hs : t.signed = true
  · rw [if_pos hs, if_pos h]
  · rw [if_neg hs]
    have := conv_of_in h
    unfold ITy.conv at this
    rw [if_neg hs] at this
    rw [this]

theorem addReturn_ok {t u : ITy} {a b : Int} (h : Fit t u a b) (h0 : a = 0 ∨ b = 0) : addReturn t u a b = .ok (a + b) := by
  unfold addReturn
  simp only [conv_of_in h.inl, conv_of_in h.inr]
  rcases h0 with rfl | rfl
  · rw [Int.zero_add, op_in h.inr, Out.ok_bind, conv_of_in ((common_in h).2 rfl)]
  · rw [Int.add_zero, op_in h.inl, Out.ok_bind, conv_of_in ((common_in h).1 rfl)]

theorem natAbs_lt_min {t : ITy} {x : Int} (h : t.In x) (hs : t.signed = true) {y : Int} (hy : y.natAbs < x.natAbs) : y ≠ t.min := by
  cases t <;> simp [ITy.In, ITy.min, ITy.max, ITy.bits, ITy.signed] at * <;> omega

theorem unsigned_min {t : ITy} (hs : ¬ t.signed = true) : t.min = 0 := by cases t <;> simp_all [ITy.signed, ITy.min]

/-- The loop computes a greatest common divisor. -/
theorem gcdGo_ok {t u : ITy} : ∀ (fuel : Nat) (a b : Int), Fit t u a b → b ≠ 0 → b.natAbs < fuel →
    ¬ (a = (arith t u).min ∧ b = -1) → ¬ (a = -1 ∧ b = (arith t u).min) →
    ∃ g, gcdGo t u fuel a b = .ok g ∧ g.natAbs = Int.gcd a b ∧ (0 ≤ a → 0 ≤ b → 0 ≤ g) ∧ (common t u).In g := by
  intro fuel
  induction fuel with
  | zero => intro a b _ _ h; omega
  | succ fuel ih =>
    intro a b hF hb hf n1 n2
    obtain ⟨e1, F1⟩ := remAssign_ok hF hb n1
    have g1 : Int.gcd (a.tmod b) b = Int.gcd a b := by
      show Nat.gcd _ _ = Nat.gcd _ _
      rw [Int.natAbs_tmod, ← Nat.gcd_rec, Nat.gcd_comm]
    have l1 : (a.tmod b).natAbs < b.natAbs := by
      rw [Int.natAbs_tmod]; exact Nat.mod_lt _ (by omega)
    have p1 : 0 ≤ a → 0 ≤ a.tmod b := fun h => Int.tmod_nonneg b h
    have m1 : (arith t u).signed = true → b = (arith t u).min → a.tmod b = -1 → a = -1 := by
      intro hs hb1 h
      have h1 : a.natAbs % b.natAbs = 1 := by rw [← Int.natAbs_tmod, h]; rfl
      have h2 : a.natAbs ≤ b.natAbs := by
        by_contra hlt
        exact natAbs_lt_min hF.inl hs (by omega) hb1
      have h3 : a.natAbs = 1 := by
        rcases Nat.lt_or_ge a.natAbs b.natAbs with h3 | h3
        · rwa [Nat.mod_eq_of_lt h3] at h1
        · rw [Nat.le_antisymm h2 h3, Nat.mod_self] at h1; omega
      have : ¬ 0 ≤ a := fun h' => by have := p1 h'; omega
      omega
    unfold gcdGo
    rw [e1]
    simp only [Out.ok_bind]
    generalize a.tmod b = a' at *
    by_cases ha : a' = 0
    · rw [if_pos ha, addReturn_ok F1 (.inl ha)]
      subst ha
      refine ⟨0 + b, rfl, ?_, fun _ h => by omega, ?_⟩
      · rw [← g1]; simp
      · rw [Int.zero_add]; exact (common_in F1).2 rfl
    · rw [if_neg ha]
      have n3 : ¬ (b = (arith u t).min ∧ a' = -1) := by
        rw [arith_comm]
        rintro ⟨hb', ha'⟩
        by_cases hs : (arith t u).signed = true
        · exact n2 ⟨m1 hs hb' ha', hb'⟩
        · rw [unsigned_min hs] at hb'; exact hb hb'
      obtain ⟨e2, F2⟩ := remAssign_ok F1.symm ha n3
      have g2 : Int.gcd a' (b.tmod a') = Int.gcd a b := by
        rw [← g1]
        show Nat.gcd _ _ = Nat.gcd _ _
        rw [Int.natAbs_tmod, Nat.gcd_comm, ← Nat.gcd_rec]
      have l2 : (b.tmod a').natAbs < a'.natAbs := by
        rw [Int.natAbs_tmod]; exact Nat.mod_lt _ (by omega)
      have p2 : 0 ≤ b → 0 ≤ b.tmod a' := fun h => Int.tmod_nonneg a' h
      rw [e2]
      simp only [Out.ok_bind]
      have F3 := F2.symm
      generalize b.tmod a' = b' at *
      by_cases hb' : b' = 0
      · rw [if_pos hb', addReturn_ok F3 (.inr hb')]
        subst hb'
        refine ⟨a' + 0, rfl, ?_, fun h _ => by have := p1 h; omega, ?_⟩
        · rw [← g2]; simp
        · rw [Int.add_zero]; exact (common_in F3).1 rfl
      · rw [if_neg hb']
        obtain ⟨g, e3, h1, h2, h3⟩ := ih a' b' F3 hb' (by omega) (by
          rintro ⟨h1, h2⟩
          by_cases hs : (arith t u).signed = true
          · exact natAbs_lt_min F1.inr hs l1 h1
          · rw [unsigned_min hs] at h1; exact ha h1) (by
          rintro ⟨h1, h2⟩
          omega)
        exact ⟨g, e3, h1.trans g2, fun h h' => h2 (p1 h) (p2 h'), h3⟩

theorem gcd_ok {t u : ITy} {a b : Int} (h : Fit t u a b) (n1 : ¬ (a = (arith t u).min ∧ b = -1))
    (n2 : ¬ (a = -1 ∧ b = (arith t u).min)) {fuel : Nat} (hf : b.natAbs < fuel) :
    ∃ g, gcd t u fuel a b = .ok g ∧ g.natAbs = Int.gcd a b ∧ (0 ≤ a → 0 ≤ b → 0 ≤ g) ∧ (common t u).In g := by
  unfold gcd
  by_cases hb : b = 0
  · subst hb
    rw [if_neg (by simp), addReturn_ok h (.inr rfl)]
    exact ⟨a + 0, rfl, by simp, fun h _ => by omega, by rw [Int.add_zero]; exact (common_in h).1 rfl⟩
  · rw [if_pos hb]
    exact gcdGo_ok fuel a b h hb hf n1 n2

theorem gcdGo_mono {t u : ITy} : ∀ (f k : Nat) (a b g : Int), gcdGo t u f a b = .ok g → gcdGo t u (f + k) a b = .ok g := by
  intro f
  induction f with
  | zero => intro k a b g h; cases h
  | succ f ih =>
    intro k a b g h
    rw [show f + 1 + k = (f + k) + 1 by omega]
    unfold gcdGo at h ⊢
    obtain ⟨a', ea, h⟩ := Out.bind_eq_ok.1 h
    rw [ea, Out.ok_bind]
    split at h
    · rw [if_pos (by assumption)]; exact h
    · rw [if_neg (by assumption)]
      obtain ⟨b', eb, h⟩ := Out.bind_eq_ok.1 h
      rw [eb, Out.ok_bind]
      split at h
      · rw [if_pos (by assumption)]; exact h
      · rw [if_neg (by assumption)]; exact ih k a' b' g h

/-- the result does not depend on the bound for the number of rounds -/
theorem gcd_fuel {t u : ITy} {f f' : Nat} {a b g g' : Int} (h : gcd t u f a b = .ok g) (h' : gcd t u f' a b = .ok g') : g' = g := by
  unfold gcd at h h'
  split at h
  · rw [if_pos (by assumption)] at h'
    have h1 := gcdGo_mono f f' a b g h
    have h2 := gcdGo_mono f' f a b g' h'
    rw [Nat.add_comm, h1] at h2
    injection h2 with h2
    exact h2.symm
  · rw [if_neg (by assumption), h] at h'
    injection h' with h'
    exact h'.symm

theorem common_in_arith {t u : ITy} {g : Int} (h : (common t u).In g) (hs : (arith t u).signed = true ∨ 0 ≤ g) : (arith t u).In g := by
  cases t <;> cases u <;>
    simp [ITy.In, ITy.min, ITy.max, ITy.bits, ITy.signed, arith, ITy.promote, common] at * <;> omega

theorem natAbs_le_max {t : ITy} {x : Int} {n : Nat} (h : x.natAbs = n) (hn : (n : Int) ≤ t.max) (hs : t.signed = true ∨ 0 ≤ x) : t.In x := by
  cases t <;> simp [ITy.In, ITy.min, ITy.max, ITy.bits, ITy.signed] at * <;> omega

theorem Fit.nonneg {t u : ITy} {a b : Int} (h : Fit t u a b) (hs : ¬ (common t u).signed = true) : 0 ≤ a ∧ 0 ≤ b := by
  obtain ⟨h1, h2, h3⟩ := h
  cases t <;> cases u <;>
    simp [ITy.In, ITy.min, ITy.max, ITy.bits, ITy.signed, arith, ITy.promote, common] at * <;> omega

theorem max_lt_min {t u : ITy} (hs : (arith t u).signed = true) : (common t u).max < -(arith t u).min := by
  cases t <;> cases u <;> simp [ITy.min, ITy.max, ITy.bits, ITy.signed, arith, ITy.promote, common] at *

theorem lcm_ok {t u : ITy} {a b : Int} (h : Fit t u a b) (h0 : a ≠ 0 ∨ b ≠ 0) (n1 : ¬ (a = (arith t u).min ∧ b = -1))
    (n2 : ¬ (a = -1 ∧ b = (arith t u).min)) (hp : (arith t u).In (a * b)) (hl : (Int.lcm a b : Int) ≤ (common t u).max)
    {fuel : Nat} (hf : b.natAbs < fuel) :
    ∃ m, lcm t u fuel a b = .ok m ∧ m.natAbs = Int.lcm a b ∧ (0 ≤ a → 0 ≤ b → 0 ≤ m) := by
  obtain ⟨g, e, hg, hpos, hgi⟩ := gcd_ok h n1 n2 hf
  have hg0 : g ≠ 0 := by
    rintro rfl
    have := Int.gcd_eq_zero_iff.1 hg.symm
    omega
  have hgc : (arith t u).In g := common_in_arith hgi (h.sign.imp id fun h => hpos h.1 h.2)
  unfold lcm
  simp only [conv_of_in h.inl, conv_of_in h.inr]
  rw [op_in hp, Out.ok_bind, e, Out.ok_bind, conv_of_in hgc, if_neg hg0]
  have hq : ((a * b).tdiv g).natAbs = Int.lcm a b := by
    rw [Int.natAbs_tdiv, hg, Int.natAbs_mul]
    rfl
  have hqpos : 0 ≤ a → 0 ≤ b → 0 ≤ (a * b).tdiv g := fun h1 h2 => Int.tdiv_nonneg (Int.mul_nonneg h1 h2) (hpos h1 h2)
  have hqi : (common t u).In ((a * b).tdiv g) := by
    by_cases hs : (common t u).signed = true
    · exact natAbs_le_max hq hl (.inl hs)
    · have := h.nonneg hs
      exact natAbs_le_max hq hl (.inr (hqpos this.1 this.2))
  rw [if_neg, conv_of_in hqi]
  · exact ⟨_, rfl, hq, hqpos⟩
  · rintro ⟨hs, h1, rfl⟩
    have h2 := max_lt_min hs
    rw [h1] at hq
    simp only [Int.tdiv_neg, Int.tdiv_one, Int.natAbs_neg] at hq
    have h3 := in_zero (arith t u)
    omega

end GcdTypes
