import Verif.Proof.SegmentTreeInt

/-! # Histories with multiplications on `SegmentTree<int>`: a bound that excludes overflow -/

namespace SegmentTree.Mul
open Cpp SegmentTree SegmentTree.Spec

/-- The size of the factor pending at a node, at least 1. -/
def fac (nd : Node Int) : Int := if nd.hasMul then max 1 |nd.mul| else 1

theorem one_le_fac (nd : Node Int) : 1 ≤ fac nd := by unfold fac; split <;> simp

/-- The product of the factors pending at `x` and above. -/
def slope (t : Nat → Node Int) (x : Nat) : Int := fac (t x) * if x ≤ 1 then 1 else slope t (x / 2)
termination_by x
decreasing_by omega

/-- What the summands pending at `x` and above contribute. -/
def cst (t : Nat → Node Int) (x : Nat) : Int :=
  if x ≤ 1 then pend (t x) else slope t (x / 2) * pend (t x) + cst t (x / 2)
termination_by x
decreasing_by omega

theorem slope_le {x : Nat} (t : Nat → Node Int) (h : x ≤ 1) : slope t x = fac (t x) := by rw [slope, if_pos h, mul_one]
theorem slope_gt {x : Nat} (t : Nat → Node Int) (h : ¬ x ≤ 1) : slope t x = fac (t x) * slope t (x / 2) := by
  rw [slope, if_neg h]
theorem cst_le {x : Nat} (t : Nat → Node Int) (h : x ≤ 1) : cst t x = pend (t x) := by rw [cst, if_pos h]
theorem cst_gt {x : Nat} (t : Nat → Node Int) (h : ¬ x ≤ 1) : cst t x = slope t (x / 2) * pend (t x) + cst t (x / 2) := by
  rw [cst, if_neg h]

theorem one_le_slope (t : Nat → Node Int) (x : Nat) : 1 ≤ slope t x := by
  induction x using Nat.strongRecOn with
  | _ x ih =>
    have h0 := one_le_fac (t x)
    by_cases h : x ≤ 1
    · rw [slope_le t h]; exact h0
    · rw [slope_gt t h]
      have := ih (x / 2) (by omega)
      nlinarith

theorem cst_nonneg (t : Nat → Node Int) (x : Nat) : 0 ≤ cst t x := by
  induction x using Nat.strongRecOn with
  | _ x ih =>
    have h0 := pend_nonneg (t x)
    by_cases h : x ≤ 1
    · rw [cst_le t h]; exact h0
    · rw [cst_gt t h]
      have := ih (x / 2) (by omega)
      have := one_le_slope t (x / 2)
      nlinarith

/-- What a node stores is small. -/
def Small (nd : Node Int) (len g : Int) : Prop := |nd.mn| ≤ g ∧ |nd.mx| ≤ g ∧ |nd.sm| ≤ len * g

/-- The invariant: at each node the pending factors, and what is stored and may still arrive, are bounded. -/
def Inv (n : Nat) (t : Nat → Node Int) (S B : Nat → Int) : Prop :=
  ∃ G : Nat → Int, (∀ x, 1 ≤ G x) ∧ ∀ x, 1 ≤ x → slope t x ≤ S x ∧ slope t x * G x + cst t x ≤ B x ∧
    ∀ l r, segOf n x = (l, r) → l ≤ r → Small (t x) (r - l + 1) (G x)

theorem Inv.mono {n : Nat} {t : Nat → Node Int} {S S' B B' : Nat → Int} (h : Inv n t S B)
    (hS : ∀ x, 1 ≤ x → S x ≤ S' x) (hB : ∀ x, 1 ≤ x → B x ≤ B' x) : Inv n t S' B' := by
  obtain ⟨G, h1, h2⟩ := h
  exact ⟨G, h1, fun x hx => ⟨(h2 x hx).1.trans (hS x hx), (h2 x hx).2.1.trans (hB x hx), (h2 x hx).2.2⟩⟩

theorem Inv.pos {n : Nat} {t : Nat → Node Int} {S B : Nat → Int} (h : Inv n t S B) {x : Nat} (hx : 1 ≤ x) :
    1 ≤ S x ∧ 1 ≤ B x := by
  obtain ⟨G, h1, h2⟩ := h
  have a := h1 x
  have b := h2 x hx
  have c := one_le_slope t x
  have d := cst_nonneg t x
  refine ⟨by omega, ?_⟩
  nlinarith [b.2.1]

theorem fac_settle (nd : Node Int) (len : Int) : fac (settle nd len) = 1 := by simp [settle, fac]

theorem mul_le_fac {nd : Node Int} (h : nd.hasMul = true) : |nd.mul| ≤ fac nd := by simp [fac, h]

theorem fac_pushed (nd c : Node Int) : fac (pushed nd c) ≤ fac c * fac nd := by
  have h1 := one_le_fac c
  have h2 := one_le_fac nd
  unfold pushed
  cases hm : nd.hasMul
  · have e : fac nd = 1 := by simp [fac, hm]
    rw [e, mul_one]
    cases nd.hasAdd <;> simp [fac, pushAdd]
  · have e : fac (if nd.hasAdd = true then pushAdd nd.add (pushMul nd.mul c) else pushMul nd.mul c) =
        fac (pushMul nd.mul c) := by
      cases nd.hasAdd <;> simp [fac, pushAdd]
    simp only [if_true]
    rw [e]
    have k := mul_le_fac hm
    unfold fac pushMul
    simp only [if_true]
    cases hc : c.hasMul
    · have : fac c = 1 := by simp [fac, hc]
      have : fac nd = max 1 |nd.mul| := by simp [fac, hm]
      simp [hm]
    · have k' := mul_le_fac hc
      simp only [if_true, hm]
      rw [abs_mul]
      have e1 : fac c = max 1 |c.mul| := by simp [fac, hc]
      have e2 : fac nd = max 1 |nd.mul| := by simp [fac, hm]
      rw [← e1, ← e2]
      refine max_le (by nlinarith) (mul_le_mul k' k (abs_nonneg _) (by omega))

theorem pend_pushed (nd c : Node Int) : pend (pushed nd c) ≤ pend c * fac nd + pend nd := by
  have h1 := pend_nonneg c
  have h2 := one_le_fac nd
  have h3 := pend_nonneg nd
  have h4 : 0 ≤ pend c * fac nd := by positivity
  unfold pushed
  cases hm : nd.hasMul
  · have e : fac nd = 1 := by simp [fac, hm]
    rw [e, mul_one]
    cases ha : nd.hasAdd
    · simp [pend, ha]
    · cases hc : c.hasAdd
      · simp [pend, pushAdd, ha, hc]
      · simp only [if_true, Bool.false_eq_true, if_false, pend, pushAdd, ha, hc]
        exact abs_add_le _ _
  · have k := mul_le_fac hm
    cases ha : nd.hasAdd
    · cases hc : c.hasAdd
      · simp [pend, pushMul, ha, hc]
      · simp only [if_true, Bool.false_eq_true, if_false, pend, pushMul, ha, hc, abs_mul, add_zero]
        exact mul_le_mul_of_nonneg_left k (abs_nonneg _)
    · cases hc : c.hasAdd
      · simp [pend, pushAdd, pushMul, ha, hc]
      · simp only [if_true, pend, pushMul, pushAdd, ha, hc]
        have := abs_add_le (c.add * nd.mul) nd.add
        rw [abs_mul] at this
        have := mul_le_mul_of_nonneg_left k (abs_nonneg c.add)
        linarith

theorem upd_lt (t : Nat → Node Int) {o : Nat} (l r : Int) (_ : 1 ≤ o) (x : Nat) (hx : x < o) :
    slope (upd t o l r) x = slope t x ∧ cst (upd t o l r) x = cst t x := by
  induction x using Nat.strongRecOn with
  | _ x ih =>
    have hu : upd t o l r x = t x := by unfold upd; rw [if_neg (by omega), if_neg (by omega)]
    by_cases h : x ≤ 1
    · rw [slope_le _ h, slope_le _ h, cst_le _ h, cst_le _ h, hu]; exact ⟨rfl, rfl⟩
    · obtain ⟨a, b⟩ := ih (x / 2) (by omega) (by omega)
      rw [slope_gt _ h, slope_gt _ h, cst_gt _ h, cst_gt _ h, hu, a, b]; exact ⟨rfl, rfl⟩

theorem upd_at (t : Nat → Node Int) {o : Nat} (l r : Int) (ho : 1 ≤ o) :
    slope (upd t o l r) o * fac (t o) = slope t o ∧
      slope (upd t o l r) o * pend (t o) + cst (upd t o l r) o = cst t o := by
  by_cases h : o ≤ 1
  · rw [slope_le _ h, slope_le _ h, cst_le _ h, cst_le _ h, upd_self, fac_settle, settle_pend]
    constructor <;> ring
  · obtain ⟨a, b⟩ := upd_lt t l r ho (o / 2) (by omega)
    rw [slope_gt _ h, slope_gt _ h, cst_gt _ h, cst_gt _ h, upd_self, fac_settle, settle_pend, a, b]
    constructor <;> ring

theorem upd_bounds (t : Nat → Node Int) {o : Nat} (l r : Int) (ho : 1 ≤ o) (x : Nat) :
    slope (upd t o l r) x ≤ slope t x ∧ cst (upd t o l r) x ≤ cst t x := by
  induction x using Nat.strongRecOn with
  | _ x ih =>
    obtain ⟨s1, s2⟩ := upd_at t l r ho
    have p0 := one_le_slope (upd t o l r) o
    have p1 := one_le_fac (t o)
    have p2 := pend_nonneg (t o)
    by_cases e : x = o
    · subst e
      exact ⟨by nlinarith, by nlinarith⟩
    · by_cases e2 : x = 2 * o ∨ x = 2 * o + 1
      · rw [slope_gt (x := x) _ (by omega), slope_gt (x := x) _ (by omega), cst_gt (x := x) _ (by omega),
          cst_gt (x := x) _ (by omega), upd_child t l r ho e2, show x / 2 = o by omega, ← s1, ← s2]
        have q1 := fac_pushed (t o) (t x)
        have q2 := pend_pushed (t o) (t x)
        constructor
        · have := mul_le_mul_of_nonneg_right q1 (show 0 ≤ slope (upd t o l r) o by omega)
          linarith
        · have := mul_le_mul_of_nonneg_left q2 (show 0 ≤ slope (upd t o l r) o by omega)
          linarith
      · have hu : upd t o l r x = t x := by unfold upd; rw [if_neg e, if_neg e2]
        by_cases h : x ≤ 1
        · rw [slope_le _ h, slope_le _ h, cst_le _ h, cst_le _ h, hu]; exact ⟨le_refl _, le_refl _⟩
        · obtain ⟨a, b⟩ := ih (x / 2) (by omega)
          rw [slope_gt _ h, slope_gt _ h, cst_gt _ h, cst_gt _ h, hu]
          have q1 := one_le_fac (t x)
          have q2 := pend_nonneg (t x)
          exact ⟨mul_le_mul_of_nonneg_left a (by omega), add_le_add (mul_le_mul_of_nonneg_right a q2) b⟩

theorem small_settle {nd : Node Int} {len g : Int} (hl : 0 ≤ len) (hg : 1 ≤ g) (h : Small nd len g) :
    Small (settle nd len) len (fac nd * g + pend nd) := by
  obtain ⟨a1, a2, a3⟩ := h
  have hf := one_le_fac nd
  have one : ∀ x k : Int, 0 ≤ k → |x| ≤ k → |if nd.hasMul then x * nd.mul else x| ≤ fac nd * k := by
    intro x k hk hx
    cases hm : nd.hasMul
    · simp only [Bool.false_eq_true, if_false]; nlinarith
    · simp only [if_true, abs_mul]
      rw [mul_comm (fac nd)]
      exact mul_le_mul hx (mul_le_fac hm) (abs_nonneg _) hk
  have two : ∀ k : Int, 0 ≤ k → |if nd.hasAdd then nd.add * k else 0| ≤ k * pend nd := by
    intro k hk
    cases ha : nd.hasAdd
    · simp [pend, ha]
    · simp only [if_true, pend, ha, abs_mul, abs_of_nonneg hk, mul_comm k, le_refl]
  have three : |if nd.hasAdd then nd.add else 0| ≤ pend nd := by
    have := two 1 (by omega)
    simpa using this
  unfold Small settle app
  simp only [Int.cast_id]
  refine ⟨?_, ?_, ?_⟩
  · refine (abs_add_le _ _).trans ?_
    have := one nd.mn g (by omega) a1
    omega
  · refine (abs_add_le _ _).trans ?_
    have := one nd.mx g (by omega) a2
    omega
  · refine (abs_add_le _ _).trans ?_
    have h1 := one nd.sm (len * g) (mul_nonneg hl (by omega)) a3
    have h2 := two len hl
    nlinarith

theorem inv_upd {n : Nat} {t : Nat → Node Int} {S B : Nat → Int} {o : Nat} {l r : Int} (ho : 1 ≤ o)
    (hseg : segOf n o = (l, r)) (hlr : l ≤ r) (I : Inv n t S B) : Inv n (upd t o l r) S B := by
  obtain ⟨G, g0, g1⟩ := I
  have f0 := one_le_fac (t o)
  have p0 := pend_nonneg (t o)
  refine ⟨fun x => if x = o then fac (t o) * G o + pend (t o) else G x, fun x => ?_, fun x hx => ?_⟩
  · dsimp only
    split
    · have := g0 o; nlinarith
    · exact g0 x
  obtain ⟨b1, b2⟩ := upd_bounds t l r ho x
  obtain ⟨c1, c2, c3⟩ := g1 x hx
  refine ⟨b1.trans c1, ?_, fun l' r' hs hlr' => ?_⟩
  · dsimp only
    split
    · rename_i e
      subst e
      obtain ⟨s1, s2⟩ := upd_at t l r ho
      have : slope (upd t x l r) x * (fac (t x) * G x + pend (t x)) + cst (upd t x l r) x =
          slope t x * G x + cst t x := by rw [← s1, ← s2]; ring
      rw [this]; exact c2
    · have := mul_le_mul_of_nonneg_right b1 (show 0 ≤ G x by have := g0 x; omega)
      linarith
  · have hx2 := c3 l' r' hs hlr'
    dsimp only
    by_cases e : x = o
    · subst e
      rw [hs] at hseg
      injection hseg with e1 e2
      subst e1 e2
      rw [if_pos rfl, upd_self]
      exact small_settle (by omega) (g0 x) hx2
    · rw [if_neg e]
      unfold upd
      rw [if_neg e]
      split
      · obtain ⟨p1, p2, p3⟩ := pushed_vals (t o) (t x)
        unfold Small
        rw [p1, p2, p3]; exact hx2
      · exact hx2

theorem intOk {x : Int} (h : |x| ≤ INT_MAX) : int x = .ok x := int_ok (isInt_abs h)

theorem pushMulI_ok {m : Int} {c : Node Int} {F K : Int} (hm : |m| ≤ F) (h : F * (fac c + pend c) ≤ K) (hK : K ≤ INT_MAX) :
    pushMulI m c = .ok (pushMul m c) := by
  have h1 := one_le_fac c
  have h2 := pend_nonneg c
  have hF : 0 ≤ F := (abs_nonneg m).trans hm
  unfold pushMulI pushMul
  have e1 : (if c.hasMul then int (c.mul * m) else Out.ok m) = .ok (if c.hasMul then c.mul * m else m) := by
    cases hc : c.hasMul
    · simp
    · simp only [if_true]
      refine intOk ?_
      rw [abs_mul]
      have := mul_le_mul (mul_le_fac hc) hm (abs_nonneg _) (by omega)
      nlinarith
  have e2 : (if c.hasAdd then int (c.add * m) else Out.ok c.add) = .ok (if c.hasAdd then c.add * m else c.add) := by
    cases hc : c.hasAdd
    · simp
    · simp only [if_true]
      refine intOk ?_
      rw [abs_mul]
      have hp : |c.add| = pend c := by simp [pend, hc]
      rw [hp]
      have := mul_le_mul_of_nonneg_left hm h2
      nlinarith
  rw [e1, Out.ok_bind, e2, Out.ok_bind]

theorem pushAddI_ok {a : Int} {c : Node Int} (h : pend c + |a| ≤ INT_MAX) : pushAddI a c = .ok (pushAdd a c) := by
  unfold pushAddI pushAdd
  cases hc : c.hasAdd
  · simp
  · simp only [if_true]
    have hp : |c.add| = pend c := by simp [pend, hc]
    rw [intOk ((abs_add_le _ _).trans (by omega)), Out.ok_bind]

/-- The vectors after the pending factor of `o` is applied and passed on. -/
def afterMul (t : Nat → Node Int) (o : Nat) : Nat → Node Int := fun x =>
  if x = o then
    { t o with
      hasMul := false
      mn := if (t o).hasMul then (t o).mn * (t o).mul else (t o).mn
      mx := if (t o).hasMul then (t o).mx * (t o).mul else (t o).mx
      sm := if (t o).hasMul then (t o).sm * (t o).mul else (t o).sm }
  else if x = 2 * o ∨ x = 2 * o + 1 then (if (t o).hasMul then pushMul (t o).mul (t x) else t x) else t x

theorem afterMul_id {t : Nat → Node Int} {o : Nat} (h : (t o).hasMul = false) : afterMul t o = t := by
  funext x
  unfold afterMul
  split
  · rename_i e
    subst e
    rcases ht : t x with ⟨mn, mx, sm, add, mul, ha, hm⟩
    rw [ht] at h
    simp_all
  · simp [h]

theorem pend_afterMul (t : Nat → Node Int) {o c : Nat} (ho : 1 ≤ o) (hc : c = 2 * o ∨ c = 2 * o + 1) :
    pend (afterMul t o c) ≤ fac (t o) * pend (t c) := by
  have h1 := one_le_fac (t o)
  have h2 := pend_nonneg (t c)
  unfold afterMul
  rw [if_neg (by omega), if_pos hc]
  cases hm : (t o).hasMul
  · simp only [Bool.false_eq_true, if_false]; nlinarith
  · simp only [if_true]
    have k := mul_le_fac hm
    cases hc' : (t c).hasAdd
    · simp [pend, pushMul, hc']
    · simp only [pend, pushMul, hc', if_true, abs_mul]
      rw [mul_comm]
      exact mul_le_mul_of_nonneg_right k (abs_nonneg _)

theorem small_mul {t : Nat → Node Int} {o : Nat} {len g : Int} (hl : 0 ≤ len) (hg : 1 ≤ g) (h : Small (t o) len g) :
    Small (afterMul t o o) len (fac (t o) * g) := by
  obtain ⟨a1, a2, a3⟩ := h
  have hf := one_le_fac (t o)
  have one : ∀ x k : Int, 0 ≤ k → |x| ≤ k → |if (t o).hasMul then x * (t o).mul else x| ≤ fac (t o) * k := by
    intro x k hk hx
    cases hm : (t o).hasMul
    · simp only [Bool.false_eq_true, if_false]; nlinarith
    · simp only [if_true, abs_mul]
      rw [mul_comm (fac (t o))]
      exact mul_le_mul hx (mul_le_fac hm) (abs_nonneg _) hk
  unfold Small afterMul
  simp only [if_true]
  refine ⟨one _ g (by omega) a1, one _ g (by omega) a2, ?_⟩
  have h1 := one (t o).sm (len * g) (mul_nonneg hl (by omega)) a3
  nlinarith

/-- `update` does not overflow if what it stores is small. -/
theorem updateI_small {n : Nat} {A g : Int} {t : Nat → Node Int} {o : Nat} {l r : Int} (ho : 1 ≤ o)
    (len0 : 0 ≤ r - l + 1) (hN : 2 * o + 1 < 4 * n) (hG : 1 ≤ g) (hs : Small (t o) (r - l + 1) g)
    (own : fac (t o) * g + pend (t o) ≤ A) (lenA : (r - l + 1) * (fac (t o) * g + pend (t o)) ≤ INT_MAX) (hbig : A ≤ INT_MAX)
    (kids : ∀ c, c / 2 = o → 1 < c → fac (t o) * (fac (t c) + pend (t c)) + pend (t o) ≤ A) :
    updateI ⟨n, t⟩ o l r = .ok ⟨n, upd t o l r⟩ := by
  obtain ⟨a1, a2, a3⟩ := hs
  have h0 : o < 4 * n := by omega
  have h1 : 2 * o < 4 * n := by omega
  have hF := one_le_fac (t o)
  have hp := pend_nonneg (t o)
  have n1 : ¬ 2 * o = o := by omega
  have n2 : ¬ 2 * o + 1 = o := by omega
  have n3 : ¬ 2 * o + 1 = 2 * o := by omega
  have n4 : ¬ o = 2 * o := by omega
  have n5 : ¬ o = 2 * o + 1 := by omega
  have mulF : (t o).hasMul = true → |(t o).mul| ≤ fac (t o) := mul_le_fac
  have addP : (t o).hasAdd = true → |(t o).add| = pend (t o) := fun h => by simp [pend, h]
  -- the pending factor
  have stM : (if (t o).hasMul then updateMulI ⟨n, t⟩ o (t o) else .ok ⟨n, t⟩) = .ok ⟨n, afterMul t o⟩ := by
    cases hm : (t o).hasMul
    · simp only [Bool.false_eq_true, if_false]
      rw [afterMul_id hm]
    · simp only [if_true]
      have hmF := mulF hm
      unfold updateMulI
      have q : ∀ x k : Int, 0 ≤ k → |x| ≤ k → |x * (t o).mul| ≤ k * fac (t o) := fun x k hk hx => by
        rw [abs_mul]; exact mul_le_mul hx hmF (abs_nonneg _) hk
      have q1 := q _ _ (by omega) a1
      have q2 := q _ _ (by omega) a2
      have q3 := q _ _ (mul_nonneg len0 (by omega)) a3
      have q4 : (r - l + 1) * g * fac (t o) ≤ INT_MAX := by
        have e : (r - l + 1) * g * fac (t o) = (r - l + 1) * (fac (t o) * g) := by ring
        have := mul_le_mul_of_nonneg_left (show fac (t o) * g ≤ fac (t o) * g + pend (t o) by omega) len0
        omega
      have q5 : g * fac (t o) ≤ INT_MAX := by rw [mul_comm]; omega
      rw [intOk (by omega), Out.ok_bind, intOk (by omega), Out.ok_bind, intOk (by omega), Out.ok_bind,
        put_ok (t := ⟨n, t⟩) _ h0, Out.ok_bind, at_ok h1, Out.ok_bind]
      simp only [n1, if_false]
      have k1 := kids (2 * o) (by omega) (by omega)
      have k2 := kids (2 * o + 1) (by omega) (by omega)
      rw [pushMulI_ok hmF (le_refl _) (by omega), Out.ok_bind, put_ok _ h1, Out.ok_bind, at_ok hN, Out.ok_bind]
      simp only [n2, n3, if_false]
      rw [pushMulI_ok hmF (le_refl _) (by omega), Out.ok_bind, put_ok _ hN]
      congr 2
      funext x
      unfold afterMul
      by_cases e1 : x = 2 * o + 1
      · simp [e1, hm, n2]
      · by_cases e2 : x = 2 * o
        · simp [e2, hm, n1]
        · by_cases e3 : x = o
          · subst e3; simp [e1, e2, hm]
          · simp [e1, e2, e3]
  unfold updateI
  rw [at_ok (t := ⟨n, t⟩) h0, Out.ok_bind, stM, Out.ok_bind, at_ok (t := ⟨n, afterMul t o⟩) h0, Out.ok_bind]
  have hu : (afterMul t o o).hasAdd = (t o).hasAdd := by simp [afterMul]
  have hua : (afterMul t o o).add = (t o).add := by simp [afterMul]
  simp only [hu]
  have hsm := small_mul len0 hG ⟨a1, a2, a3⟩ (t := t) (o := o)
  obtain ⟨z1, z2, z3⟩ := hsm
  cases ha : (t o).hasAdd
  · simp only [Bool.false_eq_true, if_false]
    congr 2
    funext x
    unfold afterMul upd settle pushed app
    by_cases e3 : x = o
    · subst e3; simp [ha]
    · by_cases e2 : x = 2 * o ∨ x = 2 * o + 1
      · simp [e2, e3, ha]
      · simp [e2, e3]
  · simp only [if_true]
    have hap := addP ha
    unfold updateAddI
    rw [hua]
    have q1 := abs_add_le (afterMul t o o).mn (t o).add
    have q2 := abs_add_le (afterMul t o o).mx (t o).add
    have q3 := abs_add_le (afterMul t o o).sm ((t o).add * (r - l + 1))
    have m1 : |(t o).add * (r - l + 1)| = (r - l + 1) * pend (t o) := by
      rw [abs_mul, abs_of_nonneg len0, hap, mul_comm]
    have q4 : (r - l + 1) * (fac (t o) * g) + (r - l + 1) * pend (t o) ≤ INT_MAX := by
      rw [← mul_add]; exact lenA
    have q5 : 0 ≤ (r - l + 1) * (fac (t o) * g) := mul_nonneg len0 (mul_nonneg (by omega) (by omega))
    rw [intOk (by omega), Out.ok_bind, intOk (by omega), Out.ok_bind, intOk (by omega), Out.ok_bind, intOk (by omega), Out.ok_bind,
      put_ok (t := ⟨n, afterMul t o⟩) _ h0, Out.ok_bind, at_ok h1, Out.ok_bind]
    simp only [n1, if_false]
    have kid : ∀ c, c / 2 = o → 1 < c → pushAddI (t o).add (afterMul t o c) = .ok (pushAdd (t o).add (afterMul t o c)) := by
      intro c hc1 hc2
      refine pushAddI_ok ?_
      have k := kids c hc1 hc2
      have k1 := pend_afterMul t (c := c) (o := o) ho (by omega)
      have k2 := one_le_fac (t c)
      rw [mul_add] at k
      have k3 : 0 ≤ fac (t o) * fac (t c) := mul_nonneg (by omega) (by omega)
      rw [hap]
      omega
    rw [kid (2 * o) (by omega) (by omega), Out.ok_bind, put_ok _ h1, Out.ok_bind, at_ok hN, Out.ok_bind]
    simp only [n2, n3, if_false]
    rw [kid (2 * o + 1) (by omega) (by omega), Out.ok_bind, put_ok _ hN]
    congr 2
    funext x
    unfold upd settle pushed app
    by_cases e1 : x = 2 * o + 1
    · simp [e1, ha, n2, afterMul]
    · by_cases e2 : x = 2 * o
      · simp [e2, ha, n1, afterMul]
      · by_cases e3 : x = o
        · subst e3; simp [e1, e2, ha, afterMul]
        · simp [e1, e2, e3, afterMul]

/-- `update` does not overflow. -/
theorem updateI_inv {n : Nat} {A : Int} {t : Nat → Node Int} {S B : Nat → Int} {o : Nat} {l r : Int} (ho : 1 ≤ o)
    (hseg : segOf n o = (l, r)) (hlr : l ≤ r) (hlen : r - l + 1 ≤ n) (hN : 2 * o + 1 < 4 * n) (I : Inv n t S B)
    (hB : ∀ x, 1 ≤ x → B x ≤ A) (hA : (n : Int) * A ≤ INT_MAX) :
    updateI ⟨n, t⟩ o l r = .ok ⟨n, upd t o l r⟩ := by
  obtain ⟨G, g0, g1⟩ := I
  obtain ⟨-, c2, c3⟩ := g1 o ho
  obtain ⟨a1, a2, a3⟩ := c3 l r hseg hlr
  have hG := g0 o
  have hBo := hB o ho
  have hn1 : (1 : Int) ≤ n := by omega
  have hF := one_le_fac (t o)
  have hp := pend_nonneg (t o)
  obtain ⟨s1, s2⟩ := upd_at t l r ho
  have p0 := one_le_slope (upd t o l r) o
  have p1 := cst_nonneg (upd t o l r) o
  -- what the node will store is at most A
  have own : fac (t o) * G o + pend (t o) ≤ A := by
    have e : slope (upd t o l r) o * (fac (t o) * G o + pend (t o)) + cst (upd t o l r) o ≤ A := by
      rw [← s1, ← s2] at c2; nlinarith
    have : 0 ≤ fac (t o) * G o + pend (t o) := by nlinarith
    nlinarith
  have hA0 : 0 ≤ A := by nlinarith
  have hbig : A ≤ INT_MAX := by nlinarith
  -- and so is what the children will have pending
  have kids : ∀ c, c / 2 = o → 1 < c → fac (t o) * (fac (t c) + pend (t c)) + pend (t o) ≤ A := by
    intro c hc1 hc2
    have e := (g1 c (by omega)).2.1
    rw [slope_gt _ (by omega), cst_gt _ (by omega), hc1] at e
    have f1 := one_le_fac (t c)
    have f2 := pend_nonneg (t c)
    have f3 := g0 c
    have f4 := hB c (by omega)
    rw [← s1, ← s2] at e
    have e' : slope (upd t o l r) o * (fac (t o) * (fac (t c) * G c + pend (t c)) + pend (t o)) + cst (upd t o l r) o ≤ A := by
      nlinarith
    have e1 : fac (t c) ≤ fac (t c) * G c := by nlinarith
    have e2 : fac (t o) * (fac (t c) + pend (t c)) ≤ fac (t o) * (fac (t c) * G c + pend (t c)) :=
      mul_le_mul_of_nonneg_left (by omega) (by omega)
    have e3 : 0 ≤ fac (t o) * (fac (t c) * G c + pend (t c)) + pend (t o) := by
      have : 0 ≤ fac (t o) * (fac (t c) + pend (t c)) := mul_nonneg (by omega) (by omega)
      omega
    nlinarith
  have len0 : 0 ≤ r - l + 1 := by omega
  have pos : 0 ≤ fac (t o) * G o + pend (t o) := add_nonneg (mul_nonneg (by omega) (by omega)) hp
  exact updateI_small ho len0 hN hG ⟨a1, a2, a3⟩ own ((mul_le_mul hlen own pos (by omega)).trans hA) hbig kids

/-- Queries do not overflow. -/
theorem queryI_inv {sel : Node Int → Int} {C : Int → Int → Out Int} {c : Int → Int → Int} {n : Nat} {A : Int}
    (hA : (n : Int) * A ≤ INT_MAX)
    (hs : ∀ nd len g, 1 ≤ len → 1 ≤ g → Small nd len g → |sel nd| ≤ len * g)
    (hC : ∀ x y p q : Int, 0 ≤ p → 0 ≤ q → |x| ≤ p → |y| ≤ q → p + q ≤ INT_MAX → C x y = .ok (c x y) ∧ |c x y| ≤ p + q)
    {lv rv : Int} (hv : lv ≤ rv) {S B : Nat → Int} (hB : ∀ x, 1 ≤ x → B x ≤ A) : ∀ (l r : Int) (o : Nat), l ≤ r →
    ∀ (fuel : Nat) (t : Nat → Node Int), (r - l).toNat < fuel → 1 ≤ o → lv ≤ r → l ≤ rv → Fits (4 * n) l r o →
    segOf n o = (l, r) → r - l + 1 ≤ n → Inv n t S B →
    ∃ t' x, queryI sel C lv rv fuel l r o ⟨n, t⟩ = .ok (⟨n, t'⟩, x) ∧ Inv n t' S B ∧ |x| ≤ (r - l + 1) * A := by
  have hit : ∀ (l r : Int) (o : Nat) (t : Nat → Node Int), l ≤ r → 1 ≤ o → segOf n o = (l, r) → Inv n t S B →
      |sel (upd t o l r o)| ≤ (r - l + 1) * A := by
    intro l r o t hlr ho hseg I
    obtain ⟨G, g0, g1⟩ := inv_upd ho hseg hlr I
    obtain ⟨-, e2, e3⟩ := g1 o ho
    have e1 := g0 o
    have e4 := hB o ho
    have e5 := one_le_slope (upd t o l r) o
    have e6 := cst_nonneg (upd t o l r) o
    have e7 : G o ≤ slope (upd t o l r) o * G o := le_mul_of_one_le_left (by omega) e5
    have := hs _ _ _ (by omega) e1 (e3 l r hseg hlr)
    exact this.trans (mul_le_mul_of_nonneg_left (by omega) (by omega))
  refine seg_ind ?_ ?_
  · intro l o fuel t hf ho h1 h2 hS hseg hlen I
    obtain ⟨fuel, rfl⟩ : ∃ k, fuel = k + 1 := ⟨fuel - 1, by omega⟩
    rw [queryI, updateI_inv ho hseg (le_refl l) hlen (fits_child hS) I hB hA, Out.ok_bind, if_pos ⟨h1, h2⟩,
      at_ok (fits_lt hS), Out.ok_bind]
    exact ⟨_, _, rfl, inv_upd ho hseg (le_refl l) I, hit l l o t (le_refl l) ho hseg I⟩
  · intro l r o hlr hL hR fuel t hf ho h1 h2 hS hseg hlen I
    obtain ⟨fuel, rfl⟩ : ∃ k, fuel = k + 1 := ⟨fuel - 1, by omega⟩
    rw [queryI, updateI_inv ho hseg hlr.le hlen (fits_child hS) I hB hA, Out.ok_bind]
    have I' := inv_upd ho hseg hlr.le I
    by_cases hc : lv ≤ l ∧ rv ≥ r
    · rw [if_pos hc, at_ok (fits_lt hS), Out.ok_bind]
      exact ⟨_, _, rfl, I', hit l r o t hlr.le ho hseg I⟩
    rw [if_neg hc]
    dsimp only
    rw [Fits, if_pos hlr] at hS
    have sl := segOf_left ho hseg hlr
    have sr := segOf_right ho hseg hlr
    have hVA : 0 ≤ A := by
      have := (I.pos ho).2; have := hB o ho
      omega
    have mono : ∀ k : Int, k ≤ r - l + 1 → k * A ≤ (r - l + 1) * A :=
      fun k hk => mul_le_mul_of_nonneg_right hk hVA
    by_cases c1 : rv ≤ (l + r) / 2
    · rw [if_pos c1]
      obtain ⟨t', x, e, I2, b⟩ := hL fuel _ (by omega) (by omega) (by omega) h2 hS.2.1 sl (by omega) I'
      exact ⟨t', x, e, I2, b.trans (mono _ (by omega))⟩
    rw [if_neg c1]
    by_cases c2 : lv > (l + r) / 2
    · rw [if_pos c2]
      obtain ⟨t', x, e, I2, b⟩ := hR fuel _ (by omega) (by omega) h1 (by omega) hS.2.2 sr (by omega) I'
      exact ⟨t', x, e, I2, b.trans (mono _ (by omega))⟩
    rw [if_neg c2]
    obtain ⟨t1, x, e1, I1, b1⟩ := hL fuel _ (by omega) (by omega) (by omega) h2 hS.2.1 sl (by omega) I'
    obtain ⟨t2, y, e2, I2, b2⟩ := hR fuel t1 (by omega) (by omega) h1 (by omega) hS.2.2 sr (by omega) I1
    rw [e1, Out.ok_bind]
    dsimp only
    rw [e2, Out.ok_bind]
    have tot : ((l + r) / 2 - l + 1) * A + (r - ((l + r) / 2 + 1) + 1) * A = (r - l + 1) * A := by ring
    have lim : (r - l + 1) * A ≤ INT_MAX := (mul_le_mul_of_nonneg_right hlen hVA).trans hA
    obtain ⟨k1, k2⟩ := hC x y _ _ (mul_nonneg (by omega) hVA) (mul_nonneg (by omega) hVA) b1 b2 (by rw [tot]; exact lim)
    dsimp only
    rw [k1, Out.ok_bind]
    exact ⟨t2, _, rfl, I2, by rw [← tot]; exact k2⟩

/-- The bound for the factors after a call that reaches the nodes below `o`. -/
noncomputable def bumpS (o : Nat) (M : Int) (S : Nat → Int) (y : Nat) : Int := by
  classical exact if Desc o y then M * S y else S y

/-- The bound for the values after a call that reaches the nodes below `o`. -/
noncomputable def bumpB (o : Nat) (M X : Int) (S B : Nat → Int) (y : Nat) : Int := by
  classical exact if Desc o y then M * B y + X * S y else B y

theorem bumpS_desc {o y : Nat} (M : Int) (S : Nat → Int) (h : Desc o y) : bumpS o M S y = M * S y := by
  unfold bumpS; rw [if_pos h]
theorem bumpS_not {o y : Nat} (M : Int) (S : Nat → Int) (h : ¬ Desc o y) : bumpS o M S y = S y := by
  unfold bumpS; rw [if_neg h]
theorem bumpB_desc {o y : Nat} (M X : Int) (S B : Nat → Int) (h : Desc o y) : bumpB o M X S B y = M * B y + X * S y := by
  unfold bumpB; rw [if_pos h]
theorem bumpB_not {o y : Nat} (M X : Int) (S B : Nat → Int) (h : ¬ Desc o y) : bumpB o M X S B y = B y := by
  unfold bumpB; rw [if_neg h]

theorem bump_ge {o : Nat} {M X : Int} (hM : 1 ≤ M) (hX : 0 ≤ X) {S B : Nat → Int} {y : Nat} (hS : 1 ≤ S y) (hB : 1 ≤ B y) :
    S y ≤ bumpS o M S y ∧ B y ≤ bumpB o M X S B y := by
  have h1 : S y ≤ M * S y := le_mul_of_one_le_left (by omega) hM
  have h2 : B y ≤ M * B y := le_mul_of_one_le_left (by omega) hM
  have h3 : 0 ≤ X * S y := mul_nonneg hX (by omega)
  by_cases h : Desc o y
  · rw [bumpS_desc M S h, bumpB_desc M X S B h]; omega
  · rw [bumpS_not M S h, bumpB_not M X S B h]; omega

theorem bump_left {o : Nat} {M X : Int} (hM : 1 ≤ M) (hX : 0 ≤ X) {S B : Nat → Int} {y : Nat} (hS : 1 ≤ S y) (hB : 1 ≤ B y) :
    bumpS (2 * o) M S y ≤ bumpS o M S y ∧ bumpB (2 * o) M X S B y ≤ bumpB o M X S B y := by
  by_cases h : Desc (2 * o) y
  · rw [bumpS_desc M S h, bumpB_desc M X S B h, bumpS_desc M S (desc_of_left h), bumpB_desc M X S B (desc_of_left h)]
    exact ⟨le_refl _, le_refl _⟩
  · rw [bumpS_not M S h, bumpB_not M X S B h]; exact bump_ge hM hX hS hB

theorem bump_both {o : Nat} (ho : 1 ≤ o) {M X : Int} (hM : 1 ≤ M) (hX : 0 ≤ X) {S B : Nat → Int} {y : Nat} (hS : 1 ≤ S y)
    (hB : 1 ≤ B y) : bumpS (2 * o + 1) M (bumpS (2 * o) M S) y ≤ bumpS o M S y ∧
      bumpB (2 * o + 1) M X (bumpS (2 * o) M S) (bumpB (2 * o) M X S B) y ≤ bumpB o M X S B y := by
  by_cases h : Desc (2 * o + 1) y
  · have h' : ¬ Desc (2 * o) y := fun h' => desc_disjoint ho h' h
    rw [bumpS_desc M _ h, bumpB_desc M X _ _ h, bumpS_not M S h', bumpB_not M X S B h', bumpS_desc M S (desc_of_right h),
      bumpB_desc M X S B (desc_of_right h)]
    exact ⟨le_refl _, le_refl _⟩
  · rw [bumpS_not M _ h, bumpB_not M X _ _ h]; exact bump_left hM hX hS hB

theorem desc_half {o y : Nat} (h : Desc o (y / 2)) : Desc o y := by
  obtain ⟨d, hd⟩ := h
  exact ⟨d + 1, by rw [pow_succ, mul_comm, ← Nat.div_div_eq_div_mul, hd]⟩

theorem desc_up {o y : Nat} (h : Desc o y) (e : y ≠ o) : Desc o (y / 2) := by
  obtain ⟨d, hd⟩ := h
  cases d with
  | zero => simp at hd; exact absurd hd e
  | succ d => exact ⟨d, by rw [← hd, Nat.div_div_eq_div_mul, pow_succ, mul_comm]⟩

/-- What a new mark at a settled node does to the bounds. -/
theorem mark_bounds {u : Nat → Node Int} {o : Nat} (ho : 1 ≤ o) {nd : Node Int} {M X : Int} (hM : 1 ≤ M) (hX : 0 ≤ X) (hf0 : fac (u o) = 1)
    (hp0 : pend (u o) = 0) (hf : fac nd ≤ M) (hp : pend nd ≤ X) (y : Nat) (hy : 1 ≤ y) :
    slope (fun y => if y = o then nd else u y) y ≤ bumpS o M (slope u) y ∧
      cst (fun y => if y = o then nd else u y) y ≤ bumpB o M X (slope u) (cst u) y := by
  induction y using Nat.strongRecOn with
  | _ y ih =>
    by_cases e : y = o
    · subst e
      rw [bumpS_desc _ _ (desc_self y), bumpB_desc _ _ _ _ (desc_self y)]
      by_cases h : y ≤ 1
      · rw [slope_le _ h, slope_le _ h, cst_le _ h, cst_le _ h, if_pos rfl, hf0, hp0]
        omega
      · rw [slope_gt _ h, slope_gt _ h, cst_gt _ h, cst_gt _ h, if_pos rfl, hf0, hp0]
        have nd' : ¬ Desc y (y / 2) := fun hd => by have := desc_le hd; omega
        obtain ⟨i1, i2⟩ := ih (y / 2) (by omega) (by omega)
        rw [bumpS_not _ _ nd'] at i1
        rw [bumpB_not _ _ _ _ nd'] at i2
        have q1 := one_le_slope (fun z => if z = y then nd else u z) (y / 2)
        have q2 := one_le_fac nd
        have q3 := pend_nonneg nd
        have q4 := cst_nonneg u (y / 2)
        refine ⟨?_, ?_⟩
        · rw [one_mul]; exact mul_le_mul hf i1 (by omega) (by omega)
        · have a1 := mul_le_mul i1 hp q3 (by omega)
          have a2 : cst u (y / 2) ≤ M * cst u (y / 2) := le_mul_of_one_le_left q4 hM
          rw [mul_zero, zero_add, one_mul, mul_comm X]
          omega
    · by_cases h : y ≤ 1
      · have nd' : ¬ Desc o y := fun hd => by
          have := desc_le hd
          omega
        rw [slope_le _ h, cst_le _ h, if_neg e, bumpS_not _ _ nd', bumpB_not _ _ _ _ nd', slope_le _ h, cst_le _ h]
        exact ⟨le_refl _, le_refl _⟩
      · obtain ⟨i1, i2⟩ := ih (y / 2) (by omega) (by omega)
        have q2 := one_le_fac (u y)
        have q3 := pend_nonneg (u y)
        have q4 := one_le_slope u (y / 2)
        rw [slope_gt _ h, cst_gt _ h, if_neg e]
        by_cases hd : Desc o y
        · rw [bumpS_desc _ _ (desc_up hd e)] at i1
          rw [bumpB_desc _ _ _ _ (desc_up hd e)] at i2
          rw [bumpS_desc _ _ hd, bumpB_desc _ _ _ _ hd, slope_gt u h, cst_gt u h]
          have a1 := mul_le_mul_of_nonneg_left i1 (show 0 ≤ fac (u y) by omega)
          have a2 := mul_le_mul_of_nonneg_right i1 q3
          have a3 : slope u (y / 2) ≤ fac (u y) * slope u (y / 2) := le_mul_of_one_le_left (by omega) q2
          have a4 := mul_le_mul_of_nonneg_left a3 hX
          constructor
          · linarith
          · linarith
        · have nd' : ¬ Desc o (y / 2) := fun h' => hd (desc_half h')
          rw [bumpS_not _ _ nd'] at i1
          rw [bumpB_not _ _ _ _ nd'] at i2
          rw [bumpS_not _ _ hd, bumpB_not _ _ _ _ hd, slope_gt u h, cst_gt u h]
          exact ⟨mul_le_mul_of_nonneg_left i1 (by omega), add_le_add (mul_le_mul_of_nonneg_right i1 q3) i2⟩

/-- The invariant after a new mark at a settled node. -/
theorem inv_mark {n : Nat} {u : Nat → Node Int} {S B : Nat → Int} {o : Nat} {nd : Node Int} {M X : Int} (ho : 1 ≤ o) (hM : 1 ≤ M)
    (hX : 0 ≤ X) (hf0 : fac (u o) = 1) (hp0 : pend (u o) = 0) (hf : fac nd ≤ M) (hp : pend nd ≤ X)
    (hv : nd.mn = (u o).mn ∧ nd.mx = (u o).mx ∧ nd.sm = (u o).sm) (I : Inv n u S B) :
    Inv n (fun y => if y = o then nd else u y) (bumpS o M S) (bumpB o M X S B) := by
  obtain ⟨G, g0, g1⟩ := I
  refine ⟨G, g0, fun y hy => ?_⟩
  obtain ⟨c1, c2, c3⟩ := g1 y hy
  obtain ⟨b1, b2⟩ := mark_bounds ho hM hX hf0 hp0 hf hp y hy
  have hG := g0 y
  refine ⟨?_, ?_, fun l r hs hlr => ?_⟩
  · by_cases h : Desc o y
    · rw [bumpS_desc _ _ h] at b1 ⊢
      exact b1.trans (mul_le_mul_of_nonneg_left c1 (by omega))
    · rw [bumpS_not _ _ h] at b1 ⊢
      exact b1.trans c1
  · have a1 := mul_le_mul_of_nonneg_right b1 (show 0 ≤ G y by omega)
    by_cases h : Desc o y
    · rw [bumpS_desc _ _ h] at a1
      rw [bumpB_desc _ _ _ _ h] at b2 ⊢
      have a2 := mul_le_mul_of_nonneg_left c2 (show 0 ≤ M by omega)
      have a3 := mul_le_mul_of_nonneg_left c1 hX
      linarith
    · rw [bumpS_not _ _ h] at a1
      rw [bumpB_not _ _ _ _ h] at b2 ⊢
      omega
  · have k := c3 l r hs hlr
    dsimp only
    split
    · rename_i e
      subst e
      unfold Small at k ⊢
      rw [hv.1, hv.2.1, hv.2.2]; exact k
    · exact k

/-- Updates do not overflow. -/
theorem changeI_inv {n : Nat} {A M X : Int} (hM : 1 ≤ M) (hX : 0 ≤ X) (hA : (n : Int) * A ≤ INT_MAX) {tag : Node Int → Node Int}
    (htag : ∀ nd : Node Int, fac nd = 1 → pend nd = 0 → nd.hasMul = false → nd.hasAdd = false → fac (tag nd) ≤ M ∧ pend (tag nd) ≤ X ∧
      (tag nd).mn = nd.mn ∧ (tag nd).mx = nd.mx ∧ (tag nd).sm = nd.sm)
    {lv rv : Int} : ∀ (l r : Int) (o : Nat), l ≤ r →
    ∀ (fuel : Nat) (t : Nat → Node Int) (S B : Nat → Int), (r - l).toNat < fuel → 1 ≤ o → lv ≤ r → l ≤ rv → Fits (4 * n) l r o →
    segOf n o = (l, r) → r - l + 1 ≤ n → (∀ y, 1 ≤ y → bumpB o M X S B y ≤ A) → Inv n t S B →
    ∃ t', changeI tag lv rv fuel l r o ⟨n, t⟩ = .ok ⟨n, t'⟩ ∧ Inv n t' (bumpS o M S) (bumpB o M X S B) := by
  have low : ∀ {t : Nat → Node Int} {S B : Nat → Int} {o : Nat}, Inv n t S B → (∀ y, 1 ≤ y → bumpB o M X S B y ≤ A) →
      ∀ y, 1 ≤ y → B y ≤ A := fun I hB y hy =>
    (bump_ge hM hX (I.pos hy).1 (I.pos hy).2).2.trans (hB y hy)
  have cover : ∀ (l r : Int) (o : Nat), l ≤ r → ∀ (fuel : Nat) (t : Nat → Node Int) (S B : Nat → Int), 1 ≤ o →
      Fits (4 * n) l r o → segOf n o = (l, r) → r - l + 1 ≤ n → (∀ y, 1 ≤ y → bumpB o M X S B y ≤ A) → Inv n t S B →
      lv ≤ l ∧ rv ≥ r →
      ∃ t', changeI tag lv rv (fuel + 1) l r o ⟨n, t⟩ = .ok ⟨n, t'⟩ ∧ Inv n t' (bumpS o M S) (bumpB o M X S B) := by
    intro l r o hlr fuel t S B ho hS hseg hlen hB I hc
    rw [changeI, updateI_inv ho hseg hlr hlen (fits_child hS) I (low I hB) hA, Out.ok_bind, if_pos hc, at_ok (fits_lt hS),
      Out.ok_bind, put_ok _ (fits_lt hS)]
    have I' := inv_upd ho hseg hlr I
    have hp : pend (upd t o l r o) = 0 := by rw [upd_self, settle_pend]
    have hf : fac (upd t o l r o) = 1 := by rw [upd_self, fac_settle]
    have h1 : (upd t o l r o).hasMul = false := by rw [upd_self]; rfl
    have h2 : (upd t o l r o).hasAdd = false := by rw [upd_self]; rfl
    obtain ⟨k1, k2, k3⟩ := htag _ hf hp h1 h2
    exact ⟨_, rfl, inv_mark ho hM hX hf hp k1 k2 k3 I'⟩
  refine seg_ind ?_ ?_
  · intro l o fuel t S B hf ho h1 h2 hS hseg hlen hB I
    obtain ⟨fuel, rfl⟩ : ∃ k, fuel = k + 1 := ⟨fuel - 1, by omega⟩
    exact cover l l o (le_refl l) fuel t S B ho hS hseg hlen hB I ⟨h1, h2⟩
  · intro l r o hlr hL hR fuel t S B hf ho h1 h2 hS hseg hlen hB I
    obtain ⟨fuel, rfl⟩ : ∃ k, fuel = k + 1 := ⟨fuel - 1, by omega⟩
    by_cases hc : lv ≤ l ∧ rv ≥ r
    · exact cover l r o hlr.le fuel t S B ho hS hseg hlen hB I hc
    have hBl : ∀ y, 1 ≤ y → bumpB (2 * o) M X S B y ≤ A := fun y hy =>
      (bump_left hM hX (I.pos hy).1 (I.pos hy).2).2.trans (hB y hy)
    have hBb : ∀ y, 1 ≤ y → bumpB (2 * o + 1) M X (bumpS (2 * o) M S) (bumpB (2 * o) M X S B) y ≤ A := fun y hy =>
      (bump_both ho hM hX (I.pos hy).1 (I.pos hy).2).2.trans (hB y hy)
    rw [changeI, updateI_inv ho hseg hlr.le hlen (fits_child hS) I (low I hB) hA, Out.ok_bind, if_neg hc]
    have I' := inv_upd ho hseg hlr.le I
    rw [Fits, if_pos hlr] at hS
    have sl := segOf_left ho hseg hlr
    have sr := segOf_right ho hseg hlr
    generalize upd t o l r = u at I' ⊢
    have left : ∃ t1, (if lv ≤ (l + r) / 2 then changeI tag lv rv fuel l ((l + r) / 2) (2 * o) ⟨n, u⟩ else .ok ⟨n, u⟩)
          = .ok ⟨n, t1⟩ ∧ Inv n t1 (bumpS (2 * o) M S) (bumpB (2 * o) M X S B) := by
      by_cases c : lv ≤ (l + r) / 2
      · rw [if_pos c]
        exact hL fuel u S B (by omega) (by omega) c h2 hS.2.1 sl (by omega) hBl I'
      · rw [if_neg c]
        exact ⟨u, rfl, I'.mono (fun y hy => (bump_ge hM hX (I'.pos hy).1 (I'.pos hy).2).1)
          (fun y hy => (bump_ge hM hX (I'.pos hy).1 (I'.pos hy).2).2)⟩
    obtain ⟨t1, e1, I1⟩ := left
    dsimp only
    rw [e1, Out.ok_bind]
    by_cases c : rv > (l + r) / 2
    · rw [if_pos c]
      obtain ⟨t2, e2, I2⟩ := hR fuel t1 _ _ (by omega) (by omega) h1 (by omega) hS.2.2 sr (by omega) hBb I1
      exact ⟨t2, e2, I2.mono (fun y hy => (bump_both (X := X) ho hM hX (I'.pos hy).1 (I'.pos hy).2).1)
        (fun y hy => (bump_both ho hM hX (I'.pos hy).1 (I'.pos hy).2).2)⟩
    · rw [if_neg c]
      exact ⟨t1, rfl, I1.mono (fun y hy => (bump_left (X := X) hM hX (I'.pos hy).1 (I'.pos hy).2).1)
        (fun y hy => (bump_left hM hX (I'.pos hy).1 (I'.pos hy).2).2)⟩

/-- The three queries on a small tree. -/
theorem queries_inv {n : Nat} {P A : Int} (hA : (n : Int) * A ≤ INT_MAX) {fuel : Nat} (hf : n ≤ fuel)
    (hF : Fits (4 * n) 0 ((n : Int) - 1) 1) {t : Nat → Node Int} (I : Inv n t (fun _ => P) fun _ => A) {a b : Int}
    (hr : InRange n a b) :
    (∃ t' x, queryMaxI fuel ⟨n, t⟩ a b = .ok (⟨n, t'⟩, x) ∧ Inv n t' (fun _ => P) fun _ => A) ∧
    (∃ t' x, queryMinI fuel ⟨n, t⟩ a b = .ok (⟨n, t'⟩, x) ∧ Inv n t' (fun _ => P) fun _ => A) ∧
    (∃ t' x, querySumI fuel ⟨n, t⟩ a b = .ok (⟨n, t'⟩, x) ∧ Inv n t' (fun _ => P) fun _ => A) := by
  obtain ⟨r1, r2, r3⟩ := hr
  have go : ∀ {sel : Node Int → Int} {C : Int → Int → Out Int} {c : Int → Int → Int}
      (_ : ∀ nd len g, 1 ≤ len → 1 ≤ g → Small nd len g → |sel nd| ≤ len * g)
      (_ : ∀ x y p q : Int, 0 ≤ p → 0 ≤ q → |x| ≤ p → |y| ≤ q → p + q ≤ INT_MAX → C x y = .ok (c x y) ∧ |c x y| ≤ p + q),
      ∃ t' x, queryI sel C a b fuel 0 ((n : Int) - 1) 1 ⟨n, t⟩ = .ok (⟨n, t'⟩, x) ∧ Inv n t' (fun _ => P) fun _ => A := by
    intro sel C c h1 h2
    obtain ⟨t', x, e, I', -⟩ := queryI_inv hA h1 h2 r2 (fun _ _ => le_refl A) 0 ((n : Int) - 1) 1 (by omega) fuel t (by omega)
      (le_refl 1) (by omega) (by omega) hF (segOf_one n) (by omega) I
    exact ⟨t', x, e, I'⟩
  refine ⟨go (c := max) ?_ ?_, go (c := min) ?_ ?_, go (c := (· + ·)) ?_ ?_⟩
  · intro nd len g h1 h2 h; have := h.2.1; nlinarith
  · intro x y p q h1 h2 h3 h4 _
    refine ⟨rfl, ?_⟩
    rw [abs_le] at *
    omega
  · intro nd len g h1 h2 h; have := h.1; nlinarith
  · intro x y p q h1 h2 h3 h4 _
    refine ⟨rfl, ?_⟩
    rw [abs_le] at *
    omega
  · intro nd len g h1 h2 h; exact h.2.2
  · intro x y p q h1 h2 h3 h4 h5
    have := abs_add_le x y
    exact ⟨int_ok (isInt_abs (by omega)), by omega⟩

theorem one_le_factor (op : Op Int) : 1 ≤ Op.factor op := by cases op <;> simp [Op.factor]

theorem one_le_factors (ops : List (Op Int)) : 1 ≤ (ops.map Op.factor).prod := by
  induction ops with
  | nil => simp
  | cons op ops ih =>
    rw [List.map_cons, List.prod_cons]
    have := one_le_factor op
    nlinarith

theorem weights_nonneg (ops : List (Op Int)) : 0 ≤ (ops.map Op.weight).sum := List.sum_nonneg fun x hx => by
  obtain ⟨o, -, rfl⟩ := List.mem_map.1 hx; exact weight_nonneg o

theorem bump_const {o : Nat} {M X P W : Int} (hM : 1 ≤ M) (hX : 0 ≤ X) (hP : 1 ≤ P) (hW : 1 ≤ W) (y : Nat) :
    bumpS o M (fun _ => P) y ≤ M * P ∧ bumpB o M X (fun _ => P) (fun _ => P * W) y ≤ M * (P * W) + X * P := by
  have h1 : P ≤ M * P := le_mul_of_one_le_left (by omega) hM
  have h0 : 0 ≤ P * W := mul_nonneg (by omega) (by omega)
  have h2 : P * W ≤ M * (P * W) := le_mul_of_one_le_left h0 hM
  have h3 : 0 ≤ X * P := mul_nonneg hX (by omega)
  by_cases h : Desc o y
  · rw [bumpS_desc _ _ h, bumpB_desc _ _ _ _ h]; exact ⟨le_refl _, le_refl _⟩
  · rw [bumpS_not _ _ h, bumpB_not _ _ _ _ h]; constructor <;> omega

/-- One call. -/
theorem execI_inv {n : Nat} {fuel : Nat} (hf : n ≤ fuel) (hF : Fits (4 * n) 0 ((n : Int) - 1) 1) {op : Op Int}
    (hop : Op.InRange n op) {P W : Int} (hP : 1 ≤ P) (hW : 1 ≤ W)
    (hA : (n : Int) * (P * Op.factor op * (W + Op.weight op)) ≤ INT_MAX) {t : Nat → Node Int}
    (I : Inv n t (fun _ => P) fun _ => P * W) :
    ∃ t', execI fuel ⟨n, t⟩ op = .ok ⟨n, t'⟩ ∧
      Inv n t' (fun _ => P * Op.factor op) fun _ => P * Op.factor op * (W + Op.weight op) := by
  cases op with
  | mul lv rv x =>
    obtain ⟨r1, r2, r3⟩ := hop
    simp only [Op.factor, Op.weight, add_zero] at hA ⊢
    have hM : 1 ≤ max 1 |x| := le_max_left _ _
    generalize hm : max 1 |x| = M at hA hM ⊢
    have bc := bump_const (o := 1) hM (le_refl 0) hP hW
    have e0 : M * (P * W) + 0 * P = P * M * W := by ring
    obtain ⟨t', e, I'⟩ := changeI_inv hM (le_refl 0) hA (tag := fun nd => { nd with mul := x, hasMul := true })
      (fun nd h1 h2 h3 h4 => ⟨by simp [fac, hm], by simp [pend, h4], rfl, rfl, rfl⟩)
      (lv := lv) (rv := rv) 0 ((n : Int) - 1) 1 (by omega) fuel t (fun _ => P) (fun _ => P * W)
      (by omega) (le_refl 1) (by omega) (by omega) hF (segOf_one n) (by omega)
      (fun y _ => by rw [← e0]; exact (bc y).2) I
    exact ⟨t', e, I'.mono (fun y _ => by rw [mul_comm P]; exact (bc y).1) (fun y _ => by rw [← e0]; exact (bc y).2)⟩
  | add lv rv x =>
    obtain ⟨r1, r2, r3⟩ := hop
    simp only [Op.factor, Op.weight, mul_one] at hA ⊢
    have bc := bump_const (o := 1) (le_refl 1) (abs_nonneg x) hP hW
    have e0 : 1 * (P * W) + |x| * P = P * (W + |x|) := by ring
    obtain ⟨t', e, I'⟩ := changeI_inv (le_refl 1) (abs_nonneg x) hA (tag := fun nd => { nd with add := x, hasAdd := true })
      (fun nd h1 h2 h3 h4 => ⟨by simp [fac, h3], by simp [pend], rfl, rfl, rfl⟩)
      (lv := lv) (rv := rv) 0 ((n : Int) - 1) 1 (by omega) fuel t (fun _ => P) (fun _ => P * W)
      (by omega) (le_refl 1) (by omega) (by omega) hF (segOf_one n) (by omega)
      (fun y _ => by rw [← e0]; exact (bc y).2) I
    exact ⟨t', e, I'.mono (fun y _ => by have := (bc y).1; rw [one_mul] at this; exact this)
      (fun y _ => by rw [← e0]; exact (bc y).2)⟩
  | max lv rv =>
    simp only [Op.factor, Op.weight, mul_one, add_zero] at hA ⊢
    obtain ⟨⟨t', x, e, I'⟩, -, -⟩ := queries_inv hA hf hF I hop
    exact ⟨t', by rw [execI, e]; rfl, I'⟩
  | min lv rv =>
    simp only [Op.factor, Op.weight, mul_one, add_zero] at hA ⊢
    obtain ⟨-, ⟨t', x, e, I'⟩, -⟩ := queries_inv hA hf hF I hop
    exact ⟨t', by rw [execI, e]; rfl, I'⟩
  | sum lv rv =>
    simp only [Op.factor, Op.weight, mul_one, add_zero] at hA ⊢
    obtain ⟨-, -, ⟨t', x, e, I'⟩⟩ := queries_inv hA hf hF I hop
    exact ⟨t', by rw [execI, e]; rfl, I'⟩

theorem runFromI_inv {n : Nat} {fuel : Nat} (hf : n ≤ fuel) (hF : Fits (4 * n) 0 ((n : Int) - 1) 1) (ops : List (Op Int)) :
    ∀ {P W : Int} {t : Nat → Node Int}, 1 ≤ P → 1 ≤ W → (∀ op ∈ ops, Op.InRange n op) →
    (n : Int) * (P * (ops.map Op.factor).prod * (W + (ops.map Op.weight).sum)) ≤ INT_MAX →
    Inv n t (fun _ => P) (fun _ => P * W) →
    ∃ t', ops.foldlM (execI fuel) ⟨n, t⟩ = .ok ⟨n, t'⟩ ∧ Inv n t' (fun _ => P * (ops.map Op.factor).prod)
      fun _ => P * (ops.map Op.factor).prod * (W + (ops.map Op.weight).sum) := by
  induction ops with
  | nil => intro P W t _ _ _ _ I; exact ⟨t, rfl, by simpa using I⟩
  | cons op ops ih =>
    intro P W t hP hW hr hA I
    have k1 := weights_nonneg ops
    have k2 := one_le_factors ops
    have k3 := one_le_factor op
    have k4 := weight_nonneg op
    simp only [List.map_cons, List.sum_cons, List.prod_cons] at hA ⊢
    have k5 : 1 ≤ P * Op.factor op := one_le_mul_of_one_le_of_one_le hP k3
    have hA1 : (n : Int) * (P * Op.factor op * (W + Op.weight op)) ≤ INT_MAX := by
      refine le_trans (mul_le_mul_of_nonneg_left ?_ (Int.natCast_nonneg n)) hA
      rw [← mul_assoc]
      refine mul_le_mul ?_ (by omega) (by omega) ?_
      · exact le_mul_of_one_le_right (by omega) k2
      · exact mul_nonneg (by omega) (by omega)
    obtain ⟨t1, e1, I1⟩ := execI_inv hf hF (hr op (by simp)) hP hW hA1 I
    have e0 : P * Op.factor op * (ops.map Op.factor).prod * (W + Op.weight op + (ops.map Op.weight).sum) =
        P * (Op.factor op * (ops.map Op.factor).prod) * (W + (Op.weight op + (ops.map Op.weight).sum)) := by ring
    obtain ⟨t2, e2, I2⟩ := ih k5 (show 1 ≤ W + Op.weight op by omega) (fun o ho => hr o (by simp [ho]))
      (by rw [e0]; exact hA) I1
    refine ⟨t2, by rw [List.foldlM_cons, e1, Out.ok_bind, e2], ?_⟩
    exact I2.mono (fun _ _ => by rw [mul_assoc]) (fun _ _ => by rw [e0])

/-- A freshly built tree. -/
theorem inv_of_old {n : Nat} {V : Int} {t : Nat → Node Int} (hV : 1 ≤ V) (I : SegmentTree.Inv n V t fun _ => 0) :
    Inv n t (fun _ => 1) fun _ => 1 * V := by
  obtain ⟨G, g0, g1, g2⟩ := I.ex
  have ch : ∀ x, 1 ≤ x → slope t x = 1 ∧ cst t x = 0 := by
    intro x
    induction x using Nat.strongRecOn with
    | _ x ih =>
      intro hx
      have f1 : fac (t x) = 1 := by simp [fac, I.nomul x]
      have f2 : pend (t x) = 0 := by
        have := pend_le_chain t x; have := pend_nonneg (t x); have := g1 x hx; have := g0 x
        omega
      by_cases h : x ≤ 1
      · rw [slope_le _ h, cst_le _ h]; exact ⟨f1, f2⟩
      · obtain ⟨i1, i2⟩ := ih (x / 2) (by omega) (by omega)
        rw [slope_gt _ h, cst_gt _ h, f1, f2, i1, i2]; simp
  refine ⟨fun _ => V, fun _ => hV, fun x hx => ?_⟩
  obtain ⟨c1, c2⟩ := ch x hx
  rw [c1, c2]
  refine ⟨le_refl _, by simp, fun l r hs hlr => ?_⟩
  have e : G x = 0 := by
    have := g1 x hx; have := g0 x; have := chain_nonneg t x
    omega
  have := g2 x hx l r hs hlr
  unfold NodeSmall at this
  rw [e, add_zero] at this
  exact this

theorem runI_inv {fuel : Nat} {v : List Int} (hv : v ≠ []) (hf : v.length ≤ fuel)
    (hF : Fits (4 * v.length) 0 ((v.length : Int) - 1) 1) (ops : List (Op Int))
    (hr : ∀ op ∈ ops, Op.InRange v.length op) {V : Int} (hV1 : 1 ≤ V) (hV : ∀ x ∈ v, |x| ≤ V)
    (hA : (v.length : Int) * ((ops.map Op.factor).prod * (V + (ops.map Op.weight).sum)) ≤ INT_MAX) :
    ∃ t, runI fuel v ops = .ok ⟨v.length, t⟩ ∧ Inv v.length t (fun _ => (ops.map Op.factor).prod)
      fun _ => (ops.map Op.factor).prod * (V + (ops.map Op.weight).sum) := by
  have k1 := weights_nonneg ops
  have k2 := one_le_factors ops
  have hA0 : (v.length : Int) * V ≤ INT_MAX := by
    refine (mul_le_mul_of_nonneg_left ?_ (Int.natCast_nonneg _)).trans hA
    nlinarith
  obtain ⟨t, e, I0⟩ := SegmentTree.runI_inv hv hf hF [] (by simp) (by simp) hV (by simpa using hA0)
  rw [runI] at e
  have eI : buildI fuel v = .ok ⟨v.length, t⟩ := by
    obtain ⟨s, e1, e2⟩ := Out.bind_eq_ok.1 e
    rw [e1]; exact e2
  obtain ⟨t', e', I'⟩ := runFromI_inv hf hF ops (P := 1) (W := V) (le_refl 1) hV1 hr (by rw [one_mul]; exact hA)
    (inv_of_old hV1 (by simpa using I0))
  rw [one_mul] at I'
  exact ⟨t', by rw [runI, eI, Out.ok_bind, e'], I'⟩

end SegmentTree.Mul
