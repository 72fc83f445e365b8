import Verif.Spec.BigNumSigned
import Verif.Proof.BigNumSigned
import Verif.Proof.BigNumProg
import Verif.Props.BigNum

/-! # Property C174: which sums, differences and products of signed big numbers are right -/

namespace BigNum
open Cpp Spec

/-- C174: sums, differences and products of all numbers that fit are those of the integers. -/
def C174 : Prop := ∀ (N : Nat) (a b : Big), Fresh N a → Fresh N b → N ≤ 20000000 → a.len + b.len < N →
  ∃ fuel, Gives (plus N fuel a b) (val a + val b) ∧ Gives (minus N fuel a b) (val a - val b) ∧
    Gives (times N a b) (val a * val b)

/-- C174: `a + b` is right exactly if both are negative or the sum is not negative; otherwise it never ends. -/
theorem C174_plus (N fuel : Nat) (a b : Big) (ha : Fresh N a) (hb : Fresh N b) (hl : max a.len b.len < N) :
    (Gives (plus N (fuel + 1) a b) (val a + val b) ↔ (val a < 0 ∧ val b < 0) ∨ 0 ≤ val a + val b) ∧
    (¬ ((val a < 0 ∧ val b < 0) ∨ 0 ≤ val a + val b) → ∀ fuel, plus N fuel a b = .diverge) := by
  have sa := (fresh_sign ha)
  have sb := (fresh_sign hb)
  have wrong : ¬ ((val a < 0 ∧ val b < 0) ∨ 0 ≤ val a + val b) → ∀ fuel, plus N fuel a b = .diverge := by
    intro h fuel
    rw [not_or] at h
    refine C20_plus_diverges_refuted N a b ha.1 hb.1 ?_ (by omega) fuel
    intro e
    rcases ha.1.sign with s | s
    · have g1 : ¬ val a < 0 := fun g => by have := sa.2 g; omega
      have g2 : ¬ val b < 0 := fun g => by have := sb.2 g; omega
      omega
    · exact h.1 ⟨sa.1 s, sb.1 (by omega)⟩
  refine ⟨⟨fun ⟨r, e, _⟩ => ?_, fun h => ?_⟩, wrong⟩
  · by_contra h
    rw [wrong h] at e
    cases e
  · obtain ⟨r, e, -, hv⟩ := C20_plus_partial N fuel a b ha.1 hb.1 hl (by
      rcases h with h | h
      · exact .inl ((sa.2 h.1).trans (sb.2 h.2).symm)
      · exact .inr h)
    exact ⟨r, e, hv⟩

example : (do Out.ok (val (← plus 8 9 (← ofInt 8 5) (← ofInt 8 (-7))))) = .diverge ∧
    (do Out.ok (val (← plus 8 9 (← ofInt 8 (-5)) (← ofInt 8 (-7))))) = .ok (-12) := by decide +kernel

/-- C174: what `a - b` is for different negative numbers: the borrow out of the top digit of the number of smaller
magnitude is lost, and the sign is the wrong one. -/
theorem C174_minus_value (N fuel : Nat) (a b : Big) (ha : Fresh N a) (hb : Fresh N b) (hl : max a.len b.len < N)
    (h1 : val a < 0) (h2 : val b < 0) (h3 : val a ≠ val b) :
    Gives (minus N (fuel + 2) a b)
      (if val a < val b then (val a - val b) % 10 ^ places (val b) else -((val b - val a) % 10 ^ places (val a))) := by
  have sa := (fresh_sign ha).2 h1
  have sb := (fresh_sign hb).2 h2
  have ma : val a = -mag a := by rw [val_eq, sa]; ring
  have mb : val b = -mag b := by rw [val_eq, sb]; ring
  have ka := cmpAbs_spec hb.1.toValid ha.1.toValid
  have kb := cmpAbs_spec ha.1.toValid hb.1.toValid
  rw [← len_places ha.1.toValid, ← len_places hb.1.toValid]
  have hraw : minusRaw N (fuel + 2) a b = sub N (fuel + 2) b a := by
    rw [minusRaw, if_pos (by omega), if_pos (by omega)]
  have asg : ∀ r : Big, val (assign (zero N) r) = val r := by
    intro r
    show r.sign * _ = r.sign * _
    congr 1
    exact horner_congr fun k hk => by
      have hk' : k < r.len := hk
      simp [digit, assign, copyCells, hk']
  split
  · rename_i h
    have hc := ka.1 (show mag b < mag a by omega)
    obtain ⟨r, e, -, hm, hs⟩ := sub_loss (fuel := fuel + 1) hb.1 ha.1 hc (by omega) (by omega)
    refine ⟨assign (zero N) r, by rw [minus, hraw, e]; rfl, ?_⟩
    rw [asg, val_eq, hs, hm, ma, mb]
    rw [show -mag a - -mag b = mag b - mag a by ring, one_mul]
  · rename_i h
    have hc := ka.2.2 (show mag a < mag b by omega)
    have hc' := kb.1 (show mag a < mag b by omega)
    obtain ⟨r, e, -, hm, hs⟩ := sub_loss (fuel := fuel) ha.1 hb.1 hc' (by omega) (by omega)
    refine ⟨assign (zero N) { assign (zero N) r with sign := -1 }, ?_, ?_⟩
    · rw [minus, hraw, show fuel + 2 = (fuel + 1) + 1 from rfl, sub, hc, Out.ok_bind, if_pos (by omega), e]
      rfl
    · rw [asg]
      have : val { assign (zero N) r with sign := -1 } = -mag (assign (zero N) r) := by
        show -1 * _ = _
        rw [show digit { assign (zero N) r with sign := -1 } = digit (assign (zero N) r) from rfl]
        simp [mag]
      have m2 : mag (assign (zero N) r) = mag r := by
        have := asg r
        rw [val_eq, val_eq, show (assign (zero N) r).sign = r.sign from rfl, hs] at this
        omega
      rw [this, m2, hm, ma, mb]
      rw [show -mag b - -mag a = mag a - mag b by ring]

example : (do Out.ok (val (← minus 8 9 (← ofInt 8 (-123)) (← ofInt 8 (-45))))) = .ok 22 ∧
    (-123 - (-45)) % 10 ^ places (-45) = (22 : Int) := by decide +kernel

/-- C174: `a - b` is right exactly if not both are negative, or they are equal. -/
theorem C174_minus (N fuel : Nat) (a b : Big) (ha : Fresh N a) (hb : Fresh N b) (hl : max a.len b.len < N) :
    Gives (minus N (fuel + 2) a b) (val a - val b) ↔ ¬ (val a < 0 ∧ val b < 0) ∨ val a = val b := by
  have sa := (fresh_sign ha)
  have sb := (fresh_sign hb)
  constructor
  · intro ⟨r, e, hv⟩
    by_contra h
    rw [not_or, not_not] at h
    obtain ⟨r', e', hv'⟩ := C174_minus_value N fuel a b ha hb hl h.1.1 h.1.2 h.2
    rw [e] at e'
    cases e'
    have p1 : (0 : Int) ≤ (val a - val b) % 10 ^ places (val b) := Int.emod_nonneg _ (by positivity)
    have p2 : (0 : Int) ≤ (val b - val a) % 10 ^ places (val a) := Int.emod_nonneg _ (by positivity)
    split at hv' <;> omega
  · intro h
    obtain ⟨r, e, -, hv⟩ := C21_minus_partial N fuel a b ha.1 hb.1 hl (by
      rcases h with h | h
      · rcases ha.1.sign with s | s <;> rcases hb.1.sign with t | t
        · exact .inr (.inl ⟨s, t⟩)
        · exact .inl (by omega)
        · exact .inl (by omega)
        · exact absurd ⟨sa.1 s, sb.1 t⟩ h
      · exact .inr (.inr h))
    exact ⟨r, e, hv⟩

/-- C174: `a * b` is right exactly if the right factor is not negative or the left one is 0; otherwise it has the
wrong sign. -/
theorem C174_times (N : Nat) (a b : Big) (ha : Fresh N a) (hb : Fresh N b) (hN : N ≤ 20000000)
    (hl : a.len + b.len ≤ N) :
    (Gives (times N a b) (val a * val b) ↔ 0 ≤ val b ∨ val a = 0) ∧
    (val b < 0 → Gives (times N a b) (-(val a * val b))) := by
  have sb := (fresh_sign hb)
  obtain ⟨r, e, -, h1, h2⟩ := C22_times_partial N a b ha.1.toValid hb.1.toValid hN hl
  refine ⟨⟨fun ⟨r', e', hv⟩ => ?_, fun h => ⟨r, e, ?_⟩⟩, fun h => ⟨r, e, h2 (sb.2 h)⟩⟩
  · rw [e] at e'
    cases e'
    by_contra h
    rw [not_or] at h
    have := h2 (sb.2 (by omega))
    rw [hv] at this
    have z : val a * val b = 0 := by omega
    rcases mul_eq_zero.1 z with g | g
    · exact h.2 g
    · omega
  · rcases h with h | h
    · rcases hb.1.sign with s | s
      · exact h1 s
      · have := sb.1 s; omega
    · rcases hb.1.sign with s | s
      · exact h1 s
      · rw [h2 s, h]; simp

example : (do Out.ok (val (← times 8 (← ofInt 8 (-2)) (← ofInt 8 (-3))))) = .ok (-6) := by decide +kernel

example : ∃ a b, Fresh 8 a ∧ Fresh 8 b ∧ val a = -123 ∧ val b = -45 ∧ max a.len b.len < 8 := by
  obtain ⟨a, -, ca, pa, va, -⟩ := C19_ofInt_partial 8 (-123) (by decide) (by decide +kernel)
  obtain ⟨b, -, cb, pb, vb, -⟩ := C19_ofInt_partial 8 (-45) (by decide) (by decide +kernel)
  have ha : Fresh 8 a := ⟨ca, pa⟩
  have hb : Fresh 8 b := ⟨cb, pb⟩
  refine ⟨a, b, ha, hb, va, vb, ?_⟩
  rw [len_places ha.1.toValid, len_places hb.1.toValid, va, vb]
  decide +kernel

/-- C174 refuted: `5 + (-7)` never ends. -/
theorem C174_refuted : ¬ C174 := by
  intro h
  obtain ⟨a, -, ca, pa, va, -⟩ := C19_ofInt_partial 8 5 (by decide) (by decide +kernel)
  obtain ⟨b, -, cb, pb, vb, -⟩ := C19_ofInt_partial 8 (-7) (by decide) (by decide +kernel)
  have ha : Fresh 8 a := ⟨ca, pa⟩
  have hb : Fresh 8 b := ⟨cb, pb⟩
  have la : a.len = 1 := by rw [len_places ha.1.toValid, va]; decide +kernel
  have lb : b.len = 1 := by rw [len_places hb.1.toValid, vb]; decide +kernel
  obtain ⟨fuel, ⟨r, e, -⟩, -⟩ := h 8 a b ha hb (by decide) (by omega)
  rw [(C174_plus 8 0 a b ha hb (by omega)).2 (by omega)] at e
  cases e

/-- C174 refuted for printing: `(-5) - (-15)` prints as a lone `-`. -/
theorem C174_text_refuted : (do toString (← minus 8 9 (← ofInt 8 (-5)) (← ofInt 8 (-15)))) = .ok (bytes ['-']) := by
  decide +kernel

end BigNum
