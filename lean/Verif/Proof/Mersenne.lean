import Verif.Model.Mersenne
import Verif.Spec.Random
import Verif.Proof.RandomDblNext
import Verif.Model.RandomObj

/-! # Lemmas about `std::mt19937_64` -/

namespace Rand.Mersenne
open Cpp Spec

/-! ### Steps that lose nothing -/

theorem shr_inj {k : Nat} (hk : 0 < k) (d x y : W) (h : x ^^^ ((x >>> k) &&& d) = y ^^^ ((y >>> k) &&& d)) : x = y := by
  have key : ∀ n i, 64 - i ≤ n → x.getLsbD i = y.getLsbD i := by
    intro n
    induction n with
    | zero => intro i hi; rw [BitVec.getLsbD_of_ge _ _ (by omega), BitVec.getLsbD_of_ge _ _ (by omega)]
    | succ n ih =>
      intro i hi
      have := congrArg (fun z => z.getLsbD i) h
      simp only [BitVec.getLsbD_xor, BitVec.getLsbD_and, BitVec.getLsbD_ushiftRight] at this
      rw [ih (k + i) (by omega)] at this
      revert this
      generalize x.getLsbD i = a
      generalize y.getLsbD i = b
      generalize (y.getLsbD (k + i) && d.getLsbD i) = c
      revert a b c
      decide
  exact BitVec.eq_of_getLsbD_eq fun i _ => key 64 i (by omega)

theorem shl_inj {k : Nat} (hk : 0 < k) (d x y : W) (h : x ^^^ ((x <<< k) &&& d) = y ^^^ ((y <<< k) &&& d)) : x = y := by
  have key : ∀ n i, i < n → x.getLsbD i = y.getLsbD i := by
    intro n
    induction n with
    | zero => intro i hi; omega
    | succ n ih =>
      intro i hi
      have := congrArg (fun z => z.getLsbD i) h
      simp only [BitVec.getLsbD_xor, BitVec.getLsbD_and, BitVec.getLsbD_shiftLeft] at this
      have e : (!decide (i < k) && x.getLsbD (i - k)) = (!decide (i < k) && y.getLsbD (i - k)) := by
        by_cases hik : i < k
        · simp [hik]
        · rw [ih (i - k) (by omega)]
      simp only [Bool.and_assoc] at this e ⊢
      rw [← Bool.and_assoc (!decide (i < k)) (x.getLsbD (i - k)), e] at this
      revert this
      generalize x.getLsbD i = a
      generalize y.getLsbD i = b
      rw [← Bool.and_assoc (!decide (i < k)) (y.getLsbD (i - k))]
      generalize (decide (i < 64) && ((!decide (i < k) && y.getLsbD (i - k)) && d.getLsbD i)) = c
      revert a b c
      decide
  exact BitVec.eq_of_getLsbD_eq fun i hi => key 64 i hi

theorem shr_inj' {k : Nat} (hk : 0 < k) (x y : W) (h : x ^^^ (x >>> k) = y ^^^ (y >>> k)) : x = y := by
  refine shr_inj hk (BitVec.allOnes 64) x y ?_
  rw [BitVec.and_allOnes, BitVec.and_allOnes]
  exact h

theorem temper_inj {x y : W} (h : temper x = temper y) : x = y := by
  unfold temper at h
  exact shr_inj (by decide) _ _ _ (shl_inj (by decide) _ _ _ (shl_inj (by decide) _ _ _ (shr_inj' (by decide) _ _ h)))

theorem temper_zero : temper 0#64 = 0#64 := by decide +kernel

theorem twist_zero : twist 0#64 = 0#64 := by decide +kernel

theorem twist_inj {x y : W} (h : twist x = twist y) : x = y := by
  have h63 := congrArg (fun z => z.getLsbD 63) h
  have ha : (0xb5026f5aa96619e9#64).getLsbD 63 = true := by decide
  have top : ∀ z : W, (z >>> 1).getLsbD 63 = false := by
    intro z
    rw [BitVec.getLsbD_ushiftRight]
    exact BitVec.getLsbD_of_ge _ _ (by decide)
  have par : ∀ z : W, (twist z).getLsbD 63 = z.getLsbD 0 := by
    intro z
    unfold twist
    rw [BitVec.getLsbD_xor, top]
    by_cases hz : z.getLsbD 0 = true
    · rw [if_pos hz, ha, hz]; rfl
    · rw [if_neg hz]
      simp only [Bool.not_eq_true] at hz
      rw [hz]
      rfl
  simp only [par] at h63
  unfold twist at h
  rw [h63] at h
  have hs : x >>> 1 = y >>> 1 := by
    have := congrArg (fun z => z ^^^ (if y.getLsbD 0 = true then 0xb5026f5aa96619e9#64 else 0#64)) h
    simpa [BitVec.xor_assoc] using this
  refine BitVec.eq_of_getLsbD_eq fun i hi => ?_
  rcases i with _ | i
  · exact h63
  · have := congrArg (fun z => z.getLsbD i) hs
    simp only [BitVec.getLsbD_ushiftRight] at this
    rw [Nat.add_comm]
    exact this

theorem join_zero : join 0#64 0#64 = 0#64 := by decide +kernel

theorem maskHi_bit (i : Nat) (hi : i < 64) : (0xFFFFFFFF80000000#64).getLsbD i = decide (31 ≤ i) := by
  revert i; decide

theorem maskLo_bit (i : Nat) (hi : i < 64) : (0x7FFFFFFF#64).getLsbD i = decide (i < 31) := by
  revert i; decide

theorem join_bit (x y : W) (i : Nat) (hi : i < 64) : (join x y).getLsbD i = if 31 ≤ i then x.getLsbD i else y.getLsbD i := by
  unfold join
  rw [BitVec.getLsbD_or, BitVec.getLsbD_and, BitVec.getLsbD_and, maskHi_bit i hi, maskLo_bit i hi]
  by_cases h : 31 ≤ i
  · rw [if_pos h, decide_eq_true h, decide_eq_false (by omega)]; simp
  · rw [if_neg h, decide_eq_false h, decide_eq_true (by omega)]; simp

/-- The two halves of a word. -/
theorem join_join {x x' y y' z z' : W} (h1 : join x z = join x' z') (h2 : join y x = join y' x') : x = x' := by
  refine BitVec.eq_of_getLsbD_eq fun i hi => ?_
  by_cases h : 31 ≤ i
  · have := congrArg (fun z => z.getLsbD i) h1
    simp only [join_bit _ _ i hi, if_pos h] at this
    exact this
  · have := congrArg (fun z => z.getLsbD i) h2
    simp only [join_bit _ _ i hi, if_neg h] at this
    exact this

theorem seedNext_inj (i : Nat) {x y : W} (h : seedNext i x = seedNext i y) : x = y := by
  unfold seedNext at h
  have h1 : 6364136223846793005#64 * (x ^^^ (x >>> 62)) = 6364136223846793005#64 * (y ^^^ (y >>> 62)) := by
    have := congrArg (fun z => z - BitVec.ofNat 64 i) h
    simpa [BitVec.add_sub_cancel] using this
  have hinv : 13877824140714322085#64 * 6364136223846793005#64 = 1#64 := by decide +kernel
  have h2 : x ^^^ (x >>> 62) = y ^^^ (y >>> 62) := by
    have := congrArg (fun z => 13877824140714322085#64 * z) h1
    simp only [← BitVec.mul_assoc, hinv, BitVec.one_mul] at this
    exact this
  exact shr_inj' (by decide) _ _ h2

/-! ### The sequence of words -/

/-- `x k` is the word number `k`, and `R` the recurrence -/
def Rec (x : Nat → W) : Prop := ∀ k, x (k + 312) = x (k + 156) ^^^ twist (join (x k) (x (k + 1)))

theorem rec_zero : Rec fun _ => 0#64 := by
  intro k
  simp only [join_zero, twist_zero]
  rfl

/-- 312 words determine all earlier ones, but for the oldest. -/
theorem rec_back {x y : Nat → W} (hx : Rec x) (hy : Rec y) : ∀ N : Nat, (∀ i < 312, x (N + 1 + i) = y (N + 1 + i)) →
    ∀ i < 312, x (1 + i) = y (1 + i) := by
  intro N
  induction N with
  | zero => intro h i hi; simpa [Nat.add_comm] using h i hi
  | succ N ih =>
    intro h
    apply ih
    have w : ∀ j, N + 2 ≤ j → j < N + 314 → x j = y j := by
      intro j h1 h2
      have := h (j - (N + 1 + 1)) (by omega)
      rw [show N + 1 + 1 + (j - (N + 1 + 1)) = j by omega] at this
      exact this
    have e1 : join (x (N + 1)) (x (N + 2)) = join (y (N + 1)) (y (N + 2)) := by
      apply twist_inj
      have a := hx (N + 1)
      have b := hy (N + 1)
      rw [w (N + 1 + 312) (by omega) (by omega), w (N + 1 + 156) (by omega) (by omega), b] at a
      exact (BitVec.xor_right_inj _).1 a.symm
    have e2 : join (x N) (x (N + 1)) = join (y N) (y (N + 1)) := by
      apply twist_inj
      have a := hx N
      have b := hy N
      rw [w (N + 312) (by omega) (by omega), w (N + 156) (by omega) (by omega), b] at a
      exact (BitVec.xor_right_inj _).1 a.symm
    have e : x (N + 1) = y (N + 1) := join_join e1 e2
    intro i hi
    rcases i with _ | i
    · exact e
    · exact w _ (by omega) (by omega)

/-! ### The engine -/

/-- the words of a state and all that follow -/
def word (s : List W) (k : Nat) : W := (step^[k] s).getD 0 0

theorem step_length {s : List W} (h : s.length = 312) : (step s).length = 312 := by
  simp [step, h]

theorem iter_length {s : List W} (h : s.length = 312) (k : Nat) : (step^[k] s).length = 312 := by
  induction k generalizing s with
  | zero => exact h
  | succ k ih => rw [Function.iterate_succ_apply]; exact ih (step_length h)

theorem step_getD {s : List W} (h : s.length = 312) (i : Nat) (hi : i < 311) : (step s).getD i 0 = s.getD (i + 1) 0 := by
  unfold step
  simp only [List.getD_eq_getElem?_getD]
  rw [List.getElem?_append_left (by simp [h]; omega), List.getElem?_tail]

theorem word_getD {s : List W} (h : s.length = 312) : ∀ i k : Nat, i < 312 → (step^[k] s).getD i 0 = word s (k + i) := by
  intro i
  induction i with
  | zero => intro k _; rfl
  | succ i ih =>
    intro k hi
    rw [← step_getD (iter_length h k) i (by omega), ← Function.iterate_succ_apply' step, ih (k + 1) (by omega)]
    congr 1; omega

theorem word_next {s : List W} (h : s.length = 312) (k : Nat) : word s (k + 312) = next (step^[k] s) := by
  have := word_getD h 311 (k + 1) (by decide)
  rw [show k + 312 = k + 1 + 311 by omega, ← this, Function.iterate_succ_apply']
  have hl := iter_length h k
  generalize step^[k] s = t at hl
  unfold step
  simp only [List.getD_eq_getElem?_getD]
  rw [List.getElem?_append_right (by simp [hl])]
  simp [hl]

theorem word_rec {s : List W} (h : s.length = 312) : Rec (word s) := by
  intro k
  rw [word_next h, next, word_getD h 156 k (by decide), word_getD h 0 k (by decide), word_getD h 1 k (by decide)]
  rfl

theorem stateAt_iter (s : List W) (k : Nat) : stateAt engine s k = step^[k] s := rfl

theorem outAt_word {s : List W} (h : s.length = 312) (k : Nat) : outAt engine s k = (temper (word s (k + 312))).toNat := by
  rw [word_next h]
  rfl

theorem seedFrom_length (k i : Nat) (x : W) : (seedFrom k i x).length = k := by
  induction k generalizing i x with
  | zero => rfl
  | succ k ih => simp [seedFrom, ih]

theorem seed_length (v : W) : (seed v).length = 312 := seedFrom_length _ _ _

theorem seed_word1 (v : W) : word (seed v) 1 = seedNext 1 v := by
  have := word_getD (seed_length v) 1 0 (by decide)
  rw [Nat.zero_add] at this
  rw [← this]
  rfl

theorem seed_word2 (v : W) : word (seed v) 2 = seedNext 2 (seedNext 1 v) := by
  have := word_getD (seed_length v) 2 0 (by decide)
  rw [Nat.zero_add] at this
  rw [← this]
  rfl

/-- Different seeds: among 312 consecutive outputs one differs. -/
theorem seeds_out {u v : W} (n : Nat)
    (h : ∀ k, n ≤ k → k < n + 312 → outAt engine (seed u) k = outAt engine (seed v) k) : u = v := by
  have h1 := rec_back (word_rec (seed_length u)) (word_rec (seed_length v)) (n + 311) (fun i hi => by
    have := h (n + i) (by omega) (by omega)
    rw [outAt_word (seed_length u), outAt_word (seed_length v)] at this
    rw [show n + 311 + 1 + i = n + i + 312 by omega]
    exact temper_inj (BitVec.eq_of_toNat_eq this)) 0 (by decide)
  rw [seed_word1, seed_word1] at h1
  exact seedNext_inj _ h1

/-- The engine never gets stuck at 0. -/
theorem not_all_zero (v : W) (n : Nat) : ∃ k, n ≤ k ∧ k < n + 312 ∧ outAt engine (seed v) k ≠ 0 := by
  by_contra hc
  have hz : ∀ i < 312, word (seed v) (n + 312 + i) = 0#64 := by
    intro i hi
    by_contra hne
    apply hc
    refine ⟨n + i, by omega, by omega, ?_⟩
    rw [outAt_word (seed_length v)]
    intro h0
    apply hne
    rw [show n + 312 + i = n + i + 312 by omega]
    apply temper_inj
    rw [temper_zero]
    exact BitVec.eq_of_toNat_eq h0
  have := rec_back (word_rec (seed_length v)) rec_zero (n + 311) (fun i hi => by
    rw [show n + 311 + 1 + i = n + 312 + i by omega]; exact hz i hi)
  have a := this 0 (by decide)
  have b := this 1 (by decide)
  rw [seed_word1] at a
  rw [seed_word2, a] at b
  exact absurd b (by decide +kernel)

/-! ### What a program sees -/

theorem uint64_inj {s s' : Int} (h1 : IsInt s) (h2 : IsInt s') (h : uint64 s = uint64 s') : s = s' := by
  unfold IsInt INT_MIN INT_MAX at h1 h2
  unfold uint64 at h
  have := congrArg Fin.val h
  simp only [Fin.ofNat] at this
  omega

/-- Numbers which differ by 2^30 or more differ as doubles. -/
theorem unif_ne {g g' : Nat} (hg : g' < 2 ^ 64) (h : g + 2 ^ 30 ≤ g') : unif g ≠ unif g' := by
  have ex : ∀ m : Nat, m ≤ 2 ^ 53 → unif (m * 2 ^ 11) = (m : ℚ) * 2 ^ 11 / 2 ^ 64 := by
    intro m hm
    unfold unif
    have := fl_exact (m := (m : Int)) (k := 11) (by rw [abs_of_nonneg (by positivity)]; exact_mod_cast hm) (by decide)
    norm_num at this ⊢
    rw [this]
  have h1 : unif g ≤ unif ((g / 2 ^ 11 + 1) * 2 ^ 11) := unif_mono (by omega)
  have h2 : unif ((g / 2 ^ 11 + 2) * 2 ^ 11) ≤ unif g' := unif_mono (by omega)
  rw [ex _ (by omega)] at h1
  rw [ex _ (by omega)] at h2
  have : ((g / 2 ^ 11 + 1 : Nat) : ℚ) * 2 ^ 11 / 2 ^ 64 < ((g / 2 ^ 11 + 2 : Nat) : ℚ) * 2 ^ 11 / 2 ^ 64 := by
    push_cast
    have : ((2 : ℚ) ^ 11) / 2 ^ 64 > 0 := by positivity
    rw [mul_div_assoc, mul_div_assoc]
    nlinarith
  intro he
  rw [he] at h1
  linarith

theorem unif_zero {g : Nat} (h : unif g = 0) : g = 0 := by
  by_contra hg
  have h1 : unif 1 ≤ unif g := unif_mono (by omega)
  have h2 : unif 1 = 1 / 2 ^ 64 := by decide +kernel
  rw [h, h2] at h1
  norm_num at h1

theorem stateAt_succ {E : Engine} (s : E.σ) (k : Nat) : stateAt E s (k + 1) = stateAt E (E.draw s).2 k :=
  Function.iterate_succ_apply _ _ _

theorem outAt_succ {E : Engine} (s : E.σ) (k : Nat) : outAt E s (k + 1) = outAt E (E.draw s).2 k := by
  unfold outAt; rw [stateAt_succ]

theorem range_map_succ {α : Type} (f : Nat → α) (m : Nat) :
    (List.range (m + 1)).map f = f 0 :: (List.range m).map (fun k => f (k + 1)) := by
  rw [List.range_succ_eq_map, List.map_cons, List.map_map]; rfl

theorem ints_run {E : Engine} (m : Nat) (s : E.σ) : runMethods (D := Dbl) (List.replicate m (.int1 (2 ^ 30))) s =
    .ok ((List.range m).map (fun k => Ret.int ((outAt E s k % 2 ^ 30 : Nat) : Int)), stateAt E s m) := by
  induction m generalizing s with
  | zero => rfl
  | succ m ih =>
    rw [List.replicate_succ, runMethods, bind_run, Call.method, bind_run, nextInt1_run _ _ (by decide) (by decide)]
    simp only [Out.bind, pure_run]
    rw [bind_run]
    have := ih (aft s)
    rw [this]
    simp only [Out.bind, pure_run]
    rw [range_map_succ, stateAt_succ]
    simp only [outAt_succ]
    rfl

theorem doubles_run {E : Engine} (m : Nat) (s : E.σ) : runMethods (D := Dbl) (List.replicate m .double0) s =
    .ok ((List.range m).map (fun k => Ret.double (.fin (unif (outAt E s k)))), stateAt E s m) := by
  induction m generalizing s with
  | zero => rfl
  | succ m ih =>
    rw [List.replicate_succ, runMethods, bind_run, Call.method, bind_run, Err.nextDouble0_dbl]
    simp only [Out.bind, pure_run]
    rw [bind_run]
    have := ih (E.draw s).2
    rw [this]
    simp only [Out.bind, pure_run]
    rw [range_map_succ, stateAt_succ]
    simp only [outAt_succ]
    rfl

theorem map_range_eq {α : Type} {f g : Nat → α} {m : Nat} (h : (List.range m).map f = (List.range m).map g) (k : Nat)
    (hk : k < m) : f k = g k := by
  have := congrArg (fun l => l[k]?) h
  simpa [hk] using this

theorem outAt_lt {E : Engine} (s : E.σ) (k : Nat) : outAt E s k < 2 ^ 64 := (E.draw (stateAt E s k)).1.isLt

/-- the values of 312 calls of `nextInt(1 << 30)` and of `nextDouble()` determine the outputs of the engine -/
theorem outs_of_values {E : Engine} {s s' : E.σ} {rs rs' ds ds' : List (Ret Dbl)} {a a' b b' : E.σ}
    (h1 : runMethods (D := Dbl) (List.replicate 312 (.int1 (2 ^ 30))) s = .ok (rs, a))
    (h2 : runMethods (D := Dbl) (List.replicate 312 (.int1 (2 ^ 30))) s' = .ok (rs', a'))
    (h3 : runMethods (D := Dbl) (List.replicate 312 .double0) s = .ok (ds, b))
    (h4 : runMethods (D := Dbl) (List.replicate 312 .double0) s' = .ok (ds', b'))
    (h : rs = rs' ∧ ds = ds') : ∀ k < 312, outAt E s k = outAt E s' k := by
  rw [ints_run] at h1 h2
  rw [doubles_run] at h3 h4
  cases h1; cases h2; cases h3; cases h4
  intro k hk
  have e1 := map_range_eq h.1 k hk
  have e2 := map_range_eq h.2 k hk
  simp only [Ret.int.injEq] at e1
  simp only [Ret.double.injEq, Dbl.fin.injEq] at e2
  by_contra hne
  have l1 := outAt_lt s k
  have l2 := outAt_lt s' k
  rcases Nat.lt_or_gt_of_ne hne with hlt | hlt
  · exact unif_ne l2 (by omega) e2
  · exact unif_ne l1 (by omega) e2.symm

theorem bmod_inj {t t' : Int} (h : t % 2 ^ 32 ≠ t' % 2 ^ 32) : t.bmod (2 ^ 32) ≠ t'.bmod (2 ^ 32) := by
  intro h5
  have h6 := Int.bmod_emod (x := t) (m := 2 ^ 32)
  have h7 := Int.bmod_emod (x := t') (m := 2 ^ 32)
  rw [h5] at h6
  norm_num at *
  omega

theorem bmod_isInt (t : Int) : IsInt (t.bmod (2 ^ 32)) := by
  have h1 := Int.le_bmod (x := t) (m := 2 ^ 32) (by norm_num)
  have h2 := Int.bmod_lt (x := t) (m := 2 ^ 32) (by norm_num)
  unfold IsInt INT_MIN INT_MAX
  norm_num at *
  omega

end Rand.Mersenne
