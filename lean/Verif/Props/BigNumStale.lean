import Verif.Proof.BigNumStale

/-! # C24: what is computed with a number that has been assigned to, and with a copy

`places x` is the number of decimal digits of `x` (none for 0). -/

namespace BigNum
open Cpp Spec

/-- C24, exactly what happens in a sum: after `a` held `d` and `s` has been assigned to it, `a + t` for a number `t` of the
same sign adds the digits of the old number at the places that `t` has and `s` has not. -/
theorem C24_sum_exact (N fuel : Nat) (d s t : Big) (hd : Clean N d) (hs : Clean N s) (ht : Clean N t) (h : s.sign = t.sign)
    (hN : max (places (val s)) (places (val t)) < N) :
    ∃ r, plus N fuel (assign d s) t = .ok r ∧ val r = val s + val t +
      s.sign * (((val d).natAbs % 10 ^ max (places (val s)) (places (val t)) : Int) - ((val d).natAbs % 10 ^ places (val s) : Int)) := by
  rw [← len_places hs.toValid, ← len_places ht.toValid] at *
  obtain ⟨r, e, hr, hsr, hm⟩ := stale_add hd hs ht hN
  have hz : Clean N (zero N) := ⟨⟨rfl, Nat.zero_le _, .inl rfl, fun i hi => absurd hi (Nat.not_lt_zero _),
    fun hi => absurd hi (Nat.lt_irrefl _)⟩, fun _ _ _ => rfl⟩
  obtain ⟨hc, h1, h2, -⟩ := assign_clean hz hr (Nat.zero_le _)
  refine ⟨assign (zero N) r, ?_, ?_⟩
  · unfold plus plusRaw
    rw [if_pos (show (assign d s).sign = t.sign from h), e]
    rfl
  · rw [val_eq, h1, h2, hsr, hm, natAbs_val hd.toValid, val_eq s, val_eq t, ← h]
    show _ = _ + _ + s.sign * (mag d % _ - mag d % _)
    ring

/-- C24, the exact condition: the sum is right exactly if the old number has only zeros at those places. -/
theorem C24_sum_iff_partial (N fuel : Nat) (d s t : Big) (hd : Clean N d) (hs : Clean N s) (ht : Clean N t) (h : s.sign = t.sign)
    (hN : max (places (val s)) (places (val t)) < N) :
    (∃ r, plus N fuel (assign d s) t = .ok r ∧ val r = val s + val t) ↔
      (val d).natAbs % 10 ^ max (places (val s)) (places (val t)) = (val d).natAbs % 10 ^ places (val s) := by
  obtain ⟨r, e, hv⟩ := C24_sum_exact N fuel d s t hd hs ht h hN
  rw [e]
  have hsg : s.sign ≠ 0 := by rcases hs.sign with g | g <;> rw [g] <;> decide
  constructor
  · rintro ⟨r', e', hv'⟩
    obtain rfl := Out.ok.inj e'
    rw [hv'] at hv
    have : s.sign * (((val d).natAbs % 10 ^ max (places (val s)) (places (val t)) : Int) -
      ((val d).natAbs % 10 ^ places (val s) : Int)) = 0 := by linarith
    rcases mul_eq_zero.1 this with g | g
    · exact absurd g hsg
    · have := sub_eq_zero.1 g
      exact_mod_cast this
  · intro g
    refine ⟨r, rfl, ?_⟩
    have g' : ((val d).natAbs % 10 ^ max (places (val s)) (places (val t)) : Int) = ((val d).natAbs % 10 ^ places (val s) : Int) := by
      exact_mod_cast g
    rw [hv, g', sub_self, mul_zero, add_zero]

/-- C24 refuted for every copy: the sum of a copy and a longer number never has a result (it reads cells without a value, or
the recursion has no end), in either order; nor has the difference, unless both are negative. -/
theorem C24_copy_refuted (N fuel : Nat) (s t r : Big) (hs : Valid N s) (ht : Valid N t)
    (hl : places (val s) < places (val t)) :
    plus N fuel (copy s) t ≠ .ok r ∧ plus N fuel t (copy s) ≠ .ok r ∧
    (¬ (s.sign = -1 ∧ t.sign = -1) → minus N fuel (copy s) t ≠ .ok r ∧ minus N fuel t (copy s) ≠ .ok r) := by
  rw [← len_places hs, ← len_places ht] at hl
  have cl : (copy s).len = s.len := rfl
  have cs : (copy s).sign = s.sign := rfl
  have a1 : ∀ r, add N (copy s) t ≠ .ok r := by
    intro r e
    unfold add at e
    obtain ⟨x, e, -⟩ := Out.bind_eq_ok.1 e
    refine foldlM_stuck (a := s.len) (fun q q' e => ?_) _ _ _ (List.mem_range.2 (by rw [cl]; omega)) e
    obtain ⟨v, e, -⟩ := Out.bind_eq_ok.1 e
    exact copy_cell s le_rfl v e
  have a2 : ∀ r, add N t (copy s) ≠ .ok r := by
    intro r e
    unfold add at e
    obtain ⟨x, e, -⟩ := Out.bind_eq_ok.1 e
    refine foldlM_stuck (a := s.len) (fun q q' e => ?_) _ _ _ (List.mem_range.2 (by rw [cl]; omega)) e
    obtain ⟨_, -, e⟩ := Out.bind_eq_ok.1 e
    obtain ⟨v, e, -⟩ := Out.bind_eq_ok.1 e
    exact copy_cell s le_rfl v e
  have c1 : cmp (copy s) t true = .ok (-s.sign) := by
    unfold cmp
    rw [if_neg (by simp), if_pos (by rw [cl]; omega), if_neg (by rw [cl]; omega), cs]
  have c2 : cmp t (copy s) true = .ok t.sign := by
    unfold cmp
    rw [if_neg (by simp), if_pos (by rw [cl]; omega), if_pos (by rw [cl]; omega)]
  -- the copy is not negative, or the other number is not
  have b : ∀ fuel r, ¬ (s.sign = -1 ∧ t.sign = -1) → sub N fuel t (copy s) ≠ .ok r ∧ (s.sign = 1 → sub N fuel (copy s) t ≠ .ok r) := by
    intro fuel
    induction fuel with
    | zero => intro r _; exact ⟨by simp [sub], fun _ => by simp [sub]⟩
    | succ fuel ih =>
      intro r hn
      constructor
      · intro e
        unfold sub at e
        rw [c2, Out.ok_bind] at e
        split at e
        · rename_i g
          have : s.sign = 1 := by rcases hs.sign with q | q <;> rcases ht.sign with q' | q' <;> omega
          obtain ⟨x, e, -⟩ := Out.bind_eq_ok.1 e
          exact (ih x hn).2 this e
        · obtain ⟨x, e, -⟩ := Out.bind_eq_ok.1 e
          refine foldlM_stuck (a := s.len) (fun q q' e => ?_) _ _ _ (List.mem_range.2 (by omega)) e
          obtain ⟨_, -, e⟩ := Out.bind_eq_ok.1 e
          obtain ⟨v, e, -⟩ := Out.bind_eq_ok.1 e
          exact copy_cell s le_rfl v e
      · intro h1 e
        unfold sub at e
        rw [c1, Out.ok_bind, if_pos (by omega)] at e
        obtain ⟨x, e, -⟩ := Out.bind_eq_ok.1 e
        exact (ih x hn).1 e
  refine ⟨fun e => ?_, fun e => ?_, fun hn => ⟨fun e => ?_, fun e => ?_⟩⟩
  · obtain ⟨x, e, -⟩ := Out.bind_eq_ok.1 e
    unfold plusRaw at e
    rw [cs] at e
    split at e
    · exact a1 x e
    · rename_i g
      have hn : ¬ (s.sign = -1 ∧ t.sign = -1) := fun q => g (by rw [q.1, q.2])
      split at e
      · exact (b fuel x hn).1 e
      · exact (b fuel x hn).2 (by rcases hs.sign with q | q <;> omega) e
  · obtain ⟨x, e, -⟩ := Out.bind_eq_ok.1 e
    unfold plusRaw at e
    rw [cs] at e
    split at e
    · exact a2 x e
    · rename_i g
      have hn : ¬ (s.sign = -1 ∧ t.sign = -1) := fun q => g (by rw [q.1, q.2])
      split at e
      · rename_i g2
        exact (b fuel x hn).2 (by rcases hs.sign with q | q <;> rcases ht.sign with q' | q' <;> omega) e
      · exact (b fuel x hn).1 e
  · obtain ⟨x, e, -⟩ := Out.bind_eq_ok.1 e
    unfold minusRaw at e
    rw [cs] at e
    split at e
    · rename_i g
      have h1 : s.sign = 1 := by rcases hs.sign with q | q <;> rcases ht.sign with q' | q' <;> omega
      rw [if_neg (by omega)] at e
      exact (b fuel x hn).2 h1 e
    · exact a1 x e
  · obtain ⟨x, e, -⟩ := Out.bind_eq_ok.1 e
    unfold minusRaw at e
    rw [cs] at e
    split at e
    · rename_i g
      have h1 : t.sign = 1 := by rcases hs.sign with q | q <;> rcases ht.sign with q' | q' <;> omega
      rw [if_neg (by omega)] at e
      exact (b fuel x hn).1 e
    · exact a2 x e

-- a = 12345; a = 67; a + 1000 is 67 + 1000 + 12345 % 10⁴ - 12345 % 10²
example : (do
    let d ← ofInt 8 12345
    let s ← ofInt 8 67
    let t ← ofInt 8 1000
    Out.ok (val (← plus 8 9 (assign d s) t), max (places (val s)) (places (val t)))) = .ok (67 + 1000 + 2345 - 45, 4) := by
  decide +kernel
-- a = 70012; a = 34; a + 56: nothing to add
example : (12345 : Int).natAbs % 10 ^ 2 = (12345 : Int).natAbs % 10 ^ 2 ∧
    (do Out.ok (val (← plus 8 9 (assign (← ofInt 8 70012) (← ofInt 8 34)) (← ofInt 8 56)))) = .ok 90 := by decide +kernel
example : places 5 < places (-100) := by decide +kernel

end BigNum
