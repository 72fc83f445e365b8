import Verif.Proof.BigNum

namespace BigNum
open Cpp Spec

/-- The characters of the digits `n-1, ..., 0`. -/
def text (c : Nat → Int) : Nat → Str
  | 0 => []
  | n + 1 => UInt8.ofNat (48 + (c n).toNat) :: text c n

/-- The number denoted by a digit string. -/
def num : Str → Nat
  | [] => 0
  | d :: s => (d.toNat - 48) * 10 ^ s.length + num s

theorem text_length (c : Nat → Int) (n : Nat) : (text c n).length = n := by
  induction n with
  | zero => rfl
  | succ n ih => simp [text, ih]

theorem text_congr {c d : Nat → Int} {n : Nat} (h : ∀ k, k < n → c k = d k) : text c n = text d n := by
  induction n with
  | zero => rfl
  | succ n ih => simp only [text]; rw [ih (fun k hk => h k (by omega)), h n (by omega)]

theorem digit_toNat {d : Nat} (h : d ≤ 9) : (UInt8.ofNat (48 + d)).toNat = 48 + d := by
  rw [UInt8.toNat_ofNat']; omega

theorem horner_text {c : Nat → Int} {n : Nat} (h : ∀ k, k < n → 0 ≤ c k ∧ c k ≤ 9) :
    horner c n = num (text c n) := by
  induction n with
  | zero => rfl
  | succ n ih =>
    have hn := h n (by omega)
    simp only [horner, text, num, text_length]
    rw [ih (fun k hk => h k (by omega)), digit_toNat (by omega)]
    push_cast
    rw [show ((48 + (c n).toNat - 48 : Nat) : Int) = c n by omega]
    ring

theorem num_append (s t : Str) : num (s ++ t) = num s * 10 ^ t.length + num t := by
  induction s with
  | nil => simp [num]
  | cons d s ih =>
    simp only [List.cons_append, num, ih, List.length_append, pow_add]; ring

theorem decimalDigits_zero : decimalDigits 0 = [] := by unfold decimalDigits; rfl
theorem decimalDigits_pos {n : Nat} (h : n ≠ 0) :
    decimalDigits n = decimalDigits (n / 10) ++ [UInt8.ofNat (48 + n % 10)] := by
  rw [decimalDigits, if_neg h]

theorem num_decimalDigits (n : Nat) : num (decimalDigits n) = n := by
  induction n using Nat.strongRecOn with
  | _ n ih =>
    by_cases h : n = 0
    · subst h; rw [decimalDigits_zero]; rfl
    · rw [decimalDigits_pos h, num_append, ih _ (by omega)]
      simp only [num, digit_toNat (show n % 10 ≤ 9 by omega), List.length_cons, List.length_nil]
      omega

theorem isDigit_ofNat {d : Nat} (h : d ≤ 9) : IsDigit (UInt8.ofNat (48 + d)) := by
  unfold IsDigit
  rw [UInt8.le_iff_toNat_le, UInt8.le_iff_toNat_le, digit_toNat h]
  show 48 ≤ 48 + d ∧ 48 + d ≤ 57
  omega

theorem decimalDigits_isDigit (n : Nat) : ∀ c ∈ decimalDigits n, IsDigit c := by
  induction n using Nat.strongRecOn with
  | _ n ih =>
    by_cases h : n = 0
    · subst h; rw [decimalDigits_zero]; simp
    · rw [decimalDigits_pos h]
      intro c hc
      rcases List.mem_append.mp hc with hc | hc
      · exact ih _ (by omega) c hc
      · rw [List.mem_singleton.mp hc]; exact isDigit_ofNat (by omega)

theorem decimalDigits_ne_nil {n : Nat} (h : n ≠ 0) : decimalDigits n ≠ [] := by
  rw [decimalDigits_pos h]; simp

/-- no leading zero -/
theorem decimalDigits_head (n : Nat) (c : Byte) (s : Str) (h : decimalDigits n = c :: s) :
    c.toNat ≠ 48 := by
  induction n using Nat.strongRecOn generalizing c s with
  | _ n ih =>
    by_cases h0 : n = 0
    · subst h0; rw [decimalDigits_zero] at h; cases h
    · rw [decimalDigits_pos h0] at h
      cases hd : decimalDigits (n / 10) with
      | nil =>
        rw [hd] at h
        simp only [List.nil_append, List.cons.injEq] at h
        rw [← h.1, digit_toNat (by omega)]
        by_cases h10 : n / 10 = 0
        · omega
        · exact absurd hd (decimalDigits_ne_nil h10)
      | cons c' s' =>
        rw [hd] at h
        simp only [List.cons_append, List.cons.injEq] at h
        rw [← h.1]
        exact ih (n / 10) (by omega) c' s' hd

theorem decimalDigits_length_le {n k : Nat} (h : n < 10 ^ k) : (decimalDigits n).length ≤ k := by
  induction n using Nat.strongRecOn generalizing k with
  | _ n ih =>
    by_cases h0 : n = 0
    · subst h0; rw [decimalDigits_zero]; simp
    · rw [decimalDigits_pos h0]
      cases k with
      | zero => simp at h; omega
      | succ k =>
        have := ih (n / 10) (by omega) (k := k) (by rw [pow_succ] at h; omega)
        simp only [List.length_append, List.length_cons, List.length_nil]; omega

/-! ### construction -/

/-- State while a number is being built from its least significant digit on. -/
structure Build (N : Nat) (b : Big) (c : Nat → Int) : Prop where
  rep : Rep N b.elem c
  len : b.len ≤ N
  digits : ∀ k, k < b.len → 0 ≤ c k ∧ c k ≤ 9
  pad : ∀ k, b.len ≤ k → k < N → c k = 0

theorem build_push {N : Nat} {b : Big} {c : Nat → Int} (h : Build N b c) (hl : b.len < N) {d : Int}
    (hd : 0 ≤ d ∧ d ≤ 9) :
    ∃ e, b.elem.set b.len d = .ok e ∧
      Build N { b with elem := e, len := b.len + 1 } (Function.update c b.len d) ∧
      text (Function.update c b.len d) (b.len + 1) = UInt8.ofNat (48 + d.toNat) :: text c b.len := by
  obtain ⟨e, he, hr⟩ := rep_set h.rep hl d
  refine ⟨e, he, ⟨hr, hl, ?_, ?_⟩, ?_⟩
  · intro k hk
    by_cases ek : k = b.len
    · subst ek; rw [Function.update_self]; exact hd
    · rw [Function.update_of_ne ek]; exact h.digits k (by simp only at hk; omega)
  · intro k hk hk'
    simp only at hk
    rw [Function.update_of_ne (by omega)]; exact h.pad k (by omega) hk'
  · simp only [text, Function.update_self]
    rw [text_congr fun k hk => Function.update_of_ne (by omega) _ _]

theorem ofIntLoop_spec {N : Nat} (i : Nat) (b : Big) (c : Nat → Int) (h : Build N b c)
    (hl : b.len + (decimalDigits i).length ≤ N) :
    ∃ r c', ofIntLoop b i = .ok r ∧ Build N r c' ∧ r.sign = b.sign ∧
      text c' r.len = decimalDigits i ++ text c b.len := by
  induction i using Nat.strongRecOn generalizing b c with
  | _ i ih =>
    unfold ofIntLoop
    by_cases h0 : i = 0
    · subst h0
      exact ⟨b, c, rfl, h, rfl, by rw [decimalDigits_zero]; rfl⟩
    · rw [if_neg h0]
      rw [decimalDigits_pos h0] at hl ⊢
      simp only [List.length_append, List.length_cons, List.length_nil] at hl
      obtain ⟨e, he, hb, ht⟩ := build_push h (d := ((i % 10 : Nat) : Int)) (by omega) (by omega)
      rw [he, Out.ok_bind]
      obtain ⟨r, c', e1, hb1, hs, ht1⟩ := ih (i / 10) (by omega) _ _ hb (by simp only; omega)
      refine ⟨r, c', e1, hb1, hs, ?_⟩
      rw [ht1, ht, Int.toNat_natCast, List.append_assoc]
      rfl

/-- too many digits write past the array -/
theorem ofIntLoop_ub {N : Nat} (i : Nat) (b : Big) (c : Nat → Int) (h : Build N b c)
    (hl : N < b.len + (decimalDigits i).length) : ofIntLoop b i = .ub := by
  induction i using Nat.strongRecOn generalizing b c with
  | _ i ih =>
    unfold ofIntLoop
    by_cases h0 : i = 0
    · subst h0; rw [decimalDigits_zero] at hl
      have := h.len
      simp only [List.length_nil] at hl; omega
    · rw [if_neg h0]
      rw [decimalDigits_pos h0] at hl
      simp only [List.length_append, List.length_cons, List.length_nil] at hl
      by_cases hb : b.len < N
      · obtain ⟨e, he, hb, ht⟩ := build_push h (d := ((i % 10 : Nat) : Int)) hb (by omega)
        rw [he, Out.ok_bind]
        exact ih (i / 10) (by omega) _ _ hb (by simp only; omega)
      · unfold Arr.set
        rw [if_neg (by rw [h.rep.1]; omega)]
        rfl

theorem stoi1_digit {c : Byte} (h : IsDigit c) :
    stoi1 c = .ok ((c.toNat : Int) - 48) ∧ 48 ≤ c.toNat ∧ c.toNat ≤ 57 := by
  refine ⟨by unfold stoi1; exact if_pos h, ?_⟩
  have h1 : (byte '0').toNat ≤ c.toNat := UInt8.le_iff_toNat_le.mp h.1
  have h2 : c.toNat ≤ (byte '9').toNat := UInt8.le_iff_toNat_le.mp h.2
  have e1 : (byte '0').toNat = 48 := by decide
  have e2 : (byte '9').toNat = 57 := by decide
  omega

theorem ofStringLoop_spec {N : Nat} (cs : Str) (b : Big) (c : Nat → Int) (h : Build N b c)
    (hl : b.len + cs.length ≤ N) (hd : ∀ x ∈ cs, IsDigit x) :
    ∃ r c', ofStringLoop b cs = .ok r ∧ Build N r c' ∧ r.sign = b.sign ∧
      text c' r.len = cs.reverse ++ text c b.len := by
  induction cs generalizing b c with
  | nil => exact ⟨b, c, rfl, h, rfl, by simp⟩
  | cons x cs ih =>
    simp only [List.length_cons] at hl
    obtain ⟨hx, h1, h2⟩ := stoi1_digit (hd x (by simp))
    obtain ⟨e, he, hb, ht⟩ := build_push h (d := (x.toNat : Int) - 48) (by omega) (by omega)
    unfold ofStringLoop
    rw [hx, Out.ok_bind, he, Out.ok_bind]
    obtain ⟨r, c', e1, hb1, hs, ht1⟩ := ih _ _ hb (by simp only; omega) (fun y hy => hd y (by simp [hy]))
    refine ⟨r, c', e1, hb1, hs, ?_⟩
    rw [ht1, ht]
    have : UInt8.ofNat (48 + ((x.toNat : Int) - 48).toNat) = x := by
      rw [show 48 + ((x.toNat : Int) - 48).toNat = x.toNat by omega]; simp
    rw [this]; simp

theorem build_zero (N : Nat) (s : Int) : Build N { zero N with sign := s } (fun _ => 0) :=
  ⟨rep_fill N, Nat.zero_le _, fun _ hk => absurd hk (Nat.not_lt_zero _), fun _ _ _ => rfl⟩

theorem build_digit {N : Nat} {b : Big} {c : Nat → Int} (h : Build N b c) {k : Nat} (hk : k < N) :
    digit b k = c k := by simp [digit, h.rep.2 k hk]

theorem build_mag {N : Nat} {b : Big} {c : Nat → Int} (h : Build N b c) :
    mag b = num (text c b.len) := by
  rw [← horner_text h.digits]
  exact horner_congr fun k hk => build_digit h (lt_of_lt_of_le hk h.len)

theorem digitText_eq {d : Int} (h : 0 ≤ d ∧ d ≤ 9) : digitText d = [UInt8.ofNat (48 + d.toNat)] := by
  have t : ∀ n : Fin 10, digitText (n.val : Int) = [UInt8.ofNat (48 + n.val)] := by decide +kernel
  obtain ⟨n, rfl⟩ : ∃ n : Nat, d = n := ⟨d.toNat, by omega⟩
  exact t ⟨n, by omega⟩

theorem toStringLoop_eq (b : Big) (n : Nat)
    (h : ∀ k, k < n → b.elem.get k = .ok (digit b k) ∧ 0 ≤ digit b k ∧ digit b k ≤ 9) :
    toStringLoop b n = .ok (text (digit b) n) := by
  induction n with
  | zero => rfl
  | succ n ih =>
    obtain ⟨h1, h2⟩ := h n (by omega)
    simp only [toStringLoop]
    rw [h1, Out.ok_bind, digitText_eq h2, ih (fun k hk => h k (by omega)), Out.ok_bind]
    rfl

theorem build_toString {N : Nat} {b : Big} {c : Nat → Int} (h : Build N b c) :
    toString b = .ok ((if b.sign < 0 then [byte '-'] else []) ++ text c b.len) := by
  unfold toString
  rw [toStringLoop_eq b b.len (fun k hk => ?_), Out.ok_bind,
    text_congr (fun k hk => build_digit h (lt_of_lt_of_le hk h.len))]
  have hk' : k < N := lt_of_lt_of_le hk h.len
  rw [build_digit h hk']
  exact ⟨rep_get h.rep hk', h.digits k hk⟩

/-- A built number whose text is the decimal text of a positive integer is clean. -/
theorem build_clean {N : Nat} {b : Big} {c : Nat → Int} (h : Build N b c) (hs : b.sign = 1 ∨ b.sign = -1)
    (n : Nat) (ht : text c b.len = decimalDigits n) : Clean N b ∧ mag b = n := by
  have hm : mag b = n := by rw [build_mag h, ht, num_decimalDigits]
  refine ⟨?_, hm⟩
  refine (clean_of_rep (ret := b.elem) (len := b.len) (sign := b.sign) h.rep h.len hs h.digits h.pad ?_).1
  intro h0 hz
  obtain ⟨l, hl⟩ : ∃ l, b.len = l + 1 := ⟨b.len - 1, by omega⟩
  rw [hl, Nat.add_sub_cancel] at hz
  rw [hl] at ht
  simp only [text, hz] at ht
  exact decimalDigits_head n _ _ ht.symm (by decide)

theorem text_length_eq {N : Nat} {b : Big} {c : Nat → Int} (_h : Build N b c) :
    (text c b.len).length = b.len := text_length c b.len

/-- the value after an assignment does not depend on the target -/
theorem val_assign (a z x : Big) : val (assign a x) = val (assign z x) := by
  show x.sign * _ = x.sign * _
  congr 1
  exact horner_congr fun k hk => by
    have hk' : k < x.len := hk
    simp [digit, assign, copyCells, hk']

theorem ofInt_facts {N : Nat} {x : Int} {b : Big} (h : ofInt N x = .ok b) :
    b.len = (decimalDigits x.natAbs).length ∧ b.sign = if x < 0 then -1 else 1 := by
  unfold ofInt at h
  split at h
  · cases h
  by_cases hN : (decimalDigits x.natAbs).length ≤ N
  · obtain ⟨r, c, e, hb, hs, ht⟩ := ofIntLoop_spec x.natAbs _ _
      (build_zero N (if x < 0 then -1 else 1)) (by simpa [zero] using hN)
    rw [e] at h
    cases h
    refine ⟨?_, hs⟩
    have := congrArg List.length ht
    rw [text_length] at this
    simpa [zero, text] using this
  · rw [ofIntLoop_ub _ _ _ (build_zero N _) (by simpa [zero] using hN)] at h
    cases h

theorem ofInt_len {N : Nat} {x : Int} {b : Big} (h : ofInt N x = .ok b) :
    b.len = (decimalDigits x.natAbs).length := (ofInt_facts h).1

theorem ofInt_sign {N : Nat} {x : Int} {b : Big} (h : ofInt N x = .ok b) :
    b.sign = if x < 0 then -1 else 1 := (ofInt_facts h).2

end BigNum
