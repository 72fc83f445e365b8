import Verif.Model.Url
import Verif.Spec.Url

namespace Url
open Cpp

/-- `urlDecode` as a recursion over the rest of the string. -/
def dec : Str → Out Str
  | [] => .ok []
  | [c] => if c = byte '+' then .ok [byte ' '] else if c = byte '%' then .ub else .ok [c]
  | [c, h] =>
    if c = byte '+' then do let rest ← dec [h]; .ok (byte ' ' :: rest)
    else if c = byte '%' then do
      let high ← hexToInt h
      .ok [UInt8.ofInt (high * 16 + 0)]
    else do let rest ← dec [h]; .ok (c :: rest)
  | c :: h :: l :: t =>
    if c = byte '+' then do let rest ← dec (h :: l :: t); .ok (byte ' ' :: rest)
    else if c = byte '%' then do
      let high ← hexToInt h
      let low ← hexToInt l
      let rest ← dec t
      .ok (UInt8.ofInt (high * 16 + low) :: rest)
    else do let rest ← dec (h :: l :: t); .ok (c :: rest)

/-- Induction in the way `dec` recurses. -/
theorem rec3 {P : Str → Prop} (case1 : P []) (case2 : ∀ c, P [c])
    (case3 : ∀ c h, P [h] → P [c, h])
    (case4 : ∀ c h l t, P (h :: l :: t) → P t → P (c :: h :: l :: t)) : ∀ t, P t
  | [] => case1
  | [c] => case2 c
  | [c, h] => case3 c h (case2 h)
  | c :: h :: l :: t =>
    case4 c h l t (rec3 case1 case2 case3 case4 (h :: l :: t)) (rec3 case1 case2 case3 case4 t)

theorem hexToInt_zero : hexToInt 0 = .ok 0 := by decide

theorem decodeFrom_ge {s : Str} {i : Nat} (h : s.length ≤ i) : decodeFrom s i = .ok [] := by
  rw [decodeFrom, dif_neg (by omega)]

theorem decodeFrom_eq_dec (pre suf : Str) :
    decodeFrom (pre ++ suf) pre.length = dec suf := by
  induction suf using rec3 generalizing pre with
  | case1 => rw [decodeFrom_ge (by simp)]; rfl
  | case2 c =>
    rw [decodeFrom, dif_pos (by simp), decodeFrom_ge (by simp), decodeFrom_ge (by simp)]
    simp only [charAt]
    simp [hexToInt_zero, dec]
  | case3 c h ih1 =>
    have e1 : decodeFrom (pre ++ [c, h]) (pre.length + 1) = dec [h] := by
      have := ih1 (pre ++ [c])
      simpa using this
    have e2 : decodeFrom (pre ++ [c, h]) (pre.length + 3) = .ok [] := decodeFrom_ge (by simp)
    rw [decodeFrom, dif_pos (by simp), e1, e2]
    simp only [charAt]
    simp [hexToInt_zero, dec, show UInt8.ofInt 0 = 0 from rfl]
  | case4 c h l t ih1 ih2 =>
    have e1 : decodeFrom (pre ++ c :: h :: l :: t) (pre.length + 1) = dec (h :: l :: t) := by
      have := ih1 (pre ++ [c])
      simpa using this
    have e2 : decodeFrom (pre ++ c :: h :: l :: t) (pre.length + 3) = dec t := by
      have := ih2 (pre ++ [c, h, l])
      simpa using this
    rw [decodeFrom, dif_pos (by simp), e1, e2]
    simp only [charAt]
    simp [dec]

theorem urlDecode_eq_dec (s : Str) : urlDecode s = dec s := decodeFrom_eq_dec [] s

/-! ### finite tables -/

set_option maxRecDepth 20000

theorem plain_iff : ∀ c : Byte, (isPlain c = true ↔ Spec.Unreserved c) := by
  apply forall_byte; decide +kernel

theorem plain_ne : ∀ c : Byte, isPlain c = true → c ≠ byte '+' ∧ c ≠ byte '%' := by
  apply forall_byte; decide +kernel

theorem escape_table : ∀ c : Byte,
    Spec.UpperHex (hexDigit (c.toNat / 16)) ∧ Spec.UpperHex (hexDigit (c.toNat % 16)) ∧
    (do let high ← hexToInt (hexDigit (c.toNat / 16))
        let low ← hexToInt (hexDigit (c.toNat % 16))
        Out.ok (UInt8.ofInt (high * 16 + low))) = .ok c := by
  apply forall_byte; decide +kernel

theorem hexToInt_table : ∀ c : Byte,
    (Spec.NonAscii c → hexToInt c = .ub) ∧ (¬ Spec.NonAscii c → ∃ v : Fin 36, hexToInt c = .ok v.val) := by
  apply forall_byte; decide +kernel

theorem hexVal_table : ∀ c : Byte, ∀ x : Fin 16,
    Spec.hexVal c = some x.val → hexToInt c = .ok x.val := by
  apply forall_byte; decide +kernel

theorem hexVal_lt : ∀ c : Byte, ∀ x, Spec.hexVal c = some x → x < 16 := by
  intro c x h
  have : ∀ c : Byte, (Spec.hexVal c).getD 0 < 16 := by apply forall_byte; decide +kernel
  have := this c
  rw [h] at this; exact this

theorem hexVal_ok (c : Byte) (x : Nat) (h : Spec.hexVal c = some x) : hexToInt c = .ok x :=
  hexVal_table c ⟨x, hexVal_lt c x h⟩ h

theorem dec_plain (c : Byte) (t : Str) (h1 : c ≠ byte '+') (h2 : c ≠ byte '%') :
    dec (c :: t) = (do let rest ← dec t; .ok (c :: rest)) := by
  match t with
  | [] => simp [dec, h1, h2]
  | [h] => simp [dec, h1, h2]
  | h :: l :: t => conv => lhs; rw [dec, if_neg h1, if_neg h2]

theorem dec_plus (t : Str) :
    dec (byte '+' :: t) = (do let rest ← dec t; .ok (byte ' ' :: rest)) := by
  match t with
  | [] => simp [dec]
  | [h] => simp [dec]
  | h :: l :: t => conv => lhs; rw [dec, if_pos rfl]

theorem dec_triple (h l : Byte) (t : Str) :
    dec (byte '%' :: h :: l :: t) = (do
      let high ← hexToInt h
      let low ← hexToInt l
      let rest ← dec t
      .ok (UInt8.ofInt (high * 16 + low) :: rest)) := by
  rw [dec, if_neg (by decide), if_pos rfl]

theorem dec_encode (s : Str) : dec (urlEncode s) = .ok s := by
  induction s with
  | nil => rfl
  | cons c s ih =>
    unfold urlEncode at *
    rw [List.flatMap_cons]
    by_cases h : isPlain c = true
    · rw [if_pos h, List.singleton_append, dec_plain _ _ (plain_ne c h).1 (plain_ne c h).2, ih]
      rfl
    · rw [if_neg h, escape, List.cons_append, List.cons_append, List.singleton_append, dec_triple, ih]
      have := (escape_table c).2.2
      rw [Out.bind_eq_ok] at this
      obtain ⟨a, ha, h2⟩ := this
      rw [Out.bind_eq_ok] at h2
      obtain ⟨b, hb, h3⟩ := h2
      rw [ha, hb]
      simp only [Out.ok_bind]
      simp only [Out.ok.injEq] at h3
      rw [h3]

theorem dec_not_exit (t : Str) : dec t = .ub ∨ ∃ s, dec t = .ok s := by
  induction t using rec3 with
  | case1 => simp [dec]
  | case2 c => rw [dec]; split; · simp
               split <;> simp
  | case3 c h ih1 =>
    rw [dec]
    split
    · rcases ih1 with e | ⟨s, e⟩ <;> simp [e]
    split
    · by_cases hn : Spec.NonAscii h
      · simp [(hexToInt_table h).1 hn]
      · obtain ⟨v, hv⟩ := (hexToInt_table h).2 hn
        simp [hv]
    · rcases ih1 with e | ⟨s, e⟩ <;> simp [e]
  | case4 c h l t ih1 ih2 =>
    rw [dec]
    split
    · rcases ih1 with e | ⟨s, e⟩ <;> simp [e]
    split
    · by_cases hn : Spec.NonAscii h
      · simp [(hexToInt_table h).1 hn]
      by_cases hn' : Spec.NonAscii l
      · obtain ⟨v, hv⟩ := (hexToInt_table h).2 hn
        simp [(hexToInt_table l).1 hn', hv]
      · obtain ⟨v, hv⟩ := (hexToInt_table h).2 hn
        obtain ⟨w, hw⟩ := (hexToInt_table l).2 hn'
        rcases ih2 with e | ⟨s, e⟩ <;> simp [e, hv, hw]
    · rcases ih1 with e | ⟨s, e⟩ <;> simp [e]

theorem dec_ub_of_dangerous (t : Str) (h : Spec.Dangerous t) : dec t = .ub := by
  induction h with
  | last => rfl
  | high h t hn =>
    cases t with
    | nil => rw [dec, if_neg (by decide), if_pos rfl]; simp [(hexToInt_table h).1 hn]
    | cons l t => rw [dec_triple]; simp [(hexToInt_table h).1 hn]
  | low h l t hn =>
    rw [dec_triple]
    by_cases hh : Spec.NonAscii h
    · simp [(hexToInt_table h).1 hh]
    · obtain ⟨v, hv⟩ := (hexToInt_table h).2 hh
      simp [(hexToInt_table l).1 hn, hv]
  | skip c t hc _ ih =>
    by_cases hp : c = byte '+'
    · subst hp; rw [dec_plus, ih]; rfl
    · rw [dec_plain _ _ hp hc, ih]; rfl
  | skipTriple h l t _ ih =>
    rw [dec_triple]
    by_cases hh : Spec.NonAscii h
    · simp [(hexToInt_table h).1 hh]
    obtain ⟨v, hv⟩ := (hexToInt_table h).2 hh
    by_cases hl : Spec.NonAscii l
    · simp [(hexToInt_table l).1 hl, hv]
    obtain ⟨w, hw⟩ := (hexToInt_table l).2 hl
    simp [hv, hw, ih]

theorem dangerous_of_dec_ub (t : Str) (h : dec t = .ub) : Spec.Dangerous t := by
  induction t using rec3 with
  | case1 => simp [dec] at h
  | case2 c =>
    rw [dec] at h
    split at h
    · simp at h
    split at h
    · rename_i hc; subst hc; exact .last
    · simp at h
  | case3 c x ih1 =>
    by_cases h1 : c = byte '+'
    · subst h1
      rw [dec_plus] at h
      refine .skip _ _ (by decide) (ih1 ?_)
      rcases dec_not_exit [x] with e | ⟨s, e⟩
      · exact e
      · simp [e] at h
    by_cases h2 : c = byte '%'
    · subst h2
      rw [dec, if_neg (by decide), if_pos rfl] at h
      by_cases hn : Spec.NonAscii x
      · exact .high _ _ hn
      · obtain ⟨v, hv⟩ := (hexToInt_table x).2 hn
        simp [hv] at h
    · rw [dec_plain _ _ h1 h2] at h
      refine .skip _ _ h2 (ih1 ?_)
      rcases dec_not_exit [x] with e | ⟨s, e⟩
      · exact e
      · simp [e] at h
  | case4 c x l t ih1 ih2 =>
    by_cases h1 : c = byte '+'
    · subst h1
      rw [dec_plus] at h
      refine .skip _ _ (by decide) (ih1 ?_)
      rcases dec_not_exit (x :: l :: t) with e | ⟨s, e⟩
      · exact e
      · simp [e] at h
    by_cases h2 : c = byte '%'
    · subst h2
      rw [dec_triple] at h
      by_cases hn : Spec.NonAscii x
      · exact .high _ _ hn
      by_cases hn' : Spec.NonAscii l
      · exact .low _ _ _ hn'
      · obtain ⟨v, hv⟩ := (hexToInt_table x).2 hn
        obtain ⟨w, hw⟩ := (hexToInt_table l).2 hn'
        refine .skipTriple _ _ _ (ih2 ?_)
        rcases dec_not_exit t with e | ⟨s, e⟩
        · exact e
        · simp [e, hv, hw] at h
    · rw [dec_plain _ _ h1 h2] at h
      refine .skip _ _ h2 (ih1 ?_)
      rcases dec_not_exit (x :: l :: t) with e | ⟨s, e⟩
      · exact e
      · simp [e] at h

theorem ofInt_natCast (n : Nat) : UInt8.ofInt (n : Int) = UInt8.ofNat n := by
  apply UInt8.toNat_inj.mp
  simp only [UInt8.ofInt, UInt8.toNat_ofNat']
  omega

theorem dec_of_decodes (t s : Str) (h : Spec.Decodes t s) : dec t = .ok s := by
  induction h with
  | nil => rfl
  | plus t s _ ih => rw [dec_plus, ih]; rfl
  | plain c t s h1 h2 _ ih => rw [dec_plain _ _ h1 h2, ih]; rfl
  | escaped h l x y t s hx hy _ ih =>
    rw [dec_triple, hexVal_ok h x hx, hexVal_ok l y hy, ih]
    simp only [Out.ok_bind]
    have : (x : Int) * 16 + y = ((16 * x + y : Nat) : Int) := by
      rw [Int.natCast_add, Int.natCast_mul, Int.mul_comm]; rfl
    rw [this, ofInt_natCast]

theorem safe_encode (s : Str) : Spec.Safe (urlEncode s) := by
  induction s with
  | nil => exact .nil
  | cons c s ih =>
    unfold urlEncode at *
    rw [List.flatMap_cons]
    by_cases h : isPlain c = true
    · rw [if_pos h]; exact .plain c _ ((plain_iff c).mp h) ih
    · rw [if_neg h]; exact .escaped _ _ _ (escape_table c).1 (escape_table c).2.1 ih

end Url
