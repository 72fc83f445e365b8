import Verif.Proof.JsonLoad

/-! # Helper lemmas for JSON: numbers with an exponent at the end of the text -/

namespace Json
open Cpp Spec

theorem expGo_ok {str : Str} (d : Str) : ∀ {f off : Nat} {e r : Str}, At str off (d ++ r) → (∀ c ∈ d, 48 ≤ c ∧ c ≤ 57) →
    Delim r → d.length < f → expGo str f off e = .ok (e ++ d, r.head?.getD 0, off + d.length) := by
  induction d with
  | nil =>
    intro f off e r h _ hr hf
    obtain ⟨f, rfl⟩ : ∃ g, f = g + 1 := ⟨f - 1, by simp at hf; omega⟩
    unfold expGo
    cases r with
    | nil =>
      rw [List.append_nil] at h
      rw [h.nil]
      simp only [Out.ok_bind]
      rw [if_neg (by decide), show notEnd 0 = .ok false by decide]
      simp
    | cons c r =>
      have := delim_facts c (hr c rfl)
      rw [(h.cons (t := r)).1]
      simp only [Out.ok_bind]
      rw [if_neg (fun h => this.1 (.inr h)), this.2.2.2.1]
      simp
  | cons c d ih =>
    intro f off e r h hd hr hf
    obtain ⟨f, rfl⟩ : ∃ g, f = g + 1 := ⟨f - 1, by simp at hf; omega⟩
    unfold expGo
    rw [List.cons_append] at h
    rw [h.cons.1]
    simp only [Out.ok_bind]
    rw [if_pos ((digit_iff c).2 (hd c (by simp))), ih h.cons.2 (fun x hx => hd x (by simp [hx])) hr (by simp at hf; omega)]
    simp; omega

theorem castDouble_int {sign : Bool} {d : Str} (hd : Digits d) :
    castDouble ((if sign then [byte '-'] else []) ++ d) = .ok ((if sign then -(nat d : Int) else nat d : Int) : ℚ) := by
  cases sign with
  | true =>
    show castDouble (byte '-' :: d) = _
    unfold castDouble
    dsimp only
    rw [if_pos rfl, decimal_int hd]; simp
  | false =>
    cases d with
    | nil => exact absurd rfl hd.1
    | cons c t =>
      show castDouble (c :: t) = _
      unfold castDouble
      dsimp only
      rw [if_neg (digit_not (hd.2 c (by simp))).1, decimal_int hd]; simp

theorem parseNumber_exp {str : Str} {n : Number} (h : n.Ok) {sign : Bool} {d : Str} (he : n.exp = some (some sign, d))
    (hi : IsInt (if sign then -(nat d : Int) else nat d)) {off : Nat} {r : Str} (ha : At str off (n.text ++ r)) (hr : Delim r) :
    ∃ o, parseNumber str off = .ok (.float n.value, o) := by
  have hd : Digits d := h.2.2 (some sign, d) (by rw [he]; rfl)
  let sc : Byte := if sign then byte '-' else byte '+'
  have htext : n.text = mantissa n ++ byte 'e' :: sc :: d := by
    unfold Number.text mantissa; rw [he]; cases n.frac <;> cases sign <;> simp [sc]
  have hvalue : n.value = mantVal n * (10 : ℚ) ^ (if sign then -(nat d : Int) else nat d) := by
    unfold Number.value mantVal; rw [he]; cases n.frac <;> cases sign <;> simp
  rw [htext] at ha
  have ha1 : At str off (mantissa n ++ byte 'e' :: (sc :: (d ++ r))) := by simpa using ha
  have hl := ha1.len
  simp at hl
  unfold parseNumber
  rw [numGo_ok (mantissa n) ha1 (mantissa_chars h) (by intro c hc; simp at hc; subst hc; decide) (by omega)]
  simp only [Out.ok_bind, List.nil_append, Bool.false_or, List.head?_cons, Option.getD_some]
  rw [if_pos (.inr trivial), if_neg (by omega)]
  have ha2 := ha1.append.cons.2
  rw [ha2.cons.1]
  simp only [Out.ok_bind]
  have hsc : (if sc = byte '-' then [sc] else []) = if sign then [byte '-'] else [] := by
    cases sign
    · simp only [sc]; decide
    · simp only [sc]; decide
  rw [hsc, expGo_ok d ha2.cons.2 hd.2 hr (by omega)]
  simp only [Out.ok_bind]
  rw [castDouble_int hd]
  simp only [Out.ok_bind]
  rw [Rat.num_intCast, int_ok hi]
  simp only [Out.ok_bind]
  rw [if_pos (.inr (by simp [hd.1])), castDouble_ok h]
  simp only [Out.ok_bind]
  rw [← hvalue]
  exact ⟨_, rfl⟩

theorem load_exp {n : Number} (h : n.Ok) {sign : Bool} {d : Str} (he : n.exp = some (some sign, d))
    (hi : IsInt (if sign then -(nat d : Int) else nat d)) {w w' : Str} (hw : Ws w) (hw' : Ws w') :
    loadJSON (w ++ n.text ++ w') = .ok (.float n.value) := by
  have hdel : Delim w' := by
    intro c hc
    cases w' with
    | nil => simp at hc
    | cons x w' => simp at hc; subst hc; exact .inl (hw' x (by simp))
  have ha : At (w ++ n.text ++ w') 0 (w ++ (n.text ++ w')) := by
    rw [← List.append_assoc]; exact At.zero _
  obtain ⟨c, t, e, hc⟩ := number_head h
  obtain ⟨o, ho⟩ := parseNumber_exp h he hi ha.append hdel
  unfold loadJSON
  unfold parseNext
  rw [skip_ok ha hw (by
    rw [e]; exact nonSp_start (.inr (.inr (.inr (.inr (.inr (.inr hc))))))) ]
  simp only [Out.ok_bind]
  have ha1 := ha.append
  rw [show n.text ++ w' = c :: (t ++ w') by rw [e]; rfl] at ha1
  rw [ha1.cons.1]
  simp only [Out.ok_bind]
  have hne := num_start c hc
  rw [if_neg hne.1, if_neg hne.2.1, if_neg hne.2.2.1, if_neg hne.2.2.2.1, if_neg hne.2.2.2.2, if_pos hc, ho]
  rfl

end Json
