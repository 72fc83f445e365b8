import Verif.Proof.JsonLooseRfc

/-! # Helper lemmas for the numbers of JSON: exponents without sign, integers out of range -/

namespace Json
open Cpp Spec

/-- the number without its exponent -/
def mant (n : Number) : LNum := ⟨n.neg, n.ip, n.frac, []⟩

theorem mant_ok {n : Number} (h : n.Ok) : (mant n).Ok :=
  ⟨h.1.2, fun f hf => (h.2.1 f hf).2, by simp [mant], by simp [mant], fun _ => h.1.1⟩

theorem mant_text {n : Number} {d : Str} (he : n.exp = some (none, d)) : n.text = (mant n).text ++ byte 'e' :: d := by
  obtain ⟨neg, ip, frac, exp⟩ := n
  cases he
  cases frac <;> cases neg <;> simp [Number.text, LNum.text, mant]

theorem mant_value {n : Number} {d : Str} (he : n.exp = some (none, d)) : n.value = (mant n).value * (10 : ℚ) ^ nat d := by
  obtain ⟨neg, ip, frac, exp⟩ := n
  cases he
  cases frac <;> cases neg <;> simp [Number.value, LNum.value, mant]

theorem nat_cons (x : Byte) (ds : Str) : nat (x :: ds) = nat ds + (x.toNat - 48) * 10 ^ ds.length := by
  unfold nat
  rw [List.reverse_cons, List.map_append, Nat.ofDigits_append]
  simp
  ring

theorem ws_ends {w : Str} (h : Ws w) : EndsNum w := by
  intro c hc
  cases w with
  | nil => simp at hc
  | cons x w => simp at hc; subst hc; exact .inl (ws_blank h x (by simp))

/-- one digit only: the exponent is read from an uninitialised variable -/
theorem load_one {n : Number} (h : n.Ok) {x : Byte} (he : n.exp = some (none, [x])) {w w' : Str} (hw : Ws w) (hw' : Ws w') :
    loadJSON (w ++ n.text ++ w') = .ub := by
  have hx : 48 ≤ x ∧ x ≤ 57 := (h.2.2 (none, [x]) (by rw [he]; rfl)).2 x (by simp)
  have hm := mant_ok h
  rw [mant_text he]
  obtain ⟨c, t, e, hc⟩ := hm.head
  generalize hs : w ++ ((mant n).text ++ byte 'e' :: [x]) ++ w' = str
  have ha : At str 0 (w ++ ((mant n).text ++ byte 'e' :: x :: ([] ++ w'))) := by
    rw [← hs]
    have := At.zero (w ++ ((mant n).text ++ byte 'e' :: [x]) ++ w')
    simpa using this
  have ha1 := ha.append
  have hl := ha1.len
  simp only [List.length_append, List.length_cons] at hl
  have hp : parseNumber str (0 + w.length) = .ub := by
    unfold parseNumber
    rw [numGo_ok _ ha1 hm.chars (fun c hc => by simp at hc; subst hc; decide) (by omega)]
    simp only [Out.ok_bind, List.nil_append, Bool.false_or, List.head?_cons, Option.getD_some]
    have ha2 := ha1.append.cons.2
    rw [if_pos (.inr trivial), if_neg (by omega), ha2.cons.1]
    simp only [Out.ok_bind]
    rw [expGo_loose [] ha2.cons.2 (by simp) (ws_ends hw') (by simp)]
    simp only [Out.ok_bind]
    have hne : x ≠ byte '-' := by
      rintro rfl
      exact absurd hx.1 (by decide)
    rw [if_neg hne]
    rfl
  have hne := num_start c hc
  unfold loadJSON parseNext
  rw [skip_blank ha (ws_blank hw) (by
    rw [e]; exact nonSp_start (.inr (.inr (.inr (.inr (.inr (.inr hc)))))))]
  simp only [Out.ok_bind]
  rw [e] at ha1
  rw [ha1.cons.1]
  simp only [Out.ok_bind]
  rw [if_neg hne.1, if_neg hne.2.1, if_neg hne.2.2.1, if_neg hne.2.2.2.1, if_neg hne.2.2.2.2, if_pos hc, hp]
  rfl

/-- more digits: the first one does not count -/
theorem load_more {n : Number} (h : n.Ok) {x : Byte} {ds : Str} (he : n.exp = some (none, x :: ds)) (hds : ds ≠ [])
    (hi : IsInt (nat ds)) {w w' : Str} (hw : Ws w) (hw' : Ws w') :
    loadJSON (w ++ n.text ++ w') = .ok (.float ((mant n).value * (10 : ℚ) ^ nat ds)) := by
  have hd := (h.2.2 (none, x :: ds) (by rw [he]; rfl)).2
  have hne : x ≠ byte '-' := by
    rintro rfl
    exact absurd (hd (byte '-') (by simp)).1 (by decide)
  refine loose_load ⟨w, n.text, w', ws_blank hw, rfl, .inr (.inr ⟨⟨mant n, byte 'e', x, ds, nat ds, mant_ok h, .inl rfl,
    fun c hc => hd c (by simp [hc]), .inr hds, by rw [if_neg hne], hi, mant_text he, by simp⟩, ws_ends hw'⟩)⟩

theorem load_int {n : Number} (h : n.Ok) (hf : n.frac = none) (he : n.exp = none) {i : Int} (hv : n.value = i) {w w' : Str}
    (hw : Ws w) (hw' : Ws w') : loadJSON (w ++ n.text ++ w') = .ok (.int (max (-2147483648) (min 2147483647 i))) := by
  have ht : n.text = (mant n).text := by
    obtain ⟨neg, ip, frac, exp⟩ := n
    cases he
    cases hf
    cases neg <;> simp [Number.text, LNum.text, mant]
  refine loose_load ⟨w, n.text, w', ws_blank hw, rfl, .inr (.inl ⟨.num _ _ ⟨mant n, mant_ok h, ht, .inr ⟨?_, i, ?_, rfl⟩⟩, ws_ends hw'⟩)⟩
  · rw [ht]
    unfold LNum.text
    simp only [mant, hf, List.append_nil]
    intro hp
    rcases List.mem_append.1 hp with hp | hp
    · revert hp; cases n.neg <;> simp; decide
    · exact absurd (h.1.2 _ hp).1 (by decide)
  · rw [← hv]
    obtain ⟨neg, ip, frac, exp⟩ := n
    cases he
    cases hf
    cases neg <;> simp [Number.value, LNum.value, mant]

end Json
