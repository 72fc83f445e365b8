import Verif.Proof.JsonLooseRfc

/-! # C139: which texts are read, and as what -/

namespace Json.Props
open Cpp Json.Spec

/-- **C139, refuted.**  Not every text that is read is JSON. -/
theorem C139_refuted : ¬ ∀ t v, loadJSON t = .ok v → RfcText true t := by
  intro h
  have h1 := h (bytes ['n', 'u', 'l', 'l', ' ', 'x']) .null rfl
  have := rfcText_last h1 (byte 'x') rfl
  revert this
  unfold Last
  decide

/-- **C139, what holds.**  The texts that are read, and the values returned, are exactly those of the wider grammar
`LooseText`; any other text ends the program or is undefined behaviour. -/
theorem C139_exact_partial (t : Str) (v : Value) : loadJSON t = .ok v ↔ LooseText t v := ⟨load_loose, loose_load⟩

/-- **C139, what holds.**  Every JSON text without exponents is read. -/
theorem C139_rfc_partial (t : Str) (h : RfcText false t) : ∃ v, loadJSON t = .ok v := by
  obtain ⟨v, hv⟩ := rfcText_loose h
  exact ⟨v, loose_load hv⟩

/-- **C139, what holds.**  A text of which the first character other than white space begins no value is not read. -/
theorem C139_start_partial (w r : Str) (c : Byte) (hw : Blank w)
    (hc : c ∉ bytes ['[', '{', '"', 't', 'f', 'n', '-', '0', '1', '2', '3', '4', '5', '6', '7', '8', '9'])
    (hb : ¬ (c = 32 ∨ (9 ≤ c ∧ c ≤ 13))) (v : Value) : loadJSON (w ++ c :: r) ≠ .ok v := by
  intro h
  obtain ⟨w', d, r', k1, k2, k3⟩ := load_loose h
  obtain ⟨c', t', e, hs⟩ : ∃ c t, d = c :: t ∧ Start c := by
    rcases k3 with k | ⟨k, -⟩ | ⟨k, -⟩
    · exact loose_head k
    · exact loose_head k
    · obtain ⟨n, e, x, ds, k, hn, -, -, -, -, -, hd, -⟩ := k
      obtain ⟨c, t, e, hc⟩ := hn.head
      exact ⟨c, _, by rw [hd, e]; rfl, .inr (.inr (.inr (.inr (.inr (.inr hc)))))⟩
  have hs1 : ∀ c : Byte, Start c →
      c ∈ bytes ['[', '{', '"', 't', 'f', 'n', '-', '0', '1', '2', '3', '4', '5', '6', '7', '8', '9'] ∧
        ¬ (c = 32 ∨ (9 ≤ c ∧ c ≤ 13)) := by
    unfold Start
    exact forall_byte (by decide +kernel)
  have hs2 := hs1 c' hs
  subst e
  -- compare the two beginnings
  have key : ∀ (a b : Str) (x y : Byte) (s s' : Str), Blank a → Blank b → ¬ (x = 32 ∨ (9 ≤ x ∧ x ≤ 13)) →
      ¬ (y = 32 ∨ (9 ≤ y ∧ y ≤ 13)) → a ++ x :: s = b ++ y :: s' → x = y := by
    intro a
    induction a with
    | nil =>
      intro b x y s s' _ hb hx _ e
      cases b with
      | nil => simp at e; exact e.1
      | cons z b =>
        simp at e
        exact absurd (e.1 ▸ hb z (by simp)) hx
    | cons z a ih =>
      intro b x y s s' ha hb hx hy e
      cases b with
      | nil =>
        simp at e
        exact absurd (e.1 ▸ ha z (by simp)) hy
      | cons z' b =>
        simp at e
        exact ih b x y s s' (fun q hq => ha q (by simp [hq])) (fun q hq => hb q (by simp [hq])) hx hy e.2
  have := key w w' c c' r (t' ++ r') hw k1 hb hs2.2 (by simpa using k2)
  exact hc (this ▸ hs2.1)

/-! Texts that are not JSON and are read. -/

/-- `{1 :2}`: the key is the empty string -/
example : loadJSON (bytes ['{', '1', ' ', ':', '2', '}']) = .ok (.obj [([], .int 2)]) := rfl
/-- `--` -/
example : loadJSON (bytes ['-', '-']) = .ok (.int 0) := rfl
/-- `[01-2]` -/
example : loadJSON (bytes ['[', '0', '1', '-', '2', ']']) = .ok (.arr [.int 1]) := rfl
/-- the string `\q` -/
example : loadJSON (bytes ['"', '\\', 'q', '"']) = .ok (.str (bytes ['\\'])) := rfl
/-- the numbers of `1.2.3` -/
example : loadJSON (bytes ['1', '.', '2', '.', '3']) = .ok (.float (12 / 10)) := by
  refine loose_load ⟨[], bytes ['1', '.', '2', '.', '3'], [], by simp [Blank], rfl, .inr (.inl ⟨.num _ _
    ⟨⟨false, bytes ['1'], some (bytes ['2']), bytes ['.', '3']⟩, ?_, rfl, .inl ⟨by decide, ?_⟩⟩, by simp [EndsNum]⟩)⟩
  · unfold LNum.Ok
    decide
  · rw [LNum.value]
    simp only [show nat (bytes ['1']) = 1 by decide, show nat (bytes ['2']) = 2 by decide, show (bytes ['2']).length = 1 from rfl]
    norm_num
/-- Texts that are not read. -/
example : loadJSON (bytes ['[', '1', ' ', '2', ']']) = .exit := rfl
example : loadJSON (bytes ['n', 'u', 'l', '1']) = .exit := rfl
example : loadJSON (bytes ['[', '1', '}']) = .exit := rfl
example : loadJSON (bytes ['{', '1', ':', '2', '}']) = .exit := rfl
example : loadJSON (bytes ['[', '1', ',', ']']) = .exit := rfl

/-- a JSON text without exponents: `[-1.5, "é"]` -/
example : RfcText false (bytes ['[', '-', '1', '.', '5', ',', ' ', '"', '\\', 'u', '0', '0', 'e', '9', '"', ']']) := by
  refine ⟨⟨[], bytes ['[', '-', '1', '.', '5', ',', ' ', '"', '\\', 'u', '0', '0', 'e', '9', '"', ']'], []⟩,
    ⟨by simp [Ws], by simp [Ws]⟩, ?_, rfl⟩
  refine .arr [⟨[], bytes ['-', '1', '.', '5'], []⟩, ⟨[32], bytes ['"', '\\', 'u', '0', '0', 'e', '9', '"'], []⟩] (by simp) ?_ ?_
  · intro x hx
    simp at hx
    rcases hx with rfl | rfl <;> exact ⟨by decide, by decide⟩
  · intro x hx
    simp at hx
    rcases hx with rfl | rfl
    · exact .num ⟨true, bytes ['1'], some (bytes ['5']), none⟩ ⟨by decide, by decide, by simp⟩ (by decide) rfl
    · refine .str (bytes ['\\', 'u', '0', '0', 'e', '9']) (.unicode (bytes ['0', '0', 'e', '9']) rfl ?_ .nil)
      unfold Hex
      decide

/-- a text that begins like no value: ` +1` -/
example : Blank [32] ∧ byte '+' ∉ bytes ['[', '{', '"', 't', 'f', 'n', '-', '0', '1', '2', '3', '4', '5', '6', '7', '8', '9'] ∧
    ¬ (byte '+' = 32 ∨ (9 ≤ byte '+' ∧ byte '+' ≤ 13)) := by unfold Blank; decide

end Json.Props
