import Verif.Proof.JsonRfcDump

/-! # C158: what `dump` writes is JSON -/

namespace Json.Props
open Cpp Json.Spec

/-- **C158, refuted.**  A string with a control character that has no short escape is dumped as it is: not JSON. -/
theorem C158_control_refuted : ¬ ∀ v, Fine v → RfcText true (dumpDefault v) := by
  intro h
  have h1 := rfc_clean (.str [1]) (h (.str [1]) (.str _))
  cases h1 with
  | str _ h1 => revert h1; decide

/-- **C158, refuted.**  Keys are written as they are.  An object with one member is read back as one with two. -/
theorem C158_injection_refuted : ∃ k : Str, loadJSON (dumpDefault (.obj [(k, .null)])) =
    .ok (.obj [(bytes ['a'], .bool true), (bytes ['b'], .null)]) :=
  ⟨bytes ['a', '"', ':', 't', 'r', 'u', 'e', ',', '"', 'b'], rfl⟩

/-- **C158, what holds.**  If the strings have no control characters but those with a short escape, and the keys are in
escaped form, the text is JSON, for every nesting, depth and white space used as tab; it even has no exponent. -/
theorem C158_rfc_partial (tab : Str) (htab : Ws tab) (depth : Int) (v : Value) (hv : Clean v) :
    RfcText false (dump tab depth v) :=
  ⟨⟨[], dump tab depth v, []⟩, ⟨by simp [Ws], by simp [Ws]⟩, clean_rfc htab hv depth, by simp [Around.full]⟩

/-- **C158, what holds.**  With keys in escaped form, these are the only values whose text is JSON. -/
theorem C158_exact_partial (tab : Str) (htab : Ws tab) (depth : Int) (v : Value) (hv : Fine v) :
    RfcText true (dump tab depth v) ↔ Clean v := by
  refine ⟨rfc_clean hv, fun h => ?_⟩
  obtain ⟨x, hx, hr, e⟩ := C158_rfc_partial tab htab depth v h
  refine ⟨x, hx, ?_, e⟩
  clear e
  generalize x.text = t at hr
  induction hr with
  | null => exact .null
  | true => exact .true
  | false => exact .false
  | num n h hz he => exact .num n h hz he
  | exp n h hz he hE => exact absurd hE (by simp)
  | str t h => exact .str t h
  | arr0 w h => exact .arr0 w h
  | arr l hne hw _ ih => exact .arr l hne hw ih
  | obj0 w h => exact .obj0 w h
  | obj l hne hw hk _ ih => exact .obj l hne hw hk ih

/-- **C158, what holds.**  The text denotes the value (floating-point numbers to six places); so does it for any reader
that keeps to the RFC, up to the escapes in keys. -/
theorem C158_denotes_partial (tab : Str) (htab : Ws tab) (depth : Int) (v : Value) (hv : Fine v) :
    ∃ v', Text (fun k k' => k' = jsonEscape k) (dump tab depth v) v' ∧ Close v v' := by
  obtain ⟨v', hd, hc⟩ := dump_doc htab hv depth
  exact ⟨v', ⟨[], [], _, by simp [Ws], by simp [Ws], by simp, hd⟩, hc⟩

/-- `{"k" : ["a\nb", -1, 0.5]}` meets the hypotheses of the theorems above. -/
example : let v : Value := .obj [(bytes ['k'], .arr [.str (bytes ['a', '\n', 'b']), .int (-1), .float (1 / 2)])]
    Clean v ∧ Fine v ∧ Ws (bytes [' ', ' ']) := by
  refine ⟨.obj _ ?_ ?_, .obj _ (by simp) ?_ ?_, by decide⟩
  · simp only [List.mem_singleton, forall_eq]
    exact .plain _ (by decide) (by decide) (by decide) .nil
  · simp only [List.mem_singleton, forall_eq]
    refine .arr _ ?_
    simp only [List.mem_cons, List.not_mem_nil, or_false, forall_eq_or_imp, forall_eq]
    exact ⟨.str _ (by decide), .int _, .float _⟩
  · simp only [List.mem_singleton, forall_eq]
    exact ⟨bytes ['k'], by decide⟩
  · simp only [List.mem_singleton, forall_eq]
    refine .arr _ ?_
    simp only [List.mem_cons, List.not_mem_nil, or_false, forall_eq_or_imp, forall_eq]
    exact ⟨.str _, .int _ (by decide), .float _⟩

end Json.Props
