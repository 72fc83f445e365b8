import Verif.Proof.JsonDump
import Verif.Proof.JsonTotal
import Verif.Proof.JsonExp

/-! # JSON: properties C47, C48, C49, C50, C78, C79 -/

namespace Json.Props
open Cpp Spec

/-- **C47.**  A string value survives dumping and loading, whatever its bytes. -/
theorem C47_string_roundtrip (s : Str) (tab : Str) (depth : Int) : loadJSON (dump tab depth (.str s)) = .ok (.str s) :=
  load_text ⟨[], [], _, by simp [Ws], by simp [Ws], by simp [dump, bytes], .str _ s (escape_body s)⟩

/-- **C47.**  `jsonEscape` gives different results for different strings. -/
theorem C47_escape_injective (s s' : Str) (h : jsonEscape s = jsonEscape s') : s = s' := escape_inj h

/-- **C47.**  In the result of `jsonEscape` every quote, every backslash and each of the characters with an escape of
their own is escaped. -/
theorem C47_escape_safe (s : Str) : Escaped (jsonEscape s) := escape_escaped s

/-- **C47.**  `jsonEscape(s)` between quotes is a JSON string which means `s`. -/
theorem C47_escape_means (s : Str) : Body (jsonEscape s) s := escape_body s

example : jsonEscape [34, 92, 10, 200, 0, 65] = bytes ['\\', '"', '\\', '\\', '\\', 'n'] ++ [200, 0, 65] := by decide

/-- **C48.**  Dumping (with any depth, and any tab of white space) and loading gives a value back unchanged: for every
value made of null, booleans, ints, strings, arrays and objects with keys in escaped form. -/
theorem C48_roundtrip (v : Value) (hv : Fine v) (hn : NoFloat v) (tab : Str) (ht : Ws tab) (depth : Int) :
    loadJSON (dump tab depth v) = .ok v := by
  obtain ⟨v', e, hc⟩ := load_dump ht depth hv
  rw [e, close_noFloat hc hn]

/-- an object with everything in it -/
def sample : Value :=
  .obj [(jsonEscape [10], .arr [.null, .int (-7), .arr [], .str [34, 200]]), (bytes ['k'], .obj [(bytes ['a'], .bool true)]),
    (bytes ['z'], .obj [])]

theorem sample_fine : Fine sample := by
  refine .obj _ (by decide) ?_ ?_
  · intro p hp
    simp only [List.mem_cons, List.not_mem_nil, or_false] at hp
    rcases hp with rfl | rfl | rfl
    · exact ⟨_, rfl⟩
    · exact ⟨bytes ['k'], by decide⟩
    · exact ⟨bytes ['z'], by decide⟩
  · intro p hp
    simp only [List.mem_cons, List.not_mem_nil, or_false] at hp
    rcases hp with rfl | rfl | rfl
    · refine .arr _ fun v hv => ?_
      simp only [List.mem_cons, List.not_mem_nil, or_false] at hv
      rcases hv with rfl | rfl | rfl | rfl
      · exact .null
      · exact .int _ (by decide)
      · exact .arr _ (by simp)
      · exact .str _
    · refine .obj _ (by decide) ?_ ?_
      · intro p hp
        simp only [List.mem_singleton] at hp
        subst hp
        exact ⟨bytes ['a'], by decide⟩
      · intro p hp
        simp only [List.mem_singleton] at hp
        subst hp
        exact .bool _
    · exact .obj _ (by simp) (by simp) (by simp)

theorem sample_noFloat : NoFloat sample := by
  refine .obj _ ?_
  intro p hp
  simp only [List.mem_cons, List.not_mem_nil, or_false] at hp
  rcases hp with rfl | rfl | rfl
  · refine .arr _ fun v hv => ?_
    simp only [List.mem_cons, List.not_mem_nil, or_false] at hv
    rcases hv with rfl | rfl | rfl | rfl
    · exact .null
    · exact .int _
    · exact .arr _ (by simp)
    · exact .str _
  · refine .obj _ fun p hp => ?_
    simp only [List.mem_singleton] at hp
    subst hp
    exact .bool _
  · exact .obj _ (by simp)

example : loadJSON (dumpDefault sample) = .ok sample :=
  C48_roundtrip sample sample_fine sample_noFloat _ (by decide) 1

/-- **C48.**  What `loadJSON` returned, unless there are floats in it, survives dumping and loading again. -/
theorem C48_reload (t : Str) (v : Value) (h : loadJSON t = .ok v) (hn : NoFloat v) : loadJSON (dumpDefault v) = .ok v :=
  C48_roundtrip v (load_fine h) hn _ (by decide) 1

example : ∃ v, loadJSON (bytes [' ', '[', '1', ',', '"', '\\', '/', '"', ' ', ']', 'x']) = .ok v ∧ NoFloat v ∧
    loadJSON (dumpDefault v) = .ok v := by
  have h : loadJSON (bytes [' ', '[', '1', ',', '"', '\\', '/', '"', ' ', ']', 'x']) =
    .ok (.arr [.int 1, .str (bytes ['/'])]) := rfl
  have hn : NoFloat (.arr [.int 1, .str (bytes ['/'])]) := by
    refine .arr _ fun v hv => ?_
    simp only [List.mem_cons, List.not_mem_nil, or_false] at hv
    rcases hv with rfl | rfl
    · exact .int _
    · exact .str _
  exact ⟨_, h, hn, C48_reload _ _ h hn⟩

/-- **C79.**  With floats, dumping and loading gives the same value, except that each float is off by at most half a unit in
the sixth place after the point (in exact arithmetic). -/
theorem C79_float_roundtrip (v : Value) (hv : Fine v) (tab : Str) (ht : Ws tab) (depth : Int) :
    ∃ v', loadJSON (dump tab depth v) = .ok v' ∧ Close v v' := load_dump ht depth hv

example : ∃ v', loadJSON (dumpDefault (.arr [.float (-1 / 3), .float 0])) = .ok v' ∧ Close (.arr [.float (-1 / 3), .float 0]) v' :=
  C79_float_roundtrip _ (.arr _ fun v hv => by
    simp only [List.mem_cons, List.not_mem_nil, or_false] at hv
    rcases hv with rfl | rfl <;> exact .float _) _ (by decide) 1

example : decFloat (-1 / 3) = bytes ['-', '0', '.', '3', '3', '3', '3', '3', '3'] := by decide +kernel

/-- **C49, refuted.**  A string without closing quote makes the loader read behind the end of the text. -/
theorem C49_refuted : loadJSON [byte '"'] = .ub := rfl

/-- **C49, refuted.**  So does an array which ends after a number. -/
theorem C49_array_refuted : loadJSON (bytes ['[', '1']) = .ub := rfl

/-- **C49, what holds.**  The loader ends for every text. -/
theorem C49_terminates_partial (t : Str) : loadJSON t ≠ .diverge := load_nd t

/-- **C49, what holds.**  For every JSON text (without exponents and unicode escapes, ints in range) the loader returns a
value, without undefined behaviour. -/
theorem C49_safe_partial (K : Str → Str → Prop) (t : Str) (v : Value) (h : Text K t v) : ∃ v', loadJSON t = .ok v' := by
  obtain ⟨w, w', d, hw, hw', rfl, hd⟩ := h
  obtain ⟨v', hd'⟩ := doc_escKey hd
  exact ⟨v', load_text ⟨w, w', d, hw, hw', rfl, hd'⟩⟩

/-- **C78, refuted.**  Keys are stored in escaped form: the key of `{"\n":1}` becomes a backslash and an n. -/
theorem C78_key_refuted : loadJSON (bytes ['{', '"', '\\', 'n', '"', ':', '1', '}']) =
    .ok (.obj [(bytes ['\\', 'n'], .int 1)]) := rfl

/-- **C78, refuted.**  A unicode escape is not decoded: the escape `\u0041` becomes a string of six characters. -/
theorem C78_unicode_refuted : loadJSON (bytes ['"', '\\', 'u', '0', '0', '4', '1', '"']) =
    .ok (.str (bytes ['\\', 'u', '0', '0', '4', '1'])) := rfl

/-- **C78, what holds.**  A JSON text (without exponents and unicode escapes, ints in range, any white space) is loaded as
the value it denotes, but for keys being stored in escaped form. -/
theorem C78_partial (t : Str) (v : Value) (h : Text (fun k k' => k' = jsonEscape k) t v) : loadJSON t = .ok v := load_text h

/-- **C78, what holds.**  It is loaded as the value it denotes if no key has a character that needs an escape. -/
theorem C78_plain_partial (t : Str) (v : Value)
    (h : Text (fun k k' => k' = k ∧ ∀ c ∈ k, c ∉ [byte '"', byte '\\', 8, 9, 10, 12, 13]) t v) : loadJSON t = .ok v := by
  obtain ⟨w, w', d, hw, hw', e, hd⟩ := h
  refine load_text ⟨w, w', d, hw, hw', e, doc_mono (fun k k' hk => ?_) hd⟩
  unfold EscKey
  rw [hk.1, escape_plain hk.2]

/-- the text of the following example -/
def text : Str := bytes ['\n', '{', ' ', '"', 'a', '"', ' ', ':', '[', '-', '1', '2', ' ', ',', '"', '\\', 't', '"', ']', '}', ' ']

theorem text_denotes : Text (fun k k' => k' = k ∧ ∀ c ∈ k, c ∉ [byte '"', byte '\\', 8, 9, 10, 12, 13]) text
    (.obj [(bytes ['a'], .arr [.int (-12), .str [9]])]) := by
  refine ⟨[10], [32], _, by decide, by decide, ?_, Doc.obj
    [⟨[32], bytes ['a'], bytes ['a'], [32], [], bytes ['[', '-', '1', '2', ' ', ',', '"', '\\', 't', '"', ']'], [],
      .arr [.int (-12), .str [9]]⟩]
    [(bytes ['a'], .arr [.int (-12), .str [9]])] _ (by simp) ?_ ?_ (.cons ⟨⟨rfl, by decide⟩, rfl⟩ .nil) (mapOf_self (by simp))⟩
  · decide
  · simp only [List.mem_singleton]
    rintro x rfl
    exact ⟨by decide, by decide, by decide, by decide, .plain _ (by decide) (by decide) .nil⟩
  · simp only [List.mem_singleton]
    rintro x rfl
    have h := Doc.arr (K := fun k k' => k' = k ∧ ∀ c ∈ k, c ∉ [byte '"', byte '\\', 8, 9, 10, 12, 13])
      [⟨[], bytes ['-', '1', '2'], [32], .int (-12)⟩, ⟨[], bytes ['"', '\\', 't', '"'], [], .str [9]⟩] (by simp) (by decide)
      (by
        intro x hx
        simp only [List.mem_cons, List.not_mem_nil, or_false] at hx
        rcases hx with rfl | rfl
        · exact Doc.int ⟨true, bytes ['1', '2'], none, none⟩ ⟨by decide, by simp, by simp⟩ rfl rfl (-12) (by decide)
            (by decide +kernel)
        · exact Doc.str _ [9] (.escape (byte 't') 9 (by decide) .nil))
    exact h

example : loadJSON text = .ok (.obj [(bytes ['a'], .arr [.int (-12), .str [9]])]) := C78_plain_partial _ _ text_denotes
example : ∃ v, loadJSON text = .ok v := C49_safe_partial _ _ _ text_denotes

/-- **C50, refuted.**  `1e25` is loaded as 100000: the first character of the exponent is taken for a sign. -/
theorem C50_refuted : (do .ok (← loadJSON (bytes ['1', 'e', '2', '5'])).toDouble) = Out.ok 100000 := by decide +kernel

/-- **C50, refuted.**  `1e5` has undefined behaviour (an uninitialised exponent is read). -/
theorem C50_ub_refuted : loadJSON (bytes ['1', 'e', '5']) = .ub := rfl

/-- **C50, refuted.**  A number with an exponent inside an array ends the program. -/
theorem C50_array_refuted : loadJSON (bytes ['[', '1', 'e', '+', '5', ']']) = .exit := by
  have h : (loadJSON (bytes ['[', '1', 'e', '+', '5', ']']) >>= fun v => Out.ok v.toInt) = .exit := by decide +kernel
  generalize loadJSON (bytes ['[', '1', 'e', '+', '5', ']']) = x at h ⊢
  cases x <;> first | rfl | cases h

/-- **C50, refuted.**  An integer out of range is replaced by another number. -/
theorem C50_range_refuted : (do .ok (← loadJSON (bytes ['3', '0', '0', '0', '0', '0', '0', '0', '0', '0'])).toInt) =
    Out.ok 2147483647 := by decide +kernel

/-- **C50, what holds.**  A literal without fraction and exponent is loaded as the int it denotes, if that is in range; a
literal with a fraction and without exponent is loaded as the number it denotes, in exact arithmetic.  (Theorem
`C78_partial` says so for literals anywhere inside a text.) -/
theorem C50_partial (n : Number) (h : n.Ok) (he : n.exp = none) (w w' : Str) (hw : Ws w) (hw' : Ws w') :
    (∀ i : Int, n.frac = none → n.value = i → IsInt i → loadJSON (w ++ n.text ++ w') = .ok (.int i)) ∧
    (n.frac ≠ none → loadJSON (w ++ n.text ++ w') = .ok (.float n.value)) :=
  ⟨fun i hf hv hi => load_text ⟨w, w', _, hw, hw', rfl, .int n h hf he i hi hv⟩,
    fun hf => load_text ⟨w, w', _, hw, hw', rfl, .float n h hf he⟩⟩

example : loadJSON (bytes [' ', '-', '0', '.', '2', '5']) = .ok (.float (-1 / 4)) := by
  have h := (C50_partial ⟨true, bytes ['0'], some (bytes ['2', '5']), none⟩ ⟨by decide, by simp; decide, by simp⟩ rfl [32] []
    (by decide) (by decide)).2 (by simp)
  have e : Number.value ⟨true, bytes ['0'], some (bytes ['2', '5']), none⟩ = -1 / 4 := by decide +kernel
  rw [e] at h
  exact h

/-- **C50, what holds.**  A literal with an exponent which has a sign is loaded as the number it denotes, if it is the
whole text. -/
theorem C50_exponent_partial (n : Number) (h : n.Ok) (sign : Bool) (d : Str) (he : n.exp = some (some sign, d))
    (hi : IsInt (if sign then -(nat d : Int) else nat d)) (w w' : Str) (hw : Ws w) (hw' : Ws w') :
    loadJSON (w ++ n.text ++ w') = .ok (.float n.value) := load_exp h he hi hw hw'

example : loadJSON (bytes ['1', '5', 'e', '-', '1']) = .ok (.float (3 / 2)) := by
  have h := C50_exponent_partial ⟨false, bytes ['1', '5'], none, some (some true, bytes ['1'])⟩
    ⟨by decide, by simp, by simp; decide⟩ true (bytes ['1']) rfl (by decide) [] [] (by decide) (by decide)
  have e : Number.value ⟨false, bytes ['1', '5'], none, some (some true, bytes ['1'])⟩ = 3 / 2 := by decide +kernel
  rw [e] at h
  exact h

end Json.Props
