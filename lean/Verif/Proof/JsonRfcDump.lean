import Verif.Spec.JsonRfcDump
import Verif.Proof.JsonDump
import Verif.Proof.JsonLooseRfc

/-! # Helper lemmas: dumped values and the syntax of RFC 8259 -/

namespace Json
open Cpp Spec

/-! ## numbers -/

theorem decNat_noZero (n : Nat) : (decNat n).head? = some 48 → decNat n = [48] := by
  unfold decNat
  split
  · intro _; decide
  · rename_i h
    intro hh
    exfalso
    have hd : Nat.digits 10 n ≠ [] := Nat.digits_ne_nil_iff_ne_zero.2 h
    rw [List.head?_reverse, List.getLast?_map, List.getLast?_eq_getLast_of_ne_nil hd] at hh
    simp only [Option.map_some, Option.some.injEq] at hh
    have h1 := Nat.getLast_digit_ne_zero 10 h
    have h2 := Nat.digits_lt_base (b := 10) (by omega) (List.getLast_mem hd)
    have := (digit_byte h2).1
    rw [hh] at this
    have e : (48 : Byte).toNat = 48 := rfl
    omega

/-! ## strings -/

theorem writable_rbody {s : Str} (h : Writable s) : RBody (jsonEscape s) := by
  rw [jsonEscape_eq]
  induction s with
  | nil => exact .nil
  | cons c s ih =>
    rw [List.flatMap_cons]
    have ih := ih (fun d hd => h d (by simp [hd]))
    rcases escapeChar_cases c with ⟨e, hn⟩ | ⟨p, hp, e1, e2, -⟩
    · rw [e]
      simp at hn
      refine .plain c hn.1 hn.2.1 ?_ ih
      rcases h c (by simp) with h | h | h | h | h | h
      · exact h
      all_goals simp [h] at hn
    · rw [e2]
      exact .escape p hp ih

theorem rbody_chars {t : Str} (h : RBody t) : ∀ c ∈ t, 32 ≤ c := by
  induction h with
  | nil => simp
  | plain c _ _ hc _ ih => intro d hd; rcases List.mem_cons.1 hd with rfl | hd; exacts [hc, ih d hd]
  | escape p hp _ ih =>
    intro d hd
    simp only [List.mem_cons] at hd
    rcases hd with rfl | rfl | hd
    · decide
    · have : ∀ q ∈ escapes, (32 : Byte) ≤ q.1 := by decide
      exact this p hp
    · exact ih d hd
  | unicode h hl hh _ ih =>
    intro d hd
    simp only [List.mem_cons, List.mem_append] at hd
    rcases hd with rfl | rfl | hd | hd
    · decide
    · decide
    · have : ∀ c : Byte, Hex c → 32 ≤ c := by unfold Hex; exact forall_byte (by decide +kernel)
      exact this d (hh d hd)
    · exact ih d hd

theorem rbody_writable {s : Str} (h : RBody (jsonEscape s)) : Writable s := by
  intro c hc
  have hm := rbody_chars h
  rw [jsonEscape_eq] at hm
  rcases escapeChar_cases c with ⟨e, -⟩ | ⟨p, hp, e1, -, -⟩
  · exact .inl (hm c (List.mem_flatMap.2 ⟨c, hc, by rw [e]; simp⟩))
  · have : ∀ q ∈ escapes, (32 : Byte) ≤ q.2 ∨ q.2 = 8 ∨ q.2 = 9 ∨ q.2 = 10 ∨ q.2 = 12 ∨ q.2 = 13 := by decide
    exact e1 ▸ this p hp

/-! ## values -/

theorem dumpArr_around {tab : Str} {depth : Int} (l : List Value) (hne : l ≠ [])
    (h : ∀ v ∈ l, Rfc false (dump tab (depth + 1) v)) :
    ∀ pre : Str, Ws pre → ∃ xs : List Around, xs ≠ [] ∧ (∀ x ∈ xs, x.Ok) ∧ (∀ x ∈ xs, Rfc false x.text) ∧
      commas (xs.map Around.full) = pre ++ dumpArr tab depth l := by
  induction l with
  | nil => exact absurd rfl hne
  | cons v l ih =>
    intro pre hpre
    have hd := h v (by simp)
    by_cases hl : l = []
    · subst hl
      refine ⟨[⟨pre, dump tab (depth + 1) v, []⟩], by simp, ?_, ?_, ?_⟩
      · simp [Around.Ok, Ws]; exact hpre
      · simp [hd]
      · simp [commas, Around.full, dumpArr]
    · obtain ⟨xs, hne', hw, hds, he⟩ := ih hl (fun u hu => h u (by simp [hu])) [32] (by simp [Ws])
      refine ⟨⟨pre, dump tab (depth + 1) v, []⟩ :: xs, by simp, ?_, ?_, ?_⟩
      · intro x hx
        rcases List.mem_cons.1 hx with rfl | hx
        · exact ⟨hpre, by simp [Ws]⟩
        · exact hw x hx
      · intro x hx
        rcases List.mem_cons.1 hx with rfl | hx
        · exact hd
        · exact hds x hx
      · rw [List.map_cons, commas_cons _ (by simpa using hne'), he]
        have : dumpArr tab depth (v :: l) = dump tab (depth + 1) v ++ bytes [',', ' '] ++ dumpArr tab depth l := by
          cases l with
          | nil => exact absurd rfl hl
          | cons u l => rfl
        rw [this]
        simp [Around.full, bytes, show byte ' ' = 32 by decide]

theorem dumpObj_around {tab : Str} (htab : Ws tab) {depth : Int} {post : Str} (hpost : Ws post) (m : List (Str × Value))
    (hne : m ≠ []) (hk : ∀ p ∈ m, RBody p.1) (h : ∀ p ∈ m, Rfc false (dump tab (depth + 1) p.2)) :
    ∀ pre : Str, Ws pre → ∃ xs : List (Around × Around), xs ≠ [] ∧ (∀ x ∈ xs, x.1.Ok ∧ x.2.Ok) ∧
      (∀ x ∈ xs, ∃ t, RBody t ∧ x.1.text = [byte '"'] ++ t ++ [byte '"']) ∧ (∀ x ∈ xs, Rfc false x.2.text) ∧
      commas (xs.map fun x => x.1.full ++ [byte ':'] ++ x.2.full) = pre ++ dumpObj tab depth m ++ post := by
  induction m with
  | nil => exact absurd rfl hne
  | cons q m ih =>
    intro pre hpre
    obtain ⟨k, v⟩ := q
    have hd := h (k, v) (by simp)
    have hs := hk (k, v) (by simp)
    have hpad := padding_ws htab depth
    by_cases hl : m = []
    · subst hl
      refine ⟨[(⟨pre ++ padding depth tab, [byte '"'] ++ k ++ [byte '"'], [32]⟩, ⟨[32], dump tab (depth + 1) v, post⟩)],
        by simp, ?_, ?_, ?_, ?_⟩
      · simp only [List.mem_singleton]
        rintro x rfl
        exact ⟨⟨ws_append hpre hpad, by simp [Ws]⟩, ⟨by simp [Ws], hpost⟩⟩
      · simp only [List.mem_singleton]
        rintro x rfl
        exact ⟨k, hs, rfl⟩
      · simp [hd]
      · simp [commas, Around.full, dumpObj, bytes, show byte ' ' = 32 by decide]
    · obtain ⟨xs, hne', hw, hks, hds, he⟩ := ih hl (fun u hu => hk u (by simp [hu])) (fun u hu => h u (by simp [hu]))
        [10] (by simp [Ws])
      refine ⟨(⟨pre ++ padding depth tab, [byte '"'] ++ k ++ [byte '"'], [32]⟩, ⟨[32], dump tab (depth + 1) v, []⟩) :: xs,
        by simp, ?_, ?_, ?_, ?_⟩
      · intro x hx
        rcases List.mem_cons.1 hx with rfl | hx
        · exact ⟨⟨ws_append hpre hpad, by simp [Ws]⟩, ⟨by simp [Ws], by simp [Ws]⟩⟩
        · exact hw x hx
      · intro x hx
        rcases List.mem_cons.1 hx with rfl | hx
        · exact ⟨k, hs, rfl⟩
        · exact hks x hx
      · intro x hx
        rcases List.mem_cons.1 hx with rfl | hx
        · exact hd
        · exact hds x hx
      · rw [List.map_cons, commas_cons _ (by simpa using hne'), he]
        have : dumpObj tab depth ((k, v) :: m) = padding depth tab ++ bytes ['"'] ++ k ++
            bytes ['"', ' ', ':', ' '] ++ dump tab (depth + 1) v ++ bytes [',', '\n'] ++ dumpObj tab depth m := by
          cases m with
          | nil => exact absurd rfl hl
          | cons u m => rfl
        rw [this]
        simp [Around.full, bytes, show byte ' ' = 32 by decide, show byte '\n' = 10 by decide]

theorem clean_rfc {tab : Str} (htab : Ws tab) {v : Value} (hv : Clean v) : ∀ depth : Int, Rfc false (dump tab depth v) := by
  induction hv with
  | null => exact fun depth => .null
  | bool b =>
    intro depth
    cases b
    · exact .false
    · exact .true
  | int i =>
    intro depth
    have := Rfc.num (E := false) (numInt i) (numInt_ok i) (decNat_noZero _) rfl
    rwa [numInt_text] at this
  | float q =>
    intro depth
    have := Rfc.num (E := false) (numFloat q) (numFloat_ok q) (decNat_noZero _) rfl
    rwa [numFloat_text] at this
  | str s h => exact fun depth => .str _ (writable_rbody h)
  | arr l h ih =>
    intro depth
    by_cases hl : l = []
    · subst hl
      exact .arr0 [] (by simp [Ws])
    · obtain ⟨xs, hne, hw, hd, he⟩ := dumpArr_around l hl (fun v hv => ih v hv (depth + 1)) [] (by simp [Ws])
      have := Rfc.arr xs hne hw hd
      rwa [he] at this
  | obj m hk h ih =>
    intro depth
    have hpost : Ws (bytes ['\n'] ++ (padding depth tab).drop 2) :=
      ws_append (by decide) (ws_drop (padding_ws htab depth) 2)
    by_cases hm : m = []
    · subst hm
      have := Rfc.obj0 (E := false) (bytes ['\n'] ++ (bytes ['\n'] ++ (padding depth tab).drop 2)) (ws_append (by decide) hpost)
      simpa [dump, dumpObj, bytes] using this
    · obtain ⟨xs, hne, hw, hks, hd, he⟩ := dumpObj_around htab (depth := depth) hpost m hm hk
        (fun p hp => ih p hp (depth + 1)) (bytes ['\n']) (by decide)
      have := Rfc.obj xs hne hw hks hd
      rw [he] at this
      simpa [dump, bytes] using this

/-! ## the characters of a JSON text -/

/-- a character that may stand in a JSON text -/
def TextChar (c : Byte) : Prop := 32 ≤ c ∨ c = 9 ∨ c = 10 ∨ c = 13

theorem ws_textChar {w : Str} (h : Ws w) : ∀ c ∈ w, TextChar c := by
  intro c hc
  rcases h c hc with rfl | rfl | rfl | rfl <;> (unfold TextChar; decide)

theorem digits_textChar {w : Str} (h : Digits w) : ∀ c ∈ w, TextChar c := by
  intro c hc
  have : ∀ c : Byte, 48 ≤ c ∧ c ≤ 57 → TextChar c := by unfold TextChar; exact forall_byte (by decide +kernel)
  exact this c (h.2 c hc)

theorem chars_append {a b : Str} (ha : ∀ c ∈ a, TextChar c) (hb : ∀ c ∈ b, TextChar c) : ∀ c ∈ a ++ b, TextChar c := by
  intro c hc
  rcases List.mem_append.1 hc with h | h
  exacts [ha c h, hb c h]

theorem chars_commas {l : List Str} (h : ∀ t ∈ l, ∀ c ∈ t, TextChar c) : ∀ c ∈ commas l, TextChar c := by
  induction l with
  | nil => simp [commas]
  | cons t l ih =>
    by_cases hl : l = []
    · subst hl; simpa [commas] using h t (by simp)
    · rw [commas_cons _ hl]
      refine chars_append (h t (by simp)) ?_
      intro c hc
      rcases List.mem_cons.1 hc with rfl | hc
      · unfold TextChar; decide
      · exact ih (fun u hu => h u (by simp [hu])) c hc

theorem chars_full {x : Around} (h : x.Ok) (ht : ∀ c ∈ x.text, TextChar c) : ∀ c ∈ x.full, TextChar c :=
  chars_append (chars_append (ws_textChar h.1) ht) (ws_textChar h.2)

theorem number_chars {n : Number} (h : n.Ok) (he : n.exp = none) : ∀ c ∈ n.text, TextChar c := by
  unfold Number.text
  rw [he]
  refine chars_append (chars_append (chars_append ?_ (digits_textChar h.1)) ?_) (by simp)
  · split
    · unfold TextChar; decide
    · simp
  · cases hf : n.frac with
    | none => simp
    | some f =>
      intro c hc
      rcases List.mem_cons.1 hc with rfl | hc
      · unfold TextChar; decide
      · exact digits_textChar (h.2.1 f hf) c hc

theorem rfc_chars {E : Bool} {t : Str} (h : Rfc E t) : ∀ c ∈ t, TextChar c := by
  induction h with
  | null => unfold TextChar; decide
  | true => unfold TextChar; decide
  | false => unfold TextChar; decide
  | num n h _ he => exact number_chars h he
  | exp n h _ he _ e h' sign ds hs hd =>
    refine chars_append (chars_append (number_chars h he) ?_) (digits_textChar hd)
    rcases h' with rfl | rfl <;> rcases hs with rfl | rfl | rfl <;> (unfold TextChar; decide)
  | str t h =>
    exact chars_append (chars_append (by unfold TextChar; decide) fun c hc => .inl (rbody_chars h c hc)) (by unfold TextChar; decide)
  | arr0 w h => exact chars_append (chars_append (by unfold TextChar; decide) (ws_textChar h)) (by unfold TextChar; decide)
  | obj0 w h => exact chars_append (chars_append (by unfold TextChar; decide) (ws_textChar h)) (by unfold TextChar; decide)
  | arr l hne hw h ih =>
    refine chars_append (chars_append (by unfold TextChar; decide) (chars_commas ?_)) (by unfold TextChar; decide)
    intro t ht
    obtain ⟨x, hx, rfl⟩ := List.mem_map.1 ht
    exact chars_full (hw x hx) (ih x hx)
  | obj l hne hw hk h ih =>
    refine chars_append (chars_append (by unfold TextChar; decide) (chars_commas ?_)) (by unfold TextChar; decide)
    intro t ht
    obtain ⟨x, hx, rfl⟩ := List.mem_map.1 ht
    refine chars_append (chars_append (chars_full (hw x hx).1 ?_) (by unfold TextChar; decide)) (chars_full (hw x hx).2 (ih x hx))
    obtain ⟨b, hb, e⟩ := hk x hx
    rw [e]
    exact chars_append (chars_append (by unfold TextChar; decide) fun c hc => .inl (rbody_chars hb c hc)) (by unfold TextChar; decide)

theorem rfcText_chars {E : Bool} {t : Str} (h : RfcText E t) : ∀ c ∈ t, TextChar c := by
  obtain ⟨x, hx, hr, rfl⟩ := h
  exact chars_full hx (rfc_chars hr)

theorem escape_chars_writable {s : Str} (h : ∀ c ∈ jsonEscape s, TextChar c) : Writable s := by
  intro c hc
  rw [jsonEscape_eq] at h
  rcases escapeChar_cases c with ⟨e, hn⟩ | ⟨p, hp, e1, -, -⟩
  · rcases h c (List.mem_flatMap.2 ⟨c, hc, by rw [e]; simp⟩) with h | h | h | h
    · exact .inl h
    all_goals exact .inr (by simp [h])
  · have : ∀ q ∈ escapes, (32 : Byte) ≤ q.2 ∨ q.2 = 8 ∨ q.2 = 9 ∨ q.2 = 10 ∨ q.2 = 12 ∨ q.2 = 13 := by decide
    exact e1 ▸ this p hp

theorem mem_dumpArr {tab : Str} {depth : Int} {l : List Value} {v : Value} (hv : v ∈ l) :
    ∀ c ∈ dump tab (depth + 1) v, c ∈ dumpArr tab depth l := by
  induction l with
  | nil => simp at hv
  | cons u l ih =>
    intro c hc
    by_cases hl : l = []
    · subst hl
      simp only [List.mem_singleton] at hv
      subst hv
      exact hc
    · have : dumpArr tab depth (u :: l) = dump tab (depth + 1) u ++ bytes [',', ' '] ++ dumpArr tab depth l := by
        cases l with
        | nil => exact absurd rfl hl
        | cons u l => rfl
      rw [this]
      rcases List.mem_cons.1 hv with rfl | hv
      · simp [hc]
      · simp [ih hv c hc]

theorem mem_dumpObj {tab : Str} {depth : Int} {m : List (Str × Value)} {p : Str × Value} (hp : p ∈ m) :
    (∀ c ∈ p.1, c ∈ dumpObj tab depth m) ∧ ∀ c ∈ dump tab (depth + 1) p.2, c ∈ dumpObj tab depth m := by
  induction m with
  | nil => simp at hp
  | cons q m ih =>
    obtain ⟨k, v⟩ := q
    by_cases hl : m = []
    · subst hl
      simp only [List.mem_singleton] at hp
      subst hp
      exact ⟨fun c hc => by simp [dumpObj, hc], fun c hc => by simp [dumpObj, hc]⟩
    · have : dumpObj tab depth ((k, v) :: m) = padding depth tab ++ bytes ['"'] ++ k ++
          bytes ['"', ' ', ':', ' '] ++ dump tab (depth + 1) v ++ bytes [',', '\n'] ++ dumpObj tab depth m := by
        cases m with
        | nil => exact absurd rfl hl
        | cons u m => rfl
      rw [this]
      rcases List.mem_cons.1 hp with rfl | hp
      · exact ⟨fun c hc => by simp [hc], fun c hc => by simp [hc]⟩
      · exact ⟨fun c hc => by simp [(ih hp).1 c hc], fun c hc => by simp [(ih hp).2 c hc]⟩

theorem chars_clean {tab : Str} {v : Value} (hv : Fine v) :
    ∀ depth : Int, (∀ c ∈ dump tab depth v, TextChar c) → Clean v := by
  induction hv with
  | null => exact fun _ _ => .null
  | bool b => exact fun _ _ => .bool b
  | int i => exact fun _ _ => .int i
  | float q => exact fun _ _ => .float q
  | str s =>
    intro depth h
    exact .str s (escape_chars_writable fun c hc => h c (by simp [dump, hc]))
  | arr l _ ih =>
    intro depth h
    exact .arr l fun v hv => ih v hv (depth + 1) fun c hc => h c (by simp [dump, mem_dumpArr hv c hc])
  | obj m _ hk _ ih =>
    intro depth h
    refine .obj m (fun p hp => ?_) fun p hp =>
      ih p hp (depth + 1) fun c hc => h c (by simp [dump, (mem_dumpObj hp).2 c hc])
    obtain ⟨s, hs⟩ := hk p hp
    rw [hs]
    refine writable_rbody (escape_chars_writable fun c hc => h c ?_)
    rw [← hs] at hc
    simp [dump, (mem_dumpObj (tab := tab) (depth := depth) hp).1 c hc]

theorem rfc_clean {E : Bool} {tab : Str} {depth : Int} {v : Value} (hv : Fine v) (h : RfcText E (dump tab depth v)) : Clean v :=
  chars_clean hv depth (rfcText_chars h)

end Json
