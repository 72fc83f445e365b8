import Verif.Proof.JsonApi

/-! # JSON: the exact behaviour behind the refutations of C82 and C83 -/

namespace Json.Props
open Cpp Spec

/-- **C83, exact.**  `toString()` gives back the string that is stored just if none of its characters needs an escape;
otherwise the result is longer. -/
theorem C83_exact_partial (s : Str) :
    (Value.toString (.str s) = s ↔ ∀ c ∈ s, c ∉ [byte '"', byte '\\', 8, 9, 10, 12, 13]) ∧
    (Value.toString (.str s)).length = s.length + s.countP (fun c => decide (c ∈ [byte '"', byte '\\', 8, 9, 10, 12, 13])) := by
  have hl : (Value.toString (.str s)).length =
      s.length + s.countP (fun c => decide (c ∈ [byte '"', byte '\\', 8, 9, 10, 12, 13])) := by
    show (jsonEscape s).length = _
    rw [jsonEscape_eq]
    have h0 : ∀ n : Fin 256, (escapeChar (UInt8.ofNat n)).length =
        1 + if UInt8.ofNat n ∈ [byte '"', byte '\\', 8, 9, 10, 12, 13] then 1 else 0 := by decide +kernel
    have h1 : ∀ c : Byte, (escapeChar c).length = 1 + if c ∈ [byte '"', byte '\\', 8, 9, 10, 12, 13] then 1 else 0 := by
      intro c
      have := h0 ⟨c.toNat, c.toNat_lt⟩
      rwa [show UInt8.ofNat (⟨c.toNat, c.toNat_lt⟩ : Fin 256).val = c from UInt8.ofNat_toNat] at this
    induction s with
    | nil => rfl
    | cons c s ih =>
      rw [List.flatMap_cons, List.length_append, ih, h1, List.countP_cons, List.length_cons]
      simp only [decide_eq_true_eq]
      omega
  refine ⟨⟨fun h c hc hm => ?_, fun h => escape_plain h⟩, hl⟩
  rw [h] at hl
  have h0 : s.countP (fun c => decide (c ∈ [byte '"', byte '\\', 8, 9, 10, 12, 13])) = 0 := by omega
  rw [List.countP_eq_zero] at h0
  exact h0 c hc (by simpa using hm)

example : Value.toString (.str (bytes ['a', '"', 'b'])) ≠ bytes ['a', '"', 'b'] :=
  fun h => (C83_exact_partial _).1.1 h (byte '"') (by decide) (by decide)

/-- **C82, refuted.**  Every initializer list with an odd number of elements is undefined behaviour. -/
theorem C82_odd_all_refuted (l : List Value) (h : l.length % 2 = 1) : initList l = .ub := by
  have key : ∀ (n : Nat) (l : List Value) (v : Value), l.length = 2 * n + 1 → initGo l v = .ub := by
    intro n
    induction n with
    | zero =>
      intro l v h
      match l, h with
      | [x], _ => rfl
    | succ n ih =>
      intro l v h
      match l, h with
      | k :: x :: l, h =>
        rw [initGo]
        exact ih l _ (by simp at h; omega)
  exact key (l.length / 2) l _ (by omega)

example : initList [.str (bytes ['a']), .int 1, .str (bytes ['b'])] = .ub := C82_odd_all_refuted _ (by decide)

/-- **C82, exact.**  For keys of all kinds: the value is found under the key as `toString()` gives it, that is, with its
escapes written out.  Of several values for one key the last counts, and there are no other keys. -/
theorem C82_exact_partial (ps : List (Str × Value)) :
    ∃ m, initList (ps.flatMap fun p => [.str p.1, p.2]) = .ok (.obj m) ∧ (m.Pairwise fun a b => a.1 < b.1) ∧
      ∀ k, find [.key k] (.obj m) = (ps.reverse.find? (fun q => Value.toString (.str q.1) = k)).map Prod.snd := by
  refine ⟨_, by rw [initList, initGo_ok], foldl_put_sorted ps jsonEscape [] .nil, fun k => ?_⟩
  have h : ps.foldl (fun m p => put (jsonEscape p.1) p.2 m) [] =
      (ps.map fun p => (jsonEscape p.1, p.2)).foldl (fun m p => put p.1 p.2 m) [] := by rw [List.foldl_map]
  rw [find_key, h, foldl_put_lookup, ← List.map_reverse, List.find?_map]
  have e : ((fun q : Str × Value => decide (q.1 = k)) ∘ fun p : Str × Value => (jsonEscape p.1, p.2)) =
      fun q => decide (Value.toString (.str q.1) = k) := rfl
  rw [e]
  cases ps.reverse.find? (fun q => decide (Value.toString (.str q.1) = k)) <;> rfl

/-- **C82, refuted.**  A key with a backspace, tab, newline, form feed or carriage return in it is never found. -/
theorem C82_lost_refuted (ps : List (Str × Value)) (k : Str) (c : Byte) (hc : c ∈ k)
    (hs : c ∈ [(8 : Byte), 9, 10, 12, 13]) : ∃ v, initList (ps.flatMap fun p => [.str p.1, p.2]) = .ok v ∧
      hasKey k v = false := by
  obtain ⟨m, h1, _, h3⟩ := C82_exact_partial ps
  refine ⟨.obj m, h1, ?_⟩
  have h4 := h3 k
  have hne : ∀ s : Str, jsonEscape s ≠ k := by
    intro s hsk
    rw [jsonEscape_eq] at hsk
    rw [← hsk, List.mem_flatMap] at hc
    obtain ⟨a, _, ha⟩ := hc
    have key : ∀ n : Fin 256, ∀ c ∈ [(8 : Byte), 9, 10, 12, 13], c ∉ escapeChar (UInt8.ofNat n) := by decide +kernel
    have := key ⟨a.toNat, a.toNat_lt⟩ c hs
    rw [show UInt8.ofNat (⟨a.toNat, a.toNat_lt⟩ : Fin 256).val = a from UInt8.ofNat_toNat] at this
    exact this ha
  have h5 : ps.reverse.find? (fun q => Value.toString (.str q.1) = k) = none := by
    rw [List.find?_eq_none]
    intro q _ hk
    exact hne q.1 (of_decide_eq_true hk)
  rw [h5, find_key] at h4
  show (m.lookup k).isSome = false
  cases h6 : m.lookup k with
  | none => rfl
  | some e =>
    rw [h6] at h4
    cases h4

example : ∃ v, initList ([([10], .int 1), (bytes ['k'], .int 2)].flatMap fun p : Str × Value => [.str p.1, p.2]) = .ok v ∧
    hasKey [10] v = false := C82_lost_refuted _ _ 10 (by decide) (by decide)

example : ∃ m, initList [.str [10], .int 1] = .ok (.obj m) ∧ find [.key (bytes ['\\', 'n'])] (.obj m) = some (.int 1) := by
  obtain ⟨m, h1, _, h2⟩ := C82_exact_partial [([10], .int 1)]
  exact ⟨m, h1, by rw [h2]; rfl⟩

/-- **C81, refuted for every object and every key it does not have.**  `at(key)` of a const object inserts the key, with
the value null, and leaves everything else alone. -/
theorem C81_insert_refuted (k : Str) (m : List (Str × Value)) (ho : Ordered (.obj m)) (h : hasKey k (.obj m) = false) :
    ∃ v', constAtKey k (.obj m) = .ok (.null, v') ∧ hasKey k v' = true ∧ size v' = size (.obj m) + 1 ∧
      find [.key k] v' = some .null ∧ ∀ k', k' ≠ k → find [.key k'] v' = find [.key k'] (.obj m) := by
  have hn : m.lookup k = none := by
    unfold hasKey at h
    simpa using h
  refine ⟨.obj (put k .null m), ?_, ?_, ?_, ?_, fun k' hk => ?_⟩
  · unfold constAtKey mapAt
    simp [hn]
  · unfold hasKey
    simp [lookup_put]
  · cases ho with
    | obj _ hs _ =>
      unfold size
      dsimp only
      rw [put_length hs]
      simp [hn]
  · simp [find, find?_put]
  · simp [find, find?_put, hk]

example : ∃ v', constAtKey (bytes ['k']) (.obj [(bytes ['a'], .int 1)]) = .ok (.null, v') ∧ size v' = 2 := by
  obtain ⟨v', h1, -, h2, -⟩ := C81_insert_refuted (bytes ['k']) [(bytes ['a'], .int 1)]
    (.obj _ (by simp) (by simp; exact .int 1)) (by decide)
  exact ⟨v', h1, h2⟩

end Json.Props
