import Verif.Proof.JsonApi

/-! # JSON, the access functions: properties C80, C81, C82, C83 -/

namespace Json.Props
open Cpp Spec

/-- **C80, what holds.**  For subscripts that are keys or indices from 0 on, `v[s1][s2]… = x` succeeds whatever is in `v`;
afterwards `x` is at that path; every element at a path that does not meet this one is still there; and nothing else has
come into being at such a path but nulls. -/
theorem C80_assign_partial (p : List Step) (hp : Indices p) (x v : Value) :
    ∃ v', update x p v = .ok v' ∧ find p v' = some x ∧
      (∀ q e, Apart p q → find q v = some e → find q v' = some e) ∧
      (∀ q e, Apart p q → find q v' = some e → find q v = some e ∨ e = .null) := update_ok p v hp

/-- **C80, what holds.**  Reading the element at a path gives that element, and leaves the object as it is, if there is
one. -/
theorem C80_read_partial (p : List Step) (hp : Indices p) (v e : Value) (ho : Ordered v) (h : find p v = some e) :
    read p v = .ok (e, v) := by
  rw [read, peek_find hp h]
  simp only [Out.ok_bind]
  rw [update_same hp ho h]
  rfl

/-- **C80, what holds.**  Assigning and reading gives the assigned value. -/
theorem C80_assign_read_partial (p : List Step) (hp : Indices p) (x v v' : Value) (h : update x p v = .ok v') :
    peek p v' = .ok x := by
  obtain ⟨w, h1, h2, _⟩ := update_ok (x := x) p v hp
  rw [h1] at h
  rw [← Out.ok.inj h]
  exact peek_find hp h2

/-- **C80, what holds.**  Assigning to a key makes it one of the keys, keeps the others, and the size grows by one just if
the key is new. -/
theorem C80_size_partial (k : Str) (x v : Value) (ho : Ordered v) :
    ∃ v', update x [.key k] v = .ok v' ∧ (∀ k', hasKey k' v' = (decide (k' = k) || hasKey k' v)) ∧
      ∀ m, v = .obj m → size v' = if hasKey k v then size v else size v + 1 := by
  refine ⟨.obj (put k x (asObj v)), rfl, fun k' => ?_, ?_⟩
  · unfold hasKey
    dsimp only
    rw [lookup_put]
    by_cases h : k' = k
    · simp [h]
    · rw [if_neg h]
      cases v <;> simp [h, asObj]
  · rintro m rfl
    cases ho with
    | obj _ hs _ =>
      unfold size hasKey asObj
      dsimp only
      rw [put_length hs]
      by_cases h : m.lookup k = none
      · simp [h]
      · simp [h, Option.isSome_iff_ne_none]

/-- **C80, what holds.**  Assigning to an index of an array makes the array just long enough. -/
theorem C80_length_partial (i : Int) (hi : 0 ≤ i ∧ i < INT_MAX) (x : Value) (l : List Value) :
    ∃ v', update x [.idx i] (.arr l) = .ok v' ∧ length v' = max (length (.arr l)) (i + 1) := by
  refine ⟨_, by rw [update_idx hi]; rfl, ?_⟩
  unfold length
  dsimp only
  rw [List.length_set]
  have := (grow_len (l := l) hi.1).2
  simp only [asArr]
  omega

/-- **C80, what holds.**  `size` is the number of different keys of an object, the number of elements of an array (which is
its `length` too), and -1 for anything else. -/
theorem C80_count_partial (v : Value) (ho : Ordered v) :
    (∀ m, v = .obj m → ∃ ks : List Str, ks.Nodup ∧ (∀ k, k ∈ ks ↔ hasKey k v = true) ∧ size v = ks.length ∧ length v = -1) ∧
    (∀ l, v = .arr l → size v = l.length ∧ length v = l.length) ∧
    ((∀ m, v ≠ .obj m) → (∀ l, v ≠ .arr l) → size v = -1 ∧ length v = -1) := by
  refine ⟨?_, ?_, ?_⟩
  · rintro m rfl
    cases ho with
    | obj _ hs _ =>
      refine ⟨m.map Prod.fst, ?_, fun k => ?_, by simp [size], rfl⟩
      · rw [List.Nodup, List.pairwise_map]
        exact hs.imp fun h e => by rw [e] at h; exact List.lt_irrefl _ h
      · rw [hasKey, lookup_eq, Option.isSome_map, List.find?_isSome, List.mem_map]
        simp
  · rintro l rfl
    exact ⟨rfl, rfl⟩
  · intro h1 h2
    cases v with
    | obj m => exact absurd rfl (h1 m)
    | arr l => exact absurd rfl (h2 l)
    | _ => exact ⟨rfl, rfl⟩

/-- a path with two keys and an index -/
def path : List Step := [.key (bytes ['a']), .idx 2, .key (bytes ['b'])]

theorem path_indices : Indices path := by
  intro i hi
  simp [path] at hi
  subst hi
  decide

/-- an object in which the path does not exist -/
def start : Value := .obj [(bytes ['a'], .arr [.int 1]), (bytes ['c'], .str [9])]

example : update (.bool true) path start =
    .ok (.obj [(bytes ['a'], .arr [.int 1, .null, .obj [(bytes ['b'], .bool true)]]), (bytes ['c'], .str [9])]) := rfl

example : Apart path [.key (bytes ['a']), .idx 0] ∧ find [.key (bytes ['a']), .idx 0] start = some (.int 1) ∧
    ∃ v', update (.bool true) path start = .ok v' ∧ find [.key (bytes ['a']), .idx 0] v' = some (.int 1) := by
  have ha : Apart path [.key (bytes ['a']), .idx 0] := .step _ (.idx (by decide) _ _)
  obtain ⟨v', h1, _, h3, _⟩ := C80_assign_partial path path_indices (.bool true) start
  exact ⟨ha, rfl, v', h1, h3 _ _ ha rfl⟩

example : peek path (.obj [(bytes ['a'], .arr [.int 1, .null, .obj [(bytes ['b'], .bool true)]]), (bytes ['c'], .str [9])]) =
    .ok (.bool true) := C80_assign_read_partial path path_indices (.bool true) start _ rfl

theorem start_ordered : Ordered start := by
  refine .obj _ (by decide) fun p hp => ?_
  simp only [List.mem_cons, List.not_mem_nil, or_false] at hp
  rcases hp with rfl | rfl
  · refine .arr _ fun v hv => ?_
    simp only [List.mem_singleton] at hv
    subst hv
    exact .int _
  · exact .str _

example : read [.key (bytes ['a']), .idx 0] start = .ok (.int 1, start) :=
  C80_read_partial _ (by intro i hi; simp at hi; subst hi; decide) _ _ start_ordered rfl

example : ∃ v', update .null [.key (bytes ['b'])] start = .ok v' ∧ size v' = 3 := by
  obtain ⟨v', h1, _, h3⟩ := C80_size_partial (bytes ['b']) .null start start_ordered
  exact ⟨v', h1, by rw [h3 _ rfl]; rfl⟩

example : ∃ ks : List Str, ks.Nodup ∧ (∀ k, k ∈ ks ↔ hasKey k start = true) ∧ ks.length = 2 := by
  obtain ⟨ks, h1, h2, h3, _⟩ := (C80_count_partial start start_ordered).1 _ rfl
  exact ⟨ks, h1, h2, by have : size start = 2 := rfl; omega⟩

example : ∃ v', update .null [.idx 4] (.arr [.int 1]) = .ok v' ∧ length v' = 5 := by
  obtain ⟨v', h1, h2⟩ := C80_length_partial 4 (by decide) .null [.int 1]
  exact ⟨v', h1, by rw [h2]; rfl⟩

/-- **C80, refuted.**  A negative index is not rejected: undefined behaviour. -/
theorem C80_refuted : update (.int 1) [.idx (-1)] (.arr [.int 5]) = .ub := rfl

/-- **C80, refuted.**  A negative index anywhere in a path is undefined behaviour, in a read access and in an assignment. -/
theorem C80_negative_refuted (p : List Step) (i : Int) (hi : i < 0) (h : .idx i ∈ p) (x v : Value) :
    read p v = .ub ∧ update x p v = .ub := by
  have hu : ∀ v, update x p v = .ub := by
    induction p with
    | nil => simp at h
    | cons s p ih =>
      intro v
      have hr : i < 0 → .idx i ∈ p → ∀ v, update x p v = .ub := fun _ h => ih h
      cases s with
      | key k =>
        unfold update
        rw [hr hi (by simpa using h)]
        rfl
      | idx j =>
        unfold update
        dsimp only
        by_cases hj : j < 0
        · rw [if_neg (by omega)]
          simp only [Out.ok_bind, if_pos hj]
        · have hm : .idx i ∈ p := by
            rcases List.mem_cons.1 h with e | h
            · cases e; omega
            · exact h
          by_cases hg : j ≥ (asArr v).length
          · rw [if_pos hg]
            unfold Cpp.int
            split
            · simp only [Out.ok_bind]
              rw [hr hi hm]
              rfl
            · rfl
          · rw [if_neg hg]
            simp only [Out.ok_bind, if_neg hj]
            rw [hr hi hm]
            rfl
  refine ⟨?_, hu v⟩
  have hp : ∀ v, peek p v = .ub := by
    clear hu
    induction p with
    | nil => simp at h
    | cons s p ih =>
      intro v
      cases s with
      | key k =>
        unfold peek
        exact ih (by simpa using h) _
      | idx j =>
        unfold peek
        by_cases hj : j < 0
        · rw [if_neg (by omega)]
          simp only [if_pos hj]
        · have hm : .idx i ∈ p := by
            rcases List.mem_cons.1 h with e | h
            · cases e; omega
            · exact h
          by_cases hg : j ≥ (asArr v).length
          · rw [if_pos hg]
            unfold Cpp.int
            split
            · simp only [Out.ok_bind]
              exact ih hm _
            · rfl
          · rw [if_neg hg]
            simp only [if_neg hj]
            exact ih hm _
  rw [read, hp v]
  rfl

example : read [.key (bytes ['a']), .idx (-1)] start = .ub :=
  (C80_negative_refuted _ (-1) (by decide) (by simp) .null start).1

/-- **C80, what holds.**  `append` puts the element after the elements of an array, and makes an array of anything else;
`Array(x1, …)` is the array of its arguments. -/
theorem C80_append_partial (xs : List Value) :
    (∀ l, appendAll xs (.arr l) = .arr (l ++ xs)) ∧ array xs = .arr xs ∧ length (array xs) = xs.length ∧
    (∀ x v, (∀ l, v ≠ .arr l) → append x v = .arr [x]) := by
  have h : array xs = .arr xs := by rw [array, appendAll_eq]; rfl
  refine ⟨appendAll_eq xs, h, by rw [h]; rfl, fun x v hv => ?_⟩
  cases v with
  | arr l => exact absurd rfl (hv l)
  | _ => rfl

example : append (.int 1) (.str [65]) = .arr [.int 1] :=
  (C80_append_partial []).2.2.2 _ _ (by intro l h; cases h)

/-- **C81, refuted.**  `at(key)` of a const object adds the key if it is missing: `hasKey` changes. -/
theorem C81_refuted : ∃ v e v', constAtKey (bytes ['k']) v = .ok (e, v') ∧ hasKey (bytes ['k']) v = false ∧
    hasKey (bytes ['k']) v' = true :=
  ⟨.obj [], .null, .obj [(bytes ['k'], .null)], rfl, rfl, rfl⟩

/-- **C81, refuted.**  `at(key)` of a const array, string or number is undefined behaviour. -/
theorem C81_type_refuted (k : Str) (v : Value) (h : ∀ m, v ≠ .obj m) : constAtKey k v = .ub := by
  cases v with
  | obj m => exact absurd rfl (h m)
  | _ => rfl

example : constAtKey (bytes ['k']) (.arr [.null]) = .ub := C81_type_refuted _ _ (by intro m h; cases h)

/-- **C81, what holds.**  `at(key)` of a const object gives the element with that key and leaves the object as it is, if
there is such an element. -/
theorem C81_key_partial (k : Str) (v e : Value) (h : find [.key k] v = some e) : constAtKey k v = .ok (e, v) := by
  obtain ⟨u, hu, hf⟩ := find_obj_of h
  cases v with
  | obj m =>
    have hu' : m.lookup k = some u := hu
    simp [find] at hf
    unfold constAtKey
    dsimp only
    rw [hu', if_neg (by simp)]
    unfold mapAt
    rw [hu', hf]
    rfl
  | _ => simp [find] at h

example : constAtKey (bytes ['c']) start = .ok (.str [9], start) := C81_key_partial _ _ _ rfl

/-- **C81, what holds.**  `at(index)` of a const array gives the element there, or throws if there is none. -/
theorem C81_index_partial (i : Nat) (l : List Value) :
    constAtIdx i (.arr l) = .ok (match find [.idx i] (.arr l) with | some e => .element e | none => .out_of_range) := by
  have : find [.idx i] (.arr l) = l[i]? := by
    rw [find, if_neg (by omega)]
    simp only [Int.toNat_natCast]
    cases l[i]? <;> rfl
  rw [this]
  rfl

example : constAtIdx 1 (.arr [.null, .int 5]) = .ok (.element (.int 5)) := C81_index_partial 1 _

/-- **C82, refuted.**  An initializer list with an odd number of elements is undefined behaviour. -/
theorem C82_odd_refuted : initList [.str (bytes ['k'])] = .ub := rfl

/-- **C82, refuted.**  A key with a character that needs an escape cannot be found with `hasKey`. -/
theorem C82_key_refuted : ∃ v, initList [.str [10], .int 1] = .ok v ∧ hasKey [10] v = false :=
  ⟨_, rfl, by decide⟩

/-- **C82, what holds.**  A list of keys (strings, without characters that need an escape) and values is made into the
object in which each key has the value given last for it, and there are no other keys. -/
theorem C82_partial (ps : List (Str × Value)) (h : ∀ p ∈ ps, ∀ c ∈ p.1, c ∉ [byte '"', byte '\\', 8, 9, 10, 12, 13]) :
    ∃ m, initList (ps.flatMap fun p => [.str p.1, p.2]) = .ok (.obj m) ∧ (m.Pairwise fun a b => a.1 < b.1) ∧
      ∀ k, find [.key k] (.obj m) = (ps.reverse.find? (fun q => q.1 = k)).map Prod.snd := by
  have he : ∀ (ps : List (Str × Value)), (∀ p ∈ ps, ∀ c ∈ p.1, c ∉ [byte '"', byte '\\', 8, 9, 10, 12, 13]) → ∀ m,
      ps.foldl (fun m p => put (jsonEscape p.1) p.2 m) m = ps.foldl (fun m p => put p.1 p.2 m) m := by
    intro ps
    induction ps with
    | nil => intro _ m; rfl
    | cons p ps ih =>
      intro h m
      rw [List.foldl_cons, List.foldl_cons, escape_plain (h p (by simp)), ih fun q hq => h q (by simp [hq])]
  refine ⟨_, by rw [initList, initGo_ok, he ps h], foldl_put_sorted ps (fun k => k) [] .nil, fun k => ?_⟩
  rw [find_key]
  show Option.bind (List.lookup k (ps.foldl (fun m p => put p.1 p.2 m) [])) _ = _
  rw [foldl_put_lookup]
  cases ps.reverse.find? (fun q => q.1 = k) <;> rfl

example : ∃ m, initList [.str (bytes ['b']), .int 1, .str (bytes ['a']), .null, .str (bytes ['b']), .int 2] = .ok (.obj m) ∧
    find [.key (bytes ['b'])] (.obj m) = some (.int 2) := by
  obtain ⟨m, h1, _, h2⟩ := C82_partial [(bytes ['b'], .int 1), (bytes ['a'], .null), (bytes ['b'], .int 2)] (by decide)
  exact ⟨m, h1, by rw [h2]; rfl⟩

/-- **C83, refuted.**  `toString()` does not give back the string that is stored: it is escaped. -/
theorem C83_refuted : Value.toString (.str [10]) = bytes ['\\', 'n'] := by decide

/-- **C83, what holds.**  The number and boolean getters give back what is stored, and so does `toString()` for a string
without characters that need an escape; they give 0, false or "" for the other types. -/
theorem C83_partial :
    (∀ i, Value.toInt (.int i) = i) ∧ (∀ q, Value.toDouble (.float q) = q) ∧ (∀ b, Value.toBool (.bool b) = b) ∧
    (∀ s, (∀ c ∈ s, c ∉ [byte '"', byte '\\', 8, 9, 10, 12, 13]) → Value.toString (.str s) = s) ∧
    (∀ v : Value, (∀ i, v ≠ .int i) → v.toInt = 0) ∧ (∀ v : Value, (∀ q, v ≠ .float q) → v.toDouble = 0) ∧
    (∀ v : Value, (∀ b, v ≠ .bool b) → v.toBool = false) ∧ (∀ v : Value, (∀ s, v ≠ .str s) → v.toString = []) := by
  refine ⟨fun _ => rfl, fun _ => rfl, fun _ => rfl, fun s hs => escape_plain hs, fun v h => ?_, fun v h => ?_,
    fun v h => ?_, fun v h => ?_⟩
  all_goals cases v with
    | null => rfl
    | bool b => first | rfl | exact absurd rfl (h b)
    | int b => first | rfl | exact absurd rfl (h b)
    | float b => first | rfl | exact absurd rfl (h b)
    | str b => first | rfl | exact absurd rfl (h b)
    | arr b => rfl
    | obj b => rfl

example : Value.toString (.str (bytes ['o', 'k'])) = bytes ['o', 'k'] := C83_partial.2.2.2.1 _ (by decide)
example : Value.toInt (.str (bytes ['1'])) = 0 := C83_partial.2.2.2.2.1 _ (by intro i h; cases h)

end Json.Props
