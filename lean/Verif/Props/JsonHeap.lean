import Verif.Proof.JsonHeapRun

/-!
# Properties of the memory management of `JSONObject`

A program constructs, copies, moves, assigns, fills and destroys `JSONObject` variables (`Stmt`).  `vrun` is what it
means for independent values (Spec/JsonHeap.lean), `run` is what the code does with pointers.  `run` has a bound on the
depth of recursion; the theorems hold for every bound from some `N` on.
-/

namespace Json.Mem
open Cpp

/-- the program starts without variables -/
def start : State := ⟨Heap.empty, []⟩

/-- a program used in the examples: fill `x`, copy a part, assign parts to other parts, append, move -/
def sample : List Stmt :=
  [.new, .scalar 0 [.key [97], .idx 2] (.int 5), .scalar 0 [.key [98]] (.str [120]), .copy 0 [.key [97]],
   .assign 1 [.idx 0] 0 [.key [98]], .assign 0 [.key [98]] 0 [.key [97]], .append 1 [.idx 4] 0 [.key [98], .idx 2],
   .moveAssign 0 [.key [99]] 0 [.key [98]]]

/-- what `sample` leaves: `x = {"a": [null, null, 5], "b": null, "c": [null, null, 5]}`, `y = ["x", null, 5, null, [5]]` -/
def sampleValues : List (Option Value) :=
  [some (.obj [([97], .arr [.null, .null, .int 5]), ([98], .null), ([99], .arr [.null, .null, .int 5])]),
   some (.arr [.str [120], .null, .int 5, .null, .arr [.int 5]])]

theorem sample_ok : vrun [] sample = .ok sampleValues := by rfl

/-- Every program whose assignments have separate sources and targets does what it means for independent values, without
undefined behaviour: each variable stands for its value, and no two variables share memory. -/
theorem C113_independent_values {prog : List Stmt} {vs : List (Option Value)} (ha : ∀ c ∈ prog, c.Apart)
    (hv : vrun [] prog = .ok vs) :
    ∃ N s, (∀ n ≥ N, run n start prog = .ok s) ∧
      ∃ F : Nat → Multiset Nat,
        (∀ x v, vs[x]? = some (some v) → ∃ o, s.vars[x]? = some (some o) ∧ Rep s.heap.cell o v (F x)) ∧
        (∀ x, (F x).Nodup) ∧ ∀ x y z, x ≠ y → z ∈ F x → z ∉ F y := by
  obtain ⟨N, s, F, h1, I⟩ := run_rep prog inv_empty ha hv
  refine ⟨N, s, h1, F, fun x v hx => ?_, I.nodup, I.disj⟩
  obtain ⟨o, _, h2, h3, _⟩ := I.get (vvar_ok.2 (get_some.2 hx))
  exact ⟨o, get_some.1 h2, h3⟩

example : (∀ c ∈ sample, c.Apart) ∧ vrun [] sample = .ok sampleValues :=
  ⟨by simp [sample, Stmt.Apart, Diverge], sample_ok⟩

/-- A value is read off the memory in one way: `Rep` determines it. -/
theorem C113_value_is_determined {c : Cells} {o : Nat} {v w : Value} {F G : Multiset Nat} (h : Rep c o v F) (h' : Rep c o w G) :
    v = w :=
  (h.unique h').1

example : ∃ c : Cells, Rep c 0 (.arr [.str [97]]) ({0} + ({1} + ({2} + {3} + 0))) :=
  ⟨fun z => if z = 0 then some (.obj .array (.ptr 1)) else if z = 1 then some (.list [2])
    else if z = 2 then some (.obj .string (.ptr 3)) else if z = 3 then some (.str [97]) else none,
   _, _, _, rfl, .arr rfl (.cons rfl (.str rfl) .nil), rfl⟩

/-- `x = x` is undefined when `x` is a string, an array or an object: the memory is freed before it is copied. -/
theorem C114_self_assignment_refuted {prog : List Stmt} {vs : List (Option Value)} {x : Nat} {v : Value}
    (ha : ∀ c ∈ prog, c.Apart) (hv : vrun [] prog = .ok vs) (hx : vs[x]? = some (some v))
    (ho : (∃ s, v = .str s) ∨ (∃ l, v = .arr l) ∨ ∃ m, v = .obj m) :
    ∃ N, ∀ n ≥ N, run n start (prog ++ [.assign x [] x []]) = .ub := by
  obtain ⟨N, s, F, h1, I⟩ := run_rep prog inv_empty ha hv
  have ho' : owns v = true := by rcases ho with ⟨_, rfl⟩ | ⟨_, rfl⟩ | ⟨_, rfl⟩ <;> rfl
  obtain ⟨N', h2⟩ := step_self I (vvar_ok.2 (get_some.2 hx)) ho'
  refine ⟨max N N', fun n hn => ?_⟩
  have this : run n start prog = .ok s := h1 n (by omega)
  rw [run_append, this, Out.ok_bind, h2 n (by omega)]

example : ∃ N, ∀ n ≥ N, run n start (sample ++ [.assign 1 [] 1 []]) = .ub :=
  C114_self_assignment_refuted (by simp [sample, Stmt.Apart, Diverge]) sample_ok rfl (.inr (.inl ⟨_, rfl⟩))

/-- `x = x[p]` and `x = std::move(x[p])` are undefined for every element `x[p]` of `x`: it is destroyed before it is read. -/
theorem C114_own_element_refuted {prog : List Stmt} {vs : List (Option Value)} {x : Nat} {v e : Value} {p : List Step}
    (ha : ∀ c ∈ prog, c.Apart) (hv : vrun [] prog = .ok vs) (hx : vs[x]? = some (some v)) (hp : p ≠ [])
    (he : peek p v = .ok e) :
    ∃ N, ∀ n ≥ N, run n start (prog ++ [.assign x [] x p]) = .ub ∧ run n start (prog ++ [.moveAssign x [] x p]) = .ub := by
  obtain ⟨N, s, F, h1, I⟩ := run_rep prog inv_empty ha hv
  obtain ⟨N', h2⟩ := step_own I hp (vvar_ok.2 (get_some.2 hx)) he
  refine ⟨max N N', fun n hn => ?_⟩
  have h3 : run n start prog = .ok s := h1 n (by omega)
  have h4 := h2 n (by omega)
  rw [run_append, run_append, h3, Out.ok_bind, Out.ok_bind]
  exact h4

example : ∃ N, ∀ n ≥ N, run n start (sample ++ [.assign 0 [] 0 [.key [97], .idx 2]]) = .ub ∧
    run n start (sample ++ [.moveAssign 0 [] 0 [.key [97], .idx 2]]) = .ub :=
  C114_own_element_refuted (e := .int 5) (by simp [sample, Stmt.Apart, Diverge]) sample_ok rfl (by simp) rfl

/-- `x = x` keeps null, booleans and numbers. -/
theorem C114_self_assignment_partial {prog : List Stmt} {vs : List (Option Value)} {x : Nat} {v : Value}
    (ha : ∀ c ∈ prog, c.Apart) (hv : vrun [] prog = .ok vs) (hx : vs[x]? = some (some v))
    (ho : v = .null ∨ (∃ b, v = .bool b) ∨ (∃ i, v = .int i) ∨ ∃ q, v = .float q) :
    ∃ N s o F, (∀ n ≥ N, run n start (prog ++ [.assign x [] x []]) = .ok s) ∧ s.vars[x]? = some (some o) ∧
      Rep s.heap.cell o v F := by
  obtain ⟨N, s, F, h1, I⟩ := run_rep prog inv_empty ha hv
  have ho' : owns v = false := by rcases ho with rfl | ⟨_, rfl⟩ | ⟨_, rfl⟩ | ⟨_, rfl⟩ <;> rfl
  have hx' := vvar_ok.2 (get_some.2 hx)
  obtain ⟨N', s', h2, I'⟩ := step_self_scalar I hx' ho'
  obtain ⟨o, _, g2, g3, _⟩ := I'.get hx'
  refine ⟨max N N', s', o, _, fun n hn => ?_, get_some.1 g2, g3⟩
  have h3 : run n start prog = .ok s := h1 n (by omega)
  rw [run_append, h3, Out.ok_bind, h2 n (by omega)]

example : vrun [] [.new, .scalar 0 [] (.int 5)] = .ok [some (.int 5)] := by rfl

/-- `x = std::move(x)` is defined but makes `x` null, whatever it was; no other variable changes and nothing leaks. -/
theorem C114_self_move {prog : List Stmt} {vs : List (Option Value)} {x : Nat} {v : Value}
    (ha : ∀ c ∈ prog, c.Apart) (hv : vrun [] prog = .ok vs) (hx : vs[x]? = some (some v)) :
    ∃ N s, ∃ F : Nat → Multiset Nat, (∀ n ≥ N, run n start (prog ++ [.moveAssign x [] x []]) = .ok s) ∧
      (∃ o, s.vars[x]? = some (some o) ∧ Rep s.heap.cell o .null (F x)) ∧
      (∀ y w, y ≠ x → vs[y]? = some (some w) → ∃ o, s.vars[y]? = some (some o) ∧ Rep s.heap.cell o w (F y)) ∧
      ∀ z, s.heap.cell z ≠ none → ∃ y, z ∈ F y := by
  obtain ⟨N, s, F, h1, I⟩ := run_rep prog inv_empty ha hv
  have hx' := vvar_ok.2 (get_some.2 hx)
  obtain ⟨N', s', F', h2, I'⟩ := step_self_move I hx'
  have hl : x < vs.length := get_lt (get_some.2 hx)
  refine ⟨max N N', s', F', fun n hn => ?_, ?_, fun y w hy hw => ?_, I'.live⟩
  · have h3 : run n start prog = .ok s := h1 n (by omega)
    rw [run_append, h3, Out.ok_bind, h2 n (by omega)]
  · obtain ⟨o, _, g2, g3, _⟩ := I'.get (x := x) (v := .null) (vvar_ok.2 (by rw [get_set hl, if_pos rfl]))
    exact ⟨o, get_some.1 g2, g3⟩
  · obtain ⟨o, _, g2, g3, _⟩ := I'.get (x := y) (v := w) (vvar_ok.2 (by rw [get_set hl, if_neg hy]; exact get_some.2 hw))
    exact ⟨o, get_some.1 g2, g3⟩

example : (∀ c ∈ sample, c.Apart) ∧ vrun [] sample = .ok sampleValues ∧ ∃ v, sampleValues[0]? = some (some v) :=
  ⟨by simp [sample, Stmt.Apart, Diverge], sample_ok, _, rfl⟩

/-- Nothing leaks while a program runs: all memory in use belongs to a variable that is alive. -/
theorem C115_memory_belongs_to_variables {prog : List Stmt} {vs : List (Option Value)} (ha : ∀ c ∈ prog, c.Apart)
    (hv : vrun [] prog = .ok vs) :
    ∃ N s, (∀ n ≥ N, run n start prog = .ok s) ∧
      ∀ z, s.heap.cell z ≠ none → ∃ (x o : Nat) (v : Value) (F : Multiset Nat), s.vars[x]? = some (some o) ∧ vs[x]? = some (some v) ∧ Rep s.heap.cell o v F ∧ z ∈ F := by
  obtain ⟨N, s, F, h1, I⟩ := run_rep prog inv_empty ha hv
  refine ⟨N, s, h1, fun z hz => ?_⟩
  obtain ⟨x, hx⟩ := I.live z hz
  rcases I.var x with ⟨o, v, g1, g2, g3⟩ | ⟨_, _, g3⟩
  · exact ⟨x, o, v, F x, get_some.1 g1, get_some.1 g2, g3, hx⟩
  · rw [g3] at hx
    exact absurd hx (Multiset.notMem_zero z)

example : (∀ c ∈ sample, c.Apart) ∧ vrun [] sample = .ok sampleValues :=
  ⟨by simp [sample, Stmt.Apart, Diverge], sample_ok⟩

/-- When all variables are destroyed, all memory is free again.  (A second `delete` or a use of freed memory would be
undefined, which `.ok` excludes.) -/
theorem C115_no_leak {prog : List Stmt} {vs : List (Option Value)} (ha : ∀ c ∈ prog, c.Apart) (hv : vrun [] prog = .ok vs)
    (hd : ∀ v ∈ vs, v = none) :
    ∃ N s, (∀ n ≥ N, run n start prog = .ok s) ∧ ∀ z, s.heap.cell z = none := by
  obtain ⟨N, s, h1, h2⟩ := C115_memory_belongs_to_variables ha hv
  refine ⟨N, s, h1, fun z => ?_⟩
  by_contra hz
  obtain ⟨x, o, v, F, _, h3, _⟩ := h2 z hz
  cases hd _ (List.mem_of_getElem? h3)

example : (∀ c ∈ sample ++ [.destroy 1, .destroy 0], c.Apart) ∧
    vrun [] (sample ++ [.destroy 1, .destroy 0]) = .ok [none, none] :=
  ⟨by simp [sample, Stmt.Apart, Diverge], rfl⟩

end Json.Mem
