import Verif.Proof.MatrixHeap
import Mathlib.Algebra.Field.Rat

/-! # Property C125: the memory of `Matrix` variables

`Stmt` lists what a program does with matrix variables: declare them (with zeros, rows, a copy, or the result of `+`, `-`, `*`),
assign, `+=`, `-=`, `*=`, write an entry.  `Spec.run` says what the variables hold if matrices are plain values (`none` if the
program makes no sense: an unknown variable, shapes that do not match, an index outside), `Mem.run` performs the program in the
memory, and `Mem.endScope` destroys the variables.  `Mem.Live h k`: exactly `k` blocks of memory are allocated. -/

namespace Matrix
open Cpp

/-- C125 as stated – after the scope no memory is allocated – is false: one product leaves three blocks. -/
theorem C125_refuted : ∃ (prog : List (Stmt ℚ)) (h : Mem.Heap ℚ), (Spec.run prog).isSome ∧
    (Mem.run (Arith.exact ℚ) prog >>= Mem.endScope) = .ok h ∧ Mem.Live h 3 ∧ ¬ Mem.Live h 0 := by
  have hn : ∀ st ∈ ([.declareRows [[2]], .declareOp .times 0 0] : List (Stmt ℚ)), st.NotMulTo := by
    intro st hst
    simp only [List.mem_cons, List.not_mem_nil, or_false] at hst
    rcases hst with rfl | rfl <;> trivial
  have hr : (Spec.run ([.declareRows [[2]], .declareOp .times 0 0] : List (Stmt ℚ))).isSome := by decide +kernel
  obtain ⟨env, he⟩ := Option.isSome_iff_exists.1 hr
  obtain ⟨h1, S, L, e, -, I, hl⟩ := Mem.run_ok _ hn Mem.inv_empty (env' := env) he
  obtain ⟨h2, e2, L2⟩ := Mem.endScope_ok I
  rw [List.append_nil, hl] at L2
  have h3 : Spec.leaked (List.map Mem.Slot.v []) ([.declareRows [[2]], .declareOp .times 0 0] : List (Stmt ℚ)) = 3 := by decide +kernel
  rw [h3] at L2
  refine ⟨_, h2, hr, ?_, L2, fun ⟨K, _, hK, hK'⟩ => ?_⟩
  · unfold Mem.run
    rw [List.map_nil] at e
    rw [e, Out.ok_bind, e2]
  · obtain ⟨M, hM, hM', hM''⟩ := L2
    rw [List.length_eq_zero_iff] at hK
    subst hK
    cases M with
    | nil => simp at hM'
    | cons a M =>
      have := (hK' a).1 ((hM'' a).2 List.mem_cons_self)
      simp at this

/-- C125: `x *= y;` is undefined after every program, whenever the product makes sense (the entries of `x` are deleted twice). -/
theorem C125_mulTo_refuted {α : Type} [Field α] [DecidableEq α] (prog : List (Stmt α)) (hn : ∀ st ∈ prog, st.NotMulTo) (x y : Nat)
    (hs : (Spec.run (prog ++ [.mulTo x y])).isSome) : Mem.run (Arith.exact α) (prog ++ [.mulTo x y]) = .ub := by
  obtain ⟨env, he⟩ := Option.isSome_iff_exists.1 hs
  unfold Spec.run at he
  rw [List.foldlM_append, Option.bind_eq_bind, Option.bind_eq_some_iff] at he
  obtain ⟨env1, h1, h2⟩ := he
  obtain ⟨h, S, L, e, rfl, I, -⟩ := Mem.run_ok prog hn Mem.inv_empty h1
  rw [List.foldlM_cons, Option.bind_eq_bind, Option.bind_eq_some_iff] at h2
  obtain ⟨env2, h2, -⟩ := h2
  simp only [Spec.step, Option.bind_eq_bind, Option.bind_eq_some_iff] at h2
  obtain ⟨A, hx, B, hy, v, hv, -⟩ := h2
  obtain ⟨s, hsx, rfl, hvs⟩ := Mem.slot_of hx
  obtain ⟨t, hty, rfl, hvt⟩ := Mem.slot_of hy
  simp only [Spec.op] at hv
  split at hv
  · rename_i hc
    unfold Mem.run
    rw [List.map_nil] at e
    rw [List.foldlM_append, e, Out.ok_bind, List.foldlM_cons]
    simp only [Mem.step, hvs, hvt, Out.ok_bind]
    rw [Mem.timesAssign_ub (I.own s (List.mem_of_getElem? hsx)) (I.own t (List.mem_of_getElem? hty))
      (I.perm (Mem.perm_at hsx)).nodup I.wf hc]
    rfl
  · cases hv

example : (Spec.run ([.declareRows [[1, 2], [3, 4]], .declareCopy 0] ++ [.mulTo 0 1] : List (Stmt ℚ))).isSome := by decide +kernel

/-- C125, what holds: a program without `*=` that makes sense runs; every variable then holds what it holds as a plain value
(so copies are independent of each other); the end of the scope destroys all variables and leaves exactly the blocks that
products forgot: for each product the number of its rows plus two. -/
theorem C125_partial {α : Type} [Field α] [DecidableEq α] (prog : List (Stmt α)) (hn : ∀ st ∈ prog, st.NotMulTo)
    (env : List (Spec.Value α)) (hs : Spec.run prog = some env) :
    ∃ vars h h', Mem.run (Arith.exact α) prog = .ok (vars, h) ∧ vars.length = env.length ∧
      (∀ (x : Nat) (A : Spec.Value α), env[x]? = some A → ∃ o : Mem.Obj, vars[x]? = some o ∧ o.row = A.rows ∧ o.col = A.cols ∧
        ∀ i, i < A.rows → ∀ j, j < A.cols → Mem.get h o i j = .ok (A.entry i j)) ∧
      Mem.endScope (vars, h) = .ok h' ∧ Mem.Live h' (Spec.leaked [] prog) := by
  obtain ⟨h, S, L, e, rfl, I, hl⟩ := Mem.run_ok prog hn Mem.inv_empty hs
  obtain ⟨h2, e2, L2⟩ := Mem.endScope_ok I
  rw [List.append_nil, hl] at L2
  refine ⟨S.map Mem.Slot.o, h, h2, e, by simp, fun x A hx => ?_, e2, L2⟩
  obtain ⟨s, hsx, rfl, hvs⟩ := Mem.slot_of hx
  have P := I.own s (List.mem_of_getElem? hsx)
  exact ⟨s.o, by simp [hsx], P.1.row, P.1.col, fun i hi j hj => P.get hi hj⟩

/-- A program: two copies, one of them changed, `b = a * b`, `a -= a`, a third matrix `a + b`. -/
def sample : List (Stmt ℚ) :=
  [.declareRows [[1, 2], [3, 4]], .declareCopy 0, .write 1 0 0 7, .assignOp .times 1 0 1, .subFrom 0 0, .declareOp .plus 0 1, .assign 0 2]

example : ((Spec.run sample).map fun env => (List.range 3).map fun x => (List.range 2).map fun i => (List.range 2).map fun j =>
    ((env[x]?).map fun A => A.entry i j)) =
    some [[[some 13, some 10], [some 33, some 22]], [[some 13, some 10], [some 33, some 22]], [[some 13, some 10], [some 33, some 22]]] ∧
    Spec.leaked [] sample = 4 := by
  decide +kernel

example : (do
    let s ← Mem.run (Arith.exact ℚ) sample
    let o ← Mem.var s.1 2
    Mem.get s.2 o 1 0) = .ok 33 := by decide +kernel

/-- C125: without products the program gives back all memory. -/
theorem C125_noProduct_partial {α : Type} [Field α] [DecidableEq α] (prog : List (Stmt α)) (hn : ∀ st ∈ prog, st.NoProduct)
    (hs : (Spec.run prog).isSome) : ∃ h, (Mem.run (Arith.exact α) prog >>= Mem.endScope) = .ok h ∧ ∀ a, h.cell a = none := by
  obtain ⟨env, he⟩ := Option.isSome_iff_exists.1 hs
  have hm : ∀ st ∈ prog, st.NotMulTo := by
    intro st hst
    have := hn st hst
    revert this
    cases st <;> simp [Stmt.NoProduct, Stmt.NotMulTo]
  obtain ⟨vars, h, h', e, -, -, e2, L, -, hL, hL'⟩ := C125_partial prog hm env he
  have h0 : ∀ (prog : List (Stmt α)) (env : List (Spec.Value α)), (∀ st ∈ prog, st.NoProduct) → Spec.leaked env prog = 0 := by
    intro prog
    induction prog with
    | nil => intro env _; rfl
    | cons st prog ih =>
      intro env hn
      have h1 : Spec.leak env st = 0 := by
        have := hn st List.mem_cons_self
        cases st with
        | declareOp o y z => cases o <;> first | rfl | exact this.elim
        | assignOp o x y z => cases o <;> first | rfl | exact this.elim
        | _ => rfl
      rw [Spec.leaked, h1]
      cases Spec.step env st with
      | none => rfl
      | some env' => simpa [Option.elim] using ih env' fun t ht => hn t (List.mem_cons_of_mem _ ht)
  rw [h0 prog [] hn, List.length_eq_zero_iff] at hL
  subst hL
  refine ⟨h', by rw [e, Out.ok_bind, e2], fun a => ?_⟩
  cases hc : h'.cell a with
  | none => rfl
  | some b => have := (hL' a).1 (by rw [hc]; rfl); simp at this

example : (Spec.run ([.declareRows [[1, 2], [3, 4]], .declareOp .plus 0 0, .assignOp .minus 0 1 0, .assign 1 1] : List (Stmt ℚ))).isSome ∧
    ∀ st ∈ ([.declareRows [[1, 2], [3, 4]], .declareOp .plus 0 0, .assignOp .minus 0 1 0, .assign 1 1] : List (Stmt ℚ)), st.NoProduct := by
  refine ⟨by decide +kernel, fun st hst => ?_⟩
  simp only [List.mem_cons, List.not_mem_nil, or_false] at hst
  rcases hst with rfl | rfl | rfl | rfl <;> trivial

end Matrix
