import Verif.Spec.ContVars

/-! # Helper lemmas for programs with container variables -/

open Cpp

namespace Cont.Vars

variable {σ C ρ : Type}

theorem eval_byRef (K : Class σ C ρ) (hK : K.byRef = true) (e : Ex) : ∀ st : Store σ,
    eval K true st e = (.var (Spec.target e), (Spec.steps e).foldl Spec.assign st) := by
  induction e with
  | var i => intro st; rfl
  | assign l r ihl ihr =>
    intro st
    simp only [eval, if_true, ihr, ihl, hK, Spec.target, Spec.steps, List.foldl_append, List.foldl_cons, List.foldl_nil]
    rfl

theorem run_byRef (K : Class σ C ρ) (hK : K.byRef = true) (p : List (Stmt C)) : ∀ st : Store σ,
    run K true st p = Spec.run K.call st p := by
  induction p with
  | nil => intro st; rfl
  | cons s p ih =>
    intro st
    cases s with
    | expr e => simp only [run, Spec.run, eval_byRef K hK, ih]
    | call e c =>
      simp only [run, Spec.run, eval_byRef K hK, Place.val, Place.put]
      congr 1
      funext x
      obtain ⟨x, v⟩ := x
      simp only [ih]
    | copy x e => simp only [run, Spec.run, eval_byRef K hK, Place.val, ih]

/-- A chain stands for its variable, or for a temporary with the value of that. -/
theorem eval_chain (K : Class σ C ρ) (b : Bool) {e : Ex} (he : Spec.Chain e) : ∀ st : Store σ,
    (eval K b st e).2 = (Spec.steps e).foldl Spec.assign st ∧
    (eval K b st e).1.val ((Spec.steps e).foldl Spec.assign st) = ((Spec.steps e).foldl Spec.assign st) (Spec.target e) := by
  induction he with
  | var i => exact fun st => ⟨rfl, rfl⟩
  | assign i h ih =>
    intro st
    next r =>
    obtain ⟨h1, h2⟩ := ih st
    have e1 : (eval K b st (.assign (.var i) r)).2 = (Spec.steps (.assign (.var i) r)).foldl Spec.assign st := by
      simp only [Spec.steps, Spec.target, List.append_nil, List.foldl_append, List.foldl_cons, List.foldl_nil]
      cases b <;> simp only [eval, if_true, if_false, Bool.false_eq_true, Place.put, h1, h2] <;> rfl
    refine ⟨e1, ?_⟩
    simp only [Spec.steps, Spec.target, List.append_nil, List.foldl_append, List.foldl_cons, List.foldl_nil]
    cases hk : K.byRef <;> cases b <;>
      simp [eval, Place.val, h1, hk, Spec.assign] <;> exact h2

theorem run_chain (K : Class σ C ρ) (b : Bool) (p : List (Stmt C)) (hp : Spec.Plain p) : ∀ st : Store σ,
    run K b st p = Spec.run K.call st p := by
  induction p with
  | nil => intro st; rfl
  | cons s p ih =>
    intro st
    have ih := ih fun s hs => hp s (List.mem_cons_of_mem _ hs)
    have hs := hp s List.mem_cons_self
    cases s with
    | expr e => simp only [run, Spec.run, (eval_chain K b hs st).1, ih]
    | call e c =>
      obtain ⟨i, rfl⟩ := hs
      simp only [run, Spec.run, eval, Place.val, Place.put, Spec.steps, Spec.target, List.foldl_nil]
      congr 1
      funext x
      obtain ⟨x, v⟩ := x
      simp only [ih]
      rfl
    | copy x e =>
      obtain ⟨h1, h2⟩ := eval_chain K b hs st
      simp only [run, Spec.run, ih, h1, h2]

end Cont.Vars
