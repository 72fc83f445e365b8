import Verif.Proof.BigNumSignedProg

/-!
# C175: programs with signed `BigNum<N>` variables

Full claim: whenever all numbers fit, a program with conditions and loops over variables of either sign computes what it
computes over the integers.  False: the operators do not handle all signs (C174), and a variable that gets shorter keeps old
digits (C135).  Proved for programs in which every statement stays in the domain of its operator and no variable gets shorter.
-/

namespace BigNum
open Cpp Spec

/-- The property C175. -/
def C175 : Prop :=
  ∀ (N : Nat) (p : Prog) (σ : Nat → Int), Runs (RoomS N) (fun _ => 0) p σ →
    ∃ fuel n st, runP N fuel n (fun _ => zero N) p = .ok st ∧ ∀ x, val (st x) = σ x

/-- **C175, refuted.**  `BigNum<8> x; x += -1;` never ends. -/
theorem C175_refuted : ¬ C175 := by
  intro h
  obtain ⟨fuel, n, st, e, -⟩ := h 8 (.stmt (.plusEqInt 0 (-1))) _ (.stmt (by decide +kernel))
  obtain ⟨b, eb, hb⟩ := keeps_ofInt (N := 8) (k := -1) (by decide) (by decide +kernel)
  have hs := (fresh_sign hb.fresh).2 (by rw [hb.val]; decide)
  have d := C20_plus_diverges_refuted 8 (zero 8) b (zero_clean 8) hb.fresh.1 (by rw [hs]; decide) (by
    rw [hb.val, (Keeps.zero 8).val]; decide) fuel
  cases n with
  | zero => cases e
  | succ n =>
    rw [runP, exec, Vars.put] at e
    obtain ⟨r, e1, -⟩ := Out.bind_eq_ok.1 e
    rw [plusAssignInt, eb, Out.ok_bind, plusAssign] at e1
    obtain ⟨q, e2, -⟩ := Out.bind_eq_ok.1 e1
    rw [plus, e2] at d
    cases d

/-- **C175, what holds.**  If over the integers the program ends, all numbers fit, every operator gets operands it handles and
no variable ever gets shorter, the program ends with the same values and prints them. -/
theorem C175_sane_partial (N fuel : Nat) (p : Prog) (σ : Nat → Int) (h : Runs (SaneIn N) (fun _ => 0) p σ) :
    ∃ n st, runP N (fuel + 2) n (fun _ => zero N) p = .ok st ∧
      ∀ x, val (st x) = σ x ∧ (σ x ≠ 0 → toString (st x) = .ok (decimal (σ x))) := by
  obtain ⟨n, st, e, h'⟩ := runs_keeps (fuel := fuel) h (fun _ => Keeps.zero N)
  exact ⟨n, st, e, fun x => ⟨(h' x).val, keeps_toString (h' x)⟩⟩

example : ∃ σ, Runs (SaneIn 9) (fun _ => 0) (sumNegProg (-14)) σ ∧ σ 0 = -105 ∧ σ 1 = -15 := by
  have h1 : (runI (SaneIn 9) 30 (fun _ => 0) (sumNegProg (-14))).map (fun σ => (σ 0, σ 1)) = some (-105, -15) := by
    decide +kernel
  obtain ⟨σ, e1, e2⟩ := Option.map_eq_some_iff.1 h1
  rw [Prod.mk.injEq] at e2
  exact ⟨σ, runI_runs e1, e2⟩

end BigNum
