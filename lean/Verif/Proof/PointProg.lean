import Verif.Spec.PointProg

/-! # Counting the objects a program with points leaves -/

namespace Geo
variable {D : Type} [Add D] [Sub D] [Mul D] [Div D] [IntCast D] [LT D] [DecidableLT D] {N : Nat}

/-- The computation leaves exactly `k` objects. -/
def Leaves {α : Type} (m : M α) (k : Nat) : Prop := ∀ n, (m.run n).2 = n + k

theorem leaves_pure {α : Type} (a : α) : Leaves (pure a) 0 := fun _ => rfl

theorem leaves_bind {α β : Type} {m : M α} {f : α → M β} {j k : Nat} (h : Leaves m j) (h' : ∀ a, Leaves (f a) k) :
    Leaves (m >>= f) (j + k) := by
  intro n
  show ((f (m.run n).1).run (m.run n).2).2 = _
  rw [h' _ _, h n]; omega

omit [Add D] [Sub D] [Mul D] [Div D] [IntCast D] [LT D] [DecidableLT D] in
theorem leaves_fresh (p : Point N D) : Leaves (fresh p) 1 := fun _ => rfl

theorem leaves_eq {α : Type} {m : M α} {j k : Nat} (h : Leaves m j) (e : j = k) : Leaves m k := e ▸ h

mutual
theorem leaves_point (F : Fp D) (σ : Vars N D) : ∀ e : PExpr N D, Leaves (e.eval F σ) e.ops
  | .var x => leaves_pure _
  | .add p q => by
    unfold PExpr.eval PExpr.ops
    exact leaves_eq (leaves_bind (leaves_point F σ p) fun a => leaves_bind (leaves_point F σ q) fun b => leaves_fresh _) (Nat.add_assoc _ _ _).symm
  | .sub p q => by
    unfold PExpr.eval PExpr.ops
    exact leaves_eq (leaves_bind (leaves_point F σ p) fun a => leaves_bind (leaves_point F σ q) fun b => leaves_fresh _) (Nat.add_assoc _ _ _).symm
  | .smul p c => by
    unfold PExpr.eval PExpr.ops
    exact leaves_eq (leaves_bind (leaves_point F σ p) fun a => leaves_bind (leaves_number F σ c) fun b => leaves_fresh _) (Nat.add_assoc _ _ _).symm
  | .sdiv p c => by
    unfold PExpr.eval PExpr.ops
    exact leaves_eq (leaves_bind (leaves_point F σ p) fun a => leaves_bind (leaves_number F σ c) fun b => leaves_fresh _) (Nat.add_assoc _ _ _).symm
theorem leaves_number (F : Fp D) (σ : Vars N D) : ∀ c : SExpr N D, Leaves (c.eval F σ) c.ops
  | .const c => leaves_pure _
  | .coord p i => leaves_bind (leaves_point F σ p) fun _ => leaves_pure _
  | .dot p q => leaves_bind (leaves_point F σ p) fun _ => leaves_bind (leaves_point F σ q) fun _ => leaves_pure _
  | .len p => leaves_bind (leaves_point F σ p) fun _ => leaves_pure _
end

theorem leaves_rounds {σ τ : Type} {f : σ → τ → M σ} {k : Nat} (h : ∀ s t, Leaves (f s t) k) : ∀ (l : List τ) (s : σ),
    Leaves (l.foldlM f s) (l.length * k)
  | [], s => leaves_eq (leaves_pure s) (by simp)
  | t :: l, s => by
    rw [List.foldlM_cons]
    exact leaves_eq (leaves_bind (h s t) fun s' => leaves_rounds h l s') (by rw [List.length_cons, Nat.succ_mul, Nat.add_comm])

mutual
theorem leaves_stmt (F : Fp D) : ∀ (s : PStmt N D) (σ : Vars N D), Leaves (s.run F σ) s.ops
  | .assign x e, σ => leaves_bind (leaves_point F σ e) fun _ => leaves_pure _
  | .addTo x e, σ => leaves_bind (leaves_point F σ e) fun _ => leaves_pure _
  | .subFrom x e, σ => leaves_bind (leaves_point F σ e) fun _ => leaves_pure _
  | .mulBy x c, σ => leaves_bind (leaves_number F σ c) fun _ => leaves_pure _
  | .divBy x c, σ => leaves_bind (leaves_number F σ c) fun _ => leaves_pure _
  | .normalize x, σ => leaves_pure _
  | .loop k body, σ => by
    unfold PStmt.run
    exact leaves_eq (leaves_rounds (fun σ _ => leaves_all F body σ) _ σ) (by rw [List.length_range]; rfl)
theorem leaves_all (F : Fp D) : ∀ (p : List (PStmt N D)) (σ : Vars N D), Leaves (runAll F σ p) (opsAll p)
  | [], σ => leaves_pure σ
  | s :: ss, σ => leaves_bind (leaves_stmt F s σ) fun σ' => leaves_all F ss σ'
end

end Geo
