import Verif.Proof.BigNum

/-! `add` and `mul` of operands whose digits reach the end of the array. -/

namespace BigNum
open Cpp BigNum.Spec

/-- The outcome is undefined behaviour, or a value with the property: no `exit`, no divergence. -/
def OrUb (P : α → Prop) : Out α → Prop
  | .ok r => P r
  | .ub => True
  | _ => False

theorem OrUb.bind {P : α → Prop} {Q : β → Prop} {x : Out α} {f : α → Out β} (h : OrUb P x)
    (hf : ∀ a, P a → OrUb Q (f a)) : OrUb Q (x >>= f) := by
  cases x with
  | ok a => exact hf a h
  | ub => exact trivial
  | exit => exact h.elim
  | diverge => exact h.elim

theorem orUb_get (r : Arr α) (i : Int) : OrUb (fun _ => True) (r.get i) := by
  unfold Arr.get; split
  · split <;> trivial
  · trivial

theorem orUb_int (x : Int) : OrUb (fun _ => True) (int x) := by
  unfold int; split <;> trivial

theorem orUb_set {N : Nat} {r : Arr α} (h : r.size = N) (i : Int) (v : α) : OrUb (fun r => r.size = N) (r.set i v) := by
  unfold Arr.set; split
  · exact h
  · trivial

theorem orUb_fold {P : σ → Prop} (f : σ → Nat → Out σ) (hf : ∀ s i, P s → OrUb P (f s i)) :
    ∀ (l : List Nat) (s : σ), P s → OrUb P (l.foldlM f s) := by
  intro l
  induction l with
  | nil => intro s h; exact h
  | cons i l ih => intro s h; rw [List.foldlM_cons]; exact (hf s i h).bind fun t ht => ih t ht

/-- Reading the cell behind the last one after any such steps. -/
theorem orUb_past {N L : Nat} {x : Out (Arr Int)} (h : OrUb (fun r => r.size = N) x) (hL : N ≤ L)
    (f : Arr Int → Int → Out β) : (do let r ← x; let t ← r.get L; f r t) = .ub := by
  cases x with
  | ok r =>
    have hr : r.size = N := h
    rw [Out.ok_bind, Arr.get, if_neg (by omega)]; rfl
  | ub => rfl
  | exit => exact h.elim
  | diverge => exact h.elim

theorem add_full {N : Nat} (a b : Big) (h : N ≤ max a.len b.len) : add N a b = .ub := by
  have h1 : OrUb (fun r => r.size = N) ((List.range (max a.len b.len)).foldlM (addCell a b) (Arr.fill N 0)) := by
    refine orUb_fold _ (fun s i hs => ?_) _ _ rfl
    unfold addCell
    exact (orUb_get _ _).bind fun _ _ => (orUb_get _ _).bind fun _ _ => (orUb_int _).bind fun _ _ => orUb_set hs _ _
  have h2 := h1.bind (f := fun ret => (List.range (max a.len b.len)).foldlM addCarry ret)
    (Q := fun r => r.size = N) (fun r hr => by
      refine orUb_fold _ (fun s i hs => ?_) _ _ hr
      unfold addCarry
      refine (orUb_get _ _).bind fun x _ => ?_
      split
      · exact (orUb_set hs _ _).bind fun r hr => (orUb_get _ _).bind fun _ _ => (orUb_int _).bind fun _ _ =>
          orUb_set hr _ _
      · exact hs)
  have := orUb_past h2 h (fun ret top => .ok (⟨ret, if top ≠ 0 then max a.len b.len + 1 else max a.len b.len,
    a.sign⟩ : Big))
  rw [bind_assoc] at this
  exact this

theorem mul_full {N : Nat} (a b : Big) (ha : a.len ≠ 0) (hb : b.len ≠ 0) (h : N < a.len + b.len) :
    mul N a b = .ub := by
  have h1 : OrUb (fun r => r.size = N) ((List.range a.len).foldlM
      (fun ret i => (List.range b.len).foldlM (mulCell a b i) ret) (Arr.fill N 0)) := by
    refine orUb_fold _ (fun s i hs => orUb_fold _ (fun s j hs => ?_) _ _ hs) _ _ rfl
    unfold mulCell
    exact (orUb_get _ _).bind fun _ _ => (orUb_get _ _).bind fun _ _ => (orUb_int _).bind fun _ _ =>
      (orUb_get _ _).bind fun _ _ => (orUb_int _).bind fun _ _ => orUb_set hs _ _
  have h2 := h1.bind (f := fun ret => (List.range (a.len + b.len - 1)).foldlM mulCarry ret)
    (Q := fun r => r.size = N) (fun r hr => by
      refine orUb_fold _ (fun s i hs => ?_) _ _ hr
      unfold mulCarry
      exact (orUb_get _ _).bind fun _ _ => (orUb_get _ _).bind fun _ _ => (orUb_int _).bind fun _ _ =>
        (orUb_set hs _ _).bind fun r hr => orUb_set hr _ _)
  have := orUb_past h2 (L := a.len + b.len - 1) (by omega) (fun ret top => .ok (⟨ret, if top ≠ 0 then
    a.len + b.len - 1 + 1 else a.len + b.len - 1, a.sign⟩ : Big))
  rw [bind_assoc] at this
  unfold mul
  rw [if_neg (by omega)]
  exact this

end BigNum
