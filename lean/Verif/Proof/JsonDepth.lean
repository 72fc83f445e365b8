import Verif.Model.JsonDepth
import Verif.Model.JsonStack
import Verif.Spec.JsonDepth

/-! # Helper lemmas: the stack for writing, copying and destroying -/

namespace Json
open Cpp Spec

theorem levels_pos (v : Value) : 1 ≤ levels v := by
  cases v <;> simp [levels]

mutual
theorem dumpD_eq (tab : Str) (D : Nat) (depth : Int) (v : Value) :
    dumpD tab D depth v = if levels v ≤ D then .ok (dump tab depth v) else .ub := by
  cases D with
  | zero =>
    have := levels_pos v
    rw [if_neg (by omega), dumpD]
  | succ D =>
    cases v with
    | obj m =>
      rw [dumpD, dumpObjD_eq tab D depth m, dump, levels]
      by_cases c : levelsObj m ≤ D
      · rw [if_pos c, if_pos (by omega), Out.ok_bind]
      · rw [if_neg c, if_neg (by omega)]; rfl
    | arr l =>
      rw [dumpD, dumpArrD_eq tab D depth l, dump, levels]
      by_cases c : levelsArr l ≤ D
      · rw [if_pos c, if_pos (by omega), Out.ok_bind]
      · rw [if_neg c, if_neg (by omega)]; rfl
    | _ => rw [if_pos (by simp [levels])]; rfl

theorem dumpArrD_eq (tab : Str) (D : Nat) (depth : Int) (l : List Value) :
    dumpArrD tab D depth l = if levelsArr l ≤ D then .ok (dumpArr tab depth l) else .ub := by
  match l with
  | [] => rw [if_pos (by simp [levelsArr])]; rfl
  | [v] =>
    rw [dumpArrD, dumpD_eq tab D (depth + 1) v, dumpArr]
    simp [levelsArr]
  | v :: w :: l =>
    rw [show levelsArr (v :: w :: l) = max (levels v) (levelsArr (w :: l)) from rfl, show dumpArr tab depth (v :: w :: l) =
      dump tab (depth + 1) v ++ bytes [',', ' '] ++ dumpArr tab depth (w :: l) from rfl, dumpArrD,
      dumpD_eq tab D (depth + 1) v, dumpArrD_eq tab D depth (w :: l)]
    · by_cases c : levels v ≤ D
      · rw [if_pos c, Out.ok_bind]
        by_cases c' : levelsArr (w :: l) ≤ D
        · rw [if_pos c', if_pos (by omega), Out.ok_bind]
        · rw [if_neg c', if_neg (by omega)]; rfl
      · rw [if_neg c, if_neg (show ¬ max (levels v) (levelsArr (w :: l)) ≤ D by omega)]; rfl
    all_goals simp

theorem dumpObjD_eq (tab : Str) (D : Nat) (depth : Int) (m : List (Str × Value)) :
    dumpObjD tab D depth m = if levelsObj m ≤ D then .ok (dumpObj tab depth m) else .ub := by
  match m with
  | [] => rw [if_pos (by simp [levelsObj])]; rfl
  | [(k, v)] =>
    rw [dumpObjD, dumpD_eq tab D (depth + 1) v, dumpObj, levelsObj, levelsObj, Nat.max_zero]
    by_cases c : levels v ≤ D
    · rw [if_pos c, if_pos c, Out.ok_bind]
    · rw [if_neg c, if_neg c]; rfl
  | (k, v) :: w :: m =>
    rw [show levelsObj ((k, v) :: w :: m) = max (levels v) (levelsObj (w :: m)) from rfl, show dumpObj tab depth ((k, v) :: w :: m) =
      padding depth tab ++ bytes ['"'] ++ k ++ bytes ['"', ' ', ':', ' '] ++ dump tab (depth + 1) v ++ bytes [',', '\n'] ++
        dumpObj tab depth (w :: m) from rfl, dumpObjD, dumpD_eq tab D (depth + 1) v, dumpObjD_eq tab D depth (w :: m)]
    · by_cases c : levels v ≤ D
      · rw [if_pos c, Out.ok_bind]
        by_cases c' : levelsObj (w :: m) ≤ D
        · rw [if_pos c', if_pos (by omega), Out.ok_bind]
        · rw [if_neg c', if_neg (by omega)]; rfl
      · rw [if_neg c, if_neg (show ¬ max (levels v) (levelsObj (w :: m)) ≤ D by omega)]; rfl
    all_goals simp
end

mutual
theorem copyD_eq (D : Nat) (v : Value) : copyD D v = if levels v ≤ D then .ok v else .ub := by
  cases D with
  | zero =>
    have := levels_pos v
    rw [if_neg (by omega), copyD]
  | succ D =>
    cases v with
    | obj m =>
      rw [copyD, copyObjD_eq D m, levels]
      by_cases c : levelsObj m ≤ D
      · rw [if_pos c, if_pos (by omega), Out.ok_bind]
      · rw [if_neg c, if_neg (by omega)]; rfl
    | arr l =>
      rw [copyD, copyArrD_eq D l, levels]
      by_cases c : levelsArr l ≤ D
      · rw [if_pos c, if_pos (by omega), Out.ok_bind]
      · rw [if_neg c, if_neg (by omega)]; rfl
    | _ => rw [if_pos (by simp [levels])]; rfl

theorem copyArrD_eq (D : Nat) (l : List Value) : copyArrD D l = if levelsArr l ≤ D then .ok l else .ub := by
  match l with
  | [] => rw [if_pos (by simp [levelsArr])]; rfl
  | v :: l =>
    rw [copyArrD, copyD_eq D v, copyArrD_eq D l, levelsArr]
    by_cases c : levels v ≤ D
    · rw [if_pos c, Out.ok_bind]
      by_cases c' : levelsArr l ≤ D
      · rw [if_pos c', if_pos (by omega), Out.ok_bind]
      · rw [if_neg c', if_neg (by omega)]; rfl
    · rw [if_neg c, if_neg (show ¬ max (levels v) (levelsArr l) ≤ D by omega)]; rfl

theorem copyObjD_eq (D : Nat) (m : List (Str × Value)) : copyObjD D m = if levelsObj m ≤ D then .ok m else .ub := by
  match m with
  | [] => rw [if_pos (by simp [levelsObj])]; rfl
  | (k, v) :: m =>
    rw [copyObjD, copyD_eq D v, copyObjD_eq D m, levelsObj]
    by_cases c : levels v ≤ D
    · rw [if_pos c, Out.ok_bind]
      by_cases c' : levelsObj m ≤ D
      · rw [if_pos c', if_pos (by omega), Out.ok_bind]
      · rw [if_neg c', if_neg (by omega)]; rfl
    · rw [if_neg c, if_neg (show ¬ max (levels v) (levelsObj m) ≤ D by omega)]; rfl
end

mutual
theorem destroyD_eq (D : Nat) (v : Value) : destroyD D v = if levels v ≤ D then .ok () else .ub := by
  cases D with
  | zero =>
    have := levels_pos v
    rw [if_neg (by omega), destroyD]
  | succ D =>
    cases v with
    | obj m =>
      rw [destroyD, destroyObjD_eq D m, levels]
      by_cases c : levelsObj m ≤ D
      · rw [if_pos c, if_pos (by omega)]
      · rw [if_neg c, if_neg (by omega)]
    | arr l =>
      rw [destroyD, destroyArrD_eq D l, levels]
      by_cases c : levelsArr l ≤ D
      · rw [if_pos c, if_pos (by omega)]
      · rw [if_neg c, if_neg (by omega)]
    | _ => rw [if_pos (by simp [levels])]; rfl

theorem destroyArrD_eq (D : Nat) (l : List Value) : destroyArrD D l = if levelsArr l ≤ D then .ok () else .ub := by
  match l with
  | [] => rw [if_pos (by simp [levelsArr])]; rfl
  | v :: l =>
    rw [destroyArrD, destroyD_eq D v, destroyArrD_eq D l, levelsArr]
    by_cases c : levels v ≤ D
    · rw [if_pos c, Out.ok_bind]
      by_cases c' : levelsArr l ≤ D
      · rw [if_pos c', if_pos (by omega)]
      · rw [if_neg c', if_neg (by omega)]
    · rw [if_neg c, if_neg (show ¬ max (levels v) (levelsArr l) ≤ D by omega)]; rfl

theorem destroyObjD_eq (D : Nat) (m : List (Str × Value)) : destroyObjD D m = if levelsObj m ≤ D then .ok () else .ub := by
  match m with
  | [] => rw [if_pos (by simp [levelsObj])]; rfl
  | (k, v) :: m =>
    rw [destroyObjD, destroyD_eq D v, destroyObjD_eq D m, levelsObj]
    by_cases c : levels v ≤ D
    · rw [if_pos c, Out.ok_bind]
      by_cases c' : levelsObj m ≤ D
      · rw [if_pos c', if_pos (by omega)]
      · rw [if_neg c', if_neg (by omega)]
    · rw [if_neg c, if_neg (show ¬ max (levels v) (levelsObj m) ≤ D by omega)]; rfl
end

/-! ### what is read fits -/

theorem levels_put (k : Str) (v : Value) : ∀ m, levelsObj (put k v m) ≤ max (levels v) (levelsObj m) := by
  intro m
  induction m with
  | nil => simp [put, levelsObj]
  | cons a m ih =>
    obtain ⟨k', v'⟩ := a
    rw [put]
    split
    · simp only [levelsObj]; omega
    · split
      · simp only [levelsObj]; omega
      · simp only [levelsObj]; omega

theorem str_levels {str : Str} {off : Nat} {v : Value} {o : Nat} (e : parseString str off = .ok (v, o)) : levels v = 1 := by
  obtain ⟨⟨val, o'⟩, _, e⟩ := Out.bind_eq_ok.1 e
  cases e; rfl

theorem bool_levels {str : Str} {off : Nat} {v : Value} {o : Nat} (e : parseBool str off = .ok (v, o)) : levels v = 1 := by
  unfold parseBool at e
  split at e
  · cases e; rfl
  · split at e
    · cases e; rfl
    · cases e

theorem null_levels {str : Str} {off : Nat} {v : Value} {o : Nat} (e : parseNull str off = .ok (v, o)) : levels v = 1 := by
  unfold parseNull at e
  split at e
  · cases e; rfl
  · cases e

theorem number_levels {str : Str} {off : Nat} {v : Value} {o : Nat} (e : parseNumber str off = .ok (v, o)) : levels v = 1 := by
  obtain ⟨⟨val, isD, c, o1⟩, _, e⟩ := Out.bind_eq_ok.1 e
  obtain ⟨⟨es, x, c', o2⟩, _, e⟩ := Out.bind_eq_ok.1 e
  dsimp only at e
  split at e
  · obtain ⟨q, _, e⟩ := Out.bind_eq_ok.1 e
    cases e; rfl
  · obtain ⟨q, _, e⟩ := Out.bind_eq_ok.1 e
    cases e; rfl

theorem parseD_levels (str : Str) : ∀ f : Nat,
    (∀ D off v o, parseNextD str f D off = .ok (v, o) → levels v ≤ D) ∧
    (∀ D off l o, arrLoopD str f D off = .ok (l, o) → levelsArr l ≤ D) ∧
    (∀ D off m m' o, levelsObj m ≤ D → objLoopD str f D off m = .ok (m', o) → levelsObj m' ≤ D) := by
  intro f
  induction f with
  | zero =>
    refine ⟨fun D off v o e => ?_, fun D off l o e => ?_, fun D off m m' o _ e => ?_⟩
    · rw [parseNextD] at e; cases e
    · rw [arrLoopD] at e; cases e
    · rw [objLoopD] at e; cases e
  | succ f ih =>
    obtain ⟨ih1, ih2, ih3⟩ := ih
    refine ⟨fun D off v o e => ?_, fun D off l o e => ?_, fun D off m m' o hm e => ?_⟩
    · cases D with
      | zero => rw [parseNextD] at e; cases e
      | succ D =>
        rw [parseNextD] at e
        obtain ⟨o1, _, e⟩ := Out.bind_eq_ok.1 e
        obtain ⟨c, _, e⟩ := Out.bind_eq_ok.1 e
        split at e
        · obtain ⟨o2, _, e⟩ := Out.bind_eq_ok.1 e
          obtain ⟨c2, _, e⟩ := Out.bind_eq_ok.1 e
          split at e
          · cases e; simp [levels, levelsArr]
          · obtain ⟨⟨l, o3⟩, e3, e⟩ := Out.bind_eq_ok.1 e
            cases e
            have := ih2 D _ _ _ e3
            simp only [levels]; omega
        · split at e
          · obtain ⟨o2, _, e⟩ := Out.bind_eq_ok.1 e
            obtain ⟨c2, _, e⟩ := Out.bind_eq_ok.1 e
            split at e
            · cases e; simp [levels, levelsObj]
            · obtain ⟨⟨l, o3⟩, e3, e⟩ := Out.bind_eq_ok.1 e
              cases e
              have := ih3 D _ _ _ _ (by simp [levelsObj]) e3
              simp only [levels]; omega
          · split at e
            · have := str_levels e; omega
            · split at e
              · have := bool_levels e; omega
              · split at e
                · have := null_levels e; omega
                · split at e
                  · have := number_levels e; omega
                  · cases e
    · rw [arrLoopD] at e
      obtain ⟨⟨v, o1⟩, e1, e⟩ := Out.bind_eq_ok.1 e
      obtain ⟨o2, _, e⟩ := Out.bind_eq_ok.1 e
      obtain ⟨c, _, e⟩ := Out.bind_eq_ok.1 e
      have h1 := ih1 _ _ _ _ e1
      split at e
      · obtain ⟨⟨l', o3⟩, e3, e⟩ := Out.bind_eq_ok.1 e
        cases e
        have := ih2 _ _ _ _ e3
        simp only [levelsArr]; omega
      · split at e
        · cases e
          simp only [levelsArr]; omega
        · cases e
    · rw [objLoopD] at e
      obtain ⟨⟨k, o1⟩, e1, e⟩ := Out.bind_eq_ok.1 e
      obtain ⟨o2, _, e⟩ := Out.bind_eq_ok.1 e
      obtain ⟨c, _, e⟩ := Out.bind_eq_ok.1 e
      split at e
      · cases e
      · obtain ⟨o3, _, e⟩ := Out.bind_eq_ok.1 e
        obtain ⟨⟨v, o4⟩, e4, e⟩ := Out.bind_eq_ok.1 e
        have h4 := ih1 _ _ _ _ e4
        have hp := levels_put k.toString v m
        obtain ⟨o5, _, e⟩ := Out.bind_eq_ok.1 e
        obtain ⟨c5, _, e⟩ := Out.bind_eq_ok.1 e
        split at e
        · exact ih3 _ _ _ _ _ (by omega) e
        · split at e
          · cases e; omega
          · cases e

theorem loadD_levels {D : Nat} {str : Str} {v : Value} (e : loadJSOND D str = .ok v) : levels v ≤ D := by
  obtain ⟨⟨w, o⟩, e1, e⟩ := Out.bind_eq_ok.1 e
  cases e
  exact (parseD_levels str _).1 _ _ _ _ e1

end Json


/-! ### overflow or the same -/

namespace Json
open Cpp Spec

/-- either the stack overflows or the result is the one without a limit -/
def OrUb {α : Type} (x y : Out α) : Prop := x = .ub ∨ x = y

theorem OrUb.rfl {α : Type} {x : Out α} : OrUb x x := .inr _root_.rfl

theorem OrUb.bind {α β : Type} {x y : Out α} {f g : α → Out β} (h : OrUb x y) (hf : ∀ a, OrUb (f a) (g a)) :
    OrUb (x >>= f) (y >>= g) := by
  rcases h with h | h
  · left; rw [h]; rfl
  · subst h
    cases x with
    | ok a => exact hf a
    | _ => exact .inr (Eq.refl _)

theorem OrUb.ite {α : Type} {c : Prop} [Decidable c] {x y x' y' : Out α} (h : OrUb x y) (h' : OrUb x' y') :
    OrUb (if c then x else x') (if c then y else y') := by
  by_cases k : c
  · rw [if_pos k, if_pos k]; exact h
  · rw [if_neg k, if_neg k]; exact h'

theorem parseD_or (str : Str) : ∀ f : Nat,
    (∀ D off, OrUb (parseNextD str f D off) (parseNext str f off)) ∧
    (∀ D off, OrUb (arrLoopD str f D off) (arrLoop str f off)) ∧
    (∀ D off m, OrUb (objLoopD str f D off m) (objLoop str f off m)) := by
  intro f
  induction f with
  | zero =>
    refine ⟨fun D off => ?_, fun D off => ?_, fun D off m => ?_⟩
    · rw [parseNextD, parseNext]; exact .rfl
    · rw [arrLoopD, arrLoop]; exact .rfl
    · rw [objLoopD, objLoop]; exact .rfl
  | succ f ih =>
    obtain ⟨ih1, ih2, ih3⟩ := ih
    refine ⟨fun D off => ?_, fun D off => ?_, fun D off m => ?_⟩
    · cases D with
      | zero => left; rw [parseNextD]
      | succ D =>
        rw [parseNextD, parseNext]
        refine .bind .rfl fun o => .bind .rfl fun c => .ite ?_ (.ite ?_ .rfl)
        · exact .bind .rfl fun o => .bind .rfl fun c => .ite .rfl (.bind (ih2 D _) fun _ => .rfl)
        · exact .bind .rfl fun o => .bind .rfl fun c => .ite .rfl (.bind (ih3 D _ _) fun _ => .rfl)
    · rw [arrLoopD, arrLoop]
      refine .bind (ih1 _ _) fun a => .bind .rfl fun o => .bind .rfl fun c => .ite ?_ .rfl
      exact .bind (ih2 _ _) fun _ => .rfl
    · rw [objLoopD, objLoop]
      refine .bind (ih1 _ _) fun a => .bind .rfl fun o => .bind .rfl fun c => .ite .rfl ?_
      refine .bind .rfl fun o => .bind (ih1 _ _) fun b => .bind .rfl fun o => .bind .rfl fun c => .ite ?_ .rfl
      exact ih3 _ _ _

theorem loadD_or (D : Nat) (str : Str) : OrUb (loadJSOND D str) (loadJSON str) := by
  unfold loadJSOND loadJSON
  exact .bind ((parseD_or str _).1 D 0) fun _ => .rfl

end Json
