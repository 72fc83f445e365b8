import Verif.Proof.StreamOnly
import Verif.Props.DoubleLarge

/-! # Only texts of vectors are read as vectors of numbers: properties C168 and C195 -/

set_option exponentiation.threshold 2000

namespace Stream.Props
open Cpp Spec
open Json (F64)

/-- **C168, nothing else is read.**  For every text: if `>>` gives a Vector of doubles, the text begins with `{`, numbers separated by
commas, and `}`, with white space between them; the elements are nearest doubles to these numbers, one for each; and exactly the
characters of the Vector are consumed. -/
theorem C168_only (s : Str) (v : List F64) (st : IStream) (h : readVectorD { rest := s } = .ok (v, st)) :
    ∃ t rest, s = t ++ rest ∧ st = { back := t.reverse, rest := rest } ∧
      ((v = [] ∧ ∃ a b, Ws a ∧ Ws b ∧ t = a ++ byte '{' :: (b ++ [byte '}'])) ∨
       ∃ a xs, Ws a ∧ xs ≠ [] ∧ (∀ x ∈ xs, Ws x.pre ∧ x.lit.Ok ∧ Ws x.post) ∧ t = a ++ byte '{' :: (rcommas xs ++ [byte '}']) ∧
         List.Forall₂ RItem.Read xs v) := by
  rcases readVectorD_only s v st h with ⟨a, b, t, ha, hb, rfl, rfl, rfl⟩ | ⟨a, xs, t, ha, hne, hx, rfl, rfl, rfl⟩
  · exact ⟨_, t, by simp, rfl, .inl ⟨rfl, a, b, ha, hb, rfl⟩⟩
  · refine ⟨_, t, by simp, rfl, .inr ⟨a, xs, ha, hne, hx, rfl, ?_⟩⟩
    rw [List.forall₂_map_right_iff, List.forall₂_same]
    exact fun x _ => readLit_nearest x.lit

/-- **C195, nothing else is read.**  The same for a Vector of floats. -/
theorem C195_only (s : Str) (v : List F64) (st : IStream) (h : readVectorF { rest := s } = .ok (v, st)) :
    ∃ t rest, s = t ++ rest ∧ st = { back := t.reverse, rest := rest } ∧
      ((v = [] ∧ ∃ a b, Ws a ∧ Ws b ∧ t = a ++ byte '{' :: (b ++ [byte '}'])) ∨
       ∃ a xs, Ws a ∧ xs ≠ [] ∧ (∀ x ∈ xs, Ws x.pre ∧ x.lit.Ok ∧ Ws x.post) ∧ t = a ++ byte '{' :: (rcommas xs ++ [byte '}']) ∧
         List.Forall₂ RItem.ReadF xs v) := by
  rcases readVectorF_only s v st h with ⟨a, b, t, ha, hb, rfl, rfl, rfl⟩ | ⟨a, xs, t, ha, hne, hx, rfl, rfl, rfl⟩
  · exact ⟨_, t, by simp, rfl, .inl ⟨rfl, a, b, ha, hb, rfl⟩⟩
  · refine ⟨_, t, by simp, rfl, .inr ⟨a, xs, ha, hne, hx, rfl, ?_⟩⟩
    rw [List.forall₂_map_right_iff, List.forall₂_same]
    exact fun x _ => ⟨_, rfl, readLit32_nearest x.lit⟩

-- { 1.5 ,-2e1}x
example : (readVectorD { rest := bytes ['{', ' ', '1', '.', '5', ' ', ',', '-', '2', 'e', '1', '}', 'x'] } >>= fun r => .ok (r.1, r.2.rest)) =
    .ok ([⟨false, .fin (3 / 2)⟩, ⟨true, .fin (-20)⟩], bytes ['x']) := by decide +kernel
example : (readVectorF { rest := bytes ['{', ' ', '1', '.', '5', ' ', ',', '-', '2', 'e', '1', '}', 'x'] } >>= fun r => .ok (r.1, r.2.rest)) =
    .ok ([⟨false, .fin (3 / 2)⟩, ⟨true, .fin (-20)⟩], bytes ['x']) := by decide +kernel
example : readVectorD { rest := bytes ['{', '}'] } = .ok ([], ⟨bytes ['}', '{'], [], false, false⟩) := by decide +kernel

end Stream.Props
