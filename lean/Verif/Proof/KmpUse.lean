import Verif.Model.KmpUse
import Verif.Spec.KmpUse
import Verif.Props.Kmp

/-! # Lemmas on repeated searches (C154) -/

namespace Kmp
open Cpp Spec

theorem OccursAt.bound {base pattern : Str} {q : Nat} (h : OccursAt base pattern q) : q + pattern.length ≤ base.length := by
  obtain ⟨a, c, rfl, rfl⟩ := h
  simp

/-- the first search -/
theorem search (base pattern : Str) (start : Nat) (hp : pattern ≠ []) (hpl : pattern.length < 2147483648)
    (hbl : base.length < 2147483648) (hst : start ≤ base.length) (fuel : Nat)
    (hf : 2 * (base.length + pattern.length) + 2 ≤ fuel) :
    ∃ r, IsFirstOccurrence base pattern start r ∧ kmpSearch fuel base pattern start = .ok r := by
  obtain ⟨r, h1, h2⟩ := C08_first_occurrence base pattern start hp hpl hbl (by omega)
  exact ⟨r, h1, h2 fuel hf⟩

theorem findAll_lists (base pattern : Str) (hp : pattern ≠ []) (hpl : pattern.length < 2147483648)
    (hbl : base.length < 2147483648) (fuel : Nat) (hf : 2 * (base.length + pattern.length) + 2 ≤ fuel) :
    ∀ n start, start ≤ base.length → base.length < n + start →
      ∃ l, findAll fuel base pattern n start = .ok l ∧ Lists base pattern start l
  | 0, start, hs, hn => absurd hn (by omega)
  | n + 1, start, hs, hn => by
    obtain ⟨r, h1, h2⟩ := search base pattern start hp hpl hbl hs fuel hf
    rw [findAll, h2, Out.ok_bind]
    have hpos : 0 < pattern.length := List.length_pos_iff.2 hp
    rcases h1 with ⟨q, rfl, hq, ho, hno⟩ | ⟨rfl, hno⟩
    · have hb := OccursAt.bound ho
      obtain ⟨l, e, hl1, hl2⟩ := findAll_lists base pattern hp hpl hbl fuel hf n (q + 1) (by omega) (by omega)
      rw [if_neg (by omega), show ((q : Int) + 1).toNat = q + 1 by omega, e, Out.ok_bind]
      refine ⟨_, rfl, List.pairwise_cons.2 ⟨fun r hr => ?_, hl1⟩, fun r => ?_⟩
      · obtain ⟨q', rfl, h, -⟩ := (hl2 r).1 hr
        omega
      · rw [List.mem_cons, hl2]
        constructor
        · rintro (rfl | ⟨q', rfl, h, ho'⟩)
          · exact ⟨q, rfl, hq, ho⟩
          · exact ⟨q', rfl, by omega, ho'⟩
        · rintro ⟨q', rfl, h, ho'⟩
          by_cases hqq : q' = q
          · exact .inl (by rw [hqq])
          · refine .inr ⟨q', rfl, ?_, ho'⟩
            exact Decidable.byContradiction fun hlt => hno q' h (by omega) ho'
    · rw [if_pos rfl]
      refine ⟨[], rfl, List.Pairwise.nil, fun r => ?_⟩
      constructor
      · intro h; cases h
      · rintro ⟨q, -, h, ho⟩; exact absurd ho (hno q h)

/-- occurrences in the rest -/
theorem occursAt_drop (base pattern : Str) (pos q : Nat) (hpos : pos ≤ base.length) :
    OccursAt (base.drop pos) pattern q ↔ OccursAt base pattern (pos + q) := by
  constructor
  · rintro ⟨a, c, e, rfl⟩
    refine ⟨base.take pos ++ a, c, ?_, ?_⟩
    · rw [List.append_assoc, List.append_assoc, ← List.append_assoc a, ← e, List.take_append_drop]
    · rw [List.length_append, List.length_take, Nat.min_eq_left hpos]
  · rintro ⟨a, c, rfl, e⟩
    refine ⟨a.drop pos, c, ?_, by rw [List.length_drop]; omega⟩
    rw [List.append_assoc, List.drop_append_of_le_length (by omega), ← List.append_assoc]

theorem replaceAll_replaced (base pattern by' : Str) (hp : pattern ≠ []) (hpl : pattern.length < 2147483648)
    (hbl : base.length < 2147483648) (fuel : Nat) (hf : 2 * (base.length + pattern.length) + 2 ≤ fuel) :
    ∀ n pos, pos ≤ base.length → base.length < n + pos →
      ∃ t, replaceAll fuel base pattern by' n pos = .ok t ∧ Replaced pattern by' (base.drop pos) t
  | 0, pos, hs, hn => absurd hn (by omega)
  | n + 1, pos, hs, hn => by
    obtain ⟨r, h1, h2⟩ := search base pattern pos hp hpl hbl hs fuel hf
    rw [replaceAll, h2, Out.ok_bind]
    have hpos : 0 < pattern.length := List.length_pos_iff.2 hp
    rcases h1 with ⟨q, rfl, hq, ho, hno⟩ | ⟨rfl, hno⟩
    · have hb := OccursAt.bound ho
      obtain ⟨t, e, ht⟩ := replaceAll_replaced base pattern by' hp hpl hbl fuel hf n (q + pattern.length) (by omega) (by omega)
      rw [if_neg (by omega)]
      unfold substr
      rw [if_neg (by omega), Out.ok_bind, Int.toNat_natCast, e, Out.ok_bind]
      refine ⟨_, rfl, ?_⟩
      obtain ⟨a, c, e1, e2⟩ := ho
      have e3 : base.drop (q + pattern.length) = c := by
        rw [e1, ← e2, ← List.length_append, List.drop_left]
      have e4 : base.drop pos = (base.drop pos).take ((q : Int) - pos).toNat ++ pattern ++ base.drop (q + pattern.length) := by
        have e5 : base.drop q = pattern ++ c := by rw [e1, List.append_assoc, ← e2, List.drop_left]
        rw [e3, List.append_assoc, ← e5]
        refine (List.take_append_drop ((q : Int) - pos).toNat (base.drop pos)).symm.trans ?_
        rw [List.drop_drop, show pos + ((q : Int) - pos).toNat = q by omega]
      have hlen : ((base.drop pos).take ((q : Int) - pos).toNat).length = q - pos := by
        rw [List.length_take, List.length_drop]; omega
      rw [e4]
      have key : Replaced pattern by' ((base.drop pos).take ((q : Int) - pos).toNat ++ pattern ++ base.drop (q + pattern.length))
          ((base.drop pos).take ((q : Int) - pos).toNat ++ by' ++ t) := by
        refine .one _ _ _ (fun x hx => ?_) ht
        rw [← e4, occursAt_drop _ _ _ _ hs]
        rw [hlen] at hx
        exact hno _ (by omega) (by omega)
      rw [← e4] at key ⊢
      exact key
    · rw [if_pos rfl]
      unfold substr
      rw [if_neg (by omega)]
      refine ⟨_, rfl, ?_⟩
      rw [List.take_of_length_le (by rw [List.length_drop]; omega)]
      refine .none _ fun q ho => ?_
      rw [occursAt_drop _ _ _ _ hs] at ho
      exact hno _ (by omega) ho

/-- there is only one result -/
theorem Replaced.unique {pattern by' s t t' : Str} (h : Replaced pattern by' s t) (h' : Replaced pattern by' s t') :
    t = t' := by
  induction h generalizing t' with
  | none s hs =>
    cases h' with
    | none => rfl
    | one before rest t _ _ => exact absurd ⟨before, rest, rfl, rfl⟩ (hs before.length)
  | one before rest t hb ht ih =>
    generalize hs : before ++ pattern ++ rest = s at h'
    cases h' with
    | none _ hn => subst hs; exact absurd ⟨before, rest, rfl, rfl⟩ (hn before.length)
    | one before' rest' t' hb' ht' =>
      have hl : before.length = before'.length := by
        refine Decidable.byContradiction fun hne => ?_
        rcases Nat.lt_or_gt_of_ne hne with h | h
        · refine hb' before.length h ?_
          rw [← hs]; exact ⟨before, rest, rfl, rfl⟩
        · refine hb before'.length h ?_
          rw [hs]; exact ⟨before', rest', rfl, rfl⟩
      rw [List.append_assoc, List.append_assoc] at hs
      obtain ⟨e1, e2⟩ := List.append_inj hs hl
      have e3 := (List.append_inj e2 rfl).2
      subst e1 e3
      rw [ih ht']

end Kmp
