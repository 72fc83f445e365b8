import Verif.Model.JsonStack
import Verif.Spec.JsonStack
import Verif.Proof.JsonLoose

/-! # Helper lemmas for JSON: the stack the loader needs -/

namespace Json
open Cpp Spec

theorem opens_drop_le (s : Str) {a b : Nat} (h : a ≤ b) : opens (s.drop b) ≤ opens (s.drop a) := by
  unfold opens
  obtain ⟨k, rfl⟩ := Nat.exists_eq_add_of_le h
  rw [← List.drop_drop]
  exact List.Sublist.countP_le (List.drop_sublist _ _)

theorem opens_at {s : Str} {i : Nat} {c : Byte} (h : strAt s i = .ok c) (hc : c = byte '[' ∨ c = byte '{') :
    opens (s.drop i) = opens (s.drop (i + 1)) + 1 := by
  have hi : i < s.length := by
    by_contra hn
    have hl := strAt_le h
    have e : i = s.length := by omega
    unfold strAt at h
    rw [if_neg (by omega), if_pos (by omega)] at h
    injection h with h
    subst h
    revert hc; decide
  rw [strAt_ok hi] at h
  injection h with h
  rw [List.drop_eq_getElem_cons hi]
  unfold opens
  rw [List.countP_cons]
  have : s[i] = c := by rw [← h]; simp [List.getD, hi]
  rw [this, if_pos (by simpa using hc)]

theorem bind_same {α β : Type} {x : Out α} {f g : α → Out β} (h : ∀ a, x = .ok a → f a = g a) : (x >>= f) = (x >>= g) := by
  cases x with
  | ok a => simpa using h a rfl
  | exit => rfl
  | ub => rfl
  | diverge => rfl

/-- with more room than there are opening brackets the stack does not matter -/
theorem parseD_eq (str : Str) : ∀ f : Nat,
    (∀ D off, opens (str.drop off) < D → parseNextD str f D off = parseNext str f off) ∧
    (∀ D off, opens (str.drop off) < D → arrLoopD str f D off = arrLoop str f off) ∧
    (∀ D off m, opens (str.drop off) < D → objLoopD str f D off m = objLoop str f off m) := by
  intro f
  induction f with
  | zero =>
    refine ⟨fun D off h => ?_, fun D off h => ?_, fun D off m h => ?_⟩
    · rw [parseNextD, parseNext]
    · rw [arrLoopD, arrLoop]
    · rw [objLoopD, objLoop]
  | succ f ih =>
    obtain ⟨ih1, ih2, ih3⟩ := ih
    have pp := (parse_prog str f).1
    refine ⟨fun D off h => ?_, fun D off h => ?_, fun D off m h => ?_⟩
    · cases D with
      | zero => omega
      | succ D =>
        rw [parseNextD, parseNext]
        refine bind_same fun o1 h1 => bind_same fun c hc => ?_
        have l1 := opens_drop_le str (skip_le h1)
        by_cases c1 : c = byte '['
        · rw [if_pos c1, if_pos c1]
          have l2 := opens_at hc (.inl c1)
          refine bind_same fun o2 h2 => bind_same fun d hd => ?_
          have l3 := opens_drop_le str (skip_le h2)
          rw [ih2 D o2 (by omega)]
        · rw [if_neg c1, if_neg c1]
          by_cases c2 : c = byte '{'
          · rw [if_pos c2, if_pos c2]
            have l2 := opens_at hc (.inr c2)
            refine bind_same fun o2 h2 => bind_same fun d hd => ?_
            have l3 := opens_drop_le str (skip_le h2)
            rw [ih3 D o2 _ (by omega)]
          · rw [if_neg c2, if_neg c2]
    · rw [arrLoopD, arrLoop, ih1 D off h]
      refine bind_same fun p h1 => ?_
      obtain ⟨v, o1⟩ := p
      refine bind_same fun o2 h2 => bind_same fun c hc => ?_
      have l1 := opens_drop_le str (le_of_lt (pp _ _ _ h1).1)
      have l2 := opens_drop_le str (skip_le h2)
      have l3 := opens_drop_le str (show o2 ≤ o2 + 1 by omega)
      rw [ih2 D (o2 + 1) (by omega)]
    · rw [objLoopD, objLoop, ih1 D off h]
      refine bind_same fun p h1 => ?_
      obtain ⟨v, o1⟩ := p
      refine bind_same fun o2 h2 => bind_same fun c hc => ?_
      have l1 := opens_drop_le str (le_of_lt (pp _ _ _ h1).1)
      have l2 := opens_drop_le str (skip_le h2)
      have l3 := opens_drop_le str (show o2 ≤ o2 + 1 by omega)
      split
      · rfl
      · refine bind_same fun o3 h3 => ?_
        have l4 := opens_drop_le str (skip_le h3)
        rw [ih1 D o3 (by omega)]
        refine bind_same fun p h4 => ?_
        obtain ⟨v', o4⟩ := p
        refine bind_same fun o5 h5 => bind_same fun c' hc' => ?_
        have l5 := opens_drop_le str (le_of_lt (pp _ _ _ h4).1)
        have l6 := opens_drop_le str (skip_le h5)
        have l7 := opens_drop_le str (show o5 ≤ o5 + 1 by omega)
        rw [ih3 D (o5 + 1) _ (by omega)]

theorem loadD_eq {D : Nat} {str : Str} (h : opens str < D) : loadJSOND D str = loadJSON str := by
  unfold loadJSOND loadJSON
  rw [(parseD_eq str _).1 D 0 (by simpa using h)]

/-! ## the stack needed by nested arrays -/

theorem strAt_deep {n i : Nat} (r : Str) (h : i < n) : strAt (List.replicate n (byte '[') ++ r) i = .ok (byte '[') := by
  rw [strAt_ok (by simp; omega)]
  simp [List.getD, List.getElem?_append_left, h]

theorem skip_deep {n i : Nat} (r : Str) (h : i < n) : skip (List.replicate n (byte '[') ++ r) i = .ok i := by
  unfold skip
  obtain ⟨k, hk⟩ : ∃ k, (List.replicate n (byte '[') ++ r).length + 2 = k + 1 := ⟨_, rfl⟩
  simp only [skipGo, strAt_deep r h, Out.ok_bind]
  have : isspace (byte '[') = .ok false := by decide
  simp [this]

theorem parseD_deep {n : Nat} (r : Str) : ∀ D f off, off + D < n → 2 * D < f →
    parseNextD (List.replicate n (byte '[') ++ r) f D off = .ub := by
  intro D
  induction D with
  | zero =>
    intro f off _ hf
    obtain ⟨f, rfl⟩ : ∃ k, f = k + 1 := ⟨f - 1, by omega⟩
    rw [parseNextD]
  | succ D ih =>
    intro f off h hf
    obtain ⟨f, rfl⟩ : ∃ k, f = k + 2 := ⟨f - 2, by omega⟩
    rw [parseNextD, skip_deep r (by omega), Out.ok_bind, strAt_deep r (by omega), Out.ok_bind, if_pos rfl,
      skip_deep r (by omega), Out.ok_bind, strAt_deep r (by omega), Out.ok_bind,
      if_neg (show ¬ byte '[' = byte ']' by decide), arrLoopD, ih f (off + 1) (by omega) (by omega)]
    rfl

theorem loadD_deep {D n : Nat} (r : Str) (h : D < n) : loadJSOND D (List.replicate n (byte '[') ++ r) = .ub := by
  unfold loadJSOND
  rw [parseD_deep r D _ 0 (by omega) (by simp; omega)]
  rfl

theorem doc_nest (K : Str → Str → Prop) : ∀ n, Doc K (List.replicate (n + 1) (byte '[') ++ List.replicate (n + 1) (byte ']')) (nest n) := by
  intro n
  induction n with
  | zero => exact Doc.arr0 [] (by intro c hc; cases hc)
  | succ n ih =>
    have := Doc.arr (K := K) [⟨[], List.replicate (n + 1) (byte '[') ++ List.replicate (n + 1) (byte ']'), [], nest n⟩] (by simp)
      (by intro x hx; simp only [List.mem_singleton] at hx; subst hx; exact ⟨(by intro c hc; cases hc), (by intro c hc; cases hc)⟩)
      (by intro x hx; simp only [List.mem_singleton] at hx; subst hx; exact ih)
    simp only [List.map_cons, List.map_nil, Item.full, List.nil_append, List.append_nil, commas] at this
    rw [List.replicate_succ (n := n + 1), List.replicate_succ' (n := n + 1) (a := byte ']')]
    simpa [nest] using this

end Json
