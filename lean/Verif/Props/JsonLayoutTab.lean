import Verif.Props.JsonLayout

/-! # C172: no tab of another length is right -/

namespace Json.Props
open Cpp Spec

/-- **C172, refuted for every object and every tab whose length is not 2.**  Every object with members, whatever they are, is laid
out wrong at every depth with every tab of three or more characters, and from depth 2 on with every tab of one character: its
closing brace is not where it belongs. -/
theorem C172_tab_all_refuted (tab : Str) (hb : Blanks tab) (h0 : tab ≠ []) (h2 : tab.length ≠ 2) (m : List (Str × Value))
    (hm : Tidy (.obj m)) (depth : Int) (hd : 1 ≤ depth) (h1 : tab.length = 1 → 2 ≤ depth) :
    ¬ LaidOut tab (depth - 1) (dump tab depth (.obj m)) := by
  cases hm with
  | obj m hne hk h =>
  intro hl
  have hp := (obj_piece (d := depth) hb m hne hk fun p hp d => dump_piece hb (h p hp) d).fold
  have w := (hl (byte '{' :: 10 :: dumpObj tab depth m) ((padding depth tab).drop 2 ++ [byte '}']) (by
    rw [dump]; simp [bytes, byte])).2
  have e : Spec.read (depth - 1) (byte '{' :: 10 :: dumpObj tab depth m) = ⟨false, false, depth⟩ := by
    unfold Spec.read
    rw [List.foldl_cons, show Reader.step ⟨false, false, depth - 1⟩ (byte '{') = ⟨false, false, depth⟩ by
      simp [Reader.step, byte], hp]
  rw [e] at w
  have hpos : 0 < tab.length := List.length_pos_iff.2 h0
  have bl : ∀ (n : Int), ∀ c ∈ indent tab n, c ≠ byte '}' := by
    intro n c hc
    rcases hb c (padding_mem (n := n) hc) with rfl | rfl <;> decide
  have len : ∀ n : Int, (indent tab n).length = n.toNat * tab.length := by
    intro n; simp [indent]
  -- the first closing brace of a text which begins with blanks
  have first : ∀ {a b r s : Str}, (∀ c ∈ a, c ≠ byte '}') → (∀ c ∈ b, c ≠ byte '}') → a ++ byte '}' :: r = b ++ byte '}' :: s →
      a.length = b.length := by
    intro a
    induction a with
    | nil =>
      intro b r s _ hb e
      cases b with
      | nil => rfl
      | cons y b => injection e with e _; exact absurd e.symm (hb y (by simp))
    | cons x a ih =>
      intro b r s ha hb e
      cases b with
      | nil => injection e with e _; exact absurd e (ha x (by simp))
      | cons y b =>
        injection e with _ e
        simp [ih (fun c hc => ha c (by simp [hc])) (fun c hc => hb c (by simp [hc])) e]
  have hpad : ∀ c ∈ (padding depth tab).drop 2, c ≠ byte '}' := fun c hc => bl depth c (List.mem_of_mem_drop hc)
  have lpad : ((padding depth tab).drop 2).length = depth.toNat * tab.length - 2 := by
    rw [List.length_drop]
    exact congrArg (· - 2) (len depth)
  rcases w with ⟨r, hr⟩ | ⟨r, hr⟩
  · have := congrArg List.length hr
    simp only [List.length_append, List.length_cons, List.length_nil, lpad, len] at this
    have hq : byte '"' ∈ (padding depth tab).drop 2 ++ [byte '}'] := by rw [hr]; simp
    rcases List.mem_append.1 hq with hq | hq
    · rcases hb _ (padding_mem (n := depth) (List.mem_of_mem_drop hq)) with h | h <;> revert h <;> decide
    · rw [List.mem_singleton] at hq; revert hq; decide
  · have := first hpad (bl _) hr
    rw [lpad, len] at this
    obtain ⟨n, rfl⟩ : ∃ n : Nat, depth = n + 1 := ⟨(depth - 1).toNat, by omega⟩
    rw [show ((n : Int) + 1).toNat = n + 1 by omega, show ((n : Int) + 1 - 1).toNat = n by omega, Nat.succ_mul] at this
    by_cases ht : tab.length = 1
    · have hn := h1 ht
      rw [ht] at this
      omega
    · omega

/-- `{"a":null}` with a tab of three blanks -/
example : ¬ LaidOut [32, 32, 32] (1 - 1) (dump [32, 32, 32] 1 (.obj [([97], .null)])) :=
  C172_tab_all_refuted _ (by simp [Blanks]) (by simp) (by simp) _
    (.obj _ (by simp) (by simpa using .plain 97 (by decide) .nil) (by simpa using .null)) 1 (by decide) (by simp)

end Json.Props
