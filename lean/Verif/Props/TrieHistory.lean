import Verif.Proof.TrieHistory

/-! # C45: the iteration after insertions and removals -/

namespace Trie.Props
open Cpp Spec

/-- **C45, what holds, with removals.**  After insertions and removals the iteration is right exactly if the history is
regular: then it ends and shows each word once, in alphabetical order; otherwise it does not end or some word is missing. -/
theorem C45_history_partial (ops : List (Bool × Str)) (hl : ∀ op ∈ ops, Lower op.2) (st : St) (h : run ops = .ok st) :
    (RegularAfter ops → ∃ l N, l.Pairwise (· < ·) ∧ (∀ w, w ∈ l ↔ w ∈ words ops) ∧
      ∀ fuel, N ≤ fuel → iterate mapInt st fuel = .ok l) ∧
    (¬ RegularAfter ops → ∀ fuel l, iterate mapInt st fuel = .ok l → ∃ w ∈ words ops, w ∉ l) := by
  obtain ⟨R, hF, M, hM⟩ := run_inner ops hl h
  have hlow : ∀ w ∈ words ops, Lower w := by
    clear R hF hM h
    induction ops using List.reverseRecOn with
    | nil => intro w hw; simp [words] at hw
    | append_singleton ops op ih =>
      intro w hw
      rw [words_snoc] at hw
      split at hw
      · rcases Finset.mem_insert.1 hw with rfl | hw
        · exact hl op (by simp)
        · exact ih (fun o h => hl o (by simp [h])) w hw
      · exact ih (fun o h => hl o (by simp [h])) w (Finset.mem_of_mem_erase hw)
  refine ⟨fun H => ?_, fun H fuel l hi => ?_⟩
  · obtain ⟨l, s, k1, k2, k3, k4⟩ := runs_rootH R hF hlow H hM 27 (by omega) (fun b hb hlt => by
      have := lower_alpha.range b (hb.low R b (by simp)); push_cast at hlt; omega)
    rw [show (28 : Int) - (27 : Nat) = 1 by norm_num] at k1 k3
    obtain ⟨N, hN⟩ := iterate_runs R k1 k2
    refine ⟨l, N, k4, fun w => ?_, hN⟩
    rw [k3 w, from_all hlow]
    simp
  · by_contra hall
    push Not at hall
    obtain ⟨⟨t, ht, hstop⟩, hshow⟩ := iterate_reach R hi
    exact H (regularH_of_complete R hF ht hstop (fun w hw => hshow w (hall w hw)) hlow)

/-- The words baa, bab and bb are not regular, but after the removal of bb the history is. -/
example : RegularAfter [(true, bytes ['b', 'a', 'a']), (true, bytes ['b', 'a', 'b']), (true, bytes ['b', 'b']), (false, bytes ['b', 'b'])] :=
  CheckH.regular (by decide +kernel)

/-- The removed words cbdx and cbdy leave the node cbd behind; it does not count as ca is met before. -/
example : RegularAfter [(true, bytes ['c', 'a', 'a']), (true, bytes ['c', 'a', 'b']), (true, bytes ['c', 'b', 'd', 'x']),
    (true, bytes ['c', 'b', 'd', 'y']), (false, bytes ['c', 'b', 'd', 'x']), (false, bytes ['c', 'b', 'd', 'y'])] :=
  CheckH.regular (by decide +kernel)

example : (do iterate mapInt (← run [(true, bytes ['c', 'a', 'a']), (true, bytes ['c', 'a', 'b']), (true, bytes ['c', 'b', 'd', 'x']),
    (true, bytes ['c', 'b', 'd', 'y']), (false, bytes ['c', 'b', 'd', 'x']), (false, bytes ['c', 'b', 'd', 'y'])]) 300) =
    .ok [bytes ['c', 'a', 'a'], bytes ['c', 'a', 'b']] := by decide +kernel

/-- The words ba and bc are inserted and removed again, which leaves c alone.  The single word c is regular, the history is
not: c is never shown. -/
example : ¬ RegularAfter [(true, bytes ['b', 'a']), (true, bytes ['b', 'c']), (true, bytes ['c']), (false, bytes ['b', 'a']),
    (false, bytes ['b', 'c'])] := by
  intro h
  have := h.first 98 ⟨[(true, bytes ['b', 'a']), (true, bytes ['b', 'c'])], by decide, bytes ['b', 'a'], by decide +kernel,
    bytes ['b', 'c'], by decide +kernel, by decide, by decide, by decide⟩ (bytes ['c']) (by decide +kernel) 99 (by decide)
  exact absurd this (by decide)

example : (do iterate mapInt (← run [(true, bytes ['b', 'a']), (true, bytes ['b', 'c']), (true, bytes ['c']), (false, bytes ['b', 'a']),
    (false, bytes ['b', 'c'])]) 200) = .ok [] := by decide +kernel

end Trie.Props
