import Verif.Proof.TrieMemory
import Verif.Props.Trie
import Mathlib.Algebra.BigOperators.Group.Finset.Basic
import Mathlib.Algebra.Order.BigOperators.Group.Finset

/-! # Trie: property C129, the memory of a trie -/

namespace Trie.Props
open Cpp Spec

/-- **C129** fails once words are removed: the number of stored tails is not bounded by anything that depends on the
contents.  Inserting and removing "a" `n` times leaves an empty trie with `n` entries in `tail`, since `remove_` does not
give the tail of the removed word back to `tailList`. -/
theorem C129_refuted : ¬ ∃ f : Finset Str → Int, ∀ ops st, (∀ op ∈ ops, Lower op.2) → Legal ops → run ops = .ok st →
    st.tail.size ≤ f (words ops) := by
  rintro ⟨f, hf⟩
  have hw : ∀ n : Nat, words (List.replicate n [(true, [97]), (false, [97])]).flatten = ∅ := by
    intro n
    induction n with
    | zero => rfl
    | succ n ih =>
      rw [List.replicate_succ', List.flatten_append]
      unfold words at ih ⊢
      rw [List.foldl_append, ih]
      decide
  have hl : ∀ n : Nat, Legal (List.replicate n [(true, [97]), (false, [97])]).flatten := by
    intro n
    induction n with
    | zero => intro l w r h; cases l <;> cases h
    | succ n ih =>
      rw [List.replicate_succ', List.flatten_append]
      intro l w r h
      simp only [List.flatten_cons, List.flatten_nil, List.append_nil] at h
      rcases List.append_eq_append_iff.1 h with ⟨a, h1, h2⟩ | ⟨a, h1, h2⟩
      · subst h1
        match a, h2 with
        | [], h2 => cases h2
        | [x], h2 =>
          simp only [List.singleton_append, List.cons.injEq, Prod.mk.injEq] at h2
          obtain ⟨rfl, ⟨-, rfl⟩, -⟩ := h2
          unfold words
          rw [List.foldl_append]
          simp
        | x :: y :: a, h2 =>
          simp only [List.cons_append, List.cons.injEq] at h2
          exact absurd h2.2.2 (by simp)
      · match a, h2 with
        | [], h2 => cases h2
        | x :: a, h2 =>
          simp only [List.cons_append, List.cons.injEq] at h2
          obtain ⟨rfl, -⟩ := h2
          exact ih l w a h1
  obtain ⟨st, e, L⟩ := run_leak ((f ∅).toNat + 1)
  have := hf _ st ?_ (hl _) e
  · rw [hw, L.ts] at this
    omega
  · intro op hop
    rw [List.mem_flatten] at hop
    obtain ⟨l, hl, hop⟩ := hop
    rw [(List.mem_replicate.1 hl).2] at hop
    simp only [List.mem_cons, List.not_mem_nil, or_false] at hop
    rcases hop with rfl | rfl <;> decide

/-- the state after `n` rounds: nothing is stored, and `tail` has `n` entries -/
theorem C129_leak_refuted (n : Nat) : ∃ st, run (List.replicate n [(true, bytes ['a']), (false, bytes ['a'])]).flatten = .ok st ∧
    st.size = 0 ∧ st.tail.size = n := by
  obtain ⟨st, e, L⟩ := run_leak n
  exact ⟨st, e, L.sz, L.ts⟩

example : ∃ st, run [(true, bytes ['a']), (false, bytes ['a']), (true, bytes ['a']), (false, bytes ['a'])] = .ok st ∧
    st.size = 0 ∧ st.tail.size = 2 := C129_leak_refuted 2

/-- **C129** without removals: the tables are bounded by the words they hold.  `base` and `check` have at most 26 entries
and 54 for each letter of a stored word, counting two more letters per word; `tail` has at most one entry per word. -/
theorem C129_partial (ws : List Str) (hw : ∀ w ∈ ws, Lower w) : ∃ st, build ws = .ok st ∧
    st.base.size ≤ 26 + 54 * ∑ w ∈ ws.toFinset, ((w.length : Int) + 2) ∧
    st.check.size ≤ 26 + 54 * ∑ w ∈ ws.toFinset, ((w.length : Int) + 2) ∧
    st.tail.size ≤ ws.toFinset.card := by
  have key : ∃ st, run (ws.map fun w => (true, w)) = .ok st ∧
      Bd (26 + 54 * ∑ w ∈ ws.toFinset, ((w.length : Int) + 2)) ws.toFinset.card st := by
    induction ws using List.reverseRecOn with
    | nil =>
      obtain ⟨st, e⟩ : ∃ st, new = .ok st := ⟨_, by unfold new; rw [AA.set_ok _ (le_refl _)]; rfl⟩
      exact ⟨st, by simp [run, e], by simpa using new_bd e⟩
    | append_singleton ws w ih =>
      obtain ⟨st, e, B⟩ := ih (fun u hu => hw u (by simp [hu]))
      have hlow : ∀ op ∈ ws.map fun w => (true, w), Lower op.2 := by
        intro op hop
        obtain ⟨u, hu, rfl⟩ := List.mem_map.1 hop
        exact hw u (by simp [hu])
      have hwords : ∀ ws : List Str, words (ws.map fun w => (true, w)) = ws.toFinset := by
        intro ws
        induction ws using List.reverseRecOn with
        | nil => rfl
        | append_singleton ws w ih =>
          unfold words at ih ⊢
          rw [List.map_append, List.foldl_append, ih]
          ext u
          simp
      obtain ⟨st', e', -⟩ := C42_insert _ hlow st e w (hw w (by simp))
      have hrun : run ((ws ++ [w]).map fun w => (true, w)) = .ok st' := by
        unfold run at e ⊢
        obtain ⟨st0, h0, e⟩ := Out.bind_eq_ok.1 e
        rw [h0, Out.ok_bind, List.map_append, List.foldlM_append, e, Out.ok_bind]
        simp [e']
      refine ⟨st', hrun, ?_⟩
      have hc : contain mapChar st w = .ok (decide (w ∈ ws.toFinset)) := by
        obtain h' | ⟨st1, e1, R⟩ := run_rep _ hlow
        · rw [e] at h'; cases h'
        · rw [e] at e1
          injection e1 with e1
          subst e1
          rw [contain_rep lower_alpha lower_maps R (hw w (by simp)), hwords]
      have hfin : (ws ++ [w]).toFinset = Insert.insert w ws.toFinset := by ext u; simp
      rw [hfin]
      by_cases hmem : w ∈ ws.toFinset
      · rw [Finset.insert_eq_self.2 hmem]
        unfold insert at e'
        rw [hc] at e'
        simp only [hmem, decide_true, Out.ok_bind, if_true] at e'
        injection e' with e'
        subst e'
        exact B
      · rw [Finset.sum_insert hmem, Finset.card_insert_of_notMem hmem]
        refine (insert_bd mapChar_small mapChar_small B e').mono (by omega) ?_
        push_cast
        omega
  obtain ⟨st, e, B⟩ := key
  refine ⟨st, ?_, B.bs, B.ks, le_trans B.ts B.pK⟩
  unfold run at e
  unfold build
  simpa [List.foldlM_map] using e

example : ∃ st, build [bytes ['a', 'b'], bytes ['c'], bytes ['a', 'b'], bytes ['a', 'c']] = .ok st ∧
    st.base.size ≤ 26 + 54 * 11 ∧ st.check.size ≤ 26 + 54 * 11 ∧ st.tail.size ≤ 3 := by
  have := C129_partial [bytes ['a', 'b'], bytes ['c'], bytes ['a', 'b'], bytes ['a', 'c']] (by decide)
  rwa [show ∑ w ∈ [bytes ['a', 'b'], bytes ['c'], bytes ['a', 'b'], bytes ['a', 'c']].toFinset, ((w.length : Int) + 2) = 11
      by decide +kernel,
    show [bytes ['a', 'b'], bytes ['c'], bytes ['a', 'b'], bytes ['a', 'c']].toFinset.card = 3 by decide +kernel] at this

/-- **C129** with removals: whatever was done, the tables are bounded by what was ever inserted. -/
theorem C129_ever (ops : List (Bool × Str)) (st : St) (h : run ops = .ok st) :
    st.base.size ≤ 26 + 54 * ((ops.filter (·.1)).map fun op => (op.2.length : Int) + 2).sum ∧
    st.check.size ≤ 26 + 54 * ((ops.filter (·.1)).map fun op => (op.2.length : Int) + 2).sum ∧
    st.tail.size ≤ (ops.filter (·.1)).length :=
  have B := run_bd h
  ⟨B.bs, B.ks, le_trans B.ts B.pK⟩

example : ∃ st, run demo = .ok st ∧ st.base.size ≤ 26 + 54 * 21 ∧ st.check.size ≤ 26 + 54 * 21 ∧ st.tail.size ≤ 6 := by
  obtain ⟨st, e, -⟩ := C42_contain demo demo_lower demo_legal
  exact ⟨st, e, C129_ever demo st e⟩

end Trie.Props
