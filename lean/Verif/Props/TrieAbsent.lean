import Verif.Proof.TrieAbsent

/-! # C43: removals of absent words which change nothing -/

namespace Trie.Props
open Cpp Spec

/-- **C43, what holds.**  After any history, the removal of an absent word which is sheltered by later words changes
nothing. -/
theorem C43_sheltered_partial (ops : List (Bool × Str)) (hl : ∀ op ∈ ops, Lower op.2) (st : St) (h : run ops = .ok st) (w : Str)
    (hw : Lower w) (hm : w ∉ words ops) (hs : Sheltered ops w) : remove mapChar st w = .ok st :=
  run_sheltered ops hl h hw hm hs

/-- **C43, what holds.**  In particular, the removal of an absent word with which a word begins changes nothing. -/
theorem C43_beginning_partial (ops : List (Bool × Str)) (hl : ∀ op ∈ ops, Lower op.2) (st : St) (h : run ops = .ok st) (w u : Str)
    (hw : Lower w) (hm : w ∉ words ops) (hu : u ∈ words ops) (hp : w <+: u) : remove mapChar st w = .ok st :=
  run_sheltered ops hl h hw hm (sheltered_prefix hu hp)

/-- **C43, what holds.**  A whole program of insertions and of removals of words which are there or sheltered is defined, and
`contain` tells afterwards which words are in the set. -/
theorem C43_program_partial (ops : List (Bool × Str)) (hl : ∀ op ∈ ops, Lower op.2)
    (h : ∀ l w r, ops = l ++ (false, w) :: r → w ∈ words l ∨ Sheltered l w) :
    ∃ st, run ops = .ok st ∧ ∀ w, Lower w → contain mapChar st w = .ok (decide (w ∈ words ops)) := by
  obtain ⟨st, e⟩ := run_total ops hl h
  exact ⟨st, e, fun w hw => contain_rep lower_alpha lower_maps (run_inner ops hl e).1 hw⟩

/-- abc, b; then ab (absent, abc begins with it) and aa (absent, before abc) are removed -/
def shelterDemo : List (Bool × Str) :=
  [(true, bytes ['a', 'b', 'c']), (true, bytes ['b']), (false, bytes ['a', 'b']), (false, bytes ['a', 'a'])]

theorem shelterDemo_ok : ∀ l w r, shelterDemo = l ++ (false, w) :: r → w ∈ words l ∨ Sheltered l w := by
  intro l w r e
  right
  unfold shelterDemo at e
  match l, e with
  | [_, _], e =>
    simp only [List.cons_append, List.nil_append, List.cons.injEq, Prod.mk.injEq] at e
    obtain ⟨rfl, rfl, ⟨-, rfl⟩, -⟩ := e
    exact sheltered_prefix (u := bytes ['a', 'b', 'c']) (by decide +kernel) (by decide)
  | [_, _, _], e =>
    simp only [List.cons_append, List.nil_append, List.cons.injEq, Prod.mk.injEq] at e
    obtain ⟨rfl, rfl, rfl, ⟨-, rfl⟩, -⟩ := e
    intro v hv hF
    have hle : bytes ['a', 'a'] ≤ bytes ['a', 'b', 'c'] := by decide
    by_cases h : v <+: bytes ['a', 'b', 'c']
    · exact ⟨bytes ['a', 'b', 'c'], by decide +kernel, h, hle⟩
    · exfalso
      rcases hF with rfl | ⟨l, hl, u, hu, w, hw, hne, h1, h2⟩
      · exact h (List.nil_prefix)
      · have hs : ∀ l, l <+: [(true, bytes ['a', 'b', 'c']), (true, bytes ['b']), (false, bytes ['a', 'b'])] → ∀ u ∈ words l,
            u = bytes ['a', 'b', 'c'] ∨ u = bytes ['b'] := by
          intro l hl u hu
          have hk : l = [(true, bytes ['a', 'b', 'c']), (true, bytes ['b']), (false, bytes ['a', 'b'])].take l.length :=
            List.prefix_iff_eq_take.1 hl
          have hlen := hl.length_le
          have key : ∀ n : Fin 4, ∀ u ∈ words ([(true, bytes ['a', 'b', 'c']), (true, bytes ['b']), (false, bytes ['a', 'b'])].take n.val),
              u = bytes ['a', 'b', 'c'] ∨ u = bytes ['b'] := by decide +kernel
          rw [hk] at hu
          exact key ⟨l.length, by simpa using Nat.lt_succ_of_le hlen⟩ u hu
        rcases hs l hl u hu with rfl | rfl
        · exact h h1
        · rcases hs l hl w hw with rfl | rfl
          · exact h h2
          · exact hne rfl
  | [], e => simp at e
  | [_], e => simp at e
  | _ :: _ :: _ :: _ :: _, e => simp at e

/-- The program runs, and both words are still there. -/
example : ∃ st, run shelterDemo = .ok st ∧ contain mapChar st (bytes ['a', 'b', 'c']) = .ok true ∧
    contain mapChar st (bytes ['b']) = .ok true := by
  obtain ⟨st, e, h⟩ := C43_program_partial shelterDemo (by decide) shelterDemo_ok
  refine ⟨st, e, ?_, ?_⟩
  · rw [h _ (by decide)]; decide +kernel
  · rw [h _ (by decide)]; decide +kernel

/-- Removing ab once more, and aa once more, changes nothing. -/
example : ∃ st, run (shelterDemo.take 3) = .ok st ∧ remove mapChar st (bytes ['a', 'b']) = .ok st ∧
    remove mapChar st (bytes ['a', 'a']) = .ok st := by
  have hl : ∀ op ∈ shelterDemo.take 3, Lower op.2 := by decide
  obtain ⟨st, e, -⟩ := C43_program_partial (shelterDemo.take 3) hl fun l w r e =>
    shelterDemo_ok l w (r ++ [(false, bytes ['a', 'a'])]) (by
      rw [show shelterDemo = shelterDemo.take 3 ++ [(false, bytes ['a', 'a'])] from rfl, e]; simp)
  refine ⟨st, e, ?_, ?_⟩
  · exact C43_beginning_partial _ hl st e _ (bytes ['a', 'b', 'c']) (by decide) (by decide +kernel) (by decide +kernel) (by decide)
  · refine C43_sheltered_partial _ hl st e _ (by decide) (by decide +kernel) ?_
    rcases shelterDemo_ok (shelterDemo.take 3) (bytes ['a', 'a']) [] rfl with h | h
    · exact absurd h (by decide +kernel)
    · exact h

end Trie.Props
