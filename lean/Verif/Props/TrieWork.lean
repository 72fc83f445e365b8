import Verif.Proof.TrieWork
import Verif.Props.Trie

/-! # Trie: property C183, the work of the operations -/

namespace Trie.Props
open Cpp Spec

/-- **C183** speaks about the functions of the other properties: the counters change nothing. -/
theorem C183_same (ms mo : Mapper) (st : St) (w : Str) :
    (Work.contain ms st w).out = contain ms st w ∧ (Work.insert ms mo st w).out = insert ms mo st w ∧
    (Work.remove ms st w).out = remove ms st w :=
  ⟨Work.contain_out ms st w, Work.insert_out ms mo st w, Work.remove_out ms st w⟩

/-- **C183**, first part: "efficient in retrieving and deleting elements" (Trie.h:55).  After any history, looking up or
removing a word reads and writes entries of the tables a number of times that depends on the length of that word only, not
on what is stored.  The number of characters copied is bounded by that length and by the longest word inserted so far;
see `C183_lookup_refuted` for why the latter is needed. -/
theorem C183_lookup_partial (ops : List (Bool × Str)) (L : Nat) (hL : ∀ op ∈ ops, op.1 = true → op.2.length ≤ L) (st : St)
    (h : run ops = .ok st) (w : Str) :
    (Work.contain mapChar st w).acc ≤ 3 * w.length + 5 ∧ (Work.contain mapChar st w).chars ≤ L + 2 * w.length + 2 ∧
    (Work.remove mapChar st w).acc ≤ 3 * w.length + 7 ∧ (Work.remove mapChar st w).chars ≤ L + 2 * w.length + 2 := by
  have hT := Work.run_tl hL h
  exact ⟨(Work.contain_le hT w).1, (Work.contain_le hT w).2, (Work.remove_le hT w).1, (Work.remove_le hT w).2⟩

example : ∃ st, run [(true, bytes "stone".toList), (true, bytes "store".toList), (false, bytes "stone".toList)] = .ok st ∧
    (Work.contain mapChar st (bytes "store".toList)).acc ≤ 20 ∧ (Work.contain mapChar st (bytes "store".toList)).chars ≤ 17 := by
  obtain ⟨st, h, -⟩ := C42_contain [(true, bytes "stone".toList), (true, bytes "store".toList), (false, bytes "stone".toList)]
    (by decide) (by
      intro l w r e
      match l, e with
      | [_, _], e =>
        simp only [List.cons_append, List.nil_append, List.cons.injEq, Prod.mk.injEq] at e
        obtain ⟨rfl, rfl, ⟨-, rfl⟩, -⟩ := e
        decide
      | [], e => simp at e
      | [_], e => simp at e
      | _ :: _ :: _ :: l, e => simp at e)
  have := C183_lookup_partial _ 5 (by decide) st h (bytes "store".toList)
  exact ⟨st, h, this.1, this.2.1⟩

/-- a trie with one word that starts with `a` -/
theorem one_word (u : Str) : ∃ st, build [97 :: u] = .ok st ∧ run [(true, 97 :: u)] = .ok st ∧ st.base.get 0 = .ok 0 ∧
    st.check.getc 2 = .ok 0 ∧ st.check.get 2 = .ok 0 ∧ st.base.get 2 = .ok (-2) ∧ st.base.getc 2 = .ok (-2) ∧
    st.tail.get 0 = .ok (u ++ [1]) ∧ st.tail.getc 0 = .ok (u ++ [1]) :=
  ⟨_, rfl, rfl, rfl, rfl, rfl, rfl, rfl, rfl, rfl⟩

/-- **C183** fails for the characters: looking up the word "a" copies the whole rest of a stored word that starts with it
(`tail.getWithCheck` returns the string by value, Trie.h:24, Trie.cpp:74), so no bound depends on the word only. -/
theorem C183_lookup_refuted : ¬ ∃ f : Nat → Nat, ∀ u w : Str, Lower u → Lower w → ∀ st, build [u] = .ok st →
    (Work.contain mapChar st w).chars ≤ f w.length := by
  rintro ⟨f, hf⟩
  obtain ⟨st, h, -, h1, h2, -, h3, h4, -, h5⟩ := one_word (List.replicate (f 1) 97)
  have := hf (97 :: List.replicate (f 1) 97) [97] ?_ (by decide) st h
  · have k := Work.contain_a h1 h2 h3 h4 h5
    rw [List.length_append, List.length_replicate, List.length_singleton] at k
    have : (Work.contain mapChar st [97]).chars ≤ f 1 := this
    omega
  · intro c hc
    rcases List.mem_cons.1 hc with rfl | hc
    · decide
    · rw [(List.mem_replicate.1 hc).2]; decide

/-- looking up "a" among words that start with it: here 7 characters for the tail alone -/
example : ∃ st, build [bytes "aaaaaab".toList] = .ok st ∧ (Work.contain mapChar st (bytes ['a'])).chars = 10 :=
  ⟨_, rfl, by decide +kernel⟩

/-- **C183**, second part: an insertion is bounded too, after any history.  With `S` letters inserted before, counting two
more for each word, it takes at most `(|w| + 29) (54 (S + |w|) + 126)` accesses to the tables, and it copies at most
`4 L + 7 |w| + 3` characters, where `L` bounds the lengths of the words inserted before and of `w`. -/
theorem C183_insert (ops : List (Bool × Str)) (L : Nat) (hL : ∀ op ∈ ops, op.1 = true → op.2.length ≤ L) (st : St)
    (h : run ops = .ok st) (w : Str) :
    (Work.insert mapChar mapChar st w).acc ≤
      (w.length + 29) * (54 * (((ops.filter (·.1)).map fun op => op.2.length + 2).sum + w.length) + 126) ∧
    (Work.insert mapChar mapChar st w).chars ≤ 4 * L + 7 * w.length + 3 := by
  have B := run_bd h
  have e : ∀ l : List (Bool × Str), (26 + 54 * (l.map fun op => (op.2.length : Int) + 2).sum) =
      ((26 + 54 * (l.map fun op => op.2.length + 2).sum : Nat) : Int) := by
    intro l
    induction l with
    | nil => rfl
    | cons a l ih =>
      simp only [List.map_cons, List.sum_cons]
      push_cast at ih ⊢
      omega
  rw [e] at B
  obtain ⟨h1, h2⟩ := Work.insert_le (mo := mapChar) mapChar_small B (Work.run_tl hL h) w
  refine ⟨h1.trans (Nat.mul_le_mul_left _ (by omega)), h2⟩

example : ∃ st, run [(true, bytes "stone".toList)] = .ok st ∧
    (Work.insert mapChar mapChar st (bytes "store".toList)).acc ≤ 34 * 774 ∧
    (Work.insert mapChar mapChar st (bytes "store".toList)).chars ≤ 58 := by
  obtain ⟨st, h, -⟩ := C42_contain [(true, bytes "stone".toList)] (by decide) (by
    intro l w r e
    match l, e with
    | [], e => simp at e
    | _ :: l, e => simp at e)
  exact ⟨st, h, C183_insert [(true, bytes "stone".toList)] 5 (by decide) st h (bytes "store".toList)⟩

theorem lower_as (n : Nat) (c : Byte) (hc : 97 ≤ c ∧ c ≤ 122) : Lower (List.replicate n 97 ++ [c]) := by
  intro d hd
  rcases List.mem_append.1 hd with hd | hd
  · rw [(List.mem_replicate.1 hd).2]; decide
  · rw [List.mem_singleton.1 hd]; exact hc

/-- The square is needed: with `aⁿ⁺¹b` stored, inserting `aⁿ⁺¹c` takes at least `n (n + 1) / 2` accesses.  `checkAvailable`
(Trie.cpp:243-248) starts at slot 0 for each letter of the common prefix, and passes all slots given to the letters before. -/
theorem C183_insert_square (n : Nat) : ∃ st, build [List.replicate (n + 1) 97 ++ [98]] = .ok st ∧
    n * (n + 1) ≤ 2 * (Work.insert mapChar mapChar st (List.replicate (n + 1) 97 ++ [99])).acc := by
  obtain ⟨st, h, hr, h1, h2, h2', h3, -, h5, -⟩ := one_word (List.replicate n 97 ++ [98])
  have hw : ∀ op ∈ [(true, List.replicate (n + 1) (97 : Byte) ++ [98])], Lower op.2 := by
    intro op hop
    rw [List.mem_singleton.1 hop]
    exact lower_as _ _ (by decide)
  refine ⟨st, h, ?_⟩
  obtain ⟨st', e, -⟩ := C42_insert _ hw st hr (List.replicate (n + 1) 97 ++ [99]) (lower_as _ _ (by decide))
  obtain ⟨st2, hr2, hc⟩ := C42_contain _ hw (by
    intro l w r e
    match l, e with
    | [], e => simp at e
    | _ :: l, e => simp at e)
  rw [show run [(true, List.replicate (n + 1) (97 : Byte) ++ [98])] = .ok st from hr] at hr2
  injection hr2 with hr2
  subst hr2
  have hc := hc (List.replicate (n + 1) 97 ++ [99]) (lower_as _ _ (by decide))
  rw [show decide (List.replicate (n + 1) (97 : Byte) ++ [99] ∈ words [(true, List.replicate (n + 1) 97 ++ [98])]) = false by
    rw [decide_eq_false_iff_not]
    unfold words
    simp] at hc
  refine Work.insert_a h1 h2 h2' h3 ?_ hc e
  rw [h5, List.append_assoc]
  rfl

example : ∃ st, build [bytes "aaaaaab".toList] = .ok st ∧
    30 ≤ 2 * (Work.insert mapChar mapChar st (bytes "aaaaaac".toList)).acc := C183_insert_square 5

/-- so an insertion is not linear in the letters of the word and of the words stored ("works bad in inserting", Trie.h:56) -/
theorem C183_insert_refuted : ¬ ∃ K : Nat, ∀ u w : Str, Lower u → Lower w → ∀ st, build [u] = .ok st →
    (Work.insert mapChar mapChar st w).acc ≤ K * (u.length + w.length + 1) := by
  rintro ⟨K, hK⟩
  obtain ⟨st, h, hs⟩ := C183_insert_square (4 * K + 10)
  have := hK _ (List.replicate (4 * K + 10 + 1) 97 ++ [99]) (lower_as _ _ (by decide)) (lower_as _ _ (by decide)) st h
  rw [List.length_append, List.length_append, List.length_replicate, List.length_singleton, List.length_singleton] at this
  have e1 : K * (4 * K + 10 + 1 + 1 + (4 * K + 10 + 1 + 1) + 1) = 8 * (K * K) + 25 * K := by ring
  have e2 : (4 * K + 10) * (4 * K + 10 + 1) = 16 * (K * K) + 84 * K + 110 := by ring
  rw [e1] at this
  rw [e2] at hs
  omega

end Trie.Props
