import Verif.Proof.TrieLoop
import Verif.Props.TrieHistory

/-! # C181: range-based for loops over a Trie whose body uses the trie -/

namespace Trie.Loop.Props
open Cpp Trie Trie.Spec Trie.Loop.Spec

variable {σ : Type}

/-- **C181, what holds: bodies that add no word.**  The trie is the result of insertions and removals of which the loop that only
reads shows the words `l`.  The body may look words up, ask for the number of words, insert words that are there, and remove
words that are there, that of the round or others.  Then the loop ends, and it goes through the words `l` in the same order without
those removed before it comes to them; what the body finds, and the trie afterwards, are as for a set of words. -/
theorem C181_removals_partial (ops : List (Bool × Str)) (hl : ∀ op ∈ ops, Lower op.2) (t : St) (h : run ops = .ok t)
    (l : List Str) (M : Nat) (hi : ∀ fuel, M ≤ fuel → iterate mapInt t fuel = .ok l)
    (body : σ → Str → Body σ) (st st' : σ) (S' : Finset Str) (vis : List Str)
    (hs : Sweep never Eq body l st (words ops) (st', S', vis)) :
    ∃ t' N, Has t' S' ∧ ∀ fuel n, N ≤ fuel → N ≤ n → forTrie body fuel n st t = .ok (st', t', vis) := by
  obtain ⟨R, -, -⟩ := run_inner ops hl h
  obtain ⟨⟨s, hr, hstop⟩, -⟩ := iterate_reach R (hi M (Nat.le_refl _))
  obtain ⟨l', hl'⟩ := runs_of_reach hr
  obtain ⟨N, hN⟩ := iterate_runs R hl' hstop
  have e : l' = l := by
    have h1 := hN (max M N) (Nat.le_max_right _ _)
    rw [hi (max M N) (Nat.le_max_left _ _)] at h1
    injection h1 with h1
    exact h1.symm
  subst e
  obtain ⟨ps, hp, hsh⟩ := shown_of_runs R hl' ⟨Inn.root R, Int.le_refl _⟩ hstop
  obtain ⟨t', K, R', hK⟩ := forTrie_sweep (keeps_never (words_lower ops hl)) body hp R (fun _ => Iff.rfl) (Finset.Subset.refl _)
    (sweep_shown hsh (Finset.Subset.refl _) hs)
  exact ⟨t', K, has_of R', hK⟩

/-- **C181, what holds: words with different first letters.**  If no two words that were in the trie at one time had the same first
letter, and the body inserts only words that are there or begin with a letter no word then begins with, then the loop ends.  It goes
through the letters in order, first the empty word, and runs the body for the word that begins with this letter at that time, if
there is one. -/
theorem C181_letters_partial (ops : List (Bool × Str)) (hl : ∀ op ∈ ops, Lower op.2) (hF : ∀ v, v ≠ [] → ¬ Fork ops v)
    (t : St) (h : run ops = .ok t) (body : σ → Str → Body σ) (st st' : σ) (S' : Finset Str) (vis : List Str)
    (hs : Sweep newLetter begins body letters st (words ops) (st', S', vis)) :
    ∃ t' N, Has t' S' ∧ ∀ fuel n, N ≤ fuel → N ≤ n → forTrie body fuel n st t = .ok (st', t', vis) := by
  obtain ⟨R, hI, -⟩ := run_inner ops hl h
  have hJ := apart_of hl hF
  have hp := places_root 27 (Nat.le_refl _)
  rw [show (28 : Int) - (27 : Nat) = 1 by norm_num, ← letters_places] at hp
  obtain ⟨t', K, R', hK⟩ := forTrie_sweep keeps_apart body hp R (fun v => ⟨fun hv => by
      by_contra hne
      exact hF v hne ((hI v hne).2 hv), fun hv => hv ▸ Inn.root R⟩) hJ (sweep_letters hs (fun _ h => h) hJ)
  exact ⟨t', K, has_of R', hK⟩

/-- **C181, what holds: removing in the loop.**  After a regular history, `for (auto s : trie) if (q(s)) trie.remove(s);` runs
through all words in alphabetical order and leaves exactly the words for which `q` is false. -/
theorem C181_filter_partial (ops : List (Bool × Str)) (hl : ∀ op ∈ ops, Lower op.2) (hr : RegularAfter ops) (t : St)
    (h : run ops = .ok t) (q : Str → Bool) :
    ∃ vis t' N, vis.Pairwise (· < ·) ∧ (∀ w, w ∈ vis ↔ w ∈ words ops) ∧ Has t' ((words ops).filter fun w => q w = false) ∧
      ∀ fuel n, N ≤ fuel → N ≤ n →
        forTrie (fun _ s => if q s then .remove s (.done ()) else .done ()) fuel n () t = .ok ((), t', vis) := by
  obtain ⟨l, M, h1, h2, h3⟩ := (Trie.Props.C45_history_partial ops hl t h).1 hr
  obtain ⟨t', N, h4, h5⟩ := C181_removals_partial ops hl t h l M h3 _ () () _ _
    (sweep_filter q l (words ops) (h1.imp fun hlt e => absurd (e ▸ hlt) (List.lt_irrefl _)) (fun w hw => (h2 w).1 hw))
  refine ⟨l, t', N, h1, h2, ?_, h5⟩
  have e : (words ops).filter (fun w => ¬ (w ∈ l ∧ q w = true)) = (words ops).filter fun w => q w = false := by
    ext w
    simp only [Finset.mem_filter]
    refine and_congr_right fun hw => ?_
    have := (h2 w).2 hw
    cases q w <;> simp [this]
  rwa [e] at h4

/-- `if (s == w) trie.insert(x);` -/
def insertAt (w x : Str) : Unit → Str → Body Unit := fun _ s => if s = w then .insert x (.done ()) else .done ()

/-- **C181, the bug.**  In a trie with the words b and bb, whose iteration shows both, the body inserts ba in the round of b.  The
iteration over the new trie would show the three words, but the loop has undefined behaviour: the insertion moves the node the
iterator is at. -/
theorem C181_moved_refuted :
    (do iterate mapInt (← build [bytes ['b'], bytes ['b', 'b']]) 100) = .ok [bytes ['b'], bytes ['b', 'b']] ∧
    (do iterate mapInt (← build [bytes ['b'], bytes ['b', 'b'], bytes ['b', 'a']]) 100) =
      .ok [bytes ['b'], bytes ['b', 'a'], bytes ['b', 'b']] ∧
    (do
      let t ← build [bytes ['b'], bytes ['b', 'b']]
      let (_, _, vis) ← forTrie (insertAt (bytes ['b']) (bytes ['b', 'a'])) 100 100 () t
      .ok vis) = .ub := by
  decide +kernel

/-- **C181, missing words.**  With the words bb and bc, inserting ba in the round of bb ends the loop before bc, which is in the trie
all the time. -/
theorem C181_lost_refuted :
    (do iterate mapInt (← build [bytes ['b', 'b'], bytes ['b', 'c']]) 100) = .ok [bytes ['b', 'b'], bytes ['b', 'c']] ∧
    (do
      let t ← build [bytes ['b', 'b'], bytes ['b', 'c']]
      let (_, t, vis) ← forTrie (insertAt (bytes ['b', 'b']) (bytes ['b', 'a'])) 100 100 () t
      .ok (vis, ← iterate mapInt t 100)) =
      .ok ([bytes ['b', 'b']], [bytes ['b', 'a'], bytes ['b', 'b'], bytes ['b', 'c']]) := by
  decide +kernel

/-- **C181, a word not shown.**  Inserting ba in the round of b, which is the only word: ba is not shown though it is after b. -/
theorem C181_longer_refuted :
    (do
      let t ← build [bytes ['b']]
      let (_, t, vis) ← forTrie (insertAt (bytes ['b']) (bytes ['b', 'a'])) 100 100 () t
      .ok (vis, ← iterate mapInt t 100)) =
      .ok ([bytes ['b']], [bytes ['b'], bytes ['b', 'a']]) := by
  decide +kernel

/-! ### cases -/

/-- the words bab, baa, ba, a -/
def four : List (Bool × Str) :=
  [(true, bytes ['b', 'a', 'b']), (true, bytes ['b', 'a', 'a']), (true, bytes ['b', 'a']), (true, bytes ['a'])]

/-- In the round of ba the body removes ba and bab; bab is not shown then. -/
def dropTwo : Unit → Str → Body Unit := fun _ s =>
  if s = bytes ['b', 'a'] then .remove s (.remove (bytes ['b', 'a', 'b']) (.done ())) else .done ()

example : Sweep never Eq dropTwo [bytes ['a'], bytes ['b', 'a'], bytes ['b', 'a', 'a'], bytes ['b', 'a', 'b']] () (words four)
    ((), {bytes ['a'], bytes ['b', 'a', 'a']}, [bytes ['a'], bytes ['b', 'a'], bytes ['b', 'a', 'a']]) := by
  refine .round (by decide +kernel) rfl .done ?_
  refine .round (st1 := ()) (S1 := {bytes ['a'], bytes ['b', 'a', 'a']}) (by decide +kernel) rfl ?_ ?_
  · refine .remove (by decide +kernel) (.remove (by decide +kernel) ?_)
    have e : ((words four).erase (bytes ['b', 'a'])).erase (bytes ['b', 'a', 'b']) = {bytes ['a'], bytes ['b', 'a', 'a']} := by
      decide +kernel
    rw [e]
    exact .done
  · refine .round (by decide +kernel) rfl .done ?_
    exact .empty (by decide +kernel) .finish

example : ∀ op ∈ four, Lower op.2 := by decide +kernel

example : RegularAfter four := CheckH.regular (by decide +kernel)

/-- the same, computed -/
example : (do
      let t ← run four
      let (_, t, vis) ← forTrie dropTwo 200 100 () t
      .ok (vis, ← iterate mapInt t 200)) =
    .ok ([bytes ['a'], bytes ['b', 'a'], bytes ['b', 'a', 'a']], [bytes ['a'], bytes ['b', 'a', 'a']]) := by decide +kernel

/-- The words ab and c: in the round of ab the body inserts bz and removes c, in the round of bz it inserts the empty word. -/
def grow : Unit → Str → Body Unit := fun _ s =>
  if s = bytes ['a', 'b'] then .insert (bytes ['b', 'z']) (.remove (bytes ['c']) (.done ()))
  else if s = bytes ['b', 'z'] then .insert [] (.done ()) else .done ()

example : (do
      let t ← run [(true, bytes ['a', 'b']), (true, bytes ['c'])]
      let (_, t, vis) ← forTrie grow 200 100 () t
      .ok (vis, ← iterate mapInt t 200)) =
    .ok ([bytes ['a', 'b'], bytes ['b', 'z']], [[], bytes ['a', 'b'], bytes ['b', 'z']]) := by decide +kernel

theorem sweep_empty {fresh : Finset Str → Str → Prop} {body : σ → Str → Body σ} {st : σ} {S : Finset Str} :
    ∀ (ls : List (Option Byte)), (∀ l ∈ ls, ∀ w ∈ S, w.head? ≠ l) → Sweep fresh begins body ls st S (st, S, []) := by
  intro ls
  induction ls with
  | nil => intro _; exact .finish
  | cons l ls ih => intro h; exact .empty (h l (by simp)) (ih fun l hl => h l (by simp [hl]))

example : Sweep newLetter begins grow letters () (words [(true, bytes ['a', 'b']), (true, bytes ['c'])])
    ((), {[], bytes ['a', 'b'], bytes ['b', 'z']}, [bytes ['a', 'b'], bytes ['b', 'z']]) := by
  have e : letters = none :: some 97 :: some 98 :: letters.drop 3 := by decide +kernel
  rw [e]
  refine .empty (by unfold begins; decide +kernel) ?_
  refine .round (st1 := ()) (w := bytes ['a', 'b']) (S1 := {bytes ['a', 'b'], bytes ['b', 'z']}) (by decide +kernel) rfl ?_ ?_
  · refine .insert (by decide +kernel) (.inr (by unfold newLetter; decide +kernel)) (.remove (by decide +kernel) ?_)
    have e : (Insert.insert (bytes ['b', 'z']) (words [(true, bytes ['a', 'b']), (true, bytes ['c'])])).erase (bytes ['c']) =
        {bytes ['a', 'b'], bytes ['b', 'z']} := by decide +kernel
    rw [e]
    exact .done
  refine .round (st1 := ()) (w := bytes ['b', 'z']) (S1 := {[], bytes ['a', 'b'], bytes ['b', 'z']}) (by decide +kernel) rfl ?_ ?_
  · exact .insert (by decide +kernel) (.inr (by unfold newLetter; decide +kernel)) .done
  exact sweep_empty _ (by decide +kernel)

/-- no two of the words began alike -/
example : ∀ v, v ≠ [] → ¬ Fork [(true, bytes ['a', 'b']), (true, bytes ['c'])] v := by
  rintro v hv ⟨l, hl, u, hu, w, hw, hne, h1, h2⟩
  have hsub : ∀ x ∈ words l, x = bytes ['a', 'b'] ∨ x = bytes ['c'] := by
    have h0 : ∀ l ∈ [(true, bytes ['a', 'b']), (true, bytes ['c'])].inits, ∀ x ∈ words l,
        x = bytes ['a', 'b'] ∨ x = bytes ['c'] := by decide +kernel
    exact h0 l ((List.mem_inits _ _).2 hl)
  have hu' := head_of_prefix hv h1
  have hw' := head_of_prefix hv h2
  have hh := hu'.trans hw'.symm
  rcases hsub u hu with rfl | rfl <;> rcases hsub w hw with rfl | rfl
  · exact hne rfl
  · exact absurd hh (by decide)
  · exact absurd hh (by decide)
  · exact hne rfl

end Trie.Loop.Props
