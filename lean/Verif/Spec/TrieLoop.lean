import Verif.Model.TrieLoop
import Verif.Spec.TrieHistory

/-! # Loops over a set of words whose body changes the set -/

namespace Trie.Loop.Spec
open Cpp Trie.Spec

variable {σ ι : Type}

/-- The body on a set of words: removing a word of the set, inserting a word of the set or one that may be added to it, looking a
word up, asking for the number of words.  The results: the variables, the set, whether there was a `break`. -/
inductive Does (fresh : Finset Str → Str → Prop) : Finset Str → Body σ → σ × Finset Str × Bool → Prop where
  | done {S : Finset Str} {st : σ} : Does fresh S (.done st) (st, S, false)
  | stop {S : Finset Str} {st : σ} : Does fresh S (.stop st) (st, S, true)
  | insert {S : Finset Str} {w : Str} {b : Body σ} {r : σ × Finset Str × Bool} : Lower w → w ∈ S ∨ fresh S w →
      Does fresh (Insert.insert w S) b r → Does fresh S (.insert w b) r
  | remove {S : Finset Str} {w : Str} {b : Body σ} {r : σ × Finset Str × Bool} : w ∈ S →
      Does fresh (S.erase w) b r → Does fresh S (.remove w b) r
  | contain {S : Finset Str} {w : Str} {b : Bool → Body σ} {r : σ × Finset Str × Bool} : Lower w →
      Does fresh S (b (decide (w ∈ S))) r → Does fresh S (.contain w b) r
  | size {S : Finset Str} {b : Int → Body σ} {r : σ × Finset Str × Bool} :
      Does fresh S (b S.card) r → Does fresh S (.size b) r

/-- The loop goes through some places in order; at each place it runs the body with the word of the set that is there at that time,
if there is one.  The results: the variables, the set, and the words the body was run with. -/
inductive Sweep (fresh : Finset Str → Str → Prop) (at_ : ι → Str → Prop) (body : σ → Str → Body σ) :
    List ι → σ → Finset Str → σ × Finset Str × List Str → Prop where
  | finish {st : σ} {S : Finset Str} : Sweep fresh at_ body [] st S (st, S, [])
  | empty {p : ι} {ps : List ι} {st : σ} {S : Finset Str} {r : σ × Finset Str × List Str} : (∀ w ∈ S, ¬ at_ p w) →
      Sweep fresh at_ body ps st S r → Sweep fresh at_ body (p :: ps) st S r
  | round {p : ι} {ps : List ι} {st st1 st2 : σ} {S S1 S2 : Finset Str} {w : Str} {vis : List Str} : w ∈ S → at_ p w →
      Does fresh S (body st w) (st1, S1, false) → Sweep fresh at_ body ps st1 S1 (st2, S2, vis) →
      Sweep fresh at_ body (p :: ps) st S (st2, S2, w :: vis)
  | leave {p : ι} {ps : List ι} {st st1 : σ} {S S1 : Finset Str} {w : Str} : w ∈ S → at_ p w →
      Does fresh S (body st w) (st1, S1, true) → Sweep fresh at_ body (p :: ps) st S (st1, S1, [w])

/-- No word is added. -/
def never (_ : Finset Str) (_ : Str) : Prop := False

/-- No word of the set begins like `w`. -/
def newLetter (S : Finset Str) (w : Str) : Prop := ∀ u ∈ S, u.head? ≠ w.head?

/-- The word begins with the letter; the empty word has none. -/
def begins (l : Option Byte) (w : Str) : Prop := w.head? = l

/-- no letter, then the letters from a to z -/
def letters : List (Option Byte) := none :: (List.range 26).map fun i => some (UInt8.ofNat (97 + i))

/-- What the members of the trie say about its words. -/
def Has (t : St) (S : Finset Str) : Prop :=
  t.size = S.card ∧ ∀ w, Lower w → Trie.contain mapChar t w = .ok (decide (w ∈ S))

end Trie.Loop.Spec
