import Verif.Model.Trie

/-!
# Range-based for loops over a Trie whose body uses the trie, /repo/src/include/string_utils/Trie.h

`for (auto s : trie) body` calls `trie.begin()` and `trie.end()` once (Trie.h:265, 270), compares with `!=`, reads `*it` into `s`
and runs `++it` after each round.
-/

namespace Trie.Loop
open Cpp

variable {σ : Type}

/-- The body of a loop over a default Trie, with variables `σ` of its own. -/
inductive Body (σ : Type) where
  /-- end of this round -/
  | done (st : σ)
  /-- `break;` -/
  | stop (st : σ)
  /-- `trie.insert(w);` -/
  | insert (w : Str) (b : Body σ)
  /-- `trie.remove(w);` -/
  | remove (w : Str) (b : Body σ)
  /-- `trie.contain(w)` -/
  | contain (w : Str) (b : Bool → Body σ)
  /-- `trie.size()` -/
  | size (b : Int → Body σ)

/-- Running the body (members: Trie.h:117, Trie.cpp:282-290): the variables, the trie, whether there was a `break`. -/
def exec : St → Body σ → Out (σ × St × Bool)
  | t, .done st => .ok (st, t, false)
  | t, .stop st => .ok (st, t, true)
  | t, .insert w b => do exec (← Trie.insert mapChar mapChar t w) b
  | t, .remove w b => do exec (← Trie.remove mapChar t w) b
  | t, .contain w b => do exec t (b (← Trie.contain mapChar t w))
  | t, .size b => exec t (b t.size)

/-- The rounds of the loop from the iterator on, Trie.h:214-237, 251: the variables, the trie, and the words `s` was.  `fuel` bounds
the recursion of `visit`, the first number the rounds. -/
def rounds (body : σ → Str → Body σ) (fuel : Nat) : Nat → σ → St → Iter → Iter → Out (σ × St × List Str)
  | 0, _, _, _, _ => .diverge
  | n + 1, st, t, it, last => do
    if it.ne true last then
      let s ← it.deref mapInt t
      let (st, t, stop) ← exec t (body st s)
      if stop then .ok (st, t, [s]) else do
        let it ← it.next t fuel
        let (st, t, vis) ← rounds body fuel n st t it last
        .ok (st, t, s :: vis)
    else .ok (st, t, [])

/-- `for (auto s : trie) body`, Trie.h:265, 270. -/
def forTrie (body : σ → Str → Body σ) (fuel n : Nat) (st : σ) (t : St) : Out (σ × St × List Str) := do
  let it ← begin t fuel
  let last ← endIter t fuel
  rounds body fuel n st t it last

end Trie.Loop
