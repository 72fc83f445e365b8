import Verif.Props.Trie

/-!
# C46 (Trie.cpp:53-62): what the construction of a trie does to all the others, in every program

`StringAdapter::mapChar` is a static member (Trie.h:144), set by every constructor.
-/

namespace Trie.Props
open Cpp

/-- After any history, the construction of a trie `j` whose mapper refuses the character `c` (with `error`) makes every
call of `contain`, `insert` and `remove` on any other trie with a word that begins with `c` end the program, whatever
that trie's own mapper and contents. -/
theorem C46_all_refuted (as : List Act) (w w' : World) (i j : Nat) (m : Mapper) (c : Byte) (u : Str) (hij : i ≠ j)
    (hr : World.run as = .ok w) (hi : (w.trie i).isSome) (hm : m c = .exit)
    (hr' : World.run (as ++ [.construct j m]) = .ok w') :
    w'.contain i (c :: u) = .exit ∧ w'.insert i (c :: u) = .exit ∧ w'.remove i (c :: u) = .exit := by
  obtain ⟨⟨st, mo⟩, hst⟩ := Option.isSome_iff_exists.1 hi
  unfold World.run at hr'
  rw [List.foldlM_append, show as.foldlM World.act ⟨fun _ => .ub, fun _ => none⟩ = World.run as from rfl, hr] at hr'
  have h1 : w.construct j m = .ok w' := by
    have h2 : (w.act (.construct j m) >>= fun x => Out.ok x) = .ok w' := hr'
    obtain ⟨x, h3, h4⟩ := Out.bind_eq_ok.1 h2
    cases h4
    exact h3
  obtain ⟨st', _, h3⟩ := Out.bind_eq_ok.1 h1
  cases h3
  have e : (if i = j then some (st', m) else w.trie i) = some (st, mo) := by rw [if_neg hij, hst]
  have hc : contain m st (c :: u) = .exit := by
    unfold contain
    rw [List.cons_append, retrieve, hm]
    rfl
  refine ⟨?_, ?_, ?_⟩
  · unfold World.contain
    dsimp only
    rw [e]
    exact hc
  · unfold World.insert
    dsimp only
    rw [e]
    show (insert m mo st (c :: u) >>= _) = _
    rw [show insert m mo st (c :: u) = .exit by unfold insert; rw [hc]; rfl]
    rfl
  · unfold World.remove
    dsimp only
    rw [e]
    show (remove m st (c :: u) >>= _) = _
    rw [show remove m st (c :: u) = .exit by unfold remove; rw [List.cons_append, removeGo, hm]; rfl]
    rfl

/-- A trie with a word, and then one for upper-case letters. -/
example : ((World.run [.construct 0 mapChar, .insert 0 (bytes ['a', 'b']), .construct 1 upper]) >>= fun w =>
    w.contain 0 (bytes ['a', 'b'])) = .exit := by decide +kernel

example : upper 97 = .exit := by decide

end Trie.Props
