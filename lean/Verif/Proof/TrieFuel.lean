import Verif.Proof.TrieWorld
import Verif.Proof.Fuel

/-! # Trie iteration and fuel -/

namespace Trie
open Cpp

theorem visit_le (st : St) (f : Nat) : ∀ (n o : Int) (b : List Int) (g : Nat), f ≤ g →
    Le (visit st f n o b) (visit st g n o b) := by
  induction f with
  | zero => intro n o b g _; exact .div
  | succ f ih =>
    intro n o b g hg
    obtain ⟨g, rfl⟩ : ∃ g', g = g' + 1 := ⟨g - 1, by omega⟩
    have hg : f ≤ g := by omega
    unfold visit
    split
    · refine Le.rfl.bind fun x => Le.rfl.bind fun y => ?_
      split
      · exact ih _ _ _ g hg
      · split
        · exact .rfl
        · refine Le.rfl.bind fun z => ?_
          split
          · exact .rfl
          · exact ih _ _ _ g hg
    · split
      · exact .rfl
      · exact Le.rfl.bind fun z => ih _ _ _ g hg

theorem next_le (st : St) {f g : Nat} (h : f ≤ g) (it : Iter) : Le (it.next st f) (it.next st g) := by
  unfold Iter.next
  split
  · exact .rfl
  · exact (visit_le st f _ _ _ g h).bind fun r => .rfl

theorem next_big (st : St) {it it' : Iter} (h : it.next st 100 = .ok it') (f : Nat) :
    it.next st f = .diverge ∨ it.next st f = .ok it' := by
  rcases le_total f 100 with hf | hf
  · rcases next_le st hf it with e | e
    · exact .inl e
    · exact .inr (e.trans h)
  · exact .inr ((next_le st hf it).ok h)

/-- two iterators that lead to each other go on forever -/
theorem iterate_cycle (mi : Int → Byte) (st : St) (a b : Iter) (ha : a.done = false) (hb : b.done = false)
    (hab : a.next st 100 = .ok b) (hba : b.next st 100 = .ok a) (wa wb : Str) (da : a.deref mi st = .ok wa)
    (db : b.deref mi st = .ok wb) (fuel : Nat) :
    ∀ k, iterateFrom mi st fuel k a = .diverge ∧ iterateFrom mi st fuel k b = .diverge := by
  intro k
  induction k with
  | zero => exact ⟨rfl, rfl⟩
  | succ k ih =>
    constructor
    · unfold iterateFrom
      rw [ha, da]
      rcases next_big st hab fuel with e | e <;> rw [e]
      · rfl
      · simp only [Out.ok_bind]
        rw [ih.2]
        rfl
    · unfold iterateFrom
      rw [hb, db]
      rcases next_big st hba fuel with e | e <;> rw [e]
      · rfl
      · simp only [Out.ok_bind]
        rw [ih.1]
        rfl

end Trie
