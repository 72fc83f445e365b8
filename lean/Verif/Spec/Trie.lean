import Verif.Model.Trie
import Mathlib.Data.Finset.Card
import Mathlib.Data.List.Basic

/-! # What a set of words is -/

namespace Trie.Spec
open Cpp

/-- only the letters a–z -/
def Lower (w : Str) : Prop := ∀ c ∈ w, 97 ≤ c ∧ c ≤ 122

instance (w : Str) : Decidable (Lower w) := by unfold Lower; infer_instance

/-- The set after insertions (`true`) and removals (`false`). -/
def words (ops : List (Bool × Str)) : Finset Str :=
  ops.foldl (fun S op => if op.1 then Insert.insert op.2 S else S.erase op.2) ∅

/-- Every removal removes a word which is there. -/
def Legal (ops : List (Bool × Str)) : Prop :=
  ∀ l w r, ops = l ++ (false, w) :: r → w ∈ words l

/-- `m` gives the end character the number 1 and the characters of the alphabet `A` different numbers from 2 on, at
most 27. -/
structure Adapter (A : Byte → Prop) (m : Byte → Out Int) : Prop where
  end_ : m 1 = .ok 1
  not_end : ¬ A 1
  letter : ∀ c, A c → ∃ n, m c = .ok n ∧ 2 ≤ n ∧ n ≤ 27
  inj : ∀ c d, A c → A d → m c = m d → c = d

/-- Several sets of words: what the constructions, insertions and removals of a client do to them. -/
def setsAct (S : Nat → Option (Finset Str)) : Act → Nat → Option (Finset Str)
  | .construct i _, j => if j = i then some ∅ else S j
  | .insert i w, j => if j = i then (S i).map (Insert.insert w) else S j
  | .remove i w, j => if j = i then (S i).map (·.erase w) else S j

/-- The step uses sets which exist, words over the alphabet `A`, and removes only words which are there. -/
def ActOk (A : Byte → Prop) (S : Nat → Option (Finset Str)) : Act → Prop
  | .construct _ _ => True
  | .insert i w => (S i).isSome ∧ ∀ c ∈ w, A c
  | .remove i w => (∃ s, S i = some s ∧ w ∈ s) ∧ ∀ c ∈ w, A c

/-- all steps from the sets `S` on are in order -/
def ActsOk (A : Byte → Prop) : (Nat → Option (Finset Str)) → List Act → Prop
  | _, [] => True
  | S, a :: as => ActOk A S a ∧ ActsOk A (setsAct S a) as

/-- the sets at the end of a client program -/
def sets (as : List Act) : Nat → Option (Finset Str) := as.foldl setsAct fun _ => none

end Trie.Spec
