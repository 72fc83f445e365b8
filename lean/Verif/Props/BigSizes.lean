import Verif.Proof.BigSizes
import Verif.Props.Base64
import Verif.Props.EditDistance
import Verif.Props.Kmp

/-! # Property C166: texts and containers of 2^31 elements and more -/

namespace BigSizes
open Cpp

variable {α : Type}

/-- C166 as stated is false: with 2^31 to 2^32 - 1 elements `size()` is negative. -/
theorem C166_size_refuted (v : List α) (h : 2147483648 ≤ v.length) (h' : v.length < 4294967296) :
    Cont.Vector.size v < 0 ∧ Cont.Lst.size v < 0 ∧ Cont.Stack.size v < 0 ∧ Cont.Queue.size v < 0 := by
  have : toInt v.length < 0 := by
    rw [toInt_eq, Nat.mod_eq_of_lt h', if_neg (by omega)]
    omega
  exact ⟨this, this, this, this⟩

example : 2147483648 ≤ (List.replicate 2147483648 'x').length ∧ (List.replicate 2147483648 'x').length < 4294967296 := by
  rw [List.length_replicate]; decide

/-- C166: `size()` is the number of elements exactly if there are less than 2^31.  Missing: the rest. -/
theorem C166_size_partial (v : List α) :
    (Cont.Vector.size v = v.length ↔ v.length < 2147483648) ∧ (Cont.Lst.size v = v.length ↔ v.length < 2147483648) ∧
    (Cont.Stack.size v = v.length ↔ v.length < 2147483648) ∧ (Cont.Queue.size v = v.length ↔ v.length < 2147483648) := by
  have : toInt v.length = v.length ↔ v.length < 2147483648 := by
    rw [toInt_eq]
    split <;> omega
  exact ⟨this, this, this, this⟩

/-- C166: `clear()` of a Stack (the top is the last element) and of a Queue, for every number of elements: with `r` the number of
elements modulo 2^32, `r` elements are removed if `r` is below 2^31, otherwise the counter of the loop overflows.  Missing: that all
elements are removed. -/
theorem C166_clear_partial (s : List α) (fuel : Nat) (hf : 2147483648 ≤ fuel) :
    Cont.Stack.clearInt fuel s =
      (if s.length % 4294967296 < 2147483648 then .ok (s.take (s.length - s.length % 4294967296)) else .ub) ∧
    Cont.Queue.clearInt fuel s =
      (if s.length % 4294967296 < 2147483648 then .ok (s.drop (s.length % 4294967296)) else .ub) := by
  have hle : s.length % 4294967296 ≤ s.length := Nat.mod_le _ _
  unfold Cont.Stack.clearInt Cont.Queue.clearInt
  rw [toInt_eq]
  have hlt := Nat.mod_lt s.length (show 0 < 4294967296 by decide)
  by_cases h : s.length % 4294967296 < 2147483648
  · rw [if_pos h, if_pos h, if_pos h]
    refine ⟨Cont.clearLoop_stack _ h fuel 0 s (by omega) (by omega) (by omega),
      Cont.clearLoop_queue _ h fuel 0 s (by omega) (by omega) (by omega)⟩
  · rw [if_neg h, if_neg h, if_neg h]
    exact ⟨Cont.clearLoop_neg _ Cont.popBack_cases _ (by omega) fuel 0 s (by omega) (by omega),
      Cont.clearLoop_neg _ Cont.popFront_cases _ (by omega) fuel 0 s (by omega) (by omega)⟩

/-- C166: so `clear()` empties the container exactly if it has less than 2^31 elements; with 2^32 it removes nothing. -/
theorem C166_clear_refuted (s : List α) (fuel : Nat) (hf : 2147483648 ≤ fuel) :
    (Cont.Stack.clearInt fuel s = .ok [] ↔ s.length < 2147483648) ∧
    (Cont.Queue.clearInt fuel s = .ok [] ↔ s.length < 2147483648) ∧
    (s.length = 4294967296 → Cont.Stack.clearInt fuel s = .ok s ∧ Cont.Queue.clearInt fuel s = .ok s) ∧
    (s.length = 2147483648 → Cont.Stack.clearInt fuel s = .ub ∧ Cont.Queue.clearInt fuel s = .ub) := by
  obtain ⟨h1, h2⟩ := C166_clear_partial s fuel hf
  rw [h1, h2]
  refine ⟨?_, ?_, fun e => ?_, fun e => ?_⟩
  · by_cases h : s.length % 4294967296 < 2147483648
    · rw [if_pos h]
      simp only [Out.ok.injEq]
      rw [← List.length_eq_zero_iff, List.length_take]
      omega
    · rw [if_neg h]
      simp only [reduceCtorEq, false_iff]
      omega
  · by_cases h : s.length % 4294967296 < 2147483648
    · rw [if_pos h]
      simp only [Out.ok.injEq]
      rw [← List.length_eq_zero_iff, List.length_drop]
      omega
    · rw [if_neg h]
      simp only [reduceCtorEq, false_iff]
      omega
  · rw [e]
    refine ⟨?_, ?_⟩
    · rw [if_pos (by decide)]
      simp [← e]
    · rw [if_pos (by decide)]
      simp
  · rw [e]
    exact ⟨rfl, rfl⟩

example : (List.replicate 4294967296 'x').length = 4294967296 ∧ 2147483648 ≤ 2147483648 := by
  rw [List.length_replicate]; decide

/-- C166: the exact answer of `kmpSearch` in a text of any length: with `r` the length modulo 2^32, the search sees the first `r`
characters if `r` is below 2^31, and otherwise none.  Missing: the first occurrence in the text. -/
theorem C166_search_partial (base pattern : Str) (start fuel : Nat) (hp : pattern ≠ [])
    (hpl : pattern.length < 2147483648) (hst : start < 2147483648)
    (hf : 2 * (base.length % 4294967296 + pattern.length) + 2 ≤ fuel) :
    (base.length % 4294967296 < 2147483648 → ∃ r, Kmp.kmpSearch fuel base pattern start = .ok r ∧
      Kmp.Spec.IsFirstOccurrence (base.take (base.length % 4294967296)) pattern start r) ∧
    (2147483648 ≤ base.length % 4294967296 → Kmp.kmpSearch fuel base pattern start = .ok (-1)) := by
  refine ⟨fun h => ?_, fun h => Kmp.kmpSearch_none fuel base pattern start hp hpl hst (by omega) h⟩
  have hle : base.length % 4294967296 ≤ base.length := Nat.mod_le _ _
  have hl : (base.take (base.length % 4294967296)).length = base.length % 4294967296 := by
    rw [List.length_take, Nat.min_eq_left hle]
  obtain ⟨r, h1, h2⟩ := Kmp.C08_first_occurrence (base.take (base.length % 4294967296)) pattern start hp hpl (by omega) hst
  refine ⟨r, ?_, h1⟩
  rw [Kmp.kmpSearch_take fuel base pattern start h]
  exact h2 fuel (by rw [hl]; omega)

/-- C166 as stated is false: in 2^31 times `a` no `a` is found. -/
theorem C166_search_refuted (fuel : Nat) (hf : 4294967300 ≤ fuel) :
    Kmp.kmpSearch fuel (List.replicate 2147483648 (byte 'a')) [byte 'a'] 0 = .ok (-1) := by
  refine Kmp.kmpSearch_none fuel _ _ 0 (by simp) (by simp) (by decide) (by simp; omega) ?_
  rw [List.length_replicate]
  decide

example : [byte 'a'] ≠ [] ∧ [byte 'a'].length < 2147483648 ∧
    2 * ((List.replicate 4294967297 (byte 'a')).length % 4294967296 + [byte 'a'].length) + 2 ≤ 6 := by
  rw [List.length_replicate]; decide

/-- C166: the exact answer of `editDistance` for texts of any lengths: with the lengths modulo 2^32 both between 1 and 2^31 - 2, the
distance of the beginnings of these lengths; if one is 0, the sum, where lengths from 2^31 on count negative; for the rest an exception
or undefined behaviour, never a value.  Missing: the distance of the texts. -/
theorem C166_distance_partial (a b : Str) :
    (0 < a.length % 4294967296 → a.length % 4294967296 < 2147483647 →
      0 < b.length % 4294967296 → b.length % 4294967296 < 2147483647 →
      ∃ d : Nat, EditDistance.editDistanceInt a b = .ok d ∧
        EditDistance.Spec.Edits d (a.take (a.length % 4294967296)) (b.take (b.length % 4294967296)) ∧
        ∀ n, EditDistance.Spec.Edits n (a.take (a.length % 4294967296)) (b.take (b.length % 4294967296)) → d ≤ n) ∧
    (a.length % 4294967296 = 0 ∨ b.length % 4294967296 = 0 →
      EditDistance.editDistanceInt a b = .ok (toInt a.length + toInt b.length)) ∧
    (0 < a.length % 4294967296 → 0 < b.length % 4294967296 →
      2147483647 ≤ a.length % 4294967296 ∨ 2147483647 ≤ b.length % 4294967296 →
      EditDistance.editDistanceInt a b = .exit ∨ EditDistance.editDistanceInt a b = .ub) := by
  have ha := Nat.mod_lt a.length (show 0 < 4294967296 by decide)
  have hb := Nat.mod_lt b.length (show 0 < 4294967296 by decide)
  have ha' : a.length % 4294967296 ≤ a.length := Nat.mod_le _ _
  have hb' : b.length % 4294967296 ≤ b.length := Nat.mod_le _ _
  refine ⟨fun h1 h2 h3 h4 => ?_, fun h => ?_, fun h1 h2 h => ?_⟩
  · obtain ⟨d, e1, e2, e3⟩ := EditDistance.C10_least_edits (a.take (a.length % 4294967296)) (b.take (b.length % 4294967296))
      (by rw [List.length_take, Nat.min_eq_left ha']; omega) (by rw [List.length_take, Nat.min_eq_left hb']; omega)
    refine ⟨d, ?_, e2, e3⟩
    rw [← e1, ← EditDistance.fillMatrix_take a b _ _ ha' hb' (by omega) (by omega)]
    unfold EditDistance.editDistanceInt
    dsimp only
    rw [toInt_eq a.length, toInt_eq b.length, if_pos (show a.length % 4294967296 < 2147483648 by omega),
      if_pos (show b.length % 4294967296 < 2147483648 by omega), if_neg (by omega),
      int_ok (by unfold IsInt INT_MIN INT_MAX; omega), Out.ok_bind, if_neg (by omega), if_neg (by omega),
      int_ok (by unfold IsInt INT_MIN INT_MAX; omega), Out.ok_bind, if_neg (by omega), if_neg (by omega)]
    simp only [Int.toNat_natCast]
  · unfold EditDistance.editDistanceInt
    dsimp only
    have z : toInt a.length = 0 ∨ toInt b.length = 0 := by
      rw [toInt_eq a.length, toInt_eq b.length]
      rcases h with h | h <;> rw [h] <;> simp
    rw [if_pos z]
    apply int_ok
    unfold IsInt INT_MIN INT_MAX
    rcases z with z | z <;> rw [z] <;> rw [toInt_eq] <;> split <;> omega
  · unfold EditDistance.editDistanceInt
    dsimp only
    have na : toInt a.length ≠ 0 := by rw [toInt_eq]; split <;> omega
    have nb : toInt b.length ≠ 0 := by rw [toInt_eq]; split <;> omega
    rw [if_neg (by omega)]
    have cases : ∀ x : Int, Cpp.int x = .ub ∨ Cpp.int x = .ok x := by
      intro x; unfold Cpp.int; split
      · exact .inr rfl
      · exact .inl rfl
    have bad : ∀ c : Nat, 2147483647 ≤ c % 4294967296 → Cpp.int (toInt c + 1) = .ub ∨ toInt c + 1 < 0 ∨ toInt c + 1 = 0 := by
      intro c hc
      have := Nat.mod_lt c (show 0 < 4294967296 by decide)
      rw [toInt_eq]
      split
      · left
        unfold Cpp.int
        rw [if_neg (by unfold IsInt INT_MIN INT_MAX; omega)]
      · right; omega
    rcases cases (toInt a.length + 1) with e | e
    · rw [e]; exact .inr rfl
    rw [e, Out.ok_bind]
    by_cases r1 : toInt a.length + 1 < 0
    · rw [if_pos r1]; exact .inl rfl
    rw [if_neg r1]
    by_cases r2 : toInt a.length + 1 = 0
    · rw [if_pos r2]; exact .inr rfl
    rw [if_neg r2]
    rcases cases (toInt b.length + 1) with e' | e'
    · rw [e']; exact .inr rfl
    rw [e', Out.ok_bind]
    by_cases r3 : toInt b.length + 1 < 0
    · rw [if_pos r3]; exact .inl rfl
    rw [if_neg r3]
    by_cases r4 : toInt b.length + 1 = 0
    · rw [if_pos r4]; exact .inr rfl
    exfalso
    rcases h with h | h
    · rcases bad _ h with g | g | g
      · rw [e] at g; exact absurd g (by simp)
      · exact r1 g
      · exact r2 g
    · rcases bad _ h with g | g | g
      · rw [e'] at g; exact absurd g (by simp)
      · exact r3 g
      · exact r4 g

/-- C166 as stated is false: the distance of a text of 2^31 characters to the empty one is -2^31, and that of a text of 2^32 characters
to a text of one character is 1. -/
theorem C166_distance_refuted (a b : Str) (c : Byte) (ha : a.length = 2147483648) (hb : b.length = 4294967296) :
    EditDistance.editDistanceInt a [] = .ok (-2147483648) ∧ EditDistance.editDistanceInt b [c] = .ok 1 := by
  rw [(C166_distance_partial a []).2.1 (.inr rfl), (C166_distance_partial b [c]).2.1 (.inl (by rw [hb])), ha, hb]
  exact ⟨rfl, rfl⟩

example : (List.replicate 2147483648 (byte 'a')).length = 2147483648 := List.length_replicate

/-- C166: `base64Encode` without a length is right for every size; with a length `n` from 0 on it does what C03 says while the encoded
text is shorter than 2^31, and beyond that it returns the empty text or ends with an exception.  Missing: the empty text there. -/
theorem C166_encode_partial (s : Str) :
    Base64.base64EncodeInt s (-1) = .ok (Base64.Spec.rfc4648 s) ∧
    ((Base64.Spec.rfc4648Unpadded s).length < 2147483648 → ∀ n, IsInt n → Base64.base64EncodeInt s n = .ok (Base64.base64Encode s n)) ∧
    (2147483648 ≤ (Base64.Spec.rfc4648Unpadded s).length → (Base64.Spec.rfc4648Unpadded s).length ≤ 9223372036854775807 →
      ∀ n, IsInt n → 0 ≤ n → Base64.base64EncodeInt s n =
        if n < toInt (Base64.Spec.rfc4648Unpadded s).length then .ok [] else .exit) := by
  rw [← Base64.encodeUnpadded_spec, ← Base64.C01_encode_is_rfc4648]
  exact ⟨Base64.encodeInt_default s, fun h n hn => Base64.encodeInt_small s n h hn,
    fun h h' n hn h0 => Base64.encodeInt_big s n h h' hn h0⟩

/-- C166 as stated is false: for every text of 1610612736 bytes (1.5 GB) and every length from 0 on, `base64Encode` ends with an exception
instead of returning the empty text. -/
theorem C166_encode_refuted (s : Str) (h : s.length = 1610612736) (n : Int) (hn : IsInt n) (h0 : 0 ≤ n) :
    n < (Base64.Spec.rfc4648Unpadded s).length ∧ Base64.base64EncodeInt s n = .exit := by
  have hl : (Base64.Spec.rfc4648Unpadded s).length = 2147483648 := by
    rw [← Base64.encodeUnpadded_spec, Base64.length_encodeUnpadded, h]
  have hn' := hn.2
  unfold INT_MAX at hn'
  rw [(C166_encode_partial s).2.2 (by omega) (by omega) n hn h0, hl]
  refine ⟨by omega, ?_⟩
  have ht : toInt 2147483648 = -2147483648 := rfl
  rw [ht, if_neg (by omega)]

example : (List.replicate 1610612736 (0 : Byte)).length = 1610612736 ∧ IsInt 5 ∧ (0 : Int) ≤ 5 := by
  rw [List.length_replicate]; decide

/-- C166: `Vector(n, value)` for every `int n`: `n` elements, or an exception if `n` is negative. -/
theorem C166_vector_partial (n : Int) (x : α) :
    (0 ≤ n → ∃ v, Cont.Vector.newInt n x = .ok v ∧ (v.length : Int) = n ∧ ∀ y ∈ v, y = x) ∧
    (n < 0 → Cont.Vector.newInt n x = .exit) := by
  unfold Cont.Vector.newInt
  refine ⟨fun h => ?_, fun h => by rw [if_pos h]⟩
  rw [if_neg (by omega)]
  exact ⟨_, rfl, by rw [List.length_replicate]; omega, fun y hy => List.eq_of_mem_replicate hy⟩

example : Cont.Vector.newInt 3 'x' = .ok ['x', 'x', 'x'] := rfl

end BigSizes
