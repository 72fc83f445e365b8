import Verif.Model.BigSizes
import Verif.Model.Kmp
import Verif.Proof.Base64
import Verif.Proof.EditDistance
import Verif.Proof.Kmp

/-! # Lemmas about sizes of 2^31 and more -/

open Cpp

theorem Cpp.toInt_eq (n : Nat) :
    toInt n = if n % 4294967296 < 2147483648 then ((n % 4294967296 : Nat) : Int) else ((n % 4294967296 : Nat) : Int) - 4294967296 := rfl

namespace Base64

theorem encodeInt_default (s : Str) : base64EncodeInt s (-1) = .ok (base64Encode s) := by
  unfold base64EncodeInt base64Encode
  rw [if_neg (by omega), if_neg (by omega)]
  dsimp only
  rw [if_neg (by omega), if_neg (by omega)]
  generalize (encodeUnpadded s).length % 4 = r
  rcases r with _ | _ | _ | _ | r <;> rfl

theorem encodeInt_small (s : Str) (n : Int) (h : (encodeUnpadded s).length < 2147483648) (hn : IsInt n) :
    base64EncodeInt s n = .ok (base64Encode s n) := by
  by_cases h1 : n = -1
  · subst h1; exact encodeInt_default s
  unfold base64EncodeInt base64Encode
  by_cases h2 : n < -1
  · rw [if_pos h2, if_pos h2]
  rw [if_neg h2, if_neg h2]
  dsimp only
  rw [if_pos h1, if_pos h1, toInt_small h]
  by_cases h3 : n < ((encodeUnpadded s).length : Int)
  · rw [if_pos h3, if_pos h3]
  rw [if_neg h3, if_neg h3]
  obtain ⟨-, h4⟩ := hn
  unfold INT_MAX at h4
  rw [Int.emod_eq_of_lt (by omega) (by omega), if_neg (by unfold maxSize; omega)]
  congr 4
  omega

theorem encodeInt_big (s : Str) (n : Int) (h : 2147483648 ≤ (encodeUnpadded s).length)
    (h' : (encodeUnpadded s).length ≤ maxSize) (hn : IsInt n) (h0 : 0 ≤ n) :
    base64EncodeInt s n = if n < toInt (encodeUnpadded s).length then .ok [] else .exit := by
  obtain ⟨-, h4⟩ := hn
  unfold INT_MAX at h4
  unfold maxSize at h'
  unfold base64EncodeInt
  rw [if_neg (by omega)]
  dsimp only
  rw [if_pos (by omega)]
  by_cases h3 : n < toInt (encodeUnpadded s).length
  · rw [if_pos h3, if_pos h3]
  rw [if_neg h3, if_neg h3, if_pos]
  unfold maxSize
  omega

end Base64

namespace EditDistance

theorem foldlM_congr_mem {α σ : Type} {f g : σ → α → Out σ} : ∀ (l : List α) (s : σ), (∀ a ∈ l, ∀ s, f s a = g s a) →
    l.foldlM f s = l.foldlM g s
  | [], _, _ => rfl
  | a :: l, s, h => by
    rw [List.foldlM_cons, List.foldlM_cons, h a (by simp) s]
    congr 1
    funext s'
    exact foldlM_congr_mem l s' fun b hb => h b (by simp [hb])

theorem strAt_take {s : Str} {k : Nat} {i : Int} (h : i < k) (hk : k ≤ s.length) : strAt (s.take k) i = strAt s i := by
  unfold strAt
  simp only [List.length_take, Nat.min_eq_left hk]
  by_cases h0 : 0 ≤ i
  · rw [if_pos ⟨h0, h⟩, if_pos ⟨h0, by omega⟩]
    obtain ⟨n, rfl⟩ : ∃ n : Nat, i = n := ⟨i.toNat, by omega⟩
    simp only [Int.toNat_natCast, List.getD_eq_getElem?_getD]
    rw [List.getElem?_take_of_lt (by omega)]
  · rw [if_neg (by omega), if_neg (by omega), if_neg (by omega), if_neg (by omega)]

theorem fillMatrix_take (s1 s2 : Str) (m n : Nat) (hm : m ≤ s1.length) (hn : n ≤ s2.length) (h0 : m ≠ 0) (h1 : n ≠ 0) :
    fillMatrix s1 s2 m n = editDistance (s1.take m) (s2.take n) := by
  unfold fillMatrix editDistance
  simp only [List.length_take, Nat.min_eq_left hm, Nat.min_eq_left hn]
  rw [if_neg (by omega)]
  have : ∀ M, (List.range' 1 m).foldlM (rowStep s1 s2 n) M =
      (List.range' 1 m).foldlM (rowStep (s1.take m) (s2.take n) n) M := by
    intro M
    refine foldlM_congr_mem _ _ fun i hi M => ?_
    rw [List.mem_range'_1] at hi
    unfold rowStep
    refine foldlM_congr_mem _ _ fun j hj M => ?_
    rw [List.mem_range'_1] at hj
    unfold cellStep
    rw [strAt_take (by omega) hm, strAt_take (by omega) hn]
  simp only [this]

end EditDistance

namespace Kmp

theorem scan_take (base pat : Str) (next : Arr Int) (k : Nat) (psize : Int) (hk : k ≤ base.length) : ∀ (fuel : Nat) (m i : Int),
    scan (base.take k) pat k psize next fuel m i = scan base pat k psize next fuel m i := by
  intro fuel
  induction fuel with
  | zero => intro m i; rfl
  | succ fuel ih =>
    intro m i
    unfold scan
    by_cases hc : m < (k : Int) ∧ i < psize
    · rw [if_pos hc, if_pos hc, EditDistance.strAt_take hc.1 hk]
      simp only [ih]
    · rw [if_neg hc, if_neg hc]

theorem kmpSearch_take (fuel : Nat) (base pat : Str) (start : Nat) (h : base.length % 4294967296 < 2147483648) :
    kmpSearch fuel base pat start = kmpSearch fuel (base.take (base.length % 4294967296)) pat start := by
  have hle : base.length % 4294967296 ≤ base.length := Nat.mod_le _ _
  unfold kmpSearch
  rw [toInt_eq base.length, if_pos h, List.length_take, Nat.min_eq_left hle, toInt_small h]
  simp only [scan_take base pat _ _ _ hle]

theorem kmpSearch_none (fuel : Nat) (base pat : Str) (start : Nat) (hp : pat ≠ []) (hpl : pat.length < 2147483648)
    (hst : start < 2147483648) (hf : 2 * pat.length + 1 ≤ fuel) (h : 2147483648 ≤ base.length % 4294967296) :
    kmpSearch fuel base pat start = .ok (-1) := by
  have hpos : 0 < pat.length := List.length_pos_iff.mpr hp
  obtain ⟨next0, next, e0, hn, -⟩ := buildNext_start pat fuel hp hf
  unfold kmpSearch
  rw [toInt_small hpl, toInt_small hst, toInt_eq base.length, if_neg (by omega)]
  simp only [Int.toNat_natCast]
  rw [e0, Out.ok_bind, hn, Out.ok_bind]
  obtain ⟨fuel, rfl⟩ : ∃ f, fuel = f + 1 := ⟨fuel - 1, by omega⟩
  unfold scan
  have := Nat.mod_lt base.length (show 0 < 4294967296 by decide)
  rw [if_neg (by omega), Out.ok_bind]
  dsimp only
  rw [if_neg (by omega)]

end Kmp

namespace Cont

theorem clearLoop_stack (size : Nat) (hs : size < 2147483648) : ∀ (fuel : Nat) (i : Nat) (s : List α), i ≤ size → size - i ≤ s.length →
    size - i < fuel → clearLoop Stl.popBack size fuel i s = .ok (s.take (s.length - (size - i))) := by
  intro fuel
  induction fuel with
  | zero => intro i s _ _ h; omega
  | succ fuel ih =>
    intro i s h1 h2 h3
    unfold clearLoop
    by_cases e : i = size
    · subst e
      rw [if_pos rfl]
      simp
    · rw [if_neg (by omega)]
      have hne : s ≠ [] := by rintro rfl; simp at h2; omega
      rw [Stl.popBack, if_neg hne, Out.ok_bind, int_ok (by unfold IsInt INT_MIN INT_MAX; omega), Out.ok_bind]
      have hl : s.dropLast.length = s.length - 1 := by simp
      have := ih (i + 1) s.dropLast (by omega) (by omega) (by omega)
      rw [show ((i : Int) + 1) = ((i + 1 : Nat) : Int) by omega, this, hl, List.dropLast_eq_take, List.take_take]
      congr 2
      omega

theorem clearLoop_queue (size : Nat) (hs : size < 2147483648) : ∀ (fuel : Nat) (i : Nat) (s : List α), i ≤ size → size - i ≤ s.length →
    size - i < fuel → clearLoop Stl.popFront size fuel i s = .ok (s.drop (size - i)) := by
  intro fuel
  induction fuel with
  | zero => intro i s _ _ h; omega
  | succ fuel ih =>
    intro i s h1 h2 h3
    unfold clearLoop
    by_cases e : i = size
    · subst e
      rw [if_pos rfl]
      simp
    · rw [if_neg (by omega)]
      cases s with
      | nil => simp at h2; omega
      | cons x s =>
        rw [Stl.popFront, Out.ok_bind, int_ok (by unfold IsInt INT_MIN INT_MAX; omega), Out.ok_bind]
        simp only [List.length_cons] at h2
        have := ih (i + 1) s (by omega) (by omega) (by omega)
        rw [show ((i : Int) + 1) = ((i + 1 : Nat) : Int) by omega, this]
        rw [show size - i = (size - (i + 1)) + 1 by omega]
        rfl

theorem clearLoop_neg (pop : List α → Out (List α)) (hpop : ∀ s, pop s = .ub ∨ ∃ t, pop s = .ok t) (size : Int) (hs : size < 0) :
    ∀ (fuel : Nat) (i : Nat) (s : List α), i ≤ 2147483647 → 2147483647 - i < fuel → clearLoop pop size fuel i s = .ub := by
  intro fuel
  induction fuel with
  | zero => intro i s _ h; omega
  | succ fuel ih =>
    intro i s h1 h3
    unfold clearLoop
    rw [if_neg (by omega)]
    rcases hpop s with h | ⟨t, h⟩
    · rw [h]; rfl
    · rw [h, Out.ok_bind]
      by_cases e : i = 2147483647
      · subst e
        rfl
      · rw [int_ok (by unfold IsInt INT_MIN INT_MAX; omega), Out.ok_bind, show ((i : Int) + 1) = ((i + 1 : Nat) : Int) by omega]
        exact ih (i + 1) t (by omega) (by omega)

theorem popBack_cases (s : List α) : Stl.popBack s = .ub ∨ ∃ t, Stl.popBack s = .ok t := by
  unfold Stl.popBack; split
  · exact .inl rfl
  · exact .inr ⟨_, rfl⟩

theorem popFront_cases (s : List α) : Stl.popFront s = .ub ∨ ∃ t, Stl.popFront s = .ok t := by
  cases s
  · exact .inl rfl
  · exact .inr ⟨_, rfl⟩

end Cont
