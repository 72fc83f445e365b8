import Verif.Model.Kmp
import Verif.Spec.Kmp

namespace Kmp
open Cpp

/-! ### borders -/

/-- `b` is the length of a proper border of the prefix of length `j`. -/
def Bord (p : Nat → Byte) (j b : Nat) : Prop := b < j ∧ ∀ t, t < b → p t = p (j - b + t)

/-- The strong failure function: `v` is the greatest proper border `b` of the prefix of length `t`
with `p b ≠ p t`, or -1. -/
def Fail (p : Nat → Byte) (t : Nat) (v : Int) : Prop :=
  ((v = -1) ∨ ∃ b : Nat, v = b ∧ Bord p t b ∧ p b ≠ p t) ∧
  ∀ b : Nat, Bord p t b → v < b → p b = p t

theorem Bord.trans {p : Nat → Byte} {j k b : Nat} (h1 : Bord p j k) (h2 : Bord p k b) :
    Bord p j b := by
  refine ⟨by have := h1.1; have := h2.1; omega, fun t ht => ?_⟩
  rw [h2.2 t ht, h1.2 (k - b + t) (by have := h2.1; omega)]
  congr 1
  have := h1.1; have := h2.1
  omega

theorem Bord.of_lt {p : Nat → Byte} {j k b : Nat} (h1 : Bord p j k) (h2 : Bord p j b) (h : b < k) :
    Bord p k b := by
  refine ⟨h, fun t ht => ?_⟩
  rw [h2.2 t ht, h1.2 (k - b + t) (by omega)]
  congr 1
  have := h1.1
  omega

theorem Bord.succ {p : Nat → Byte} {j k : Nat} (h1 : Bord p j k) (h : p j = p k) :
    Bord p (j + 1) (k + 1) := by
  refine ⟨by have := h1.1; omega, fun t ht => ?_⟩
  have := h1.1
  by_cases e : t = k
  · subst e; rw [← h]; congr 1; omega
  · rw [h1.2 t (by omega)]; congr 1; omega

theorem Bord.pred {p : Nat → Byte} {j b : Nat} (h : Bord p (j + 1) (b + 1)) :
    (Bord p j b) ∧ p b = p j := by
  obtain ⟨h1, h2⟩ := h
  refine ⟨⟨by omega, fun t ht => ?_⟩, ?_⟩
  · rw [h2 t (by omega)]; congr 1; omega
  · rw [h2 b (by omega)]; congr 1; omega

theorem Bord.zero {p : Nat → Byte} {j : Nat} (h : 0 < j) : Bord p j 0 :=
  ⟨h, fun t ht => absurd ht (by omega)⟩

theorem fail_zero (p : Nat → Byte) : Fail p 0 (-1) :=
  ⟨.inl rfl, fun b hb => absurd hb.1 (by omega)⟩

/-! ### the table -/

/-- Invariant of `buildNext`. -/
structure Inv (p : Nat → Byte) (L : Nat) (next : Arr Int) (j : Nat) (k : Int) : Prop where
  size : next.size = L
  jlt : j < L
  kge : -1 ≤ k
  klt : k < j
  bord : k = -1 ∨ ∃ b : Nat, k = b ∧ Bord p j b
  max : ∀ b : Nat, Bord p j b → k < b → p b ≠ p j
  table : ∀ t, t ≤ j → ∃ v, next.cell t = some v ∧ Fail p t v

/-- The finished table. -/
def Table (p : Nat → Byte) (L : Nat) (next : Arr Int) : Prop :=
  next.size = L ∧ ∀ t, t < L → ∃ v, next.cell t = some v ∧ Fail p t v

theorem Fail.bounds {p : Nat → Byte} {t : Nat} {v : Int} (h : Fail p t v) : -1 ≤ v ∧ v < t := by
  rcases h.1 with h | ⟨b, rfl, hb, -⟩
  · omega
  · have := hb.1; omega

theorem buildNext_ok (pat : Str) (fuel : Nat) (next : Arr Int) (j : Nat) (k : Int)
    (inv : Inv (fun i => pat.getD i 0) pat.length next j k)
    (hf : 2 * pat.length + k + 1 < fuel + 2 * j) :
    ∃ next', buildNext pat pat.length fuel next j k = .ok next' ∧
      Table (fun i => pat.getD i 0) pat.length next' := by
  induction fuel generalizing next j k with
  | zero => have := inv.klt; have := inv.jlt; have := inv.kge; omega
  | succ fuel ih =>
    obtain ⟨size, jlt, kge, klt, bord, max, table⟩ := inv
    unfold buildNext
    split
    rotate_left
    · rename_i hj
      exact ⟨next, rfl, size, fun t ht => table t (by omega)⟩
    rename_i hj
    -- the advance step
    have adv : (k = -1 ∨ ∃ b : Nat, k = b ∧ Bord (fun i => pat.getD i 0) j b ∧
        pat.getD j 0 = pat.getD b 0) →
        ∃ next', (do
          let a ← strAt pat ((j : Int) + 1)
          let b ← strAt pat (k + 1)
          if a = b then do
            let v ← next.get (k + 1)
            let next ← next.set ((j : Int) + 1) v
            buildNext pat pat.length fuel next (j + 1) (k + 1)
          else do
            let next ← next.set ((j : Int) + 1) (k + 1)
            buildNext pat pat.length fuel next (j + 1) (k + 1)) = .ok next' ∧
        Table (fun i => pat.getD i 0) pat.length next' := by
      intro hk
      obtain ⟨k', hk'⟩ : ∃ k' : Nat, k + 1 = k' := ⟨(k + 1).toNat, by omega⟩
      have hb' : Bord (fun i => pat.getD i 0) (j + 1) k' := by
        rcases hk with rfl | ⟨b, rfl, hb, hpb⟩
        · have : k' = 0 := by omega
          subst this; exact Bord.zero (by omega)
        · have : k' = b + 1 := by omega
          subst this; exact hb.succ hpb
      have hmax' : ∀ b : Nat, Bord (fun i => pat.getD i 0) (j + 1) b → b ≤ k' := by
        intro b hb
        cases b with
        | zero => omega
        | succ b =>
          obtain ⟨h1, h2⟩ := hb.pred
          by_cases hlt : k < b
          · exact absurd h2 (max b h1 hlt)
          · omega
      have ej : (j : Int) + 1 = ((j + 1 : Nat) : Int) := by omega
      have hk'j : k' < j + 1 := hb'.1
      rw [ej, hk', strAt_ok (by omega), strAt_ok (by omega)]
      simp only [Out.ok_bind]
      -- continuing with a right value
      have cont : ∀ v : Int, Fail (fun i => pat.getD i 0) (j + 1) v →
          ∃ next', (do
            let next ← next.set ((j + 1 : Nat) : Int) v
            buildNext pat pat.length fuel next ((j + 1 : Nat) : Int) k') = .ok next' ∧
          Table (fun i => pat.getD i 0) pat.length next' := by
        intro v hv
        rw [Arr.set_ok (by omega)]
        simp only [Out.ok_bind]
        refine ih _ (j + 1) k' ?_ (by omega)
        refine ⟨size, by omega, by omega, by omega, .inr ⟨k', rfl, hb'⟩, ?_, ?_⟩
        · intro b hb hlt
          have := hmax' b hb; omega
        · intro t ht
          by_cases e : t = j + 1
          · subst e; exact ⟨v, by simp, hv⟩
          · obtain ⟨w, hw, hw'⟩ := table t (by omega)
            exact ⟨w, by simp [e, hw], hw'⟩
      split
      · rename_i heq
        obtain ⟨v, hv, hfv⟩ := table k' (by omega)
        rw [Arr.get_ok (by omega) hv]
        simp only [Out.ok_bind]
        refine cont v ⟨?_, ?_⟩
        · rcases hfv.1 with h | ⟨b, rfl, hb, hne⟩
          · exact .inl h
          · refine .inr ⟨b, rfl, hb'.trans hb, ?_⟩
            simp only at hne ⊢
            rw [heq]; exact hne
        · intro b hb hlt
          have hle := hmax' b hb
          by_cases e : b = k'
          · subst e; exact heq.symm
          · have := hfv.2 b (hb'.of_lt hb (by omega)) hlt
            simp only at this ⊢
            rw [this, heq]
      · rename_i hne
        refine cont k' ⟨.inr ⟨k', rfl, hb', ?_⟩, ?_⟩
        · exact fun h => hne h.symm
        · intro b hb hlt
          have := hmax' b hb; omega
    rcases bord with hk | ⟨b, hk, hb⟩
    · rw [if_pos hk]
      simp only [Out.ok_bind, if_true]
      exact adv (.inl hk)
    · subst hk
      rw [if_neg (by omega), strAt_ok (by omega), strAt_ok (by have := hb.1; omega)]
      simp only [Out.ok_bind, decide_eq_true_eq]
      split
      · rename_i heq
        exact adv (.inr ⟨b, rfl, hb, heq⟩)
      · rename_i hne
        obtain ⟨v, hv, hfv⟩ := table b (by have := hb.1; omega)
        have hbd := hfv.bounds
        rw [Arr.get_ok (by have := hb.1; omega) hv]
        simp only [Out.ok_bind]
        refine ih next j v ⟨size, jlt, by omega, by omega, ?_, ?_, table⟩ (by omega)
        · rcases hfv.1 with h | ⟨c, rfl, hc, -⟩
          · exact .inl h
          · exact .inr ⟨c, rfl, hb.trans hc⟩
        · intro c hc hlt
          by_cases h1 : b < c
          · exact max c hc (by omega)
          by_cases h2 : c = b
          · subst h2; exact fun h => hne h.symm
          · have := hfv.2 c (hb.of_lt hc (by omega)) hlt
            simp only at this ⊢
            rw [this]; exact fun h => hne h.symm

/-! ### scanning -/

/-- Index form of an occurrence. -/
def Occ (base pat : Str) (q : Nat) : Prop :=
  q + pat.length ≤ base.length ∧ ∀ t, t < pat.length → base.getD (q + t) 0 = pat.getD t 0

theorem occ_iff (base pat : Str) (q : Nat) : Spec.OccursAt base pat q ↔ Occ base pat q := by
  unfold Occ
  simp only [List.getD_eq_getElem?_getD]
  constructor
  · rintro ⟨a, c, rfl, rfl⟩
    refine ⟨by simp, fun t ht => ?_⟩
    rw [List.append_assoc, List.getElem?_append_right (by omega), Nat.add_sub_cancel_left,
      List.getElem?_append_left ht]
  · rintro ⟨h1, h2⟩
    refine ⟨base.take q, base.drop (q + pat.length), ?_, by simp; omega⟩
    have : pat = (base.drop q).take pat.length := by
      apply List.ext_getElem
      · simp; omega
      · intro i hi hi'
        have := h2 i hi
        rw [List.getElem_take, List.getElem_drop]
        rw [List.getElem?_eq_getElem (by omega), List.getElem?_eq_getElem hi] at this
        exact this.symm
    have e : base.take q ++ pat ++ base.drop (q + pat.length) =
        base.take q ++ ((base.drop q).take pat.length ++ base.drop (q + pat.length)) := by
      rw [← this, List.append_assoc]
    rw [e, ← List.drop_drop, List.take_append_drop, List.take_append_drop]

theorem scan_ok (base pat : Str) (next : Arr Int) (start : Nat)
    (tab : Table (fun i => pat.getD i 0) pat.length next)
    (fuel : Nat) (m : Nat) (i : Int)
    (hi : -1 ≤ i) (hi' : i ≤ pat.length) (hm : m ≤ base.length) (hs : (start : Int) ≤ m - i)
    (hmi : i ≤ m)
    (hmatch : ∀ t : Nat, (t : Int) < i → base.getD ((m - i).toNat + t) 0 = pat.getD t 0)
    (hno : ∀ q : Nat, start ≤ q → (q : Int) < m - i → ¬ Occ base pat q)
    (hf : 2 * base.length + i + 1 < fuel + 2 * m) :
    ∃ m' i', scan base pat base.length pat.length next fuel m i = .ok (m', i') ∧
      ((i' = pat.length ∧ ∃ q : Nat, m' - i' = q ∧ start ≤ q ∧ Occ base pat q ∧
          ∀ q', start ≤ q' → q' < q → ¬ Occ base pat q') ∨
       (i' ≠ pat.length ∧ ∀ q, start ≤ q → ¬ Occ base pat q)) := by
  induction fuel generalizing m i with
  | zero => omega
  | succ fuel ih =>
    unfold scan
    split
    rotate_left
    · rename_i hc
      refine ⟨m, i, rfl, ?_⟩
      by_cases hip : i = pat.length
      · left
        refine ⟨hip, (m - i).toNat, by omega, by omega, ⟨by omega, ?_⟩, ?_⟩
        · intro t ht
          exact hmatch t (by omega)
        · intro q' h1 h2
          exact hno q' h1 (by omega)
      · right
        refine ⟨hip, fun q hq hocc => ?_⟩
        by_cases hlt : (q : Int) < m - i
        · exact hno q hq hlt hocc
        · have := hocc.1; omega
    rename_i hc
    obtain ⟨hmb, hil⟩ := hc
    have adv : (i = -1 ∨ base.getD m 0 = pat.getD i.toNat 0) →
        ∃ m' i', scan base pat base.length pat.length next fuel ((m : Int) + 1) (i + 1) = .ok (m', i') ∧
      ((i' = pat.length ∧ ∃ q : Nat, m' - i' = q ∧ start ≤ q ∧ Occ base pat q ∧
          ∀ q', start ≤ q' → q' < q → ¬ Occ base pat q') ∨
       (i' ≠ pat.length ∧ ∀ q, start ≤ q → ¬ Occ base pat q)) := by
      intro h
      have em : (m : Int) + 1 = ((m + 1 : Nat) : Int) := by omega
      have hd : (((m + 1 : Nat) : Int) - (i + 1)) = m - i := by omega
      rw [em]
      refine ih (m + 1) (i + 1) (by omega) (by omega) (by omega) (by omega) (by omega) ?_ ?_ (by omega)
      · intro t ht
        rw [hd]
        by_cases e : (t : Int) = i
        · rcases h with h | h
          · omega
          · have : i.toNat = t := by omega
            rw [this] at h
            rw [← h]; congr 1; omega
        · exact hmatch t (by omega)
      · intro q h1 h2
        exact hno q h1 (by omega)
    by_cases hi1 : i = -1
    · rw [if_pos hi1]
      simp only [Out.ok_bind, if_true]
      exact adv (.inl hi1)
    · obtain ⟨n, rfl⟩ : ∃ n : Nat, i = n := ⟨i.toNat, by omega⟩
      rw [if_neg hi1, strAt_ok (by omega), strAt_ok (by omega)]
      simp only [Out.ok_bind, decide_eq_true_eq]
      split
      · rename_i heq
        exact adv (.inr (by simpa using heq))
      · rename_i hne
        obtain ⟨v, hv, hfv⟩ := tab.2 n (by omega)
        have hbd := hfv.bounds
        rw [Arr.get_ok (by rw [tab.1]; omega) hv]
        simp only [Out.ok_bind]
        refine ih m v (by omega) (by omega) hm (by omega) (by omega) ?_ ?_ (by omega)
        · intro t ht
          rcases hfv.1 with h | ⟨b, rfl, hb, -⟩
          · omega
          · have h1 := hb.2 t (by omega)
            simp only at h1
            rw [h1, ← hmatch (n - b + t) (by have := hb.1; omega)]
            congr 1
            have := hb.1; omega
        · intro q h1 h2 hocc
          by_cases hlt : (q : Int) < m - n
          · exact hno q h1 hlt hocc
          · -- offset b = m - q
            have hqm : q ≤ m := by omega
            have hocm : base.getD m 0 = pat.getD (m - q) 0 := by
              have := hocc.2 (m - q) (by omega)
              rw [← this]; congr 1; omega
            by_cases e : m - q = n
            · rw [e] at hocm; exact hne hocm
            · have hB : Bord (fun i => pat.getD i 0) n (m - q) := by
                refine ⟨by omega, fun t ht => ?_⟩
                simp only
                rw [← hocc.2 t (by omega), ← hmatch (n - (m - q) + t) (by omega)]
                congr 1; omega
              have := hfv.2 (m - q) hB (by omega)
              simp only at this
              rw [this] at hocm
              exact hne hocm

theorem kmpSearch_steps (base pat : Str) (start fuel : Nat) (hp : pat ≠ [])
    (hpl : pat.length < 2147483648) (hbl : base.length < 2147483648) (hst : start < 2147483648)
    (hf : 2 * pat.length + 1 ≤ fuel) (hf' : 2 * base.length + 2 ≤ fuel + 2 * start) :
    ∃ r, kmpSearch fuel base pat start = .ok r ∧
      ((∃ q : Nat, r = q ∧ start ≤ q ∧ Occ base pat q ∧
        ∀ q', start ≤ q' → q' < q → ¬ Occ base pat q') ∨
       (r = -1 ∧ ∀ q, start ≤ q → ¬ Occ base pat q)) := by
  have hpos : 0 < pat.length := List.length_pos_iff.mpr hp
  unfold kmpSearch
  rw [toInt_small hpl, toInt_small hbl, toInt_small hst]
  simp only [Int.toNat_natCast]
  have e0 : ((Arr.new pat.length : Arr Int).set 0 (-1)) =
      .ok { (Arr.new pat.length : Arr Int) with
        cell := fun j => if j = 0 then some (-1) else (Arr.new pat.length : Arr Int).cell j } :=
    Arr.set_ok (i := 0) hpos
  rw [e0]
  simp only [Out.ok_bind]
  obtain ⟨next, hn, tab⟩ := buildNext_ok pat fuel
    { (Arr.new pat.length : Arr Int) with
        cell := fun j => if j = 0 then some (-1) else (Arr.new pat.length : Arr Int).cell j } 0 (-1)
    ⟨rfl, hpos, by omega, by omega, .inl rfl, fun b hb => absurd hb.1 (by omega), fun t ht => by
      have : t = 0 := by omega
      subst this; exact ⟨-1, by simp, fail_zero _⟩⟩ (by omega)
  have : ((0 : Nat) : Int) = 0 := rfl
  rw [this] at hn
  rw [hn]
  simp only [Out.ok_bind]
  by_cases hsb : start ≤ base.length
  · obtain ⟨m', i', hs, h⟩ := scan_ok base pat next start tab fuel start 0 (by omega) (by omega) hsb
      (by omega) (by omega) (fun t ht => by omega) (fun q h1 h2 => by omega) (by omega)
    rw [hs]
    simp only [Out.ok_bind]
    rcases h with ⟨h1, q, h2, h3, h4, h5⟩ | ⟨h1, h2⟩
    · rw [if_pos h1]
      exact ⟨_, rfl, .inl ⟨q, h2, h3, h4, h5⟩⟩
    · rw [if_neg h1]
      exact ⟨_, rfl, .inr ⟨rfl, h2⟩⟩
  · obtain ⟨f, rfl⟩ : ∃ f, fuel = f + 1 := ⟨fuel - 1, by omega⟩
    rw [scan, if_neg (by omega)]
    simp only [Out.ok_bind]
    rw [if_neg (by omega)]
    refine ⟨_, rfl, .inr ⟨rfl, fun q hq hocc => ?_⟩⟩
    have := hocc.1; omega

theorem kmpSearch_ok (base pat : Str) (start fuel : Nat) (hp : pat ≠ [])
    (hpl : pat.length < 2147483648) (hbl : base.length < 2147483648) (hst : start < 2147483648)
    (hf : 2 * (base.length + pat.length) + 2 ≤ fuel) :
    ∃ r, kmpSearch fuel base pat start = .ok r ∧
      ((∃ q : Nat, r = q ∧ start ≤ q ∧ Occ base pat q ∧
        ∀ q', start ≤ q' → q' < q → ¬ Occ base pat q') ∨
       (r = -1 ∧ ∀ q, start ≤ q → ¬ Occ base pat q)) :=
  kmpSearch_steps base pat start fuel hp hpl hbl hst (by omega) (by omega)

end Kmp

namespace Kmp
open Cpp

theorem kmpSearch_empty (fuel : Nat) (base : Str) (start : Nat) :
    kmpSearch fuel base [] start = .ub := by
  unfold kmpSearch
  rw [toInt_small (by simp)]
  rfl

theorem buildNext_start (pat : Str) (fuel : Nat) (hp : pat ≠ [])
    (hf : 2 * pat.length + 1 ≤ fuel) :
    ∃ next0 next, ((Arr.new pat.length : Arr Int).set 0 (-1)) = .ok next0 ∧
      buildNext pat pat.length fuel next0 0 (-1) = .ok next ∧
      Table (fun i => pat.getD i 0) pat.length next := by
  have hpos : 0 < pat.length := List.length_pos_iff.mpr hp
  have e0 : ((Arr.new pat.length : Arr Int).set 0 (-1)) =
      .ok { (Arr.new pat.length : Arr Int) with
        cell := fun j => if j = 0 then some (-1) else (Arr.new pat.length : Arr Int).cell j } :=
    Arr.set_ok (i := 0) hpos
  obtain ⟨next, hn, tab⟩ := buildNext_ok pat fuel
    { (Arr.new pat.length : Arr Int) with
        cell := fun j => if j = 0 then some (-1) else (Arr.new pat.length : Arr Int).cell j } 0 (-1)
    ⟨rfl, hpos, by omega, by omega, .inl rfl, fun b hb => absurd hb.1 (by omega), fun t ht => by
      have : t = 0 := by omega
      subst this; exact ⟨-1, by simp, fail_zero _⟩⟩ (by omega)
  exact ⟨_, next, e0, hn, tab⟩

theorem kmpSearch_negative (base pat : Str) (start fuel : Nat) (hp : pat ≠ [])
    (hpl : pat.length < 2147483648) (hbl : base.length < 2147483648) (hst : toInt start < 0)
    (hf : 2 * pat.length + 1 ≤ fuel) :
    kmpSearch fuel base pat start = .ub := by
  obtain ⟨next0, next, e0, hn, -⟩ := buildNext_start pat fuel hp hf
  have hpos : 0 < pat.length := List.length_pos_iff.mpr hp
  unfold kmpSearch
  rw [toInt_small hpl, toInt_small hbl]
  simp only [Int.toNat_natCast]
  rw [e0]
  simp only [Out.ok_bind]
  rw [hn]
  simp only [Out.ok_bind]
  obtain ⟨f, rfl⟩ : ∃ f, fuel = f + 1 := ⟨fuel - 1, by omega⟩
  rw [scan, if_pos (by omega), if_neg (by omega)]
  have : strAt base (toInt start) = .ub := by
    unfold strAt
    rw [if_neg (by omega), if_neg (by omega)]
  rw [this]
  rfl

/-- Only the converted start position matters. -/
theorem kmpSearch_toInt (base pat : Str) (start start' fuel : Nat) (h : toInt start = toInt start') :
    kmpSearch fuel base pat start = kmpSearch fuel base pat start' := by
  unfold kmpSearch; rw [h]

end Kmp
