import Verif.Model.KmpReads
import Verif.Proof.Kmp
import Mathlib.Data.Nat.Fib.Basic
import Mathlib.Data.List.PeriodicityLemma
import Mathlib.Tactic.Linarith

/-! # Lemmas about how often kmpSearch looks at a character -/

namespace Kmp
open Cpp

theorem scanReads_scan (base pattern : Str) (bsize psize : Int) (next : Arr Int) : ∀ (fuel : Nat) (m i : Int),
    scan base pattern bsize psize next fuel m i = (do let (r, _) ← scanReads base pattern bsize psize next fuel m i; .ok r) := by
  intro fuel
  induction fuel with
  | zero => intro m i; rfl
  | succ fuel ih =>
    intro m i
    unfold scan scanReads
    by_cases hc : m < bsize ∧ i < psize
    · rw [if_pos hc, if_pos hc]
      by_cases hi : i = -1
      · rw [if_pos hi, if_pos hi, Out.ok_bind, if_pos rfl]
        exact ih _ _
      · rw [if_neg hi, if_neg hi]
        cases strAt base m with
        | ok a =>
          cases strAt pattern i with
          | ok b =>
            simp only [Out.ok_bind, decide_eq_true_eq]
            by_cases hab : a = b
            · rw [if_pos hab, if_pos hab, ih]
              cases scanReads base pattern bsize psize next fuel (m + 1) (i + 1) <;> rfl
            · rw [if_neg hab, if_neg hab]
              cases next.get i with
              | ok v =>
                simp only [Out.ok_bind]
                rw [ih]
                cases scanReads base pattern bsize psize next fuel m v <;> rfl
              | _ => rfl
          | _ => rfl
        | _ => rfl
    · rw [if_neg hc, if_neg hc]
      rfl

theorem kmpReads_search (fuel : Nat) (base pattern : Str) (start : Nat) :
    kmpSearch fuel base pattern start = (do let (r, _) ← kmpReads fuel base pattern start; .ok r) := by
  unfold kmpSearch kmpReads
  dsimp only
  cases (Arr.new (toInt pattern.length).toNat : Arr Int).set 0 (-1) with
  | ok n0 =>
    simp only [Out.ok_bind]
    cases buildNext pattern (toInt pattern.length) fuel n0 0 (-1) with
    | ok n1 =>
      simp only [Out.ok_bind]
      rw [scanReads_scan]
      cases scanReads base pattern (toInt base.length) (toInt pattern.length) n1 fuel (toInt start) 0 with
      | ok x =>
        obtain ⟨⟨m, i⟩, l⟩ := x
        simp only [Out.ok_bind]
        by_cases h : i = toInt pattern.length
        · rw [if_pos h, if_pos h]; rfl
        · rw [if_neg h, if_neg h]; rfl
      | _ => rfl
    | _ => rfl
  | _ => rfl

/-- Two steps down the failure function shorten the prefix at least as the Fibonacci numbers do. -/
theorem fail_fail {p : Nat → Byte} {j k l : Nat} (h1 : Fail p j k) (h2 : Fail p k l) : k + l + 2 ≤ j := by
  rcases h1.1 with h | ⟨k', hk, b1, n1⟩
  · omega
  have : k' = k := by omega
  subst this
  rcases h2.1 with h | ⟨l', hl, b2, n2⟩
  · omega
  have : l' = l := by omega
  subst this
  by_contra hc
  obtain ⟨c1, c2⟩ := b1
  obtain ⟨d1, d2⟩ := b2
  -- the prefix of length `k` has the periods `j - k` and `k - l`
  let w := (List.range k').map p
  have hw : w.length = k' := by simp [w]
  have hg : ∀ i, i < k' → w[i]? = some (p i) := by
    intro i hi
    simp [w, hi]
  have hP : w.HasPeriod (j - k') := by
    rw [List.hasPeriod_iff_getElem?]
    intro i hi
    rw [hw] at hi
    rw [hg _ (by omega), hg _ (by omega), c2 i (by omega)]
    congr 2; omega
  have hQ : w.HasPeriod (k' - l') := by
    rw [List.hasPeriod_iff_getElem?]
    intro i hi
    rw [hw] at hi
    rw [hg _ (by omega), hg _ (by omega), d2 i (by omega)]
    congr 2; omega
  have hpos : 0 < Nat.gcd (j - k') (k' - l') := Nat.gcd_pos_of_pos_left _ (by omega)
  have hG := List.HasPeriod.gcd hP hQ (by omega)
  have d1' := Nat.gcd_dvd_left (j - k') (k' - l')
  have d2' := Nat.gcd_dvd_right (j - k') (k' - l')
  generalize Nat.gcd (j - k') (k' - l') = g at *
  rw [List.hasPeriod_iff_forall_getElem?_mod] at hG
  -- all positions that differ by a multiple of the common period carry the same character
  have key : p (k' - (j - k')) = p (k' - (k' - l')) := by
    have x1 := hG (k' - (j - k')) (by omega)
    have x2 := hG (k' - (k' - l')) (by omega)
    have e : (k' - (j - k')) % g = (k' - (k' - l')) % g := by
      obtain ⟨x, hx⟩ := d1'
      obtain ⟨y, hy⟩ := d2'
      have r1 : (k' - (j - k') + (j - k')) % g = (k' - (j - k')) % g := by
        conv_lhs => rw [hx, Nat.add_mul_mod_self_left]
        rw [hx]
      have r2 : (k' - (k' - l') + (k' - l')) % g = (k' - (k' - l')) % g := by
        conv_lhs => rw [hy, Nat.add_mul_mod_self_left]
        rw [hy]
      rw [← r1, ← r2]
      congr 1; omega
    rw [e, ← x2, hg _ (by omega), hg _ (by omega)] at x1
    exact Option.some.inj x1
  apply n2
  have e1 : p (k' - (j - k')) = p k' := by
    rw [c2 _ (by omega)]; congr 1; omega
  rw [← e1, key]
  congr 1; omega

theorem fib_three : Nat.fib 3 = 2 := by decide

/-- what a run of the loop reads -/
structure Reads (pat : Str) (n : Int) (m i : Int) (m' : Int) (l : List Int) : Prop where
  sorted : l.Pairwise (· ≤ ·)
  range : ∀ c ∈ l, m ≤ c ∧ c < n ∧ c < m'
  final : m ≤ m'
  adv : m < n → i < pat.length → m < m'
  length : m < n ∨ 0 ≤ i → (l.length : Int) ≤ 2 * (n - m) + i
  none : i = -1 → l.count m = 0
  here : ∀ k : Nat, i = k → Nat.fib (l.count m + 2) ≤ k + 2 ∧
    (2 ≤ l.count m → ∃ v : Nat, Fail (fun t => pat.getD t 0) k v ∧ Nat.fib (l.count m + 1) ≤ v + 2)
  later : ∀ c, m < c → Nat.fib (l.count c + 2) ≤ pat.length + 1

theorem scanReads_reads (base pat : Str) (next : Arr Int) (tab : Table (fun i => pat.getD i 0) pat.length next)
    (hp : 0 < pat.length) : ∀ (fuel : Nat) (m i m' i' : Int) (l : List Int), -1 ≤ i → i ≤ pat.length → m ≤ base.length →
      scanReads base pat base.length pat.length next fuel m i = .ok ((m', i'), l) → Reads pat base.length m i m' l := by
  intro fuel
  induction fuel with
  | zero => intro m i m' i' l _ _ _ h; simp [scanReads] at h
  | succ fuel ih =>
    intro m i m' i' l hi1 hi2 hm h
    unfold scanReads at h
    by_cases hc : m < (base.length : Int) ∧ i < (pat.length : Int)
    · rw [if_pos hc] at h
      by_cases hi : i = -1
      · rw [if_pos hi] at h
        have R := ih _ _ _ _ _ (by omega) (by omega) (by omega) h
        have hz : l.count m = 0 := List.count_eq_zero.2 fun hmem => by have := (R.range m hmem).1; omega
        refine ⟨R.sorted, fun c hcm => ?_, by have := R.final; omega, fun _ _ => by have := R.final; omega, fun _ => ?_, fun _ => hz, fun k hk => by omega, ?_⟩
        · have := R.range c hcm; omega
        · have := R.length (.inr (by omega)); omega
        · intro c hmc
          by_cases e : c = m + 1
          · subst e
            have := (R.here 0 (by omega)).1
            omega
          · exact R.later c (by omega)
      · rw [if_neg hi] at h
        obtain ⟨a, ha, h⟩ := Out.bind_eq_ok.1 h
        obtain ⟨b, hb, h⟩ := Out.bind_eq_ok.1 h
        by_cases hab : a = b
        · rw [if_pos hab] at h
          obtain ⟨⟨r, l'⟩, h1, h2⟩ := Out.bind_eq_ok.1 h
          simp only [Out.ok.injEq, Prod.mk.injEq] at h2
          obtain ⟨rfl, rfl⟩ := h2
          have R := ih _ _ _ _ _ (by omega) (by omega) (by omega) h1
          have hz : l'.count m = 0 := List.count_eq_zero.2 fun hmem => by have := (R.range m hmem).1; omega
          have hone : (m :: l').count m = 1 := by rw [List.count_cons_self, hz]
          refine ⟨List.pairwise_cons.2 ⟨fun c hcm => by have := (R.range c hcm).1; omega, R.sorted⟩, fun c hcm => ?_,
            by have := R.final; omega, fun _ _ => by have := R.final; omega, fun _ => ?_, fun h => absurd h hi, fun k hk => ?_, fun c hmc => ?_⟩
          · rcases List.mem_cons.1 hcm with rfl | hcm
            · have := R.final; omega
            · have := R.range c hcm; omega
          · have := R.length (.inr (by omega))
            simp only [List.length_cons]
            omega
          · rw [hone]
            refine ⟨?_, fun h => absurd h (by omega)⟩
            show Nat.fib 3 ≤ _
            have : Nat.fib 3 = 2 := by decide
            omega
          · rw [List.count_cons_of_ne (by omega)]
            by_cases e : c = m + 1
            · subst e
              obtain ⟨k, hk⟩ : ∃ k : Nat, i + 1 = k := ⟨(i + 1).toNat, by omega⟩
              obtain ⟨q1, -⟩ := R.here k hk
              by_cases hl : k < pat.length
              · omega
              · -- the loop ends: nothing is read
                have hle : k = pat.length := by omega
                have : l' = [] := by
                  cases fuel with
                  | zero => simp [scanReads] at h1
                  | succ fuel =>
                    unfold scanReads at h1
                    rw [if_neg (by omega)] at h1
                    simp only [Out.ok.injEq, Prod.mk.injEq] at h1
                    exact h1.2.symm
                rw [this]
                simp
            · exact R.later c (by omega)
        · rw [if_neg hab] at h
          obtain ⟨v, hv, h⟩ := Out.bind_eq_ok.1 h
          obtain ⟨⟨r, l'⟩, h1, h2⟩ := Out.bind_eq_ok.1 h
          simp only [Out.ok.injEq, Prod.mk.injEq] at h2
          obtain ⟨rfl, rfl⟩ := h2
          obtain ⟨n, rfl⟩ : ∃ n : Nat, i = n := ⟨i.toNat, by omega⟩
          obtain ⟨w, hw, hfw⟩ := tab.2 n (by omega)
          rw [Arr.get_ok (by rw [tab.1]; omega) hw] at hv
          simp only [Out.ok.injEq] at hv
          subst hv
          have hbd := hfw.bounds
          have R := ih _ _ _ _ _ (by omega) (by omega) (by omega) h1
          refine ⟨List.pairwise_cons.2 ⟨fun c hcm => by have := (R.range c hcm).1; omega, R.sorted⟩, fun c hcm => ?_,
            R.final, fun _ _ => R.adv hc.1 (by omega), fun _ => ?_, fun h => absurd h hi, fun k hk => ?_, fun c hmc => ?_⟩
          · rcases List.mem_cons.1 hcm with rfl | hcm
            · refine ⟨le_refl _, hc.1, ?_⟩
              exact R.adv hc.1 (by omega)
            · have := R.range c hcm; omega
          · have := R.length (.inl hc.1)
            simp only [List.length_cons]
            omega
          · have hkn : k = n := by omega
            subst hkn
            rw [List.count_cons_self]
            by_cases hneg : w = -1
            · rw [R.none hneg]
              refine ⟨by show Nat.fib 3 ≤ _; rw [fib_three]; omega, fun h => absurd h (by omega)⟩
            · obtain ⟨v, rfl⟩ : ∃ v : Nat, w = v := ⟨w.toNat, by omega⟩
              obtain ⟨q1, q2⟩ := R.here v rfl
              refine ⟨?_, fun _ => ⟨v, hfw, q1⟩⟩
              by_cases h2 : 2 ≤ l'.count m
              · obtain ⟨u, hu, q3⟩ := q2 h2
                have := fail_fail hfw hu
                rw [Nat.fib_add_two]
                change Nat.fib (l'.count m + 1) + Nat.fib (l'.count m + 2) ≤ _
                omega
              · have h3 : l'.count m = 0 ∨ l'.count m = 1 := by omega
                rcases h3 with h3 | h3
                · rw [h3]; show Nat.fib 3 ≤ _; rw [fib_three]; omega
                · rw [h3]; show Nat.fib 4 ≤ _
                  have : Nat.fib 4 = 3 := by decide
                  omega
          · rw [List.count_cons_of_ne (by omega)]
            exact R.later c hmc
    · rw [if_neg hc] at h
      simp only [Out.ok.injEq, Prod.mk.injEq] at h
      obtain ⟨⟨rfl, rfl⟩, rfl⟩ := h
      refine ⟨List.Pairwise.nil, fun c hcm => by simp at hcm, le_refl _, fun u v => absurd ⟨u, v⟩ hc, fun h => ?_, fun _ => rfl, fun k hk => ?_, fun c _ => ?_⟩
      · simp only [List.length_nil]
        push_cast
        omega
      · refine ⟨by simp, fun h => by simp at h⟩
      · simp

theorem kmpReads_ok (base pat : Str) (start fuel : Nat) (hp : pat ≠ [])
    (hpl : pat.length < 2147483648) (hbl : base.length < 2147483648) (hst : start < 2147483648)
    (hf : 2 * pat.length + 1 ≤ fuel) (hf' : 2 * base.length + 2 ≤ fuel + 2 * start) :
    ∃ r l m', kmpReads fuel base pat start = .ok (r, l) ∧ kmpSearch fuel base pat start = .ok r ∧
      (r ≠ -1 → r + pat.length = m') ∧
      (start ≤ base.length → Reads pat base.length start 0 m' l) ∧ (base.length < start → l = []) := by
  have hpos : 0 < pat.length := List.length_pos_iff.mpr hp
  obtain ⟨r, hr, -⟩ := kmpSearch_steps base pat start fuel hp hpl hbl hst hf hf'
  have hk := kmpReads_search fuel base pat start
  rw [hr] at hk
  obtain ⟨⟨r', l⟩, h1, h2⟩ := Out.bind_eq_ok.1 hk.symm
  simp only [Out.ok.injEq] at h2
  subst h2
  obtain ⟨next0, next, e0, hn, tab⟩ := buildNext_start pat fuel hp hf
  have h1' := h1
  unfold kmpReads at h1'
  rw [toInt_small hpl, toInt_small hbl, toInt_small hst] at h1'
  simp only [Int.toNat_natCast] at h1'
  rw [e0, Out.ok_bind, hn, Out.ok_bind] at h1'
  obtain ⟨⟨⟨m', i'⟩, l'⟩, h3, h4⟩ := Out.bind_eq_ok.1 h1'
  simp only at h4
  have hll : l' = l ∧ (r' ≠ -1 → r' + pat.length = m') := by
    by_cases hi : i' = (pat.length : Int)
    · rw [if_pos hi] at h4
      simp only [Out.ok.injEq, Prod.mk.injEq] at h4
      exact ⟨h4.2, fun _ => by omega⟩
    · rw [if_neg hi] at h4
      simp only [Out.ok.injEq, Prod.mk.injEq] at h4
      exact ⟨h4.2, fun h => absurd h4.1.symm h⟩
  obtain ⟨rfl, hm⟩ := hll
  refine ⟨r', l', m', h1, hr, hm, fun hs => ?_, fun hs => ?_⟩
  · exact scanReads_reads base pat next tab hpos fuel _ _ _ _ _ (by omega) (by omega) (by omega) h3
  · cases fuel with
    | zero => simp [scanReads] at h3
    | succ fuel =>
      unfold scanReads at h3
      rw [if_neg (by omega)] at h3
      simp only [Out.ok.injEq, Prod.mk.injEq] at h3
      exact h3.2.symm

end Kmp
