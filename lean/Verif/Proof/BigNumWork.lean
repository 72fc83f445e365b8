import Verif.Model.BigNumWork
import Verif.Proof.BigNumProg
import Verif.Spec.BigNumWork
import Mathlib.Tactic.Ring

/-! # Work of `BigNum`: the counting model computes the same, and its counts -/

namespace BigNum.Work
open Cpp

variable {α β : Type}

theorem out_bind (x : Job α) (f : α → Job β) : (x >>= f).out = x.out >>= fun a => (f a).out := by
  show (Job.bind x f).out = _
  unfold Job.bind
  cases x.out <;> rfl

theorem out_ite (c : Prop) [Decidable c] (x y : Job α) : (if c then x else y).out = if c then x.out else y.out := by
  split <;> rfl

@[simp] theorem out_free (x : Out α) : (free x).out = x := rfl
@[simp] theorem out_use (n : Nat) : (use n).out = .ok () := rfl
@[simp] theorem out_block (n : Nat) : (block n).out = .ok () := rfl
@[simp] theorem out_get (a : Arr Int) (p : Int) : (get a p).out = a.get p := rfl
@[simp] theorem out_set (a : Arr Int) (p v : Int) : (set a p v).out = a.set p v := rfl
@[simp] theorem out_put (a : Arr Int) (p v : Int) : (put a p v).out = a.set p v := rfl
@[simp] theorem out_zero (N : Nat) : (zero N).out = .ok (BigNum.zero N) := rfl
@[simp] theorem out_assign (a b : Big) : (assign a b).out = .ok (BigNum.assign a b) := rfl

theorem foldlM_out {σ ι : Type} (f : σ → ι → Job σ) (g : σ → ι → Out σ) (h : ∀ s i, (f s i).out = g s i) :
    ∀ (l : List ι) (s : σ), (l.foldlM f s).out = l.foldlM g s := by
  intro l
  induction l with
  | nil => intro s; rfl
  | cons i l ih =>
    intro s
    rw [List.foldlM_cons, List.foldlM_cons, out_bind, h]
    congr 1
    funext a
    exact ih a

theorem ofIntLoop_out (i : Nat) : ∀ b : Big, (ofIntLoop b i).out = BigNum.ofIntLoop b i := by
  induction i using Nat.strongRecOn with
  | _ i ih =>
    intro b
    rw [ofIntLoop, BigNum.ofIntLoop]
    by_cases h : i = 0
    · rw [if_pos h, if_pos h]; rfl
    · rw [if_neg h, if_neg h, out_bind]
      refine congrArg _ (funext fun e => ?_)
      exact ih (i / 10) (by omega) _

theorem ofInt_out (N : Nat) (x : Int) : (ofInt N x).out = BigNum.ofInt N x := by
  unfold ofInt BigNum.ofInt
  rw [out_bind, out_block, Out.ok_bind, out_ite, ofIntLoop_out]
  rfl

theorem cmpLoop_out (a b : Big) : ∀ n, (cmpLoop a b n).out = BigNum.cmpLoop a b n := by
  intro n
  induction n with
  | zero => rfl
  | succ n ih =>
    rw [cmpLoop, BigNum.cmpLoop]
    simp only [out_bind, out_ite, out_free, out_get, out_use, Out.ok_bind, ih]

@[simp] theorem cmp_out (a b : Big) (q : Bool) : (cmp a b q).out = BigNum.cmp a b q := by
  unfold cmp BigNum.cmp
  simp only [out_ite, out_free, cmpLoop_out]

@[simp] theorem add_out (N : Nat) (a b : Big) : (add N a b).out = BigNum.add N a b := by
  unfold add BigNum.add
  simp only [out_bind, out_block, Out.ok_bind, out_get, out_free]
  rw [foldlM_out _ (BigNum.addCell a b) (fun s i => by
    unfold addCell BigNum.addCell
    simp only [out_bind, out_get, out_free, out_set])]
  refine congrArg _ (funext fun r => ?_)
  rw [foldlM_out _ BigNum.addCarry (fun s i => by
    unfold addCarry BigNum.addCarry
    simp only [out_bind, out_ite, out_get, out_free, out_set, out_put])]

theorem strip_out (r : Arr Int) : ∀ n, (strip r n).out = BigNum.strip r n := by
  intro n
  induction n with
  | zero => rfl
  | succ n ih =>
    rw [strip, BigNum.strip]
    simp only [out_bind, out_ite, out_free, out_get, ih]

@[simp] theorem sub_out (N : Nat) : ∀ (fuel : Nat) (a b : Big), (sub N fuel a b).out = BigNum.sub N fuel a b := by
  intro fuel
  induction fuel with
  | zero => intro a b; rfl
  | succ fuel ih =>
    intro a b
    rw [sub, BigNum.sub]
    simp only [out_bind, out_ite, out_zero, cmp_out, Out.ok_bind, out_free, out_assign, ih, strip_out]
    refine congrArg _ (funext fun c => ?_)
    split
    · rfl
    · rw [foldlM_out _ (BigNum.subCell a b) (fun s i => by
        unfold subCell BigNum.subCell
        simp only [out_bind, out_get, out_free, out_set])]
      refine congrArg _ (funext fun r => ?_)
      rw [foldlM_out _ BigNum.subBorrow (fun s i => by
        unfold subBorrow BigNum.subBorrow
        simp only [out_bind, out_ite, out_get, out_free, out_set, out_put])]

@[simp] theorem mul_out (N : Nat) (a b : Big) : (mul N a b).out = BigNum.mul N a b := by
  unfold mul BigNum.mul
  simp only [out_bind, out_block, Out.ok_bind, out_ite, out_get, out_free]
  split
  · rfl
  · rw [foldlM_out _ (fun ret i => (List.range b.len).foldlM (BigNum.mulCell a b i) ret) (fun s i => by
      refine foldlM_out _ _ (fun s j => ?_) _ _
      unfold mulCell BigNum.mulCell
      simp only [out_bind, out_get, out_free, out_put])]
    refine congrArg _ (funext fun r => ?_)
    rw [foldlM_out _ BigNum.mulCarry (fun s i => by
      unfold mulCarry BigNum.mulCarry
      simp only [out_bind, out_get, out_free, out_set, out_put])]

@[simp] theorem plusRaw_out (N fuel : Nat) (a b : Big) : (plusRaw N fuel a b).out = BigNum.plusRaw N fuel a b := by
  unfold plusRaw BigNum.plusRaw
  simp only [out_ite, add_out, sub_out]

@[simp] theorem minusRaw_out (N fuel : Nat) (a b : Big) : (minusRaw N fuel a b).out = BigNum.minusRaw N fuel a b := by
  unfold minusRaw BigNum.minusRaw
  simp only [out_ite, add_out, sub_out]

theorem plus_out (N fuel : Nat) (a b : Big) : (plus N fuel a b).out = BigNum.plus N fuel a b := by
  unfold plus BigNum.plus
  simp only [out_bind, out_zero, Out.ok_bind, plusRaw_out, out_assign]

theorem minus_out (N fuel : Nat) (a b : Big) : (minus N fuel a b).out = BigNum.minus N fuel a b := by
  unfold minus BigNum.minus
  simp only [out_bind, out_zero, Out.ok_bind, minusRaw_out, out_assign]

theorem plusAssign_out (N fuel : Nat) (a b : Big) : (plusAssign N fuel a b).out = BigNum.plusAssign N fuel a b := by
  unfold plusAssign BigNum.plusAssign
  simp only [out_bind, plusRaw_out, out_assign]

theorem minusAssign_out (N fuel : Nat) (a b : Big) : (minusAssign N fuel a b).out = BigNum.minusAssign N fuel a b := by
  unfold minusAssign BigNum.minusAssign
  simp only [out_bind, minusRaw_out, out_assign]

theorem plusAssignInt_out (N fuel : Nat) (a : Big) (x : Int) :
    (plusAssignInt N fuel a x).out = BigNum.plusAssignInt N fuel a x := by
  unfold plusAssignInt BigNum.plusAssignInt
  simp only [out_bind, ofInt_out, plusAssign_out]

/-! ### Bounds -/

/-- At most `A` uses of cells and `C` cells in bulk. -/
def Le (A C : Nat) (x : Job α) : Prop := x.cells ≤ A ∧ x.bulk ≤ C

theorem Le.seq {A C a c : Nat} {x : Job α} {f : α → Job β} (hx : Le a c x) (ha : a ≤ A) (hc : c ≤ C)
    (hf : ∀ y, x.out = .ok y → Le (A - a) (C - c) (f y)) : Le A C (x >>= f) := by
  show Le A C (Job.bind x f)
  obtain ⟨h1, h2⟩ := hx
  unfold Job.bind
  cases e : x.out with
  | ok y =>
    obtain ⟨k1, k2⟩ := hf y e
    exact ⟨show x.cells + (f y).cells ≤ A by omega, show x.bulk + (f y).bulk ≤ C by omega⟩
  | exit => exact ⟨show x.cells ≤ A by omega, show x.bulk ≤ C by omega⟩
  | ub => exact ⟨show x.cells ≤ A by omega, show x.bulk ≤ C by omega⟩
  | diverge => exact ⟨show x.cells ≤ A by omega, show x.bulk ≤ C by omega⟩

theorem Le.mono {A C a c : Nat} {x : Job α} (hx : Le a c x) (ha : a ≤ A) (hc : c ≤ C) : Le A C x :=
  ⟨hx.1.trans ha, hx.2.trans hc⟩

theorem le_free {A C : Nat} (x : Out α) : Le A C (free x) := ⟨Nat.zero_le _, Nat.zero_le _⟩
theorem le_use (n : Nat) : Le n 0 (use n) := ⟨le_refl _, le_refl _⟩
theorem le_block (n : Nat) : Le 0 n (block n) := ⟨le_refl _, le_refl _⟩
theorem le_get (a : Arr Int) (p : Int) : Le 1 0 (get a p) := ⟨le_refl _, le_refl _⟩
theorem le_set (a : Arr Int) (p v : Int) : Le 1 0 (set a p v) := ⟨le_refl _, le_refl _⟩
theorem le_put (a : Arr Int) (p v : Int) : Le 0 0 (put a p v) := ⟨le_refl _, le_refl _⟩

theorem le_foldlM {σ ι : Type} {f : σ → ι → Job σ} {k : Nat} (h : ∀ s i, Le k 0 (f s i)) :
    ∀ (l : List ι) (s : σ), Le (k * l.length) 0 (l.foldlM f s) := by
  intro l
  induction l with
  | nil => intro s; exact ⟨Nat.zero_le _, le_refl _⟩
  | cons i l ih =>
    intro s
    rw [List.foldlM_cons]
    have e : k * (i :: l).length = k * l.length + k := by rw [List.length_cons]; ring
    rw [e]
    exact Le.seq (h s i) (by omega) (le_refl _) fun y _ => (ih y).mono (by omega) (le_refl _)

theorem le_cmpLoop (a b : Big) : ∀ n, Le (2 * n + 2) 0 (cmpLoop a b n) := by
  intro n
  induction n with
  | zero => exact le_free _
  | succ n ih =>
    rw [cmpLoop]
    refine Le.seq (le_get _ _) (by omega) (le_refl _) fun x _ => ?_
    refine Le.seq (le_get _ _) (by omega) (le_refl _) fun y _ => ?_
    split
    · exact Le.seq (le_use 2) (by omega) (le_refl _) fun _ _ => le_free _
    · exact ih.mono (by omega) (le_refl _)

theorem le_cmp (a b : Big) (q : Bool) : Le (2 * min a.len b.len + 2) 0 (cmp a b q) := by
  unfold cmp
  split
  · exact le_free _
  · split
    · exact le_free _
    · rename_i h
      exact (le_cmpLoop a b a.len).mono (by omega) (le_refl _)

theorem le_addCell (a b : Big) (s : Arr Int) (i : Nat) : Le 3 0 (addCell a b s i) := by
  unfold addCell
  refine Le.seq (le_get _ _) (by omega) (le_refl _) fun x _ => ?_
  refine Le.seq (le_get _ _) (by omega) (le_refl _) fun y _ => ?_
  refine Le.seq (le_free (A := 0) (C := 0) _) (by omega) (le_refl _) fun z _ => le_set _ _ _

theorem le_addCarry (s : Arr Int) (i : Nat) : Le 3 0 (addCarry s i) := by
  unfold addCarry
  refine Le.seq (le_get _ _) (by omega) (le_refl _) fun x _ => ?_
  split
  · refine Le.seq (le_set _ _ _) (by omega) (le_refl _) fun r _ => ?_
    refine Le.seq (le_get _ _) (by omega) (le_refl _) fun y _ => ?_
    exact Le.seq (le_free (A := 0) (C := 0) _) (by omega) (le_refl _) fun z _ => le_put _ _ _
  · exact le_free _

theorem le_subCell (a b : Big) (s : Arr Int) (i : Nat) : Le 3 0 (subCell a b s i) := by
  unfold subCell
  refine Le.seq (le_get _ _) (by omega) (le_refl _) fun x _ => ?_
  refine Le.seq (le_get _ _) (by omega) (le_refl _) fun y _ => ?_
  refine Le.seq (le_free (A := 0) (C := 0) _) (by omega) (le_refl _) fun z _ => le_set _ _ _

theorem le_subBorrow (s : Arr Int) (i : Nat) : Le 3 0 (subBorrow s i) := by
  unfold subBorrow
  refine Le.seq (le_get _ _) (by omega) (le_refl _) fun x _ => ?_
  split
  · refine Le.seq (le_free (A := 0) (C := 0) _) (by omega) (le_refl _) fun r _ => ?_
    refine Le.seq (le_set _ _ _) (by omega) (le_refl _) fun r _ => ?_
    refine Le.seq (le_get _ _) (by omega) (le_refl _) fun y _ => ?_
    exact Le.seq (le_free (A := 0) (C := 0) _) (by omega) (le_refl _) fun z _ => le_put _ _ _
  · exact le_free _

theorem le_add (N : Nat) (a b : Big) : Le (6 * max a.len b.len + 1) N (add N a b) := by
  unfold add
  refine Le.seq (le_block N) (by omega) (le_refl _) fun _ _ => ?_
  have h1 := le_foldlM (le_addCell a b) (List.range (max a.len b.len)) (Arr.fill N 0)
  rw [List.length_range] at h1
  refine Le.seq h1 (by omega) (by omega) fun r _ => ?_
  have h2 := le_foldlM le_addCarry (List.range (max a.len b.len)) r
  rw [List.length_range] at h2
  refine Le.seq h2 (by omega) (by omega) fun r _ => ?_
  exact Le.seq (le_get _ _) (by omega) (by omega) fun _ _ => le_free _

theorem le_strip (r : Arr Int) : ∀ n, Le n 0 (strip r n) := by
  intro n
  induction n with
  | zero => exact le_free _
  | succ n ih =>
    rw [strip]
    refine Le.seq (le_get _ _) (by omega) (le_refl _) fun x _ => ?_
    split
    · exact ih.mono (by omega) (le_refl _)
    · exact le_free _

theorem strip_le (r : Arr Int) : ∀ n m, BigNum.strip r n = .ok m → m ≤ n := by
  intro n
  induction n with
  | zero => intro m h; rw [BigNum.strip] at h; cases h; exact le_refl _
  | succ n ih =>
    intro m h
    rw [BigNum.strip] at h
    obtain ⟨x, _, h⟩ := Out.bind_eq_ok.1 h
    split at h
    · exact (ih m h).trans (by omega)
    · cases h; exact le_refl _

/-- the part of `sub` after the comparison -/
theorem le_subDown (N : Nat) (a b : Big) : Le (7 * a.len) 0 (do
      let ret ← (List.range a.len).foldlM (subCell a b) (Arr.fill N 0)
      let ret ← (List.range a.len).foldlM subBorrow ret
      let len ← strip ret a.len
      free (.ok (⟨ret, len, 1⟩ : Big))) := by
  have h1 := le_foldlM (le_subCell a b) (List.range a.len) (Arr.fill N 0)
  rw [List.length_range] at h1
  refine Le.seq h1 (by omega) (by omega) fun r _ => ?_
  have h2 := le_foldlM le_subBorrow (List.range a.len) r
  rw [List.length_range] at h2
  refine Le.seq h2 (by omega) (by omega) fun r _ => ?_
  exact Le.seq (le_strip r a.len) (by omega) (by omega) fun _ _ => le_free _

/-- Two numbers each of which is "less" than the other keep `sub` busy for ever. -/
theorem sub_bounce {N : Nat} {a b : Big} {c d : Int} (h1 : BigNum.cmp a b true = .ok c) (hc : c < 0)
    (h2 : BigNum.cmp b a true = .ok d) (hd : d < 0) : ∀ fuel, BigNum.sub N fuel a b = .diverge ∧
      BigNum.sub N fuel b a = .diverge := by
  intro fuel
  induction fuel with
  | zero => exact ⟨rfl, rfl⟩
  | succ fuel ih =>
    rw [BigNum.sub, BigNum.sub, h1, h2, Out.ok_bind, Out.ok_bind, if_pos hc, if_pos hd, ih.1, ih.2]
    exact ⟨rfl, rfl⟩

theorem sub_len {N : Nat} : ∀ (fuel : Nat) (a b r : Big), BigNum.sub N fuel a b = .ok r → r.len ≤ max a.len b.len := by
  intro fuel
  induction fuel with
  | zero => intro a b r h; cases h
  | succ fuel ih =>
    intro a b r h
    rw [BigNum.sub] at h
    obtain ⟨c, _, h⟩ := Out.bind_eq_ok.1 h
    split at h
    · obtain ⟨r', e, h⟩ := Out.bind_eq_ok.1 h
      cases h
      have := ih b a r' e
      show r'.len ≤ _
      omega
    · obtain ⟨r1, _, h⟩ := Out.bind_eq_ok.1 h
      obtain ⟨r2, _, h⟩ := Out.bind_eq_ok.1 h
      obtain ⟨l, e, h⟩ := Out.bind_eq_ok.1 h
      cases h
      have := strip_le _ _ _ e
      show l ≤ _
      omega

theorem add_len {N : Nat} {a b r : Big} (h : BigNum.add N a b = .ok r) : r.len ≤ max a.len b.len + 1 := by
  unfold BigNum.add at h
  obtain ⟨r1, _, h⟩ := Out.bind_eq_ok.1 h
  obtain ⟨r2, _, h⟩ := Out.bind_eq_ok.1 h
  obtain ⟨l, e, h⟩ := Out.bind_eq_ok.1 h
  cases h
  show (if l ≠ 0 then _ else _) ≤ _
  split <;> omega

theorem le_sub_one (N fuel : Nat) (a b : Big) (h : ∀ c, BigNum.cmp a b true = .ok c → 0 ≤ c) :
    Le (9 * max a.len b.len + 2) N (sub N fuel a b) := by
  cases fuel with
  | zero => exact le_free _
  | succ fuel =>
    rw [sub]
    refine Le.seq (a := 0) (c := N) ?_ (by omega) (by omega) fun _ _ => ?_
    · exact Le.seq (le_block N) (by omega) (by omega) fun _ _ => le_free _
    refine Le.seq (le_cmp a b true) (by omega) (by omega) fun c hc => ?_
    rw [cmp_out] at hc
    rw [if_neg (by have := h c hc; omega)]
    exact (le_subDown N a b).mono (by omega) (by omega)

/-- A subtraction that comes to an end. -/
theorem le_sub {N fuel : Nat} {a b : Big} (hend : BigNum.sub N fuel a b ≠ .diverge) :
    Le (11 * max a.len b.len + 4) (2 * N + max a.len b.len) (sub N fuel a b) := by
  cases fuel with
  | zero => exact le_free _
  | succ fuel =>
    rw [sub]
    refine Le.seq (a := 0) (c := N) ?_ (by omega) (by omega) fun _ _ => ?_
    · exact Le.seq (le_block N) (by omega) (by omega) fun _ _ => le_free _
    refine Le.seq (le_cmp a b true) (by omega) (by omega) fun c hc => ?_
    rw [cmp_out] at hc
    split
    · rename_i hneg
      have : ∀ d, BigNum.cmp b a true = .ok d → 0 ≤ d := fun d hd => by
        by_contra hlt
        exact hend (sub_bounce hc hneg hd (by omega) _).1
      have hs := le_sub_one N fuel b a this
      refine Le.seq hs (by omega) (by omega) fun r hr => ?_
      rw [sub_out] at hr
      have hl := sub_len _ _ _ _ hr
      refine Le.seq (a := 0) (c := r.len) ?_ (by omega) (by omega) fun _ _ => le_free _
      exact Le.seq (le_block _) (by omega) (by omega) fun _ _ => le_free _
    · exact (le_subDown N a b).mono (by omega) (by omega)

theorem le_plusRaw {N fuel : Nat} {a b : Big} (hend : BigNum.plusRaw N fuel a b ≠ .diverge) :
    Le (11 * max a.len b.len + 4) (2 * N + max a.len b.len) (plusRaw N fuel a b) := by
  unfold BigNum.plusRaw at hend
  unfold plusRaw
  split
  · exact (le_add N a b).mono (by omega) (by omega)
  · rename_i h1
    rw [if_neg h1] at hend
    split
    · rename_i h2
      rw [if_pos h2] at hend
      exact (le_sub hend).mono (by omega) (by omega)
    · rename_i h2
      rw [if_neg h2] at hend
      exact le_sub hend

theorem le_minusRaw {N fuel : Nat} {a b : Big} (hend : BigNum.minusRaw N fuel a b ≠ .diverge) :
    Le (11 * max a.len b.len + 4) (2 * N + max a.len b.len) (minusRaw N fuel a b) := by
  unfold BigNum.minusRaw at hend
  unfold minusRaw
  split
  · rename_i h1
    rw [if_pos h1] at hend
    split
    · rename_i h2
      rw [if_pos h2] at hend
      exact (le_sub hend).mono (by omega) (by omega)
    · rename_i h2
      rw [if_neg h2] at hend
      exact le_sub hend
  · exact (le_add N a b).mono (by omega) (by omega)

theorem plusRaw_len {N fuel : Nat} {a b r : Big} (h : BigNum.plusRaw N fuel a b = .ok r) :
    r.len ≤ max a.len b.len + 1 := by
  unfold BigNum.plusRaw at h
  split at h
  · exact add_len h
  · split at h <;> · have := sub_len _ _ _ _ h; omega

theorem minusRaw_len {N fuel : Nat} {a b r : Big} (h : BigNum.minusRaw N fuel a b = .ok r) :
    r.len ≤ max a.len b.len + 1 := by
  unfold BigNum.minusRaw at h
  split at h
  · split at h <;> · have := sub_len _ _ _ _ h; omega
  · exact add_len h

theorem le_assign (a b : Big) : Le 0 b.len (assign a b) :=
  Le.seq (le_block _) (by omega) (by omega) fun _ _ => le_free _

theorem le_zero (N : Nat) : Le 0 N (zero N) := Le.seq (le_block _) (by omega) (by omega) fun _ _ => le_free _

/-! ### Exact counts -/

/-- If the outcome is a value then exactly `A` uses of cells and `C` cells in bulk. -/
def Ex (A C : Nat) (x : Job α) : Prop := ∀ y, x.out = .ok y → x.cells = A ∧ x.bulk = C

theorem Ex.seq {A C a c : Nat} {x : Job α} {f : α → Job β} (hx : Ex a c x) (ha : a ≤ A) (hc : c ≤ C)
    (hf : ∀ y, x.out = .ok y → Ex (A - a) (C - c) (f y)) : Ex A C (x >>= f) := by
  intro z hz
  show (Job.bind x f).cells = A ∧ (Job.bind x f).bulk = C
  rw [out_bind] at hz
  obtain ⟨y, e, hz⟩ := Out.bind_eq_ok.1 hz
  obtain ⟨h1, h2⟩ := hx y e
  obtain ⟨k1, k2⟩ := hf y e z hz
  unfold Job.bind
  rw [e]
  exact ⟨show x.cells + (f y).cells = A by omega, show x.bulk + (f y).bulk = C by omega⟩

theorem ex_of {A C : Nat} {x : Job α} (h1 : x.cells = A) (h2 : x.bulk = C) : Ex A C x := fun _ _ => ⟨h1, h2⟩

theorem ex_foldlM {σ ι : Type} {f : σ → ι → Job σ} {k : Nat} (h : ∀ s i, Ex k 0 (f s i)) :
    ∀ (l : List ι) (s : σ), Ex (k * l.length) 0 (l.foldlM f s) := by
  intro l
  induction l with
  | nil => intro s; exact ex_of rfl rfl
  | cons i l ih =>
    intro s
    rw [List.foldlM_cons]
    have e : k * (i :: l).length = k * l.length + k := by rw [List.length_cons]; ring
    rw [e]
    exact Ex.seq (h s i) (by omega) (le_refl _) fun y _ => by rw [Nat.add_sub_cancel]; exact ih y

theorem ex_mul (N : Nat) (a b : Big) (ha : 0 < a.len) (hb : 0 < b.len) :
    Ex (3 * (a.len * b.len) + 3 * (a.len + b.len - 1) + 1) N (mul N a b) := by
  unfold mul
  refine Ex.seq (ex_of (x := block N) (A := 0) (C := N) rfl rfl) (by omega) (le_refl _) fun _ _ => ?_
  rw [if_neg (by omega)]
  have h0 : ∀ s i, Ex (3 * b.len) 0 ((List.range b.len).foldlM (mulCell a b i) s) := fun s i => by
    have := ex_foldlM (f := mulCell a b i) (k := 3) (fun s j => by
      unfold mulCell
      refine Ex.seq (ex_of (x := get _ _) (A := 1) (C := 0) rfl rfl) (by omega) (le_refl _) fun x _ => ?_
      refine Ex.seq (ex_of (x := get _ _) (A := 1) (C := 0) rfl rfl) (by omega) (le_refl _) fun y _ => ?_
      refine Ex.seq (ex_of (x := free _) (A := 0) rfl rfl) (by omega) (le_refl _) fun p _ => ?_
      refine Ex.seq (ex_of (x := get _ _) (A := 1) (C := 0) rfl rfl) (by omega) (le_refl _) fun r _ => ?_
      refine Ex.seq (ex_of (x := free _) (A := 0) rfl rfl) (by omega) (le_refl _) fun z _ => ?_
      exact ex_of rfl rfl) (List.range b.len) s
    rw [List.length_range] at this
    exact this
  have h1 := ex_foldlM h0 (List.range a.len) (Arr.fill N 0)
  rw [List.length_range, show 3 * b.len * a.len = 3 * (a.len * b.len) by ring] at h1
  refine Ex.seq h1 (by omega) (by omega) fun r _ => ?_
  have h2 := ex_foldlM (f := mulCarry) (k := 3) (fun s i => by
    unfold mulCarry
    refine Ex.seq (ex_of (x := get _ _) (A := 1) (C := 0) rfl rfl) (by omega) (le_refl _) fun x _ => ?_
    refine Ex.seq (ex_of (x := get _ _) (A := 1) (C := 0) rfl rfl) (by omega) (le_refl _) fun y _ => ?_
    refine Ex.seq (ex_of (x := free _) (A := 0) rfl rfl) (by omega) (le_refl _) fun z _ => ?_
    refine Ex.seq (ex_of (x := put _ _ _) (A := 0) rfl rfl) (by omega) (le_refl _) fun r _ => ?_
    exact ex_of rfl rfl) (List.range (a.len + b.len - 1)) r
  rw [List.length_range] at h2
  refine Ex.seq h2 (by omega) (by omega) fun r _ => ?_
  refine Ex.seq (ex_of (x := get _ _) (A := 1) (C := 0) rfl rfl) (by omega) (by omega) fun _ _ => ?_
  exact ex_of (show 0 = _ by omega) (show 0 = _ by omega)

/-- Lower bounds for values: at least `A` uses of cells and exactly `C` cells in bulk. -/
def Ge (A C : Nat) (x : Job α) : Prop := ∀ y, x.out = .ok y → A ≤ x.cells ∧ x.bulk = C

theorem Ge.seq {A C a c : Nat} {x : Job α} {f : α → Job β} (hx : Ge a c x) (hc : c ≤ C)
    (hf : ∀ y, x.out = .ok y → Ge (A - a) (C - c) (f y)) : Ge A C (x >>= f) := by
  intro z hz
  show A ≤ (Job.bind x f).cells ∧ (Job.bind x f).bulk = C
  rw [out_bind] at hz
  obtain ⟨y, e, hz⟩ := Out.bind_eq_ok.1 hz
  obtain ⟨h1, h2⟩ := hx y e
  obtain ⟨k1, k2⟩ := hf y e z hz
  unfold Job.bind
  rw [e]
  exact ⟨show A ≤ x.cells + (f y).cells by omega, show x.bulk + (f y).bulk = C by omega⟩

theorem ge_of {A C : Nat} {x : Job α} (h1 : A ≤ x.cells) (h2 : x.bulk = C) : Ge A C x := fun _ _ => ⟨h1, h2⟩

theorem ge_foldlM {σ ι : Type} {f : σ → ι → Job σ} {k : Nat} (h : ∀ s i, Ge k 0 (f s i)) :
    ∀ (l : List ι) (s : σ), Ge (k * l.length) 0 (l.foldlM f s) := by
  intro l
  induction l with
  | nil => intro s; exact ge_of (le_refl _) rfl
  | cons i l ih =>
    intro s
    rw [List.foldlM_cons]
    have e : k * (i :: l).length = k * l.length + k := by rw [List.length_cons]; ring
    rw [e]
    exact Ge.seq (h s i) (le_refl _) fun y _ => by rw [Nat.add_sub_cancel]; exact ih y

theorem ge_add (N : Nat) (a b : Big) : Ge (4 * max a.len b.len + 1) N (add N a b) := by
  unfold add
  refine Ge.seq (ge_of (x := block N) (A := 0) (C := N) (Nat.zero_le _) rfl) (le_refl _) fun _ _ => ?_
  have h1 := ge_foldlM (f := addCell a b) (k := 3) (fun s i => by
    unfold addCell
    refine Ge.seq (ge_of (x := get _ _) (A := 1) (C := 0) (le_refl _) rfl) (le_refl _) fun x _ => ?_
    refine Ge.seq (ge_of (x := get _ _) (A := 1) (C := 0) (le_refl _) rfl) (le_refl _) fun y _ => ?_
    refine Ge.seq (ge_of (x := free _) (A := 0) (le_refl _) rfl) (le_refl _) fun z _ => ?_
    exact ge_of (le_refl _) rfl) (List.range (max a.len b.len)) (Arr.fill N 0)
  rw [List.length_range] at h1
  refine Ge.seq h1 (by omega) fun r _ => ?_
  have h2 := ge_foldlM (f := addCarry) (k := 1) (fun s i => by
    unfold addCarry
    refine Ge.seq (ge_of (x := get _ _) (A := 1) (C := 0) (le_refl _) rfl) (le_refl _) fun x _ => ?_
    split
    · refine Ge.seq (ge_of (x := set _ _ _) (A := 0) (Nat.zero_le _) rfl) (le_refl _) fun r _ => ?_
      refine Ge.seq (ge_of (x := get _ _) (A := 0) (Nat.zero_le _) rfl) (le_refl _) fun y _ => ?_
      refine Ge.seq (ge_of (x := free _) (A := 0) (le_refl _) rfl) (le_refl _) fun y _ => ?_
      exact ge_of (le_refl _) rfl
    · exact ge_of (le_refl _) rfl) (List.range (max a.len b.len)) r
  rw [List.length_range] at h2
  refine Ge.seq h2 (by omega) fun r _ => ?_
  refine Ge.seq (ge_of (x := get _ _) (A := 1) (C := 0) (le_refl _) rfl) (by omega) fun _ _ => ?_
  exact ge_of (show _ ≤ 0 by omega) (show 0 = _ by omega)

/-! ### Digits -/

open BigNum.Spec in
theorem len_digits {N : Nat} {b : Big} (h : Valid N b) : b.len = digits (val b) := by
  have e : (val b).natAbs = (mag b).toNat := by
    have := mag_nonneg h
    rw [val_eq]
    rcases h.sign with s | s <;> rw [s] <;> omega
  rw [digits, e, ← text_dec h, text_length]

end BigNum.Work
