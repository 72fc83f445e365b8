import Verif.Proof.FloatVector
import Verif.Proof.GeometryRange
import Verif.Spec.DoubleLarge

/-! # Vectors of doubles in texts with a number out of range: lemmas for C168 -/

set_option exponentiation.threshold 2000

namespace Stream
open Cpp Spec
open Json (F64)

theorem round_large {x : ℚ} (h : 10 ^ 309 ≤ x) : Dbl.round x = .inf false :=
  Geo.round_huge ((by norm_num : (2 : ℚ) ^ 1024 ≤ 10 ^ 309).trans h)

theorem readLoopD_large (fuel : Nat) (b : Str) (x : RItem) (hx : x.Large) (c : Byte) (hc : c = byte ',' ∨ c = byte '}') (t : Str)
    (d : Byte) (vec : List F64) :
    (d = byte ',' → readLoopD (fuel + 2) ⟨b, x.text ++ c :: t, false, false⟩ (some d) vec = .ub) ∧
    (d ≠ byte ',' → d ≠ byte '}' → readLoopD (fuel + 2) ⟨b, x.text ++ c :: t, false, false⟩ (some d) vec = .exit) := by
  obtain ⟨h1, h2, h3, h4⟩ := hx
  have e : x.text ++ c :: t = x.pre ++ (x.lit.text ++ (x.post ++ c :: t)) := by simp [RItem.text]
  have hne : decide (x.post ++ c :: t = []) = false := by simp
  rw [readLoopD, e, getDouble_lit b h1 h2 (ends_ws h3 hc t)]
  simp only [use, Out.ok_bind, hne, round_large h4]
  constructor
  · rintro rfl
    simp [IStream.getChar, IStream.sentry, readLoopD, IStream.getDouble, use, brace_facts.2.2.2.2.1]
  · intro g1 g2
    simp [IStream.getChar, IStream.sentry, g1, g2]

theorem readLoopD_items_large (xs : List RItem) (hx : ∀ x ∈ xs, x.Ok) (y : RItem) (hy : y.Large) (c : Byte)
    (hc : c = byte ',' ∨ c = byte '}') (t : Str) :
    ∀ (fuel : Nat) (_ : xs.length + 2 ≤ fuel) (b : Str) (vec : List F64),
    readLoopD fuel ⟨b, rcommas (xs ++ [y]) ++ c :: t, false, false⟩ (some (byte ',')) vec = .ub := by
  induction xs with
  | nil =>
    intro fuel hf b vec
    obtain ⟨fuel, rfl⟩ : ∃ f, fuel = f + 2 := ⟨fuel - 2, by simp at hf; omega⟩
    exact (readLoopD_large fuel b y hy c hc t _ vec).1 rfl
  | cons x xs ih =>
    intro fuel hf b vec
    obtain ⟨fuel, rfl⟩ : ∃ f, fuel = f + 1 := ⟨fuel - 1, by simp at hf; omega⟩
    have hr : rcommas (x :: xs ++ [y]) = x.text ++ byte ',' :: rcommas (xs ++ [y]) := by
      cases xs <;> rfl
    rw [hr, List.append_assoc, List.cons_append, readLoopD_item fuel b x (hx x (by simp)) _ (.inl rfl),
      if_neg brace_facts.2.2.2.2.1]
    exact ih (fun z hz => hx z (by simp [hz])) fuel (by simp at hf ⊢; omega) _ _

theorem readVectorD_large (a : Str) (ha : Ws a) (xs : List RItem) (hx : ∀ x ∈ xs, x.Ok) (y : RItem) (hy : y.Large) (c : Byte)
    (hc : c = byte ',' ∨ c = byte '}') (t : Str) :
    readVectorD { rest := a ++ byte '{' :: (rcommas (xs ++ [y]) ++ c :: t) } = if xs = [] then .exit else .ub := by
  cases xs with
  | nil =>
    rw [if_pos rfl]
    obtain ⟨d, u, e, h1, h2⟩ := lit_cons hy.2.1
    obtain ⟨d', u', e', -, h3⟩ := lit_cons_comma hy.2.1
    obtain ⟨rfl, rfl⟩ := List.cons.inj (e.symm.trans e')
    have h4 := (readLoopD_large (d :: (u ++ (y.post ++ c :: t))).length (y.pre.reverse ++ (byte '{' :: (a.reverse ++ [])))
      { y with pre := [] } ⟨by simp [Ws], hy.2⟩ c hc t d []).2 h3 h2
    have h5 : ({ y with pre := [] } : RItem).text ++ c :: t = d :: (u ++ (y.post ++ c :: t)) := by simp [RItem.text, e]
    have h6 : rcommas ([] ++ [y]) ++ c :: t = y.pre ++ d :: (u ++ (y.post ++ c :: t)) := by simp [rcommas, RItem.text, e]
    rw [h5] at h4
    rw [← h4, h6]
    unfold readVectorD
    rw [getChar_good [] ha brace_facts.2.2.2.2.2.1]
    simp only [use, Out.ok_bind]
    rw [if_neg (by simp), getChar_good _ hy.1 h1]
    simp only [Out.ok_bind]
    rw [if_pos h2]
    rfl
  | cons x xs =>
    rw [if_neg (by simp)]
    have hx0 := hx x (by simp)
    obtain ⟨ch, n, hn, e⟩ := readVectorD_start [] a ha x (xs ++ [y]) hx0 (c :: t)
    have hok : ∀ z ∈ xs, z.Ok := fun z hz => hx z (by simp [hz])
    have hlen : (xs ++ [y]).length ≤ (rcommas (xs ++ [y])).length := by
      clear hn e hx
      induction xs with
      | nil =>
        obtain ⟨d, u, e, -⟩ := lit_cons hy.2.1
        simp [rcommas, RItem.text, e]; omega
      | cons z zs ih =>
        have hr : rcommas (z :: zs ++ [y]) = z.text ++ byte ',' :: rcommas (zs ++ [y]) := by cases zs <;> rfl
        rw [hr]
        have := ih fun w hw => hok w (by simp [hw])
        simp at this ⊢
        omega
    have hr : rcommas (({ x with pre := [] } : RItem) :: (xs ++ [y])) =
        ({ x with pre := [] } : RItem).text ++ byte ',' :: rcommas (xs ++ [y]) := by cases xs <;> rfl
    have hr' : (rcommas (x :: (xs ++ [y]))).length = x.pre.length + (({ x with pre := [] } : RItem).text.length + (1 + (rcommas (xs ++ [y])).length)) := by
      rw [rcommas_pre, hr]; simp; omega
    have hn' : xs.length + 2 ≤ n + 1 := by
      rw [List.length_append, hr'] at hn
      simp at hn hlen
      omega
    rw [List.cons_append, e, hr, List.append_assoc, List.cons_append,
      readLoopD_item (n + 1) _ { x with pre := [] } ⟨by simp [Ws], hx0.2⟩ _ (.inl rfl), if_neg brace_facts.2.2.2.2.1]
    exact readLoopD_items_large xs hok y hy c hc t _ hn' _ _

/-! ## nothing to read behind a comma -/

theorem collect_none {c : Byte} {u : Str} (h : NoNumber (c :: u)) : collect (c :: u) = ⟨[], [], [], [], [], [], []⟩ := by
  obtain ⟨-, h2, h3, h4, h5⟩ := h c (by simp)
  have hd : Json.isDigit c = false := by
    rw [Bool.eq_false_iff]
    intro hc
    rw [Json.isDigit, decide_eq_true_eq] at hc
    exact h2 hc
  simp [collect, one, isSign, hd, h3, h4, h5]

theorem readLoopD_missing (fuel : Nat) (b w t : Str) (hw : Ws w) (ht : NoNumber t) (vec : List F64) :
    readLoopD (fuel + 2) ⟨b, w ++ t, false, false⟩ (some (byte ',')) vec = .ub := by
  cases t with
  | nil =>
    rw [readLoopD, List.append_nil]
    simp [IStream.getDouble, sentry_end b hw, use]
  | cons c u =>
    have hs := sentry_good (t := c :: u) b hw ⟨c, by simp, by
      by_contra hc
      exact (ht c (by simp)).1 fun d hd => by
        rw [List.mem_singleton] at hd
        subst hd
        exact (isWs_iff _).1 (by simpa using hc)⟩
    rw [readLoopD]
    unfold IStream.getDouble
    rw [hs]
    simp only [if_true, collect_none ht, Chars.all, Chars.valid]
    simp [IStream.take, IStream.getChar, IStream.sentry, use, readLoopD, IStream.getDouble, brace_facts.2.2.2.2.1]

theorem readLoopD_items_missing (w t : Str) (hw : Ws w) (ht : NoNumber t) (xs : List RItem) (hne : xs ≠ [])
    (hx : ∀ x ∈ xs, x.Ok) : ∀ (fuel : Nat) (_ : xs.length + 2 ≤ fuel) (b : Str) (ch : Option Byte) (vec : List F64),
    readLoopD fuel ⟨b, rcommas xs ++ byte ',' :: (w ++ t), false, false⟩ ch vec = .ub := by
  induction xs with
  | nil => exact absurd rfl hne
  | cons x xs ih =>
    intro fuel hf b ch vec
    obtain ⟨fuel, rfl⟩ : ∃ f, fuel = f + 3 := ⟨fuel - 3, by simp at hf; omega⟩
    cases xs with
    | nil =>
      rw [show rcommas [x] = x.text from rfl, readLoopD_item (fuel + 2) b x (hx x (by simp)) _ (.inl rfl),
        if_neg brace_facts.2.2.2.2.1]
      exact readLoopD_missing fuel _ w t hw ht _
    | cons y ys =>
      rw [show rcommas (x :: y :: ys) = x.text ++ byte ',' :: rcommas (y :: ys) from rfl, List.append_assoc, List.cons_append,
        readLoopD_item (fuel + 2) b x (hx x (by simp)) _ (.inl rfl), if_neg brace_facts.2.2.2.2.1]
      exact ih (by simp) (fun z hz => hx z (by simp [hz])) _ (by simp at hf ⊢; omega) _ _ _

theorem readVectorD_missing (a : Str) (ha : Ws a) (xs : List RItem) (hne : xs ≠ []) (h : ∀ x ∈ xs, x.Ok) (w t : Str) (hw : Ws w)
    (ht : NoNumber t) : readVectorD { rest := a ++ byte '{' :: (rcommas xs ++ byte ',' :: (w ++ t)) } = .ub := by
  obtain ⟨x, xs, rfl⟩ := List.exists_cons_of_ne_nil hne
  have hx := h x (by simp)
  obtain ⟨ch, n, hn, e⟩ := readVectorD_start [] a ha x xs hx (byte ',' :: (w ++ t))
  have hok : ∀ y ∈ ({ x with pre := [] } : RItem) :: xs, y.Ok := by
    intro y hy
    rw [List.mem_cons] at hy
    rcases hy with rfl | hy
    · exact ⟨by simp [Ws], hx.2⟩
    · exact h y (by simp [hy])
  have hlen := rcommas_length _ hok
  have hn' : (({ x with pre := [] } : RItem) :: xs).length + 2 ≤ n + 2 := by
    rw [rcommas_pre] at hn
    simp at hn hlen ⊢
    omega
  rw [e]
  exact readLoopD_items_missing w t hw ht _ (by simp) hok (n + 2) hn' _ _ _

theorem readLoopF_missing (fuel : Nat) (b w t : Str) (hw : Ws w) (ht : NoNumber t) (vec : List F64) :
    readLoopF (fuel + 2) ⟨b, w ++ t, false, false⟩ (some (byte ',')) vec = .ub := by
  cases t with
  | nil =>
    rw [readLoopF, List.append_nil]
    simp [IStream.getFloat, sentry_end b hw, use]
  | cons c u =>
    have hs := sentry_good (t := c :: u) b hw ⟨c, by simp, by
      by_contra hc
      exact (ht c (by simp)).1 fun d hd => by
        rw [List.mem_singleton] at hd
        subst hd
        exact (isWs_iff _).1 (by simpa using hc)⟩
    rw [readLoopF]
    unfold IStream.getFloat
    rw [hs]
    simp only [if_true, collect_none ht, Chars.all, Chars.valid]
    simp [IStream.take, IStream.getChar, IStream.sentry, use, readLoopF, IStream.getFloat, brace_facts.2.2.2.2.1]

theorem readLoopF_items_missing (w t : Str) (hw : Ws w) (ht : NoNumber t) (xs : List RItem) (hne : xs ≠ [])
    (hx : ∀ x ∈ xs, x.OkF) : ∀ (fuel : Nat) (_ : xs.length + 2 ≤ fuel) (b : Str) (ch : Option Byte) (vec : List F64),
    readLoopF fuel ⟨b, rcommas xs ++ byte ',' :: (w ++ t), false, false⟩ ch vec = .ub := by
  induction xs with
  | nil => exact absurd rfl hne
  | cons x xs ih =>
    intro fuel hf b ch vec
    obtain ⟨fuel, rfl⟩ : ∃ f, fuel = f + 3 := ⟨fuel - 3, by simp at hf; omega⟩
    cases xs with
    | nil =>
      rw [show rcommas [x] = x.text from rfl, readLoopF_item (fuel + 2) b x (hx x (by simp)) _ (.inl rfl),
        if_neg brace_facts.2.2.2.2.1]
      exact readLoopF_missing fuel _ w t hw ht _
    | cons y ys =>
      rw [show rcommas (x :: y :: ys) = x.text ++ byte ',' :: rcommas (y :: ys) from rfl, List.append_assoc, List.cons_append,
        readLoopF_item (fuel + 2) b x (hx x (by simp)) _ (.inl rfl), if_neg brace_facts.2.2.2.2.1]
      exact ih (by simp) (fun z hz => hx z (by simp [hz])) _ (by simp at hf ⊢; omega) _ _ _

theorem readVectorF_missing (a : Str) (ha : Ws a) (xs : List RItem) (hne : xs ≠ []) (h : ∀ x ∈ xs, x.OkF) (w t : Str) (hw : Ws w)
    (ht : NoNumber t) : readVectorF { rest := a ++ byte '{' :: (rcommas xs ++ byte ',' :: (w ++ t)) } = .ub := by
  obtain ⟨x, xs, rfl⟩ := List.exists_cons_of_ne_nil hne
  have hx := h x (by simp)
  obtain ⟨ch, n, hn, e⟩ := readVectorF_start [] a ha x xs hx (byte ',' :: (w ++ t))
  have hok : ∀ y ∈ ({ x with pre := [] } : RItem) :: xs, y.OkF := by
    intro y hy
    rw [List.mem_cons] at hy
    rcases hy with rfl | hy
    · exact ⟨by simp [Ws], hx.2⟩
    · exact h y (by simp [hy])
  have hlen := rcommas_length _ fun y hy => (hok y hy).ok
  have hn' : (({ x with pre := [] } : RItem) :: xs).length + 2 ≤ n + 2 := by
    rw [rcommas_pre] at hn
    simp at hn hlen ⊢
    omega
  rw [e]
  exact readLoopF_items_missing w t hw ht _ (by simp) hok (n + 2) hn' _ _ _

end Stream
