import Verif.Proof.FloatVector
import Verif.Proof.StreamBad

/-! # Texts that are read as a vector of numbers begin with one: lemmas for C168 and C195 -/

set_option exponentiation.threshold 2000

namespace Stream
open Cpp Spec
open Json (F64)

theorem one_prefix (p : Byte → Bool) (s : Str) : one p s <+: s := by
  unfold one
  cases s with
  | nil => simp
  | cons c s => by_cases h : p c <;> simp [h]

theorem one_cases (p : Byte → Bool) (s : Str) : one p s = [] ∨ ∃ c, one p s = [c] ∧ p c = true := by
  unfold one
  cases s with
  | nil => simp
  | cons c s => by_cases h : p c <;> simp [h]

theorem prefix_cut {x s : Str} (h : x <+: s) : s = x ++ s.drop x.length := (List.prefix_iff_eq_append.1 h).symm

theorem sign_option (s : Str) : ∃ o, signText o = one isSign s := by
  rcases one_cases isSign s with h | ⟨c, h, hc⟩
  · exact ⟨none, by rw [h]; rfl⟩
  · rw [isSign, decide_eq_true_eq] at hc
    rcases hc with rfl | rfl
    · exact ⟨some true, by rw [h]; rfl⟩
    · exact ⟨some false, by rw [h]; rfl⟩

theorem digits_take (s : Str) : ∀ c ∈ s.takeWhile Json.isDigit, 48 ≤ c ∧ c ≤ 57 :=
  fun c hc => (Json.digit_iff c).1 (List.mem_takeWhile_imp hc)

theorem collect_cut (s : Str) : ∃ t, s = (collect s).all ++ t := by
  unfold collect Chars.all
  dsimp only
  set sign := one isSign s with h1
  set s1 := s.drop sign.length with e1
  set int := s1.takeWhile Json.isDigit with h2
  set s2 := s1.drop int.length with e2
  set point := one (fun c => decide (c = byte '.')) s2 with h3
  set s3 := s2.drop point.length with e3
  set frac := (if point = [] then [] else s3.takeWhile Json.isDigit) with h4
  set s4 := s3.drop frac.length with e4
  set e := (if int = [] ∧ frac = [] then [] else one (fun c => decide (c = byte 'e' ∨ c = byte 'E')) s4) with h5
  set s5 := s4.drop e.length with e5
  set esign := (if e = [] then [] else one isSign s5) with h6
  set s6 := s5.drop esign.length with e6
  set exp := (if e = [] then [] else s6.takeWhile Json.isDigit) with h7
  have a1 : s = sign ++ s1 := prefix_cut (one_prefix _ _)
  have a2 : s1 = int ++ s2 := prefix_cut (List.takeWhile_prefix _)
  have a3 : s2 = point ++ s3 := prefix_cut (one_prefix _ _)
  have a4 : s3 = frac ++ s4 := prefix_cut (by
    rw [h4]; split
    · simp
    · exact List.takeWhile_prefix _)
  have a5 : s4 = e ++ s5 := prefix_cut (by
    rw [h5]; split
    · simp
    · exact one_prefix _ _)
  have a6 : s5 = esign ++ s6 := prefix_cut (by
    rw [h6]; split
    · simp
    · exact one_prefix _ _)
  have a7 : s6 = exp ++ s6.drop exp.length := prefix_cut (by
    rw [h7]; split
    · simp
    · exact List.takeWhile_prefix _)
  refine ⟨s6.drop exp.length, ?_⟩
  rw [List.append_assoc, ← a7, List.append_assoc, ← a6, List.append_assoc, ← a5, List.append_assoc, ← a4, List.append_assoc, ← a3,
    List.append_assoc, ← a2, ← a1]

/-- accepted characters are those of a number -/
theorem collect_valid (s : Str) (h : (collect s).valid = true) : ∃ l : Lit, l.Ok ∧ Lit.chars l = collect s := by
  rw [Chars.valid, decide_eq_true_eq] at h
  unfold collect at h ⊢
  dsimp only at h ⊢
  set sign := one isSign s with h1
  set s1 := s.drop sign.length with e1
  set int := s1.takeWhile Json.isDigit with h2
  set s2 := s1.drop int.length with e2
  set point := one (fun c => decide (c = byte '.')) s2 with h3
  set s3 := s2.drop point.length with e3
  set frac := (if point = [] then [] else s3.takeWhile Json.isDigit) with h4
  set s4 := s3.drop frac.length with e4
  set e := (if int = [] ∧ frac = [] then [] else one (fun c => decide (c = byte 'e' ∨ c = byte 'E')) s4) with h5
  set s5 := s4.drop e.length with e5
  set esign := (if e = [] then [] else one isSign s5) with h6
  set s6 := s5.drop esign.length with e6
  set exp := (if e = [] then [] else s6.takeWhile Json.isDigit) with h7
  obtain ⟨o, ho⟩ := sign_option s
  obtain ⟨o', ho'⟩ := sign_option s5
  have hint : ∀ c ∈ int, 48 ≤ c ∧ c ≤ 57 := digits_take _
  have hfrac : ∀ c ∈ frac, 48 ≤ c ∧ c ≤ 57 := by
    rw [h4]; split
    · simp
    · exact digits_take _
  have hpoint : (if decide (point ≠ []) = true then [byte '.'] else []) = point := by
    rcases one_cases (fun c => decide (c = byte '.')) s2 with hp | ⟨c, hp, hc⟩
    · rw [← h3] at hp; rw [hp]; simp
    · rw [← h3] at hp
      rw [decide_eq_true_eq] at hc
      rw [hp, hc]; simp
  have hfp : frac ≠ [] → decide (point ≠ []) = true := by
    intro hf
    rw [decide_eq_true_eq]
    intro hp
    exact hf (by rw [h4, if_pos hp])
  have he : e = [] ∨ ∃ c, e = [c] ∧ (c = byte 'e' ∨ c = byte 'E') := by
    rw [h5]; split
    · simp
    · rcases one_cases (fun c => decide (c = byte 'e' ∨ c = byte 'E')) s4 with hp | ⟨c, hp, hc⟩
      · exact .inl hp
      · exact .inr ⟨c, hp, by simpa using hc⟩
  rcases he with he | ⟨c, he, hc⟩
  · refine ⟨⟨o, int, decide (point ≠ []), frac, none⟩, ⟨?_, h.1, hfp, by simp⟩, ?_⟩
    · intro c hc
      rcases List.mem_append.1 hc with hc | hc
      · exact hint c hc
      · exact hfrac c hc
    · simp only [Lit.chars, ho, hpoint, h6, h7, he, if_true, ← h1]
  · have hne : e ≠ [] := by rw [he]; simp
    have hexp : Digits exp := by
      refine ⟨h.2.resolve_left hne, ?_⟩
      rw [h7, if_neg hne]
      exact digits_take _
    refine ⟨⟨o, int, decide (point ≠ []), frac, some (c, o', exp)⟩, ⟨?_, h.1, hfp, ?_⟩, ?_⟩
    · intro c hc
      rcases List.mem_append.1 hc with hc | hc
      · exact hint c hc
      · exact hfrac c hc
    · intro x hx
      simp only [Option.mem_def, Option.some.injEq] at hx
      subst hx
      exact ⟨hc, hexp⟩
    · have : signText o' = esign := by rw [ho', h6, if_neg hne]
      simp only [Lit.chars, ho, hpoint, he, this, ← h1]

/-- reading a number: it fails, or the text begins with a number -/
theorem getDouble_cases (b r : Str) :
    (IStream.getDouble ⟨b, r, false, false⟩ none).2.fail = true ∨
    ∃ (w : Str) (l : Lit) (t : Str), r = w ++ (l.text ++ t) ∧ Ws w ∧ l.Ok ∧
      IStream.getDouble ⟨b, r, false, false⟩ none =
        (some (readLit l), ⟨l.text.reverse ++ (w.reverse ++ b), t, decide (t = []), false⟩) := by
  obtain ⟨w, r', rfl, hw, hr⟩ := cut_ws r
  cases hr' : r' with
  | nil =>
    left
    rw [List.append_nil, IStream.getDouble, sentry_end b hw]
    rfl
  | cons c u =>
    rw [← hr']
    have hc : isWs c = false := hr c (by rw [hr']; simp)
    by_cases hv : (collect r').valid = true
    · obtain ⟨l, hl, e⟩ := collect_valid r' hv
      obtain ⟨t, ht⟩ := collect_cut r'
      rw [← e, chars_all] at ht
      unfold IStream.getDouble
      rw [sentry_good b hw ⟨c, by rw [hr']; simp, hc⟩]
      simp only [if_true, ← e, chars_all, chars_valid hl, chars_value, chars_neg]
      cases hd : Dbl.round |l.value| with
      | fin q =>
        right
        have hm : Json.readMag |l.value| = q := by unfold Json.readMag; rw [hd]
        refine ⟨w, l, t, congrArg (w ++ ·) ht, hw, hl, ?_⟩
        unfold readLit
        rw [hm]
        simp only [ht, take_pre]
      | _ => left; simp
    · left
      unfold IStream.getDouble
      rw [sentry_good b hw ⟨c, by rw [hr']; simp, hc⟩]
      simp only [if_true, hv]
      rfl

/-- a stream that failed is of no use to the loop -/
theorem readLoopD_failed (fuel : Nat) (is : IStream) (ch : Option Byte) (hch : ch ≠ some (byte '}')) (vec : List F64)
    (h : (is.getDouble none).2.fail = true) (v : List F64) (st : IStream) : readLoopD (fuel + 1) is ch vec ≠ .ok (v, st) := by
  intro he
  rw [readLoopD] at he
  rcases hp : is.getDouble none with ⟨value, is'⟩
  rw [hp] at h he
  dsimp only at h he
  have hg : is'.getChar ch = (ch, is') := by
    rw [IStream.getChar, IStream.sentry, h, Bool.or_true, if_pos rfl]
    simp only [Bool.false_eq_true, if_false]
    cases is'
    simp_all
  rw [hg] at he
  cases value with
  | none => simp [use] at he
  | some d =>
    simp only [use, Out.ok_bind] at he
    split at he
    · cases he
    · cases ch with
      | none => cases he
      | some c =>
        simp only [Out.ok_bind] at he
        rw [if_neg (fun hc => hch (by rw [hc]))] at he
        split at he
        · cases he
        · cases fuel with
          | zero => cases he
          | succ f =>
            rw [readLoopD] at he
            have : is'.getDouble none = (none, is') := by
              rw [IStream.getDouble, IStream.sentry, h, Bool.or_true, if_pos rfl]
              simp only [Bool.false_eq_true, if_false]
              cases is'
              simp_all
            rw [this] at he
            cases he

theorem readLoopD_only : ∀ (fuel : Nat) (b r : Str) (ch : Option Byte) (_ : ch ≠ some (byte '}')) (vec v : List F64) (st : IStream),
    readLoopD fuel ⟨b, r, false, false⟩ ch vec = .ok (v, st) →
    ∃ (xs : List RItem) (t : Str), xs ≠ [] ∧ (∀ x ∈ xs, Ws x.pre ∧ x.lit.Ok ∧ Ws x.post) ∧ r = rcommas xs ++ byte '}' :: t ∧
      v = vec ++ xs.map (fun x => readLit x.lit) ∧ st = ⟨byte '}' :: ((rcommas xs).reverse ++ b), t, false, false⟩ := by
  intro fuel
  induction fuel with
  | zero => intro b r ch _ vec v st h; cases h
  | succ fuel ih =>
    intro b r ch hch vec v st h
    rcases getDouble_cases b r with hf | ⟨w, l, t, rfl, hw, hl, e⟩
    · exact absurd h (readLoopD_failed fuel _ ch hch vec hf v st)
    rw [readLoopD, e] at h
    simp only [use, Out.ok_bind] at h
    by_cases ht : t = []
    · subst ht
      simp [IStream.getChar, IStream.sentry] at h
    rw [decide_eq_false ht] at h
    obtain ⟨p, t', rfl, hp, ht'⟩ := cut_ws t
    cases t' with
    | nil =>
      rw [List.append_nil, IStream.getChar, sentry_end _ hp] at h
      simp at h
    | cons c u =>
      rw [getChar_good _ hp (ht' c (by simp))] at h
      simp only [Out.ok_bind, Bool.false_eq_true, if_false] at h
      by_cases h1 : c = byte '}'
      · subst h1
        rw [if_pos rfl] at h
        cases h
        exact ⟨[⟨w, l, p⟩], u, by simp, by simpa using ⟨hw, hl, hp⟩, by simp [rcommas, RItem.text], by simp,
          by simp [rcommas, RItem.text]⟩
      · rw [if_neg h1] at h
        by_cases h2 : c = byte ','
        · subst h2
          rw [if_neg (by simp)] at h
          obtain ⟨xs, t2, hne, hx, hr, hv, hst⟩ := ih _ _ _ (by simp; decide) _ _ _ h
          obtain ⟨y, ys, rfl⟩ := List.exists_cons_of_ne_nil hne
          refine ⟨⟨w, l, p⟩ :: y :: ys, t2, by simp, ?_, ?_, ?_, ?_⟩
          · intro x hx'
            rw [List.mem_cons] at hx'
            rcases hx' with rfl | hx'
            · exact ⟨hw, hl, hp⟩
            · exact hx x hx'
          · rw [hr]; simp [rcommas, RItem.text]
          · rw [hv]; simp
          · rw [hst]; simp [rcommas, RItem.text]
        · rw [if_pos h2] at h
          cases h

/-- a text that is read begins with a vector -/
theorem readVectorD_only (s : Str) (v : List F64) (st : IStream) (h : readVectorD { rest := s } = .ok (v, st)) :
    (∃ a b t, Ws a ∧ Ws b ∧ s = a ++ byte '{' :: (b ++ byte '}' :: t) ∧ v = [] ∧
      st = ⟨(a ++ byte '{' :: (b ++ [byte '}'])).reverse, t, false, false⟩) ∨
    ∃ (a : Str) (xs : List RItem) (t : Str), Ws a ∧ xs ≠ [] ∧ (∀ x ∈ xs, Ws x.pre ∧ x.lit.Ok ∧ Ws x.post) ∧
      s = a ++ byte '{' :: (rcommas xs ++ byte '}' :: t) ∧ v = xs.map (fun x => readLit x.lit) ∧
      st = ⟨(a ++ byte '{' :: (rcommas xs ++ [byte '}'])).reverse, t, false, false⟩ := by
  obtain ⟨a, s', rfl, ha, hs⟩ := cut_ws s
  cases s' with
  | nil =>
    rw [List.append_nil, readVectorD, IStream.getChar, sentry_end [] ha] at h
    cases h
  | cons c0 s' =>
    rw [readVectorD, getChar_good [] ha (hs c0 (by simp))] at h
    simp only [use, Out.ok_bind] at h
    by_cases hb : c0 = byte '{'
    swap
    · rw [if_pos hb] at h; cases h
    subst hb
    rw [if_neg (by simp)] at h
    obtain ⟨w, r, rfl, hw, hr⟩ := cut_ws s'
    cases r with
    | nil =>
      have hg : ∀ b, IStream.getChar ⟨b, w ++ [], false, false⟩ (some (byte '{')) = (some (byte '{'), ⟨w.reverse ++ b, [], true, true⟩) := by
        intro b
        rw [List.append_nil, IStream.getChar, sentry_end b hw]
        rfl
      rw [hg] at h
      simp only [Out.ok_bind] at h
      rw [if_pos (by decide)] at h
      exfalso
      exact readLoopD_failed _ _ _ (by decide) [] (by
        simp [IStream.getDouble, IStream.sentry, IStream.unget]) v st h
    | cons c r =>
      rw [getChar_good _ hw (hr c (by simp))] at h
      simp only [Out.ok_bind] at h
      by_cases h1 : c = byte '}'
      · subst h1
        rw [if_neg (by simp)] at h
        cases h
        exact .inl ⟨a, w, r, ha, hw, rfl, rfl, by simp⟩
      · rw [if_pos h1] at h
        obtain ⟨xs, t, hne, hx, hr', hv, hst⟩ := readLoopD_only _ _ _ _ (by simpa using h1) _ _ _ h
        obtain ⟨x, xs, rfl⟩ := List.exists_cons_of_ne_nil hne
        have hr2 : c :: r = rcommas (x :: xs) ++ byte '}' :: t := hr'
        have e : rcommas ({ x with pre := w ++ x.pre } :: xs) = w ++ rcommas (x :: xs) := by
          cases xs <;> simp [rcommas, RItem.text]
        refine .inr ⟨a, { x with pre := w ++ x.pre } :: xs, t, ha, by simp, ?_, ?_, by simpa using hv, ?_⟩
        · intro y hy
          rw [List.mem_cons] at hy
          rcases hy with rfl | hy
          · refine ⟨?_, (hx x (by simp)).2⟩
            intro d hd
            rcases List.mem_append.1 hd with hd | hd
            · exact hw d hd
            · exact (hx x (by simp)).1 d hd
          · exact hx y (by simp [hy])
        · rw [hr2, e]; simp
        · rw [hst, e]; simp

/-- reading a number: it fails, or the text begins with a number -/
theorem getFloat_cases (b r : Str) :
    (IStream.getFloat ⟨b, r, false, false⟩ none).2.fail = true ∨
    ∃ (w : Str) (l : Lit) (t : Str), r = w ++ (l.text ++ t) ∧ Ws w ∧ l.Ok ∧
      IStream.getFloat ⟨b, r, false, false⟩ none =
        (some (readLit32 l), ⟨l.text.reverse ++ (w.reverse ++ b), t, decide (t = []), false⟩) := by
  obtain ⟨w, r', rfl, hw, hr⟩ := cut_ws r
  cases hr' : r' with
  | nil =>
    left
    rw [List.append_nil, IStream.getFloat, sentry_end b hw]
    rfl
  | cons c u =>
    rw [← hr']
    have hc : isWs c = false := hr c (by rw [hr']; simp)
    by_cases hv : (collect r').valid = true
    · obtain ⟨l, hl, e⟩ := collect_valid r' hv
      obtain ⟨t, ht⟩ := collect_cut r'
      rw [← e, chars_all] at ht
      unfold IStream.getFloat
      rw [sentry_good b hw ⟨c, by rw [hr']; simp, hc⟩]
      simp only [if_true, ← e, chars_all, chars_valid hl, chars_value, chars_neg]
      by_cases hd : 2 ^ 128 ≤ Json.flt32 |l.value|
      · left
        rw [if_pos hd]
      · right
        refine ⟨w, l, t, by rw [ht], hw, hl, ?_⟩
        rw [if_neg hd, ht]
        simp [readLit32, readMag32, hd, IStream.take]
    · left
      unfold IStream.getFloat
      rw [sentry_good b hw ⟨c, by rw [hr']; simp, hc⟩]
      simp only [if_true, hv]
      rfl

/-- a stream that failed is of no use to the loop -/
theorem readLoopF_failed (fuel : Nat) (is : IStream) (ch : Option Byte) (hch : ch ≠ some (byte '}')) (vec : List F64)
    (h : (is.getFloat none).2.fail = true) (v : List F64) (st : IStream) : readLoopF (fuel + 1) is ch vec ≠ .ok (v, st) := by
  intro he
  rw [readLoopF] at he
  rcases hp : is.getFloat none with ⟨value, is'⟩
  rw [hp] at h he
  dsimp only at h he
  have hg : is'.getChar ch = (ch, is') := by
    rw [IStream.getChar, IStream.sentry, h, Bool.or_true, if_pos rfl]
    simp only [Bool.false_eq_true, if_false]
    cases is'
    simp_all
  rw [hg] at he
  cases value with
  | none => simp [use] at he
  | some d =>
    simp only [use, Out.ok_bind] at he
    split at he
    · cases he
    · cases ch with
      | none => cases he
      | some c =>
        simp only [Out.ok_bind] at he
        rw [if_neg (fun hc => hch (by rw [hc]))] at he
        split at he
        · cases he
        · cases fuel with
          | zero => cases he
          | succ f =>
            rw [readLoopF] at he
            have : is'.getFloat none = (none, is') := by
              rw [IStream.getFloat, IStream.sentry, h, Bool.or_true, if_pos rfl]
              simp only [Bool.false_eq_true, if_false]
              cases is'
              simp_all
            rw [this] at he
            cases he

theorem readLoopF_only : ∀ (fuel : Nat) (b r : Str) (ch : Option Byte) (_ : ch ≠ some (byte '}')) (vec v : List F64) (st : IStream),
    readLoopF fuel ⟨b, r, false, false⟩ ch vec = .ok (v, st) →
    ∃ (xs : List RItem) (t : Str), xs ≠ [] ∧ (∀ x ∈ xs, Ws x.pre ∧ x.lit.Ok ∧ Ws x.post) ∧ r = rcommas xs ++ byte '}' :: t ∧
      v = vec ++ xs.map (fun x => readLit32 x.lit) ∧ st = ⟨byte '}' :: ((rcommas xs).reverse ++ b), t, false, false⟩ := by
  intro fuel
  induction fuel with
  | zero => intro b r ch _ vec v st h; cases h
  | succ fuel ih =>
    intro b r ch hch vec v st h
    rcases getFloat_cases b r with hf | ⟨w, l, t, rfl, hw, hl, e⟩
    · exact absurd h (readLoopF_failed fuel _ ch hch vec hf v st)
    rw [readLoopF, e] at h
    simp only [use, Out.ok_bind] at h
    by_cases ht : t = []
    · subst ht
      simp [IStream.getChar, IStream.sentry] at h
    rw [decide_eq_false ht] at h
    obtain ⟨p, t', rfl, hp, ht'⟩ := cut_ws t
    cases t' with
    | nil =>
      rw [List.append_nil, IStream.getChar, sentry_end _ hp] at h
      simp at h
    | cons c u =>
      rw [getChar_good _ hp (ht' c (by simp))] at h
      simp only [Out.ok_bind, Bool.false_eq_true, if_false] at h
      by_cases h1 : c = byte '}'
      · subst h1
        rw [if_pos rfl] at h
        cases h
        exact ⟨[⟨w, l, p⟩], u, by simp, by simpa using ⟨hw, hl, hp⟩, by simp [rcommas, RItem.text], by simp,
          by simp [rcommas, RItem.text]⟩
      · rw [if_neg h1] at h
        by_cases h2 : c = byte ','
        · subst h2
          rw [if_neg (by simp)] at h
          obtain ⟨xs, t2, hne, hx, hr, hv, hst⟩ := ih _ _ _ (by simp; decide) _ _ _ h
          obtain ⟨y, ys, rfl⟩ := List.exists_cons_of_ne_nil hne
          refine ⟨⟨w, l, p⟩ :: y :: ys, t2, by simp, ?_, ?_, ?_, ?_⟩
          · intro x hx'
            rw [List.mem_cons] at hx'
            rcases hx' with rfl | hx'
            · exact ⟨hw, hl, hp⟩
            · exact hx x hx'
          · rw [hr]; simp [rcommas, RItem.text]
          · rw [hv]; simp
          · rw [hst]; simp [rcommas, RItem.text]
        · rw [if_pos h2] at h
          cases h

/-- a text that is read begins with a vector -/
theorem readVectorF_only (s : Str) (v : List F64) (st : IStream) (h : readVectorF { rest := s } = .ok (v, st)) :
    (∃ a b t, Ws a ∧ Ws b ∧ s = a ++ byte '{' :: (b ++ byte '}' :: t) ∧ v = [] ∧
      st = ⟨(a ++ byte '{' :: (b ++ [byte '}'])).reverse, t, false, false⟩) ∨
    ∃ (a : Str) (xs : List RItem) (t : Str), Ws a ∧ xs ≠ [] ∧ (∀ x ∈ xs, Ws x.pre ∧ x.lit.Ok ∧ Ws x.post) ∧
      s = a ++ byte '{' :: (rcommas xs ++ byte '}' :: t) ∧ v = xs.map (fun x => readLit32 x.lit) ∧
      st = ⟨(a ++ byte '{' :: (rcommas xs ++ [byte '}'])).reverse, t, false, false⟩ := by
  obtain ⟨a, s', rfl, ha, hs⟩ := cut_ws s
  cases s' with
  | nil =>
    rw [List.append_nil, readVectorF, IStream.getChar, sentry_end [] ha] at h
    cases h
  | cons c0 s' =>
    rw [readVectorF, getChar_good [] ha (hs c0 (by simp))] at h
    simp only [use, Out.ok_bind] at h
    by_cases hb : c0 = byte '{'
    swap
    · rw [if_pos hb] at h; cases h
    subst hb
    rw [if_neg (by simp)] at h
    obtain ⟨w, r, rfl, hw, hr⟩ := cut_ws s'
    cases r with
    | nil =>
      have hg : ∀ b, IStream.getChar ⟨b, w ++ [], false, false⟩ (some (byte '{')) = (some (byte '{'), ⟨w.reverse ++ b, [], true, true⟩) := by
        intro b
        rw [List.append_nil, IStream.getChar, sentry_end b hw]
        rfl
      rw [hg] at h
      simp only [Out.ok_bind] at h
      rw [if_pos (by decide)] at h
      exfalso
      exact readLoopF_failed _ _ _ (by decide) [] (by
        simp [IStream.getFloat, IStream.sentry, IStream.unget]) v st h
    | cons c r =>
      rw [getChar_good _ hw (hr c (by simp))] at h
      simp only [Out.ok_bind] at h
      by_cases h1 : c = byte '}'
      · subst h1
        rw [if_neg (by simp)] at h
        cases h
        exact .inl ⟨a, w, r, ha, hw, rfl, rfl, by simp⟩
      · rw [if_pos h1] at h
        obtain ⟨xs, t, hne, hx, hr', hv, hst⟩ := readLoopF_only _ _ _ _ (by simpa using h1) _ _ _ h
        obtain ⟨x, xs, rfl⟩ := List.exists_cons_of_ne_nil hne
        have hr2 : c :: r = rcommas (x :: xs) ++ byte '}' :: t := hr'
        have e : rcommas ({ x with pre := w ++ x.pre } :: xs) = w ++ rcommas (x :: xs) := by
          cases xs <;> simp [rcommas, RItem.text]
        refine .inr ⟨a, { x with pre := w ++ x.pre } :: xs, t, ha, by simp, ?_, ?_, by simpa using hv, ?_⟩
        · intro y hy
          rw [List.mem_cons] at hy
          rcases hy with rfl | hy
          · refine ⟨?_, (hx x (by simp)).2⟩
            intro d hd
            rcases List.mem_append.1 hd with hd | hd
            · exact hw d hd
            · exact (hx x (by simp)).1 d hd
          · exact hx y (by simp [hy])
        · rw [hr2, e]; simp
        · rw [hst, e]; simp

end Stream
