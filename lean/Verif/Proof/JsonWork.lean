import Verif.Model.JsonWork
import Verif.Spec.JsonWork
import Verif.Proof.JsonTotal
import Mathlib.Tactic.Linarith

/-! # Lemmas for the work of `loadJSON` -/

namespace Json.Work
open Cpp Json.Work.Spec

namespace Job
variable {α β : Type}

theorem out_bind (x : Job α) (f : α → Job β) : (x >>= f).out = x.out >>= fun a => (f a).out := by
  change (Job.bind x f).out = _
  unfold Job.bind
  cases h : x.out <;> rfl

theorem out_ite (c : Prop) [Decidable c] (x y : Job α) : (if c then x else y).out = if c then x.out else y.out := by
  split <;> rfl

@[simp] theorem out_free (x : Out α) : (free x).out = x := rfl
@[simp] theorem out_rd (s : Str) (i : Nat) : (rd s i).out = strAt s i := rfl
@[simp] theorem out_copied (n : Nat) : (copied n).out = .ok () := rfl
@[simp] theorem out_sub (s : Str) (i n : Nat) : (sub s i n).out = .ok ((s.drop i).take n) := rfl

end Job

/-! ## Without the counters -/

theorem skipGo_out (str : Str) : ∀ f off, (skipGo str f off).out = Json.skipGo str f off := by
  intro f
  induction f with
  | zero => intro off; rfl
  | succ f ih =>
    intro off
    unfold skipGo Json.skipGo
    simp only [Job.out_bind, Job.out_ite, ih, Job.out_rd, Job.out_free]

theorem skip_out (str : Str) (off : Nat) : (skip str off).out = Json.skip str off := skipGo_out str _ _

theorem hexGo_out (str : Str) : ∀ n off, (hexGo str n off).out = Json.hexGo str n off := by
  intro n
  induction n with
  | zero => intro off; rfl
  | succ n ih =>
    intro off
    unfold hexGo Json.hexGo
    simp only [Job.out_bind, Job.out_ite, ih, Job.out_rd, Job.out_free]

theorem stringGo_out (str : Str) : ∀ f off val, (stringGo str f off val).out = Json.stringGo str f off val := by
  intro f
  induction f with
  | zero => intro off val; rfl
  | succ f ih =>
    intro off val
    unfold stringGo Json.stringGo
    simp only [Job.out_bind, Job.out_ite, ih, Job.out_rd, Job.out_free, hexGo_out]

theorem parseString_out (str : Str) (off : Nat) : (parseString str off).out = Json.parseString str off := by
  unfold parseString Json.parseString
  simp only [Job.out_bind, stringGo_out, Job.out_free, Job.out_copied, Out.ok_bind]

theorem numGo_out (str : Str) : ∀ f off val b, (numGo str f off val b).out = Json.numGo str f off val b := by
  intro f
  induction f with
  | zero => intro off val b; rfl
  | succ f ih =>
    intro off val b
    unfold numGo Json.numGo
    simp only [Job.out_bind, Job.out_ite, ih, Job.out_rd, Job.out_free]

theorem expGo_out (str : Str) : ∀ f off e, (expGo str f off e).out = Json.expGo str f off e := by
  intro f
  induction f with
  | zero => intro off e; rfl
  | succ f ih =>
    intro off e
    unfold expGo Json.expGo
    simp only [Job.out_bind, Job.out_ite, ih, Job.out_rd, Job.out_free]

theorem parseNumber_out (str : Str) (off : Nat) : (parseNumber str off).out = Json.parseNumber str off := by
  unfold parseNumber Json.parseNumber
  simp only [Job.out_bind, Job.out_ite, numGo_out, expGo_out, Job.out_rd, Job.out_free, Job.out_copied, Out.ok_bind]

theorem parseBool_out (str : Str) (off : Nat) : (parseBool str off).out = Json.parseBool str off := by
  unfold parseBool Json.parseBool
  simp only [Job.out_bind, Job.out_ite, Job.out_free, Job.out_copied, Job.out_sub, Out.ok_bind]

theorem parseNull_out (str : Str) (off : Nat) : (parseNull str off).out = Json.parseNull str off := by
  unfold parseNull Json.parseNull
  simp only [Job.out_bind, Job.out_ite, Job.out_free, Job.out_sub, Out.ok_bind]

theorem again {α : Type} (s : Str) (i : Int) (p : Byte → Prop) [DecidablePred p] (x : Byte → Out α) (y : Byte → Byte → Out α) :
    (strAt s i >>= fun c => if p c then x c else strAt s i >>= fun c' => y c c') =
      strAt s i >>= fun c => if p c then x c else y c c := by
  cases h : strAt s i <;> rfl

theorem parse_out (str : Str) : ∀ f,
    (∀ off, (parseNext str f off).out = Json.parseNext str f off) ∧
    (∀ off, (arrLoop str f off).out = Json.arrLoop str f off) ∧
    ∀ off m, (objLoop str f off m).out = Json.objLoop str f off m := by
  intro f
  induction f with
  | zero => exact ⟨fun _ => rfl, fun _ => rfl, fun _ _ => rfl⟩
  | succ f ih =>
    obtain ⟨ih1, ih2, ih3⟩ := ih
    refine ⟨fun off => ?_, fun off => ?_, fun off m => ?_⟩
    · unfold parseNext Json.parseNext
      simp only [Job.out_bind, Job.out_ite, Job.out_free, Job.out_rd, skip_out, ih2, ih3, parseString_out, parseNumber_out,
        parseBool_out, parseNull_out]
    · unfold arrLoop Json.arrLoop
      simp only [Job.out_bind, Job.out_ite, Job.out_free, Job.out_rd, skip_out, ih2, ih1]
      refine congrArg _ (funext fun a => congrArg _ (funext fun o => ?_))
      cases h : strAt str o <;> simp
    · unfold objLoop Json.objLoop
      simp only [Job.out_bind, Job.out_ite, Job.out_free, Job.out_rd, Job.out_copied, skip_out, ih1, ih3, Out.ok_bind]
      refine congrArg _ (funext fun a => congrArg _ (funext fun o => ?_))
      cases h : strAt str o with
      | ok c =>
        simp only [Out.ok_bind]
        split
        · rfl
        · refine congrArg _ (funext fun o => congrArg _ (funext fun o => congrArg _ (funext fun o => ?_)))
          cases h : strAt str o <;> simp
      | _ => rfl

theorem loadJSON_out (str : Str) : (loadJSON str).out = Json.loadJSON str := by
  unfold loadJSON Json.loadJSON
  simp only [Job.out_bind, (parse_out str _).1, Job.out_free]

/-! ## The counters -/

/-- From the counters `R`, `C` before: `P` on the result and the counters after it; otherwise the counters stay below bounds that
only depend on the length `n` of the text. -/
def Run {α : Type} (n R C : Nat) (P : α → Nat → Nat → Prop) (w : Job α) : Prop :=
  match w.out with
  | .ok a => P a (R + w.reads) (C + w.copies)
  | _ => R + w.reads ≤ 4 * n + 16 ∧ C + w.copies ≤ (n + 2) ^ 2

section
variable {α β : Type} {n R C : Nat} {P : α → Nat → Nat → Prop} {Q : β → Nat → Nat → Prop}

theorem Run.bind {x : Job α} {f : α → Job β} (hx : Run n R C P x) (hf : ∀ a R' C', P a R' C' → Run n R' C' Q (f a)) :
    Run n R C Q (x >>= f) := by
  change Run n R C Q (Job.bind x f)
  unfold Run at hx
  unfold Job.bind
  cases h : x.out with
  | ok a =>
    rw [h] at hx
    have := hf _ _ _ hx
    unfold Run at this ⊢
    simp only at this ⊢
    cases h' : (f a).out <;> simp only [h', Nat.add_assoc] at this ⊢ <;> exact this
  | _ => rw [h] at hx; exact hx

theorem Run.ok {a : α} (h : P a R C) : Run n R C P (free (.ok a)) := h

theorem Run.free {x : Out α} (hR : R ≤ 4 * n + 16) (hC : C ≤ (n + 2) ^ 2) (h : ∀ a, x = .ok a → P a R C) :
    Run n R C P (free x) := by
  cases x with
  | ok a => exact h a rfl
  | _ => exact ⟨hR, hC⟩

theorem Run.weaken {P' : α → Nat → Nat → Prop} {w : Job α} (h : Run n R C P w) (hP : ∀ a r c, P a r c → P' a r c) :
    Run n R C P' w := by
  unfold Run at h ⊢
  cases h' : w.out <;> simp only [h'] at h ⊢
  · exact hP _ _ _ h
  all_goals exact h

theorem Run.rd {str : Str} {i : Nat} (hR : R + 1 ≤ 4 * str.length + 16) (hC : C ≤ (str.length + 2) ^ 2) :
    Run str.length R C (fun c r k => strAt str i = .ok c ∧ i ≤ str.length ∧ r = R + 1 ∧ C = k) (rd str i) := by
  unfold Run
  cases h : strAt str i with
  | ok c =>
    simp only [Job.out_rd, h]
    exact ⟨trivial, strAt_le h, rfl, rfl⟩
  | _ => simp only [Job.out_rd, h]; exact ⟨hR, hC⟩

theorem Run.copied {P : Unit → Nat → Nat → Prop} {k : Nat} (h : P () R (C + k)) : Run n R C P (copied k) := h

theorem Run.sub {str : Str} {i k : Nat} {P : Str → Nat → Nat → Prop}
    (h : ∀ s, s = (str.drop i).take k → P s (R + s.length) C) : Run n R C P (sub str i k) := h _ rfl

end

theorem skipGo_run {str : Str} {C : Nat} (hC : C ≤ (str.length + 2) ^ 2) : ∀ f R off, R ≤ 4 * off + 8 → off ≤ str.length + 1 →
    Run str.length R C (fun o r k => off ≤ o ∧ o ≤ str.length ∧ r = R + (o - off) + 1 ∧ C = k) (skipGo str f off) := by
  intro f
  induction f with
  | zero => intro R off h h'; exact ⟨show R ≤ _ by omega, hC⟩
  | succ f ih =>
    intro R off h h'
    unfold skipGo
    refine Run.bind (Run.rd (by omega) hC) ?_
    rintro c _ _ ⟨-, hi, rfl, rfl⟩
    refine Run.bind (Run.free (P := fun _ r k => r = R + 1 ∧ C = k) (by omega) hC fun _ _ => ⟨rfl, rfl⟩) ?_
    rintro b _ _ ⟨rfl, rfl⟩
    split
    · refine (ih (R + 1) (off + 1) (by omega) (by omega)).weaken ?_
      rintro o r k ⟨h1, h2, h3, h4⟩
      exact ⟨by omega, h2, by omega, h4⟩
    · exact Run.ok ⟨Nat.le_refl _, hi, by omega, rfl⟩

theorem skip_run {str : Str} {C R off : Nat} (hC : C ≤ (str.length + 2) ^ 2) (h : R ≤ 4 * off + 8) (h' : off ≤ str.length + 1) :
    Run str.length R C (fun o r k => off ≤ o ∧ o ≤ str.length ∧ r = R + (o - off) + 1 ∧ C = k) (skip str off) :=
  skipGo_run hC _ _ _ h h'

theorem hexGo_run {str : Str} {C : Nat} (hC : C ≤ (str.length + 2) ^ 2) : ∀ n R off, R ≤ 4 * off + 8 → off ≤ str.length + 1 →
    Run str.length R C (fun _ r k => r = R + n ∧ off + n ≤ str.length + 1 ∧ C = k) (hexGo str n off) := by
  intro n
  induction n with
  | zero => intro R off _ h; exact Run.ok ⟨rfl, h, rfl⟩
  | succ n ih =>
    intro R off h h'
    unfold hexGo
    refine Run.bind (Run.rd (by omega) hC) ?_
    rintro c _ _ ⟨-, hi, rfl, rfl⟩
    split
    · refine Run.bind (ih (R + 1) (off + 1) (by omega) (by omega)) ?_
      rintro s r k ⟨h1, h2, h3⟩
      exact Run.ok ⟨by omega, by omega, h3⟩
    · exact Run.free (by omega) hC (by simp)

theorem stringGo_run {str : Str} {C : Nat} (hC : C ≤ (str.length + 2) ^ 2) : ∀ f R off val, R ≤ 4 * off + 8 →
    off ≤ str.length + 1 →
    Run str.length R C (fun p r k => off + 1 ≤ p.2 ∧ p.2 ≤ str.length + 1 ∧ r = R + (p.2 - off) ∧ C = k)
      (stringGo str f off val) := by
  intro f
  induction f with
  | zero => intro R off val h h'; exact ⟨show R ≤ _ by omega, hC⟩
  | succ f ih =>
    intro R off val h h'
    unfold stringGo
    refine Run.bind (Run.rd (by omega) hC) ?_
    rintro c _ _ ⟨-, hi, rfl, rfl⟩
    split
    · exact Run.ok ⟨Nat.le_refl _, by simpa using hi, by simp, rfl⟩
    · split
      · refine Run.bind (Run.rd (by omega) hC) ?_
        rintro e _ _ ⟨-, hi, rfl, rfl⟩
        split
        · refine Run.bind (hexGo_run hC 4 _ (off + 2) (by omega) (by omega)) ?_
          rintro s r k ⟨rfl, h2, rfl⟩
          refine (ih _ (off + 6) _ (by omega) (by omega)).weaken ?_
          rintro o r k ⟨h1, h2, h3, h4⟩
          exact ⟨by omega, h2, by omega, h4⟩
        · refine (ih _ (off + 2) _ (by omega) (by omega)).weaken ?_
          rintro o r k ⟨h1, h2, h3, h4⟩
          exact ⟨by omega, h2, by omega, h4⟩
      · refine (ih _ (off + 1) _ (by omega) (by omega)).weaken ?_
        rintro o r k ⟨h1, h2, h3, h4⟩
        exact ⟨by omega, h2, by omega, h4⟩

theorem numGo_run {str : Str} {C : Nat} (hC : C ≤ (str.length + 2) ^ 2) : ∀ f R off val b, R ≤ 4 * off + 8 →
    off ≤ str.length + 1 →
    Run str.length R C (fun p r k => off + 1 ≤ p.2.2.2 ∧ p.2.2.2 ≤ str.length + 1 ∧ r = R + (p.2.2.2 - off) ∧ C = k ∧
      ∀ c, strAt str off = .ok c → isDigit c ∨ c = byte '-' → off + 2 ≤ p.2.2.2) (numGo str f off val b) := by
  intro f
  induction f with
  | zero => intro R off val b h h'; exact ⟨show R ≤ _ by omega, hC⟩
  | succ f ih =>
    intro R off val b h h'
    unfold numGo
    refine Run.bind (Run.rd (by omega) hC) ?_
    rintro c _ _ ⟨hc, hi, rfl, rfl⟩
    split
    · refine (ih _ (off + 1) _ _ (by omega) (by omega)).weaken ?_
      rintro o r k ⟨h1, h2, h3, h4, -⟩
      exact ⟨by omega, h2, by omega, h4, fun _ _ _ => by omega⟩
    · rename_i hn
      split
      · refine (ih _ (off + 1) _ _ (by omega) (by omega)).weaken ?_
        rintro o r k ⟨h1, h2, h3, h4, -⟩
        exact ⟨by omega, h2, by omega, h4, fun _ _ _ => by omega⟩
      · refine Run.ok ⟨Nat.le_refl _, by simpa using hi, by simp, rfl, fun c' h1 h2 => ?_⟩
        rw [hc] at h1
        cases h1
        exact absurd h2.symm hn

theorem expGo_run {str : Str} {C : Nat} (hC : C ≤ (str.length + 2) ^ 2) : ∀ f R off e, R ≤ 4 * off + 8 →
    off ≤ str.length + 1 →
    Run str.length R C (fun p r k => off ≤ p.2.2 ∧ p.2.2 ≤ str.length ∧ r = R + (p.2.2 - off) + 1 ∧ C = k)
      (expGo str f off e) := by
  intro f
  induction f with
  | zero => intro R off e h h'; exact ⟨show R ≤ _ by omega, hC⟩
  | succ f ih =>
    intro R off e h h'
    unfold expGo
    refine Run.bind (Run.rd (by omega) hC) ?_
    rintro c _ _ ⟨hc, hi, rfl, rfl⟩
    split
    · refine (ih _ (off + 1) _ (by omega) (by omega)).weaken ?_
      rintro o r k ⟨h1, h2, h3, h4⟩
      exact ⟨by omega, h2, by omega, h4⟩
    · refine Run.bind (Run.free (P := fun _ r k => r = R + 1 ∧ C = k) (by omega) hC fun _ _ => ⟨rfl, rfl⟩) ?_
      rintro b _ _ ⟨rfl, rfl⟩
      split
      · exact Run.free (by omega) hC (by simp)
      · exact Run.ok ⟨Nat.le_refl _, hi, by simp, rfl⟩

/-- What `parse_next` returns. -/
def Post (n off C : Nat) (p : Value × Nat) (r k : Nat) : Prop :=
  r ≤ 4 * p.2 ∧ p.2 ≤ n + 1 ∧ k ≤ p.2 ^ 2 ∧ ∃ d : Doc, d.value = p.1 ∧ k = C + d.copies ∧ off + d.parts ≤ p.2 ∧ off + d.parts ≤ n

theorem sq_succ {C off o : Nat} (h : C ≤ off ^ 2) (ho : off + 1 ≤ o) : C + 1 ≤ o ^ 2 := by
  nlinarith

theorem sq_part {k o o' : Nat} (h : k ≤ o ^ 2 + o) (ho : o + 1 ≤ o') : k ≤ o' ^ 2 :=
  Nat.le_trans h (Nat.le_trans (by nlinarith) (Nat.pow_le_pow_left ho 2))

theorem sq_mono {C off o : Nat} (h : C ≤ off ^ 2) (ho : off ≤ o) : C ≤ o ^ 2 := by
  nlinarith

theorem parseString_run {str : Str} {C R off : Nat} (hC : C ≤ off ^ 2) (hR : R ≤ 4 * off + 2) (h : off < str.length) :
    Run str.length R C (Post str.length off C) (parseString str off) := by
  unfold parseString
  refine Run.bind (stringGo_run (sq_mono hC (by omega)) _ _ _ _ (by omega) (by omega)) ?_
  rintro ⟨val, o⟩ r k ⟨h1, h2, h3, rfl⟩
  simp only at h1 h2 h3 ⊢
  refine Run.bind (Run.copied (P := fun _ r' k' => r = r' ∧ k' = C + 1) ⟨rfl, rfl⟩) ?_
  rintro _ _ _ ⟨rfl, rfl⟩
  exact Run.ok ⟨by simp only; omega, h2, sq_succ hC (by simp only; omega), .str val, rfl, rfl, by simp [Doc.parts]; omega,
    by simp [Doc.parts]; omega⟩

theorem take_length {str s : Str} {off k : Nat} (h : (str.drop off).take k = s) (hs : s.length = k) (hk : 0 < k) :
    off + k ≤ str.length := by
  have := congrArg List.length h
  rw [hs] at this
  simp at this
  omega

theorem parseBool_run {str : Str} {C R off : Nat} (hC : C ≤ off ^ 2) (hR : R ≤ 4 * off + 2) (h : off < str.length) :
    Run str.length R C (Post str.length off C) (parseBool str off) := by
  have hC2 : C ≤ (str.length + 2) ^ 2 := sq_mono hC (by omega)
  unfold parseBool
  refine Run.bind (Run.sub (P := fun s r k => s = (str.drop off).take 4 ∧ r ≤ R + 4 ∧ C = k) ?_) ?_
  · rintro s rfl; exact ⟨rfl, by simp, rfl⟩
  rintro s r _ ⟨hs, hr, rfl⟩
  split
  · rename_i e
    have := take_length (hs.symm.trans e) rfl (by decide)
    refine Run.bind (Run.copied (P := fun _ r' k' => r = r' ∧ k' = C + 1) ⟨rfl, rfl⟩) ?_
    rintro _ _ _ ⟨rfl, rfl⟩
    exact Run.ok ⟨by simp only; omega, by simp only; omega, sq_succ hC (by simp only; omega), .bool true, rfl, rfl,
      by simp [Doc.parts], by simp [Doc.parts]; omega⟩
  · refine Run.bind (Run.sub (P := fun s r k => s = (str.drop off).take 5 ∧ r ≤ R + 9 ∧ C = k) ?_) ?_
    · rintro s rfl; exact ⟨rfl, by simp; omega, rfl⟩
    rintro s r _ ⟨hs, hr, rfl⟩
    split
    · rename_i e
      have := take_length (hs.symm.trans e) rfl (by decide)
      refine Run.bind (Run.copied (P := fun _ r' k' => r = r' ∧ k' = C + 1) ⟨rfl, rfl⟩) ?_
      rintro _ _ _ ⟨rfl, rfl⟩
      exact Run.ok ⟨by simp only; omega, by simp only; omega, sq_succ hC (by simp only; omega), .bool false, rfl, rfl,
        by simp [Doc.parts], by simp [Doc.parts]; omega⟩
    · refine Run.bind (Run.sub (P := fun s r k => r ≤ R + 14 ∧ C = k) ?_) ?_
      · rintro s rfl; exact ⟨by simp; omega, rfl⟩
      rintro s r _ ⟨hr, rfl⟩
      exact Run.free (by omega) hC2 (by simp)

theorem parseNull_run {str : Str} {C R off : Nat} (hC : C ≤ off ^ 2) (hR : R ≤ 4 * off + 2) (h : off < str.length) :
    Run str.length R C (Post str.length off C) (parseNull str off) := by
  have hC2 : C ≤ (str.length + 2) ^ 2 := sq_mono hC (by omega)
  unfold parseNull
  refine Run.bind (Run.sub (P := fun s r k => s = (str.drop off).take 4 ∧ r ≤ R + 4 ∧ C = k) ?_) ?_
  · rintro s rfl; exact ⟨rfl, by simp, rfl⟩
  rintro s r _ ⟨hs, hr, rfl⟩
  split
  · rename_i e
    have := take_length (hs.symm.trans e) rfl (by decide)
    exact Run.ok ⟨by simp only; omega, by simp only; omega, sq_mono hC (by simp only; omega), .null, rfl, rfl,
      by simp [Doc.parts], by simp [Doc.parts]; omega⟩
  · refine Run.bind (Run.sub (P := fun s r k => r ≤ R + 8 ∧ C = k) ?_) ?_
    · rintro s rfl; exact ⟨by simp; omega, rfl⟩
    rintro s r _ ⟨hr, rfl⟩
    exact Run.free (by omega) hC2 (by simp)

theorem parseNumber_run {str : Str} {C R off : Nat} {v : Byte} (hC : C ≤ off ^ 2) (hR : R ≤ 4 * off + 2) (h : off < str.length)
    (hv : strAt str off = .ok v) (hd : isDigit v ∨ v = byte '-') :
    Run str.length R C (Post str.length off C) (parseNumber str off) := by
  have hC2 : C ≤ (str.length + 2) ^ 2 := sq_mono hC (by omega)
  have hC3 : C + 1 ≤ (str.length + 2) ^ 2 := sq_succ hC (by omega)
  unfold parseNumber
  refine Run.bind (numGo_run hC2 _ _ _ _ _ (by omega) (by omega)) ?_
  rintro ⟨val, isDouble, c, o⟩ r k ⟨h1, h2, h3, rfl, h5⟩
  have h5 := h5 v hv hd
  simp only at h1 h2 h3 h5 ⊢
  refine Run.bind (P := fun p r' k' => r' + 4 ≤ 4 * p.2.2.2 ∧ off + 2 ≤ p.2.2.2 ∧ p.2.2.2 ≤ str.length + 1 ∧ C = k') ?_ ?_
  · split
    · split
      · exact Run.free (by omega) hC2 (by simp)
      · refine Run.bind (Run.rd (by omega) hC2) ?_
        rintro s _ _ ⟨-, hi, rfl, rfl⟩
        refine Run.bind (expGo_run hC2 _ _ (o + 1) _ (by omega) (by omega)) ?_
        rintro ⟨e, c', o'⟩ r' _ ⟨h6, h7, h8, rfl⟩
        simp only at h6 h7 h8 ⊢
        refine Run.bind (Run.free (P := fun _ r k' => r' = r ∧ C = k') (by omega) hC2 fun _ _ => ⟨rfl, rfl⟩) ?_
        rintro q _ _ ⟨rfl, rfl⟩
        refine Run.bind (Run.free (P := fun _ r k' => r' = r ∧ C = k') (by omega) hC2 fun _ _ => ⟨rfl, rfl⟩) ?_
        rintro x _ _ ⟨rfl, rfl⟩
        exact Run.ok ⟨by simp only; omega, by simp only; omega, by simp only; omega, rfl⟩
    · refine Run.bind (Run.free (P := fun _ r' k' => r = r' ∧ C = k') (by omega) hC2 fun _ _ => ⟨rfl, rfl⟩) ?_
      rintro b _ _ ⟨rfl, rfl⟩
      split
      · exact Run.free (by omega) hC2 (by simp)
      · exact Run.ok ⟨by simp only; omega, by simp only; omega, by simp only; omega, rfl⟩
  · rintro ⟨e, x, c', o'⟩ r' _ ⟨h6, h7, h8, rfl⟩
    simp only at h6 h7 h8 ⊢
    refine Run.bind (Run.copied (P := fun _ r k' => r' = r ∧ k' = C + 1) ⟨rfl, rfl⟩) ?_
    rintro _ _ _ ⟨rfl, rfl⟩
    have h9 : o' - 1 ≤ (if c' ≠ 0 then o' - 1 else o') := by split <;> omega
    have h10 : (if c' ≠ 0 then o' - 1 else o') ≤ o' := by split <;> omega
    generalize (if c' ≠ 0 then o' - 1 else o') = O at h9 h10
    have post : ∀ d : Doc, d.copies = 1 → d.parts = 1 → Post str.length off C (d.value, O) r' (C + 1) := fun d hd1 hd2 =>
      ⟨by simp only; omega, by simp only; omega, sq_succ hC (by simp only; omega), d, rfl, by rw [hd1], by rw [hd2]; simp only; omega,
        by rw [hd2]; omega⟩
    split
    · refine Run.free (by omega) hC3 fun a ha => ?_
      obtain ⟨q, -, ha⟩ := Out.bind_eq_ok.1 ha
      cases ha
      exact post (.float _) rfl rfl
    · refine Run.free (by omega) hC3 fun a ha => ?_
      obtain ⟨q, -, ha⟩ := Out.bind_eq_ok.1 ha
      cases ha
      exact post (.int _) rfl rfl

/-! ## Documents -/

mutual
theorem nodes_eq : ∀ v : Value, nodes v = size v
  | .arr l => by rw [nodes, size, nodesArr_eq l]
  | .obj m => by rw [nodes, size, nodesObj_eq m]
  | .null | .bool _ | .int _ | .float _ | .str _ => by simp [nodes, size]

theorem nodesArr_eq : ∀ l : List Value, nodesArr l = sizeArr l
  | [] => by rw [nodesArr, sizeArr]
  | v :: l => by rw [nodesArr, sizeArr, nodes_eq v, nodesArr_eq l]

theorem nodesObj_eq : ∀ m : List (Str × Value), nodesObj m = sizeObj m
  | [] => by rw [nodesObj, sizeObj]
  | (_, v) :: m => by rw [nodesObj, sizeObj, nodes_eq v, nodesObj_eq m]
end

theorem sizeObj_put (k : Str) (v : Value) : ∀ m, sizeObj (put k v m) ≤ sizeObj m + size v := by
  intro m
  induction m with
  | nil => simp [put, sizeObj]
  | cons p m ih =>
    obtain ⟨k', v'⟩ := p
    unfold put
    split
    · simp only [sizeObj]; omega
    · split
      · simp only [sizeObj]; omega
      · simp only [sizeObj]; omega

mutual
theorem size_le : ∀ d : Doc, size d.value ≤ d.parts
  | .arr l => by have := sizeArr_le l; simp only [Doc.value, size, Doc.parts]; omega
  | .obj l => by have := sizeObj_le l []; simp only [Doc.value, size, Doc.parts, sizeObj] at *; omega
  | .null | .bool _ | .int _ | .float _ | .str _ => by simp [Doc.value, size, Doc.parts]

theorem sizeArr_le : ∀ l : Items, sizeArr l.values ≤ l.parts
  | .nil => by simp [Items.values, sizeArr]
  | .cons d l => by have := size_le d; have := sizeArr_le l; simp only [Items.values, sizeArr, Items.parts]; omega

theorem sizeObj_le : ∀ (l : Members) (m : List (Str × Value)), sizeObj (l.into m) ≤ sizeObj m + l.parts
  | .nil, m => by simp [Members.into]
  | .cons key val l, m => by
    have h1 := size_le val
    have h2 := sizeObj_le l (put key.value.toString val.value m)
    have h3 := sizeObj_put key.value.toString val.value m
    simp only [Members.into, Members.parts]; omega
end

theorem parts_pos : ∀ d : Doc, 1 ≤ d.parts := by
  intro d; cases d <;> simp [Doc.parts]

mutual
theorem copies_le : ∀ d : Doc, d.copies ≤ (d.depth + 1) * d.parts
  | .arr l => by
    have := copiesArr_le l l.depth (Nat.le_refl _); simp only [Doc.copies, Doc.depth, Doc.parts]; nlinarith
  | .obj l => by
    have := copiesObj_le l l.depth (Nat.le_refl _); simp only [Doc.copies, Doc.depth, Doc.parts]; nlinarith
  | .null | .bool _ | .int _ | .float _ | .str _ => by simp [Doc.copies, Doc.parts]

theorem copiesArr_le : ∀ (l : Items) (D : Nat), l.depth ≤ D → l.copies ≤ (D + 1) * l.parts
  | .nil, D, _ => by simp [Items.copies]
  | .cons d l, D, h => by
    simp only [Items.depth, sup_le_iff] at h
    have h1 := copies_le d
    have h2 := copiesArr_le l D h.2
    have h3 : (d.depth + 1) * d.parts ≤ (D + 1) * d.parts := Nat.mul_le_mul_right _ (by omega)
    simp only [Items.copies, Items.parts, Nat.mul_add]; omega

theorem copiesObj_le : ∀ (l : Members) (D : Nat), l.depth ≤ D → l.copies ≤ (D + 2) * l.parts
  | .nil, D, _ => by simp [Members.copies]
  | .cons key val l, D, h => by
    simp only [Members.depth, sup_le_iff] at h
    have h1 := copies_le key
    have h2 := copies_le val
    have h3 := copiesObj_le l D h.2
    have h4 : (key.depth + 1) * key.parts ≤ (D + 2) * key.parts := Nat.mul_le_mul_right _ (by omega)
    have h5 : (val.depth + 1) * val.parts ≤ (D + 1) * val.parts := Nat.mul_le_mul_right _ (by omega)
    have h6 := size_le val
    have h7 : (D + 2) * val.parts = (D + 1) * val.parts + val.parts := by ring
    simp only [Members.copies, Members.parts, Nat.mul_add] at *; omega
end

/-! ## The parser -/

theorem strAt_len (s : Str) : strAt s (s.length : Nat) = .ok 0 := by simp [strAt]

theorem parse_run (str : Str) : ∀ f,
    (∀ off R C, R ≤ 4 * off → C ≤ off ^ 2 → off ≤ str.length + 1 →
      Run str.length R C (Post str.length off C) (parseNext str f off)) ∧
    (∀ off R C, R ≤ 4 * off → C ≤ off ^ 2 → off ≤ str.length + 1 →
      Run str.length R C (fun p r k => r ≤ 4 * p.2 ∧ p.2 ≤ str.length + 1 ∧ k ≤ p.2 ^ 2 ∧
        ∃ l : Items, l.values = p.1 ∧ k = C + l.copies ∧ off + l.parts + 1 ≤ p.2) (arrLoop str f off)) ∧
    ∀ off m R C, R ≤ 4 * off → C ≤ off ^ 2 → off ≤ str.length + 1 →
      Run str.length R C (fun p r k => r ≤ 4 * p.2 ∧ p.2 ≤ str.length + 1 ∧ k ≤ p.2 ^ 2 ∧
        ∃ l : Members, l.into m = p.1 ∧ k = C + l.copies ∧ off + l.parts + 1 ≤ p.2) (objLoop str f off m) := by
  intro f
  induction f with
  | zero =>
    have h : ∀ off R C, R ≤ 4 * off → C ≤ off ^ 2 → off ≤ str.length + 1 →
        R ≤ 4 * str.length + 16 ∧ C ≤ (str.length + 2) ^ 2 :=
      fun off R C h1 h2 h3 => ⟨by omega, sq_mono h2 (by omega)⟩
    exact ⟨fun off R C h1 h2 h3 => h off R C h1 h2 h3, fun off R C h1 h2 h3 => h off R C h1 h2 h3,
      fun off m R C h1 h2 h3 => h off R C h1 h2 h3⟩
  | succ f ih =>
    obtain ⟨ih1, ih2, ih3⟩ := ih
    refine ⟨fun off R C hR hC ho => ?_, fun off R C hR hC ho => ?_, fun off m R C hR hC ho => ?_⟩
    · have hC2 : C ≤ (str.length + 2) ^ 2 := sq_mono hC (by omega)
      unfold parseNext
      refine Run.bind (skip_run hC2 (by omega) ho) ?_
      rintro o r _ ⟨h1, h2, h3, rfl⟩
      have hCo : C ≤ o ^ 2 := sq_mono hC h1
      refine Run.bind (Run.rd (by omega) hC2) ?_
      rintro v _ _ ⟨hv, -, rfl, rfl⟩
      have inside : v ≠ 0 → o < str.length := by
        intro h0
        rcases Nat.lt_or_ge o str.length with h | h
        · exact h
        · have e : o = str.length := by omega
          subst e
          rw [strAt_len] at hv
          cases hv
          exact absurd rfl h0
      have lift : ∀ {x : Job (Value × Nat)}, Run str.length (r + 1) C (Post str.length o C) x →
          Run str.length (r + 1) C (Post str.length off C) x := fun h => h.weaken
        (by rintro p r k ⟨a1, a2, a3, d, a4, a5, a6, a7⟩; exact ⟨a1, a2, a3, d, a4, a5, by omega, by omega⟩)
      split
      · rename_i e
        have ho' := inside (by subst e; decide)
        refine Run.bind (skip_run hC2 (by omega) (by omega)) ?_
        rintro o' r' _ ⟨h4, h5, h6, rfl⟩
        refine Run.bind (Run.rd (by omega) hC2) ?_
        rintro c _ _ ⟨hc, -, rfl, rfl⟩
        split
        · exact Run.ok ⟨by simp only; omega, by simp only; omega, sq_mono hC (by simp only; omega), .arr .nil,
            by simp [Doc.value, Items.values], by simp [Doc.copies, Items.copies], by simp [Doc.parts, Items.parts]; omega,
            by simp [Doc.parts, Items.parts]; omega⟩
        · refine Run.bind (ih2 o' _ _ (by omega) (sq_mono hC (by omega)) (by omega)) ?_
          rintro ⟨l, o''⟩ r'' k ⟨a1, a2, a3, d, a4, a5, a6⟩
          simp only at a1 a2 a3 a4 a6 ⊢
          exact Run.ok ⟨a1, a2, a3, .arr d, by simp [Doc.value, a4], by simp [Doc.copies, a5], by simp [Doc.parts]; omega,
            by simp [Doc.parts]; omega⟩
      · split
        · rename_i e
          have ho' := inside (by subst e; decide)
          refine Run.bind (skip_run hC2 (by omega) (by omega)) ?_
          rintro o' r' _ ⟨h4, h5, h6, rfl⟩
          refine Run.bind (Run.rd (by omega) hC2) ?_
          rintro c _ _ ⟨hc, -, rfl, rfl⟩
          split
          · exact Run.ok ⟨by simp only; omega, by simp only; omega, sq_mono hC (by simp only; omega), .obj .nil,
              by simp [Doc.value, Members.into], by simp [Doc.copies, Members.copies],
              by simp [Doc.parts, Members.parts]; omega, by simp [Doc.parts, Members.parts]; omega⟩
          · refine Run.bind (ih3 o' [] _ _ (by omega) (sq_mono hC (by omega)) (by omega)) ?_
            rintro ⟨l, o''⟩ r'' k ⟨a1, a2, a3, d, a4, a5, a6⟩
            simp only at a1 a2 a3 a4 a6 ⊢
            exact Run.ok ⟨a1, a2, a3, .obj d, by simp [Doc.value, a4], by simp [Doc.copies, a5], by simp [Doc.parts]; omega,
              by simp [Doc.parts]; omega⟩
        · split
          · rename_i e
            exact lift (parseString_run hCo (by omega) (inside (by subst e; decide)))
          · split
            · rename_i e
              exact lift (parseBool_run hCo (by omega) (inside (by rcases e with e | e <;> subst e <;> decide)))
            · split
              · rename_i e
                exact lift (parseNull_run hCo (by omega) (inside (by subst e; decide)))
              · split
                · rename_i e
                  refine lift (parseNumber_run hCo (by omega) (inside ?_) hv e)
                  rintro rfl
                  rcases e with e | e <;> revert e <;> decide
                · exact Run.free (by omega) hC2 (by simp)
    · unfold arrLoop
      refine Run.bind (ih1 off R C hR hC ho) ?_
      rintro ⟨v, o⟩ r k ⟨a1, a2, a3, d, a4, a5, a6, a7⟩
      simp only at a1 a2 a3 a4 a6 ⊢
      have hk : k ≤ (str.length + 2) ^ 2 := sq_mono a3 (by omega)
      refine Run.bind (skip_run hk (by omega) a2) ?_
      rintro o' r' _ ⟨h4, h5, h6, rfl⟩
      refine Run.bind (Run.rd (by omega) hk) ?_
      rintro c _ _ ⟨hc, -, rfl, rfl⟩
      split
      · refine Run.bind (ih2 (o' + 1) _ _ (by omega) (sq_mono a3 (by omega)) (by omega)) ?_
        rintro ⟨l, o''⟩ r'' k' ⟨b1, b2, b3, d', b4, b5, b6⟩
        simp only at b1 b2 b3 b4 b6 ⊢
        exact Run.ok ⟨b1, b2, b3, .cons d d', by simp [Items.values, a4, b4], by simp [Items.copies]; omega,
          by simp [Items.parts]; omega⟩
      · refine Run.bind (Run.rd (by omega) hk) ?_
        rintro c _ _ ⟨hc, -, rfl, rfl⟩
        split
        · exact Run.ok ⟨by simp only; omega, by simp only; omega, sq_mono a3 (by simp only; omega), .cons d .nil,
            by simp [Items.values, a4], by simp [Items.copies]; omega, by simp [Items.parts]; omega⟩
        · refine Run.bind (Run.rd (by omega) hk) ?_
          rintro c _ _ ⟨hc, -, rfl, rfl⟩
          exact Run.free (by omega) hk (by simp)
    · unfold objLoop
      refine Run.bind (ih1 off R C hR hC ho) ?_
      rintro ⟨key, o⟩ r k ⟨a1, a2, a3, dk, a4, a5, a6, a7⟩
      simp only at a1 a2 a3 a4 a6 ⊢
      have hk : k ≤ (str.length + 2) ^ 2 := sq_mono a3 (by omega)
      refine Run.bind (skip_run hk (by omega) a2) ?_
      rintro o1 r1 _ ⟨h4, h5, h6, rfl⟩
      refine Run.bind (Run.rd (by omega) hk) ?_
      rintro c _ _ ⟨hc, -, rfl, rfl⟩
      split
      · refine Run.bind (Run.rd (by omega) hk) ?_
        rintro c _ _ ⟨hc, -, rfl, rfl⟩
        exact Run.free (by omega) hk (by simp)
      · refine Run.bind (skip_run hk (by omega) (by omega)) ?_
        rintro o2 r2 _ ⟨h7, h8, h9, rfl⟩
        refine Run.bind (ih1 o2 _ _ (by omega) (sq_mono a3 (by omega)) (by omega)) ?_
        rintro ⟨v, o3⟩ r3 k3 ⟨b1, b2, b3, dv, b4, b5, b6, b7⟩
        simp only at b1 b2 b3 b4 b6 ⊢
        have hs : nodes v ≤ dv.parts := by rw [nodes_eq, ← b4]; exact size_le dv
        have hk3 : k3 + nodes v ≤ o3 ^ 2 + o3 := by omega
        have hk4 : k3 + nodes v ≤ (str.length + 2) ^ 2 := sq_part hk3 (by omega)
        refine Run.bind (Run.copied (P := fun _ r k => r3 = r ∧ k = k3 + nodes v) ⟨rfl, rfl⟩) ?_
        rintro _ _ _ ⟨rfl, rfl⟩
        refine Run.bind (skip_run hk4 (by omega) b2) ?_
        rintro o4 r4 _ ⟨c1, c2, c3, rfl⟩
        have hk5 : k3 + nodes v ≤ (o4 + 1) ^ 2 := sq_part hk3 (by omega)
        refine Run.bind (Run.rd (by omega) hk4) ?_
        rintro c _ _ ⟨hc, -, rfl, rfl⟩
        have hn : nodes v = size dv.value := by rw [nodes_eq, b4]
        split
        · refine (ih3 (o4 + 1) _ _ _ (by omega) hk5 (by omega)).weaken ?_
          rintro ⟨l, o5⟩ r5 k5 ⟨e1, e2, e3, d', e4, e5, e6⟩
          simp only at e1 e2 e3 e4 e6 ⊢
          exact ⟨e1, e2, e3, .cons dk dv d', by simp [Members.into, a4, b4, e4], by simp [Members.copies]; omega,
            by simp [Members.parts]; omega⟩
        · refine Run.bind (Run.rd (by omega) hk4) ?_
          rintro c _ _ ⟨hc, -, rfl, rfl⟩
          split
          · exact Run.ok ⟨by simp only; omega, by simp only; omega, hk5, .cons dk dv .nil,
              by simp [Members.into, a4, b4], by simp [Members.copies]; omega, by simp [Members.parts]; omega⟩
          · refine Run.bind (Run.rd (by omega) hk4) ?_
            rintro c _ _ ⟨hc, -, rfl, rfl⟩
            exact Run.free (by omega) hk4 (by simp)

theorem load_run (str : Str) :
    Run str.length 0 0 (fun v r k => r ≤ 4 * str.length + 4 ∧ k ≤ (str.length + 1) ^ 2 ∧
      ∃ d : Doc, d.value = v ∧ k = d.copies ∧ d.parts ≤ str.length) (loadJSON str) := by
  unfold loadJSON
  refine Run.bind ((parse_run str _).1 0 0 0 (by omega) (by omega) (by omega)) ?_
  rintro ⟨v, o⟩ r k ⟨a1, a2, a3, d, a4, a5, a6, a7⟩
  simp only at a1 a2 a3 a4 a6
  exact Run.ok ⟨by omega, sq_mono a3 a2, d, a4, by omega, by omega⟩

/-! ## A lower bound from the value -/

mutual
/-- Copies made for objects, seen from the value. -/
def must : Value → Nat
  | .arr l => mustArr l
  | .obj m => mustObj m
  | _ => 0

def mustArr : List Value → Nat
  | [] => 0
  | v :: l => must v + mustArr l

def mustObj : List (Str × Value) → Nat
  | [] => 0
  | (_, v) :: m => must v + size v + mustObj m
end

theorem mustObj_put (k : Str) (v : Value) : ∀ m, mustObj (put k v m) ≤ mustObj m + (must v + size v) := by
  intro m
  induction m with
  | nil => simp [put, mustObj]
  | cons p m ih =>
    obtain ⟨k', v'⟩ := p
    unfold put
    split
    · simp only [mustObj]; omega
    · split
      · simp only [mustObj]; omega
      · simp only [mustObj]; omega

mutual
theorem must_le : ∀ d : Doc, must d.value ≤ d.copies
  | .arr l => by have := mustArr_le l; simpa only [Doc.value, must, Doc.copies]
  | .obj l => by have := mustObj_le l []; simp only [Doc.value, must, Doc.copies, mustObj] at *; omega
  | .null | .bool _ | .int _ | .float _ | .str _ => by simp [Doc.value, must]

theorem mustArr_le : ∀ l : Items, mustArr l.values ≤ l.copies
  | .nil => by simp [Items.values, mustArr]
  | .cons d l => by have := must_le d; have := mustArr_le l; simp only [Items.values, mustArr, Items.copies]; omega

theorem mustObj_le : ∀ (l : Members) (m : List (Str × Value)), mustObj (l.into m) ≤ mustObj m + l.copies
  | .nil, m => by simp [Members.into]
  | .cons key val l, m => by
    have h1 := must_le val
    have h2 := mustObj_le l (put key.value.toString val.value m)
    have h3 := mustObj_put key.value.toString val.value m
    simp only [Members.into, Members.copies]; omega
end

/-- Objects nested in each other. -/
def nest : Nat → Value
  | 0 => .obj []
  | n + 1 => .obj [(bytes ['a'], nest n)]

theorem nest_size : ∀ n, size (nest n) = n + 1 := by
  intro n
  induction n with
  | zero => simp [nest, size, sizeObj]
  | succ n ih => simp [nest, size, sizeObj, ih]; omega

theorem nest_must : ∀ n, n * n ≤ 2 * must (nest n) := by
  intro n
  induction n with
  | zero => simp
  | succ n ih => simp only [nest, must, mustObj, nest_size] at *; nlinarith

theorem nest_fine : ∀ n, Json.Spec.Fine (nest n) ∧ Json.Spec.NoFloat (nest n) := by
  intro n
  induction n with
  | zero => exact ⟨.obj _ (by simp) (by simp) (by simp), .obj _ (by simp)⟩
  | succ n ih =>
    refine ⟨.obj _ (by simp) ?_ (by simpa using ih.1), .obj _ (by simpa using ih.2)⟩
    intro p hp
    simp only [List.mem_singleton] at hp
    subst hp
    exact ⟨bytes ['a'], show bytes ['a'] = _ by decide⟩

theorem nest_length (depth : Int) : ∀ n, (dump [] depth (nest n)).length = 10 * n + 4 := by
  intro n
  induction n generalizing depth with
  | zero => simp [nest, dump, dumpObj, padding, bytes]
  | succ n ih => simp [nest, dump, dumpObj, padding, bytes, ih]; omega

end Json.Work
