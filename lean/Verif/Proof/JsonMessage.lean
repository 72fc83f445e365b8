import Verif.Model.JsonMessage
import Verif.Spec.JsonMessage
import Verif.Proof.JsonTotal

/-! # Lemmas for the error messages of `loadJSON` -/

namespace Json.Message
open Cpp Json.Message.Spec

namespace Step
variable {α β : Type}

@[simp] theorem ok_bind (a : α) (f : α → Step β) : (ok a >>= f) = f a := id rfl
@[simp] theorem stop_bind (m : Str) (f : α → Step β) : ((stop m : Step α) >>= f) = stop m := id rfl
@[simp] theorem ub_bind (f : α → Step β) : ((ub : Step α) >>= f) = ub := id rfl
@[simp] theorem diverge_bind (f : α → Step β) : ((diverge : Step α) >>= f) = diverge := id rfl
@[simp] theorem pure_eq (a : α) : (pure a : Step α) = ok a := rfl

theorem liftM_eq (x : Out α) : (liftM x : Step α) = lift x := rfl

theorem drop_bind (x : Step α) (f : α → Step β) : (x >>= f).drop = x.drop >>= fun a => (f a).drop := by
  cases x <;> rfl

@[simp] theorem drop_lift (x : Out α) : (lift x).drop = x := by cases x <;> rfl

@[simp] theorem drop_ok (a : α) : (ok a).drop = .ok a := rfl
@[simp] theorem drop_stop (m : Str) : (stop m : Step α).drop = .exit := rfl
@[simp] theorem drop_ub : (ub : Step α).drop = .ub := rfl
@[simp] theorem drop_diverge : (diverge : Step α).drop = .diverge := rfl

theorem lift_ite (c : Prop) [Decidable c] (x y : Out α) : lift (if c then x else y) = if c then lift x else lift y := by
  split <;> rfl

theorem drop_ite (c : Prop) [Decidable c] (x y : Step α) : (if c then x else y).drop = if c then x.drop else y.drop := by
  split <;> rfl

end Step

/-! ## Without the messages -/

theorem hexGo_drop (str : Str) : ∀ n off, (hexGo str n off).drop = Json.hexGo str n off := by
  intro n
  induction n with
  | zero => intro off; rfl
  | succ n ih =>
    intro off
    unfold hexGo Json.hexGo
    simp only [Step.liftM_eq, Step.drop_bind, Step.drop_lift, Step.drop_ite, ih, Step.drop_ok, Step.drop_stop]

theorem stringGo_drop (str : Str) : ∀ f off val, (stringGo str f off val).drop = Json.stringGo str f off val := by
  intro f
  induction f with
  | zero => intro off val; rfl
  | succ f ih =>
    intro off val
    unfold stringGo Json.stringGo
    simp only [Step.liftM_eq, Step.drop_bind, Step.drop_lift, Step.drop_ite, ih, Step.drop_ok, hexGo_drop]

theorem parseString_drop (str : Str) (off : Nat) : (parseString str off).drop = Json.parseString str off := by
  unfold parseString Json.parseString
  simp only [Step.drop_bind, stringGo_drop, Step.drop_ok]

theorem expGo_drop (str : Str) : ∀ f off e, (expGo str f off e).drop = Json.expGo str f off e := by
  intro f
  induction f with
  | zero => intro off val; rfl
  | succ f ih =>
    intro off val
    unfold expGo Json.expGo
    simp only [Step.liftM_eq, Step.drop_bind, Step.drop_lift, Step.drop_ite, ih, Step.drop_ok, Step.drop_stop]

theorem parseNumber_drop (str : Str) (off : Nat) : (parseNumber str off).drop = Json.parseNumber str off := by
  unfold parseNumber Json.parseNumber
  simp only [Step.liftM_eq, Step.drop_bind, Step.drop_lift, Step.drop_ite, expGo_drop, Step.drop_ok, Step.drop_stop]

theorem parseBool_drop (str : Str) (off : Nat) : (parseBool str off).drop = Json.parseBool str off := by
  unfold parseBool Json.parseBool
  simp only [Step.drop_ite, Step.drop_ok, Step.drop_stop]

theorem parseNull_drop (str : Str) (off : Nat) : (parseNull str off).drop = Json.parseNull str off := by
  unfold parseNull Json.parseNull
  simp only [Step.drop_ite, Step.drop_ok, Step.drop_stop]

theorem parse_drop (str : Str) : ∀ f : Nat,
    (∀ off, (parseNext str f off).drop = Json.parseNext str f off) ∧
    (∀ off, (arrLoop str f off).drop = Json.arrLoop str f off) ∧
    (∀ off m, (objLoop str f off m).drop = Json.objLoop str f off m) := by
  intro f
  induction f with
  | zero =>
    refine ⟨fun off => ?_, fun off => ?_, fun off m => ?_⟩
    · unfold parseNext Json.parseNext; rfl
    · unfold arrLoop Json.arrLoop; rfl
    · unfold objLoop Json.objLoop; rfl
  | succ f ih =>
    obtain ⟨ih1, ih2, ih3⟩ := ih
    refine ⟨fun off => ?_, fun off => ?_, fun off m => ?_⟩
    · unfold parseNext Json.parseNext
      simp only [Step.liftM_eq, Step.drop_bind, Step.drop_lift, Step.drop_ite, Step.drop_ok, Step.drop_stop, ih2, ih3,
        parseString_drop, parseBool_drop, parseNull_drop, parseNumber_drop]
    · unfold arrLoop Json.arrLoop
      simp only [Step.liftM_eq, Step.drop_bind, Step.drop_lift, Step.drop_ite, Step.drop_ok, Step.drop_stop, ih1, ih2]
    · unfold objLoop Json.objLoop
      simp only [Step.liftM_eq, Step.drop_bind, Step.drop_lift, Step.drop_ite, Step.drop_ok, Step.drop_stop, ih1, ih3]

theorem load_drop (str : Str) : (loadJSON str).drop = Json.loadJSON str := by
  unfold loadJSON Json.loadJSON
  simp only [Step.drop_bind, (parse_drop str _).1, Step.drop_ok]

theorem nd_of_drop {α : Type} {x : Step α} (h : x.drop ≠ .diverge) : x ≠ .diverge := by
  rintro rfl; exact h rfl

/-! ## Only the text read matters -/

/-- the first `q` characters are the same -/
def Same (q : Nat) (str s : Str) : Prop := s.take q = str.take q

theorem Same.mono {q r : Nat} {str s : Str} (h : Same r str s) (hq : q ≤ r) : Same q str s := by
  have := congrArg (List.take q) h
  simpa [Same, List.take_take, Nat.min_eq_left hq] using this

theorem Same.get {q : Nat} {str s : Str} (h : Same q str s) {i : Nat} (hi : i < q) : s[i]? = str[i]? := by
  have := congrArg (fun l => l[i]?) h
  simpa [List.getElem?_take, hi] using this

theorem Same.len {q : Nat} {str s : Str} (h : Same q str s) {i : Nat} (hi : i < q) : i = s.length ↔ i = str.length := by
  have := congrArg List.length h
  simp only [List.length_take] at this
  omega

theorem strAt_get (s : Str) (i : Nat) : strAt s i =
    match s[i]? with
    | some c => .ok c
    | none => if i = s.length then .ok 0 else .ub := by
  unfold strAt
  by_cases h : i < s.length
  · rw [if_pos ⟨by omega, by omega⟩, List.getElem?_eq_getElem h]
    simp [h]
  · rw [if_neg (by omega), List.getElem?_eq_none (by omega)]
    by_cases h2 : i = s.length
    · subst h2; simp
    · rw [if_neg (by omega), if_neg h2]

theorem Same.strAt {q : Nat} {str s : Str} (h : Same q str s) {i : Nat} (hi : i < q) :
    Cpp.strAt s i = Cpp.strAt str i := by
  have := h.len hi
  rw [strAt_get, strAt_get, h.get hi]
  simp only [this]

theorem Same.part {q : Nat} {str s : Str} {p n : Nat} (h : Same q str s) (hq : p + n ≤ q) :
    (s.drop p).take n = (str.drop p).take n := by
  have e := h.mono hq
  unfold Same at e
  rw [List.take_drop, List.take_drop, e]

/-- What `P` does on `str` is decided by the beginning of the text: for a result `a` by the first `need a` characters, for a
complaint about the place `p` by the characters up to there; in both cases by at least `lo` characters.  (Texts for which the
fuel is used up are left out.) -/
def Dec (str : Str) (lo : Nat) {α : Type} (need : α → Nat) (P : Str → Step α) : Prop :=
  (∀ a, P str = .ok a → lo ≤ need a ∧ ∀ s, Same (need a) str s → P s = .ok a ∨ P s = .diverge) ∧
  ∀ m, P str = .stop m → ∃ k p, About str k p m ∧ lo ≤ p + k.reach ∧
    ∀ s, Same (p + k.reach) str s → P s = .stop m ∨ P s = .diverge

section
variable {str : Str} {lo : Nat} {α β : Type} {need : α → Nat} {need' : β → Nat}

theorem Dec.bind {P : Str → Step α} {K : Str → α → Step β} (h : Dec str lo need P)
    (hk : ∀ a, P str = .ok a → Dec str (need a) need' (fun s => K s a)) : Dec str lo need' (fun s => P s >>= K s) := by
  obtain ⟨h1, h2⟩ := h
  constructor
  · intro b hb
    dsimp only at hb ⊢
    cases hp : P str with
    | ok a =>
      rw [hp, Step.ok_bind] at hb
      obtain ⟨l1, e1⟩ := h1 a hp
      obtain ⟨l2, e2⟩ := (hk a hp).1 b hb
      refine ⟨by omega, fun s hs => ?_⟩
      rcases e1 s (hs.mono l2) with e | e
      · rw [e, Step.ok_bind]; exact e2 s hs
      · rw [e]; exact .inr rfl
    | _ => rw [hp] at hb; cases hb
  · intro m hm
    dsimp only at hm ⊢
    cases hp : P str with
    | ok a =>
      rw [hp, Step.ok_bind] at hm
      obtain ⟨l1, e1⟩ := h1 a hp
      obtain ⟨k, p, ha, l2, e2⟩ := (hk a hp).2 m hm
      refine ⟨k, p, ha, by omega, fun s hs => ?_⟩
      rcases e1 s (hs.mono l2) with e | e
      · rw [e, Step.ok_bind]; exact e2 s hs
      · rw [e]; exact .inr rfl
    | stop m' =>
      rw [hp] at hm
      cases hm
      obtain ⟨k, p, ha, l2, e2⟩ := h2 _ hp
      refine ⟨k, p, ha, l2, fun s hs => ?_⟩
      rcases e2 s hs with e | e
      · rw [e]; exact .inl rfl
      · rw [e]; exact .inr rfl
    | _ => rw [hp] at hm; cases hm

theorem Dec.ok {a : α} (h : lo ≤ need a) : Dec str lo need (fun _ => .ok a) :=
  ⟨fun b e => (by cases e; exact ⟨h, fun _ _ => .inl rfl⟩), fun m e => (by cases e)⟩

theorem Dec.lift {x : Out α} (hx : x ≠ .exit) (h : ∀ a, lo ≤ need a) : Dec str lo need (fun _ => (liftM x : Step α)) := by
  cases x with
  | ok a => exact Dec.ok (h a)
  | exit => exact absurd rfl hx
  | _ => exact ⟨fun _ e => (by cases e), fun _ e => (by cases e)⟩

theorem Dec.ite {c : Prop} [Decidable c] {P Q : Str → Step α} (h : c → Dec str lo need P) (h' : ¬ c → Dec str lo need Q) :
    Dec str lo need (fun s => if c then P s else Q s) := by
  by_cases hc : c
  · simp only [if_pos hc]; exact h hc
  · simp only [if_neg hc]; exact h' hc

theorem Dec.weaken {P : Str → Step α} {need₂ : α → Nat} {lo₂ : Nat} (h : Dec str lo need P) (hl : lo₂ ≤ lo)
    (hn : ∀ a, P str = .ok a → need a ≤ need₂ a) : Dec str lo₂ need₂ P := by
  refine ⟨fun a e => ?_, fun m e => ?_⟩
  · obtain ⟨l, g⟩ := h.1 a e
    have := hn a e
    exact ⟨by omega, fun s hs => g s (hs.mono this)⟩
  · obtain ⟨k, p, ha, l, g⟩ := h.2 m e
    exact ⟨k, p, ha, by omega, g⟩

/-- one unit of fuel -/
theorem Dec.of {P Q : Str → Step α} (h : Dec str lo need Q) (hs : P str = Q str ∨ P str = .diverge)
    (hq : ∀ s, P s = Q s ∨ P s = .diverge) : Dec str lo need P := by
  refine ⟨fun a e => ?_, fun m e => ?_⟩
  · rcases hs with hs | hs
    · obtain ⟨l, g⟩ := h.1 a (hs ▸ e)
      refine ⟨l, fun s h2 => ?_⟩
      rcases hq s with e | e
      · rw [e]; exact g s h2
      · exact .inr e
    · rw [hs] at e; cases e
  · rcases hs with hs | hs
    · obtain ⟨k, p, ha, l, g⟩ := h.2 m (hs ▸ e)
      refine ⟨k, p, ha, l, fun s h2 => ?_⟩
      rcases hq s with e | e
      · rw [e]; exact g s h2
      · exact .inr e
    · rw [hs] at e; cases e

theorem Dec.stop {k : Kind} {p : Nat} {m : Str} (h : About str k p m) (hl : lo ≤ p + k.reach) :
    Dec str lo need (fun _ => .stop m) :=
  ⟨fun _ e => (by cases e), fun _ e => (by cases e; exact ⟨k, p, h, hl, fun _ _ => .inl rfl⟩)⟩

end

theorem strAt_exit (s : Str) (i : Int) : strAt s i ≠ .exit := by
  unfold strAt; split
  · simp
  · split <;> simp

theorem isspace_exit (c : Byte) : isspace c ≠ .exit := by unfold isspace; split <;> simp

theorem notEnd_exit (c : Byte) : notEnd c ≠ .exit := by unfold notEnd isspace; split <;> simp

theorem Dec.read {str : Str} {lo i : Nat} (h : lo ≤ i + 1) :
    Dec str lo (fun _ => i + 1) (fun s => (liftM (strAt s i) : Step Byte)) := by
  refine ⟨fun c e => ⟨h, fun s hs => .inl ?_⟩, fun m e => ?_⟩ <;> dsimp only at e ⊢
  · rw [hs.strAt (Nat.lt_succ_self i), e]
  · have := strAt_exit str i
    cases hx : strAt str i with
    | exit => exact absurd hx this
    | _ => rw [hx] at e; cases e

theorem found_of {str : Str} {i : Nat} {c : Byte} (h : strAt str i = .ok c) : ((str ++ [0]).drop i).take 1 = [c] := by
  have hl := strAt_le h
  rw [strAt_get] at h
  by_cases hi : i < str.length
  · rw [List.getElem?_eq_getElem hi] at h
    cases h
    rw [List.drop_append_of_le_length (Nat.le_of_lt hi), List.drop_eq_getElem_cons hi]
    rfl
  · obtain rfl : i = str.length := by omega
    simp at h
    subst h
    simp

/-- a separator, read once more behind the exponent of a number -/
theorem Dec.read' {str : Str} {lo i : Nat} (h : lo ≤ i + 2) :
    Dec str lo (fun _ => i + 2) (fun s => (liftM (strAt s i) : Step Byte)) := by
  refine ⟨fun c e => ⟨h, fun s hs => .inl ?_⟩, fun m e => ?_⟩ <;> dsimp only at e ⊢
  · rw [hs.strAt (Nat.lt_succ_of_lt (Nat.lt_succ_self i)), e]
  · have := strAt_exit str i
    cases hx : strAt str i with
    | exit => exact absurd hx this
    | _ => rw [hx] at e; cases e

theorem lift_ok {α : Type} {x : Out α} {a : α} (h : (liftM x : Step α) = .ok a) : x = .ok a := by
  cases x with
  | ok b => cases h; rfl
  | _ => cases h

theorem Dec.skip {str : Str} : ∀ (f : Nat) (g : Str → Nat) (off : Nat), g str = f →
    Dec str (off + 1) (fun o => o + 1) (fun s => (liftM (skipGo s (g s) off) : Step Nat)) := by
  intro f
  induction f with
  | zero =>
    intro g off hg
    refine ⟨fun a e => ?_, fun m e => ?_⟩ <;> dsimp only at e <;> rw [hg, skipGo] at e <;> cases e
  | succ f ih =>
    intro g off hg
    have hP : ∀ s, (liftM (skipGo s (g s) off) : Step Nat) = (do
        let c ← strAt s off
        let b ← isspace c
        if b then (liftM (skipGo s (g s - 1) (off + 1)) : Step Nat) else .ok off) ∨
        (liftM (skipGo s (g s) off) : Step Nat) = .diverge := by
      intro s
      cases hgs : g s with
      | zero => exact .inr rfl
      | succ n =>
        refine .inl ?_
        rw [skipGo]
        cases strAt s off with
        | ok c =>
          cases hc : isspace c with
          | ok b => cases b <;> simp [hc, Step.liftM_eq, Step.lift]
          | _ => simp [hc, Step.liftM_eq, Step.lift]
        | _ => rfl
    refine Dec.of ?_ (hP str) hP
    refine (Dec.read (le_refl _)).bind fun c hc => ?_
    refine (Dec.lift (need := fun _ => off + 1) (isspace_exit c) fun _ => le_refl _).bind fun b hb => ?_
    refine Dec.ite (fun _ => ?_) fun _ => Dec.ok (le_refl _)
    exact (ih (fun s => g s - 1) (off + 1) (by simp [hg])).weaken (by omega) fun _ _ => le_refl _

theorem skipGo_exit (str : Str) : ∀ f off, skipGo str f off ≠ .exit := by
  intro f
  induction f with
  | zero => intro off h; cases h
  | succ f ih =>
    intro off
    rw [skipGo]
    cases hc : strAt str off with
    | ok c =>
      cases hb : isspace c with
      | ok b => cases b <;> simp [hb, ih]
      | exit => exact absurd hb (isspace_exit c)
      | _ => simp [hb]
    | exit => exact absurd hc (strAt_exit _ _)
    | _ => simp

theorem skip_exit (str : Str) (off : Nat) : Json.skip str off ≠ .exit := skipGo_exit _ _ _

theorem Dec.skips {str : Str} (off : Nat) :
    Dec str (off + 1) (fun o => o + 1) (fun s => (liftM (Json.skip s off) : Step Nat)) :=
  Dec.skip _ (fun s => s.length + 2) off rfl

theorem Dec.skips' {str : Str} (off : Nat) :
    Dec str (off + 2) (fun o => o + 2) (fun s => (liftM (Json.skip s off) : Step Nat)) := by
  refine ⟨fun a e => ?_, fun m e => ?_⟩
  · obtain ⟨l, g⟩ := (Dec.skips off).1 a e
    exact ⟨Nat.succ_le_succ l, fun s hs => g s (hs.mono (Nat.le_succ _))⟩
  · obtain ⟨k, p, ha, -⟩ := (Dec.skips off).2 m e
    dsimp only at e
    cases hx : Json.skip str off with
    | exit => exact absurd hx (skip_exit _ _)
    | _ => rw [hx] at e; cases e

/-! ## The complaints -/

theorem hex_right : ∀ c : Byte, isHex c = true ↔ ((48 ≤ c ∧ c ≤ 57) ∨ (97 ≤ c ∧ c ≤ 102) ∨ (65 ≤ c ∧ c ≤ 70)) := by
  apply forall_byte; decide +kernel

theorem digit_right : ∀ c : Byte, isDigit c = true ↔ (48 ≤ c ∧ c ≤ 57) := by
  apply forall_byte; decide +kernel

theorem end_right : ∀ c : Byte, notEnd c = .ok true →
    ¬ (c = 32 ∨ (9 ≤ c ∧ c ≤ 13) ∨ c = byte ',' ∨ c = byte ']' ∨ c = byte '}' ∨ c = 0) := by
  apply forall_byte; decide +kernel

theorem about_colon {str : Str} {p : Nat} {c : Byte} (h : strAt str p = .ok c) (hc : c ≠ byte ':') :
    About str .colon p (say "Object: Expected colon, found '" [c]) := by
  have e : Kind.colon.found str p = [c] := found_of h
  refine ⟨strAt_le h, by rw [e]; rfl, ?_, by simp⟩
  rw [e]
  exact fun h => hc (by simpa [Kind.Right, bytes] using h)

theorem about_comma {str : Str} {p : Nat} {c : Byte} (h : strAt str p = .ok c) (hc : c ≠ byte ',') (hc' : c ≠ byte '}') :
    About str .comma p (say "Object: Expected comma, found '" [c]) := by
  have e : Kind.comma.found str p = [c] := found_of h
  refine ⟨strAt_le h, by rw [e]; rfl, ?_, by simp⟩
  rw [e]
  simp [Kind.Right, bytes, hc, hc']

theorem about_element {str : Str} {p : Nat} {c : Byte} (h : strAt str p = .ok c) (hc : c ≠ byte ',') (hc' : c ≠ byte ']') :
    About str .element p (say "Array: Expected ',' or ']', found '" [c]) := by
  have e : Kind.element.found str p = [c] := found_of h
  refine ⟨strAt_le h, by rw [e]; rfl, ?_, by simp⟩
  rw [e]
  simp [Kind.Right, bytes, hc, hc']

theorem about_hex {str : Str} {p : Nat} {c : Byte} (h : strAt str p = .ok c) (hc : ¬ isHex c = true) :
    About str .hex p (say "String: Expected hex character in unicode escape, found '" [c]) := by
  have e : Kind.hex.found str p = [c] := found_of h
  refine ⟨strAt_le h, by rw [e]; rfl, ?_, by simp⟩
  rw [e]
  rintro ⟨c', e, hr⟩
  cases e
  exact hc ((hex_right c).2 hr)

theorem about_exponent {str : Str} {p : Nat} {c : Byte} (h : strAt str p = .ok c) (hc : ¬ isDigit c = true)
    (hn : notEnd c = .ok true) : About str .exponent p (say "Number: Expected a number for exponent, found '" [c]) := by
  have e : Kind.exponent.found str p = [c] := found_of h
  refine ⟨strAt_le h, by rw [e]; rfl, ?_, by simp⟩
  rw [e]
  rintro ⟨c', e, hr | hr⟩ <;> cases e
  · exact hc ((digit_right c).2 hr)
  · exact end_right c hn hr

theorem about_number {str : Str} {p : Nat} {c : Byte} (h : strAt str p = .ok c) (hc : ¬ (c = byte '-' ∨ isDigit c = true))
    (hd : c ≠ byte '.') (he : ¬ (c = byte 'E' ∨ c = byte 'e')) (hn : notEnd c = .ok true) :
    About str .number p (say "Number: unexpected character '" [c]) := by
  have e : Kind.number.found str p = [c] := found_of h
  refine ⟨strAt_le h, by rw [e]; rfl, ?_, by simp⟩
  rw [e]
  rintro ⟨c', e, hr | hr | hr⟩ <;> cases e
  · exact hc (.inr ((digit_right c).2 hr))
  · exact end_right c hn hr
  · simp only [bytes, List.map_cons, List.map_nil, List.mem_cons, List.not_mem_nil, or_false] at hr
    rcases hr with hr | hr | hr | hr
    · exact hc (.inl hr)
    · exact hd hr
    · exact he (.inr hr)
    · exact he (.inl hr)

theorem about_start {str : Str} {p : Nat} {c : Byte} (h : strAt str p = .ok c) (h1 : c ≠ byte '[') (h2 : c ≠ byte '{')
    (h3 : c ≠ byte '"') (h4 : ¬ (c = byte 't' ∨ c = byte 'f')) (h5 : c ≠ byte 'n')
    (h6 : ¬ (isDigit c = true ∨ c = byte '-')) : About str .start p (say "Parse: Unknown starting character '" [c]) := by
  have e : Kind.start.found str p = [c] := found_of h
  refine ⟨strAt_le h, by rw [e]; rfl, ?_, by simp⟩
  rw [e]
  rintro ⟨c', e, hr | hr⟩ <;> cases e
  · exact h6 (.inl ((digit_right c).2 hr))
  · simp only [bytes, List.map_cons, List.map_nil, List.mem_cons, List.not_mem_nil, or_false] at hr
    rcases hr with hr | hr | hr | hr | hr | hr | hr
    · exact h1 hr
    · exact h2 hr
    · exact h3 hr
    · exact h4 (.inl hr)
    · exact h4 (.inr hr)
    · exact h5 hr
    · exact h6 (.inr hr)

/-! ## The functions of the parser -/

theorem hexGo_dec {str : Str} : ∀ n off, Dec str off (fun _ => off + n) (fun s => hexGo s n off) := by
  intro n
  induction n with
  | zero => intro off; exact Dec.ok (le_refl _)
  | succ n ih =>
    intro off
    unfold hexGo
    refine (Dec.read (by omega)).bind fun c hc => Dec.ite (fun h => ?_) fun h => ?_
    · exact ((ih (off + 1)).weaken (need₂ := fun _ => off + (n + 1)) (by omega) fun _ _ => by omega).bind fun a _ =>
        Dec.ok (by omega)
    · exact Dec.stop (about_hex (lift_ok hc) h) (by simp [Kind.reach])

theorem stringGo_dec {str : Str} : ∀ (f : Nat) (g : Str → Nat) (off : Nat) (val : Str), g str = f →
    Dec str (off + 1) (fun r => r.2) (fun s => stringGo s (g s) off val) := by
  intro f
  induction f with
  | zero =>
    intro g off val hg
    refine ⟨fun a e => ?_, fun m e => ?_⟩ <;> dsimp only at e <;> rw [hg, stringGo] at e <;> cases e
  | succ f ih =>
    intro g off val hg
    have ih := fun off val => ih (fun s => g s - 1) off val (by simp [hg])
    have hP : ∀ s, stringGo s (g s) off val = stringGo s (g s - 1 + 1) off val ∨ stringGo s (g s) off val = .diverge := by
      intro s
      cases hgs : g s with
      | zero => exact .inr rfl
      | succ n => exact .inl rfl
    refine Dec.of ?_ (hP str) hP
    simp only [stringGo]
    refine (Dec.read (le_refl _)).bind fun c hc => Dec.ite (fun h => Dec.ok (le_refl _)) fun h => Dec.ite (fun h => ?_)
      fun h => (ih _ _).weaken (by omega) fun _ _ => le_refl _
    refine (Dec.read (by omega)).bind fun e he => Dec.ite (fun h => ?_) fun h => (ih _ _).weaken (by omega) fun _ _ => le_refl _
    exact (hexGo_dec 4 (off + 2)).bind fun x hx => (ih _ _).weaken (by omega) fun _ _ => le_refl _

theorem parseString_dec {str : Str} (off : Nat) : Dec str (off + 1) (fun r => r.2 + 2) (fun s => parseString s off) := by
  unfold parseString
  refine ((stringGo_dec _ (fun s => s.length + 2) (off + 1) [] rfl).weaken (by omega) fun _ _ => le_refl _).bind fun r hr => ?_
  exact Dec.ok (by simp)

theorem numGo_dec {str : Str} : ∀ (f : Nat) (g : Str → Nat) (off : Nat) (val : Str) (d : Bool), g str = f →
    Dec str (off + 1) (fun r => r.2.2.2) (fun s => (liftM (numGo s (g s) off val d) : Step _)) := by
  intro f
  induction f with
  | zero =>
    intro g off val d hg
    refine ⟨fun a e => ?_, fun m e => ?_⟩ <;> dsimp only at e <;> rw [hg, numGo] at e <;> cases e
  | succ f ih =>
    intro g off val d hg
    have ih := fun off val d => ih (fun s => g s - 1) off val d (by simp [hg])
    have hP : ∀ s, (liftM (numGo s (g s) off val d) : Step _) = (do
        let c ← strAt s off
        if c = byte '-' ∨ isDigit c then (liftM (numGo s (g s - 1) (off + 1) (val ++ [c]) d) : Step _)
        else if c = byte '.' then (liftM (numGo s (g s - 1) (off + 1) (val ++ [c]) true) : Step _)
        else .ok (val, d, c, off + 1)) ∨ (liftM (numGo s (g s) off val d) : Step _) = .diverge := by
      intro s
      cases hgs : g s with
      | zero => exact .inr rfl
      | succ n =>
        refine .inl ?_
        rw [numGo]
        cases strAt s off with
        | ok c =>
          rw [Out.ok_bind]
          simp only [Step.liftM_eq, Step.lift_ite]
          rfl
        | _ => rfl
    refine Dec.of ?_ (hP str) hP
    refine (Dec.read (le_refl _)).bind fun c hc => Dec.ite (fun h => (ih _ _ _).weaken (by omega) fun _ _ => le_refl _) fun h =>
      Dec.ite (fun h => (ih _ _ _).weaken (by omega) fun _ _ => le_refl _) fun h => Dec.ok (le_refl _)

theorem numGo_end {str : Str} : ∀ {f off : Nat} {val : Str} {d : Bool} {v : Str} {d' : Bool} {c : Byte} {o : Nat},
    numGo str f off val d = .ok (v, d', c, o) →
    ∃ i, o = i + 1 ∧ strAt str i = .ok c ∧ ¬ (c = byte '-' ∨ isDigit c = true) ∧ c ≠ byte '.' := by
  intro f
  induction f with
  | zero => intro off val d v d' c o h; cases h
  | succ f ih =>
    intro off val d v d' c o h
    rw [numGo] at h
    obtain ⟨c', hc, h⟩ := Out.bind_eq_ok.1 h
    split at h
    · exact ih h
    · split at h
      · exact ih h
      · cases h
        exact ⟨off, rfl, hc, by assumption, by assumption⟩

theorem expGo_dec {str : Str} : ∀ (f : Nat) (g : Str → Nat) (off : Nat) (e : Str), g str = f →
    Dec str (off + 1) (fun r => r.2.2 + 1) (fun s => expGo s (g s) off e) := by
  intro f
  induction f with
  | zero =>
    intro g off val hg
    refine ⟨fun a e => ?_, fun m e => ?_⟩ <;> dsimp only at e <;> rw [hg, expGo] at e <;> cases e
  | succ f ih =>
    intro g off val hg
    have ih := fun off val => ih (fun s => g s - 1) off val (by simp [hg])
    have hP : ∀ s, expGo s (g s) off val = expGo s (g s - 1 + 1) off val ∨ expGo s (g s) off val = .diverge := by
      intro s
      cases hgs : g s with
      | zero => exact .inr rfl
      | succ n => exact .inl rfl
    refine Dec.of ?_ (hP str) hP
    simp only [expGo]
    refine (Dec.read (le_refl _)).bind fun c hc => Dec.ite (fun h => (ih _ _).weaken (by omega) fun _ _ => le_refl _) fun h => ?_
    refine (Dec.lift (need := fun _ => off + 1) (notEnd_exit c) fun _ => le_refl _).bind fun b hb => ?_
    refine Dec.ite (fun h' => ?_) fun _ => Dec.ok (le_refl _)
    subst h'
    exact Dec.stop (about_exponent (lift_ok hc) h (lift_ok hb)) (by simp [Kind.reach])

/-- the test for the end of the text -/
theorem Dec.atEnd {str : Str} {off : Nat} {α : Type} {need : α → Nat} {m : Str} {K : Str → Step α} {k : Kind}
    (h : off = str.length → About str k off m) (hr : k.reach = 1) (hK : off ≠ str.length → Dec str (off + 1) need K) :
    Dec str off need (fun s => if off = s.length then .stop m else K s) := by
  by_cases he : off = str.length
  · refine ⟨fun a e => ?_, fun m' e => ?_⟩ <;> dsimp only at e ⊢ <;> rw [if_pos he] at e <;> cases e
    refine ⟨k, off, h he, by omega, fun s hs => .inl ?_⟩
    rw [if_pos ((hs.len (by omega)).2 he)]
  · refine ⟨fun a e => ?_, fun m' e => ?_⟩ <;> dsimp only at e ⊢ <;> rw [if_neg he] at e
    · obtain ⟨l, g⟩ := (hK he).1 a e
      refine ⟨by omega, fun s hs => ?_⟩
      rw [if_neg fun h => he ((hs.len (by omega)).1 h)]
      exact g s hs
    · obtain ⟨k', p, ha, l, g⟩ := (hK he).2 m' e
      refine ⟨k', p, ha, by omega, fun s hs => ?_⟩
      rw [if_neg fun h => he ((hs.len (by omega)).1 h)]
      exact g s hs

theorem castDouble_exit (s : Str) : castDouble s ≠ .exit := by unfold castDouble; split <;> simp

theorem castInt_exit (s : Str) : castInt s ≠ .exit := by unfold castInt; split <;> simp

theorem int_exit (i : Int) : Cpp.int i ≠ .exit := by unfold Cpp.int; split <;> simp

theorem parseNumber_dec {str : Str} (off : Nat) : Dec str (off + 1) (fun r => r.2 + 2) (fun s => parseNumber s off) := by
  unfold parseNumber
  refine (numGo_dec _ (fun s => s.length + 2) off [] false rfl).bind fun r hr => ?_
  obtain ⟨val, d, c, o⟩ := r
  obtain ⟨i, rfl, hi, hc, hd⟩ := numGo_end (lift_ok hr)
  dsimp only
  refine Dec.bind (need := fun r : Str × Int × Byte × Nat => r.2.2.2 + 1) ?_ fun r hr => ?_
  · refine Dec.ite (fun h => ?_) fun h => ?_
    · refine Dec.atEnd (k := .noExponent) (fun h => ⟨by omega, rfl, fun h => h, fun _ => h⟩) rfl fun h => ?_
      refine (Dec.read (by omega)).bind fun s hs => ?_
      refine ((expGo_dec _ (fun s => s.length + 2) (i + 1 + 1) _ rfl).weaken (by omega) fun _ _ => le_refl _).bind fun r hr => ?_
      refine (Dec.lift (need := fun _ => r.2.2 + 1) (castDouble_exit _) fun _ => le_refl _).bind fun q hq => ?_
      refine (Dec.lift (need := fun _ => r.2.2 + 1) (int_exit _) fun _ => le_refl _).bind fun x hx => ?_
      exact Dec.ok (le_refl _)
    · refine (Dec.lift (need := fun _ => i + 1) (notEnd_exit c) fun _ => le_refl _).bind fun b hb => ?_
      refine Dec.ite (fun h' => ?_) fun _ => Dec.ok (by simp)
      subst h'
      exact Dec.stop (about_number hi hc hd h (lift_ok hb)) (by simp [Kind.reach])
  · obtain ⟨es, x, c', o'⟩ := r
    dsimp only
    refine Dec.ite (fun _ => ?_) fun _ => ?_
    · refine (Dec.lift (need := fun _ => o' + 1) (castDouble_exit _) fun _ => le_refl _).bind fun q hq => ?_
      refine Dec.ok ?_
      dsimp only
      split <;> omega
    · refine (Dec.lift (need := fun _ => o' + 1) (castInt_exit _) fun _ => le_refl _).bind fun q hq => ?_
      refine Dec.ok ?_
      dsimp only
      split <;> omega

theorem parseBool_dec {str : Str} {off : Nat} (ho : off < str.length) :
    Dec str (off + 1) (fun r => r.2 + 2) (fun s => parseBool s off) := by
  have hs : ∀ s, Same (off + 5) str s → parseBool s off = parseBool str off := fun s hs => by
    unfold parseBool
    rw [hs.part (le_refl _), hs.part (n := 4) (by omega)]
  refine ⟨fun a e => ?_, fun m e => ?_⟩
  · dsimp only at e ⊢
    have h := e
    unfold parseBool at h
    split at h
    · cases h
      refine ⟨by simp, fun s h2 => .inl ?_⟩
      rw [← e]
      exact hs s (h2.mono (by simp))
    · split at h
      · cases h
        refine ⟨by simp, fun s h2 => .inl ?_⟩
        rw [← e]
        exact hs s (h2.mono (by simp))
      · cases h
  · dsimp only at e ⊢
    have h := e
    unfold parseBool at h
    split at h
    · cases h
    · rename_i n1
      split at h
      · cases h
      · rename_i n2
        cases h
        refine ⟨.bool, off, ⟨by omega, rfl, ?_, by simp⟩, by simp [Kind.reach], fun s h2 => .inl ?_⟩
        · rintro (h | h)
          · exact n1 (by simpa [Kind.found, List.take_take] using h)
          · exact n2 h
        · rw [hs s h2, e]

theorem parseNull_dec {str : Str} {off : Nat} (ho : off < str.length) :
    Dec str (off + 1) (fun r => r.2 + 2) (fun s => parseNull s off) := by
  have hs : ∀ s, Same (off + 4) str s → parseNull s off = parseNull str off := fun s hs => by
    unfold parseNull
    rw [hs.part (le_refl _)]
  refine ⟨fun a e => ?_, fun m e => ?_⟩
  · dsimp only at e ⊢
    have h := e
    unfold parseNull at h
    split at h
    · cases h
      refine ⟨by simp, fun s h2 => .inl ?_⟩
      rw [← e]
      exact hs s (h2.mono (by simp))
    · cases h
  · dsimp only at e ⊢
    have h := e
    unfold parseNull at h
    split at h
    · cases h
    · rename_i n1
      cases h
      refine ⟨.null, off, ⟨by omega, rfl, n1, by simp⟩, by simp [Kind.reach], fun s h2 => .inl ?_⟩
      rw [hs s h2, e]

theorem lt_of_read {str : Str} {i : Nat} {c : Byte} (h : strAt str i = .ok c) (hc : c ≠ 0) : i < str.length := by
  have := strAt_le h
  rcases Nat.lt_or_ge i str.length with hl | hl
  · exact hl
  · obtain rfl : i = str.length := by omega
    rw [strAt_get] at h
    simp at h
    exact absurd h.symm hc

theorem parse_dec (str : Str) : ∀ (f : Nat) (g : Str → Nat), g str = f →
    (∀ off, Dec str (off + 1) (fun r => r.2 + 2) (fun s => parseNext s (g s) off)) ∧
    (∀ off, Dec str (off + 1) (fun r => r.2 + 2) (fun s => arrLoop s (g s) off)) ∧
    (∀ off m, Dec str (off + 1) (fun r => r.2 + 2) (fun s => objLoop s (g s) off m)) := by
  intro f
  induction f with
  | zero =>
    intro g hg
    refine ⟨fun off => ⟨fun a e => ?_, fun m e => ?_⟩, fun off => ⟨fun a e => ?_, fun m e => ?_⟩,
      fun off m => ⟨fun a e => ?_, fun m e => ?_⟩⟩ <;> dsimp only at e <;> rw [hg] at e
    · rw [parseNext] at e; cases e
    · rw [parseNext] at e; cases e
    · rw [arrLoop] at e; cases e
    · rw [arrLoop] at e; cases e
    · rw [objLoop] at e; cases e
    · rw [objLoop] at e; cases e
  | succ f ih =>
    intro g hg
    obtain ⟨ih1, ih2, ih3⟩ := ih (fun s => g s - 1) (by simp [hg])
    refine ⟨fun off => ?_, fun off => ?_, fun off m => ?_⟩
    · have hP : ∀ s, parseNext s (g s) off = parseNext s (g s - 1 + 1) off ∨ parseNext s (g s) off = .diverge := by
        intro s
        cases hgs : g s with
        | zero => exact .inr (by rw [parseNext])
        | succ n => exact .inl rfl
      refine Dec.of ?_ (hP str) hP
      simp only [parseNext]
      refine (Dec.skips off).bind fun o ho => (Dec.read (le_refl _)).bind fun c hc => ?_
      refine Dec.ite (fun h => ?_) fun h1 => Dec.ite (fun h => ?_) fun h2 => Dec.ite (fun h => ?_) fun h3 =>
        Dec.ite (fun h => ?_) fun h4 => Dec.ite (fun h => ?_) fun h5 => Dec.ite (fun h => ?_) fun h6 => ?_
      · refine ((Dec.skips (o + 1)).weaken (by omega) fun _ _ => le_refl _).bind fun o2 ho2 => (Dec.read (le_refl _)).bind
          fun c2 hc2 => Dec.ite (fun h => Dec.ok (by simp)) fun h => ?_
        exact (ih2 o2).bind fun r hr => Dec.ok (le_refl _)
      · refine ((Dec.skips (o + 1)).weaken (by omega) fun _ _ => le_refl _).bind fun o2 ho2 => (Dec.read (le_refl _)).bind
          fun c2 hc2 => Dec.ite (fun h => Dec.ok (by simp)) fun h => ?_
        exact (ih3 o2 []).bind fun r hr => Dec.ok (le_refl _)
      · exact parseString_dec o
      · exact parseBool_dec (lt_of_read (lift_ok hc) (by rcases h with rfl | rfl <;> decide))
      · exact parseNull_dec (lt_of_read (lift_ok hc) (by rw [h]; decide))
      · exact parseNumber_dec o
      · exact Dec.stop (about_start (lift_ok hc) h1 h2 h3 h4 h5 h6) (by simp [Kind.reach])
    · have hP : ∀ s, arrLoop s (g s) off = arrLoop s (g s - 1 + 1) off ∨ arrLoop s (g s) off = .diverge := by
        intro s
        cases hgs : g s with
        | zero => exact .inr (by rw [arrLoop])
        | succ n => exact .inl rfl
      refine Dec.of ?_ (hP str) hP
      simp only [arrLoop]
      refine (ih1 off).bind fun r hr => ?_
      refine ((Dec.skips' r.2).bind fun o ho => (Dec.read' (le_refl _)).bind fun c hc => ?_)
      refine Dec.ite (fun h => ?_) fun h1 => Dec.ite (fun h => Dec.ok (by simp)) fun h2 => ?_
      · exact ((ih2 (o + 1)).bind fun r hr => Dec.ok (le_refl _))
      · exact Dec.stop (about_element (lift_ok hc) h1 h2) (by simp [Kind.reach])
    · have hP : ∀ s, objLoop s (g s) off m = objLoop s (g s - 1 + 1) off m ∨ objLoop s (g s) off m = .diverge := by
        intro s
        cases hgs : g s with
        | zero => exact .inr (by rw [objLoop])
        | succ n => exact .inl rfl
      refine Dec.of ?_ (hP str) hP
      simp only [objLoop]
      refine (ih1 off).bind fun r hr => ?_
      refine ((Dec.skips' r.2).bind fun o ho => (Dec.read' (le_refl _)).bind fun c hc => ?_)
      refine Dec.ite (fun h => Dec.stop (about_colon (lift_ok hc) h) (by simp [Kind.reach])) fun _ => ?_
      refine (Dec.skips (o + 1)).bind fun o3 ho3 => (ih1 o3).bind fun r hr => ?_
      refine ((Dec.skips' r.2).bind fun o ho => (Dec.read' (le_refl _)).bind fun c hc => ?_)
      refine Dec.ite (fun h => ih3 (o + 1) _) fun h1 => Dec.ite (fun h => Dec.ok (by simp)) fun h2 => ?_
      exact Dec.stop (about_comma (lift_ok hc) h1 h2) (by simp [Kind.reach])

theorem load_stop {t m : Str} (h : loadJSON t = .stop m) : ∃ k p, About t k p m ∧
    ∀ t', Same (p + k.reach) t t' → loadJSON t' = .stop m := by
  have hs : parseNext t (2 * t.length + 3) 0 = .stop m := by
    unfold loadJSON at h
    cases hp : parseNext t (2 * t.length + 3) 0 with
    | stop m' => rw [hp] at h; cases h; rfl
    | _ => rw [hp] at h; cases h
  obtain ⟨k, p, ha, -, g⟩ := ((parse_dec t _ (fun s => 2 * s.length + 3) rfl).1 0).2 m hs
  refine ⟨k, p, ha, fun t' ht => ?_⟩
  unfold loadJSON
  rcases g t' ht with e | e
  · dsimp only at e
    rw [e]; rfl
  · exact absurd e (nd_of_drop (by rw [(parse_drop t' _).1]; exact (parse_nd t' _).1 0 (by omega) (by omega)))

end Json.Message
