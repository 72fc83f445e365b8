import Verif.Spec.JsonLoose
import Verif.Proof.JsonLoad
import Verif.Proof.JsonTotal
import Mathlib.Data.List.TakeWhile

/-! # Helper lemmas for the texts taken for JSON: tokens -/

namespace Json
open Cpp Spec

theorem strAt_at {str : Str} {off : Nat} {c : Byte} (h : strAt str off = .ok c) :
    (∃ r, At str off (c :: r)) ∨ (At str off [] ∧ c = 0) := by
  have hl := strAt_le h
  rcases Nat.lt_or_ge off str.length with hlt | hge
  · rw [strAt_ok hlt] at h
    cases h
    refine .inl ⟨str.drop (off + 1), hl, ?_⟩
    rw [List.drop_eq_getElem_cons hlt]
    simp [List.getD, hlt]
  · have e : off = str.length := by omega
    have ha : At str off [] := ⟨hl, by simp [e]⟩
    rw [ha.nil] at h
    cases h
    exact .inr ⟨ha, rfl⟩

theorem At.eq {str : Str} {off : Nat} {a b : Str} (h : At str off a) (h' : At str off b) : a = b := h.2.symm.trans h'.2

theorem At.back {str : Str} {off : Nat} {c : Byte} {r r' : Str} (h : At str off (c :: r)) (h' : At str (off + 1) r') :
    At str off (c :: r') := by
  rw [h.cons.2.eq h'] at h; exact h

theorem isspace_iff : ∀ c : Byte, isspace c = .ok true ↔ c = 32 ∨ (9 ≤ c ∧ c ≤ 13) := forall_byte (by decide +kernel)

theorem Spec.Blank.append {w w' : Str} (h : Blank w) (h' : Blank w') : Blank (w ++ w') := by
  intro c hc
  rcases List.mem_append.1 hc with hc | hc
  · exact h c hc
  · exact h' c hc

theorem blank_nil : Blank [] := by simp [Blank]

theorem skipGo_at {str : Str} : ∀ {f off o : Nat}, skipGo str f off = .ok o →
    ∃ w r, Blank w ∧ At str off (w ++ r) ∧ At str o r ∧ NonSp r ∧ o = off + w.length := by
  intro f
  induction f with
  | zero => intro off o h; cases h
  | succ f ih =>
    intro off o h
    unfold skipGo at h
    obtain ⟨c, hc, h⟩ := Out.bind_eq_ok.1 h
    obtain ⟨b, hb, h⟩ := Out.bind_eq_ok.1 h
    cases b with
    | true =>
      rw [if_pos rfl] at h
      obtain ⟨w, r, h1, h2, h3, h4, h5⟩ := ih h
      rcases strAt_at hc with ⟨r', ha⟩ | ⟨-, rfl⟩
      · refine ⟨c :: w, r, ?_, ha.back h2, h3, h4, by simp; omega⟩
        intro x hx
        rcases List.mem_cons.1 hx with rfl | hx
        · exact (isspace_iff x).1 hb
        · exact h1 x hx
      · exact absurd hb (by decide)
    | false =>
      rw [if_neg (by simp)] at h
      cases h
      rcases strAt_at hc with ⟨r', ha⟩ | ⟨ha, -⟩
      · exact ⟨[], c :: r', blank_nil, ha, ha, nonSp_of hb, rfl⟩
      · exact ⟨[], [], blank_nil, ha, ha, by simp [NonSp], rfl⟩

theorem skip_at {str : Str} {off o : Nat} (h : skip str off = .ok o) :
    ∃ w r, Blank w ∧ At str off (w ++ r) ∧ At str o r ∧ NonSp r ∧ o = off + w.length := skipGo_at h

theorem skipGo_blank {str : Str} (w : Str) : ∀ {f off : Nat} {t : Str}, At str off (w ++ t) → Blank w → NonSp t → w.length < f →
    skipGo str f off = .ok (off + w.length) := by
  induction w with
  | nil =>
    intro f off t h _ hn hf
    exact skipGo_ok [] h (by simp [Ws]) hn hf
  | cons c w ih =>
    intro f off t h hw hn hf
    obtain ⟨f, rfl⟩ : ∃ g, f = g + 1 := ⟨f - 1, by simp at hf; omega⟩
    unfold skipGo
    rw [List.cons_append] at h
    rw [h.cons.1]
    simp only [Out.ok_bind]
    rw [(isspace_iff c).2 (hw c (by simp))]
    simp only [Out.ok_bind, if_true]
    rw [ih h.cons.2 (fun x hx => hw x (by simp [hx])) hn (by simp at hf; omega), List.length_cons]
    congr 1; omega

theorem skip_blank {str : Str} {w : Str} {off : Nat} {t : Str} (h : At str off (w ++ t)) (hw : Blank w) (hn : NonSp t) :
    skip str off = .ok (off + w.length) := by
  have := h.len
  rw [List.length_append] at this
  exact skipGo_blank w h hw hn (by omega)

/-! ## strings -/

theorem hex_iff : ∀ c : Byte, isHex c = true ↔ Hex c := by
  unfold Hex
  exact forall_byte (by decide +kernel)

theorem hexGo_at {str : Str} : ∀ {n off : Nat} {h : Str}, off ≤ str.length → hexGo str n off = .ok h →
    h.length = n ∧ (∀ c ∈ h, Hex c) ∧ ∃ r, At str off (h ++ r) := by
  intro n
  induction n with
  | zero =>
    intro off h hl e
    cases e
    exact ⟨rfl, by simp, str.drop off, hl, rfl⟩
  | succ n ih =>
    intro off h hl e
    unfold hexGo at e
    obtain ⟨c, hc, e⟩ := Out.bind_eq_ok.1 e
    split at e
    · rename_i hx
      obtain ⟨h', e', e⟩ := Out.bind_eq_ok.1 e
      cases e
      rcases strAt_at hc with ⟨r, ha⟩ | ⟨-, rfl⟩
      · obtain ⟨k1, k2, r', k3⟩ := ih ha.cons.2.1 e'
        refine ⟨by simp [k1], ?_, r', ha.back k3⟩
        intro x hx'
        rcases List.mem_cons.1 hx' with rfl | hx'
        · exact (hex_iff x).1 hx
        · exact k2 x hx'
      · exact absurd hx (by decide)
    · cases e

theorem hexGo_hex {str : Str} (h : Str) : ∀ {off : Nat} {r : Str}, At str off (h ++ r) → (∀ c ∈ h, Hex c) →
    hexGo str h.length off = .ok h := by
  induction h with
  | nil => intro off r _ _; rfl
  | cons c h ih =>
    intro off r ha hh
    rw [List.cons_append] at ha
    rw [List.length_cons]
    unfold hexGo
    rw [ha.cons.1]
    simp only [Out.ok_bind]
    rw [if_pos ((hex_iff c).2 (hh c (by simp))), ih ha.cons.2 (fun x hx => hh x (by simp [hx]))]
    rfl

theorem unescape_cases : ∀ e : Byte, e ≠ byte 'u' →
    (e, unescape e) ∈ escapes ∨ ((∀ p ∈ escapes, p.1 ≠ e) ∧ unescape e = byte '\\') := forall_byte (by decide +kernel)

theorem unescape_unknown {e : Byte} (h : ∀ p ∈ escapes, p.1 ≠ e) (hu : e ≠ byte 'u') : unescape e = byte '\\' := by
  rcases unescape_cases e hu with hm | hm
  · exact absurd rfl (h _ hm)
  · exact hm.2

theorem stringGo_at {str : Str} : ∀ {f off : Nat} {val s : Str} {o : Nat}, stringGo str f off val = .ok (s, o) →
    ∃ t s' r, LBody t s' ∧ s = val ++ s' ∧ At str off (t ++ byte '"' :: r) ∧ At str o r := by
  intro f
  induction f with
  | zero => intro off val s o h; cases h
  | succ f ih =>
    intro off val s o h
    unfold stringGo at h
    obtain ⟨c, hc, h⟩ := Out.bind_eq_ok.1 h
    split at h
    · rename_i hq
      subst hq
      cases h
      rcases strAt_at hc with ⟨r, ha⟩ | ⟨-, h0⟩
      · exact ⟨[], [], r, .nil, by simp, ha, ha.cons.2⟩
      · exact absurd h0 (by decide)
    · rename_i hq
      split at h
      · rename_i hb
        subst hb
        obtain ⟨e, he, h⟩ := Out.bind_eq_ok.1 h
        rcases strAt_at hc with ⟨r, ha⟩ | ⟨-, h0⟩
        swap
        · exact absurd h0 (by decide)
        split at h
        · rename_i hu
          subst hu
          obtain ⟨hx, hhx, h⟩ := Out.bind_eq_ok.1 h
          rcases strAt_at he with ⟨r2, ha2⟩ | ⟨-, h0⟩
          swap
          · exact absurd h0 (by decide)
          obtain ⟨k1, k2, r3, k3⟩ := hexGo_at ha2.cons.2.1 hhx
          obtain ⟨t, s', r', b, e1, e2, e3⟩ := ih h
          refine ⟨_, _, r', .unicode hx k1 k2 b, by rw [e1]; simp [bytes], ?_, e3⟩
          have k4 := k3.append
          rw [k1] at k4
          have : r3 = t ++ byte '"' :: r' := k4.eq e2
          rw [this] at k3
          simpa using ha.back (ha2.back k3)
        · rename_i hu
          obtain ⟨t, s', r', b, e1, e2, e3⟩ := ih h
          rcases strAt_at he with ⟨r2, ha2⟩ | ⟨ha2, -⟩
          · have hfin : At str off (byte '\\' :: e :: t ++ byte '"' :: r') := by
              simpa using ha.back (ha2.back e2)
            rcases unescape_cases e hu with hm | ⟨hm, hm'⟩
            · exact ⟨_, _, r', .escape e _ hm b, by rw [e1]; simp, hfin, e3⟩
            · exact ⟨_, _, r', .unknown e hm hu b, by rw [e1, hm']; simp, hfin, e3⟩
          · have := ha2.len
            have := e2.1
            simp at *
            omega
      · rename_i hb
        obtain ⟨t, s', r', b, e1, e2, e3⟩ := ih h
        rcases strAt_at hc with ⟨r, ha⟩ | ⟨ha, -⟩
        · exact ⟨_, _, r', .plain c hq hb b, by rw [e1]; simp, ha.back e2, e3⟩
        · have := ha.len
          have := e2.1
          simp at *
          omega

theorem stringGo_loose {str : Str} {t s : Str} (b : LBody t s) : ∀ {f off : Nat} {val r : Str},
    At str off (t ++ byte '"' :: r) → t.length < f →
    stringGo str f off val = .ok (val ++ s, off + t.length + 1) := by
  induction b with
  | nil => intro f off val r h hf; exact stringGo_ok .nil h hf
  | plain c h1 h2 b ih =>
    intro f off val r h hf
    obtain ⟨f, rfl⟩ : ∃ g, f = g + 1 := ⟨f - 1, by simp at hf; omega⟩
    unfold stringGo
    rw [List.cons_append] at h
    rw [h.cons.1]
    simp only [Out.ok_bind]
    rw [if_neg h1, if_neg h2, ih h.cons.2 (by simp at hf; omega)]
    simp; omega
  | escape e c he b ih =>
    intro f off val r h hf
    obtain ⟨f, rfl⟩ : ∃ g, f = g + 1 := ⟨f - 1, by simp at hf; omega⟩
    unfold stringGo
    rw [List.cons_append, List.cons_append] at h
    rw [h.cons.1]
    simp only [Out.ok_bind]
    rw [if_neg (by decide), if_pos trivial, h.cons.2.cons.1]
    simp only [Out.ok_bind]
    have := escapes_ne _ he
    rw [if_neg this.1, ih h.cons.2.cons.2 (by simp at hf; omega), this.2]
    simp; omega
  | unknown e he hu b ih =>
    intro f off val r h hf
    obtain ⟨f, rfl⟩ : ∃ g, f = g + 1 := ⟨f - 1, by simp at hf; omega⟩
    unfold stringGo
    rw [List.cons_append, List.cons_append] at h
    rw [h.cons.1]
    simp only [Out.ok_bind]
    rw [if_neg (by decide), if_pos trivial, h.cons.2.cons.1]
    simp only [Out.ok_bind]
    rw [if_neg hu, ih h.cons.2.cons.2 (by simp at hf; omega), unescape_unknown he hu]
    simp; omega
  | unicode hx hl hh b ih =>
    intro f off val r h hf
    obtain ⟨f, rfl⟩ : ∃ g, f = g + 1 := ⟨f - 1, by simp at hf; omega⟩
    unfold stringGo
    rw [List.cons_append, List.cons_append] at h
    rw [h.cons.1]
    simp only [Out.ok_bind]
    rw [if_neg (by decide), if_pos trivial, h.cons.2.cons.1]
    simp only [Out.ok_bind, if_true]
    have ha := h.cons.2.cons.2
    rw [List.append_assoc] at ha
    have hg := hexGo_hex hx ha hh
    rw [hl] at hg
    have ha' := ha.append
    rw [hl] at ha'
    rw [hg]
    simp only [Out.ok_bind]
    rw [ih ha' (by simp at hf; omega)]
    simp [bytes, hl]; omega

/-! ## numbers -/

theorem Spec.LNum.Ok.chars {n : LNum} (h : n.Ok) : ∀ c ∈ n.text, c = byte '-' ∨ c = byte '.' ∨ (48 ≤ c ∧ c ≤ 57) := by
  intro c hc
  unfold LNum.text at hc
  rw [List.mem_append, List.mem_append, List.mem_append] at hc
  rcases hc with ((hc | hc) | hc) | hc
  · left
    split at hc <;> simp at hc; exact hc
  · exact .inr (.inr (h.1 c hc))
  · cases hf : n.frac with
    | none => rw [hf] at hc; simp at hc
    | some f =>
      rw [hf] at hc
      rcases List.mem_cons.1 hc with rfl | hc
      · exact .inr (.inl rfl)
      · exact .inr (.inr (h.2.1 f (by rw [hf]; rfl) c hc))
  · exact h.2.2.1 c hc

theorem Spec.LNum.Ok.head {n : LNum} (h : n.Ok) : ∃ c t, n.text = c :: t ∧ (isDigit c = true ∨ c = byte '-') := by
  unfold LNum.text
  cases hn : n.neg with
  | true => exact ⟨byte '-', _, rfl, .inr rfl⟩
  | false =>
    cases hip : n.ip with
    | nil => exact absurd hip (h.2.2.2.2 hn)
    | cons c t => exact ⟨c, _, rfl, .inl ((digit_iff c).2 (h.1 c (by rw [hip]; simp)))⟩

theorem not_digit {c : Byte} (h : ¬ (48 ≤ c ∧ c ≤ 57)) : isDigit c = false := by
  rw [← Bool.not_eq_true, digit_iff]; exact h

theorem Spec.LNum.Ok.decimal {n : LNum} (h : n.Ok) :
    decimal (n.ip ++ ((match n.frac with | none => [] | some f => byte '.' :: f) ++ n.junk)) =
      (nat n.ip : ℚ) + match n.frac with | none => 0 | some f => (nat f : ℚ) / 10 ^ f.length := by
  unfold Json.decimal
  cases hf : n.frac with
  | none =>
    simp only [List.nil_append]
    have h1 := takeWhile_digits (s := n.ip) (r := n.junk) h.1 (fun c hc => not_digit (h.2.2.2.1 c hc).1)
    rw [h1.1, h1.2, natVal_eq]
    cases hj : n.junk with
    | nil => simp [natVal]
    | cons c j =>
      have := (h.2.2.2.1 c (by rw [hj]; rfl)).2 hf
      simp [this, natVal]
  | some f =>
    have h1 := takeWhile_digits (s := n.ip) (r := byte '.' :: f ++ n.junk) h.1
      (by intro c hc; simp at hc; subst hc; decide)
    have h2 := takeWhile_digits (s := f) (r := n.junk) (h.2.1 f (by rw [hf]; rfl))
      (fun c hc => not_digit (h.2.2.2.1 c hc).1)
    dsimp only
    rw [h1.1, h1.2, natVal_eq]
    simp only [List.cons_append, if_true]
    rw [h2.1, natVal_eq]

theorem castDouble_loose {n : LNum} (h : n.Ok) : castDouble n.text = .ok n.value := by
  have hd := h.decimal
  unfold LNum.text LNum.value
  rw [List.append_assoc, List.append_assoc]
  refine Eq.trans ?_ (congrArg (fun q : ℚ => Out.ok ((if n.neg then -1 else 1) * q)) hd)
  generalize ((match n.frac with | none => [] | some f => byte '.' :: f) ++ n.junk) = fr
  cases hn : n.neg with
  | true =>
    show castDouble (byte '-' :: _) = _
    unfold castDouble
    dsimp only
    rw [if_pos rfl]; simp
  | false =>
    cases hip : n.ip with
    | nil => exact absurd hip (h.2.2.2.2 hn)
    | cons c t =>
      show castDouble (c :: (t ++ fr)) = _
      unfold castDouble
      dsimp only
      rw [if_neg (digit_not (h.1 c (by rw [hip]; simp))).1]; simp

theorem castInt_loose {n : LNum} (h : n.Ok) (hp : byte '.' ∉ n.text) {i : Int} (hv : n.value = i) :
    castInt n.text = .ok (max (-2147483648) (min 2147483647 i)) := by
  have hf : n.frac = none := by
    cases hf : n.frac with
    | none => rfl
    | some f => exact absurd (by unfold LNum.text; rw [hf]; simp) hp
  have hval : (if n.neg then -(nat n.ip : Int) else nat n.ip) = i := by
    have : n.value = ((if n.neg then -(nat n.ip : Int) else nat n.ip : Int) : ℚ) := by
      unfold LNum.value
      rw [hf]
      cases n.neg <;> simp
    rw [hv] at this
    exact_mod_cast this.symm
  have htext : n.text = (if n.neg then [byte '-'] else []) ++ (n.ip ++ n.junk) := by
    unfold LNum.text; rw [hf]; simp
  have htw := (takeWhile_digits (s := n.ip) (r := n.junk) h.1 (fun c hc => not_digit (h.2.2.2.1 c hc).1)).1
  rw [htext]
  cases hn : n.neg with
  | true =>
    rw [hn] at hval
    show castInt (byte '-' :: (n.ip ++ n.junk)) = _
    unfold castInt
    dsimp only
    rw [if_pos rfl, htw, natVal_eq, ← hval]; rfl
  | false =>
    rw [hn] at hval
    show castInt (n.ip ++ n.junk) = _
    cases hip : n.ip with
    | nil => exact absurd hip (h.2.2.2.2 hn)
    | cons c t =>
      rw [hip] at htw hval
      rw [List.cons_append] at htw ⊢
      unfold castInt
      dsimp only
      rw [if_neg (digit_not (h.1 c (by rw [hip]; simp))).1, htw, natVal_eq, ← hval]; rfl

theorem tw_mem {s : Str} : ∀ c ∈ s.takeWhile isDigit, 48 ≤ c ∧ c ≤ 57 := fun c hc =>
  (digit_iff c).1 (List.mem_takeWhile_imp hc)

theorem dw_head {s : Str} : ∀ c ∈ (s.dropWhile isDigit).head?, ¬ (48 ≤ c ∧ c ≤ 57) := by
  intro c hc hd
  have := List.head?_dropWhile_not isDigit s
  rw [Option.mem_def.1 hc] at this
  simp [(digit_iff c).2 hd] at this

/-- every sequence of digits, dashes and points is the text of a number -/
theorem parseLNum {s : Str} (hc : ∀ c ∈ s, c = byte '-' ∨ c = byte '.' ∨ (48 ≤ c ∧ c ≤ 57))
    (hh : ∀ c ∈ s.head?, isDigit c = true ∨ c = byte '-') (hne : s ≠ []) : ∃ n : LNum, n.Ok ∧ s = n.text := by
  -- the part after the sign
  have key : ∀ neg (u : Str), (∀ c ∈ u, c = byte '-' ∨ c = byte '.' ∨ (48 ≤ c ∧ c ≤ 57)) →
      (neg = false → ∃ c t, u = c :: t ∧ isDigit c = true) →
      ∃ n : LNum, n.Ok ∧ (if neg then [byte '-'] else []) ++ u = n.text := by
    intro neg u hu hd
    have hsplit : u = u.takeWhile isDigit ++ u.dropWhile isDigit := (List.takeWhile_append_dropWhile).symm
    have hip : neg = false → u.takeWhile isDigit ≠ [] := by
      intro h
      obtain ⟨c, t, rfl, hc⟩ := hd h
      simp [hc]
    have hu' : ∀ c ∈ u.dropWhile isDigit, c = byte '-' ∨ c = byte '.' ∨ (48 ≤ c ∧ c ≤ 57) :=
      fun c hc => hu c ((List.dropWhile_sublist _).subset hc)
    have hw := dw_head (s := u)
    cases hdw : u.dropWhile isDigit with
    | nil =>
      refine ⟨⟨neg, u.takeWhile isDigit, none, []⟩, ⟨tw_mem, by simp, by simp, by simp, hip⟩, ?_⟩
      unfold LNum.text
      conv_lhs => rw [hsplit, hdw]
      simp
    | cons c t =>
      rw [hdw] at hu' hw
      by_cases hp : c = byte '.'
      · subst hp
        refine ⟨⟨neg, u.takeWhile isDigit, some (t.takeWhile isDigit), t.dropWhile isDigit⟩,
          ⟨tw_mem, ?_, ?_, ?_, hip⟩, ?_⟩
        · intro f hf
          simp at hf
          subst hf
          exact tw_mem
        · intro c hc
          exact hu' c (by simp [(List.dropWhile_sublist _).subset hc])
        · intro c hc
          exact ⟨dw_head c hc, by simp⟩
        · unfold LNum.text
          conv_lhs => rw [hsplit, hdw, ← List.takeWhile_append_dropWhile (p := isDigit) (l := t)]
          simp
      · refine ⟨⟨neg, u.takeWhile isDigit, none, c :: t⟩, ⟨tw_mem, by simp, hu', ?_, hip⟩, ?_⟩
        · intro x hx
          refine ⟨hw x hx, fun _ => ?_⟩
          simp at hx
          rw [← hx]
          exact hp
        · unfold LNum.text
          conv_lhs => rw [hsplit, hdw]
          simp
  cases s with
  | nil => exact absurd rfl hne
  | cons c t =>
    rcases hh c rfl with hd | rfl
    · exact key false (c :: t) hc (fun _ => ⟨c, t, rfl, hd⟩)
    · exact key true t (fun x hx => hc x (by simp [hx])) (by simp)

theorem numGo_at {str : Str} : ∀ {f off : Nat} {val v : Str} {d d' : Bool} {c : Byte} {o : Nat},
    numGo str f off val d = .ok (v, d', c, o) →
    ∃ cs, v = val ++ cs ∧ (∀ c ∈ cs, c = byte '-' ∨ c = byte '.' ∨ (48 ≤ c ∧ c ≤ 57)) ∧
      d' = (d || decide (byte '.' ∈ cs)) ∧ o = off + cs.length + 1 ∧
      ((∃ r, At str off (cs ++ c :: r)) ∨ (At str off cs ∧ c = 0)) ∧
      ¬ (c = byte '-' ∨ isDigit c = true) ∧ c ≠ byte '.' := by
  intro f
  induction f with
  | zero => intro off val v d d' c o h; cases h
  | succ f ih =>
    intro off val v d d' c o h
    unfold numGo at h
    obtain ⟨x, hx, h⟩ := Out.bind_eq_ok.1 h
    have stop : ∀ {cs : Str}, x ≠ 0 → ((∃ r, At str (off + 1) (cs ++ c :: r)) ∨ (At str (off + 1) cs ∧ c = 0)) →
        ((∃ r, At str off (x :: cs ++ c :: r)) ∨ (At str off (x :: cs) ∧ c = 0)) := by
      intro cs h0 hcs
      rcases strAt_at hx with ⟨r, ha⟩ | ⟨-, h1⟩
      · rcases hcs with ⟨r', h'⟩ | ⟨h', h''⟩
        · exact .inl ⟨r', ha.back h'⟩
        · exact .inr ⟨ha.back h', h''⟩
      · exact absurd h1 h0
    split at h
    · rename_i hd
      obtain ⟨cs, e1, e2, e3, e4, e5, e6⟩ := ih h
      refine ⟨x :: cs, by rw [e1]; simp, ?_, ?_, by simp; omega, stop ?_ e5, e6⟩
      · intro y hy
        rcases List.mem_cons.1 hy with rfl | hy
        · rcases hd with rfl | hd
          · exact .inl rfl
          · exact .inr (.inr ((digit_iff y).1 hd))
        · exact e2 y hy
      · have : byte '.' ≠ x := by
          rcases hd with rfl | hd
          · decide
          · exact (digit_not ((digit_iff x).1 hd)).2.1.symm
        rw [e3]; simp [this]
      · rintro rfl
        revert hd; decide
    · rename_i hd
      split at h
      · rename_i hp
        subst hp
        obtain ⟨cs, e1, e2, e3, e4, e5, e6⟩ := ih h
        refine ⟨byte '.' :: cs, by rw [e1]; simp, ?_, by rw [e3]; simp, by simp; omega, stop (by decide) e5, e6⟩
        intro y hy
        rcases List.mem_cons.1 hy with rfl | hy
        · exact .inr (.inl rfl)
        · exact e2 y hy
      · rename_i hp
        cases h
        refine ⟨[], by simp, by simp, by simp, rfl, ?_, hd, hp⟩
        rcases strAt_at hx with ⟨r, ha⟩ | ⟨ha, h1⟩
        · exact .inl ⟨r, ha⟩
        · exact .inr ⟨ha, h1⟩

/-- a character that may follow a number -/
def EndC (c : Byte) : Prop := (c = 32 ∨ (9 ≤ c ∧ c ≤ 13)) ∨ c = byte ',' ∨ c = byte ']' ∨ c = byte '}' ∨ c = 0

theorem notEnd_iff : ∀ c : Byte, notEnd c = .ok false ↔ EndC c := by
  unfold EndC
  exact forall_byte (by decide +kernel)

theorem notEnd_bool {c : Byte} {b : Bool} (h : notEnd c = .ok b) (hb : b = false) : EndC c := (notEnd_iff c).1 (hb ▸ h)

theorem endC_facts : ∀ c : Byte, EndC c → ¬ (c = byte '-' ∨ isDigit c = true) ∧ c ≠ byte '.' ∧
    ¬ (c = byte 'E' ∨ c = byte 'e') ∧ c ≠ byte ':' := by
  unfold EndC
  exact forall_byte (by decide +kernel)

theorem expGo_at {str : Str} : ∀ {f off : Nat} {e e' : Str} {c : Byte} {o : Nat},
    expGo str f off e = .ok (e', c, o) →
    ∃ ds, e' = e ++ ds ∧ (∀ c ∈ ds, 48 ≤ c ∧ c ≤ 57) ∧ o = off + ds.length ∧ EndC c ∧
      ((∃ r, At str off (ds ++ c :: r)) ∨ (At str off ds ∧ c = 0)) := by
  intro f
  induction f with
  | zero => intro off e e' c o h; cases h
  | succ f ih =>
    intro off e e' c o h
    unfold expGo at h
    obtain ⟨x, hx, h⟩ := Out.bind_eq_ok.1 h
    split at h
    · rename_i hd
      obtain ⟨ds, e1, e2, e3, e4, e5⟩ := ih h
      refine ⟨x :: ds, by rw [e1]; simp, ?_, by simp; omega, e4, ?_⟩
      · intro y hy
        rcases List.mem_cons.1 hy with rfl | hy
        · exact (digit_iff y).1 hd
        · exact e2 y hy
      · rcases strAt_at hx with ⟨r, ha⟩ | ⟨-, rfl⟩
        · rcases e5 with ⟨r', h'⟩ | ⟨h', h''⟩
          · exact .inl ⟨r', ha.back h'⟩
          · exact .inr ⟨ha.back h', h''⟩
        · exact absurd hd (by decide)
    · obtain ⟨b, hb, h⟩ := Out.bind_eq_ok.1 h
      split at h
      · cases h
      · rename_i hb'
        cases h
        refine ⟨[], by simp, by simp, rfl, notEnd_bool hb (by simpa using hb'), ?_⟩
        rcases strAt_at hx with ⟨r, ha⟩ | ⟨ha, h1⟩
        · exact .inl ⟨r, ha⟩
        · exact .inr ⟨ha, h1⟩

theorem expGo_loose {str : Str} (ds : Str) : ∀ {f off : Nat} {e r : Str}, At str off (ds ++ r) → (∀ c ∈ ds, 48 ≤ c ∧ c ≤ 57) →
    EndsNum r → ds.length < f → expGo str f off e = .ok (e ++ ds, r.head?.getD 0, off + ds.length) := by
  induction ds with
  | nil =>
    intro f off e r h _ hr hf
    obtain ⟨f, rfl⟩ : ∃ g, f = g + 1 := ⟨f - 1, by simp at hf; omega⟩
    unfold expGo
    cases r with
    | nil =>
      rw [List.append_nil] at h
      rw [h.nil]
      simp only [Out.ok_bind]
      rw [if_neg (by decide), (notEnd_iff 0).2 (by unfold EndC; simp)]
      simp
    | cons c r =>
      have hc : EndC c := hr c rfl
      have hn : ¬ isDigit c = true := fun h => (endC_facts c hc).1 (.inr h)
      rw [(h.cons (t := r)).1]
      simp only [Out.ok_bind]
      rw [if_neg hn, (notEnd_iff c).2 hc]
      simp
  | cons c ds ih =>
    intro f off e r h hd hr hf
    obtain ⟨f, rfl⟩ : ∃ g, f = g + 1 := ⟨f - 1, by simp at hf; omega⟩
    unfold expGo
    rw [List.cons_append] at h
    rw [h.cons.1]
    simp only [Out.ok_bind]
    rw [if_pos ((digit_iff c).2 (hd c (by simp))), ih h.cons.2 (fun x hx => hd x (by simp [hx])) hr (by simp at hf; omega)]
    simp; omega

/-- the exponent as read by `stringCast<double>` -/
theorem castDouble_exp {x : Byte} {ds : Str} (hd : ∀ c ∈ ds, 48 ≤ c ∧ c ≤ 57) (hx : x = byte '-' ∨ ds ≠ []) :
    castDouble ((if x = byte '-' then [x] else []) ++ ds) =
      .ok ((if x = byte '-' then -(nat ds : Int) else nat ds : Int) : ℚ) := by
  have h1 := takeWhile_digits (s := ds) (r := []) hd (by simp)
  simp only [List.append_nil] at h1
  have hdec : decimal ds = (nat ds : ℚ) := by
    unfold decimal
    rw [h1.1, h1.2, natVal_eq]
    simp [natVal]
  split
  · rename_i e
    subst e
    show castDouble (byte '-' :: ds) = _
    unfold castDouble
    dsimp only
    rw [if_pos rfl, hdec]; simp
  · rename_i e
    cases ds with
    | nil => simp [e] at hx
    | cons c t =>
      show castDouble (c :: t) = _
      unfold castDouble
      dsimp only
      rw [if_neg (digit_not (hd c (by simp))).1, hdec]; simp

/-- where and how the reading of a number ends -/
inductive NumEnd (str : Str) (v : Value) (o : Nat) (d r : Str) : Prop
  | here (h : Numeral d v) (c : Byte) (r' : Str) (hr : r = c :: r') (hc : EndC c) (h0 : c ≠ 0) (ho : At str o r)
  | nul (h : Numeral d v) (r' : Str) (hr : r = 0 :: r') (ho : At str o r')
  | out (h : Numeral d v) (hr : r = []) (ho : o = str.length + 1)
  | exp (h : Expo d v) (hr : EndsNum r) (c : Byte) (ho : strAt str o = .ok c) (hc : isDigit c = true ∨ c = byte '-' ∨ c = 0)

theorem endsNum_of {str : Str} {off : Nat} {cs : Str} {c : Byte} (h : (∃ r, At str off (cs ++ c :: r)) ∨ (At str off cs ∧ c = 0))
    (hc : EndC c) : ∃ r, At str off (cs ++ r) ∧ EndsNum r ∧ r.head?.getD 0 = c := by
  rcases h with ⟨r, h⟩ | ⟨h, rfl⟩
  · refine ⟨c :: r, h, ?_, rfl⟩
    intro x hx; simp at hx; subst hx; exact hc
  · exact ⟨[], by simpa using h, by simp [EndsNum], rfl⟩

theorem parseNumber_at {str : Str} {off : Nat} {c0 : Byte} (h0 : strAt str off = .ok c0)
    (hc0 : isDigit c0 = true ∨ c0 = byte '-') {v : Value} {o : Nat} (h : parseNumber str off = .ok (v, o)) :
    ∃ d r, At str off (d ++ r) ∧ NumEnd str v o d r := by
  unfold parseNumber at h
  obtain ⟨⟨s, isD, c, o1⟩, hr, h⟩ := Out.bind_eq_ok.1 h
  obtain ⟨⟨es, k, c', o2⟩, hr', h⟩ := Out.bind_eq_ok.1 h
  have hne := (numGo_first h0 hc0 hr).2
  obtain ⟨cs, e1, e2, e3, e4, e5, e6, e7⟩ := numGo_at hr
  rw [List.nil_append] at e1
  dsimp only at e1 hne hr' h
  subst e1
  have hhead : ∀ c ∈ s.head?, isDigit c = true ∨ c = byte '-' := by
    intro y hy
    cases s with
    | nil => simp at hy
    | cons z s =>
      simp at hy
      subst hy
      have : strAt str off = .ok z := by
        rcases e5 with ⟨r, ha⟩ | ⟨ha, -⟩
        · exact (ha.cons (t := s ++ c :: r)).1
        · exact ha.cons.1
      rw [h0] at this
      cases this
      exact hc0
  obtain ⟨n, hn, hs⟩ := parseLNum e2 hhead hne
  have hcd := castDouble_loose hn
  rw [← hs] at hcd
  by_cases hE : c = byte 'E' ∨ c = byte 'e'
  · rw [if_pos hE] at hr'
    split at hr'
    · cases hr'
    · rename_i hlen
      obtain ⟨x, hx, hr'⟩ := Out.bind_eq_ok.1 hr'
      obtain ⟨⟨es', c2, o3⟩, hex, hr'⟩ := Out.bind_eq_ok.1 hr'
      obtain ⟨q, hq, hr'⟩ := Out.bind_eq_ok.1 hr'
      obtain ⟨k', hk, hr'⟩ := Out.bind_eq_ok.1 hr'
      dsimp only at hq hr'
      cases hr'
      obtain ⟨ds, f1, f2, f3, f4, f5⟩ := expGo_at hex
      subst f1
      have hcz : c ≠ 0 := by rintro rfl; revert hE; decide
      obtain ⟨r1, ha1⟩ : ∃ r, At str off (s ++ c :: r) := by
        rcases e5 with h | ⟨-, h⟩
        · exact h
        · exact absurd h hcz
      have ha2 : At str o1 r1 := by
        rw [e4]; exact ha1.append.cons.2
      obtain ⟨r2, ha3⟩ : ∃ r, At str o1 (x :: r) := by
        rcases strAt_at hx with h | ⟨h, -⟩
        · exact h
        · exact absurd (by simpa using h.len) hlen
      obtain ⟨r, ha4, hre, hrc⟩ := endsNum_of f5 f4
      have hr1 : r1 = x :: (ds ++ r) := by
        rw [ha2.eq ha3, ha3.cons.2.eq ha4]
      have hdx : x = byte '-' ∨ ds ≠ [] := by
        by_contra hcon
        push Not at hcon
        rw [if_neg hcon.1, hcon.2] at hq
        cases hq
      rw [castDouble_exp f2 hdx] at hq
      cases hq
      have hk' := int_eq_ok.1 hk
      simp only [Rat.num_intCast] at hk'
      refine ⟨s ++ c :: x :: ds, r, ?_, ?_⟩
      · rw [hr1] at ha1
        simpa using ha1
      · have hes : (if x = byte '-' then [x] else []) ++ ds ≠ [] := by
          rcases hdx with rfl | h
          · simp
          · simp [h]
        rw [if_pos (.inr hes), hcd] at h
        simp only [Out.ok_bind] at h
        have hv := Out.ok.inj h
        obtain ⟨hv, ho⟩ := Prod.mk.inj hv
        have hexpo : Expo (s ++ c :: x :: ds) v :=
          ⟨n, c, x, ds, k, hn, hE.symm, f2, hdx, hk'.2.symm, by rw [← hk'.2]; exact hk'.1, by rw [hs], hv.symm⟩
        have hat : ∀ c' ∈ (x :: ds).getLast?, strAt str (o2 - 1 : Nat) = .ok c' := by
          intro y hy
          rw [f3]
          have hy' := List.getLast?_eq_some_iff.1 (Option.mem_def.1 hy)
          obtain ⟨ys, hys⟩ := hy'
          have hall : At str o1 (ys ++ y :: r) := by
            rw [hr1, show x :: (ds ++ r) = (x :: ds) ++ r by rfl, hys] at ha2
            simpa using ha2
          have hlen' := congrArg List.length hys
          simp at hlen'
          have := hall.append.cons.1
          rwa [show o1 + 1 + ds.length - 1 = o1 + ys.length by omega]
        by_cases hz : c' = 0
        · rw [if_neg (by simp [hz])] at ho
          refine .exp hexpo hre 0 ?_ (.inr (.inr rfl))
          rw [← ho, f3]
          rcases f5 with ⟨r', h'⟩ | ⟨h', -⟩
          · have := h'.append.cons.1
            rwa [hz] at this
          · have := (At.append (a := ds) (b := []) (by simpa using h')).nil
            exact this
        · rw [if_pos (by simpa using hz)] at ho
          obtain ⟨y, hy⟩ : ∃ y, y ∈ (x :: ds).getLast? := by
            rw [List.getLast?_eq_some_getLast (by simp)]
            exact ⟨_, rfl⟩
          refine .exp hexpo hre y ?_ ?_
          · rw [← ho]; exact hat y hy
          · have hm := List.mem_of_getLast? hy
            rcases List.eq_nil_or_concat' ds with rfl | ⟨ds', z, rfl⟩
            · simp at hdx hm
              subst hm
              exact .inr (.inl hdx)
            · have : y = z := by
                rw [show x :: (ds' ++ [z]) = (x :: ds') ++ [z] by simp, List.getLast?_concat] at hy
                exact (Option.some.inj hy).symm
              subst this
              exact .inl ((digit_iff y).2 (f2 y (by simp)))
  · rw [if_neg hE] at hr'
    obtain ⟨b, hb, hr'⟩ := Out.bind_eq_ok.1 hr'
    split at hr'
    · cases hr'
    · rename_i hb'
      cases hr'
      have hc := notEnd_bool hb (by simpa using hb')
      have hnum : Numeral s v := by
        refine ⟨n, hn, hs, ?_⟩
        by_cases hp : byte '.' ∈ s
        · rw [e3, if_pos (by simp [hp]), hcd] at h
          simp only [Out.ok_bind, zpow_zero, mul_one] at h
          exact .inl ⟨hp, (Prod.mk.inj (Out.ok.inj h)).1.symm⟩
        · have hfr : n.frac = none := by
            cases hf : n.frac with
            | none => rfl
            | some f => exact absurd (by rw [hs]; unfold LNum.text; rw [hf]; simp) hp
          have hval : n.value = ((if n.neg then -(nat n.ip : Int) else nat n.ip : Int) : ℚ) := by
            unfold LNum.value
            rw [hfr]
            cases n.neg <;> simp
          have hci := castInt_loose hn (by rw [← hs]; exact hp) hval
          rw [← hs] at hci
          rw [e3, if_neg (by simp [hp]), hci] at h
          simp only [Out.ok_bind] at h
          exact .inr ⟨hp, _, hval, (Prod.mk.inj (Out.ok.inj h)).1.symm⟩
      have ho : (if c ≠ 0 then o1 - 1 else o1) = o := by
        split at h
        · obtain ⟨_, _, h⟩ := Out.bind_eq_ok.1 h
          exact (Prod.mk.inj (Out.ok.inj h)).2
        · obtain ⟨_, _, h⟩ := Out.bind_eq_ok.1 h
          exact (Prod.mk.inj (Out.ok.inj h)).2
      rcases e5 with ⟨r, ha⟩ | ⟨ha, rfl⟩
      · refine ⟨s, c :: r, ha, ?_⟩
        by_cases hz : c = 0
        · subst hz
          refine .nul hnum r rfl ?_
          rw [← ho, e4]; exact ha.append.cons.2
        · refine .here hnum c r rfl hc hz ?_
          rw [← ho, e4, if_pos hz]; exact ha.append
      · refine ⟨s, [], by simpa using ha, .out hnum rfl ?_⟩
        have := ha.len
        rw [← ho, e4]; simp; omega

/-- the reading of a number -/
theorem parseNumber_loose {str : Str} {s : Str} {v : Value} (hv : Numeral s v) {off : Nat} {r : Str}
    (ha : At str off (s ++ r)) (hr : EndsNum r) :
    parseNumber str off = .ok (v, off + s.length + if r.head?.getD 0 = 0 then 1 else 0) := by
  obtain ⟨n, hn, hs, hv⟩ := hv
  have hl := ha.len
  rw [List.length_append] at hl
  have hchars := hn.chars
  rw [← hs] at hchars
  unfold parseNumber
  rw [numGo_ok s ha hchars (fun c hc => ⟨(endC_facts c (hr c hc)).1, (endC_facts c (hr c hc)).2.1⟩) (by omega)]
  simp only [Out.ok_bind, List.nil_append, Bool.false_or]
  have hc : EndC (r.head?.getD 0) := by
    cases r with
    | nil => unfold EndC; simp
    | cons c r => exact hr c rfl
  rw [if_neg (endC_facts _ hc).2.2.1, (notEnd_iff _).2 hc]
  simp only [Out.ok_bind, Bool.false_eq_true, if_false, ne_eq, not_true_eq_false, or_false, ite_not]
  have hoff : (if r.head?.getD 0 = 0 then off + s.length + 1 else off + s.length + 1 - 1) =
      off + s.length + if r.head?.getD 0 = 0 then 1 else 0 := by
    split <;> omega
  rw [hoff]
  rcases hv with ⟨hp, rfl⟩ | ⟨hp, i, hi, rfl⟩
  · rw [if_pos (by simpa using hp), hs, castDouble_loose hn]
    simp
  · rw [if_neg (by simpa using hp), hs, castInt_loose hn (by rw [← hs]; exact hp) hi]
    simp

theorem parseNumber_expo {str : Str} {s : Str} {v : Value} (hv : Expo s v) {off : Nat} {r : Str}
    (ha : At str off (s ++ r)) (hr : EndsNum r) : ∃ o, parseNumber str off = .ok (v, o) := by
  obtain ⟨n, e, x, ds, k, hn, he, hd, hdx, hk, hki, rfl, rfl⟩ := hv
  have ha' : At str off (n.text ++ e :: x :: (ds ++ r)) := by simpa using ha
  have hl := ha'.len
  simp only [List.length_append, List.length_cons] at hl
  have he' : ¬ (e = byte '-' ∨ isDigit e = true) ∧ e ≠ byte '.' := by
    rcases he with rfl | rfl <;> decide
  unfold parseNumber
  rw [numGo_ok n.text ha' hn.chars (fun c hc => by simp at hc; subst hc; exact he') (by omega)]
  simp only [Out.ok_bind, List.nil_append, Bool.false_or, List.head?_cons, Option.getD_some]
  have ha2 : At str (off + n.text.length + 1) (x :: (ds ++ r)) := ha'.append.cons.2
  rw [if_pos he.symm, if_neg (by omega), ha2.cons.1]
  simp only [Out.ok_bind]
  rw [expGo_loose ds ha2.cons.2 hd hr (by omega)]
  simp only [Out.ok_bind]
  rw [castDouble_exp hd hdx, ← hk]
  simp only [Out.ok_bind, Rat.num_intCast]
  rw [int_ok hki]
  simp only [Out.ok_bind]
  have hes : (if x = byte '-' then [x] else []) ++ ds ≠ [] := by
    rcases hdx with rfl | h
    · simp
    · simp [h]
  rw [if_pos (.inr hes), castDouble_loose hn]
  exact ⟨_, rfl⟩

end Json
