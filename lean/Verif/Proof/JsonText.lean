import Verif.Spec.Json
import Mathlib.Tactic.Ring
import Mathlib.Data.List.Induction
import Mathlib.Tactic.FieldSimp

/-! # Helper lemmas for JSON: reading single tokens -/

namespace Json
open Cpp Spec

/-- the rest of `str` from `off` on is `t` -/
def At (str : Str) (off : Nat) (t : Str) : Prop := off ≤ str.length ∧ str.drop off = t

theorem At.len {str : Str} {off : Nat} {t : Str} (h : At str off t) : off + t.length = str.length := by
  rw [← h.2, List.length_drop]; have := h.1; omega

theorem At.zero (str : Str) : At str 0 str := ⟨by omega, rfl⟩

theorem At.append {str : Str} {off : Nat} {a b : Str} (h : At str off (a ++ b)) : At str (off + a.length) b := by
  have := h.len
  rw [List.length_append] at this
  refine ⟨by omega, ?_⟩
  rw [← List.drop_drop, h.2]; simp

theorem At.cons {str : Str} {off : Nat} {c : Byte} {t : Str} (h : At str off (c :: t)) :
    strAt str off = .ok c ∧ At str (off + 1) t := by
  have hl := h.len
  rw [List.length_cons] at hl
  refine ⟨?_, h.append (a := [c])⟩
  rw [strAt_ok (by omega)]
  have : str.getD off 0 = (str.drop off).getD 0 0 := by simp [List.getD]
  rw [this, h.2]; rfl

theorem At.nil {str : Str} {off : Nat} (h : At str off []) : strAt str off = .ok 0 := by
  have := h.len
  unfold strAt
  rw [if_neg (by simp at this; omega), if_pos (by simp at this; omega)]

/-- not at white space -/
def NonSp (t : Str) : Prop := ∀ c ∈ t.head?, isspace c = .ok false

theorem ws_isspace {c : Byte} (h : c = 32 ∨ c = 9 ∨ c = 10 ∨ c = 13) : isspace c = .ok true := by
  rcases h with rfl | rfl | rfl | rfl <;> decide

theorem skipGo_ok {str : Str} (w : Str) : ∀ {f off : Nat} {t : Str}, At str off (w ++ t) → Ws w → NonSp t → w.length < f →
    skipGo str f off = .ok (off + w.length) := by
  induction w with
  | nil =>
    intro f off t h _ hn hf
    obtain ⟨f, rfl⟩ : ∃ g, f = g + 1 := ⟨f - 1, by simp at hf; omega⟩
    unfold skipGo
    cases t with
    | nil =>
      rw [List.append_nil] at h
      rw [h.nil]
      rfl
    | cons c t =>
      rw [(h.cons (t := t)).1]
      simp only [Out.ok_bind]
      rw [hn c rfl]
      rfl
  | cons c w ih =>
    intro f off t h hw hn hf
    obtain ⟨f, rfl⟩ : ∃ g, f = g + 1 := ⟨f - 1, by simp at hf; omega⟩
    unfold skipGo
    rw [List.cons_append] at h
    rw [h.cons.1]
    simp only [Out.ok_bind]
    rw [ws_isspace (hw c (by simp))]
    simp only [Out.ok_bind, if_true]
    rw [ih h.cons.2 (fun x hx => hw x (by simp [hx])) hn (by simp at hf; omega), List.length_cons]
    congr 1; omega

theorem skip_ok {str : Str} {w : Str} {off : Nat} {t : Str} (h : At str off (w ++ t)) (hw : Ws w) (hn : NonSp t) :
    skip str off = .ok (off + w.length) := by
  have := h.len
  rw [List.length_append] at this
  exact skipGo_ok w h hw hn (by omega)

theorem skip_nil {str : Str} {off : Nat} {t : Str} (h : At str off t) (hn : NonSp t) : skip str off = .ok off :=
  skip_ok (w := []) h (by simp [Ws]) hn

/-! ## strings -/

theorem escapes_ne : ∀ p ∈ escapes, p.1 ≠ byte 'u' ∧ unescape p.1 = p.2 := by decide

theorem stringGo_ok {str : Str} {t s : Str} (b : Body t s) : ∀ {f off : Nat} {val r : Str},
    At str off (t ++ byte '"' :: r) → t.length < f →
    stringGo str f off val = .ok (val ++ s, off + t.length + 1) := by
  induction b with
  | nil =>
    intro f off val r h hf
    obtain ⟨f, rfl⟩ : ∃ g, f = g + 1 := ⟨f - 1, by simp at hf; omega⟩
    unfold stringGo
    rw [(h.cons (t := r)).1]
    simp
  | plain c h1 h2 b ih =>
    intro f off val r h hf
    obtain ⟨f, rfl⟩ : ∃ g, f = g + 1 := ⟨f - 1, by simp at hf; omega⟩
    unfold stringGo
    rw [List.cons_append] at h
    rw [h.cons.1]
    simp only [Out.ok_bind]
    rw [if_neg h1, if_neg h2, ih h.cons.2 (by simp at hf; omega)]
    simp; omega
  | escape e c he b ih =>
    intro f off val r h hf
    obtain ⟨f, rfl⟩ : ∃ g, f = g + 1 := ⟨f - 1, by simp at hf; omega⟩
    unfold stringGo
    rw [List.cons_append, List.cons_append] at h
    rw [h.cons.1]
    simp only [Out.ok_bind]
    rw [if_neg (by decide), if_pos trivial, h.cons.2.cons.1]
    simp only [Out.ok_bind]
    have := escapes_ne _ he
    rw [if_neg this.1, ih h.cons.2.cons.2 (by simp at hf; omega), this.2]
    simp; omega

theorem parseString_ok {str : Str} {t s : Str} (b : Body t s) {off : Nat} {r : Str}
    (h : At str off (byte '"' :: t ++ byte '"' :: r)) : parseString str off = .ok (.str s, off + t.length + 2) := by
  unfold parseString
  have hl := h.len
  simp at hl
  rw [stringGo_ok b h.cons.2 (by omega)]
  simp; omega

/-! ## numbers -/

theorem natVal_eq (s : Str) : natVal s = nat s := by
  unfold natVal nat
  induction s using List.reverseRecOn with
  | nil => rfl
  | append_singleton s c ih =>
    rw [List.foldl_append, ih]
    simp [Nat.ofDigits_cons]
    omega

theorem digit_iff (c : Byte) : isDigit c = true ↔ 48 ≤ c ∧ c ≤ 57 := by
  unfold isDigit
  rw [decide_eq_true_eq, show byte '0' = 48 by decide, show byte '9' = 57 by decide]

theorem takeWhile_digits {s r : Str} (h : ∀ c ∈ s, 48 ≤ c ∧ c ≤ 57) (hr : ∀ c ∈ r.head?, isDigit c = false) :
    (s ++ r).takeWhile isDigit = s ∧ (s ++ r).dropWhile isDigit = r := by
  induction s with
  | nil =>
    cases r with
    | nil => simp
    | cons c r =>
      have := hr c rfl
      simp [this]
  | cons c s ih =>
    have hc : isDigit c = true := (digit_iff c).2 (h c (by simp))
    have := ih (fun x hx => h x (by simp [hx]))
    simp [hc, this]

theorem digit_not {c : Byte} (h : 48 ≤ c ∧ c ≤ 57) : c ≠ byte '-' ∧ c ≠ byte '.' ∧ c ≠ byte 'E' ∧ c ≠ byte 'e' := by
  refine ⟨?_, ?_, ?_, ?_⟩ <;> rintro rfl <;> revert h <;> decide

theorem castInt_ok {n : Number} (h : n.Ok) (hf : n.frac = none) (he : n.exp = none) {i : Int} (hi : IsInt i)
    (hv : n.value = i) : castInt n.text = .ok i := by
  have hval : (if n.neg then -(nat n.ip : Int) else nat n.ip) = i := by
    have : n.value = ((if n.neg then -(nat n.ip : Int) else nat n.ip : Int) : ℚ) := by
      unfold Number.value
      rw [hf, he]
      cases n.neg <;> simp
    rw [hv] at this
    exact_mod_cast this.symm
  have hclamp : max INT_MIN (min INT_MAX i) = i := by
    have := hi; unfold IsInt INT_MIN INT_MAX at *; omega
  have htext : n.text = (if n.neg then [byte '-'] else []) ++ n.ip := by
    unfold Number.text; rw [hf, he]; simp
  rw [htext]
  have htw : n.ip.takeWhile isDigit = n.ip := by
    have := (takeWhile_digits (s := n.ip) (r := []) h.1.2 (by simp)).1
    simpa using this
  cases hn : n.neg with
  | true =>
    rw [hn] at hval
    show castInt (byte '-' :: n.ip) = _
    unfold castInt
    dsimp only
    rw [if_pos rfl, htw, natVal_eq, ← hclamp, ← hval]; simp
  | false =>
    rw [hn] at hval
    show castInt n.ip = _
    cases hip : n.ip with
    | nil => exact absurd hip h.1.1
    | cons c t =>
      rw [hip] at htw hval
      unfold castInt
      dsimp only
      rw [if_neg (digit_not (h.1.2 c (by rw [hip]; simp))).1, htw, natVal_eq, ← hclamp, ← hval]; simp

theorem decimal_ok {ip f : Str} (hi : Digits ip) (hf : Digits f) :
    decimal (ip ++ byte '.' :: f) = (nat ip : ℚ) + (nat f : ℚ) / 10 ^ f.length := by
  have h1 := takeWhile_digits (s := ip) (r := byte '.' :: f) hi.2 (by intro c hc; simp at hc; subst hc; decide)
  have h2 := takeWhile_digits (s := f) (r := []) hf.2 (by simp)
  simp only [List.append_nil] at h2
  unfold decimal
  rw [h1.1, h1.2]
  simp only [if_true]
  rw [h2.1, natVal_eq, natVal_eq]

theorem decimal_int {ip : Str} (hi : Digits ip) : decimal ip = (nat ip : ℚ) := by
  have h1 := takeWhile_digits (s := ip) (r := []) hi.2 (by simp)
  simp only [List.append_nil] at h1
  unfold decimal
  rw [h1.1, h1.2, natVal_eq]
  simp [natVal]

/-- The text before the exponent. -/
def mantissa (n : Number) : Str :=
  (if n.neg then [byte '-'] else []) ++ n.ip ++ (match n.frac with | none => [] | some f => byte '.' :: f)

/-- The value before the exponent. -/
def mantVal (n : Number) : ℚ :=
  (if n.neg then -1 else 1) * ((nat n.ip : ℚ) + match n.frac with | none => 0 | some f => (nat f : ℚ) / 10 ^ f.length)

theorem castDouble_ok {n : Number} (h : n.Ok) : castDouble (mantissa n) = .ok (mantVal n) := by
  have hd : decimal (n.ip ++ (match n.frac with | none => [] | some f => byte '.' :: f)) =
      (nat n.ip : ℚ) + match n.frac with | none => 0 | some f => (nat f : ℚ) / 10 ^ f.length := by
    cases hf : n.frac with
    | none => simp [decimal_int h.1]
    | some f => exact decimal_ok h.1 (h.2.1 f (by rw [hf]; rfl))
  unfold mantissa mantVal
  rw [← hd, List.append_assoc]
  generalize (match n.frac with | none => [] | some f => byte '.' :: f) = fr
  cases hn : n.neg with
  | true =>
    show castDouble (byte '-' :: _) = _
    unfold castDouble
    dsimp only
    rw [if_pos rfl]; simp
  | false =>
    cases hip : n.ip with
    | nil => exact absurd hip h.1.1
    | cons c t =>
      show castDouble (c :: (t ++ fr)) = _
      unfold castDouble
      dsimp only
      rw [if_neg (digit_not (h.1.2 c (by rw [hip]; simp))).1]; simp

theorem numGo_ok {str : Str} (cs : Str) : ∀ {f off : Nat} {val r : Str} {d : Bool}, At str off (cs ++ r) →
    (∀ c ∈ cs, c = byte '-' ∨ c = byte '.' ∨ (48 ≤ c ∧ c ≤ 57)) →
    (∀ c ∈ r.head?, ¬ (c = byte '-' ∨ isDigit c = true) ∧ c ≠ byte '.') → cs.length < f →
    numGo str f off val d = .ok (val ++ cs, d || decide (byte '.' ∈ cs), r.head?.getD 0, off + cs.length + 1) := by
  induction cs with
  | nil =>
    intro f off val r d h _ hr hf
    obtain ⟨f, rfl⟩ : ∃ g, f = g + 1 := ⟨f - 1, by simp at hf; omega⟩
    unfold numGo
    cases r with
    | nil =>
      rw [List.append_nil] at h
      rw [h.nil]
      simp only [Out.ok_bind]
      rw [if_neg (by decide), if_neg (by decide)]
      simp
    | cons c r =>
      have := hr c rfl
      rw [(h.cons (t := r)).1]
      simp only [Out.ok_bind]
      rw [if_neg this.1, if_neg this.2]
      simp
  | cons c cs ih =>
    intro f off val r d h hc hr hf
    obtain ⟨f, rfl⟩ : ∃ g, f = g + 1 := ⟨f - 1, by simp at hf; omega⟩
    unfold numGo
    rw [List.cons_append] at h
    rw [h.cons.1]
    simp only [Out.ok_bind]
    have hih := fun val d => ih (val := val) (d := d) h.cons.2 (fun x hx => hc x (by simp [hx])) hr (by simp at hf; omega)
    rcases hc c (by simp) with rfl | rfl | hd
    · rw [if_pos (.inl rfl), hih]
      simp [show byte '.' ≠ byte '-' by decide]; omega
    · rw [if_neg (by decide), if_pos rfl, hih]
      simp; omega
    · rw [if_pos (.inr ((digit_iff c).2 hd)), hih]
      simp [(digit_not hd).2.1.symm]; omega

/-- what may follow a number -/
def Delim (r : Str) : Prop :=
  ∀ c ∈ r.head?, (c = 32 ∨ c = 9 ∨ c = 10 ∨ c = 13) ∨ c = byte ',' ∨ c = byte ']' ∨ c = byte '}'

theorem mantissa_chars {n : Number} (h : n.Ok) : ∀ c ∈ mantissa n, c = byte '-' ∨ c = byte '.' ∨ (48 ≤ c ∧ c ≤ 57) := by
  intro c hc
  unfold mantissa at hc
  rw [List.mem_append, List.mem_append] at hc
  rcases hc with (hc | hc) | hc
  · left
    split at hc <;> simp at hc; exact hc
  · exact .inr (.inr (h.1.2 c hc))
  · cases hf : n.frac with
    | none => rw [hf] at hc; simp at hc
    | some f =>
      rw [hf] at hc
      rcases List.mem_cons.1 hc with rfl | hc
      · exact .inr (.inl rfl)
      · exact .inr (.inr ((h.2.1 f (by rw [hf]; rfl)).2 c hc))

theorem mantissa_point {n : Number} (h : n.Ok) : byte '.' ∈ mantissa n ↔ n.frac ≠ none := by
  constructor
  · intro hm hf
    unfold mantissa at hm
    rw [hf] at hm
    simp only [List.append_nil, List.mem_append] at hm
    rcases hm with hm | hm
    · split at hm
      · revert hm; decide
      · simp at hm
    · exact (digit_not (h.1.2 _ hm)).2.1 rfl
  · intro hf
    unfold mantissa
    cases he : n.frac with
    | none => exact absurd he hf
    | some f => simp

theorem delim_facts : ∀ c : Byte, (c = 32 ∨ c = 9 ∨ c = 10 ∨ c = 13) ∨ c = byte ',' ∨ c = byte ']' ∨ c = byte '}' →
    ¬ (c = byte '-' ∨ isDigit c = true) ∧ c ≠ byte '.' ∧ ¬ (c = byte 'E' ∨ c = byte 'e') ∧ notEnd c = .ok false ∧ c ≠ 0 :=
  forall_byte (by decide +kernel)

theorem parseNumber_ok {str : Str} {n : Number} (h : n.Ok) (he : n.exp = none) {off : Nat} {r : Str}
    (ha : At str off (n.text ++ r)) (hr : Delim r) {v : Value}
    (hv : (n.frac ≠ none ∧ v = .float n.value) ∨ (n.frac = none ∧ ∃ i, IsInt i ∧ n.value = i ∧ v = .int i)) :
    parseNumber str off = .ok (v, off + n.text.length + if r = [] then 1 else 0) := by
  have htext : n.text = mantissa n := by unfold Number.text mantissa; rw [he]; cases n.frac <;> simp
  have hvalue : n.value = mantVal n := by unfold Number.value mantVal; rw [he]; cases n.frac <;> simp
  have hl := ha.len
  rw [List.length_append] at hl
  unfold parseNumber
  rw [numGo_ok n.text ha (by rw [htext]; exact mantissa_chars h)
    (fun c hc => ⟨(delim_facts c (hr c hc)).1, (delim_facts c (hr c hc)).2.1⟩) (by omega)]
  simp only [Out.ok_bind, List.nil_append, Bool.false_or]
  have hc : ¬ (r.head?.getD 0 = byte 'E' ∨ r.head?.getD 0 = byte 'e') ∧ notEnd (r.head?.getD 0) = .ok false ∧
      (r.head?.getD 0 ≠ 0 ↔ r ≠ []) := by
    cases r with
    | nil => decide
    | cons c r =>
      have := delim_facts c (hr c rfl)
      exact ⟨this.2.2.1, this.2.2.2.1, by simp [this.2.2.2.2]⟩
  rw [if_neg hc.1, hc.2.1]
  simp only [Out.ok_bind, Bool.false_eq_true, if_false, ne_eq, not_true_eq_false, or_false]
  have hoff : (if r.head?.getD 0 ≠ 0 then off + n.text.length + 1 - 1 else off + n.text.length + 1) =
      off + n.text.length + if r = [] then 1 else 0 := by
    by_cases hr0 : r = []
    · rw [if_neg (by rw [hc.2.2]; simp [hr0]), if_pos hr0]
    · rw [if_pos (hc.2.2.2 hr0), if_neg hr0]; omega
  simp only [ne_eq] at hoff
  rw [hoff]
  rcases hv with ⟨hf, rfl⟩ | ⟨hf, i, hi, hvi, rfl⟩
  · rw [if_pos (by rw [decide_eq_true_eq, htext]; exact (mantissa_point h).2 hf), htext, castDouble_ok h, hvalue]
    simp
  · rw [if_neg (by rw [decide_eq_true_eq, htext]; exact fun hp => (mantissa_point h).1 hp hf),
      castInt_ok h hf he hi hvi]
    simp

/-! ## maps -/

theorem put_mem (k : Str) (v : Value) {m : List (Str × Value)} (hs : m.Pairwise (fun a b => a.1 < b.1)) (k' : Str)
    (v' : Value) : (k', v') ∈ put k v m ↔ (k' = k ∧ v' = v) ∨ (k' ≠ k ∧ (k', v') ∈ m) := by
  induction m with
  | nil => simp [put]
  | cons p m ih =>
    obtain ⟨k1, v1⟩ := p
    rw [List.pairwise_cons] at hs
    unfold put
    split
    · rename_i h
      subst h
      have : ∀ x, (k, x) ∉ m := fun x hx => List.lt_irrefl _ (hs.1 (k, x) hx)
      by_cases hk : k' = k
      · subst hk
        simp [this]
      · simp [hk]
    · rename_i h
      split
      · rename_i hlt
        have h1 : ∀ x, (k, x) ∉ m := fun x hx => List.lt_irrefl _ (List.lt_trans hlt (hs.1 _ hx))
        by_cases hk : k' = k
        · subst hk; simp [h, h1]
        · simp [hk]
      · rw [List.mem_cons, ih hs.2, List.mem_cons]
        by_cases hk : k' = k
        · subst hk; simp [h]
        · simp [hk]

theorem put_sorted (k : Str) (v : Value) {m : List (Str × Value)} (hs : m.Pairwise (fun a b => a.1 < b.1)) :
    (put k v m).Pairwise (fun a b => a.1 < b.1) := by
  induction m with
  | nil => simp [put]
  | cons p m ih =>
    obtain ⟨k1, v1⟩ := p
    have hs' := hs
    rw [List.pairwise_cons] at hs
    unfold put
    split
    · rename_i h
      subst h
      exact List.pairwise_cons.2 ⟨hs.1, hs.2⟩
    · rename_i h
      split
      · rename_i hlt
        refine List.pairwise_cons.2 ⟨fun p hp => ?_, hs'⟩
        rcases List.mem_cons.1 hp with rfl | hp
        · exact hlt
        · exact List.lt_trans hlt (hs.1 p hp)
      · rename_i hnlt
        refine List.pairwise_cons.2 ⟨fun p hp => ?_, ih hs.2⟩
        obtain ⟨k2, v2⟩ := p
        rcases (put_mem k v hs.2 k2 v2).1 hp with ⟨rfl, -⟩ | ⟨-, hp⟩
        · have h1 : k1 ≤ k2 := List.not_lt.1 hnlt
          rcases List.le_iff_lt_or_eq.1 h1 with h2 | h2
          · exact h2
          · exact absurd h2.symm h
        · exact hs.1 _ hp

/-- the map of a sequence of pairs -/
def puts (ps : List (Str × Value)) (m : List (Str × Value)) : List (Str × Value) :=
  ps.foldl (fun m p => put p.1 p.2 m) m

theorem puts_mapOf (ps : List (Str × Value)) : MapOf (puts ps []) ps := by
  induction ps using List.reverseRecOn with
  | nil => exact ⟨by simp [puts], fun k v => by simp [puts]⟩
  | append_singleton ps p ih =>
    have e : puts (ps ++ [p]) [] = put p.1 p.2 (puts ps []) := by simp [puts]
    rw [e]
    refine ⟨put_sorted _ _ ih.1, fun k v => ?_⟩
    rw [put_mem _ _ ih.1, ih.2]
    constructor
    · rintro (⟨rfl, rfl⟩ | ⟨hk, l, r, rfl, hr⟩)
      · exact ⟨ps, [], by simp, by simp⟩
      · refine ⟨l, r ++ [p], by simp, fun q hq => ?_⟩
        rcases List.mem_append.1 hq with hq | hq
        · exact hr q hq
        · simp at hq; subst hq; exact fun h => hk h.symm
    · rintro ⟨l, r, e, hr⟩
      rcases List.eq_nil_or_concat r with rfl | ⟨r', q, rfl⟩
      · left
        have := List.append_inj' e rfl
        simp at this
        rw [this.2]; simp
      · right
        rw [List.concat_eq_append, ← List.cons_append, ← List.append_assoc] at e
        have := List.append_inj' e rfl
        simp only [List.cons.injEq, and_true] at this
        rw [this.2]
        exact ⟨fun h => hr q (by simp) h.symm, l, r', this.1, fun x hx => hr x (by simp [hx])⟩

theorem sorted_ext {m m' : List (Str × Value)} (h : m.Pairwise (fun a b => a.1 < b.1))
    (h' : m'.Pairwise (fun a b => a.1 < b.1)) (he : ∀ k v, (k, v) ∈ m ↔ (k, v) ∈ m') : m = m' := by
  induction m generalizing m' with
  | nil =>
    cases m' with
    | nil => rfl
    | cons p m' => exact absurd ((he p.1 p.2).2 (by simp)) (by simp)
  | cons p m ih =>
    cases m' with
    | nil => exact absurd ((he p.1 p.2).1 (by simp)) (by simp)
    | cons p' m' =>
      rw [List.pairwise_cons] at h h'
      have e : p = p' := by
        rcases List.mem_cons.1 ((he p.1 p.2).1 (by simp)) with e | e
        · exact e
        · rcases List.mem_cons.1 ((he p'.1 p'.2).2 (by simp)) with e' | e'
          · exact e'.symm
          · exact absurd (List.lt_trans (h.1 _ e') (h'.1 _ e)) (List.lt_irrefl _)
      subst e
      congr 1
      refine ih h.2 h'.2 fun k v => ?_
      have := he k v
      rw [List.mem_cons, List.mem_cons] at this
      constructor
      · intro hm
        rcases this.1 (.inr hm) with e | e
        · have := h.1 _ hm
          rw [← e] at this
          exact absurd this (List.lt_irrefl _)
        · exact e
      · intro hm
        rcases this.2 (.inr hm) with e | e
        · have := h'.1 _ hm
          rw [← e] at this
          exact absurd this (List.lt_irrefl _)
        · exact e

theorem mapOf_eq {m ps : List (Str × Value)} (h : MapOf m ps) : puts ps [] = m :=
  sorted_ext (puts_mapOf ps).1 h.1 fun k v => by rw [(puts_mapOf ps).2, h.2]

theorem mapOf_self {m : List (Str × Value)} (h : m.Pairwise (fun a b => a.1 < b.1)) : MapOf m m := by
  refine ⟨h, fun k v => ⟨fun hm => ?_, ?_⟩⟩
  · obtain ⟨l, r, rfl⟩ := List.append_of_mem hm
    refine ⟨l, r, rfl, fun p hp e => ?_⟩
    have := (List.pairwise_cons.1 (List.pairwise_append.1 h).2.1).1 p hp
    rw [e] at this
    exact List.lt_irrefl _ this
  · rintro ⟨l, r, rfl, -⟩
    simp

end Json
