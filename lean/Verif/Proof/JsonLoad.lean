import Verif.Proof.JsonText
import Mathlib.Data.List.Forall2
import Mathlib.Tactic.Choose
import Mathlib.Tactic.Tauto

/-! # Helper lemmas for JSON: loading a text of the grammar -/

namespace Json
open Cpp Spec

/-- The first character of a value. -/
def Start (c : Byte) : Prop :=
  c = byte '[' ∨ c = byte '{' ∨ c = byte '"' ∨ c = byte 't' ∨ c = byte 'f' ∨ c = byte 'n' ∨ isDigit c = true ∨ c = byte '-'

instance (c : Byte) : Decidable (Start c) := inferInstanceAs (Decidable (_ ∨ _))

theorem start_facts : ∀ c : Byte, Start c → isspace c = .ok false ∧ c ≠ byte ']' ∧ c ≠ byte '}' :=
  forall_byte (by decide +kernel)

theorem num_start : ∀ c : Byte, isDigit c = true ∨ c = byte '-' → c ≠ byte '[' ∧ c ≠ byte '{' ∧ c ≠ byte '"' ∧
    ¬ (c = byte 't' ∨ c = byte 'f') ∧ c ≠ byte 'n' := forall_byte (by decide +kernel)

theorem number_head {n : Number} (h : n.Ok) : ∃ c t, n.text = c :: t ∧ (isDigit c = true ∨ c = byte '-') := by
  unfold Number.text
  cases n.neg with
  | true => exact ⟨byte '-', _, rfl, .inr rfl⟩
  | false =>
    cases hip : n.ip with
    | nil => exact absurd hip h.1.1
    | cons c t => exact ⟨c, _, rfl, .inl ((digit_iff c).2 (h.1.2 c (by rw [hip]; simp)))⟩

theorem doc_head {K : Str → Str → Prop} {t : Str} {v : Value} (d : Doc K t v) : ∃ c t', t = c :: t' ∧ Start c := by
  cases d with
  | null => exact ⟨_, _, rfl, by decide⟩
  | true => exact ⟨_, _, rfl, by decide⟩
  | false => exact ⟨_, _, rfl, by decide⟩
  | int n h =>
    obtain ⟨c, t', e, hc⟩ := number_head h
    exact ⟨c, t', e, .inr (.inr (.inr (.inr (.inr (.inr hc)))))⟩
  | float n h =>
    obtain ⟨c, t', e, hc⟩ := number_head h
    exact ⟨c, t', e, .inr (.inr (.inr (.inr (.inr (.inr hc)))))⟩
  | str => exact ⟨_, _, rfl, by decide⟩
  | arr0 => exact ⟨_, _, rfl, by decide⟩
  | arr => exact ⟨_, _, rfl, by decide⟩
  | obj0 => exact ⟨_, _, rfl, by decide⟩
  | obj => exact ⟨_, _, rfl, by decide⟩

theorem nonSp_start {c : Byte} {t : Str} (h : Start c) : NonSp (c :: t) := by
  intro x hx; simp at hx; subst hx; exact (start_facts c h).1

theorem nonSp_of {c : Byte} {t : Str} (h : isspace c = .ok false) : NonSp (c :: t) := by
  intro x hx; simp at hx; subst hx; exact h

theorem at_take {str : Str} {off : Nat} {a r : Str} (n : Nat) (hn : a.length = n) (h : At str off (a ++ r)) :
    (str.drop off).take n = a := by
  rw [h.2, ← hn]; simp

/-- what `parse_next` does with the value text `t` -/
def Reads (t : Str) (v : Value) : Prop :=
  ∀ {str : Str} {off : Nat} {w r : Str} {f : Nat}, At str off (w ++ t ++ r) → Ws w → Delim r → 2 * t.length ≤ f →
    ∃ off', parseNext str f off = .ok (v, off') ∧ (r ≠ [] → off' = off + w.length + t.length)

theorem delim_ws {w : Str} (hw : Ws w) {c : Byte} {r : Str} (hc : c = byte ',' ∨ c = byte ']' ∨ c = byte '}') :
    Delim (w ++ c :: r) := by
  intro x hx
  cases w with
  | nil => simp at hx; subst hx; exact .inr hc
  | cons y w => simp at hx; subst hx; exact .inl (hw y (by simp))

theorem commas_cons (t : Str) {ts : List Str} (h : ts ≠ []) : commas (t :: ts) = t ++ byte ',' :: commas ts := by
  cases ts with
  | nil => exact absurd rfl h
  | cons u ts => rfl

theorem arrLoop_ok (l : List Item) (hne : l ≠ []) : ∀ {str : Str} {off : Nat} {r : Str} {f : Nat},
    (∀ x ∈ l, Ws x.pre ∧ Ws x.post) → (∀ x ∈ l, Reads x.text x.value ∧ x.text ≠ []) →
    At str off (commas (l.map Item.full) ++ byte ']' :: r) → 2 * (commas (l.map Item.full)).length + 1 ≤ f →
    arrLoop str f off = .ok (l.map Item.value, off + (commas (l.map Item.full)).length + 1) := by
  induction l with
  | nil => exact absurd rfl hne
  | cons x l ih =>
    intro str off r f hw hx ha hf
    obtain ⟨f, rfl⟩ : ∃ g, f = g + 1 := ⟨f - 1, by omega⟩
    have hx1 := hx x (by simp)
    have hw1 := hw x (by simp)
    unfold arrLoop
    by_cases hl : l = []
    · subst hl
      simp only [List.map_cons, List.map_nil, commas] at ha hf ⊢
      have ha' : At str off (x.pre ++ x.text ++ (x.post ++ byte ']' :: r)) := by
        simpa [Item.full] using ha
      obtain ⟨off', e, ho⟩ := hx1.1 (f := f) ha' hw1.1 (delim_ws hw1.2 (.inr (.inl rfl))) (by simp [Item.full] at hf; omega)
      have ho := ho (by simp)
      rw [e]
      simp only [Out.ok_bind]
      have ha2 : At str off' (x.post ++ byte ']' :: r) := by
        have := ha'.append
        rw [List.length_append, ← Nat.add_assoc] at this
        rwa [ho]
      rw [skip_ok ha2 hw1.2 (nonSp_of (by decide))]
      simp only [Out.ok_bind]
      rw [ha2.append.cons.1]
      simp only [Out.ok_bind]
      rw [if_neg (by decide), if_pos trivial, ho]
      simp [Item.full]; omega
    · have hc : commas ((x :: l).map Item.full) = x.full ++ byte ',' :: commas (l.map Item.full) := by
        rw [List.map_cons, commas_cons _ (by simpa using hl)]
      rw [hc] at ha hf ⊢
      have ha' : At str off (x.pre ++ x.text ++ (x.post ++ byte ',' :: (commas (l.map Item.full) ++ byte ']' :: r))) := by
        simpa [Item.full] using ha
      obtain ⟨off', e, ho⟩ := hx1.1 (f := f) ha' hw1.1 (delim_ws hw1.2 (.inl rfl)) (by simp [Item.full] at hf; omega)
      have ho := ho (by simp)
      rw [e]
      simp only [Out.ok_bind]
      have ha2 : At str off' (x.post ++ byte ',' :: (commas (l.map Item.full) ++ byte ']' :: r)) := by
        have := ha'.append
        rw [List.length_append, ← Nat.add_assoc] at this
        rwa [ho]
      rw [skip_ok ha2 hw1.2 (nonSp_of (by decide))]
      simp only [Out.ok_bind]
      rw [ha2.append.cons.1]
      simp only [Out.ok_bind]
      rw [if_pos trivial, ih hl (fun y hy => hw y (by simp [hy])) (fun y hy => hx y (by simp [hy])) ha2.append.cons.2
        (by simp at hf; omega), ho]
      simp [Item.full]; omega

theorem objLoop_ok (l : List Member) (hne : l ≠ []) : ∀ {str : Str} {off : Nat} {r : Str} {f : Nat}
    {m ps : List (Str × Value)},
    (∀ x ∈ l, Ws x.pre ∧ Ws x.mid ∧ Ws x.mid' ∧ Ws x.post ∧ Body x.ktext x.key) →
    (∀ x ∈ l, Reads x.text x.value ∧ ∃ c t, x.text = c :: t ∧ Start c) →
    List.Forall₂ (fun (x : Member) (p : Str × Value) => p.1 = jsonEscape x.key ∧ p.2 = x.value) l ps →
    At str off (commas (l.map Member.full) ++ byte '}' :: r) → 2 * (commas (l.map Member.full)).length + 1 ≤ f →
    objLoop str f off m = .ok (puts ps m, off + (commas (l.map Member.full)).length + 1) := by
  induction l with
  | nil => exact absurd rfl hne
  | cons x l ih =>
    intro str off r f m ps hw hx hp ha hf
    obtain ⟨f, rfl⟩ : ∃ g, f = g + 1 := ⟨f - 1, by omega⟩
    obtain ⟨hxr, c0, t0, hx0, hs0⟩ := hx x (by simp)
    obtain ⟨hpre, hmid, hmid', hpost, hbody⟩ := hw x (by simp)
    cases hp with
    | @cons _ p _ ps hp1 hps =>
    -- the part common to both cases
    have main : ∀ (c : Byte) (rest : Str), (c = byte ',' ∨ c = byte ']' ∨ c = byte '}') →
        At str off (x.full ++ c :: rest) → 2 * x.full.length ≤ f →
        objLoop str (f + 1) off m = (if c = byte ',' then objLoop str f (off + x.full.length + 1) (put p.1 p.2 m)
          else if c = byte '}' then .ok (put p.1 p.2 m, off + x.full.length + 1) else .exit) ∧
        At str (off + x.full.length + 1) rest := by
      intro c rest hc ha hf
      refine ⟨?_, ha.append.cons.2⟩
      have hcs : isspace c = .ok false := by rcases hc with rfl | rfl | rfl <;> decide
      have hlen : x.full.length = x.pre.length + x.ktext.length + x.mid.length + x.mid'.length + x.text.length +
          x.post.length + 3 := by simp [Member.full]; omega
      conv_lhs => unfold objLoop
      have ha1 : At str off (x.pre ++ (byte '"' :: x.ktext ++ byte '"' :: (x.mid ++ byte ':' :: (x.mid' ++ x.text ++
          (x.post ++ c :: rest))))) := by simpa [Member.full] using ha
      have hkey : parseNext str f off = .ok (.str x.key, off + x.pre.length + x.ktext.length + 2) := by
        obtain ⟨f, rfl⟩ : ∃ g, f = g + 1 := ⟨f - 1, by omega⟩
        unfold parseNext
        rw [skip_ok ha1 hpre (nonSp_of (by decide))]
        simp only [Out.ok_bind]
        rw [ha1.append.cons.1]
        simp only [Out.ok_bind]
        rw [if_neg (by decide), if_neg (by decide), if_pos trivial, parseString_ok hbody ha1.append]
      rw [hkey]
      simp only [Out.ok_bind]
      have ha2 : At str (off + x.pre.length + x.ktext.length + 2) (x.mid ++ byte ':' :: (x.mid' ++ x.text ++
          (x.post ++ c :: rest))) := by
        have := ha1.append.cons.2.append.cons.2
        rwa [show off + x.pre.length + 1 + x.ktext.length + 1 = off + x.pre.length + x.ktext.length + 2 by omega] at this
      rw [skip_ok ha2 hmid (nonSp_of (by decide))]
      simp only [Out.ok_bind]
      have ha3 := ha2.append
      rw [ha3.cons.1]
      simp only [Out.ok_bind]
      rw [if_neg (by simp)]
      have ha4 := ha3.cons.2
      rw [List.append_assoc] at ha4
      rw [skip_ok ha4 hmid' (by rw [hx0]; exact nonSp_start hs0)]
      simp only [Out.ok_bind]
      have ha5 := ha4.append
      obtain ⟨off', e, ho⟩ := hxr (f := f) (w := []) ha5 (by simp [Ws]) (delim_ws hpost hc) (by omega)
      have ho := ho (by simp)
      rw [e]
      simp only [Out.ok_bind]
      have ha6 := ha5.append
      simp only [List.length_nil, Nat.add_zero] at ho
      rw [← ho] at ha6
      rw [skip_ok ha6 hpost (nonSp_of hcs)]
      simp only [Out.ok_bind]
      rw [ha6.append.cons.1]
      simp only [Out.ok_bind]
      have hoff : off' + x.post.length = off + x.full.length := by rw [hlen, ho]; omega
      rw [hoff, hp1.1, hp1.2]
      rfl
    by_cases hl : l = []
    · subst hl
      cases hps
      simp only [List.map_cons, List.map_nil, commas] at ha hf ⊢
      rw [(main (byte '}') r (.inr (.inr rfl)) ha (by omega)).1, if_neg (by decide), if_pos rfl]
      rfl
    · have hc : commas ((x :: l).map Member.full) = x.full ++ byte ',' :: commas (l.map Member.full) := by
        rw [List.map_cons, commas_cons _ (by simpa using hl)]
      rw [hc] at ha hf ⊢
      have ha' : At str off (x.full ++ byte ',' :: (commas (l.map Member.full) ++ byte '}' :: r)) := by
        simpa using ha
      simp only [List.length_append, List.length_cons] at hf
      obtain ⟨e, hat⟩ := main (byte ',') _ (.inl rfl) ha' (by omega)
      rw [e, if_pos rfl, ih hl (fun y hy => hw y (by simp [hy])) (fun y hy => hx y (by simp [hy])) hps hat (by omega)]
      simp [puts]; omega

/-- `loadJSON` stores a key in escaped form. -/
def EscKey (k k' : Str) : Prop := k' = jsonEscape k

theorem reads_doc {t : Str} {v : Value} (d : Doc EscKey t v) : Reads t v := by
  -- the beginning, common to all cases
  have begin_ : ∀ {t : Str} {str : Str} {off : Nat} {w r : Str} {c : Byte} {t' : Str}, t = c :: t' → Start c →
      At str off (w ++ t ++ r) → Ws w →
      skip str off = .ok (off + w.length) ∧ strAt str (off + w.length : Nat) = .ok c ∧
        At str (off + w.length) (c :: (t' ++ r)) := by
    intro t str off w r c t' e hs ha hw
    rw [e, List.append_assoc, List.cons_append] at ha
    exact ⟨skip_ok ha hw (nonSp_start hs), ha.append.cons.1, ha.append⟩
  have num : ∀ {n : Number}, n.Ok → n.exp = none → ∀ {v : Value},
      ((n.frac ≠ none ∧ v = .float n.value) ∨ (n.frac = none ∧ ∃ i, IsInt i ∧ n.value = i ∧ v = .int i)) →
      Reads n.text v := by
    intro n h he v hv str off w r f ha hw hr hf
    obtain ⟨c, t', e, hc⟩ := number_head h
    obtain ⟨f, rfl⟩ : ∃ g, f = g + 1 := ⟨f - 1, by rw [e] at hf; simp at hf; omega⟩
    obtain ⟨b1, b2, b3⟩ := begin_ e (.inr (.inr (.inr (.inr (.inr (.inr hc)))))) ha hw
    unfold parseNext
    rw [b1]
    simp only [Out.ok_bind]
    rw [b2]
    simp only [Out.ok_bind]
    have hne := num_start c hc
    rw [if_neg hne.1, if_neg hne.2.1, if_neg hne.2.2.1, if_neg hne.2.2.2.1, if_neg hne.2.2.2.2, if_pos hc]
    rw [List.append_assoc] at ha
    rw [parseNumber_ok h he ha.append hr hv]
    exact ⟨_, rfl, fun hr => by rw [if_neg hr]; rfl⟩
  induction d with
  | null =>
    intro str off w r f ha hw hr hf
    obtain ⟨f, rfl⟩ : ∃ g, f = g + 1 := ⟨f - 1, by simp [bytes] at hf; omega⟩
    obtain ⟨b1, b2, b3⟩ := begin_ rfl (by decide) ha hw
    unfold parseNext
    rw [b1]
    simp only [Out.ok_bind]
    rw [b2]
    simp only [Out.ok_bind]
    rw [if_neg (by decide), if_neg (by decide), if_neg (by decide), if_neg (by decide), if_pos (by decide)]
    rw [List.append_assoc] at ha
    unfold parseNull
    rw [if_pos (at_take 4 rfl ha.append)]
    exact ⟨_, rfl, fun _ => rfl⟩
  | true =>
    intro str off w r f ha hw hr hf
    obtain ⟨f, rfl⟩ : ∃ g, f = g + 1 := ⟨f - 1, by simp [bytes] at hf; omega⟩
    obtain ⟨b1, b2, b3⟩ := begin_ rfl (by decide) ha hw
    unfold parseNext
    rw [b1]
    simp only [Out.ok_bind]
    rw [b2]
    simp only [Out.ok_bind]
    rw [if_neg (by decide), if_neg (by decide), if_neg (by decide), if_pos (by decide)]
    rw [List.append_assoc] at ha
    unfold parseBool
    rw [if_pos (at_take 4 rfl ha.append)]
    exact ⟨_, rfl, fun _ => rfl⟩
  | false =>
    intro str off w r f ha hw hr hf
    obtain ⟨f, rfl⟩ : ∃ g, f = g + 1 := ⟨f - 1, by simp [bytes] at hf; omega⟩
    obtain ⟨b1, b2, b3⟩ := begin_ rfl (by decide) ha hw
    unfold parseNext
    rw [b1]
    simp only [Out.ok_bind]
    rw [b2]
    simp only [Out.ok_bind]
    rw [if_neg (by decide), if_neg (by decide), if_neg (by decide), if_pos (by decide)]
    rw [List.append_assoc] at ha
    unfold parseBool
    rw [if_neg, if_pos (at_take 5 rfl ha.append)]
    · exact ⟨_, rfl, fun _ => rfl⟩
    · rw [ha.append.2]
      intro h
      have := congrArg List.head? h
      revert this
      simp [bytes]
      decide
  | int n h hf he i hi hv => exact num h he (.inr ⟨hf, i, hi, hv, rfl⟩)
  | float n h hf he => exact num h he (.inl ⟨hf, rfl⟩)
  | str t s hb =>
    intro str off w r f ha hw hr hf
    obtain ⟨f, rfl⟩ : ∃ g, f = g + 1 := ⟨f - 1, by simp at hf; omega⟩
    obtain ⟨b1, b2, b3⟩ := begin_ rfl (by decide) ha hw
    unfold parseNext
    rw [b1]
    simp only [Out.ok_bind]
    rw [b2]
    simp only [Out.ok_bind]
    rw [if_neg (by decide), if_neg (by decide), if_pos (by decide), parseString_ok hb (r := r) (by simpa using b3)]
    exact ⟨_, rfl, fun _ => by simp; omega⟩
  | arr0 w' hw' =>
    intro str off w r f ha hw hr hf
    obtain ⟨f, rfl⟩ : ∃ g, f = g + 1 := ⟨f - 1, by simp at hf; omega⟩
    obtain ⟨b1, b2, b3⟩ := begin_ rfl (by decide) ha hw
    unfold parseNext
    rw [b1]
    simp only [Out.ok_bind]
    rw [b2]
    simp only [Out.ok_bind]
    rw [if_pos (by decide)]
    have b4 : At str (off + w.length + 1) (w' ++ byte ']' :: r) := by simpa using b3.cons.2
    rw [skip_ok b4 hw' (nonSp_of (by decide))]
    simp only [Out.ok_bind]
    rw [b4.append.cons.1]
    simp only [Out.ok_bind, if_true]
    exact ⟨_, rfl, fun _ => by simp; omega⟩
  | obj0 w' hw' =>
    intro str off w r f ha hw hr hf
    obtain ⟨f, rfl⟩ : ∃ g, f = g + 1 := ⟨f - 1, by simp at hf; omega⟩
    obtain ⟨b1, b2, b3⟩ := begin_ rfl (by decide) ha hw
    unfold parseNext
    rw [b1]
    simp only [Out.ok_bind]
    rw [b2]
    simp only [Out.ok_bind]
    rw [if_neg (by decide), if_pos (by decide)]
    have b4 : At str (off + w.length + 1) (w' ++ byte '}' :: r) := by simpa using b3.cons.2
    rw [skip_ok b4 hw' (nonSp_of (by decide))]
    simp only [Out.ok_bind]
    rw [b4.append.cons.1]
    simp only [Out.ok_bind, if_true]
    exact ⟨_, rfl, fun _ => by simp; omega⟩
  | arr l hne hws hd ih =>
    intro str off w r f ha hw hr hf
    obtain ⟨f, rfl⟩ : ∃ g, f = g + 1 := ⟨f - 1, by simp at hf; omega⟩
    obtain ⟨b1, b2, b3⟩ := begin_ rfl (by decide) ha hw
    unfold parseNext
    rw [b1]
    simp only [Out.ok_bind]
    rw [b2]
    simp only [Out.ok_bind]
    rw [if_pos (by decide)]
    have b4 : At str (off + w.length + 1) (commas (l.map Item.full) ++ byte ']' :: r) := by simpa using b3.cons.2
    cases l with
    | nil => exact absurd rfl hne
    | cons x l =>
      obtain ⟨c, t', hx, hs⟩ := doc_head (hd x (by simp))
      let x' : Item := { x with pre := [] }
      have hcm : commas ((x :: l).map Item.full) = x.pre ++ commas ((x' :: l).map Item.full) := by
        cases l with
        | nil => simp [commas, Item.full, x']
        | cons y l => simp [commas, Item.full, x']
      have hcm' : ∃ u, commas ((x' :: l).map Item.full) = c :: u := by
        cases l with
        | nil => simp [commas, Item.full, x', hx]
        | cons y l => simp [commas, Item.full, x', hx]
      obtain ⟨u, hu⟩ := hcm'
      rw [hcm] at b4 hf ⊢
      rw [List.append_assoc] at b4
      rw [skip_ok b4 (hws x (by simp)).1 (by rw [hu]; exact nonSp_start hs)]
      simp only [Out.ok_bind]
      have b5 := b4.append
      have b6 := b5
      rw [hu] at b6
      rw [b6.cons.1]
      simp only [Out.ok_bind]
      rw [if_neg (start_facts c hs).2.1]
      have hall : ∀ y ∈ x' :: l, (Ws y.pre ∧ Ws y.post) ∧ (Reads y.text y.value ∧ y.text ≠ []) := by
        intro y hy
        rcases List.mem_cons.1 hy with rfl | hy
        · exact ⟨⟨by simp [Ws, x'], (hws x (by simp)).2⟩, ih x (by simp), by simp [x', hx]⟩
        · obtain ⟨c, t', hx, -⟩ := doc_head (hd y (by simp [hy]))
          exact ⟨hws y (by simp [hy]), ih y (by simp [hy]), by simp [hx]⟩
      rw [arrLoop_ok (x' :: l) (by simp) (fun y hy => (hall y hy).1) (fun y hy => (hall y hy).2) b5
        (by simp at hf ⊢; omega)]
      exact ⟨_, rfl, fun _ => by simp; omega⟩
  | obj l ps m hne hws hd hp hm ih =>
    intro str off w r f ha hw hr hf
    obtain ⟨f, rfl⟩ : ∃ g, f = g + 1 := ⟨f - 1, by simp at hf; omega⟩
    obtain ⟨b1, b2, b3⟩ := begin_ rfl (by decide) ha hw
    unfold parseNext
    rw [b1]
    simp only [Out.ok_bind]
    rw [b2]
    simp only [Out.ok_bind]
    rw [if_neg (by decide), if_pos (by decide)]
    have b4 : At str (off + w.length + 1) (commas (l.map Member.full) ++ byte '}' :: r) := by simpa using b3.cons.2
    cases l with
    | nil => exact absurd rfl hne
    | cons x l =>
      let x' : Member := { x with pre := [] }
      have hcm : commas ((x :: l).map Member.full) = x.pre ++ commas ((x' :: l).map Member.full) := by
        cases l with
        | nil => simp [commas, Member.full, x']
        | cons y l => simp [commas, Member.full, x']
      have hcm' : ∃ u, commas ((x' :: l).map Member.full) = byte '"' :: u := by
        cases l with
        | nil => simp [commas, Member.full, x']
        | cons y l => simp [commas, Member.full, x']
      obtain ⟨u, hu⟩ := hcm'
      rw [hcm] at b4 hf ⊢
      rw [List.append_assoc] at b4
      rw [skip_ok b4 (hws x (by simp)).1 (by rw [hu]; exact nonSp_of (by decide))]
      simp only [Out.ok_bind]
      have b5 := b4.append
      have b6 := b5
      rw [hu] at b6
      rw [b6.cons.1]
      simp only [Out.ok_bind]
      rw [if_neg (by decide)]
      have hall : ∀ y ∈ x' :: l, (Ws y.pre ∧ Ws y.mid ∧ Ws y.mid' ∧ Ws y.post ∧ Body y.ktext y.key) ∧
          (Reads y.text y.value ∧ ∃ c t, y.text = c :: t ∧ Start c) := by
        intro y hy
        rcases List.mem_cons.1 hy with rfl | hy
        · exact ⟨⟨by simp [Ws, x'], (hws x (by simp)).2⟩, ih x (by simp), doc_head (hd x (by simp))⟩
        · exact ⟨hws y (by simp [hy]), ih y (by simp [hy]), doc_head (hd y (by simp [hy]))⟩
      have hp' : List.Forall₂ (fun (x : Member) (p : Str × Value) => p.1 = jsonEscape x.key ∧ p.2 = x.value) (x' :: l) ps := by
        cases hp with
        | cons h1 h2 => exact .cons h1 h2
      rw [objLoop_ok (x' :: l) (by simp) (fun y hy => (hall y hy).1) (fun y hy => (hall y hy).2) hp' b5
        (by simp at hf ⊢; omega), mapOf_eq hm]
      exact ⟨_, rfl, fun _ => by simp; omega⟩

theorem load_text {t : Str} {v : Value} (h : Text EscKey t v) : loadJSON t = .ok v := by
  obtain ⟨w, w', d, hw, hw', rfl, hd⟩ := h
  unfold loadJSON
  have hdel : Delim w' := by
    intro c hc
    cases w' with
    | nil => simp at hc
    | cons x w' => simp at hc; subst hc; exact .inl (hw' x (by simp))
  obtain ⟨off', e, -⟩ := reads_doc hd (f := 2 * (w ++ d ++ w').length + 3) (At.zero _) hw hdel (by simp; omega)
  rw [e]
  rfl

theorem doc_mono {K K' : Str → Str → Prop} (hk : ∀ k k', K k k' → K' k k') {t : Str} {v : Value} (d : Doc K t v) :
    Doc K' t v := by
  induction d with
  | null => exact .null
  | true => exact .true
  | false => exact .false
  | int n h hf he i hi hv => exact .int n h hf he i hi hv
  | float n h hf he => exact .float n h hf he
  | str t s hb => exact .str t s hb
  | arr0 w h => exact .arr0 w h
  | arr l hne hw h ih => exact .arr l hne hw ih
  | obj0 w h => exact .obj0 w h
  | obj l ps m hne hw h hp hm ih => exact .obj l ps m hne hw ih (hp.imp fun _ _ h => ⟨hk _ _ h.1, h.2⟩) hm

/-! ## escaping -/

theorem jsonEscape_eq (s : Str) : jsonEscape s = s.flatMap escapeChar := by
  unfold jsonEscape
  suffices ∀ out, s.foldl (fun out c => out ++ escapeChar c) out = out ++ s.flatMap escapeChar by
    simpa using this []
  induction s with
  | nil => intro out; simp
  | cons c s ih => intro out; rw [List.foldl_cons, ih]; simp

theorem escapeChar_cases : ∀ c : Byte, (escapeChar c = [c] ∧ c ∉ [byte '"', byte '\\', 8, 9, 10, 12, 13]) ∨
    ∃ p ∈ escapes, p.2 = c ∧ escapeChar c = [byte '\\', p.1] ∧ p.1 ∈ bytes ['"', '\\', 'b', 'f', 'n', 'r', 't'] :=
  forall_byte (by decide +kernel)

theorem escape_body (s : Str) : Body (jsonEscape s) s := by
  rw [jsonEscape_eq]
  induction s with
  | nil => exact .nil
  | cons c s ih =>
    rw [List.flatMap_cons]
    rcases escapeChar_cases c with ⟨e, h⟩ | ⟨p, hp, e1, e2, -⟩
    · rw [e]
      simp at h
      exact .plain c h.1 h.2.1 ih
    · rw [e2, ← e1]
      exact .escape p.1 p.2 hp ih

theorem escape_escaped (s : Str) : Escaped (jsonEscape s) := by
  rw [jsonEscape_eq]
  induction s with
  | nil => exact .nil
  | cons c s ih =>
    rw [List.flatMap_cons]
    rcases escapeChar_cases c with ⟨e, h⟩ | ⟨p, hp, e1, e2, hm⟩
    · rw [e]
      exact .plain c h ih
    · rw [e2]
      exact .escape p.1 hm ih

theorem body_unique {t s s' : Str} (h : Body t s) (h' : Body t s') : s = s' := by
  have hu : ∀ p ∈ escapes, ∀ q ∈ escapes, p.1 = q.1 → p.2 = q.2 := by decide
  induction h generalizing s' with
  | nil => cases h'; rfl
  | plain c h1 h2 r ih =>
    cases h' with
    | plain _ _ _ r' => rw [ih r']
    | escape _ _ _ _ => exact absurd rfl h2
  | escape e c he r ih =>
    cases h' with
    | plain _ _ h2 _ => exact absurd rfl h2
    | escape _ c' he' r' =>
      have : c = c' := hu (e, c) he (e, c') he' rfl
      subst this
      rw [ih r']

theorem escape_inj {s s' : Str} (h : jsonEscape s = jsonEscape s') : s = s' :=
  body_unique (escape_body s) (h ▸ escape_body s')

theorem escape_plain {s : Str} (h : ∀ c ∈ s, c ∉ [byte '"', byte '\\', 8, 9, 10, 12, 13]) : jsonEscape s = s := by
  rw [jsonEscape_eq]
  induction s with
  | nil => rfl
  | cons c s ih =>
    rw [List.flatMap_cons, ih fun x hx => h x (by simp [hx])]
    rcases escapeChar_cases c with ⟨e, -⟩ | ⟨p, hp, e, -⟩
    · rw [e]; rfl
    · have : ∀ p ∈ escapes, p.2 ∈ [byte '"', byte '\\', byte '/', 8, 9, 10, 12, 13] := by decide
      have h1 := this p hp
      rw [e] at h1
      have h2 := h c (by simp)
      have e' : c = byte '/' := by
        simp only [List.mem_cons, List.not_mem_nil, or_false, not_or] at h1 h2
        tauto
      subst e'
      rfl

instance : Nonempty Value := ⟨.null⟩

/-- A text that denotes some value is also a text with keys stored in escaped form. -/
theorem doc_escKey {K : Str → Str → Prop} {t : Str} {v : Value} (d : Doc K t v) : ∃ v', Doc EscKey t v' := by
  induction d with
  | null => exact ⟨_, .null⟩
  | true => exact ⟨_, .true⟩
  | false => exact ⟨_, .false⟩
  | int n h hf he i hi hv => exact ⟨_, .int n h hf he i hi hv⟩
  | float n h hf he => exact ⟨_, .float n h hf he⟩
  | str t s hb => exact ⟨_, .str t s hb⟩
  | arr0 w h => exact ⟨_, .arr0 w h⟩
  | arr l hne hw h ih =>
    choose! g hg using ih
    have := Doc.arr (K := EscKey) (l.map fun x => { x with value := g x }) (by simpa using hne)
      (by simpa using hw) (by simpa using hg)
    rw [List.map_map] at this
    exact ⟨_, this⟩
  | obj0 w h => exact ⟨_, .obj0 w h⟩
  | obj l ps m hne hw h hp hm ih =>
    choose! g hg using ih
    have := Doc.obj (K := EscKey) (l.map fun x => { x with value := g x }) (l.map fun x => (jsonEscape x.key, g x)) _
      (by simpa using hne) (by simpa using hw) (by simpa using hg)
      (by
        rw [List.forall₂_map_left_iff, List.forall₂_map_right_iff]
        exact List.forall₂_same.2 fun x _ => ⟨rfl, rfl⟩)
      (puts_mapOf _)
    rw [List.map_map] at this
    exact ⟨_, this⟩

end Json
