import Verif.Proof.JsonDump
import Verif.Spec.JsonLayout

/-! # Helper lemmas for the layout of dumped JSON -/

namespace Json
open Cpp Spec

/-- reading `t` leads from `s` to `s'`, every line in it begins as it should, and it has `k` line breaks -/
structure Piece (M B : Int → Str) (s : Reader) (t : Str) (s' : Reader) (k : Nat) : Prop where
  fold : t.foldl Reader.step s = s'
  lines : ∀ pre post, t = pre ++ 10 :: post → (pre.foldl Reader.step s).quoted = false ∧
    ((∃ r, post = M (pre.foldl Reader.step s).level ++ byte '"' :: r) ∨ ∃ r, post = B (pre.foldl Reader.step s).level ++ byte '}' :: r)
  count : t.count 10 = k

variable {M B : Int → Str}

theorem Piece.append {s s' s'' : Reader} {t t' : Str} {k k' : Nat} (h : Piece M B s t s' k) (h' : Piece M B s' t' s'' k') :
    Piece M B s (t ++ t') s'' (k + k') := by
  refine ⟨by rw [List.foldl_append, h.fold, h'.fold], fun pre post e => ?_, by rw [List.count_append, h.count, h'.count]⟩
  rcases List.append_eq_append_iff.1 e with ⟨a, e1, e2⟩ | ⟨a, e1, e2⟩
  · rw [e1, List.foldl_append, h.fold]
    exact h'.lines a post e2
  · cases a with
    | nil =>
      rw [List.append_nil] at e1
      rw [← e1, h.fold]
      exact h'.lines [] post e2.symm
    | cons c a =>
      have e3 : c = 10 ∧ post = a ++ t' := by
        rw [List.cons_append] at e2
        injection e2 with x y
        exact ⟨x.symm, y⟩
      rw [e3.1] at e1
      obtain ⟨q, hq⟩ := h.lines pre a e1
      refine ⟨q, ?_⟩
      rcases hq with ⟨r, hr⟩ | ⟨r, hr⟩
      · left; exact ⟨r ++ t', by rw [e3.2, hr]; simp⟩
      · right; exact ⟨r ++ t', by rw [e3.2, hr]; simp⟩

/-- no line breaks -/
theorem Piece.one {s s' : Reader} {t : Str} (h : t.foldl Reader.step s = s') (hn : (10 : Byte) ∉ t) : Piece M B s t s' 0 :=
  ⟨h, fun pre post e => absurd (by rw [e]; simp) hn, List.count_eq_zero.2 hn⟩

/-- a line break -/
theorem Piece.newline {s s' : Reader} {t : Str} (h : t.foldl Reader.step s = s') (hn : (10 : Byte) ∉ t) (hs : s.quoted = false)
    (ht : (∃ r, t = M s.level ++ byte '"' :: r) ∨ ∃ r, t = B s.level ++ byte '}' :: r) : Piece M B s (10 :: t) s' 1 := by
  have e0 : s.step 10 = s := by
    unfold Reader.step
    rw [hs]
    simp [byte]
  refine ⟨by rw [List.foldl_cons, e0, h], fun pre post e => ?_, by rw [List.count_cons_self, List.count_eq_zero.2 hn]⟩
  cases pre with
  | nil =>
    injection e with _ e
    subst e
    exact ⟨hs, ht⟩
  | cons c pre =>
    injection e with _ e
    exact absurd (by rw [e]; simp) hn

/-- characters that mean nothing outside of strings -/
def plain (c : Byte) : Bool := c ≠ 10 && c ≠ byte '"' && c ≠ byte '{' && c ≠ byte '[' && c ≠ byte '}' && c ≠ byte ']'

theorem plain_fold {n : Int} {t : Str} (h : ∀ c ∈ t, plain c = true) : t.foldl Reader.step ⟨false, false, n⟩ = ⟨false, false, n⟩ := by
  induction t with
  | nil => rfl
  | cons c t ih =>
    rw [List.foldl_cons]
    have hc := h c (by simp)
    simp only [plain, Bool.and_eq_true, decide_eq_true_eq] at hc
    obtain ⟨⟨⟨⟨⟨-, h1⟩, h2⟩, h3⟩, h4⟩, h5⟩ := hc
    have e : Reader.step ⟨false, false, n⟩ c = ⟨false, false, n⟩ := by
      simp [Reader.step, h1, h2, h3, h4, h5]
    rw [e]
    exact ih fun d hd => h d (by simp [hd])

theorem plain_newline {t : Str} (h : ∀ c ∈ t, plain c = true) : (10 : Byte) ∉ t := fun hc => by
  have := h 10 hc
  revert this; decide

theorem Piece.plain {n : Int} {t : Str} (h : ∀ c ∈ t, plain c = true) :
    Piece M B ⟨false, false, n⟩ t ⟨false, false, n⟩ 0 := .one (plain_fold h) (plain_newline h)

theorem escaped_fold {n : Int} {t : Str} (h : Escaped t) : t.foldl Reader.step ⟨true, false, n⟩ = ⟨true, false, n⟩ ∧ (10 : Byte) ∉ t := by
  induction h with
  | nil => exact ⟨rfl, by simp⟩
  | plain c h r ih =>
    simp only [List.mem_cons, not_or] at h
    refine ⟨?_, ?_⟩
    · rw [List.foldl_cons, show Reader.step ⟨true, false, n⟩ c = ⟨true, false, n⟩ by simp [Reader.step, h.1, h.2.1]]
      exact ih.1
    · rw [List.mem_cons]
      rintro (e | e)
      · exact h.2.2.2.2.1 e.symm
      · exact ih.2 e
  | escape e h r ih =>
    refine ⟨?_, ?_⟩
    · rw [List.foldl_cons, List.foldl_cons, show Reader.step (Reader.step ⟨true, false, n⟩ (byte '\\')) e = ⟨true, false, n⟩ by
        simp [Reader.step]]
      exact ih.1
    · rw [List.mem_cons, List.mem_cons]
      rintro (e' | e' | e')
      · revert e'; decide
      · rw [← e'] at h; revert h; decide
      · exact ih.2 e'

theorem quote_fold (n : Int) : [byte '"'].foldl Reader.step ⟨false, false, n⟩ = ⟨true, false, n⟩ ∧
    [byte '"'].foldl Reader.step ⟨true, false, n⟩ = ⟨false, false, n⟩ := by
  constructor <;> simp [Reader.step, byte]

theorem Piece.string {n : Int} {t : Str} (h : Escaped t) :
    Piece M B ⟨false, false, n⟩ ([byte '"'] ++ t ++ [byte '"']) ⟨false, false, n⟩ 0 := by
  obtain ⟨h1, h2⟩ := escaped_fold (n := n) h
  exact (((Piece.one (quote_fold n).1 (by decide)).append (.one h1 h2)).append (.one (quote_fold n).2 (by decide)))

theorem digits_plain {t : Str} (h : Digits t) : ∀ c ∈ t, Json.plain c = true := by
  intro c hc
  have h2 := h.2 c hc
  have key := forall_byte (P := fun c => 48 ≤ c ∧ c ≤ 57 → Json.plain c = true) (by decide +kernel)
  exact key c h2

theorem decInt_plain (i : Int) : ∀ c ∈ decInt i, plain c = true := by
  unfold decInt
  split
  · intro c hc
    rcases List.mem_cons.1 hc with rfl | hc
    · decide
    · exact digits_plain (decNat_digits _) c hc
  · exact digits_plain (decNat_digits _)

theorem decFloat_plain (q : ℚ) : ∀ c ∈ decFloat q, plain c = true := by
  unfold decFloat
  intro c hc
  simp only [List.mem_append] at hc
  rcases hc with ((hc | hc) | hc) | hc
  · split at hc
    · rw [List.mem_singleton] at hc; subst hc; decide
    · cases hc
  · exact digits_plain (decNat_digits _) c hc
  · rw [List.mem_singleton] at hc; subst hc; decide
  · exact digits_plain (dec6_digits _) c hc

theorem padding_mem {tab : Str} {n : Int} {c : Byte} (h : c ∈ padding n tab) : c ∈ tab := by
  unfold padding at h
  rw [List.mem_flatten] at h
  obtain ⟨l, hl, hc⟩ := h
  rw [List.eq_of_mem_replicate hl] at hc
  exact hc

theorem blank_plain {tab : Str} (h : Blanks tab) : ∀ c ∈ tab, plain c = true := fun c hc => by
  rcases h c hc with rfl | rfl <;> decide

variable {tab : Str}

theorem arr_piece {d : Int} (l : List Value)
    (ih : ∀ v ∈ l, ∀ d, Piece (indent tab) (fun k => (indent tab k).drop 2) ⟨false, false, d - 1⟩ (dump tab d v) ⟨false, false, d - 1⟩ (breaks v)) :
    Piece (indent tab) (fun k => (indent tab k).drop 2) ⟨false, false, d⟩ (dumpArr tab d l) ⟨false, false, d⟩ (breaksArr l) := by
  induction l with
  | nil => rw [dumpArr, breaksArr]; exact .one rfl (by simp)
  | cons v l ihl =>
    have h1 := ih v (by simp) (d + 1)
    rw [show d + 1 - 1 = d by omega] at h1
    have h2 := ihl fun w hw => ih w (by simp [hw])
    cases l with
    | nil => rw [dumpArr, breaksArr, breaksArr]; exact h1
    | cons w l =>
      rw [dumpArr, breaksArr]
      have hc : Piece (indent tab) (fun k => (indent tab k).drop 2) ⟨false, false, d⟩ (bytes [',', ' ']) ⟨false, false, d⟩ 0 :=
        .plain (by decide)
      exact (h1.append hc).append h2
      intro h; cases h

theorem obj_piece {d : Int} (hb : Blanks tab) (m : List (Str × Value)) (hne : m ≠ []) (hk : ∀ p ∈ m, Escaped p.1)
    (ih : ∀ p ∈ m, ∀ d, Piece (indent tab) (fun k => (indent tab k).drop 2) ⟨false, false, d - 1⟩ (dump tab d p.2) ⟨false, false, d - 1⟩
      (breaks p.2)) :
    Piece (indent tab) (fun k => (indent tab k).drop 2) ⟨false, false, d⟩ (10 :: dumpObj tab d m) ⟨false, false, d⟩ (breaksObj m) := by
  have hpl : ∀ c ∈ padding d tab, plain c = true := fun c hc => blank_plain hb c (padding_mem hc)
  have head : ∀ k v, Escaped k → (∀ d, Piece (indent tab) (fun k => (indent tab k).drop 2) ⟨false, false, d - 1⟩ (dump tab d v)
      ⟨false, false, d - 1⟩ (breaks v)) → Piece (indent tab) (fun k => (indent tab k).drop 2) ⟨false, false, d⟩
      (10 :: (padding d tab ++ bytes ['"'] ++ k ++ bytes ['"', ' ', ':', ' '] ++ dump tab (d + 1) v)) ⟨false, false, d⟩ (breaks v + 1) := by
    intro k v he hv
    have h1 : Piece (indent tab) (fun k => (indent tab k).drop 2) ⟨false, false, d⟩ (10 :: (padding d tab ++ bytes ['"']))
        ⟨true, false, d⟩ 1 := by
      refine .newline ?_ ?_ rfl (.inl ⟨[], rfl⟩)
      · rw [List.foldl_append, plain_fold hpl]; exact (quote_fold d).1
      · rw [List.mem_append, not_or]
        exact ⟨plain_newline hpl, by decide⟩
    have h2 : Piece (indent tab) (fun k => (indent tab k).drop 2) ⟨true, false, d⟩ k ⟨true, false, d⟩ 0 :=
      .one (escaped_fold he).1 (escaped_fold (n := d) he).2
    have h3 : Piece (indent tab) (fun k => (indent tab k).drop 2) ⟨true, false, d⟩ (bytes ['"', ' ', ':', ' ']) ⟨false, false, d⟩ 0 := by
      refine .one ?_ (by decide)
      rw [show bytes ['"', ' ', ':', ' '] = [byte '"'] ++ bytes [' ', ':', ' '] from rfl, List.foldl_append, (quote_fold d).2]
      exact plain_fold (by decide)
    have h4 := hv (d + 1)
    rw [show d + 1 - 1 = d by omega] at h4
    have := (((h1.append h2).append h3).append h4)
    rw [show 1 + 0 + 0 + breaks v = breaks v + 1 by omega] at this
    exact this
  induction m with
  | nil => exact absurd rfl hne
  | cons p m ihm =>
    obtain ⟨k, v⟩ := p
    have h1 := head k v (hk (k, v) (by simp)) (ih (k, v) (by simp))
    cases m with
    | nil => rw [dumpObj, breaksObj, breaksObj]; exact h1
    | cons q m =>
      have h2 := ihm (by simp) (fun p hp => hk p (by simp [hp])) (fun p hp => ih p (by simp [hp]))
      rw [dumpObj, breaksObj]
      · have hc : Piece (indent tab) (fun k => (indent tab k).drop 2) ⟨false, false, d⟩ (bytes [',']) ⟨false, false, d⟩ 0 :=
          .plain (by decide)
        have h3 := (h1.append hc).append h2
        have e : 10 :: (padding d tab ++ bytes ['"'] ++ k ++ bytes ['"', ' ', ':', ' '] ++ dump tab (d + 1) v) ++ bytes [','] ++
            10 :: dumpObj tab d (q :: m) = 10 :: (padding d tab ++ bytes ['"'] ++ k ++ bytes ['"', ' ', ':', ' '] ++ dump tab (d + 1) v ++
              bytes [',', '\n'] ++ dumpObj tab d (q :: m)) := by
          rw [show bytes [',', '\n'] = bytes [','] ++ [10] from rfl]
          simp
        rw [e] at h3
        exact h3
      · intro h; cases h

theorem dump_piece (hb : Blanks tab) {v : Value} (h : Tidy v) : ∀ d : Int,
    Piece (indent tab) (fun k => (indent tab k).drop 2) ⟨false, false, d - 1⟩ (dump tab d v) ⟨false, false, d - 1⟩ (breaks v) := by
  induction h with
  | null => intro d; rw [dump, breaks]; exact .plain (by decide); all_goals (intro _ h; cases h)
  | bool b =>
    intro d; rw [dump, breaks]
    · cases b <;> exact .plain (by decide)
    all_goals (intro _ h; cases h)
  | int i => intro d; rw [dump, breaks]; exact .plain (decInt_plain i); all_goals (intro _ h; cases h)
  | float q => intro d; rw [dump, breaks]; exact .plain (decFloat_plain q); all_goals (intro _ h; cases h)
  | str s => intro d; rw [dump, breaks]; exact .string (escape_escaped s); all_goals (intro _ h; cases h)
  | arr l h ih =>
    intro d
    rw [dump, breaks]
    have h1 : Piece (indent tab) (fun k => (indent tab k).drop 2) ⟨false, false, d - 1⟩ (bytes ['[']) ⟨false, false, d⟩ 0 :=
      .one (by simp [bytes, Reader.step, byte]) (by decide)
    have h2 : Piece (indent tab) (fun k => (indent tab k).drop 2) ⟨false, false, d⟩ (bytes [']']) ⟨false, false, d - 1⟩ 0 :=
      .one (by simp [bytes, Reader.step, byte]) (by decide)
    have := (h1.append (arr_piece l ih)).append h2
    rw [show 0 + breaksArr l + 0 = breaksArr l by omega] at this
    exact this
  | obj m hne hk h ih =>
    intro d
    rw [dump, breaks]
    have hpl : ∀ c ∈ (padding d tab).drop 2, plain c = true :=
      fun c hc => blank_plain hb c (padding_mem (List.mem_of_mem_drop hc))
    have h1 : Piece (indent tab) (fun k => (indent tab k).drop 2) ⟨false, false, d - 1⟩ (bytes ['{']) ⟨false, false, d⟩ 0 :=
      .one (by simp [bytes, Reader.step, byte]) (by decide)
    have h2 : Piece (indent tab) (fun k => (indent tab k).drop 2) ⟨false, false, d⟩ (10 :: ((padding d tab).drop 2 ++ bytes ['}']))
        ⟨false, false, d - 1⟩ 1 := by
      refine .newline ?_ ?_ rfl (.inr ⟨[], rfl⟩)
      · rw [List.foldl_append, plain_fold hpl]; simp [bytes, Reader.step, byte]
      · rw [List.mem_append, not_or]
        exact ⟨plain_newline hpl, by decide⟩
    have := (h1.append (obj_piece hb m hne hk ih)).append h2
    rw [show 0 + breaksObj m + 1 = breaksObj m + 1 by omega] at this
    have e : bytes ['{', '\n'] ++ dumpObj tab d m ++ bytes ['\n'] ++ (padding d tab).drop 2 ++ bytes ['}'] =
        bytes ['{'] ++ 10 :: dumpObj tab d m ++ 10 :: ((padding d tab).drop 2 ++ bytes ['}']) := by
      rw [show bytes ['{', '\n'] = bytes ['{'] ++ [10] from rfl, show bytes ['\n'] = [10] from rfl]
      simp
    rw [e]
    exact this

theorem indent_pred (h : tab.length = 2) (k : Int) : (indent tab k).drop 2 = indent tab (k - 1) := by
  unfold indent
  by_cases hk : 1 ≤ k
  · obtain ⟨n, rfl⟩ : ∃ n : Nat, k = n + 1 := ⟨(k - 1).toNat, by omega⟩
    rw [show ((n : Int) + 1).toNat = n + 1 by omega, show ((n : Int) + 1 - 1).toNat = n by omega, List.replicate_succ, List.flatten_cons,
      ← h, List.drop_left]
  · rw [show k.toNat = 0 by omega, show (k - 1).toNat = 0 by omega]; rfl

end Json
