import Verif.Proof.FloatVector
import Verif.Props.FloatText
import Verif.Props.DoubleText

/-! # Vectors of floats in texts: property C195 -/

set_option exponentiation.threshold 2000

namespace Stream.Props
open Cpp Spec
open Json (F64)
open Json.Spec (IsFloat)

/-- **C195, reading.**  From `{`, numbers in the range of `float` separated by commas, and `}`, with white space between them
and anything behind them, `>>` reads nearest `float`s to these numbers and leaves what follows. -/
theorem C195_read (a : Str) (ha : Ws a) (xs : List RItem) (hne : xs ≠ []) (h : ∀ x ∈ xs, x.OkF) (rest : Str) :
    ∃ v, readVectorF { rest := a ++ byte '{' :: (rcommas xs ++ byte '}' :: rest) } =
        .ok (v, { back := (a ++ byte '{' :: (rcommas xs ++ [byte '}'])).reverse, rest := rest }) ∧
      List.Forall₂ RItem.ReadF xs v := by
  refine ⟨_, readVectorF_items a ha xs hne h rest, ?_⟩
  rw [List.forall₂_map_right_iff, List.forall₂_same]
  exact fun x _ => ⟨_, rfl, readLit32_nearest x.lit⟩

example : ∀ x ∈ [(⟨[], oddLit, [32]⟩ : RItem), ⟨[10], tenthText, []⟩], x.OkF := by
  intro x hx
  simp only [List.mem_cons, List.not_mem_nil, or_false] at hx
  rcases hx with rfl | rfl
  · exact ⟨by decide, by decide, by decide, by decide +kernel⟩
  · exact ⟨by decide, by decide, by decide, by decide +kernel⟩
-- {-16777217 , 0.1}A
example : (readVectorF { rest := bytes ['{', '-', '1', '6', '7', '7', '7', '2', '1', '7', ' ', ',', '\n', '0', '.', '1', '}', 'A'] } >>=
    fun r => .ok (r.1, r.2.rest)) = .ok ([⟨true, .fin (-16777216)⟩, ⟨false, .fin (13421773 / 2 ^ 27)⟩], bytes ['A']) := by
  decide +kernel

/-- **C195, wrong texts.**  If the numbers are followed by the end of the text, or by a character that is no white space, no comma,
no `}` and does not go on with the number, the program is ended. -/
theorem C195_end (a : Str) (ha : Ws a) (xs : List RItem) (hne : xs ≠ []) (h : ∀ x ∈ xs, x.OkF) :
    readVectorF { rest := a ++ byte '{' :: rcommas xs } = .exit ∧
    ∀ (c : Byte) (_ : ¬ Ws [c]) (_ : Ends [c]) (_ : c ≠ byte ',') (_ : c ≠ byte '}') (t : Str),
      readVectorF { rest := a ++ byte '{' :: (rcommas xs ++ c :: t) } = .exit := by
  constructor
  · have := readVectorF_bad a ha xs hne h [] (by intro c hc; simp at hc) (by intro c hc; simp at hc)
    rwa [List.append_nil] at this
  · intro c h1 h2 h3 h4 t
    refine readVectorF_bad a ha xs hne h (c :: t) (fun d hd => h2 d (by simpa using hd)) fun d hd => ?_
    simp only [List.head?_cons, Option.mem_def, Option.some.injEq] at hd
    subst hd
    refine ⟨?_, h3, h4⟩
    by_contra hc
    exact h1 fun d hd => by
      rw [List.mem_singleton] at hd
      subst hd
      exact (isWs_iff _).1 (by simpa using hc)

-- {0.1;}
example : ¬ Ws [byte ';'] ∧ Ends [byte ';'] ∧ byte ';' ≠ byte ',' ∧ byte ';' ≠ byte '}' ∧
    readVectorF { rest := byte '{' :: (rcommas [(⟨[], tenthText, [32]⟩ : RItem)] ++ [byte ';', byte '}']) } = .exit := by
  decide +kernel

/-- **C195, what holds.**  A Vector of finite `float`s that is written and read again has as many elements, each of them what
`stringCast` reads from the text of the old one; it comes back unchanged if and only if each of its elements does. -/
theorem C195_partial (v : List F64) (hv : ∀ d ∈ v, ∃ q, d.val = .fin q ∧ IsFloat q) (hlen : (v.length : Int) ≤ INT_MAX)
    (rest : Str) :
    ∃ t v', printVectorD v = .ok t ∧ readVectorF { rest := t ++ rest } = .ok (v', { back := t.reverse, rest := rest }) ∧
      List.Forall₂ (fun d d' => castFloat (putDouble d) = .ok d') v v' ∧
      (v' = v ↔ ∀ d ∈ v, castFloat (putDouble d) = .ok d) := by
  obtain ⟨t, v', h1, h2, h3⟩ := vector_tripF v hv hlen rest
  refine ⟨t, v', h1, h2, h3, ?_⟩
  clear h1 h2 hv hlen
  induction h3 with
  | nil => simp
  | @cons a b l l' hab _ ih => rw [List.cons.injEq, ih, List.forall_mem_cons, hab, Out.ok.injEq]

example : (∀ d ∈ [(⟨false, .fin (1 / 2)⟩ : F64), ⟨false, .fin 1234567⟩], ∃ q, d.val = .fin q ∧ IsFloat q) ∧
    printVectorD [⟨false, .fin (1 / 2)⟩, ⟨false, .fin 1234567⟩] =
      .ok (bytes ['{', '0', '.', '5', ',', ' ', '1', '.', '2', '3', '4', '5', '7', 'e', '+', '0', '6', '}']) ∧
    castFloat (putDouble ⟨false, .fin (1 / 2)⟩) = .ok ⟨false, .fin (1 / 2)⟩ ∧
    castFloat (putDouble ⟨false, .fin 1234567⟩) = .ok ⟨false, .fin 1234570⟩ := by
  refine ⟨fun d hd => ?_, by decide +kernel, by decide +kernel, by decide +kernel⟩
  simp only [List.mem_cons, List.not_mem_nil, or_false] at hd
  rcases hd with rfl | rfl
  · exact ⟨_, rfl, 1, -1, by norm_num, by norm_num, by norm_num, by norm_num⟩
  · exact ⟨_, rfl, 1234567, 0, by norm_num, by norm_num, by norm_num, by norm_num⟩

/-- **C195, numbers out of range.**  If one of the numbers is 10^39 or more, the earlier ones being in range, reading ends the
program only if that number is the first.  Otherwise it is undefined: `ch` keeps the comma before the number, so another round
stores an element that was never read. -/
theorem C195_large_refuted (a : Str) (ha : Ws a) (xs : List RItem) (h : ∀ x ∈ xs, x.OkF) (y : RItem) (hy : y.LargeF) (c : Byte)
    (hc : c = byte ',' ∨ c = byte '}') (t : Str) :
    readVectorF { rest := a ++ byte '{' :: (rcommas (xs ++ [y]) ++ c :: t) } = if xs = [] then .exit else .ub :=
  readVectorF_large a ha xs h y hy c hc t

/-- 1e39 -/
def hugeText : Lit := ⟨none, bytes ['1'], false, [], some (byte 'e', none, bytes ['3', '9'])⟩

example : (⟨[32], tenthText, []⟩ : RItem).OkF ∧ (⟨[], hugeText, []⟩ : RItem).LargeF ∧
    rcommas [⟨[], tenthText, []⟩, ⟨[], hugeText, []⟩] = bytes ['0', '.', '1', ',', '1', 'e', '3', '9'] :=
  ⟨⟨by decide, by decide, by decide, by decide +kernel⟩, ⟨by decide, by decide, by decide, by decide +kernel⟩, by decide +kernel⟩
-- {0.1, 1e39} and {1e39}
example : readVectorF { rest := bytes ['{', '0', '.', '1', ',', ' ', '1', 'e', '3', '9', '}'] } = .ub ∧
    readVectorF { rest := bytes ['{', '1', 'e', '3', '9', '}'] } = .exit := by decide +kernel

/-- **C195 is false**: 1234567, a `float`, is written as `{1.23457e+06}` and comes back as 1234570; the Vector of 1/2 and infinity is
written as `{0.5, inf}`, which is undefined to read. -/
theorem C195_refuted :
    (printVectorD [⟨false, .fin 1234567⟩] >>= fun t => readVectorF { rest := t } >>= fun r => .ok r.1) =
      .ok [⟨false, .fin 1234570⟩] ∧
    (printVectorD [⟨false, .fin (1 / 2)⟩, ⟨false, .inf false⟩] >>= fun t => readVectorF { rest := t } >>= fun r => .ok r.1) = .ub := by
  decide +kernel

example : IsFloat 1234567 := ⟨1234567, 0, by norm_num, by norm_num, by norm_num, by norm_num⟩
example : printVectorD [⟨false, .fin (1 / 2)⟩, ⟨false, .inf false⟩] = .ok (bytes ['{', '0', '.', '5', ',', ' ', 'i', 'n', 'f', '}']) := by
  decide +kernel

end Stream.Props
