import Verif.Spec.JsonStore
import Verif.Proof.JsonApi
import Verif.Props.Json
import Verif.Props.Url
import Verif.Props.Base64

/-! # Helper lemmas for a store of byte strings in a JSON document -/

namespace JsonStore
open Cpp Json Json.Spec Spec

/-- no character needs an escape in JSON -/
def Clean (s : Str) : Prop := ∀ c ∈ s, c ∉ [byte '"', byte '\\', 8, 9, 10, 12, 13]

theorem clean_unreserved : ∀ c : Byte, (Url.Spec.Unreserved c → c ∉ [byte '"', byte '\\', 8, 9, 10, 12, 13]) ∧
    (Url.Spec.UpperHex c → c ∉ [byte '"', byte '\\', 8, 9, 10, 12, 13]) ∧
    (Base64.Spec.IsBase64Char c → c ∉ [byte '"', byte '\\', 8, 9, 10, 12, 13]) := by
  apply forall_byte; decide +kernel

theorem clean_safe {t : Str} (h : Url.Spec.Safe t) : Clean t := by
  induction h with
  | nil => intro c hc; cases hc
  | plain c t hc _ ih =>
    intro x hx
    rcases List.mem_cons.1 hx with rfl | hx
    · exact (clean_unreserved _).1 hc
    · exact ih x hx
  | escaped h l t hh hl _ ih =>
    intro x hx
    simp only [List.mem_cons] at hx
    rcases hx with rfl | rfl | rfl | hx
    · decide
    · exact (clean_unreserved _).2.1 hh
    · exact (clean_unreserved _).2.1 hl
    · exact ih x hx

theorem clean_url (s : Str) : Clean (Url.urlEncode s) := clean_safe (Url.C06_encode_safe s)

theorem letter_char (n : Nat) : Base64.Spec.IsBase64Char (Base64.Spec.letter n) := by
  by_cases h : n < 64
  · have : ∀ n : Fin 64, Base64.Spec.IsBase64Char (Base64.Spec.letter n.val) := by decide +kernel
    exact this ⟨n, h⟩
  · have : Base64.Spec.letter n = byte '/' := by
      unfold Base64.Spec.letter
      rw [if_neg (by omega), if_neg (by omega), if_neg (by omega), if_neg (by omega)]
    rw [this]
    decide

theorem base64_chars (s : Str) : ∀ c ∈ Base64.Spec.rfc4648 s, Base64.Spec.IsBase64Char c := by
  induction s using Base64.Spec.rfc4648.induct with
  | case1 => intro c hc; cases hc
  | case2 a =>
    intro c hc
    simp only [Base64.Spec.rfc4648, List.mem_cons, List.not_mem_nil, or_false] at hc
    rcases hc with rfl | rfl | rfl | rfl <;> first | exact letter_char _ | decide
  | case3 a b =>
    intro c hc
    simp only [Base64.Spec.rfc4648, List.mem_cons, List.not_mem_nil, or_false] at hc
    rcases hc with rfl | rfl | rfl | rfl <;> first | exact letter_char _ | decide
  | case4 a b c rest ih =>
    intro x hx
    simp only [Base64.Spec.rfc4648, List.mem_cons] at hx
    rcases hx with rfl | rfl | rfl | rfl | hx <;> first | exact letter_char _ | exact ih x hx

theorem clean_base64 (s : Str) : Clean (Base64.base64Encode s) := by
  intro c hc
  rw [Base64.C01_encode_is_rfc4648] at hc
  exact (clean_unreserved c).2.2 (base64_chars s c hc)

/-- the document while the client runs: the data under a name are `f name` -/
structure Inv (enc : Str → Str) (doc : Value) (f : Str → Option Str) : Prop where
  fine : Fine doc
  noFloat : NoFloat doc
  obj : doc = .null ∨ ∃ m, doc = .obj m
  get : ∀ name, (asObj doc).lookup (Url.urlEncode name) = (f name).map fun d => .str (enc d)

theorem inv_nil (enc : Str → Str) : Inv enc .null (fun _ => none) :=
  ⟨.null, .null, .inl rfl, fun _ => rfl⟩

theorem put_mem {k : Str} {v : Value} {m : List (Str × Value)} {p : Str × Value} (h : p ∈ put k v m) : p = (k, v) ∨ p ∈ m := by
  induction m with
  | nil => simpa [put] using h
  | cons q m ih =>
    obtain ⟨k', v'⟩ := q
    unfold put at h
    split at h
    · rcases List.mem_cons.1 h with h | h
      · exact .inl h
      · exact .inr (List.mem_cons_of_mem _ h)
    · split at h
      · rcases List.mem_cons.1 h with h | h
        · exact .inl h
        · exact .inr h
      · rcases List.mem_cons.1 h with h | h
        · exact .inr (h ▸ List.mem_cons_self)
        · exact (ih h).imp id (List.mem_cons_of_mem _)

theorem asObj_fine {doc : Value} (h : Fine doc) (hf : NoFloat doc) : ((asObj doc).Pairwise fun a b => a.1 < b.1) ∧
    (∀ p ∈ asObj doc, ∃ s, p.1 = jsonEscape s) ∧ (∀ p ∈ asObj doc, Fine p.2) ∧ ∀ p ∈ asObj doc, NoFloat p.2 := by
  cases h with
  | obj m hs hk h =>
    cases hf with
    | obj _ h' => exact ⟨hs, hk, h, h'⟩
  | _ => simp [asObj]

theorem inv_set {enc : Str → Str} {doc : Value} {f : Str → Option Str} (h : Inv enc doc f) (n d : Str) :
    ∃ doc', step enc doc (.set n d) = .ok doc' ∧ Inv enc doc' (fun name => if n = name then some d else f name) := by
  obtain ⟨h1, h2, h3, h4⟩ := asObj_fine h.fine h.noFloat
  refine ⟨.obj (put (Url.urlEncode n) (.str (enc d)) (asObj doc)), rfl, .obj _ (put_sorted _ _ h1) (fun p hp => ?_)
    (fun p hp => ?_), .obj _ (fun p hp => ?_), .inr ⟨_, rfl⟩, fun name => ?_⟩
  · rcases put_mem hp with rfl | hp
    · exact ⟨Url.urlEncode n, (escape_plain (clean_url n)).symm⟩
    · exact h2 p hp
  · rcases put_mem hp with rfl | hp
    · exact .str _
    · exact h3 p hp
  · rcases put_mem hp with rfl | hp
    · exact .str _
    · exact h4 p hp
  · show (put (Url.urlEncode n) (.str (enc d)) (asObj doc)).lookup _ = _
    rw [lookup_put]
    by_cases e : n = name
    · subst e; simp
    · rw [if_neg fun hc => e (Url.C06_encode_injective _ _ hc).symm, if_neg e]
      exact h.get name

theorem inv_reload {enc : Str → Str} {doc : Value} {f : Str → Option Str} (h : Inv enc doc f) (depth : Int) (tab : Str)
    (ht : Ws tab) : step enc doc (.reload depth tab) = .ok doc := Json.Props.C48_roundtrip doc h.fine h.noFloat tab ht depth

/-- what the store holds after the steps -/
def after (f : Str → Option Str) (ops : List Op) (name : Str) : Option Str := (lastData name ops).or (f name)

theorem run_inv {enc : Str → Str} (ops : List Op) : ∀ {doc : Value} {f : Str → Option Str}, Inv enc doc f → Tabs ops →
    ∃ doc', ops.foldlM (step enc) doc = .ok doc' ∧ Inv enc doc' (after f ops) := by
  induction ops with
  | nil =>
    intro doc f h _
    refine ⟨doc, rfl, ?_⟩
    have : after f [] = f := by funext n; simp [after, lastData]
    rw [this]
    exact h
  | cons op ops ih =>
    intro doc f h ht
    have ht' : Tabs ops := fun d t hm => ht d t (List.mem_cons_of_mem _ hm)
    cases op with
    | reload depth tab =>
      obtain ⟨doc', e, hi⟩ := ih h ht'
      refine ⟨doc', ?_, hi⟩
      rw [List.foldlM_cons, inv_reload h depth tab (ht depth tab List.mem_cons_self)]
      exact e
    | set n d =>
      obtain ⟨doc1, e1, h1⟩ := inv_set h n d
      obtain ⟨doc', e, hi⟩ := ih h1 ht'
      refine ⟨doc', ?_, ?_⟩
      · rw [List.foldlM_cons, e1]
        exact e
      · have : after (fun name => if n = name then some d else f name) ops = after f (.set n d :: ops) := by
          funext name
          simp only [after, lastData]
          cases lastData name ops with
          | some x => rfl
          | none => by_cases e : n = name <;> simp [e]
        rw [← this]
        exact hi

theorem get_ok {enc : Str → Str} {dec : Str → Out Str} {doc : Value} {f : Str → Option Str} (h : Inv enc doc f)
    (hc : ∀ d, Clean (enc d)) (name : Str) : get dec name doc =
      match f name with
      | none => .ok none
      | some d => (do .ok (some (← dec (enc d)))) := by
  have hg := h.get name
  have hk : hasKey (Url.urlEncode name) doc = (f name).isSome := by
    rcases h.obj with rfl | ⟨m, rfl⟩
    · have : (f name).map (fun d => Value.str (enc d)) = none := hg.symm
      rw [Option.map_eq_none_iff] at this
      rw [this]
      rfl
    · show ((asObj (.obj m)).lookup _).isSome = _
      rw [hg]
      simp
  unfold get
  rw [hk]
  cases hf : f name with
  | none => rfl
  | some d =>
    rw [hf] at hg
    have : peek [.key (Url.urlEncode name)] doc = .ok (.str (enc d)) := by
      show Out.ok (mapAt (asObj doc) _) = _
      unfold mapAt
      rw [hg]
      rfl
    simp only [Option.isSome_some, if_true]
    rw [this]
    simp only [Out.ok_bind, Value.toString]
    rw [escape_plain (hc d)]

end JsonStore
