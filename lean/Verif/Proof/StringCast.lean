import Verif.Spec.StringCast
import Verif.Proof.Stream
import Mathlib.Logic.Function.Basic

/-! # Helper lemmas for stringCast -/

namespace Stream
open Cpp Spec

theorem getDigits_num (b : Str) {n t : Str} {v : Int} (hn : Num n v) (ht : ∀ c ∈ t.head?, Json.isDigit c = false) :
    ∃ sign ds, IStream.getDigits ⟨b, n ++ t, false, false⟩ = (sign, ds, ⟨n.reverse ++ b, t, decide (t = []), false⟩) ∧
      ds ≠ [] ∧ v = (if sign = [byte '-'] then -(Json.natVal ds : Int) else Json.natVal ds) := by
  unfold IStream.getDigits
  obtain ⟨c, n', e, h1, -⟩ := num_head hn
  cases hn with
  | plain ds hd =>
    have hc : c ∈ n := by rw [e]; simp
    have hd1 := hd.2 c hc
    have key : ∀ c : Byte, 48 ≤ c ∧ c ≤ 57 → ¬ (c = byte '-' ∨ c = byte '+') := forall_byte (by decide +kernel)
    have e1 : ((n ++ t).take 1).filter (fun c => decide (c = byte '-' ∨ c = byte '+')) = [] := by
      rw [e]
      simp [key c hd1]
    have e2 : (n ++ t).takeWhile Json.isDigit = n := takeWhile_pre (digits_isDigit hd) ht
    refine ⟨[], n, ?_, hd.1, by rw [if_neg (by simp), natVal_nat]⟩
    simp only [e1, List.length_nil, List.drop_zero, e2, Nat.zero_add, take_pre]
  | plus ds hd =>
    have e1 : ((byte '+' :: ds ++ t).take 1).filter (fun c => decide (c = byte '-' ∨ c = byte '+')) = [byte '+'] := by
      simp
    have e2 : ((byte '+' :: ds ++ t).drop 1).takeWhile Json.isDigit = ds := takeWhile_pre (digits_isDigit hd) ht
    have e3 : IStream.take ⟨b, byte '+' :: ds ++ t, false, false⟩ (1 + ds.length) =
        ⟨(byte '+' :: ds).reverse ++ b, t, false, false⟩ := by
      rw [Nat.add_comm]; exact take_pre b (byte '+' :: ds) t
    refine ⟨[byte '+'], ds, ?_, hd.1, by rw [if_neg (by decide), natVal_nat]⟩
    simp only [e1, List.length_singleton, e2, e3]
  | minus ds hd =>
    have e1 : ((byte '-' :: ds ++ t).take 1).filter (fun c => decide (c = byte '-' ∨ c = byte '+')) = [byte '-'] := by
      simp
    have e2 : ((byte '-' :: ds ++ t).drop 1).takeWhile Json.isDigit = ds := takeWhile_pre (digits_isDigit hd) ht
    have e3 : IStream.take ⟨b, byte '-' :: ds ++ t, false, false⟩ (1 + ds.length) =
        ⟨(byte '-' :: ds).reverse ++ b, t, false, false⟩ := by
      rw [Nat.add_comm]; exact take_pre b (byte '-' :: ds) t
    refine ⟨[byte '-'], ds, ?_, hd.1, by rw [if_pos rfl, natVal_nat]⟩
    simp only [e1, List.length_singleton, e2, e3]

theorem getSigned_num (lo hi : Int) (hlh : lo ≤ hi) (b : Str) {w n t : Str} {v : Int} (hw : Ws w) (hn : Num n v)
    (ht : ∀ c ∈ t.head?, Json.isDigit c = false) (value : Option Int) :
    (IStream.getSigned lo hi ⟨b, w ++ (n ++ t), false, false⟩ value).1 = some (max lo (min hi v)) := by
  unfold IStream.getSigned
  obtain ⟨c, n', e, h1, -⟩ := num_head hn
  rw [sentry_good b hw ⟨c, by rw [e]; simp, h1⟩]
  obtain ⟨sign, ds, e1, h2, e2⟩ := getDigits_num (w.reverse ++ b) hn ht
  simp only [if_true, e1, if_neg h2, ← e2]
  split
  · show some hi = _
    rw [show max lo (min hi v) = hi by omega]
  · split
    · show some lo = _
      rw [show max lo (min hi v) = lo by omega]
    · show some v = _
      rw [show max lo (min hi v) = v by omega]

theorem getUnsigned_num (m : Nat) (b : Str) {w n t : Str} {v : Int} (hw : Ws w) (hn : Num n v)
    (ht : ∀ c ∈ t.head?, Json.isDigit c = false) (value : Option Nat) :
    (IStream.getUnsigned m ⟨b, w ++ (n ++ t), false, false⟩ value).1 =
      some (if v.natAbs < m then (v % m).toNat else m - 1) := by
  unfold IStream.getUnsigned
  obtain ⟨c, n', e, h1, -⟩ := num_head hn
  rw [sentry_good b hw ⟨c, by rw [e]; simp, h1⟩]
  obtain ⟨sign, ds, e1, h2, e2⟩ := getDigits_num (w.reverse ++ b) hn ht
  simp only [if_true, e1, if_neg h2]
  generalize Json.natVal ds = k at *
  have ha : v.natAbs = k := by
    subst e2; split <;> omega
  rw [ha]
  by_cases hm : k ≥ m
  · rw [if_pos hm, if_neg (by omega)]
  · rw [if_neg hm, if_pos (show k < m by omega)]
    by_cases h4 : sign = [byte '-']
    · rw [if_pos h4] at e2 ⊢
      subst e2
      show some ((m - k) % m) = _
      congr 1
      rcases Nat.eq_zero_or_pos k with h0 | h0
      · subst h0; simp
      · rw [Nat.mod_eq_of_lt (by omega), ← Int.add_emod_right, Int.emod_eq_of_lt (by omega) (by omega)]
        omega
    · rw [if_neg h4] at e2 ⊢
      subst e2
      show some k = _
      congr 1
      rw [Int.emod_eq_of_lt (by omega) (by omega)]
      omega

theorem getString_word (b : Str) {w n t : Str} (hw : Ws w) (hne : n ≠ []) (hn : ∀ c ∈ n, isWs c = false)
    (ht : ∀ c ∈ t.head?, isWs c = true) (value : Str) :
    (IStream.getString ⟨b, w ++ (n ++ t), false, false⟩ value).1 = n := by
  unfold IStream.getString
  rw [sentry_good b hw]
  · show (n ++ t).takeWhile (fun c => !isWs c) = n
    exact takeWhile_pre (fun c hc => by simp [hn c hc]) fun c hc => by simp [ht c hc]
  · cases n with
    | nil => exact absurd rfl hne
    | cons c n => exact ⟨c, by simp, hn c (by simp)⟩

/-! ## objects -/

/-- the objects and what they hold -/
structure SimC {α : Type} (s : CastState α) (h : Held α) (p : List CastStmt) : Prop where
  vars : h.vars = s.vars
  out : h.out = s.out
  obj : ∀ c, (s.objs c = none ∧ h.texts c = none) ∨
    ∃ v t, s.objs c = some (.var v) ∧ s.vars v = some t ∧ h.texts c = some t ∧ ∀ a ∈ p, ¬ Changes v a

theorem SimC.tail {α : Type} {s : CastState α} {h : Held α} {a : CastStmt} {p : List CastStmt} (H : SimC s h (a :: p)) :
    SimC s h p :=
  ⟨H.vars, H.out, fun c => by
    rcases H.obj c with h | ⟨v, t, h1, h2, h3, h4⟩
    · exact .inl h
    · exact .inr ⟨v, t, h1, h2, h3, fun b hb => h4 b (List.mem_cons_of_mem _ hb)⟩⟩

theorem runAll_held {α : Type} (cast : Str → Out α) : ∀ (p : List CastStmt) (s : CastState α) (h : Held α),
    Keeps p → SimC s h p →
    (CastStmt.runAll cast p s >>= fun s => .ok s.out) = Held.results cast p h := by
  intro p
  induction p with
  | nil =>
    intro s h _ H
    show Out.ok s.out = Out.ok h.out
    rw [H.out]
  | cons a p ih =>
    intro s h hk H
    unfold CastStmt.runAll Held.results
    have push : ∀ t, (((do let x ← cast t; Out.ok { s with out := s.out ++ [x] } : Out (CastState α)) >>=
        fun s => CastStmt.runAll cast p s) >>= fun s => .ok s.out) =
        (do let h ← h.push cast (some t); Held.results cast p h) := by
      intro t
      unfold Held.push
      dsimp only
      cases hc : cast t with
      | ok x =>
        simp only [Out.ok_bind]
        refine ih _ _ ?_ ⟨H.vars, by simp [H.out], H.tail.obj⟩
        cases a with
        | make c arg => cases arg with
          | var v => exact hk.2
          | temp t => exact hk.elim
        | _ => exact hk
      | exit => rfl
      | ub => rfl
      | diverge => rfl
    cases a with
    | assign v t =>
      refine ih _ _ hk ⟨?_, H.out, ?_⟩
      · show Function.update h.vars v (some t) = _
        rw [H.vars]
        funext u
        simp [Function.update_apply]
      · intro c
        rcases H.obj c with h1 | ⟨u, x, h1, h2, h3, h4⟩
        · exact .inl h1
        · have hv : v ≠ u := fun e => h4 (.assign v t) (by simp) e
          exact .inr ⟨u, x, h1, by show (if u = v then _ else _) = _; rw [if_neg (Ne.symm hv)]; exact h2, h3,
            fun b hb => h4 b (List.mem_cons_of_mem _ hb)⟩
    | drop v =>
      refine ih _ _ hk ⟨?_, H.out, ?_⟩
      · show Function.update h.vars v none = _
        rw [H.vars]
        funext u
        simp [Function.update_apply]
      · intro c
        rcases H.obj c with h1 | ⟨u, x, h1, h2, h3, h4⟩
        · exact .inl h1
        · have hv : v ≠ u := fun e => h4 (.drop v) (by simp) e
          exact .inr ⟨u, x, h1, by show (if u = v then _ else _) = _; rw [if_neg (Ne.symm hv)]; exact h2, h3,
            fun b hb => h4 b (List.mem_cons_of_mem _ hb)⟩
    | make c arg =>
      cases arg with
      | temp t => exact hk.elim
      | var v =>
        simp only [CastStmt.run, Held.step, Held.arg, H.vars, CastState.deref]
        cases hv : s.vars v with
        | none => rfl
        | some t =>
          refine ih _ _ hk.2 ⟨rfl, H.out, ?_⟩
          intro d
          dsimp only
          by_cases hd : d = c
          · subst hd
            exact .inr ⟨v, t, by simp, hv, by simp, hk.1⟩
          · simpa [Function.update_apply, hd] using H.tail.obj d
    | use c =>
      simp only [CastStmt.run, Held.step]
      rcases H.obj c with ⟨h1, h2⟩ | ⟨u, x, h1, h2, h3, h4⟩
      · rw [h1, h2]; rfl
      · rw [h1, h3]
        simp only [CastState.deref, h2, Out.ok_bind]
        exact push x
    | direct arg =>
      cases arg with
      | temp t => exact push t
      | var v =>
        simp only [CastStmt.run, Held.step, Held.arg, H.vars, CastState.deref]
        cases hv : s.vars v with
        | none => rfl
        | some t => exact push t

end Stream
