import Verif.Spec.ContLoop
import Verif.Proof.ContRef5

/-! # Helper lemmas for loops over containers -/

open Cpp

namespace Cont.Loop
open Cont.Ref

variable {α σ : Type}

theorem agree_bind {β β' γ γ' : Type} {P : β → γ → Prop} {Q : β' → γ' → Prop} {o : Out β} {n : Out γ} {f : β → Out β'}
    {g : γ → Out γ'} (h : Agree P o n) (hf : ∀ b c, o = .ok b → n = .ok c → P b c → Agree Q (f b) (g c)) :
    Agree Q (o >>= f) (n >>= g) := by
  cases o <;> cases n <;> first | exact h.elim | trivial | exact hf _ _ rfl rfl h

theorem next_some {s : Obj α} {vs : List α} (h : Rel s vs) {r p : Nat} (hr : s.nodes[p]? = some r) :
    next s r = .ok s.nodes[p + 1]? := by
  obtain ⟨hp, e⟩ := List.getElem?_eq_some_iff.1 hr
  have : s.nodes.idxOf r = p := by rw [← e]; exact h.nodup.idxOf_getElem p hp
  rw [next, if_pos (List.mem_of_getElem? hr), this]

theorem next_none {s : Obj α} {r : Nat} (hr : r ∉ s.nodes) : next s r = .ub := by rw [next, if_neg hr]

/-- What the body does with a List. -/
theorem exec_agree [LinearOrder α] (b : Body (Cont.Lst.Call α) α σ) : ∀ (s : Obj α) (vs : List α) (r : Nat) (q : Option Nat),
    Rel s vs → RefOk s r q →
    Agree (fun (x : σ × List α × Option Nat × Bool) (y : σ × Obj α × Bool) => x.1 = y.1 ∧ Rel y.2.1 x.2.1 ∧
      RefOk y.2.1 r x.2.2.1 ∧ x.2.2.2 = y.2.2) (Spec.exec Ref.Spec.list vs q b) (exec listClass s r b) := by
  induction b with
  | done st => intro s vs r q h hr; exact ⟨rfl, h, hr, rfl⟩
  | stop st => intro s vs r q h hr; exact ⟨rfl, h, hr, rfl⟩
  | call c k ih =>
    intro s vs r q h hr
    refine agree_bind (list_sim.call s vs c [] h) ?_
    rintro ⟨x, vs'⟩ ⟨x', s'⟩ - - ⟨e, h1, h2⟩
    dsimp only at e h1 h2
    subst e
    exact ih x s' vs' r _ h1 (h2 r q hr)
  | size k ih =>
    intro s vs r q h hr
    show Agree _ (Spec.exec _ vs q (k vs.length)) (exec listClass s r (k s.nodes.length))
    rw [h.length]
    exact ih _ s vs r q h hr
  | read k ih =>
    intro s vs r q h hr
    cases q with
    | none =>
      have : s.mem r = none := h.dead.2 hr.2
      show Agree _ Out.ub (s.read r >>= _)
      simp [Obj.read, this, Agree]
    | some p =>
      obtain ⟨x, hx, hm⟩ := h.at hr.2
      have e : s.read r = .ok x := by simp [Obj.read, hm]
      show Agree _ _ (s.read r >>= fun x => exec listClass s r (k x))
      rw [e]
      simp only [Spec.exec, hx, Out.ok_bind]
      exact ih x s vs r _ h hr
  | write v b ih =>
    intro s vs r q h hr
    cases q with
    | none =>
      have : s.mem r = none := h.dead.2 hr.2
      show Agree _ Out.ub (s.write r v >>= _)
      simp [Obj.write, this, Agree]
    | some p =>
      obtain ⟨hw, h'⟩ := h.write hr.2 v
      show Agree _ (Spec.exec _ (vs.set p v) (some p) b) (s.write r v >>= fun o => exec listClass o r b)
      rw [hw]
      exact ih _ _ r _ h' hr

theorem rounds_agree [LinearOrder α] (body : σ → Body (Cont.Lst.Call α) α σ) (n : Nat) : ∀ (st : σ) (s : Obj α) (vs : List α) (p : Nat),
    Rel s vs → Agree (fun (x : σ × List α) (y : σ × Obj α × List Nat) => x.1 = y.1 ∧ Rel y.2.1 x.2)
      (Spec.loop Ref.Spec.list body n st vs p) (rounds body n st s s.nodes[p]?) := by
  induction n with
  | zero => intro st s vs p _; trivial
  | succ n ih =>
    intro st s vs p h
    by_cases hp : p < vs.length
    · obtain ⟨r, hr⟩ : ∃ r, s.nodes[p]? = some r := ⟨_, List.getElem?_eq_getElem (by rw [h.length]; exact hp)⟩
      rw [hr]
      simp only [Spec.loop, rounds, if_pos hp]
      refine agree_bind (exec_agree (body st) s vs r (some p) h ⟨h.lt (List.mem_of_getElem? hr), hr⟩) ?_
      rintro ⟨st', vs', q, stop⟩ ⟨st'', s', stop'⟩ - - ⟨e1, h1, h2, e2⟩
      dsimp only at e1 h1 h2 e2
      subst e1 e2
      cases stop with
      | true => exact ⟨rfl, h1⟩
      | false =>
        cases q with
        | none =>
          have := next_none h2.2
          simp [this, Agree]
        | some p' =>
          have := next_some h1 h2.2
          simp only [this, Out.ok_bind, Bool.false_eq_true, if_false]
          have hi := ih st' s' vs' (p' + 1) h1
          revert hi
          cases Spec.loop Ref.Spec.list body n st' vs' (p' + 1) <;> cases rounds body n st' s' s'.nodes[p' + 1]? <;> intro hi <;>
            first | exact hi.elim | trivial
    · rw [List.getElem?_eq_none (by rw [h.length]; omega)]
      simp only [Spec.loop, rounds, if_neg hp]
      exact ⟨rfl, h⟩

theorem rel_ofListL (vs : List α) : Rel (ofList vs) vs := rel_ofList vs 0

/-! ## Vector -/

theorem execV_agree (grow : Nat → Nat) (b : Body (Cont.Vector.Call α) α σ) : ∀ (s : Vector.Vec α) (vs : List α) (r : Nat) (q : Option Nat),
    Spec.Quiet b → Rel s.toObj vs → RefOk s.toObj r q →
    Agree (fun (x : σ × List α × Option Nat × Bool) (y : σ × Vector.Vec α × Bool × Bool) => x.1 = y.1 ∧ Rel y.2.1.toObj x.2.1 ∧
      RefOk y.2.1.toObj r x.2.2.1 ∧ x.2.2.2 = y.2.2.1 ∧ y.2.2.2 = true) (Spec.exec Ref.Spec.vector vs q b) (execV grow s r true b) := by
  induction b with
  | done st => intro s vs r q _ h hr; exact ⟨rfl, h, hr, rfl, rfl⟩
  | stop st => intro s vs r q _ h hr; exact ⟨rfl, h, hr, rfl, rfl⟩
  | call c k ih =>
    intro s vs r q hq h hr
    refine agree_bind (vec_call grow h c) ?_
    rintro ⟨x, vs'⟩ ⟨x', s'⟩ - - ⟨e, h1, -, h2⟩
    dsimp only at e h1 h2
    subst e
    have e : (true && Stays c) = true := by rw [hq.1]; rfl
    rw [e]
    refine ih x s' vs' r _ (hq.2 x) h1 ?_
    have h3 := h2 r q hr
    cases q with
    | none => exact h3
    | some p =>
      have hs := hq.1
      cases c <;> first | (simp [Stays] at hs; done) | exact h3
  | size k ih =>
    intro s vs r q hq h hr
    show Agree _ (Spec.exec _ vs q (k vs.length)) (execV grow s r true (k s.nodes.length))
    rw [h.length]
    exact ih _ s vs r q (hq _) h hr
  | read k ih =>
    intro s vs r q hq h hr
    cases q with
    | none =>
      have : s.toObj.mem r = none := h.dead.2 hr.2
      show Agree _ Out.ub (s.toObj.read r >>= _)
      simp [Obj.read, this, Agree]
    | some p =>
      obtain ⟨x, hx, hm⟩ := h.at hr.2
      have e : s.toObj.read r = .ok x := by simp [Obj.read, hm]
      show Agree _ _ (s.toObj.read r >>= fun x => execV grow s r true (k x))
      rw [e]
      simp only [Spec.exec, hx, Out.ok_bind]
      exact ih x s vs r _ (hq _) h hr
  | write v b ih =>
    intro s vs r q hq h hr
    cases q with
    | none =>
      have : s.toObj.mem r = none := h.dead.2 hr.2
      show Agree _ Out.ub (s.toObj.write r v >>= _)
      simp [Obj.write, this, Agree]
    | some p =>
      obtain ⟨hw, h'⟩ := h.write hr.2 v
      show Agree _ (Spec.exec _ (vs.set p v) (some p) b) (s.toObj.write r v >>= fun o => execV grow { s with toObj := o } r true b)
      rw [hw]
      exact ih _ _ r _ hq h' hr

theorem roundsV_agree (grow : Nat → Nat) (body : σ → Body (Cont.Vector.Call α) α σ) (hb : ∀ st, Spec.Quiet (body st)) (n : Nat) :
    ∀ (st : σ) (s : Vector.Vec α) (vs : List α) (p : Nat),
    Rel s.toObj vs → Agree (fun (x : σ × List α) (y : σ × Vector.Vec α × List Nat) => x.1 = y.1 ∧ Rel y.2.1.toObj x.2)
      (Spec.loop Ref.Spec.vector body n st vs p) (roundsV grow body n st s s.nodes[p]?) := by
  induction n with
  | zero => intro st s vs p _; trivial
  | succ n ih =>
    intro st s vs p h
    by_cases hp : p < vs.length
    · obtain ⟨r, hr⟩ : ∃ r, s.nodes[p]? = some r := ⟨_, List.getElem?_eq_getElem (by rw [h.length]; exact hp)⟩
      rw [hr]
      simp only [Spec.loop, roundsV, if_pos hp]
      refine agree_bind (execV_agree grow (body st) s vs r (some p) (hb st) h ⟨h.lt (List.mem_of_getElem? hr), hr⟩) ?_
      rintro ⟨st', vs', q, stop⟩ ⟨st'', s', stop', e⟩ - - ⟨e1, h1, h2, e2, e3⟩
      dsimp only at e1 h1 h2 e2 e3
      subst e1 e2 e3
      cases stop with
      | true => exact ⟨rfl, h1⟩
      | false =>
        cases q with
        | none =>
          have := next_none h2.2
          simp [this, Agree]
        | some p' =>
          have := next_some h1 h2.2
          simp only [this, Out.ok_bind, Bool.false_eq_true, if_false, Bool.true_eq_false]
          have hi := ih st' s' vs' (p' + 1) h1
          revert hi
          cases Spec.loop Ref.Spec.vector body n st' vs' (p' + 1) <;> cases roundsV grow body n st' s' s'.nodes[p' + 1]? <;> intro hi <;>
            first | exact hi.elim | trivial
    · rw [List.getElem?_eq_none (by rw [h.length]; omega)]
      simp only [Spec.loop, roundsV, if_neg hp]
      exact ⟨rfl, h⟩

/-- What holds after the body of a loop over a Vector; `p` is where the loop is. -/
def PostV (r p : Nat) (x : σ × List α × Nat × Option Nat × Bool × Bool) (y : σ × Vector.Vec α × Bool × Bool) : Prop :=
  x.1 = y.1 ∧ Rel y.2.1.toObj x.2.1 ∧ x.2.2.1 = y.2.1.cap ∧ RefOk y.2.1.toObj r x.2.2.2.1 ∧ x.2.2.2.2.1 = y.2.2.2 ∧
    x.2.2.2.2.2 = y.2.2.1 ∧ (y.2.2.2 = true → x.2.2.2.1 = some p)

theorem vexec_agree (grow : Nat → Nat) (b : Body (Cont.Vector.Call α) α σ) : ∀ (s : Vector.Vec α) (vs : List α) (r p : Nat) (q : Option Nat)
    (e : Bool), Rel s.toObj vs → RefOk s.toObj r q → (e = true → q = some p) →
    Agree (PostV r p) (Spec.vexec grow vs s.cap q e b) (execV grow s r e b) := by
  induction b with
  | done st => intro s vs r p q e h hr he; exact ⟨rfl, h, rfl, hr, rfl, rfl, he⟩
  | stop st => intro s vs r p q e h hr he; exact ⟨rfl, h, rfl, hr, rfl, rfl, he⟩
  | call c k ih =>
    intro s vs r p q e h hr he
    refine agree_bind (vec_call grow h c) ?_
    rintro ⟨x, vs'⟩ ⟨x', s'⟩ - - ⟨e1, h1, hcap, h2⟩
    dsimp only at e1 h1 h2 hcap
    subst e1
    dsimp only
    rw [← hcap]
    refine ih x s' vs' r p _ _ h1 ?_ ?_
    · have h3 := h2 r q hr
      cases q <;> exact h3
    · intro hs
      obtain ⟨h4, h5⟩ := Bool.and_eq_true_iff.1 hs
      rw [he h4]
      cases c <;> first | (simp [Stays] at h5; done) | rfl
  | size k ih =>
    intro s vs r p q e h hr he
    show Agree _ (Spec.vexec _ vs _ q e (k vs.length)) (execV grow s r e (k s.nodes.length))
    rw [h.length]
    exact ih _ s vs r p q e h hr he
  | read k ih =>
    intro s vs r p q e h hr he
    cases q with
    | none =>
      have : s.toObj.mem r = none := h.dead.2 hr.2
      show Agree _ Out.ub (s.toObj.read r >>= _)
      simp [Obj.read, this, Agree]
    | some i =>
      obtain ⟨x, hx, hm⟩ := h.at hr.2
      have e1 : s.toObj.read r = .ok x := by simp [Obj.read, hm]
      show Agree _ _ (s.toObj.read r >>= fun x => execV grow s r e (k x))
      rw [e1]
      simp only [Spec.vexec, hx, Out.ok_bind]
      exact ih x s vs r p _ e h hr he
  | write v b ih =>
    intro s vs r p q e h hr he
    cases q with
    | none =>
      have : s.toObj.mem r = none := h.dead.2 hr.2
      show Agree _ Out.ub (s.toObj.write r v >>= _)
      simp [Obj.write, this, Agree]
    | some i =>
      obtain ⟨hw, h'⟩ := h.write hr.2 v
      show Agree _ (Spec.vexec _ (vs.set i v) _ (some i) e b) (s.toObj.write r v >>= fun o => execV grow { s with toObj := o } r e b)
      rw [hw]
      exact ih { s with toObj := _ } _ r p _ e h' hr he

theorem vloop_agree (grow : Nat → Nat) (body : σ → Body (Cont.Vector.Call α) α σ) (n : Nat) :
    ∀ (st : σ) (s : Vector.Vec α) (vs : List α) (p : Nat),
    Rel s.toObj vs → Agree (fun (x : σ × List α) (y : σ × Vector.Vec α × List Nat) => x.1 = y.1 ∧ Rel y.2.1.toObj x.2)
      (Spec.vloop grow body n st vs s.cap p) (roundsV grow body n st s s.nodes[p]?) := by
  induction n with
  | zero => intro st s vs p _; trivial
  | succ n ih =>
    intro st s vs p h
    by_cases hp : p < vs.length
    · obtain ⟨r, hr⟩ : ∃ r, s.nodes[p]? = some r := ⟨_, List.getElem?_eq_getElem (by rw [h.length]; exact hp)⟩
      rw [hr]
      simp only [Spec.vloop, roundsV, if_pos hp]
      refine agree_bind (vexec_agree grow (body st) s vs r p (some p) true h ⟨h.lt (List.mem_of_getElem? hr), hr⟩ fun _ => rfl) ?_
      rintro ⟨st', vs', cap', q, e', stop⟩ ⟨st'', s', stop', e⟩ - - ⟨e1, h1, e2, h2, e3, e4, h3⟩
      dsimp only at e1 h1 e2 h2 e3 e4 h3
      subst e1 e2 e3 e4
      cases stop with
      | true => exact ⟨rfl, h1⟩
      | false =>
        cases e' with
        | false => trivial
        | true =>
          rw [h3 rfl] at h2
          have := next_some h1 h2.2
          simp only [this, Out.ok_bind, Bool.false_eq_true, if_false, Bool.true_eq_false, if_true]
          have hi := ih st' s' vs' (p + 1) h1
          revert hi
          cases Spec.vloop grow body n st' vs' s'.cap (p + 1) <;> cases roundsV grow body n st' s' s'.nodes[p + 1]? <;> intro hi <;>
            first | exact hi.elim | trivial
    · rw [List.getElem?_eq_none (by rw [h.length]; omega)]
      simp only [Spec.vloop, roundsV, if_neg hp]
      exact ⟨rfl, h⟩

/-! ## loops that only read and assign the variable -/

theorem loop_sweep {C : Type} (V : Ref.Spec.Class C α) (f : σ → α → σ × α) : ∀ (post pre : List α) (st : σ) (n : Nat), post.length < n →
    Spec.loop V (fun st => .read fun x => .write (f st x).2 (.done (f st x).1)) n st (pre ++ post) pre.length =
      .ok ((Spec.sweep f st post).1, pre ++ (Spec.sweep f st post).2) := by
  intro post
  induction post with
  | nil =>
    intro pre st n hn
    obtain ⟨m, rfl⟩ : ∃ m, n = m + 1 := ⟨n - 1, by omega⟩
    simp [Spec.loop, Spec.sweep]
  | cons x xs ih =>
    intro pre st n hn
    obtain ⟨m, rfl⟩ : ∃ m, n = m + 1 := ⟨n - 1, by omega⟩
    have hi := ih (pre ++ [(f st x).2]) (f st x).1 m (by simp at hn; omega)
    simp only [List.append_assoc, List.singleton_append, List.length_append, List.length_singleton] at hi
    simp [Spec.loop, Spec.exec, Spec.sweep, hi]

/-! ## which elements are visited -/

/-- One call (not `sort`, not `reverse`): what becomes of the names. -/
def Step (s s' : Obj α) : Prop :=
  (∃ na nb, s.nodes = na ++ nb ∧ s'.nodes = na ++ s.next :: nb ∧ s.next ≤ s'.next) ∨
  (s'.nodes.Sublist s.nodes ∧ s.next ≤ s'.next)

/-- The names in front of `r`. -/
def front (r : Nat) (l : List Nat) : List Nat := l.takeWhile fun x => !decide (x = r)

theorem front_append_of_mem {r : Nat} {a b : List Nat} (h : r ∈ a) : front r (a ++ b) = front r a := by
  induction a with
  | nil => cases h
  | cons x a ih =>
    by_cases e : x = r
    · simp [front, e]
    · have : r ∈ a := by
        rcases List.mem_cons.1 h with h | h
        · exact absurd h.symm e
        · exact h
      have := ih this
      simp only [front] at this ⊢
      simp [e, this]

theorem front_append_of_not_mem {r : Nat} {a b : List Nat} (h : r ∉ a) : front r (a ++ b) = a ++ front r b := by
  induction a with
  | nil => rfl
  | cons x a ih =>
    simp only [List.mem_cons, not_or] at h
    have := ih h.2
    simp only [front] at this ⊢
    simp [Ne.symm h.1, this]

theorem front_at {l : List Nat} (hn : l.Nodup) {r p : Nat} (h : l[p]? = some r) : front r l = l.take p := by
  obtain ⟨hp, e⟩ := List.getElem?_eq_some_iff.1 h
  have h1 : l = l.take p ++ r :: l.drop (p + 1) := by rw [← e, List.getElem_cons_drop, List.take_append_drop]
  have h2 : r ∉ l.take p := by
    rw [h1] at hn
    exact fun hm => (List.nodup_append.1 hn).2.2 r hm r (by simp) rfl
  conv_lhs => rw [h1]
  rw [front_append_of_not_mem h2]
  simp [front]

/-- A sublist without repetition is what is left of the list. -/
theorem filter_sublist {l l' : List Nat} (h : l'.Sublist l) (hn : l.Nodup) : l.filter (· ∈ l') = l' := by
  induction h with
  | slnil => rfl
  | @cons l1 l2 a h ih =>
    have h1 : a ∉ l1 := fun hm => (List.nodup_cons.1 hn).1 (h.subset hm)
    rw [List.filter_cons_of_neg (by simpa using h1)]
    exact ih (List.nodup_cons.1 hn).2
  | @cons_cons l1 l2 a h ih =>
    have h1 := List.nodup_cons.1 hn
    rw [List.filter_cons_of_pos (by simp)]
    congr 1
    refine Eq.trans (List.filter_congr fun x hx => ?_) (ih h1.2)
    have : x ≠ a := fun e => h1.1 (e ▸ hx)
    simp [this]

theorem keepAll {l l' : List Nat} (h : ∀ t ∈ l, t ∈ l') : l.filter (· ∈ l') = l :=
  List.filter_eq_self.2 fun t ht => by simpa using h t ht

theorem front_filter {r : Nat} {q : Nat → Bool} (hr : q r = true) : ∀ l : List Nat, front r (l.filter q) = (front r l).filter q := by
  intro l
  induction l with
  | nil => rfl
  | cons x l ih =>
    by_cases e : x = r
    · subst e
      simp [front, hr]
    · by_cases hq : q x = true
      · rw [List.filter_cons_of_pos hq]
        simp only [front] at ih ⊢
        simp [e, hq, ih]
      · rw [List.filter_cons_of_neg hq]
        simp only [front] at ih ⊢
        simp [e, hq, ih]

/-- What the body keeps of the order: the old elements left, and those in front of the current one. -/
structure Keep (N : Nat) (s s' : Obj α) : Prop where
  next : s.next ≤ s'.next
  mem : ∀ t, t < s.next → t ∈ s'.nodes → t ∈ s.nodes
  all : s'.nodes.filter (· < N) = (s.nodes.filter (· < N)).filter (· ∈ s'.nodes)
  front : ∀ r, r < s.next → r ∈ s'.nodes →
    (front r s'.nodes).filter (· < N) = ((front r s.nodes).filter (· < N)).filter (· ∈ s'.nodes)

theorem Step.keep {s s' : Obj α} {vs : List α} (h : Rel s vs) {N : Nat} (hN : N ≤ s.next) (hs : Step s s') : Keep N s s' := by
  rcases hs with ⟨na, nb, e, e', hx⟩ | ⟨hsub, hx⟩
  · have hsub : ∀ t ∈ s.nodes, t ∈ s'.nodes := by
      intro t ht
      rw [e] at ht
      rw [e']
      simp only [List.mem_append, List.mem_cons] at ht ⊢
      tauto
    refine ⟨hx, ?_, ?_, ?_⟩
    · intro t ht hm
      rw [e'] at hm
      rw [e]
      simp only [List.mem_append, List.mem_cons] at hm ⊢
      rcases hm with hm | hm | hm
      · exact Or.inl hm
      · omega
      · exact Or.inr hm
    · rw [keepAll (l := s.nodes.filter _) (fun t ht => hsub t (List.mem_filter.1 ht).1), e, e']
      simp [hN]
    · intro r hr _
      have hf : ∀ t ∈ Loop.front r s.nodes, t ∈ s'.nodes := fun t ht => hsub t ((List.takeWhile_sublist _).subset ht)
      rw [keepAll (l := (Loop.front r s.nodes).filter _) (fun t ht => hf t (List.mem_filter.1 ht).1), e, e']
      by_cases hm : r ∈ na
      · rw [front_append_of_mem hm, front_append_of_mem hm]
      · rw [front_append_of_not_mem hm, front_append_of_not_mem hm]
        have : Loop.front r (s.next :: nb) = s.next :: Loop.front r nb := by
          simp only [Loop.front]
          rw [List.takeWhile_cons_of_pos (by simp; omega)]
        rw [this]
        simp [hN]
  · have e := filter_sublist hsub h.nodup
    refine ⟨hx, fun t _ hm => hsub.subset hm, ?_, ?_⟩
    · rw [List.filter_filter, List.filter_congr (fun t _ => Bool.and_comm _ _), ← List.filter_filter, e]
    · intro r hr hm
      rw [List.filter_filter, List.filter_congr (fun t _ => Bool.and_comm _ _), ← List.filter_filter,
        ← front_filter (q := fun t => decide (t ∈ s'.nodes)) (by simpa using hm), e]

theorem Keep.refl {s : Obj α} (N : Nat) : Keep N s s := by
  refine ⟨Nat.le_refl _, fun _ _ h => h, ?_, ?_⟩
  · exact (List.filter_eq_self.2 fun t ht => by simpa using (List.mem_filter.1 ht).1).symm
  · intro r _ _
    exact (List.filter_eq_self.2 fun t ht => by
      simpa using (List.takeWhile_sublist _).subset (List.mem_filter.1 ht).1).symm

theorem Keep.trans {N : Nat} {s t u : Obj α} (hN : N ≤ s.next) (h1 : Keep N s t) (h2 : Keep N t u) : Keep N s u := by
  have key : ∀ l : List Nat, ((l.filter (· < N)).filter (· ∈ t.nodes)).filter (· ∈ u.nodes) = (l.filter (· < N)).filter (· ∈ u.nodes) := by
    intro l
    simp only [List.filter_filter]
    refine List.filter_congr fun x _ => ?_
    by_cases hx : x < N
    · by_cases hu : x ∈ u.nodes
      · have := h2.mem x (by have := h1.next; omega) hu
        simp [hx, hu, this]
      · simp [hu]
    · simp [hx]
  refine ⟨Nat.le_trans h1.next h2.next, fun x hx hu => h1.mem x hx (h2.mem x (by have := h1.next; omega) hu), ?_, ?_⟩
  · rw [h2.all, h1.all, key]
  · intro r hr hu
    have hr' : r < t.next := by have := h1.next; omega
    rw [h2.front r hr' hu, h1.front r hr (h2.mem r hr' hu), key]

theorem step_refl (s : Obj α) : Step s s := Or.inr ⟨List.Sublist.refl _, Nat.le_refl _⟩

theorem step_call [LinearOrder α] {s s' : Obj α} {c : Cont.Lst.Call α} {x : Option α} (h1 : c ≠ .sort) (h2 : c ≠ .reverse)
    (h : Ref.Lst.call s c = .ok (x, s')) : Step s s' := by
  cases c with
  | get i =>
    obtain ⟨r, -, h⟩ := Out.bind_eq_ok.1 h
    obtain ⟨y, -, h⟩ := Out.bind_eq_ok.1 h
    cases h
    exact step_refl _
  | first =>
    obtain ⟨r, -, h⟩ := Out.bind_eq_ok.1 h
    obtain ⟨y, -, h⟩ := Out.bind_eq_ok.1 h
    cases h
    exact step_refl _
  | last =>
    obtain ⟨r, -, h⟩ := Out.bind_eq_ok.1 h
    obtain ⟨y, -, h⟩ := Out.bind_eq_ok.1 h
    cases h
    exact step_refl _
  | clear =>
    cases h
    exact Or.inr ⟨List.nil_sublist _, Nat.le_refl _⟩
  | insert i x =>
    obtain ⟨t, h', h⟩ := Out.bind_eq_ok.1 h
    cases h
    unfold Ref.Lst.insert at h'
    split at h'
    · cases h'
    · obtain ⟨it, -, h'⟩ := Out.bind_eq_ok.1 h'
      obtain ⟨ns, h3, h'⟩ := Out.bind_eq_ok.1 h'
      cases h'
      unfold Stl.insertAt at h3
      split at h3
      · cases h3
        exact Or.inl ⟨s.nodes.take it, s.nodes.drop it, (List.take_append_drop _ _).symm, rfl, Nat.le_succ _⟩
      · cases h3
  | erase i =>
    obtain ⟨t, h', h⟩ := Out.bind_eq_ok.1 h
    cases h
    unfold Ref.Lst.erase at h'
    obtain ⟨-, -, h'⟩ := Out.bind_eq_ok.1 h'
    obtain ⟨it, -, h'⟩ := Out.bind_eq_ok.1 h'
    obtain ⟨r, -, h'⟩ := Out.bind_eq_ok.1 h'
    obtain ⟨ns, h3, h'⟩ := Out.bind_eq_ok.1 h'
    cases h'
    unfold Stl.eraseAt at h3
    split at h3
    · cases h3
      refine Or.inr ⟨?_, Nat.le_refl _⟩
      show (s.nodes.take it ++ s.nodes.drop (it + 1)).Sublist s.nodes
      conv_rhs => rw [← List.take_append_drop it s.nodes]
      exact (List.Sublist.refl _).append (List.drop_sublist_drop_left _ (Nat.le_succ it))
    · cases h3
  | push x =>
    cases h
    exact Or.inl ⟨s.nodes, [], by simp, rfl, Nat.le_succ _⟩
  | pushFront x =>
    cases h
    exact Or.inl ⟨[], s.nodes, rfl, rfl, Nat.le_succ _⟩
  | pop =>
    obtain ⟨⟨y, t⟩, h', h⟩ := Out.bind_eq_ok.1 h
    cases h
    unfold Ref.pop at h'
    split at h'
    · cases h'
    · obtain ⟨r, -, h'⟩ := Out.bind_eq_ok.1 h'
      obtain ⟨y, -, h'⟩ := Out.bind_eq_ok.1 h'
      obtain ⟨ns, h3, h'⟩ := Out.bind_eq_ok.1 h'
      cases h'
      unfold Stl.popBack at h3
      split at h3
      · cases h3
      · cases h3
        exact Or.inr ⟨List.dropLast_sublist _, Nat.le_refl _⟩
  | popFront =>
    obtain ⟨⟨y, t⟩, h', h⟩ := Out.bind_eq_ok.1 h
    cases h
    unfold Ref.popFront at h'
    split at h'
    · cases h'
    · obtain ⟨r, -, h'⟩ := Out.bind_eq_ok.1 h'
      obtain ⟨y, -, h'⟩ := Out.bind_eq_ok.1 h'
      obtain ⟨ns, h3, h'⟩ := Out.bind_eq_ok.1 h'
      cases h'
      refine Or.inr ⟨?_, Nat.le_refl _⟩
      show ns.Sublist s.nodes
      revert h3
      cases s.nodes with
      | nil => intro h3; cases h3
      | cons a l => intro h3; cases h3; exact List.sublist_cons_self _ _
  | sort => exact absurd rfl h1
  | reverse => exact absurd rfl h2

theorem exec_keep [LinearOrder α] (N : Nat) (b : Body (Cont.Lst.Call α) α σ) : ∀ (s : Obj α) (vs : List α) (r : Nat) (st : σ)
    (s' : Obj α) (stop : Bool), Spec.Steady b → Rel s vs → N ≤ s.next → exec listClass s r b = .ok (st, s', stop) →
    Keep N s s' ∧ stop = false := by
  induction b with
  | done st => intro s vs r st s' stop _ _ _ h; cases h; exact ⟨Keep.refl N, rfl⟩
  | stop st => intro s vs r st s' stop hb; exact hb.elim
  | call c k ih =>
    intro s vs r st s' stop hb hR hN h
    obtain ⟨⟨x, t⟩, h1, h2⟩ := Out.bind_eq_ok.1 h
    have hs : c ≠ .sort := by rintro rfl; exact hb
    have hr : c ≠ .reverse := by rintro rfl; exact hb
    have hk : Spec.Steady (k x) := by cases c <;> first | exact hb x | exact absurd rfl hs | exact absurd rfl hr
    have k1 := (step_call hs hr h1).keep hR hN
    have ha := list_sim.call s vs c [] hR
    have e : (listClass (α := α)).call s c = .ok (x, t) := h1
    rw [e] at ha
    cases hv : Ref.Spec.list.call vs c <;> rw [hv] at ha <;> first | exact ha.elim | skip
    obtain ⟨-, hR', -⟩ := ha
    obtain ⟨k2, e⟩ := ih x t _ r st s' stop hk hR' (Nat.le_trans hN k1.next) h2
    exact ⟨k1.trans hN k2, e⟩
  | size k ih =>
    intro s vs r st s' stop hb hR hN h
    exact ih _ s vs r st s' stop (hb _) hR hN h
  | read k ih =>
    intro s vs r st s' stop hb hR hN h
    obtain ⟨x, -, h2⟩ := Out.bind_eq_ok.1 h
    exact ih x s vs r st s' stop (hb _) hR hN h2
  | write v b ih =>
    intro s vs r st s' stop hb hR hN h
    obtain ⟨o, h1, h2⟩ := Out.bind_eq_ok.1 h
    have h1 : s.write r v = .ok o := h1
    have hm : r ∈ s.nodes := by
      by_contra hc
      have := hR.dead.2 hc
      simp [Obj.write, this] at h1
    obtain ⟨p, hp⟩ := List.getElem?_of_mem hm
    obtain ⟨hw, hR'⟩ := hR.write hp v
    rw [hw] at h1
    cases h1
    obtain ⟨k2, e⟩ := ih _ _ r st s' stop hb hR' hN h2
    exact ⟨⟨k2.next, k2.mem, k2.all, k2.front⟩, e⟩

theorem rounds_keep [LinearOrder α] (N : Nat) (body : σ → Body (Cont.Lst.Call α) α σ) (hb : ∀ st, Spec.Steady (body st)) (n : Nat) :
    ∀ (st : σ) (s : Obj α) (vs : List α) (p : Nat) (st' : σ) (s' : Obj α) (vis : List Nat), Rel s vs → N ≤ s.next →
    rounds body n st s s.nodes[p]? = .ok (st', s', vis) →
    Keep N s s' ∧ ((s.nodes.take p ++ vis).filter (· < N)).filter (· ∈ s'.nodes) = s'.nodes.filter (· < N) := by
  induction n with
  | zero => intro st s vs p st' s' vis _ _ h; cases h
  | succ n ih =>
    intro st s vs p st' s' vis hR hN h
    cases hr : s.nodes[p]? with
    | none =>
      rw [hr] at h
      cases h
      refine ⟨Keep.refl N, ?_⟩
      rw [List.append_nil, List.take_of_length_le (List.getElem?_eq_none_iff.1 hr)]
      exact keepAll fun t ht => (List.mem_filter.1 ht).1
    | some r =>
      rw [hr] at h
      obtain ⟨⟨st1, s1, stop⟩, h1, h2⟩ := Out.bind_eq_ok.1 h
      obtain ⟨k1, rfl⟩ := exec_keep N (body st) s vs r st1 s1 stop (hb st) hR hN h1
      have hlt : r < s.next := hR.lt (List.mem_of_getElem? hr)
      have ha := exec_agree (body st) s vs r (some p) hR ⟨hlt, hr⟩
      rw [h1] at ha
      cases hv : Spec.exec Ref.Spec.list vs (some p) (body st) <;> rw [hv] at ha <;> first | exact ha.elim | skip
      obtain ⟨-, hR1, -, -⟩ := ha
      simp only [Bool.false_eq_true, if_false] at h2
      obtain ⟨it, h3, h4⟩ := Out.bind_eq_ok.1 h2
      obtain ⟨⟨st2, s2, vis'⟩, h5, h6⟩ := Out.bind_eq_ok.1 h4
      cases h6
      have hm : r ∈ s1.nodes := by
        by_contra hc
        rw [next_none hc] at h3
        cases h3
      obtain ⟨p1, hp1⟩ := List.getElem?_of_mem hm
      rw [next_some hR1 hp1] at h3
      cases h3
      have hN1 := Nat.le_trans hN k1.next
      obtain ⟨k2, e⟩ := ih st1 s1 _ (p1 + 1) st2 s2 vis' hR1 hN1 h5
      refine ⟨k1.trans hN k2, ?_⟩
      rw [← e]
      have ht : s1.nodes.take (p1 + 1) = s1.nodes.take p1 ++ [r] := by
        obtain ⟨hl, e⟩ := List.getElem?_eq_some_iff.1 hp1
        rw [← e, List.take_append_getElem]
      have hf := k1.front r hlt hm
      rw [front_at hR1.nodup hp1, front_at hR.nodup hr] at hf
      rw [ht]
      simp only [List.filter_append, List.append_assoc, List.singleton_append]
      rw [hf]
      have key : (((s.nodes.take p).filter (· < N)).filter (· ∈ s1.nodes)).filter (· ∈ s2.nodes) =
          ((s.nodes.take p).filter (· < N)).filter (· ∈ s2.nodes) := by
        simp only [List.filter_filter]
        refine List.filter_congr fun x _ => ?_
        by_cases hx : x < N
        · by_cases hu : x ∈ s2.nodes
          · have := k2.mem x (by omega) hu
            simp [hx, hu, this]
          · simp [hu]
        · simp [hx]
      rw [key]

end Cont.Loop
