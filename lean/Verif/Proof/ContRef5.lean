import Verif.Proof.ContRef4
import Verif.Spec.ContRefVec

/-! # Helper lemmas: which references to the elements of a Vector stay valid -/

open Cpp

namespace Cont.Ref

variable {α : Type}

theorem moved_trans {s t u : Obj α} {f g : Nat → Option Nat} (h1 : Moved s t f) (h2 : Moved t u g) :
    Moved s u (fun p => (f p).bind g) := by
  intro r q hr
  have := h2 r _ (h1 r q hr)
  rwa [Option.bind_assoc] at this

theorem moved_congr {s t : Obj α} {vs : List α} (h : Rel s vs) {f g : Nat → Option Nat} (hm : Moved s t f)
    (hfg : ∀ p, p < vs.length → f p = g p) : Moved s t g := by
  intro r q hr
  have := hm r q hr
  cases q with
  | none => exact this
  | some p =>
    have hp : p < vs.length := by rw [← h.length]; exact (List.getElem?_eq_some_iff.1 hr.2).1
    rw [Option.bind_some] at this ⊢
    rwa [hfg p hp] at this

/-- `renew` does not look at the order of the elements. -/
theorem renew_nodes (ns : List Nat) (rs : List Nat) : ∀ s : Obj α,
    Vector.renew { s with nodes := ns } rs = ({ (Vector.renew s rs).1 with nodes := ns }, (Vector.renew s rs).2) := by
  induction rs with
  | nil => intro s; rfl
  | cons r rs ih =>
    intro s
    unfold Vector.renew
    cases hm : s.mem r with
    | none =>
      dsimp only
      rw [ih s]
    | some x =>
      dsimp only
      have := ih ((s.free r).new x).2
      have e : (((({ s with nodes := ns } : Obj α).free r).new x).2) = { ((s.free r).new x).2 with nodes := ns } := rfl
      rw [e, this]
      rfl

/-- One element gets a new name. -/
theorem rename {s : Obj α} {vs : List α} (h : Rel s vs) {na nc : List Nat} {r : Nat} (hn : s.nodes = na ++ r :: nc) :
    ∃ x, s.mem r = some x ∧ Rel { ((s.free r).new x).2 with nodes := na ++ s.next :: nc } vs ∧
      Moved s { ((s.free r).new x).2 with nodes := na ++ s.next :: nc } (fun p => if p = na.length then none else some p) := by
  have hlen := h.length
  rw [hn] at hlen
  have hlt : na.length < vs.length := by simp at hlen; omega
  obtain ⟨a, x, b, rfl, ha⟩ := split_at vs hlt
  obtain ⟨h1, h2, h3⟩ := Rel.remove h hn ha.symm
  have m1 := moved_remove h hn (fun p => if na.length < p then some (p - 1) else if na.length = p then none else some p)
    fun _ _ => rfl
  have h4 := Rel.insert h1 (na := na) (nb := nc) rfl ha.symm x
  have m2 := moved_insert h1 (na := na) (nb := nc) rfl x (fun p => some (if na.length ≤ p then p + 1 else p)) fun _ _ => rfl
  refine ⟨x, h2, h4, ?_⟩
  refine moved_congr h (moved_trans m1 m2) fun p _ => ?_
  split_ifs with c1 c2 c3 c4
  · omega
  · simp only [Option.bind_some]
    rw [if_pos (by omega)]
    congr 1
    omega
  · rfl
  · omega
  · omega
  · simp only [Option.bind_some]
    rw [if_neg (by omega)]

/-- Consecutive elements get new names. -/
theorem rel_renew (nb : List Nat) : ∀ {s : Obj α} {vs : List α} (_ : Rel s vs) {na nc : List Nat} (_ : s.nodes = na ++ (nb ++ nc)),
    (Vector.renew s nb).2.length = nb.length ∧
    Rel { (Vector.renew s nb).1 with nodes := na ++ ((Vector.renew s nb).2 ++ nc) } vs ∧
    Moved s { (Vector.renew s nb).1 with nodes := na ++ ((Vector.renew s nb).2 ++ nc) }
      (fun p => if na.length ≤ p ∧ p < na.length + nb.length then none else some p) := by
  induction nb with
  | nil =>
    intro s vs h na nc hn
    have e : ({ s with nodes := na ++ ([] ++ nc) } : Obj α) = s := by rw [← hn]
    refine ⟨rfl, ?_, ?_⟩
    · show Rel ({ s with nodes := na ++ ([] ++ nc) } : Obj α) vs
      rw [e]; exact h
    · show Moved s ({ s with nodes := na ++ ([] ++ nc) } : Obj α) _
      rw [e]
      refine moved_congr h (moved_refl s) fun p _ => ?_
      rw [if_neg (by simp)]
  | cons r nb ih =>
    intro s vs h na nc hn
    obtain ⟨x, hx, h1, m1⟩ := rename h (na := na) (nc := nb ++ nc) (r := r) hn
    have e1 : Vector.renew s (r :: nb) = ((Vector.renew ((s.free r).new x).2 nb).1, s.next :: (Vector.renew ((s.free r).new x).2 nb).2) := by
      rw [Vector.renew, hx]
      rfl
    obtain ⟨h2, h3, m2⟩ := ih h1 (na := na ++ [s.next]) (nc := nc) (by simp)
    rw [renew_nodes] at h2 h3 m2
    rw [e1]
    dsimp only at h2 h3 m2 ⊢
    refine ⟨by simp [h2], ?_, ?_⟩
    · simpa using h3
    · have e2 : na ++ [s.next] ++ ((Vector.renew ((s.free r).new x).2 nb).2 ++ nc) =
          na ++ (s.next :: (Vector.renew ((s.free r).new x).2 nb).2 ++ nc) := by simp
      rw [e2] at m2
      refine moved_congr h (moved_trans m1 m2) fun p _ => ?_
      simp only [List.length_append, List.length_cons, List.length_nil]
      split_ifs with c1 c2 c2
      · rfl
      · omega
      · simp only [Option.bind_some]
        rw [if_pos (by omega)]
      · simp only [Option.bind_some]
        rw [if_neg (by omega)]

/-- What `insert` and `push` do to a Vector. -/
theorem insertAt_spec (grow : Nat → Nat) {v : Vector.Vec α} {vs : List α} (h : Rel v.toObj vs) {i : Nat} (hi : i ≤ vs.length) (x : α) :
    ∃ v', Vector.insertAt grow v i x = .ok v' ∧ Rel v'.toObj (vs.take i ++ x :: vs.drop i) ∧
      v'.cap = (if vs.length < v.cap then v.cap else grow v.cap) ∧
      Moved v.toObj v'.toObj (fun p => if vs.length < v.cap ∧ p < i then some p else none) := by
  have hlen := h.length
  unfold Vector.insertAt
  -- the elements behind the place
  have key : ∀ (s : Obj α) (keep nb : List Nat) (f : Nat → Option Nat), keep.length = i → Rel { s with nodes := keep ++ nb } vs →
      Moved v.toObj { s with nodes := keep ++ nb } f →
      Rel { ((Vector.renew s nb).1.new x).2 with nodes := keep ++ (Vector.renew s nb).1.next :: (Vector.renew s nb).2 }
        (vs.take i ++ x :: vs.drop i) ∧
      Moved v.toObj { ((Vector.renew s nb).1.new x).2 with nodes := keep ++ (Vector.renew s nb).1.next :: (Vector.renew s nb).2 }
        (fun p => (f p).bind fun p => if p < i then some p else none) := by
    intro s keep nb f hk hr hm
    obtain ⟨h2, h3, m2⟩ := rel_renew nb hr (na := keep) (nc := []) (by simp)
    rw [renew_nodes] at h2 h3 m2
    dsimp only at h2 h3 m2
    rw [List.append_nil] at h3 m2
    have h4 := Rel.insert (a := vs.take i) (b := vs.drop i) (na := keep) (nb := (Vector.renew s nb).2) (by simpa using h3) rfl
      (by rw [hk, List.length_take]; omega) x
    have m3 := moved_insert h3 (na := keep) (nb := (Vector.renew s nb).2) rfl x
      (fun p => some (if keep.length ≤ p then p + 1 else p)) fun _ _ => rfl
    refine ⟨h4, ?_⟩
    have hnb : keep.length + nb.length = vs.length := by
      have := hr.length
      simpa using this
    have m4 := moved_congr hr (g := fun p => if p < i then some p else none) (moved_trans m2 m3) fun p hp => by
      rw [hk] at *
      split_ifs with c1 c2 c2
      · omega
      · rfl
      · simp only [Option.bind_some]
        rw [if_neg (by omega)]
      · omega
    exact moved_trans hm m4
  by_cases hc : v.nodes.length ≥ v.cap
  · have hc' : ¬ vs.length < v.cap := by omega
    simp only [hc, if_true, if_pos (show i ≤ v.nodes.length by omega)]
    obtain ⟨h2, h3, m2⟩ := rel_renew (v.nodes.take i) h (na := []) (nc := v.nodes.drop i) (by simp)
    simp only [List.nil_append] at h3 m2
    obtain ⟨k1, k2⟩ := key (Vector.renew v.toObj (v.nodes.take i)).1 (Vector.renew v.toObj (v.nodes.take i)).2 (v.nodes.drop i) _
      (by rw [h2, List.length_take]; omega) h3 m2
    refine ⟨_, rfl, k1, by rw [if_neg hc'], ?_⟩
    refine moved_congr h k2 fun p hp => ?_
    simp only [List.length_nil, List.length_take, Nat.zero_add, Nat.zero_le, true_and]
    rw [if_neg (show ¬ (vs.length < v.cap ∧ p < i) from fun hh => hc' hh.1)]
    split_ifs with c1
    · rfl
    · simp only [Option.bind_some]
      rw [if_neg (by omega)]
  · have hc' : vs.length < v.cap := by omega
    simp only [hc, if_false, if_pos (show i ≤ v.nodes.length by omega)]
    have e : ({ v.toObj with nodes := v.nodes.take i ++ v.nodes.drop i } : Obj α) = v.toObj := by rw [List.take_append_drop]
    obtain ⟨k1, k2⟩ := key v.toObj (v.nodes.take i) (v.nodes.drop i) some (by rw [List.length_take]; omega) (by rw [e]; exact h)
      (by rw [e]; exact moved_refl _)
    refine ⟨_, rfl, k1, by rw [if_pos hc'], ?_⟩
    refine moved_congr h k2 fun p hp => ?_
    simp only [Option.bind_some, hc', true_and]

theorem erase_spec {v : Vector.Vec α} {vs : List α} (h : Rel v.toObj vs) {i : Nat} (hi : i < vs.length) :
    ∃ v', Vector.erase v i = .ok v' ∧ Rel v'.toObj (vs.take i ++ vs.drop (i + 1)) ∧ v'.cap = v.cap ∧
      Moved v.toObj v'.toObj (fun p => if p < i then some p else none) := by
  have hlen := h.length
  have hi' : i < v.nodes.length := by omega
  unfold Vector.erase boundaryCheck Stl.advance Stl.at'
  rw [if_neg (by omega)]
  simp only [Out.ok_bind]
  rw [if_pos (by omega)]
  simp only [Out.ok_bind]
  have e : (((0 : Nat) : Int) + (i : Int)).toNat = i := by omega
  simp only [e, List.getElem?_eq_getElem hi', Out.ok_bind]
  have e1 : vs = vs.take i ++ vs[i] :: vs.drop (i + 1) := by simp
  have e2 : v.nodes = v.nodes.take i ++ v.nodes[i] :: v.nodes.drop (i + 1) := by simp
  have hl : (v.nodes.take i).length = i := by simp; omega
  obtain ⟨h1, -, -⟩ := Rel.remove (r := v.nodes[i]) (x := vs[i]) (by rw [← e1]; exact h) e2 (by simp [hlen])
  have m1 := moved_remove h e2 (fun p => if (v.nodes.take i).length < p then some (p - 1) else if (v.nodes.take i).length = p then none else some p)
    fun _ _ => rfl
  obtain ⟨-, h3, m2⟩ := rel_renew (v.nodes.drop (i + 1)) h1 (na := v.nodes.take i) (nc := []) (by simp)
  rw [renew_nodes] at h3 m2
  dsimp only at h3 m2
  rw [List.append_nil] at h3 m2
  refine ⟨_, rfl, h3, rfl, ?_⟩
  refine moved_congr h (moved_trans m1 m2) fun p hp => ?_
  rw [hl]
  have hd : (v.nodes.drop (i + 1)).length = vs.length - (i + 1) := by simp [hlen]
  rw [hd]
  split_ifs with c1 c2 c2 c3 c4
  · omega
  · simp only [Option.bind_some]
    rw [if_pos (by omega)]
  · omega
  · rfl
  · simp only [Option.bind_some]
    rw [if_neg (by omega)]
  · omega

/-- A call of a Vector: the values, the capacity, and which references survive. -/
theorem vec_call (grow : Nat → Nat) {v : Vector.Vec α} {vs : List α} (h : Rel v.toObj vs) (c : Vector.Call α) :
    Agree (fun (a : Option α × List α) (b : Option α × Vector.Vec α) => a.1 = b.1 ∧ Rel b.2.toObj a.2 ∧
      b.2.cap = Spec.capacity grow vs.length v.cap c ∧
      Moved v.toObj b.2.toObj (fun p => (some p).filter (Spec.survives vs.length v.cap c))) (Cont.Vector.call vs c) (Vector.call grow v c) := by
  have hstay : ∀ c : Vector.Call α, (∀ p, Spec.survives vs.length v.cap c p = true) →
      Moved v.toObj v.toObj (fun p => (some p).filter (Spec.survives vs.length v.cap c)) := fun c hc =>
    moved_congr h (moved_refl _) fun p _ => (Option.filter_some_pos (hc p)).symm
  have reader : ∀ {o : Out α} {n : Out Nat} (c : Vector.Call α), Spec.capacity grow vs.length v.cap c = v.cap →
      (∀ p, Spec.survives vs.length v.cap c p = true) →
      Agree (fun x r => v.toObj.mem r = some x) o n →
      Agree (fun (a : Option α × List α) (b : Option α × Vector.Vec α) => a.1 = b.1 ∧ Rel b.2.toObj a.2 ∧
        b.2.cap = Spec.capacity grow vs.length v.cap c ∧
        Moved v.toObj b.2.toObj (fun p => (some p).filter (Spec.survives vs.length v.cap c)))
        (o >>= fun x => .ok (some x, vs)) (n >>= fun r => v.toObj.read r >>= fun x => .ok (some x, v)) := by
    intro o n c hcap hs ha
    revert ha
    cases o <;> cases n <;> intro ha <;>
      first
      | exact ha.elim
      | trivial
      | skip
    next x r =>
    have ha : v.toObj.mem r = some x := ha
    simp only [Out.ok_bind, Obj.read, ha]
    exact ⟨rfl, h, hcap.symm, hstay c hs⟩
  have look : ∀ {o : Out α} {q n : Out Nat}, Agree (fun q r => v.nodes[q]? = some r) q n → o = (q >>= fun q => Stl.at' vs q) →
      Agree (fun x r => v.toObj.mem r = some x) o n := by
    intro o q n ha ho
    rw [ho]
    revert ha
    cases q <;> cases n <;> intro ha <;>
      first
      | exact ha.elim
      | trivial
      | skip
    next q r =>
    obtain ⟨x, hx, hm⟩ := h.at ha
    simp only [Out.ok_bind, Stl.at', hx]
    exact hm
  cases c with
  | get i => exact reader (.get i) rfl (fun _ => rfl) (look (agree_at h i) (position_at vs i))
  | first => exact reader .first rfl (fun _ => rfl) (look (agree_first h) (position_first vs))
  | last => exact reader .last rfl (fun _ => rfl) (look (agree_last h) (position_last vs))
  | clear => exact ⟨rfl, h.clear, rfl, moved_clear _ _ fun p => rfl⟩
  | insert i x =>
    show Agree _ (Cont.Vector.insert vs i x >>= fun t => .ok (none, t)) (Vector.insert grow v i x >>= fun t => .ok (none, t))
    unfold Cont.Vector.insert Vector.insert Stl.advance
    rw [h.length]
    by_cases hi : i < 0 ∨ i > vs.length
    · rw [if_pos hi, if_pos hi]
      trivial
    · rw [if_neg hi, if_neg hi]
      have e0 : ((0 : Nat) : Int) + i = i := by omega
      simp only [e0]
      rw [if_pos (by omega)]
      simp only [Out.ok_bind, Stl.insertAt]
      rw [if_pos (by omega)]
      obtain ⟨v', h1, h2, h3, h4⟩ := insertAt_spec grow h (i := i.toNat) (by omega) x
      simp only [h1, Out.ok_bind]
      refine ⟨rfl, h2, h3, moved_congr h h4 fun p _ => ?_⟩
      by_cases hp : vs.length < v.cap ∧ p < i.toNat
      · rw [if_pos hp, Option.filter_some_pos (by simp only [Spec.survives, decide_eq_true_eq]; omega)]
      · rw [if_neg hp, Option.filter_some_neg (by simp only [Spec.survives, decide_eq_false_iff_not]; omega)]
  | erase i =>
    show Agree _ (Cont.Vector.erase vs i >>= fun t => .ok (none, t)) (Vector.erase v i >>= fun t => .ok (none, t))
    by_cases hi : i < 0 ∨ i ≥ vs.length
    · unfold Cont.Vector.erase Vector.erase Cont.Vector.boundaryCheck boundaryCheck
      rw [h.length, if_pos hi]
      trivial
    · obtain ⟨v', h1, h2, h3, h4⟩ := erase_spec h (i := i.toNat) (by omega)
      rw [show ((i.toNat : Nat) : Int) = i by omega] at h1
      rw [h1]
      unfold Cont.Vector.erase Cont.Vector.boundaryCheck Stl.advance
      rw [if_neg hi]
      have e0 : ((0 : Nat) : Int) + i = i := by omega
      simp only [e0, Out.ok_bind]
      rw [if_pos (by omega)]
      simp only [Out.ok_bind, Stl.eraseAt]
      rw [if_pos (by omega)]
      refine ⟨rfl, h2, h3, moved_congr h h4 fun p _ => ?_⟩
      by_cases hp : p < i.toNat
      · rw [if_pos hp, Option.filter_some_pos (by simp only [Spec.survives, decide_eq_true_eq]; omega)]
      · rw [if_neg hp, Option.filter_some_neg (by simp only [Spec.survives, decide_eq_false_iff_not]; omega)]
  | set i x =>
    show Agree _ (Cont.Vector.set vs i x >>= fun t => .ok (none, t)) (Vector.set v i x >>= fun t => .ok (none, t))
    have ha := agree_at h i
    unfold Cont.Vector.set Vector.set Cont.Vector.boundaryCheck Stl.setAt
    unfold Spec.position at ha
    dsimp only at ha
    revert ha
    by_cases hi : 0 ≤ i ∧ i < vs.length
    · rw [if_pos hi, if_neg (by omega)]
      cases hat : at' v.toObj i <;> intro ha <;>
        first
        | exact ha.elim
        | skip
      next r =>
      have ha : v.nodes[i.toNat]? = some r := ha
      simp only [Out.ok_bind]
      rw [if_pos (by omega)]
      obtain ⟨hw, hrel⟩ := h.write ha x
      simp only [hw, Out.ok_bind]
      exact ⟨rfl, hrel, rfl, hstay (.set i x) fun _ => rfl⟩
    · rw [if_neg hi, if_pos (by omega)]
      cases hat : at' v.toObj i <;> intro ha <;>
        first
        | exact ha.elim
        | trivial
  | push x =>
    show Agree _ (.ok (none, vs ++ [x])) (Vector.push grow v x >>= fun t => .ok (none, t))
    obtain ⟨v', h1, h2, h3, h4⟩ := insertAt_spec grow h (i := vs.length) (Nat.le_refl _) x
    unfold Vector.push
    rw [h.length, h1]
    refine ⟨rfl, by simpa using h2, h3, moved_congr h h4 fun p hp => ?_⟩
    by_cases hc : vs.length < v.cap
    · rw [if_pos ⟨hc, hp⟩, Option.filter_some_pos (by simp only [Spec.survives, decide_eq_true_eq]; omega)]
    · rw [if_neg (fun hh => hc hh.1), Option.filter_some_neg (by simp only [Spec.survives, decide_eq_false_iff_not]; omega)]
  | pop =>
    have ha := agree_pop h (fun p => if p + 1 = vs.length then none else some p) fun _ => rfl
    show Agree _ (Cont.Vector.pop vs >>= fun a => .ok (some a.1, a.2))
      (pop v.toObj >>= fun a => .ok (some a.1, { v with toObj := a.2 }))
    revert ha
    cases hp : Cont.Vector.pop vs <;> cases hq : pop v.toObj <;> intro ha <;>
      first
      | exact ha.elim
      | trivial
      | skip
    next a b =>
    obtain ⟨h1, h2, h3⟩ := ha
    refine ⟨congrArg some h1, h2, rfl, moved_congr h h3 fun p hp => ?_⟩
    by_cases hc : p + 1 = vs.length
    · rw [if_pos hc, Option.filter_some_neg (by simp only [Spec.survives, decide_eq_false_iff_not]; omega)]
    · rw [if_neg hc, Option.filter_some_pos (by simp only [Spec.survives, decide_eq_true_eq]; omega)]

theorem vec_run (grow : Nat → Nat) (prog : List (Stmt (Vector.Call α) α)) : ∀ (v : Vector.Vec α) (vs : List α) (rs : List Nat)
    (ps : List (Option Nat)), Rel v.toObj vs → List.Forall₂ (RefOk v.toObj) rs ps →
    run (vectorClass grow) v rs prog = Spec.vecRun grow vs v.cap ps prog := by
  induction prog with
  | nil =>
    intro v vs rs ps h _
    simp [Ref.run, Spec.vecRun, vectorClass, h.contents]
  | cons t p ih =>
    intro v vs rs ps h hF
    cases t with
    | call c =>
      have hc := vec_call grow h c
      show (Vector.call grow v c >>= fun a => run (vectorClass grow) a.2 rs p >>= fun b => .ok (a.1.toList ++ b.1, b.2)) = _
      simp only [Spec.vecRun]
      revert hc
      cases h1 : Cont.Vector.call vs c <;> cases h2 : Vector.call grow v c <;> intro hc <;>
        first
        | exact hc.elim
        | rfl
        | skip
      obtain ⟨e, hR', hcap, hm⟩ := hc
      next a b =>
      obtain ⟨x, vs'⟩ := a
      obtain ⟨x', v'⟩ := b
      dsimp only at e hR' hm hcap
      subst e
      simp only [Out.ok_bind]
      have hF' := forall2_move hm hF
      have e : (ps.map fun q => q.bind fun p => (some p).filter (Spec.survives vs.length v.cap c)) =
          ps.map fun q => q.filter (Spec.survives vs.length v.cap c) := by
        refine List.map_congr_left fun q _ => ?_
        cases q <;> rfl
      rw [e] at hF'
      rw [ih v' vs' rs _ hR' hF', hcap]
    | bind a =>
      have hc : Agree (fun q r => v.nodes[q]? = some r) (Spec.position vs a) ((vectorClass grow).ref v a) := by
        cases a with
        | «at» i => exact agree_at h i
        | first => exact agree_first h
        | last => exact agree_last h
      simp only [Ref.run, Spec.vecRun]
      revert hc
      cases h1 : Spec.position vs a <;> cases h2 : (vectorClass grow).ref v a <;> intro hc <;>
        first
        | exact hc.elim
        | rfl
        | skip
      next q r =>
      have hc : v.nodes[q]? = some r := hc
      simp only [Out.ok_bind]
      exact ih v vs _ _ h (forall2_snoc hF ⟨h.lt (List.mem_of_getElem? hc), hc⟩)
    | read k =>
      simp only [Ref.run, Spec.vecRun]
      rcases forall2_get hF k with ⟨h1, h2⟩ | ⟨r, q, h1, h2, h3⟩
      · rw [h1, h2]
        exact ih v vs _ _ h hF
      · rw [h1, h2]
        cases q with
        | none =>
          have : v.toObj.mem r = none := h.dead.2 h3.2
          simp [Obj.read, vectorClass, this]
        | some q =>
          obtain ⟨x, hx, hm⟩ := h.at h3.2
          simp only [Obj.read, vectorClass, hm, hx, Out.ok_bind]
          have := ih v vs _ _ h hF
          rw [← this]
          rfl
    | write k x =>
      simp only [Ref.run, Spec.vecRun]
      rcases forall2_get hF k with ⟨h1, h2⟩ | ⟨r, q, h1, h2, h3⟩
      · rw [h1, h2]
        exact ih v vs _ _ h hF
      · rw [h1, h2]
        cases q with
        | none =>
          have : v.toObj.mem r = none := h.dead.2 h3.2
          simp [Obj.write, vectorClass, this]
        | some q =>
          obtain ⟨hw, hrel'⟩ := h.write h3.2 x
          have e : ((vectorClass grow).obj v).write r x = v.toObj.write r x := rfl
          simp only [e, hw, Out.ok_bind]
          exact ih _ _ _ _ hrel' (forall2_imp (fun _ _ h => h) hF)

end Cont.Ref
