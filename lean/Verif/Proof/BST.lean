import Verif.Spec.BST
import Mathlib.Data.List.Nodup
import Mathlib.Tactic.Ring

/-! # Lemmas about splay trees -/

namespace BST
open Cpp Spec

/-! ### heap operations -/

theorem ld_ok {h : Heap} {p : Nat} {nd : Nd} (e : h p = some nd) : ld h p = .ok nd := by simp [ld, e]

theorem setCh_ok {h : Heap} {p : Nat} {nd : Nd} (e : h p = some nd) (c : Bool) (v : Option Nat) :
    setCh h p c v = .ok (store h p (nd.setCh c v)) := by rw [setCh, ld_ok e]; rfl

theorem setFa_ok {h : Heap} {p : Nat} {nd : Nd} (e : h p = some nd) (v : Option Nat) :
    setFa h p v = .ok (store h p { nd with fa := v }) := by rw [setFa, ld_ok e]; rfl

theorem store_self (h : Heap) (p : Nat) (nd : Nd) : store h p nd p = some nd := by simp [store]

theorem store_ne (h : Heap) {p q : Nat} (nd : Nd) (e : q ≠ p) : store h p nd q = h q := by simp [store, e]

@[simp] theorem setCh_fa (n : Nd) (c : Bool) (v : Option Nat) : (n.setCh c v).fa = n.fa := by
  unfold Nd.setCh; split <;> rfl

@[simp] theorem setCh_rank (n : Nd) (c : Bool) (v : Option Nat) : (n.setCh c v).rank = n.rank := by
  unfold Nd.setCh; split <;> rfl

/-- the heap after a rotation -/
def rotated (h : Heap) (nx ny : Nd) (x y : Nat) (c : Bool) : Heap := fun p =>
  if p = x then some (({ nx with fa := ny.fa } : Nd).setCh c (some y))
  else if p = y then some { ny.setCh (!c) (nx.ch c) with fa := some x }
  else if nx.ch c = some p then (h p).map fun n => { n with fa := some y }
  else if ny.fa = some p then
    (h p).map fun n => if n.ch false = some y then n.setCh false (some x) else n.setCh true (some x)
  else h p

theorem rotate_ok {h : Heap} {root : Option Nat} {x y : Nat} {nx ny : Nd} (c : Bool) (hx : h x = some nx)
    (hy : h y = some ny) (hf : nx.fa = some y) (hxy : x ≠ y)
    (hb : ∀ q, nx.ch c = some q → (∃ nq, h q = some nq) ∧ q ≠ x ∧ q ≠ y)
    (hz : ∀ w, ny.fa = some w → (∃ nw, h w = some nw) ∧ w ≠ x ∧ w ≠ y ∧ nx.ch c ≠ some w) :
    rotate ⟨h, root⟩ x c = .ok ⟨rotated h nx ny x y c, if some y = root then some x else root⟩ := by
  unfold rotate
  dsimp only
  rw [ld_ok hx, Out.ok_bind, hf]
  simp only [nonNull, Out.ok_bind]
  rw [setCh_ok hy, Out.ok_bind, ld_ok ((store_ne _ _ hxy).trans hx), Out.ok_bind]
  have fin : ∀ h1 : Heap, h1 x = some nx → h1 y = some (ny.setCh (!c) (nx.ch c)) →
      (∀ p, p ≠ x → p ≠ y → h1 p = if nx.ch c = some p then (h p).map fun n => { n with fa := some y } else h p) →
      (do
        let h ← setFa h1 x (← ld h1 y).fa
        let h ← relink h (← ld h y).fa y x
        let h ← setFa h y (some x)
        let h ← setCh h x c (some y)
        Out.ok (⟨h, if some y = root then some x else root⟩ : St)) =
      .ok ⟨rotated h nx ny x y c, if some y = root then some x else root⟩ := by
    intro h1 a1 a2 a3
    rw [ld_ok a2, Out.ok_bind, setFa_ok a1, Out.ok_bind, ld_ok ((store_ne _ _ hxy.symm).trans a2), Out.ok_bind,
      setCh_fa]
    cases hyf : ny.fa with
    | none =>
      rw [relink, Out.ok_bind, setFa_ok ((store_ne _ _ hxy.symm).trans a2), Out.ok_bind,
        setCh_ok ((store_ne _ _ hxy).trans (store_self _ _ _)), Out.ok_bind]
      congr 2
      funext p
      unfold rotated
      by_cases p1 : p = x
      · subst p1; rw [store_self, if_pos rfl, hyf]
      · rw [store_ne _ _ p1, if_neg p1]
        by_cases p2 : p = y
        · subst p2; rw [store_self, if_pos rfl]
        · rw [store_ne _ _ p2, store_ne _ _ p1, if_neg p2, a3 p p1 p2]
          simp [hyf]
    | some w =>
      obtain ⟨⟨nw, hw⟩, w1, w2, w3⟩ := hz w hyf
      have hw' : store h1 x { nx with fa := some w } w = some nw := by
        rw [store_ne _ _ w1, a3 w w1 w2, if_neg w3, hw]
      simp only [relink]
      rw [ld_ok hw', Out.ok_bind]
      have step : (if nw.ch false = some y then
            setCh (store h1 x { nx with fa := some w }) w false (some x)
          else setCh (store h1 x { nx with fa := some w }) w true (some x)) =
          .ok (store (store h1 x { nx with fa := some w }) w
            (if nw.ch false = some y then nw.setCh false (some x) else nw.setCh true (some x))) := by
        split <;> rw [setCh_ok hw']
      rw [step, Out.ok_bind, setFa_ok ((store_ne _ _ w2.symm).trans ((store_ne _ _ hxy.symm).trans a2)), Out.ok_bind,
        setCh_ok ((store_ne _ _ hxy).trans ((store_ne _ _ w1.symm).trans (store_self _ _ _))), Out.ok_bind]
      congr 2
      funext p
      unfold rotated
      by_cases p1 : p = x
      · subst p1; rw [store_self, if_pos rfl, hyf]
      · rw [store_ne _ _ p1, if_neg p1]
        by_cases p2 : p = y
        · subst p2; rw [store_self, if_pos rfl]
        · rw [store_ne _ _ p2, if_neg p2]
          by_cases p3 : p = w
          · subst p3
            rw [store_self, if_neg w3, if_pos hyf, hw]; rfl
          · rw [store_ne _ _ p3, store_ne _ _ p1, a3 p p1 p2]
            have : ny.fa ≠ some p := by rw [hyf]; intro e; injection e with e; exact p3 e.symm
            rw [if_neg this]
  cases hbq : nx.ch c with
  | none =>
    dsimp only
    rw [Out.ok_bind, ← hbq]
    refine fin _ ((store_ne _ _ hxy).trans hx) (store_self _ _ _) (fun p p1 p2 => ?_)
    rw [store_ne _ _ p2, hbq]; simp
  | some q =>
    dsimp only
    obtain ⟨⟨nq, hq⟩, q1, q2⟩ := hb q hbq
    rw [setFa_ok ((store_ne _ _ q2).trans hq), Out.ok_bind, ← hbq]
    refine fin _ ?_ ?_ (fun p p1 p2 => ?_)
    · rw [store_ne _ _ q1.symm, store_ne _ _ hxy, hx]
    · rw [store_ne _ _ q2.symm, store_self]
    · by_cases e : p = q
      · subst e; rw [store_self, if_pos hbq, hq]; rfl
      · rw [store_ne _ _ e, store_ne _ _ p2, if_neg]
        rw [hbq]; intro e'; injection e' with e'; exact e e'.symm

/-! ### trees in the heap -/

section
variable {rk vl : Nat → Int}

theorem ptr_mem {t : T} {p : Nat} (h : t.ptr = some p) : p ∈ t.keys := by
  cases t with
  | nil => cases h
  | node l q r => injection h with h; subst h; simp [T.keys]

theorem Spec.Holds.congr {h h' : Heap} : ∀ {t : T} {fa : Option Nat}, (∀ p ∈ t.keys, h' p = h p) → Holds rk vl h t fa →
    Holds rk vl h' t fa := by
  intro t
  induction t with
  | nil => intro fa _ _; trivial
  | node l p r ihl ihr =>
    intro fa hh hs
    exact ⟨(hh p (by simp [T.keys])).trans hs.1, ihl (fun q hq => hh q (by simp [T.keys, hq])) hs.2.1,
      ihr (fun q hq => hh q (by simp [T.keys, hq])) hs.2.2⟩

theorem Spec.Holds.refa {h h' : Heap} {t : T} {fa fa' : Option Nat} (hn : t.keys.Nodup)
    (hh : ∀ p ∈ t.keys, h' p = if t.ptr = some p then (h p).map fun n => { n with fa := fa' } else h p)
    (hs : Holds rk vl h t fa) : Holds rk vl h' t fa' := by
  cases t with
  | nil => trivial
  | node l p r =>
    simp only [T.keys] at hn hh
    refine ⟨?_, hs.2.1.congr fun q hq => ?_, hs.2.2.congr fun q hq => ?_⟩
    · rw [hh p (by simp), if_pos (show (T.node l p r).ptr = some p from rfl), hs.1]; rfl
    · rw [hh q (by simp [hq]), if_neg]
      intro e; injection e with e; subst e
      rw [List.nodup_append] at hn
      exact hn.2.2 _ hq _ (by simp) rfl
    · rw [hh q (by simp [hq]), if_neg]
      intro e; injection e with e; subst e
      rw [List.nodup_append, List.nodup_cons] at hn
      exact hn.2.1.1 hq

theorem Spec.Holds.alive {h : Heap} : ∀ {t : T} {fa : Option Nat}, Holds rk vl h t fa → ∀ p ∈ t.keys, ∃ nd, h p = some nd := by
  intro t
  induction t with
  | nil => intro fa _ p hp; simp [T.keys] at hp
  | node l q r ihl ihr =>
    intro fa hs p hp
    simp [T.keys] at hp
    rcases hp with hp | hp | hp
    · exact ihl hs.2.1 p hp
    · subst hp; exact ⟨_, hs.1⟩
    · exact ihr hs.2.2 p hp

/-! ### a position in a tree -/

/-- One step of the path from the root: the child at hand is `ch[d]` of `p`, the other child is `s`. -/
structure Fr where
  d : Bool
  p : Nat
  s : T

/-- the node of a frame -/
def Fr.nd (rk vl : Nat → Int) (f : Fr) (c fa : Option Nat) : Nd :=
  if f.d then ⟨f.s.ptr, c, fa, rk f.p, vl f.p⟩ else ⟨c, f.s.ptr, fa, rk f.p, vl f.p⟩

/-- parent of the subtree at hand -/
def upPtr : List Fr → Option Nat
  | [] => none
  | f :: _ => some f.p

/-- The heap holds the surroundings (innermost frame first) of a subtree with top `c`. -/
def Around (rk vl : Nat → Int) (h : Heap) : List Fr → Option Nat → Prop
  | [], _ => True
  | f :: k, c => h f.p = some (f.nd rk vl c (upPtr k)) ∧ Holds rk vl h f.s (some f.p) ∧ Around rk vl h k (some f.p)

def leftOf : List Fr → List Nat
  | [] => []
  | f :: k => if f.d then leftOf k ++ (f.s.keys ++ [f.p]) else leftOf k

def rightOf : List Fr → List Nat
  | [] => []
  | f :: k => if f.d then rightOf k else f.p :: (f.s.keys ++ rightOf k)

def rootOf : List Fr → Option Nat → Option Nat
  | [], c => c
  | f :: k, _ => rootOf k (some f.p)

/-- A tree seen from one of its subtrees. -/
structure Zip (rk vl : Nat → Int) (s : St) (k : List Fr) (t : T) : Prop where
  sub : Holds rk vl s.heap t (upPtr k)
  ctx : Around rk vl s.heap k t.ptr
  nodup : (leftOf k ++ (t.keys ++ rightOf k)).Nodup
  root : s.root = rootOf k t.ptr

theorem Around.congr {h h' : Heap} : ∀ {k : List Fr} {c : Option Nat},
    (∀ p, p ∈ leftOf k ∨ p ∈ rightOf k → h' p = h p) → Around rk vl h k c → Around rk vl h' k c := by
  intro k
  induction k with
  | nil => intro c _ _; trivial
  | cons f k ih =>
    intro c hh ha
    obtain ⟨d, p, s⟩ := f
    have key : ∀ q, (q = p ∨ q ∈ s.keys ∨ q ∈ leftOf k ∨ q ∈ rightOf k) → h' q = h q := by
      intro q hq
      apply hh
      cases d <;> simp [leftOf, rightOf] <;> tauto
    exact ⟨(key p (.inl rfl)).trans ha.1, ha.2.1.congr fun q hq => key q (.inr (.inl hq)),
      ih (fun q hq => key q (.inr (.inr hq))) ha.2.2⟩

/-- the top child of the surroundings is replaced -/
theorem Around.rechild {h h' : Heap} {k : List Fr} {y x : Nat}
    (hn : (leftOf k ++ rightOf k).Nodup) (hyk : y ∉ leftOf k ∧ y ∉ rightOf k)
    (hh : ∀ p, p ∈ leftOf k ∨ p ∈ rightOf k → h' p = if upPtr k = some p then
      (h p).map fun n => if n.ch false = some y then n.setCh false (some x) else n.setCh true (some x) else h p)
    (ha : Around rk vl h k (some y)) : Around rk vl h' k (some x) := by
  cases k with
  | nil => trivial
  | cons f k =>
    obtain ⟨d, p, s⟩ := f
    have hd : p ∉ s.keys ∧ p ∉ leftOf k ∧ p ∉ rightOf k := by
      cases d <;> simp [leftOf, rightOf, List.nodup_append, List.nodup_cons] at hn <;> grind
    have key : ∀ q, (q = p ∨ q ∈ s.keys ∨ q ∈ leftOf k ∨ q ∈ rightOf k) → q ∈ leftOf (⟨d, p, s⟩ :: k) ∨
        q ∈ rightOf (⟨d, p, s⟩ :: k) := by
      intro q hq
      cases d <;> simp [leftOf, rightOf] <;> tauto
    have other : ∀ q, (q ∈ s.keys ∨ q ∈ leftOf k ∨ q ∈ rightOf k) → h' q = h q := by
      intro q hq
      rw [hh q (key q (.inr hq)), if_neg]
      intro e; simp only [upPtr] at e; injection e with e; subst e
      grind
    have hys : y ∉ s.keys := fun hq => by
      have := key y (.inr (.inl hq)); tauto
    have hyp : s.ptr ≠ some y := fun e => hys (ptr_mem e)
    refine ⟨?_, ha.2.1.congr fun q hq => other q (.inl hq), ha.2.2.congr fun q hq => other q (.inr hq)⟩
    rw [hh p (key p (.inl rfl)), if_pos (show upPtr (⟨d, p, s⟩ :: k) = some p from rfl), ha.1]
    cases d <;> simp [Fr.nd, Nd.ch, Nd.setCh, hyp]

theorem rootOf_some {k : List Fr} {y : Nat} (x : Nat) (hyk : y ∉ leftOf k ∧ y ∉ rightOf k) :
    (if some y = rootOf k (some y) then some x else rootOf k (some y)) = rootOf k (some x) := by
  have mem : ∀ (k : List Fr) (c : Nat) (r : Nat), rootOf k (some c) = some r →
      r = c ∨ r ∈ leftOf k ∨ r ∈ rightOf k := by
    intro k
    induction k with
    | nil => intro c r h; injection h with h; exact .inl h.symm
    | cons f k ih =>
      intro c r h
      obtain ⟨d, p, s⟩ := f
      rcases ih p r h with e | e | e
      · subst e; cases d <;> simp [leftOf, rightOf]
      · cases d <;> simp [leftOf, rightOf, e]
      · cases d <;> simp [leftOf, rightOf, e]
  cases k with
  | nil => simp [rootOf]
  | cons f k =>
    obtain ⟨d, p, s⟩ := f
    refine if_neg fun e => ?_
    have := mem k p y e.symm
    cases d <;> simp [leftOf, rightOf] at hyk <;> tauto

/-- what the absence of repetitions says about a rotation -/
theorem apart {L A B S R : List Nat} {x y : Nat} (hn : (L ++ ((A ++ x :: B) ++ y :: (S ++ R))).Nodup) :
    x ≠ y ∧ B.Nodup ∧ (L ++ R).Nodup ∧ (∀ p ∈ A, p ≠ x ∧ p ≠ y ∧ p ∉ B ∧ p ∉ L ∧ p ∉ R) ∧
      (∀ p ∈ S, p ≠ x ∧ p ≠ y ∧ p ∉ B ∧ p ∉ L ∧ p ∉ R) ∧ (∀ p ∈ B, p ≠ x ∧ p ≠ y ∧ p ∉ L ∧ p ∉ R) ∧
      (∀ p, p ∈ L ∨ p ∈ R → p ≠ x ∧ p ≠ y ∧ p ∉ B) := by
  simp only [List.nodup_append, List.nodup_cons, List.mem_append, List.mem_cons] at hn
  refine ⟨?_, ?_, ?_, ?_, ?_, ?_, ?_⟩
  · grind
  · grind
  · rw [List.nodup_append]; grind
  all_goals (intro p hp; grind)

theorem apart' {L A B S R : List Nat} {x y : Nat} (hn : (L ++ (S ++ [y]) ++ ((A ++ x :: B) ++ R)).Nodup) :
    x ≠ y ∧ A.Nodup ∧ (L ++ R).Nodup ∧ (∀ p ∈ B, p ≠ x ∧ p ≠ y ∧ p ∉ A ∧ p ∉ L ∧ p ∉ R) ∧
      (∀ p ∈ S, p ≠ x ∧ p ≠ y ∧ p ∉ A ∧ p ∉ L ∧ p ∉ R) ∧ (∀ p ∈ A, p ≠ x ∧ p ≠ y ∧ p ∉ L ∧ p ∉ R) ∧
      (∀ p, p ∈ L ∨ p ∈ R → p ≠ x ∧ p ≠ y ∧ p ∉ A) := by
  simp only [List.nodup_append, List.nodup_cons, List.mem_append, List.mem_cons] at hn
  refine ⟨?_, ?_, ?_, ?_, ?_, ?_, ?_⟩
  · grind
  · grind
  · rw [List.nodup_append]; grind
  all_goals (intro p hp; grind)

/-- A rotation moves the subtree at hand one level up. -/
theorem Zip.rotate {s : St} {d : Bool} {y x : Nat} {sib a b : T} {k : List Fr}
    (H : Zip rk vl s (⟨d, y, sib⟩ :: k) (.node a x b)) :
    ∃ s', BST.rotate s x (!d) = .ok s' ∧
      Zip rk vl s' k (if d then .node (.node sib y a) x b else .node a x (.node b y sib)) ∧
      ∀ q, q ∉ leftOf (⟨d, y, sib⟩ :: k) ++ ((T.node a x b).keys ++ rightOf (⟨d, y, sib⟩ :: k)) →
        s'.heap q = s.heap q := by
  obtain ⟨h, root⟩ := s
  obtain ⟨⟨hx, ha, hb⟩, ⟨hy, hs, hk⟩, hn, hr⟩ := H
  dsimp only at hx ha hb hy hs hk hr
  cases d with
  | false =>
    simp only [leftOf, rightOf, T.keys, Bool.false_eq_true, if_false] at hn
    obtain ⟨hxy, nB, nLR, fA, fS, fB, fK⟩ := apart hn
    have hyk : y ∉ leftOf k ∧ y ∉ rightOf k := ⟨fun e => (fK y (.inl e)).2.1 rfl, fun e => (fK y (.inr e)).2.1 rfl⟩
    have e := rotate_ok (root := root) true hx hy rfl hxy
      (fun q hq => by
        have hqm := ptr_mem (t := b) hq
        exact ⟨hb.alive q hqm, (fB q hqm).1, (fB q hqm).2.1⟩)
      (fun w hw => by
        cases k with
        | nil => cases hw
        | cons f k =>
          obtain ⟨d', p, s⟩ := f
          injection hw with hw
          subst hw
          have hwm : p ∈ leftOf (⟨d', p, s⟩ :: k) ∨ p ∈ rightOf (⟨d', p, s⟩ :: k) := by
            cases d' <;> simp [leftOf, rightOf]
          exact ⟨⟨_, hk.1⟩, (fK p hwm).1, (fK p hwm).2.1, fun hq => (fK p hwm).2.2 (ptr_mem (t := b) hq)⟩)
    refine ⟨_, e, ?_⟩
    simp only [Bool.false_eq_true, if_false]
    have hbp : ∀ p, b.ptr = some p → p ∈ b.keys := fun p hp => ptr_mem hp
    have hkp : ∀ p, upPtr k = some p → p ∈ leftOf k ∨ p ∈ rightOf k := by
      intro p hp
      cases k with
      | nil => cases hp
      | cons f k =>
        obtain ⟨d', q, s⟩ := f
        injection hp with hp; subst hp
        cases d' <;> simp [leftOf, rightOf]
    have nxb : (⟨a.ptr, b.ptr, upPtr (⟨false, y, sib⟩ :: k), rk x, vl x⟩ : Nd).ch true = b.ptr := rfl
    have same : ∀ p, p ≠ x → p ≠ y → p ∉ b.keys → p ∉ leftOf k → p ∉ rightOf k →
        rotated h ⟨a.ptr, b.ptr, upPtr (⟨false, y, sib⟩ :: k), rk x, vl x⟩
          (Fr.nd rk vl ⟨false, y, sib⟩ (some x) (upPtr k)) x y true p = h p := by
      intro p p1 p2 p3 p4 p5
      unfold rotated
      rw [if_neg p1, if_neg p2, nxb, if_neg (fun e => p3 (hbp p e)), if_neg]
      intro e
      have := hkp p e
      tauto
    refine ⟨?_, fun q hq => same q ?_ ?_ ?_ ?_ ?_⟩
    case refine_2 => intro e; exact hq (by simp [T.keys, e])
    case refine_3 => intro e; exact hq (by simp [rightOf, e])
    case refine_4 => intro e; exact hq (by simp [T.keys, e])
    case refine_5 => intro e; exact hq (by simp [leftOf, e])
    case refine_6 => intro e; exact hq (by simp [rightOf, e])
    refine ⟨⟨?_, ha.congr fun p hp => same p (fA p hp).1 (fA p hp).2.1 (fA p hp).2.2.1 (fA p hp).2.2.2.1 (fA p hp).2.2.2.2, ?_, ?_, ?_⟩, ?_, ?_, ?_⟩
    · simp [rotated, Nd.setCh, Fr.nd, T.ptr]
    · simp [rotated, Nd.setCh, Fr.nd, T.ptr, hxy.symm, Nd.ch]
    · refine hb.refa nB (fun p hp => ?_)
      dsimp only [rotated]
      rw [if_neg (fB p hp).1, if_neg (fB p hp).2.1, nxb]
      split
      · rfl
      · rw [if_neg]
        intro e
        have := hkp p e
        have := fB p hp
        tauto
    · exact hs.congr fun p hp => same p (fS p hp).1 (fS p hp).2.1 (fS p hp).2.2.1 (fS p hp).2.2.2.1 (fS p hp).2.2.2.2
    · refine Around.rechild (y := y) nLR hyk (fun p hp => ?_) hk
      dsimp only [rotated]
      rw [if_neg (fK p hp).1, if_neg (fK p hp).2.1, nxb, if_neg (fun e => (fK p hp).2.2 (hbp p e))]
      rfl
    · simp only [T.keys]
      simpa [List.append_assoc] using hn
    · dsimp only
      rw [hr]
      exact rootOf_some x hyk
  | true =>
    simp only [leftOf, rightOf, T.keys, if_true] at hn
    obtain ⟨hxy, nB, nLR, fA, fS, fB, fK⟩ := apart' hn
    have hyk : y ∉ leftOf k ∧ y ∉ rightOf k := ⟨fun e => (fK y (.inl e)).2.1 rfl, fun e => (fK y (.inr e)).2.1 rfl⟩
    have e := rotate_ok (root := root) false hx hy rfl hxy
      (fun q hq => by
        have hqm := ptr_mem (t := a) hq
        exact ⟨ha.alive q hqm, (fB q hqm).1, (fB q hqm).2.1⟩)
      (fun w hw => by
        cases k with
        | nil => cases hw
        | cons f k =>
          obtain ⟨d', p, s⟩ := f
          injection hw with hw
          subst hw
          have hwm : p ∈ leftOf (⟨d', p, s⟩ :: k) ∨ p ∈ rightOf (⟨d', p, s⟩ :: k) := by
            cases d' <;> simp [leftOf, rightOf]
          exact ⟨⟨_, hk.1⟩, (fK p hwm).1, (fK p hwm).2.1, fun hq => (fK p hwm).2.2 (ptr_mem (t := a) hq)⟩)
    refine ⟨_, e, ?_⟩
    simp only [if_true]
    have hap : ∀ p, a.ptr = some p → p ∈ a.keys := fun p hp => ptr_mem hp
    have hkp : ∀ p, upPtr k = some p → p ∈ leftOf k ∨ p ∈ rightOf k := by
      intro p hp
      cases k with
      | nil => cases hp
      | cons f k =>
        obtain ⟨d', q, s⟩ := f
        injection hp with hp; subst hp
        cases d' <;> simp [leftOf, rightOf]
    have nxa : (⟨a.ptr, b.ptr, upPtr (⟨true, y, sib⟩ :: k), rk x, vl x⟩ : Nd).ch false = a.ptr := rfl
    have same : ∀ p, p ≠ x → p ≠ y → p ∉ a.keys → p ∉ leftOf k → p ∉ rightOf k →
        rotated h ⟨a.ptr, b.ptr, upPtr (⟨true, y, sib⟩ :: k), rk x, vl x⟩
          (Fr.nd rk vl ⟨true, y, sib⟩ (some x) (upPtr k)) x y false p = h p := by
      intro p p1 p2 p3 p4 p5
      unfold rotated
      rw [if_neg p1, if_neg p2, nxa, if_neg (fun e => p3 (hap p e)), if_neg]
      intro e
      have := hkp p e
      tauto
    refine ⟨?_, fun q hq => same q ?_ ?_ ?_ ?_ ?_⟩
    case refine_2 => intro e; exact hq (by simp [T.keys, e])
    case refine_3 => intro e; exact hq (by simp [leftOf, e])
    case refine_4 => intro e; exact hq (by simp [T.keys, e])
    case refine_5 => intro e; exact hq (by simp [leftOf, e])
    case refine_6 => intro e; exact hq (by simp [rightOf, e])
    refine ⟨⟨?_, ⟨?_, ?_, ?_⟩, hb.congr fun p hp => same p (fA p hp).1 (fA p hp).2.1 (fA p hp).2.2.1 (fA p hp).2.2.2.1 (fA p hp).2.2.2.2⟩, ?_, ?_, ?_⟩
    · simp [rotated, Nd.setCh, Fr.nd, T.ptr]
    · simp [rotated, Nd.setCh, Fr.nd, T.ptr, hxy.symm, Nd.ch]
    · exact hs.congr fun p hp => same p (fS p hp).1 (fS p hp).2.1 (fS p hp).2.2.1 (fS p hp).2.2.2.1 (fS p hp).2.2.2.2
    · refine ha.refa nB (fun p hp => ?_)
      dsimp only [rotated]
      rw [if_neg (fB p hp).1, if_neg (fB p hp).2.1, nxa]
      split
      · rfl
      · rw [if_neg]
        intro e
        have := hkp p e
        have := fB p hp
        tauto
    · refine Around.rechild (y := y) nLR hyk (fun p hp => ?_) hk
      dsimp only [rotated]
      rw [if_neg (fK p hp).1, if_neg (fK p hp).2.1, nxa, if_neg (fun e => (fK p hp).2.2 (hap p e))]
      rfl
    · simp only [T.keys]
      simpa [List.append_assoc] using hn
    · dsimp only
      rw [hr]
      exact rootOf_some x hyk

/-- one level up without a rotation -/
theorem Zip.up {s : St} {d : Bool} {y : Nat} {sib t : T} {k : List Fr} (H : Zip rk vl s (⟨d, y, sib⟩ :: k) t) :
    Zip rk vl s k (if d then .node sib y t else .node t y sib) := by
  obtain ⟨h1, ⟨h2, h3, h4⟩, h5, h6⟩ := H
  cases d
  · exact ⟨⟨h2, h1, h3⟩, h4, by simpa [leftOf, rightOf, T.keys] using h5, h6⟩
  · exact ⟨⟨h2, h3, h1⟩, h4, by simpa [leftOf, rightOf, T.keys] using h5, h6⟩

theorem Zip.left {s : St} {y : Nat} {sib t : T} {k : List Fr} (H : Zip rk vl s k (.node t y sib)) :
    Zip rk vl s (⟨false, y, sib⟩ :: k) t := by
  obtain ⟨⟨h2, h1, h3⟩, h4, h5, h6⟩ := H
  exact ⟨h1, ⟨h2, h3, h4⟩, by simpa [leftOf, rightOf, T.keys] using h5, h6⟩

theorem Zip.right {s : St} {y : Nat} {sib t : T} {k : List Fr} (H : Zip rk vl s k (.node sib y t)) :
    Zip rk vl s (⟨true, y, sib⟩ :: k) t := by
  obtain ⟨⟨h2, h3, h1⟩, h4, h5, h6⟩ := H
  exact ⟨h1, ⟨h2, h3, h4⟩, by simpa [leftOf, rightOf, T.keys] using h5, h6⟩

/-- the child at hand is found on the right side -/
theorem Zip.side {s : St} {d : Bool} {y x : Nat} {sib a b : T} {k : List Fr}
    (H : Zip rk vl s (⟨d, y, sib⟩ :: k) (.node a x b)) :
    ∃ ny, s.heap y = some ny ∧ ny.fa = upPtr k ∧ (ny.ch false = some x ↔ d = false) ∧ (ny.ch true = some x ↔ d = true) := by
  have hn := H.nodup
  have hs : sib.ptr ≠ some x := by
    intro e
    have := ptr_mem e
    cases d with
    | false => have := (apart (by simpa only [leftOf, rightOf, T.keys, Bool.false_eq_true, if_false] using hn)).2.2.2.2.1 x this; exact this.1 rfl
    | true => have := (apart' (by simpa only [leftOf, rightOf, T.keys, if_true] using hn)).2.2.2.2.1 x this; exact this.1 rfl
  have hp : (T.node a x b).ptr = some x := rfl
  refine ⟨_, H.ctx.1, ?_, ?_, ?_⟩ <;> cases d <;> simp [Fr.nd, Nd.ch, hp, hs]

/-- `splay` brings the node to the root and keeps the order. -/
theorem Zip.splay : ∀ (n : Nat) {fuel : Nat} {s : St} {k : List Fr} {a b : T} {x : Nat}, k.length ≤ n → n < fuel →
    Zip rk vl s k (.node a x b) →
    ∃ s' a' b', BST.splay fuel s x = .ok s' ∧ Zip rk vl s' [] (.node a' x b') ∧
      (T.node a' x b').keys = leftOf k ++ ((T.node a x b).keys ++ rightOf k) ∧
      ∀ q, q ∉ leftOf k ++ ((T.node a x b).keys ++ rightOf k) → s'.heap q = s.heap q := by
  intro n
  induction n using Nat.strong_induction_on with
  | _ n ih =>
    intro fuel s k a b x hk hf H
    obtain ⟨fuel, rfl⟩ : ∃ m, fuel = m + 1 := ⟨fuel - 1, by omega⟩
    rw [BST.splay, ld_ok H.sub.1, Out.ok_bind]
    cases k with
    | nil => exact ⟨s, a, b, rfl, H, by simp [leftOf, rightOf], fun _ _ => rfl⟩
    | cons f k =>
      obtain ⟨d, y, sib⟩ := f
      simp only [upPtr]
      obtain ⟨ny, hy, hyf, hy0, hy1⟩ := H.side
      rw [ld_ok hy, Out.ok_bind]
      cases k with
      | nil =>
        rw [hyf]
        simp only [upPtr]
        obtain ⟨s1, e1, H1, F1⟩ := H.rotate
        have hstep : (if ny.ch false = some x then BST.rotate s x true else BST.rotate s x false) = .ok s1 := by
          cases d
          · rw [if_pos (hy0.2 rfl)]; exact e1
          · rw [if_neg (fun e => by have := hy0.1 e; cases this)]; exact e1
        rw [hstep, Out.ok_bind]
        have hlen : 0 < n := by simp at hk; omega
        cases d
        · obtain ⟨s', a', b', e, Z, ek, F⟩ := ih 0 hlen (fuel := fuel) (k := []) (Nat.zero_le 0) (by omega) H1
          refine ⟨s', a', b', e, Z, by rw [ek]; simp [leftOf, rightOf, T.keys], fun q hq => ?_⟩
          rw [F q, F1 q]
          all_goals simpa [leftOf, rightOf, T.keys] using hq
        · obtain ⟨s', a', b', e, Z, ek, F⟩ := ih 0 hlen (fuel := fuel) (k := []) (Nat.zero_le 0) (by omega) H1
          refine ⟨s', a', b', e, Z, by rw [ek]; simp [leftOf, rightOf, T.keys], fun q hq => ?_⟩
          rw [F q, F1 q]
          all_goals simpa [leftOf, rightOf, T.keys] using hq
      | cons g k =>
        obtain ⟨d2, z, sib2⟩ := g
        rw [hyf]
        simp only [upPtr]
        simp only [List.length_cons] at hk
        have hlt : k.length < n := by omega
        cases d with
        | false =>
          have Hy := H.up
          simp only [Bool.false_eq_true, if_false] at Hy
          obtain ⟨nz, hz, -, hz0, hz1⟩ := Hy.side
          rw [ld_ok hz, Out.ok_bind]
          cases d2 with
          | false =>
            rw [if_pos (hz0.2 rfl), if_pos (hy0.2 rfl)]
            obtain ⟨s1, e1, H1, F1⟩ := Hy.rotate
            simp only [Bool.not_false, Bool.false_eq_true, if_false] at e1 H1
            rw [e1, Out.ok_bind]
            obtain ⟨s2, e2, H2, F2⟩ := H1.left.rotate
            simp only [Bool.not_false, Bool.false_eq_true, if_false] at e2 H2
            rw [e2, Out.ok_bind]
            obtain ⟨s', a', b', e, Z, ek, F⟩ := ih _ hlt (fuel := fuel) le_rfl (by omega) H2
            refine ⟨s', a', b', e, Z, by rw [ek]; simp [leftOf, rightOf, T.keys], fun q hq => ?_⟩
            rw [F q, F2 q, F1 q]
            all_goals simpa [leftOf, rightOf, T.keys] using hq
          | true =>
            rw [if_neg (fun e => by have := hz0.1 e; cases this), if_neg (fun e => by have := hy1.1 e; cases this)]
            obtain ⟨s1, e1, H1, F1⟩ := H.rotate
            simp only [Bool.not_false, Bool.false_eq_true, if_false] at e1 H1
            rw [e1, Out.ok_bind]
            obtain ⟨s2, e2, H2, F2⟩ := H1.rotate
            simp only [Bool.not_true, if_true] at e2 H2
            rw [e2, Out.ok_bind]
            obtain ⟨s', a', b', e, Z, ek, F⟩ := ih _ hlt (fuel := fuel) le_rfl (by omega) H2
            refine ⟨s', a', b', e, Z, by rw [ek]; simp [leftOf, rightOf, T.keys], fun q hq => ?_⟩
            rw [F q, F2 q, F1 q]
            all_goals simpa [leftOf, rightOf, T.keys] using hq
        | true =>
          have Hy := H.up
          simp only [if_true] at Hy
          obtain ⟨nz, hz, -, hz0, hz1⟩ := Hy.side
          rw [ld_ok hz, Out.ok_bind]
          cases d2 with
          | false =>
            rw [if_pos (hz0.2 rfl), if_neg (fun e => by have := hy0.1 e; cases this)]
            obtain ⟨s1, e1, H1, F1⟩ := H.rotate
            simp only [Bool.not_true, if_true] at e1 H1
            rw [e1, Out.ok_bind]
            obtain ⟨s2, e2, H2, F2⟩ := H1.rotate
            simp only [Bool.not_false, Bool.false_eq_true, if_false] at e2 H2
            rw [e2, Out.ok_bind]
            obtain ⟨s', a', b', e, Z, ek, F⟩ := ih _ hlt (fuel := fuel) le_rfl (by omega) H2
            refine ⟨s', a', b', e, Z, by rw [ek]; simp [leftOf, rightOf, T.keys], fun q hq => ?_⟩
            rw [F q, F2 q, F1 q]
            all_goals simpa [leftOf, rightOf, T.keys] using hq
          | true =>
            rw [if_neg (fun e => by have := hz0.1 e; cases this), if_pos (hy1.2 rfl)]
            obtain ⟨s1, e1, H1, F1⟩ := Hy.rotate
            simp only [Bool.not_true, if_true] at e1 H1
            rw [e1, Out.ok_bind]
            obtain ⟨s2, e2, H2, F2⟩ := H1.right.rotate
            simp only [Bool.not_true, if_true] at e2 H2
            rw [e2, Out.ok_bind]
            obtain ⟨s', a', b', e, Z, ek, F⟩ := ih _ hlt (fuel := fuel) le_rfl (by omega) H2
            refine ⟨s', a', b', e, Z, by rw [ek]; simp [leftOf, rightOf, T.keys], fun q hq => ?_⟩
            rw [F q, F2 q, F1 q]
            all_goals simpa [leftOf, rightOf, T.keys] using hq

/-! ### insertion -/

theorem length_ctx : ∀ k : List Fr, k.length ≤ (leftOf k ++ rightOf k).length := by
  intro k
  induction k with
  | nil => simp
  | cons f k ih =>
    obtain ⟨d, p, s⟩ := f
    cases d <;> simp [leftOf, rightOf] at ih ⊢ <;> omega

/-- the descent of `insert` -/
theorem Zip.descend {s : St} {x : Nat} {nx : Nd} (hx : s.heap x = some nx) : ∀ {t : T} {k : List Fr} {q fuel : Nat},
    t.ptr = some q → Zip rk vl s k t → Ordered rk t.keys → (∀ p ∈ leftOf k, rk p ≤ nx.rank) →
    (∀ p ∈ rightOf k, nx.rank < rk p) → t.keys.length < fuel →
    ∃ d y sib k', BST.descend s.heap x fuel q = .ok y ∧ Zip rk vl s (⟨d, y, sib⟩ :: k') .nil ∧
      d = decide (nx.rank ≥ rk y) ∧
      leftOf (⟨d, y, sib⟩ :: k') ++ rightOf (⟨d, y, sib⟩ :: k') = leftOf k ++ (t.keys ++ rightOf k) ∧
      (∀ p ∈ leftOf (⟨d, y, sib⟩ :: k'), rk p ≤ nx.rank) ∧ (∀ p ∈ rightOf (⟨d, y, sib⟩ :: k'), nx.rank < rk p) := by
  intro t
  induction t with
  | nil => intro k q fuel h; cases h
  | node l p r ihl ihr =>
    intro k q fuel hq H ho hL hR hf
    injection hq with hq
    subst hq
    obtain ⟨fuel, rfl⟩ : ∃ m, fuel = m + 1 := ⟨fuel - 1, by omega⟩
    rw [BST.descend, ld_ok hx, Out.ok_bind, ld_ok H.sub.1, Out.ok_bind]
    dsimp only
    simp only [T.keys, Ordered, List.pairwise_append, List.pairwise_cons] at ho
    simp only [T.keys, List.length_append, List.length_cons] at hf
    by_cases hc : nx.rank < rk p
    · rw [if_pos hc]
      have hL' : ∀ q ∈ leftOf (⟨false, p, r⟩ :: k), rk q ≤ nx.rank := by simpa [leftOf] using hL
      have hR' : ∀ q ∈ rightOf (⟨false, p, r⟩ :: k), nx.rank < rk q := by
        intro q hq
        simp [rightOf] at hq
        rcases hq with hq | hq | hq
        · subst hq; exact hc
        · exact lt_of_lt_of_le hc (ho.2.1.1 q hq)
        · exact hR q hq
      have key : leftOf (⟨false, p, r⟩ :: k) ++ (l.keys ++ rightOf (⟨false, p, r⟩ :: k)) =
          leftOf k ++ ((T.node l p r).keys ++ rightOf k) := by simp [leftOf, rightOf, T.keys]
      cases l with
      | nil =>
        refine ⟨false, p, r, k, rfl, H.left, ?_, ?_, hL', hR'⟩
        · symm; rw [decide_eq_false_iff_not]; omega
        · rw [← key]; simp [T.keys]
      | node l1 lp l2 =>
        obtain ⟨d, y, sib, k', e, Z, hd, hk, h1, h2⟩ := ihl (fuel := fuel) rfl H.left ho.1 hL' hR' (by omega)
        exact ⟨d, y, sib, k', e, Z, hd, hk.trans key, h1, h2⟩
    · rw [if_neg hc]
      have hR' : ∀ q ∈ rightOf (⟨true, p, l⟩ :: k), nx.rank < rk q := by simpa [rightOf] using hR
      have hL' : ∀ q ∈ leftOf (⟨true, p, l⟩ :: k), rk q ≤ nx.rank := by
        intro q hq
        simp [leftOf] at hq
        rcases hq with hq | hq | hq
        · exact hL q hq
        · exact le_trans (ho.2.2 q hq p (by simp)) (by omega)
        · subst hq; omega
      have key : leftOf (⟨true, p, l⟩ :: k) ++ (r.keys ++ rightOf (⟨true, p, l⟩ :: k)) =
          leftOf k ++ ((T.node l p r).keys ++ rightOf k) := by simp [leftOf, rightOf, T.keys]
      cases r with
      | nil =>
        refine ⟨true, p, l, k, rfl, H.right, ?_, ?_, hL', hR'⟩
        · symm; rw [decide_eq_true_eq]; omega
        · rw [← key]; simp [T.keys]
      | node r1 rp r2 =>
        obtain ⟨d, y, sib, k', e, Z, hd, hk, h1, h2⟩ := ihr (fuel := fuel) rfl H.right ho.2.1.2 hL' hR' (by omega)
        exact ⟨d, y, sib, k', e, Z, hd, hk.trans key, h1, h2⟩

/-- a new leaf is hung in -/
theorem Zip.attach {s : St} {d : Bool} {y x : Nat} {sib : T} {k : List Fr} (H : Zip rk vl s (⟨d, y, sib⟩ :: k) .nil)
    (hx : s.heap x = some (mkNode (rk x) (vl x)))
    (hnew : x ∉ leftOf (⟨d, y, sib⟩ :: k) ∧ x ∉ rightOf (⟨d, y, sib⟩ :: k)) :
    ∃ h1 h2 ny, setFa s.heap x (some y) = .ok h1 ∧ h1 y = some ny ∧ ny.rank = rk y ∧
      h1 x = some { mkNode (rk x) (vl x) with fa := some y } ∧
      setCh h1 y d (some x) = .ok h2 ∧ Zip rk vl ⟨h2, s.root⟩ (⟨d, y, sib⟩ :: k) (.node .nil x .nil) ∧
      ∀ q, q ≠ x → q ≠ y → h2 q = s.heap q := by
  obtain ⟨h, root⟩ := s
  obtain ⟨-, ⟨hy, hs, hk⟩, hn, hr⟩ := H
  dsimp only at hx hy hs hk hr
  have mem : ∀ q, (q = y ∨ q ∈ sib.keys ∨ q ∈ leftOf k ∨ q ∈ rightOf k) →
      q ∈ leftOf (⟨d, y, sib⟩ :: k) ∨ q ∈ rightOf (⟨d, y, sib⟩ :: k) := by
    intro q hq
    cases d <;> simp [leftOf, rightOf] <;> tauto
  have hxy : x ≠ y := fun e => by have := mem x (.inl e); tauto
  have hxs : ∀ q ∈ sib.keys, q ≠ x := fun q hq e => by subst e; have := mem q (.inr (.inl hq)); tauto
  have hxk : ∀ q, q ∈ leftOf k ∨ q ∈ rightOf k → q ≠ x := fun q hq e => by
    subst e; have := mem q (.inr (.inr hq)); tauto
  have hn' := hn
  have hyd : y ∉ sib.keys ∧ y ∉ leftOf k ∧ y ∉ rightOf k := by
    cases d <;> simp [leftOf, rightOf, T.keys, List.nodup_append, List.nodup_cons] at hn' <;> grind
  have e1 := setFa_ok hx (some y)
  have hy1 : store h x { mkNode (rk x) (vl x) with fa := some y } y = _ := (store_ne _ _ hxy.symm).trans hy
  refine ⟨_, _, _, e1, hy1, by cases d <;> rfl, store_self _ _ _, setCh_ok hy1 d (some x), ?_⟩
  have same : ∀ q, q ≠ x → q ≠ y → store (store h x { mkNode (rk x) (vl x) with fa := some y }) y
      ((Fr.nd rk vl ⟨d, y, sib⟩ T.nil.ptr (upPtr k)).setCh d (some x)) q = h q := by
    intro q q1 q2
    rw [store_ne _ _ q2, store_ne _ _ q1]
  refine ⟨?_, same⟩
  refine ⟨⟨?_, trivial, trivial⟩, ⟨?_, hs.congr fun q hq => same q (hxs q hq) ?_, hk.congr fun q hq => same q (hxk q hq) ?_⟩, ?_, hr⟩
  · dsimp only
    rw [store_ne _ _ hxy, store_self]; rfl
  · dsimp only
    rw [store_self]
    cases d <;> rfl
  · rintro rfl; exact hyd.1 hq
  · rintro rfl; tauto
  · simp only [T.keys, List.nil_append, List.singleton_append] at hn ⊢
    rw [List.nodup_middle]
    exact List.nodup_cons.2 ⟨by simpa using hnew, hn⟩

/-- what `insert` does to a search tree -/
theorem insert_tree {s : St} {ks : List Nat} {x fuel : Nat} (H : IsTree rk vl s ks)
    (hx : s.heap x = some (mkNode (rk x) (vl x))) (hnew : x ∉ ks) (hf : ks.length + 1 < fuel) :
    ∃ s' ls rs, insert fuel s x = .ok s' ∧ s'.root = some x ∧ ks = ls ++ rs ∧ (∀ p ∈ ls, rk p ≤ rk x) ∧
      (∀ p ∈ rs, rk x < rk p) ∧ IsTree rk vl s' (ls ++ x :: rs) ∧
      ∀ q, q ≠ x → q ∉ ks → s'.heap q = s.heap q := by
  obtain ⟨t, hs, hr, hks, hn, ho⟩ := H
  subst hks
  cases t with
  | nil =>
    unfold insert
    rw [hr]
    refine ⟨{ s with root := some x }, [], [], rfl, rfl, rfl, by simp, by simp, ⟨.node .nil x .nil, ⟨hx, trivial, trivial⟩,
      rfl, rfl, by simp, by simp [Ordered]⟩, ?_⟩
    exact fun _ _ _ => rfl
  | node l p r =>
    have Z : Zip rk vl s [] (.node l p r) := ⟨hs, trivial, by simpa [leftOf, rightOf] using hn, hr⟩
    obtain ⟨d, y, sib, k, e, Z1, hd, hk, h1, h2⟩ := Z.descend hx (t := .node l p r) (q := p) (fuel := fuel) rfl ho
      (by simp [leftOf]) (by simp [rightOf]) (by omega)
    have hk' : leftOf (⟨d, y, sib⟩ :: k) ++ rightOf (⟨d, y, sib⟩ :: k) = (T.node l p r).keys := by
      rw [hk]; simp [leftOf, rightOf]
    have hnew' : x ∉ leftOf (⟨d, y, sib⟩ :: k) ∧ x ∉ rightOf (⟨d, y, sib⟩ :: k) := by
      rw [← hk'] at hnew; simpa using hnew
    obtain ⟨g1, g2, ny, f1, f2, f3, f4, f5, Z2, F2⟩ := Z1.attach hx hnew'
    have hlen : (⟨d, y, sib⟩ :: k : List Fr).length ≤ (T.node l p r).keys.length := by
      rw [← hk']; exact length_ctx _
    obtain ⟨s', a', b', e', Z3, hk3, F3⟩ := Zip.splay _ (fuel := fuel) le_rfl (by omega) Z2
    have hd' : decide ((mkNode (rk x) (vl x)).rank ≥ ny.rank) = d := by rw [hd, f3]
    have run : insert fuel s x = .ok s' := by
      unfold insert
      rw [hr]
      simp only [T.ptr]
      rw [e, Out.ok_bind, f1, Out.ok_bind, ld_ok f4, Out.ok_bind, ld_ok f2, Out.ok_bind]
      dsimp only
      rw [hd', f5, Out.ok_bind]
      have := hr
      simp only [T.ptr] at this
      rw [← this]
      exact e'
    have hkeys : (T.node a' x b').keys = leftOf (⟨d, y, sib⟩ :: k) ++ x :: rightOf (⟨d, y, sib⟩ :: k) := by
      rw [hk3]; simp [T.keys]
    refine ⟨s', leftOf (⟨d, y, sib⟩ :: k), rightOf (⟨d, y, sib⟩ :: k), run, Z3.root, hk'.symm, h1, h2,
      ⟨.node a' x b', Z3.sub, Z3.root, hkeys, ?_, ?_⟩, fun q hqx hq => ?_⟩
    · rw [← hkeys]; simpa [leftOf, rightOf] using Z3.nodup
    · rw [← hk'] at ho
      simp only [Ordered, List.pairwise_append, List.pairwise_cons] at ho ⊢
      refine ⟨ho.1, ⟨fun q hq => le_of_lt (h2 q hq), ho.2.1⟩, fun q hq q' hq' => ?_⟩
      rcases List.mem_cons.1 hq' with e | e
      · subst e; exact h1 q hq
      · exact ho.2.2 q hq q' e
    · rw [← hk'] at hq
      simp only [List.mem_append, not_or] at hq
      rw [F3 q]
      · refine F2 q hqx ?_
        rintro rfl
        cases d <;> simp [leftOf, rightOf] at hq
      · simp only [List.mem_append, T.keys, List.nil_append, List.mem_cons, List.not_mem_nil, or_false, not_or]
        exact ⟨hq.1, hqx, hq.2⟩

/-! ### searching -/

theorem Spec.Holds.down {h : Heap} : ∀ {t : T} {fa : Option Nat}, Holds rk vl h t fa → HoldsDown rk vl h t := by
  intro t
  induction t with
  | nil => intro fa _; trivial
  | node l p r ihl ihr => intro fa hs; exact ⟨⟨fa, hs.1⟩, ihl hs.2.1, ihr hs.2.2⟩

theorem search_down {h : Heap} {v : Int} : ∀ {t : T} {fuel : Nat}, HoldsDown rk vl h t → Ordered rk t.keys →
    t.keys.length < fuel → ∃ r, search h v fuel t.ptr = .ok r ∧ (∀ p, r = some p → p ∈ t.keys ∧ rk p = v) ∧
      (r = none → ∀ p ∈ t.keys, rk p ≠ v) := by
  intro t
  induction t with
  | nil =>
    intro fuel _ _ hf
    obtain ⟨fuel, rfl⟩ : ∃ m, fuel = m + 1 := ⟨fuel - 1, by omega⟩
    exact ⟨none, rfl, by simp, by simp [T.keys]⟩
  | node l p r ihl ihr =>
    intro fuel hs ho hf
    obtain ⟨fuel, rfl⟩ : ∃ m, fuel = m + 1 := ⟨fuel - 1, by omega⟩
    obtain ⟨⟨fa, hp⟩, hl, hr⟩ := hs
    simp only [T.keys, Ordered, List.pairwise_append, List.pairwise_cons] at ho
    simp only [T.keys, List.length_append, List.length_cons] at hf
    simp only [T.ptr]
    rw [search, ld_ok hp, Out.ok_bind]
    dsimp only
    by_cases h1 : rk p = v
    · rw [if_pos h1]
      exact ⟨some p, rfl, by rintro q e; injection e with e; subst e; exact ⟨by simp [T.keys], h1⟩, by simp⟩
    · rw [if_neg h1]
      by_cases h2 : rk p < v
      · rw [if_pos h2]
        obtain ⟨res, e, a1, a2⟩ := ihr (fuel := fuel) hr ho.2.1.2 (by omega)
        refine ⟨res, e, fun q hq => ⟨by simp [T.keys, (a1 q hq).1], (a1 q hq).2⟩, fun hq q hm => ?_⟩
        simp [T.keys] at hm
        rcases hm with hm | hm | hm
        · have := ho.2.2 q hm p (by simp); omega
        · subst hm; exact h1
        · exact a2 hq q hm
      · rw [if_neg h2]
        obtain ⟨res, e, a1, a2⟩ := ihl (fuel := fuel) hl ho.1 (by omega)
        refine ⟨res, e, fun q hq => ⟨by simp [T.keys, (a1 q hq).1], (a1 q hq).2⟩, fun hq q hm => ?_⟩
        simp [T.keys] at hm
        rcases hm with hm | hm | hm
        · exact a2 hq q hm
        · subst hm; exact h1
        · have := ho.2.1.1 q hm; omega

/-! ### neighbours -/

theorem last_right {h : Heap} : ∀ {t : T} {q fuel : Nat}, HoldsDown rk vl h t → t.ptr = some q →
    t.keys.length ≤ fuel → ∃ p, farthest h true fuel q = .ok p ∧ t.keys.getLast? = some p := by
  intro t
  induction t with
  | nil => intro q fuel _ e; cases e
  | node l p r _ ihr =>
    intro q fuel hs e hf
    injection e with e; subst e
    simp only [T.keys, List.length_append, List.length_cons] at hf
    obtain ⟨fuel, rfl⟩ : ∃ m, fuel = m + 1 := ⟨fuel - 1, by omega⟩
    obtain ⟨⟨fa, hp⟩, -, hr⟩ := hs
    rw [farthest, ld_ok hp, Out.ok_bind]
    cases r with
    | nil => exact ⟨p, rfl, by simp [T.keys]⟩
    | node r1 rp r2 =>
      obtain ⟨m, e, hm⟩ := ihr (q := rp) (fuel := fuel) hr rfl (by omega)
      refine ⟨m, e, ?_⟩
      rw [T.keys, List.getLast?_append, List.getLast?_cons, hm]; rfl

theorem first_left {h : Heap} : ∀ {t : T} {q fuel : Nat}, HoldsDown rk vl h t → t.ptr = some q →
    t.keys.length ≤ fuel → ∃ p, farthest h false fuel q = .ok p ∧ t.keys.head? = some p := by
  intro t
  induction t with
  | nil => intro q fuel _ e; cases e
  | node l p r ihl _ =>
    intro q fuel hs e hf
    injection e with e; subst e
    simp only [T.keys, List.length_append, List.length_cons] at hf
    obtain ⟨fuel, rfl⟩ : ∃ m, fuel = m + 1 := ⟨fuel - 1, by omega⟩
    obtain ⟨⟨fa, hp⟩, hl, -⟩ := hs
    rw [farthest, ld_ok hp, Out.ok_bind]
    cases l with
    | nil => exact ⟨p, rfl, by simp [T.keys]⟩
    | node r1 rp r2 =>
      obtain ⟨m, e, hm⟩ := ihl (q := rp) (fuel := fuel) hl rfl (by omega)
      refine ⟨m, e, ?_⟩
      rw [T.keys, List.head?_append, hm]; rfl

theorem split_unique {L R A B : List Nat} {x : Nat} (hn : (L ++ x :: R).Nodup) (e : L ++ x :: R = A ++ x :: B) :
    L = A ∧ R = B := by
  have h1 : x ∉ L := by
    intro hm; rw [List.nodup_append] at hn; exact hn.2.2 x hm x (by simp) rfl
  have h2 : x ∉ A := by
    intro hm; rw [e, List.nodup_append] at hn; exact hn.2.2 x hm x (by simp) rfl
  have := List.append_eq_append_iff.1 e
  rcases this with ⟨c, e1, e2⟩ | ⟨c, e1, e2⟩
  · cases c with
    | nil => simp at e1 e2; exact ⟨e1.symm, e2⟩
    | cons a c => injection e2 with e2 e3; subst e2; exact absurd (by rw [e1]; simp) h2
  · cases c with
    | nil => simp at e1 e2; exact ⟨e1, e2.symm⟩
    | cons a c => injection e2 with e2 e3; subst e2; exact absurd (by rw [e1]; simp) h1

/-- at the root, `pre` and `suf` give the neighbours -/
theorem neighbours_root {s : St} {ls rs : List Nat} {x fuel : Nat} (H : IsTree rk vl s (ls ++ x :: rs))
    (hr : s.root = some x) (hf : (ls ++ x :: rs).length ≤ fuel) :
    pre fuel s.heap x = .ok ls.getLast? ∧ suf fuel s.heap x = .ok rs.head? := by
  obtain ⟨t, hs, hr', hks, hn, -⟩ := H
  rw [hr] at hr'
  cases t with
  | nil => cases hr'
  | node l p r =>
    injection hr' with hr'
    subst hr'
    obtain ⟨e1, e2⟩ := split_unique hn hks.symm
    subst e1 e2
    simp only [List.length_append, List.length_cons] at hf
    constructor
    · rw [pre, ld_ok hs.1, Out.ok_bind]
      cases l with
      | nil => rfl
      | node l1 lp l2 =>
        obtain ⟨m, e, hm⟩ := last_right (fuel := fuel) (q := lp) hs.2.1.down rfl (by omega)
        show (do Out.ok (some (← farthest s.heap true fuel lp))) = _
        rw [e, hm]; rfl
    · rw [suf, ld_ok hs.1, Out.ok_bind]
      cases r with
      | nil => rfl
      | node l1 lp l2 =>
        obtain ⟨m, e, hm⟩ := first_left (fuel := fuel) (q := lp) hs.2.2.down rfl (by omega)
        show (do Out.ok (some (← farthest s.heap false fuel lp))) = _
        rw [e, hm]; rfl

/-! ### erasing -/

/-- every node can be reached -/
theorem Zip.reach {s : St} {x : Nat} : ∀ {t : T} {k : List Fr}, x ∈ t.keys → Zip rk vl s k t →
    ∃ k' a b, Zip rk vl s k' (.node a x b) ∧
      leftOf k' ++ ((T.node a x b).keys ++ rightOf k') = leftOf k ++ (t.keys ++ rightOf k) := by
  intro t
  induction t with
  | nil => intro k h; simp [T.keys] at h
  | node l p r ihl ihr =>
    intro k h H
    simp [T.keys] at h
    rcases h with h | h | h
    · obtain ⟨k', a, b, Z, e⟩ := ihl h H.left
      exact ⟨k', a, b, Z, e.trans (by simp [leftOf, rightOf, T.keys])⟩
    · subst h; exact ⟨k, l, r, H, rfl⟩
    · obtain ⟨k', a, b, Z, e⟩ := ihr h H.right
      exact ⟨k', a, b, Z, e.trans (by simp [leftOf, rightOf, T.keys])⟩

/-- splaying a node of a search tree -/
theorem splay_tree {s : St} {ks : List Nat} {x fuel : Nat} (H : IsTree rk vl s ks) (hx : x ∈ ks)
    (hf : ks.length < fuel) :
    ∃ s' a b, splay fuel s x = .ok s' ∧ Holds rk vl s'.heap (.node a x b) none ∧ s'.root = some x ∧
      a.keys ++ x :: b.keys = ks ∧ ∀ q, q ∉ ks → s'.heap q = s.heap q := by
  obtain ⟨t, hs, hr, hks, hn, ho⟩ := H
  have Z : Zip rk vl s [] t := ⟨hs, trivial, by simpa [leftOf, rightOf, hks] using hn, hr⟩
  obtain ⟨k, a, b, Z1, e1⟩ := Z.reach (by rw [hks]; exact hx)
  have hlen := length_ctx k
  have : (leftOf k ++ ((T.node a x b).keys ++ rightOf k)).length = ks.length := by
    rw [e1]; simp [leftOf, rightOf, hks]
  simp only [List.length_append] at hlen this
  obtain ⟨s', a', b', e, Z2, e2, F⟩ := Zip.splay _ (fuel := fuel) le_rfl (by omega) Z1
  rw [e1] at e2 F
  refine ⟨s', a', b', e, Z2.sub, Z2.root, ?_, ?_⟩
  · simpa [leftOf, rightOf, T.keys, hks] using e2
  · simpa [leftOf, rightOf, hks] using F

/-- erasing the leftmost node -/
theorem erase_first {s : St} {ks : List Nat} {x fuel : Nat} (H : IsTree rk vl s (x :: ks))
    (hf : ks.length + 1 < fuel) : ∃ s', erase fuel s x = .ok s' ∧ IsTree rk vl s' ks ∧
      ∀ q, q ∉ x :: ks → s'.heap q = s.heap q := by
  obtain ⟨s1, a, b, e, hs, hr, hk, F⟩ := splay_tree H (List.mem_cons_self) (fuel := fuel) (by simpa using hf)
  obtain ⟨-, -, -, -, hn, ho⟩ := H
  obtain ⟨h1, h2⟩ := split_unique (L := []) (by simpa using hn) (by simpa using hk.symm)
  have ha : a = .nil := by
    cases a with
    | nil => rfl
    | node l p r => simp [T.keys] at h1
  subst ha
  subst h2
  rw [erase, e, Out.ok_bind, ld_ok hs.1, Out.ok_bind]
  cases b with
  | nil => exact ⟨_, rfl, ⟨.nil, trivial, rfl, rfl, by simp [T.keys], by simp [T.keys, Ordered]⟩, F⟩
  | node l p r =>
    have hp := hs.2.2.1
    show ∃ s', (do Out.ok (⟨← setFa s1.heap p none, some p⟩ : St)) = Out.ok s' ∧ _
    rw [setFa_ok hp, Out.ok_bind]
    refine ⟨_, rfl, ⟨.node l p r, ?_, rfl, rfl, (List.nodup_cons.1 hn).2, (List.pairwise_cons.1 ho).2⟩, fun q hq => ?_⟩
    case refine_2 =>
      rw [← F q hq]
      exact store_ne _ _ (by rintro rfl; exact hq (by simp [T.keys]))
    refine hs.2.2.refa (List.nodup_cons.1 hn).2 (fun q hq => ?_)
    by_cases hqp : q = p
    · subst hqp
      rw [if_pos (show (T.node l q r).ptr = some q from rfl), hp]
      exact store_self _ _ _
    · rw [if_neg]
      · exact store_ne _ _ hqp
      · intro e; injection e with e; exact hqp e.symm

/-- erasing the rightmost of several nodes -/
theorem erase_last {s : St} {ks : List Nat} {x fuel : Nat} (H : IsTree rk vl s (ks ++ [x])) (hne : ks ≠ [])
    (hf : ks.length + 1 < fuel) : erase fuel s x = .ub := by
  obtain ⟨s1, a, b, e, hs, hr, hk, F⟩ := splay_tree H (x := x) (by simp) (fuel := fuel) (by simpa using hf)
  obtain ⟨-, -, -, -, hn, ho⟩ := H
  obtain ⟨h1, h2⟩ := split_unique hn hk.symm
  subst h1
  have hb : b = .nil := by
    cases b with
    | nil => rfl
    | node l p r => simp [T.keys] at h2
  subst hb
  rw [erase, e, Out.ok_bind, ld_ok hs.1, Out.ok_bind]
  cases a with
  | nil => exact absurd rfl hne
  | node l p r => rfl

/-- the tree without its rightmost node -/
def _root_.BST.Spec.T.dropMax : T → T
  | .nil => .nil
  | .node l _ .nil => l
  | .node l p (.node a q b) => .node l p (T.dropMax (.node a q b))

theorem dropMax_keys : ∀ (t : T), t.dropMax.keys = t.keys.dropLast
  | .nil => rfl
  | .node l p .nil => by simp [T.dropMax, T.keys]
  | .node l p (.node a q b) => by
    have : (T.node l p (.node a q b)).keys = l.keys ++ p :: (T.node a q b).keys := rfl
    rw [T.dropMax, T.keys, dropMax_keys (.node a q b), this, List.dropLast_append_of_ne_nil (by simp),
      List.dropLast_cons_of_ne_nil (by simp [T.keys])]

theorem HoldsDown.congr {h h' : Heap} : ∀ {t : T},
    (∀ p ∈ t.keys, ∀ nd, h p = some nd → ∃ fa, h' p = some { nd with fa := fa }) →
    HoldsDown rk vl h t → HoldsDown rk vl h' t := by
  intro t
  induction t with
  | nil => intro _ _; trivial
  | node l p r ihl ihr =>
    intro hh hs
    obtain ⟨⟨fa, hp⟩, hl, hr⟩ := hs
    obtain ⟨fa', hp'⟩ := hh p (by simp [T.keys]) _ hp
    exact ⟨⟨fa', hp'⟩, ihl (fun q hq => hh q (by simp [T.keys, hq])) hl, ihr (fun q hq => hh q (by simp [T.keys, hq])) hr⟩

/-- the rightmost node and its surroundings -/
theorem max_node {h : Heap} : ∀ {t : T} {fa : Option Nat} {m : Nat}, Holds rk vl h t fa → t.keys.Nodup →
    t.keys.getLast? = some m →
    ∃ (lt : T) (f : Option Nat), h m = some ⟨lt.ptr, none, f, rk m, vl m⟩ ∧ (∀ q ∈ lt.keys, q ∈ t.keys.dropLast) ∧
      ((f = fa ∧ t = .node lt m .nil) ∨ (∃ w nw, f = some w ∧ w ∈ t.keys.dropLast ∧ h w = some nw ∧ nw.ch0 ≠ some m ∧
        t.dropMax.ptr = t.ptr ∧
        ∀ h' : Heap, (∃ fw, h' w = some { nw with ch1 := lt.ptr, fa := fw }) →
          (∀ q ∈ t.keys.dropLast, q ≠ w → ∀ nd, h q = some nd → ∃ fq, h' q = some { nd with fa := fq }) →
          HoldsDown rk vl h' t.dropMax))
  | .nil, fa, m => by intro _ _ e; simp [T.keys] at e
  | .node l p .nil, fa, m => by
    intro hs hn e
    simp [T.keys] at e
    subst e
    refine ⟨l, fa, hs.1, fun q hq => by simpa [T.keys] using hq, .inl ⟨rfl, rfl⟩⟩
  | .node l p (.node a q b), fa, m => by
    intro hs hn e
    have hdl : (T.node l p (.node a q b)).keys.dropLast = l.keys ++ p :: (T.node a q b).keys.dropLast := by
      rw [T.keys, List.dropLast_append_of_ne_nil (by simp), List.dropLast_cons_of_ne_nil (by simp [T.keys])]
    have e' : (T.node a q b).keys.getLast? = some m := by
      rw [T.keys, List.getLast?_append, List.getLast?_cons] at e
      cases hh : (T.node a q b).keys.getLast? with
      | none => simp [T.keys] at hh
      | some z => rw [hh] at e; simpa using e
    have hn1 : l.keys.Nodup ∧ (p ∉ (T.node a q b).keys ∧ (T.node a q b).keys.Nodup) ∧
        ∀ z ∈ l.keys, z ≠ p ∧ z ∉ (T.node a q b).keys := by
      rw [T.keys, List.nodup_append, List.nodup_cons] at hn
      exact ⟨hn.1, hn.2.1, fun z hz => ⟨hn.2.2 z hz p (by simp), fun hz' => hn.2.2 z hz z (by simp [hz']) rfl⟩⟩
    have hmm : m ∈ (T.node a q b).keys := List.mem_of_getLast? e'
    obtain ⟨lt, f, hm, hlt, hcase⟩ := max_node hs.2.2 hn1.2.1.2 e'
    refine ⟨lt, f, hm, fun z hz => by rw [hdl]; simp [hlt z hz], .inr ?_⟩
    rcases hcase with ⟨hf, ht⟩ | ⟨w, nw, hf, hwm, hw, hw0, hdp, hall⟩
    · injection ht with h1 h2 h3
      subst h1 h2 h3
      have : l.ptr ≠ some q := fun e => (hn1.2.2 q (ptr_mem e)).2 hmm
      refine ⟨p, _, hf, by rw [hdl]; simp, hs.1, this, rfl, ?_⟩
      rintro h' ⟨fw, hw'⟩ hoth
      refine ⟨⟨fw, hw'⟩, ?_, ?_⟩
      · refine HoldsDown.congr (fun z hz nd hnd => hoth z (by rw [hdl]; simp [hz]) (hn1.2.2 z hz).1 nd hnd) hs.2.1.down
      · refine HoldsDown.congr (fun z hz nd hnd => hoth z (by rw [hdl]; simp [hlt z hz]) ?_ nd hnd) hs.2.2.2.1.down
        rintro rfl
        have hz' : z ∈ a.keys := hz
        exact hn1.2.1.1 (by simp [T.keys, hz'])
    · refine ⟨w, nw, hf, by rw [hdl]; simp [hwm], hw, hw0, rfl, ?_⟩
      rintro h' hw' hoth
      have hwp : w ∈ (T.node a q b).keys := List.dropLast_subset _ hwm
      rw [T.dropMax]
      refine ⟨?_, ?_, hall h' hw' fun z hz hzw nd hnd => hoth z (by rw [hdl]; simp [hz]) hzw nd hnd⟩
      · obtain ⟨fq, hfq⟩ := hoth p (by rw [hdl]; simp) (by rintro rfl; exact hn1.2.1.1 hwp) _ hs.1
        exact ⟨fq, by rw [hfq, hdp]⟩
      · refine HoldsDown.congr (fun z hz nd hnd => hoth z (by rw [hdl]; simp [hz]) ?_ nd hnd) hs.2.1.down
        rintro rfl
        exact (hn1.2.2 z hz).2 hwp

/-- erasing a node that has nodes on both sides: the child links are right afterwards -/
theorem erase_middle {s : St} {ls rs : List Nat} {x fuel : Nat} (H : IsTree rk vl s (ls ++ x :: rs)) (hl : ls ≠ [])
    (hr : rs ≠ []) (hf : (ls ++ x :: rs).length < fuel) :
    ∃ s' t, erase fuel s x = .ok s' ∧ HoldsDown rk vl s'.heap t ∧ s'.root = t.ptr ∧ t.keys = ls ++ rs := by
  obtain ⟨s1, a, b, e, hs, hroot, hk, F⟩ := splay_tree H (x := x) (by simp) (fuel := fuel) hf
  obtain ⟨-, -, -, -, hn, ho⟩ := H
  obtain ⟨h1, h2⟩ := split_unique hn hk.symm
  subst h1 h2
  simp only [List.length_append, List.length_cons] at hf
  have hn0 := hn
  rw [List.nodup_append, List.nodup_cons] at hn
  obtain ⟨hna, ⟨hxb, hnb⟩, hdis⟩ := hn
  have hxa : x ∉ a.keys := fun hm => hdis x hm x (by simp) rfl
  have hab : ∀ q ∈ a.keys, q ∉ b.keys := fun q hq hq' => hdis q hq q (by simp [hq']) rfl
  obtain ⟨aq, haq⟩ : ∃ q, a.ptr = some q := by
    cases a with
    | nil => exact absurd rfl hl
    | node l p r => exact ⟨p, rfl⟩
  obtain ⟨bq, hbq⟩ : ∃ q, b.ptr = some q := by
    cases b with
    | nil => exact absurd rfl hr
    | node l p r => exact ⟨p, rfl⟩
  obtain ⟨m, hfar, hm⟩ := last_right (fuel := fuel) hs.2.1.down haq (by omega)
  have hma : m ∈ a.keys := List.mem_of_getLast? hm
  have hakeys : a.keys.dropLast ++ [m] = a.keys := List.dropLast_append_getLast? m hm
  have hmd : m ∉ a.keys.dropLast := by
    intro hm'
    rw [← hakeys, List.nodup_append] at hna
    exact hna.2.2 m hm' m (by simp) rfl
  have hxm : x ≠ m := fun e => hxa (e ▸ hma)
  obtain ⟨lt, f, hmn, hlt, hcase⟩ := max_node hs.2.1 hna hm
  have hpre : pre fuel s1.heap x = .ok (some m) := by
    rw [pre, ld_ok hs.1, Out.ok_bind]
    simp only [Nd.ch, Bool.false_eq_true, if_false]
    rw [haq]
    dsimp only
    rw [hfar]; rfl
  have hltm : lt.ptr ≠ some m := fun e => hmd (hlt m (ptr_mem e))
  have hltx : lt.ptr ≠ some x := fun e => hxa (List.dropLast_subset _ (hlt x (ptr_mem e)))
  -- the final steps, from the heap in which the parent of `m` has been changed
  have fin : ∀ (g : Heap) (f' : Option Nat) (xa : Option Nat), f = f' →
      g m = some ⟨lt.ptr, none, f', rk m, vl m⟩ → g x = some ⟨xa, b.ptr, none, rk x, vl x⟩ →
      (∀ q, lt.ptr = some q → ∃ nq, g q = some nq) →
      ∃ h' : Heap, (do
        let nr ← ld g m
        let h ← (match nr.ch false with | none => .ok g | some q => setFa g q nr.fa)
        let h ← setFa h m none
        let h ← setCh h m false ((← ld h x).ch false)
        let h ← setCh h m true ((← ld h x).ch true)
        Out.ok (⟨h, some m⟩ : St)) = .ok ⟨h', some m⟩ ∧
        h' m = some ⟨xa, b.ptr, none, rk m, vl m⟩ ∧
        (∀ q nd, q ≠ m → g q = some nd → ∃ fq, h' q = some { nd with fa := fq }) := by
    intro g f' xa hff gm gx galt
    rw [ld_ok gm, Out.ok_bind]
    simp only [Nd.ch, Bool.false_eq_true, if_false]
    have step : ∃ g1 : Heap, (match lt.ptr with | none => Out.ok g | some q => setFa g q f') = .ok g1 ∧
        g1 m = some ⟨lt.ptr, none, f', rk m, vl m⟩ ∧ g1 x = some ⟨xa, b.ptr, none, rk x, vl x⟩ ∧
        (∀ q nd, g q = some nd → ∃ fq, g1 q = some { nd with fa := fq }) := by
      cases hlp : lt.ptr with
      | none => exact ⟨g, rfl, by rw [gm, hlp], gx, fun q nd h => ⟨nd.fa, h⟩⟩
      | some q =>
        obtain ⟨nq, hq⟩ := galt q hlp
        have hqm : m ≠ q := fun e => hltm (e ▸ hlp)
        have hqx : x ≠ q := fun e => hltx (e ▸ hlp)
        refine ⟨_, setFa_ok hq f', ?_, ?_, fun z nd hz => ?_⟩
        · rw [store_ne _ _ hqm, gm, hlp]
        · rw [store_ne _ _ hqx, gx]
        · by_cases ez : z = q
          · subst ez
            rw [hq] at hz; injection hz with hz; subst hz
            exact ⟨f', store_self _ _ _⟩
          · exact ⟨nd.fa, by rw [store_ne _ _ ez, hz]⟩
    obtain ⟨g1, e1, gm1, gx1, gall⟩ := step
    rw [e1, Out.ok_bind, setFa_ok gm1, Out.ok_bind, ld_ok ((store_ne _ _ hxm).trans gx1), Out.ok_bind,
      setCh_ok (store_self _ _ _), Out.ok_bind,
      ld_ok ((store_ne _ _ hxm).trans ((store_ne _ _ hxm).trans gx1)), Out.ok_bind,
      setCh_ok (store_self _ _ _), Out.ok_bind]
    refine ⟨_, rfl, ?_, fun q nd hq hnd => ?_⟩
    · rw [store_self]; rfl
    · obtain ⟨fq, h⟩ := gall q nd hnd
      exact ⟨fq, by rw [store_ne _ _ hq, store_ne _ _ hq, store_ne _ _ hq, h]⟩
  have keysEq : ∀ (t1 : T), t1.keys = a.keys.dropLast → (T.node t1 m b).keys = a.keys ++ b.keys := by
    intro t1 h
    rw [T.keys, h]
    conv_rhs => rw [← hakeys]
    simp
  rw [erase, e, Out.ok_bind, ld_ok hs.1, Out.ok_bind]
  simp only [haq, hbq]
  rw [hpre, Out.ok_bind]
  simp only [nonNull, Out.ok_bind]
  rw [ld_ok hmn, Out.ok_bind]
  simp only [show (⟨lt.ptr, none, f, rk m, vl m⟩ : Nd).ch false = lt.ptr from rfl]
  rcases hcase with ⟨hf1, ht⟩ | ⟨w, nw, hfw, hwm, hw, hw0, hdp, hall⟩
  · -- `m` is the left child of `x`
    subst hf1
    subst ht
    dsimp only
    rw [Out.ok_bind, ld_ok hs.1, Out.ok_bind, if_pos (show (Nd.ch _ false) = some m from rfl), setCh_ok hs.1, Out.ok_bind]
    have gm : store s1.heap x ((⟨(T.node lt m .nil).ptr, b.ptr, none, rk x, vl x⟩ : Nd).setCh false lt.ptr) m =
        some ⟨lt.ptr, none, some x, rk m, vl m⟩ := by rw [store_ne _ _ hxm.symm, hmn]
    have galt : ∀ q, lt.ptr = some q → ∃ nq,
        store s1.heap x ((⟨(T.node lt m .nil).ptr, b.ptr, none, rk x, vl x⟩ : Nd).setCh false lt.ptr) q = some nq := by
      intro q hq
      obtain ⟨nq, h⟩ := hs.2.1.2.1.alive q (ptr_mem hq)
      exact ⟨nq, by rw [store_ne _ _ (show q ≠ x from fun e => hltx (e ▸ hq)), h]⟩
    obtain ⟨h', e', hm', hoth⟩ := fin _ (some x) lt.ptr rfl gm (by rw [store_self]; rfl) galt
    refine ⟨_, .node lt m b, e', ⟨⟨none, hm'⟩, ?_, ?_⟩, rfl, keysEq lt (by simp [T.keys])⟩
    · refine HoldsDown.congr (fun q hq nd hnd => hoth q nd ?_ ?_) hs.2.1.2.1.down
      · rintro rfl; exact hmd (hlt q hq)
      · rw [store_ne _ _ (by rintro rfl; exact hxa (by simp [T.keys, hq])), hnd]
    · refine HoldsDown.congr (fun q hq nd hnd => hoth q nd ?_ ?_) hs.2.2.down
      · rintro rfl; exact hab q hma hq
      · rw [store_ne _ _ (by rintro rfl; exact hxb hq), hnd]
  · subst hfw
    dsimp only
    have hwa : w ∈ a.keys := List.dropLast_subset _ hwm
    have hwm' : w ≠ m := by rintro rfl; exact hmd hwm
    have hwx : w ≠ x := by rintro rfl; exact hxa hwa
    rw [Out.ok_bind, ld_ok hw, Out.ok_bind, if_neg (show ¬ (nw.ch false = some m) from hw0), setCh_ok hw, Out.ok_bind]
    have galt : ∀ q, lt.ptr = some q → ∃ nq, store s1.heap w (nw.setCh true lt.ptr) q = some nq := by
      intro q hq
      obtain ⟨nq, h⟩ := hs.2.1.alive q (List.dropLast_subset _ (hlt q (ptr_mem hq)))
      by_cases ew : q = w
      · subst ew; exact ⟨_, store_self _ _ _⟩
      · exact ⟨nq, by rw [store_ne _ _ ew, h]⟩
    obtain ⟨h', e', hm', hoth⟩ := fin _ (some w) a.ptr rfl (by rw [store_ne _ _ hwm'.symm, hmn])
      (by rw [store_ne _ _ hwx.symm, hs.1]) galt
    refine ⟨_, .node a.dropMax m b, e', ⟨⟨none, by rw [hdp]; exact hm'⟩, ?_, ?_⟩, rfl, keysEq _ (dropMax_keys a)⟩
    · refine hall h' ?_ (fun q hq hqw nd hnd => hoth q nd (by rintro rfl; exact hmd hq) (by rw [store_ne _ _ hqw, hnd]))
      exact hoth w _ hwm' (store_self _ _ _)
    · refine HoldsDown.congr (fun q hq nd hnd => hoth q nd ?_ ?_) hs.2.2.down
      · rintro rfl; exact hab q hma hq
      · rw [store_ne _ _ (by rintro rfl; exact hab q hwa hq), hnd]

/-! ### histories -/

theorem insertAll_tree {fuel : Nat} : ∀ {xs ks : List Nat} {s : St}, IsTree rk vl s ks →
    (∀ p ∈ xs, s.heap p = some (mkNode (rk p) (vl p))) → xs.Nodup → (∀ p ∈ xs, p ∉ ks) →
    ks.length + xs.length + 1 < fuel →
    ∃ s' ks', insertAll fuel s xs = .ok s' ∧ IsTree rk vl s' ks' ∧ ks'.Perm (xs ++ ks) ∧
      (∀ p, xs.getLast? = some p → s'.root = some p) := by
  intro xs
  induction xs with
  | nil => intro ks s H _ _ _ _; exact ⟨s, ks, rfl, H, List.Perm.refl _, by simp⟩
  | cons x xs ih =>
    intro ks s H hx hn hnew hf
    simp only [List.length_cons] at hf
    obtain ⟨s1, ls, rs, e, hr, hks, h1, h2, H1, F⟩ := insert_tree (fuel := fuel) H (hx x (by simp)) (hnew x (by simp))
      (by omega)
    rw [List.nodup_cons] at hn
    have hp1 : (ls ++ x :: rs).Perm (x :: ks) := by rw [hks]; exact List.perm_middle
    have hlen : (ls ++ x :: rs).length = ks.length + 1 := by rw [hp1.length_eq]; rfl
    obtain ⟨s2, ks2, e2, H2, hp, hl⟩ := ih H1 (fun p hp => by
        rw [F p (by rintro rfl; exact hn.1 hp) (hnew p (by simp [hp]))]; exact hx p (by simp [hp])) hn.2
      (fun p hp hm => by
        have := (hp1.mem_iff).1 hm
        rcases List.mem_cons.1 this with e | e
        · subst e; exact hn.1 hp
        · exact hnew p (by simp [hp]) e) (by omega)
    refine ⟨s2, ks2, ?_, H2, ?_, fun p hp => ?_⟩
    · rw [insertAll, e, Out.ok_bind]; exact e2
    · refine hp.trans ((hp1.append_left xs).trans ?_)
      exact List.perm_middle
    · cases xs with
      | nil =>
        simp at hp; subst hp
        simp only [insertAll] at e2
        injection e2 with e2
        rw [← e2, hr]
      | cons y ys => exact hl p (by simpa using hp)

theorem insertAll_frame {fuel : Nat} : ∀ {xs ks : List Nat} {s : St}, IsTree rk vl s ks →
    (∀ p ∈ xs, s.heap p = some (mkNode (rk p) (vl p))) → xs.Nodup → (∀ p ∈ xs, p ∉ ks) →
    ks.length + xs.length + 1 < fuel →
    ∃ s' ks', insertAll fuel s xs = .ok s' ∧ IsTree rk vl s' ks' ∧ ks'.Perm (xs ++ ks) ∧
      (∀ q, q ∉ xs → q ∉ ks → s'.heap q = s.heap q) := by
  intro xs
  induction xs with
  | nil => intro ks s H _ _ _ _; exact ⟨s, ks, rfl, H, List.Perm.refl _, fun _ _ _ => rfl⟩
  | cons x xs ih =>
    intro ks s H hx hn hnew hf
    simp only [List.length_cons] at hf
    obtain ⟨s1, ls, rs, e, hr, hks, h1, h2, H1, F⟩ := insert_tree (fuel := fuel) H (hx x (by simp)) (hnew x (by simp))
      (by omega)
    rw [List.nodup_cons] at hn
    have hp1 : (ls ++ x :: rs).Perm (x :: ks) := by rw [hks]; exact List.perm_middle
    have hlen : (ls ++ x :: rs).length = ks.length + 1 := by rw [hp1.length_eq]; rfl
    obtain ⟨s2, ks2, e2, H2, hp, hl⟩ := ih H1 (fun p hp => by
        rw [F p (by rintro rfl; exact hn.1 hp) (hnew p (by simp [hp]))]; exact hx p (by simp [hp])) hn.2
      (fun p hp hm => by
        have := (hp1.mem_iff).1 hm
        rcases List.mem_cons.1 this with e | e
        · subst e; exact hn.1 hp
        · exact hnew p (by simp [hp]) e) (by omega)
    refine ⟨s2, ks2, ?_, H2, ?_, fun q hq hqk => ?_⟩
    · rw [insertAll, e, Out.ok_bind]; exact e2
    · exact hp.trans ((hp1.append_left xs).trans List.perm_middle)
    · simp only [List.mem_cons, not_or] at hq
      rw [hl q hq.2 (fun hm => by have := hp1.mem_iff.1 hm; simp at this; tauto), F q hq.1 hqk]

theorem insertAll_concat (fuel x : Nat) : ∀ (xs : List Nat) (s : St),
    insertAll fuel s (xs ++ [x]) = (do insert fuel (← insertAll fuel s xs) x) := by
  intro xs
  induction xs with
  | nil => intro s; show (do insertAll fuel (← insert fuel s x) []) = _; cases h : insert fuel s x <;> simp only [insertAll] <;> exact h.symm
  | cons y ys ih =>
    intro s
    simp only [List.cons_append, insertAll]
    cases insert fuel s y with
    | ok s1 => exact ih s1
    | _ => rfl

theorem isTree_empty (h : Heap) : IsTree rk vl ⟨h, none⟩ [] := ⟨.nil, trivial, rfl, rfl, by simp, by simp [Ordered]⟩

theorem find_tree {s : St} {ks : List Nat} {fuel : Nat} (H : IsTree rk vl s ks) (hf : ks.length < fuel) (v : Int) :
    ∃ r, find fuel s v = .ok r ∧ (∀ p, r = some p → p ∈ ks ∧ rk p = v) ∧ (r = none → ∀ p ∈ ks, rk p ≠ v) := by
  obtain ⟨t, hs, hr, hks, hn, ho⟩ := H
  subst hks
  unfold find
  rw [hr]
  exact search_down hs.down ho hf

theorem place_eq {x : Nat} {ls rs : List Nat} (h1 : ∀ p ∈ ls, rk p ≤ rk x) (h2 : ∀ p ∈ rs, rk x < rk p) :
    place rk x (ls ++ rs) = ls ++ x :: rs := by
  unfold place
  have a1 : ∀ p ∈ ls, (decide (rk p ≤ rk x)) = true := fun p hp => decide_eq_true (h1 p hp)
  have a2 : rs.takeWhile (fun p => decide (rk p ≤ rk x)) = [] := by
    cases rs with
    | nil => rfl
    | cons r rs => rw [List.takeWhile_cons_of_neg]; have := h2 r (by simp); simpa using this
  have a3 : rs.dropWhile (fun p => decide (rk p ≤ rk x)) = rs := by
    cases rs with
    | nil => rfl
    | cons r rs => rw [List.dropWhile_cons_of_neg]; have := h2 r (by simp); simpa using this
  rw [List.takeWhile_append_of_pos a1, List.dropWhile_append_of_pos a1, a2, a3]
  simp

theorem run_tree {fuel : Nat} : ∀ {cs : List Cmd} {ks ks' : List Nat} {s : St}, IsTree rk vl s ks →
    (∀ p ∈ inserted cs, s.heap p = some (mkNode (rk p) (vl p))) → (inserted cs).Nodup → (∀ p ∈ inserted cs, p ∉ ks) →
    ks.length + cs.length + 1 < fuel → expect rk ks cs = some ks' →
    ∃ s', run fuel s cs = .ok s' ∧ IsTree rk vl s' ks' ∧ ks'.length ≤ ks.length + cs.length := by
  intro cs
  induction cs with
  | nil => intro ks ks' s H _ _ _ _ he; simp [expect] at he; subst he; exact ⟨s, rfl, H, by simp⟩
  | cons c cs ih =>
    intro ks ks' s H hx hn hnew hf he
    simp only [List.length_cons] at hf
    cases c with
    | insert x =>
      simp only [inserted, List.nodup_cons, List.mem_cons] at hn hx hnew
      simp only [expect] at he
      obtain ⟨s1, ls, rs, e, hr, hks, h1, h2, H1, F⟩ := insert_tree (fuel := fuel) H (hx x (.inl rfl))
        (hnew x (.inl rfl)) (by omega)
      rw [hks, place_eq h1 h2] at he
      have hlen : (ls ++ x :: rs).length = ks.length + 1 := by rw [hks]; simp; omega
      obtain ⟨s2, e2, H2, hl⟩ := ih H1 (fun p hp => by
          rw [F p (by rintro rfl; exact hn.1 hp) (hnew p (.inr hp))]; exact hx p (.inr hp)) hn.2
        (fun p hp hm => by
          simp only [List.mem_append, List.mem_cons] at hm
          have := hnew p (.inr hp)
          rw [hks, List.mem_append] at this
          rcases hm with hm | hm | hm
          · exact this (.inl hm)
          · subst hm; exact hn.1 hp
          · exact this (.inr hm)) (by omega) he
      exact ⟨s2, by rw [run, e, Out.ok_bind]; exact e2, H2, by simp only [List.length_cons]; omega⟩
    | erase x =>
      simp only [inserted] at hn hx hnew
      cases ks with
      | nil => simp [expect] at he
      | cons k ks =>
        simp only [expect] at he
        by_cases hk : k = x
        · subst hk
          rw [if_pos rfl] at he
          simp only [List.length_cons] at hf
          obtain ⟨s1, e, H1, F⟩ := erase_first (fuel := fuel) H (by omega)
          obtain ⟨s2, e2, H2, hl⟩ := ih H1 (fun p hp => by rw [F p (hnew p hp)]; exact hx p hp) hn
            (fun p hp hm => hnew p hp (by simp [hm])) (by omega) he
          exact ⟨s2, by rw [run, e, Out.ok_bind]; exact e2, H2, by simp only [List.length_cons]; omega⟩
        · rw [if_neg hk] at he; cases he

end

end BST
