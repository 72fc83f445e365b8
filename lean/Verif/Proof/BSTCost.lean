import Verif.Proof.BST
import Verif.Proof.Fuel
import Mathlib.Data.Nat.Log

/-!
# The number of loop iterations of `BST`

The analysis of Sleator and Tarjan with whole-numbered ranks: the potential of a tree is the sum of ⌊log2 of the size⌋ of
all its subtrees.
-/

namespace BST
open Cpp Spec

/-! ### sizes and potentials -/

/-- number of nodes -/
def _root_.BST.Spec.T.sz : T → Nat
  | .nil => 0
  | .node l _ r => l.sz + r.sz + 1

/-- the potential -/
def pot : T → Nat
  | .nil => 0
  | .node l p r => Nat.log 2 (T.node l p r).sz + pot l + pot r

/-- size of the whole tree, `n` the size of the subtree at hand -/
def total : List Fr → Nat → Nat
  | [], n => n
  | f :: k, n => total k (n + f.s.sz + 1)

/-- potential of the surroundings of a subtree of size `n` -/
def potCtx : List Fr → Nat → Nat
  | [], _ => 0
  | f :: k, n => Nat.log 2 (n + f.s.sz + 1) + pot f.s + potCtx k (n + f.s.sz + 1)

theorem sz_keys : ∀ t : T, t.sz = t.keys.length
  | .nil => rfl
  | .node l p r => by simp [T.sz, T.keys, sz_keys l, sz_keys r]; omega

theorem log_mono {a b : Nat} (h : a ≤ b) : Nat.log 2 a ≤ Nat.log 2 b := Nat.log_mono_right h

/-- two parts of a whole do not both have its rank -/
theorem log_halves {a b c : Nat} (ha : 0 < a) (hb : 0 < b) (h : a + b ≤ c) : Nat.log 2 a < Nat.log 2 c ∨ Nat.log 2 b < Nat.log 2 c := by
  by_contra hc
  push Not at hc
  have h1 : 2 ^ Nat.log 2 c ≤ a := (Nat.pow_le_pow_right (by omega) hc.1).trans (Nat.pow_log_le_self 2 (by omega))
  have h2 : 2 ^ Nat.log 2 c ≤ b := (Nat.pow_le_pow_right (by omega) hc.2).trans (Nat.pow_log_le_self 2 (by omega))
  have h3 := Nat.lt_pow_succ_log_self (b := 2) (by omega) c
  rw [Nat.pow_succ] at h3
  omega

/-- one more node -/
theorem potCtx_succ : ∀ (k : List Fr) (n : Nat),
    potCtx k (n + 1) + Nat.log 2 (n + 1) ≤ potCtx k n + Nat.log 2 (total k (n + 1))
  | [], n => by simp [potCtx, total]
  | f :: k, n => by
    have ih := potCtx_succ k (n + f.s.sz + 1)
    have h1 : Nat.log 2 (n + 1) ≤ Nat.log 2 (n + f.s.sz + 1) := log_mono (by omega)
    simp only [potCtx, total]
    rw [show n + 1 + f.s.sz + 1 = n + f.s.sz + 1 + 1 by omega]
    omega

theorem total_ge : ∀ (k : List Fr) (n : Nat), n ≤ total k n
  | [], n => le_rfl
  | f :: k, n => by
    have := total_ge k (n + f.s.sz + 1)
    simp only [total]
    omega

/-! ### splaying -/

/-- the tree after the subtree `node a x b` was brought to the root -/
def climb : List Fr → T → Nat → T → T
  | [], a, x, b => .node a x b
  | [⟨false, y, s⟩], a, x, b => .node a x (.node b y s)
  | [⟨true, y, s⟩], a, x, b => .node (.node s y a) x b
  | ⟨false, y, s⟩ :: ⟨false, z, u⟩ :: k, a, x, b => climb k a x (.node b y (.node s z u))
  | ⟨false, y, s⟩ :: ⟨true, z, u⟩ :: k, a, x, b => climb k (.node u z a) x (.node b y s)
  | ⟨true, y, s⟩ :: ⟨false, z, u⟩ :: k, a, x, b => climb k (.node s y a) x (.node b z u)
  | ⟨true, y, s⟩ :: ⟨true, z, u⟩ :: k, a, x, b => climb k (.node (.node u z s) y a) x b

theorem climb_keys : ∀ (n : Nat) (k : List Fr), k.length ≤ n → ∀ (a b : T) (x : Nat),
    (climb k a x b).keys = leftOf k ++ ((T.node a x b).keys ++ rightOf k) := by
  intro n
  induction n using Nat.strong_induction_on with
  | _ n ih =>
    intro k hk a b x
    match k, hk with
    | [], _ => simp [climb, leftOf, rightOf]
    | [⟨false, y, s⟩], _ => simp [climb, leftOf, rightOf, T.keys]
    | [⟨true, y, s⟩], _ => simp [climb, leftOf, rightOf, T.keys]
    | ⟨d, y, s⟩ :: ⟨d', z, u⟩ :: k, hk =>
      simp only [List.length_cons] at hk
      cases d <;> cases d' <;> simp [climb, ih k.length (by omega) k le_rfl, leftOf, rightOf, T.keys]

theorem climb_root : ∀ (n : Nat) (k : List Fr), k.length ≤ n → ∀ (a b : T) (x : Nat),
    ∃ a' b', climb k a x b = .node a' x b' := by
  intro n
  induction n using Nat.strong_induction_on with
  | _ n ih =>
    intro k hk a b x
    match k, hk with
    | [], _ => exact ⟨_, _, rfl⟩
    | [⟨false, y, s⟩], _ => exact ⟨_, _, rfl⟩
    | [⟨true, y, s⟩], _ => exact ⟨_, _, rfl⟩
    | ⟨d, y, s⟩ :: ⟨d', z, u⟩ :: k, hk =>
      simp only [List.length_cons] at hk
      cases d <;> cases d' <;> exact ih k.length (by omega) k le_rfl _ _ _

/-- The iterations of `splay` and the new potential. -/
theorem climb_pot : ∀ (n : Nat) (k : List Fr), k.length ≤ n → ∀ (a b : T) (x : Nat),
    (k.length + 1) / 2 + pot (climb k a x b) + 3 * Nat.log 2 (T.node a x b).sz ≤
      pot (.node a x b) + potCtx k (T.node a x b).sz + 3 * Nat.log 2 (total k (T.node a x b).sz) + 1 := by
  intro n
  induction n using Nat.strong_induction_on with
  | _ n ih =>
    intro k hk a b x
    match k, hk with
    | [], _ => simp [climb, potCtx, total]
    | [⟨d, y, s⟩], _ =>
      have h1 : Nat.log 2 (a.sz + b.sz + 1) ≤ Nat.log 2 (a.sz + b.sz + 1 + s.sz + 1) := log_mono (by omega)
      cases d
      · have h2 : Nat.log 2 (b.sz + s.sz + 1) ≤ Nat.log 2 (a.sz + b.sz + 1 + s.sz + 1) := log_mono (by omega)
        have e : a.sz + (b.sz + s.sz + 1) + 1 = a.sz + b.sz + 1 + s.sz + 1 := by omega
        simp only [climb, pot, potCtx, total, T.sz, List.length_cons, List.length_nil, e]
        omega
      · have h2 : Nat.log 2 (s.sz + a.sz + 1) ≤ Nat.log 2 (a.sz + b.sz + 1 + s.sz + 1) := log_mono (by omega)
        have e : s.sz + a.sz + 1 + b.sz + 1 = a.sz + b.sz + 1 + s.sz + 1 := by omega
        simp only [climb, pot, potCtx, total, T.sz, List.length_cons, List.length_nil, e]
        omega
    | ⟨d, y, s⟩ :: ⟨d', z, u⟩ :: k, hk =>
      simp only [List.length_cons] at hk
      have hn : k.length < n := by omega
      -- sizes: the subtree at hand, its parent, its grandparent
      have hxy : Nat.log 2 (a.sz + b.sz + 1) ≤ Nat.log 2 (a.sz + b.sz + 1 + s.sz + 1) := log_mono (by omega)
      have hyz : Nat.log 2 (a.sz + b.sz + 1 + s.sz + 1) ≤ Nat.log 2 (a.sz + b.sz + 1 + s.sz + 1 + u.sz + 1) := log_mono (by omega)
      have hlen : (k.length + 1 + 1 + 1) / 2 = (k.length + 1) / 2 + 1 := by omega
      cases d <;> cases d'
      · have := ih k.length hn k le_rfl a (.node b y (.node s z u)) x
        have e : a.sz + (b.sz + (s.sz + u.sz + 1) + 1) + 1 = a.sz + b.sz + 1 + s.sz + 1 + u.sz + 1 := by omega
        simp only [climb, pot, potCtx, total, T.sz, List.length_cons, hlen, e] at this ⊢
        have g1 : Nat.log 2 (b.sz + (s.sz + u.sz + 1) + 1) ≤ Nat.log 2 (a.sz + b.sz + 1 + s.sz + 1 + u.sz + 1) := log_mono (by omega)
        have g2 : Nat.log 2 (s.sz + u.sz + 1) ≤ Nat.log 2 (a.sz + b.sz + 1 + s.sz + 1 + u.sz + 1) := log_mono (by omega)
        have g3 := log_halves (a := a.sz + b.sz + 1) (b := s.sz + u.sz + 1) (c := a.sz + b.sz + 1 + s.sz + 1 + u.sz + 1)
          (by omega) (by omega) (by omega)
        omega
      · have := ih k.length hn k le_rfl (.node u z a) (.node b y s) x
        have e : u.sz + a.sz + 1 + (b.sz + s.sz + 1) + 1 = a.sz + b.sz + 1 + s.sz + 1 + u.sz + 1 := by omega
        simp only [climb, pot, potCtx, total, T.sz, List.length_cons, hlen, e] at this ⊢
        have g1 : Nat.log 2 (u.sz + a.sz + 1) ≤ Nat.log 2 (a.sz + b.sz + 1 + s.sz + 1 + u.sz + 1) := log_mono (by omega)
        have g2 : Nat.log 2 (b.sz + s.sz + 1) ≤ Nat.log 2 (a.sz + b.sz + 1 + s.sz + 1 + u.sz + 1) := log_mono (by omega)
        have g3 := log_halves (a := u.sz + a.sz + 1) (b := b.sz + s.sz + 1) (c := a.sz + b.sz + 1 + s.sz + 1 + u.sz + 1)
          (by omega) (by omega) (by omega)
        omega
      · have := ih k.length hn k le_rfl (.node s y a) (.node b z u) x
        have e : s.sz + a.sz + 1 + (b.sz + u.sz + 1) + 1 = a.sz + b.sz + 1 + s.sz + 1 + u.sz + 1 := by omega
        simp only [climb, pot, potCtx, total, T.sz, List.length_cons, hlen, e] at this ⊢
        have g1 : Nat.log 2 (s.sz + a.sz + 1) ≤ Nat.log 2 (a.sz + b.sz + 1 + s.sz + 1 + u.sz + 1) := log_mono (by omega)
        have g2 : Nat.log 2 (b.sz + u.sz + 1) ≤ Nat.log 2 (a.sz + b.sz + 1 + s.sz + 1 + u.sz + 1) := log_mono (by omega)
        have g3 := log_halves (a := s.sz + a.sz + 1) (b := b.sz + u.sz + 1) (c := a.sz + b.sz + 1 + s.sz + 1 + u.sz + 1)
          (by omega) (by omega) (by omega)
        omega
      · have := ih k.length hn k le_rfl (.node (.node u z s) y a) b x
        have e : u.sz + s.sz + 1 + a.sz + 1 + b.sz + 1 = a.sz + b.sz + 1 + s.sz + 1 + u.sz + 1 := by omega
        simp only [climb, pot, potCtx, total, T.sz, List.length_cons, hlen, e] at this ⊢
        have g1 : Nat.log 2 (u.sz + s.sz + 1 + a.sz + 1) ≤ Nat.log 2 (a.sz + b.sz + 1 + s.sz + 1 + u.sz + 1) := log_mono (by omega)
        have g2 : Nat.log 2 (u.sz + s.sz + 1) ≤ Nat.log 2 (a.sz + b.sz + 1 + s.sz + 1 + u.sz + 1) := log_mono (by omega)
        have g3 := log_halves (a := a.sz + b.sz + 1) (b := u.sz + s.sz + 1) (c := a.sz + b.sz + 1 + s.sz + 1 + u.sz + 1)
          (by omega) (by omega) (by omega)
        omega

section
variable {rk vl : Nat → Int}

/-- `splay` in half as many iterations as there are frames -/
theorem Zip.splayC : ∀ (n : Nat) {fuel : Nat} {s : St} {k : List Fr} {a b : T} {x : Nat}, k.length ≤ n → (k.length + 1) / 2 < fuel →
    Zip rk vl s k (.node a x b) →
    ∃ s', BST.splay fuel s x = .ok s' ∧ Zip rk vl s' [] (climb k a x b) ∧
      ∀ q, q ∉ leftOf k ++ ((T.node a x b).keys ++ rightOf k) → s'.heap q = s.heap q := by
  intro n
  induction n using Nat.strong_induction_on with
  | _ n ih =>
    intro fuel s k a b x hk hf H
    obtain ⟨fuel, rfl⟩ : ∃ m, fuel = m + 1 := ⟨fuel - 1, by omega⟩
    rw [BST.splay, ld_ok H.sub.1, Out.ok_bind]
    cases k with
    | nil => exact ⟨s, rfl, H, fun _ _ => rfl⟩
    | cons f k =>
      obtain ⟨d, y, sib⟩ := f
      simp only [upPtr]
      obtain ⟨ny, hy, hyf, hy0, hy1⟩ := H.side
      rw [ld_ok hy, Out.ok_bind]
      cases k with
      | nil =>
        rw [hyf]
        simp only [upPtr]
        obtain ⟨s1, e1, H1, F1⟩ := H.rotate
        have hstep : (if ny.ch false = some x then BST.rotate s x true else BST.rotate s x false) = .ok s1 := by
          cases d
          · rw [if_pos (hy0.2 rfl)]; exact e1
          · rw [if_neg (fun e => by have := hy0.1 e; cases this)]; exact e1
        rw [hstep, Out.ok_bind]
        have hlen : 0 < n := by simp at hk; omega
        simp only [List.length_cons, List.length_nil] at hf
        cases d
        · obtain ⟨s', e, Z, F⟩ := ih 0 hlen (fuel := fuel) (k := []) (Nat.zero_le 0) (by simp; omega) H1
          refine ⟨s', e, Z, fun q hq => ?_⟩
          rw [F q, F1 q]
          all_goals simpa [leftOf, rightOf, T.keys] using hq
        · obtain ⟨s', e, Z, F⟩ := ih 0 hlen (fuel := fuel) (k := []) (Nat.zero_le 0) (by simp; omega) H1
          refine ⟨s', e, Z, fun q hq => ?_⟩
          rw [F q, F1 q]
          all_goals simpa [leftOf, rightOf, T.keys] using hq
      | cons g k =>
        obtain ⟨d2, z, sib2⟩ := g
        rw [hyf]
        simp only [upPtr]
        simp only [List.length_cons] at hk hf
        have hlt : k.length < n := by omega
        cases d with
        | false =>
          have Hy := H.up
          simp only [Bool.false_eq_true, if_false] at Hy
          obtain ⟨nz, hz, -, hz0, hz1⟩ := Hy.side
          rw [ld_ok hz, Out.ok_bind]
          cases d2 with
          | false =>
            rw [if_pos (hz0.2 rfl), if_pos (hy0.2 rfl)]
            obtain ⟨s1, e1, H1, F1⟩ := Hy.rotate
            simp only [Bool.not_false, Bool.false_eq_true, if_false] at e1 H1
            rw [e1, Out.ok_bind]
            obtain ⟨s2, e2, H2, F2⟩ := H1.left.rotate
            simp only [Bool.not_false, Bool.false_eq_true, if_false] at e2 H2
            rw [e2, Out.ok_bind]
            obtain ⟨s', e, Z, F⟩ := ih _ hlt (fuel := fuel) le_rfl (by omega) H2
            refine ⟨s', e, Z, fun q hq => ?_⟩
            rw [F q, F2 q, F1 q]
            all_goals simpa [leftOf, rightOf, T.keys] using hq
          | true =>
            rw [if_neg (fun e => by have := hz0.1 e; cases this), if_neg (fun e => by have := hy1.1 e; cases this)]
            obtain ⟨s1, e1, H1, F1⟩ := H.rotate
            simp only [Bool.not_false, Bool.false_eq_true, if_false] at e1 H1
            rw [e1, Out.ok_bind]
            obtain ⟨s2, e2, H2, F2⟩ := H1.rotate
            simp only [Bool.not_true, if_true] at e2 H2
            rw [e2, Out.ok_bind]
            obtain ⟨s', e, Z, F⟩ := ih _ hlt (fuel := fuel) le_rfl (by omega) H2
            refine ⟨s', e, Z, fun q hq => ?_⟩
            rw [F q, F2 q, F1 q]
            all_goals simpa [leftOf, rightOf, T.keys] using hq
        | true =>
          have Hy := H.up
          simp only [if_true] at Hy
          obtain ⟨nz, hz, -, hz0, hz1⟩ := Hy.side
          rw [ld_ok hz, Out.ok_bind]
          cases d2 with
          | false =>
            rw [if_pos (hz0.2 rfl), if_neg (fun e => by have := hy0.1 e; cases this)]
            obtain ⟨s1, e1, H1, F1⟩ := H.rotate
            simp only [Bool.not_true, if_true] at e1 H1
            rw [e1, Out.ok_bind]
            obtain ⟨s2, e2, H2, F2⟩ := H1.rotate
            simp only [Bool.not_false, Bool.false_eq_true, if_false] at e2 H2
            rw [e2, Out.ok_bind]
            obtain ⟨s', e, Z, F⟩ := ih _ hlt (fuel := fuel) le_rfl (by omega) H2
            refine ⟨s', e, Z, fun q hq => ?_⟩
            rw [F q, F2 q, F1 q]
            all_goals simpa [leftOf, rightOf, T.keys] using hq
          | true =>
            rw [if_neg (fun e => by have := hz0.1 e; cases this), if_pos (hy1.2 rfl)]
            obtain ⟨s1, e1, H1, F1⟩ := Hy.rotate
            simp only [Bool.not_true, if_true] at e1 H1
            rw [e1, Out.ok_bind]
            obtain ⟨s2, e2, H2, F2⟩ := H1.right.rotate
            simp only [Bool.not_true, if_true] at e2 H2
            rw [e2, Out.ok_bind]
            obtain ⟨s', e, Z, F⟩ := ih _ hlt (fuel := fuel) le_rfl (by omega) H2
            refine ⟨s', e, Z, fun q hq => ?_⟩
            rw [F q, F2 q, F1 q]
            all_goals simpa [leftOf, rightOf, T.keys] using hq

/-! ### insertion -/

/-- the descent of `insert`: as many iterations as there are frames -/
theorem Zip.descendC {s : St} {x : Nat} {nx : Nd} (hx : s.heap x = some nx) : ∀ {t : T} {k : List Fr} {q : Nat},
    t.ptr = some q → Zip rk vl s k t → Ordered rk t.keys → (∀ p ∈ leftOf k, rk p ≤ nx.rank) →
    (∀ p ∈ rightOf k, nx.rank < rk p) →
    ∃ d y sib k', (∀ fuel, k'.length < fuel + k.length → BST.descend s.heap x fuel q = .ok y) ∧
      Zip rk vl s (⟨d, y, sib⟩ :: k') .nil ∧
      d = decide (nx.rank ≥ rk y) ∧
      leftOf (⟨d, y, sib⟩ :: k') ++ rightOf (⟨d, y, sib⟩ :: k') = leftOf k ++ (t.keys ++ rightOf k) ∧
      (∀ p ∈ leftOf (⟨d, y, sib⟩ :: k'), rk p ≤ nx.rank) ∧ (∀ p ∈ rightOf (⟨d, y, sib⟩ :: k'), nx.rank < rk p) ∧
      potCtx (⟨d, y, sib⟩ :: k') 0 = pot t + potCtx k t.sz ∧ total (⟨d, y, sib⟩ :: k') 0 = total k t.sz ∧ k.length ≤ k'.length := by
  intro t
  induction t with
  | nil => intro k q h; cases h
  | node l p r ihl ihr =>
    intro k q hq H ho hL hR
    injection hq with hq
    subst hq
    simp only [T.keys, Ordered, List.pairwise_append, List.pairwise_cons] at ho
    have run : ∀ fuel, BST.descend s.heap x (fuel + 1) p =
        (match (if nx.rank < rk p then l.ptr else r.ptr) with | none => .ok p | some q => BST.descend s.heap x fuel q) := by
      intro fuel
      rw [BST.descend, ld_ok hx, Out.ok_bind, ld_ok H.sub.1, Out.ok_bind]
      rfl
    by_cases hc : nx.rank < rk p
    · have hL' : ∀ q ∈ leftOf (⟨false, p, r⟩ :: k), rk q ≤ nx.rank := by simpa [leftOf] using hL
      have hR' : ∀ q ∈ rightOf (⟨false, p, r⟩ :: k), nx.rank < rk q := by
        intro q hq
        simp [rightOf] at hq
        rcases hq with hq | hq | hq
        · subst hq; exact hc
        · exact lt_of_lt_of_le hc (ho.2.1.1 q hq)
        · exact hR q hq
      have key : leftOf (⟨false, p, r⟩ :: k) ++ (l.keys ++ rightOf (⟨false, p, r⟩ :: k)) =
          leftOf k ++ ((T.node l p r).keys ++ rightOf k) := by simp [leftOf, rightOf, T.keys]
      have hpot : pot l + potCtx (⟨false, p, r⟩ :: k) l.sz = pot (.node l p r) + potCtx k (T.node l p r).sz := by
        simp only [pot, potCtx, T.sz]; omega
      have htot : total (⟨false, p, r⟩ :: k) l.sz = total k (T.node l p r).sz := rfl
      cases l with
      | nil =>
        refine ⟨false, p, r, k, fun fuel hf => ?_, H.left, ?_, ?_, hL', hR', ?_, htot, le_rfl⟩
        · obtain ⟨fuel, rfl⟩ : ∃ m, fuel = m + 1 := ⟨fuel - 1, by omega⟩
          rw [run, if_pos hc]; rfl
        · symm; rw [decide_eq_false_iff_not]; omega
        · rw [← key]; simp [T.keys]
        · rw [← hpot]; simp [pot, T.sz]
      | node l1 lp l2 =>
        obtain ⟨d, y, sib, k', e, Z, hd, hk, h1, h2, h3, h4, h5⟩ := ihl rfl H.left ho.1 hL' hR'
        simp only [List.length_cons] at h5
        refine ⟨d, y, sib, k', fun fuel hf => ?_, Z, hd, hk.trans key, h1, h2, h3.trans hpot, h4.trans htot, by omega⟩
        obtain ⟨fuel, rfl⟩ : ∃ m, fuel = m + 1 := ⟨fuel - 1, by omega⟩
        rw [run, if_pos hc]
        exact e fuel (by simp only [List.length_cons]; omega)
    · have hR' : ∀ q ∈ rightOf (⟨true, p, l⟩ :: k), nx.rank < rk q := by simpa [rightOf] using hR
      have hL' : ∀ q ∈ leftOf (⟨true, p, l⟩ :: k), rk q ≤ nx.rank := by
        intro q hq
        simp [leftOf] at hq
        rcases hq with hq | hq | hq
        · exact hL q hq
        · exact le_trans (ho.2.2 q hq p (by simp)) (by omega)
        · subst hq; omega
      have key : leftOf (⟨true, p, l⟩ :: k) ++ (r.keys ++ rightOf (⟨true, p, l⟩ :: k)) =
          leftOf k ++ ((T.node l p r).keys ++ rightOf k) := by simp [leftOf, rightOf, T.keys]
      have hsz : r.sz + l.sz + 1 = l.sz + r.sz + 1 := by omega
      have hpot : pot r + potCtx (⟨true, p, l⟩ :: k) r.sz = pot (.node l p r) + potCtx k (T.node l p r).sz := by
        simp only [pot, potCtx, T.sz, hsz]; omega
      have htot : total (⟨true, p, l⟩ :: k) r.sz = total k (T.node l p r).sz := by simp only [total, T.sz, hsz]
      cases r with
      | nil =>
        refine ⟨true, p, l, k, fun fuel hf => ?_, H.right, ?_, ?_, hL', hR', ?_, htot, le_rfl⟩
        · obtain ⟨fuel, rfl⟩ : ∃ m, fuel = m + 1 := ⟨fuel - 1, by omega⟩
          rw [run, if_neg hc]; rfl
        · symm; rw [decide_eq_true_eq]; omega
        · rw [← key]; simp [T.keys]
        · rw [← hpot]; simp [pot, T.sz]
      | node r1 rp r2 =>
        obtain ⟨d, y, sib, k', e, Z, hd, hk, h1, h2, h3, h4, h5⟩ := ihr rfl H.right ho.2.1.2 hL' hR'
        simp only [List.length_cons] at h5
        refine ⟨d, y, sib, k', fun fuel hf => ?_, Z, hd, hk.trans key, h1, h2, h3.trans hpot, h4.trans htot, by omega⟩
        obtain ⟨fuel, rfl⟩ : ∃ m, fuel = m + 1 := ⟨fuel - 1, by omega⟩
        rw [run, if_neg hc]
        exact e fuel (by simp only [List.length_cons]; omega)

/-- The state is the search tree `t`. -/
def TreeAt (rk vl : Nat → Int) (s : St) (t : T) : Prop :=
  Holds rk vl s.heap t none ∧ s.root = t.ptr ∧ t.keys.Nodup ∧ Ordered rk t.keys

/-- what `insert` costs -/
theorem insert_cost {s : St} {t : T} {x : Nat} (H : TreeAt rk vl s t)
    (hx : s.heap x = some (mkNode (rk x) (vl x))) (hnew : x ∉ t.keys) :
    ∃ c s' t' ls rs, insert c s x = .ok s' ∧ TreeAt rk vl s' t' ∧
      c + 2 * pot t' ≤ 2 * pot t + 8 * Nat.log 2 (t.sz + 1) + 3 ∧ t'.sz = t.sz + 1 ∧
      t.keys = ls ++ rs ∧ (∀ p ∈ ls, rk p ≤ rk x) ∧ (∀ p ∈ rs, rk x < rk p) ∧ t'.keys = ls ++ x :: rs ∧
      ∀ q, q ≠ x → q ∉ t.keys → s'.heap q = s.heap q := by
  obtain ⟨hs, hr, hn, ho⟩ := H
  cases t with
  | nil =>
    refine ⟨0, { s with root := some x }, .node .nil x .nil, [], [], ?_, ⟨⟨hx, trivial, trivial⟩, rfl,
      by simp [T.keys], by simp [Ordered, T.keys]⟩, by simp [pot, T.sz], rfl, rfl, by simp, by simp, rfl, fun _ _ _ => rfl⟩
    unfold insert
    rw [hr]
    rfl
  | node l p r =>
    have Z : Zip rk vl s [] (.node l p r) := ⟨hs, trivial, by simpa [leftOf, rightOf] using hn, hr⟩
    obtain ⟨d, y, sib, k, e, Z1, hd, hk, h1, h2, hp, ht, -⟩ := Z.descendC hx (t := .node l p r) (q := p) rfl ho
      (by simp [leftOf]) (by simp [rightOf])
    have hk' : leftOf (⟨d, y, sib⟩ :: k) ++ rightOf (⟨d, y, sib⟩ :: k) = (T.node l p r).keys := by
      rw [hk]; simp [leftOf, rightOf]
    have hnew' : x ∉ leftOf (⟨d, y, sib⟩ :: k) ∧ x ∉ rightOf (⟨d, y, sib⟩ :: k) := by
      rw [← hk'] at hnew; simpa using hnew
    obtain ⟨g1, g2, ny, f1, f2, f3, f4, f5, Z2, F2⟩ := Z1.attach hx hnew'
    have hd' : decide ((mkNode (rk x) (vl x)).rank ≥ ny.rank) = d := by rw [hd, f3]
    obtain ⟨s', e', Z3, F3⟩ := Zip.splayC _ (fuel := k.length + 2) le_rfl (by simp only [List.length_cons]; omega) Z2
    have run : insert (k.length + 2) s x = .ok s' := by
      unfold insert
      rw [hr]
      simp only [T.ptr]
      rw [e _ (by simp), Out.ok_bind, f1, Out.ok_bind, ld_ok f4, Out.ok_bind, ld_ok f2, Out.ok_bind]
      dsimp only
      rw [hd', f5, Out.ok_bind]
      have := hr
      simp only [T.ptr] at this
      rw [← this]
      exact e'
    have hkeys : (climb (⟨d, y, sib⟩ :: k) .nil x .nil).keys = leftOf (⟨d, y, sib⟩ :: k) ++ x :: rightOf (⟨d, y, sib⟩ :: k) := by
      rw [climb_keys _ _ le_rfl]; simp [T.keys]
    have hpot := climb_pot _ _ (le_refl (⟨d, y, sib⟩ :: k).length) .nil .nil x
    have hsucc := potCtx_succ (⟨d, y, sib⟩ :: k) 0
    have e1 : (T.node .nil x .nil).sz = 1 := rfl
    have e2 : pot (T.node .nil x .nil) = 0 := by simp [pot, T.sz]
    have e3 : total (⟨d, y, sib⟩ :: k) 1 = (T.node l p r).sz + 1 := by
      have : ∀ (k : List Fr) (n : Nat), total k (n + 1) = total k n + 1 := by
        intro k
        induction k with
        | nil => intro n; rfl
        | cons f k ih => intro n; simp only [total]; rw [show n + 1 + f.s.sz + 1 = n + f.s.sz + 1 + 1 by omega, ih]
      rw [this _ 0, ht]; rfl
    have e4 : potCtx [] (T.node l p r).sz = 0 := rfl
    simp only [Nat.zero_add] at hsucc
    rw [e1, e2, e3] at hpot
    rw [hp, e3, e4] at hsucc
    simp only [List.length_cons] at hpot
    have l1 : Nat.log 2 1 = 0 := by simp
    rw [l1] at hpot hsucc
    refine ⟨k.length + 2, s', _, leftOf (⟨d, y, sib⟩ :: k), rightOf (⟨d, y, sib⟩ :: k), run, ⟨Z3.sub, Z3.root, ?_, ?_⟩, by omega,
      ?_, hk'.symm, h1, h2, hkeys, fun q hqx hq => ?_⟩
    · simpa [leftOf, rightOf] using Z3.nodup
    · rw [hkeys]
      rw [← hk'] at ho
      simp only [Ordered, List.pairwise_append, List.pairwise_cons] at ho ⊢
      refine ⟨ho.1, ⟨fun q hq => le_of_lt (h2 q hq), ho.2.1⟩, fun q hq q' hq' => ?_⟩
      rcases List.mem_cons.1 hq' with e | e
      · subst e; exact h1 q hq
      · exact ho.2.2 q hq q' e
    · rw [sz_keys, hkeys, sz_keys, ← hk']; simp; omega
    · rw [← hk'] at hq
      simp only [List.mem_append, not_or] at hq
      rw [F3 q]
      · refine F2 q hqx ?_
        rintro rfl
        cases d <;> simp [leftOf, rightOf] at hq
      · simp only [List.mem_append, T.keys, List.nil_append, List.mem_cons, List.not_mem_nil, or_false, not_or]
        exact ⟨hq.1, hqx, hq.2⟩

/-! ### erasing the first node -/

theorem Zip.reachC {s : St} {x : Nat} : ∀ {t : T} {k : List Fr}, x ∈ t.keys → Zip rk vl s k t →
    ∃ k' a b, Zip rk vl s k' (.node a x b) ∧
      leftOf k' ++ ((T.node a x b).keys ++ rightOf k') = leftOf k ++ (t.keys ++ rightOf k) ∧
      pot (.node a x b) + potCtx k' (T.node a x b).sz = pot t + potCtx k t.sz ∧ total k' (T.node a x b).sz = total k t.sz := by
  intro t
  induction t with
  | nil => intro k h; simp [T.keys] at h
  | node l p r ihl ihr =>
    intro k h H
    simp [T.keys] at h
    rcases h with h | h | h
    · obtain ⟨k', a, b, Z, e, e2, e3⟩ := ihl h H.left
      refine ⟨k', a, b, Z, e.trans (by simp [leftOf, rightOf, T.keys]), e2.trans ?_, e3.trans rfl⟩
      simp only [pot, potCtx, T.sz]; omega
    · subst h; exact ⟨k, l, r, H, rfl, rfl, rfl⟩
    · obtain ⟨k', a, b, Z, e, e2, e3⟩ := ihr h H.right
      have hsz : r.sz + l.sz + 1 = l.sz + r.sz + 1 := by omega
      refine ⟨k', a, b, Z, e.trans (by simp [leftOf, rightOf, T.keys]), e2.trans ?_, e3.trans ?_⟩
      · simp only [pot, potCtx, T.sz, hsz]; omega
      · simp only [total, T.sz, hsz]

/-- what `splay` costs -/
theorem splay_cost {s : St} {t : T} {x : Nat} (H : TreeAt rk vl s t) (hx : x ∈ t.keys) :
    ∃ c s' a b, splay c s x = .ok s' ∧ TreeAt rk vl s' (.node a x b) ∧
      c + pot (.node a x b) ≤ pot t + 3 * Nat.log 2 t.sz + 2 ∧ (T.node a x b).keys = t.keys ∧
      ∀ q, q ∉ t.keys → s'.heap q = s.heap q := by
  obtain ⟨hs, hr, hn, ho⟩ := H
  have Z : Zip rk vl s [] t := ⟨hs, trivial, by simpa [leftOf, rightOf] using hn, hr⟩
  obtain ⟨k, a, b, Z1, e1, e2, e3⟩ := Z.reachC hx
  obtain ⟨s', e, Z2, F⟩ := Zip.splayC _ (fuel := (k.length + 1) / 2 + 1) le_rfl (by omega) Z1
  obtain ⟨a', b', hc⟩ := climb_root _ k le_rfl a b x
  have hk : (T.node a' x b').keys = t.keys := by
    rw [← hc, climb_keys _ _ le_rfl, e1]; simp [leftOf, rightOf]
  have hpot := climb_pot _ k le_rfl a b x
  rw [hc] at Z2 hpot
  have e4 : potCtx [] t.sz = 0 := rfl
  have e5 : total [] t.sz = t.sz := rfl
  rw [e2, e3, e4, e5] at hpot
  refine ⟨_, s', a', b', e, ⟨Z2.sub, Z2.root, by rw [hk]; exact hn, by rw [hk]; exact ho⟩, by omega, hk, fun q hq => F q ?_⟩
  rw [e1]
  simpa [leftOf, rightOf] using hq

/-- what erasing the first node costs -/
theorem erase_cost {s : St} {t : T} {x : Nat} {ks : List Nat} (H : TreeAt rk vl s t) (hk : t.keys = x :: ks) :
    ∃ c s' t', erase c s x = .ok s' ∧ TreeAt rk vl s' t' ∧ c + pot t' ≤ pot t + 3 * Nat.log 2 t.sz + 2 ∧ t'.keys = ks ∧
      ∀ q, q ∉ t.keys → s'.heap q = s.heap q := by
  obtain ⟨c, s1, a, b, e, ⟨hs, hr, hn, ho⟩, hp, hkk, F⟩ := splay_cost H (x := x) (by rw [hk]; simp)
  rw [hk] at hkk
  have hn' := hn
  rw [hkk] at hn ho
  obtain ⟨h1, h2⟩ := split_unique (L := []) (by simpa using hn) (by simpa [T.keys] using hkk.symm)
  have ha : a = .nil := by
    cases a with
    | nil => rfl
    | node l p r => simp [T.keys] at h1
  subst ha
  subst h2
  have hb : pot b ≤ pot (.node .nil x b) := by simp only [pot]; omega
  rw [hk] at F
  have hbn := (List.nodup_cons.1 hn).2
  have hbo := (List.pairwise_cons.1 ho).2
  cases b with
  | nil =>
    refine ⟨c, { s1 with root := none }, .nil, ?_, ⟨trivial, rfl, hbn, hbo⟩, by omega, rfl, ?_⟩
    · rw [erase, e, Out.ok_bind, ld_ok hs.1, Out.ok_bind]; rfl
    · rw [hk]; exact F
  | node l p r =>
    have hp' := hs.2.2.1
    refine ⟨c, ⟨store s1.heap p { (⟨l.ptr, r.ptr, some x, rk p, vl p⟩ : Nd) with fa := none }, some p⟩, .node l p r, ?_,
      ⟨?_, rfl, hbn, hbo⟩, by omega, rfl, ?_⟩
    · rw [erase, e, Out.ok_bind, ld_ok hs.1, Out.ok_bind]
      show (do Out.ok (⟨← setFa s1.heap p none, some p⟩ : St)) = Out.ok _
      rw [setFa_ok hp', Out.ok_bind]
    · refine hs.2.2.refa hbn (fun q hq => ?_)
      by_cases hqp : q = p
      · subst hqp
        rw [if_pos (show (T.node l q r).ptr = some q from rfl), hp']
        exact store_self _ _ _
      · rw [if_neg]
        · exact store_ne _ _ hqp
        · intro e; injection e with e; exact hqp e.symm
    · intro q hq
      rw [hk] at hq
      rw [← F q hq]
      exact store_ne _ _ (by rintro rfl; exact hq (by simp [T.keys]))

/-! ### programs -/

theorem runCost_tree (M : Nat) : ∀ {cs : List Cmd} {t : T} {ks' : List Nat} {s : St}, TreeAt rk vl s t →
    (∀ p ∈ inserted cs, s.heap p = some (mkNode (rk p) (vl p))) → (inserted cs).Nodup → (∀ p ∈ inserted cs, p ∉ t.keys) →
    t.sz + cs.length ≤ M → expect rk t.keys cs = some ks' →
    ∃ (fs : List Nat) (s' : St) (t' : T), fs.length = cs.length ∧ runEach s (cs.zip fs) = .ok s' ∧ TreeAt rk vl s' t' ∧ t'.keys = ks' ∧
      fs.sum + 2 * pot t' ≤ 2 * pot t + cs.length * (8 * Nat.log 2 M + 4) := by
  intro cs
  induction cs with
  | nil =>
    intro t ks' s H _ _ _ _ he
    simp [expect] at he
    exact ⟨[], s, t, rfl, rfl, H, he, by simp⟩
  | cons c cs ih =>
    intro t ks' s H hx hn hnew hM he
    simp only [List.length_cons] at hM
    cases c with
    | insert x =>
      simp only [inserted, List.nodup_cons, List.mem_cons] at hn hx hnew
      simp only [expect] at he
      obtain ⟨c, s1, t1, ls, rs, e, H1, hc, hsz, hks, h1, h2, hk1, F⟩ := insert_cost H (hx x (.inl rfl)) (hnew x (.inl rfl))
      rw [hks, place_eq h1 h2, ← hk1] at he
      obtain ⟨fs, s2, t2, hl, e2, H2, hk2, hs⟩ := ih H1 (fun p hp => by
          rw [F p (by rintro rfl; exact hn.1 hp) (hnew p (.inr hp))]; exact hx p (.inr hp)) hn.2
        (fun p hp hm => by
          rw [hk1] at hm
          simp only [List.mem_append, List.mem_cons] at hm
          have := hnew p (.inr hp)
          rw [hks, List.mem_append] at this
          rcases hm with hm | hm | hm
          · exact this (.inl hm)
          · subst hm; exact hn.1 hp
          · exact this (.inr hm)) (by omega) he
      refine ⟨c :: fs, s2, t2, by simp [hl], ?_, H2, hk2, ?_⟩
      · rw [List.zip_cons_cons, runEach, e, Out.ok_bind]; exact e2
      · have := log_mono (show t.sz + 1 ≤ M by omega)
        simp only [List.sum_cons, List.length_cons, Nat.add_mul]
        omega
    | erase x =>
      simp only [inserted] at hn hx hnew
      cases hk : t.keys with
      | nil => rw [hk] at he; simp [expect] at he
      | cons k ks =>
        rw [hk] at he
        simp only [expect] at he
        by_cases hkx : k = x
        · subst hkx
          rw [if_pos rfl] at he
          obtain ⟨c, s1, t1, e, H1, hc, hk1, F⟩ := erase_cost H hk
          have hsz : t1.sz + 1 = t.sz := by rw [sz_keys, sz_keys, hk1, hk]; rfl
          rw [← hk1] at he
          obtain ⟨fs, s2, t2, hl, e2, H2, hk2, hs⟩ := ih H1 (fun p hp => by rw [F p (hnew p hp)]; exact hx p hp) hn
            (fun p hp hm => hnew p hp (by rw [hk]; rw [hk1] at hm; simp [hm])) (by omega) he
          refine ⟨c :: fs, s2, t2, by simp [hl], ?_, H2, hk2, ?_⟩
          · rw [List.zip_cons_cons, runEach, e, Out.ok_bind]; exact e2
          · have := log_mono (show t.sz ≤ M by omega)
            simp only [List.sum_cons, List.length_cons, Nat.add_mul]
            omega
        · rw [if_neg hkx] at he; cases he

/-! ### a path -/

/-- inserting a node of the greatest rank -/
theorem insert_greatest {s : St} {l : T} {p x : Nat} (H : TreeAt rk vl s (.node l p .nil))
    (hx : s.heap x = some (mkNode (rk x) (vl x))) (hnew : x ∉ (T.node l p .nil).keys) (hge : rk p ≤ rk x) :
    ∃ s', insert 2 s x = .ok s' ∧ TreeAt rk vl s' (.node (.node l p .nil) x .nil) ∧
      ∀ q, q ≠ x → q ∉ (T.node l p .nil).keys → s'.heap q = s.heap q := by
  obtain ⟨hs, hr, hn, ho⟩ := H
  have Z : Zip rk vl s [] (.node l p .nil) := ⟨hs, trivial, by simpa [leftOf, rightOf] using hn, hr⟩
  have Z1 := Z.right
  have hnew' : x ∉ leftOf [⟨true, p, l⟩] ∧ x ∉ rightOf [⟨true, p, l⟩] := by
    simpa [leftOf, rightOf, T.keys] using hnew
  obtain ⟨g1, g2, ny, f1, f2, f3, f4, f5, Z2, F2⟩ := Z1.attach hx hnew'
  have hd' : decide ((mkNode (rk x) (vl x)).rank ≥ ny.rank) = true := by
    rw [f3, decide_eq_true_eq]; exact hge
  obtain ⟨s', e', Z3, F3⟩ := Zip.splayC _ (fuel := 2) le_rfl (by simp) Z2
  refine ⟨s', ?_, ⟨Z3.sub, Z3.root, by simpa [leftOf, rightOf, climb] using Z3.nodup, ?_⟩, fun q hqx hq => ?_⟩
  · have e : descend s.heap x 2 p = .ok p := by
      rw [BST.descend, ld_ok hx, Out.ok_bind, ld_ok Z.sub.1, Out.ok_bind]
      have hc : ¬(mkNode (rk x) (vl x)).rank < rk p := by
        show ¬rk x < rk p
        omega
      simp only [hc, if_false]
      rfl
    unfold insert
    rw [hr]
    simp only [T.ptr]
    rw [e, Out.ok_bind, f1, Out.ok_bind, ld_ok f4, Out.ok_bind, ld_ok f2, Out.ok_bind]
    dsimp only
    rw [hd', f5, Out.ok_bind]
    have := hr
    simp only [T.ptr] at this
    rw [← this]
    exact e'
  · simp only [Ordered, T.keys, List.pairwise_append, List.mem_append, List.mem_cons, List.not_mem_nil, or_false] at ho ⊢
    refine ⟨ho, by simp, ?_⟩
    rintro a (ha | rfl) b rfl
    · exact (ho.2.2 a ha p rfl).trans hge
    · exact hge
  · have hq' : q ∉ leftOf [⟨true, p, l⟩] ∧ q ∉ rightOf [⟨true, p, l⟩] := by simpa [leftOf, rightOf, T.keys] using hq
    rw [F3 q]
    · refine F2 q hqx ?_
      rintro rfl
      simp [T.keys] at hq
    · simp only [List.mem_append, T.keys, List.nil_append, List.mem_cons, List.not_mem_nil, or_false, not_or]
      exact ⟨hq'.1, hqx, hq'.2⟩

/-- the nodes 0, …, n - 1 on a path to the left -/
def path : Nat → T
  | 0 => .nil
  | n + 1 => .node (path n) n .nil

theorem path_keys : ∀ n, (path n).keys = List.range n
  | 0 => rfl
  | n + 1 => by simp [path, T.keys, path_keys n, List.range_succ]

theorem insertAll_path {s : St} (n : Nat) (hr : s.root = none) (hrk : ∀ i, i < n → rk i = i)
    (hx : ∀ p < n, s.heap p = some (mkNode (rk p) (vl p))) : ∀ m ≤ n,
    ∃ s', insertAll 2 s (List.range m) = .ok s' ∧ TreeAt rk vl s' (path m) ∧ ∀ q, m ≤ q → s'.heap q = s.heap q
  | 0, _ => ⟨s, rfl, ⟨trivial, hr, by simp [path, T.keys], by simp [path, T.keys, Ordered]⟩, fun _ _ => rfl⟩
  | m + 1, hm => by
    obtain ⟨s1, e, H, F⟩ := insertAll_path n hr hrk hx m (by omega)
    have hxm : s1.heap m = some (mkNode (rk m) (vl m)) := (F m le_rfl).trans (hx m (by omega))
    rw [List.range_succ, insertAll_concat, e, Out.ok_bind]
    cases m with
    | zero =>
      refine ⟨{ s1 with root := some 0 }, ?_, ⟨⟨hxm, trivial, trivial⟩, rfl, by simp [path, T.keys], by simp [path, T.keys, Ordered]⟩,
        fun q hq => F q (by omega)⟩
      unfold insert
      rw [show s1.root = none from H.2.1]
    | succ m =>
      obtain ⟨s', e', H', F'⟩ := insert_greatest (l := path m) (p := m) H hxm
        (by rw [show T.node (path m) m .nil = path (m + 1) from rfl, path_keys]; simp)
        (by rw [hrk m (by omega), hrk (m + 1) (by omega)]; push_cast; omega)
      refine ⟨s', e', H', fun q hq => ?_⟩
      rw [F' q (by omega) (by rw [show T.node (path m) m .nil = path (m + 1) from rfl, path_keys]; simp; omega)]
      exact F q (by omega)

theorem search_path {h : Heap} : ∀ (n : Nat) (fa : Option Nat), (∀ i, i < n → rk i = i) → Holds rk vl h (path n) fa → ∀ fuel,
    fuel < n → search h 0 fuel (path n).ptr = .diverge
  | 0, _, _, _, fuel, hf => by omega
  | n + 1, fa, hrk, H, 0, hf => by cases h : (path (n + 1)).ptr <;> rfl
  | n + 1, fa, hrk, H, fuel + 1, hf => by
    rw [show (path (n + 1)).ptr = some n from rfl, search, ld_ok H.1, Out.ok_bind]
    simp only [hrk n (by omega)]
    rw [if_neg (by omega), if_neg (by omega)]
    exact search_path n _ (fun i hi => hrk i (by omega)) H.2.1 fuel (by omega)

theorem search_path_ok {h : Heap} : ∀ (n : Nat) (fa : Option Nat), (∀ i, i < n + 1 → rk i = i) → Holds rk vl h (path (n + 1)) fa →
    search h 0 (n + 1) (path (n + 1)).ptr = .ok (some 0)
  | 0, fa, hrk, H => by
    rw [show (path 1).ptr = some 0 from rfl, search, ld_ok H.1, Out.ok_bind]
    simp only [hrk 0 (by omega)]
    rfl
  | n + 1, fa, hrk, H => by
    rw [show (path (n + 1 + 1)).ptr = some (n + 1) from rfl, search, ld_ok H.1, Out.ok_bind]
    simp only [hrk (n + 1) (by omega)]
    rw [if_neg (by push_cast; omega), if_neg (by push_cast; omega)]
    exact search_path_ok n _ (fun i hi => hrk i (by omega)) H.2.1

end

/-! ### more fuel -/

theorem splay_le : ∀ {n m : Nat} (s : St) (x : Nat), n ≤ m → Le (splay n s x) (splay m s x)
  | 0, _, _, _, _ => .div
  | n + 1, 0, _, _, h => by omega
  | n + 1, m + 1, s, x, h => by
    have ih : ∀ s, Le (splay n s x) (splay m s x) := fun s => splay_le s x (by omega)
    rw [splay, splay]
    refine Le.bind .rfl fun nx => ?_
    cases nx.fa with
    | none => exact .rfl
    | some y =>
      refine Le.bind .rfl fun ny => ?_
      cases ny.fa with
      | none => exact Le.bind .rfl ih
      | some z =>
        refine Le.bind .rfl fun nz => ?_
        split_ifs <;> exact Le.bind .rfl fun s => Le.bind .rfl ih

theorem farthest_le {h : Heap} {c : Bool} : ∀ {n m : Nat} (x : Nat), n ≤ m → Le (farthest h c n x) (farthest h c m x)
  | 0, _, _, _ => .div
  | n + 1, 0, _, h => by omega
  | n + 1, m + 1, x, h => by
    rw [farthest, farthest]
    refine Le.bind .rfl fun nx => ?_
    cases nx.ch c with
    | none => exact .rfl
    | some q => exact farthest_le q (by omega)

theorem descend_le {h : Heap} {x : Nat} : ∀ {n m : Nat} (q : Nat), n ≤ m → Le (descend h x n q) (descend h x m q)
  | 0, _, _, _ => .div
  | n + 1, 0, _, h => by omega
  | n + 1, m + 1, q, h => by
    rw [descend, descend]
    refine Le.bind .rfl fun nx => Le.bind .rfl fun nc => ?_
    cases (if nx.rank < nc.rank then nc.ch false else nc.ch true) with
    | none => exact .rfl
    | some q => exact descend_le q (by omega)

theorem pre_le {h : Heap} {n m : Nat} (x : Nat) (hnm : n ≤ m) : Le (pre n h x) (pre m h x) := by
  rw [pre, pre]
  refine Le.bind .rfl fun nx => ?_
  cases nx.ch false with
  | none => exact .rfl
  | some q => exact Le.bind (farthest_le q hnm) fun _ => .rfl

theorem insert_le {s : St} {n m : Nat} (x : Nat) (hnm : n ≤ m) : Le (insert n s x) (insert m s x) := by
  rw [insert, insert]
  cases s.root with
  | none => exact .rfl
  | some r =>
    exact Le.bind (descend_le r hnm) fun cur => Le.bind .rfl fun h => Le.bind .rfl fun nx => Le.bind .rfl fun nc =>
      Le.bind .rfl fun h => splay_le _ x hnm

theorem erase_le {s : St} {n m : Nat} (x : Nat) (hnm : n ≤ m) : Le (erase n s x) (erase m s x) := by
  rw [erase, erase]
  refine Le.bind (splay_le s x hnm) fun s => Le.bind .rfl fun nx => ?_
  cases nx.ch false with
  | none => cases nx.ch true <;> exact .rfl
  | some a =>
    cases nx.ch true with
    | none => exact .rfl
    | some b => exact Le.bind (pre_le x hnm) fun _ => .rfl

theorem runEach_le : ∀ (cs : List Cmd) (fs : List Nat) (s s' : St) (n : Nat), fs.length = cs.length → (∀ f ∈ fs, f ≤ n) →
    runEach s (cs.zip fs) = .ok s' → run n s cs = .ok s'
  | [], _, s, s', n, _, _, h => h
  | c :: cs, [], _, _, _, hl, _, _ => by simp at hl
  | .insert p :: cs, f :: fs, s, s', n, hl, hf, h => by
    rw [List.zip_cons_cons, runEach] at h
    obtain ⟨s1, e, h⟩ := (Out.bind_eq_ok ..).1 h
    rw [run, (insert_le p (hf f (by simp))).ok e, Out.ok_bind]
    exact runEach_le cs fs s1 s' n (by simpa using hl) (fun g hg => hf g (by simp [hg])) h
  | .erase p :: cs, f :: fs, s, s', n, hl, hf, h => by
    rw [List.zip_cons_cons, runEach] at h
    obtain ⟨s1, e, h⟩ := (Out.bind_eq_ok ..).1 h
    rw [run, (erase_le p (hf f (by simp))).ok e, Out.ok_bind]
    exact runEach_le cs fs s1 s' n (by simpa using hl) (fun g hg => hf g (by simp [hg])) h

end BST
