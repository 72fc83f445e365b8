import Verif.Model.EditWork
import Verif.Proof.Tally
import Verif.Proof.EditDistance

/-! # Work and memory of `editDistance` -/

namespace EditDistance.Work
open Cpp Tally

theorem cellStep_out (a b : Str) (i : Nat) (M : Matrix) (j : Nat) :
    (cellStep a b i M j).out = EditDistance.cellStep a b i M j := by
  unfold cellStep EditDistance.cellStep
  simp only [out_bind, out_free, out_one]

theorem rowStep_out (a b : Str) (n : Nat) (M : Matrix) (i : Nat) :
    (rowStep a b n M i).out = EditDistance.rowStep a b n M i :=
  foldlM_out _ _ (cellStep_out a b i) _ _

theorem destroy_out (m n : Nat) : (destroy m n).out = .ok () := by
  unfold destroy
  rw [out_bind, foldlM_out _ (fun _ _ => .ok ()) (fun _ _ => rfl)]
  generalize List.range (m + 1) = l
  induction l with
  | nil => rfl
  | cons _ l ih => exact ih

theorem editDistance_out (a b : Str) : (editDistance a b).out = EditDistance.editDistance a b := by
  unfold editDistance EditDistance.editDistance
  simp only [out_ite, out_free]
  split
  · rfl
  · simp only [out_bind, out_take, Out.ok_bind, destroy_out, out_one, out_free]
    rw [foldlM_out _ (fun (M : Matrix) i => M.set i 0 (i : Nat)) (fun s i => by simp only [out_bind, out_take, Out.ok_bind, out_one])]
    refine congrArg _ (funext fun M => ?_)
    rw [foldlM_out _ (fun (M : Matrix) i => M.set 0 i (i : Nat)) (fun s i => rfl)]
    refine congrArg _ (funext fun M => ?_)
    rw [foldlM_out _ _ (rowStep_out a b b.length)]
    refine congrArg _ (funext fun M => ?_)
    cases M.get a.length b.length <;> rfl

theorem cellStep_costs (a b : Str) (i : Nat) (M : Matrix) (j : Nat) : Costs 4 [] (cellStep a b i M j) := by
  unfold cellStep
  refine Costs.cast ((costs_free _).seq fun x _ => (costs_free _).seq fun y _ => (costs_one _).seq fun p _ =>
    (costs_free _).seq fun p1 _ => (costs_one _).seq fun q _ => (costs_free _).seq fun q1 _ =>
    (costs_one _).seq fun r _ => (costs_free _).seq fun r1 _ => costs_one _) rfl rfl

theorem flatten_nils (k : Nat) : (List.replicate k ([] : List Int)).flatten = [] := by
  induction k with
  | zero => rfl
  | succ k ih => rw [List.replicate_succ, List.flatten_cons, ih]; rfl

theorem rowStep_costs (a b : Str) (n : Nat) (M : Matrix) (i : Nat) : Costs (4 * n) [] (rowStep a b n M i) :=
  (costs_foldlM _ _ _ fun s j _ => cellStep_costs a b i s j).cast (by rw [List.length_range', Nat.mul_comm]) (flatten_nils _)

theorem destroy_costs (m n : Nat) : Costs 0
    ((List.replicate (m + 1) [-((4 * (n + 1) : Nat) : Int)]).flatten ++ [-((8 * (m + 1) + 8 : Nat) : Int)]) (destroy m n) := by
  unfold destroy
  refine Costs.cast ((costs_foldlM _ _ _ fun s j _ => costs_give _).seq fun _ _ => costs_give _) rfl ?_
  rw [List.length_range]

/-- What happens to the memory. -/
def trace (m n : Nat) : List Int :=
  [((8 * (m + 1) + 8 : Nat) : Int)] ++ ((List.replicate (m + 1) [((4 * (n + 1) : Nat) : Int)]).flatten ++
    ((List.replicate (m + 1) [-((4 * (n + 1) : Nat) : Int)]).flatten ++ [-((8 * (m + 1) + 8 : Nat) : Int)]))

theorem editDistance_costs (a b : Str) (ha : a ≠ []) (hb : b ≠ []) :
    Costs (4 * a.length * b.length + a.length + b.length + 3) (trace a.length b.length) (editDistance a b) := by
  have ha := List.length_pos_iff.2 ha
  have hb := List.length_pos_iff.2 hb
  unfold editDistance
  simp only
  rw [if_neg (by omega)]
  refine Costs.cast ((costs_take _).seq fun _ _ =>
    (costs_foldlM _ _ _ fun s i _ => (costs_take _).seq fun _ _ => costs_one _).seq fun M _ =>
    (costs_foldlM _ _ _ fun s i _ => costs_one _).seq fun M _ =>
    (costs_foldlM _ _ _ fun s i _ => rowStep_costs _ _ _ _ _).seq fun M _ =>
    (costs_one _).seq fun d _ => (destroy_costs _ _).seq fun _ _ => costs_free _) ?_ ?_
  · simp only [List.length_range, List.length_range']
    have : a.length * (4 * b.length) = 4 * a.length * b.length := by
      rw [Nat.mul_left_comm, Nat.mul_assoc]
    omega
  · simp only [List.length_range, List.length_range', flatten_nils, List.append_nil, List.nil_append]
    rfl

theorem trace_peak (m n : Nat) : Spec.peak (trace m n) = 4 * (m + 1) * (n + 1) + 8 * (m + 2) := by
  unfold trace
  rw [List.singleton_append, peak_cons_take, peak_takes, peak_nonpos]
  · push_cast
    have : ((m : Int) + 1) * (4 * (n + 1)) = 4 * (m + 1) * (n + 1) := by
      rw [Int.mul_left_comm, Int.mul_assoc]
    omega
  · intro x hx
    simp only [List.mem_append, List.mem_flatten, List.mem_replicate, List.mem_singleton] at hx
    rcases hx with ⟨l, ⟨_, rfl⟩, hx⟩ | rfl
    · simp only [List.mem_singleton] at hx
      omega
    · omega

theorem trace_left (m n : Nat) : Spec.left (trace m n) = 0 := by
  unfold trace Spec.left
  simp only [List.sum_append, sum_same, List.sum_cons, List.sum_nil]
  rw [Int.mul_neg]
  omega

end EditDistance.Work
