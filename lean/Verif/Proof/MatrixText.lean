import Verif.Model.MatrixText
import Verif.Proof.JsonDump

/-! # The text of a matrix -/

namespace Matrix
open Cpp

/-- the text of a row -/
def rowText (A : Mat Int) (i : Nat) : Str :=
  Json.decInt (A.elem i 0) ++ ((List.range' 1 (A.col - 1)).map fun j => bytes [',', ' '] ++ Json.decInt (A.elem i j)).flatten

theorem foldlM_append {f : Str → Nat → Out Str} {g : Nat → Str} : ∀ (l : List Nat) (s : Str), (∀ i ∈ l, ∀ s, f s i = .ok (s ++ g i)) →
    l.foldlM f s = .ok (s ++ (l.map g).flatten)
  | [], s, _ => by simp
  | i :: l, s, h => by
    rw [List.foldlM_cons, h i (by simp), Out.ok_bind, foldlM_append l _ (fun j hj => h j (by simp [hj]))]
    simp

theorem toText_eq {A : Mat Int} (ha : A.alive = true) (hc : 1 ≤ A.col) :
    toText A = .ok ((List.range A.row).map fun i => rowText A i ++ [10]).flatten := by
  unfold toText
  rw [foldlM_append (g := fun i => rowText A i ++ [10])]
  · simp
  · intro i hi s
    have hi' : i < A.row := by simpa using hi
    unfold toTextStep
    have h0 : A.get i 0 = .ok (A.elem i 0) := by rw [Mat.get, if_pos ⟨ha, hi', by omega⟩]
    rw [h0, Out.ok_bind]
    dsimp only
    rw [foldlM_append (g := fun j => bytes [',', ' '] ++ Json.decInt (A.elem i j))]
    · rw [Out.ok_bind]; simp [rowText]
    · intro j hj s
      have hj' : j < A.col := by simp at hj; omega
      rw [toTextRow, Mat.get, if_pos ⟨ha, hi', hj'⟩]
      rfl

/-! ### numbers -/

theorem decInt_chars (i : Int) : Json.decInt i ≠ [] ∧ ∀ c ∈ Json.decInt i, c ≠ byte ',' ∧ c ≠ 10 := by
  have h := Json.decNat_digits i.natAbs
  have key : ∀ c ∈ Json.decNat i.natAbs, c ≠ byte ',' ∧ c ≠ 10 := by
    intro c hc
    have := h.2 c hc
    constructor <;> (rintro rfl; revert this; decide)
  unfold Json.decInt
  split
  · refine ⟨by simp, fun c hc => ?_⟩
    rcases List.mem_cons.1 hc with rfl | hc
    · decide
    · exact key c hc
  · exact ⟨h.1, key⟩

theorem decInt_inj {i j : Int} (h : Json.decInt i = Json.decInt j) : i = j := by
  have hd : ∀ n : Nat, ∀ s, Json.decNat n ≠ byte '-' :: s := by
    intro n s e
    have := (Json.decNat_digits n).2 (byte '-') (by rw [e]; simp)
    revert this; decide
  have hn : ∀ {n m : Nat}, Json.decNat n = Json.decNat m → n = m := fun {n m} e => by
    rw [← Json.decNat_nat n, e, Json.decNat_nat]
  unfold Json.decInt at h
  split_ifs at h with h1 h2 h2
  · have := hn (List.cons.inj h).2; omega
  · exact absurd h.symm (hd _ _)
  · exact absurd h (hd _ _)
  · have := hn h; omega

/-! ### lists of texts, each ended or begun by a separator -/

theorem cut {c : Byte} {s t u v : Str} (hs : c ∉ s) (ht : c ∉ t) (h : s ++ c :: u = t ++ c :: v) : s = t ∧ u = v := by
  induction s generalizing t with
  | nil =>
    cases t with
    | nil => simpa using h
    | cons x t => simp at h; simp [h.1] at ht
  | cons x s ih =>
    cases t with
    | nil => simp at h; simp [h.1] at hs
    | cons y t =>
      simp only [List.cons_append, List.cons.injEq] at h
      simp only [List.mem_cons, not_or] at hs ht
      obtain ⟨e1, e2⟩ := ih hs.2 ht.2 h.2
      exact ⟨by rw [h.1, e1], e2⟩

theorem lines_inj : ∀ {xs ys : List Str}, (∀ s ∈ xs, (10 : Byte) ∉ s) → (∀ s ∈ ys, (10 : Byte) ∉ s) →
    (xs.map fun s => s ++ [10]).flatten = (ys.map fun s => s ++ [10]).flatten → xs = ys
  | [], [], _, _, _ => rfl
  | [], y :: ys, _, _, h => by simp at h
  | x :: xs, [], _, _, h => by simp at h
  | x :: xs, y :: ys, hx, hy, h => by
    simp only [List.map_cons, List.flatten_cons, List.append_assoc, List.singleton_append] at h
    obtain ⟨e1, e2⟩ := cut (hx x (by simp)) (hy y (by simp)) h
    rw [e1, lines_inj (fun s hs => hx s (by simp [hs])) (fun s hs => hy s (by simp [hs])) e2]

theorem fields_inj : ∀ {xs ys : List Int} {x y : Int},
    Json.decInt x ++ (xs.map fun i => bytes [',', ' '] ++ Json.decInt i).flatten =
      Json.decInt y ++ (ys.map fun i => bytes [',', ' '] ++ Json.decInt i).flatten → x = y ∧ xs = ys
  | [], [], x, y, h => by simp at h; exact ⟨decInt_inj h, rfl⟩
  | [], z :: ys, x, y, h => by
    have : byte ',' ∈ Json.decInt x := by
      rw [List.map_nil, List.flatten_nil, List.append_nil] at h
      rw [h]; simp [bytes]
    exact absurd rfl ((decInt_chars x).2 _ this).1
  | z :: xs, [], x, y, h => by
    have : byte ',' ∈ Json.decInt y := by
      rw [List.map_nil, List.flatten_nil, List.append_nil] at h
      rw [← h]; simp [bytes]
    exact absurd rfl ((decInt_chars y).2 _ this).1
  | z :: xs, w :: ys, x, y, h => by
    simp only [List.map_cons, List.flatten_cons, bytes, List.map_nil, List.cons_append, List.nil_append] at h
    obtain ⟨e1, e2⟩ := cut (fun hm => ((decInt_chars x).2 _ hm).1 rfl) (fun hm => ((decInt_chars y).2 _ hm).1 rfl) h
    have e2 := (List.cons.inj e2).2
    obtain ⟨e3, e4⟩ := fields_inj (x := z) (y := w) (by simpa [bytes] using e2)
    exact ⟨decInt_inj e1, by rw [e3, e4]⟩

theorem rowText_line (A : Mat Int) (i : Nat) : (10 : Byte) ∉ rowText A i := by
  intro h
  simp only [rowText, List.mem_append, List.mem_flatten, List.mem_map] at h
  rcases h with h | ⟨l, ⟨j, -, rfl⟩, h⟩
  · exact ((decInt_chars _).2 _ h).2 rfl
  · rcases List.mem_append.1 h with h | h
    · revert h; decide
    · exact ((decInt_chars _).2 _ h).2 rfl

theorem rowText_inj {A B : Mat Int} {i : Nat} (hA : 1 ≤ A.col) (hB : 1 ≤ B.col) (h : rowText A i = rowText B i) :
    A.col = B.col ∧ ∀ j < A.col, A.elem i j = B.elem i j := by
  have f : ∀ (M : Mat Int), ((List.range' 1 (M.col - 1)).map fun j => bytes [',', ' '] ++ Json.decInt (M.elem i j)) =
      ((List.range' 1 (M.col - 1)).map fun j => M.elem i j).map fun x => bytes [',', ' '] ++ Json.decInt x := by
    intro M; simp
  unfold rowText at h
  rw [f, f] at h
  obtain ⟨e1, e2⟩ := fields_inj h
  have hl := congrArg List.length e2
  simp at hl
  have hc : A.col = B.col := by omega
  refine ⟨hc, fun j hj => ?_⟩
  cases j with
  | zero => exact e1
  | succ j =>
    have := congrArg (fun l => l[j]?) e2
    simp only [List.getElem?_map] at this
    rw [List.getElem?_range' (by omega), List.getElem?_range' (by omega)] at this
    simp at this
    rwa [Nat.add_comm 1 j] at this

end Matrix
