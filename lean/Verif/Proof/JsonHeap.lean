import Verif.Spec.JsonHeap
import Verif.Proof.JsonApi
import Mathlib.Data.Multiset.UnionInter
import Mathlib.Tactic.Abel

/-! # Lemmas about the memory management of `JSONObject` -/

namespace Json.Mem
open Cpp

mutual

theorem RepD.frame {c c' : Cells} {ty d v T} (h : RepD c ty d v T) (hf : ∀ x ∈ T, c' x = c x) : RepD c' ty d v T :=
  match h with
  | .null d => .null d
  | .bool b => .bool b
  | .int i => .int i
  | .float q => .float q
  | .str hp => .str (by rw [hf _ (by simp), hp])
  | .arr hp h => .arr (by rw [hf _ (by simp), hp]) (h.frame fun x hx => hf x (by simp [hx]))
  | .obj hp hk hs h => .obj (by rw [hf _ (by simp), hp]) hk hs (h.frame fun x hx => hf x (by simp [hx]))

theorem RepL.frame {c c' : Cells} {as l G} (h : RepL c as l G) (hf : ∀ x ∈ G, c' x = c x) : RepL c' as l G :=
  match h with
  | .nil => .nil
  | .cons ha h hl => .cons (by rw [hf _ (by simp), ha]) (h.frame fun x hx => hf x (by simp [hx]))
      (hl.frame fun x hx => hf x (by simp [hx]))

end

theorem Rep.frame {c c' : Cells} {o v F} (h : Rep c o v F) (hf : ∀ x ∈ F, c' x = c x) : Rep c' o v F := by
  obtain ⟨ty, d, T, h1, h2, rfl⟩ := h
  exact ⟨ty, d, T, by rw [hf _ (by simp), h1], h2.frame fun x hx => hf x (by simp [hx]), rfl⟩

mutual

theorem RepD.live {c : Cells} {ty d v T} (h : RepD c ty d v T) : ∀ x ∈ T, c x ≠ none :=
  match h with
  | .null d => by simp
  | .bool b => by simp
  | .int i => by simp
  | .float q => by simp
  | .str hp => by simp [hp]
  | .arr hp h => by
    have := h.live
    intro x hx
    rcases Multiset.mem_add.1 hx with hx | hx
    · rw [Multiset.mem_singleton.1 hx, hp]; simp
    · exact this x hx
  | .obj hp hk hs h => by
    have := h.live
    intro x hx
    rcases Multiset.mem_add.1 hx with hx | hx
    · rw [Multiset.mem_singleton.1 hx, hp]; simp
    · exact this x hx

theorem RepL.live {c : Cells} {as l G} (h : RepL c as l G) : ∀ x ∈ G, c x ≠ none :=
  match h with
  | .nil => by simp
  | .cons ha h hl => by
    have h1 := h.live
    have h2 := hl.live
    intro x hx
    rcases Multiset.mem_add.1 hx with hx | hx
    · rcases Multiset.mem_add.1 hx with hx | hx
      · rw [Multiset.mem_singleton.1 hx, ha]; simp
      · exact h1 x hx
    · exact h2 x hx

end

theorem Rep.live {c : Cells} {o v F} (h : Rep c o v F) : ∀ x ∈ F, c x ≠ none := by
  obtain ⟨ty, d, T, h1, h2, rfl⟩ := h
  intro x hx
  rcases Multiset.mem_add.1 hx with hx | hx
  · rw [Multiset.mem_singleton.1 hx, h1]; simp
  · exact h2.live x hx

/-- freeing many addresses -/
def Heap.freeAll (h : Heap) (T : Multiset Nat) : Heap := ⟨fun x => if x ∈ T then none else h.cell x, h.next⟩

theorem freeAll_zero (h : Heap) : h.freeAll 0 = h := by simp [Heap.freeAll]

theorem freeAll_free (h : Heap) (T : Multiset Nat) (p : Nat) : (h.freeAll T).free p = h.freeAll ({p} + T) := by
  unfold Heap.freeAll Heap.free
  congr 1
  funext x
  by_cases h1 : x = p <;> by_cases h2 : x ∈ T <;> simp [h1, h2]

theorem freeAll_add (h : Heap) (S T : Multiset Nat) : (h.freeAll S).freeAll T = h.freeAll (S + T) := by
  unfold Heap.freeAll
  congr 1
  funext x
  by_cases h1 : x ∈ S <;> by_cases h2 : x ∈ T <;> simp [h1, h2]

theorem obj_ok {h : Heap} {o ty d} (ho : h.cell o = some (.obj ty d)) : h.obj o = .ok (ty, d) := by
  unfold Heap.obj
  rw [ho]

theorem map_ok {h : Heap} {p m} (ho : h.cell p = some (.map m)) : h.map (.ptr p) = .ok (p, m) := by
  simp only [Heap.map, ho]

theorem list_ok {h : Heap} {p m} (ho : h.cell p = some (.list m)) : h.list (.ptr p) = .ok (p, m) := by
  simp only [Heap.list, ho]

theorem str_ok {h : Heap} {p m} (ho : h.cell p = some (.str m)) : h.str (.ptr p) = .ok (p, m) := by
  simp only [Heap.str, ho]

mutual

theorem RepD.clear {c : Cells} {ty d v T} (h : RepD c ty d v T) (hn : T.Nodup) :
    ∃ N, ∀ n ≥ N, ∀ (H : Heap) (o : Nat), (∀ x ∈ T, H.cell x = c x) → H.cell o = some (.obj ty d) →
      clearData n H o = .ok (H.freeAll T) :=
  match h with
  | .null d => by
    refine ⟨1, fun n hn H o _ ho => ?_⟩
    obtain ⟨n, rfl⟩ : ∃ k, n = k + 1 := ⟨n - 1, by omega⟩
    simp [clearData, obj_ok ho, freeAll_zero]
  | .bool d => by
    refine ⟨1, fun n hn H o _ ho => ?_⟩
    obtain ⟨n, rfl⟩ : ∃ k, n = k + 1 := ⟨n - 1, by omega⟩
    simp [clearData, obj_ok ho, freeAll_zero]
  | .int d => by
    refine ⟨1, fun n hn H o _ ho => ?_⟩
    obtain ⟨n, rfl⟩ : ∃ k, n = k + 1 := ⟨n - 1, by omega⟩
    simp [clearData, obj_ok ho, freeAll_zero]
  | .float d => by
    refine ⟨1, fun n hn H o _ ho => ?_⟩
    obtain ⟨n, rfl⟩ : ∃ k, n = k + 1 := ⟨n - 1, by omega⟩
    simp [clearData, obj_ok ho, freeAll_zero]
  | .str (p := p) hp => by
    refine ⟨1, fun n hn H o hf ho => ?_⟩
    obtain ⟨n, rfl⟩ : ∃ k, n = k + 1 := ⟨n - 1, by omega⟩
    have := str_ok (h := H) (p := p) (by rw [hf _ (by simp), hp])
    simp only [clearData, obj_ok ho, Out.ok_bind, this, reduceCtorEq, if_false, if_true]
    have := freeAll_free H 0 p
    rw [freeAll_zero, add_zero] at this
    rw [this]
  | .arr (p := p) (G := G) hp h => by
    obtain ⟨N, hN⟩ := h.clearAll (Multiset.nodup_add.1 hn).2.1
    refine ⟨N + 1, fun n hn H o hf ho => ?_⟩
    obtain ⟨n, rfl⟩ : ∃ k, n = k + 1 := ⟨n - 1, by omega⟩
    have := list_ok (h := H) (p := p) (by rw [hf _ (by simp), hp])
    simp only [clearData, obj_ok ho, Out.ok_bind, this, reduceCtorEq, if_false, if_true]
    rw [hN n (by omega) H fun x hx => hf x (by simp [hx]), Out.ok_bind, freeAll_free]
  | .obj (p := p) (G := G) hp hk hs h => by
    obtain ⟨N, hN⟩ := h.clearAll (Multiset.nodup_add.1 hn).2.1
    refine ⟨N + 1, fun n hn H o hf ho => ?_⟩
    obtain ⟨n, rfl⟩ : ∃ k, n = k + 1 := ⟨n - 1, by omega⟩
    have := map_ok (h := H) (p := p) (by rw [hf _ (by simp), hp])
    simp only [clearData, obj_ok ho, Out.ok_bind, this, if_true]
    rw [hN n (by omega) H fun x hx => hf x (by simp [hx]), Out.ok_bind, freeAll_free]

theorem RepL.clearAll {c : Cells} {as l G} (h : RepL c as l G) (hn : G.Nodup) :
    ∃ N, ∀ n ≥ N, ∀ (H : Heap), (∀ x ∈ G, H.cell x = c x) → destroyAll n H as = .ok (H.freeAll G) :=
  match h with
  | .nil => ⟨0, fun n _ H _ => by simp [destroyAll, freeAll_zero]⟩
  | .cons (a := a) (T := T) (G := G) ha h hl => by
    obtain ⟨h1, h2, h3⟩ := Multiset.nodup_add.1 hn
    obtain ⟨N, hN⟩ := h.clear (Multiset.nodup_add.1 h1).2.1
    obtain ⟨N', hN'⟩ := hl.clearAll h2
    refine ⟨max N N', fun n hn H hf => ?_⟩
    unfold destroyAll
    rw [hN n (le_trans (le_max_left _ _) hn) H a (fun x hx => hf x (by simp [hx]))
      (by rw [hf _ (by simp), ha]), Out.ok_bind, freeAll_free, hN' n (le_trans (le_max_right _ _) hn), freeAll_add]
    intro x hx
    have hx' : x ∉ ({a} + T : Multiset Nat) := fun hc => (Multiset.disjoint_left.1 h3) hc hx
    show (if x ∈ ({a} + T : Multiset Nat) then none else H.cell x) = _
    rw [if_neg hx', hf x (by simp [hx])]

end

/-- `h'` has the new cells `T` and otherwise equals `h`. -/
structure Ext (h h' : Heap) (T : Multiset Nat) : Prop where
  le : h.next ≤ h'.next
  same : ∀ x, x ∉ T → h'.cell x = h.cell x
  nodup : T.Nodup
  mem : ∀ x, x ∈ T ↔ h.next ≤ x ∧ x < h'.next

theorem Ext.refl (h : Heap) : Ext h h 0 := by
  refine ⟨le_rfl, fun _ _ => rfl, Multiset.nodup_zero, fun x => ?_⟩
  simp

theorem Ext.trans {h h' h'' : Heap} {S T : Multiset Nat} (e : Ext h h' S) (e' : Ext h' h'' T) :
    Ext h h'' (S + T) := by
  refine ⟨e.le.trans e'.le, fun x hx => ?_, ?_, fun x => ?_⟩
  · rw [Multiset.mem_add, not_or] at hx
    rw [e'.same x hx.2, e.same x hx.1]
  · rw [Multiset.nodup_add]
    refine ⟨e.nodup, e'.nodup, Multiset.disjoint_left.2 fun hx hx' => ?_⟩
    have := (e.mem _).1 hx
    have := (e'.mem _).1 hx'
    omega
  · rw [Multiset.mem_add, e.mem, e'.mem]
    have := e.le
    have := e'.le
    omega

theorem Ext.alloc (h : Heap) (cl : Cell) : Ext h (h.alloc cl).2 {(h.alloc cl).1} := by
  refine ⟨Nat.le_succ _, fun x hx => ?_, Multiset.nodup_singleton _, fun x => ?_⟩
  · simp only [Heap.alloc, Multiset.mem_singleton] at *
    rw [if_neg hx]
  · simp only [Heap.alloc, Multiset.mem_singleton]
    omega

theorem alloc_cell (h : Heap) (cl : Cell) : (h.alloc cl).2.cell (h.alloc cl).1 = some cl := by
  simp [Heap.alloc]

theorem zip_fst {α β : Type} (xs : List α) (ys : List β) (h : xs.length = ys.length) : (xs.zip ys).map Prod.fst = xs := by
  rw [List.map_fst_zip h.le]

theorem zip_snd {α β : Type} (xs : List α) (ys : List β) (h : xs.length = ys.length) : (xs.zip ys).map Prod.snd = ys := by
  rw [List.map_snd_zip h.ge]

theorem RepL.length {c : Cells} {as l G} (h : RepL c as l G) : as.length = l.length :=
  match h with
  | .nil => rfl
  | .cons _ _ hl => by simp [hl.length]

mutual

theorem RepD.copy {c : Cells} {ty d v T} (h : RepD c ty d v T) (H : Heap) (src : Nat)
    (hf : ∀ x ∈ T, H.cell x = c x) (hlt : ∀ x ∈ T, x < H.next) (ho : H.cell src = some (.obj ty d)) :
    ∃ N d' H' T', (∀ n ≥ N, copyData n H src = .ok ((ty, d'), H')) ∧ Ext H H' T' ∧ RepD H'.cell ty d' v T' :=
  match h with
  | .null d => by
    refine ⟨1, _, H, 0, fun n hn => ?_, Ext.refl H, .null d⟩
    obtain ⟨n, rfl⟩ : ∃ k, n = k + 1 := ⟨n - 1, by omega⟩
    simp [copyData, obj_ok ho]
  | .bool b => by
    refine ⟨1, _, H, 0, fun n hn => ?_, Ext.refl H, .bool b⟩
    obtain ⟨n, rfl⟩ : ∃ k, n = k + 1 := ⟨n - 1, by omega⟩
    simp [copyData, obj_ok ho]
  | .int b => by
    refine ⟨1, _, H, 0, fun n hn => ?_, Ext.refl H, .int b⟩
    obtain ⟨n, rfl⟩ : ∃ k, n = k + 1 := ⟨n - 1, by omega⟩
    simp [copyData, obj_ok ho]
  | .float b => by
    refine ⟨1, _, H, 0, fun n hn => ?_, Ext.refl H, .float b⟩
    obtain ⟨n, rfl⟩ : ∃ k, n = k + 1 := ⟨n - 1, by omega⟩
    simp [copyData, obj_ok ho]
  | .str (p := p) (s := s) hp => by
    refine ⟨1, _, (H.alloc (.str s)).2, _, fun n hn => ?_, Ext.alloc H _, .str (alloc_cell H _)⟩
    obtain ⟨n, rfl⟩ : ∃ k, n = k + 1 := ⟨n - 1, by omega⟩
    have := str_ok (h := H) (p := p) (by rw [hf _ (by simp), hp])
    simp only [copyData, obj_ok ho, Out.ok_bind, this, reduceCtorEq, if_false, if_true]
  | .arr (p := p) (as := as) (G := G) hp h => by
    obtain ⟨N, bs, H', T', hN, he, hr⟩ := h.copyAll H (fun x hx => hf x (by simp [hx])) (fun x hx => hlt x (by simp [hx]))
    have ea := Ext.alloc H' (.list bs)
    refine ⟨N + 1, .ptr (H'.alloc (.list bs)).1, (H'.alloc (.list bs)).2, _, fun n hn => ?_, (he.trans ea), ?_⟩
    · obtain ⟨n, rfl⟩ : ∃ k, n = k + 1 := ⟨n - 1, by omega⟩
      have := list_ok (h := H) (p := p) (by rw [hf _ (by simp), hp])
      simp only [copyData, obj_ok ho, Out.ok_bind, this, reduceCtorEq, if_false, if_true]
      rw [hN n (by omega)]
      rfl
    · rw [add_comm]
      refine .arr (alloc_cell H' _) (hr.frame fun x hx => ea.same x ?_)
      intro hc
      have h1 := (ea.mem x).1 hc
      have h2 := (he.mem x).1 hx
      omega
  | .obj (p := p) (as := as) (G := G) hp hk hs h => by
    obtain ⟨N, bs, H', T', hN, he, hr⟩ := h.copyAll H (fun x hx => hf x (by simp [hx])) (fun x hx => hlt x (by simp [hx]))
    have ea := Ext.alloc H' (.map ((as.map Prod.fst).zip bs))
    refine ⟨N + 1, .ptr (H'.alloc (.map ((as.map Prod.fst).zip bs))).1,
      (H'.alloc (.map ((as.map Prod.fst).zip bs))).2, _, fun n hn => ?_, (he.trans ea), ?_⟩
    · obtain ⟨n, rfl⟩ : ∃ k, n = k + 1 := ⟨n - 1, by omega⟩
      have := map_ok (h := H) (p := p) (by rw [hf _ (by simp), hp])
      simp only [copyData, obj_ok ho, Out.ok_bind, this, if_true]
      rw [hN n (by omega)]
      rfl
    · have hl : (as.map Prod.fst).length = bs.length := by
        have h1 := hr.length
        have h2 := congrArg List.length hk
        simp only [List.length_map] at *
        omega
      rw [add_comm]
      refine .obj (alloc_cell H' _) ?_ hs ?_
      · rw [zip_fst _ _ hl, hk]
      · rw [zip_snd _ _ hl]
        refine hr.frame fun x hx => ea.same x ?_
        intro hc
        have h1 := (ea.mem x).1 hc
        have h2 := (he.mem x).1 hx
        omega

theorem RepL.copyAll {c : Cells} {as l G} (h : RepL c as l G) (H : Heap)
    (hf : ∀ x ∈ G, H.cell x = c x) (hlt : ∀ x ∈ G, x < H.next) :
    ∃ N bs H' G', (∀ n ≥ N, Mem.copyAll n H as = .ok (bs, H')) ∧ Ext H H' G' ∧ RepL H'.cell bs l G' :=
  match h with
  | .nil => ⟨0, [], H, 0, fun n _ => by simp [Mem.copyAll], Ext.refl H, .nil⟩
  | .cons (a := a) (ty := ty) (T := T) (G := G) ha h hl => by
    obtain ⟨N1, d', H1, T1, e1, x1, r1⟩ := h.copy H a (fun x hx => hf x (by simp [hx])) (fun x hx => hlt x (by simp [hx]))
      (by rw [hf _ (by simp), ha])
    have ea := Ext.alloc H1 (.obj ty d')
    have hsame : ∀ x ∈ G, x < H.next → x ∉ T1 + {(H1.alloc (.obj ty d')).1} := by
      intro x _ hx hc
      have h1 := ((x1.trans ea).mem x).1 hc
      omega
    have hle := (x1.trans ea).le
    obtain ⟨N2, bs, H2, T2, e2, x2, r2⟩ := hl.copyAll (H1.alloc (.obj ty d')).2
      (fun x hx => by rw [(x1.trans ea).same x (hsame x hx (hlt x (by simp [hx]))), hf x (by simp [hx])])
      (fun x hx => lt_of_lt_of_le (hlt x (by simp [hx])) hle)
    refine ⟨max N1 N2, (H1.alloc (.obj ty d')).1 :: bs, H2, _, fun n hn => ?_, (x1.trans ea).trans x2, ?_⟩
    · unfold Mem.copyAll
      rw [e1 n (le_trans (le_max_left _ _) hn), Out.ok_bind]
      show (do
        let (bs, h) ← Mem.copyAll n (H1.alloc (.obj ty d')).2 _
        Out.ok ((H1.alloc (.obj ty d')).1 :: bs, h)) = _
      rw [e2 n (le_trans (le_max_right _ _) hn), Out.ok_bind]
    · rw [add_comm T1]
      refine .cons ?_ (r1.frame ?_) r2
      · rw [x2.same, alloc_cell]
        intro hc
        have h1 := (x2.mem _).1 hc
        have h2 := (ea.mem _).1 (Multiset.mem_singleton_self _)
        omega
      · intro x hx
        have h1 := (x1.mem _).1 hx
        rw [x2.same, ea.same]
        · intro hc
          have h2 := (ea.mem _).1 hc
          omega
        · intro hc
          have h2 := (x2.mem _).1 hc
          have := ea.le
          omega

end


/-! ### Changes of the memory -/

/-- The addresses `F` are in use once, and the memory ends at `next`. -/
structure Own (h : Heap) (F : Multiset Nat) : Prop where
  nodup : F.Nodup
  lt : ∀ x ∈ F, x < h.next
  wf : ∀ x, h.next ≤ x → h.cell x = none

/-- The memory changes only where `F` was and `F'` is; the addresses of `F'` that are not in `F` are new, and those that are
no longer used are free. -/
structure Chg (h h' : Heap) (F F' : Multiset Nat) : Prop where
  same : ∀ x, x ∉ F → x ∉ F' → h'.cell x = h.cell x
  le : h.next ≤ h'.next
  nodup : F'.Nodup
  mem : ∀ x ∈ F', x ∈ F ∨ (h.next ≤ x ∧ x < h'.next)
  dead : ∀ x ∈ F, x ∉ F' → h'.cell x = none

theorem Own.sub {h : Heap} {F G : Multiset Nat} (o : Own h F) (hs : G ≤ F) : Own h G :=
  ⟨Multiset.nodup_of_le hs o.nodup, fun x hx => o.lt x (Multiset.mem_of_le hs hx), o.wf⟩

theorem Own.left {h : Heap} {F G : Multiset Nat} (o : Own h (F + G)) : Own h F := o.sub (Multiset.le_add_right _ _)

theorem Own.right {h : Heap} {F G : Multiset Nat} (o : Own h (F + G)) : Own h G := o.sub (Multiset.le_add_left _ _)

theorem Own.disj {h : Heap} {F G : Multiset Nat} (o : Own h (F + G)) : ∀ x ∈ F, x ∉ G := fun _ hx =>
  Multiset.disjoint_left.1 (Multiset.nodup_add.1 o.nodup).2.2 hx

theorem Chg.own {h h' : Heap} {F F' : Multiset Nat} (o : Own h F) (c : Chg h h' F F') : Own h' F' := by
  refine ⟨c.nodup, fun x hx => ?_, fun x hx => ?_⟩
  · rcases c.mem x hx with h1 | h1
    · exact lt_of_lt_of_le (o.lt x h1) c.le
    · exact h1.2
  · have h1 : x ∉ F := fun hc => absurd (o.lt x hc) (by have := c.le; omega)
    rw [c.same x h1, o.wf x (c.le.trans hx)]
    intro hc
    rcases c.mem x hc with h2 | h2
    · exact h1 h2
    · omega

theorem Chg.refl {h : Heap} {F : Multiset Nat} (o : Own h F) : Chg h h F F :=
  ⟨fun _ _ _ => rfl, le_rfl, o.nodup, fun _ hx => Or.inl hx, fun _ hx hx' => absurd hx hx'⟩

theorem Chg.trans {h h' h'' : Heap} {F F' F'' : Multiset Nat} (o : Own h F) (c : Chg h h' F F') (c' : Chg h' h'' F' F'') :
    Chg h h'' F F'' := by
  refine ⟨fun x hx hx'' => ?_, c.le.trans c'.le, c'.nodup, fun x hx => ?_, fun x hx hx'' => ?_⟩
  · by_cases hx' : x ∈ F'
    · rw [c'.dead x hx' hx'']
      rcases c.mem x hx' with h1 | h1
      · exact absurd h1 hx
      · rw [o.wf x h1.1]
    · rw [c'.same x hx' hx'', c.same x hx hx']
  · rcases c'.mem x hx with h1 | h1
    · rcases c.mem x h1 with h2 | h2
      · exact Or.inl h2
      · exact Or.inr ⟨h2.1, lt_of_lt_of_le h2.2 c'.le⟩
    · exact Or.inr ⟨c.le.trans h1.1, h1.2⟩
  · by_cases hx' : x ∈ F'
    · exact c'.dead x hx' hx''
    · rw [c'.same x hx' hx'', c.dead x hx hx']

theorem Chg.agree {h h' : Heap} {F F' G : Multiset Nat} (c : Chg h h' F F') (hd : ∀ x ∈ G, x ∉ F)
    (hl : ∀ x ∈ G, x < h.next) : ∀ x ∈ G, h'.cell x = h.cell x := by
  intro x hx
  refine c.same x (hd x hx) fun hc => ?_
  rcases c.mem x hc with h1 | h1
  · exact hd x hx h1
  · have := hl x hx
    omega

/-- addresses that are not concerned -/
theorem Chg.ctx {h h' : Heap} {F F' C : Multiset Nat} (o : Own h (C + F)) (c : Chg h h' F F') :
    Chg h h' (C + F) (C + F') := by
  have hd := o.disj
  have hl := o.left.lt
  refine ⟨fun x hx hx' => ?_, c.le, ?_, fun x hx => ?_, fun x hx hx' => ?_⟩
  · rw [Multiset.mem_add, not_or] at hx hx'
    exact c.same x hx.2 hx'.2
  · rw [Multiset.nodup_add]
    refine ⟨o.left.nodup, c.nodup, Multiset.disjoint_left.2 fun {x} hx hx' => ?_⟩
    rcases c.mem x hx' with h1 | h1
    · exact hd x hx h1
    · have := hl x hx
      omega
  · rcases Multiset.mem_add.1 hx with h1 | h1
    · exact Or.inl (by simp [h1])
    · rcases c.mem x h1 with h2 | h2
      · exact Or.inl (by simp [h2])
      · exact Or.inr h2
  · rw [Multiset.mem_add, not_or] at hx'
    rcases Multiset.mem_add.1 hx with h1 | h1
    · exact absurd h1 hx'.1
    · exact c.dead x h1 hx'.2

theorem Ext.chg {h h' : Heap} {F T : Multiset Nat} (o : Own h F) (e : Ext h h' T) : Chg h h' F (F + T) := by
  refine ⟨fun x _ hx => ?_, e.le, ?_, fun x hx => ?_, fun x hx hx' => ?_⟩
  · rw [Multiset.mem_add, not_or] at hx
    exact e.same x hx.2
  · rw [Multiset.nodup_add]
    refine ⟨o.nodup, e.nodup, Multiset.disjoint_left.2 fun {x} hx hx' => ?_⟩
    have := o.lt x hx
    have := (e.mem x).1 hx'
    omega
  · rcases Multiset.mem_add.1 hx with h1 | h1
    · exact Or.inl h1
    · exact Or.inr ((e.mem x).1 h1)
  · exact absurd (Multiset.mem_add.2 (Or.inl hx)) hx'

theorem put_chg {h : Heap} {F : Multiset Nat} {a : Nat} (cl : Cell) (o : Own h F) (ha : a ∈ F) : Chg h (h.put a cl) F F := by
  refine ⟨fun x hx _ => ?_, le_rfl, o.nodup, fun _ hx => Or.inl hx, fun _ hx hx' => absurd hx hx'⟩
  have : x ≠ a := fun hc => hx (hc ▸ ha)
  simp [Heap.put, this]

theorem put_same' (h : Heap) (a : Nat) (cl : Cell) : (h.put a cl).cell a = some cl := by simp [Heap.put]

theorem put_other {h : Heap} {a x : Nat} (cl : Cell) (hx : x ≠ a) : (h.put a cl).cell x = h.cell x := by
  simp [Heap.put, hx]

theorem freeAll_chg {h : Heap} {C T : Multiset Nat} (o : Own h (C + T)) : Chg h (h.freeAll T) (C + T) C := by
  refine ⟨fun x hx _ => ?_, le_rfl, o.left.nodup, fun x hx => Or.inl (by simp [hx]), fun x hx hx' => ?_⟩
  · rw [Multiset.mem_add, not_or] at hx
    simp [Heap.freeAll, hx.2]
  · rcases Multiset.mem_add.1 hx with h1 | h1
    · exact absurd h1 hx'
    · simp [Heap.freeAll, h1]

theorem freeAll_other {h : Heap} {T : Multiset Nat} {x : Nat} (hx : x ∉ T) : (h.freeAll T).cell x = h.cell x := by
  simp [Heap.freeAll, hx]

/-! ### The single operations -/

theorem Rep.mk {c : Cells} {o ty d v T} (h : c o = some (.obj ty d)) (hr : RepD c ty d v T) : Rep c o v ({o} + T) :=
  ⟨ty, d, T, h, hr, rfl⟩

theorem Rep.self_mem {c : Cells} {o v F} (h : Rep c o v F) : o ∈ F := by
  obtain ⟨ty, d, T, _, _, rfl⟩ := h
  simp

theorem destroy_rep {h : Heap} {o : Nat} {v : Value} {F : Multiset Nat} (hr : Rep h.cell o v F) (hn : F.Nodup) :
    ∃ N, ∀ n ≥ N, destroy n h o = .ok (h.freeAll F) := by
  obtain ⟨ty, d, T, h1, h2, rfl⟩ := hr
  obtain ⟨N, hN⟩ := h2.clear (Multiset.nodup_add.1 hn).2.1
  refine ⟨N, fun n hn => ?_⟩
  unfold destroy
  rw [hN n hn h o (fun _ _ => rfl) h1, Out.ok_bind, freeAll_free]

theorem copyCtor_rep {h : Heap} {o : Nat} {v : Value} {F : Multiset Nat} (hr : Rep h.cell o v F)
    (hl : ∀ x ∈ F, x < h.next) :
    ∃ N a h' F', (∀ n ≥ N, copyCtor n h o = .ok (a, h')) ∧ Ext h h' F' ∧ Rep h'.cell a v F' := by
  obtain ⟨ty, d, T, h1, h2, rfl⟩ := hr
  obtain ⟨N, d', h', T', e1, e2, e3⟩ := h2.copy h o (fun _ _ => rfl) (fun x hx => hl x (by simp [hx])) h1
  have ea := Ext.alloc h' (.obj ty d')
  refine ⟨N, (h'.alloc (.obj ty d')).1, (h'.alloc (.obj ty d')).2, _, fun n hn => ?_, e2.trans ea, ?_⟩
  · unfold copyCtor
    rw [e1 n hn, Out.ok_bind]
  · rw [add_comm]
    refine Rep.mk (alloc_cell _ _) (e3.frame fun x hx => ea.same x fun hc => ?_)
    have := (e2.mem x).1 hx
    have := (ea.mem x).1 hc
    omega

theorem assign_rep {h : Heap} {a b : Nat} {va vb : Value} {Fa Fb : Multiset Nat} (ha : Rep h.cell a va Fa)
    (hb : Rep h.cell b vb Fb) (o : Own h (Fb + Fa)) :
    ∃ N h' Fa', (∀ n ≥ N, assign n h a b = .ok h') ∧ Chg h h' Fa Fa' ∧ Rep h'.cell a vb Fa' := by
  have hd := o.disj
  obtain ⟨ty, d, T, h1, h2, rfl⟩ := ha
  obtain ⟨N1, hN1⟩ := h2.clear o.right.right.nodup
  have c1 : Chg h (h.freeAll T) ({a} + T) {a} := freeAll_chg o.right
  have o1 : Own (h.freeAll T) {a} := c1.own o.right
  have hb1 : Rep (h.freeAll T).cell b vb Fb := hb.frame fun x hx =>
    freeAll_other fun hc => hd x hx (by simp [hc])
  obtain ⟨ty', d', T', h1', h2', rfl⟩ := hb1
  obtain ⟨N2, d'', h'', T'', e1, e2, e3⟩ := h2'.copy (h.freeAll T) b (fun _ _ => rfl)
    (fun x hx => o.left.lt x (by simp [hx])) h1'
  have c2 := e2.chg o1
  have o2 := c2.own o1
  have c3 := put_chg (a := a) (.obj ty' d'') o2 (by simp)
  refine ⟨max N1 N2, _, {a} + T'', fun n hn => ?_, (c1.trans o.right c2).trans o.right c3, ?_⟩
  · unfold assign
    rw [hN1 n (le_trans (le_max_left _ _) hn) h a (fun _ _ => rfl) h1, Out.ok_bind,
      e1 n (le_trans (le_max_right _ _) hn), Out.ok_bind]
  · refine Rep.mk (put_same' _ _ _) (e3.frame fun x hx => put_other _ ?_)
    rintro rfl
    exact o2.disj x (by simp) hx

theorem moveAssign_rep {h : Heap} {a b : Nat} {va vb : Value} {Fa Fb : Multiset Nat} (ha : Rep h.cell a va Fa)
    (hb : Rep h.cell b vb Fb) (o : Own h (Fb + Fa)) :
    ∃ N h' Fa', (∀ n ≥ N, moveAssign n h a b = .ok h') ∧ Chg h h' (Fb + Fa) ({b} + Fa') ∧ Rep h'.cell a vb Fa' ∧
      Rep h'.cell b .null {b} := by
  have hd := o.disj
  obtain ⟨ty, d, T, h1, h2, rfl⟩ := ha
  obtain ⟨N1, hN1⟩ := h2.clear o.right.right.nodup
  have ef : Fb + ({a} + T) = Fb + {a} + T := by abel
  have o' := o
  rw [ef] at o'
  have c1 : Chg h (h.freeAll T) (Fb + {a} + T) (Fb + {a}) := freeAll_chg o'
  have o1 := c1.own o'
  have hb1 : Rep (h.freeAll T).cell b vb Fb := hb.frame fun x hx =>
    freeAll_other fun hc => hd x hx (by simp [hc])
  obtain ⟨ty', d', T', h1', h2', rfl⟩ := hb1
  have c2 := put_chg (a := a) (.obj ty' d') o1 (by simp)
  have o2 := c2.own o1
  have c3 := put_chg (a := b) (.obj .null .nullptr) o2 (by simp)
  have hab : a ≠ b := by
    rintro rfl
    exact hd a (by simp) (by simp)
  have hbT : b ∉ T' := o.left.disj b (by simp)
  have haT : a ∉ T' := fun hc => hd a (by simp [hc]) (by simp)
  have e4 : ({b} + T' + {a} : Multiset Nat) = {b} + ({a} + T') := by abel
  refine ⟨N1, ((h.freeAll T).put a (.obj ty' d')).put b (.obj .null .nullptr), {a} + T', fun n hn => ?_, ?_, ?_, ?_⟩
  · unfold moveAssign
    rw [hN1 n hn h a (fun _ _ => rfl) h1, Out.ok_bind, obj_ok h1', Out.ok_bind]
  · rw [ef, ← e4]
    exact (c1.trans o' c2).trans o' c3
  · refine Rep.mk (ty := ty') (d := d') ?_ (h2'.frame fun x hx => ?_)
    · rw [put_other _ hab, put_same']
    · rw [put_other, put_other]
      · rintro rfl; exact haT hx
      · rintro rfl; exact hbT hx
  · exact Rep.mk (put_same' _ _ _) (.null _)

/-- the type of a value -/
def tyOf : Value → Ty
  | .null => .null
  | .bool _ => .boolean
  | .int _ => .integral
  | .float _ => .float
  | .str _ => .string
  | .arr _ => .array
  | .obj _ => .object

/-- the value of a new object of a type -/
def zero : Ty → Value
  | .null => .null
  | .boolean => .bool false
  | .integral => .int 0
  | .float => .float 0
  | .string => .str []
  | .array => .arr []
  | .object => .obj []

theorem RepD.ty {c : Cells} {ty d v T} (h : RepD c ty d v T) : ty = tyOf v := by cases h <;> rfl

theorem newData_rep (h : Heap) (ty : Ty) : ∃ T, Ext h (newData h ty).2 T ∧ RepD (newData h ty).2.cell ty (newData h ty).1 (zero ty) T := by
  cases ty
  · exact ⟨0, Ext.refl h, .null _⟩
  · refine ⟨_, Ext.alloc h (.map []), ?_⟩
    rw [← add_zero ({(h.alloc (.map [])).1} : Multiset Nat)]
    exact .obj (as := []) (m := []) (alloc_cell h _) rfl List.Pairwise.nil .nil
  · refine ⟨_, Ext.alloc h (.list []), ?_⟩
    rw [← add_zero ({(h.alloc (.list [])).1} : Multiset Nat)]
    exact .arr (alloc_cell h _) .nil
  · exact ⟨_, Ext.alloc h _, .str (alloc_cell h _)⟩
  · exact ⟨0, Ext.refl h, .float _⟩
  · exact ⟨0, Ext.refl h, .int _⟩
  · exact ⟨0, Ext.refl h, .bool _⟩

theorem setType_rep {h : Heap} {o : Nat} {v : Value} {F : Multiset Nat} (ty : Ty) (hr : Rep h.cell o v F) (ow : Own h F) :
    ∃ N h' F', (∀ n ≥ N, setType n h o ty = .ok h') ∧ Chg h h' F F' ∧
      Rep h'.cell o (if ty = tyOf v then v else zero ty) F' := by
  obtain ⟨t, d, T, h1, h2, rfl⟩ := hr
  have ht := h2.ty
  by_cases hc : ty = t
  · refine ⟨0, h, {o} + T, fun n _ => ?_, Chg.refl ow, ?_⟩
    · unfold setType
      rw [obj_ok h1, Out.ok_bind]
      simp only [if_pos hc]
    · rw [if_pos (hc.trans ht)]
      exact Rep.mk h1 h2
  · obtain ⟨N1, hN1⟩ := h2.clear ow.right.nodup
    have c1 : Chg h (h.freeAll T) ({o} + T) {o} := freeAll_chg ow
    have o1 := c1.own ow
    obtain ⟨T', e2, r2⟩ := newData_rep (h.freeAll T) ty
    have c2 := e2.chg o1
    have o2 := c2.own o1
    have c3 := put_chg (a := o) (.obj ty (newData (h.freeAll T) ty).1) o2 (by simp)
    refine ⟨N1, _, {o} + T', fun n hn => ?_, (c1.trans ow c2).trans ow c3, ?_⟩
    · unfold setType
      rw [obj_ok h1, Out.ok_bind]
      simp only [if_neg hc]
      rw [hN1 n hn h o (fun _ _ => rfl) h1, Out.ok_bind]
    · rw [if_neg (fun hh => hc (hh.trans ht.symm))]
      refine Rep.mk (put_same' _ _ _) (r2.frame fun x hx => put_other _ ?_)
      rintro rfl
      exact o2.disj x (by simp) hx

theorem ite_zero {ty : Ty} {v : Value} : tyOf (if ty = tyOf v then v else zero ty) = ty := by
  split_ifs with h
  · exact h.symm
  · cases ty <;> rfl

theorem writeScalar_rep {h : Heap} {o : Nat} {v : Value} {F : Multiset Nat} (x : Scalar) (hr : Rep h.cell o v F)
    (ow : Own h F) :
    ∃ N h' F', (∀ n ≥ N, writeScalar n h o x = .ok h') ∧ Chg h h' F F' ∧ Rep h'.cell o x.value F' := by
  cases x with
  | bool b =>
    obtain ⟨N, h', F', e1, e2, r⟩ := setType_rep .boolean hr ow
    have ht := ite_zero (ty := .boolean) (v := v)
    generalize (if Ty.boolean = tyOf v then v else zero .boolean) = w at r ht
    obtain ⟨t, d, T, h1, h2, rfl⟩ := r
    obtain rfl : T = 0 := by cases h2 <;> first | rfl | exact absurd ht (by simp [tyOf])
    refine ⟨N, h'.put o (.obj .boolean (.bool b)), _, fun n hn => ?_, e2.trans ow (put_chg _ (e2.own ow) (by simp)), ?_⟩
    · simp only [writeScalar, e1 n hn, Out.ok_bind]
    · exact Rep.mk (put_same' _ _ _) (.bool b)
  | int b =>
    obtain ⟨N, h', F', e1, e2, r⟩ := setType_rep .integral hr ow
    have ht := ite_zero (ty := .integral) (v := v)
    generalize (if Ty.integral = tyOf v then v else zero .integral) = w at r ht
    obtain ⟨t, d, T, h1, h2, rfl⟩ := r
    obtain rfl : T = 0 := by cases h2 <;> first | rfl | exact absurd ht (by simp [tyOf])
    refine ⟨N, h'.put o (.obj .integral (.int b)), _, fun n hn => ?_, e2.trans ow (put_chg _ (e2.own ow) (by simp)), ?_⟩
    · simp only [writeScalar, e1 n hn, Out.ok_bind]
    · exact Rep.mk (put_same' _ _ _) (.int b)
  | float b =>
    obtain ⟨N, h', F', e1, e2, r⟩ := setType_rep .float hr ow
    have ht := ite_zero (ty := .float) (v := v)
    generalize (if Ty.float = tyOf v then v else zero .float) = w at r ht
    obtain ⟨t, d, T, h1, h2, rfl⟩ := r
    obtain rfl : T = 0 := by cases h2 <;> first | rfl | exact absurd ht (by simp [tyOf])
    refine ⟨N, h'.put o (.obj .float (.float b)), _, fun n hn => ?_, e2.trans ow (put_chg _ (e2.own ow) (by simp)), ?_⟩
    · simp only [writeScalar, e1 n hn, Out.ok_bind]
    · exact Rep.mk (put_same' _ _ _) (.float b)
  | str s =>
    obtain ⟨N, h', F', e1, e2, r⟩ := setType_rep .string hr ow
    have ht := ite_zero (ty := .string) (v := v)
    generalize (if Ty.string = tyOf v then v else zero .string) = w at r ht
    obtain ⟨t, d, T, h1, h2, rfl⟩ := r
    have : ∃ p s', t = .string ∧ d = .ptr p ∧ T = {p} ∧ h'.cell p = some (.str s') := by
      cases h2
      case str p s' hp => exact ⟨p, s', rfl, rfl, rfl, hp⟩
      all_goals exact absurd ht (by simp [tyOf])
    obtain ⟨p, s', rfl, rfl, rfl, hp⟩ := this
    have ow' := e2.own ow
    refine ⟨N, h'.put p (.str s), _, fun n hn => ?_, e2.trans ow (put_chg _ ow' (by simp)), ?_⟩
    · simp only [writeScalar, e1 n hn, Out.ok_bind, obj_ok h1, str_ok hp]
    · refine Rep.mk (ty := .string) (d := .ptr p) ?_ (.str (put_same' _ _ _))
      rw [put_other, h1]
      rintro rfl
      exact ow'.disj o (by simp) (by simp)

theorem assignScalar_rep {h : Heap} {o : Nat} {v : Value} {F : Multiset Nat} (x : Scalar) (hr : Rep h.cell o v F)
    (ow : Own h F) :
    ∃ N h' F', (∀ n ≥ N, assignScalar n h o x = .ok h') ∧ Chg h h' F F' ∧ Rep h'.cell o x.value F' := by
  obtain ⟨N1, h1, F1, e1, c1, r1⟩ := writeScalar_rep x hr ow
  have o1 := c1.own ow
  obtain ⟨N2, t, h2, F2, e2, x2, r2⟩ := copyCtor_rep r1 o1.lt
  have c2 := x2.chg o1
  have o2 := c2.own o1
  obtain ⟨N3, e3⟩ := destroy_rep r2 x2.nodup
  have c3 : Chg h2 (h2.freeAll F2) (F1 + F2) F1 := freeAll_chg o2
  refine ⟨max N1 (max N2 N3), _, F1, fun n hn => ?_, (c1.trans ow c2).trans ow c3, ?_⟩
  · unfold assignScalar
    rw [e1 n (by omega), Out.ok_bind, e2 n (by omega), Out.ok_bind]
    exact e3 n (by omega)
  · refine r1.frame fun z hz => ?_
    rw [freeAll_other (o2.disj z hz), x2.same z (o2.disj z hz)]

/-! ### Elements -/

theorem RepL.append {c : Cells} {as l G} (h : RepL c as l G) {bs l' G'} (h' : RepL c bs l' G') :
    RepL c (as ++ bs) (l ++ l') (G + G') :=
  match h with
  | .nil => by simpa using h'
  | .cons ha h hl => by
    have := RepL.cons ha h (hl.append h')
    rw [← add_assoc] at this
    exact this

theorem repL_cons_iff {c : Cells} {a as v l G} (h : RepL c (a :: as) (v :: l) G) :
    ∃ Fa G', Rep c a v Fa ∧ RepL c as l G' ∧ G = Fa + G' := by
  cases h with
  | cons ha h hl => exact ⟨_, _, Rep.mk ha h, hl, rfl⟩

theorem RepL.cons' {c : Cells} {a as v l F G} (h : Rep c a v F) (hl : RepL c as l G) : RepL c (a :: as) (v :: l) (F + G) := by
  obtain ⟨ty, d, T, h1, h2, rfl⟩ := h
  exact .cons h1 h2 hl

theorem RepL.hole {c : Cells} : ∀ {as : List Nat} {l : List Value} {G : Multiset Nat}, RepL c as l G →
    ∀ (i : Nat) (hi : i < as.length), ∃ Fa C, Rep c as[i] (l.getD i .null) Fa ∧ G = C + Fa ∧
      ∀ (c'' : Cells) w Fw, (∀ z ∈ C, c'' z = c z) → Rep c'' as[i] w Fw → RepL c'' as (l.set i w) (C + Fw)
  | [], l, G, _, i, hi => by simp at hi
  | a :: as, [], G, h, _, _ => by cases h
  | a :: as, v :: l, G, h, i, hi => by
    obtain ⟨Fa, G', h1, h2, rfl⟩ := repL_cons_iff h
    cases i with
    | zero =>
      refine ⟨Fa, G', h1, add_comm _ _, fun c'' w Fw hf hw => ?_⟩
      rw [add_comm]
      exact RepL.cons' hw (h2.frame hf)
    | succ i =>
      obtain ⟨F1, C, r1, rfl, hh⟩ := h2.hole i (by simpa using hi)
      refine ⟨F1, Fa + C, by simpa using r1, by abel, fun c'' w Fw hf hw => ?_⟩
      have := RepL.cons' (h1.frame fun z hz => hf z (by simp [hz])) (hh c'' w Fw (fun z hz => hf z (by simp [hz])) (by simpa using hw))
      rw [add_assoc]
      simpa using this

theorem find_some {c : Cells} {k : Str} : ∀ {as : List (Str × Nat)} {m : List (Str × Value)} {G : Multiset Nat} {x a y},
    RepL c (as.map Prod.snd) (m.map Prod.snd) G → as.map Prod.fst = m.map Prod.fst →
    find k as = (x, some a, y) → ∃ Fa C, Rep c a (mapAt m k) Fa ∧ G = C + Fa ∧
      ∀ (c'' : Cells) w Fw, (∀ z ∈ C, c'' z = c z) → Rep c'' a w Fw →
        RepL c'' (as.map Prod.snd) ((put k w m).map Prod.snd) (C + Fw) ∧ (put k w m).map Prod.fst = m.map Prod.fst
  | [], m, G, x, a, y, _, _, hf => by simp [find] at hf
  | (k', b) :: as, [], G, x, a, y, h, _, _ => by cases h
  | (k', b) :: as, (k'', v) :: m, G, x, a, y, h, hk, hf => by
    simp only [List.map_cons, List.cons.injEq] at hk
    obtain ⟨rfl, hk⟩ := hk
    obtain ⟨Fa, G', h1, h2, rfl⟩ := repL_cons_iff h
    unfold find at hf
    by_cases e1 : k = k'
    · subst e1
      rw [if_pos rfl] at hf
      simp only [Prod.mk.injEq, Option.some.injEq] at hf
      obtain ⟨_, rfl, _⟩ := hf
      refine ⟨Fa, G', by simpa [mapAt] using h1, add_comm _ _, fun c'' w Fw hf hw => ?_⟩
      simp only [put, if_true, List.map_cons]
      refine ⟨?_, trivial⟩
      rw [add_comm]
      exact RepL.cons' hw (h2.frame hf)
    · rw [if_neg e1] at hf
      by_cases e2 : k < k'
      · rw [if_pos e2] at hf
        simp at hf
      · rw [if_neg e2] at hf
        rcases hff : find k as with ⟨x', r, y'⟩
        rw [hff] at hf
        simp only [Prod.mk.injEq] at hf
        obtain ⟨_, rfl, _⟩ := hf
        obtain ⟨F1, C, r1, rfl, hh⟩ := find_some h2 hk hff
        refine ⟨F1, Fa + C, ?_, by abel, fun c'' w Fw hf hw => ?_⟩
        · have : mapAt ((k', v) :: m) k = mapAt m k := by
            unfold mapAt
            rw [List.lookup_cons]
            have : (k == k') = false := by simpa using e1
            rw [this]
          rw [this]
          exact r1
        · obtain ⟨g1, g2⟩ := hh c'' w Fw (fun z hz => hf z (by simp [hz])) hw
          simp only [put, if_neg e1, if_neg e2, List.map_cons, g2]
          refine ⟨?_, trivial⟩
          rw [add_assoc]
          exact RepL.cons' (h1.frame fun z hz => hf z (by simp [hz])) g1

theorem find_none {c : Cells} {k : Str} : ∀ {as : List (Str × Nat)} {m : List (Str × Value)} {G : Multiset Nat} {x y},
    RepL c (as.map Prod.snd) (m.map Prod.snd) G → as.map Prod.fst = m.map Prod.fst →
    (m.map Prod.fst).Pairwise (· < ·) →
    find k as = (x, none, y) → mapAt m k = .null ∧
      ∀ (c'' : Cells) a w Fw, (∀ z ∈ G, c'' z = c z) → Rep c'' a w Fw →
        RepL c'' ((x ++ (k, a) :: y).map Prod.snd) ((put k w m).map Prod.snd) (G + Fw) ∧
        (x ++ (k, a) :: y).map Prod.fst = (put k w m).map Prod.fst
  | [], [], G, x, y, h, _, _, hf => by
    simp only [find, Prod.mk.injEq, true_and] at hf
    obtain ⟨rfl, rfl⟩ := hf
    cases h
    refine ⟨rfl, fun c'' a w Fw _ hw => ⟨?_, rfl⟩⟩
    rw [zero_add, ← add_zero Fw]
    exact RepL.cons' hw .nil
  | [], (k'', v) :: m, G, x, y, h, _, _, _ => by cases h
  | (k', b) :: as, [], G, x, y, h, _, _, _ => by cases h
  | (k', b) :: as, (k'', v) :: m, G, x, y, h, hk, hs, hf => by
    simp only [List.map_cons, List.cons.injEq] at hk
    obtain ⟨rfl, hk⟩ := hk
    obtain ⟨Fa, G', h1, h2, rfl⟩ := repL_cons_iff h
    rw [List.map_cons, List.pairwise_cons] at hs
    unfold find at hf
    by_cases e1 : k = k'
    · rw [if_pos e1] at hf
      simp at hf
    · rw [if_neg e1] at hf
      by_cases e2 : k < k'
      · rw [if_pos e2] at hf
        simp only [Prod.mk.injEq, true_and] at hf
        obtain ⟨rfl, rfl⟩ := hf
        refine ⟨?_, fun c'' a w Fw hf hw => ?_⟩
        · unfold mapAt
          rw [lookup_eq, List.find?_eq_none.2]
          · rfl
          · intro q hq
            rcases List.mem_cons.1 hq with rfl | hq
            · simpa using Ne.symm e1
            · have := hs.1 q.1 (List.mem_map_of_mem hq)
              have := List.lt_trans e2 this
              simp only [decide_eq_true_eq]
              rintro rfl
              exact List.lt_irrefl _ this
        · simp only [put, if_neg e1, if_pos e2, List.nil_append, List.map_cons, hk]
          refine ⟨?_, trivial⟩
          rw [add_comm]
          exact RepL.cons' hw (RepL.cons' (h1.frame fun z hz => hf z (by simp [hz])) (h2.frame fun z hz => hf z (by simp [hz])))
      · rw [if_neg e2] at hf
        rcases hff : find k as with ⟨x', r, y'⟩
        rw [hff] at hf
        simp only [Prod.mk.injEq] at hf
        obtain ⟨rfl, rfl, rfl⟩ := hf
        obtain ⟨r1, hh⟩ := find_none h2 hk hs.2 hff
        refine ⟨?_, fun c'' a w Fw hf hw => ?_⟩
        · have : mapAt ((k', v) :: m) k = mapAt m k := by
            unfold mapAt
            rw [List.lookup_cons]
            have : (k == k') = false := by simpa using e1
            rw [this]
          rw [this]
          exact r1
        · obtain ⟨g1, g2⟩ := hh c'' a w Fw (fun z hz => hf z (by simp [hz])) hw
          simp only [put, if_neg e1, if_neg e2, List.map_cons, List.cons_append, g2]
          refine ⟨?_, trivial⟩
          rw [add_assoc]
          exact RepL.cons' (h1.frame fun z hz => hf z (by simp [hz])) g1


theorem rep_obj {c : Cells} {o m F} (h : Rep c o (.obj m) F) : ∃ p as G, c o = some (.obj .object (.ptr p)) ∧
    c p = some (.map as) ∧ as.map Prod.fst = m.map Prod.fst ∧ (m.map Prod.fst).Pairwise (· < ·) ∧
    RepL c (as.map Prod.snd) (m.map Prod.snd) G ∧ F = {o} + ({p} + G) := by
  obtain ⟨ty, d, T, h1, h2, rfl⟩ := h
  cases h2 with
  | obj hp hk hs h => exact ⟨_, _, _, h1, hp, hk, hs, h, rfl⟩

theorem rep_arr {c : Cells} {o l F} (h : Rep c o (.arr l) F) : ∃ p as G, c o = some (.obj .array (.ptr p)) ∧
    c p = some (.list as) ∧ RepL c as l G ∧ F = {o} + ({p} + G) := by
  obtain ⟨ty, d, T, h1, h2, rfl⟩ := h
  cases h2 with
  | arr hp h => exact ⟨_, _, _, h1, hp, h, rfl⟩

theorem ite_obj (v : Value) : (if Ty.object = tyOf v then v else zero .object) = .obj (asObj v) := by
  cases v <;> simp [tyOf, zero, asObj]

theorem ite_arr (v : Value) : (if Ty.array = tyOf v then v else zero .array) = .arr (asArr v) := by
  cases v <;> simp [tyOf, zero, asArr]

theorem sorted_iff (m : List (Str × Value)) : (m.map Prod.fst).Pairwise (· < ·) ↔ m.Pairwise (fun a b => a.1 < b.1) :=
  List.pairwise_map

theorem default_rep (h : Heap) : Ext h (default h).2 {(default h).1} ∧ Rep (default h).2.cell (default h).1 .null {(default h).1} := by
  refine ⟨Ext.alloc h _, ?_⟩
  rw [← add_zero ({(default h).1} : Multiset Nat)]
  exact Rep.mk (alloc_cell h _) (.null _)

theorem key_rep {h : Heap} {o : Nat} {v : Value} {F : Multiset Nat} (k : Str) (hr : Rep h.cell o v F) (ow : Own h F) :
    ∃ N a h' Fa C, (∀ n ≥ N, key n h o k = .ok (a, h')) ∧ Rep h'.cell a (mapAt (asObj v) k) Fa ∧ Chg h h' F (C + Fa) ∧
      ∀ (c'' : Cells) w Fw, (∀ z ∈ C, c'' z = h'.cell z) → Rep c'' a w Fw →
        Rep c'' o (.obj (put k w (asObj v))) (C + Fw) := by
  obtain ⟨N, h1, F1, e1, c1, r1⟩ := setType_rep .object hr ow
  rw [ite_obj] at r1
  have o1 := c1.own ow
  obtain ⟨p, as, G, q1, q2, q3, q4, q5, rfl⟩ := rep_obj r1
  have hop : p ≠ o := by
    rintro rfl
    exact o1.disj p (by simp) (by simp)
  have hk : ∀ n ≥ N, key n h o k = .ok (entry h1 p k (find k as)) := by
    intro n hn
    simp only [key, e1 n hn, Out.ok_bind, obj_ok q1, map_ok q2]
  rcases hf : find k as with ⟨x, r, y⟩
  rw [hf] at hk
  cases r with
  | some a =>
    obtain ⟨Fa, C, g1, rfl, g2⟩ := find_some q5 q3 hf
    have ea : ({o} + ({p} + (C + Fa)) : Multiset Nat) = {o} + {p} + C + Fa := by abel
    refine ⟨N, a, h1, Fa, {o} + {p} + C, hk, g1, ea ▸ c1, fun c'' w Fw hc hw => ?_⟩
    obtain ⟨k1, k2⟩ := g2 c'' w Fw (fun z hz => hc z (by simp [hz])) hw
    have e2 : ({o} + {p} + C + Fw : Multiset Nat) = {o} + ({p} + (C + Fw)) := by abel
    rw [e2]
    refine Rep.mk (ty := .object) (d := .ptr p) (by rw [hc o (by simp), q1])
      (.obj (as := as) (by rw [hc p (by simp), q2]) (q3.trans k2.symm) ?_ k1)
    rw [k2]
    exact q4
  | none =>
    obtain ⟨g1, g2⟩ := find_none q5 q3 q4 hf
    obtain ⟨x2, r2⟩ := default_rep h1
    have c2 := x2.chg o1
    have o2 := c2.own o1
    have c3 := put_chg (a := p) (.map (x ++ (k, (default h1).1) :: y)) o2 (by simp)
    have hne : ∀ z ∈ ({o} + ({p} + G) : Multiset Nat), z ≠ (default h1).1 := fun z hz => (o1.lt z hz).ne
    refine ⟨N, (default h1).1, (default h1).2.put p (.map (x ++ (k, (default h1).1) :: y)), {(default h1).1},
      {o} + ({p} + G), hk, ?_, (c1.trans ow c2).trans ow c3, fun c'' w Fw hc hw => ?_⟩
    · rw [g1]
      refine r2.frame fun z hz => put_other _ ?_
      rw [Multiset.mem_singleton.1 hz]
      exact (hne p (by simp)).symm
    · have hp : p ∉ G := o1.right.disj p (by simp)
      obtain ⟨k1, k2⟩ := g2 c'' (default h1).1 w Fw (fun z hz => by
        rw [hc z (by simp [hz]), put_other, x2.same]
        · simpa using hne z (by simp [hz])
        · rintro rfl; exact hp hz) hw
      have e2 : ({o} + ({p} + G) + Fw : Multiset Nat) = {o} + ({p} + (G + Fw)) := by abel
      rw [e2]
      refine Rep.mk (ty := .object) (d := .ptr p) ?_ (.obj (by rw [hc p (by simp), put_same']) k2 ?_ k1)
      · rw [hc o (by simp), put_other _ hop.symm, x2.same, q1]
        simpa using hne o (by simp)
      · rw [sorted_iff] at q4 ⊢
        exact put_sorted _ _ q4

theorem defaults_rep : ∀ (n : Nat) (h : Heap), ∃ T, Ext h (defaults n h).2 T ∧
    RepL (defaults n h).2.cell (defaults n h).1 (List.replicate n .null) T
  | 0, h => ⟨0, Ext.refl h, .nil⟩
  | n + 1, h => by
    obtain ⟨x1, r1⟩ := default_rep h
    obtain ⟨T, x2, r2⟩ := defaults_rep n (default h).2
    refine ⟨_, x1.trans x2, RepL.cons' (r1.frame fun z hz => x2.same z fun hc => ?_) r2⟩
    have := (x1.mem z).1 hz
    have := (x2.mem z).1 hc
    omega

theorem getD_ext (l : List Value) (k j : Nat) : (l ++ List.replicate k Value.null).getD j Value.null = l.getD j Value.null := by
  rw [List.getD_eq_getElem?_getD, List.getD_eq_getElem?_getD]
  by_cases h : j < l.length
  · rw [List.getElem?_append_left h]
  · rw [List.getElem?_append_right (by omega), List.getElem?_replicate, List.getElem?_eq_none (by omega : l.length ≤ j)]
    split_ifs <;> rfl

/-- the list with an element at `i` -/
def extTo (i : Int) (l : List Value) : List Value :=
  if i ≥ l.length then l ++ List.replicate ((i + 1).toNat - l.length) .null else l

theorem getD_extTo (i : Int) (l : List Value) (j : Nat) : (extTo i l).getD j .null = l.getD j .null := by
  unfold extTo
  split_ifs
  · exact getD_ext _ _ _
  · rfl

theorem index_rep {h : Heap} {o : Nat} {v : Value} {F : Multiset Nat} (i : Int) (h0 : 0 ≤ i)
    (hb : i ≥ (asArr v).length → Cpp.int (i + 1) = .ok (i + 1)) (hr : Rep h.cell o v F) (ow : Own h F) :
    ∃ N a h' Fa C, (∀ n ≥ N, index n h o i = .ok (a, h')) ∧ Rep h'.cell a ((asArr v).getD i.toNat .null) Fa ∧
      Chg h h' F (C + Fa) ∧
      ∀ (c'' : Cells) w Fw, (∀ z ∈ C, c'' z = h'.cell z) → Rep c'' a w Fw →
        Rep c'' o (.arr ((extTo i (asArr v)).set i.toNat w)) (C + Fw) := by
  obtain ⟨N, h1, F1, e1, c1, r1⟩ := setType_rep .array hr ow
  rw [ite_arr] at r1
  have o1 := c1.own ow
  obtain ⟨p, as, G, q1, q2, q5, rfl⟩ := rep_arr r1
  have hop : p ≠ o := by
    rintro rfl
    exact o1.disj p (by simp) (by simp)
  have hlen := q5.length
  have key : ∃ as' h2 G', (∀ n ≥ N, index n h o i = (if i < 0 then Out.ub else
      if hi : i.toNat < as'.length then .ok (as'[i.toNat], h2) else .ub)) ∧ i.toNat < as'.length ∧
      h2.cell o = some (.obj .array (.ptr p)) ∧ h2.cell p = some (.list as') ∧ RepL h2.cell as' (extTo i (asArr v)) G' ∧
      Chg h1 h2 ({o} + ({p} + G)) ({o} + ({p} + G')) := by
    by_cases hi : i ≥ as.length
    · obtain ⟨T, x2, r2⟩ := defaults_rep ((i + 1).toNat - as.length) h1
      have c2 := x2.chg o1
      have o2 := c2.own o1
      have c3 := put_chg (a := p) (.list (as ++ (defaults ((i + 1).toNat - as.length) h1).1)) o2 (by simp)
      have hne : ∀ z ∈ ({o} + ({p} + G) : Multiset Nat), z ∉ T := o2.disj
      refine ⟨as ++ (defaults ((i + 1).toNat - as.length) h1).1, (defaults ((i + 1).toNat - as.length) h1).2.put p
        (.list (as ++ (defaults ((i + 1).toNat - as.length) h1).1)), G + T, fun n hn => ?_, ?_, ?_, put_same' _ _ _, ?_, ?_⟩
      · have hb' := hb (by omega)
        simp only [index, e1 n hn, Out.ok_bind, obj_ok q1, list_ok q2, if_pos hi, hb']
      · have := r2.length
        rw [List.length_replicate] at this
        rw [List.length_append]
        omega
      · rw [put_other _ hop.symm, x2.same _ (hne o (by simp)), q1]
      · have hpG : p ∉ G := o1.right.disj p (by simp)
        unfold extTo
        rw [if_pos (by omega), ← hlen]
        refine RepL.append (q5.frame fun z hz => ?_) (r2.frame fun z hz => put_other _ ?_)
        · rw [put_other, x2.same _ (hne z (by simp [hz]))]
          rintro rfl; exact hpG hz
        · rintro rfl; exact hne z (by simp) hz
      · have : ({o} + ({p} + (G + T)) : Multiset Nat) = {o} + ({p} + G) + T := by abel
        rw [this]
        exact c2.trans o1 c3
    · refine ⟨as, h1, G, fun n hn => ?_, by omega, q1, q2, ?_, Chg.refl o1⟩
      · simp only [index, e1 n hn, Out.ok_bind, obj_ok q1, list_ok q2, if_neg hi]
      · unfold extTo
        rw [if_neg (by omega)]
        exact q5
  obtain ⟨as', h2, G', k1, hi, k2, k3, k4, k5⟩ := key
  obtain ⟨Fa, C, g1, rfl, g2⟩ := k4.hole i.toNat hi
  have ea : ({o} + ({p} + (C + Fa)) : Multiset Nat) = {o} + {p} + C + Fa := by abel
  rw [getD_extTo] at g1
  refine ⟨N, as'[i.toNat], h2, Fa, {o} + {p} + C, fun n hn => ?_, g1, ea ▸ c1.trans ow k5, fun c'' w Fw hc hw => ?_⟩
  · rw [k1 n hn, if_neg (by omega), dif_pos hi]
  · have e2 : ({o} + {p} + C + Fw : Multiset Nat) = {o} + ({p} + (C + Fw)) := by abel
    rw [e2]
    exact Rep.mk (ty := .array) (d := .ptr p) (by rw [hc o (by simp), k2])
      (.arr (by rw [hc p (by simp), k3]) (g2 c'' w Fw (fun z hz => hc z (by simp [hz])) hw))

theorem peek_idx {i : Int} {p : List Step} {v e : Value} (h : peek (.idx i :: p) v = .ok e) :
    0 ≤ i ∧ (i ≥ (asArr v).length → Cpp.int (i + 1) = .ok (i + 1)) ∧ peek p ((asArr v).getD i.toNat .null) = .ok e := by
  unfold peek at h
  by_cases hi : i ≥ (asArr v).length
  · rw [if_pos hi] at h
    obtain ⟨x, hx, hs⟩ := Out.bind_eq_ok.1 h
    have h1 := int_eq_ok.1 hx
    by_cases hn : i < 0
    · rw [if_pos hn] at hs; cases hs
    · rw [if_neg hn] at hs
      refine ⟨by omega, fun _ => ?_, hs⟩
      exact int_ok h1.1
  · rw [if_neg hi] at h
    have hs : (if i < 0 then Out.ub else peek p ((asArr v).getD i.toNat .null)) = .ok e := h
    by_cases hn : i < 0
    · rw [if_pos hn] at hs; cases hs
    · rw [if_neg hn] at hs
      exact ⟨by omega, fun hc => absurd hc hi, hs⟩

theorem update_idx {i : Int} {p : List Step} {v w w' : Value} (h0 : 0 ≤ i)
    (hb : i ≥ (asArr v).length → Cpp.int (i + 1) = .ok (i + 1))
    (hu : update w p ((asArr v).getD i.toNat .null) = .ok w') :
    update w (.idx i :: p) v = .ok (.arr ((extTo i (asArr v)).set i.toNat w')) := by
  unfold update
  have e := getD_extTo i (asArr v) i.toNat
  unfold extTo at e ⊢
  by_cases hi : i ≥ (asArr v).length
  · simp only [if_pos hi] at e ⊢
    simp only [hb hi, Out.ok_bind]
    rw [if_neg (by omega), e, hu]
    rfl
  · simp only [if_neg hi] at e ⊢
    simp only [Out.ok_bind]
    rw [if_neg (by omega), hu]
    rfl

/-- A place inside an object: what is there can be exchanged. -/
def Hole (c : Cells) (o : Nat) (v : Value) (p : List Step) (a : Nat) (C : Multiset Nat) : Prop :=
  ∀ (c'' : Cells) w Fw, (∀ z ∈ C, c'' z = c z) → Rep c'' a w Fw → ∃ w', update w p v = .ok w' ∧ Rep c'' o w' (C + Fw)

theorem locate_rep : ∀ (p : List Step) {h : Heap} {o : Nat} {v e : Value} {F : Multiset Nat}, Rep h.cell o v F → Own h F →
    peek p v = .ok e → ∃ N a h' Fa C, (∀ n ≥ N, locate n h o p = .ok (a, h')) ∧ Rep h'.cell a e Fa ∧
      Chg h h' F (C + Fa) ∧ Hole h'.cell o v p a C
  | [], h, o, v, e, F, hr, ow, hp => by
    cases hp
    refine ⟨0, o, h, F, 0, fun n _ => rfl, hr, by rw [zero_add]; exact Chg.refl ow, fun c'' w Fw _ hw => ?_⟩
    rw [zero_add]
    exact ⟨w, rfl, hw⟩
  | .key k :: p, h, o, v, e, F, hr, ow, hp => by
    obtain ⟨N1, a1, h1, F1, C1, e1, r1, c1, g1⟩ := key_rep k hr ow
    have o1 := c1.own ow
    obtain ⟨N2, a2, h2, F2, C2, e2, r2, c2, g2⟩ := locate_rep p r1 o1.right hp
    have c2' := c2.ctx o1
    have ea : (C1 + (C2 + F2) : Multiset Nat) = C1 + C2 + F2 := by abel
    refine ⟨max N1 N2, a2, h2, F2, C1 + C2, fun n hn => ?_, r2, ea ▸ c1.trans ow c2', fun c'' w Fw hc hw => ?_⟩
    · unfold locate
      rw [e1 n (by omega), Out.ok_bind]
      exact e2 n (by omega)
    · obtain ⟨w', u1, u2⟩ := g2 c'' w Fw (fun z hz => hc z (by simp [hz])) hw
      refine ⟨.obj (put k w' (asObj v)), ?_, ?_⟩
      · unfold update
        rw [u1]
        rfl
      · rw [add_assoc]
        refine g1 c'' w' _ (fun z hz => ?_) u2
        rw [hc z (by simp [hz]), c2.agree o1.disj o1.left.lt z hz]
  | .idx i :: p, h, o, v, e, F, hr, ow, hp => by
    obtain ⟨h0, hb, hp'⟩ := peek_idx hp
    obtain ⟨N1, a1, h1, F1, C1, e1, r1, c1, g1⟩ := index_rep i h0 hb hr ow
    have o1 := c1.own ow
    obtain ⟨N2, a2, h2, F2, C2, e2, r2, c2, g2⟩ := locate_rep p r1 o1.right hp'
    have c2' := c2.ctx o1
    have ea : (C1 + (C2 + F2) : Multiset Nat) = C1 + C2 + F2 := by abel
    refine ⟨max N1 N2, a2, h2, F2, C1 + C2, fun n hn => ?_, r2, ea ▸ c1.trans ow c2', fun c'' w Fw hc hw => ?_⟩
    · unfold locate
      rw [e1 n (by omega), Out.ok_bind]
      exact e2 n (by omega)
    · obtain ⟨w', u1, u2⟩ := g2 c'' w Fw (fun z hz => hc z (by simp [hz])) hw
      refine ⟨_, update_idx h0 hb u1, ?_⟩
      rw [add_assoc]
      refine g1 c'' w' _ (fun z hz => ?_) u2
      rw [hc z (by simp [hz]), c2.agree o1.disj o1.left.lt z hz]

theorem append_rep {h : Heap} {a b : Nat} {va vb : Value} {Fa Fb : Multiset Nat} (ha : Rep h.cell a va Fa)
    (hb : Rep h.cell b vb Fb) (hl : ∀ x ∈ Fb, x < h.next) (ow : Own h Fa) :
    ∃ N h' Fa', (∀ n ≥ N, append n h a b = .ok h') ∧ Chg h h' Fa Fa' ∧ Rep h'.cell a (Json.append vb va) Fa' := by
  obtain ⟨N1, arg, h1, F1, e1, x1, r1⟩ := copyCtor_rep hb hl
  have c1 : Chg h h1 Fa (F1 + Fa) := by
    rw [add_comm]
    exact x1.chg ow
  have o1 := c1.own ow
  have ha1 : Rep h1.cell a va Fa := ha.frame fun z hz => x1.same z fun hc => o1.disj z hc hz
  obtain ⟨N2, h2, F2, e2, c2, r2⟩ := setType_rep .array ha1 o1.right
  rw [ite_arr] at r2
  have c2' := c2.ctx o1
  have o2 := c2'.own o1
  have r1' : Rep h2.cell arg vb F1 := r1.frame (c2.agree o1.disj o1.left.lt)
  obtain ⟨N3, x, h3, F3, e3, x3, r3⟩ := copyCtor_rep r1' o2.left.lt
  have c3 := x3.chg o2
  have o3 := c3.own o2
  obtain ⟨p, as, G, q1, q2, q5, rfl⟩ := rep_arr r2
  have c4 := put_chg (a := p) (.list (as ++ [x])) o3 (by simp)
  have o4 := c4.own o3
  have r1'' : Rep (h3.put p (.list (as ++ [x]))).cell arg vb F1 := r1'.frame fun z hz => by
    rw [put_other, x3.same z (o3.disj z (by simp [hz]))]
    rintro rfl
    exact o2.disj z hz (by simp)
  obtain ⟨N4, e4⟩ := destroy_rep r1'' o2.left.nodup
  have ef : F1 + ({a} + ({p} + G)) + F3 = {a} + ({p} + (G + F3)) + F1 := by abel
  rw [ef] at o3 o4 c3 c4
  have c5 := freeAll_chg o4
  refine ⟨max (max N1 N2) (max N3 N4), _, {a} + ({p} + (G + F3)), fun n hn => ?_,
    (((c1.trans ow c2').trans ow c3).trans ow c4).trans ow c5, ?_⟩
  · simp only [append, e1 n (by omega), Out.ok_bind, e2 n (by omega), obj_ok q1, e3 n (by omega)]
    have : h3.list (.ptr p) = .ok (p, as) := list_ok (by
      rw [x3.same p, q2]
      intro hc
      have := (x3.mem p).1 hc
      have := o2.lt p (by simp)
      omega)
    rw [this, Out.ok_bind]
    exact e4 n (by omega)
  · have hF1 : ∀ z ∈ ({a} + ({p} + (G + F3)) : Multiset Nat), z ∉ F1 := o4.disj
    have hF3 : ∀ z, z ∈ ({a} + ({p} + G) : Multiset Nat) → z ∉ F3 := fun z hz hc => by
      have := (x3.mem z).1 hc
      have := o2.lt z (by simp at hz ⊢; tauto)
      omega
    have hpG : p ∉ G := o2.right.right.disj p (by simp)
    refine Rep.mk (ty := .array) (d := .ptr p) ?_ ?_
    · rw [freeAll_other (hF1 a (by simp)), put_other, x3.same a (hF3 a (by simp)), q1]
      rintro rfl
      exact o2.right.disj a (by simp) (by simp)
    · refine .arr (as := as ++ [x]) (by rw [freeAll_other (hF1 p (by simp)), put_same']) (RepL.append (q5.frame fun z hz => ?_) ?_)
      · rw [freeAll_other (hF1 z (by simp [hz])), put_other, x3.same z (hF3 z (by simp [hz]))]
        rintro rfl; exact hpG hz
      · rw [← add_zero F3]
        refine RepL.cons' (r3.frame fun z hz => ?_) .nil
        rw [freeAll_other (hF1 z (by simp [hz])), put_other]
        rintro rfl
        exact hF3 z (by simp) hz


end Json.Mem
