import Verif.Proof.TrieWorld
import Verif.Proof.TrieFuel

/-! # Trie: properties C42, C43, C44, C45, C46, C77 -/

namespace Trie.Props
open Cpp Spec

/-- ab, c, ab again, b, the empty word, abc; then ab and c are removed. -/
def demo : List (Bool × Str) :=
  [(true, bytes ['a', 'b']), (true, bytes ['c']), (true, bytes ['a', 'b']), (true, bytes ['b']), (true, []),
    (true, bytes ['a', 'b', 'c']), (false, bytes ['a', 'b']), (false, bytes ['c'])]

theorem demo_lower : ∀ op ∈ demo, Lower op.2 := by decide

theorem demo_legal : Legal demo := by
  intro l w r h
  have hl : l.length < demo.length := by rw [h]; simp
  have key : ∀ n : Fin 8, ∀ w, demo[n.val]? = some (false, w) → w ∈ words (demo.take n.val) := by
    intro n
    have : ∀ n : Fin 8, ∀ op ∈ demo[n.val]?, op.1 = false → op.2 ∈ words (demo.take n.val) := by decide +kernel
    exact fun w hw => this n _ hw rfl
  have h1 : demo[l.length]? = some (false, w) := by rw [h]; simp
  have h2 : demo.take l.length = l := by rw [h]; simp
  have := key ⟨l.length, hl⟩ w h1
  rwa [h2] at this

/-- **C42.**  After any sequence of insertions of words of lower-case letters, and of removals of words which are there,
the trie is in a proper state (nothing fails, no index is out of range, every loop ends), and for every lower-case word
`contain(w)` says whether `w` is in the set. -/
theorem C42_contain (ops : List (Bool × Str)) (hw : ∀ op ∈ ops, Lower op.2) (hl : Legal ops) :
    ∃ st, run ops = .ok st ∧ ∀ w, Lower w → contain mapChar st w = .ok (decide (w ∈ words ops)) := by
  obtain ⟨st, e, R⟩ := run_legal ops hw hl
  exact ⟨st, e, fun w h => contain_rep lower_alpha lower_maps R h⟩

example : ∃ st, run demo = .ok st ∧ ∀ w, Lower w → contain mapChar st w = .ok (decide (w ∈ words demo)) :=
  C42_contain demo demo_lower demo_legal

/-- an insertion of a lower-case word never goes wrong, whatever happened before -/
theorem C42_insert (ops : List (Bool × Str)) (hw : ∀ op ∈ ops, Lower op.2) (st : St) (h : run ops = .ok st) (w : Str)
    (hl : Lower w) : ∃ st', insert mapChar mapChar st w = .ok st' ∧
      ∀ u, Lower u → contain mapChar st' u = .ok (decide (u = w ∨ u ∈ words ops)) := by
  obtain h' | ⟨st1, e, R⟩ := run_rep ops hw
  · rw [h] at h'; cases h'
  · rw [h] at e
    injection e with e
    subst e
    obtain ⟨st', e', R'⟩ := insert_rep lower_alpha lower_maps lower_maps R hl
    refine ⟨st', e', fun u hu => ?_⟩
    rw [contain_rep lower_alpha lower_maps R' hu]
    simp

example : ∃ st st', run demo = .ok st ∧ insert mapChar mapChar st (bytes ['a', 'a']) = .ok st' ∧
    contain mapChar st' (bytes ['a', 'a']) = .ok true ∧ contain mapChar st' (bytes ['a', 'b']) = .ok false := by
  obtain ⟨st, e, -⟩ := C42_contain demo demo_lower demo_legal
  obtain ⟨st', e', h⟩ := C42_insert demo demo_lower st e (bytes ['a', 'a']) (by decide)
  refine ⟨st, st', e, e', ?_, ?_⟩
  · rw [h _ (by decide)]; decide +kernel
  · rw [h _ (by decide)]; decide +kernel

/-- **C43, refuted.**  `remove` of a word which is not there reads behind the end of a vector: `t.remove("z")` for a
new trie. -/
theorem C43_refuted : (do remove mapChar (← new) (bytes ['z'])) = .ub := by
  have h : ((do remove mapChar (← new) (bytes ['z'])) >>= fun st => Out.ok st.size) = .ub := by decide +kernel
  generalize (do remove mapChar (← new) (bytes ['z'])) = x at h ⊢
  cases x <;> first | rfl | cases h

/-- **C43, what holds.**  `remove(w)` of a word which is there removes `w` and no other word, after any history of
insertions and removals. -/
theorem C43_partial (ops : List (Bool × Str)) (hw : ∀ op ∈ ops, Lower op.2) (st : St) (h : run ops = .ok st) (w : Str)
    (hm : w ∈ words ops) (hl : Lower w) : ∃ st', remove mapChar st w = .ok st' ∧
      ∀ u, Lower u → contain mapChar st' u = .ok (decide (u ≠ w ∧ u ∈ words ops)) := by
  obtain h' | ⟨st1, e, R⟩ := run_rep ops hw
  · rw [h] at h'; cases h'
  · rw [h] at e
    injection e with e
    subst e
    obtain ⟨st', e', R'⟩ := (remove_rep lower_alpha lower_maps R hl).1 hm
    refine ⟨st', e', fun u hu => ?_⟩
    rw [contain_rep lower_alpha lower_maps R' hu]
    simp

example : ∃ st st', run demo = .ok st ∧ remove mapChar st (bytes ['a', 'b', 'c']) = .ok st' ∧
    contain mapChar st' (bytes ['a', 'b', 'c']) = .ok false ∧ contain mapChar st' (bytes ['b']) = .ok true := by
  obtain ⟨st, e, -⟩ := C42_contain demo demo_lower demo_legal
  obtain ⟨st', e', h⟩ := C43_partial demo demo_lower st e (bytes ['a', 'b', 'c']) (by decide +kernel) (by decide)
  refine ⟨st, st', e, e', ?_, ?_⟩
  · rw [h _ (by decide)]; decide +kernel
  · rw [h _ (by decide)]; decide +kernel

/-- **C43, what holds.**  `remove(w)` of a word which is not there either has undefined behaviour or changes nothing. -/
theorem C43_absent_partial (ops : List (Bool × Str)) (hw : ∀ op ∈ ops, Lower op.2) (st : St) (h : run ops = .ok st) (w : Str)
    (hm : w ∉ words ops) (hl : Lower w) : remove mapChar st w = .ub ∨ remove mapChar st w = .ok st := by
  obtain h' | ⟨st1, e, R⟩ := run_rep ops hw
  · rw [h] at h'; cases h'
  · rw [h] at e
    injection e with e
    subst e
    exact (remove_rep lower_alpha lower_maps R hl).2 hm

example : ∃ st, run demo = .ok st ∧
    (remove mapChar st (bytes ['q']) = .ub ∨ remove mapChar st (bytes ['q']) = .ok st) := by
  obtain ⟨st, e, -⟩ := C42_contain demo demo_lower demo_legal
  exact ⟨st, e, C43_absent_partial demo demo_lower st e (bytes ['q']) (by decide +kernel) (by decide)⟩

/-- **C44.**  After any history of insertions and removals of lower-case words (that did not run into undefined
behaviour) `size()` is the number of different words in the trie. -/
theorem C44_size (ops : List (Bool × Str)) (hw : ∀ op ∈ ops, Lower op.2) (st : St) (h : run ops = .ok st) :
    st.size = (words ops).card := by
  obtain h' | ⟨st1, e, R⟩ := run_rep ops hw
  · rw [h] at h'; cases h'
  · rw [h] at e
    injection e with e
    subst e
    exact R.size

example : ∃ st, run demo = .ok st ∧ st.size = 3 := by
  obtain ⟨st, e, -⟩ := C42_contain demo demo_lower demo_legal
  refine ⟨st, e, ?_⟩
  rw [C44_size demo demo_lower st e]
  decide +kernel

/-- **C45, refuted.**  Iteration over the trie with ab, ac and b gives ab and ac only. -/
theorem C45_refuted : (do iterate mapInt (← build [bytes ['a', 'b'], bytes ['a', 'c'], bytes ['b']]) 200) =
    .ok [bytes ['a', 'b'], bytes ['a', 'c']] := by decide +kernel

/-- **C45, refuted.**  Iteration forgets words although another word was removed only: ab, ac, b are inserted, then ab
and ac are removed; the iteration gives no word, though b is there. -/
theorem C45_remove_refuted : (do
    let st ← run [(true, bytes ['a', 'b']), (true, bytes ['a', 'c']), (true, bytes ['b']), (false, bytes ['a', 'b']),
      (false, bytes ['a', 'c'])]
    .ok (← contain mapChar st (bytes ['b']), ← iterate mapInt st 200)) = .ok (true, []) := by decide +kernel

/-- **C45, refuted.**  Iteration over the trie with abc and abd never ends: the iterator goes back and forth between
the two words. -/
theorem C45_endless_refuted : ∃ st, build [bytes ['a', 'b', 'c'], bytes ['a', 'b', 'd']] = .ok st ∧
    (∃ a b, begin st 100 = .ok a ∧ a.deref mapInt st = .ok (bytes ['a', 'b', 'c']) ∧
      a.next st 100 = .ok b ∧ b.deref mapInt st = .ok (bytes ['a', 'b', 'd']) ∧ b.next st 100 = .ok a) ∧
    ∀ fuel, iterate mapInt st fuel = .diverge := by
  have e : ∃ st, build [bytes ['a', 'b', 'c'], bytes ['a', 'b', 'd']] = .ok st := by
    have : (match build [bytes ['a', 'b', 'c'], bytes ['a', 'b', 'd']] with | .ok _ => true | _ => false) = true := by
      decide +kernel
    split at this
    · exact ⟨_, ‹_›⟩
    · cases this
  obtain ⟨st, hst⟩ := e
  have h : ∀ {α : Type} (f : St → Out α) (r : Out α),
      (build [bytes ['a', 'b', 'c'], bytes ['a', 'b', 'd']] >>= f) = r → f st = r := by
    intro α f r h
    rw [hst] at h
    exact h
  have h1 : begin st 100 = .ok ⟨3, 5, [2, 3, 4, -2], false⟩ :=
    h (fun st => begin st 100) _ (by decide +kernel)
  have h2 : Iter.next st 100 ⟨3, 5, [2, 3, 4, -2], false⟩ = .ok ⟨3, 6, [2, 3, 5, -3], false⟩ :=
    h (fun st => Iter.next st 100 _) _ (by decide +kernel)
  have h3 : Iter.next st 100 ⟨3, 6, [2, 3, 5, -3], false⟩ = .ok ⟨3, 5, [2, 3, 4, -2], false⟩ :=
    h (fun st => Iter.next st 100 _) _ (by decide +kernel)
  have d1 : Iter.deref mapInt st ⟨3, 5, [2, 3, 4, -2], false⟩ = .ok (bytes ['a', 'b', 'c']) :=
    h (fun st => Iter.deref mapInt st _) _ (by decide +kernel)
  have d2 : Iter.deref mapInt st ⟨3, 6, [2, 3, 5, -3], false⟩ = .ok (bytes ['a', 'b', 'd']) :=
    h (fun st => Iter.deref mapInt st _) _ (by decide +kernel)
  refine ⟨st, hst, ⟨_, _, h1, d1, h2, d2, h3⟩, fun fuel => ?_⟩
  unfold iterate
  have hb : begin st fuel = .diverge ∨ begin st fuel = .ok ⟨3, 5, [2, 3, 4, -2], false⟩ := next_big st h1 fuel
  rcases hb with e | e <;> rw [e]
  · rfl
  · exact (iterate_cycle mapInt st _ _ rfl rfl h2 h3 _ _ d1 d2 fuel fuel).1

/-- **C45, what holds.**  Every word the iteration gives is in the trie, after any history. -/
theorem C45_sound_partial (ops : List (Bool × Str)) (hw : ∀ op ∈ ops, Lower op.2) (st : St) (h : run ops = .ok st)
    (fuel : Nat) (ws : List Str) (hi : iterate mapInt st fuel = .ok ws) : ∀ w ∈ ws, w ∈ words ops := by
  obtain h' | ⟨st1, e, R⟩ := run_rep ops hw
  · rw [h] at h'; cases h'
  · rw [h] at e
    injection e with e
    subst e
    exact iterate_sound R fuel ws hi

example : (do
    iterate mapInt (← run [(true, bytes ['a', 'b']), (true, bytes ['c']), (true, []), (true, bytes ['a', 'd']),
      (false, bytes ['a', 'b'])]) 200) = .ok [[], bytes ['a', 'd']] := by decide +kernel

/-- **C45, what holds.**  For words with different first letters (the empty word may be among them) the iteration ends
and gives each word once, in alphabetical order. -/
theorem C45_partial (ws : List Str) (hl : ∀ w ∈ ws, Lower w) (hd : (ws.map List.head?).Nodup) (fuel : Nat) (hf : 27 < fuel) :
    ∃ st l, build ws = .ok st ∧ iterate mapInt st fuel = .ok l ∧ l.Pairwise (· < ·) ∧ ∀ w, w ∈ l ↔ w ∈ ws := by
  obtain ⟨st, e, R, F⟩ := build_flat ws hl hd
  refine ⟨st, flatList st 27, e, ?_, flatList_sorted 27 (by omega), fun w => ?_⟩
  · have := iterate_flat R.inv F hf 27 (by omega) fuel hf [] (.inl rfl)
    exact this
  · rw [flat_mem R F]; simp

example : ∃ st l, build [bytes ['c', 'a', 't'], bytes ['d', 'o', 'g'], [], bytes ['a', 'n', 't']] = .ok st ∧
    iterate mapInt st 100 = .ok l ∧ l.Pairwise (· < ·) ∧
    ∀ w, w ∈ l ↔ w ∈ [bytes ['c', 'a', 't'], bytes ['d', 'o', 'g'], [], bytes ['a', 'n', 't']] :=
  C45_partial _ (by decide) (by decide) 100 (by omega)

/-- a mapper for the alphabet A–Z -/
def upper : Mapper := fun c => if c = 1 then .ok 1 else if 65 ≤ c ∧ c ≤ 90 then .ok ((c.toNat : Int) - 63) else .exit

/-- **C46, refuted.**  Constructing a second trie with a mapper for upper-case letters makes an insertion of a lower-case
word into the first one end the program. -/
theorem C46_refuted : World.run [.construct 0 mapChar, .construct 1 upper, .insert 0 (bytes ['a'])] = .exit := by
  have h : (World.run [.construct 0 mapChar, .construct 1 upper, .insert 0 (bytes ['a'])] >>= fun _ => Out.ok ()) = .exit := by
    decide +kernel
  generalize World.run [.construct 0 mapChar, .construct 1 upper, .insert 0 (bytes ['a'])] = x at h ⊢
  cases x <;> first | rfl | cases h

/-- a mapper which numbers the letters backwards -/
def backwards : Mapper := fun c => if c = 1 then .ok 1 else if 97 ≤ c ∧ c ≤ 122 then .ok (124 - (c.toNat : Int)) else .exit

/-- **C46, refuted.**  Constructing a second trie with another numbering of the letters makes the first one forget its
words. -/
theorem C46_forget_refuted :
    (do (← World.run [.construct 0 mapChar, .insert 0 (bytes ['a'])]).contain 0 (bytes ['a'])) = .ok true ∧
    (do (← World.run [.construct 0 mapChar, .insert 0 (bytes ['a']), .construct 1 backwards]).contain 0 (bytes ['a']))
      = .ok false := by
  decide +kernel

/-- **C46, what holds.**  As long as all mappers agree on the letters used, any number of tries behave as independent
sets of words, however the constructions, insertions and removals (of words which are there) are interleaved. -/
theorem C46_partial (A : Byte → Prop) (m0 : Mapper) (h0 : Adapter A m0) (as : List Act)
    (hm : ∀ i m, .construct i m ∈ as → ∀ c, c = 1 ∨ A c → m c = m0 c) (ha : ActsOk A (fun _ => none) as) :
    ∃ w, World.run as = .ok w ∧ ∀ i s, sets as i = some s →
      w.size i = .ok s.card ∧ ∀ u, (∀ c ∈ u, A c) → w.contain i u = .ok (decide (u ∈ s)) := by
  obtain ⟨code, al, hc⟩ := h0.codes
  obtain ⟨w, e, R⟩ := run_world al as ha (fun i m h c hv => by rw [hm i m h c hv]; exact hc c hv)
  refine ⟨w, e, fun i s hs => ?_⟩
  obtain ⟨hst, st, m, e1, _, Rs⟩ := R.some i s hs
  constructor
  · unfold World.size; rw [e1]; dsimp only; rw [Rs.size]
  · intro u hu
    unfold World.contain
    rw [e1]
    exact contain_rep al hst Rs hu

theorem mapChar_adapter : Adapter (fun c => 97 ≤ c ∧ c ≤ 122) mapChar where
  end_ := by decide
  not_end := by decide
  letter := fun c h => ⟨lcode c, lower_maps c (.inr h), lower_alpha.range c h⟩
  inj := fun c d hc hd e => by
    rw [lower_maps c (.inr hc), lower_maps d (.inr hd)] at e
    injection e with e
    exact lower_alpha.inj c d hc hd e

example : ∃ w, World.run [.construct 0 mapChar, .insert 0 (bytes ['a', 'b']), .construct 7 mapChar, .insert 7 (bytes ['a', 'c']),
    .remove 0 (bytes ['a', 'b'])] = .ok w ∧ w.size 7 = .ok 1 ∧ w.contain 7 (bytes ['a', 'c']) = .ok true ∧
    w.contain 0 (bytes ['a', 'b']) = .ok false := by
  obtain ⟨w, e, h⟩ := C46_partial _ mapChar mapChar_adapter [.construct 0 mapChar, .insert 0 (bytes ['a', 'b']), .construct 7 mapChar,
    .insert 7 (bytes ['a', 'c']), .remove 0 (bytes ['a', 'b'])]
    (by intro i m hm c _; simp at hm; rcases hm with h | h <;> rw [h.2])
    ⟨trivial, ⟨rfl, by decide⟩, trivial, ⟨rfl, by decide⟩, ⟨⟨_, rfl, by decide⟩, by decide⟩, trivial⟩
  refine ⟨w, e, ?_, ?_, ?_⟩
  · rw [(h 7 _ rfl).1]; decide +kernel
  · rw [(h 7 _ rfl).2 _ (by decide)]; decide +kernel
  · rw [(h 0 _ rfl).2 _ (by decide)]; decide +kernel

/-- a mapper for the 75 characters from `0` to `z` -/
def wide : Mapper := fun c => if c = 1 then .ok 1 else if 48 ≤ c ∧ c ≤ 122 then .ok ((c.toNat : Int) - 46) else .exit

/-- **C77, refuted.**  With a mapper of the documented kind for more than 26 characters, words get lost: after
inserting 00, 0z, 10, 1z and 1a the word 0z is not found. -/
theorem C77_refuted : (do
    let st ← [bytes ['0', '0'], bytes ['0', 'z'], bytes ['1', '0'], bytes ['1', 'z'], bytes ['1', 'a']].foldlM
      (insert wide wide) (← new)
    contain wide st (bytes ['0', 'z'])) = .ok false := by decide +kernel

/-- **C77, what holds.**  With a mapper for at most 26 characters (numbers 2 to 27) the trie is a set of words over
these characters. -/
theorem C77_partial (A : Byte → Prop) (m : Mapper) (hm : Adapter A m) (ws : List Str) (hw : ∀ w ∈ ws, ∀ c ∈ w, A c) :
    ∃ st, (do ws.foldlM (insert m m) (← new)) = Out.ok st ∧ st.size = ws.toFinset.card ∧
      ∀ u, (∀ c ∈ u, A c) → contain m st u = .ok (decide (u ∈ ws)) := by
  obtain ⟨code, al, hc⟩ := hm.codes
  have key : ∃ st, (do ws.foldlM (insert m m) (← new)) = Out.ok st ∧ Rep A code st ws.toFinset := by
    induction ws using List.reverseRecOn with
    | nil =>
      obtain ⟨st, e, R⟩ := new_rep al
      exact ⟨st, by rw [e]; rfl, R⟩
    | append_singleton ws w ih =>
      obtain ⟨st, e, R⟩ := ih (fun u h => hw u (by simp [h]))
      obtain ⟨st', e', R'⟩ := insert_rep al hc hc R (hw w (by simp))
      refine ⟨st', ?_, ?_⟩
      · obtain ⟨s0, e0, e1⟩ := Out.bind_eq_ok.1 e
        rw [e0]
        simp only [Out.ok_bind]
        rw [List.foldlM_append, e1]
        simp only [Out.ok_bind, List.foldlM_cons, List.foldlM_nil]
        rw [e']
        rfl
      · have : (ws ++ [w]).toFinset = Insert.insert w ws.toFinset := by
          ext x; simp
        rw [this]; exact R'
  obtain ⟨st, e, R⟩ := key
  refine ⟨st, e, R.size, fun u hu => ?_⟩
  rw [contain_rep al hc R hu]
  simp

/-- ten digits -/
def digits : Mapper := fun c => if c = 1 then .ok 1 else if 48 ≤ c ∧ c ≤ 57 then .ok ((c.toNat : Int) - 46) else .exit

example : ∃ st, (do [bytes ['1', '2'], bytes ['1', '3'], bytes ['2']].foldlM (insert digits digits) (← new)) = Out.ok st ∧
    st.size = 3 ∧ contain digits st (bytes ['1', '3']) = .ok true := by
  have had : Adapter (fun c => 48 ≤ c ∧ c ≤ 57) digits := by
    have hd : ∀ c : Byte, 48 ≤ c ∧ c ≤ 57 → digits c = .ok ((c.toNat : Int) - 46) := by
      intro c h
      unfold digits
      rw [if_neg (by rintro rfl; exact absurd h.1 (by decide)), if_pos h]
    refine ⟨by decide, by decide, fun c h => ⟨_, hd c h, ?_⟩, fun c d h h' e => ?_⟩
    · have h1 : 48 ≤ c.toNat := h.1
      have h2 : c.toNat ≤ 57 := h.2
      omega
    · rw [hd c h, hd d h'] at e
      injection e with e
      exact UInt8.toNat_inj.1 (by omega)
  obtain ⟨st, e, h1, h2⟩ := C77_partial _ digits had [bytes ['1', '2'], bytes ['1', '3'], bytes ['2']] (by decide)
  exact ⟨st, e, h1, by rw [h2 _ (by decide)]; decide⟩

/-! ### C128 -/

/-- **C128.**  `==` of iterators is an equivalence relation among the iterators of one trie, and an iterator equals
`end()` exactly if it has run out, in whichever trie. -/
theorem C128_equivalence (a b c : Iter) :
    a.eq true a = true ∧ (a.eq true b = b.eq true a) ∧ (a.eq true b = true → b.eq true c = true → a.eq true c = true) ∧
    ∀ st fuel same, ∃ e, endIter st fuel = .ok e ∧ a.eq same e = a.done ∧ e.eq same a = a.done := by
  obtain ⟨n, o, l, d⟩ := a
  obtain ⟨n', o', l', d'⟩ := b
  obtain ⟨n'', o'', l'', d''⟩ := c
  refine ⟨?_, ?_, ?_, fun st fuel same => ⟨⟨0, 1, [], true⟩, rfl, ?_, ?_⟩⟩
  · cases d <;> simp [Iter.eq]
  · cases d <;> cases d' <;> simp [Iter.eq, eq_comm]
  · cases d <;> cases d' <;> cases d'' <;> simp [Iter.eq]
    rintro rfl rfl rfl rfl rfl rfl
    exact ⟨⟨rfl, rfl⟩, rfl⟩
  · cases d <;> simp [Iter.eq]
  · cases d <;> simp [Iter.eq]

/-- **C128.**  Equal iterators that have not run out give the same word and stay equal when both are incremented; so
does a copy.  In particular iterators at different words differ. -/
theorem C128_substitute (mi : Int → Byte) (st : St) (fuel : Nat) (a b : Iter) (h : a.eq true b = true)
    (hd : a.done = false) :
    a.deref mi st = b.deref mi st ∧
    ∀ a', a.next st fuel = .ok a' → ∃ b', b.next st fuel = .ok b' ∧ a'.eq true b' = true := by
  have e : a = b := by
    obtain ⟨n, o, l, d⟩ := a
    obtain ⟨n', o', l', d'⟩ := b
    simp only at hd
    subst hd
    cases d'
    · simp [Iter.eq] at h
      obtain ⟨⟨rfl, rfl⟩, rfl⟩ := h
      rfl
    · simp [Iter.eq] at h
  subst e
  exact ⟨rfl, fun a' h => ⟨a', h, (C128_equivalence a' a' a' ).1⟩⟩

/-- **C128.**  Iterators of different tries are equal only if both have run out. -/
theorem C128_other_trie (a b : Iter) : a.eq false b = (a.done && b.done) := by
  obtain ⟨n, o, l, d⟩ := a
  obtain ⟨n', o', l', d'⟩ := b
  cases d <;> cases d' <;> simp [Iter.eq]

/-- **C128.**  The loop `for (auto it = trie.begin(); it != trie.end(); ++it)` sees what `for (auto s : trie)` sees. -/
theorem C128_loop (mi : Int → Byte) (st : St) (fuel : Nat) :
    (do iterateRange mi st fuel fuel (← begin st fuel) (← endIter st fuel)) = iterate mi st fuel := by
  have h : ∀ k it, iterateRange mi st fuel k it ⟨0, 1, [], true⟩ = iterateFrom mi st fuel k it := by
    intro k
    induction k with
    | zero => intro it; rfl
    | succ k ih =>
      intro it
      unfold iterateRange iterateFrom
      obtain ⟨n, o, l, d⟩ := it
      cases d
      · simp only [Iter.ne, Iter.eq, ih]
        rfl
      · rfl
  unfold iterate
  have e : endIter st fuel = .ok ⟨0, 1, [], true⟩ := rfl
  rw [e]
  cases begin st fuel with
  | ok it => exact h fuel it
  | _ => rfl

/-- **C128, refuted.**  A forward iteration may meet an iterator equal to the first one again: two increments lead back
to `begin()` in the trie with abc and abd. -/
theorem C128_again_refuted : ∃ st a b c, build [bytes ['a', 'b', 'c'], bytes ['a', 'b', 'd']] = .ok st ∧
    begin st 100 = .ok a ∧ a.next st 100 = .ok b ∧ b.next st 100 = .ok c ∧ c.eq true a = true ∧ a.eq true b = false := by
  obtain ⟨st, h, ⟨a, b, h1, d1, h2, d2, h3⟩, _⟩ := C45_endless_refuted
  refine ⟨st, a, b, a, h, h1, h2, h3, (C128_equivalence a a a).1, ?_⟩
  by_contra hc
  have hc : a.eq true b = true := by simpa using hc
  have hd : a.done = false := by
    by_contra hd
    have hd : a.done = true := by simpa using hd
    unfold Iter.next at h2
    rw [if_pos hd] at h2
    injection h2 with h2
    subst h2
    rw [d1] at d2
    injection d2 with d2
    exact absurd d2 (by decide)
  have := (C128_substitute mapInt st 100 a b hc hd).1
  rw [d1, d2] at this
  injection this with this
  exact absurd this (by decide)

example : Iter.eq true ⟨3, 5, [2, 3, 4, -2], false⟩ ⟨3, 5, [2, 3, 4, -2], false⟩ = true ∧
    Iter.eq true ⟨3, 5, [2, 3, 4, -2], false⟩ ⟨3, 6, [2, 3, 5, -3], false⟩ = false := by decide

end Trie.Props
