import Verif.Model.JsonDumpWork
import Verif.Spec.JsonDumpWork
import Mathlib.Tactic.Ring
import Mathlib.Tactic.Linarith

/-! # Lemmas about the work of `dump` -/

namespace Json.DumpWork
open Cpp Json.DumpWork.Spec

theorem bind_out {α β : Type} (x : Job α) (f : α → Job β) : (x >>= f).out = (f x.out).out := rfl

theorem bind_writes {α β : Type} (x : Job α) (f : α → Job β) : (x >>= f).writes = x.writes + (f x.out).writes := rfl

theorem pure_out {α : Type} (a : α) : (pure a : Job α).out = a := rfl

theorem pure_writes {α : Type} (a : α) : (pure a : Job α).writes = 0 := rfl

theorem pad_out (tab : Str) : ∀ (n : Nat) (p : Str), (pad tab n p).out = p ++ (List.replicate n tab).flatten
  | 0, p => by simp [pad, pure_out]
  | n + 1, p => by simp [pad, bind_out, pad_out tab n, append, List.replicate_succ]

theorem pad_writes (tab : Str) : ∀ (n : Nat) (p : Str), (pad tab n p).writes = n * tab.length
  | 0, p => by simp [pad, pure_writes]
  | n + 1, p => by
    simp only [pad, bind_writes, pad_writes tab n, append]
    ring

theorem padding_length (d : Int) (tab : Str) : (padding d tab).length = d.toNat * tab.length := by
  simp [padding]

theorem dumpArr_cons (tab : Str) (d : Int) (v : Value) (l : List Value) :
    Json.dumpArr tab d (v :: l) = Json.dump tab (d + 1) v ++ (if l = [] then [] else bytes [',', ' ']) ++ Json.dumpArr tab d l := by
  cases l <;> simp [Json.dumpArr]

theorem dumpObj_cons (tab : Str) (d : Int) (k : Str) (v : Value) (m : List (Str × Value)) :
    Json.dumpObj tab d ((k, v) :: m) = padding d tab ++ bytes ['"'] ++ k ++ bytes ['"', ' ', ':', ' '] ++ Json.dump tab (d + 1) v ++
      (if m = [] then [] else bytes [',', '\n']) ++ Json.dumpObj tab d m := by
  cases m <;> simp [Json.dumpObj]

mutual
theorem dump_out (lib : Lib) (tab : Str) (d : Int) : ∀ v, (dump lib tab d v).out = Json.dump tab d v
  | .null => by simp [dump, bind_out, fresh, Json.dump]
  | .bool b => by simp [dump, bind_out, fresh, Json.dump]
  | .int i => by simp [dump, bind_out, fresh, Json.dump]
  | .float q => by simp [dump, bind_out, fresh, Json.dump]
  | .str s => by simp [dump, bind_out, fresh, Json.dump, escape, plus, onto]
  | .arr l => by
    simp only [dump, bind_out, fresh, Json.dump, append, dumpArr_out lib tab d l]
    simp
  | .obj m => by
    simp only [dump, bind_out, fresh, Json.dump, append, plus, onto, erase2, pad_out, List.nil_append]
    rw [show (List.replicate d.toNat tab).flatten = padding d tab from rfl, dumpObj_out lib tab d m _ rfl]
    simp

theorem dumpArr_out (lib : Lib) (tab : Str) (d : Int) : ∀ (l : List Value) (skip : Bool) (s : Str),
    (dumpArr lib tab d skip s l).out = s ++ (if skip ∨ l = [] then [] else bytes [',', ' ']) ++ Json.dumpArr tab d l
  | [], skip, s => by simp [dumpArr, pure_out, Json.dumpArr]
  | v :: l, skip, s => by
    have h := dump_out lib tab (d + 1) v
    simp only [dumpArr, bind_out, append, dumpArr_out lib tab d l, dumpArr_cons, h]
    cases skip <;> simp [comma, pure_out, append]

theorem dumpObj_out (lib : Lib) (tab : Str) (d : Int) : ∀ (m : List (Str × Value)) (p : Str), p = padding d tab →
    ∀ (skip : Bool) (s : Str), (dumpObj lib tab d p skip s m).out =
      s ++ (if skip ∨ m = [] then [] else bytes [',', '\n']) ++ Json.dumpObj tab d m
  | [], p, hp, skip, s => by simp [dumpObj, pure_out, Json.dumpObj]
  | (k, v) :: m, p, hp, skip, s => by
    subst hp
    have h := dump_out lib tab (d + 1) v
    simp only [dumpObj, bind_out, append, plus, onto, dumpObj_out lib tab d m _ rfl, dumpObj_cons, h]
    cases skip <;> simp [comma, pure_out, append]
end

/-- The work for the elements of an array. -/
def workArr (lib : Lib) (tab : Str) (d : Int) (l : List Value) : Nat := (l.map fun v => (dump lib tab d v).writes).sum

/-- The work for the members of an object. -/
def workObj (lib : Lib) (tab : Str) (d : Int) (m : List (Str × Value)) : Nat := (m.map fun q => (dump lib tab d q.2).writes).sum

theorem dumpArr_writes (lib : Lib) (tab : Str) (d : Int) : ∀ (l : List Value) (skip : Bool) (s : Str),
    (dumpArr lib tab d skip s l).writes + s.length = (dumpArr lib tab d skip s l).out.length + workArr lib tab (d + 1) l
  | [], skip, s => by simp [dumpArr, pure_out, pure_writes, workArr]
  | v :: l, skip, s => by
    simp only [dumpArr, bind_out, bind_writes, workArr, List.map_cons, List.sum_cons]
    have ih := dumpArr_writes lib tab d l false
      (append (comma skip s (bytes [',', ' '])).out (dump lib tab (d + 1) v).out).out
    unfold workArr at ih
    cases skip <;> simp [comma, append, pure_out, pure_writes] at ih ⊢ <;> omega

theorem dumpObj_writes {lib : Lib} (hlib : lib.Sound) (tab : Str) (d : Int) (p : Str) :
    ∀ (m : List (Str × Value)) (skip : Bool) (s : Str),
    (dumpObj lib tab d p skip s m).out.length + workObj lib tab (d + 1) m ≤ (dumpObj lib tab d p skip s m).writes + s.length ∧
    (dumpObj lib tab d p skip s m).writes + 5 * s.length ≤
      5 * (dumpObj lib tab d p skip s m).out.length + workObj lib tab (d + 1) m
  | [], skip, s => by simp [dumpObj, pure_out, pure_writes, workObj]
  | (k, v) :: m, skip, s => by
    simp only [dumpObj, bind_out, bind_writes, workObj, List.map_cons, List.sum_cons]
    generalize ht : dump lib tab (d + 1) v = T
    have ih := fun s => dumpObj_writes hlib tab d p m false s
    simp only [workObj] at ih
    have a1 := hlib (p ++ bytes ['"']).length k.length
    have a2 := hlib (p ++ bytes ['"'] ++ k).length (bytes ['"', ' ', ':', ' ']).length
    have a3 := hlib (p ++ bytes ['"'] ++ k ++ bytes ['"', ' ', ':', ' ']).length T.out.length
    have e1 : (bytes ['"']).length = 1 := rfl
    have e2 : (bytes ['"', ' ', ':', ' ']).length = 4 := rfl
    have e3 : (bytes [',', '\n']).length = 2 := rfl
    cases skip
    · have ih := ih (s ++ bytes [',', '\n'] ++ (p ++ bytes ['"'] ++ k ++ bytes ['"', ' ', ':', ' '] ++ T.out))
      simp only [comma, append, plus, onto, Bool.false_eq_true, if_false] at ih ⊢
      simp only [List.length_append, e1, e2, e3] at a1 a2 a3 ih ⊢
      omega
    · have ih := ih (s ++ (p ++ bytes ['"'] ++ k ++ bytes ['"', ' ', ':', ' '] ++ T.out))
      simp only [comma, append, plus, onto, if_true, pure_out, pure_writes] at ih ⊢
      simp only [List.length_append, e1, e2] at a1 a2 a3 ih ⊢
      omega

/-- The own work of a value, apart from the values in it. -/
theorem dump_writes_arr (lib : Lib) (tab : Str) (d : Int) (l : List Value) :
    (dump lib tab d (.arr l)).writes = (d.toNat + 1) * tab.length + (Json.dump tab d (.arr l)).length + workArr lib tab (d + 1) l := by
  have h := dumpArr_writes lib tab d l true (bytes ['['])
  have ho := dump_out lib tab d (.arr l)
  rw [← ho]
  simp only [dump, bind_out, bind_writes, fresh, append, pad_writes, List.length_append] at h ⊢
  have e1 : (bytes ['[']).length = 1 := rfl
  have e2 : (bytes [']']).length = 1 := rfl
  simp only [e1, e2] at h ⊢
  rw [Nat.add_mul, Nat.one_mul]
  omega

theorem dump_writes_obj {lib : Lib} (hlib : lib.Sound) (tab : Str) (d : Int) (m : List (Str × Value)) :
    (Json.dump tab d (.obj m)).length + workObj lib tab (d + 1) m ≤ (dump lib tab d (.obj m)).writes ∧
    (dump lib tab d (.obj m)).writes ≤
      (d.toNat + 1) * tab.length + 5 * (Json.dump tab d (.obj m)).length + workObj lib tab (d + 1) m := by
  have h := dumpObj_writes hlib tab d (padding d tab) m true (bytes ['{', '\n'])
  have ho := dump_out lib tab d (.obj m)
  rw [← ho]
  have hp : (pad tab d.toNat []).out = padding d tab := by rw [pad_out]; rfl
  simp only [dump, bind_out, bind_writes, fresh, append, plus, onto, erase2, pad_writes, List.length_append, hp] at h ⊢
  have e1 : (bytes ['{', '\n']).length = 2 := rfl
  have e2 : (bytes ['\n']).length = 1 := rfl
  have e3 : (bytes ['}']).length = 1 := rfl
  have a := hlib (1 + ((padding d tab).drop 2).length) 1
  simp only [e1, e2, e3] at h ⊢
  rw [Nat.add_mul, Nat.one_mul]
  omega

theorem dump_writes_leaf {lib : Lib} (hlib : lib.Sound) (tab : Str) (d : Int) (v : Value) (hv : nesting v = 0) :
    (Json.dump tab d v).length ≤ (dump lib tab d v).writes ∧
    (dump lib tab d v).writes ≤ (d.toNat + 1) * tab.length + 5 * (Json.dump tab d v).length := by
  have ho := dump_out lib tab d v
  rw [← ho, Nat.add_mul, Nat.one_mul]
  cases v with
  | arr l => simp [nesting] at hv
  | obj l => simp [nesting] at hv
  | str s =>
    have a := hlib (bytes ['"'] ++ jsonEscape s).length 1
    have e1 : (bytes ['"']).length = 1 := rfl
    simp only [dump, bind_out, bind_writes, fresh, escape, plus, onto, pad_writes, List.length_append, e1] at a ⊢
    omega
  | _ =>
    simp only [dump, bind_out, bind_writes, fresh, pad_writes]
    omega

/-- The texts of the parts of a list of values. -/
def vol (tab : Str) (l : List (Int × Value)) : Nat := (l.map fun p => (Json.dump tab p.1 p.2).length).sum

/-- The indentations of the parts of a list of values. -/
def ind (tab : Str) (l : List (Int × Value)) : Nat := (l.map fun p => (p.1.toNat + 1) * tab.length).sum

theorem vol_cons (tab : Str) (p : Int × Value) (l) : vol tab (p :: l) = (Json.dump tab p.1 p.2).length + vol tab l := by simp [vol]

theorem vol_nil (tab : Str) : vol tab [] = 0 := rfl

theorem ind_nil (tab : Str) : ind tab [] = 0 := rfl

theorem vol_append (tab : Str) (l l') : vol tab (l ++ l') = vol tab l + vol tab l' := by simp [vol]

theorem ind_cons (tab : Str) (p : Int × Value) (l) : ind tab (p :: l) = (p.1.toNat + 1) * tab.length + ind tab l := by simp [ind]

theorem ind_append (tab : Str) (l l') : ind tab (l ++ l') = ind tab l + ind tab l' := by simp [ind]

theorem parts_leaf (d : Int) (v : Value) (hv : nesting v = 0) : parts d v = [(d, v)] := by
  cases v <;> first | rfl | simp [nesting] at hv

mutual
theorem work_vol {lib : Lib} (hlib : lib.Sound) (tab : Str) (d : Int) : ∀ v,
    vol tab (parts d v) ≤ (dump lib tab d v).writes ∧
      (dump lib tab d v).writes ≤ 5 * vol tab (parts d v) + ind tab (parts d v)
  | .arr l => by
    have h := work_arr hlib tab (d + 1) l
    have h' := dump_writes_arr lib tab d l
    simp only [parts, vol_cons, ind_cons]
    omega
  | .obj m => by
    have h := work_obj hlib tab (d + 1) m
    have h' := dump_writes_obj hlib tab d m
    simp only [parts, vol_cons, ind_cons]
    omega
  | .null => by
    have h := dump_writes_leaf hlib tab d .null rfl
    simp only [parts, vol_cons, ind_cons, vol_nil, ind_nil]
    omega
  | .bool b => by
    have h := dump_writes_leaf hlib tab d (.bool b) rfl
    simp only [parts, vol_cons, ind_cons, vol_nil, ind_nil]
    omega
  | .int i => by
    have h := dump_writes_leaf hlib tab d (.int i) rfl
    simp only [parts, vol_cons, ind_cons, vol_nil, ind_nil]
    omega
  | .float q => by
    have h := dump_writes_leaf hlib tab d (.float q) rfl
    simp only [parts, vol_cons, ind_cons, vol_nil, ind_nil]
    omega
  | .str s => by
    have h := dump_writes_leaf hlib tab d (.str s) rfl
    simp only [parts, vol_cons, ind_cons, vol_nil, ind_nil]
    omega

theorem work_arr {lib : Lib} (hlib : lib.Sound) (tab : Str) (d : Int) : ∀ l,
    vol tab (partsArr d l) ≤ workArr lib tab d l ∧ workArr lib tab d l ≤ 5 * vol tab (partsArr d l) + ind tab (partsArr d l)
  | [] => by simp [partsArr, vol, workArr]
  | v :: l => by
    have h := work_vol hlib tab d v
    have h' := work_arr hlib tab d l
    have e : workArr lib tab d (v :: l) = (dump lib tab d v).writes + workArr lib tab d l := by simp [workArr]
    simp only [partsArr, vol_append, ind_append, e]
    omega

theorem work_obj {lib : Lib} (hlib : lib.Sound) (tab : Str) (d : Int) : ∀ m,
    vol tab (partsObj d m) ≤ workObj lib tab d m ∧ workObj lib tab d m ≤ 5 * vol tab (partsObj d m) + ind tab (partsObj d m)
  | [] => by simp [partsObj, vol, workObj]
  | (k, v) :: m => by
    have h := work_vol hlib tab d v
    have h' := work_obj hlib tab d m
    have e : workObj lib tab d ((k, v) :: m) = (dump lib tab d v).writes + workObj lib tab d m := by simp [workObj]
    simp only [partsObj, vol_append, ind_append, e]
    omega
end

/-! ## Bounds by the nesting -/

mutual
theorem vol_le (tab : Str) (d : Int) : ∀ v, vol tab (parts d v) ≤ (nesting v + 1) * (Json.dump tab d v).length
  | .arr l => by
    have h := volArr_le tab d l (nestingArr l + 1) (Nat.le_refl _)
    simp only [parts, vol_cons, nesting]
    have e : (Json.dump tab d (.arr l)).length = (Json.dumpArr tab d l).length + 2 := by
      simp [Json.dump, bytes]
    rw [e]
    nlinarith
  | .obj m => by
    have h := volObj_le tab d m (nestingObj m + 1) (Nat.le_refl _)
    simp only [parts, vol_cons, nesting]
    have e : (Json.dumpObj tab d m).length ≤ (Json.dump tab d (.obj m)).length := by
      simp only [Json.dump, List.length_append]; omega
    nlinarith
  | .null => by simp [parts, vol, nesting]
  | .bool b => by simp [parts, vol, nesting]
  | .int i => by simp [parts, vol, nesting]
  | .float q => by simp [parts, vol, nesting]
  | .str s => by simp [parts, vol, nesting]

theorem volArr_le (tab : Str) (d : Int) : ∀ l N, nestingArr l + 1 ≤ N →
    vol tab (partsArr (d + 1) l) ≤ N * (Json.dumpArr tab d l).length
  | [], N, h => by simp [partsArr, vol]
  | v :: l, N, h => by
    simp only [nestingArr] at h
    have h1 := vol_le tab (d + 1) v
    have h2 := volArr_le tab d l N (by omega)
    simp only [partsArr, vol_append, dumpArr_cons, List.length_append]
    have h3 : (nesting v + 1) * (Json.dump tab (d + 1) v).length ≤ N * (Json.dump tab (d + 1) v).length :=
      Nat.mul_le_mul_right _ (by omega)
    rw [Nat.mul_add, Nat.mul_add]
    omega

theorem volObj_le (tab : Str) (d : Int) : ∀ m N, nestingObj m + 1 ≤ N →
    vol tab (partsObj (d + 1) m) ≤ N * (Json.dumpObj tab d m).length
  | [], N, h => by simp [partsObj, vol]
  | (k, v) :: m, N, h => by
    simp only [nestingObj] at h
    have h1 := vol_le tab (d + 1) v
    have h2 := volObj_le tab d m N (by omega)
    simp only [partsObj, vol_append, dumpObj_cons, List.length_append]
    have h3 : (nesting v + 1) * (Json.dump tab (d + 1) v).length ≤ N * (Json.dump tab (d + 1) v).length :=
      Nat.mul_le_mul_right _ (by omega)
    simp only [Nat.mul_add]
    omega
end

mutual
theorem ind_le (tab : Str) (d : Int) : ∀ v (B : Nat), d.toNat + nesting v + 1 ≤ B →
    ind tab (parts d v) ≤ (parts d v).length * (B * tab.length)
  | .arr l, B, h => by
    simp only [nesting] at h
    have h1 := indArr_le tab (d + 1) l B (by omega)
    simp only [parts, ind_cons, List.length_cons]
    have h2 : (d.toNat + 1) * tab.length ≤ B * tab.length := Nat.mul_le_mul_right _ (by omega)
    exact Nat.le_trans (Nat.add_le_add h2 h1) (by rw [Nat.add_mul]; omega)
  | .obj m, B, h => by
    simp only [nesting] at h
    have h1 := indObj_le tab (d + 1) m B (by omega)
    simp only [parts, ind_cons, List.length_cons]
    have h2 : (d.toNat + 1) * tab.length ≤ B * tab.length := Nat.mul_le_mul_right _ (by omega)
    exact Nat.le_trans (Nat.add_le_add h2 h1) (by rw [Nat.add_mul]; omega)
  | .null, B, h => by
    simpa [parts, ind] using Nat.mul_le_mul_right tab.length (by simpa [nesting] using h : d.toNat + 1 ≤ B)
  | .bool b, B, h => by
    simpa [parts, ind] using Nat.mul_le_mul_right tab.length (by simpa [nesting] using h : d.toNat + 1 ≤ B)
  | .int i, B, h => by
    simpa [parts, ind] using Nat.mul_le_mul_right tab.length (by simpa [nesting] using h : d.toNat + 1 ≤ B)
  | .float q, B, h => by
    simpa [parts, ind] using Nat.mul_le_mul_right tab.length (by simpa [nesting] using h : d.toNat + 1 ≤ B)
  | .str s, B, h => by
    simpa [parts, ind] using Nat.mul_le_mul_right tab.length (by simpa [nesting] using h : d.toNat + 1 ≤ B)

theorem indArr_le (tab : Str) (d : Int) : ∀ l (B : Nat), d.toNat + nestingArr l + 1 ≤ B →
    ind tab (partsArr d l) ≤ (partsArr d l).length * (B * tab.length)
  | [], B, h => by simp [partsArr, ind]
  | v :: l, B, h => by
    simp only [nestingArr] at h
    have h1 := ind_le tab d v B (by omega)
    have h2 := indArr_le tab d l B (by omega)
    simp only [partsArr, ind_append, List.length_append, Nat.add_mul]
    omega

theorem indObj_le (tab : Str) (d : Int) : ∀ m (B : Nat), d.toNat + nestingObj m + 1 ≤ B →
    ind tab (partsObj d m) ≤ (partsObj d m).length * (B * tab.length)
  | [], B, h => by simp [partsObj, ind]
  | (k, v) :: m, B, h => by
    simp only [nestingObj] at h
    have h1 := ind_le tab d v B (by omega)
    have h2 := indObj_le tab d m B (by omega)
    simp only [partsObj, ind_append, List.length_append, Nat.add_mul]
    omega
end

theorem decNat_pos (n : Nat) : 1 ≤ (decNat n).length := by
  unfold decNat
  split
  · simp
  · rename_i h
    have : Nat.digits 10 n ≠ [] := Nat.digits_ne_nil_iff_ne_zero.2 h
    simpa [Nat.succ_le_iff, List.length_pos_iff] using this

theorem decInt_pos (i : Int) : 1 ≤ (decInt i).length := by
  unfold decInt
  split
  · simp
  · exact decNat_pos _

mutual
theorem parts_le (tab : Str) (d e : Int) : ∀ v, (parts e v).length ≤ (Json.dump tab d v).length
  | .arr l => by
    have h := partsArr_le tab d (e + 1) l
    simp [parts, Json.dump, bytes]; omega
  | .obj m => by
    have h := partsObj_le tab d (e + 1) m
    simp [parts, Json.dump, bytes]; omega
  | .null => by simp [parts, Json.dump, bytes]
  | .bool b => by cases b <;> simp [parts, Json.dump, bytes]
  | .int i => by simpa [parts, Json.dump] using decInt_pos i
  | .float q => by simp [parts, Json.dump, decFloat]; omega
  | .str s => by simp [parts, Json.dump, bytes]

theorem partsArr_le (tab : Str) (d e : Int) : ∀ l, (partsArr e l).length ≤ (Json.dumpArr tab d l).length
  | [] => by simp [partsArr]
  | v :: l => by
    have h1 := parts_le tab (d + 1) e v
    have h2 := partsArr_le tab d e l
    simp only [partsArr, dumpArr_cons, List.length_append]
    omega

theorem partsObj_le (tab : Str) (d e : Int) : ∀ m, (partsObj e m).length ≤ (Json.dumpObj tab d m).length
  | [] => by simp [partsObj]
  | (k, v) :: m => by
    have h1 := parts_le tab (d + 1) e v
    have h2 := partsObj_le tab d e m
    simp only [partsObj, dumpObj_cons, List.length_append]
    omega
end

mutual
theorem nesting_le (e : Int) : ∀ v, nesting v ≤ (parts e v).length
  | .arr l => by
    have h := nestingArr_le (e + 1) l
    simp [parts, nesting]; omega
  | .obj m => by
    have h := nestingObj_le (e + 1) m
    simp [parts, nesting]; omega
  | .null => by simp [nesting]
  | .bool b => by simp [nesting]
  | .int i => by simp [nesting]
  | .float q => by simp [nesting]
  | .str s => by simp [nesting]

theorem nestingArr_le (e : Int) : ∀ l, nestingArr l ≤ (partsArr e l).length
  | [] => by simp [nestingArr]
  | v :: l => by
    have h1 := nesting_le e v
    have h2 := nestingArr_le e l
    simp only [partsArr, nestingArr, List.length_append]
    omega

theorem nestingObj_le (e : Int) : ∀ m, nestingObj m ≤ (partsObj e m).length
  | [] => by simp [nestingObj]
  | (k, v) :: m => by
    have h1 := nesting_le e v
    have h2 := nestingObj_le e m
    simp only [partsObj, nestingObj, List.length_append]
    omega
end

/-! ## Nested arrays and objects -/

theorem arrays_length (tab : Str) : ∀ (n : Nat) (d : Int), (Json.dump tab d (arrays n)).length = 2 * n + 2
  | 0, d => by simp [arrays, Json.dump, Json.dumpArr, bytes]
  | n + 1, d => by
    have := arrays_length tab n (d + 1)
    simp [arrays, Json.dump, Json.dumpArr, bytes, this]
    omega

theorem arrays_vol (tab : Str) : ∀ (n : Nat) (d : Int), vol tab (parts d (arrays n)) = (n + 1) * (n + 2)
  | 0, d => by simp [arrays, parts, partsArr, vol, Json.dump, Json.dumpArr, bytes]
  | n + 1, d => by
    have := arrays_vol tab n (d + 1)
    have h := arrays_length tab (n + 1) d
    simp only [arrays] at h
    simp only [arrays, parts, partsArr, vol_cons, List.append_nil, this, h]
    ring

theorem objects_length (tab : Str) (ht : tab.length = 2) : ∀ (n : Nat) (d : Int), 1 ≤ d →
    (Json.dump tab d (objects n)).length = 2 * n * n + 4 * d.toNat * n + 6 * n + 4
  | 0, d, _ => by simp [objects, Json.dump, bytes]
  | n + 1, d, hd => by
    have := objects_length tab ht n (d + 1) (by omega)
    have e : (d + 1).toNat = d.toNat + 1 := by omega
    simp only [objects, Json.dump, Json.dumpObj, List.length_append, this, e, padding_length, List.length_drop, ht, bytes,
      List.length_map, List.length_cons, List.length_nil]
    obtain ⟨k, hk⟩ : ∃ k, d.toNat = k + 1 := ⟨d.toNat - 1, by omega⟩
    rw [hk, show (k + 1) * 2 - 2 = k * 2 by omega]
    ring

theorem objects_vol (tab : Str) (ht : tab.length = 2) : ∀ (n : Nat) (d : Int), 1 ≤ d →
    2 * n ^ 3 ≤ 3 * vol tab (parts d (objects n))
  | 0, d, _ => by simp
  | n + 1, d, hd => by
    have := objects_vol tab ht n (d + 1) (by omega)
    have h := objects_length tab ht (n + 1) d hd
    simp only [objects] at h
    simp only [objects, parts, partsObj, vol_cons, List.append_nil, h]
    nlinarith

theorem objects_parts : ∀ (n : Nat) (d : Int), (parts d (objects n)).length = n + 1
  | 0, d => by simp [objects, parts]
  | n + 1, d => by
    have := objects_parts n (d + 1)
    simp [objects, parts, partsObj, this]

end Json.DumpWork
