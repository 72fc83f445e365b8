/-!
# Outcomes of C++ code and C++ integers

The common vocabulary of all models.  Not a transcription of a particular file, except for
`Out.exit`, which stands for the `error(msg)` macro of /repo/src/include/utils/error.h:9-23
(print to `std::cerr`, then `exit(EXIT_FAILURE)`).
-/

namespace Cpp

/-- Outcome of running a piece of C++ code. -/
inductive Out (α : Type u) where
  /-- normal return -/
  | ok (a : α)
  /-- the program ended through `error(msg)` (src/include/utils/error.h:9-23) -/
  | exit
  /-- undefined behaviour -/
  | ub
  /-- the fuel given to a loop or recursion was used up -/
  | diverge
  deriving Repr, DecidableEq

namespace Out

/-- Sequencing of statements: anything but a normal return stops the execution. -/
def bind {α : Type u} {β : Type v} : Out α → (α → Out β) → Out β
  | ok a, f => f a
  | exit, _ => exit
  | ub, _ => ub
  | diverge, _ => diverge

instance : Monad Out where
  pure := Out.ok
  bind := Out.bind

@[simp] theorem pure_eq (a : α) : (pure a : Out α) = ok a := rfl
-- `id rfl`: not to be used as definitional unfolding, which makes the kernel evaluate `f a`
@[simp] theorem ok_bind (a : α) (f : α → Out β) : (ok a >>= f) = f a := id rfl
@[simp] theorem exit_bind (f : α → Out β) : ((exit : Out α) >>= f) = exit := id rfl
@[simp] theorem ub_bind (f : α → Out β) : ((ub : Out α) >>= f) = ub := id rfl
@[simp] theorem diverge_bind (f : α → Out β) : ((diverge : Out α) >>= f) = diverge := id rfl
@[simp] theorem map_ok (f : α → β) (a : α) : (f <$> (ok a : Out α)) = ok (f a) := rfl

instance : LawfulMonad Out := LawfulMonad.mk'
  (id_map := fun x => by cases x <;> rfl)
  (pure_bind := fun _ _ => rfl)
  (bind_assoc := fun x _ _ => by cases x <;> rfl)

theorem bind_eq_ok {x : Out α} {f : α → Out β} {b : β} :
    (x >>= f) = ok b ↔ ∃ a, x = ok a ∧ f a = ok b := by
  cases x <;> simp

end Out

/-- Least value of a 32-bit `int`. -/
def INT_MIN : Int := -2147483648
/-- Greatest value of a 32-bit `int`. -/
def INT_MAX : Int := 2147483647
/-- Least value of `std::int64_t`. -/
def INT64_MIN : Int := -9223372036854775808
/-- Greatest value of `std::int64_t`. -/
def INT64_MAX : Int := 9223372036854775807

/-- `x` is a value of type `int`. -/
def IsInt (x : Int) : Prop := INT_MIN ≤ x ∧ x ≤ INT_MAX
/-- `x` is a value of type `std::int64_t`. -/
def IsInt64 (x : Int) : Prop := INT64_MIN ≤ x ∧ x ≤ INT64_MAX

instance (x : Int) : Decidable (IsInt x) := inferInstanceAs (Decidable (_ ∧ _))
instance (x : Int) : Decidable (IsInt64 x) := inferInstanceAs (Decidable (_ ∧ _))

/-- Result of a signed `int` operation whose mathematical result is `x`: undefined on overflow. -/
def int (x : Int) : Out Int := if IsInt x then .ok x else .ub
/-- Result of a signed `std::int64_t` operation: undefined on overflow. -/
def int64 (x : Int) : Out Int := if IsInt64 x then .ok x else .ub

theorem int_ok {x : Int} (h : IsInt x) : int x = .ok x := by simp [int, h]
theorem int64_ok {x : Int} (h : IsInt64 x) : int64 x = .ok x := by simp [int64, h]
theorem int_eq_ok {x y : Int} : int x = .ok y ↔ IsInt x ∧ x = y := by
  unfold int; split <;> simp [*]
theorem int64_eq_ok {x y : Int} : int64 x = .ok y ↔ IsInt64 x ∧ x = y := by
  unfold int64; split <;> simp [*]

/-- A `char`, by its object representation (0..255). -/
abbrev Byte := UInt8
/-- A `std::string`. -/
abbrev Str := List UInt8

/-- The byte of a character literal. -/
def byte (c : Char) : Byte := UInt8.ofNat c.toNat
/-- The bytes of a sequence of character literals. -/
def bytes (cs : List Char) : Str := cs.map byte

/-- The value of a `char`: `char` is signed on the platform considered. -/
def charVal (c : Byte) : Int := if c.toNat < 128 then c.toNat else (c.toNat : Int) - 256

/-- To show something for all bytes it suffices to check the 256 values. -/
theorem forall_byte {P : Byte → Prop} (h : ∀ n : Fin 256, P (UInt8.ofNat n.val)) : ∀ b, P b := by
  intro b
  have := h ⟨b.toNat, b.toNat_lt⟩
  simpa using this

/-- Conversion of a `size_t` to `int` (two's complement, as on all relevant platforms). -/
def toInt (n : Nat) : Int :=
  let r := n % 4294967296
  if r < 2147483648 then r else (r : Int) - 4294967296

theorem toInt_small {n : Nat} (h : n < 2147483648) : toInt n = n := by
  unfold toInt
  rw [Nat.mod_eq_of_lt (by omega)]
  simp [h]

/-- `s[i]` for a `const std::string s` and an `int i`: the terminating NUL at the length, undefined
beyond and for negative `i` (which converts to a huge `size_t`). -/
def strAt (s : Str) (i : Int) : Out Byte :=
  if 0 ≤ i ∧ i < s.length then .ok (s.getD i.toNat 0)
  else if i = s.length then .ok 0 else .ub

theorem strAt_ok {s : Str} {i : Nat} (h : i < s.length) : strAt s i = .ok (s.getD i 0) := by
  unfold strAt
  rw [if_pos ⟨by omega, by omega⟩]
  simp

/-- An array of `size` cells, each possibly indeterminate. -/
structure Arr (α : Type u) where
  size : Nat
  cell : Nat → Option α

namespace Arr

/-- `new T[n]` for a scalar type `T`: all cells indeterminate. -/
def new (n : Nat) : Arr α := ⟨n, fun _ => none⟩

/-- An array filled with one value. -/
def fill (n : Nat) (v : α) : Arr α := ⟨n, fun _ => some v⟩

/-- Reading `a[i]`: undefined out of bounds and for indeterminate cells. -/
def get (a : Arr α) (i : Int) : Out α :=
  if 0 ≤ i ∧ i < a.size then
    match a.cell i.toNat with
    | some v => .ok v
    | none => .ub
  else .ub

/-- Writing `a[i] = v`: undefined out of bounds. -/
def set (a : Arr α) (i : Int) (v : α) : Out (Arr α) :=
  if 0 ≤ i ∧ i < a.size then
    .ok { a with cell := fun j => if j = i.toNat then some v else a.cell j }
  else .ub

theorem get_ok {a : Arr α} {i : Nat} {v : α} (h : i < a.size) (hv : a.cell i = some v) :
    a.get i = .ok v := by
  unfold get
  rw [if_pos ⟨by omega, by omega⟩]
  simp [hv]

theorem set_ok {a : Arr α} {i : Nat} {v : α} (h : i < a.size) :
    a.set i v = .ok { a with cell := fun j => if j = i then some v else a.cell j } := by
  unfold set
  rw [if_pos ⟨by omega, by omega⟩]
  simp

end Arr

end Cpp
