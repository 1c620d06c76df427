/-
Outcomes of C++ code, and bounds-checked access to memory.
-/
import Mathlib.Tactic.Common

namespace Verif

/-- Outcome of running a piece of C++ code: it returns a value, it throws an
exception, or its behaviour is undefined (out-of-bounds access, dereferencing an
end iterator, ...).  Not taken from a particular file: this is the modelling
convention for all of `/repo`. -/
inductive Res (α : Type) where
  | ok (a : α)
  | throw
  | ub
  deriving DecidableEq, Repr

namespace Res

/-- Sequencing: the first exception or undefined behaviour wins. -/
def bind {α β : Type} : Res α → (α → Res β) → Res β
  | ok a, f => f a
  | throw, _ => throw
  | ub, _ => ub

instance : Monad Res where
  pure := Res.ok
  bind := Res.bind

@[simp] theorem ok_bind {α β : Type} (a : α) (f : α → Res β) : (Res.ok a >>= f) = f a := rfl
@[simp] theorem throw_bind {α β : Type} (f : α → Res β) : ((Res.throw : Res α) >>= f) = .throw := rfl
@[simp] theorem ub_bind {α β : Type} (f : α → Res β) : ((Res.ub : Res α) >>= f) = .ub := rfl
@[simp] theorem pure_eq {α : Type} (a : α) : (pure a : Res α) = .ok a := rfl

instance : LawfulMonad Res := LawfulMonad.mk'
  (id_map := by intro α x; cases x <;> rfl)
  (pure_bind := by intros; rfl)
  (bind_assoc := by intro α β γ x f g; cases x <;> rfl)
  (bind_pure_comp := by intro α β f x; cases x <;> rfl)

theorem bind_eq_ok {α β : Type} {x : Res α} {f : α → Res β} {b : β} :
    (x >>= f) = .ok b ↔ ∃ a, x = .ok a ∧ f a = .ok b := by
  cases x with
  | ok a => simp
  | throw => simp
  | ub => simp

end Res

/-- A byte of memory (`unsigned char` / `uint8_t`). -/
abbrev Bytes := List UInt8

/-- Reading an array: a pointer is modelled by the list of the objects from where
it points to the end of the allocation, and reading `p[0..n-1]` is undefined when
fewer than `n` objects are there.  `p + k` is `List.drop k`. -/
def rdN {α : Type} (p : List α) (n : Nat) : Res (List α) :=
  if n ≤ p.length then .ok (p.take n) else .ub

/-- Reading one array element `p[i]`; undefined when out of bounds. -/
def rd {α : Type} (p : List α) (i : Nat) : Res α :=
  match p[i]? with
  | some a => .ok a
  | none => .ub

theorem rdN_ok {α : Type} {p : List α} {n : Nat} (h : n ≤ p.length) : rdN p n = .ok (p.take n) := by
  simp [rdN, h]

theorem rd_ok {α : Type} {p : List α} {i : Nat} (h : i < p.length) : rd p i = .ok p[i] := by
  simp [rd, h]

end Verif
