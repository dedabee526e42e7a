import Mathlib.Data.List.Basic
import Mathlib.Tactic.Common
import Mathlib.Tactic.Ring
import Mathlib.Tactic.Linarith

/-!
# Python building blocks

Exceptions are values; list indexing and slicing follow the Python reference
(negative indices count from the end, slices are clipped).
-/

namespace MRS

/-- The exception classes the modelled code can raise. `exception` is a bare
`Exception`; `undefinedBehaviour` stands for C behaviour outside the standard. -/
inductive PyErr
  | valueError | indexError | keyError | typeError | zeroDivision
  | attributeError | exception | undefinedBehaviour
  deriving DecidableEq, Repr

/-- Result of a Python computation. -/
abbrev Py (α : Type _) := Except PyErr α

/-- The position `i` denotes in a list of length `n`, if any (`l[i]`). -/
def pyPos (n : Nat) (i : Int) : Option Nat :=
  let j := if i < 0 then i + n else i
  if 0 ≤ j ∧ j < n then some j.toNat else none

/-- `l[i]`. -/
def pyGet {α} (l : List α) (i : Int) : Py α :=
  match pyPos l.length i with
  | none => .error .indexError
  | some j => match l[j]? with
    | none => .error .indexError
    | some v => .ok v

/-- `l[i] = v`, giving the new list. -/
def pySet {α} (l : List α) (i : Int) (v : α) : Py (List α) :=
  match pyPos l.length i with
  | none => .error .indexError
  | some j => .ok (l.set j v)

/-- `l[a:b]`. -/
def pySlice {α} (l : List α) (a b : Int) : List α :=
  let clip (x : Int) : Nat :=
    if x < 0 then (x + l.length).toNat else min x.toNat l.length
  (l.take (clip b)).drop (clip a)

/-- `[v] * n` for a possibly negative `n`. -/
def pyRepeat {α} (v : α) (n : Int) : List α := List.replicate n.toNat v

/-- `range(n)` for a possibly negative `n`, as naturals. -/
def pyRange (n : Int) : List Nat := List.range n.toNat

theorem pyGet_ofNat {α} (l : List α) (i : Nat) (h : i < l.length) :
    pyGet l (i : Int) = .ok l[i] := by
  have hp : pyPos l.length (i : Int) = some i := by
    unfold pyPos
    have h1 : ¬ ((i : Int) < 0) := by omega
    simp [h1, h]
  simp [pyGet, hp, h]

theorem pySet_ofNat {α} (l : List α) (i : Nat) (v : α) (h : i < l.length) :
    pySet l (i : Int) v = .ok (l.set i v) := by
  have hp : pyPos l.length (i : Int) = some i := by
    unfold pyPos
    have h1 : ¬ ((i : Int) < 0) := by omega
    simp [h1, h]
  simp [pySet, hp]

theorem pySlice_ofNat {α} (l : List α) (a b : Nat) (hb : b ≤ l.length) (ha : a ≤ b) :
    pySlice l (a : Int) (b : Int) = (l.take b).drop a := by
  unfold pySlice
  have h1 : ¬ ((a : Int) < 0) := by omega
  have h2 : ¬ ((b : Int) < 0) := by omega
  have h3 : min b l.length = b := by omega
  have h4 : min a l.length = a := by omega
  simp [h1, h2, h3, h4]

end MRS
