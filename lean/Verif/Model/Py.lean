import Mathlib.Data.Rat.Floor

/-!
# Python list and number primitives used by the modelled code
-/

namespace Curvepy

/-- Exceptions raised by the modelled code, one constructor per `raise` (or per builtin
exception) that a property distinguishes. -/
inductive Err where
  /-- `points.py:73` -/
  | nonAscending
  /-- `points.py:82`, `points.py:172` -/
  | nonRegular
  /-- `points.py:92` -/
  | outOfBounds
  /-- `points.py:101` -/
  | betweenPoints
  /-- builtin `IndexError` -/
  | index
  /-- builtin `KeyError` -/
  | key
  /-- builtin `TypeError` -/
  | type
  /-- builtin `AttributeError` -/
  | attribute
  /-- builtin `ZeroDivisionError` -/
  | zeroDiv
  /-- builtin `OverflowError` (e.g. `int(math.inf)`) -/
  | overflow
  /-- builtin `AssertionError` -/
  | assertion
  /-- builtin `ValueError` -/
  | value
  /-- builtin `RecursionError` -/
  | recursion
  /-- a bare `raise Exception(...)` not listed above -/
  | exception
deriving DecidableEq, Repr

/-- Python `l[i]` for reading: negative indexes count from the end, `IndexError` otherwise
(used e.g. at `points.py:234`). -/
def pyGet {α : Type} (l : List α) (i : ℤ) : Except Err α :=
  if 0 ≤ i then
    match l[i.toNat]? with
    | some a => .ok a
    | none => .error .index
  else if 0 ≤ i + l.length then
    match l[(i + l.length).toNat]? with
    | some a => .ok a
    | none => .error .index
  else .error .index

/-- Python `l[i] = a` (used at `points.py:106`); `IndexError` when out of range. -/
def pySet {α : Type} (l : List α) (i : ℤ) (a : α) : Except Err (List α) :=
  if 0 ≤ i ∧ i < l.length then .ok (l.set i.toNat a)
  else if i < 0 ∧ 0 ≤ i + l.length then .ok (l.set (i + l.length).toNat a)
  else .error .index

/-- Resolve a slice/insert bound: negative counts from the end, then clamp to `[0, len]`. -/
def pyClamp (len : ℕ) (i : ℤ) : ℕ :=
  if i < 0 then (i + len).toNat else min i.toNat len

/-- Python `l.insert(i, a)` (used at `points.py:103`). -/
def pyInsert {α : Type} (l : List α) (i : ℤ) (a : α) : List α :=
  l.take (pyClamp l.length i) ++ a :: l.drop (pyClamp l.length i)

/-- Python `l[i:j]` (used at `points.py:196`). -/
def pySlice {α : Type} (l : List α) (i j : ℤ) : List α :=
  (l.take (pyClamp l.length j)).drop (pyClamp l.length i)

/-- Python `int(q)`: truncation towards zero (used at `points.py:232`). -/
def pyInt (q : ℚ) : ℤ := if 0 ≤ q then ⌊q⌋ else ⌈q⌉

/-- Python `q % 1.0`: the result has the sign of the divisor (used at `points.py:231`). -/
def pyMod1 (q : ℚ) : ℚ := q - ⌊q⌋

end Curvepy
