import Verif.Model.Points

/-!
# `curvepy/util.py`: `flatten` and `extend`

Python values that matter to these functions: iterables, mappings, strings (also bytes) and everything
else.  Iterables are finite.  Dictionaries are lists of pairs in insertion order.
-/

namespace Curvepy

/-- A Python value. -/
inductive Py (α : Type) where
  | none
  | atom (a : α)
  | str (s : String)
  | dict (d : List (String × α))
  | list (l : List (Py α))

namespace Py
variable {α : Type}

/-- `isinstance(x, Iterable) and not isinstance(x, (str, bytes))` (`util.py:14`). -/
def isIterable : Py α → Bool
  | .dict _ => true
  | .list _ => true
  | _ => false

mutual
/-- `_flatten` (`util.py:9-18`). -/
def flatten : Py α → List (Py α)
  | .list l => flattenList l
  | x => [x]
/-- The loop of `_flatten` (`util.py:13-18`). -/
def flattenList : List (Py α) → List (Py α)
  | [] => []
  | x :: xs => (if x.isIterable then flatten x else [x]) ++ flattenList xs
end

/-- `d[key] = value`: an existing key keeps its place. -/
def put (d : List (String × α)) (k : String) (v : α) : List (String × α) :=
  match d with
  | [] => [(k, v)]
  | (k', v') :: rest => if k' = k then (k, v) :: rest else (k', v') :: put rest k v

/-- `for key, value in other.items(): primary[key] = value` (`util.py:31-32`). -/
def putAll (d : List (String × α)) : List (String × α) → List (String × α)
  | [] => d
  | (k, v) :: rest => putAll (put d k v) rest

/-- The loop of `extend` (`util.py:28-32`): the result, or what is there when it raises. -/
def extendLoop (d : List (String × α)) : List (Py α) → List (String × α) × Option Err
  | [] => (d, Option.none)
  | .none :: rest => extendLoop d rest
  | .dict o :: rest => extendLoop (putAll d o) rest
  | _ :: _ => (d, some .attribute)

/-- Outcome of `extend`. -/
structure Extended (α : Type) where
  /-- the object passed as `primary`, afterwards -/
  primary : List (String × α)
  result : Except Err (List (String × α))

/-- `extend(primary, *others, in_place)` (`util.py:21-33`) for a dictionary `primary`. -/
def extend (primary : List (String × α)) (others : List (Py α)) (inPlace : Bool) : Extended α :=
  let r := extendLoop primary (flattenList others)
  ⟨if inPlace then r.1 else primary,
    match r.2 with
    | some e => .error e
    | Option.none => .ok r.1⟩

end Py
end Curvepy
