import Verif.Model.Util

namespace Curvepy
namespace Spec
variable {α : Type}

/-- The leaves of a value, from left to right: anything that is not a list is a leaf. -/
inductive Leaves : Py α → List (Py α) → Prop where
  | none : Leaves .none [.none]
  | atom (a : α) : Leaves (.atom a) [.atom a]
  | str (s : String) : Leaves (.str s) [.str s]
  | dict (d : List (String × α)) : Leaves (.dict d) [.dict d]
  | nil : Leaves (.list []) []
  | cons {x : Py α} {xs a b : List (Py α)} (hx : Leaves x a) (hxs : Leaves (.list xs) b) :
      Leaves (.list (x :: xs)) (a ++ b)

/-- The value of a key. -/
def lookup (d : List (String × α)) (k : String) : Option α :=
  (d.find? fun p => p.1 == k).map Prod.snd

/-- The value of a key in the last dictionary that has it. -/
def lookupLast (ds : List (List (String × α))) (k : String) : Option α :=
  (ds.reverse.findSome? fun d => lookup d k)

/-- Keys are unique. -/
def UniqueKeys (d : List (String × α)) : Prop := (d.map Prod.fst).Nodup

/-- The dictionaries among some leaves. -/
def dictsOf : List (Py α) → List (List (String × α))
  | [] => []
  | .dict d :: rest => d :: dictsOf rest
  | _ :: rest => dictsOf rest

/-- Only dictionaries and `None`. -/
def Mappings (l : List (Py α)) : Prop := ∀ x ∈ l, x = .none ∨ ∃ d, x = .dict d

end Spec
end Curvepy
