import Verif.Spec.Edit

/-!
# Histories of a points curve

The edits a user can make, and the curves that construction, edits and reads lead to.
-/

namespace Curvepy
namespace Spec
variable {V : Type}

/-- The editing API of `Points` (`points.py:55-175`). -/
inductive Op (V : Type) where
  | set (pts : List (Pt V))
  | append (p : Pt V)
  | appendList (pts : List (Pt V))
  | replace (p : Pt V) (orAppend : Bool)
  | reset (d : Option Iv)

/-- Run an edit. -/
def Op.run (op : Op V) (s : Pts V) (r : Pts.Reads) : Pts.Res V :=
  match op with
  | .set pts => s.set pts none r
  | .append p => s.append p r
  | .appendList pts => s.appendList pts r
  | .replace p oa => s.replace p oa r
  | .reset d => s.reset d r

/-- The arguments are strictly ascending, as the docstrings demand. -/
def Op.Legal : Op V → Prop
  | .set pts => Ascending pts
  | .appendList pts => Ascending pts
  | _ => True

/-- The exceptions raised after the update has begun (`points.py:82`, `101`, `172`). -/
def lateError : Option Err → Bool
  | some .nonRegular => true
  | some .betweenPoints => true
  | _ => false

/-- What `is_uniform` reports is true. -/
def Truthful (s : Pts V) : Prop := s.isUniform = true → EquallySpaced s.points

/-- Curves obtained from the constructor by legal edits and reads of `domain`, where no edit
raised late and `is_uniform` never was wrong. -/
inductive Honest : Pts V → Prop where
  | new {pts : List (Pt V)} {i : Interp} {u : Bool} {s : Pts V} (h : Ascending pts)
      (hs : Pts.new pts i u = .ok s) (ht : Truthful s) : Honest s
  | edit {s : Pts V} {op : Op V} {r : Pts.Reads} (hs : Honest s) (hl : op.Legal)
      (he : lateError (op.run s r).err = false) (ht : Truthful (op.run s r).st) :
      Honest (op.run s r).st
  | read {s : Pts V} (hs : Honest s) : Honest s.touch

/-- The interval of a notification. -/
def evIv : Pts.Ev V → Iv
  | .begin iv _ => iv
  | .fin iv _ => iv

/-- The points an edit is meant to leave behind. -/
def Op.target (op : Op V) (old : List (Pt V)) : List (Pt V) :=
  match op with
  | .set pts => pts
  | .append p => old ++ [p]
  | .appendList pts => old ++ pts
  | .replace p _ => putPoint old p
  | .reset none => []
  | .reset (some d) => dropInside old d

end Spec
end Curvepy
