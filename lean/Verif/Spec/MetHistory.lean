import Verif.Spec.AccumHistory
import Verif.Spec.CurveScan

/-!
# Histories of an accumulator over points at any distances
-/

namespace Curvepy
namespace Accum
open Spec

/-- Sources whose points, as far as they are met in steps of at least `m`, have no accidental spacing, and are equally
spaced if that was demanded. -/
structure Paced (m : ℚ) (u : Bool) (pts : List (Pt ℚ)) : Prop where
  noFluke : NoFluke (met m pts)
  uniform : u = true → EquallySpaced (met m pts)

/-- The transform does at each point met what the rule says; the rule sees the points met up to this one and the
results before it. -/
def FollowsMet (m : ℚ) (t : Tfm) (g : Rule) : Prop :=
  ∀ (src acc : Pts ℚ) (seen rest : List (Pt ℚ)) (p : Pt ℚ), Honest src → Honest acc →
    met m src.points = seen ++ p :: rest → acc.points.map Prod.fst = seen.map Prod.fst →
    t src acc p.1 p.2 (lastOut acc.points) = g (seen ++ [p]) acc.points

/-- Accumulators obtained from the constructor by queries (also ones that raised), edits of the source and reads of the
two domains. -/
inductive Walked (t : Tfm) (m : ℚ) (i : Interp) (u : Bool) : Accum → Prop where
  | new {s : Pts ℚ} (hs : Honest s) (hf : Paced m u s.points) : Walked t m i u (Accum.new s m i u)
  | query {A : Accum} {x : Ext} {o : Out (Option ℚ)} (h : Walked t m i u A)
      (ho : A.query t x = some o) : Walked t m i u o.st
  | edit {A : Accum} {op : Op ℚ} {r : Pts.Reads} (h : Walked t m i u A) (hl : op.Legal)
      (he : lateError (op.run A.src r).err = false) (ht : Truthful (op.run A.src r).st)
      (hf : Paced m u (op.run A.src r).st.points) : Walked t m i u (A.edit op r).1
  | read {A : Accum} (h : Walked t m i u A) : Walked t m i u A.touch
  | readSource {A : Accum} (h : Walked t m i u A) : Walked t m i u { A with src := A.src.touch }

/-- The value at any position of the curve accumulated over the points met. -/
def walkedAt (g : Rule) (mode : Interp) (m : ℚ) (pts : List (Pt ℚ)) : Ext → Except Err (Option ℚ)
  | .fin x => accumulatedIn (span pts) g mode (met m pts) x
  | _ => .ok none

end Accum
end Curvepy
