import Verif.Model.Accumulator
import Verif.Spec.Accumulator

/-!
# Histories of an accumulator
-/

namespace Curvepy
namespace Accum
open Spec

/-- The transform does at each knot what the rule says; the rule sees the knots up to this one
and the results before it. -/
def Follows (m : ℚ) (t : Tfm) (g : Rule) : Prop :=
  ∀ (src acc : Pts ℚ) (seen rest : List (Pt ℚ)) (p : Pt ℚ), Honest src → Honest acc →
    src.points = seen ++ p :: rest → acc.points.map Prod.fst = seen.map Prod.fst →
    Gapped m src.points → t src acc p.1 p.2 (lastOut acc.points) = g (seen ++ [p]) acc.points

/-- Accumulators obtained from the constructor by queries (also ones that raised), edits of the
source and reads of the two domains.  The source always was fit for accumulation. -/
inductive Used (t : Tfm) (m : ℚ) (i : Interp) (u : Bool) : Accum → Prop where
  | new {s : Pts ℚ} (hs : Honest s) (hf : Fit m u s.points) : Used t m i u (Accum.new s m i u)
  | query {A : Accum} {x : Ext} {o : Out (Option ℚ)} (h : Used t m i u A)
      (ho : A.query t x = some o) : Used t m i u o.st
  | edit {A : Accum} {op : Op ℚ} {r : Pts.Reads} (h : Used t m i u A) (hl : op.Legal)
      (he : lateError (op.run A.src r).err = false) (ht : Truthful (op.run A.src r).st)
      (hf : Fit m u (op.run A.src r).st.points) : Used t m i u (A.edit op r).1
  | read {A : Accum} (h : Used t m i u A) : Used t m i u A.touch
  | readSource {A : Accum} (h : Used t m i u A) : Used t m i u { A with src := A.src.touch }

/-- Several queries in a row; all calls of the transform. -/
def queries (t : Tfm) : Accum → List Ext → Option (Accum × List TCall)
  | A, [] => some (A, [])
  | A, x :: xs =>
    match A.query t x with
    | none => none
    | some o =>
      match queries t o.st xs with
      | none => none
      | some r => some (r.1, o.calls ++ r.2)

end Accum
end Curvepy
