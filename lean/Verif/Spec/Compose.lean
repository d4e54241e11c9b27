import Verif.Model.Compose
import Verif.Model.CurveScan
import Verif.Spec.AccumHistory
import Verif.Spec.AccumCurve

/-!
# Combinations of curves without any state
-/

namespace Curvepy
namespace Expr

variable {ι : Type}

/-- The combination of curves that are functions. -/
def curve (cs : ι → Crv) : Expr ι → Crv
  | leaf i => cs i
  | still c => c
  | aggregate es tfm union default => Crv.aggregate (List.ofFn fun j => curve cs (es j)) tfm union default
  | map e tfm skip m => ((curve cs e).map 2 tfm skip m).toOption.getD .empty
  | offset e k => (curve cs e).offset k
  | differential e f => ((curve cs e).differential f).toOption.getD .empty
  | subset e d => (curve cs e).subset d
  | piecewise es ds => Crv.piecewise (List.ofFn fun j => (curve cs (es j), ds j))

/-- No difference quotient looks back. -/
def Ahead : Expr ι → Prop
  | leaf _ => True
  | still _ => True
  | aggregate es _ _ _ => ∀ j, Ahead (es j)
  | map e _ _ _ => Ahead e
  | offset e _ => Ahead e
  | differential e f => f = true ∧ Ahead e
  | subset e _ => Ahead e
  | piecewise es _ => ∀ j, Ahead (es j)

end Expr

namespace Accum
open Spec

/-- The accumulated curve, with the values changed. -/
def viewedCurve (f : ℚ → ℚ) (c : Crv) : Crv :=
  { c with y := fun x => (c.y x).map (Option.map (Num.onFin f)) }

/-- A family of accumulators: transforms, steps, interpolations, and whether they are uniform. -/
structure Family (ι : Type) where
  tfm : ι → Tfm
  step : ι → ℚ
  interp : ι → Interp
  uniform : ι → Bool

/-- What can be done with the accumulators and their combinations: read a combination, sample it, read one of the accumulators,
edit the source of one of them. -/
inductive Family.Lived {ι : Type} [DecidableEq ι] (F : Family ι) : (ι → Accum) → Prop where
  | new {s : ι → Accum} (h : ∀ i, Used (F.tfm i) (F.step i) (F.interp i) (F.uniform i) (s i)) : Lived F s
  | value {s s' : ι → Accum} (h : Lived F s) (e : Expr ι) (he : e.Ahead) (x : Ext) {v : Except Err (Option Num)}
      (hr : (e.machine (fun i => .one i (machine (F.tfm i))) fun i => some (.fin (F.step i))).y x s = some (v, s')) : Lived F s'
  | next {s s' : ι → Accum} (h : Lived F s) (e : Expr ι) (he : e.Ahead) (x : Ext) (m l : Option Ext)
      {v : Except Err (Option Ext)}
      (hr : (e.machine (fun i => .one i (machine (F.tfm i))) fun i => some (.fin (F.step i))).xNext x m l s = some (v, s')) :
      Lived F s'
  | sample {s s' : ι → Accum} (h : Lived F s) (e : Expr ι) (he : e.Ahead) (d : Option Iv) (m : Option Ext) (st : Option ℚ)
      (fuel : ℕ) {v : Except Err (List Crv.Sample)}
      (hr : (e.machine (fun i => .one i (machine (F.tfm i))) fun i => some (.fin (F.step i))).samplePoints d m st fuel s =
        some (v, s')) : Lived F s'
  | edit {s : ι → Accum} (h : Lived F s) (i : ι) {op : Op ℚ} {r : Pts.Reads} (hl : op.Legal)
      (he : lateError (op.run (s i).src r).err = false) (ht : Truthful (op.run (s i).src r).st)
      (hf : Fit (F.step i) (F.uniform i) (op.run (s i).src r).st.points) :
      Lived F (Function.update s i ((s i).edit op r).1)

end Accum
end Curvepy
