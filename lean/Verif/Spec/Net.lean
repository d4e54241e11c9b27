import Verif.Model.Net
import Verif.Spec.Tower

/-!
# What the curves of a network mean
-/

namespace Curvepy
namespace Spec

/-- What a transform gives for finite arguments, as far as it is finite. -/
def plainly (tfm : Ext → List (Option Num) → Except Err (Option Num)) (x : Ext) (vs : List (Option ℚ)) : Option ℚ :=
  match tfm x (vs.map (Option.map .fin)) with
  | .ok (some (.fin v)) => some v
  | _ => none

/-- A transform that does not raise and stays finite. -/
def StaysFinite (tfm : Ext → List (Option Num) → Except Err (Option Num)) : Prop :=
  ∀ x vs, tfm x (vs.map (Option.map .fin)) = .ok ((plainly tfm x vs).map .fin)

/-- Values at the positions of the points. -/
def knotsOf (pts : List (Pt ℚ)) (v : Ext → Option ℚ) : List (Pt ℚ) := pts.map fun p => (p.1, v (.fin p.1))

/-- The value of curve `k` of a network over points that interpolate with `i`. -/
def netValue (i : Interp) (pts : List (Pt ℚ)) : List Node → ℕ → Ext → Option ℚ
  | [], _, x => valueAtE i pts x
  | .layer S j :: ns, 0, x => valueAtE S.interp (foldedBy (plainRule S.tfm) (knotsOf pts (netValue i pts ns j))) x
  | .join js _ tfm :: ns, 0, x =>
    if (span pts).contains x then plainly tfm x (js.map fun j => netValue i pts ns j x) else none
  | _ :: ns, k + 1, x => netValue i pts ns k x

/-- The curves are what they should be: accumulators have a positive step; combinations combine something, with a plain transform. -/
def Node.Sound : Node → Prop
  | .layer S _ => 0 < S.minStep
  | .join js _ tfm => js ≠ [] ∧ StaysFinite tfm

/-- All accumulators can accumulate the points. -/
def Node.Fit (pts : List (Pt ℚ)) : Node → Prop
  | .layer S _ => Spec.Fit S.minStep S.uniform pts
  | .join _ _ _ => True

/-- A value, the next or previous position, the domain, or samples of curve `k` are read. -/
def NetRead (ns : List Node) (k : ℕ) (s s' : Net.State ns) : Prop :=
  (∃ x v, (Net.machine ns k).y x s = some (v, s')) ∨ (∃ x m l v, (Net.machine ns k).xNext x m l s = some (v, s')) ∨
  (∃ x m l v, (Net.machine ns k).xPrevious x m l s = some (v, s')) ∨ (∃ v, (Net.machine ns k).dom s = some (v, s')) ∨
  ∃ d m c n v, Net.sample ns k d m c n s = some (v, s')

/-- A network after any reads and edits of the points. -/
inductive NetUsed (i : Interp) (ns : List Node) : Net.State ns → Prop where
  | new {p : Pts ℚ} (hs : Honest p) (hi : p.interp = i) (hf : ∀ n ∈ ns, Node.Fit p.points n) : NetUsed i ns (Net.new p ns)
  | read {k : ℕ} {s s' : Net.State ns} (h : NetUsed i ns s) (hr : NetRead ns k s s') : NetUsed i ns s'
  | edit {op : Op ℚ} {r : Pts.Reads} {s s' : Net.State ns} {out : ℕ → Net.Told} (h : NetUsed i ns s) (hl : op.Legal)
      (he : lateError (op.run (Net.base s) r).err = false) (ht : Truthful (op.run (Net.base s) r).st)
      (hf : ∀ n ∈ ns, Node.Fit (op.run (Net.base s) r).st.points n) (hr : Net.Edits ns op r s s' out) : NetUsed i ns s'

end Spec
end Curvepy
