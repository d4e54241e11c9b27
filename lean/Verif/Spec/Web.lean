import Verif.Model.Web
import Verif.Spec.Net

/-!
# What the curves of a network over several lists of points mean
-/

namespace Curvepy
namespace Spec

/-- Put a position into an ascending list, unless it is there. -/
def putIn (x : ℚ) : List ℚ → List ℚ
  | [] => [x]
  | y :: ys => if x < y then x :: y :: ys else if x = y then y :: ys else y :: putIn x ys

/-- Positions in ascending order, each one once. -/
def merged (xs : List ℚ) : List ℚ := xs.foldr putIn []

/-- Between the first and the last of some positions. -/
def within (xs : List ℚ) (x : ℚ) : Bool := xs.any (fun a => decide (a ≤ x)) && xs.any (fun b => decide (x ≤ b))

/-- All positions that curve `k` steps through; `P b` are the points of list `b`.  Those of a combination are those of all its sources. -/
def webKnots (P : ℕ → List (Pt ℚ)) : List Node → ℕ → List ℚ
  | [], b => (P b).map Prod.fst
  | .layer _ j :: ns, 0 => webKnots P ns j
  | .join js _ _ :: ns, 0 => merged (js.flatMap (webKnots P ns))
  | _ :: ns, k + 1 => webKnots P ns k

/-- Those of them at which it is defined: a combination is defined where all its sources are. -/
def webIn (P : ℕ → List (Pt ℚ)) : List Node → ℕ → List ℚ
  | [], b => (P b).map Prod.fst
  | .layer _ j :: ns, 0 => webIn P ns j
  | .join js _ _ :: ns, 0 => (merged (js.flatMap (webKnots P ns))).filter fun x => js.all fun j => within (webIn P ns j) x
  | _ :: ns, k + 1 => webIn P ns k

/-- Positions with values. -/
def atAll (xs : List ℚ) (v : Ext → Option ℚ) : List (Pt ℚ) := xs.map fun x => (x, v (.fin x))

/-- The value of curve `k`; list `b` of points interpolates with `I b`. -/
def webValue (I : ℕ → Interp) (P : ℕ → List (Pt ℚ)) : List Node → ℕ → Ext → Option ℚ
  | [], b, x => valueAtE (I b) (P b) x
  | .layer S j :: ns, 0, x => valueAtE S.interp (foldedBy (plainRule S.tfm) (atAll (webIn P ns j) (webValue I P ns j))) x
  | .join js _ tfm :: ns, 0, .fin x =>
    if js.all fun j => within (webIn P ns j) x then plainly tfm (.fin x) (js.map fun j => webValue I P ns j (.fin x)) else none
  | .join _ _ _ :: _, 0, _ => none
  | _ :: ns, k + 1, x => webValue I P ns k x

/-- The points of a curve at which accumulators look. -/
def webPts (I : ℕ → Interp) (P : ℕ → List (Pt ℚ)) (ns : List Node) (k : ℕ) : List (Pt ℚ) := atAll (webIn P ns k) (webValue I P ns k)

/-- The largest step of the accumulators a curve asks directly. -/
def webStep : List Node → ℕ → ℚ
  | [], _ => 0
  | .layer S _ :: _, 0 => S.minStep
  | .join js _ _ :: ns, 0 => (js.map (webStep ns)).foldr max 0
  | _ :: ns, k + 1 => webStep ns k

/-- Accumulators have positive steps, which do not become smaller; combinations intersect the domains of their sources, with a plain
transform. -/
def WebSound : List Node → Prop
  | [] => True
  | .layer S j :: ns => 0 < S.minStep ∧ webStep ns j ≤ S.minStep ∧ WebSound ns
  | .join js union tfm :: ns => js ≠ [] ∧ union = false ∧ StaysFinite tfm ∧ WebSound ns

/-- All accumulators can accumulate their sources. -/
def WebFit (I : ℕ → Interp) (P : ℕ → List (Pt ℚ)) : List Node → Prop
  | [] => True
  | .layer S j :: ns => Spec.Fit S.minStep S.uniform (webPts I P ns j) ∧ WebFit I P ns
  | .join _ _ _ :: ns => WebFit I P ns

/-- Curve `k` is made from list `b` of points, among others. -/
def uses (b : ℕ) : List Node → ℕ → Prop
  | [], k => k = b
  | .layer _ j :: ns, 0 => uses b ns j
  | .join js _ _ :: ns, 0 => ∃ j ∈ js, uses b ns j
  | _ :: ns, k + 1 => uses b ns k

/-- The points of all lists. -/
def pointsOf {ns : List Node} (s : Web.State ns) (b : ℕ) : List (Pt ℚ) := (Web.bases s b).points

/-- A value, the next or previous position, the domain, or samples of curve `k` are read. -/
def WebRead (ns : List Node) (k : ℕ) (s s' : Web.State ns) : Prop :=
  (∃ x v, (Web.machine ns k).y x s = some (v, s')) ∨ (∃ x m l v, (Web.machine ns k).xNext x m l s = some (v, s')) ∨
  (∃ x m l v, (Web.machine ns k).xPrevious x m l s = some (v, s')) ∨ (∃ v, (Web.machine ns k).dom s = some (v, s')) ∨
  ∃ d m c n v, Web.sample ns k d m c n s = some (v, s')

/-- Any edit but `replace`. -/
def Op.noReplace : Op ℚ → Prop
  | .replace _ _ => False
  | _ => True

/-- If a point of list `b` is replaced, no other list has a point between it and the point before it. -/
def Op.apart (P : ℕ → List (Pt ℚ)) (b : ℕ) : Op ℚ → Prop
  | .replace p _ => ∀ c, c ≠ b → ∀ q ∈ P c, q.1 < p.1 → (∀ z ∈ P b, q.1 < z.1) ∨ ∃ z ∈ P b, q.1 ≤ z.1 ∧ z.1 < p.1
  | _ => True

/-- A position of one of the lists. -/
def anyKnot (P : ℕ → List (Pt ℚ)) (x : ℚ) : Prop := ∃ c, ∃ p ∈ P c, p.1 = x

/-- A network after any reads and edits of the lists of points. -/
inductive WebUsed (I : ℕ → Interp) (ns : List Node) : Web.State ns → Prop where
  | new {p : ℕ → Pts ℚ} (hs : ∀ b, Honest (p b)) (hi : ∀ b, (p b).interp = I b) (hf : WebFit I (fun b => (p b).points) ns) :
      WebUsed I ns (Web.new p ns)
  | read {k : ℕ} {s s' : Web.State ns} (h : WebUsed I ns s) (hr : WebRead ns k s s') : WebUsed I ns s'
  | edit {b : ℕ} {op : Op ℚ} {r : Pts.Reads} {s s' : Web.State ns} {out : ℕ → Net.Told} (h : WebUsed I ns s) (hl : op.Legal)
      (hn : op.apart (pointsOf s) b) (he : lateError (op.run (Web.bases s b) r).err = false) (ht : Truthful (op.run (Web.bases s b) r).st)
      (hf : WebFit I (Function.update (pointsOf s) b (op.run (Web.bases s b) r).st.points) ns) (hr : Web.Edits ns b op r s s' out) :
      WebUsed I ns s'

end Spec
end Curvepy
