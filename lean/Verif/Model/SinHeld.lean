import Verif.Model.Sin
import Verif.Model.Line

/-!
# Sine curves as objects that are assigned to

Model of `sin.py:18-43` with the state that remains when `set` raises.
-/

namespace Curvepy
namespace Sine

/-- The attributes `amplitude`, `phase`, `x_coef`. -/
structure Fields where
  amplitude : Option ℝ
  phase : Option ℝ
  coef : Option ℝ

/-- The announcement of `begin_update` or none. -/
def noteBegin {D : Type} (o : Option Iv) (seen : D) : List (Note D) :=
  match o with
  | some d => [.begin d seen]
  | none => []

/-- The announcement of `end_update` or none. -/
def noteFinish {D : Type} (o : Option Iv) (seen : D) : List (Note D) :=
  match o with
  | some d => [.finish d seen]
  | none => []

/-- `Sin.set` (`sin.py:22-37`): the update begins before the arguments are looked at. -/
noncomputable def assign (h : Held Fields) (a : Args) : Held Fields × List (Note Fields) × Option Err :=
  let b := h.gate.begin Iv.infinite
  let notes := noteBegin b.2 h.data
  match frequencyOf a with
  | .error e => (⟨b.1, ⟨a.amplitude, a.phase, none⟩⟩, notes, some e)
  | .ok f =>
    let coef := f.map fun f => f * Real.pi * 2
    match phaseOf a coef with
    | .error e => (⟨b.1, ⟨a.amplitude, a.phase, coef⟩⟩, notes, some e)
    | .ok phase =>
      let d : Fields := ⟨a.amplitude, phase, coef⟩
      match a.amplitude, coef, phase with
      | some _, some _, some _ =>
        let e := b.1.finish Iv.infinite
        (⟨e.1, d⟩, notes ++ noteFinish e.2 d, none)
      | _, _, _ => (⟨b.1, d⟩, notes, some .exception)

/-- `Sin(...)` (`sin.py:18-20`, `curve.py:50-57`): nobody observes it yet. -/
noncomputable def make (a : Args) : Except Err (Held Fields) :=
  match assign ⟨Gate.init, ⟨none, none, none⟩⟩ a with
  | (h, _, none) => .ok h
  | (_, _, some e) => .error e

/-- Several assignments, caught one by one: the announcements and errors of each. -/
noncomputable def assignAll : Held Fields → List Args → Held Fields × List (List (Note Fields) × Option Err)
  | h, [] => (h, [])
  | h, a :: as =>
    let r := assign h a
    let s := assignAll r.1 as
    (s.1, r.2 :: s.2)

/-- `Sin.y` (`sin.py:39-40`). -/
noncomputable def value (f : Fields) (x : ℝ) : Except Err ℝ :=
  match f.coef, f.phase, f.amplitude with
  | some k, some p, some a => .ok (a * Real.sin (k * x + p))
  | _, _, _ => .error .type

/-- `Sin.d_y` (`sin.py:42-43`). -/
noncomputable def slope (f : Fields) (x : ℝ) : Except Err ℝ :=
  match f.coef, f.phase, f.amplitude with
  | some k, some p, some a => .ok (a * Real.cos (k * x + p))
  | _, _, _ => .error .type

end Sine
end Curvepy
