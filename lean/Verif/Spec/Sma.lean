import Verif.Spec.AccumHistory
import Verif.Model.Sma

/-!
# What a simple moving average is
-/

namespace Curvepy
namespace Spec
open Sma

/-- Sources that can be accumulated wherever that starts. -/
def AllFit (m : ℚ) (u : Bool) (pts : List (Pt ℚ)) : Prop := ∀ l, l <:+ pts → Fit m u l

/-- A window that is not shorter than a step. -/
def Fits (m : ℚ) : Window → Prop
  | .period p => m ≤ p
  | .degree n => 1 ≤ n

/-- The averages obtained from the constructor by queries (also ones that raised), edits of the source and
reads of the two domains. -/
inductive Averaging (w : Window) (m : ℚ) (u : Bool) : Accum → Prop where
  | new {s : Pts ℚ} {A : Accum} (hs : Honest s) (hf : AllFit m u s.points) (h : Sma.new s w m u = .ok A) :
      Averaging w m u A
  | query {A : Accum} {fuel : ℕ} {x : Ext} {o : Accum.Out (Option ℚ)} (h : Averaging w m u A)
      (ho : smaY w fuel A x = some o) : Averaging w m u o.st
  | edit {A : Accum} {op : Op ℚ} {r : Pts.Reads} (h : Averaging w m u A) (hl : op.Legal)
      (he : lateError (op.run A.src r).err = false) (ht : Truthful (op.run A.src r).st)
      (hf : AllFit m u (op.run A.src r).st.points) : Averaging w m u (A.edit op r).1
  | read {A : Accum} (h : Averaging w m u A) : Averaging w m u (smaTouch w A).1
  | readSource {A : Accum} (h : Averaging w m u A) : Averaging w m u { A with src := A.src.touch }

/-- The last `n` of the first `k + 1` points. -/
def windowAt (l : List (ℚ × ℚ)) (n k : ℕ) : List (ℚ × ℚ) := (l.take (k + 1)).drop (k + 1 - n)

/-- Width of a stretch of points. -/
def width (l : List (ℚ × ℚ)) : ℚ :=
  match l.head?, l.getLast? with
  | some p, some q => q.1 - p.1
  | _, _ => 0

/-- Mean height of the line through the points; of a single point, its value. -/
def meanHeight (l : List (ℚ × ℚ)) : ℚ :=
  match l with
  | [p] => p.2
  | l => totalArea .linear l / width l

/-- Points at equal distances `d`, the first at `a`. -/
def Spaced (a d : ℚ) (l : List (ℚ × ℚ)) : Prop := ∀ (i : ℕ) (p : ℚ × ℚ), l[i]? = some p → p.1 = a + i * d

end Spec
end Curvepy
