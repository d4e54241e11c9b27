import Verif.Model.Graph
import Verif.Spec.Update

/-!
# What dependents of an edited curve may expect
-/

namespace Curvepy.Spec

/-- Dependents come after their sources, and there are only curves `0 .. n-1`. -/
def Acyclic (net : Net) (n : ℕ) : Prop :=
  ∀ i, ∀ e ∈ net.out i, i < e.1 ∧ e.1 < n

/-- Some finite position is in `a`. -/
def Occupied (a : Iv) : Prop := ∃ q : ℚ, a.contains (.fin q) = true

/-- A dependent passes on at least something of everything, and more of more. -/
def FaithfulEdge (t : Iv → Iv) : Prop :=
  (∀ a, Occupied a → Occupied (t a)) ∧
    ∀ a b, Occupied b → Covers a b → Covers (t a) (t b)

/-- All edges are faithful. -/
def FaithfulNet (net : Net) : Prop := ∀ i, ∀ e ∈ net.out i, FaithfulEdge e.2

/-- Curve `j` depends, directly or indirectly, on curve `i` (or is `i`). -/
inductive Depends (net : Net) (i : ℕ) : ℕ → Prop
  | self : Depends net i i
  | step {j k : ℕ} {t : Iv → Iv} : Depends net i j → (k, t) ∈ net.out j → Depends net i k

/-- The begins curve `j` announced. -/
def beginsOf (l : List Net.Entry) (j : ℕ) : List Iv :=
  l.filterMap fun x =>
    match x.act with
    | .begin _ => if x.node = j then x.announced else none
    | .finish _ => none

/-- The ends curve `j` announced. -/
def endsOf (l : List Net.Entry) (j : ℕ) : List Iv :=
  l.filterMap fun x =>
    match x.act with
    | .begin _ => none
    | .finish _ => if x.node = j then x.announced else none

/-- Every curve has at most one source, which it observes once: the graph is a forest. -/
def Forest (net : Net) : Prop :=
  ∀ j, (∀ i i', (∃ t, (j, t) ∈ net.out i) → (∃ t, (j, t) ∈ net.out i') → i = i') ∧
    ∀ i, ((net.out i).filter fun e => e.1 = j).length ≤ 1

end Curvepy.Spec
