import Verif.Model.Observer

/-!
# What observers of a curve may expect

Vocabulary of the properties C17-C22, C65-C67: sets covered by intervals, the calls made since the
last completed update, and the order in which registrations were made.
-/

namespace Curvepy.Spec

/-- Every position of `b` is a position of `a`. -/
def Covers (a b : Iv) : Prop := ∀ x, b.contains x = true → a.contains x = true

/-- Some position is in `a`. -/
def Inhabited (a : Iv) : Prop := ∃ x, a.contains x = true

/-- `e` is the smallest interval covering all of `L`. -/
def IsHull (L : List Iv) (e : Iv) : Prop :=
  (∀ i ∈ L, Covers e i) ∧ ∀ c, (∀ i ∈ L, Covers c i) → Covers c e

/-- Some position is in both. -/
def Meets (a b : Iv) : Prop := ∃ x, a.contains x = true ∧ b.contains x = true

/-- A log of begin/end calls, each with what it announced. -/
abbrev UpdateLog := List (Gate.Act × Option Iv)

/-- The calls made since the last announced end, given those before and one more entry. -/
def pendingStep (acc : List Gate.Act) : Gate.Act × Option Iv → List Gate.Act
  | (.finish _, some _) => []
  | (a, _) => acc ++ [a]

/-- The calls made since the last announced end. -/
def pending (log : UpdateLog) : List Gate.Act := log.foldl pendingStep []

/-- The intervals begun in a sequence of calls. -/
def begun : List Gate.Act → List Iv
  | [] => []
  | .begin d :: as => d :: begun as
  | .finish _ :: as => begun as

/-- The intervals ended in a sequence of calls. -/
def ended : List Gate.Act → List Iv
  | [] => []
  | .begin _ :: as => ended as
  | .finish d :: as => d :: ended as

/-- A log of observer operations with the results of `add_observer`. -/
abbrev WorldLog := List (World.Op × Option (Except Err ℕ))

/-- Tokens of registrations made (a token is returned and it is not 0), over all curves. -/
def tokens : WorldLog → List ℕ
  | [] => []
  | (.add _ _, some (.ok t)) :: l => if t = 0 then tokens l else t :: tokens l
  | _ :: l => tokens l

/-- Registrations made on curve `c`, in order of time: token, prioritised or not. -/
def registrations (c : ℕ) : WorldLog → List (ℕ × Bool)
  | [] => []
  | (.add c' a, some (.ok t)) :: l =>
    if c' = c ∧ t ≠ 0 then (t, a.prioritize) :: registrations c l else registrations c l
  | _ :: l => registrations c l

/-- The order in which registrations are to be served: prioritised ones first, latest first,
then the others, earliest first. -/
def serviceOrder (L : List (ℕ × Bool)) : List ℕ :=
  ((L.filter fun p => p.2).reverse ++ L.filter fun p => !p.2).map fun p => p.1

/-- The callbacks made when a begin on `d` is announced and callbacks leave the registry
alone. -/
def BeginCalls (g : Registry) (d : Iv) (calls : List Call) : Prop :=
  ∃ fuel, g.deliverBegin d (fun _ r => r) fuel = some (g, calls, none)

/-- The callbacks made when an end on `d` is announced and callbacks leave the registry
alone. -/
def EndCalls (g : Registry) (d : Iv) (calls : List Call) : Prop :=
  g.deliverEnd d (fun _ r => r) = (g, calls, none)

/-- Exactly what the registrations ask for: whose callback (begin or end, selected by `cb`) is
to be called with what when `d` is announced. -/
def Wanted (cb : Obs → Option Bool) (g : Registry) (d : Iv) (k : Call) : Prop :=
  ∃ o w, g.data k.token = some o ∧ Meets d o.domain ∧ cb o = some w ∧
    k.arg = (if w then some d else none)

end Curvepy.Spec
