import Verif.Model.Observer

/-!
# Graphs of curves

Dependents register `begin_update`/`end_update` (possibly with a change of the interval) as
callbacks on their sources: `map.py:23`, `aggregate.py:26-27`, `piecewise.py:19`,
`offset.py:25-26` with `offset.py:94-98`, `scan.py:17` with `scan.py:98-114`, `quotes.py:114`.

Curves are numbered so that dependents have larger numbers than their sources (a curve is
constructed after its sources; `Curve.parse` at construction, no method reassigns a source).
The observers of the library have no domain restriction, so every announcement reaches all of
them.  Extensions and `Extremas` react differently and are not part of this model.
-/

namespace Curvepy

/-- The dependents of each curve, in the order in which they are called, with what they do to the
announced interval before passing it on: nothing (`map.py:23`, `aggregate.py:26`,
`piecewise.py:19`), a shift (`offset.py:94-98`), or extension to the right
(`scan.py:98-114`). -/
structure Net where
  out : ℕ → List (ℕ × (Iv → Iv))

namespace Net

/-- Pending updates of every curve. -/
abbrev St := ℕ → Gate

/-- A call of `begin_update`/`end_update` on a curve and what the curve announced. -/
structure Entry where
  node : ℕ
  act : Gate.Act
  announced : Option Iv
deriving DecidableEq, Repr

/-- New bookkeeping for one curve. -/
def upd (st : St) (i : ℕ) (g : Gate) : St := fun k => if k = i then g else st k

/-- The delivery loop (`curve.py:437-444`, `459-466`): call each dependent in turn. -/
def forEach (f : St → ℕ → Iv → St × List Entry) (e : Iv) :
    List (ℕ × (Iv → Iv)) → St → St × List Entry
  | [], st => (st, [])
  | (j, t) :: es, st =>
    let (st1, l1) := f st j (t e)
    let (st2, l2) := forEach f e es st1
    (st2, l1 ++ l2)

/-- `begin_update(d)` (for `mk = Act.begin`, `curve.py:433-444`) or `end_update(d)` (for
`mk = Act.finish`, `curve.py:446-466`) on curve `i`, with everything it triggers.  The first
argument bounds the length of dependency chains. -/
def propagate (net : Net) (mk : Iv → Gate.Act) : ℕ → St → ℕ → Iv → St × List Entry
  | 0, st, _, _ => (st, [])
  | k + 1, st, i, d =>
    let (g, o) := (st i).act (mk d)
    match o with
    | none => (upd st i g, [⟨i, mk d, none⟩])
    | some e =>
      let (st2, l) := forEach (propagate net mk k) e (net.out i) (upd st i g)
      (st2, ⟨i, mk d, some e⟩ :: l)

/-- The first half of an edit of curve `s` on `d` in a graph of `n` curves: `begin_update`
(`points.py:79`, `constant.py:23`). -/
def beginEdit (net : Net) (n : ℕ) (st : St) (s : ℕ) (d : Iv) : St × List Entry :=
  net.propagate .begin n st s d

/-- The second half: `end_update` (`points.py:85`, `constant.py:25`). -/
def endEdit (net : Net) (n : ℕ) (st : St) (s : ℕ) (d : Iv) : St × List Entry :=
  net.propagate .finish n st s d

/-- The interval passed on by an offset curve without duration (`offset.py:94-98`, `119-127`). -/
def shift (k : ℚ) (d : Iv) : Iv := ⟨d.lo.addQ k, d.hi.addQ k, d.loOpen, d.hiOpen⟩

/-- The interval passed on by a scanning curve (`scan.py:98-114`). -/
def scanOn (d : Iv) : Iv := ⟨d.lo, .pinf, d.loOpen, true⟩

/-- No curve is updating. -/
def idle : St := fun _ => Gate.init

end Net
end Curvepy
