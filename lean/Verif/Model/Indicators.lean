import Verif.Model.Sma
import Verif.Model.Quotes
import Verif.Model.OffsetDuration

/-!
# Indicators of quotes made of simple averages (`quotes.py:150-172`)

Each average has its own copy of the points of `hl2`; edits reach them as in `Accum.edit`.  The domain of the difference is computed
whenever it is read; that the remembered one is the same is C22.
-/

namespace Curvepy
open Accum Sma

/-- A simple average and its window, which never changes (`sma.py:13-33`). -/
structure Sma.Avg where
  w : Window
  acc : Accum

/-- A simple average moved by `k` periods (`offset.py:16-26`). -/
structure Sma.Lag where
  k : ℤ
  avg : Avg

namespace Quotes

/-- `hl2` of one quote (`quotes.py:73-78`). -/
def middle (q : Quote) : ℚ := (entry 1 q + entry 2 q) / 2

/-- `self.hl2.sma(n, uniform=uniform)` (`quotes.py:159`, `curve.py:597-599`). -/
def middleSma (q : Quotes) (m : ℚ) (uniform : Bool) (n : ℕ) : Except Err Avg := do
  let A ← Sma.new (mapped middle q.points) (.degree n) m uniform
  pure ⟨.degree n, A⟩

/-- The two averages of `ao` (`quotes.py:158-159`). -/
def ao (q : Quotes) (m : ℚ) (uniform : Bool) : Except Err (Avg × Avg) := do
  let fast ← q.middleSma m uniform 5
  let slow ← q.middleSma m uniform 34
  pure (fast, slow)

/-- `alligator` (`quotes.py:161-172`): jaw, teeth, lips. -/
def alligator (q : Quotes) (m : ℚ) (uniform : Bool) : Except Err (Lag × Lag × Lag) := do
  let jaw ← q.middleSma m uniform 13
  let teeth ← q.middleSma m uniform 8
  let lips ← q.middleSma m uniform 5
  pure (⟨8, jaw⟩, ⟨5, teeth⟩, ⟨3, lips⟩)

end Quotes

namespace Sma

/-- `sub_f` (`curve.py:758-767`) of two values. -/
def minus : Option ℚ → Option ℚ → Option ℚ
  | some a, some b => some (a - b)
  | _, _ => none

/-- `y` of the difference of two averages (`aggregate.py:8-13`, `50-56`, `curve.py:753-769`, `quotes.py:159`). -/
def difference (fuel : ℕ) (s : Avg × Avg) (x : Ext) : Option ((Avg × Avg) × Except Err (Option ℚ)) :=
  match smaTouch s.1.w s.1.acc with
  | (A, .error e) => some ((⟨s.1.w, A⟩, s.2), .error e)
  | (A, .ok d) =>
    match smaTouch s.2.w s.2.acc with
    | (B, .error e) => some ((⟨s.1.w, A⟩, ⟨s.2.w, B⟩), .error e)
    | (B, .ok d') =>
      if !(Iv.interAll [d, d']).contains x then some ((⟨s.1.w, A⟩, ⟨s.2.w, B⟩), .ok none)
      else
        match smaY s.1.w fuel A x with
        | none => none
        | some o =>
          match o.res with
          | .error e => some ((⟨s.1.w, o.st⟩, ⟨s.2.w, B⟩), .error e)
          | .ok v =>
            match smaY s.2.w fuel B x with
            | none => none
            | some o' =>
              match o'.res with
              | .error e => some ((⟨s.1.w, o.st⟩, ⟨s.2.w, o'.st⟩), .error e)
              | .ok v' => some ((⟨s.1.w, o.st⟩, ⟨s.2.w, o'.st⟩), .ok (minus v v'))

/-- The interpolation at the end of `_interpolated_func` (`offset.py:54-60`), between positions `x0` and `x1` of the curve. -/
def lagBetween (D : Dur) (k : ℤ) (x : Ext) (x0 x1 : Ext) (v v' : Option ℚ) : Except Err (Option ℚ) :=
  match v, v', x, D.shift k true x0, D.shift k false x1 with
  | some y0, some y1, .fin q, .fin a, .fin b =>
    if b - a = 0 then .error .zeroDiv
    else
      let u := (q - a) / (b - a)
      .ok (some (y0 * (1 - u) + y1 * u))
  | _, _, _, _, _ => .ok none

/-- `y` of `sma(n).offset(k, duration)` (`offset.py:37-60`). -/
def Lag.y (D : Dur) (fuel : ℕ) (s : Lag) (x : Ext) : Option (Out (Option ℚ)) :=
  let x0 := D.shift (-s.k) true x
  let x1 := D.shift (-s.k) false x
  match smaTouch s.avg.w s.avg.acc with
  | (A, .error e) => answer A (.error e)
  | (A, .ok d) =>
    if !d.contains x0 || !d.contains x1 then answer A (.ok none)
    else if x0 = x1 then smaY s.avg.w fuel A x0
    else
      match smaY s.avg.w fuel A x0 with
      | none => none
      | some o =>
        match o.res with
        | .error e => answer o.st (.error e)
        | .ok v =>
          match smaY s.avg.w fuel o.st x1 with
          | none => none
          | some o' =>
            match o'.res with
            | .error e => answer o'.st (.error e)
            | .ok v' => answer o'.st (lagBetween D s.k x x0 x1 v v')

end Sma
end Curvepy
