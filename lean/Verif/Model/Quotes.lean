import Verif.Model.Accumulator

/-!
# `curvepy/quotes.py`

Quotes are lists of numbers.  An encoder is a function on points that may raise.  The cached domain of
the `Quotes` object, which observes its points, is taken to be that of the points (C22).  Durations
(`pyduration`) only enter through `duration.is_uniform`.
-/

namespace Curvepy

/-- `[open, high, low, close, (volume)]` (`quotes.py:7-22`). -/
abbrev Quote := List ℚ

/-- Needed to use `Points.y`; never used, because quotes are not interpolated linearly
(`quotes.py:112-113`). -/
instance : Lerp Quote := ⟨fun u a b => List.zipWith (Lerp.lerp u) a b⟩

/-- `Quotes` (`quotes.py:99-123`). -/
structure Quotes where
  points : Pts Quote
  encoder : Option (Pt Quote → Except Err (Pt Quote))

/-- The same points with another value at each: what `Map(points, f)` answers over points that are not
interpolated linearly (`mapped_y`). -/
def mapped {V W : Type} (f : V → W) (s : Pts V) : Pts W :=
  { interp := s.interp, force := s.force, equal := s.equal, interval := s.interval,
    points := s.points.map fun p => (p.1, p.2.map f), minStep := s.minStep, cache := s.cache,
    bIv := s.bIv, eIv := s.eIv }

namespace Quotes

/-- Outcome of an edit. -/
structure QRes where
  st : Quotes
  ev : List (Pts.Ev Quote)
  err : Option Err

/-- `encode_one` (`quotes.py:206-209`). -/
def encodeOne (q : Quotes) (p : Pt Quote) : Except Err (Pt Quote) :=
  match q.encoder with
  | some f => f p
  | none => .ok p

/-- `[self.encoder(p) for p in quote_points]`. -/
def encodeLoop (f : Pt Quote → Except Err (Pt Quote)) : List (Pt Quote) → Except Err (List (Pt Quote))
  | [] => .ok []
  | p :: ps => do
    let e ← f p
    let es ← encodeLoop f ps
    pure (e :: es)

/-- `encode_many` (`quotes.py:211-214`). -/
def encodeMany (q : Quotes) (ps : List (Pt Quote)) : Except Err (List (Pt Quote)) :=
  match q.encoder with
  | some f => encodeLoop f ps
  | none => .ok ps

/-- The result of an edit of the points. -/
def lift (q : Quotes) (r : Pts.Res Quote) : QRes := ⟨{ q with points := r.st }, r.ev, r.err⟩

/-- `set` (`quotes.py:198-204`). -/
def set (q : Quotes) (ps : List (Pt Quote)) (r : Pts.Reads) : QRes :=
  match q.encodeMany ps with
  | .error e => ⟨q, [], some e⟩
  | .ok es => q.lift (q.points.set es none r)

/-- `append_list` (`quotes.py:188-196`). -/
def appendList (q : Quotes) (ps : List (Pt Quote)) (r : Pts.Reads) : QRes :=
  if q.points.domVal.isEmpty then q.set ps r
  else
    match q.encodeMany ps with
    | .error e => ⟨q, [], some e⟩
    | .ok es => q.lift (q.points.appendList es r)

/-- `append` (`quotes.py:180-186`): the encoded quote is passed to `append_list`, which encodes. -/
def append (q : Quotes) (p : Pt Quote) (r : Pts.Reads) : QRes :=
  match q.encodeOne p with
  | .error e => ⟨q, [], some e⟩
  | .ok e => q.appendList [e] r

/-- `Quotes(duration, None, encoder)` (`quotes.py:99-123`). -/
def new (uniform : Bool) (encoder : Option (Pt Quote → Except Err (Pt Quote))) : Quotes :=
  ⟨((Pts.blank .previous uniform).set [] none ⟨false, false⟩).st, encoder⟩

/-- `y` (`quotes.py:231-232`). -/
def y (q : Quotes) (x : Ext) : Except Err (Option Quote) := q.points.y x

/-- `Map(self, f, skip_none=True).y` (`quotes.py:24-88`, `map.py:36-40`). -/
def component (f : Quote → Except Err ℚ) (q : Quotes) (x : Ext) : Except Err (Option ℚ) := do
  match ← q.y x with
  | none => pure none
  | some v => do
    let c ← f v
    pure (some c)

/-- `open` (`quotes.py:35-44`). -/
def opening : Quotes → Ext → Except Err (Option ℚ) := component fun q => pyGet q 0
/-- `high` (`quotes.py:46-55`). -/
def high : Quotes → Ext → Except Err (Option ℚ) := component fun q => pyGet q 1
/-- `low` (`quotes.py:57-66`). -/
def low : Quotes → Ext → Except Err (Option ℚ) := component fun q => pyGet q 2
/-- `close` (`quotes.py:24-33`). -/
def close : Quotes → Ext → Except Err (Option ℚ) := component fun q => pyGet q 3
/-- `volume` (`quotes.py:79-88`). -/
def volume : Quotes → Ext → Except Err (Option ℚ) := component fun q => pyGet q 4
/-- `hl2` (`quotes.py:68-77`). -/
def hl2 : Quotes → Ext → Except Err (Option ℚ) := component fun q => do
  let h ← pyGet q 1
  let l ← pyGet q 2
  pure ((h + l) / 2)

/-- Entry `i` of a quote that is long enough. -/
def entry (i : ℕ) (q : Quote) : ℚ := q.getD i 0

/-- What `trailing_high` applies, and over which component (`quotes.py:174-175`). -/
def trailingHigh (q : Quotes) (minStep : ℚ) (uniform : Bool) : Accum × (List (Option ℚ) → Except Err (Option ℚ)) :=
  (Accum.new (mapped (entry 1) q.points) minStep .previous uniform, Accum.pyMax)

/-- What `trailing_low` applies, and over which component (`quotes.py:177-178`). -/
def trailingLow (q : Quotes) (minStep : ℚ) (uniform : Bool) : Accum × (List (Option ℚ) → Except Err (Option ℚ)) :=
  (Accum.new (mapped (entry 2) q.points) minStep .previous uniform, Accum.pyMax)

/-- `get_range` (`quotes.py:137-148`) of sampled quotes: a list has no attribute `low`, and `None` none
either. -/
def getRange (sampled : List (Option Quote)) : Except Err (Option (ℚ × ℚ)) :=
  match sampled with
  | [] => .ok none
  | _ :: _ => .error .attribute

end Quotes
end Curvepy
