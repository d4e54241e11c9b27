import Verif.Spec.Quotes
import Verif.Props.Averages

/-!
# Properties C64, C73: quotes
-/

namespace Curvepy
namespace Props
open Spec Quotes

/-! ## What is stored -/

theorem encodeLoop_eq (f : Pt Quote → Except Err (Pt Quote)) (l : List (Pt Quote)) :
    encodeLoop f l = l.mapM f := by
  induction l with
  | nil => rfl
  | cons p ps ih => rw [encodeLoop, ih, List.mapM_cons]

theorem mapM_ok {α : Type} (l : List α) : l.mapM (Except.ok : α → Except Err α) = .ok l := by
  induction l with
  | nil => rfl
  | cons p ps ih => rw [List.mapM_cons, ih]; rfl

theorem encodeMany_eq (q : Quotes) (l : List (Pt Quote)) : q.encodeMany l = l.mapM (encoding q) := by
  unfold encodeMany encoding
  cases q.encoder with
  | none => exact (mapM_ok l).symm
  | some f => exact encodeLoop_eq f l

theorem encodeOne_eq (q : Quotes) (p : Pt Quote) : q.encodeOne p = encoding q p := by
  unfold encodeOne encoding
  cases q.encoder <;> rfl

theorem QOp.run_encoder (op : QOp) (q : Quotes) (r : Pts.Reads) :
    (op.run q r).st.encoder = q.encoder := by
  have hset : ∀ l, (q.set l r).st.encoder = q.encoder := by
    intro l; unfold Quotes.set; split <;> rfl
  have hal : ∀ l, (q.appendList l r).st.encoder = q.encoder := by
    intro l
    unfold Quotes.appendList
    split
    · exact hset l
    · split <;> rfl
  cases op with
  | set l => exact hset l
  | appendList l => exact hal l
  | append p =>
    simp only [QOp.run, Quotes.append]
    split
    · rfl
    · exact hal _

/-- What an edit of quotes does, in terms of the points. -/
def QRan (q : Quotes) (new : List (Pt Quote)) (res : QRes) : Prop :=
  ∃ (op : Op Quote) (r : Pts.Reads), res = q.lift (op.run q.points r) ∧ op.Legal ∧
    Pts.Outcome q.points op (op.run q.points r) ∧ op.target q.points.points = new ∧
    ((∃ es, op = .set es) ∨ ∃ es, op = .appendList es)

theorem set_ran {q : Quotes} (b : q.points.Base) (r : Pts.Reads) {l es : List (Pt Quote)}
    (he : l.mapM (encoding q) = .ok es) (ha : Ascending es) : QRan q es (q.set l r) := by
  refine ⟨.set es, r, ?_, ha, Pts.outcome_set b ha r _ rfl, rfl, Or.inl ⟨_, rfl⟩⟩
  simp only [Quotes.set, encodeMany_eq, he, Op.run]

theorem appendList_ran {q : Quotes} (b : q.points.Base) (r : Pts.Reads) {l es : List (Pt Quote)}
    (he : l.mapM (encoding q) = .ok es) (ha : Ascending es) :
    QRan q (q.points.points ++ es) (q.appendList l r) := by
  by_cases hd : q.points.domVal.isEmpty = true
  · have hp : q.points.points = [] := by
      rw [b.domVal] at hd
      exact (Pts.getDomain_isEmpty_iff b.asc).1 hd
    refine ⟨.set es, r, ?_, ha, Pts.outcome_set b ha r _ rfl, ?_, Or.inl ⟨_, rfl⟩⟩
    · simp only [Quotes.appendList, hd, if_true, Quotes.set, encodeMany_eq, he, Op.run]
    · simp [Op.target, hp]
  · refine ⟨.appendList es, r, ?_, ha, Pts.outcome_appendList b ha r _ (fun _ => rfl), rfl, Or.inr ⟨_, rfl⟩⟩
    simp only [Quotes.appendList, hd, if_false, encodeMany_eq, he, Op.run, Bool.false_eq_true]

theorem set_raised (q : Quotes) (r : Pts.Reads) {l : List (Pt Quote)} {e : Err}
    (he : l.mapM (encoding q) = .error e) : q.set l r = ⟨q, [], some e⟩ := by
  simp only [Quotes.set, encodeMany_eq, he]

theorem appendList_raised (q : Quotes) (r : Pts.Reads) {l : List (Pt Quote)} {e : Err}
    (he : l.mapM (encoding q) = .error e) : q.appendList l r = ⟨q, [], some e⟩ := by
  unfold Quotes.appendList
  split
  · exact set_raised q r he
  · simp only [encodeMany_eq, he]

/-- The effect of an accepted edit. -/
def effect (f : Pt Quote → Except Err (Pt Quote)) (op : QOp) (old new : List (Pt Quote)) : Prop :=
  match op with
  | .set l => l.mapM f = .ok new
  | .appendList l => ∃ es, l.mapM f = .ok es ∧ new = old ++ es
  | .append p => ∃ e e', f p = .ok e ∧ f e = .ok e' ∧ new = old ++ [e']

theorem mapM_one {f : Pt Quote → Except Err (Pt Quote)} {p e : Pt Quote} (h : f p = .ok e) :
    [p].mapM f = .ok [e] := by
  rw [List.mapM_cons, h]; rfl

theorem mapM_one_error {f : Pt Quote → Except Err (Pt Quote)} {p : Pt Quote} {e : Err}
    (h : f p = .error e) : [p].mapM f = .error e := by
  rw [List.mapM_cons, h]; rfl

/-- A legal edit either raises in the encoder and touches nothing, or edits the points. -/
theorem qrun {q : Quotes} (b : q.points.Base) {op : QOp} (hl : op.Legal q) (r : Pts.Reads) :
    (∃ e, op.run q r = ⟨q, [], some e⟩) ∨
      ∃ new, QRan q new (op.run q r) ∧ effect (encoding q) op q.points.points new := by
  cases op with
  | set l =>
    cases he : l.mapM (encoding q) with
    | error e => exact Or.inl ⟨e, set_raised q r he⟩
    | ok es => exact Or.inr ⟨es, set_ran b r he (hl es he), he⟩
  | appendList l =>
    cases he : l.mapM (encoding q) with
    | error e => exact Or.inl ⟨e, appendList_raised q r he⟩
    | ok es => exact Or.inr ⟨_, appendList_ran b r he (hl es he), es, he, rfl⟩
  | append p =>
    simp only [QOp.run, Quotes.append, encodeOne_eq]
    cases he : encoding q p with
    | error e => exact Or.inl ⟨e, rfl⟩
    | ok e =>
      simp only
      cases he' : encoding q e with
      | error e2 => exact Or.inl ⟨e2, appendList_raised q r (mapM_one_error he')⟩
      | ok e2 =>
        exact Or.inr ⟨_, appendList_ran b r (mapM_one he') (by simp [Ascending]), e, e2, he, he', rfl⟩

theorem qran {q : Quotes} (b : q.points.Base) {new : List (Pt Quote)} {res : QRes}
    (h : QRan q new res) (hr : lateError res.err = false) :
    res.st.points.Base ∧ (res.err = none → res.st.points.points = new) ∧
      (res.err ≠ none → res.st.points.points = q.points.points ∧ res.ev = []) := by
  obtain ⟨op, r, rfl, _, ho, ht, _⟩ := h
  change lateError (op.run q.points r).err = false at hr
  change (op.run q.points r).st.Base ∧ ((op.run q.points r).err = none →
    (op.run q.points r).st.points = new) ∧ ((op.run q.points r).err ≠ none →
    (op.run q.points r).st.points = q.points.points ∧ (op.run q.points r).ev = [])
  cases ho with
  | idle hs hev hp he =>
    have h1 : (op.run q.points r).st.points = q.points.points := by
      rcases hs with h | h <;> rw [h] <;> rfl
    refine ⟨?_, fun h => by rw [h1, ← ht, hp h], fun _ => ⟨h1, hev⟩⟩
    rcases hs with h | h <;> rw [h]
    · exact b
    · exact b.touch
  | stuck iv e he hf h => rw [h.err, he] at hr; cases hr
  | edited iv h hk =>
    exact ⟨h.base, fun _ => by rw [h.points, ht], fun hn => absurd h.err hn⟩

theorem mapM_append_ok {f : Pt Quote → Except Err (Pt Quote)} {a b as bs : List (Pt Quote)}
    (ha : a.mapM f = .ok as) (hb : b.mapM f = .ok bs) : (a ++ b).mapM f = .ok (as ++ bs) := by
  rw [List.mapM_append, ha, hb]; rfl

theorem runs_stored {q q' : Quotes} {ops : List QOp} (h : QRuns q ops q') (b : q.points.Base)
    {c : Pt Quote → Pt Quote}
    (hc : ∀ p e e', encoding q p = .ok e → encoding q e = .ok e' → encoding q (c p) = .ok e')
    {acc : List (Pt Quote)} (ha : acc.mapM (encoding q) = .ok q.points.points) :
    (given c acc ops).mapM (encoding q) = .ok q'.points.points ∧ q'.points.Base := by
  induction h generalizing acc with
  | done q => exact ⟨ha, b⟩
  | @accept q q' op ops r hl he hs ih =>
    have henc : encoding (op.run q r).st = encoding q := by
      unfold encoding; rw [QOp.run_encoder]
    rw [henc] at ih
    rcases qrun b hl r with ⟨e, h⟩ | ⟨new, h, hf⟩
    · rw [h] at he; cases he
    · obtain ⟨h1, h2, _⟩ := qran b h (by rw [he]; rfl)
      have h3 := h2 he
      cases op with
      | set l => exact ih h1 hc (by rw [h3]; exact hf)
      | appendList l =>
        obtain ⟨es, h4, rfl⟩ := hf
        exact ih h1 hc (by rw [h3]; exact mapM_append_ok ha h4)
      | append p =>
        obtain ⟨e, e', h4, h5, rfl⟩ := hf
        exact ih h1 hc (by rw [h3]; exact mapM_append_ok ha (mapM_one (hc _ _ _ h4 h5)))
  | @refuse q q' op ops r hl he hr hs ih =>
    have henc : encoding (op.run q r).st = encoding q := by
      unfold encoding; rw [QOp.run_encoder]
    rw [henc] at ih
    rcases qrun b hl r with ⟨e, h⟩ | ⟨new, h, hf⟩
    · rw [h] at ih; exact ih b hc ha
    · obtain ⟨h1, _, h2⟩ := qran b h hr
      exact ih h1 hc (by rw [(h2 he).1]; exact ha)

theorem new_base (u : Bool) (f : Option (Pt Quote → Except Err (Pt Quote))) :
    (Quotes.new u f).points.Base ∧ (Quotes.new u f).points.points = [] := by
  have h : Pts.new ([] : List (Pt Quote)) .previous u = .ok (Quotes.new u f).points := by
    cases u <;> rfl
  obtain ⟨h1, h2, _⟩ := Pts.new_ok List.Pairwise.nil h
  exact ⟨h1, h2⟩

/-- C64: what is stored is what was given since the last `set`, in order, encoded; except that an
appended quote is encoded twice.  Refused edits leave no trace. -/
theorem C64_stored_twice (u : Bool) (f : Option (Pt Quote → Except Err (Pt Quote))) {q : Quotes}
    {ops : List QOp} (h : QRuns (Quotes.new u f) ops q) :
    (given (once (f.getD .ok)) [] ops).mapM (f.getD .ok) = .ok q.points.points := by
  refine (runs_stored h (new_base u f).1 (c := once (f.getD .ok)) ?_ ?_).1
  · intro p e e' h1 h2
    have h1' : f.getD .ok p = .ok e := h1
    change f.getD .ok (once (f.getD .ok) p) = .ok e'
    rw [once, h1']
    exact h2
  · rw [(new_base u f).2]; rfl

/-- C64: with an encoder that leaves encoded quotes alone (or none) it is what was given, encoded. -/
theorem C64_stored_partial (u : Bool) (f : Option (Pt Quote → Except Err (Pt Quote))) {q : Quotes}
    {ops : List QOp} (h : QRuns (Quotes.new u f) ops q)
    (hf : ∀ p e, f.getD .ok p = .ok e → f.getD .ok e = .ok e) :
    (given id [] ops).mapM (f.getD .ok) = .ok q.points.points := by
  refine (runs_stored h (new_base u f).1 (c := id) ?_ ?_).1
  · intro p e e' h1 h2
    have := hf p e h1
    rw [show f.getD .ok e = .ok e' from h2] at this
    cases this
    exact h1
  · rw [(new_base u f).2]; rfl

/-- C64: without `append` it is what was given, encoded, whatever the encoder. -/
theorem C64_stored_batches (u : Bool) (f : Option (Pt Quote → Except Err (Pt Quote))) {q : Quotes}
    {ops : List QOp} (h : QRuns (Quotes.new u f) ops q) (hn : ∀ p, QOp.append p ∉ ops) :
    (given id [] ops).mapM (f.getD .ok) = .ok q.points.points := by
  rw [← C64_stored_twice u f h]
  congr 1
  generalize ([] : List (Pt Quote)) = acc
  clear h
  induction ops generalizing acc with
  | nil => rfl
  | cons op ops ih =>
    have hn' : ∀ p, QOp.append p ∉ ops := fun p hp => hn p (by simp [hp])
    cases op with
    | set l => exact ih hn' l
    | appendList l => exact ih hn' _
    | append p => exact absurd (by simp) (hn p)

/-- C64: an edit refused by the encoder leaves the quotes literally unchanged and notifies nobody. -/
theorem C64_encoder_raises (q : Quotes) (r : Pts.Reads) {l : List (Pt Quote)} {e : Err}
    (he : l.mapM (encoding q) = .error e) :
    q.set l r = ⟨q, [], some e⟩ ∧ q.appendList l r = ⟨q, [], some e⟩ :=
  ⟨set_raised q r he, appendList_raised q r he⟩

/-- Milliseconds to seconds. -/
def toSeconds : Pt Quote → Except Err (Pt Quote) := fun p => .ok (p.1 / 1000, p.2)

/-- C64 does not hold: `append` encodes twice. -/
theorem C64_negation_append :
    ∃ q : Quotes, QRuns (Quotes.new true (some toSeconds)) [.append (60000, some [1, 2, 1, 2])] q ∧
      q.points.points = [(3 / 50, some [1, 2, 1, 2])] ∧
      toSeconds (60000, some [1, 2, 1, 2]) = .ok (60, some [1, 2, 1, 2]) := by
  refine ⟨_, .accept ⟨false, false⟩ trivial (by decide +kernel) (.done _), by decide +kernel,
    by decide +kernel⟩

theorem ascending_toSeconds {l : List (Pt Quote)} (h : Ascending l) (es : List (Pt Quote))
    (he : l.mapM toSeconds = .ok es) : Ascending es := by
  have : ∀ l : List (Pt Quote), l.mapM toSeconds = .ok (l.map fun p => (p.1 / 1000, p.2)) := by
    intro l
    induction l with
    | nil => rfl
    | cons a as ih => rw [List.mapM_cons, ih]; rfl
  rw [this] at he
  cases he
  unfold Ascending at h ⊢
  rw [List.pairwise_map]
  exact h.imp fun {a b} hab => by linarith

theorem legal_toSeconds {q : Quotes} (hq : q.encoder = some toSeconds) {l : List (Pt Quote)}
    (h : Ascending l) : (QOp.appendList l).Legal q := by
  intro es he
  unfold encoding at he
  rw [hq] at he
  exact ascending_toSeconds h es he

example : ∃ q : Quotes, QRuns (Quotes.new true (some toSeconds))
    [.set [(0, some [1, 2, 1, 2])], .appendList [(60000, some [2, 3, 2, 3]), (120000, some [3, 3, 3, 3])]] q ∧
    q.points.points = [(0, some [1, 2, 1, 2]), (60, some [2, 3, 2, 3]), (120, some [3, 3, 3, 3])] := by
  refine ⟨_, .accept ⟨false, false⟩ (ascending_toSeconds (by norm_num [Ascending])) (by decide +kernel)
    (.refuse (op := .append (0, some [0, 0, 0, 0])) ⟨true, false⟩ trivial (by decide +kernel)
      (by decide +kernel)
    (.accept ⟨true, true⟩ (legal_toSeconds (by simp only [QOp.run_encoder]; rfl) (by norm_num [Ascending])) (by decide +kernel) (.done _))),
    by decide +kernel⟩

/-! ## The components -/

section mapping
variable {V W : Type} (f : V → W)

/-- The value mapped. -/
def onValue (p : Pt V) : Pt W := (p.1, p.2.map f)

theorem mapped_getLast {l : List (Pt V)} (h : l ≠ []) :
    ((l.map (onValue f)).getLast (by simpa using h)).1 = (l.getLast h).1 := by
  rw [List.getLast_map]; rfl

theorem mapped_getDomain (l : List (Pt V)) : Pts.getDomain (l.map (onValue f)) = Pts.getDomain l := by
  cases l with
  | nil => rfl
  | cons p ps =>
    have := mapped_getLast f (l := p :: ps) (by simp)
    simp only [Pts.getDomain, List.map_cons] at this ⊢
    rw [this]
    rfl

theorem mapped_points (s : Pts V) : (mapped f s).points = s.points.map (onValue f) := rfl

theorem mapped_domVal (s : Pts V) : (mapped f s).domVal = s.domVal := by
  simp only [Pts.domVal, mapped_points, mapped_getDomain]
  rfl

theorem mapped_touch (s : Pts V) : (mapped f s).touch = mapped f s.touch := by
  simp only [Pts.touch, mapped_domVal]
  rfl

theorem mapped_bisectGo (l : List (Pt V)) (x : ℚ) (n : ℕ) : ∀ lo hi, hi - lo ≤ n →
    Pts.bisectGo (l.map (onValue f)) x lo hi = Pts.bisectGo l x lo hi := by
  induction n with
  | zero =>
    intro lo hi h
    rw [Pts.bisectGo, Pts.bisectGo, if_neg (by omega), if_neg (by omega)]
  | succ n ih =>
    intro lo hi h
    rw [Pts.bisectGo, Pts.bisectGo]
    split
    · simp only [List.getElem?_map]
      cases l[(lo + hi) / 2]? with
      | none => rfl
      | some p =>
        simp only [Option.map_some, onValue]
        split
        · exact ih _ _ (by omega)
        · exact ih _ _ (by omega)
    · rfl

theorem mapped_bisect (l : List (Pt V)) (x : ℚ) :
    Pts.bisect (l.map (onValue f)) x = Pts.bisect l x := by
  unfold Pts.bisect
  rw [List.length_map]
  exact mapped_bisectGo f l x _ _ _ le_rfl

theorem mapped_pyGet (l : List (Pt V)) (i : ℤ) :
    pyGet (l.map (onValue f)) i = (pyGet l i).map (onValue f) := by
  unfold pyGet
  simp only [List.getElem?_map, List.length_map]
  split
  · cases l[i.toNat]? <;> rfl
  · split
    · cases l[(i + l.length).toNat]? <;> rfl
    · rfl

theorem mapped_xIndex (s : Pts V) (x : ℚ) : (mapped f s).xIndex x = s.xIndex x := by
  unfold Pts.xIndex
  rw [mapped_points, mapped_bisect, List.length_map]
  have h1 : (mapped f s).isUniform = s.isUniform := rfl
  have h2 : (mapped f s).interval = s.interval := rfl
  rw [h1, h2]
  simp only [List.getElem?_map]
  split
  · split
    · rfl
    · cases s.points with
      | nil => rfl
      | cons p ps => rfl
  · split
    · rfl
    · split
      · rfl
      · cases s.points[Pts.bisect s.points x - 1]? with
        | none => rfl
        | some p0 =>
          cases s.points[Pts.bisect s.points x]? with
          | none => rfl
          | some p1 => rfl

/-- Mapping the values commutes with evaluation, unless interpolation is linear. -/
theorem mapped_y [Lerp V] [Lerp W] (s : Pts V) (hi : s.interp ≠ .linear) (x : Ext) :
    (mapped f s).y x = (s.y x).map (Option.map f) := by
  unfold Pts.y
  rw [mapped_domVal]
  have h1 : (mapped f s).interp = s.interp := rfl
  rw [h1, mapped_points]
  split
  · rfl
  · cases x with
    | ninf => rfl
    | pinf => rfl
    | fin x =>
      simp only [mapped_xIndex, mapped_pyGet]
      cases s.xIndex x with
      | error e => rfl
      | ok i =>
        simp only [bind, Except.bind]
        split
        · cases pyGet s.points (pyInt i) <;> rfl
        · cases hs : s.interp with
          | linear => exact absurd hs hi
          | previous =>
            simp only
            cases pyGet s.points (pyInt i) <;> rfl
          | next =>
            simp only
            cases pyGet s.points (pyInt i + 1) <;> rfl

theorem mapped_intervalOf (l : List (Pt V)) :
    Pts.intervalOf (l.map (onValue f)) = Pts.intervalOf l := by
  match l with
  | [] => rfl
  | [p] => rfl
  | p :: q :: ps =>
    have := mapped_getLast f (l := q :: ps) (by simp)
    simp only [Pts.intervalOf, List.map_cons, List.length_cons, List.length_map] at this ⊢
    rw [this]
    rfl

theorem mapped_spaced (iv : Option ℚ) (a b : List (Pt V)) :
    Pts.pointsEquallySpaced iv (a.map (onValue f)) (b.map (onValue f)) =
      Pts.pointsEquallySpaced iv a b := by
  unfold Pts.pointsEquallySpaced
  simp only [List.length_map, mapped_pyGet]
  split
  · rfl
  · cases pyGet b 0 with
    | error e => rfl
    | ok n0 =>
      cases pyGet b (-1) with
      | error e => rfl
      | ok nl =>
        cases pyGet b 1 <;> cases pyGet a (-1) <;> rfl

/-- Notifications mapped. -/
def onEv : Pts.Ev V → Pts.Ev W
  | .begin iv s => .begin iv (mapped f s)
  | .fin iv s => .fin iv (mapped f s)

theorem mapped_begin (s : Pts V) (d : Iv) (r : Pts.Reads) :
    (mapped f s).beginUpdate d r = (mapped f (s.beginUpdate d r).1, (s.beginUpdate d r).2.map (onEv f)) := by
  unfold Pts.beginUpdate
  have h1 : (mapped f s).bIv = s.bIv := rfl
  rw [h1]
  split
  · rfl
  · simp only
    split
    · refine Prod.ext ?_ rfl
      exact mapped_touch f { s with bIv := s.bIv.union d }
    · rfl

theorem mapped_end (s : Pts V) (d : Iv) (r : Pts.Reads) :
    (mapped f s).endUpdate d r = (mapped f (s.endUpdate d r).1, (s.endUpdate d r).2.map (onEv f)) := by
  unfold Pts.endUpdate
  have h1 : (mapped f s).bIv = s.bIv := rfl
  have h2 : (mapped f s).eIv = s.eIv := rfl
  rw [h1, h2]
  split
  · rfl
  · simp only
    split
    · rfl
    · split
      · refine Prod.ext ?_ rfl
        exact mapped_touch f { s with bIv := Iv.empty, eIv := Iv.empty, cache := none }
      · rfl

/-- The outcome of an edit, mapped. -/
def onRes (r : Pts.Res V) : Pts.Res W := ⟨mapped f r.st, r.ev.map (onEv f), r.err⟩

theorem mapped_finish (s : Pts V) (new : List (Pt V)) (b : Bool) (d : Iv) (r : Pts.Reads) :
    (Pts.didChange { mapped f s with equal := b, points := new.map (onValue f) }).endUpdate d r =
      (mapped f ((Pts.didChange { s with equal := b, points := new }).endUpdate d r).1,
        ((Pts.didChange { s with equal := b, points := new }).endUpdate d r).2.map (onEv f)) := by
  rw [← mapped_end]
  congr 1
  simp only [Pts.didChange, mapped_intervalOf]
  rfl

theorem mapped_set (s : Pts V) (pts : List (Pt V)) (u : Option Iv) (r : Pts.Reads) :
    (mapped f s).set (pts.map (onValue f)) u r = onRes f (s.set pts u r) := by
  have hsome : ∀ (s : Pts V) d, (mapped f s).set (pts.map (onValue f)) (some d) r =
      onRes f (s.set pts (some d) r) := by
    intro s d
    unfold Pts.set
    simp only [mapped_begin]
    have h1 : ∀ t : Pts V, (mapped f t).interval = t.interval := fun _ => rfl
    have h2 : ∀ t : Pts V, (mapped f t).force = t.force := fun _ => rfl
    have h3 := mapped_spaced f (s.beginUpdate d r).1.interval [] pts
    rw [List.map_nil] at h3
    rw [h1, h3]
    cases Pts.pointsEquallySpaced (s.beginUpdate d r).1.interval [] pts with
    | error e => rfl
    | ok b =>
      simp only [h2]
      split
      · rfl
      · exact (congrArg (fun z : Pts W × List (Pts.Ev W) =>
          (⟨z.1, (s.beginUpdate d r).2.map (onEv f) ++ z.2, none⟩ : Pts.Res W))
          (mapped_finish f (s.beginUpdate d r).1 pts b d r)).trans (by simp [onRes])
  cases u with
  | some d => exact hsome s d
  | none =>
    cases pts with
    | nil =>
      have e1 : (mapped f s).set [] none r =
        (mapped f s).touch.set [] (some (mapped f s).touch.domVal) r := rfl
      have e2 : s.set [] none r = s.touch.set [] (some s.touch.domVal) r := rfl
      rw [List.map_nil, e1, e2, mapped_touch, mapped_domVal]
      exact hsome _ _
    | cons p ps =>
      have e1 : (mapped f s).set ((p :: ps).map (onValue f)) none r =
        (mapped f s).touch.set ((p :: ps).map (onValue f)) (some (Iv.union (mapped f s).touch.domVal
          (Iv.closed p.1 (((p :: ps).map (onValue f)).getLast (by simp)).1))) r := rfl
      have e2 : s.set (p :: ps) none r = s.touch.set (p :: ps) (some (Iv.union s.touch.domVal
          (Iv.closed p.1 ((p :: ps).getLast (by simp)).1))) r := rfl
      rw [e1, e2, mapped_touch, mapped_domVal, mapped_getLast f (by simp)]
      exact hsome _ _

/-- `append_list` after its checks. -/
def pushed {V : Type} (s : Pts V) (ps : List (Pt V)) (dom : Iv) (r : Pts.Reads) : Pts.Res V :=
  let (s1, ev1) := s.beginUpdate dom r
  match Pts.pointsEquallySpaced s1.interval s1.points ps with
  | .error e => ⟨s1, ev1, some e⟩
  | .ok b =>
    let s2 := { s1 with equal := b }
    if s2.force && !b then ⟨s2, ev1, some .nonRegular⟩
    else
      let s3 := Pts.didChange { s2 with points := s2.points ++ ps }
      let (s4, ev2) := s3.endUpdate dom r
      ⟨s4, ev1 ++ ev2, none⟩

theorem mapped_pushed (s : Pts V) (pts : List (Pt V)) (d : Iv) (r : Pts.Reads) :
    pushed (mapped f s) (pts.map (onValue f)) d r = onRes f (pushed s pts d r) := by
  unfold pushed
  simp only [mapped_begin]
  have h1 : ∀ t : Pts V, (mapped f t).interval = t.interval := fun _ => rfl
  have h2 : ∀ t : Pts V, (mapped f t).force = t.force := fun _ => rfl
  rw [h1, mapped_points, mapped_spaced]
  cases Pts.pointsEquallySpaced (s.beginUpdate d r).1.interval (s.beginUpdate d r).1.points pts with
  | error e => rfl
  | ok b =>
    simp only [h2]
    split
    · rfl
    · rw [← List.map_append]
      exact (congrArg (fun z : Pts W × List (Pts.Ev W) =>
        (⟨z.1, (s.beginUpdate d r).2.map (onEv f) ++ z.2, none⟩ : Pts.Res W))
        (mapped_finish f (s.beginUpdate d r).1 ((s.beginUpdate d r).1.points ++ pts) b d r)).trans
        (by simp [onRes])

theorem appendList_pushed {s : Pts V} {o p : Pt V} {os ps : List (Pt V)} (ho : s.points = o :: os)
    (r : Pts.Reads) : s.appendList (p :: ps) r =
      if p.1 ≤ ((o :: os).getLast (by simp)).1 then ⟨s, [], some .nonAscending⟩
      else pushed s.touch (p :: ps)
        (if s.touch.domVal.isEmpty then Iv.closed p.1 ((p :: ps).getLast (by simp)).1
          else ⟨s.touch.domVal.hi, .fin ((p :: ps).getLast (by simp)).1, true, false⟩) r := by
  unfold Pts.appendList
  split
  · rename_i h; rw [ho] at h; cases h
  · rename_i o' os' h
    rw [ho] at h
    cases h
    rfl

theorem mapped_appendList (s : Pts V) (pts : List (Pt V)) (r : Pts.Reads) :
    (mapped f s).appendList (pts.map (onValue f)) r = onRes f (s.appendList pts r) := by
  cases ho : s.points with
  | nil =>
    have e1 : s.appendList pts r = s.set pts none r := by
      unfold Pts.appendList
      split
      · rfl
      · rename_i h; rw [ho] at h; cases h
    have e2 : (mapped f s).appendList (pts.map (onValue f)) r =
        (mapped f s).set (pts.map (onValue f)) none r := by
      unfold Pts.appendList
      split
      · rfl
      · rename_i h; rw [mapped_points, ho] at h; cases h
    rw [e1, e2, mapped_set]
  | cons o os =>
    have ho' : (mapped f s).points = onValue f o :: os.map (onValue f) := by
      rw [mapped_points, ho]; rfl
    cases pts with
    | nil =>
      have e1 : s.appendList [] r = ⟨s, [], none⟩ := by
        unfold Pts.appendList
        split
        · rename_i h; rw [ho] at h; cases h
        · rfl
      have e2 : (mapped f s).appendList [] r = ⟨mapped f s, [], none⟩ := by
        unfold Pts.appendList
        split
        · rename_i h; rw [ho'] at h; cases h
        · rfl
      rw [List.map_nil, e1, e2]; rfl
    | cons p ps =>
      rw [List.map_cons, appendList_pushed ho r, appendList_pushed ho' r]
      have h1 := mapped_getLast f (l := o :: os) (by simp)
      have h2 := mapped_getLast f (l := p :: ps) (by simp)
      simp only [List.map_cons] at h1 h2
      rw [h1, h2, mapped_touch, mapped_domVal]
      change (if p.1 ≤ _ then _ else _) = _
      split
      · rfl
      · exact mapped_pushed f s.touch (p :: ps) _ r

end mapping

theorem qhonest {q : Quotes} (h : QHonest q) : Honest q.points ∧ q.points.interp = .previous ∧
    ∀ f : Quote → ℚ, Honest (mapped f q.points) := by
  induction h with
  | new u f =>
    have h1 : Pts.new ([] : List (Pt Quote)) .previous u = .ok (Quotes.new u f).points := by
      cases u <;> rfl
    refine ⟨.new List.Pairwise.nil h1 (fun _ => ?_), (Pts.new_ok List.Pairwise.nil h1).2.2.1, fun g => ?_⟩
    · rw [(new_base u f).2]; exact ⟨0, by simp⟩
    · have h2 : Pts.new ([] : List (Pt ℚ)) .previous u = .ok (mapped g (Quotes.new u f).points) := by
        cases u <;> rfl
      exact .new List.Pairwise.nil h2 (fun _ => ⟨0, by rw [mapped_points, (new_base u f).2]; simp⟩)
  | @edit q op r h hl hr ht ih =>
    obtain ⟨hh, hi, hm⟩ := ih
    rcases qrun hh.base hl r with ⟨e, h1⟩ | ⟨new, ⟨o, r', h1, h2, ho, _, h3⟩, _⟩
    · rw [h1]; exact ⟨hh, hi, hm⟩
    · rw [h1] at hr ht ⊢
      refine ⟨.edit hh h2 hr ht, ?_, fun g => ?_⟩
      · change (o.run q.points r').st.interp = _
        cases ho with
        | idle hs _ _ _ => rcases hs with hs | hs <;> rw [hs] <;> exact hi
        | stuck _ _ _ _ h => rw [h.interp]; exact hi
        | edited _ h _ => rw [h.interp]; exact hi
      · have key : ∃ o' : Op ℚ, o'.run (mapped g q.points) r' = onRes g (o.run q.points r') ∧ o'.Legal := by
          have hasc : ∀ es : List (Pt Quote), Ascending es → Ascending (es.map (onValue g)) := by
            intro es he
            unfold Ascending at he ⊢
            rw [List.pairwise_map]
            exact he
          rcases h3 with ⟨es, rfl⟩ | ⟨es, rfl⟩
          · exact ⟨.set (es.map (onValue g)), mapped_set g q.points es none r', hasc es h2⟩
          · exact ⟨.appendList (es.map (onValue g)), mapped_appendList g q.points es r', hasc es h2⟩
        obtain ⟨o', h4, h5⟩ := key
        have h6 : Honest (o'.run (mapped g q.points) r').st := by
          refine .edit (hm g) h5 (by rw [h4]; exact hr) ?_
          rw [h4]
          intro hu
          obtain ⟨d, hd⟩ := ht hu
          refine ⟨d, ?_⟩
          change List.IsChain _ ((o.run q.points r').st.points.map (onValue g))
          rw [List.isChain_map]
          exact hd
        rw [h4] at h6
        exact h6


theorem governs_y {q : Quotes} (h : QHonest q) {k : ℕ} {x : ℚ} (hg : Governs q.points.points k x)
    {p : Pt Quote} (hp : q.points.points[k]? = some p) : q.y (.fin x) = .ok p.2 := by
  obtain ⟨hh, hi, _⟩ := qhonest h
  obtain ⟨p', h1, h2, h3⟩ := hg
  rw [hp] at h1
  cases h1
  by_cases hx : x = p.1
  · rw [hx]
    exact C01_stored_value hh (List.mem_of_getElem? hp)
  · cases hn : q.points.points[k + 1]? with
    | none => rw [hn] at h3; exact absurd h3 hx
    | some r =>
      rw [hn] at h3
      exact (C03_step hh hp hn (lt_of_le_of_ne h2 (Ne.symm hx)) h3).1 hi

/-- C64: from the time of a quote until before the next one, the accessors answer its components. -/
theorem C64_components {q : Quotes} (h : QHonest q) {k : ℕ} {x t : ℚ} {o hi lo c : ℚ} {rest : List ℚ}
    (hg : Governs q.points.points k x)
    (hp : q.points.points[k]? = some (t, some (o :: hi :: lo :: c :: rest))) :
    q.opening (.fin x) = .ok (some o) ∧ q.high (.fin x) = .ok (some hi) ∧
    q.low (.fin x) = .ok (some lo) ∧ q.close (.fin x) = .ok (some c) ∧
    q.hl2 (.fin x) = .ok (some ((hi + lo) / 2)) ∧
    (∀ v rest', rest = v :: rest' → q.volume (.fin x) = .ok (some v)) ∧
    (rest = [] → q.volume (.fin x) = .error .index) := by
  have hy := governs_y h hg hp
  simp only [opening, high, low, close, hl2, volume, component, hy]
  refine ⟨rfl, rfl, rfl, rfl, rfl, ?_, ?_⟩
  · rintro v rest' rfl; rfl
  · rintro rfl; rfl

/-- C64: where no quote is in force, or the quote is `None`, all accessors answer `None`. -/
theorem C64_no_quote {q : Quotes} {x : Ext} (hy : q.y x = .ok none) :
    q.opening x = .ok none ∧ q.high x = .ok none ∧ q.low x = .ok none ∧ q.close x = .ok none ∧
    q.hl2 x = .ok none ∧ q.volume x = .ok none := by
  simp only [opening, high, low, close, hl2, volume, component, hy]
  exact ⟨rfl, rfl, rfl, rfl, rfl, rfl⟩

/-- C64: outside the domain no quote is in force. -/
theorem C64_outside {q : Quotes} (h : QHonest q) {x : Ext} (hx : q.points.domVal.contains x = false) :
    q.y x = .ok none :=
  (C04_total (qhonest h).1 x).2.1 hx

/-- Two quotes, a minute apart. -/
def twoQuotes : Quotes :=
  ((Quotes.new true none).set [(0, some [2, 4, 1, 3]), (60, some [3, 6, 3, 5, 100])] ⟨false, false⟩).st

theorem twoQuotes_honest : QHonest twoQuotes := by
  refine .edit (op := .set [(0, some [2, 4, 1, 3]), (60, some [3, 6, 3, 5, 100])]) (.new true none) ?_
    (by decide +kernel) ?_
  · intro es he
    have := (mapM_ok [((0 : ℚ), some [(2 : ℚ), 4, 1, 3]), (60, some [3, 6, 3, 5, 100])]).symm.trans he
    cases this
    norm_num [Ascending]
  · intro _
    refine ⟨60, ?_⟩
    have : ((QOp.set [(0, some [2, 4, 1, 3]), (60, some [3, 6, 3, 5, 100])]).run (Quotes.new true none)
        ⟨false, false⟩).st.points.points = [(0, some [2, 4, 1, 3]), (60, some [3, 6, 3, 5, 100])] := by
      decide +kernel
    rw [this]
    norm_num

example : twoQuotes.high (.fin 59) = .ok (some 4) ∧ twoQuotes.hl2 (.fin 60) = .ok (some (9 / 2)) ∧
    twoQuotes.volume (.fin 0) = .error .index ∧ twoQuotes.volume (.fin 60) = .ok (some 100) := by
  have hp : twoQuotes.points.points = [(0, some [2, 4, 1, 3]), (60, some [3, 6, 3, 5, 100])] := by
    decide +kernel
  have h0 : ∀ x, 0 ≤ x → x < 60 → Governs twoQuotes.points.points 0 x := by
    intro x h1 h2; rw [hp]; exact ⟨_, rfl, h1, h2⟩
  have h1 : Governs twoQuotes.points.points 1 60 := by rw [hp]; exact ⟨_, rfl, le_rfl, rfl⟩
  have e0 : twoQuotes.points.points[0]? = some (0, some [2, 4, 1, 3]) := by rw [hp]; rfl
  have e1 : twoQuotes.points.points[1]? = some (60, some [3, 6, 3, 5, 100]) := by rw [hp]; rfl
  refine ⟨(C64_components twoQuotes_honest (h0 59 (by norm_num) (by norm_num)) e0).2.1, ?_,
    (C64_components twoQuotes_honest (h0 0 (by norm_num) (by norm_num)) e0).2.2.2.2.2.2 rfl,
    (C64_components twoQuotes_honest h1 e1).2.2.2.2.2.1 100 [] rfl⟩
  rw [(C64_components twoQuotes_honest h1 e1).2.2.2.2.1]
  norm_num

/-! ## Trailing highs and lows -/

theorem pyGet_mem' {α : Type} {l : List α} {i : ℤ} {a : α} (h : pyGet l i = .ok a) : a ∈ l := by
  unfold pyGet at h
  split at h
  · cases hg : l[i.toNat]? with
    | none => rw [hg] at h; cases h
    | some b => rw [hg] at h; cases h; exact List.mem_of_getElem? hg
  · split at h
    · cases hg : l[(i + l.length).toNat]? with
      | none => rw [hg] at h; cases h
      | some b => rw [hg] at h; cases h; exact List.mem_of_getElem? hg
    · cases h

theorem y_previous_mem {V : Type} [Lerp V] {s : Pts V} (hi : s.interp = .previous) {x : Ext} {v : V}
    (h : s.y x = .ok (some v)) : ∃ p ∈ s.points, p.2 = some v := by
  unfold Pts.y at h
  split at h
  · cases h
  · cases x with
    | ninf => cases h
    | pinf => cases h
    | fin x =>
      simp only [bind, Except.bind, hi] at h
      split at h
      · cases h
      · rename_i i _
        cases hg : pyGet s.points (pyInt i) with
        | error e =>
          rw [hg] at h
          split at h <;> cases h
        | ok p =>
          rw [hg] at h
          refine ⟨p, pyGet_mem' hg, ?_⟩
          split at h <;> simpa [pure, Except.pure] using h

/-- C64: the curve of a component answers what the points of that component answer. -/
theorem C64_component_curve {q : Quotes} (h : QHonest q) (i : ℕ)
    (hall : ∀ p ∈ q.points.points, ∀ v, p.2 = some v → i < v.length) (x : Ext) :
    component (fun v => pyGet v (i : ℤ)) q x = (mapped (entry i) q.points).y x := by
  obtain ⟨hh, hi, _⟩ := qhonest h
  rw [mapped_y _ _ (by rw [hi]; decide)]
  unfold component Quotes.y
  obtain ⟨v, hv⟩ := (C04_total hh x).1
  rw [hv]
  cases v with
  | none => rfl
  | some v =>
    obtain ⟨p, h1, h2⟩ := y_previous_mem hi hv
    have h3 := hall p h1 v h2
    have h4 : pyGet v (i : ℤ) = .ok v[i] := by
      unfold pyGet
      simp [h3]
    change (do let c ← pyGet v (i : ℤ); pure (some c) : Except Err (Option ℚ)) = _
    rw [h4]
    simp [entry, Except.map, h3, bind, Except.bind, pure, Except.pure]

theorem mapped_defined {s : Pts Quote} (i : ℕ) {l : List (ℚ × Quote)}
    (hl : s.points = l.map fun p => (p.1, some p.2)) :
    (mapped (entry i) s).points = defined (l.map fun p => (p.1, entry i p.2)) := by
  rw [mapped_points, hl, defined, List.map_map, List.map_map]
  rfl

theorem lastEntries_eq {l : List (ℚ × Quote)} {i n k : ℕ} (hlen : ∀ p ∈ l, i < p.2.length) :
    lastValues (defined (l.map fun p => (p.1, entry i p.2))) n k = lastEntries l i n k := by
  ext y
  unfold lastValues lastEntries
  constructor
  · rintro ⟨j, q, h1, h2, h3, h4⟩
    simp only [defined, List.getElem?_map, Option.map_eq_some_iff] at h1
    obtain ⟨a, ⟨b, hb, rfl⟩, rfl⟩ := h1
    refine ⟨j, b, hb, h2, h3, ?_⟩
    have := hlen b (List.mem_of_getElem? hb)
    simp only [entry, Option.some.injEq] at h4
    rw [List.getD_eq_getElem?_getD, List.getElem?_eq_getElem this] at h4
    rw [List.getElem?_eq_getElem this]
    exact congrArg some h4
  · rintro ⟨j, b, hb, h2, h3, h4⟩
    refine ⟨j, (b.1, some (entry i b.2)), ?_, h2, h3, ?_⟩
    · simp [defined, List.getElem?_map, hb]
    · simp [entry, List.getD_eq_getElem?_getD, h4]

theorem trailing_entries {s : Pts Quote} {i : ℕ} {m : ℚ} (hm : 0 < m) {n : ℕ} (hn : 1 ≤ n)
    {ip : Interp} {u : Bool} {A : Accum}
    (hA : Accum.Used (Accum.mapTfm Accum.pyMax (some n) none m) m ip u A)
    {l : List (ℚ × Quote)} (hl : s.points = l.map fun p => (p.1, some p.2))
    (hlen : ∀ p ∈ l, i < p.2.length) (hsrc : A.src.points = (mapped (entry i) s).points) {k : ℕ}
    {p : ℚ × Quote} (hk : l[k]? = some p) :
    ∃ v, (A.query (Accum.mapTfm Accum.pyMax (some n) none m) (.fin p.1)).map Accum.Out.res =
      some (.ok (some v)) ∧ IsGreatest (lastEntries l i n k) v := by
  have h1 := hsrc.trans (mapped_defined i hl)
  obtain ⟨v, h2, h3⟩ := C50_trailing_max_partial hm hn hA h1 (k := k) (p := (p.1, entry i p.2))
    (by simp [hk])
  rw [h1, lastEntries_eq hlen] at h3
  exact ⟨v, h2, h3⟩

/-- C64: `trailing_high(n)` at a quote is the greatest of the last `n` highs. -/
theorem C64_trailing_high {q : Quotes} {m : ℚ} (hm : 0 < m) {n : ℕ} (hn : 1 ≤ n) {u : Bool} {A : Accum}
    (hA : Accum.Used (Accum.mapTfm (q.trailingHigh m u).2 (some n) none m) m .previous u A)
    {l : List (ℚ × Quote)} (hl : q.points.points = l.map fun p => (p.1, some p.2))
    (hlen : ∀ p ∈ l, 4 ≤ p.2.length)
    (hsrc : A.src.points = (q.trailingHigh m u).1.src.points) {k : ℕ} {p : ℚ × Quote}
    (hk : l[k]? = some p) :
    ∃ v, (A.query (Accum.mapTfm (q.trailingHigh m u).2 (some n) none m) (.fin p.1)).map Accum.Out.res =
      some (.ok (some v)) ∧ IsGreatest (lastEntries l 1 n k) v :=
  trailing_entries hm hn hA hl (fun p hp => by have := hlen p hp; omega) hsrc hk

/-- C64: but `trailing_low(n)` at a quote is the greatest of the last `n` lows. -/
theorem C64_trailing_low_is_max {q : Quotes} {m : ℚ} (hm : 0 < m) {n : ℕ} (hn : 1 ≤ n) {u : Bool}
    {A : Accum}
    (hA : Accum.Used (Accum.mapTfm (q.trailingLow m u).2 (some n) none m) m .previous u A)
    {l : List (ℚ × Quote)} (hl : q.points.points = l.map fun p => (p.1, some p.2))
    (hlen : ∀ p ∈ l, 4 ≤ p.2.length)
    (hsrc : A.src.points = (q.trailingLow m u).1.src.points) {k : ℕ} {p : ℚ × Quote}
    (hk : l[k]? = some p) :
    ∃ v, (A.query (Accum.mapTfm (q.trailingLow m u).2 (some n) none m) (.fin p.1)).map Accum.Out.res =
      some (.ok (some v)) ∧ IsGreatest (lastEntries l 2 n k) v :=
  trailing_entries hm hn hA hl (fun p hp => by have := hlen p hp; omega) hsrc hk

/-- A new trailing high or low of quotes far enough apart is an accumulator to which these apply. -/
theorem C64_trailing_new {q : Quotes} (h : QHonest q) {m : ℚ} {u : Bool}
    (hf : Fit m u (q.points.points.map (onValue (entry 1))))
    (hf' : Fit m u (q.points.points.map (onValue (entry 2)))) (t : Tfm) : Accum.Used t m .previous u (q.trailingHigh m u).1 ∧
      Accum.Used t m .previous u (q.trailingLow m u).1 :=
  ⟨.new ((qhonest h).2.2 _) hf, .new ((qhonest h).2.2 _) hf'⟩

/-- C64 does not hold: of the lows `1`, `3` the trailing low is `3`. -/
theorem C64_negation_trailing_low :
    answerAfter (Accum.mapTfm (twoQuotes.trailingLow 1 true).2 (some 2) none 1)
      (twoQuotes.trailingLow 1 true).1 [] (.fin 60) = some (.ok (some 3)) ∧
    IsLeast (lastEntries [(0, [2, 4, 1, 3]), (60, [3, 6, 3, 5, 100])] 2 2 1) 1 := by
  refine ⟨by decide +kernel, ⟨0, (0, [2, 4, 1, 3]), rfl, by omega, by omega, rfl⟩, ?_⟩
  rintro y ⟨j, q, h1, h2, _, h4⟩
  match j, h2 with
  | 0, _ => cases h1; cases h4; norm_num
  | 1, _ => cases h1; cases h4; norm_num

/-- C73 does not hold: with anything sampled, `get_range` raises an `AttributeError`. -/
theorem C73_negation {sampled : List (Option Quote)} (h : sampled ≠ []) :
    Quotes.getRange sampled = .error .attribute := by
  cases sampled with
  | nil => exact absurd rfl h
  | cons a as => rfl

example : Quotes.getRange [some [2, 4, 1, 3]] = .error .attribute := C73_negation (by simp)

/-- C73: only without any quote the answer is right, the empty interval. -/
theorem C73_range_partial : Quotes.getRange [] = .ok none := rfl

/-! ## Further examples -/

/-- C64: an encoder that raises leaves the quotes as they were; without a quote there is no component. -/
example : (Quotes.new true (some fun _ => .error .value)).set [(0, some [1, 2, 1, 2])] ⟨true, true⟩ =
      ⟨Quotes.new true (some fun _ => .error .value), [], some .value⟩ ∧
    twoQuotes.high (.fin (-1)) = .ok none ∧ twoQuotes.volume (.fin 500) = .ok none :=
  ⟨(C64_encoder_raises _ _ rfl).1, by decide +kernel, by decide +kernel⟩

end Props
end Curvepy
