import Verif.Lemmas.PointsDomain

namespace Curvepy
open Spec
variable {V : Type}

namespace Pts

/-- A curve at rest: no pending update, derived fields up to date.  (Whether the equal-spacing
flag is right is a separate matter, see `Wf`.) -/
structure Base (s : Pts V) : Prop where
  asc : Ascending s.points
  intv : s.interval = intervalOf s.points
  fresh : s.cache = none ∨ s.cache = some (getDomain s.points)
  idleB : s.bIv = Iv.empty
  idleE : s.eIv = Iv.empty

/-- `t` shows the same curve as `s` to anyone who queries it. -/
structure Looks (t s : Pts V) : Prop where
  points : t.points = s.points
  interp : t.interp = s.interp
  force : t.force = s.force
  equal : t.equal = s.equal
  interval : t.interval = s.interval
  minStep : t.minStep = s.minStep
  dom : t.domVal = s.domVal

theorem Base.wf {s : Pts V} (b : s.Base) (h : s.isUniform = true → EquallySpaced s.points) :
    s.Wf := ⟨b.asc, b.intv, b.fresh, h⟩

theorem Base.domVal {s : Pts V} (b : s.Base) : s.domVal = getDomain s.points := by
  unfold Pts.domVal
  rcases b.fresh with h | h <;> simp [h]

theorem Looks.rfl' (s : Pts V) : Looks s s := ⟨rfl, rfl, rfl, rfl, rfl, rfl, rfl⟩

theorem Looks.trans {a b c : Pts V} (h : Looks a b) (k : Looks b c) : Looks a c :=
  ⟨h.points.trans k.points, h.interp.trans k.interp, h.force.trans k.force, h.equal.trans k.equal,
    h.interval.trans k.interval, h.minStep.trans k.minStep, h.dom.trans k.dom⟩

theorem touch_looks (s : Pts V) : Looks s.touch s := ⟨rfl, rfl, rfl, rfl, rfl, rfl, rfl⟩

theorem Base.touch {s : Pts V} (b : s.Base) : s.touch.Base :=
  ⟨b.asc, b.intv, Or.inr (by simp [Pts.touch, b.domVal]), b.idleB, b.idleE⟩

theorem Wf.touch {s : Pts V} (b : s.Wf) : s.touch.Wf :=
  ⟨b.asc, b.intv, Or.inr (by simp [Pts.touch, b.domVal]), b.faithful⟩

theorem Looks.isUniform {t s : Pts V} (h : Looks t s) : t.isUniform = s.isUniform := by
  simp [Pts.isUniform, h.force, h.equal]

theorem Looks.xIndex {t s : Pts V} (h : Looks t s) (x : ℚ) : t.xIndex x = s.xIndex x := by
  simp only [Pts.xIndex, h.isUniform, h.interval, h.points]

theorem Looks.y [Lerp V] {t s : Pts V} (h : Looks t s) (x : Ext) : t.y x = s.y x := by
  cases x <;> simp only [Pts.y, h.dom, h.xIndex, h.points, h.interp]

theorem Looks.xNext {t s : Pts V} (h : Looks t s) (x : Ext) (m : Option ℚ) :
    t.xNext x m = s.xNext x m := by
  cases x <;> simp only [Pts.xNext, h.dom, h.xIndex, h.points, h.minStep]

theorem Looks.domainIndexes {t s : Pts V} (h : Looks t s) (d : Iv) :
    t.domainIndexes d = s.domainIndexes d := by
  simp only [Pts.domainIndexes, h.dom, h.xIndex, h.points]

theorem Looks.samplePlain {t s : Pts V} (h : Looks t s) (d : Iv) :
    t.samplePlain d = s.samplePlain d := by
  simp only [Pts.samplePlain, h.dom, h.domainIndexes, h.points]

theorem superset_empty {d : Iv} (h : d.isEmpty = false) : Iv.empty.superset d = false := by
  simp [Iv.superset, h]

theorem beginUpdate_idle {s : Pts V} {d : Iv} (r : Reads) (hb : s.bIv = Iv.empty)
    (hd : d.isEmpty = false) :
    s.beginUpdate d r = (if r.atBegin then { s with bIv := d }.touch else { s with bIv := d },
      [.begin d { s with bIv := d }]) := by
  unfold beginUpdate
  simp [hb, hd, superset_empty hd, Iv.union_empty_left hd]

theorem beginUpdate_empty {s : Pts V} {d : Iv} (r : Reads) (hd : d.isEmpty = true) :
    s.beginUpdate d r = (s, []) := by
  simp [beginUpdate, hd]

theorem endUpdate_empty {s : Pts V} {d : Iv} (r : Reads) (hd : d.isEmpty = true) :
    s.endUpdate d r = (s, []) := by
  simp [endUpdate, hd]

theorem endUpdate_pending {s : Pts V} {d : Iv} (r : Reads) (hb : s.bIv = d) (he : s.eIv = Iv.empty)
    (hd : d.isEmpty = false) :
    s.endUpdate d r =
      (if r.atEnd then { s with bIv := Iv.empty, eIv := Iv.empty, cache := none }.touch
        else { s with bIv := Iv.empty, eIv := Iv.empty, cache := none },
      [.fin d { s with bIv := Iv.empty, eIv := Iv.empty, cache := none }]) := by
  unfold endUpdate
  simp [hb, hd, he, superset_empty hd, Iv.union_empty_left hd, Iv.superset_refl]

/-- The shape of a completed edit. -/
structure Edited (s : Pts V) (new : List (Pt V)) (iv : Iv) (res : Res V) : Prop where
  err : res.err = none
  points : res.st.points = new
  interp : res.st.interp = s.interp
  force : res.st.force = s.force
  minStep : res.st.minStep = s.minStep
  base : res.st.Base
  ev : (iv.isEmpty = true ∧ res.ev = [] ∧ new = s.points) ∨
    (iv.isEmpty = false ∧ ∃ a b, res.ev = [.begin iv a, .fin iv b] ∧ Looks a s ∧
      a.isUpdating = true ∧ Looks b res.st ∧ b.isUpdating = false)

/-- The shape of an edit that raised after its begin notification. -/
structure Stuck (s : Pts V) (iv : Iv) (e : Err) (res : Res V) : Prop where
  ne : iv.isEmpty = false
  err : res.err = some e
  points : res.st.points = s.points
  interp : res.st.interp = s.interp
  force : res.st.force = s.force
  interval : res.st.interval = s.interval
  dom : res.st.domVal = s.domVal
  bIv : res.st.bIv = iv
  eIv : res.st.eIv = Iv.empty
  ev : ∃ a, res.ev = [.begin iv a] ∧ Looks a s

theorem Edited.looks {s s' : Pts V} {new : List (Pt V)} {iv : Iv} {res : Res V}
    (h : Edited s' new iv res) (l : Looks s' s) : Edited s new iv res where
  err := h.err
  points := h.points
  interp := h.interp.trans l.interp
  force := h.force.trans l.force
  minStep := h.minStep.trans l.minStep
  base := h.base
  ev := by
    rcases h.ev with h | ⟨h, a, b, h1, h2, h3⟩
    · exact Or.inl ⟨h.1, h.2.1, h.2.2.trans l.points⟩
    · exact Or.inr ⟨h, a, b, h1, h2.trans l, h3⟩

theorem Stuck.looks {s s' : Pts V} {e : Err} {iv : Iv} {res : Res V}
    (h : Stuck s' iv e res) (l : Looks s' s) : Stuck s iv e res where
  ne := h.ne
  err := h.err
  points := h.points.trans l.points
  interp := h.interp.trans l.interp
  force := h.force.trans l.force
  interval := h.interval.trans l.interval
  dom := h.dom.trans l.dom
  bIv := h.bIv
  eIv := h.eIv
  ev := by
    obtain ⟨a, h1, h2⟩ := h.ev
    exact ⟨a, h1, h2.trans l⟩

theorem pyGet_last {α : Type} {l : List α} (h : l ≠ []) : pyGet l (-1) = .ok (l.getLast h) := by
  have hl : 0 < l.length := List.length_pos_of_ne_nil h
  unfold pyGet
  rw [if_neg (by omega), if_pos (by omega)]
  have : ((-1 : ℤ) + l.length).toNat = l.length - 1 := by omega
  rw [this, List.getLast_eq_getElem, List.getElem?_eq_getElem (by omega)]

theorem pyGet_zero {α : Type} (a : α) (l : List α) : pyGet (a :: l) 0 = .ok a := by
  simp [pyGet]

/-- The spacing check, resolved. -/
def spacing (interval : Option ℚ) (old : List (Pt V)) (p : Pt V) (ps : List (Pt V)) : Bool :=
  match old.getLast?, interval, ps with
  | none, _, [] => true
  | none, some d, ps => decide (((p :: ps).getLast (by simp)).1 = p.1 + d * ps.length)
  | none, none, q :: ps => decide (((p :: q :: ps).getLast (by simp)).1 =
      p.1 + (q.1 - p.1) * (q :: ps).length)
  | some o, some d, ps => decide (((p :: ps).getLast (by simp)).1 = o.1 + d * (ps.length + 1))
  | some o, none, ps => decide (((p :: ps).getLast (by simp)).1 = o.1 + (p.1 - o.1) * (ps.length + 1))

theorem spacing_ok_nil (interval : Option ℚ) (p : Pt V) (ps : List (Pt V)) :
    pointsEquallySpaced interval [] (p :: ps) = .ok (spacing interval [] p ps) := by
  unfold pointsEquallySpaced
  cases ps with
  | nil => simp [spacing]
  | cons q ps =>
    have h1 : ¬ (List.length (p :: q :: ps) = 0 ∨
      ([] : List (Pt V)).length + (p :: q :: ps).length < 2) := by simp
    rw [if_neg h1]
    have hg1 : pyGet (p :: q :: ps) 1 = .ok q := by simp [pyGet]
    cases interval with
    | none =>
      simp only [pyGet_zero, pyGet_last (l := p :: q :: ps) (by simp), bind, Except.bind, pure,
        Except.pure, List.length_nil, ne_eq, not_true_eq_false, if_false, hg1, spacing,
        List.getLast?_nil, List.length_cons]
      rw [if_neg (by simp)]
      simp
    | some d =>
      simp only [pyGet_zero, pyGet_last (l := p :: q :: ps) (by simp), bind, Except.bind, pure,
        Except.pure, List.length_nil, ne_eq, not_true_eq_false, if_false, spacing,
        List.getLast?_nil, List.length_cons]
      simp

theorem spacing_ok {s : Pts V} (hi : s.interval = intervalOf s.points) (hpts : s.points ≠ [])
    (p : Pt V) (ps : List (Pt V)) :
    pointsEquallySpaced s.interval s.points (p :: ps) = .ok (spacing s.interval s.points p ps) := by
  have hpos : 0 < s.points.length := List.length_pos_of_ne_nil hpts
  unfold pointsEquallySpaced
  have h1 : ¬ (List.length (p :: ps) = 0 ∨ s.points.length + (p :: ps).length < 2) := by
    simp; omega
  rw [if_neg h1]
  have hne : s.points.length ≠ 0 := by omega
  cases hiv : s.interval with
  | none =>
    have h1 : s.points.length = 1 := by
      by_contra hc
      match hp : s.points, hpts with
      | [a], _ => simp [hp] at hc
      | a :: b :: l, _ => rw [hi, hp] at hiv; simp [intervalOf] at hiv
    simp only [pyGet_zero, pyGet_last (l := p :: ps) (by simp), pyGet_last hpts, bind, Except.bind,
      pure, Except.pure, ne_eq, h1, spacing, if_true, List.getLast?_eq_some_getLast hpts,
      List.length_cons]
    simp
  | some d =>
    simp only [pyGet_zero, pyGet_last (l := p :: ps) (by simp), pyGet_last hpts, bind, Except.bind,
      pure, Except.pure, ne_eq, hne, spacing, List.getLast?_eq_some_getLast hpts,
      List.length_cons]
    simp

/-- Answer of the spacing check made by `set`. -/
def setCheck (s : Pts V) (pts : List (Pt V)) : Bool :=
  match pts with
  | [] => true
  | p :: ps => spacing s.interval [] p ps

theorem setCheck_ok (s : Pts V) (pts : List (Pt V)) :
    pointsEquallySpaced s.interval [] pts = .ok (s.setCheck pts) := by
  cases pts with
  | nil => simp [pointsEquallySpaced, setCheck]
  | cons p ps => exact spacing_ok_nil _ _ _

theorem getDomain_isEmpty_iff {pts : List (Pt V)} (h : Ascending pts) :
    (getDomain pts).isEmpty = true ↔ pts = [] := by
  constructor
  · intro he
    by_contra hne
    simp [getDomain_not_isEmpty h hne] at he
  · rintro rfl; rfl

/-- Update interval of `set` when none is given. -/
def setIv (s : Pts V) (pts : List (Pt V)) : Iv :=
  match pts with
  | [] => s.domVal
  | p :: ps => Iv.union s.domVal (getDomain (p :: ps))

/-- The tail of `set` and `append_list`: store, recompute, notify. -/
theorem finish {s s1 : Pts V} {new : List (Pt V)} {ud : Iv} (r : Reads) (b : s.Base)
    (hud : ud.isEmpty = false) (hnew : Ascending new) (eq : Bool)
    (hs1 : s1 = (s.beginUpdate ud r).1) :
    Edited s new ud
      ⟨((didChange { s1 with equal := eq, points := new }).endUpdate ud r).1,
        (s.beginUpdate ud r).2 ++
          ((didChange { s1 with equal := eq, points := new }).endUpdate ud r).2, none⟩ ∧
    ((didChange { s1 with equal := eq, points := new }).endUpdate ud r).1.equal = eq := by
  rw [beginUpdate_idle r b.idleB hud] at hs1
  have hb1 : s1.bIv = ud := by
    rw [hs1]; split <;> rfl
  have he1 : s1.eIv = Iv.empty := by
    rw [hs1]; split <;> exact b.idleE
  have hi1 : s1.interp = s.interp := by rw [hs1]; split <;> rfl
  have hf1 : s1.force = s.force := by rw [hs1]; split <;> rfl
  have hm1 : s1.minStep = s.minStep := by rw [hs1]; split <;> rfl
  rw [beginUpdate_idle r b.idleB hud]
  rw [endUpdate_pending r (by simpa [didChange] using hb1) (by simpa [didChange] using he1) hud]
  refine ⟨⟨rfl, ?_, ?_, ?_, ?_, ?_, Or.inr ⟨hud, _, _, rfl, ?_, ?_, ?_, ?_⟩⟩, ?_⟩
  · dsimp only; split <;> rfl
  · dsimp only; split <;> exact hi1
  · dsimp only; split <;> exact hf1
  · dsimp only; split <;> exact hm1
  · dsimp only
    split
    · exact ⟨hnew, rfl, Or.inr rfl, rfl, rfl⟩
    · exact ⟨hnew, rfl, Or.inl rfl, rfl, rfl⟩
  · exact ⟨rfl, rfl, rfl, rfl, rfl, rfl, rfl⟩
  · simpa [isUpdating] using hud
  · dsimp only
    split
    · exact ⟨rfl, rfl, rfl, rfl, rfl, rfl, rfl⟩
    · exact Looks.rfl' _
  · rfl
  · dsimp only; split <;> rfl

theorem stuck_begin {s s1 : Pts V} {ud : Iv} (r : Reads) (b : s.Base)
    (hud : ud.isEmpty = false) (eq : Bool) (e : Err) (hs1 : s1 = (s.beginUpdate ud r).1) :
    Stuck s ud e ⟨{ s1 with equal := eq }, (s.beginUpdate ud r).2, some e⟩ := by
  rw [beginUpdate_idle r b.idleB hud] at hs1
  rw [beginUpdate_idle r b.idleB hud]
  have hd : s1.domVal = s.domVal := by rw [hs1]; split <;> rfl
  refine ⟨hud, rfl, ?_, ?_, ?_, ?_, ?_, ?_, ?_, _, rfl, ?_⟩
  · rw [hs1]; split <;> rfl
  · rw [hs1]; split <;> rfl
  · rw [hs1]; split <;> rfl
  · rw [hs1]; split <;> rfl
  · exact hd
  · rw [hs1]; split <;> rfl
  · rw [hs1]; split <;> exact b.idleE
  · exact ⟨rfl, rfl, rfl, rfl, rfl, rfl, rfl⟩

/-- `set` with an explicit update domain. -/
theorem set_some {s : Pts V} (b : s.Base) {pts : List (Pt V)} (hp : Ascending pts) {ud : Iv}
    (hud : ud.isEmpty = false) (r : Reads) :
    (s.force = true ∧ s.setCheck pts = false ∧ Stuck s ud .nonRegular (s.set pts (some ud) r)) ∨
    (¬ (s.force = true ∧ s.setCheck pts = false) ∧ Edited s pts ud (s.set pts (some ud) r) ∧
      (s.set pts (some ud) r).st.equal = s.setCheck pts) := by
  have hiv : (s.beginUpdate ud r).1.interval = s.interval := by
    rw [beginUpdate_idle r b.idleB hud]; dsimp only; split <;> rfl
  have hf : (s.beginUpdate ud r).1.force = s.force := by
    rw [beginUpdate_idle r b.idleB hud]; dsimp only; split <;> rfl
  by_cases hc : s.force = true ∧ s.setCheck pts = false
  · refine Or.inl ⟨hc.1, hc.2, ?_⟩
    have : s.set pts (some ud) r = ⟨{ (s.beginUpdate ud r).1 with equal := s.setCheck pts },
        (s.beginUpdate ud r).2, some .nonRegular⟩ := by
      simp only [Pts.set, hiv, setCheck_ok, hf, hc.1, hc.2, Bool.not_false, Bool.and_true, if_true]
    rw [this]
    exact stuck_begin r b hud _ _ rfl
  · refine Or.inr ⟨hc, ?_⟩
    have : s.set pts (some ud) r =
      ⟨((didChange { (s.beginUpdate ud r).1 with equal := s.setCheck pts, points := pts }).endUpdate
          ud r).1, (s.beginUpdate ud r).2 ++
          ((didChange { (s.beginUpdate ud r).1 with equal := s.setCheck pts, points := pts }).endUpdate
          ud r).2, none⟩ := by
      have hc' : (s.force && !s.setCheck pts) = false := by
        by_contra hn
        apply hc
        simpa using hn
      simp only [Pts.set, hiv, setCheck_ok, hf, hc', Bool.false_eq_true, if_false]
    rw [this]
    exact finish r b hud hp _ rfl

/-- `set` without an update domain. -/
theorem set_none {s : Pts V} (b : s.Base) {pts : List (Pt V)} (hp : Ascending pts) (r : Reads) :
    (s.force = true ∧ s.setCheck pts = false ∧
      Stuck s (s.setIv pts) .nonRegular (s.set pts none r)) ∨
    (¬ (s.force = true ∧ s.setCheck pts = false) ∧ Edited s pts (s.setIv pts) (s.set pts none r) ∧
      (s.set pts none r).st.equal = s.setCheck pts) := by
  by_cases hud : (s.setIv pts).isEmpty = false
  · have he : s.set pts none r = s.touch.set pts (some (s.setIv pts)) r := by
      cases pts <;> rfl
    rw [he]
    rcases set_some b.touch hp hud r with ⟨h1, h2, h3⟩ | ⟨h1, h2, h3⟩
    · exact Or.inl ⟨h1, h2, h3.looks (touch_looks s)⟩
    · exact Or.inr ⟨h1, h2.looks (touch_looks s), h3⟩
  · have hud : (s.setIv pts).isEmpty = true := by simpa using hud
    have hpts : pts = [] ∧ s.points = [] := by
      cases pts with
      | nil =>
        refine ⟨rfl, ?_⟩
        rw [setIv, b.domVal] at hud
        exact (getDomain_isEmpty_iff b.asc).1 hud
      | cons p ps =>
        rw [setIv, Iv.union_isEmpty] at hud
        have := (getDomain_isEmpty_iff hp).1 hud.2
        simp at this
    obtain ⟨rfl, hs⟩ := hpts
    refine Or.inr ⟨by simp [setCheck], ?_⟩
    have hd : s.touch.domVal.isEmpty = true := hud
    have : s.set [] none r = ⟨didChange { s.touch with equal := true, points := [] }, [], none⟩ := by
      simp only [Pts.set, beginUpdate_empty r hd]
      have h1 : pointsEquallySpaced s.touch.interval [] ([] : List (Pt V)) = .ok true := by
        simp [pointsEquallySpaced]
      simp only [h1, Bool.not_true, Bool.and_false, Bool.false_eq_true, if_false,
        endUpdate_empty r hd, List.nil_append]
    rw [this]
    refine ⟨⟨rfl, rfl, rfl, rfl, rfl, ⟨List.Pairwise.nil, rfl, ?_, b.idleB, b.idleE⟩,
      Or.inl ⟨hud, rfl, hs.symm⟩⟩, rfl⟩
    refine Or.inr ?_
    simp [didChange, Pts.touch, b.domVal, hs]

/-- Update interval of `append_list`. -/
def appendIv (o : Pt V) (os : List (Pt V)) (p : Pt V) (ps : List (Pt V)) : Iv :=
  Iv.openClosed ((o :: os).getLast (by simp)).1 ((p :: ps).getLast (by simp)).1

theorem Ascending.append_of_last {a b : List (Pt V)} (ha : Ascending a) (hb : Ascending b)
    (h : ∀ p ∈ a.getLast?, ∀ q ∈ b.head?, p.1 < q.1) : Ascending (a ++ b) := by
  unfold Ascending
  rw [List.pairwise_append]
  refine ⟨ha, hb, ?_⟩
  intro x hx y hy
  have hane : a ≠ [] := List.ne_nil_of_mem hx
  have hbne : b ≠ [] := List.ne_nil_of_mem hy
  obtain ⟨q, qs, rfl⟩ := List.exists_cons_of_ne_nil hbne
  obtain ⟨i, hi⟩ := List.getElem?_of_mem hx
  obtain ⟨j, hj⟩ := List.getElem?_of_mem hy
  have h1 : x.1 ≤ (a.getLast hane).1 :=
    Ascending.le ha hi (getLast_mem_idx hane) (by have := (List.getElem?_eq_some_iff.1 hi).1; omega)
  have h2 : q.1 ≤ y.1 := Ascending.le hb (i := 0) rfl hj (by omega)
  have := h (a.getLast hane) (by simp [List.getLast?_eq_some_getLast hane]) q (by simp)
  linarith

theorem appendList_cons {s : Pts V} (b : s.Base) {o p : Pt V} {os ps : List (Pt V)} (r : Reads)
    (ho : s.points = o :: os) (hp : Ascending (p :: ps))
    (hlt : ((o :: os).getLast (by simp)).1 < p.1) :
    (s.force = true ∧ spacing s.interval s.points p ps = false ∧
      Stuck s (appendIv o os p ps) .nonRegular (s.appendList (p :: ps) r)) ∨
    (¬ (s.force = true ∧ spacing s.interval s.points p ps = false) ∧
      Edited s (s.points ++ p :: ps) (appendIv o os p ps) (s.appendList (p :: ps) r) ∧
      (s.appendList (p :: ps) r).st.equal = spacing s.interval s.points p ps) := by
  set ud := appendIv o os p ps with hudd
  have hple : p.1 ≤ ((p :: ps).getLast (by simp)).1 :=
    Ascending.le hp (i := 0) rfl (getLast_mem_idx (by simp)) (by omega)
  have hud : ud.isEmpty = false := by
    rw [Iv.not_isEmpty_iff]
    left
    simp only [hudd, appendIv, Iv.openClosed, Ext.fin_lt_fin]
    linarith
  have bt := b.touch
  have hdn : s.touch.domVal = getDomain (o :: os) := by rw [bt.domVal]; exact congrArg _ ho
  have hdne : s.touch.domVal.isEmpty = false := by
    rw [hdn]
    exact getDomain_not_isEmpty (by rw [← ho]; exact b.asc) (by simp)
  have hdom : (⟨s.touch.domVal.hi, .fin ((p :: ps).getLast (by simp)).1, true, false⟩ : Iv) = ud := by
    rw [hdn]; rfl
  have hnn : Ascending (s.points ++ p :: ps) := by
    refine Ascending.append_of_last b.asc hp ?_
    intro x hx y hy
    rw [ho, List.getLast?_eq_some_getLast (by simp)] at hx
    simp only [Option.mem_def, Option.some.injEq, List.head?_cons] at hx hy
    rw [← hx, ← hy]; exact hlt
  have hunf : s.appendList (p :: ps) r =
      (match pointsEquallySpaced (s.touch.beginUpdate ud r).1.interval
          (s.touch.beginUpdate ud r).1.points (p :: ps) with
        | .error e => ⟨(s.touch.beginUpdate ud r).1, (s.touch.beginUpdate ud r).2, some e⟩
        | .ok b =>
          if (s.touch.beginUpdate ud r).1.force && !b then
            ⟨{ (s.touch.beginUpdate ud r).1 with equal := b }, (s.touch.beginUpdate ud r).2,
              some .nonRegular⟩
          else
            ⟨((didChange { (s.touch.beginUpdate ud r).1 with equal := b, points := (s.touch.beginUpdate ud r).1.points ++ (p :: ps) }).endUpdate ud r).1,
             (s.touch.beginUpdate ud r).2 ++ ((didChange { (s.touch.beginUpdate ud r).1 with equal := b, points := (s.touch.beginUpdate ud r).1.points ++ (p :: ps) }).endUpdate ud r).2, none⟩) := by
    unfold appendList
    split
    · rename_i h; rw [ho] at h; cases h
    · rename_i o' os' h
      rw [ho] at h; cases h
      simp only
      rw [if_neg (not_le.2 hlt)]
      simp only [hdne, Bool.false_eq_true, if_false, hdom]
      generalize pointsEquallySpaced _ _ (p :: ps) = z
      cases z <;> rfl
  have hiv : (s.touch.beginUpdate ud r).1.interval = s.interval := by
    rw [beginUpdate_idle r bt.idleB hud]; dsimp only; split <;> rfl
  have hpt : (s.touch.beginUpdate ud r).1.points = s.points := by
    rw [beginUpdate_idle r bt.idleB hud]; dsimp only; split <;> rfl
  have hf : (s.touch.beginUpdate ud r).1.force = s.force := by
    rw [beginUpdate_idle r bt.idleB hud]; dsimp only; split <;> rfl
  rw [hunf, hiv, hpt, spacing_ok b.intv (by rw [ho]; simp), hf]
  by_cases hc : s.force = true ∧ spacing s.interval s.points p ps = false
  · refine Or.inl ⟨hc.1, hc.2, ?_⟩
    simp only [hc.1, hc.2, Bool.not_false, Bool.and_true, if_true]
    exact (stuck_begin r bt hud _ _ rfl).looks (touch_looks s)
  · refine Or.inr ⟨hc, ?_⟩
    have hc' : (s.force && !spacing s.interval s.points p ps) = false := by
      by_contra hn
      apply hc
      simpa using hn
    simp only [hc', Bool.false_eq_true, if_false]
    obtain ⟨h1, h2⟩ := finish r bt hud hnn (spacing s.interval s.points p ps) rfl
    exact ⟨h1.looks (touch_looks s), h2⟩

end Pts
end Curvepy
