import Verif.Props.Extension

/-!
# Property C119: stepping along extensions; C120: errors of extensions
-/

namespace Curvepy
namespace Props
open Spec Extn

/-! ## C119 -/

theorem points_dom {s : Pts ℚ} (h : Honest s) {p q : Pt ℚ} (hp : s.points.head? = some p) (hq : s.points.getLast? = some q) :
    (Crv.ofPoints s).dom.lo = .fin p.1 ∧ (Crv.ofPoints s).dom.hi = .fin q.1 := by
  have hdom : (Crv.ofPoints s).dom = span s.points := by
    show s.domVal = _
    rw [h.wf.domVal, Pts.getDomain_eq_span]
  rw [hdom]
  simp [span, hp, hq]

/-- C119: the next position of extended points is the next point; after the last one it is further by the step back from the
last point, if there is one. -/
theorem C119_next {F : Type} {s : Pts ℚ} (h : Honest s) {q : Pt ℚ} (hq : s.points.getLast? = some q) {e : Extn F}
    (he : e.stop = true) (x m : ℚ) (limit : Option Ext) :
    (∃ z, Extn.xNext (Crv.ofPoints s) e (.fin x) (some (.fin m)) limit = .ok (some (.fin z)) ∧
      IsLeast {z | ∃ p ∈ s.points, p.1 = z ∧ x + m ≤ z} z) ∨
    (∃ a, Extn.xNext (Crv.ofPoints s) e (.fin x) (some (.fin m)) limit = .ok (some (.fin (x + (q.1 - a)))) ∧
      (∀ p ∈ s.points, p.1 < x + m) ∧ IsGreatest {z | ∃ p ∈ s.points, p.1 = z ∧ z ≤ q.1 - m} a) ∨
    (Extn.xNext (Crv.ofPoints s) e (.fin x) (some (.fin m)) limit = .ok none ∧ (∀ p ∈ s.points, p.1 < x + m) ∧
      ∀ p ∈ s.points, q.1 - m < p.1) := by
  have hhi : (Crv.ofPoints s).dom.hi = .fin q.1 := by
    rcases hh : s.points.head? with _ | p
    · rw [List.head?_eq_none_iff] at hh; rw [hh] at hq; cases hq
    · exact (points_dom h hh hq).2
  have e1 : ∀ l, (Crv.ofPoints s).xNext (.fin x) (some (.fin m)) l = s.xNext (.fin x) (some m) := fun _ => rfl
  have e2 : ∀ y l, (Crv.ofPoints s).xPrevious y (some (.fin m)) l = s.xPrevious y (some m) := fun _ _ => rfl
  unfold Extn.xNext
  rw [e1, he, hhi, e2]
  rcases C06_x_next h x m with ⟨z, h1, h2⟩ | ⟨h1, h2⟩
  · exact .inl ⟨z, by rw [h1]; rfl, h2⟩
  · right
    rw [h1]
    rcases C07_x_previous h q.1 m with ⟨a, h3, h4⟩ | ⟨h3, h4⟩
    · exact .inl ⟨a, by rw [h3]; rfl, h2, h4⟩
    · exact .inr ⟨by rw [h3]; rfl, h2, h4⟩

/-- C119: the previous position, likewise. -/
theorem C119_previous {F : Type} {s : Pts ℚ} (h : Honest s) {p : Pt ℚ} (hp : s.points.head? = some p) {e : Extn F}
    (he : e.start = true) (x m : ℚ) (limit : Option Ext) :
    (∃ z, Extn.xPrevious (Crv.ofPoints s) e (.fin x) (some (.fin m)) limit = .ok (some (.fin z)) ∧
      IsGreatest {z | ∃ q ∈ s.points, q.1 = z ∧ z ≤ x - m} z) ∨
    (∃ a, Extn.xPrevious (Crv.ofPoints s) e (.fin x) (some (.fin m)) limit = .ok (some (.fin (x - (a - p.1)))) ∧
      (∀ q ∈ s.points, x - m < q.1) ∧ IsLeast {z | ∃ q ∈ s.points, q.1 = z ∧ p.1 + m ≤ z} a) ∨
    (Extn.xPrevious (Crv.ofPoints s) e (.fin x) (some (.fin m)) limit = .ok none ∧ (∀ q ∈ s.points, x - m < q.1) ∧
      ∀ q ∈ s.points, q.1 < p.1 + m) := by
  have hlo : (Crv.ofPoints s).dom.lo = .fin p.1 := by
    rcases hh : s.points.getLast? with _ | q
    · rw [List.getLast?_eq_none_iff] at hh; rw [hh] at hp; cases hp
    · exact (points_dom h hp hh).1
  have e1 : ∀ l, (Crv.ofPoints s).xPrevious (.fin x) (some (.fin m)) l = s.xPrevious (.fin x) (some m) := fun _ => rfl
  have e2 : ∀ y l, (Crv.ofPoints s).xNext y (some (.fin m)) l = s.xNext y (some m) := fun _ _ => rfl
  unfold Extn.xPrevious
  rw [e1, he, hlo, e2]
  rcases C07_x_previous h x m with ⟨z, h1, h2⟩ | ⟨h1, h2⟩
  · exact .inl ⟨z, by rw [h1]; rfl, h2⟩
  · right
    rw [h1]
    rcases C06_x_next h p.1 m with ⟨a, h3, h4⟩ | ⟨h3, h4⟩
    · refine .inl ⟨a, ?_, h2, h4⟩
      rw [h3, sub_eq_add_neg]; rfl
    · exact .inr ⟨by rw [h3]; rfl, h2, h4⟩

/-- `n` steps with `step`. -/
def steps (step : Ext → Except Err (Option Ext)) : ℕ → Ext → Except Err (Option Ext)
  | 0, x => .ok (some x)
  | n + 1, x => match step x with
    | .ok (some y) => steps step n y
    | r => r

/-- C119: beyond the last two points, at least `m` apart, the positions go on with their distance. -/
theorem C119_progression {F : Type} {s : Pts ℚ} (h : Honest s) {pre : List (Pt ℚ)} {p q : Pt ℚ} (hs : s.points = pre ++ [p, q])
    {e : Extn F} (he : e.stop = true) {m : ℚ} (hm : 0 < m) (hg : m ≤ q.1 - p.1) (limit : Option Ext) (n : ℕ) :
    steps (fun x => Extn.xNext (Crv.ofPoints s) e x (some (.fin m)) limit) n (.fin q.1) =
      .ok (some (.fin (q.1 + n * (q.1 - p.1)))) := by
  have hasc := h.wf.asc
  rw [hs] at hasc
  obtain ⟨_, hpq, hpre⟩ := List.pairwise_append.1 hasc
  have hlt : p.1 < q.1 := by linarith
  have htop : ∀ r ∈ s.points, r.1 ≤ q.1 := by
    intro r hr
    rw [hs] at hr
    rcases List.mem_append.1 hr with hr | hr
    · exact (hpre r hr q (by simp)).le
    · simp only [List.mem_cons, List.not_mem_nil, or_false] at hr
      rcases hr with rfl | rfl
      · exact hlt.le
      · exact le_rfl
  have hp : p ∈ s.points := by rw [hs]; simp
  have hq : s.points.getLast? = some q := by rw [hs]; simp
  have one : ∀ x : ℚ, q.1 ≤ x →
      Extn.xNext (Crv.ofPoints s) e (.fin x) (some (.fin m)) limit = .ok (some (.fin (x + (q.1 - p.1)))) := by
    intro x hx
    rcases C119_next h hq he x m limit with ⟨z, _, ⟨r, hr, rfl, hrx⟩, _⟩ | ⟨a, h1, _, ⟨r, hr, rfl, hra⟩, hgr⟩ | ⟨_, _, h3⟩
    · have := htop r hr; linarith
    · have h2 : p.1 ≤ r.1 := hgr ⟨p, hp, rfl, by linarith⟩
      have h3 : r.1 ≤ p.1 := by
        rw [hs] at hr
        rcases List.mem_append.1 hr with hr | hr
        · exact (hpre r hr p (by simp)).le
        · simp only [List.mem_cons, List.not_mem_nil, or_false] at hr
          rcases hr with rfl | rfl
          · exact le_rfl
          · linarith
      rw [h1, le_antisymm h3 h2]
    · have := h3 p hp; linarith
  have many : ∀ (n : ℕ) (x : ℚ), q.1 ≤ x →
      steps (fun x => Extn.xNext (Crv.ofPoints s) e x (some (.fin m)) limit) n (.fin x) =
        .ok (some (.fin (x + n * (q.1 - p.1)))) := by
    intro n
    induction n with
    | zero => intro x _; simp [steps]
    | succ n ih =>
      intro x hx
      rw [steps, one x hx]
      simp only []
      rw [ih _ (by linarith)]
      push_cast
      rw [show x + (q.1 - p.1) + n * (q.1 - p.1) = x + (n + 1) * (q.1 - p.1) by ring]
  exact many n q.1 le_rfl

/-- C119: before the first two points, likewise. -/
theorem C119_regression {F : Type} {s : Pts ℚ} (h : Honest s) {post : List (Pt ℚ)} {p q : Pt ℚ} (hs : s.points = p :: q :: post)
    {e : Extn F} (he : e.start = true) {m : ℚ} (hm : 0 < m) (hg : m ≤ q.1 - p.1) (limit : Option Ext) (n : ℕ) :
    steps (fun x => Extn.xPrevious (Crv.ofPoints s) e x (some (.fin m)) limit) n (.fin p.1) =
      .ok (some (.fin (p.1 - n * (q.1 - p.1)))) := by
  have hasc := h.wf.asc
  rw [hs] at hasc
  obtain ⟨hpost, hasc'⟩ := List.pairwise_cons.1 hasc
  obtain ⟨hqpost, _⟩ := List.pairwise_cons.1 hasc'
  have hlt : p.1 < q.1 := by linarith
  have hbot : ∀ r ∈ s.points, p.1 ≤ r.1 := by
    intro r hr
    rw [hs] at hr
    rcases List.mem_cons.1 hr with rfl | hr
    · exact le_rfl
    · exact (hpost r hr).le
  have hq : q ∈ s.points := by rw [hs]; simp
  have hp : s.points.head? = some p := by rw [hs]; rfl
  have one : ∀ x : ℚ, x ≤ p.1 →
      Extn.xPrevious (Crv.ofPoints s) e (.fin x) (some (.fin m)) limit = .ok (some (.fin (x - (q.1 - p.1)))) := by
    intro x hx
    rcases C119_previous h hp he x m limit with ⟨z, _, ⟨r, hr, rfl, hrx⟩, _⟩ | ⟨a, h1, _, ⟨r, hr, rfl, hra⟩, hgr⟩ | ⟨_, _, h3⟩
    · have := hbot r hr; linarith
    · have h2 : r.1 ≤ q.1 := hgr ⟨q, hq, rfl, by linarith⟩
      have h3 : q.1 ≤ r.1 := by
        rw [hs] at hr
        rcases List.mem_cons.1 hr with rfl | hr
        · linarith
        · rcases List.mem_cons.1 hr with rfl | hr
          · exact le_rfl
          · exact (hqpost r hr).le
      rw [h1, le_antisymm h2 h3]
    · have := h3 q hq; linarith
  have many : ∀ (n : ℕ) (x : ℚ), x ≤ p.1 →
      steps (fun x => Extn.xPrevious (Crv.ofPoints s) e x (some (.fin m)) limit) n (.fin x) =
        .ok (some (.fin (x - n * (q.1 - p.1)))) := by
    intro n
    induction n with
    | zero => intro x _; simp [steps]
    | succ n ih =>
      intro x hx
      rw [steps, one x hx]
      simp only []
      rw [ih _ (by linarith)]
      push_cast
      rw [show x - (q.1 - p.1) - n * (q.1 - p.1) = x - (n + 1) * (q.1 - p.1) by ring]
  exact many n p.1 le_rfl

/-- C119: without an extension at that end, the positions are those of the points. -/
theorem C119_without {F : Type} (c : Crv) (e : Extn F) (x : Ext) (m limit : Option Ext) :
    (e.stop = false → Extn.xNext c e x m limit = c.xNext x m none) ∧
    (e.start = false → Extn.xPrevious c e x m limit = c.xPrevious x m none) := by
  constructor
  · intro he
    unfold Extn.xNext
    rcases c.xNext x m none with _ | _ | _ <;> simp [he, bind, Except.bind, pure, Except.pure]
  · intro he
    unfold Extn.xPrevious
    rcases c.xPrevious x m none with _ | _ | _ <;> simp [he, bind, Except.bind, pure, Except.pure]

/-- C119: what the curve raises is raised. -/
theorem C119_raises {F : Type} (c : Crv) (e : Extn F) (x : Ext) (m limit : Option Ext) (r : Err) :
    (c.xNext x m none = .error r → Extn.xNext c e x m limit = .error r) ∧
    (c.xPrevious x m none = .error r → Extn.xPrevious c e x m limit = .error r) ∧
    (c.xNext x m none = .ok none → e.stop = true → c.xPrevious c.dom.hi m limit = .error r →
      Extn.xNext c e x m limit = .error r) ∧
    (c.xPrevious x m none = .ok none → e.start = true → c.xNext c.dom.lo m limit = .error r →
      Extn.xPrevious c e x m limit = .error r) := by
  refine ⟨?_, ?_, ?_, ?_⟩
  · intro h; simp [Extn.xNext, h, bind, Except.bind]
  · intro h; simp [Extn.xPrevious, h, bind, Except.bind]
  · intro h h1 h2; simp [Extn.xNext, h, h1, h2, bind, Except.bind]
  · intro h h1 h2; simp [Extn.xPrevious, h, h1, h2, bind, Except.bind]

/-- Disagreement with C119: stepping back from beyond the end jumps to the last point, not to the position stepped from. -/
theorem C119_negation :
    let e := Extn.mk' Extn.constant evenCrv
    Extn.xNext evenCrv e (.fin 6) (some (.fin 1)) none = .ok (some (.fin 8)) ∧
    Extn.xPrevious evenCrv e (.fin 8) (some (.fin 1)) none = .ok (some (.fin 4)) ∧
    Extn.xPrevious evenCrv e (.fin (-2)) (some (.fin 1)) none = .ok (some (.fin (-4))) ∧
    Extn.xNext evenCrv e (.fin (-4)) (some (.fin 1)) none = .ok (some (.fin 0)) := by
  refine ⟨?_, ?_, ?_, ?_⟩ <;> decide +kernel

/-- Three steps beyond the end, two before the start, of the points 0, 2, 4. -/
example : steps (fun x => Extn.xNext evenCrv (Extn.mk' Extn.constant evenCrv) x (some (.fin 1)) none) 3 (.fin 4) =
      .ok (some (.fin 10)) ∧
    steps (fun x => Extn.xPrevious evenCrv (Extn.mk' Extn.constant evenCrv) x (some (.fin 1)) none) 2 (.fin 0) =
      .ok (some (.fin (-4))) ∧
    (Extn.mk' Extn.constant evenCrv).start = true ∧ (Extn.mk' Extn.constant evenCrv).stop = true ∧
    (loose [(0, some 1), (2, some 5), (4, some 4)]).points = [(0, some 1)] ++ [(2, some 5), (4, some 4)] := by
  refine ⟨?_, ?_, ?_, ?_, ?_⟩ <;> decide +kernel

/-! ## C120 -/

/-- The positions a constant extension reads. -/
def constEdges (start stop : Bool) (c : Crv) : List (Except Err (Option Num)) :=
  (if start then [c.y c.dom.lo] else []) ++ (if stop then [c.y c.dom.hi] else [])

/-- What a tangent extension reads. -/
def tangentEdges (step : ℚ) (start stop : Bool) (c : Crv) : List (Except Err (Option Num)) :=
  (if start then [c.y (firstEdge step c.dom), c.dY (firstEdge step c.dom) true] else []) ++
    (if stop then [c.y (lastEdge step c.dom), c.dY (lastEdge step c.dom) false] else [])

/-- The first error among some results. -/
def firstError : List (Except Err (Option Num)) → Option Err
  | [] => none
  | .error e :: _ => some e
  | .ok _ :: rs => firstError rs

/-- What was raised, if something was. -/
def raised {α : Type} : Except Err α → Option Err
  | .error e => some e
  | .ok _ => none

theorem raised_y {F : Type} {K : Kind F} {c : Crv} {e : Extn F} {x : Ext} (hx : c.dom.contains x = false)
    (hst : e.stale = true) (hr : (K.update c { e with stale := false, ivStale := true }).1.raiseOnEmpty = false) :
    raised (Extn.y K c e x).2 = (K.update c { e with stale := false, ivStale := true }).2 := by
  unfold Extn.y updateIfNeeded
  rw [hx, hst]
  rcases hu : K.update c { e with stale := false, ivStale := true } with ⟨s, _ | r⟩
  · rw [hu] at hr
    change s.raiseOnEmpty = false at hr
    simp [check, hr, setInterval, raised]
  · rfl

theorem raised_domain {F : Type} {K : Kind F} {c : Crv} {e : Extn F}
    (hst : e.stale = true) (hiv : e.ivStale = true)
    (hr : (K.update c { e with stale := false, ivStale := true }).1.raiseOnEmpty = false) :
    raised (Extn.domain K c e).2 = (K.update c { e with stale := false, ivStale := true }).2 := by
  unfold Extn.domain updateInterval updateIfNeeded
  rw [hst, hiv]
  simp only [Bool.not_true, Bool.false_eq_true, if_false, if_true, hst]
  rcases hu : K.update c { e with stale := false, ivStale := true } with ⟨s, _ | r⟩
  · rw [hu] at hr
    change s.raiseOnEmpty = false at hr
    simp [check, hr, setInterval, raised]
  · rfl

theorem constant_update (c : Crv) (e : Extn (Option Num)) (hne : c.dom.isEmpty = false) :
    (Extn.constant.update c e).1.raiseOnEmpty = e.raiseOnEmpty ∧
    (Extn.constant.update c e).2 = firstError (constEdges e.start e.stop c) := by
  simp only [Extn.constant, hne, Bool.false_eq_true, if_false, constEdges]
  rcases h1 : c.y c.dom.lo with a | a <;> rcases h2 : c.y c.dom.hi with b | b <;> cases h3 : e.start <;> cases h4 : e.stop <;>
    simp [andThen, constantStart, constantStop, h1, h2, h3, h4, firstError]

theorem tangentAt_error (c : Crv) (x : Ext) (forward : Bool) :
    raised (tangentAt c x forward) = firstError [c.y x, c.dY x forward] := by
  unfold tangentAt
  rcases c.y x with a | _ | a <;> rcases c.dY x forward with b | _ | b <;> rfl

theorem firstError_append (as bs : List (Except Err (Option Num))) :
    firstError (as ++ bs) = (firstError as).or (firstError bs) := by
  induction as with
  | nil => rfl
  | cons a as ih => cases a <;> simp [firstError, ih]

theorem tangent_update (step : ℚ) (c : Crv) (e : Extn Tan) :
    ((Extn.tangent step).update c e).1.raiseOnEmpty = e.raiseOnEmpty ∧
    ((Extn.tangent step).update c e).2 = firstError (tangentEdges step e.start e.stop c) := by
  simp only [Extn.tangent, tangentEdges]
  have h1 := tangentAt_error c (firstEdge step c.dom) true
  have h2 := tangentAt_error c (lastEdge step c.dom) false
  rw [firstError_append]
  unfold andThen tangentStart tangentStop
  rw [startEdge_eq, stopEdge_eq]
  rcases h3 : tangentAt c (firstEdge step c.dom) true with a | _ | a <;>
    rcases h4 : tangentAt c (lastEdge step c.dom) false with b | _ | b <;>
    rw [h3] at h1 <;> rw [h4] at h2 <;> cases h5 : e.start <;> cases h6 : e.stop <;>
    simp [h5, h6, raised] at h1 h2 ⊢ <;> simp [← h1, ← h2, firstError]

/-- C120 (partial: the first read): a constant extension that was not read yet raises, read beyond the domain or asked for its
domain, exactly what reading an edge that is extended raises.
Missing: later reads, see `C120_negation_constant`. -/
theorem C120_constant_partial (c : Crv) (start stop : Bool) (hne : c.dom.isEmpty = false) {x : Ext}
    (hx : c.dom.contains x = false) :
    let e := Extn.mk' Extn.constant c start stop
    raised (Extn.y Extn.constant c e x).2 = firstError (constEdges e.start e.stop c) ∧
    raised (Extn.domain Extn.constant c e).2 = firstError (constEdges e.start e.stop c) := by
  intro e
  obtain ⟨h1, h2⟩ := constant_update c { e with stale := false, ivStale := true } hne
  exact ⟨(raised_y hx rfl h1).trans h2, (raised_domain rfl rfl h1).trans h2⟩

/-- C120 (partial: the first read): a tangent extension, likewise; it reads value and slope.
Missing: later reads, see `C120_negation_tangent`. -/
theorem C120_tangent_partial (step : ℚ) (c : Crv) (start stop : Bool) {x : Ext} (hx : c.dom.contains x = false) :
    let e := Extn.mk' (Extn.tangent step) c start stop
    raised (Extn.y (Extn.tangent step) c e x).2 = firstError (tangentEdges step e.start e.stop c) ∧
    raised (Extn.domain (Extn.tangent step) c e).2 = firstError (tangentEdges step e.start e.stop c) := by
  intro e
  obtain ⟨h1, h2⟩ := tangent_update step c { e with stale := false, ivStale := true }
  exact ⟨(raised_y hx rfl h1).trans h2, (raised_domain rfl rfl h1).trans h2⟩

/-- A curve that cannot be read at its start. -/
def brokenCrv : Crv := Crv.generic (fun x => if x = .fin 1 then .error .zeroDiv else .ok (some (.fin 7))) (Iv.closed 1 2)

/-- Disagreement with C120: after the first error the extension is not updated again; the same read is `None`, and after the
domain was read (which does not raise any more) it is 0, beyond both ends. -/
theorem C120_negation_constant :
    let e := Extn.mk' Extn.constant brokenCrv
    let r1 := Extn.y Extn.constant brokenCrv e (.fin 3)
    let r2 := Extn.y Extn.constant brokenCrv r1.1 (.fin 3)
    let r3 := Extn.domain Extn.constant brokenCrv r2.1
    let r4 := Extn.y Extn.constant brokenCrv r3.1 (.fin 3)
    let r5 := Extn.y Extn.constant brokenCrv r4.1 (.fin 0)
    r1.2 = .error .zeroDiv ∧ r2.2 = .ok none ∧ r3.2 = .ok Iv.infinite ∧ r4.2 = .ok (some (.fin 0)) ∧
      r5.2 = .ok (some (.fin 0)) := by
  refine ⟨?_, ?_, ?_, ?_, ?_⟩ <;> decide +kernel

/-- Disagreement with C120, for tangents. -/
theorem C120_negation_tangent :
    let K := Extn.tangent (1/100000)
    let e := Extn.mk' K brokenCrv
    let r1 := Extn.y K brokenCrv e (.fin 3)
    let r2 := Extn.y K brokenCrv r1.1 (.fin 3)
    let r3 := Extn.domain K brokenCrv r2.1
    let r4 := Extn.y K brokenCrv r3.1 (.fin 3)
    let r5 := Extn.y K brokenCrv r4.1 (.fin 0)
    r1.2 = .error .zeroDiv ∧ r2.2 = .ok none ∧ r3.2 = .ok Iv.infinite ∧ r4.2 = .ok (some (.fin 0)) ∧
      r5.2 = .ok (some (.fin 0)) := by
  refine ⟨?_, ?_, ?_, ?_, ?_⟩ <;> decide +kernel

/-- A fresh extension of the same curve at its end only. -/
example : brokenCrv.dom.isEmpty = false ∧ brokenCrv.dom.contains (.fin 3) = false ∧
    firstError (constEdges true true brokenCrv) = some .zeroDiv ∧
    firstError (constEdges false true brokenCrv) = none ∧
    (Extn.y Extn.constant brokenCrv (Extn.mk' Extn.constant brokenCrv false) (.fin 3)).2 = .ok (some (.fin 7)) := by
  refine ⟨?_, ?_, ?_, ?_, ?_⟩ <;> decide +kernel

/-! ### An instance of each theorem -/

theorem evenLoose_honest : Honest (loose [(0, some 1), (2, some 5), (4, some 4)]) := by
  have h : Ascending ([(0, some 1), (2, some 5), (4, some 4)] : List (Pt ℚ)) := by norm_num [Ascending]
  have h' : ((Pts.blank .linear false).set [(0, some 1), (2, some 5), (4, some 4)] none ⟨false, false⟩).err = none := by
    decide +kernel
  have hn : Pts.new [(0, some 1), (2, some 5), (4, some 4)] .linear false = .ok (loose [(0, some 1), (2, some 5), (4, some 4)]) := by
    unfold Pts.new
    simp only [h']
    rfl
  refine .new h hn fun _ => ?_
  rw [(Pts.new_ok h hn).2.1]
  exact ⟨2, by norm_num⟩

-- `C119_progression` and `C119_regression`: as many steps as one likes
example (n : ℕ) : steps (fun x => Extn.xNext evenCrv (Extn.mk' Extn.constant evenCrv) x (some (.fin 1)) none) n (.fin 4) =
      .ok (some (.fin (4 + n * (4 - 2)))) ∧
    steps (fun x => Extn.xPrevious evenCrv (Extn.mk' Extn.constant evenCrv) x (some (.fin 1)) none) n (.fin 0) =
      .ok (some (.fin (0 - n * (2 - 0)))) :=
  ⟨C119_progression evenLoose_honest (pre := [(0, some 1)]) (p := (2, some 5)) (q := (4, some 4)) rfl
      (by decide +kernel) (by norm_num) (by norm_num) none n,
    C119_regression evenLoose_honest (p := (0, some 1)) (q := (2, some 5)) (post := [(4, some 4)]) rfl
      (by decide +kernel) (by norm_num) (by norm_num) none n⟩

-- `C120_constant_partial`: what the curve raises at its beginning is raised far from it
example : raised (Extn.y Extn.constant brokenCrv (Extn.mk' Extn.constant brokenCrv) (.fin 3)).2 = some .zeroDiv := by
  rw [(C120_constant_partial brokenCrv true true rfl (x := .fin 3) (by decide +kernel)).1]
  decide +kernel

-- `C120_tangent_partial`
example : raised (Extn.y (Extn.tangent 1) brokenCrv (Extn.mk' (Extn.tangent 1) brokenCrv true true) (.fin 3)).2 =
    firstError (tangentEdges 1 (Extn.mk' (Extn.tangent 1) brokenCrv true true).start
      (Extn.mk' (Extn.tangent 1) brokenCrv true true).stop brokenCrv) :=
  (C120_tangent_partial 1 brokenCrv true true (x := .fin 3) (by decide +kernel)).1

-- `C119_without`
example : Extn.xNext evenCrv (Extn.mk' Extn.constant evenCrv true false) (.fin 4) (some (.fin 1)) none = .ok none :=
  ((C119_without evenCrv (Extn.mk' Extn.constant evenCrv true false) (.fin 4) (some (.fin 1)) none).1 (by decide +kernel)).trans
    (by decide +kernel)

end Props
end Curvepy
