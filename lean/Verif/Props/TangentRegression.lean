import Verif.Spec.TangentRegression
import Verif.Props.ExtensionSteps
import Verif.Props.Sampling

/-!
# Property C121: tangent extensions with regression
-/

namespace Curvepy
namespace Props
open Spec Extn Crv

theorem walk_nth {next : Ext → Except Err (Option Ext)} : ∀ {n : ℕ} {x z : Ext}, nth next n x = some z →
    walk next n (some x) = .ok (some z) := by
  intro n
  induction n with
  | zero => intro x z h; simpa [nth, walk] using h
  | succ n ih =>
    intro x z h
    rw [nth] at h
    rw [walk]
    rcases hx : next x with e | _ | y
    · rw [hx] at h; cases h
    · rw [hx] at h; cases h
    · rw [hx] at h
      exact ih h

theorem startWindow_eq {c : Crv} {step : ℚ} {x : Ext} {w : Window} {d : Iv} (h : firstWindow c step x w = some d) :
    startWindow c step x w = .ok d := by
  cases w with
  | period p => cases h; rfl
  | degree n =>
    obtain ⟨z, hz, rfl⟩ := Option.map_eq_some_iff.1 h
    simp only [startWindow, walk_nth hz]
    rfl

theorem stopWindow_eq {c : Crv} {step : ℚ} {x : Ext} {w : Window} {d : Iv} (h : lastWindow c step x w = some d) :
    stopWindow c step x w = .ok d := by
  cases w with
  | period p => cases h; rfl
  | degree n =>
    obtain ⟨z, hz, rfl⟩ := Option.map_eq_some_iff.1 h
    simp only [stopWindow, walk_nth hz]
    rfl

/-- The line through a point of a line with its slope is that line. -/
theorem line_again {l : LineData} {q : ℚ} (hq : l.slope = .fin q) (x : ℚ) (t : Ext) :
    Tan.at ⟨.fin x, Line.y l (.fin x), l.slope⟩ t = Line.y l (.ofExt t) := by
  obtain ⟨⟨a, b⟩, s⟩ := l
  simp only at hq
  subst hq
  cases t with
  | fin t =>
    simp only [Tan.at, Line.y, Num.ofExt, Num.sub, Num.neg, Num.add, Num.mul]
    congr 1
    ring
  | ninf =>
    simp only [Tan.at, Line.y, Num.ofExt, Num.sub, Num.neg, Num.add, Num.mul, Num.infOf]
    split_ifs <;> rfl
  | pinf =>
    simp only [Tan.at, Line.y, Num.ofExt, Num.sub, Num.neg, Num.add, Num.mul, Num.infOf]
    split_ifs <;> rfl

def regLow (reg : Crv → Iv → Except Err (Option LineData)) (w : Window) (step : ℚ) (c : Crv) : Option (Ext → Option Num) :=
  fitted reg c (firstWindow c step (firstEdge step c.dom) w)

def regHigh (reg : Crv → Iv → Except Err (Option LineData)) (w : Window) (step : ℚ) (c : Crv) : Option (Ext → Option Num) :=
  fitted reg c (lastWindow c step (lastEdge step c.dom) w)

/-- The edges that are extended are finite and a line can be fitted there. -/
structure RegGood (reg : Crv → Iv → Except Err (Option LineData)) (w : Window) (step : ℚ) (start stop : Bool) (c : Crv) :
    Prop where
  lo : start = true → (∃ x, firstEdge step c.dom = .fin x) ∧ CanFit reg c (firstWindow c step (firstEdge step c.dom) w)
  hi : stop = true → (∃ x, lastEdge step c.dom = .fin x) ∧ CanFit reg c (lastWindow c step (lastEdge step c.dom) w)

theorem regressionAt_spec {reg : Crv → Iv → Except Err (Option LineData)} {c : Crv} {x : ℚ} {d : Option Iv} {r : Except Err Iv}
    (h : CanFit reg c d) (hr : ∀ w, d = some w → r = .ok w) :
    ∃ t, regressionAt reg c (.fin x) r = .ok t ∧ fitted reg c d = t.map fun t => fun u => some (t.at u) := by
  obtain ⟨w, r', rfl, h1, h2⟩ := h
  rw [hr w rfl]
  simp only [fitted, Option.bind_some, regressionAt, h1, bind, Except.bind]
  cases r' with
  | none => exact ⟨none, rfl, rfl⟩
  | some l =>
    obtain ⟨q, hq⟩ := h2 l rfl
    refine ⟨_, rfl, ?_⟩
    rw [Option.map_some]
    show some _ = some _
    congr 1
    funext t
    exact congrArg some (line_again hq x t).symm

theorem reg_does (reg : Crv → Iv → Except Err (Option LineData)) (w : Window) (step : ℚ) :
    Does (tangentReg reg w step) (regLow reg w step) (regHigh reg w step) (RegGood reg w step) (fun _ _ => True) where
  init := trivial
  keeps := by
    intro c s hg _
    have hlo : ∃ f p, regressionStart reg w step c s = ({ s with startF := f, startValid := p }, none) ∧
        (s.start = true → regLow reg w step c = if p then some ((tangentReg reg w step).value f) else none) := by
      unfold regressionStart
      cases hs : s.start with
      | false => exact ⟨s.startF, s.startValid, by simp [← hs], by simp⟩
      | true =>
        obtain ⟨⟨x, hx⟩, h2⟩ := hg.lo hs
        obtain ⟨t, ht, hl⟩ := regressionAt_spec (x := x) h2 fun _ h => startWindow_eq h
        rw [startEdge_eq, hx]
        rw [hx] at ht
        rw [ht]
        cases t with
        | none => exact ⟨s.startF, false, by simp [← hs], fun _ => by simpa [regLow] using hl⟩
        | some t => exact ⟨t, true, by simp [← hs], fun _ => hl⟩
    obtain ⟨f, p, hf, hf'⟩ := hlo
    have hhi : ∃ g q, regressionStop reg w step c { s with startF := f, startValid := p } =
        ({ s with startF := f, startValid := p, stopF := g, stopValid := q }, none) ∧
        (s.stop = true → regHigh reg w step c = if q then some ((tangentReg reg w step).value g) else none) := by
      unfold regressionStop
      cases hs : s.stop with
      | false => exact ⟨s.stopF, s.stopValid, by simp [← hs], by simp⟩
      | true =>
        obtain ⟨⟨x, hx⟩, h2⟩ := hg.hi hs
        obtain ⟨t, ht, hl⟩ := regressionAt_spec (x := x) h2 fun _ h => stopWindow_eq h
        rw [stopEdge_eq, hx]
        rw [hx] at ht
        rw [ht]
        cases t with
        | none => exact ⟨s.stopF, false, by simp [← hs], fun _ => by simpa [regHigh] using hl⟩
        | some t => exact ⟨t, true, by simp [← hs], fun _ => hl⟩
    obtain ⟨g, q, hg1, hg2⟩ := hhi
    refine ⟨f, g, p, q, ?_, trivial, fun _ hs => hf' hs, fun _ hs => hg2 hs⟩
    simp only [tangentReg, hf, andThen, hg1]

/-- C121: after any edits and reads, a tangent extension with a regression is the curve on its present domain and, beyond an
extended edge, the line fitted over the positions next to the edge (`None` if no line can be fitted). -/
theorem C121_values {reg : Crv → Iv → Except Err (Option LineData)} {w : Window} {c₀ : Crv} {step : ℚ} {start stop : Bool}
    {es : List ExtEvent}
    (h : Told (RegGood reg w step (start && !c₀.dom.isNegInf) (stop && !c₀.dom.isPosInf))
      (SameEdges (start && !c₀.dom.isNegInf) (stop && !c₀.dom.isPosInf) (regLow reg w step) (regHigh reg w step))
      c₀ es) (x : Ext) :
    let p := extRun (tangentReg reg w step) (c₀, Extn.mk' (tangentReg reg w step) c₀ start stop) es
    (Extn.y (tangentReg reg w step) p.1 p.2 x).2 =
      extended p.1 (start && !c₀.dom.isNegInf) (stop && !c₀.dom.isPosInf)
        (fitted reg p.1 (firstWindow p.1 step (firstEdge step p.1.dom) w))
        (fitted reg p.1 (lastWindow p.1 step (lastEdge step p.1.dom) w)) x := by
  intro p
  obtain ⟨h1, h2⟩ := Fresh.run (reg_does reg w step) es (fresh_mk (reg_does reg w step) c₀ start stop) h
  exact h1.value (reg_does reg w step) h2 x

/-! ## Points -/

theorem points_next {s : Pts ℚ} (h : Honest s) {m : ℚ} (hm : 0 < m) (hg : Gapped m s.points) {pre post : List (Pt ℚ)}
    {p q : Pt ℚ} (hs : s.points = pre ++ p :: q :: post) (l : Option Ext) :
    (ofPoints s).xNext (.fin p.1) (some (.fin m)) l = .ok (some (.fin q.1)) := by
  have hasc := h.wf.asc
  have hpq : p.1 + m ≤ q.1 := by
    rw [hs] at hg
    exact (List.isChain_cons_cons.1 (List.isChain_append.1 hg).2.1).1
  show s.xNext (.fin p.1) (some m) = _
  rcases C06_x_next h p.1 m with ⟨z, hz, ⟨r, hr, rfl, hrz⟩, hl⟩ | ⟨_, h2⟩
  · rw [hz]
    have h1 : r.1 ≤ q.1 := hl ⟨q, by rw [hs]; simp, rfl, hpq⟩
    have h2 : q.1 ≤ r.1 := by
      rw [hs] at hr hasc
      obtain ⟨_, h4, h5⟩ := List.pairwise_append.1 hasc
      obtain ⟨_, h7⟩ := List.pairwise_cons.1 h4
      rcases List.mem_append.1 hr with hr | hr
      · have := h5 r hr p (by simp); linarith
      · rcases List.mem_cons.1 hr with rfl | hr
        · linarith
        · rcases List.mem_cons.1 hr with rfl | hr
          · exact le_rfl
          · exact ((List.pairwise_cons.1 h7).1 r hr).le
    rw [le_antisymm h1 h2]
  · have := h2 q (by rw [hs]; simp); linarith

theorem points_previous {s : Pts ℚ} (h : Honest s) {m : ℚ} (hm : 0 < m) (hg : Gapped m s.points) {pre post : List (Pt ℚ)}
    {p q : Pt ℚ} (hs : s.points = pre ++ p :: q :: post) (l : Option Ext) :
    (ofPoints s).xPrevious (.fin q.1) (some (.fin m)) l = .ok (some (.fin p.1)) := by
  have hasc := h.wf.asc
  have hpq : p.1 + m ≤ q.1 := by
    rw [hs] at hg
    exact (List.isChain_cons_cons.1 (List.isChain_append.1 hg).2.1).1
  show s.xPrevious (.fin q.1) (some m) = _
  rcases C07_x_previous h q.1 m with ⟨z, hz, ⟨r, hr, rfl, hrz⟩, hl⟩ | ⟨_, h2⟩
  · rw [hz]
    have h1 : p.1 ≤ r.1 := hl ⟨p, by rw [hs]; simp, rfl, by linarith⟩
    have h2 : r.1 ≤ p.1 := by
      rw [hs] at hr hasc
      obtain ⟨_, h4, h5⟩ := List.pairwise_append.1 hasc
      obtain ⟨_, h7⟩ := List.pairwise_cons.1 h4
      rcases List.mem_append.1 hr with hr | hr
      · exact (h5 r hr p (by simp)).le
      · rcases List.mem_cons.1 hr with rfl | hr
        · exact le_rfl
        · rcases List.mem_cons.1 hr with rfl | hr
          · linarith
          · have := (List.pairwise_cons.1 h7).1 r hr; linarith
    rw [le_antisymm h2 h1]
  · have := h2 p (by rw [hs]; simp); linarith

theorem points_value {s : Pts ℚ} (h : Honest s) {p : Pt ℚ} (hp : p ∈ s.points) :
    (ofPoints s).y (.fin p.1) = .ok (p.2.map .fin) := by
  show (s.y (.fin p.1)).map _ = _
  rw [C01_stored_value h hp]; rfl

theorem points_chain {s : Pts ℚ} (h : Honest s) {m : ℚ} (hm : 0 < m) (hg : Gapped m s.points) {q : Pt ℚ} {post : List (Pt ℚ)} :
    ∀ (mid pre : List (Pt ℚ)) (p : Pt ℚ), s.points = pre ++ (p :: mid ++ [q]) ++ post →
      Chain (ofPoints s) m q.1 p.1 ((p :: mid ++ [q]).map Prod.fst) := by
  intro mid
  have hasc := h.wf.asc
  induction mid with
  | nil =>
    intro pre p hs
    have hpq : p.1 < q.1 := by
      rw [hs] at hasc
      simp only [List.append_assoc, List.cons_append, List.nil_append] at hasc
      exact (List.pairwise_cons.1 (List.pairwise_append.1 hasc).2.1).1 q (by simp)
    exact .next hpq (points_next h hm hg (pre := pre) (post := post) (by rw [hs]; simp) _) le_rfl .last
  | cons r mid ih =>
    intro pre p hs
    have hlt : p.1 < q.1 ∧ r.1 < q.1 := by
      rw [hs] at hasc
      simp only [List.append_assoc, List.cons_append, List.nil_append] at hasc
      obtain ⟨h1, h2⟩ := List.pairwise_cons.1 (List.pairwise_append.1 hasc).2.1
      exact ⟨h1 q (by simp), (List.pairwise_cons.1 h2).1 q (by simp)⟩
    exact .next hlt.1 (points_next h hm hg (by rw [hs]; simp; rfl) _) hlt.2.le (ih (pre ++ [p]) r (by rw [hs]; simp))

/-- Sampled between two of its points, a list of points gives the points between them. -/
theorem points_section {s : Pts ℚ} (h : Honest s) {m : ℚ} (hm : 0 < m) (hg : Gapped m s.points)
    (hh : ∀ p ∈ s.points, NotHalfway m p.1) {pre mid post : List (Pt ℚ)} {p q : Pt ℚ}
    (hs : s.points = pre ++ (p :: mid ++ [q]) ++ post) {fuel : ℕ} (hf : mid.length + 1 < fuel) :
    (ofPoints s).samplePoints (some ⟨.fin p.1, .fin q.1, false, false⟩) (some (.fin m)) none fuel =
      some (.ok ((p :: mid ++ [q]).map fun r => (.fin r.1, r.2.map .fin))) := by
  have hasc := h.wf.asc
  have hasc' : Ascending (p :: mid ++ [q]) := by
    rw [hs] at hasc
    exact (List.pairwise_append.1 (List.pairwise_append.1 hasc).1).2.1
  have hmem : ∀ r ∈ p :: mid ++ [q], r ∈ s.points := by
    intro r hr
    rw [hs]
    simp only [List.mem_append] at hr ⊢
    exact .inl (.inr hr)
  have hpq : p.1 < q.1 := (List.pairwise_cons.1 hasc').1 q (by simp)
  have hle : ∀ r ∈ p :: mid ++ [q], r.1 ≤ q.1 := by
    intro r hr
    rcases List.mem_append.1 hr with hr | hr
    · exact ((List.pairwise_append.1 hasc').2.2 r hr q (by simp)).le
    · rw [List.mem_singleton.1 hr]
  obtain ⟨a, ha⟩ : ∃ a, s.points.head? = some a := by
    cases hp : s.points with
    | nil => have := hmem p (by simp); rw [hp] at this; cases this
    | cons a l => exact ⟨a, rfl⟩
  obtain ⟨b, hb⟩ : ∃ b, s.points.getLast? = some b := by
    cases hp : s.points.getLast? with
    | none =>
      rw [List.getLast?_eq_none_iff] at hp
      have := hmem p (by simp); rw [hp] at this; cases this
    | some b => exact ⟨b, rfl⟩
  have hap : a.1 ≤ p.1 := by
    have := hmem p (by simp)
    cases hp : s.points with
    | nil => rw [hp] at this; cases this
    | cons a' l =>
      rw [hp] at ha hasc this
      cases ha
      rcases List.mem_cons.1 this with rfl | h'
      · exact le_rfl
      · exact ((List.pairwise_cons.1 hasc).1 p h').le
  have hqb : q.1 ≤ b.1 := by
    have hq := hmem q (by simp)
    obtain ⟨i, hi⟩ := List.getElem?_of_mem hq
    rw [List.getLast?_eq_getElem?] at hb
    exact hasc.le hi hb (by have := (List.getElem?_eq_some_iff.1 hi).1; omega)
  have hdom : (ofPoints s).dom = ⟨.fin a.1, .fin b.1, false, false⟩ := by
    show s.domVal = _
    rw [h.wf.domVal, Pts.getDomain_eq_span]
    simp [span, ha, hb]
  have hsd : (ofPoints s).sampleDomain (some ⟨.fin p.1, .fin q.1, false, false⟩) = ⟨.fin p.1, .fin q.1, false, false⟩ := by
    show Iv.inter _ _ = _
    rw [hdom]
    have h1 : ¬ b.1 < a.1 := by linarith
    have h2 : ¬ q.1 < p.1 := by linarith
    have h3 : (a.1 < p.1 ∨ a.1 = p.1) := lt_or_eq_of_le hap
    have h4 : (q.1 < b.1 ∨ b.1 = q.1) := by rcases lt_or_eq_of_le hqb with h | h; exacts [.inl h, .inr h.symm]
    simp [Iv.inter, Iv.isEmpty, Iv.interRaw, Iv.loLe, Iv.hiGe, h1, h2, h3, h4]
  have hd : OnInterval (ofPoints s) (some ⟨.fin p.1, .fin q.1, false, false⟩) p.1 q.1 :=
    ⟨by rw [hsd]; simp [Iv.isEmpty, hpq.not_gt], by rw [hsd], by rw [hsd]⟩
  have hres : resolve (ofPoints s).minStep (some (.fin m)) = some (.fin m) := by
    show resolve (s.minStep.map .fin) _ = _
    rw [Honest.minStep h]
    rfl
  have hadv : ∀ z, Advances (ofPoints s) m q.1 z := by
    intro z w hw
    have hw' : s.xNext (.fin z) (some m) = .ok (some w) := hw
    rcases C06_x_next h z m with ⟨u, hu, ⟨r, _, rfl, hru⟩, _⟩ | ⟨hu, _⟩
    · rw [hu] at hw'; cases hw'; exact ⟨_, rfl, .inl hru⟩
    · rw [hu] at hw'; cases hw'
  let v : ℚ → Option Num := fun z => valueOr ((ofPoints s).y (.fin z))
  have hv : ∀ r ∈ p :: mid ++ [q], (ofPoints s).y (.fin r.1) = .ok (v r.1) ∧ v r.1 = r.2.map .fin := by
    intro r hr
    simp only [v, points_value h (hmem r hr), valueOr, and_self]
  obtain ⟨z, hx, hc⟩ : ∃ z, (ofPoints s).xNext (.fin p.1) (some (.fin m)) (some (.fin q.1)) = .ok (some (.fin z)) ∧
      Chain (ofPoints s) m q.1 z ((mid ++ [q]).map Prod.fst) := by
    cases mid with
    | nil => exact ⟨q.1, points_next h hm hg (pre := pre) (post := post) (by rw [hs]; simp) _, .last⟩
    | cons r mid =>
      exact ⟨r.1, points_next h hm hg (p := p) (q := r) (pre := pre) (post := mid ++ q :: post) (by rw [hs]; simp) _,
        points_chain h hm hg (post := post) mid (pre ++ [p]) r (by rw [hs]; simp)⟩
  · obtain ⟨zs, z1, z2, z3, z4, z5, z6, z7⟩ := C38_partial (ofPoints s) (some ⟨.fin p.1, .fin q.1, false, false⟩)
      (some (.fin m)) p.1 q.1 m hd hpq hres hm z _ hx hc (fun z _ => hadv z)
      (by
        intro z hz
        obtain ⟨r, hr, rfl⟩ := List.mem_map.1 hz
        exact hh r (hmem r (by simp only [List.cons_append, List.mem_cons]; exact .inr hr)))
      v
      (by
        intro z hz
        simp only [List.mem_cons] at hz
        rcases hz with rfl | rfl | hz
        · exact (hv p (by simp)).1
        · exact (hv q (by simp)).1
        · obtain ⟨r, hr, rfl⟩ := List.mem_map.1 hz
          exact (hv r (by simp only [List.cons_append, List.mem_cons]; exact .inr hr)).1)
      fuel (by simpa using hf)
    have hzs : zs = (p :: mid ++ [q]).map Prod.fst := by
      refine List.Pairwise.eq_of_mem_iff (r := (· < ·)) z2 (List.pairwise_map.2 hasc') ?_
      intro z
      constructor
      · intro hz
        rcases z7 z hz with rfl | rfl | h'
        · simp
        · exact List.mem_map_of_mem (by simp)
        · rw [List.cons_append, List.map_cons, List.mem_cons]; exact .inr h'
      · intro hz
        obtain ⟨r, hr, rfl⟩ := List.mem_map.1 hz
        rcases (hle r hr).lt_or_eq with h' | h'
        · rw [List.cons_append, List.map_cons, List.mem_cons] at hz
          rcases hz with h'' | h''
          · rw [h'']; exact z4.2 (by rw [hsd])
          · exact z6 _ h'' h'
        · rw [h']; exact z5 (by rw [hsd])
    rw [z1, hzs, List.map_map]
    congr 2
    refine List.map_congr_left fun r hr => ?_
    show ((.fin r.1, v r.1) : Sample) = _
    rw [(hv r hr).2]

/-- `reg` is what `Curve.regression` returns, where it ends. -/
def Regresses (fit : List (ℚ × ℚ) → ℚ × ℚ) (m : ℚ) (reg : Crv → Iv → Except Err (Option LineData)) (c : Crv) : Prop :=
  ∀ d fuel r, regressionOn fit m fuel c d = some r → reg c d = r

theorem chainLoop_mono {c : Crv} {m : Ext} {b : Ext} {eb : ℤ} : ∀ {n n' : ℕ} {x : Option Ext} {r}, n ≤ n' →
    chainLoop c m b eb n x = some r → chainLoop c m b eb n' x = some r := by
  intro n
  induction n with
  | zero => intro n' x r _ h; simp [chainLoop] at h
  | succ n ih =>
    intro n' x r hle h
    obtain ⟨k, rfl⟩ : ∃ k, n' = k + 1 := ⟨n' - 1, by omega⟩
    have hk : n ≤ k := by omega
    cases x with
    | none => exact h
    | some x =>
    unfold chainLoop at h ⊢
    repeat' split at h
    all_goals simp_all
    all_goals
      rename_i hlt
      obtain ⟨r', h1, h2⟩ := h
      rw [if_neg (not_le.2 hlt), ih hk h1, Option.map_some, h2]

/-- More steps do not change the result of sampling. -/
theorem sample_mono {c : Crv} {d : Option Iv} {m : Option Ext} {n n' : ℕ} {r} (hle : n ≤ n')
    (h : c.samplePoints d m none n = some r) : c.samplePoints d m none n' = some r := by
  unfold samplePoints at h ⊢
  dsimp only at h ⊢
  repeat' split at h
  all_goals simp_all
  all_goals
    obtain ⟨r', h1, h2⟩ := h
    exact ⟨r', chainLoop_mono hle h1, h2⟩

/-- There is such a `reg` for every routine and step. -/
theorem regresses_exists (fit : List (ℚ × ℚ) → ℚ × ℚ) (m : ℚ) : ∃ reg, ∀ c, Regresses fit m reg c := by
  classical
  refine ⟨fun c d => if h : ∃ fuel r, regressionOn fit m fuel c d = some r then h.choose_spec.choose else .error .exception, ?_⟩
  intro c d fuel r hr
  have hex : ∃ fuel r, regressionOn fit m fuel c d = some r := ⟨fuel, r, hr⟩
  have mono : ∀ {n n' r}, n ≤ n' → regressionOn fit m n c d = some r → regressionOn fit m n' c d = some r := by
    intro n n' r hle h
    unfold regressionOn at h ⊢
    obtain ⟨q, h1, h2⟩ := Option.map_eq_some_iff.1 h
    rw [sample_mono hle h1, Option.map_some, h2]
  show dite _ _ _ = _
  rw [dif_pos hex]
  have h1 := hex.choose_spec.choose_spec
  have h2 := mono (le_max_left hex.choose fuel) h1
  rw [mono (le_max_right hex.choose fuel) hr] at h2
  exact (Option.some.inj h2).symm

theorem plain_points (l : List (Pt ℚ)) : (l.map fun r => ((.fin r.1, r.2.map .fin) : Sample)).mapM plain = .ok l := by
  induction l with
  | nil => rfl
  | cons r l ih =>
    rw [List.map_cons, List.mapM_cons, ih]
    obtain ⟨x, _ | y⟩ := r <;> rfl

theorem nth_next {s : Pts ℚ} (h : Honest s) {m : ℚ} (hm : 0 < m) (hg : Gapped m s.points) {q : Pt ℚ} {post : List (Pt ℚ)} :
    ∀ (mid pre : List (Pt ℚ)) (p : Pt ℚ), s.points = pre ++ (p :: mid ++ [q]) ++ post →
      nth (fun x => (ofPoints s).xNext x (some (.fin m)) none) (mid.length + 1) (.fin p.1) = some (.fin q.1) := by
  intro mid
  induction mid with
  | nil =>
    intro pre p hs
    simp only [List.length_nil, nth, points_next h hm hg (p := p) (q := q) (pre := pre) (post := post) (by rw [hs]; simp) _]
  | cons r mid ih =>
    intro pre p hs
    rw [List.length_cons, nth, points_next h hm hg (p := p) (q := r) (pre := pre) (post := mid ++ q :: post) (by rw [hs]; simp) _]
    exact ih (pre ++ [p]) r (by rw [hs]; simp)

theorem nth_previous {s : Pts ℚ} (h : Honest s) {m : ℚ} (hm : 0 < m) (hg : Gapped m s.points) {p : Pt ℚ} {pre : List (Pt ℚ)}
    (mid : List (Pt ℚ)) : ∀ (post : List (Pt ℚ)) (q : Pt ℚ), s.points = pre ++ (p :: mid ++ [q]) ++ post →
      nth (fun x => (ofPoints s).xPrevious x (some (.fin m)) none) (mid.length + 1) (.fin q.1) = some (.fin p.1) := by
  induction mid using List.reverseRecOn with
  | nil =>
    intro post q hs
    simp only [List.length_nil, nth, points_previous h hm hg (p := p) (q := q) (pre := pre) (post := post) (by rw [hs]; simp) _]
  | append_singleton mid r ih =>
    intro post q hs
    rw [List.length_append, List.length_singleton, nth,
      points_previous h hm hg (p := r) (pre := pre ++ p :: mid) (post := post) (by rw [hs]; simp) _]
    exact ih (q :: post) r (by rw [hs]; simp)

theorem fitted_section {fit : List (ℚ × ℚ) → ℚ × ℚ} {reg : Crv → Iv → Except Err (Option LineData)} {s : Pts ℚ} (h : Honest s)
    {m : ℚ} (hm : 0 < m) (hg : Gapped m s.points) (hh : ∀ p ∈ s.points, NotHalfway m p.1) (hr : Regresses fit m reg (ofPoints s))
    {pre mid post : List (Pt ℚ)} {p q : Pt ℚ} (hs : s.points = pre ++ (p :: mid ++ [q]) ++ post) :
    reg (ofPoints s) ⟨.fin p.1, .fin q.1, false, false⟩ = regression fit (p :: mid ++ [q]) := by
  refine hr _ (mid.length + 2) _ ?_
  unfold regressionOn
  rw [points_section h hm hg hh hs (by omega)]
  simp only [Option.map_some, bind, Except.bind, plain_points]

/-- A list of points has finite edges. -/
theorem points_edges {s : Pts ℚ} (h : Honest s) (m : ℚ) :
    (∀ p, s.points.head? = some p → firstEdge m (ofPoints s).dom = .fin p.1) ∧
    (∀ q, s.points.getLast? = some q → lastEdge m (ofPoints s).dom = .fin q.1) := by
  have hdom : (ofPoints s).dom = span s.points := by
    show s.domVal = _
    rw [h.wf.domVal, Pts.getDomain_eq_span]
  constructor
  · intro p hp
    obtain ⟨q, hq⟩ : ∃ q, s.points.getLast? = some q := by
      cases hl : s.points with
      | nil => rw [hl] at hp; cases hp
      | cons a l => exact ⟨_, List.getLast?_eq_some_getLast (by simp)⟩
    rw [hdom]
    simp [firstEdge, span, hp, hq]
  · intro q hq
    obtain ⟨p, hp⟩ : ∃ p, s.points.head? = some p := by
      cases hl : s.points with
      | nil => rw [hl] at hq; cases hq
      | cons a l => exact ⟨a, rfl⟩
    rw [hdom]
    simp [lastEdge, span, hp, hq]

/-- What fitting some points gives: nothing if a value is missing, the line through two points, or the line found. -/
structure FitsOn (fit : List (ℚ × ℚ) → ℚ × ℚ) (ps : List (Pt ℚ)) (f : Option (Ext → Option Num)) : Prop where
  missing : (∃ p ∈ ps, p.2 = none) → f = none
  two : ∀ x1 y1 x2 y2, ps = [(x1, some y1), (x2, some y2)] →
    ∃ g, f = some g ∧ ∀ t : ℚ, g (.fin t) = some (.fin (y1 + (y2 - y1) / (x2 - x1) * (t - x1)))
  more : ∀ qs : List (ℚ × ℚ), ps = qs.map (fun q => (q.1, some q.2)) → 3 ≤ qs.length →
    ∃ g, f = some g ∧ ∀ t : ℚ, g (.fin t) = some (.fin ((fit qs).1 * t + (fit qs).2))

theorem regression_line (fit : List (ℚ × ℚ) → ℚ × ℚ) (ps : List (Pt ℚ)) (hasc : Ascending ps) (h2 : 2 ≤ ps.length) :
    ∃ r, regression fit ps = .ok r ∧ (∀ l, r = some l → ∃ q, l.slope = .fin q) ∧
      FitsOn fit ps (r.map fun l => fun t => some (Line.y l (.ofExt t))) := by
  by_cases hn : ∃ p ∈ ps, p.2 = none
  · refine ⟨none, regression_none fit ps hn, by simp, ⟨fun _ => rfl, ?_, ?_⟩⟩
    · rintro x1 y1 x2 y2 rfl
      obtain ⟨p, hp, h⟩ := hn
      simp only [List.mem_cons, List.not_mem_nil, or_false] at hp
      rcases hp with rfl | rfl <;> cases h
    · rintro qs rfl
      obtain ⟨p, hp, h⟩ := hn
      obtain ⟨q, _, rfl⟩ := List.mem_map.1 hp
      cases h
  · obtain ⟨qs, rfl⟩ : ∃ qs : List (ℚ × ℚ), ps = qs.map fun q => (q.1, some q.2) := by
      clear hasc h2
      induction ps with
      | nil => exact ⟨[], rfl⟩
      | cons p ps ih =>
        obtain ⟨qs, rfl⟩ := ih fun ⟨r, hr, h⟩ => hn ⟨r, by simp [hr], h⟩
        obtain ⟨x, _ | y⟩ := p
        · exact absurd ⟨_, List.mem_cons_self, rfl⟩ hn
        · exact ⟨(x, y) :: qs, rfl⟩
    match qs, h2 with
    | [a, b], _ =>
      have hab : a.1 < b.1 := (List.pairwise_cons.1 hasc).1 (b.1, some b.2) (by simp)
      have hp : Line.params { p1 := some a, p2 := some b } = .ok ⟨a, .fin ((b.2 - a.2) / (b.1 - a.1))⟩ := by
        simp [Line.params, hab.ne', bind, Except.bind, pure, Except.pure]
      refine ⟨some ⟨a, .fin ((b.2 - a.2) / (b.1 - a.1))⟩, ?_, ?_, ⟨fun h => absurd h hn, ?_, ?_⟩⟩
      · rw [← mk_of_params hp]; rfl
      · rintro l ⟨⟩; exact ⟨_, rfl⟩
      · intro x1 y1 x2 y2 he
        simp only [List.map_cons, List.map_nil, List.cons.injEq, Prod.mk.injEq, Option.some.injEq, and_true] at he
        obtain ⟨⟨e1, e2⟩, e3, e4⟩ := he
        refine ⟨_, rfl, fun t => ?_⟩
        simp [Line.y, Num.add, Num.mul, Num.sub, Num.neg, Num.ofExt, ← e1, ← e2, ← e3, ← e4, sub_eq_add_neg]
      · intro qs' he h3
        have := congrArg List.length he
        simp at this
        omega
    | a :: b :: c :: qs, _ =>
      have hmap := mapM_defined (a :: b :: c :: qs)
      have hp : Line.params { const := some (fit (a :: b :: c :: qs)).2, slope := some (.fin (fit (a :: b :: c :: qs)).1) } =
          .ok ⟨(0, (fit (a :: b :: c :: qs)).2), .fin (fit (a :: b :: c :: qs)).1⟩ := by
        simp [Line.params, bind, Except.bind, pure, Except.pure]
      refine ⟨some ⟨(0, (fit (a :: b :: c :: qs)).2), .fin (fit (a :: b :: c :: qs)).1⟩, ?_, ?_, ⟨fun h => absurd h hn, ?_, ?_⟩⟩
      · rw [← mk_of_params hp]
        simp only [regression, hmap]
      · rintro l ⟨⟩; exact ⟨_, rfl⟩
      · intro x1 y1 x2 y2 he
        have := congrArg List.length he
        simp at this
      · intro qs' he h3
        have hinj : qs' = a :: b :: c :: qs := by
          have h1 := mapM_defined qs'
          rw [← he, hmap] at h1
          exact (Option.some.inj h1).symm
        subst hinj
        refine ⟨_, rfl, fun t => ?_⟩
        simp [Line.y, Num.add, Num.mul, Num.sub, Num.neg, Num.ofExt, add_comm]

/-- C121 (partial: gaps of at least the step, no point at an odd multiple of half the step, enough points): with
`regression_degree = n` the line beyond the start is fitted on exactly the first `n + 1` points.
Missing: points closer than the step or in the middle between two steps; too few points, see `C121_negation`. -/
theorem C121_first_partial {fit : List (ℚ × ℚ) → ℚ × ℚ} {reg : Crv → Iv → Except Err (Option LineData)} {s : Pts ℚ} (h : Honest s)
    {m : ℚ} (hm : 0 < m) (hg : Gapped m s.points) (hh : ∀ p ∈ s.points, NotHalfway m p.1) (hr : Regresses fit m reg (ofPoints s))
    {n : ℕ} (hn : 0 < n) (hl : n < s.points.length) :
    (∃ x, firstEdge m (ofPoints s).dom = .fin x) ∧
    CanFit reg (ofPoints s) (firstWindow (ofPoints s) m (firstEdge m (ofPoints s).dom) (.degree n)) ∧
    FitsOn fit (s.points.take (n + 1))
      (fitted reg (ofPoints s) (firstWindow (ofPoints s) m (firstEdge m (ofPoints s).dom) (.degree n))) := by
  obtain ⟨p, mid, q, post, hs, hmid⟩ : ∃ p mid q post, s.points = (p :: mid ++ [q]) ++ post ∧ mid.length + 1 = n := by
    cases hp : s.points with
    | nil => rw [hp] at hl; simp at hl
    | cons p rest =>
      rw [hp] at hl
      simp only [List.length_cons] at hl
      have hlt : n - 1 < rest.length := by omega
      refine ⟨p, rest.take (n - 1), rest[n - 1], rest.drop n, ?_, by simp; omega⟩
      have ht : rest.take (n - 1) ++ [rest[n - 1]] = rest.take n := by
        have : n - 1 + 1 = n := by omega
        rw [List.take_concat_get' _ _ hlt, this]
      rw [List.cons_append, List.cons_append, ht, List.take_append_drop]
  have htake : s.points.take (n + 1) = p :: mid ++ [q] := by
    rw [hs, List.take_left']
    simp; omega
  have hs' : s.points = [] ++ (p :: mid ++ [q]) ++ post := by simpa using hs
  have hedge := (points_edges h m).1 p (by rw [hs]; rfl)
  have hasc' : Ascending (p :: mid ++ [q]) := by
    have := h.wf.asc
    rw [hs] at this
    exact (List.pairwise_append.1 this).1
  obtain ⟨r, h1, h2, h3⟩ := regression_line fit (p :: mid ++ [q]) hasc' (by simp)
  have hw : firstWindow (ofPoints s) m (.fin p.1) (.degree n) = some ⟨.fin p.1, .fin q.1, false, false⟩ := by
    rw [firstWindow, ← hmid, nth_next h hm hg mid [] p hs']
    rfl
  have hreg := (fitted_section h hm hg hh hr hs').trans h1
  rw [hedge, hw, htake]
  refine ⟨⟨_, rfl⟩, ⟨_, r, rfl, hreg, h2⟩, ?_⟩
  simp only [fitted, Option.bind_some, hreg]
  cases r <;> exact h3

/-- C121 (partial: as above): the line beyond the end is fitted on exactly the last `n + 1` points. -/
theorem C121_last_partial {fit : List (ℚ × ℚ) → ℚ × ℚ} {reg : Crv → Iv → Except Err (Option LineData)} {s : Pts ℚ} (h : Honest s)
    {m : ℚ} (hm : 0 < m) (hg : Gapped m s.points) (hh : ∀ p ∈ s.points, NotHalfway m p.1) (hr : Regresses fit m reg (ofPoints s))
    {n : ℕ} (hn : 0 < n) (hl : n < s.points.length) :
    (∃ x, lastEdge m (ofPoints s).dom = .fin x) ∧
    CanFit reg (ofPoints s) (lastWindow (ofPoints s) m (lastEdge m (ofPoints s).dom) (.degree n)) ∧
    FitsOn fit (s.points.drop (s.points.length - (n + 1)))
      (fitted reg (ofPoints s) (lastWindow (ofPoints s) m (lastEdge m (ofPoints s).dom) (.degree n))) := by
  obtain ⟨pre, p, mid, q, hs, hmid⟩ : ∃ pre p mid q, s.points = pre ++ (p :: mid ++ [q]) ∧ mid.length + 1 = n := by
    have hlen : (s.points.drop (s.points.length - (n + 1))).length = n + 1 := by simp; omega
    cases hp : s.points.drop (s.points.length - (n + 1)) with
    | nil => rw [hp] at hlen; simp at hlen
    | cons p rest =>
      rw [hp] at hlen
      simp only [List.length_cons] at hlen
      have hne : rest ≠ [] := by rintro rfl; simp at hlen; omega
      refine ⟨s.points.take (s.points.length - (n + 1)), p, rest.dropLast, rest.getLast hne, ?_, by simp; omega⟩
      rw [List.cons_append, List.dropLast_append_getLast hne, ← hp, List.take_append_drop]
  have hdrop : s.points.drop (s.points.length - (n + 1)) = p :: mid ++ [q] := by
    have : s.points.length - (n + 1) = pre.length := by rw [hs]; simp; omega
    rw [this, hs, List.drop_left]
  have hs' : s.points = pre ++ (p :: mid ++ [q]) ++ [] := by simpa using hs
  have hedge := (points_edges h m).2 q (by rw [hs, ← List.append_assoc]; exact List.getLast?_concat)
  have hasc' : Ascending (p :: mid ++ [q]) := by
    have := h.wf.asc
    rw [hs] at this
    exact (List.pairwise_append.1 this).2.1
  obtain ⟨r, h1, h2, h3⟩ := regression_line fit (p :: mid ++ [q]) hasc' (by simp)
  have hw : lastWindow (ofPoints s) m (.fin q.1) (.degree n) = some ⟨.fin p.1, .fin q.1, false, false⟩ := by
    rw [lastWindow, ← hmid, nth_previous h hm hg mid [] q hs']
    rfl
  have hreg := (fitted_section h hm hg hh hr hs').trans h1
  rw [hedge, hw, hdrop]
  refine ⟨⟨_, rfl⟩, ⟨_, r, rfl, hreg, h2⟩, ?_⟩
  simp only [fitted, Option.bind_some, hreg]
  cases r <;> exact h3

/-- Sampling with 100 steps. -/
def sampledFit (fit : List (ℚ × ℚ) → ℚ × ℚ) (m : ℚ) (c : Crv) (d : Iv) : Except Err (Option LineData) :=
  (regressionOn fit m 100 c d).getD (.error .exception)

/-- Disagreement with C121: with fewer points than the regression needs the extension raises, however the regression is computed,
instead of being `None` beyond the end; a tangent without regression is `None` there. -/
theorem C121_negation (reg : Crv → Iv → Except Err (Option LineData)) :
    let K := tangentReg reg (.degree 2) 1
    (Extn.y K shortCrv (Extn.mk' K shortCrv) (.fin 3)).2 = .error .type ∧
    (Extn.y (Extn.tangent 1) shortCrv (Extn.mk' (Extn.tangent 1) shortCrv) (.fin 3)).2 = .ok none := by
  constructor
  · have hw : startWindow shortCrv 1 (startEdge 1 shortCrv.dom) (.degree 2) = .error .type := by decide +kernel
    have hx : shortCrv.dom.contains (.fin 3) = false := by decide +kernel
    have hu : ∀ e : Extn Tan, e.start = true → (tangentReg reg (.degree 2) 1).update shortCrv e = (e, some .type) := by
      intro e he
      show andThen (regressionStart reg (.degree 2) 1 shortCrv e) _ = _
      unfold regressionStart regressionAt
      rw [he, hw]
      rfl
    have hs : (true && !shortCrv.dom.isNegInf) = true := by decide +kernel
    unfold Extn.y updateIfNeeded
    rw [hx]
    simp only [Extn.mk', hs, hu, Bool.not_true, Bool.false_eq_true, if_false]
  · decide +kernel

/-- Fitting all of `(0,1), (2,5), (4,4)` with a routine that answers `5/4 x + 7/3`; the first two points; the last two points by a
period. -/
example :
    let r := sampledFit (fun _ => (5/4, 7/3)) (1/100)
    let K := tangentReg r (.degree 2) (1/100)
    let K1 := tangentReg r (.degree 1) (1/100)
    let K2 := tangentReg r (.period 2) (1/100)
    (Extn.y K evenCrv (Extn.mk' K evenCrv) (.fin 8)).2 = .ok (some (.fin (10 + 7/3))) ∧
    (Extn.y K1 evenCrv (Extn.mk' K1 evenCrv) (.fin (-1))).2 = .ok (some (.fin (-1))) ∧
    (Extn.y K1 evenCrv (Extn.mk' K1 evenCrv) (.fin 6)).2 = .ok (some (.fin 3)) ∧
    (Extn.y K2 evenCrv (Extn.mk' K2 evenCrv) (.fin 6)).2 = .ok (some (.fin 3)) ∧
    (Extn.y K2 evenCrv (Extn.mk' K2 evenCrv) (.fin 1)).2 = .ok (some (.fin 3)) := by
  refine ⟨?_, ?_, ?_, ?_, ?_⟩ <;> decide +kernel

end Props
end Curvepy
