import Verif.Lemmas.TowerSteps
import Verif.Lemmas.CurveScanSteps

/-!
# Histories of accumulators over accumulators
-/

namespace Curvepy
open Spec Pts Props Accum

/-! ## What keeps a state in order -/

section
variable {σ α β : Type} {J : σ → Prop}

/-- Whatever comes out, the state stays as it should be. -/
def Orderly (J : σ → Prop) (p : Run σ α) : Prop := ∀ s v s', J s → p s = some (v, s') → J s'

theorem Agrees.orderly {p : Run σ α} {r : Option (Except Err α)} (h : Agrees J p r) : Orderly J p :=
  fun _ _ _ hs hp => agrees_state h hs hp

namespace Orderly

theorem pure' (a : α) : Orderly J (pure a) := fun s v s' hs h => by cases h; exact hs

theorem lift (r : Except Err α) : Orderly J (Run.lift r) := fun s v s' hs h => by cases h; exact hs

theorem more : Orderly J (Run.more : Run σ α) := fun s v s' hs h => by cases h

theorem bind {p : Run σ α} {f : α → Run σ β} (hp : Orderly J p) (hf : ∀ a, Orderly J (f a)) : Orderly J (p >>= f) := by
  intro s v s' hs h
  rw [run_bind] at h
  rcases hr : p s with _ | ⟨e | a, s1⟩
  · rw [hr] at h; cases h
  · rw [hr] at h
    simp only [Option.bind_some] at h
    cases h
    exact hp s _ _ hs hr
  · rw [hr] at h
    exact hf a s1 v s' (hp s _ _ hs hr) h

end Orderly

/-- So do all methods. -/
structure Tidy (M : Machine σ) (J : σ → Prop) : Prop where
  dom : Orderly J M.dom
  minStep : Orderly J M.minStep
  y x : Orderly J (M.y x)
  next x m l : Orderly J (M.xNext x m l)
  prev x m l : Orderly J (M.xPrevious x m l)

variable {M : Machine σ}

theorem Tidy.stepLoop (h : Tidy M J) (b step : ℚ) (n : ℕ) (x : ℚ) : Orderly J (M.stepLoop b step n x) := by
  induction n generalizing x with
  | zero => exact .more
  | succ n ih =>
    unfold Machine.stepLoop
    split
    · exact .bind (h.y _) fun _ => .bind (ih _) fun _ => .pure' _
    · exact .pure' _

theorem Tidy.chainLoop (h : Tidy M J) (m b : Ext) (k : ℤ) (n : ℕ) (x : Option Ext) :
    Orderly J (M.chainLoop m b k n x) := by
  induction n generalizing x with
  | zero => exact .more
  | succ n ih =>
    cases x with
    | none => exact .pure' _
    | some x =>
      unfold Machine.chainLoop
      split
      · refine .bind (h.y _) fun _ => .bind (.lift _) fun _ => ?_
        split
        · exact .pure' _
        · refine .bind (h.next _ _ _) fun z => ?_
          cases z with
          | none => exact .pure' _
          | some z =>
            refine .bind (.lift _) fun _ => ?_
            split
            · exact .lift _
            · exact .bind (ih _) fun _ => .pure' _
      · exact .pure' _

theorem Tidy.addEnd (h : Tidy M J) (d : Iv) (ps : List Crv.Sample) : Orderly J (M.addEnd d ps) := by
  unfold Machine.addEnd
  split
  · exact .pure' _
  · split
    · exact .lift _
    · split
      · exact .pure' _
      · exact .bind (h.y _) fun _ => .pure' _

theorem Tidy.sampleDomain (h : Tidy M J) (d : Option Iv) : Orderly J (M.sampleDomain d) := by
  cases d with
  | none => exact h.dom
  | some d => exact .bind h.dom fun _ => .pure' _

theorem Tidy.samplePoints (h : Tidy M J) (d : Option Iv) (m : Option Ext) (step : Option ℚ) (n : ℕ) :
    Orderly J (M.samplePoints d m step n) := by
  unfold Machine.samplePoints
  refine .bind h.minStep fun own => .bind (h.sampleDomain d) fun e => ?_
  split
  · exact .pure' _
  · split
    · exact .lift _
    · split
      · refine .bind (.lift _) fun _ => .bind ?_ fun _ => ?_
        · unfold Machine.firstSample
          split
          · exact .pure' _
          · exact .bind (h.y _) fun _ => .pure' _
        · split
          · exact .bind (h.stepLoop _ _ _ _) fun _ => .pure' _
          · split
            · exact .bind (h.next _ _ _) fun _ => .bind (h.chainLoop _ _ _ _ _) fun _ => h.addEnd _ _
            · exact .lift _
          · exact .lift _
      · exact .lift _

end

variable {t : Tfm} {g : Rule} {m : ℚ} {i : Interp} {u : Bool} {pts : List (Pt ℚ)} {ls : List Storey}

/-! ## One accumulator over a curve with a state -/

theorem knotBefore_xs {a b : List (Pt ℚ)} (h : a.map Prod.fst = b.map Prod.fst) (x : Ext) (c : ℚ) :
    knotBefore a x c = knotBefore b x c := by
  have h1 : a.getLast?.map Prod.fst = b.getLast?.map Prod.fst := by rw [← List.getLast?_map, ← List.getLast?_map, h]
  cases x with
  | ninf => rfl
  | fin q =>
    have : ∀ l : List (Pt ℚ), lastUpTo l (q - c) = (l.map Prod.fst).reverse.find? (fun r => decide (r ≤ q - c)) := by
      intro l
      rw [← List.map_reverse, List.find?_map]
      rfl
    simp only [knotBefore, this, h]
  | pinf =>
    show a.getLast?.map (fun p => Ext.fin p.1) = b.getLast?.map (fun p => Ext.fin p.1)
    have : ∀ l : List (Pt ℚ), l.getLast?.map (fun p => Ext.fin p.1) = (l.getLast?.map Prod.fst).map Ext.fin := by
      intro l; cases l.getLast? <;> rfl
    rw [this, this, h1]

theorem accumulatedCurve_folded (hg : NeverRaises g) (hasc : Ascending pts) :
    accumulatedCurve g i m pts = knotCurve i m (foldedBy g pts) := by
  have hxs := foldedBy_xs hg pts
  unfold accumulatedCurve knotCurve
  congr 1
  · exact (span_xs hxs).symm
  · funext x
    rw [accumulatedAt_folded hg hasc]
    rfl
  · funext x a _
    congr 1
    cases stepOf m a with
    | none => rfl
    | some c => exact (knotAfter_xs hxs x c).symm
  · funext x a _
    congr 1
    cases stepOf m a with
    | none => rfl
    | some c => exact (knotBefore_xs hxs x c).symm

namespace Layer
open CScan

variable {σ : Type} {M : Machine σ} {J : σ → Prop} {p : PTfm} {size : σ → ℕ}

theorem fine_asc {L : Layer} (hm : 0 < m) (h : Fine g m i u pts L) : Ascending pts := by
  obtain ⟨_, seen, todo, rfl, h⟩ := h
  exact h.asc hm

theorem y_knots (hM : Shown M J pts m) (hm : 0 < m) (hsize : ∀ s, J s → pts.length ≤ size s)
    (hg : NeverRaises (plainRule p)) (x : Ext) :
    Agrees (fun s : Layer × σ => Fine (plainRule p) m i u pts s.1 ∧ J s.2) ((machine M size p).y x)
      (some (.ok ((valueAtE i (foldedBy (plainRule p) pts) x).map .fin))) := by
  rintro ⟨L, s⟩ hs
  have := y_agrees (t := p) (i := i) (u := u) hM hm (n := size s) (hsize s hs.2) x (L, s) hs
  rw [accumulatedAt_folded hg (fine_asc hm hs.1)] at this
  exact this

theorem minStep_agrees :
    Agrees (fun s : Layer × σ => Fine (plainRule p) m i u pts s.1 ∧ J s.2) (machine M size p).minStep
      (some (.ok (some (.fin m)))) := by
  rintro ⟨L, s⟩ hs
  refine ⟨nofun, fun v hv => ?_⟩
  cases hv
  obtain ⟨_, seen, todo, _, h⟩ := id hs.1
  refine ⟨(L, s), ?_, hs⟩
  have hstep : L.scan.minStep = m := h.step
  simp only [machine, run_bind, get, Option.bind_some, pure_run, hstep]

theorem tidy (hM : Shown M J pts m) (hm : 0 < m) (hsize : ∀ s, J s → pts.length ≤ size s)
    (hg : NeverRaises (plainRule p)) (hT : Tidy M J) :
    Tidy (machine M size p) (fun s : Layer × σ => Fine (plainRule p) m i u pts s.1 ∧ J s.2) where
  dom := (dom_agrees hM).orderly
  minStep := minStep_agrees.orderly
  y x := (y_knots hM hm hsize hg x).orderly
  next x _ l := fun _ _ _ hs h => next_keeps (fun b => hT.next x b l) hs h
  prev x _ l := fun _ _ _ hs h => previous_keeps (fun b => hT.prev x b l) hs h

theorem scanAt_ok (hM : Shown M J pts m) (hm : 0 < m) (hsize : ∀ s, J s → pts.length ≤ size s)
    (hg : NeverRaises (plainRule p)) {x : ℚ} (hx : (span pts).contains (.fin x) = true) :
    Agrees (fun s : Layer × σ => Fine (plainRule p) m i u pts s.1 ∧ J s.2) (scanAt M size p (.fin x)) (some (.ok ())) := by
  rintro ⟨L, s⟩ ⟨⟨hi, seen, todo, rfl, h⟩, hs⟩
  refine ⟨nofun, fun v hv => ?_⟩
  cases hv
  have hrun := hg (seen ++ Accum.need x seen todo)
  rcases scanTo_eq (t := p) hM hm (n := size s) (hsize s hs) hi h hs hx with
    ⟨out, e, L', s', h1, h2, h3, h4⟩ | ⟨L', s', rest, h1, h2, h3, h4, h5, h6⟩
  · exfalso
    rw [runRule_append, h.run] at hrun
    simp only [List.nil_append, h1] at hrun
    cases hrun
  · exact ⟨(L', s'), h2, ⟨h4, _, rest, by rw [List.append_assoc, ← h5], h6⟩, h3⟩

/-- The domain to sample, and its ends once they were reached. -/
theorem sample_start (hM : Shown M J pts m) (hm : 0 < m) (hsize : ∀ s, J s → pts.length ≤ size s)
    (hg : NeverRaises (plainRule p)) (domain : Option Iv) :
    Agrees (fun s : Layer × σ => Fine (plainRule p) m i u pts s.1 ∧ J s.2) ((machine M size p).sampleDomain domain)
      (some (.ok ((knotCurve i m (foldedBy (plainRule p) pts)).sampleDomain domain))) := by
  have hd := (shown_over (i := i) (u := u) (c' := 0) hM hm hsize hg).dom
  cases domain with
  | none => exact hd
  | some d => exact .bind_ok hd (.pure' _)

theorem sample_bounds (hm : 0 < m) {L : Layer} (h : Fine (plainRule p) m i u pts L) (hg : NeverRaises (plainRule p))
    {domain : Option Iv} (he : ((knotCurve i m (foldedBy (plainRule p) pts)).sampleDomain domain).isEmpty = false) :
    ∃ a b : ℚ, ((knotCurve i m (foldedBy (plainRule p) pts)).sampleDomain domain).lo = .fin a ∧
      ((knotCurve i m (foldedBy (plainRule p) pts)).sampleDomain domain).hi = .fin b ∧
      (span pts).contains (.fin a) = true ∧ (span pts).contains (.fin b) = true := by
  rw [← accumulatedCurve_folded hg (fine_asc hm h)] at he ⊢
  obtain ⟨a, b, h1, h2, _, h3, h4⟩ := sampleDomain_bounds (fine_asc hm h) he
  exact ⟨a, b, h1, h2, h3, h4⟩

theorem sample_orderly (hM : Shown M J pts m) (hm : 0 < m) (hsize : ∀ s, J s → pts.length ≤ size s)
    (hg : NeverRaises (plainRule p)) (hT : Tidy M J) (domain : Option Iv) (minStep : Option Ext) (step : Option ℚ)
    (fuel : ℕ) :
    Orderly (fun s : Layer × σ => Fine (plainRule p) m i u pts s.1 ∧ J s.2)
      (samplePoints M size p domain minStep step fuel) := by
  intro s v s' hs h
  have hT' := tidy (i := i) (u := u) hM hm hsize hg hT
  unfold samplePoints at h
  obtain ⟨s1, e1, hs1⟩ := ((minStep_agrees (M := M) (size := size)) s hs).2 _ rfl
  obtain ⟨s2, e2, hs2⟩ := ((sample_start hM hm hsize hg domain) s1 hs1).2 _ rfl
  simp only [run_bind, e1, e2, Option.bind_some] at h
  cases he : ((knotCurve i m (foldedBy (plainRule p) pts)).sampleDomain domain).isEmpty with
  | true =>
    simp only [he, if_true, pure_run] at h
    cases h
    exact hs2
  | false =>
    obtain ⟨a, b, ha, hb, hca, hcb⟩ := sample_bounds hm hs.1 hg he
    have hn : ((knotCurve i m (foldedBy (plainRule p) pts)).sampleDomain domain).isNegInf = false := by
      simp [Iv.isNegInf, ha]
    obtain ⟨s3, e3, hs3⟩ := ((scanAt_ok hM hm hsize hg hca) s2 hs2).2 _ rfl
    obtain ⟨s4, e4, hs4⟩ := ((scanAt_ok hM hm hsize hg hcb) s3 hs3).2 _ rfl
    simp only [he, hn, Bool.false_and, Bool.false_eq_true, if_false, run_bind, ha, hb, e3, e4, Option.bind_some] at h
    exact hT'.samplePoints _ _ _ _ s4 v s' hs4 h

/-- With a step that is not smaller than that of the source the next positions are those of the knots as well. -/
theorem forwards {i' : Interp} {m' : ℚ} (hM : Shown M J pts m) (hm : 0 < m) (hsize : ∀ s, J s → pts.length ≤ size s)
    (hg : NeverRaises (plainRule p)) (hF : Forwards M J (knotCurve i' m' pts)) (hmm : m' ≤ m) :
    Forwards (machine M size p) (fun s : Layer × σ => Fine (plainRule p) m i u pts s.1 ∧ J s.2)
      (knotCurve i m (foldedBy (plainRule p) pts)) where
  dom := (shown_over (c' := 0) hM hm hsize hg).dom
  minStep := minStep_agrees
  y x := y_knots hM hm hsize hg x
  next x arg l := by
    have hxs := foldedBy_xs hg pts
    show Agrees _ (xNext M x arg l) (some (.ok ((stepOf m arg).bind (knotAfter _ x))))
    rcases resolve_pinf_or m arg with ⟨c, h1, h2⟩ | ⟨h1, h2⟩
    · have hmc := resolve_ge h1
      rw [h2, max_eq_left hmc, Option.bind_some, knotAfter_xs hxs]
      refine next_agrees h1 ?_
      have := hF.next x (some (.fin c)) l
      have he : stepOf m' (some (.fin c)) = some c := by simp [stepOf, hmm.trans hmc]
      simp only [knotCurve, he, Option.bind_some] at this
      exact this
    · rw [h2]
      refine next_none h1 ?_
      have := hF.next x (some .pinf) l
      simp only [knotCurve, stepOf, Option.bind_none] at this
      exact this

theorem sample_knots (hM : Shown M J pts m) (hm : 0 < m) (hsize : ∀ s, J s → pts.length ≤ size s)
    (hg : NeverRaises (plainRule p))
    (hF : Forwards (machine M size p) (fun s : Layer × σ => Fine (plainRule p) m i u pts s.1 ∧ J s.2)
      (knotCurve i m (foldedBy (plainRule p) pts)))
    (domain : Option Iv) (minStep : Option Ext) (step : Option ℚ) (fuel : ℕ) :
    Agrees (fun s : Layer × σ => Fine (plainRule p) m i u pts s.1 ∧ J s.2) (samplePoints M size p domain minStep step fuel)
      ((knotCurve i m (foldedBy (plainRule p) pts)).samplePoints domain minStep step fuel) := by
  intro s hs
  refine (Agrees.bind_ok hF.minStep (.bind_ok (sample_start hM hm hsize hg domain) ?_)) s hs
  cases he : ((knotCurve i m (foldedBy (plainRule p) pts)).sampleDomain domain).isEmpty with
  | true =>
    have hr : (knotCurve i m (foldedBy (plainRule p) pts)).samplePoints domain minStep step fuel = some (.ok []) := by
      unfold Crv.samplePoints
      simp [he]
    rw [hr]
    simp only [if_true]
    exact .pure' _
  | false =>
    obtain ⟨a, b, ha, hb, hca, hcb⟩ := sample_bounds hm hs.1 hg he
    have hn : ((knotCurve i m (foldedBy (plainRule p) pts)).sampleDomain domain).isNegInf = false := by
      simp [Iv.isNegInf, ha]
    simp only [hn, Bool.false_and, Bool.false_eq_true, if_false, ha, hb]
    refine .bind_ok (scanAt_ok hM hm hsize hg hca) (.bind_ok (scanAt_ok hM hm hsize hg hcb) ?_)
    have := hF.samplePoints (some ((knotCurve i m (foldedBy (plainRule p) pts)).sampleDomain domain))
      (Crv.resolve (knotCurve i m (foldedBy (plainRule p) pts)).minStep minStep) step fuel
    rw [samplePoints_again he] at this
    exact this

end Layer

/-! ## Towers -/

/-- Between two operations every accumulator is in order. -/
def TowerFine (g : Rule) (m : ℚ) (i : Interp) (u : Bool) : (ls : List Storey) → List (Pt ℚ) → TowerState ls → Prop
  | [], pts, A => Steady g m i u pts A
  | S :: ls, pts, s => Layer.Fine (plainRule S.tfm) S.minStep S.interp S.uniform (towerKnots g ls pts) s.1 ∧
      TowerFine g m i u ls pts s.2

theorem towerKnots_xs (hg : NeverRaises g) (ls : List Storey) (pts : List (Pt ℚ)) :
    (towerKnots g ls pts).map Prod.fst = pts.map Prod.fst := by
  induction ls with
  | nil => exact foldedBy_xs hg pts
  | cons S ls ih => exact (foldedBy_xs (storey_neverRaises S) _).trans ih

theorem towerKnots_length (hg : NeverRaises g) (ls : List Storey) (pts : List (Pt ℚ)) :
    (towerKnots g ls pts).length = pts.length := by
  have := congrArg List.length (towerKnots_xs hg ls pts)
  simpa using this

theorem tower_points : ∀ {ls : List Storey} {s : TowerState ls}, TowerFine g m i u ls pts s →
    ((tower t ls).src s).points = pts
  | [], _, h => h.1
  | _ :: _, s, h => tower_points (s := s.2) h.2

theorem tower_asc : ∀ {ls : List Storey} {s : TowerState ls}, TowerFine g m i u ls pts s → Ascending pts
  | [], _, ⟨h, _, _, hs⟩ => h ▸ hs.src.wf.asc
  | _ :: _, s, h => tower_asc (s := s.2) h.2

theorem tower_size (hg : NeverRaises g) (s : TowerState ls) (h : TowerFine g m i u ls pts s) :
    (towerKnots g ls pts).length ≤ ((tower t ls).src s).points.length := by
  rw [tower_points h, towerKnots_length hg]

theorem base_forwards (hf : Follows m t g) (hm : 0 < m) (hg : NeverRaises g) :
    Forwards (Accum.machine t) (Steady g m i u pts) (knotCurve i m (foldedBy g pts)) := by
  have F := steady_forwards (i := i) (u := u) (pts := pts) hf hm
  have hasc : ∀ A, Steady g m i u pts A → Ascending pts := fun A h => tower_asc (ls := []) h
  have key : ∀ A, Steady g m i u pts A → accumulatedCurve g i m pts = knotCurve i m (foldedBy g pts) :=
    fun A h => accumulatedCurve_folded hg (hasc A h)
  exact ⟨fun A hA => key A hA ▸ F.dom A hA, fun A hA => key A hA ▸ F.minStep A hA,
    fun x A hA => key A hA ▸ F.y x A hA, fun x a l A hA => key A hA ▸ F.next x a l A hA⟩

theorem base_shown {c : ℚ} (hf : Follows m t g) (hm : 0 < m) (hg : NeverRaises g) :
    Layer.Shown (Accum.machine t) (Steady g m i u pts) (foldedBy g pts) c where
  dom := (base_forwards hf hm hg).dom
  val p hp := by
    intro A hA
    have := (base_forwards hf hm hg).y (.fin p.1) A hA
    have hv : valueAtE i (foldedBy g pts) (.fin p.1) = p.2 :=
      valueAt_mem (ascending_xs (foldedBy_xs hg pts) (tower_asc (ls := []) hA)) hp
    simp only [knotCurve, hv] at this
    exact this
  next pre p q rest a l hp hq ha _ := by
    intro A hA
    have := (base_forwards hf hm hg).next (.fin p.1) (some (.fin a)) l A hA
    obtain ⟨rfl, seen, todo, h⟩ := id hA
    have hasc : Ascending (foldedBy g A.src.points) := ascending_xs (foldedBy_xs hg _) h.src.wf.asc
    have hgap : Gapped m (foldedBy g A.src.points) := (fit_xs (foldedBy_xs hg _) h.fit).gapped
    have hqm : p.1 + m ≤ q.1 := by
      unfold Gapped at hgap
      rw [hp, List.isChain_append] at hgap
      exact (List.isChain_cons_cons.1 hgap.2.1).1
    have hk : knotAfter (foldedBy g A.src.points) (.fin p.1) (max a m) = some (.fin q.1) := by
      rw [hp] at hasc ⊢
      refine knotAfter_knot hasc (lt_max_of_lt_left ha) ?_
      rcases max_choice a m with h | h <;> rw [h] <;> assumption
    simp only [knotCurve, stepOf, Option.bind_some, hk] at this
    exact this

theorem tower_shown {c : ℚ} (hf : Follows m t g) (hm : 0 < m) (hg : NeverRaises g) (ls : List Storey)
    (hS : ∀ S ∈ ls, 0 < S.minStep) : Layer.Shown (tower t ls).machine (TowerFine g m i u ls pts) (towerKnots g ls pts) c := by
  induction ls generalizing c with
  | nil => exact base_shown hf hm hg
  | cons S ls ih =>
    have h := ih (c := S.minStep) fun T hT => hS T (List.mem_cons_of_mem _ hT)
    exact Layer.shown_over (t := S.tfm) (i := S.interp) (u := S.uniform)
      (size := fun s => ((tower t ls).src s).points.length) h (hS S (by simp)) (tower_size hg) (storey_neverRaises S)

theorem base_tidy (hf : Follows m t g) (hm : 0 < m) : Tidy (Accum.machine t) (Steady g m i u pts) where
  dom := (steady_forwards hf hm).dom.orderly
  minStep := (steady_forwards hf hm).minStep.orderly
  y x := ((steady_forwards hf hm).y x).orderly
  next x a l := ((steady_forwards hf hm).next x a l).orderly
  prev x a l := by
    intro A v B hA h
    have : some (A.xPreviousBy x a, A) = some (v, B) := h
    cases this
    exact hA

theorem tower_tidy (hf : Follows m t g) (hm : 0 < m) (hg : NeverRaises g) (ls : List Storey)
    (hS : ∀ S ∈ ls, 0 < S.minStep) : Tidy (tower t ls).machine (TowerFine g m i u ls pts) := by
  induction ls with
  | nil => exact base_tidy hf hm
  | cons S ls ih =>
    have hS' : ∀ T ∈ ls, 0 < T.minStep := fun T hT => hS T (List.mem_cons_of_mem _ hT)
    exact Layer.tidy (p := S.tfm) (i := S.interp) (u := S.uniform) (size := fun s => ((tower t ls).src s).points.length)
      (tower_shown hf hm hg ls hS') (hS S (by simp)) (tower_size hg) (storey_neverRaises S) (ih hS')

theorem tower_y (hf : Follows m t g) (hm : 0 < m) (hg : NeverRaises g) (x : Ext) : ∀ (ls : List Storey),
    (∀ S ∈ ls, 0 < S.minStep) → Agrees (TowerFine g m i u ls pts) ((tower t ls).machine.y x)
      (some (.ok ((valueAtE (towerInterp i ls) (towerKnots g ls pts) x).map .fin)))
  | [], _ => (base_forwards hf hm hg).y x
  | S :: ls, hS => Layer.y_knots (p := S.tfm) (i := S.interp) (u := S.uniform)
      (size := fun s => ((tower t ls).src s).points.length) (tower_shown hf hm hg ls fun T hT => hS T (List.mem_cons_of_mem _ hT))
      (hS S (by simp)) (tower_size hg) (storey_neverRaises S) x

theorem tower_sample_orderly (hf : Follows m t g) (hm : 0 < m) (hg : NeverRaises g) (d : Option Iv) (b : Option Ext)
    (c : Option ℚ) (n : ℕ) : ∀ (ls : List Storey), (∀ S ∈ ls, 0 < S.minStep) →
      Orderly (TowerFine g m i u ls pts) ((tower t ls).sample d b c n)
  | [], _ => fun A v B hA h => (sample_agrees hf hm (tower_asc (ls := []) hA) d b c n).orderly A v B hA h
  | S :: ls, hS => by
    have hS' : ∀ T ∈ ls, 0 < T.minStep := fun T hT => hS T (List.mem_cons_of_mem _ hT)
    exact Layer.sample_orderly (p := S.tfm) (i := S.interp) (u := S.uniform)
      (size := fun s => ((tower t ls).src s).points.length) (tower_shown hf hm hg ls hS') (hS S (by simp)) (tower_size hg) (storey_neverRaises S)
      (tower_tidy hf hm hg ls hS') d b c n

theorem top_fine {σ : Type} {V : Live σ} {J : σ → Prop} (hT : Tidy V.machine J)
    (hsa : ∀ d b c n, Orderly J (V.sample d b c n)) {s s' : σ} (h : J s) (hr : TowerMove.Top V s s') : J s' := by
  rcases hr with ⟨x, v, h1⟩ | ⟨x, a, l, v, h1⟩ | ⟨x, a, l, v, h1⟩ | ⟨v, h1⟩ | ⟨d, b, c, n, v, h1⟩
  · exact hT.y x s v s' h h1
  · exact hT.next x a l s v s' h h1
  · exact hT.prev x a l s v s' h h1
  · exact hT.dom s v s' h h1
  · exact hsa d b c n s v s' h h1

theorem move_fine (hf : Follows m t g) (hm : 0 < m) (hg : NeverRaises g) : ∀ {ls : List Storey} {s s' : TowerState ls},
    (∀ S ∈ ls, 0 < S.minStep) → TowerFine g m i u ls pts s → TowerMove t ls s s' → TowerFine g m i u ls pts s'
  | [], _, _, hS, h, hr =>
    top_fine (tower_tidy hf hm hg [] hS) (fun d b c n => tower_sample_orderly hf hm hg d b c n [] hS) h hr
  | S :: ls, s, s', hS, h, hr => by
    rcases hr with hr | ⟨h1, h2⟩
    · exact top_fine (V := tower t (S :: ls)) (tower_tidy hf hm hg (S :: ls) hS)
        (fun d b c n => tower_sample_orderly hf hm hg d b c n (S :: ls) hS) h hr
    · refine ⟨?_, move_fine hf hm hg (fun T hT => hS T (List.mem_cons_of_mem _ hT)) h.2 h2⟩
      rw [h1]
      exact h.1

theorem over_edit {σ : Type} {V : Live σ} {p : PTfm} {s : Layer × σ} {s' : σ} {op : Op ℚ} {r : Reads}
    {ps : List Accum.Passed} (h : V.edit op r s.2 = (s', ps, none)) :
    (V.over p).edit op r s = (((s.1.notifyAll ps).1, s'), (s.1.notifyAll ps).2) := by
  simp only [Live.over, h]

/-- An edit reaches every accumulator. -/
theorem edit_fine (hg : NeverRaises g) : ∀ {ls : List Storey} {s : TowerState ls},
    (∀ S ∈ ls, 0 < S.minStep) → TowerFine g m i u ls pts s → ∀ {op : Op ℚ} {r : Reads}, op.Legal →
      lateError (op.run ((tower t ls).src s) r).err = false → Truthful (op.run ((tower t ls).src s) r).st →
      TowerFit m u ls (op.run ((tower t ls).src s) r).st.points →
      ∃ s' ps, (tower t ls).edit op r s = (s', ps, none) ∧ (tower t ls).src s' = (op.run ((tower t ls).src s) r).st ∧
        TowerFine g m i u ls (op.run ((tower t ls).src s) r).st.points s' ∧
        ToldFrom (towerKnots g ls pts) (towerKnots g ls (op.run ((tower t ls).src s) r).st.points) ps
  | [], A, _, h, op, r, hl, he, ht, hfit => by
    obtain ⟨h1, h2, h3, h4⟩ := base_told h hl r he ht hfit.1
    exact ⟨(A.edit op r).1, A.editPassed op r, by show ((A.edit op r).1, A.editPassed op r, (A.edit op r).2) = _; rw [h1]; rfl, h2, h3, h4.fold hg⟩
  | S :: ls, s, hS, h, op, r, hl, he, ht, hfit => by
    obtain ⟨s', ps, h1, h2, h3, h4⟩ := edit_fine hg (fun T hT => hS T (List.mem_cons_of_mem _ hT)) h.2 hl he ht
      ⟨hfit.1, fun T hT => hfit.2 T (List.mem_cons_of_mem _ hT)⟩
    have hf' : Fit S.minStep S.uniform (towerKnots g ls (op.run ((tower t ls).src s.2) r).st.points) :=
      fit_xs (towerKnots_xs hg ls _) (hfit.2 S (by simp))
    obtain ⟨L', h5, h6⟩ := Layer.notifyAll_eq h.1 (hS S (by simp)) h4 hf'
    refine ⟨(L', s'), ps, ?_, h2, ⟨h6, h3⟩, h4.fold (storey_neverRaises S)⟩
    exact (over_edit h1).trans (by rw [h5]; rfl)

theorem new_fine (hg : NeverRaises g) {p : Pts ℚ} (hp : Honest p) : ∀ {ls : List Storey}, TowerFit m u ls p.points →
    TowerFine g m i u ls p.points (towerNew (Accum.new p m i u) ls)
  | [], h => ⟨rfl, [], p.points, .new hp h.1⟩
  | S :: ls, h => by
    refine ⟨⟨⟨.inl rfl, rfl, rfl⟩, [], towerKnots g ls p.points, rfl, CScan.Sane.new ?_⟩,
      new_fine hg hp ⟨h.1, fun T hT => h.2 T (List.mem_cons_of_mem _ hT)⟩⟩
    exact fit_xs (towerKnots_xs hg ls _) (h.2 S (by simp))

theorem tower_used (hf : Follows m t g) (hm : 0 < m) (hg : NeverRaises g) (hS : ∀ S ∈ ls, 0 < S.minStep)
    {s : TowerState ls} (h : TowerUsed t m i u ls s) : TowerFine g m i u ls ((tower t ls).src s).points s := by
  induction h with
  | new hs hfit =>
    have := new_fine (i := i) hg hs hfit
    rw [tower_points this]
    exact this
  | read _ hr ih =>
    have := move_fine hf hm hg hS ih hr
    rw [tower_points this]
    exact this
  | edit _ hl he ht hfit ih =>
    obtain ⟨s', ps, h1, h2, h3, _⟩ := edit_fine hg hS ih hl he ht hfit
    rw [h1]
    show TowerFine g m i u ls ((tower t ls).src s').points s'
    rw [h2]
    exact h3

end Curvepy
