import Verif.Lemmas.Tower
import Verif.Props.AccumSample
import Verif.Props.AccumEvents

/-!
# Folds over folds; steps and updates of accumulators over curves with a state
-/

namespace Curvepy
open Spec Pts Props

variable {g : Rule} {m : ℚ} {i : Interp} {u : Bool} {pts pts' seen todo : List (Pt ℚ)}

/-! ## Folds -/

theorem foldedBy_run (hg : NeverRaises g) (pts : List (Pt ℚ)) : runRule g [] [] pts = (foldedBy g pts, none) :=
  Prod.ext rfl (hg pts)

theorem foldedBy_xs (hg : NeverRaises g) (pts : List (Pt ℚ)) : (foldedBy g pts).map Prod.fst = pts.map Prod.fst := by
  simpa using runRule_xs (foldedBy_run hg pts)

theorem plainRule_runs {t : PTfm} (ht : ∀ x y l, ∃ v, t x y l = .ok v) : ∀ (todo seen out : List (Pt ℚ)),
    (runRule (plainRule t) seen out todo).2 = none := by
  intro todo
  induction todo with
  | nil => intros; rfl
  | cons p ps ih =>
    intro seen out
    obtain ⟨v, hv⟩ := ht p.1 p.2 (lastOut out)
    have : plainRule t (seen ++ [p]) out = .ok v := by simpa [plainRule] using hv
    simp only [runRule, this]
    exact ih _ _

theorem storey_neverRaises (S : Storey) : NeverRaises (plainRule S.tfm) :=
  fun pts => plainRule_runs (fun _ _ _ => ⟨_, rfl⟩) pts [] []

theorem ascending_xs {a b : List (Pt ℚ)} (h : a.map Prod.fst = b.map Prod.fst) (hb : Ascending b) : Ascending a := by
  have : (b.map Prod.fst).Pairwise (· < ·) := List.pairwise_map.2 hb
  rw [← h] at this
  exact List.pairwise_map.1 this

theorem span_xs {a b : List (Pt ℚ)} (h : a.map Prod.fst = b.map Prod.fst) : span a = span b := by
  have h1 : a.head?.map Prod.fst = b.head?.map Prod.fst := by rw [← List.head?_map, ← List.head?_map, h]
  have h2 : a.getLast?.map Prod.fst = b.getLast?.map Prod.fst := by rw [← List.getLast?_map, ← List.getLast?_map, h]
  unfold span
  cases ha : a.head? <;> cases hb : b.head? <;> cases ha' : a.getLast? <;> cases hb' : b.getLast? <;>
    simp_all

theorem fit_xs {a b : List (Pt ℚ)} (h : a.map Prod.fst = b.map Prod.fst) (hb : Fit m u b) : Fit m u a := by
  refine ⟨?_, NoFluke.of_xs h hb.noFluke, fun hu => EquallySpaced.of_xs h (hb.uniform hu)⟩
  have : (b.map Prod.fst).IsChain (fun x y : ℚ => x + m ≤ y) := by
    rw [List.isChain_map]; exact hb.gapped
  rw [← h, List.isChain_map] at this
  exact this

theorem firstFrom_xs {a b : List (Pt ℚ)} (h : a.map Prod.fst = b.map Prod.fst) (x : ℚ) : firstFrom a x = firstFrom b x := by
  have : ∀ l : List (Pt ℚ), firstFrom l x = (l.map Prod.fst).find? (fun q => decide (x ≤ q)) := by
    intro l
    rw [List.find?_map]
    rfl
  rw [this, this, h]

theorem knotAfter_xs {a b : List (Pt ℚ)} (h : a.map Prod.fst = b.map Prod.fst) (x : Ext) (c : ℚ) :
    knotAfter a x c = knotAfter b x c := by
  cases x with
  | pinf => rfl
  | fin q => simp only [knotAfter, firstFrom_xs h]
  | ninf =>
    have h1 : a.head?.map Prod.fst = b.head?.map Prod.fst := by rw [← List.head?_map, ← List.head?_map, h]
    show a.head?.map (fun p => Ext.fin p.1) = b.head?.map (fun p => Ext.fin p.1)
    have : ∀ l : List (Pt ℚ), l.head?.map (fun p => Ext.fin p.1) = (l.head?.map Prod.fst).map Ext.fin := by
      intro l; cases l.head? <;> rfl
    rw [this, this, h1]

theorem knotAfter_append {a b : List (Pt ℚ)} {x : Ext} {c : ℚ} {z : Ext} (h : knotAfter a x c = some z) :
    knotAfter (a ++ b) x c = some z := by
  cases x with
  | pinf => cases h
  | ninf =>
    cases a with
    | nil => cases h
    | cons p ps => exact h
  | fin q =>
    simp only [knotAfter, firstFrom, Option.map_map, Option.map_eq_some_iff] at h ⊢
    obtain ⟨r, hr, hz⟩ := h
    exact ⟨r, by rw [List.find?_append, hr]; rfl, hz⟩

theorem knotAfter_knot {pre rest : List (Pt ℚ)} {p q : Pt ℚ} {a : ℚ} (h : Ascending (pre ++ p :: q :: rest))
    (ha : 0 < a) (hq : p.1 + a ≤ q.1) : knotAfter (pre ++ p :: q :: rest) (.fin p.1) a = some (.fin q.1) := by
  have hpre : ∀ r ∈ pre ++ [p], ¬ p.1 + a ≤ r.1 := by
    intro r hr
    rcases List.mem_append.1 hr with hr | hr
    · have := (List.pairwise_append.1 h).2.2 r hr p (by simp)
      linarith
    · rw [List.mem_singleton.1 hr]; linarith
  have hnone : (pre ++ [p]).find? (fun r => decide (p.1 + a ≤ r.1)) = none := by
    rw [List.find?_eq_none]
    intro r hr
    simpa using hpre r hr
  simp only [knotAfter, firstFrom]
  rw [show pre ++ p :: q :: rest = (pre ++ [p]) ++ q :: rest by simp, List.find?_append, hnone]
  simp [hq]

theorem accumulatedAt_folded (hg : NeverRaises g) (hasc : Ascending pts) (x : Ext) :
    accumulatedAt g i pts x = .ok (valueAtE i (foldedBy g pts) x) := by
  have hxs := foldedBy_xs hg pts
  cases x with
  | ninf => rfl
  | pinf => rfl
  | fin q =>
    cases hin : (span pts).contains (.fin q) with
    | false =>
      rw [valueAtE_outside i (ascending_xs hxs hasc) (by rw [getDomain_eq_span, span_xs hxs]; exact hin)]
      simp [accumulatedAt, hin]
    | true =>
      have hreach : ∃ p ∈ pts, q ≤ p.1 := by
        have hx' := hin
        rw [← getDomain_eq_span] at hx'
        obtain ⟨p, r, _, hr, _, h2⟩ := (getDomain_contains_fin _ _).1 hx'
        exact ⟨r, List.mem_of_getElem? hr, h2⟩
      obtain ⟨rest, hrest⟩ := upTo_prefix q pts
      have h1 := foldedBy_run hg (upTo q pts)
      have h2 := foldedBy_run hg pts
      rw [← hrest, runRule_append, h1] at h2
      obtain ⟨more, hmore⟩ := runRule_prefix h2
      rw [hrest] at hmore
      simp only [accumulatedAt, hin, if_true, h1, valueAtE]
      rw [← hmore, valueAt_append_left i (by rw [hmore]; exact ascending_xs hxs hasc)]
      obtain ⟨p, hp, hpq⟩ := upTo_reaches hreach
      have : p.1 ∈ (foldedBy g (upTo q pts)).map Prod.fst := by
        rw [foldedBy_xs hg]; exact List.mem_map_of_mem hp
      obtain ⟨r, hr, hrp⟩ := List.mem_map.1 this
      exact ⟨r, hr, by rw [hrp]; exact hpq⟩

theorem valueAt_mem {p : Pt ℚ} (hasc : Ascending pts) (hp : p ∈ pts) : valueAt i pts p.1 = p.2 := by
  obtain ⟨k, hk⟩ := List.getElem?_of_mem hp
  exact valueAt_knot i hasc hk

theorem resolve_ge {arg : Option Ext} {c : ℚ} (h : Crv.resolve (some (.fin m)) arg = some (.fin c)) : m ≤ c := by
  rcases arg with _ | _ | q | _
  · simp [Crv.resolve] at h; exact h.le
  · simp [Crv.resolve] at h; exact h.le
  · simp only [Crv.resolve, Ext.fin_lt_fin] at h
    split at h
    · simp at h; exact h.le
    · simp at h; linarith
  · simp [Crv.resolve] at h

/-! ## Steps -/

namespace Layer
open CScan

variable {σ : Type} {M : Machine σ} {J : σ → Prop} {t : PTfm} {L : Layer} {s : σ}

theorem acc_next {acc : Pts ℚ} (h : Honest acc) (x : Ext) (a : ℚ) : acc.xNext x (some a) = .ok (knotAfter acc.points x a) := by
  cases x with
  | ninf => exact (C06_x_next_inf h a).1
  | pinf => exact (C06_x_next_inf h a).2
  | fin q => exact xNext_fin h.wf (by rw [Honest.minStep h]; rfl) q

/-- Own points first, then the source: if both agree with the knots, so does the answer. -/
theorem next_agrees {c : ℚ} {x : Ext} {arg l : Option Ext} (hc : Crv.resolve (some (.fin m)) arg = some (.fin c))
    (hM : Agrees J (M.xNext x (some (.fin c)) l) (some (.ok (knotAfter pts x c)))) :
    Agrees (fun s : Layer × σ => Fine g m i u pts s.1 ∧ J s.2) (xNext M x arg l) (some (.ok (knotAfter pts x c))) := by
  rintro ⟨L, s⟩ ⟨hF, hs⟩
  refine ⟨nofun, fun v hv => ?_⟩
  cases hv
  obtain ⟨hi, seen, todo, rfl, h⟩ := id hF
  have hown : ownNext L.scan.acc x (some (.fin c)) = .ok (knotAfter seen x c) := by
    show L.scan.acc.xNext x (some c) = _
    rw [acc_next h.acc, knotAfter_xs h.accXs]
  obtain ⟨s', e, hs'⟩ := below_eq hM hs L
  have hrun : xNext M x arg l (L, s) = orElse (knotAfter seen x c) (below (M.xNext x (some (.fin c)) l)) (L, s) := by
    have hstep : L.scan.minStep = m := h.step
    simp only [xNext, run_bind, get, Option.bind_some, hstep, hc, hown, Run.lift]
  rw [hrun]
  cases hk : knotAfter seen x c with
  | none => exact ⟨(L, s'), e, hF, hs'⟩
  | some z =>
    unfold orElse
    simp only
    split
    · exact ⟨(L, s'), e, hF, hs'⟩
    · rw [knotAfter_append hk]
      exact ⟨(L, s), rfl, hF, hs⟩

/-- With an infinite step there is none. -/
theorem next_none {x : Ext} {arg l : Option Ext} (hc : Crv.resolve (some (.fin m)) arg = some .pinf)
    (hM : Agrees J (M.xNext x (some .pinf) l) (some (.ok none))) :
    Agrees (fun s : Layer × σ => Fine g m i u pts s.1 ∧ J s.2) (xNext M x arg l) (some (.ok none)) := by
  rintro ⟨L, s⟩ ⟨hF, hs⟩
  refine ⟨nofun, fun v hv => ?_⟩
  cases hv
  obtain ⟨hi, seen, todo, rfl, h⟩ := id hF
  obtain ⟨s', e, hs'⟩ := below_eq hM hs L
  refine ⟨(L, s'), ?_, hF, hs'⟩
  have hstep : L.scan.minStep = m := h.step
  change below _ (L, s) = _ at e
  simp only [xNext, run_bind, get, Option.bind_some, hstep, hc, ownNext, Run.lift, orElse, e]

/-- States stay as they should, whatever the answer. -/
theorem previous_keeps {x : Ext} {arg l : Option Ext} {v : Except Err (Option Ext)} {s' : Layer × σ}
    (hM : ∀ b (s : σ) v s', J s → M.xPrevious x b l s = some (v, s') → J s')
    {s : Layer × σ} (hs : Fine g m i u pts s.1 ∧ J s.2) (h : xPrevious M x arg l s = some (v, s')) :
    Fine g m i u pts s'.1 ∧ J s'.2 := by
  obtain ⟨L, s⟩ := s
  simp only [xPrevious, run_bind, get, Option.bind_some, Run.lift] at h
  have hb : ∀ b, below (M.xPrevious x b l) (L, s) = some (v, s') → Fine g m i u pts s'.1 ∧ J s'.2 := by
    intro b hb
    simp only [below, Option.map_eq_some_iff] at hb
    obtain ⟨⟨v1, s1⟩, h1, h2⟩ := hb
    cases h2
    exact ⟨hs.1, hM b s v1 s1 hs.2 h1⟩
  cases ha : ownPrevious L.scan.acc x (Crv.resolve (some (.fin L.scan.minStep)) arg) with
  | error e => rw [ha] at h; cases h; exact hs
  | ok a =>
    rw [ha] at h
    cases a with
    | none => exact hb _ h
    | some z =>
      simp only [orElse] at h
      split at h
      · exact hb _ h
      · cases h; exact hs

/-- The same for `x_next`. -/
theorem next_keeps {x : Ext} {arg l : Option Ext} {v : Except Err (Option Ext)} {s' : Layer × σ}
    (hM : ∀ b (s : σ) v s', J s → M.xNext x b l s = some (v, s') → J s')
    {s : Layer × σ} (hs : Fine g m i u pts s.1 ∧ J s.2) (h : xNext M x arg l s = some (v, s')) :
    Fine g m i u pts s'.1 ∧ J s'.2 := by
  obtain ⟨L, s⟩ := s
  simp only [xNext, run_bind, get, Option.bind_some, Run.lift] at h
  have hb : ∀ b, below (M.xNext x b l) (L, s) = some (v, s') → Fine g m i u pts s'.1 ∧ J s'.2 := by
    intro b hb
    simp only [below, Option.map_eq_some_iff] at hb
    obtain ⟨⟨v1, s1⟩, h1, h2⟩ := hb
    cases h2
    exact ⟨hs.1, hM b s v1 s1 hs.2 h1⟩
  cases ha : ownNext L.scan.acc x (Crv.resolve (some (.fin L.scan.minStep)) arg) with
  | error e => rw [ha] at h; cases h; exact hs
  | ok a =>
    rw [ha] at h
    cases a with
    | none => exact hb _ h
    | some z =>
      simp only [orElse] at h
      split at h
      · exact hb _ h
      · cases h; exact hs

theorem dom_agrees {c : ℚ} (hM : Shown M J pts c) :
    Agrees (fun s : Layer × σ => Fine g m i u pts s.1 ∧ J s.2) (dom M) (some (.ok (span pts))) := by
  rintro ⟨L, s⟩ ⟨⟨hi, seen, todo, hp, h⟩, hs⟩
  refine ⟨nofun, fun v hv => ?_⟩
  cases hv
  obtain ⟨L', s', h1, h2, h3, h4⟩ := dom_eq hM hi hs
  exact ⟨(L', s'), h1, ⟨h3, seen, todo, hp, by rw [h4]; exact h⟩, h2⟩

/-- The accumulator has the folded knots. -/
theorem shown_over {size : σ → ℕ} {c' : ℚ} (hM : Shown M J pts m) (hm : 0 < m) (hsize : ∀ s, J s → pts.length ≤ size s)
    (hg : NeverRaises (plainRule t)) :
    Shown (machine M size t) (fun s => Fine (plainRule t) m i u pts s.1 ∧ J s.2) (foldedBy (plainRule t) pts) c' where
  dom := by
    rw [span_xs (foldedBy_xs hg pts)]
    exact dom_agrees hM
  val p hp := by
    rintro ⟨L, s⟩ hs
    have hasc : Ascending pts := by
      obtain ⟨⟨_, seen, todo, rfl, h⟩, _⟩ := hs
      exact h.asc hm
    have := y_agrees (t := t) (i := i) (u := u) hM hm (n := size s) (hsize s hs.2) (.fin p.1) (L, s) hs
    rw [accumulatedAt_folded hg hasc] at this
    have hv : valueAtE i (foldedBy (plainRule t) pts) (.fin p.1) = p.2 :=
      valueAt_mem (ascending_xs (foldedBy_xs hg pts) hasc) hp
    rw [hv] at this
    exact this
  next pre p q rest a l hp hq ha _ := by
    rintro ⟨L, s⟩ hs
    obtain ⟨⟨_, seen, todo, he, h⟩, _⟩ := id hs
    have hasc : Ascending pts := by rw [← he]; exact h.asc hm
    have hxs := foldedBy_xs hg pts
    have hfit : Fit m u pts := by rw [← he]; exact h.fit
    -- the knots of the source
    rw [hp] at hxs
    obtain ⟨pre', tl, rfl, hx1, hx2⟩ := List.map_eq_append_iff.1 (hxs.symm.trans (by rw [List.map_append]))
    obtain ⟨p', tl, rfl, hx3, hx4⟩ := List.map_eq_cons_iff.1 (hx2.trans (by rw [List.map_cons]))
    obtain ⟨q', rest', rfl, hx5, hx6⟩ := List.map_eq_cons_iff.1 (hx4.trans (by rw [List.map_cons]))
    have hgap : p'.1 + m ≤ q'.1 := by
      have hg := hfit.gapped
      unfold Gapped at hg
      rw [List.isChain_append] at hg
      exact (List.isChain_cons_cons.1 hg.2.1).1
    rw [← hx3, ← hx5] at hq ⊢
    rcases resolve_pinf_or m (some (.fin a)) with ⟨c, h1, h2⟩ | ⟨h1, h2⟩
    · have hc : c = max a m := by
        simp only [Crv.resolve, Ext.fin_lt_fin] at h1
        by_cases hlt : a < m
        · simp only [hlt, if_true, Option.some.injEq, Ext.fin.injEq] at h1; rw [← h1, max_eq_right hlt.le]
        · simp only [hlt, if_false, Option.some.injEq, Ext.fin.injEq] at h1; rw [← h1, max_eq_left (not_lt.1 hlt)]
      have hc0 : 0 < c := by rw [hc]; exact lt_max_of_lt_left ha
      have hcq : p'.1 + c ≤ q'.1 := by
        rw [hc]
        rcases max_choice a m with h | h <;> rw [h] <;> assumption
      have hk := knotAfter_knot hasc hc0 hcq
      have hn := hM.next pre' p' q' rest' c l rfl hcq hc0 (resolve_ge h1)
      rw [← hk] at hn ⊢
      exact next_agrees h1 hn (L, s) hs
    · simp [stepOf] at h2

end Layer

/-! ## Updates -/

/-- Announced before and after as an update of everything from some position on, before which nothing changed; or nothing
was announced and nothing changed. -/
def ToldFrom (pts pts' : List (Pt ℚ)) (ps : List Accum.Passed) : Prop :=
  (ps = [] ∧ pts' = pts) ∨ ∃ (lo : Ext) (o : Bool) (pre a b : List (Pt ℚ)), lo < .pinf ∧
    ps = [.begin ⟨lo, .pinf, o, true⟩, .fin ⟨lo, .pinf, o, true⟩] ∧ pts = pre ++ a ∧ pts' = pre ++ b ∧
    (∀ p ∈ pre, (⟨lo, .pinf, o, true⟩ : Iv).geLo (.fin p.1) = false) ∧
    ∀ p ∈ a ++ b, (⟨lo, .pinf, o, true⟩ : Iv).geLo (.fin p.1) = true

theorem ToldFrom.fold (hg : NeverRaises g) {ps : List Accum.Passed} (h : ToldFrom pts pts' ps) :
    ToldFrom (foldedBy g pts) (foldedBy g pts') ps := by
  rcases h with ⟨h1, rfl⟩ | ⟨lo, o, pre, a, b, h1, h2, rfl, rfl, h3, h4⟩
  · exact .inl ⟨h1, rfl⟩
  · have hsplit : ∀ c : List (Pt ℚ), ∃ d, foldedBy g (pre ++ c) = foldedBy g pre ++ d ∧ d.map Prod.fst = c.map Prod.fst := by
      intro c
      have e := foldedBy_run hg (pre ++ c)
      rw [runRule_append, foldedBy_run hg pre] at e
      obtain ⟨d, hd⟩ := runRule_prefix e
      refine ⟨d, hd.symm, ?_⟩
      have := foldedBy_xs hg (pre ++ c)
      rw [← hd, List.map_append, List.map_append, foldedBy_xs hg pre] at this
      exact List.append_cancel_left this
    obtain ⟨d, hd, hdx⟩ := hsplit a
    obtain ⟨e, he, hex⟩ := hsplit b
    refine .inr ⟨lo, o, foldedBy g pre, d, e, h1, h2, hd, he, ?_, ?_⟩
    · intro p hp
      have : p.1 ∈ (foldedBy g pre).map Prod.fst := List.mem_map_of_mem hp
      rw [foldedBy_xs hg] at this
      obtain ⟨q, hq, hqp⟩ := List.mem_map.1 this
      rw [← hqp]; exact h3 q hq
    · intro p hp
      have : p.1 ∈ (d ++ e).map Prod.fst := List.mem_map_of_mem hp
      rw [List.map_append, hdx, hex, ← List.map_append] at this
      obtain ⟨q, hq, hqp⟩ := List.mem_map.1 this
      rw [← hqp]; exact h4 q hq

theorem prefix_before {pre a seen todo : List (Pt ℚ)} {P : Pt ℚ → Prop} (h : seen ++ todo = pre ++ a)
    (hs : ∀ p ∈ seen, ¬ P p) (ha : ∀ p ∈ a, P p) : ∃ mid, pre = seen ++ mid := by
  rcases List.append_eq_append_iff.1 h with ⟨c, h1, _⟩ | ⟨c, h1, h2⟩
  · exact ⟨c, h1⟩
  · cases c with
    | nil => exact ⟨[], by simpa using h1.symm⟩
    | cons x xs =>
      exfalso
      have hx : x ∈ a := by rw [h2]; simp
      exact hs x (by rw [h1]; simp) (ha x hx)

namespace Layer
open CScan

variable {L : Layer}

theorem notifyAll_eq (hF : Fine g m i u pts L) (hm : 0 < m) {ps : List Accum.Passed} (ht : ToldFrom pts pts' ps)
    (hfit : Fit m u pts') :
    ∃ L', L.notifyAll ps = (L', ps, none) ∧ Fine g m i u pts' L' := by
  rcases ht with ⟨rfl, rfl⟩ | ⟨lo, o, pre, a, b, h1, rfl, rfl, rfl, h3, h4⟩
  · exact ⟨L, rfl, hF⟩
  · obtain ⟨hi, seen, todo, he, h⟩ := hF
    set iv : Iv := ⟨lo, .pinf, o, true⟩ with hiv
    have hup : Accum.updateInterval iv = iv := rfl
    have hseen : Ascending seen := (List.pairwise_append.1 (h.asc hm)).1
    obtain ⟨A1, seen', hb, e1, e2, e3, e4, e5, e6, e7, e8, e9, e10, e11, e12⟩ :=
      Accum.onBegin_spec (A := L.alone) (seen := seen) h.acc h.run h.cur h.start hseen iv
    have hB : A1.bIv = Iv.empty := e3.trans hi.idleB
    have hE : A1.eIv = Iv.empty := e4.trans hi.idleE
    have hem : iv.isEmpty = false := by rw [Iv.not_isEmpty_iff]; exact .inl h1
    obtain ⟨hg1, hg2⟩ := Accum.gate_roundtrip hB hE hem
    rw [hup] at hb
    rw [hg1] at hb
    have hn1 : L.notify (.begin iv) = (ofAlone { A1 with bIv := iv }, [.begin iv], none) := by
      simp only [notify, hb, List.map_cons, List.map_nil]
    have hal : (ofAlone { A1 with bIv := iv }).alone = { A1 with bIv := iv, src := Pts.blank .linear false } := rfl
    have hsrc : A1.src = Pts.blank .linear false := e1
    have hn2 : (ofAlone { A1 with bIv := iv }).notify (.fin iv) =
        (ofAlone { A1 with bIv := Iv.empty, eIv := Iv.empty, cache := none }, [.fin iv], none) := by
      have : (ofAlone { A1 with bIv := iv }).alone = { A1 with bIv := iv } := by rw [hal, ← hsrc]
      simp only [notify, this, Accum.onEnd, hup, hg2, List.map_cons, List.map_nil]
    refine ⟨ofAlone { A1 with bIv := Iv.empty, eIv := Iv.empty, cache := none }, ?_, ⟨.inl rfl, rfl, rfl⟩, ?_⟩
    · simp only [notifyAll, hn1, hn2, List.append_nil, List.cons_append, List.nil_append]
    · have hsplit : ∃ todo', seen' ++ todo' = pre ++ b := by
        rcases e12 with ⟨e13, _⟩ | ⟨e13, e14⟩
        · exact ⟨pre ++ b, by rw [e13]; rfl⟩
        · obtain ⟨mid, hmid⟩ := prefix_before (P := fun p => iv.geLo (.fin p.1) = true) he
            (fun p hp => by rw [e14 p hp]; simp) (fun p hp => h4 p (List.mem_append_left _ hp))
          exact ⟨mid ++ b, by rw [e13, ← List.append_assoc, ← hmid]⟩
      obtain ⟨todo', htodo⟩ := hsplit
      refine ⟨seen', todo', htodo, ?_⟩
      exact ⟨by rw [htodo]; exact hfit, e6, e7.trans h.interp, e8.trans h.force, e9, e10, e11, e5.trans h.step⟩

end Layer

/-- An accumulator over points: an edit leaves it in order, and what it announces is right. -/
theorem base_told {A : Accum} (h : Steady g m i u pts A) {op : Op ℚ} (hl : op.Legal) (r : Reads)
    (hlate : lateError (op.run A.src r).err = false) (ht : Truthful (op.run A.src r).st)
    (hfit : Fit m u (op.run A.src r).st.points) :
    (A.edit op r).2 = none ∧ (A.edit op r).1.src = (op.run A.src r).st ∧
      Steady g m i u (op.run A.src r).st.points (A.edit op r).1 ∧
      ToldFrom pts (op.run A.src r).st.points (A.editPassed op r) := by
  obtain ⟨rfl, seen, todo, h⟩ := h
  obtain ⟨h1, h2, h3⟩ := h.edit hl r hlate ht hfit
  refine ⟨h1, h2, ⟨by rw [h2], h3⟩, ?_⟩
  have hh : Honest (op.run A.src r).st := .edit h.src hl hlate ht
  cases outcome h.src.base h.src.wf hl r with
  | idle hs hev _ _ =>
    have hp : (op.run A.src r).st.points = A.src.points := by
      rcases hs with hs | hs <;> rw [hs] <;> rfl
    exact .inl ⟨by simp only [Accum.editPassed, hev, Accum.passedAll], hp⟩
  | stuck iv e he _ hst => rw [hst.err, he] at hlate; cases hlate
  | edited iv hed hk =>
    rw [← hed.points] at hk
    rcases hed.ev with ⟨_, hev, hpp⟩ | ⟨hne, a, b, hev, _⟩
    · exact .inl ⟨by simp only [Accum.editPassed, hev, Accum.passedAll], by rw [hed.points, hpp]⟩
    · have hseen : Ascending seen := (List.pairwise_append.1 h.asc).1
      obtain ⟨A1, seen', hb, e1, e2, e3, e4, -⟩ :=
        Accum.onBegin_spec (A := { A with src := (op.run A.src r).st }) (seen := seen) h.acc h.run h.cur h.start hseen iv
      have hB : A1.bIv = Iv.empty := e3.trans h.idleB
      have hE : A1.eIv = Iv.empty := e4.trans h.idleE
      by_cases hinf : iv.lo = .pinf
      · have hno : ∀ x : ℚ, iv.geLo (.fin x) = false := by
          intro x
          by_contra hc
          have := (Iv.geLo_iff _ _).1 (by simpa using hc)
          rw [hinf] at this
          simp at this
        have hpts : (op.run A.src r).st.points = A.src.points := by
          refine ascending_ext hh.wf.asc h.src.wf.asc fun p => hk p ?_
          by_contra hc
          have := ((Iv.contains_iff _ _).1 (by simpa using hc)).1
          rw [hno] at this; cases this
        have hem : (Accum.updateInterval iv).isEmpty = true := by
          simp [Iv.isEmpty, Accum.updateInterval, hinf]
        have hg1 : Accum.gateBegin A1 (Accum.updateInterval iv) = (A1, []) := by simp [Accum.gateBegin, hem]
        have hg2 : Accum.gateEnd A1 (Accum.updateInterval iv) = (A1, []) := by simp [Accum.gateEnd, hem]
        refine .inl ⟨?_, hpts⟩
        simp only [Accum.editPassed, hev, Accum.passedAll, Accum.passed, Accum.notify, hb, Accum.onEnd, hg1, hg2]
        rfl
      · have hlo : iv.lo < .pinf := lt_of_le_of_ne (Ext.le_pinf _) hinf
        have hem : (Accum.updateInterval iv).isEmpty = false := by rw [Iv.not_isEmpty_iff]; exact .inl hlo
        obtain ⟨hg1, hg2⟩ := Accum.gate_roundtrip hB hE hem
        have hgl : ∀ x : ℚ, (⟨iv.lo, .pinf, iv.loOpen, true⟩ : Iv).geLo (.fin x) = iv.geLo (.fin x) := fun _ => rfl
        have hord : ∀ l : List (Pt ℚ), Ascending l → l = l.filter (fun p => !iv.geLo (.fin p.1)) ++
            l.filter (fun p => iv.geLo (.fin p.1)) := by
          intro l hl
          refine ascending_ext hl ?_ fun p => ?_
          · refine List.pairwise_append.2 ⟨hl.filter _, hl.filter _, fun p hp q hq => ?_⟩
            have h5 : iv.geLo (.fin p.1) = false := by simpa using (List.mem_filter.1 hp).2
            have h6 : iv.geLo (.fin q.1) = true := by simpa using (List.mem_filter.1 hq).2
            by_contra hc
            rw [Accum.geLo_le (not_lt.1 hc) h5] at h6; cases h6
          · rw [List.mem_append, List.mem_filter, List.mem_filter]
            cases iv.geLo (.fin p.1) <;> simp
        have hpre : (op.run A.src r).st.points.filter (fun p => !iv.geLo (.fin p.1)) =
            A.src.points.filter (fun p => !iv.geLo (.fin p.1)) := by
          refine ascending_ext (hh.wf.asc.filter _) (h.src.wf.asc.filter _) fun p => ?_
          rw [List.mem_filter, List.mem_filter]
          cases hgp : iv.geLo (.fin p.1) with
          | true => simp
          | false =>
            have : iv.contains (.fin p.1) = false := by
              by_contra hc
              have := ((Iv.contains_iff _ _).1 (by simpa using hc)).1
              rw [hgp] at this; cases this
            simp [hk p this]
        refine .inr ⟨iv.lo, iv.loOpen, A.src.points.filter (fun p => !iv.geLo (.fin p.1)),
          A.src.points.filter (fun p => iv.geLo (.fin p.1)),
          (op.run A.src r).st.points.filter (fun p => iv.geLo (.fin p.1)), hlo, ?_, hord _ h.src.wf.asc, ?_, ?_, ?_⟩
        · simp only [Accum.editPassed, hev, Accum.passedAll, Accum.passed, Accum.notify, hb, Accum.onEnd, hg1, hg2]
          rfl
        · rw [← hpre]; exact hord _ hh.wf.asc
        · intro p hp
          rw [hgl]
          simpa using (List.mem_filter.1 hp).2
        · intro p hp
          rw [hgl]
          rcases List.mem_append.1 hp with hp | hp <;> simpa using (List.mem_filter.1 hp).2

end Curvepy
