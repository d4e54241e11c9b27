import Verif.Lemmas.Met
import Verif.Spec.MetHistory

/-!
# Accumulators over points at any distances, after any history
-/

namespace Curvepy
namespace Accum
open Spec Pts

/-- The transform follows the rule on sources with these points. -/
def FollowsIn (pts : List (Pt ℚ)) (m : ℚ) (t : Tfm) (g : Rule) : Prop :=
  ∀ (src acc : Pts ℚ) (seen rest : List (Pt ℚ)) (p : Pt ℚ), src.points = pts → Honest src → Honest acc →
    met m pts = seen ++ p :: rest → acc.points.map Prod.fst = seen.map Prod.fst →
    t src acc p.1 p.2 (lastOut acc.points) = g (seen ++ [p]) acc.points

theorem FollowsMet.isIn {m : ℚ} {t : Tfm} {g : Rule} (h : FollowsMet m t g) (pts : List (Pt ℚ)) : FollowsIn pts m t g := by
  intro src acc seen rest p hp h1 h2 h3 h4
  exact h src acc seen rest p h1 h2 (by rw [hp]; exact h3) h4

/-- Between two operations: the accumulated points are the fold over the points `seen`, which
are the first that are met in the source. -/
structure Treading (g : Rule) (m : ℚ) (i : Interp) (u : Bool) (A : Accum)
    (seen todo : List (Pt ℚ)) : Prop where
  src : Honest A.src
  pts : met m A.src.points = seen ++ todo
  fit : Paced m u A.src.points
  acc : Honest A.acc
  interp : A.acc.interp = i
  force : A.acc.force = u
  run : runRule g [] [] seen = (A.acc.points, none)
  cur : A.current = seen.getLast?.map Prod.fst
  start : seen ≠ [] → A.scanStart = seen.head?.map Prod.fst
  step : A.minStep = m
  cache : A.cache = none ∨ A.cache = some (getDomain A.src.points)
  idleB : A.bIv = Iv.empty
  idleE : A.eIv = Iv.empty

variable {g : Rule} {m : ℚ} {i : Interp} {u : Bool} {A : Accum} {seen todo : List (Pt ℚ)}

theorem Treading.srcDom (h : Treading g m i u A seen todo) : A.src.domVal = getDomain A.src.points :=
  h.src.wf.domVal

theorem Treading.dom (h : Treading g m i u A seen todo) : A.domVal = getDomain A.src.points := by
  unfold Accum.domVal
  rcases h.cache with hc | hc
  · rw [hc]; exact h.srcDom
  · rw [hc]; rfl

theorem Treading.asc (h : Treading g m i u A seen todo) : Ascending (seen ++ todo) := by
  rw [← h.pts]; exact List.Pairwise.sublist (met_sublist m _) h.src.wf.asc

theorem Treading.mem (h : Treading g m i u A seen todo) {q : Pt ℚ} (hq : q ∈ seen ++ todo) : q ∈ A.src.points := by
  rw [← h.pts] at hq
  exact (met_sublist m _).subset hq

theorem Treading.touchSrc (h : Treading g m i u A seen todo) :
    Treading g m i u { A with src := A.src.touch } seen todo where
  src := .read h.src
  pts := h.pts
  fit := h.fit
  acc := h.acc
  interp := h.interp
  force := h.force
  run := h.run
  cur := h.cur
  start := h.start
  step := h.step
  cache := h.cache
  idleB := h.idleB
  idleE := h.idleE

theorem Treading.touchAcc (h : Treading g m i u A seen todo) :
    Treading g m i u { A with acc := A.acc.touch } seen todo where
  src := h.src
  pts := h.pts
  fit := h.fit
  acc := .read h.acc
  interp := h.interp
  force := h.force
  run := h.run
  cur := h.cur
  start := h.start
  step := h.step
  cache := h.cache
  idleB := h.idleB
  idleE := h.idleE

theorem Treading.touch (h : Treading g m i u A seen todo) : Treading g m i u A.touch seen todo := by
  unfold Accum.touch
  cases hc : A.cache with
  | some c => exact h
  | none =>
    have h' := h.touchSrc
    exact ⟨h'.src, h'.pts, h'.fit, h'.acc, h'.interp, h'.force, h'.run, h'.cur, h'.start, h'.step,
      Or.inr (by rw [h.src.wf.domVal]; rfl), h'.idleB, h'.idleE⟩

theorem Treading.accXs (h : Treading g m i u A seen todo) :
    A.acc.points.map Prod.fst = seen.map Prod.fst := by
  simpa using runRule_xs h.run

theorem Treading.mem_cur (h : Treading g m i u A seen todo) {c : ℚ} (hc : A.current = some c) :
    ∃ p, seen.getLast? = some p ∧ p.1 = c := by
  rw [h.cur] at hc
  cases hl : seen.getLast? with
  | none => rw [hl] at hc; cases hc
  | some p => rw [hl] at hc; exact ⟨p, rfl, by simpa using hc⟩

/-- The next position is the next knot. -/
theorem Treading.xNext (h : Treading g m i u A seen (p :: todo)) (hm : 0 < m) {c : ℚ}
    (hc : A.current = some c) : A.xNext (.fin c) A.minStep = .ok (some (.fin p.1)) := by
  obtain ⟨q, hq, hqc⟩ := h.mem_cur hc
  have hasc := h.asc
  have hseen : Ascending seen := (List.pairwise_append.1 hasc).1
  have hres : resolveMinStep (some A.minStep) (some A.minStep) = some m := by
    simp [resolveMinStep, h.step]
  have hacc : A.acc.xNext (.fin c) (some m) = .ok none := by
    rcases Props.C06_x_next h.acc c m with ⟨z, _, ⟨r, hr, hrz, hz⟩, _⟩ | ⟨h1, _⟩
    · exfalso
      have : r.1 ∈ A.acc.points.map Prod.fst := List.mem_map_of_mem hr
      rw [h.accXs] at this
      obtain ⟨r', hr', hrr⟩ := List.mem_map.1 this
      have := le_getLast hseen hq hr'
      linarith
    · exact h1
  have hsrc : A.src.xNext (.fin c) (some m) = .ok (some (.fin p.1)) := by
    obtain ⟨pre, hpre⟩ := List.getLast?_eq_some_iff.1 hq
    have := xNext_after h.src hm (pre := pre) (p := q) (rest := p :: todo) (by rw [h.pts, hpre]; simp)
    rw [← hqc, this]; rfl
  unfold Accum.xNext
  simp only [hres, hacc, hsrc, bind, Except.bind, pyOr]

/-- There is no next position after the last point met. -/
theorem Treading.xNext_end (h : Treading g m i u A seen []) (hm : 0 < m) {c : ℚ}
    (hc : A.current = some c) : A.xNext (.fin c) A.minStep = .ok none := by
  obtain ⟨q, hq, hqc⟩ := h.mem_cur hc
  have hasc := h.asc
  have hseen : Ascending seen := (List.pairwise_append.1 hasc).1
  have hres : resolveMinStep (some A.minStep) (some A.minStep) = some m := by
    simp [resolveMinStep, h.step]
  have hacc : A.acc.xNext (.fin c) (some m) = .ok none := by
    rcases Props.C06_x_next h.acc c m with ⟨z, _, ⟨r, hr, hrz, hz⟩, _⟩ | ⟨h1, _⟩
    · exfalso
      have : r.1 ∈ A.acc.points.map Prod.fst := List.mem_map_of_mem hr
      rw [h.accXs] at this
      obtain ⟨r', hr', hrr⟩ := List.mem_map.1 this
      have := le_getLast hseen hq hr'
      linarith
    · exact h1
  have hsrc : A.src.xNext (.fin c) (some m) = .ok none := by
    obtain ⟨pre, hpre⟩ := List.getLast?_eq_some_iff.1 hq
    have := xNext_after h.src hm (pre := pre) (p := q) (rest := []) (by rw [h.pts, hpre]; simp)
    rw [← hqc, this]; rfl
  unfold Accum.xNext
  simp only [hres, hacc, hsrc, bind, Except.bind, pyOr]

/-- Where the scan goes next. -/
theorem Treading.nextPos (h : Treading g m i u A seen (p :: todo)) (hm : 0 < m) (x : ℚ) :
    ∃ A', A.nextPos x = (A', .ok (some (.fin p.1))) ∧ Treading g m i u A' seen (p :: todo) ∧
      A'.scanStart = (seen ++ [p]).head?.map Prod.fst ∧ A'.src.points = A.src.points := by
  cases hc : A.current with
  | some c =>
    refine ⟨A, ?_, h, ?_, rfl⟩
    · simp only [Accum.nextPos, hc, h.xNext hm hc]
    · obtain ⟨q, hq, _⟩ := h.mem_cur hc
      have hne : seen ≠ [] := by rintro rfl; simp at hq
      rw [h.start hne]
      cases seen with
      | nil => exact absurd rfl hne
      | cons a as => rfl
  | none =>
    have hs : seen = [] := by
      have := h.cur
      rw [hc] at this
      cases hl : seen.getLast? with
      | none => simpa using hl
      | some q => rw [hl] at this; cases this
    subst hs
    have h1 := h.touchSrc
    obtain ⟨tl, htl⟩ : ∃ tl, A.src.points = p :: tl := by
      have := met_head m A.src.points
      rw [h.pts] at this
      cases hp : A.src.points with
      | nil => rw [hp] at this; cases this
      | cons a as => rw [hp] at this; cases this; exact ⟨as, rfl⟩
    have hd : ({ A with src := A.src.touch } : Accum).src.domVal = getDomain (p :: tl) := by
      rw [h1.srcDom]; show getDomain A.src.points = _; rw [htl]
    have hne : (getDomain (p :: tl)).isEmpty = false := getDomain_not_isEmpty (by rw [← htl]; exact h.src.wf.asc) (by simp)
    have hni : (getDomain (p :: tl)).isNegInf = false := by
      simp [Iv.isNegInf, getDomain, Iv.closed]
    have hlo : (getDomain (p :: tl)).lo = .fin p.1 := rfl
    have h2 := h1.touch
    have hcon : ({ A with src := A.src.touch } : Accum).touch.domVal.contains (.fin p.1) = true := by
      rw [h2.dom]
      exact getDomain_contains_mem h2.src.wf.asc (h2.mem (by simp))
    refine ⟨{ ({ A with src := A.src.touch } : Accum).touch with scanStart := some p.1 }, ?_, ?_, rfl, touch_points _⟩
    · have : A.initScan x = (({ A with src := A.src.touch } : Accum).touch, .ok (some (.fin p.1))) := by
        unfold initScan
        simp only [hd, hne, hni, Bool.or_self, Bool.false_eq_true, if_false, hlo, hcon, Bool.not_true]
      simp only [Accum.nextPos, hc, this, finPart]
    · exact ⟨h2.src, h2.pts, h2.fit, h2.acc, h2.interp, h2.force, h2.run, h2.cur, by simp,
        h2.step, h2.cache, h2.idleB, h2.idleE⟩

/-- One step of the transform. -/
theorem Treading.accumulate {t : Tfm} (hf : FollowsIn A.src.points m t g) (hm : 0 < m)
    (h : Treading g m i u A seen (p :: todo))
    (hst : A.scanStart = (seen ++ [p]).head?.map Prod.fst) :
    (∃ e A', g (seen ++ [p]) A.acc.points = .error e ∧
      A.accumulate t p.1 p.2 = ⟨A', [(p.1, p.2, lastOut A.acc.points)], .error e⟩ ∧
      Treading g m i u A' seen (p :: todo) ∧ A'.src = A.src) ∨
    (∃ v A', g (seen ++ [p]) A.acc.points = .ok v ∧
      A.accumulate t p.1 p.2 = ⟨A', [(p.1, p.2, lastOut A.acc.points)], .ok ()⟩ ∧
      A'.acc.points = A.acc.points ++ [(p.1, v)] ∧ A'.src = A.src ∧
      Treading g m i u { A' with current := some p.1 } (seen ++ [p]) todo) := by
  have h1 := h.touchAcc
  have hasc := h.asc
  have hbefore : ∀ q ∈ A.acc.points, q.1 < p.1 := by
    intro q hq
    have : q.1 ∈ A.acc.points.map Prod.fst := List.mem_map_of_mem hq
    rw [h.accXs] at this
    obtain ⟨q', hq', hqq⟩ := List.mem_map.1 this
    have := (List.pairwise_append.1 hasc).2.2 q' hq' p (by simp)
    linarith
  have hlast : lastOf A.acc.touch p.1 = .ok (lastOut A.acc.points) := by
    unfold lastOf
    have hd : A.acc.touch.domVal = getDomain A.acc.points := h1.acc.wf.domVal
    rw [hd]
    cases ha : A.acc.points with
    | nil => simp [getDomain, lastOut]
    | cons a as =>
      have hne : (getDomain (a :: as)).isEmpty = false := by
        rw [← ha]; exact getDomain_not_isEmpty h.acc.wf.asc (by rw [ha]; simp)
      have hhi : (getDomain (a :: as)).hi = .fin ((a :: as).getLast (by simp)).1 := rfl
      have hlm : (a :: as).getLast (by simp) ∈ A.acc.points := by rw [ha]; exact List.getLast_mem _
      have hlt : (getDomain (a :: as)).hi < .fin p.1 := by
        rw [hhi, Ext.fin_lt_fin]; exact hbefore _ hlm
      rw [hne, if_neg (by simp), if_pos hlt, hhi]
      have := Props.C01_stored_value h1.acc (p := (a :: as).getLast (by simp)) hlm
      rw [this]
      simp [lastOut, List.getLast?_eq_some_getLast]
  have ht := hf A.src A.acc.touch seen todo p rfl h.src h1.acc h.pts h.accXs
  have htp : A.acc.touch.points = A.acc.points := rfl
  rw [htp] at ht
  cases hg : g (seen ++ [p]) A.acc.points with
  | error e =>
    left
    refine ⟨e, { A with acc := A.acc.touch }, rfl, ?_, h1, rfl⟩
    unfold Accum.accumulate
    simp only [hlast, ht, hg]
  | ok v =>
    right
    have hxs : (A.acc.points ++ [(p.1, v)]).map Prod.fst = (seen ++ [p]).map Prod.fst := by
      simp [h.accXs]
    have hpre : (seen ++ [p]) <+: met m A.src.points := ⟨todo, by rw [h.pts]; simp⟩
    have hfitp : Fit m u (seen ++ [p]) := Fit.prefix hpre ⟨met_gapped m _, h.fit.noFluke, h.fit.uniform⟩
    have hfit : Fit m u (A.acc.touch.points ++ [(p.1, v)]) := by
      refine ⟨?_, NoFluke.of_xs hxs hfitp.noFluke, fun hu => EquallySpaced.of_xs hxs (hfitp.uniform hu)⟩
      have hg' : ((seen ++ [p]).map Prod.fst).IsChain (fun x y : ℚ => x + m ≤ y) := by
        rw [List.isChain_map]; exact hfitp.gapped
      rw [← hxs, List.isChain_map] at hg'
      exact hg'
    obtain ⟨a1, a2, a3, a4, a5⟩ := append_fits h1.acc h1.force (p := (p.1, v)) hfit hbefore quiet
    refine ⟨v, { A with acc := (A.acc.touch.append (p.1, v) quiet).st }, rfl, ?_, a3, rfl, ?_⟩
    · unfold Accum.accumulate
      simp only [hlast, ht, hg, a1]
    · refine ⟨h.src, by rw [h.pts]; simp, h.fit, a2, a4.trans h.interp, a5.trans h.force, ?_, ?_, ?_,
        h.step, h.cache, h.idleB, h.idleE⟩
      · rw [runRule_append, h.run]
        simp only [List.nil_append, runRule, hg, a3]
        rfl
      · simp
      · intro _; exact hst

/-- The loop processes exactly the knots needed. -/
theorem metLoop_spec {t : Tfm} {pts : List (Pt ℚ)} (hf : FollowsIn pts m t g) (hm : 0 < m) (x : ℚ) :
    ∀ (todo seen : List (Pt ℚ)) (A : Accum) (n : ℕ), A.src.points = pts → Treading g m i u A seen todo →
      seen ++ todo ≠ [] → todo.length < n →
      ∃ o, scanLoop t x n A = some o ∧ o.st.src.points = A.src.points ∧
        o.calls = ruleCalls g seen A.acc.points (need x seen todo) ∧
        ((∃ out rest, runRule g seen A.acc.points (need x seen todo) = (out, none) ∧ o.res = .ok () ∧
          todo = need x seen todo ++ rest ∧ o.st.acc.points = out ∧
          Treading g m i u o.st (seen ++ need x seen todo) rest) ∨
        (∃ out e seen' todo', runRule g seen A.acc.points (need x seen todo) = (out, some e) ∧
          o.res = .error e ∧ Treading g m i u o.st seen' todo')) := by
  intro todo
  induction todo with
  | nil =>
    intro seen A n hA h hx hn
    obtain ⟨n, rfl⟩ : ∃ k, n = k + 1 := ⟨n - 1, by omega⟩
    have hneed : need x seen [] = [] := by unfold need; split_ifs <;> rfl
    refine ⟨⟨A, [], .ok ()⟩, ?_, rfl, by rw [hneed]; rfl, Or.inl ⟨A.acc.points, [], ?_, rfl, ?_, rfl, ?_⟩⟩
    · cases hcur : (seen.getLast?.map Prod.fst).all (fun c => decide (c < x)) with
      | false => simp only [scanLoop, h.cur, hcur, Bool.false_eq_true, if_false]
      | true =>
        rw [List.append_nil] at hx
        have hc : A.current = some (seen.getLast hx).1 := by
          rw [h.cur, List.getLast?_eq_some_getLast hx]; rfl
        have hnp : A.nextPos x = (A, .ok none) := by
          simp only [Accum.nextPos, hc, h.xNext_end hm hc]
        simp only [scanLoop, h.cur, hcur, if_true, hnp]
    · rw [hneed]; rfl
    · rw [hneed]; rfl
    · rw [hneed, List.append_nil]; exact h
  | cons p ps ih =>
    intro seen A n hA h hx hn
    obtain ⟨n, rfl⟩ : ∃ k, n = k + 1 := ⟨n - 1, by omega⟩
    cases hcur : (seen.getLast?.map Prod.fst).all (fun c => decide (c < x)) with
    | false =>
      have hneed : need x seen (p :: ps) = [] := by unfold need; rw [hcur]; rfl
      refine ⟨⟨A, [], .ok ()⟩, ?_, rfl, by rw [hneed]; rfl, Or.inl ⟨A.acc.points, p :: ps, ?_, rfl, ?_, rfl, ?_⟩⟩
      · simp only [scanLoop, h.cur, hcur, Bool.false_eq_true, if_false]
      · rw [hneed]; rfl
      · rw [hneed]; rfl
      · rw [hneed, List.append_nil]; exact h
    | true =>
      have hneed : need x seen (p :: ps) = p :: need x (seen ++ [p]) ps := by
        unfold need
        rw [hcur, if_pos rfl]
        simp only [upTo, List.getLast?_append, List.getLast?_singleton, Option.some_or,
          Option.map_some, Option.all_some, decide_eq_true_eq]
        split <;> rfl
      obtain ⟨A1, hA1, s1, hst, hsp1⟩ := h.nextPos hm x
      have s2 := s1.touchSrc
      have hcon : ({ A1 with src := A1.src.touch } : Accum).src.domVal.contains (.fin p.1) = true := by
        rw [s2.srcDom]; exact getDomain_contains_mem s2.src.wf.asc (s2.mem (by simp))
      have hadv : ({ A1 with src := A1.src.touch } : Accum).current.any (fun k => decide (p.1 ≤ k)) = false := by
        rw [s2.cur]
        cases hl : seen.getLast? with
        | none => rfl
        | some q =>
          have := (List.pairwise_append.1 h.asc).2.2 q (List.mem_of_getLast? hl) p (by simp)
          simpa using this
      have hy : ({ A1 with src := A1.src.touch } : Accum).src.y (.fin p.1) = .ok p.2 :=
        Props.C01_stored_value s2.src (s2.mem (by simp))
      have hpts1 : A1.src.points = A.src.points := hsp1
      have hacc1 : A1.acc.points = A.acc.points := by
        have := s1.run.symm.trans h.run
        simpa using this
      rcases s2.accumulate (by show FollowsIn A1.src.points m t g; rw [hpts1, hA]; exact hf) hm hst with ⟨e, A2, hg, hac, s3, hsrc⟩ | ⟨v, A2, hg, hac, hap, hsrc, s3⟩
      · have hg' : g (seen ++ [p]) A.acc.points = .error e := by rw [← hacc1]; exact hg
        refine ⟨⟨A2, [(p.1, p.2, lastOut A.acc.points)], .error e⟩, ?_, ?_, ?_, Or.inr ⟨A.acc.points, e, seen, p :: ps, ?_, rfl, s3⟩⟩
        · simp only [scanLoop, h.cur, hcur, if_true, hA1, hcon, Bool.not_true, Bool.false_eq_true,
            if_false, hadv, hy, hac, hacc1]
        · rw [hsrc]; exact hpts1
        · rw [hneed]; simp only [ruleCalls, hg']
        · rw [hneed]; simp only [runRule, hg']
      · have hg' : g (seen ++ [p]) A.acc.points = .ok v := by rw [← hacc1]; exact hg
        have hap' : A2.acc.points = A.acc.points ++ [(p.1, v)] := by rw [hap, ← hacc1]
        obtain ⟨o, ho, hop, hoc, hor⟩ := ih (seen ++ [p]) { A2 with current := some p.1 } n
          (by show A2.src.points = _; rw [hsrc]; exact hpts1.trans hA) s3
          (by simpa using hx) (by simpa using hn)
        have hacA : ({ A2 with current := some p.1 } : Accum).acc.points = A.acc.points ++ [(p.1, v)] := hap'
        rw [hacA] at hoc hor
        refine ⟨⟨o.st, [(p.1, p.2, lastOut A.acc.points)] ++ o.calls, o.res⟩, ?_, ?_, ?_, ?_⟩
        · simp only [scanLoop, h.cur, hcur, if_true, hA1, hcon, Bool.not_true, Bool.false_eq_true,
            if_false, hadv, hy, hac, hacc1, ho]
        · rw [hop]
          show A2.src.points = _
          rw [hsrc]; exact hpts1
        · rw [hneed]; simp only [ruleCalls, hg', hoc, List.singleton_append]
        · rw [hneed]
          have hr : runRule g seen A.acc.points (p :: need x (seen ++ [p]) ps) =
              runRule g (seen ++ [p]) (A.acc.points ++ [(p.1, v)]) (need x (seen ++ [p]) ps) := by
            simp only [runRule, hg']
          rw [hr]
          rcases hor with ⟨out, rest, h1, h2, h3, h4, h5⟩ | ⟨out, e, s', t', h1, h2, h3⟩
          · left
            refine ⟨out, rest, h1, h2, ?_, h4, ?_⟩
            · rw [List.cons_append, ← h3]
            · have : seen ++ p :: need x (seen ++ [p]) ps = seen ++ [p] ++ need x (seen ++ [p]) ps := by simp
              rw [this]; exact h5
          · exact Or.inr ⟨out, e, s', t', h1, h2, h3⟩

/-! ## Queries -/

theorem Treading.resetStale (h : Treading g m i u A seen todo) {x : ℚ}
    (hx : (span A.src.points).contains (.fin x) = true) :
    ∃ A', (if A.scanStart.any (fun s => decide (x < s)) then A.resetScan else A) = A' ∧
      Treading g m i u A' seen todo ∧ A'.src.points = A.src.points ∧
      A'.acc.points = A.acc.points := by
  by_cases hs : A.scanStart.any (fun s => decide (x < s)) = true
  · rw [if_pos hs]
    have hseen : seen = [] := by
      by_contra hne
      have h0 := h.start hne
      cases hse : seen with
      | nil => exact hne hse
      | cons a as =>
        rw [h0, hse] at hs
        rw [← getDomain_eq_span'] at hx
        obtain ⟨p, q, hp, _, h1, _⟩ := (getDomain_contains_fin _ _).1 hx
        have hh := met_head m A.src.points
        rw [h.pts, hse, List.head?_eq_getElem? (l := A.src.points), hp] at hh
        simp only [List.cons_append, List.head?_cons, Option.some.injEq] at hh
        subst hh
        simp only [List.head?_cons, Option.map_some, Option.any_some, decide_eq_true_eq] at hs
        linarith
    subst hseen
    obtain ⟨r1, r2, r3, r4, r5⟩ := reset_none_ok h.acc quiet
    have hacc : A.acc.points = [] := by
      have := h.run
      simp only [runRule, Prod.mk.injEq, and_true] at this
      exact this.symm
    refine ⟨A.resetScan, rfl, ⟨h.src, h.pts, h.fit, r2, r4.trans h.interp, r5.trans h.force, ?_, rfl,
      by simp, h.step, h.cache, h.idleB, h.idleE⟩, rfl, ?_⟩
    · show runRule g [] [] [] = ((A.acc.reset none quiet).st.points, none)
      rw [r3]; rfl
    · show (A.acc.reset none quiet).st.points = _
      rw [r3, hacc]
  · rw [if_neg hs]
    exact ⟨A, rfl, h, rfl, rfl⟩

/-- A query inside the domain: the scan. -/
theorem Treading.query_inside {t : Tfm} (hf : FollowsIn A.src.points m t g) (hm : 0 < m)
    (h : Treading g m i u A seen todo) {x : ℚ}
    (hx : (span A.src.points).contains (.fin x) = true) :
    ∃ o, A.query t (.fin x) = some o ∧ o.st.src.points = A.src.points ∧
      o.calls = ruleCalls g seen A.acc.points (need x seen todo) ∧
      ((∃ out rest, runRule g seen A.acc.points (need x seen todo) = (out, none) ∧
          todo = need x seen todo ++ rest ∧ o.res = .ok (valueAt i out x) ∧
          Treading g m i u o.st (seen ++ need x seen todo) rest) ∨
        (∃ out e seen' todo', runRule g seen A.acc.points (need x seen todo) = (out, some e) ∧
          o.res = .error e ∧ Treading g m i u o.st seen' todo')) := by
  have h1 := h.touchSrc
  have hin : ({ A with src := A.src.touch } : Accum).src.domVal.contains (.fin x) = true := by
    rw [h1.srcDom, getDomain_eq_span]; exact hx
  obtain ⟨A', hA', s', hp', ha'⟩ := h1.resetStale hx
  have hreach : seen ++ todo ≠ [] := by
    rw [← h.pts]
    refine met_ne_nil ?_
    rintro h0
    rw [h0] at hx
    cases hx
  have hlen : todo.length < A'.src.points.length + 2 := by
    have := (met_sublist m A'.src.points).length_le
    rw [s'.pts, List.length_append] at this
    omega
  obtain ⟨o, ho, hop, hoc, hor⟩ := metLoop_spec hf hm x todo seen A' _ hp' s' hreach hlen
  have hap : A'.acc.points = A.acc.points := ha'
  rw [hap] at hoc hor
  have hscan : ({ A with src := A.src.touch } : Accum).scan t x = some o := by
    unfold scan
    simp only
    rw [hA']
    exact ho
  have hpts : o.st.src.points = A.src.points := hop.trans hp'
  rcases hor with ⟨out, rest, r1, r2, r3, r4, r5⟩ | ⟨out, e, seen', todo', r1, r2, r3⟩
  · refine ⟨⟨{ o.st with acc := o.st.acc.touch }, o.calls, o.st.acc.y (.fin x)⟩, ?_, hpts, hoc,
      Or.inl ⟨out, rest, r1, r3, ?_, r5.touchAcc⟩⟩
    · unfold query
      simp only [hin, if_true, Bool.not_true, Bool.false_eq_true, if_false, hscan, r2]
    · show o.st.acc.y (.fin x) = _
      rw [y_eq r5.acc.wf, r5.interp, r4]; rfl
  · refine ⟨⟨o.st, o.calls, .error e⟩, ?_, hpts, hoc, Or.inr ⟨out, e, seen', todo', r1, rfl, r3⟩⟩
    unfold query
    simp only [hin, if_true, Bool.not_true, Bool.false_eq_true, if_false, hscan, r2]

theorem Treading.query_outside {t : Tfm} (h : Treading g m i u A seen todo) {x : Ext}
    (hx : (span A.src.points).contains x = false) :
    ∃ o, A.query t x = some o ∧ o.st.src.points = A.src.points ∧ o.calls = [] ∧
      o.res = .ok none ∧ Treading g m i u o.st seen todo := by
  have h1 := h.touchSrc
  have h2 := h1.touch
  have hin : ({ A with src := A.src.touch } : Accum).src.domVal.contains x = false := by
    rw [h1.srcDom, getDomain_eq_span]; exact hx
  have hin2 : ({ A with src := A.src.touch } : Accum).touch.domVal.contains x = false := by
    rw [h2.dom, getDomain_eq_span, touch_points]; exact hx
  refine ⟨⟨({ A with src := A.src.touch } : Accum).touch, [], .ok none⟩, ?_, ?_, rfl, rfl, h2⟩
  · unfold query
    simp only [hin, Bool.false_eq_true, if_false, hin2, Bool.not_false, if_true]
  · show ({ A with src := A.src.touch } : Accum).touch.src.points = _
    rw [touch_points]; rfl

/-- What a query returns, and what it leaves behind. -/
theorem Treading.query {t : Tfm} (hf : FollowsIn A.src.points m t g) (hm : 0 < m) (h : Treading g m i u A seen todo)
    (x : Ext) : ∃ o, A.query t x = some o ∧ o.st.src.points = A.src.points ∧
      o.res = walkedAt g i m A.src.points x ∧ ∃ seen' todo', Treading g m i u o.st seen' todo' := by
  cases hx : (span A.src.points).contains x with
  | false =>
    obtain ⟨o, h1, h2, _, h4, h5⟩ := h.query_outside (t := t) hx
    refine ⟨o, h1, h2, ?_, seen, todo, h5⟩
    rw [h4]
    unfold walkedAt accumulatedIn
    cases x with
    | ninf => rfl
    | pinf => rfl
    | fin q => simp [hx]
  | true =>
    cases x with
    | ninf => rw [← getDomain_eq_span, (getDomain_contains_inf _).2] at hx; cases hx
    | pinf => rw [← getDomain_eq_span, (getDomain_contains_inf _).1] at hx; cases hx
    | fin q =>
      obtain ⟨o, h1, h2, _, h4⟩ := h.query_inside hf hm hx
      refine ⟨o, h1, h2, ?_, ?_⟩
      · have hfold : walkedAt g i m A.src.points (.fin q) =
            match runRule g seen A.acc.points (need q seen todo) with
            | (out', none) => .ok (valueAt i out' q)
            | (_, some e) => .error e := by
          refine Eq.trans ?_ (runRule_need (i := i) h.asc h.run)
          simp only [walkedAt, accumulatedIn, hx, if_true, h.pts]
          rfl
        rw [hfold]
        rcases h4 with ⟨out, rest, r1, _, r3, _⟩ | ⟨out, e, _, _, r1, r2, _⟩
        · rw [r1, r3]
        · rw [r1, r2]
      · rcases h4 with ⟨out, rest, r1, _, r3, r4⟩ | ⟨out, e, s', t', r1, r2, r3⟩
        · exact ⟨_, _, r4⟩
        · exact ⟨_, _, r3⟩

/-! ## Edits -/

/-- If two sources have the same points up to a point met in one of them, the same points are met up to it. -/
theorem met_kept {m : ℚ} {seen todo a b : List (Pt ℚ)} {q : Pt ℚ} (hseen : Ascending seen) (hst : Ascending (seen ++ todo))
    (ha : Ascending a) (hb : Ascending b)
    (hl : seen.getLast? = some q) (hbefore : ∀ p : Pt ℚ, p.1 ≤ q.1 → (p ∈ b ↔ p ∈ a)) (hm : met m a = seen ++ todo) :
    ∃ todo', met m b = seen ++ todo' := by
  have split : ∀ l : List (Pt ℚ), Ascending l →
      l = l.filter (fun p => decide (p.1 ≤ q.1)) ++ l.filter (fun p => decide (q.1 < p.1)) := by
    intro l hl
    refine ascending_ext hl ?_ ?_
    · refine List.pairwise_append.2 ⟨hl.filter _, hl.filter _, ?_⟩
      intro p hp p' hp'
      have h3 : p.1 ≤ q.1 := by simpa using (List.mem_filter.1 hp).2
      have h4 : q.1 < p'.1 := by simpa using (List.mem_filter.1 hp').2
      linarith
    · intro p
      rw [List.mem_append, List.mem_filter, List.mem_filter]
      simp only [decide_eq_true_eq]
      constructor
      · intro hp
        rcases le_or_gt p.1 q.1 with h | h
        · exact Or.inl ⟨hp, h⟩
        · exact Or.inr ⟨hp, h⟩
      · rintro (h | h) <;> exact h.1
  have hsame : a.filter (fun p => decide (p.1 ≤ q.1)) = b.filter (fun p => decide (p.1 ≤ q.1)) := by
    refine ascending_ext (ha.filter _) (hb.filter _) fun p => ?_
    simp only [List.mem_filter, decide_eq_true_eq]
    constructor
    · rintro ⟨h1, h2⟩; exact ⟨(hbefore p h2).2 h1, h2⟩
    · rintro ⟨h1, h2⟩; exact ⟨(hbefore p h2).1 h1, h2⟩
  obtain ⟨r, hr, hrs⟩ := met_append m (a.filter (fun p => decide (p.1 ≤ q.1))) (a.filter (fun p => decide (q.1 < p.1)))
  rw [← split a ha, hm] at hr
  have key : seen = met m (a.filter (fun p => decide (p.1 ≤ q.1))) := by
    have h1 := congrArg (List.filter (fun p : Pt ℚ => decide (p.1 ≤ q.1))) hr
    rw [List.filter_append, List.filter_append] at h1
    have f1 : seen.filter (fun p : Pt ℚ => decide (p.1 ≤ q.1)) = seen := by
      rw [List.filter_eq_self]
      intro p hp
      simpa using le_getLast hseen hl hp
    have f2 : todo.filter (fun p : Pt ℚ => decide (p.1 ≤ q.1)) = [] := by
      rw [List.filter_eq_nil_iff]
      intro p hp
      have := (List.pairwise_append.1 hst).2.2 q (List.mem_of_getLast? hl) p hp
      simp only [decide_eq_true_eq]
      exact not_le.2 this
    have f3 : r.filter (fun p : Pt ℚ => decide (p.1 ≤ q.1)) = [] := by
      rw [List.filter_eq_nil_iff]
      intro p hp
      have := (List.mem_filter.1 (hrs.subset hp)).2
      simp only [decide_eq_true_eq] at this ⊢
      exact not_le.2 this
    have f4 : (met m (a.filter (fun p => decide (p.1 ≤ q.1)))).filter (fun p : Pt ℚ => decide (p.1 ≤ q.1)) =
        met m (a.filter (fun p => decide (p.1 ≤ q.1))) := by
      rw [List.filter_eq_self]
      intro p hp
      exact (List.mem_filter.1 ((met_sublist m _).subset hp)).2
    rw [f1, f2, f3, f4, List.append_nil, List.append_nil] at h1
    exact h1
  obtain ⟨r', hr', _⟩ := met_append m (b.filter (fun p => decide (p.1 ≤ q.1))) (b.filter (fun p => decide (q.1 < p.1)))
  rw [← split b hb, ← hsame, ← key] at hr'
  exact ⟨r', hr'⟩

/-- An edit of the source leaves the accumulator sound. -/
theorem Treading.edit (h : Treading g m i u A seen todo) {op : Op ℚ} (hl : op.Legal) (r : Reads)
    (hlate : lateError (op.run A.src r).err = false) (ht : Truthful (op.run A.src r).st)
    (hfit : Paced m u (op.run A.src r).st.points) :
    (A.edit op r).2 = none ∧ (A.edit op r).1.src = (op.run A.src r).st ∧
      ∃ seen' todo', Treading g m i u (A.edit op r).1 seen' todo' ∧
        ∀ q ∈ seen', ∀ p : Pt ℚ, p.1 ≤ q.1 → (p ∈ (op.run A.src r).st.points ↔ p ∈ A.src.points) := by
  have hh : Honest (op.run A.src r).st := .edit h.src hl hlate ht
  -- nothing changed in the source
  have hsame : ∀ s' : Pts ℚ, Honest s' → s'.points = A.src.points →
      Treading g m i u { A with src := s' } seen todo := by
    intro s' hs' hp'
    exact ⟨hs', by rw [← h.pts, ← hp'], by show Paced m u s'.points; rw [hp']; exact h.fit, h.acc,
      h.interp, h.force, h.run, h.cur, h.start, h.step, by rw [hp']; exact h.cache, h.idleB, h.idleE⟩
  have hseen : Ascending seen := (List.pairwise_append.1 h.asc).1
  cases outcome h.src.base h.src.wf hl r with
  | idle hs hev _ _ =>
    have hp : (op.run A.src r).st.points = A.src.points := by
      rcases hs with hs | hs <;> rw [hs] <;> rfl
    have he : A.edit op r = ({ A with src := (op.run A.src r).st }, none) := by
      simp only [Accum.edit, hev, notifyAll]
    rw [he]
    exact ⟨rfl, rfl, seen, todo, hsame _ hh hp, fun _ _ _ _ => by rw [hp]⟩
  | stuck iv e he _ hst => rw [hst.err, he] at hlate; cases hlate
  | edited iv hed hk =>
    rw [← hed.points] at hk
    rcases hed.ev with ⟨_, hev, hpp⟩ | ⟨hne, a, b, hev, _⟩
    · have he : A.edit op r = ({ A with src := (op.run A.src r).st }, none) := by
        simp only [Accum.edit, hev, notifyAll]
      rw [he]
      exact ⟨rfl, rfl, seen, todo, hsame _ hh (by rw [hed.points, hpp]), fun _ _ _ _ => by rw [hed.points, hpp]⟩
    · set s' := (op.run A.src r).st with hs'
      obtain ⟨A1, seen', hb, e1, e2, e3, e4, e5, e6, e7, e8, e9, e10, e11, e12⟩ :=
        onBegin_spec (A := { A with src := s' }) (seen := seen) h.acc h.run h.cur h.start hseen iv
      have hB : A1.bIv = Iv.empty := e3.trans h.idleB
      have hE : A1.eIv = Iv.empty := e4.trans h.idleE
      have hedit : A.edit op r = (((gateBegin A1 (updateInterval iv)).1.gateEnd (updateInterval iv)).1, none) := by
        simp only [Accum.edit, hev, notifyAll, notify, ← hs', hb, onEnd]
      by_cases hinf : iv.lo = .pinf
      · -- an update of nothing
        have hno : ∀ x : ℚ, iv.geLo (.fin x) = false := by
          intro x
          by_contra hc
          have := (Iv.geLo_iff _ _).1 (by simpa using hc)
          rw [hinf] at this
          simp at this
        have hpts : s'.points = A.src.points := by
          refine ascending_ext hh.wf.asc h.src.wf.asc fun p => hk p ?_
          by_contra hc
          have := ((Iv.contains_iff _ _).1 (by simpa using hc)).1
          rw [hno] at this; cases this
        have hs1 : seen' = seen := by
          rcases e12 with ⟨_, p, _, hp⟩ | ⟨h1, _⟩
          · rw [hno] at hp; cases hp
          · exact h1
        subst hs1
        have hem : (updateInterval iv).isEmpty = true := by
          simp [Iv.isEmpty, updateInterval, hinf]
        have hg1 : gateBegin A1 (updateInterval iv) = (A1, []) := by simp [gateBegin, hem]
        have hg2 : gateEnd A1 (updateInterval iv) = (A1, []) := by simp [gateEnd, hem]
        rw [hedit, hg1, hg2]
        refine ⟨rfl, e1, seen', todo, ?_, fun _ _ _ _ => by rw [hpts]⟩
        exact ⟨by rw [e1]; exact hh, by rw [e1, ← h.pts, ← hpts], by rw [e1]; exact hfit, e6,
          e7.trans h.interp, e8.trans h.force, e9, e10, e11, e5.trans h.step,
          by rw [e2, e1]; show A.cache = none ∨ A.cache = some (getDomain s'.points); rw [hpts]; exact h.cache,
          hB, hE⟩
      · have hem : (updateInterval iv).isEmpty = false := by
          rw [Iv.not_isEmpty_iff]
          left
          exact lt_of_le_of_ne (Ext.le_pinf _) hinf
        obtain ⟨hg1, hg2⟩ := gate_roundtrip hB hE hem
        rw [hedit, hg1, hg2]
        have hback : ∀ q ∈ seen', ∀ p : Pt ℚ, p.1 ≤ q.1 → (p ∈ s'.points ↔ p ∈ A.src.points) := by
          rcases e12 with ⟨h1, _⟩ | ⟨h1, h2⟩
          · rw [h1]; simp
          · subst h1
            intro q hq p hp
            refine hk p ?_
            by_contra hc
            have := ((Iv.contains_iff _ _).1 (by simpa using hc)).1
            rw [geLo_le hp (h2 q hq)] at this; cases this
        have hsplit : ∃ todo', met m s'.points = seen' ++ todo' := by
          rcases e12 with ⟨h1, _⟩ | ⟨h1, h2⟩
          · exact ⟨met m s'.points, by rw [h1]; rfl⟩
          · subst h1
            cases hl : seen'.getLast? with
            | none =>
              rw [List.getLast?_eq_none_iff] at hl
              exact ⟨met m s'.points, by rw [hl]; rfl⟩
            | some q =>
              have hq := List.mem_of_getLast? hl
              refine met_kept hseen h.asc h.src.wf.asc hh.wf.asc hl (hback q hq) h.pts
        obtain ⟨todo', htodo⟩ := hsplit
        refine ⟨rfl, e1, seen', todo', ?_, hback⟩
        exact ⟨by show Honest A1.src; rw [e1]; exact hh, by show met m A1.src.points = _; rw [e1]; exact htodo,
          by show Paced m u A1.src.points; rw [e1]; exact hfit, e6, e7.trans h.interp, e8.trans h.force, e9, e10,
          e11, e5.trans h.step, Or.inl rfl, rfl, rfl⟩

/-- A fresh accumulator is sound. -/
theorem Treading.new {s : Pts ℚ} (hs : Honest s) (hfit : Paced m u s.points) :
    Treading g m i u (Accum.new s m i u) [] (met m s.points) := by
  have hn : (Pts.new [] i u : Except Err (Pts ℚ)) = .ok (((blank i u).set [] none quiet).st) := by
    have : ((blank i u : Pts ℚ).set [] none quiet).err = none := by cases i <;> cases u <;> decide +kernel
    unfold Pts.new
    simp only [show (⟨false, false⟩ : Reads) = quiet from rfl, this]
  obtain ⟨h1, h2, h3, h4, _⟩ := new_ok (pts := []) List.Pairwise.nil hn
  have hacc : Honest ((blank i u : Pts ℚ).set [] none quiet).st := by
    refine .new (pts := []) List.Pairwise.nil hn ?_
    intro _
    rw [h2]; exact equallySpaced_of_length_le_two (by simp)
  exact ⟨hs, rfl, hfit, hacc, h3, h4, by show runRule g [] [] [] = (_, none); rw [show (Accum.new s m i u).acc.points = [] from h2]; rfl, rfl, by simp, rfl, Or.inl rfl, rfl, rfl⟩

end Accum
end Curvepy
