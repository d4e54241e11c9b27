import Verif.Lemmas.Accumulator
import Verif.Spec.AccumHistory

namespace Curvepy
namespace Accum
open Spec Pts

/-- Between two operations: the accumulated points are the fold over the knots `seen`, which
are the first knots of the source. -/
structure Sound (g : Rule) (m : ℚ) (i : Interp) (u : Bool) (A : Accum)
    (seen todo : List (Pt ℚ)) : Prop where
  src : Honest A.src
  pts : A.src.points = seen ++ todo
  fit : Fit m u A.src.points
  acc : Honest A.acc
  interp : A.acc.interp = i
  force : A.acc.force = u
  run : runRule g [] [] seen = (A.acc.points, none)
  cur : A.current = seen.getLast?.map Prod.fst
  start : seen ≠ [] → A.scanStart = seen.head?.map Prod.fst
  step : A.minStep = m
  cache : A.cache = none ∨ A.cache = some (getDomain A.src.points)
  idleB : A.bIv = Iv.empty
  idleE : A.eIv = Iv.empty

variable {g : Rule} {m : ℚ} {i : Interp} {u : Bool} {A : Accum} {seen todo : List (Pt ℚ)}

theorem Sound.srcDom (h : Sound g m i u A seen todo) : A.src.domVal = getDomain (seen ++ todo) := by
  rw [h.src.wf.domVal, h.pts]

theorem Sound.dom (h : Sound g m i u A seen todo) : A.domVal = getDomain (seen ++ todo) := by
  unfold Accum.domVal
  rcases h.cache with hc | hc
  · rw [hc]; exact h.srcDom
  · rw [hc, h.pts]; rfl

theorem Sound.asc (h : Sound g m i u A seen todo) : Ascending (seen ++ todo) := by
  rw [← h.pts]; exact h.src.wf.asc

theorem Sound.touchSrc (h : Sound g m i u A seen todo) :
    Sound g m i u { A with src := A.src.touch } seen todo where
  src := .read h.src
  pts := h.pts
  fit := h.fit
  acc := h.acc
  interp := h.interp
  force := h.force
  run := h.run
  cur := h.cur
  start := h.start
  step := h.step
  cache := h.cache
  idleB := h.idleB
  idleE := h.idleE

theorem Sound.touchAcc (h : Sound g m i u A seen todo) :
    Sound g m i u { A with acc := A.acc.touch } seen todo where
  src := h.src
  pts := h.pts
  fit := h.fit
  acc := .read h.acc
  interp := h.interp
  force := h.force
  run := h.run
  cur := h.cur
  start := h.start
  step := h.step
  cache := h.cache
  idleB := h.idleB
  idleE := h.idleE

theorem Sound.touch (h : Sound g m i u A seen todo) : Sound g m i u A.touch seen todo := by
  unfold Accum.touch
  cases hc : A.cache with
  | some c => exact h
  | none =>
    have h' := h.touchSrc
    exact ⟨h'.src, h'.pts, h'.fit, h'.acc, h'.interp, h'.force, h'.run, h'.cur, h'.start, h'.step,
      Or.inr (by rw [h.src.wf.domVal]; rfl), h'.idleB, h'.idleE⟩

theorem touch_points (A : Accum) : A.touch.src.points = A.src.points := by
  unfold Accum.touch
  cases A.cache <;> rfl

theorem Sound.accXs (h : Sound g m i u A seen todo) :
    A.acc.points.map Prod.fst = seen.map Prod.fst := by
  simpa using runRule_xs h.run

theorem domVal_nonempty (h : Ascending (seen ++ todo)) (hne : seen ++ todo ≠ []) :
    (getDomain (seen ++ todo)).isEmpty = false := getDomain_not_isEmpty h hne

theorem Sound.mem_cur (h : Sound g m i u A seen todo) {c : ℚ} (hc : A.current = some c) :
    ∃ p, seen.getLast? = some p ∧ p.1 = c := by
  rw [h.cur] at hc
  cases hl : seen.getLast? with
  | none => rw [hl] at hc; cases hc
  | some p => rw [hl] at hc; exact ⟨p, rfl, by simpa using hc⟩

theorem le_getLast {pts : List (Pt ℚ)} (h : Ascending pts) {p q : Pt ℚ} (hl : pts.getLast? = some p)
    (hq : q ∈ pts) : q.1 ≤ p.1 := by
  have hne : pts ≠ [] := List.ne_nil_of_mem hq
  rw [List.getLast?_eq_some_getLast hne] at hl
  cases hl
  obtain ⟨k, hk⟩ := List.getElem?_of_mem hq
  exact h.le hk (getLast_mem_idx hne) (by have := (List.getElem?_eq_some_iff.1 hk).1; omega)

/-- The next position is the next knot. -/
theorem Sound.xNext (h : Sound g m i u A seen (p :: todo)) (hm : 0 < m) {c : ℚ}
    (hc : A.current = some c) : A.xNext (.fin c) A.minStep = .ok (some (.fin p.1)) := by
  obtain ⟨q, hq, hqc⟩ := h.mem_cur hc
  have hasc := h.asc
  have hseen : Ascending seen := (List.pairwise_append.1 hasc).1
  have hres : resolveMinStep (some A.minStep) (some A.minStep) = some m := by
    simp [resolveMinStep, h.step]
  have hacc : A.acc.xNext (.fin c) (some m) = .ok none := by
    rcases Props.C06_x_next h.acc c m with ⟨z, _, ⟨r, hr, hrz, hz⟩, _⟩ | ⟨h1, _⟩
    · exfalso
      have : r.1 ∈ A.acc.points.map Prod.fst := List.mem_map_of_mem hr
      rw [h.accXs] at this
      obtain ⟨r', hr', hrr⟩ := List.mem_map.1 this
      have := le_getLast hseen hq hr'
      linarith
    · exact h1
  have hgap : q.1 + m ≤ p.1 := by
    have hg := h.fit.gapped
    rw [h.pts] at hg
    exact (List.isChain_append.1 hg).2.2 q (by simp [hq]) p (by simp)
  have hsrc : A.src.xNext (.fin c) (some m) = .ok (some (.fin p.1)) := by
    rcases Props.C06_x_next h.src c m with ⟨z, h1, ⟨r, hr, hrz, hz⟩, hleast⟩ | ⟨_, h2⟩
    · rw [h1]
      congr 3
      have hle : z ≤ p.1 := hleast ⟨p, by rw [h.pts]; simp, rfl, by linarith⟩
      rw [h.pts] at hr
      rcases List.mem_append.1 hr with hr | hr
      · have := le_getLast hseen hq hr
        linarith
      · rcases List.mem_cons.1 hr with rfl | hr
        · exact hrz.symm
        · have h3 := (List.pairwise_append.1 hasc).2.1
          have := (List.pairwise_cons.1 h3).1 r hr
          linarith
    · have := h2 p (by rw [h.pts]; simp)
      linarith
  unfold Accum.xNext
  simp only [hres, hacc, hsrc, bind, Except.bind, pyOr]

/-- Where the scan goes next. -/
theorem Sound.nextPos (h : Sound g m i u A seen (p :: todo)) (hm : 0 < m) (x : ℚ) :
    ∃ A', A.nextPos x = (A', .ok (some (.fin p.1))) ∧ Sound g m i u A' seen (p :: todo) ∧
      A'.scanStart = (seen ++ [p]).head?.map Prod.fst := by
  cases hc : A.current with
  | some c =>
    refine ⟨A, ?_, h, ?_⟩
    · simp only [Accum.nextPos, hc, h.xNext hm hc]
    · obtain ⟨q, hq, _⟩ := h.mem_cur hc
      have hne : seen ≠ [] := by rintro rfl; simp at hq
      rw [h.start hne]
      cases seen with
      | nil => exact absurd rfl hne
      | cons a as => rfl
  | none =>
    have hs : seen = [] := by
      have := h.cur
      rw [hc] at this
      cases hl : seen.getLast? with
      | none => simpa using hl
      | some q => rw [hl] at this; cases this
    subst hs
    have h1 := h.touchSrc
    have hd : ({ A with src := A.src.touch } : Accum).src.domVal = getDomain (p :: todo) := h1.srcDom
    have hne : (getDomain (p :: todo)).isEmpty = false := getDomain_not_isEmpty h.asc (by simp)
    have hni : (getDomain (p :: todo)).isNegInf = false := by
      simp [Iv.isNegInf, getDomain, Iv.closed]
    have hlo : (getDomain (p :: todo)).lo = .fin p.1 := rfl
    have h2 := h1.touch
    have hcon : ({ A with src := A.src.touch } : Accum).touch.domVal.contains (.fin p.1) = true := by
      rw [h2.dom]
      exact getDomain_contains_mem h.asc (by simp)
    refine ⟨{ ({ A with src := A.src.touch } : Accum).touch with scanStart := some p.1 }, ?_, ?_, rfl⟩
    · have : A.initScan x = (({ A with src := A.src.touch } : Accum).touch, .ok (some (.fin p.1))) := by
        unfold initScan
        simp only [hd, hne, hni, Bool.or_self, Bool.false_eq_true, if_false, hlo, hcon, Bool.not_true]
      simp only [Accum.nextPos, hc, this, finPart]
    · exact ⟨h2.src, h2.pts, h2.fit, h2.acc, h2.interp, h2.force, h2.run, h2.cur, by simp,
        h2.step, h2.cache, h2.idleB, h2.idleE⟩

/-- One step of the transform. -/
theorem Sound.accumulate {t : Tfm} (hf : Follows m t g) (hm : 0 < m)
    (h : Sound g m i u A seen (p :: todo))
    (hst : A.scanStart = (seen ++ [p]).head?.map Prod.fst) :
    (∃ e A', g (seen ++ [p]) A.acc.points = .error e ∧
      A.accumulate t p.1 p.2 = ⟨A', [(p.1, p.2, lastOut A.acc.points)], .error e⟩ ∧
      Sound g m i u A' seen (p :: todo) ∧ A'.src = A.src) ∨
    (∃ v A', g (seen ++ [p]) A.acc.points = .ok v ∧
      A.accumulate t p.1 p.2 = ⟨A', [(p.1, p.2, lastOut A.acc.points)], .ok ()⟩ ∧
      A'.acc.points = A.acc.points ++ [(p.1, v)] ∧ A'.src = A.src ∧
      Sound g m i u { A' with current := some p.1 } (seen ++ [p]) todo) := by
  have h1 := h.touchAcc
  have hasc := h.asc
  have hbefore : ∀ q ∈ A.acc.points, q.1 < p.1 := by
    intro q hq
    have : q.1 ∈ A.acc.points.map Prod.fst := List.mem_map_of_mem hq
    rw [h.accXs] at this
    obtain ⟨q', hq', hqq⟩ := List.mem_map.1 this
    have := (List.pairwise_append.1 hasc).2.2 q' hq' p (by simp)
    linarith
  have hlast : lastOf A.acc.touch p.1 = .ok (lastOut A.acc.points) := by
    unfold lastOf
    have hd : A.acc.touch.domVal = getDomain A.acc.points := h1.acc.wf.domVal
    rw [hd]
    cases ha : A.acc.points with
    | nil => simp [getDomain, lastOut]
    | cons a as =>
      have hne : (getDomain (a :: as)).isEmpty = false := by
        rw [← ha]; exact getDomain_not_isEmpty h.acc.wf.asc (by rw [ha]; simp)
      have hhi : (getDomain (a :: as)).hi = .fin ((a :: as).getLast (by simp)).1 := rfl
      have hlm : (a :: as).getLast (by simp) ∈ A.acc.points := by rw [ha]; exact List.getLast_mem _
      have hlt : (getDomain (a :: as)).hi < .fin p.1 := by
        rw [hhi, Ext.fin_lt_fin]; exact hbefore _ hlm
      rw [hne, if_neg (by simp), if_pos hlt, hhi]
      have := Props.C01_stored_value h1.acc (p := (a :: as).getLast (by simp)) hlm
      rw [this]
      simp [lastOut, List.getLast?_eq_some_getLast]
  have ht := hf A.src A.acc.touch seen todo p h.src h1.acc h.pts h.accXs h.fit.gapped
  have htp : A.acc.touch.points = A.acc.points := rfl
  rw [htp] at ht
  cases hg : g (seen ++ [p]) A.acc.points with
  | error e =>
    left
    refine ⟨e, { A with acc := A.acc.touch }, rfl, ?_, h1, rfl⟩
    unfold Accum.accumulate
    simp only [hlast, ht, hg]
  | ok v =>
    right
    have hxs : (A.acc.points ++ [(p.1, v)]).map Prod.fst = (seen ++ [p]).map Prod.fst := by
      simp [h.accXs]
    have hpre : (seen ++ [p]) <+: A.src.points := ⟨todo, by rw [h.pts]; simp⟩
    have hfitp := Fit.prefix hpre h.fit
    have hfit : Fit m u (A.acc.touch.points ++ [(p.1, v)]) := by
      refine ⟨?_, NoFluke.of_xs hxs hfitp.noFluke, fun hu => EquallySpaced.of_xs hxs (hfitp.uniform hu)⟩
      have hg' : ((seen ++ [p]).map Prod.fst).IsChain (fun x y : ℚ => x + m ≤ y) := by
        rw [List.isChain_map]; exact hfitp.gapped
      rw [← hxs, List.isChain_map] at hg'
      exact hg'
    obtain ⟨a1, a2, a3, a4, a5⟩ := append_fits h1.acc h1.force (p := (p.1, v)) hfit hbefore quiet
    refine ⟨v, { A with acc := (A.acc.touch.append (p.1, v) quiet).st }, rfl, ?_, a3, rfl, ?_⟩
    · unfold Accum.accumulate
      simp only [hlast, ht, hg, a1]
    · refine ⟨h.src, by rw [h.pts]; simp, h.fit, a2, a4.trans h.interp, a5.trans h.force, ?_, ?_, ?_,
        h.step, h.cache, h.idleB, h.idleE⟩
      · rw [runRule_append, h.run]
        simp only [List.nil_append, runRule, hg, a3]
        rfl
      · simp
      · intro _; exact hst

/-- What is left to process for a query at `x`. -/
def need (x : ℚ) (seen todo : List (Pt ℚ)) : List (Pt ℚ) :=
  if (seen.getLast?.map Prod.fst).all (fun c => decide (c < x)) then upTo x todo else []

/-- The loop processes exactly the knots needed. -/
theorem scanLoop_spec {t : Tfm} (hf : Follows m t g) (hm : 0 < m) (x : ℚ) :
    ∀ (todo seen : List (Pt ℚ)) (A : Accum) (n : ℕ), Sound g m i u A seen todo →
      (∃ p ∈ seen ++ todo, x ≤ p.1) → todo.length < n →
      ∃ o, scanLoop t x n A = some o ∧ o.st.src.points = A.src.points ∧
        o.calls = ruleCalls g seen A.acc.points (need x seen todo) ∧
        ((∃ out rest, runRule g seen A.acc.points (need x seen todo) = (out, none) ∧ o.res = .ok () ∧
          todo = need x seen todo ++ rest ∧ o.st.acc.points = out ∧
          Sound g m i u o.st (seen ++ need x seen todo) rest) ∨
        (∃ out e seen' todo', runRule g seen A.acc.points (need x seen todo) = (out, some e) ∧
          o.res = .error e ∧ Sound g m i u o.st seen' todo')) := by
  intro todo
  induction todo with
  | nil =>
    intro seen A n h hx hn
    obtain ⟨n, rfl⟩ : ∃ k, n = k + 1 := ⟨n - 1, by omega⟩
    have hcur : (seen.getLast?.map Prod.fst).all (fun c => decide (c < x)) = false := by
      obtain ⟨q, hq, hxq⟩ := hx
      rw [List.append_nil] at hq
      have hne : seen ≠ [] := List.ne_nil_of_mem hq
      have hl := List.getLast?_eq_some_getLast hne
      have hasc := h.asc
      rw [List.append_nil] at hasc
      have := le_getLast hasc hl hq
      rw [hl]
      simp only [Option.map_some, Option.all_some, decide_eq_false_iff_not, not_lt]
      linarith
    have hneed : need x seen [] = [] := by unfold need; rw [hcur]; rfl
    refine ⟨⟨A, [], .ok ()⟩, ?_, rfl, by rw [hneed]; rfl, Or.inl ⟨A.acc.points, [], ?_, rfl, ?_, rfl, ?_⟩⟩
    · simp only [scanLoop, h.cur, hcur, Bool.false_eq_true, if_false]
    · rw [hneed]; rfl
    · rw [hneed]; rfl
    · rw [hneed, List.append_nil]; exact h
  | cons p ps ih =>
    intro seen A n h hx hn
    obtain ⟨n, rfl⟩ : ∃ k, n = k + 1 := ⟨n - 1, by omega⟩
    cases hcur : (seen.getLast?.map Prod.fst).all (fun c => decide (c < x)) with
    | false =>
      have hneed : need x seen (p :: ps) = [] := by unfold need; rw [hcur]; rfl
      refine ⟨⟨A, [], .ok ()⟩, ?_, rfl, by rw [hneed]; rfl, Or.inl ⟨A.acc.points, p :: ps, ?_, rfl, ?_, rfl, ?_⟩⟩
      · simp only [scanLoop, h.cur, hcur, Bool.false_eq_true, if_false]
      · rw [hneed]; rfl
      · rw [hneed]; rfl
      · rw [hneed, List.append_nil]; exact h
    | true =>
      have hneed : need x seen (p :: ps) = p :: need x (seen ++ [p]) ps := by
        unfold need
        rw [hcur, if_pos rfl]
        simp only [upTo, List.getLast?_append, List.getLast?_singleton, Option.some_or,
          Option.map_some, Option.all_some, decide_eq_true_eq]
        split <;> rfl
      obtain ⟨A1, hA1, s1, hst⟩ := h.nextPos hm x
      have s2 := s1.touchSrc
      have hcon : ({ A1 with src := A1.src.touch } : Accum).src.domVal.contains (.fin p.1) = true := by
        rw [s2.srcDom]; exact getDomain_contains_mem h.asc (by simp)
      have hadv : ({ A1 with src := A1.src.touch } : Accum).current.any (fun k => decide (p.1 ≤ k)) = false := by
        rw [s2.cur]
        cases hl : seen.getLast? with
        | none => rfl
        | some q =>
          have := (List.pairwise_append.1 h.asc).2.2 q (List.mem_of_getLast? hl) p (by simp)
          simpa using this
      have hy : ({ A1 with src := A1.src.touch } : Accum).src.y (.fin p.1) = .ok p.2 :=
        Props.C01_stored_value s2.src (by rw [s2.pts]; simp)
      have hpts1 : A1.src.points = A.src.points := by rw [s1.pts, h.pts]
      have hacc1 : A1.acc.points = A.acc.points := by
        have := s1.run.symm.trans h.run
        simpa using this
      rcases s2.accumulate hf hm hst with ⟨e, A2, hg, hac, s3, hsrc⟩ | ⟨v, A2, hg, hac, hap, hsrc, s3⟩
      · have hg' : g (seen ++ [p]) A.acc.points = .error e := by rw [← hacc1]; exact hg
        refine ⟨⟨A2, [(p.1, p.2, lastOut A.acc.points)], .error e⟩, ?_, ?_, ?_, Or.inr ⟨A.acc.points, e, seen, p :: ps, ?_, rfl, s3⟩⟩
        · simp only [scanLoop, h.cur, hcur, if_true, hA1, hcon, Bool.not_true, Bool.false_eq_true,
            if_false, hadv, hy, hac, hacc1]
        · rw [hsrc]; exact hpts1
        · rw [hneed]; simp only [ruleCalls, hg']
        · rw [hneed]; simp only [runRule, hg']
      · have hg' : g (seen ++ [p]) A.acc.points = .ok v := by rw [← hacc1]; exact hg
        have hap' : A2.acc.points = A.acc.points ++ [(p.1, v)] := by rw [hap, ← hacc1]
        obtain ⟨o, ho, hop, hoc, hor⟩ := ih (seen ++ [p]) { A2 with current := some p.1 } n s3
          (by simpa using hx) (by simpa using hn)
        have hacA : ({ A2 with current := some p.1 } : Accum).acc.points = A.acc.points ++ [(p.1, v)] := hap'
        rw [hacA] at hoc hor
        refine ⟨⟨o.st, [(p.1, p.2, lastOut A.acc.points)] ++ o.calls, o.res⟩, ?_, ?_, ?_, ?_⟩
        · simp only [scanLoop, h.cur, hcur, if_true, hA1, hcon, Bool.not_true, Bool.false_eq_true,
            if_false, hadv, hy, hac, hacc1, ho]
        · rw [hop]
          show A2.src.points = _
          rw [hsrc]; exact hpts1
        · rw [hneed]; simp only [ruleCalls, hg', hoc, List.singleton_append]
        · rw [hneed]
          have hr : runRule g seen A.acc.points (p :: need x (seen ++ [p]) ps) =
              runRule g (seen ++ [p]) (A.acc.points ++ [(p.1, v)]) (need x (seen ++ [p]) ps) := by
            simp only [runRule, hg']
          rw [hr]
          rcases hor with ⟨out, rest, h1, h2, h3, h4, h5⟩ | ⟨out, e, s', t', h1, h2, h3⟩
          · left
            refine ⟨out, rest, h1, h2, ?_, h4, ?_⟩
            · rw [List.cons_append, ← h3]
            · have : seen ++ p :: need x (seen ++ [p]) ps = seen ++ [p] ++ need x (seen ++ [p]) ps := by simp
              rw [this]; exact h5
          · exact Or.inr ⟨out, e, s', t', h1, h2, h3⟩

/-! ## Queries -/

theorem getDomain_eq_span' (pts : List (Pt ℚ)) : getDomain pts = span pts := getDomain_eq_span pts

theorem Sound.resetStale (h : Sound g m i u A seen todo) {x : ℚ}
    (hx : (span (seen ++ todo)).contains (.fin x) = true) :
    ∃ A', (if A.scanStart.any (fun s => decide (x < s)) then A.resetScan else A) = A' ∧
      Sound g m i u A' seen todo ∧ A'.src.points = A.src.points ∧
      A'.acc.points = A.acc.points := by
  by_cases hs : A.scanStart.any (fun s => decide (x < s)) = true
  · rw [if_pos hs]
    have hseen : seen = [] := by
      by_contra hne
      have h0 := h.start hne
      cases hse : seen with
      | nil => exact hne hse
      | cons a as =>
        rw [h0, hse] at hs
        rw [← getDomain_eq_span'] at hx
        obtain ⟨p, q, hp, _, h1, _⟩ := (getDomain_contains_fin _ _).1 hx
        rw [hse] at hp
        simp only [List.cons_append, List.getElem?_cons_zero, Option.some.injEq] at hp
        subst hp
        simp only [List.head?_cons, Option.map_some, Option.any_some, decide_eq_true_eq] at hs
        linarith
    subst hseen
    obtain ⟨r1, r2, r3, r4, r5⟩ := reset_none_ok h.acc quiet
    have hacc : A.acc.points = [] := by
      have := h.run
      simp only [runRule, Prod.mk.injEq, and_true] at this
      exact this.symm
    refine ⟨A.resetScan, rfl, ⟨h.src, h.pts, h.fit, r2, r4.trans h.interp, r5.trans h.force, ?_, rfl,
      by simp, h.step, h.cache, h.idleB, h.idleE⟩, rfl, ?_⟩
    · show runRule g [] [] [] = ((A.acc.reset none quiet).st.points, none)
      rw [r3]; rfl
    · show (A.acc.reset none quiet).st.points = _
      rw [r3, hacc]
  · rw [if_neg hs]
    exact ⟨A, rfl, h, rfl, rfl⟩

/-- A query inside the domain: the scan. -/
theorem Sound.query_inside {t : Tfm} (hf : Follows m t g) (hm : 0 < m)
    (h : Sound g m i u A seen todo) {x : ℚ}
    (hx : (span (seen ++ todo)).contains (.fin x) = true) :
    ∃ o, A.query t (.fin x) = some o ∧ o.st.src.points = A.src.points ∧
      o.calls = ruleCalls g seen A.acc.points (need x seen todo) ∧
      ((∃ out rest, runRule g seen A.acc.points (need x seen todo) = (out, none) ∧
          todo = need x seen todo ++ rest ∧ o.res = .ok (valueAt i out x) ∧
          Sound g m i u o.st (seen ++ need x seen todo) rest) ∨
        (∃ out e seen' todo', runRule g seen A.acc.points (need x seen todo) = (out, some e) ∧
          o.res = .error e ∧ Sound g m i u o.st seen' todo')) := by
  have h1 := h.touchSrc
  have hin : ({ A with src := A.src.touch } : Accum).src.domVal.contains (.fin x) = true := by
    rw [h1.srcDom, getDomain_eq_span]; exact hx
  obtain ⟨A', hA', s', hp', ha'⟩ := h1.resetStale hx
  have hreach : ∃ p ∈ seen ++ todo, x ≤ p.1 := by
    rw [← getDomain_eq_span'] at hx
    obtain ⟨p, q, _, hq, _, h2⟩ := (getDomain_contains_fin _ _).1 hx
    exact ⟨q, List.mem_of_getElem? hq, h2⟩
  have hlen : todo.length < A'.src.points.length + 2 := by
    rw [s'.pts, List.length_append]; omega
  obtain ⟨o, ho, hop, hoc, hor⟩ := scanLoop_spec hf hm x todo seen A' _ s' hreach hlen
  have hap : A'.acc.points = A.acc.points := ha'
  rw [hap] at hoc hor
  have hscan : ({ A with src := A.src.touch } : Accum).scan t x = some o := by
    unfold scan
    simp only
    rw [hA']
    exact ho
  have hpts : o.st.src.points = A.src.points := hop.trans hp'
  rcases hor with ⟨out, rest, r1, r2, r3, r4, r5⟩ | ⟨out, e, seen', todo', r1, r2, r3⟩
  · refine ⟨⟨{ o.st with acc := o.st.acc.touch }, o.calls, o.st.acc.y (.fin x)⟩, ?_, hpts, hoc,
      Or.inl ⟨out, rest, r1, r3, ?_, r5.touchAcc⟩⟩
    · unfold query
      simp only [hin, if_true, Bool.not_true, Bool.false_eq_true, if_false, hscan, r2]
    · show o.st.acc.y (.fin x) = _
      rw [y_eq r5.acc.wf, r5.interp, r4]; rfl
  · refine ⟨⟨o.st, o.calls, .error e⟩, ?_, hpts, hoc, Or.inr ⟨out, e, seen', todo', r1, rfl, r3⟩⟩
    unfold query
    simp only [hin, if_true, Bool.not_true, Bool.false_eq_true, if_false, hscan, r2]

theorem Sound.query_outside {t : Tfm} (h : Sound g m i u A seen todo) {x : Ext}
    (hx : (span (seen ++ todo)).contains x = false) :
    ∃ o, A.query t x = some o ∧ o.st.src.points = A.src.points ∧ o.calls = [] ∧
      o.res = .ok none ∧ Sound g m i u o.st seen todo := by
  have h1 := h.touchSrc
  have h2 := h1.touch
  have hin : ({ A with src := A.src.touch } : Accum).src.domVal.contains x = false := by
    rw [h1.srcDom, getDomain_eq_span]; exact hx
  have hin2 : ({ A with src := A.src.touch } : Accum).touch.domVal.contains x = false := by
    rw [h2.dom, getDomain_eq_span]; exact hx
  refine ⟨⟨({ A with src := A.src.touch } : Accum).touch, [], .ok none⟩, ?_, ?_, rfl, rfl, h2⟩
  · unfold query
    simp only [hin, Bool.false_eq_true, if_false, hin2, Bool.not_false, if_true]
  · show ({ A with src := A.src.touch } : Accum).touch.src.points = _
    rw [touch_points]; rfl

/-- Scanning from anywhere gives what a scan from the start gives. -/
theorem runRule_need {out : List (Pt ℚ)} (hasc : Ascending (seen ++ todo))
    (hrun : runRule g [] [] seen = (out, none)) {x : ℚ} :
    (match runRule g [] [] (upTo x (seen ++ todo)) with
      | (out', none) => (.ok (valueAt i out' x) : Except Err (Option ℚ))
      | (_, some e) => .error e) =
      match runRule g seen out (need x seen todo) with
      | (out', none) => .ok (valueAt i out' x)
      | (_, some e) => .error e := by
  have hseen : Ascending seen := (List.pairwise_append.1 hasc).1
  by_cases hc : (seen.getLast?.map Prod.fst).all (fun c => decide (c < x)) = true
  · -- every seen knot is below `x`
    have hall : ∀ p ∈ seen, p.1 < x := by
      intro p hp
      have hne : seen ≠ [] := List.ne_nil_of_mem hp
      have hl := List.getLast?_eq_some_getLast hne
      rw [hl] at hc
      have h1 := le_getLast hseen hl hp
      simp only [Option.map_some, Option.all_some, decide_eq_true_eq] at hc
      linarith
    rw [upTo_append hall, runRule_append, hrun]
    simp only [List.nil_append, need, hc, if_true]
  · -- the scan is already past `x`
    have hneed : need x seen todo = [] := by unfold need; rw [if_neg hc]
    rw [hneed]
    simp only [runRule]
    have hpast : ∃ p ∈ seen, x ≤ p.1 := by
      cases hl : seen.getLast? with
      | none => rw [hl] at hc; exact absurd rfl hc
      | some q =>
        rw [hl] at hc
        refine ⟨q, List.mem_of_getLast? hl, ?_⟩
        simpa using hc
    rw [upTo_append_of_reached hpast]
    obtain ⟨rest, hrest⟩ := upTo_prefix x seen
    have hrun' := hrun
    rw [← hrest, runRule_append] at hrun'
    cases hu : runRule g [] [] (upTo x seen) with
    | mk o1 e =>
      rw [hu] at hrun'
      cases e with
      | some e => cases hrun'
      | none =>
        simp only at hrun' ⊢
        congr 1
        obtain ⟨more, hmore⟩ := runRule_prefix hrun'
        have hxs := runRule_xs hrun
        have hasc' : Ascending out := by
          have h1 : (seen.map Prod.fst).Pairwise (· < ·) := List.pairwise_map.2 hseen
          have h2 : (out.map Prod.fst).Pairwise (· < ·) := by
            rw [show out.map Prod.fst = seen.map Prod.fst by simpa using hxs]; exact h1
          exact List.pairwise_map.1 h2
        rw [← hmore] at hasc' ⊢
        refine (valueAt_append_left i hasc' ?_).symm
        obtain ⟨p, hp, hxp⟩ := upTo_reaches hpast
        have hx1 := runRule_xs hu
        have : p.1 ∈ o1.map Prod.fst := by
          rw [hx1]
          simpa using ⟨p.2, hp⟩
        obtain ⟨q, hq, hqp⟩ := List.mem_map.1 this
        exact ⟨q, hq, by rw [hqp]; exact hxp⟩

/-- Scanning from anywhere gives what a scan from the start gives. -/
theorem fold_need {out : List (Pt ℚ)} (hasc : Ascending (seen ++ todo))
    (hrun : runRule g [] [] seen = (out, none)) {x : ℚ}
    (hx : (span (seen ++ todo)).contains (.fin x) = true) :
    accumulatedAt g i (seen ++ todo) (.fin x) =
      match runRule g seen out (need x seen todo) with
      | (out', none) => .ok (valueAt i out' x)
      | (_, some e) => .error e := by
  rw [← runRule_need hasc hrun]
  simp only [accumulatedAt, hx, if_true]
  rfl

/-- What a query returns, and what it leaves behind. -/
theorem Sound.query {t : Tfm} (hf : Follows m t g) (hm : 0 < m) (h : Sound g m i u A seen todo)
    (x : Ext) : ∃ o, A.query t x = some o ∧ o.st.src.points = A.src.points ∧
      o.res = accumulatedAt g i A.src.points x ∧ ∃ seen' todo', Sound g m i u o.st seen' todo' := by
  cases hx : (span (seen ++ todo)).contains x with
  | false =>
    obtain ⟨o, h1, h2, _, h4, h5⟩ := h.query_outside (t := t) hx
    refine ⟨o, h1, h2, ?_, seen, todo, h5⟩
    rw [h4, h.pts]
    unfold accumulatedAt
    cases x with
    | ninf => rfl
    | pinf => rfl
    | fin q => simp [hx]
  | true =>
    cases x with
    | ninf => rw [← getDomain_eq_span, (getDomain_contains_inf _).2] at hx; cases hx
    | pinf => rw [← getDomain_eq_span, (getDomain_contains_inf _).1] at hx; cases hx
    | fin q =>
      obtain ⟨o, h1, h2, _, h4⟩ := h.query_inside hf hm hx
      refine ⟨o, h1, h2, ?_, ?_⟩
      · rw [h.pts, fold_need h.asc h.run hx]
        rcases h4 with ⟨out, rest, r1, _, r3, _⟩ | ⟨out, e, _, _, r1, r2, _⟩
        · rw [r1, r3]
        · rw [r1, r2]
      · rcases h4 with ⟨out, rest, r1, _, r3, r4⟩ | ⟨out, e, s', t', r1, r2, r3⟩
        · exact ⟨_, _, r4⟩
        · exact ⟨_, _, r3⟩

/-! ## Edits -/

theorem updateInterval_geLo (d : Iv) (x : Ext) : (updateInterval d).geLo x = d.geLo x := rfl

theorem touches_eq (d : Iv) (c : ℚ) : touches (updateInterval d) c = d.geLo (.fin c) := by
  rw [Bool.eq_iff_iff, Iv.geLo_iff]
  unfold touches
  rw [Bool.or_eq_true, Bool.and_eq_true, decide_eq_true_iff, decide_eq_true_iff]
  simp [updateInterval]

theorem geLo_le {d : Iv} {a b : ℚ} (h : a ≤ b) (hb : d.geLo (.fin b) = false) :
    d.geLo (.fin a) = false := by
  by_contra hc
  have : d.geLo (.fin b) = true := geLo_mono_x h (by simpa using hc)
  rw [hb] at this; cases this

/-- What the accumulator does when an update of its source begins. -/
theorem onBegin_spec (hacc : Honest A.acc) (hrun : runRule g [] [] seen = (A.acc.points, none))
    (hcur : A.current = seen.getLast?.map Prod.fst)
    (hstart : seen ≠ [] → A.scanStart = seen.head?.map Prod.fst) (hasc : Ascending seen) (d : Iv) :
    ∃ A1 seen', A.onBegin d = ((gateBegin A1 (updateInterval d)).1,
        (gateBegin A1 (updateInterval d)).2, none) ∧
      A1.src = A.src ∧ A1.cache = A.cache ∧ A1.bIv = A.bIv ∧ A1.eIv = A.eIv ∧
      A1.minStep = A.minStep ∧ Honest A1.acc ∧ A1.acc.interp = A.acc.interp ∧
      A1.acc.force = A.acc.force ∧ runRule g [] [] seen' = (A1.acc.points, none) ∧
      A1.current = seen'.getLast?.map Prod.fst ∧
      (seen' ≠ [] → A1.scanStart = seen'.head?.map Prod.fst) ∧
      ((seen' = [] ∧ ∃ p ∈ seen, d.geLo (.fin p.1) = true) ∨
        (seen' = seen ∧ ∀ p ∈ seen, d.geLo (.fin p.1) = false)) := by
  have hempty : ∀ B : Accum, B.acc.points = [] →
      B.beginUpdate (updateInterval d) = ((gateBegin B (updateInterval d)).1,
        (gateBegin B (updateInterval d)).2, none) := by
    intro B hp
    have : B.acc.reset (some (updateInterval d)) quiet = ⟨B.acc, [], none⟩ := by
      simp [Pts.reset, hp]
    simp only [Accum.beginUpdate, this]
  by_cases hseen : seen = []
  · subst hseen
    have hp : A.acc.points = [] := by
      simp only [runRule, Prod.mk.injEq, and_true] at hrun
      exact hrun.symm
    refine ⟨A, [], ?_, rfl, rfl, rfl, rfl, rfl, hacc, rfl, rfl, hrun, hcur, hstart, Or.inr ⟨rfl, by simp⟩⟩
    have hc : A.current = none := hcur
    have h1 : A.dropScanned (updateInterval d) = A := by simp [dropScanned, hc]
    have h2 : A.dropBackwards = A := by simp [dropBackwards, hc]
    simp only [onBegin, h1, h2]
    exact hempty A hp
  · obtain ⟨q, hq⟩ : ∃ q, seen.getLast? = some q := ⟨_, List.getLast?_eq_some_getLast hseen⟩
    obtain ⟨f, fs, hfs⟩ := List.exists_cons_of_ne_nil hseen
    have hc : A.current = some q.1 := by rw [hcur, hq]; rfl
    cases ht : d.geLo (.fin q.1) with
    | true =>
      obtain ⟨r1, r2, r3, r4, r5⟩ := reset_none_ok hacc quiet
      refine ⟨A.resetScan, [], ?_, rfl, rfl, rfl, rfl, rfl, r2, r4, r5, ?_, rfl, by simp,
        Or.inl ⟨rfl, q, List.mem_of_getLast? hq, ht⟩⟩
      · have h1 : A.dropScanned (updateInterval d) = A.resetScan := by
          simp [dropScanned, hc, touches_eq, ht]
        have h2 : A.resetScan.dropBackwards = A.resetScan := rfl
        simp only [onBegin, h1, h2]
        exact hempty A.resetScan r3
      · show runRule g [] [] [] = ((A.acc.reset none quiet).st.points, none)
        rw [r3]; rfl
    | false =>
      have hall : ∀ p ∈ seen, d.geLo (.fin p.1) = false := fun p hp =>
        geLo_le (le_getLast hasc hq hp) ht
      have hss : A.scanStart = some f.1 := by rw [hstart hseen, hfs]; rfl
      have hle : ¬ q.1 < f.1 := not_lt.2 (le_getLast hasc hq (by rw [hfs]; simp))
      have hxs : A.acc.points.map Prod.fst = seen.map Prod.fst := by simpa using runRule_xs hrun
      have hallacc : ∀ p ∈ A.acc.points, (updateInterval d).geLo (.fin p.1) = false := by
        intro p hp
        have : p.1 ∈ A.acc.points.map Prod.fst := List.mem_map_of_mem hp
        rw [hxs] at this
        obtain ⟨p', hp', hpp⟩ := List.mem_map.1 this
        rw [updateInterval_geLo, ← hpp]
        exact hall p' hp'
      have h1 : A.dropScanned (updateInterval d) = A := by simp [dropScanned, hc, touches_eq, ht]
      have h2 : A.dropBackwards = A := by simp [dropBackwards, hc, hss, hle]
      rcases reset_after hacc hallacc quiet with hr | hr
      · refine ⟨A, seen, ?_, rfl, rfl, rfl, rfl, rfl, hacc, rfl, rfl, hrun, hcur, hstart, Or.inr ⟨rfl, hall⟩⟩
        simp only [onBegin, h1, h2, Accum.beginUpdate, hr]
      · refine ⟨{ A with acc := A.acc.touch }, seen, ?_, rfl, rfl, rfl, rfl, rfl, .read hacc, rfl,
          rfl, hrun, hcur, hstart, Or.inr ⟨rfl, hall⟩⟩
        simp only [onBegin, h1, h2, Accum.beginUpdate, hr]

theorem gate_roundtrip {B : Accum} (hb : B.bIv = Iv.empty) (he : B.eIv = Iv.empty) {d : Iv}
    (hd : d.isEmpty = false) :
    gateBegin B d = ({ B with bIv := d }, [d]) ∧
    gateEnd { B with bIv := d } d = ({ B with bIv := Iv.empty, eIv := Iv.empty, cache := none }, [d]) := by
  constructor
  · unfold gateBegin
    simp [hb, hd, superset_empty hd, Iv.union_empty_left hd]
  · unfold gateEnd
    simp [he, hd, superset_empty hd, Iv.union_empty_left hd, Iv.superset_refl]

/-- An edit of the source leaves the accumulator sound. -/
theorem Sound.edit (h : Sound g m i u A seen todo) {op : Op ℚ} (hl : op.Legal) (r : Reads)
    (hlate : lateError (op.run A.src r).err = false) (ht : Truthful (op.run A.src r).st)
    (hfit : Fit m u (op.run A.src r).st.points) :
    (A.edit op r).2 = none ∧ (A.edit op r).1.src = (op.run A.src r).st ∧
      ∃ seen' todo', Sound g m i u (A.edit op r).1 seen' todo' := by
  have hh : Honest (op.run A.src r).st := .edit h.src hl hlate ht
  -- nothing changed in the source
  have hsame : ∀ s' : Pts ℚ, Honest s' → s'.points = A.src.points →
      Sound g m i u { A with src := s' } seen todo := by
    intro s' hs' hp'
    exact ⟨hs', by rw [← h.pts]; exact hp', by show Fit m u s'.points; rw [hp']; exact h.fit, h.acc,
      h.interp, h.force, h.run, h.cur, h.start, h.step, by rw [hp']; exact h.cache, h.idleB, h.idleE⟩
  have hseen : Ascending seen := (List.pairwise_append.1 h.asc).1
  cases outcome h.src.base h.src.wf hl r with
  | idle hs hev _ _ =>
    have hp : (op.run A.src r).st.points = A.src.points := by
      rcases hs with hs | hs <;> rw [hs] <;> rfl
    have he : A.edit op r = ({ A with src := (op.run A.src r).st }, none) := by
      simp only [Accum.edit, hev, notifyAll]
    rw [he]
    exact ⟨rfl, rfl, seen, todo, hsame _ hh hp⟩
  | stuck iv e he _ hst => rw [hst.err, he] at hlate; cases hlate
  | edited iv hed hk =>
    rw [← hed.points] at hk
    rcases hed.ev with ⟨_, hev, hpp⟩ | ⟨hne, a, b, hev, _⟩
    · have he : A.edit op r = ({ A with src := (op.run A.src r).st }, none) := by
        simp only [Accum.edit, hev, notifyAll]
      rw [he]
      exact ⟨rfl, rfl, seen, todo, hsame _ hh (by rw [hed.points, hpp])⟩
    · set s' := (op.run A.src r).st with hs'
      obtain ⟨A1, seen', hb, e1, e2, e3, e4, e5, e6, e7, e8, e9, e10, e11, e12⟩ :=
        onBegin_spec (A := { A with src := s' }) (seen := seen) h.acc h.run h.cur h.start hseen iv
      have hB : A1.bIv = Iv.empty := e3.trans h.idleB
      have hE : A1.eIv = Iv.empty := e4.trans h.idleE
      have hedit : A.edit op r = (((gateBegin A1 (updateInterval iv)).1.gateEnd (updateInterval iv)).1, none) := by
        simp only [Accum.edit, hev, notifyAll, notify, ← hs', hb, onEnd]
      by_cases hinf : iv.lo = .pinf
      · -- an update of nothing
        have hno : ∀ x : ℚ, iv.geLo (.fin x) = false := by
          intro x
          by_contra hc
          have := (Iv.geLo_iff _ _).1 (by simpa using hc)
          rw [hinf] at this
          simp at this
        have hpts : s'.points = A.src.points := by
          refine ascending_ext hh.wf.asc h.src.wf.asc fun p => hk p ?_
          by_contra hc
          have := ((Iv.contains_iff _ _).1 (by simpa using hc)).1
          rw [hno] at this; cases this
        have hs1 : seen' = seen := by
          rcases e12 with ⟨_, p, _, hp⟩ | ⟨h1, _⟩
          · rw [hno] at hp; cases hp
          · exact h1
        subst hs1
        have hem : (updateInterval iv).isEmpty = true := by
          simp [Iv.isEmpty, updateInterval, hinf]
        have hg1 : gateBegin A1 (updateInterval iv) = (A1, []) := by simp [gateBegin, hem]
        have hg2 : gateEnd A1 (updateInterval iv) = (A1, []) := by simp [gateEnd, hem]
        rw [hedit, hg1, hg2]
        refine ⟨rfl, e1, seen', todo, ?_⟩
        exact ⟨by rw [e1]; exact hh, by rw [e1]; exact hpts.trans h.pts, by rw [e1]; exact hfit, e6,
          e7.trans h.interp, e8.trans h.force, e9, e10, e11, e5.trans h.step,
          by rw [e2, e1]; show A.cache = none ∨ A.cache = some (getDomain s'.points); rw [hpts]; exact h.cache,
          hB, hE⟩
      · have hem : (updateInterval iv).isEmpty = false := by
          rw [Iv.not_isEmpty_iff]
          left
          exact lt_of_le_of_ne (Ext.le_pinf _) hinf
        obtain ⟨hg1, hg2⟩ := gate_roundtrip hB hE hem
        rw [hedit, hg1, hg2]
        have hsplit : ∃ todo', s'.points = seen' ++ todo' := by
          rcases e12 with ⟨h1, _⟩ | ⟨h1, h2⟩
          · exact ⟨s'.points, by rw [h1]; rfl⟩
          · subst h1
            cases hl : seen'.getLast? with
            | none =>
              rw [List.getLast?_eq_none_iff] at hl
              exact ⟨s'.points, by rw [hl]; rfl⟩
            | some q =>
              have hq := List.mem_of_getLast? hl
              have hbefore : ∀ p : Pt ℚ, p.1 ≤ q.1 → (p ∈ s'.points ↔ p ∈ A.src.points) := by
                intro p hp
                refine hk p ?_
                by_contra hc
                have := ((Iv.contains_iff _ _).1 (by simpa using hc)).1
                rw [geLo_le hp (h2 q hq)] at this; cases this
              have hsorted := hh.wf.asc
              refine ⟨s'.points.filter (fun p => decide (q.1 < p.1)), ?_⟩
              refine ascending_ext hsorted ?_ ?_
              · refine List.pairwise_append.2 ⟨hseen, hsorted.filter _, ?_⟩
                intro p hp p' hp'
                have h3 := le_getLast hseen hl hp
                have h4 : q.1 < p'.1 := by simpa using (List.mem_filter.1 hp').2
                linarith
              · intro p
                rw [List.mem_append, List.mem_filter]
                constructor
                · intro hp
                  by_cases hle : p.1 ≤ q.1
                  · left
                    have hp' := (hbefore p hle).1 hp
                    rw [h.pts] at hp'
                    rcases List.mem_append.1 hp' with hp' | hp'
                    · exact hp'
                    · have := (List.pairwise_append.1 h.asc).2.2 q hq p hp'
                      linarith
                  · exact Or.inr ⟨hp, by simpa using hle⟩
                · rintro (hp | hp)
                  · refine (hbefore p (le_getLast hseen hl hp)).2 ?_
                    rw [h.pts]; exact List.mem_append_left _ hp
                  · exact hp.1
        obtain ⟨todo', htodo⟩ := hsplit
        refine ⟨rfl, e1, seen', todo', ?_⟩
        exact ⟨by show Honest A1.src; rw [e1]; exact hh, by show A1.src.points = _; rw [e1]; exact htodo,
          by show Fit m u A1.src.points; rw [e1]; exact hfit, e6, e7.trans h.interp, e8.trans h.force, e9, e10,
          e11, e5.trans h.step, Or.inl rfl, rfl, rfl⟩

/-- A fresh accumulator is sound. -/
theorem Sound.new {s : Pts ℚ} (hs : Honest s) (hfit : Fit m u s.points) :
    Sound g m i u (Accum.new s m i u) [] s.points := by
  have hn : (Pts.new [] i u : Except Err (Pts ℚ)) = .ok (((blank i u).set [] none quiet).st) := by
    have : ((blank i u : Pts ℚ).set [] none quiet).err = none := by cases i <;> cases u <;> decide +kernel
    unfold Pts.new
    simp only [show (⟨false, false⟩ : Reads) = quiet from rfl, this]
  obtain ⟨h1, h2, h3, h4, _⟩ := new_ok (pts := []) List.Pairwise.nil hn
  have hacc : Honest ((blank i u : Pts ℚ).set [] none quiet).st := by
    refine .new (pts := []) List.Pairwise.nil hn ?_
    intro _
    rw [h2]; exact equallySpaced_of_length_le_two (by simp)
  exact ⟨hs, rfl, hfit, hacc, h3, h4, by show runRule g [] [] [] = (_, none); rw [show (Accum.new s m i u).acc.points = [] from h2]; rfl, rfl, by simp, rfl, Or.inl rfl, rfl, rfl⟩

end Accum
end Curvepy
