import Verif.Spec.CurveScan
import Verif.Lemmas.Scan

/-!
# Scans of any curve
-/

namespace Curvepy
namespace CScan
open Spec Pts

/-- Between two queries: the accumulated points are the fold over the knots `seen`. -/
structure Sane (g : Rule) (m : ℚ) (i : Interp) (u : Bool) (A : CScan) (seen todo : List (Pt ℚ)) : Prop where
  fit : Fit m u (seen ++ todo)
  acc : Honest A.acc
  interp : A.acc.interp = i
  force : A.acc.force = u
  run : runRule g [] [] seen = (A.acc.points, none)
  cur : A.current = seen.getLast?.map Prod.fst
  start : seen ≠ [] → A.scanStart = seen.head?.map Prod.fst
  step : A.minStep = m

variable {Q : ℚ → Prop} {c : Crv} {t : PTfm} {m : ℚ} {i : Interp} {u : Bool} {A : CScan} {seen todo : List (Pt ℚ)}
  {p : Pt ℚ} {g : Rule}

theorem Sane.accXs (h : Sane g m i u A seen todo) : A.acc.points.map Prod.fst = seen.map Prod.fst := by
  simpa using runRule_xs h.run

theorem Sane.asc (h : Sane g m i u A seen todo) (hm : 0 < m) : Ascending (seen ++ todo) :=
  ascending_of_gapped hm h.fit.gapped

theorem Sane.touch (h : Sane g m i u A seen todo) : Sane g m i u { A with acc := A.acc.touch } seen todo :=
  ⟨h.fit, .read h.acc, h.interp, h.force, h.run, h.cur, h.start, h.step⟩

theorem Sane.mem_cur (h : Sane g m i u A seen todo) {k : ℚ} (hc : A.current = some k) :
    ∃ pre q, seen = pre ++ [q] ∧ q.1 = k := by
  rw [h.cur] at hc
  rcases List.eq_nil_or_concat seen with rfl | ⟨pre, q, rfl⟩
  · cases hc
  · exact ⟨pre, q, by simp, by simpa using hc⟩

theorem span_lo {pts : List (Pt ℚ)} {p : Pt ℚ} (h : pts.head? = some p) : (span pts).lo = .fin p.1 := by
  rw [← getDomain_eq_span]
  cases pts with
  | nil => cases h
  | cons q qs => cases h; rfl

/-- A curve that has its knots shows them. -/
theorem _root_.Curvepy.Spec.Stepped.shown {pts : List (Pt ℚ)} (h : Stepped Q m c pts) (hasc : Ascending pts) :
    Shown Q m c pts := by
  refine ⟨h.ne, fun p hp => by rw [h.dom, ← getDomain_eq_span]; exact getDomain_contains_mem hasc hp, h.lo, h.val, h.next, ?_⟩
  intro pre p hp x _ hd hlt
  exfalso
  rw [h.dom, ← getDomain_eq_span] at hd
  obtain ⟨_, q, _, hq, _, h2⟩ := (getDomain_contains_fin _ _).1 hd
  have := Accum.le_getLast hasc (p := p) (by rw [hp]; simp) (List.mem_of_getElem? hq)
  linarith

theorem _root_.Curvepy.Spec.Stepped.answer {pts : List (Pt ℚ)} (h : Stepped Q m c pts) (g : Rule) (i : Interp) (x : ℚ) :
    accumulatedIn c.dom g i pts x = accumulatedAt g i pts (.fin x) := by
  simp only [accumulatedIn, accumulatedAt, h.dom]
  rfl

/-- Where the scan goes next. -/
theorem Sane.nextPos (h : Sane g m i u A seen (p :: todo)) (hs : Shown Q m c (seen ++ p :: todo)) (hm : 0 < m)
    {x : ℚ} (hx : Q x) (hcur : A.current.all (fun k => decide (k < x)) = true) :
    ∃ A', A.nextPos c x = .ok (A', some (.fin p.1)) ∧ Sane g m i u A' seen (p :: todo) ∧
      A'.scanStart = (seen ++ [p]).head?.map Prod.fst ∧ A'.acc = A.acc := by
  have hasc := h.asc hm
  cases hc : A.current with
  | some k =>
    obtain ⟨pre, q, rfl, hqk⟩ := h.mem_cur hc
    refine ⟨A, ?_, h, ?_, rfl⟩
    · have hacc : A.acc.xNext (.fin k) (some m) = .ok none := by
        rcases Props.C06_x_next h.acc k m with ⟨z, _, ⟨r, hr, hrz, hz⟩, _⟩ | ⟨h1, _⟩
        · exfalso
          have : r.1 ∈ A.acc.points.map Prod.fst := List.mem_map_of_mem hr
          rw [h.accXs] at this
          obtain ⟨r', hr', hrr⟩ := List.mem_map.1 this
          have := Accum.le_getLast (List.pairwise_append.1 hasc).1 (p := q) (by simp) hr'
          linarith
        · exact h1
      have hsrc := hs.next pre q p todo (by simp) x hx (by
        rw [hc] at hcur; simpa [hqk] using hcur)
      rw [hqk] at hsrc
      simp only [CScan.nextPos, hc, CScan.xNext, h.step, hacc, hsrc, bind, Except.bind, Accum.pyOr, pure, Except.pure]
    · rw [h.start (by simp)]
      cases pre <;> rfl
  | none =>
    have hs0 : seen = [] := by
      have := h.cur
      rw [hc] at this
      cases hl : seen.getLast? with
      | none => simpa using hl
      | some q => rw [hl] at this; cases this
    subst hs0
    have hlo : c.dom.lo = .fin p.1 := by rw [hs.lo]; exact span_lo rfl
    have hcon : c.dom.contains (.fin p.1) = true := by
      exact hs.dom p (by simp)
    have hne : c.dom.isEmpty = false := Iv.not_isEmpty_of_mem hcon
    have hni : c.dom.isNegInf = false := by simp [Iv.isNegInf, hlo]
    refine ⟨{ A with scanStart := some p.1 }, ?_, ⟨h.fit, h.acc, h.interp, h.force, h.run, h.cur, by simp, h.step⟩, rfl, rfl⟩
    simp only [CScan.nextPos, hc, CScan.initScan, hne, hni, hlo, hcon, Bool.or_self, Bool.false_eq_true, if_false,
      Bool.not_true, bind, Except.bind, pure, Except.pure, Accum.finPart]

/-- The last value accumulated. -/
theorem lastOf_eq {acc : Pts ℚ} (h : Honest acc) {x : ℚ} (hb : ∀ q ∈ acc.points, q.1 < x) :
    Accum.lastOf acc x = .ok (lastOut acc.points) := by
  unfold Accum.lastOf
  have hd : acc.domVal = getDomain acc.points := h.wf.domVal
  rw [hd]
  cases ha : acc.points with
  | nil => simp [getDomain, lastOut]
  | cons a as =>
    have hne : (getDomain (a :: as)).isEmpty = false := by
      rw [← ha]; exact getDomain_not_isEmpty h.wf.asc (by rw [ha]; simp)
    have hhi : (getDomain (a :: as)).hi = .fin ((a :: as).getLast (by simp)).1 := rfl
    have hlm : (a :: as).getLast (by simp) ∈ acc.points := by rw [ha]; exact List.getLast_mem _
    have hlt : (getDomain (a :: as)).hi < .fin x := by
      rw [hhi, Ext.fin_lt_fin]; exact hb _ hlm
    rw [hne, if_neg (by simp), if_pos hlt, hhi]
    have := Props.C01_stored_value h (p := (a :: as).getLast (by simp)) hlm
    rw [this]
    simp [lastOut, List.getLast?_eq_some_getLast]

/-- One step of the transform. -/
theorem Sane.accumulate (hm : 0 < m) (h : Sane (plainRule t) m i u A seen (p :: todo))
    (hst : A.scanStart = (seen ++ [p]).head?.map Prod.fst) :
    (∃ e, plainRule t (seen ++ [p]) A.acc.points = .error e ∧ A.accumulate t p.1 p.2 = .error e) ∨
    (∃ v A', plainRule t (seen ++ [p]) A.acc.points = .ok v ∧ A.accumulate t p.1 p.2 = .ok A' ∧
      A'.acc.points = A.acc.points ++ [(p.1, v)] ∧
      Sane (plainRule t) m i u { A' with current := some p.1 } (seen ++ [p]) todo) := by
  have h1 := h.touch
  have hasc := h.asc hm
  have hbefore : ∀ q ∈ A.acc.points, q.1 < p.1 := by
    intro q hq
    have : q.1 ∈ A.acc.points.map Prod.fst := List.mem_map_of_mem hq
    rw [h.accXs] at this
    obtain ⟨q', hq', hqq⟩ := List.mem_map.1 this
    have := (List.pairwise_append.1 hasc).2.2 q' hq' p (by simp)
    linarith
  have hlast : Accum.lastOf A.acc.touch p.1 = .ok (lastOut A.acc.points) := lastOf_eq h1.acc hbefore
  have hr : plainRule t (seen ++ [p]) A.acc.points = t p.1 p.2 (lastOut A.acc.points) := by simp [plainRule]
  cases hg : t p.1 p.2 (lastOut A.acc.points) with
  | error e =>
    refine Or.inl ⟨e, hr.trans hg, ?_⟩
    simp only [CScan.accumulate, hlast, hg, bind, Except.bind]
  | ok v =>
    right
    have hxs : (A.acc.points ++ [(p.1, v)]).map Prod.fst = (seen ++ [p]).map Prod.fst := by simp [h.accXs]
    have hfitp : Fit m u (seen ++ [p]) := Fit.prefix ⟨todo, by simp⟩ h.fit
    have hfit : Fit m u (A.acc.touch.points ++ [(p.1, v)]) := by
      refine ⟨?_, NoFluke.of_xs hxs hfitp.noFluke, fun hu => EquallySpaced.of_xs hxs (hfitp.uniform hu)⟩
      have hg' : ((seen ++ [p]).map Prod.fst).IsChain (fun x y : ℚ => x + m ≤ y) := by
        rw [List.isChain_map]; exact hfitp.gapped
      rw [← hxs, List.isChain_map] at hg'
      exact hg'
    obtain ⟨a1, a2, a3, a4, a5⟩ := append_fits h1.acc h1.force (p := (p.1, v)) hfit hbefore Accum.quiet
    refine ⟨v, { A with acc := (A.acc.touch.append (p.1, v) Accum.quiet).st }, hr.trans hg, ?_, a3, ?_⟩
    · simp only [CScan.accumulate, hlast, hg, bind, Except.bind, a1]
    · refine ⟨by simpa using h.fit, a2, a4.trans h.interp, a5.trans h.force, ?_, by simp, fun _ => hst, h.step⟩
      rw [runRule_append, h.run]
      simp only [List.nil_append, runRule, hr.trans hg, a3]
      rfl

theorem rational_map (v : Option ℚ) : rational (v.map .fin) = .ok v := by cases v <;> rfl

/-- The loop processes exactly the knots needed. -/
theorem scanLoop_spec (hm : 0 < m) {x : ℚ} (hx : Q x) :
    ∀ (todo seen : List (Pt ℚ)) (A : CScan) (n : ℕ), Shown Q m c (seen ++ todo) →
      Sane (plainRule t) m i u A seen todo → c.dom.contains (.fin x) = true → todo.length < n →
      (∃ out e, runRule (plainRule t) seen A.acc.points (Accum.need x seen todo) = (out, some e) ∧
        scanLoop c t x n A = some (.error e)) ∨
      (∃ B rest, runRule (plainRule t) seen A.acc.points (Accum.need x seen todo) = (B.acc.points, none) ∧
        scanLoop c t x n A = some (.ok B) ∧ todo = Accum.need x seen todo ++ rest ∧
        Sane (plainRule t) m i u B (seen ++ Accum.need x seen todo) rest) := by
  intro todo
  induction todo with
  | nil =>
    intro seen A n hst h hr hn
    obtain ⟨n, rfl⟩ : ∃ k, n = k + 1 := ⟨n - 1, by omega⟩
    have hneed : Accum.need x seen [] = [] := by unfold Accum.need; split_ifs <;> rfl
    refine Or.inr ⟨A, [], by rw [hneed]; rfl, ?_, by rw [hneed]; rfl, by rw [hneed, List.append_nil]; exact h⟩
    cases hcur : (seen.getLast?.map Prod.fst).all (fun k => decide (k < x)) with
    | false => simp only [scanLoop, h.cur, hcur, Bool.false_eq_true, if_false]
    | true =>
      have hnp : A.nextPos c x = .ok (A, none) := by
        rw [List.append_nil] at hst
        rcases List.eq_nil_or_concat seen with rfl | ⟨pre, q, rfl⟩
        · exact absurd rfl hst.ne
        · rw [List.concat_eq_append] at *
          have hc : A.current = some q.1 := by rw [h.cur]; simp
          have hlt : q.1 < x := by simpa using hcur
          have hsrc := hst.last pre q rfl x hx hr hlt
          have hasc := h.asc hm
          rw [List.append_nil] at hasc
          have hacc : A.acc.xNext (.fin q.1) (some m) = .ok none := by
            rcases Props.C06_x_next h.acc q.1 m with ⟨z, _, ⟨r, hr, hrz, hz⟩, _⟩ | ⟨h1, _⟩
            · exfalso
              have : r.1 ∈ A.acc.points.map Prod.fst := List.mem_map_of_mem hr
              rw [h.accXs] at this
              obtain ⟨r', hr', hrr⟩ := List.mem_map.1 this
              have := Accum.le_getLast hasc (p := q) (by simp) hr'
              linarith
            · exact h1
          simp only [CScan.nextPos, hc, CScan.xNext, h.step, hacc, hsrc, bind, Except.bind, Accum.pyOr, pure, Except.pure]
      simp only [scanLoop, h.cur, hcur, if_true, hnp]
  | cons p ps ih =>
    intro seen A n hst h hr hn
    obtain ⟨n, rfl⟩ : ∃ k, n = k + 1 := ⟨n - 1, by omega⟩
    cases hcur : (seen.getLast?.map Prod.fst).all (fun k => decide (k < x)) with
    | false =>
      have hneed : Accum.need x seen (p :: ps) = [] := by unfold Accum.need; rw [hcur]; rfl
      refine Or.inr ⟨A, p :: ps, by rw [hneed]; rfl, ?_, by rw [hneed]; rfl, by rw [hneed, List.append_nil]; exact h⟩
      simp only [scanLoop, h.cur, hcur, Bool.false_eq_true, if_false]
    | true =>
      have hneed : Accum.need x seen (p :: ps) = p :: Accum.need x (seen ++ [p]) ps := by
        unfold Accum.need
        rw [hcur, if_pos rfl]
        simp only [upTo, List.getLast?_append, List.getLast?_singleton, Option.some_or, Option.map_some,
          Option.all_some, decide_eq_true_eq]
        split <;> rfl
      obtain ⟨A1, hA1, s1, hstart, hacc⟩ := h.nextPos hst hm hx (by rw [h.cur]; exact hcur)
      have hcon : c.dom.contains (.fin p.1) = true := by
        exact hst.dom p (by simp)
      have hadv : A1.current.any (fun k => decide (p.1 ≤ k)) = false := by
        rw [s1.cur]
        cases hl : seen.getLast? with
        | none => rfl
        | some q =>
          have := (List.pairwise_append.1 (h.asc hm)).2.2 q (List.mem_of_getLast? hl) p (by simp)
          simpa using this
      have hy : (c.y (.fin p.1) >>= rational) = .ok p.2 := by
        rw [hst.val p (by simp)]; exact rational_map _
      rcases s1.accumulate hm hstart with ⟨e, hg, hac⟩ | ⟨v, A2, hg, hac, hap, s3⟩
      · left
        rw [hacc] at hg
        refine ⟨A.acc.points, e, by rw [hneed]; simp only [runRule, hg], ?_⟩
        simp only [scanLoop, h.cur, hcur, if_true, hA1, hcon, Bool.not_true, Bool.false_eq_true, if_false, hadv, hy, hac]
      · rw [hacc] at hg hap
        have e1 : scanLoop c t x (n + 1) A = scanLoop c t x n { A2 with current := some p.1 } := by
          simp only [scanLoop, h.cur, hcur, if_true, hA1, hcon, Bool.not_true, Bool.false_eq_true, if_false, hadv, hy, hac]
        have e2 : runRule (plainRule t) seen A.acc.points (p :: Accum.need x (seen ++ [p]) ps) =
            runRule (plainRule t) (seen ++ [p]) (A.acc.points ++ [(p.1, v)]) (Accum.need x (seen ++ [p]) ps) := by
          simp only [runRule, hg]
        have e3 : seen ++ p :: Accum.need x (seen ++ [p]) ps = seen ++ [p] ++ Accum.need x (seen ++ [p]) ps := by simp
        have := ih (seen ++ [p]) { A2 with current := some p.1 } n (by simpa using hst) s3 hr
          (by simpa using hn)
        rw [hneed, e1, e2, e3]
        have hap' : ({ A2 with current := some p.1 } : CScan).acc.points = A.acc.points ++ [(p.1, v)] := hap
        rw [hap'] at this
        rcases this with ⟨out, e, h1, h2⟩ | ⟨B, rest, h1, h2, h3, h4⟩
        · exact Or.inl ⟨out, e, h1, h2⟩
        · exact Or.inr ⟨B, rest, h1, h2, by rw [List.cons_append, ← h3], h4⟩

theorem Sane.new {pts : List (Pt ℚ)} (hf : Fit m u pts) : Sane g m i u (CScan.new m i u) [] pts := by
  have hn : (Pts.new [] i u : Except Err (Pts ℚ)) = .ok (((blank i u).set [] none Accum.quiet).st) := by
    have : ((blank i u : Pts ℚ).set [] none Accum.quiet).err = none := by cases i <;> cases u <;> decide +kernel
    unfold Pts.new
    simp only [show (⟨false, false⟩ : Reads) = Accum.quiet from rfl, this]
  obtain ⟨h1, h2, h3, h4, _⟩ := new_ok (pts := []) List.Pairwise.nil hn
  have hacc : Honest ((blank i u : Pts ℚ).set [] none Accum.quiet).st := by
    refine .new (pts := []) List.Pairwise.nil hn ?_
    intro _
    rw [h2]; exact equallySpaced_of_length_le_two (by simp)
  exact ⟨hf, hacc, h3, h4, by show runRule g [] [] [] = (_, none); rw [show (CScan.new m i u).acc.points = [] from h2]; rfl, rfl, by simp, rfl⟩

/-- What a query answers, and the state it leaves. -/
theorem Sane.query (hm : 0 < m) (hs : Shown Q m c (seen ++ todo)) (h : Sane (plainRule t) m i u A seen todo) {x : ℚ} (hx : Q x)
    {n : ℕ} (hn : (seen ++ todo).length < n) :
    (∃ e, A.query c t n (.fin x) = some (.error e) ∧
      accumulatedIn c.dom (plainRule t) i (seen ++ todo) x = .error e) ∨
    (∃ B v seen' todo', A.query c t n (.fin x) = some (.ok (B, v)) ∧
      accumulatedIn c.dom (plainRule t) i (seen ++ todo) x = .ok v ∧ seen' ++ todo' = seen ++ todo ∧
      Sane (plainRule t) m i u B seen' todo') := by
  cases hin : c.dom.contains (.fin x) with
  | false =>
    refine Or.inr ⟨A, none, seen, todo, ?_, by simp [accumulatedIn, hin], rfl, h⟩
    unfold CScan.query
    rw [hin]; rfl
  | true =>
    obtain ⟨A', hA', s', ha'⟩ : ∃ A', (if A.scanStart.any (fun s => decide (x < s)) then A.resetScan else A) = A' ∧
        Sane (plainRule t) m i u A' seen todo ∧ A'.acc.points = A.acc.points := by
      by_cases hst : A.scanStart.any (fun s => decide (x < s)) = true
      · rw [if_pos hst]
        have hseen : seen = [] := by
          by_contra hne
          have h0 := h.start hne
          cases hse : seen with
          | nil => exact hne hse
          | cons a as =>
            rw [h0, hse] at hst
            have hlo : c.dom.lo = .fin a.1 := by rw [hs.lo]; exact span_lo (by rw [hse]; rfl)
            have h1 : c.dom.lo ≤ .fin x := by
              rcases (Iv.geLo_iff _ _).1 ((Iv.contains_iff _ _).1 hin).1 with h | h
              exacts [h.le, h.1.le]
            rw [hlo, Ext.fin_le_fin] at h1
            simp only [List.head?_cons, Option.map_some, Option.any_some, decide_eq_true_eq] at hst
            linarith
        subst hseen
        obtain ⟨r1, r2, r3, r4, r5⟩ := reset_none_ok h.acc Accum.quiet
        have hacc : A.acc.points = [] := by
          have := h.run
          simp only [runRule, Prod.mk.injEq, and_true] at this
          exact this.symm
        refine ⟨A.resetScan, rfl, ⟨h.fit, r2, r4.trans h.interp, r5.trans h.force, ?_, rfl, by simp, h.step⟩, ?_⟩
        · show runRule (plainRule t) [] [] [] = ((A.acc.reset none Accum.quiet).st.points, none)
          rw [r3]; rfl
        · show (A.acc.reset none Accum.quiet).st.points = _
          rw [r3, hacc]
      · rw [if_neg hst]
        exact ⟨A, rfl, h, rfl⟩
    have hlen : todo.length < n := by rw [List.length_append] at hn; omega
    have hd := hin
    have hfold : accumulatedIn c.dom (plainRule t) i (seen ++ todo) x =
        match runRule (plainRule t) seen A.acc.points (Accum.need x seen todo) with
        | (out', none) => .ok (valueAt i out' x)
        | (_, some e) => .error e := by
      refine Eq.trans ?_ (Accum.runRule_need (i := i) (h.asc hm) h.run)
      simp only [accumulatedIn, hin, if_true]
      rfl
    rw [hfold]
    have hloop := scanLoop_spec hm hx todo seen A' n hs s' hin hlen
    rw [ha'] at hloop
    rcases hloop with ⟨out, e, h1, h2⟩ | ⟨B, rest, h1, h2, h3, h4⟩
    · refine Or.inl ⟨e, ?_, by rw [h1]⟩
      simp only [CScan.query, hd, Bool.not_true, Bool.false_eq_true, if_false, CScan.scan, hA', h2]
    · have hy := y_eq h4.acc.wf (x := .fin x)
      refine Or.inr ⟨{ B with acc := B.acc.touch }, valueAt i B.acc.points x, seen ++ Accum.need x seen todo, rest, ?_,
        by rw [h1], by rw [List.append_assoc, ← h3], h4.touch⟩
      simp only [CScan.query, hd, Bool.not_true, Bool.false_eq_true, if_false, CScan.scan, hA', h2, hy, h4.interp, Except.map]
      rfl

theorem scanLoop_more (x : ℚ) : ∀ (n k : ℕ) (A : CScan) (r : Except Err CScan),
    scanLoop c t x n A = some r → scanLoop c t x (n + k) A = some r := by
  intro n
  induction n with
  | zero => intro k A r h; cases h
  | succ n ih =>
    intro k A r h
    rw [show n + 1 + k = (n + k) + 1 by omega]
    unfold scanLoop at h ⊢
    split_ifs at h ⊢ with hc
    · cases hp : A.nextPos c x with
      | error e => rw [hp] at h; exact h
      | ok ap =>
        obtain ⟨A1, p⟩ := ap
        rw [hp] at h
        cases p with
        | none => exact h
        | some p =>
          simp only at h ⊢
          by_cases hd : (!c.dom.contains p) = true
          · rw [if_pos hd] at h ⊢; exact h
          · rw [if_neg hd] at h ⊢
            cases p with
            | ninf => exact h
            | pinf => exact h
            | fin j =>
              simp only at h ⊢
              by_cases hj : (A1.current.any fun j_1 => decide (j ≤ j_1)) = true
              · rw [if_pos hj] at h ⊢; exact h
              · rw [if_neg hj] at h ⊢
                cases hy : (c.y (.fin j) >>= rational) with
                | error e => rw [hy] at h; exact h
                | ok y =>
                  rw [hy] at h
                  simp only at h ⊢
                  cases ha : A1.accumulate t j y with
                  | error e => rw [ha] at h; exact h
                  | ok B => rw [ha] at h; exact ih k _ _ h
    · exact h

/-- More iterations change nothing. -/
theorem query_more {n : ℕ} (k : ℕ) {x : Ext} {r : Except Err (CScan × Option ℚ)}
    (h : A.query c t n x = some r) : A.query c t (n + k) x = some r := by
  unfold CScan.query at h ⊢
  split_ifs at h ⊢ with hd
  · exact h
  · cases x with
    | ninf => exact h
    | pinf => exact h
    | fin q =>
      simp only [CScan.scan] at h ⊢
      cases hl : scanLoop c t q n (if (A.scanStart.any fun s => decide (q < s)) = true then A.resetScan else A) with
      | none => rw [hl] at h; cases h
      | some r' => rw [scanLoop_more q n k _ _ hl]; rw [hl] at h; exact h

/-- Invariant of histories. -/
theorem Sane.asked {pts : List (Pt ℚ)} (hm : 0 < m) (hs : Shown Q m c pts) (hf : Fit m u pts)
    (h : Asked Q c t m i u A) : ∃ seen todo, seen ++ todo = pts ∧ Sane (plainRule t) m i u A seen todo := by
  induction h with
  | new => exact ⟨[], pts, rfl, .new hf⟩
  | query h hx e ih =>
    obtain ⟨seen, todo, rfl, hA⟩ := ih
    rename_i A B n x v
    have e' := query_more ((seen ++ todo).length + 1) e
    rcases hA.query hm hs hx (n := n + ((seen ++ todo).length + 1)) (by omega) with ⟨e1, h1, _⟩ | ⟨B', v', s', t', h1, _, h3, h4⟩
    · rw [h1] at e'; cases e'
    · rw [h1] at e'
      simp only [Option.some.injEq, Except.ok.injEq, Prod.mk.injEq] at e'
      rw [← e'.1]
      exact ⟨s', t', h3, h4⟩

end CScan
end Curvepy
