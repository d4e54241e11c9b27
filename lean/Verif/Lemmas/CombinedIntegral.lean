import Verif.Spec.CombinedIntegral
import Verif.Lemmas.CurveIntegral

/-!
# Scans of any curve, with transforms that look back
-/

namespace Curvepy
namespace CScan
open Spec Pts

variable {Q : ℚ → Prop} {c : Crv} {t : ATfm} {m : ℚ} {i : Interp} {u : Bool} {A : CScan} {seen todo : List (Pt ℚ)}
  {p : Pt ℚ} {G : Rule}

/-- One step of the transform. -/
theorem Sane.accumulateOn (hm : 0 < m) (hf : FollowsOn (seen ++ p :: todo) t G) (h : Sane G m i u A seen (p :: todo))
    (hst : A.scanStart = (seen ++ [p]).head?.map Prod.fst) :
    (∃ e, G (seen ++ [p]) A.acc.points = .error e ∧ A.accumulate (t A.acc.touch) p.1 p.2 = .error e) ∨
    (∃ v A', G (seen ++ [p]) A.acc.points = .ok v ∧ A.accumulate (t A.acc.touch) p.1 p.2 = .ok A' ∧
      A'.acc.points = A.acc.points ++ [(p.1, v)] ∧
      Sane G m i u { A' with current := some p.1 } (seen ++ [p]) todo) := by
  have h1 := h.touch
  have hasc := h.asc hm
  have hbefore : ∀ q ∈ A.acc.points, q.1 < p.1 := by
    intro q hq
    have : q.1 ∈ A.acc.points.map Prod.fst := List.mem_map_of_mem hq
    rw [h.accXs] at this
    obtain ⟨q', hq', hqq⟩ := List.mem_map.1 this
    have := (List.pairwise_append.1 hasc).2.2 q' hq' p (by simp)
    linarith
  have hlast : Accum.lastOf A.acc.touch p.1 = .ok (lastOut A.acc.points) := lastOf_eq h1.acc hbefore
  have hr : G (seen ++ [p]) A.acc.points = t A.acc.touch p.1 p.2 (lastOut A.acc.points) :=
    (hf A.acc.touch seen p todo rfl h1.acc h.accXs).symm
  cases hg : t A.acc.touch p.1 p.2 (lastOut A.acc.points) with
  | error e =>
    refine Or.inl ⟨e, hr.trans hg, ?_⟩
    simp only [CScan.accumulate, hlast, hg, bind, Except.bind]
  | ok v =>
    right
    have hxs : (A.acc.points ++ [(p.1, v)]).map Prod.fst = (seen ++ [p]).map Prod.fst := by simp [h.accXs]
    have hfitp : Fit m u (seen ++ [p]) := Fit.prefix ⟨todo, by simp⟩ h.fit
    have hfit : Fit m u (A.acc.touch.points ++ [(p.1, v)]) := by
      refine ⟨?_, NoFluke.of_xs hxs hfitp.noFluke, fun hu => EquallySpaced.of_xs hxs (hfitp.uniform hu)⟩
      have hg' : ((seen ++ [p]).map Prod.fst).IsChain (fun x y : ℚ => x + m ≤ y) := by
        rw [List.isChain_map]; exact hfitp.gapped
      rw [← hxs, List.isChain_map] at hg'
      exact hg'
    obtain ⟨a1, a2, a3, a4, a5⟩ := append_fits h1.acc h1.force (p := (p.1, v)) hfit hbefore Accum.quiet
    refine ⟨v, { A with acc := (A.acc.touch.append (p.1, v) Accum.quiet).st }, hr.trans hg, ?_, a3, ?_⟩
    · simp only [CScan.accumulate, hlast, hg, bind, Except.bind, a1]
    · refine ⟨by simpa using h.fit, a2, a4.trans h.interp, a5.trans h.force, ?_, by simp, fun _ => hst, h.step⟩
      rw [runRule_append, h.run]
      simp only [List.nil_append, runRule, hr.trans hg, a3]
      rfl

/-- The loop processes exactly the knots needed. -/
theorem scanLoopBy_spec (hm : 0 < m) {x : ℚ} (hx : Q x) :
    ∀ (todo seen : List (Pt ℚ)) (A : CScan) (n : ℕ), Shown Q m c (seen ++ todo) → FollowsOn (seen ++ todo) t G →
      Sane G m i u A seen todo → c.dom.contains (.fin x) = true → todo.length < n →
      (∃ out e, runRule G seen A.acc.points (Accum.need x seen todo) = (out, some e) ∧
        scanLoopBy c t x n A = some (.error e)) ∨
      (∃ B rest, runRule G seen A.acc.points (Accum.need x seen todo) = (B.acc.points, none) ∧
        scanLoopBy c t x n A = some (.ok B) ∧ todo = Accum.need x seen todo ++ rest ∧
        Sane G m i u B (seen ++ Accum.need x seen todo) rest) := by
  intro todo
  induction todo with
  | nil =>
    intro seen A n hst hf h hr hn
    obtain ⟨n, rfl⟩ : ∃ k, n = k + 1 := ⟨n - 1, by omega⟩
    have hneed : Accum.need x seen [] = [] := by unfold Accum.need; split_ifs <;> rfl
    refine Or.inr ⟨A, [], by rw [hneed]; rfl, ?_, by rw [hneed]; rfl, by rw [hneed, List.append_nil]; exact h⟩
    cases hcur : (seen.getLast?.map Prod.fst).all (fun k => decide (k < x)) with
    | false => simp only [scanLoopBy, h.cur, hcur, Bool.false_eq_true, if_false]
    | true =>
      have hnp : A.nextPos c x = .ok (A, none) := by
        rw [List.append_nil] at hst
        rcases List.eq_nil_or_concat seen with rfl | ⟨pre, q, rfl⟩
        · exact absurd rfl hst.ne
        · rw [List.concat_eq_append] at *
          have hc : A.current = some q.1 := by rw [h.cur]; simp
          have hlt : q.1 < x := by simpa using hcur
          have hsrc := hst.last pre q rfl x hx hr hlt
          have hasc := h.asc hm
          rw [List.append_nil] at hasc
          have hacc : A.acc.xNext (.fin q.1) (some m) = .ok none := by
            rcases Props.C06_x_next h.acc q.1 m with ⟨z, _, ⟨r, hr, hrz, hz⟩, _⟩ | ⟨h1, _⟩
            · exfalso
              have : r.1 ∈ A.acc.points.map Prod.fst := List.mem_map_of_mem hr
              rw [h.accXs] at this
              obtain ⟨r', hr', hrr⟩ := List.mem_map.1 this
              have := Accum.le_getLast hasc (p := q) (by simp) hr'
              linarith
            · exact h1
          simp only [CScan.nextPos, hc, CScan.xNext, h.step, hacc, hsrc, bind, Except.bind, Accum.pyOr, pure, Except.pure]
      simp only [scanLoopBy, h.cur, hcur, if_true, hnp]
  | cons p ps ih =>
    intro seen A n hst hf h hr hn
    obtain ⟨n, rfl⟩ : ∃ k, n = k + 1 := ⟨n - 1, by omega⟩
    cases hcur : (seen.getLast?.map Prod.fst).all (fun k => decide (k < x)) with
    | false =>
      have hneed : Accum.need x seen (p :: ps) = [] := by unfold Accum.need; rw [hcur]; rfl
      refine Or.inr ⟨A, p :: ps, by rw [hneed]; rfl, ?_, by rw [hneed]; rfl, by rw [hneed, List.append_nil]; exact h⟩
      simp only [scanLoopBy, h.cur, hcur, Bool.false_eq_true, if_false]
    | true =>
      have hneed : Accum.need x seen (p :: ps) = p :: Accum.need x (seen ++ [p]) ps := by
        unfold Accum.need
        rw [hcur, if_pos rfl]
        simp only [upTo, List.getLast?_append, List.getLast?_singleton, Option.some_or, Option.map_some,
          Option.all_some, decide_eq_true_eq]
        split <;> rfl
      obtain ⟨A1, hA1, s1, hstart, hacc⟩ := h.nextPos hst hm hx (by rw [h.cur]; exact hcur)
      have hcon : c.dom.contains (.fin p.1) = true := by
        exact hst.dom p (by simp)
      have hadv : A1.current.any (fun k => decide (p.1 ≤ k)) = false := by
        rw [s1.cur]
        cases hl : seen.getLast? with
        | none => rfl
        | some q =>
          have := (List.pairwise_append.1 (h.asc hm)).2.2 q (List.mem_of_getLast? hl) p (by simp)
          simpa using this
      have hy : (c.y (.fin p.1) >>= rational) = .ok p.2 := by
        rw [hst.val p (by simp)]; exact rational_map _
      rcases s1.accumulateOn hm hf hstart with ⟨e, hg, hac⟩ | ⟨v, A2, hg, hac, hap, s3⟩
      · left
        rw [hacc] at hg
        refine ⟨A.acc.points, e, by rw [hneed]; simp only [runRule, hg], ?_⟩
        simp only [scanLoopBy, h.cur, hcur, if_true, hA1, hcon, Bool.not_true, Bool.false_eq_true, if_false, hadv, hy, hac]
      · rw [hacc] at hg hap
        have e1 : scanLoopBy c t x (n + 1) A = scanLoopBy c t x n { A2 with current := some p.1 } := by
          simp only [scanLoopBy, h.cur, hcur, if_true, hA1, hcon, Bool.not_true, Bool.false_eq_true, if_false, hadv, hy, hac]
        have e2 : runRule G seen A.acc.points (p :: Accum.need x (seen ++ [p]) ps) =
            runRule G (seen ++ [p]) (A.acc.points ++ [(p.1, v)]) (Accum.need x (seen ++ [p]) ps) := by
          simp only [runRule, hg]
        have e3 : seen ++ p :: Accum.need x (seen ++ [p]) ps = seen ++ [p] ++ Accum.need x (seen ++ [p]) ps := by simp
        have := ih (seen ++ [p]) { A2 with current := some p.1 } n (by simpa using hst) (by simpa using hf) s3 hr
          (by simpa using hn)
        rw [hneed, e1, e2, e3]
        have hap' : ({ A2 with current := some p.1 } : CScan).acc.points = A.acc.points ++ [(p.1, v)] := hap
        rw [hap'] at this
        rcases this with ⟨out, e, h1, h2⟩ | ⟨B, rest, h1, h2, h3, h4⟩
        · exact Or.inl ⟨out, e, h1, h2⟩
        · exact Or.inr ⟨B, rest, h1, h2, by rw [List.cons_append, ← h3], h4⟩

/-- What a query answers, and the state it leaves. -/
theorem Sane.queryOn (hm : 0 < m) (hs : Shown Q m c (seen ++ todo)) (hf : FollowsOn (seen ++ todo) t G)
    (h : Sane G m i u A seen todo) {x : ℚ} (hx : Q x)
    {n : ℕ} (hn : (seen ++ todo).length < n) :
    (∃ e, A.queryBy c t n (.fin x) = some (.error e) ∧
      accumulatedIn c.dom G i (seen ++ todo) x = .error e) ∨
    (∃ B v seen' todo', A.queryBy c t n (.fin x) = some (.ok (B, v)) ∧
      accumulatedIn c.dom G i (seen ++ todo) x = .ok v ∧ seen' ++ todo' = seen ++ todo ∧
      Sane G m i u B seen' todo') := by
  cases hin : c.dom.contains (.fin x) with
  | false =>
    refine Or.inr ⟨A, none, seen, todo, ?_, by simp [accumulatedIn, hin], rfl, h⟩
    unfold CScan.queryBy
    rw [hin]; rfl
  | true =>
    obtain ⟨A', hA', s', ha'⟩ : ∃ A', (if A.scanStart.any (fun s => decide (x < s)) then A.resetScan else A) = A' ∧
        Sane G m i u A' seen todo ∧ A'.acc.points = A.acc.points := by
      by_cases hst : A.scanStart.any (fun s => decide (x < s)) = true
      · rw [if_pos hst]
        have hseen : seen = [] := by
          by_contra hne
          have h0 := h.start hne
          cases hse : seen with
          | nil => exact hne hse
          | cons a as =>
            rw [h0, hse] at hst
            have hlo : c.dom.lo = .fin a.1 := by rw [hs.lo]; exact span_lo (by rw [hse]; rfl)
            have h1 : c.dom.lo ≤ .fin x := by
              rcases (Iv.geLo_iff _ _).1 ((Iv.contains_iff _ _).1 hin).1 with h | h
              exacts [h.le, h.1.le]
            rw [hlo, Ext.fin_le_fin] at h1
            simp only [List.head?_cons, Option.map_some, Option.any_some, decide_eq_true_eq] at hst
            linarith
        subst hseen
        obtain ⟨r1, r2, r3, r4, r5⟩ := reset_none_ok h.acc Accum.quiet
        have hacc : A.acc.points = [] := by
          have := h.run
          simp only [runRule, Prod.mk.injEq, and_true] at this
          exact this.symm
        refine ⟨A.resetScan, rfl, ⟨h.fit, r2, r4.trans h.interp, r5.trans h.force, ?_, rfl, by simp, h.step⟩, ?_⟩
        · show runRule G [] [] [] = ((A.acc.reset none Accum.quiet).st.points, none)
          rw [r3]; rfl
        · show (A.acc.reset none Accum.quiet).st.points = _
          rw [r3, hacc]
      · rw [if_neg hst]
        exact ⟨A, rfl, h, rfl⟩
    have hlen : todo.length < n := by rw [List.length_append] at hn; omega
    have hd := hin
    have hfold : accumulatedIn c.dom G i (seen ++ todo) x =
        match runRule G seen A.acc.points (Accum.need x seen todo) with
        | (out', none) => .ok (valueAt i out' x)
        | (_, some e) => .error e := by
      refine Eq.trans ?_ (Accum.runRule_need (i := i) (h.asc hm) h.run)
      simp only [accumulatedIn, hin, if_true]
      rfl
    rw [hfold]
    have hloop := scanLoopBy_spec hm hx todo seen A' n hs hf s' hin hlen
    rw [ha'] at hloop
    rcases hloop with ⟨out, e, h1, h2⟩ | ⟨B, rest, h1, h2, h3, h4⟩
    · refine Or.inl ⟨e, ?_, by rw [h1]⟩
      simp only [CScan.queryBy, hd, Bool.not_true, Bool.false_eq_true, if_false, hA', h2]
    · have hy := y_eq h4.acc.wf (x := .fin x)
      refine Or.inr ⟨{ B with acc := B.acc.touch }, valueAt i B.acc.points x, seen ++ Accum.need x seen todo, rest, ?_,
        by rw [h1], by rw [List.append_assoc, ← h3], h4.touch⟩
      simp only [CScan.queryBy, hd, Bool.not_true, Bool.false_eq_true, if_false, hA', h2, hy, h4.interp, Except.map]
      rfl

/-- Invariant of histories. -/
theorem Sane.askedBy {pts : List (Pt ℚ)} (hm : 0 < m) (hs : Shown Q m c pts) (hf : Fit m u pts) (hF : FollowsOn pts t G)
    (h : AskedBy Q c t m i u A) : ∃ seen todo, seen ++ todo = pts ∧ Sane G m i u A seen todo := by
  induction h with
  | new => exact ⟨[], pts, rfl, .new hf⟩
  | query h hx e ih =>
    obtain ⟨seen, todo, rfl, hA⟩ := ih
    rename_i A B n x v
    have e' := queryBy_more ((seen ++ todo).length + 1) e
    rcases hA.queryOn hm hs hF hx (n := n + ((seen ++ todo).length + 1)) (by omega) with ⟨e1, h1, _⟩ | ⟨B', v', s', t', h1, _, h3, h4⟩
    · rw [h1] at e'; cases e'
    · rw [h1] at e'
      simp only [Option.some.injEq, Except.ok.injEq, Prod.mk.injEq] at e'
      rw [← e'.1]
      exact ⟨s', t', h3, h4⟩

end CScan
end Curvepy
