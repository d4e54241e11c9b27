import Verif.Spec.CurveIntegral
import Verif.Lemmas.CurveScan
import Verif.Lemmas.Fold

/-!
# Scans of curves without knots
-/

namespace Curvepy
namespace CScan
open Spec Pts

variable {c : Crv} {t : ATfm} {m : ℚ} {i : Interp} {u : Bool} {A : CScan} {g : ℚ → ℚ} {G : Rule} {ks : List ℚ} {x : ℚ}

theorem sampledAt_xs (g : ℚ → ℚ) (ks : List ℚ) : (sampledAt g ks).map Prod.fst = ks := by
  simp [sampledAt, Function.comp_def]

theorem sampledAt_snoc (g : ℚ → ℚ) (ks : List ℚ) (x : ℚ) :
    sampledAt g (ks ++ [x]) = sampledAt g ks ++ [(x, some (g x))] := by simp [sampledAt]

/-- A position between the first and the last of some is one of them or between two neighbours. -/
theorem _root_.Curvepy.Spec.exists_gap {ks : List ℚ} (h : ks.Pairwise (· < ·)) {a b x : ℚ} (ha : ks.head? = some a)
    (hb : ks.getLast? = some b) (h1 : a ≤ x) (h2 : x ≤ b) (hx : x ∉ ks) :
    ∃ k p q, ks[k]? = some p ∧ ks[k + 1]? = some q ∧ p < x ∧ x < q := by
  induction ks generalizing a with
  | nil => cases ha
  | cons c cs ih =>
    cases ha
    have hax : c < x := lt_of_le_of_ne h1 fun e => hx (by simp [e])
    cases cs with
    | nil =>
      cases hb
      exact absurd h2 (not_le.2 hax)
    | cons d ds =>
      by_cases hd : x < d
      · exact ⟨0, c, d, rfl, rfl, hax, hd⟩
      · obtain ⟨k, p, q, e1, e2, e3, e4⟩ := ih (List.pairwise_cons.1 h).2 rfl (by simpa using hb) (not_lt.1 hd)
          (fun h => hx (List.mem_cons_of_mem _ h))
        exact ⟨k + 1, p, q, by simpa using e1, by simpa using e2, e3, e4⟩

/-- One step of the transform. -/
theorem Sane.accumulateBy (hm : 0 < m) (hf : FollowsAt g m t G) (h : Sane G m i u A (sampledAt g ks) [(x, some (g x))])
    (hst : A.scanStart = (ks ++ [x]).head?) :
    (∃ e, G (sampledAt g (ks ++ [x])) A.acc.points = .error e ∧ A.accumulate (t A.acc.touch) x (some (g x)) = .error e) ∨
    (∃ v A', G (sampledAt g (ks ++ [x])) A.acc.points = .ok v ∧ A.accumulate (t A.acc.touch) x (some (g x)) = .ok A' ∧
      A'.acc.points = A.acc.points ++ [(x, v)] ∧
      Sane G m i u { A' with current := some x } (sampledAt g (ks ++ [x])) []) := by
  have h1 := h.touch
  have hasc := h.asc hm
  have hxs : A.acc.points.map Prod.fst = ks := h.accXs.trans (sampledAt_xs g ks)
  have hbefore : ∀ q ∈ A.acc.points, q.1 < x := by
    intro q hq
    have : q.1 ∈ A.acc.points.map Prod.fst := List.mem_map_of_mem hq
    rw [h.accXs] at this
    obtain ⟨q', hq', hqq⟩ := List.mem_map.1 this
    have := (List.pairwise_append.1 hasc).2.2 q' hq' (x, some (g x)) (by simp)
    rw [← hqq]; exact this
  have hlast : Accum.lastOf A.acc.touch x = .ok (lastOut A.acc.points) := lastOf_eq h1.acc hbefore
  have hfit0 : Fit m u (sampledAt g (ks ++ [x])) := by rw [sampledAt_snoc]; exact h.fit
  have hr : t A.acc.touch x (some (g x)) (lastOut A.acc.points) = G (sampledAt g (ks ++ [x])) A.acc.points :=
    hf A.acc.touch ks x h1.acc hxs hfit0.gapped
  cases hg : G (sampledAt g (ks ++ [x])) A.acc.points with
  | error e =>
    refine Or.inl ⟨e, rfl, ?_⟩
    simp only [CScan.accumulate, hlast, hr, hg, bind, Except.bind]
  | ok v =>
    right
    have hxs' : (A.acc.points ++ [(x, v)]).map Prod.fst = (sampledAt g (ks ++ [x])).map Prod.fst := by
      rw [sampledAt_xs]; simp [hxs]
    have hfit : Fit m u (A.acc.touch.points ++ [(x, v)]) := by
      refine ⟨?_, NoFluke.of_xs hxs' hfit0.noFluke, fun hu => EquallySpaced.of_xs hxs' (hfit0.uniform hu)⟩
      have hg' : ((sampledAt g (ks ++ [x])).map Prod.fst).IsChain (fun x y : ℚ => x + m ≤ y) := by
        rw [List.isChain_map]; exact hfit0.gapped
      rw [← hxs', List.isChain_map] at hg'
      exact hg'
    obtain ⟨a1, a2, a3, a4, a5⟩ := append_fits h1.acc h1.force (p := (x, v)) hfit hbefore Accum.quiet
    refine ⟨v, { A with acc := (A.acc.touch.append (x, v) Accum.quiet).st }, rfl, ?_, a3, ?_⟩
    · simp only [CScan.accumulate, hlast, hr, hg, bind, Except.bind, a1]
    · refine ⟨by simpa using hfit0, a2, a4.trans h.interp, a5.trans h.force, ?_, ?_, fun _ => ?_, h.step⟩
      · have hrun := h.run
        rw [sampledAt_snoc] at hg ⊢
        rw [runRule_append, hrun]
        simp only [List.nil_append, runRule, hg, a3]
        rfl
      · simp [sampledAt_snoc]
      · rw [← List.head?_map, sampledAt_xs]; exact hst

/-- Asked for a position after all others, the scan goes there at once. -/
theorem Sane.jump (hm : 0 < m) (hc : Unbroken m g c) (hf : FollowsAt g m t G) (h : Sane G m i u A (sampledAt g ks) [])
    (hfit : Fit m u (sampledAt g (ks ++ [x]))) (hcur : A.current.all (fun k => decide (k < x)) = true) {n : ℕ} (hn : 2 ≤ n) :
    (∃ e, (runRule G [] [] (sampledAt g (ks ++ [x]))).2 = some e ∧ scanLoopBy c t x n A = some (.error e)) ∨
    (∃ B, (runRule G [] [] (sampledAt g (ks ++ [x]))).2 = none ∧ scanLoopBy c t x n A = some (.ok B) ∧
      Sane G m i u B (sampledAt g (ks ++ [x])) []) := by
  obtain ⟨n, rfl⟩ : ∃ k, n = k + 2 := ⟨n - 2, by omega⟩
  have hni : (c.dom.isEmpty || c.dom.isNegInf) = true := by
    rw [Bool.or_eq_true]; right; simp [Iv.isNegInf, hc.lo, Iv.not_isEmpty_of_mem (hc.dom x)]
  obtain ⟨A1, hA1, s1, hst, hacc, hcur1⟩ : ∃ A1, A.nextPos c x = .ok (A1, some (.fin x)) ∧
      Sane G m i u A1 (sampledAt g ks) [(x, some (g x))] ∧ A1.scanStart = (ks ++ [x]).head? ∧ A1.acc = A.acc ∧
      A1.current = A.current := by
    have hfit' : Fit m u (sampledAt g ks ++ [(x, some (g x))]) := by rw [← sampledAt_snoc]; exact hfit
    cases hk : A.current with
    | none =>
      have hks : ks = [] := by
        have := h.cur
        rw [hk] at this
        have h2 : (sampledAt g ks).getLast? = none := by
          cases hl : (sampledAt g ks).getLast? with
          | none => rfl
          | some q => rw [hl] at this; cases this
        simpa [sampledAt] using h2
      subst hks
      refine ⟨{ A with scanStart := some x }, ?_,
        ⟨hfit', h.acc, h.interp, h.force, h.run, h.cur, fun h0 => absurd rfl h0, h.step⟩, rfl, rfl, hk⟩
      simp only [CScan.nextPos, hk, CScan.initScan, hni, if_true, bind, Except.bind, pure, Except.pure, Accum.finPart]
    | some k =>
      refine ⟨A, ?_, ⟨hfit', h.acc, h.interp, h.force, h.run, h.cur, h.start, h.step⟩, ?_, rfl, hk⟩
      · have hlt : k < x := by rw [hk] at hcur; simpa using hcur
        have hnone : A.acc.xNext (.fin k) (some m) = .ok none := by
          rcases Props.C06_x_next h.acc k m with ⟨z, _, ⟨r, hr, hrz, hz⟩, _⟩ | ⟨h1, _⟩
          · exfalso
            obtain ⟨pre, q, hpre, hqk⟩ := h.mem_cur hk
            have hmem : r.1 ∈ A.acc.points.map Prod.fst := List.mem_map_of_mem hr
            rw [h.accXs] at hmem
            obtain ⟨r', hr', hrr⟩ := List.mem_map.1 hmem
            have := Accum.le_getLast (List.pairwise_append.1 (h.asc hm)).1 (p := q) (by rw [hpre]; simp) hr'
            linarith
          · exact h1
        simp only [CScan.nextPos, hk, CScan.xNext, h.step, hnone, hc.next k x hlt, bind, Except.bind, Accum.pyOr, pure,
          Except.pure]
      · obtain ⟨pre, q, hpre, hqk⟩ := h.mem_cur hk
        rw [h.start (by rw [hpre]; simp), ← List.head?_map, sampledAt_xs]
        cases ks with
        | nil => simp [sampledAt] at hpre
        | cons a as => rfl
  have hcon := hc.dom x
  have hadv : A1.current.any (fun k => decide (x ≤ k)) = false := by
    rw [hcur1]
    cases hk : A.current with
    | none => rfl
    | some k => rw [hk] at hcur; simpa using hcur
  have hy : (c.y (.fin x) >>= rational) = .ok (some (g x)) := by rw [hc.val]; rfl
  have hrun : runRule G [] [] (sampledAt g (ks ++ [x])) =
      match G (sampledAt g (ks ++ [x])) A.acc.points with
      | .error e => (A.acc.points, some e)
      | .ok v => (A.acc.points ++ [(x, v)], none) := by
    have h0 := h.run
    rw [sampledAt_snoc, runRule_append, h0]
    simp only [List.nil_append, runRule]
    cases G (sampledAt g ks ++ [(x, some (g x))]) A.acc.points <;> rfl
  rcases s1.accumulateBy hm hf hst with ⟨e, hg, hac⟩ | ⟨v, A2, hg, hac, hap, s3⟩
  · left
    rw [hacc] at hg
    refine ⟨e, by rw [hrun, hg], ?_⟩
    simp only [scanLoopBy, hcur, if_true, hA1, hcon, Bool.not_true, Bool.false_eq_true, if_false, hadv, hy, hac]
  · right
    rw [hacc] at hg
    refine ⟨{ A2 with current := some x }, by rw [hrun, hg], ?_, s3⟩
    simp only [scanLoopBy, hcur, if_true, hA1, hcon, Bool.not_true, Bool.false_eq_true, if_false, hadv, hy, hac,
      Option.all_some, lt_self_iff_false, decide_false]

/-- What a query answers, and the state it leaves. -/
theorem Sane.queryBy (hm : 0 < m) (hc : Unbroken m g c) (hf : FollowsAt g m t G) (h : Sane G m i u A (sampledAt g ks) [])
    (hfit : Fit m u (sampledAt g (visit ks x))) {n : ℕ} (hn : 2 ≤ n) :
    (∃ e, (runRule G [] [] (sampledAt g (visit ks x))).2 = some e ∧ A.queryBy c t n (.fin x) = some (.error e)) ∨
    (∃ B, (runRule G [] [] (sampledAt g (visit ks x))).2 = none ∧
      A.queryBy c t n (.fin x) = some (.ok (B, valueAt i (runRule G [] [] (sampledAt g (visit ks x))).1 x)) ∧
      Sane G m i u B (sampledAt g (visit ks x)) []) := by
  obtain ⟨r1, r2, r3, r4, r5⟩ := reset_none_ok h.acc Accum.quiet
  have hreset : Sane G m i u A.resetScan (sampledAt g []) [] := by
    refine ⟨⟨.nil, ?_, fun _ => ⟨0, .nil⟩⟩, r2, r4.trans h.interp, r5.trans h.force, ?_, rfl, fun h0 => absurd rfl h0, h.step⟩
    · intro pre p q r hp
      have := List.prefix_nil.1 hp
      cases this
    · show runRule G [] [] [] = ((A.acc.reset none Accum.quiet).st.points, none)
      rw [r3]; rfl
  have key : (∃ e, (runRule G [] [] (sampledAt g (visit ks x))).2 = some e ∧
      scanLoopBy c t x n (if A.scanStart.any (fun s => decide (x < s)) then A.resetScan else A) = some (.error e)) ∨
      (∃ B, (runRule G [] [] (sampledAt g (visit ks x))).2 = none ∧
        scanLoopBy c t x n (if A.scanStart.any (fun s => decide (x < s)) then A.resetScan else A) = some (.ok B) ∧
        Sane G m i u B (sampledAt g (visit ks x)) []) := by
    cases hks : ks with
    | nil =>
      subst hks
      have hv : visit [] x = [] ++ [x] := rfl
      rw [hv] at hfit ⊢
      split_ifs
      · exact hreset.jump hm hc hf hfit rfl hn
      · exact h.jump hm hc hf hfit (by rw [h.cur]; rfl) hn
    | cons a as =>
      rw [← hks]
      obtain ⟨b, hb⟩ : ∃ b, ks.getLast? = some b := by
        rw [hks, List.getLast?_eq_some_getLast (by simp)]; exact ⟨_, rfl⟩
      have ha : ks.head? = some a := by rw [hks]; rfl
      have hstart : A.scanStart = some a := by
        rw [h.start (by rw [hks]; simp [sampledAt]), ← List.head?_map, sampledAt_xs, ha]
      have hcur : A.current = some b := by rw [h.cur, ← List.getLast?_map, sampledAt_xs, hb]
      have hv : visit ks x = if x < a then [x] else if b < x then ks ++ [x] else ks := by simp [visit, ha, hb]
      rw [hv] at hfit ⊢
      by_cases h1 : x < a
      · rw [if_pos h1] at hfit ⊢
        rw [if_pos (by rw [hstart]; simpa using h1)]
        exact hreset.jump (ks := []) hm hc hf hfit rfl hn
      · rw [if_neg h1] at hfit ⊢
        have hif : (if A.scanStart.any (fun s => decide (x < s)) then A.resetScan else A) = A :=
          if_neg (by rw [hstart]; simpa using h1)
        rw [hif]
        by_cases h2 : b < x
        · rw [if_pos h2] at hfit ⊢
          exact h.jump hm hc hf hfit (by rw [hcur]; simpa using h2) hn
        · rw [if_neg h2] at hfit ⊢
          refine Or.inr ⟨A, ?_, ?_, h⟩
          · rw [h.run]
          · obtain ⟨n, rfl⟩ : ∃ k, n = k + 1 := ⟨n - 1, by omega⟩
            have : A.current.all (fun k => decide (k < x)) = false := by rw [hcur]; simpa using h2
            simp only [scanLoopBy, this, Bool.false_eq_true, if_false]
  rcases key with ⟨e, h1, h2⟩ | ⟨B, h1, h2, h3⟩
  · refine Or.inl ⟨e, h1, ?_⟩
    simp only [CScan.queryBy, hc.dom, Bool.not_true, Bool.false_eq_true, if_false, h2]
  · have hy := y_eq h3.acc.wf (x := .fin x)
    refine Or.inr ⟨{ B with acc := B.acc.touch }, h1, ?_, h3.touch⟩
    simp only [CScan.queryBy, hc.dom, Bool.not_true, Bool.false_eq_true, if_false, h2, hy, h3.interp, Except.map, h3.run]
    rfl

theorem scanLoopBy_more (x : ℚ) : ∀ (n k : ℕ) (A : CScan) (r : Except Err CScan),
    scanLoopBy c t x n A = some r → scanLoopBy c t x (n + k) A = some r := by
  intro n
  induction n with
  | zero => intro k A r h; cases h
  | succ n ih =>
    intro k A r h
    rw [show n + 1 + k = (n + k) + 1 by omega]
    unfold scanLoopBy at h ⊢
    split_ifs at h ⊢ with hc
    · cases hp : A.nextPos c x with
      | error e => rw [hp] at h; exact h
      | ok ap =>
        obtain ⟨A1, p⟩ := ap
        rw [hp] at h
        cases p with
        | none => exact h
        | some p =>
          simp only at h ⊢
          by_cases hd : (!c.dom.contains p) = true
          · rw [if_pos hd] at h ⊢; exact h
          · rw [if_neg hd] at h ⊢
            cases p with
            | ninf => exact h
            | pinf => exact h
            | fin j =>
              simp only at h ⊢
              by_cases hj : (A1.current.any fun j_1 => decide (j ≤ j_1)) = true
              · rw [if_pos hj] at h ⊢; exact h
              · rw [if_neg hj] at h ⊢
                cases hy : (c.y (.fin j) >>= rational) with
                | error e => rw [hy] at h; exact h
                | ok y =>
                  rw [hy] at h
                  simp only at h ⊢
                  cases ha : A1.accumulate (t A1.acc.touch) j y with
                  | error e => rw [ha] at h; exact h
                  | ok B => rw [ha] at h; exact ih k _ _ h
    · exact h

/-- More iterations change nothing. -/
theorem queryBy_more {n : ℕ} (k : ℕ) {x : Ext} {r : Except Err (CScan × Option ℚ)}
    (h : A.queryBy c t n x = some r) : A.queryBy c t (n + k) x = some r := by
  unfold CScan.queryBy at h ⊢
  split_ifs at h ⊢ with hd
  · exact h
  · cases x with
    | ninf => exact h
    | pinf => exact h
    | fin q =>
      simp only at h ⊢
      cases hl : scanLoopBy c t q n (if (A.scanStart.any fun s => decide (q < s)) = true then A.resetScan else A) with
      | none => rw [hl] at h; cases h
      | some r' => rw [scanLoopBy_more q n k _ _ hl]; rw [hl] at h; exact h

theorem visited_snoc (xs : List ℚ) (x : ℚ) : visited (xs ++ [x]) = visit (visited xs) x := by simp [visited]

theorem Fit.sampledAt {xs : List ℚ} (h : AskedFit m u xs) {pre : List ℚ} (hp : pre <+: xs) (g : ℚ → ℚ) :
    Fit m u (Spec.sampledAt g (visited pre)) := by
  have hf := h pre hp
  have hx : (Spec.sampledAt g (visited pre)).map Prod.fst =
      ((visited pre).map fun x => ((x, none) : Pt ℚ)).map Prod.fst := by simp [Spec.sampledAt, Function.comp_def]
  refine ⟨?_, NoFluke.of_xs hx hf.noFluke, fun hu => EquallySpaced.of_xs hx (hf.uniform hu)⟩
  have hg : (((visited pre).map fun x => ((x, none) : Pt ℚ)).map Prod.fst).IsChain (fun x y : ℚ => x + m ≤ y) := by
    rw [List.isChain_map]; exact hf.gapped
  rw [← hx, List.isChain_map] at hg
  exact hg

/-- Invariant of histories. -/
theorem Sane.inquired (hm : 0 < m) (hc : Unbroken m g c) (hf : FollowsAt g m t G) {xs : List ℚ}
    (h : Inquired c t m i u xs A) (hfit : AskedFit m u xs) : Sane G m i u A (sampledAt g (visited xs)) [] := by
  induction h with
  | new =>
    refine .new ⟨.nil, ?_, fun _ => ⟨0, .nil⟩⟩
    intro pre p q r hp
    have := List.prefix_nil.1 hp
    cases this
  | @ask xs A B n x v h e ih =>
    have hA := ih fun pre hp => hfit pre (hp.trans (List.prefix_append _ _))
    have hfx := Fit.sampledAt hfit (List.prefix_refl _) g
    rw [visited_snoc] at hfx ⊢
    have e' := queryBy_more 2 e
    rcases hA.queryBy hm hc hf hfx (n := n + 2) (by omega) with ⟨e1, _, h1⟩ | ⟨B', _, h1, h2⟩
    · rw [h1] at e'; cases e'
    · rw [h1] at e'
      simp only [Option.some.injEq, Except.ok.injEq, Prod.mk.injEq] at e'
      rw [← e'.1]
      exact h2

end CScan
end Curvepy
