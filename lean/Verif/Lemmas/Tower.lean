import Verif.Spec.Tower
import Verif.Lemmas.CurveScan
import Verif.Lemmas.Machine

/-!
# Accumulators over curves with a state
-/

namespace Curvepy
namespace Layer
open Spec Pts CScan

variable {σ : Type} {M : Machine σ} {J : σ → Prop} {t : PTfm} {m : ℚ} {i : Interp} {u : Bool}
  {pts seen todo : List (Pt ℚ)} {p : Pt ℚ} {L : Layer} {s : σ}

/-- What an accumulator with a step of at least `c` needs of its source: in states with `J` it has the knots `pts`. -/
structure Shown (M : Machine σ) (J : σ → Prop) (pts : List (Pt ℚ)) (c : ℚ) : Prop where
  dom : Agrees J M.dom (some (.ok (span pts)))
  val : ∀ p ∈ pts, Agrees J (M.y (.fin p.1)) (some (.ok (p.2.map .fin)))
  next : ∀ pre p q rest a l, pts = pre ++ p :: q :: rest → p.1 + a ≤ q.1 → 0 < a → c ≤ a →
    Agrees J (M.xNext (.fin p.1) (some (.fin a)) l) (some (.ok (some (.fin q.1))))

/-- No update is under way and the cached domain is right. -/
structure Idle (pts : List (Pt ℚ)) (L : Layer) : Prop where
  cache : L.cache = none ∨ L.cache = some (span pts)
  idleB : L.bIv = Iv.empty
  idleE : L.eIv = Iv.empty

/-- Between two operations. -/
def Fine (g : Rule) (m : ℚ) (i : Interp) (u : Bool) (pts : List (Pt ℚ)) (L : Layer) : Prop :=
  Idle pts L ∧ ∃ seen todo, seen ++ todo = pts ∧ Sane g m i u L.scan seen todo

theorem Idle.scan (h : Idle pts L) (A : CScan) : Idle pts { L with scan := A } := ⟨h.cache, h.idleB, h.idleE⟩

theorem below_eq {α : Type} {q : Run σ α} {v : Except Err α} (h : Agrees J q (some v)) (hs : J s) (L : Layer) :
    ∃ s', below q (L, s) = some (v, (L, s')) ∧ J s' := by
  obtain ⟨s', h1, h2⟩ := (h s hs).2 v rfl
  exact ⟨s', by simp [below, h1], h2⟩

theorem dom_eq {c : ℚ} (hM : Shown M J pts c) (hi : Idle pts L) (hs : J s) :
    ∃ L' s', dom M (L, s) = some (.ok (span pts), (L', s')) ∧ J s' ∧ Idle pts L' ∧ L'.scan = L.scan := by
  unfold dom
  simp only [run_bind, get, Option.bind_some]
  rcases hi.cache with h | h
  · obtain ⟨s', h1, h2⟩ := below_eq hM.dom hs L
    refine ⟨{ L with cache := some (span pts) }, s', ?_, h2, ⟨.inr rfl, hi.idleB, hi.idleE⟩, rfl⟩
    simp only [h, run_bind, h1, Option.bind_some, put]
    rfl
  · exact ⟨L, s, by simp only [h]; rfl, hs, hi, rfl⟩

theorem resolve_same (m : ℚ) : Crv.resolve (some (.fin m)) (some (.fin m)) = some (.fin m) := by
  simp [Crv.resolve]

/-- Where the scan goes next. -/
theorem nextPos_eq {g : Rule} (hM : Shown M J (seen ++ p :: todo) m) (hm : 0 < m) (hi : Idle (seen ++ p :: todo) L)
    (h : Sane g m i u L.scan seen (p :: todo)) (hs : J s) (x : ℚ) :
    ∃ L' s', nextPos M x (L, s) = some (.ok (some (.fin p.1)), (L', s')) ∧ J s' ∧ Idle (seen ++ p :: todo) L' ∧
      Sane g m i u L'.scan seen (p :: todo) ∧ L'.scan.scanStart = (seen ++ [p]).head?.map Prod.fst ∧
      L'.scan.acc = L.scan.acc ∧ L'.scan.current = L.scan.current := by
  have hasc := h.asc hm
  unfold nextPos
  simp only [run_bind, get, Option.bind_some]
  cases hc : L.scan.current with
  | some k =>
    obtain ⟨pre, q, rfl, hqk⟩ := h.mem_cur hc
    have hacc : L.scan.acc.xNext (.fin k) (some m) = .ok none := by
      rcases Props.C06_x_next h.acc k m with ⟨z, _, ⟨r, hr, hrz, hz⟩, _⟩ | ⟨h1, _⟩
      · exfalso
        have : r.1 ∈ L.scan.acc.points.map Prod.fst := List.mem_map_of_mem hr
        rw [h.accXs] at this
        obtain ⟨r', hr', hrr⟩ := List.mem_map.1 this
        have := Accum.le_getLast (List.pairwise_append.1 hasc).1 (p := q) (by simp) hr'
        linarith
      · exact h1
    have hgap : q.1 + m ≤ p.1 := by
      have hg := h.fit.gapped
      unfold Gapped at hg
      rw [show pre ++ [q] ++ p :: todo = pre ++ (q :: p :: todo) by simp, List.isChain_append] at hg
      exact (List.isChain_cons_cons.1 hg.2.1).1
    obtain ⟨s', h1, h2⟩ := below_eq (hM.next pre q p todo m (some (.fin x)) (by simp) hgap hm le_rfl) hs L
    rw [hqk] at h1
    refine ⟨L, s', ?_, h2, hi, h, ?_, rfl, hc⟩
    · simp only [xNext, run_bind, get, Option.bind_some, h.step, resolve_same, ownNext, Run.lift, hacc, orElse, h1]
    · rw [h.start (by simp)]
      cases pre <;> rfl
  | none =>
    have hs0 : seen = [] := by
      have := h.cur
      rw [hc] at this
      cases hl : seen.getLast? with
      | none => simpa using hl
      | some q => rw [hl] at this; cases this
    subst hs0
    have hlo : (span ([] ++ p :: todo)).lo = .fin p.1 := span_lo rfl
    have hcon : (span ([] ++ p :: todo)).contains (.fin p.1) = true := by
      rw [← getDomain_eq_span]; exact getDomain_contains_mem hasc (by simp)
    have hne : (span ([] ++ p :: todo)).isEmpty = false := Iv.not_isEmpty_of_mem hcon
    have hni : (span ([] ++ p :: todo)).isNegInf = false := by simp only [Iv.isNegInf, hlo]; simp
    obtain ⟨s1, h1, hs1⟩ := below_eq hM.dom hs L
    obtain ⟨L2, s2, h2, hs2, hi2, hL2⟩ := dom_eq hM hi hs1
    refine ⟨{ L2 with scan := { L2.scan with scanStart := some p.1 } }, s2, ?_, hs2, hi2.scan _, ?_, rfl, by rw [hL2],
      by rw [hL2, hc]⟩
    · simp only [initScan, run_bind, h1, Option.bind_some, hne, hni, Bool.or_self, Bool.false_eq_true, if_false, h2, hlo,
        hcon, Bool.not_true, get, put]
      rfl
    · show Sane g m i u { L2.scan with scanStart := some p.1 } [] (p :: todo)
      rw [hL2]
      exact ⟨h.fit, h.acc, h.interp, h.force, h.run, h.cur, by simp, h.step⟩

/-- One step of the transform. -/
theorem accumulate_eq (hm : 0 < m) (h : Sane (plainRule t) m i u L.scan seen (p :: todo))
    (hst : L.scan.scanStart = (seen ++ [p]).head?.map Prod.fst) (s : σ) :
    (∃ e, plainRule t (seen ++ [p]) L.scan.acc.points = .error e ∧
      accumulate t p.1 p.2 (L, s) = some (.error e, ({ L with scan := { L.scan with acc := L.scan.acc.touch } }, s))) ∨
    (∃ v A', plainRule t (seen ++ [p]) L.scan.acc.points = .ok v ∧
      accumulate t p.1 p.2 (L, s) = some (.ok (), ({ L with scan := A' }, s)) ∧
      A'.acc.points = L.scan.acc.points ++ [(p.1, v)] ∧
      Sane (plainRule t) m i u { A' with current := some p.1 } (seen ++ [p]) todo) := by
  have hbefore : ∀ q ∈ L.scan.acc.points, q.1 < p.1 := by
    intro q hq
    have : q.1 ∈ L.scan.acc.points.map Prod.fst := List.mem_map_of_mem hq
    rw [h.accXs] at this
    obtain ⟨q', hq', hqq⟩ := List.mem_map.1 this
    have := (List.pairwise_append.1 (h.asc hm)).2.2 q' hq' p (by simp)
    linarith
  have hlast : Accum.lastOf L.scan.acc.touch p.1 = .ok (lastOut L.scan.acc.points) := lastOf_eq h.touch.acc hbefore
  have hr : plainRule t (seen ++ [p]) L.scan.acc.points = t p.1 p.2 (lastOut L.scan.acc.points) := by simp [plainRule]
  rcases h.accumulate hm hst with ⟨e, hg, -⟩ | ⟨v, A', hg, hac, hap, hsn⟩
  · refine .inl ⟨e, hg, ?_⟩
    rw [hr] at hg
    simp only [accumulate, run_bind, get, put, Option.bind_some, Run.lift, hlast, hg]
  · refine .inr ⟨v, A', hg, ?_, hap, hsn⟩
    rw [hr] at hg
    simp only [CScan.accumulate, hlast, hg, bind, Except.bind] at hac
    simp only [accumulate, run_bind, get, put, Option.bind_some, Run.lift, hlast, hg, append]
    cases he : (L.scan.acc.touch.append (p.1, v) Accum.quiet).err with
    | some e => rw [he] at hac; cases hac
    | none => rw [he] at hac; cases hac; rfl

/-- The loop processes exactly the knots needed. -/
theorem loop_eq (hM : Shown M J pts m) (hm : 0 < m) {x : ℚ} (hx : ∃ p ∈ pts, x ≤ p.1) :
    ∀ (todo seen : List (Pt ℚ)) (L : Layer) (s : σ) (n : ℕ), seen ++ todo = pts → Idle pts L → J s →
      Sane (plainRule t) m i u L.scan seen todo → todo.length < n →
      (∃ out e L' s', runRule (plainRule t) seen L.scan.acc.points (Accum.need x seen todo) = (out, some e) ∧
        scanLoop M t x n (L, s) = some (.error e, (L', s')) ∧ J s' ∧ Fine (plainRule t) m i u pts L') ∨
      (∃ L' s' rest, runRule (plainRule t) seen L.scan.acc.points (Accum.need x seen todo) = (L'.scan.acc.points, none) ∧
        scanLoop M t x n (L, s) = some (.ok (), (L', s')) ∧ J s' ∧ Idle pts L' ∧ todo = Accum.need x seen todo ++ rest ∧
        Sane (plainRule t) m i u L'.scan (seen ++ Accum.need x seen todo) rest) := by
  intro todo
  induction todo with
  | nil =>
    intro seen L s n hp hi hs h hn
    obtain ⟨n, rfl⟩ : ∃ k, n = k + 1 := ⟨n - 1, by omega⟩
    subst hp
    have hcur : (seen.getLast?.map Prod.fst).all (fun k => decide (k < x)) = false := by
      obtain ⟨q, hq, hxq⟩ := hx
      rw [List.append_nil] at hq
      have hne : seen ≠ [] := List.ne_nil_of_mem hq
      have hl := List.getLast?_eq_some_getLast hne
      have hasc := h.asc hm
      rw [List.append_nil] at hasc
      have := Accum.le_getLast hasc hl hq
      rw [hl]
      simp only [Option.map_some, Option.all_some, decide_eq_false_iff_not, not_lt]
      linarith
    have hneed : Accum.need x seen [] = [] := by unfold Accum.need; rw [hcur]; rfl
    refine Or.inr ⟨L, s, [], by rw [hneed]; rfl, ?_, hs, hi, by rw [hneed]; rfl, by rw [hneed, List.append_nil]; exact h⟩
    simp only [scanLoop, run_bind, get, Option.bind_some, h.cur, hcur, Bool.false_eq_true, if_false]
    rfl
  | cons p ps ih =>
    intro seen L s n hp hi hs h hn
    obtain ⟨n, rfl⟩ : ∃ k, n = k + 1 := ⟨n - 1, by omega⟩
    cases hcur : (seen.getLast?.map Prod.fst).all (fun k => decide (k < x)) with
    | false =>
      have hneed : Accum.need x seen (p :: ps) = [] := by unfold Accum.need; rw [hcur]; rfl
      refine Or.inr ⟨L, s, p :: ps, by rw [hneed]; rfl, ?_, hs, hi, by rw [hneed]; rfl,
        by rw [hneed, List.append_nil]; exact h⟩
      simp only [scanLoop, run_bind, get, Option.bind_some, h.cur, hcur, Bool.false_eq_true, if_false]
      rfl
    | true =>
      have hneed : Accum.need x seen (p :: ps) = p :: Accum.need x (seen ++ [p]) ps := by
        unfold Accum.need
        rw [hcur, if_pos rfl]
        simp only [upTo, List.getLast?_append, List.getLast?_singleton, Option.some_or, Option.map_some,
          Option.all_some, decide_eq_true_eq]
        split <;> rfl
      have hpts : pts = seen ++ p :: ps := hp.symm
      rw [hpts] at hM hi
      obtain ⟨L1, s1, e1, hs1, hi1, h1, hstart, hacc, hcc⟩ := nextPos_eq hM hm hi h hs x
      have hcon : (span (seen ++ p :: ps)).contains (.fin p.1) = true := by
        rw [← getDomain_eq_span]; exact getDomain_contains_mem (h.asc hm) (by simp)
      have hadv : (seen.getLast?.map Prod.fst).any (fun k => decide (p.1 ≤ k)) = false := by
        cases hl : seen.getLast? with
        | none => rfl
        | some q =>
          have := (List.pairwise_append.1 (h.asc hm)).2.2 q (List.mem_of_getLast? hl) p (by simp)
          simpa using this
      obtain ⟨s2, e2, hs2⟩ := below_eq hM.dom hs1 L1
      obtain ⟨s3, e3, hs3⟩ := below_eq (hM.val p (by simp)) hs2 L1
      have hpre : ∀ r, accumulate t p.1 p.2 (L1, s3) = r → scanLoop M t x (n + 1) (L, s) =
          r.bind fun r => match r.1 with
            | .ok _ => scanLoop M t x n ({ r.2.1 with scan := { r.2.1.scan with current := some p.1 } }, r.2.2)
            | .error e => some (.error e, r.2) := by
        intro r hr
        simp only [scanLoop, run_bind, get, Option.bind_some, h.cur, hcur, if_true, e1, e2, hcon, Bool.not_true,
          Bool.false_eq_true, if_false, hadv, e3, Run.lift, rational_map, hr, put]
        rcases r with _ | ⟨_ | _, _⟩ <;> rfl
      rcases accumulate_eq hm h1 hstart s3 with ⟨e, hg, hac⟩ | ⟨v, A2, hg, hac, hap, sn3⟩
      · left
        rw [hacc] at hg
        refine ⟨L.scan.acc.points, e, { L1 with scan := { L1.scan with acc := L1.scan.acc.touch } }, s3,
          by rw [hneed]; simp only [runRule, hg], ?_, hs3, ?_⟩
        · rw [hpre _ hac]; rfl
        · rw [hpts]; exact ⟨hi1.scan _, seen, p :: ps, rfl, h1.touch⟩
      · rw [hacc] at hg hap
        have e4 : scanLoop M t x (n + 1) (L, s) = scanLoop M t x n ({ L1 with scan := { A2 with current := some p.1 } }, s3) := by
          rw [hpre _ hac]; rfl
        have e5 : runRule (plainRule t) seen L.scan.acc.points (p :: Accum.need x (seen ++ [p]) ps) =
            runRule (plainRule t) (seen ++ [p]) (L.scan.acc.points ++ [(p.1, v)]) (Accum.need x (seen ++ [p]) ps) := by
          simp only [runRule, hg]
        have e6 : seen ++ p :: Accum.need x (seen ++ [p]) ps = seen ++ [p] ++ Accum.need x (seen ++ [p]) ps := by simp
        have := ih (seen ++ [p]) { L1 with scan := { A2 with current := some p.1 } } s3 n (by simpa using hp)
          (by rw [hpts]; exact hi1.scan _) hs3 sn3 (by simpa using hn)
        rw [hneed, e4, e5, e6]
        simp only [hap] at this
        rcases this with ⟨out, e, L', s', r1, r2, r3, r4⟩ | ⟨L', s', rest, r1, r2, r3, r4, r5, r6⟩
        · exact Or.inl ⟨out, e, L', s', r1, r2, r3, r4⟩
        · exact Or.inr ⟨L', s', rest, r1, r2, r3, r4, by rw [List.cons_append, ← r5], r6⟩

/-- What a scan leaves. -/
theorem scanTo_eq (hM : Shown M J (seen ++ todo) m) (hm : 0 < m) {n : ℕ} (hn : (seen ++ todo).length ≤ n)
    (hi : Idle (seen ++ todo) L) (h : Sane (plainRule t) m i u L.scan seen todo) (hs : J s) {x : ℚ}
    (hin : (span (seen ++ todo)).contains (.fin x) = true) :
    (∃ out e L' s', runRule (plainRule t) seen L.scan.acc.points (Accum.need x seen todo) = (out, some e) ∧
      scanTo M t n x (L, s) = some (.error e, (L', s')) ∧ J s' ∧ Fine (plainRule t) m i u (seen ++ todo) L') ∨
    (∃ L' s' rest, runRule (plainRule t) seen L.scan.acc.points (Accum.need x seen todo) = (L'.scan.acc.points, none) ∧
      scanTo M t n x (L, s) = some (.ok (), (L', s')) ∧ J s' ∧ Idle (seen ++ todo) L' ∧
      todo = Accum.need x seen todo ++ rest ∧
      Sane (plainRule t) m i u L'.scan (seen ++ Accum.need x seen todo) rest) := by
  have hspan : span (seen ++ todo) = getDomain (seen ++ todo) := (getDomain_eq_span _).symm
  have hreach : ∃ p ∈ seen ++ todo, x ≤ p.1 := by
    have hx' := hin
    rw [hspan] at hx'
    obtain ⟨p, q, _, hq, _, h2⟩ := (getDomain_contains_fin _ _).1 hx'
    exact ⟨q, List.mem_of_getElem? hq, h2⟩
  obtain ⟨A', hA', s', ha'⟩ : ∃ A', (if L.scan.scanStart.any (fun s => decide (x < s)) then L.scan.resetScan else L.scan) = A' ∧
      Sane (plainRule t) m i u A' seen todo ∧ A'.acc.points = L.scan.acc.points := by
    by_cases hst : L.scan.scanStart.any (fun s => decide (x < s)) = true
    · rw [if_pos hst]
      have hseen : seen = [] := by
        by_contra hne
        have h0 := h.start hne
        cases hse : seen with
        | nil => exact hne hse
        | cons a as =>
          rw [h0, hse] at hst
          have hx' := hin
          rw [hspan] at hx'
          obtain ⟨p, q, hp, _, h1, _⟩ := (getDomain_contains_fin _ _).1 hx'
          rw [hse] at hp
          simp only [List.cons_append, List.getElem?_cons_zero, Option.some.injEq] at hp
          subst hp
          simp only [List.head?_cons, Option.map_some, Option.any_some, decide_eq_true_eq] at hst
          linarith
      subst hseen
      obtain ⟨r1, r2, r3, r4, r5⟩ := reset_none_ok h.acc Accum.quiet
      have hacc : L.scan.acc.points = [] := by
        have := h.run
        simp only [runRule, Prod.mk.injEq, and_true] at this
        exact this.symm
      refine ⟨L.scan.resetScan, rfl, ⟨h.fit, r2, r4.trans h.interp, r5.trans h.force, ?_, rfl, by simp, h.step⟩, ?_⟩
      · show runRule (plainRule t) [] [] [] = ((L.scan.acc.reset none Accum.quiet).st.points, none)
        rw [r3]; rfl
      · show (L.scan.acc.reset none Accum.quiet).st.points = _
        rw [r3, hacc]
    · rw [if_neg hst]
      exact ⟨L.scan, rfl, h, rfl⟩
  have hlen : todo.length < n + 2 := by rw [List.length_append] at hn; omega
  have hscan : scanTo M t n x (L, s) = scanLoop M t x (n + 2) ({ L with scan := A' }, s) := by
    rw [← hA']
    simp only [scanTo, run_bind, get, Option.bind_some]
    split <;> rfl
  have hloop := loop_eq hM hm hreach todo seen { L with scan := A' } s (n + 2) rfl (hi.scan _) hs s' hlen
  simp only [ha'] at hloop
  rw [hscan]
  exact hloop

/-- What a query answers, and the state it leaves. -/
theorem y_agrees (hM : Shown M J pts m) (hm : 0 < m) {n : ℕ} (hn : pts.length ≤ n) (x : Ext) :
    Agrees (fun s : Layer × σ => Fine (plainRule t) m i u pts s.1 ∧ J s.2) (y M t n x)
      (some ((accumulatedAt (plainRule t) i pts x).map (Option.map .fin))) := by
  rintro ⟨L, s⟩ ⟨⟨hi, seen, todo, rfl, h⟩, hs⟩
  refine ⟨nofun, fun v hv => ?_⟩
  cases hv
  obtain ⟨s1, e1, hs1⟩ := below_eq hM.dom hs L
  have hspan : span (seen ++ todo) = getDomain (seen ++ todo) := (getDomain_eq_span _).symm
  cases hin : (span (seen ++ todo)).contains x with
  | false =>
    obtain ⟨L2, s2, e2, hs2, hi2, hL2⟩ := dom_eq hM hi hs1
    refine ⟨(L2, s2), ?_, ⟨hi2, seen, todo, rfl, by rw [hL2]; exact h⟩, hs2⟩
    have ha : accumulatedAt (plainRule t) i (seen ++ todo) x = .ok none := by
      cases x <;> simp [accumulatedAt, hin]
    rw [ha]
    simp only [y, run_bind, e1, Option.bind_some, hin, Bool.false_eq_true, if_false, e2, pure_run, Bool.not_false, if_true]
    rfl
  | true =>
    cases x with
    | ninf => rw [hspan, (getDomain_contains_inf _).2] at hin; cases hin
    | pinf => rw [hspan, (getDomain_contains_inf _).1] at hin; cases hin
    | fin x =>
    rw [Accum.fold_need (h.asc hm) h.run hin]
    rcases scanTo_eq hM hm hn hi h hs1 hin with ⟨out, e, L', s', h1, h2, h3, h4⟩ | ⟨L', s', rest, h1, h2, h3, h4, h5, h6⟩
    · refine ⟨(L', s'), ?_, h4, h3⟩
      rw [h1]
      simp only [y, run_bind, e1, Option.bind_some, hin, if_true, pure_run, Bool.not_true, Bool.false_eq_true, if_false,
        h2]
      rfl
    · have hy := y_eq h6.acc.wf (x := .fin x)
      refine ⟨({ L' with scan := { L'.scan with acc := L'.scan.acc.touch } }, s'), ?_,
        ⟨h4.scan _, seen ++ Accum.need x seen todo, rest, by rw [List.append_assoc, ← h5], h6.touch⟩, h3⟩
      rw [h1]
      simp only [y, run_bind, e1, Option.bind_some, hin, if_true, pure_run, Bool.not_true, Bool.false_eq_true, if_false,
        h2, get, put, Run.lift, hy, h6.interp]
      rfl

end Layer
end Curvepy
