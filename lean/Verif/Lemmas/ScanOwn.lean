import Verif.Lemmas.Scan
import Verif.Model.Smma

/-!
# Scans whose transform has a state of its own
-/

namespace Curvepy
namespace Accum
open Spec Pts

variable {σ : Type} {g : Rule} {m : ℚ} {i : Interp} {u : Bool} {A : Accum} {seen todo : List (Pt ℚ)}

/-- The transform does at each knot after the first `N` what the rule says, without an exception, if its state suits the source (`I`),
and keeps it so.  The points of the source stay the same. -/
def FollowsFrom (N : ℕ) (I : σ → Pts ℚ → Prop) (m : ℚ) (t : STfm σ) (g : Rule) : Prop :=
  ∀ (src : Pts ℚ) (seen rest : List (Pt ℚ)) (p : Pt ℚ) (out : List (Pt ℚ)) (s : σ), N ≤ seen.length → I s src → Honest src →
    src.points = seen ++ p :: rest → runRule g [] [] seen = (out, none) → Gapped m src.points →
    ∃ s' src' v, t s src p.1 p.2 (lastOut out) = some (s', src', .ok v) ∧ g (seen ++ [p]) out = .ok v ∧
      I s' src' ∧ Honest src' ∧ src'.points = src.points

/-- The same at all knots. -/
def FollowsOwn (I : σ → Pts ℚ → Prop) (m : ℚ) (t : STfm σ) (g : Rule) : Prop :=
  ∀ (src : Pts ℚ) (seen rest : List (Pt ℚ)) (p : Pt ℚ) (out : List (Pt ℚ)) (s : σ), I s src → Honest src →
    src.points = seen ++ p :: rest → runRule g [] [] seen = (out, none) → Gapped m src.points →
    ∃ s' src' v, t s src p.1 p.2 (lastOut out) = some (s', src', .ok v) ∧ g (seen ++ [p]) out = .ok v ∧
      I s' src' ∧ Honest src' ∧ src'.points = src.points

theorem FollowsOwn.from {I : σ → Pts ℚ → Prop} {t : STfm σ} (h : FollowsOwn I m t g) (N : ℕ) : FollowsFrom N I m t g :=
  fun src seen rest p out s _ => h src seen rest p out s

/-- A transform for any rule. -/
def ruleTfm (g : Rule) : Tfm := fun src acc x _ _ => g (src.points.filter fun p => decide (p.1 ≤ x)) acc.points

theorem ruleTfm_follows (g : Rule) : Follows m (ruleTfm g) g := by
  intro src acc seen rest p hs _ hp _ _
  have h := hs.wf.asc
  rw [hp] at h
  obtain ⟨_, h2, h3⟩ := List.pairwise_append.1 h
  unfold ruleTfm
  congr 1
  rw [hp, List.filter_append, List.filter_cons]
  have e1 : seen.filter (fun q => decide (q.1 ≤ p.1)) = seen :=
    List.filter_eq_self.2 fun q hq => by simpa using (h3 q hq p (by simp)).le
  have e2 : rest.filter (fun q => decide (q.1 ≤ p.1)) = [] :=
    List.filter_eq_nil_iff.2 fun q hq => by simpa using (List.pairwise_cons.1 h2).1 q hq
  simp [e1, e2]

theorem Sound.withSource (h : Sound g m i u A seen todo) {s : Pts ℚ} (hs : Honest s)
    (hp : s.points = A.src.points) : Sound g m i u { A with src := s } seen todo :=
  ⟨hs, hp.trans h.pts, by show Fit m u s.points; rw [hp]; exact h.fit, h.acc, h.interp, h.force, h.run, h.cur, h.start, h.step,
    by show A.cache = none ∨ A.cache = some (getDomain s.points); rw [hp]; exact h.cache, h.idleB, h.idleE⟩

theorem accumulateS_of {t0 : Tfm} {t : STfm σ} {A A' : Accum} {x : ℚ} {y last v : Option ℚ} {s s' : σ} {src' : Pts ℚ}
    (h : A.accumulate t0 x y = ⟨A', [(x, y, last)], .ok ()⟩)
    (h0 : t0 A.src A.acc.touch x y last = .ok v) (ht : t s A.src x y last = some (s', src', .ok v)) :
    A.accumulateS t s x y = some ⟨{ A' with src := src' }, s', .ok ()⟩ := by
  unfold accumulate at h
  unfold accumulateS
  simp only at h ⊢
  cases hl : lastOf A.acc.touch x with
  | error e => simp [hl] at h
  | ok l =>
    simp only [hl] at h ⊢
    have hll : l = last := by
      cases h1 : t0 A.src A.acc.touch x y l with
      | error e => simp [h1] at h
      | ok w =>
        simp only [h1] at h
        cases h2 : (A.acc.touch.append (x, w) quiet).err with
        | some e => simp [h2] at h
        | none =>
          simp only [h2, Out.mk.injEq, List.cons.injEq, Prod.mk.injEq] at h
          exact h.2.1.1.2.2
    subst hll
    simp only [h0] at h
    simp only [ht]
    cases h2 : (A.acc.touch.append (x, v) quiet).err with
    | some e => simp [h2] at h
    | none =>
      simp only [h2, Out.mk.injEq] at h ⊢
      rw [← h.1]

theorem initScan_src (A : Accum) (x : ℚ) :
    (A.initScan x).1.src = A.src.touch ∨ (A.initScan x).1.src = A.src.touch.touch := by
  have e2 : ({ A with src := A.src.touch } : Accum).touch.src = A.src.touch ∨
      ({ A with src := A.src.touch } : Accum).touch.src = A.src.touch.touch := by
    unfold Accum.touch
    cases A.cache
    · exact Or.inr rfl
    · exact Or.inl rfl
  unfold initScan
  simp only
  split
  · exact Or.inl rfl
  · split
    · exact e2
    · exact e2

theorem nextPos_src (A : Accum) (x : ℚ) :
    (A.nextPos x).1.src = A.src ∨ (A.nextPos x).1.src = A.src.touch ∨ (A.nextPos x).1.src = A.src.touch.touch := by
  unfold nextPos
  cases hc : A.current with
  | some c => exact Or.inl rfl
  | none =>
    right
    have h := initScan_src A x
    revert h
    rcases A.initScan x with ⟨B, e | p⟩ <;> exact id

/-- The loop processes exactly the knots needed. -/
theorem scanLoopS_spec {N : ℕ} {I : σ → Pts ℚ → Prop} {t : STfm σ} (hI : ∀ s src, I s src → I s src.touch)
    (hf : FollowsFrom N I m t g) (hm : 0 < m) (x : ℚ) :
    ∀ (todo seen : List (Pt ℚ)) (A : Accum) (s : σ) (n : ℕ), N ≤ seen.length → Sound g m i u A seen todo → I s A.src →
      (∃ p ∈ seen ++ todo, x ≤ p.1) → todo.length < n →
      ∃ o, scanLoopS t x n A s = some o ∧ o.st.src.points = A.src.points ∧ I o.own o.st.src ∧
        ∃ out rest, runRule g seen A.acc.points (need x seen todo) = (out, none) ∧ o.res = .ok () ∧
          todo = need x seen todo ++ rest ∧ o.st.acc.points = out ∧
          Sound g m i u o.st (seen ++ need x seen todo) rest := by
  intro todo
  induction todo with
  | nil =>
    intro seen A s n hN h hs hx hn
    obtain ⟨n, rfl⟩ : ∃ k, n = k + 1 := ⟨n - 1, by omega⟩
    have hcur : (seen.getLast?.map Prod.fst).all (fun c => decide (c < x)) = false := by
      obtain ⟨q, hq, hxq⟩ := hx
      rw [List.append_nil] at hq
      have hne : seen ≠ [] := List.ne_nil_of_mem hq
      have hl := List.getLast?_eq_some_getLast hne
      have hasc := h.asc
      rw [List.append_nil] at hasc
      have := le_getLast hasc hl hq
      rw [hl]
      simp only [Option.map_some, Option.all_some, decide_eq_false_iff_not, not_lt]
      linarith
    have hneed : need x seen [] = [] := by unfold need; rw [hcur]; rfl
    refine ⟨⟨A, s, .ok ()⟩, ?_, rfl, hs, A.acc.points, [], ?_, rfl, ?_, rfl, ?_⟩
    · simp only [scanLoopS, h.cur, hcur, Bool.false_eq_true, if_false]
    · rw [hneed]; rfl
    · rw [hneed]; rfl
    · rw [hneed, List.append_nil]; exact h
  | cons p ps ih =>
    intro seen A s n hN h hs hx hn
    obtain ⟨n, rfl⟩ : ∃ k, n = k + 1 := ⟨n - 1, by omega⟩
    cases hcur : (seen.getLast?.map Prod.fst).all (fun c => decide (c < x)) with
    | false =>
      have hneed : need x seen (p :: ps) = [] := by unfold need; rw [hcur]; rfl
      refine ⟨⟨A, s, .ok ()⟩, ?_, rfl, hs, A.acc.points, p :: ps, ?_, rfl, ?_, rfl, ?_⟩
      · simp only [scanLoopS, h.cur, hcur, Bool.false_eq_true, if_false]
      · rw [hneed]; rfl
      · rw [hneed]; rfl
      · rw [hneed, List.append_nil]; exact h
    | true =>
      have hneed : need x seen (p :: ps) = p :: need x (seen ++ [p]) ps := by
        unfold need
        rw [hcur, if_pos rfl]
        simp only [upTo, List.getLast?_append, List.getLast?_singleton, Option.some_or,
          Option.map_some, Option.all_some, decide_eq_true_eq]
        split <;> rfl
      obtain ⟨A1, hA1, s1, hst⟩ := h.nextPos hm x
      have hA1s : I s A1.src := by
        have e := nextPos_src A x
        rw [hA1] at e
        rcases e with e | e | e <;> rw [e]
        · exact hs
        · exact hI _ _ hs
        · exact hI _ _ (hI _ _ hs)
      have s2 := s1.touchSrc
      have hcon : ({ A1 with src := A1.src.touch } : Accum).src.domVal.contains (.fin p.1) = true := by
        rw [s2.srcDom]; exact getDomain_contains_mem h.asc (by simp)
      have hadv : ({ A1 with src := A1.src.touch } : Accum).current.any (fun k => decide (p.1 ≤ k)) = false := by
        rw [s2.cur]
        cases hl : seen.getLast? with
        | none => rfl
        | some q =>
          have := (List.pairwise_append.1 h.asc).2.2 q (List.mem_of_getLast? hl) p (by simp)
          simpa using this
      have hy : ({ A1 with src := A1.src.touch } : Accum).src.y (.fin p.1) = .ok p.2 :=
        Props.C01_stored_value s2.src (by rw [s2.pts]; simp)
      have hpts1 : A1.src.points = A.src.points := by rw [s1.pts, h.pts]
      have hacc1 : A1.acc.points = A.acc.points := by
        have := s1.run.symm.trans h.run
        simpa using this
      obtain ⟨s', src', v, ht, hg, hs', hh', hp'⟩ := hf A1.src.touch seen ps p A.acc.points s hN (hI _ _ hA1s) s2.src
        (hpts1.trans h.pts) h.run (by show Gapped m A1.src.points; rw [hpts1]; exact h.fit.gapped)
      rcases s2.accumulate (ruleTfm_follows g) hm hst with ⟨e, A2, hg', _⟩ | ⟨v', A2, hg', hac, hap, hsrc, s3⟩
      · have : g (seen ++ [p]) A1.acc.points = .error e := hg'
        rw [hacc1, hg] at this
        cases this
      · have hvv : v' = v := by
          have : g (seen ++ [p]) A1.acc.points = .ok v' := hg'
          rw [hacc1, hg] at this
          cases this
          rfl
        subst hvv
        have hac' : ({ A1 with src := A1.src.touch } : Accum).accumulateS t s p.1 p.2 =
            some ⟨{ A2 with src := src' }, s', .ok ()⟩ := by
          refine accumulateS_of hac ?_ (by show t s A1.src.touch p.1 p.2 (lastOut A1.acc.points) = _; rw [hacc1]; exact ht)
          show ruleTfm g A1.src.touch A1.acc.touch p.1 p.2 (lastOut A1.acc.touch.points) = _
          rw [ruleTfm_follows (m := m) g A1.src.touch A1.acc.touch seen ps p s2.src (.read s1.acc)
            (hpts1.trans h.pts) s1.accXs (by show Gapped m A1.src.points; rw [hpts1]; exact h.fit.gapped)]
          exact hg'
        have hap' : A2.acc.points = A.acc.points ++ [(p.1, v')] := by rw [hap, ← hacc1]
        have hp2 : src'.points = A2.src.points := by rw [hsrc]; exact hp'
        have s4 : Sound g m i u { A2 with src := src', current := some p.1 } (seen ++ [p]) ps :=
          s3.withSource (s := src') hh' hp2
        obtain ⟨o, ho, hop, hoI, out, rest, r1, r2, r3, r4, r5⟩ := ih (seen ++ [p]) _ s' n (by rw [List.length_append]; omega) s4 hs'
          (by simpa using hx) (by simpa using hn)
        refine ⟨o, ?_, ?_, hoI, out, rest, ?_, r2, ?_, r4, ?_⟩
        · simp only [scanLoopS, h.cur, hcur, if_true, hA1, hcon, Bool.not_true, Bool.false_eq_true,
            if_false, hadv, hy, hac', ho]
        · rw [hop]
          exact hp'.trans hpts1
        · rw [hneed]
          simp only [runRule, hg]
          rw [← r1]
          show runRule g _ _ _ = runRule g _ A2.acc.points _
          rw [hap']
        · rw [hneed, List.cons_append, ← r3]
        · rw [hneed]
          have : seen ++ p :: need x (seen ++ [p]) ps = seen ++ [p] ++ need x (seen ++ [p]) ps := by simp
          rw [this]; exact r5

theorem need_reaches {x : ℚ} {seen todo : List (Pt ℚ)} (h : ∃ p ∈ seen ++ todo, x ≤ p.1) (hasc : Ascending (seen ++ todo)) :
    ∃ p ∈ seen ++ need x seen todo, x ≤ p.1 := by
  unfold need
  split
  · rename_i hc
    have key : ∀ l : List (Pt ℚ), (∃ p ∈ l, x ≤ p.1) → ∃ p ∈ upTo x l, x ≤ p.1 := by
      intro l
      induction l with
      | nil => rintro ⟨p, hp, _⟩; cases hp
      | cons a l ih =>
        rintro ⟨p, hp, hx⟩
        unfold upTo
        split
        · rename_i ha
          rcases List.mem_cons.1 hp with rfl | hp
          · exact absurd ha (not_lt.2 hx)
          · obtain ⟨q, hq, hqx⟩ := ih ⟨p, hp, hx⟩
            exact ⟨q, List.mem_cons_of_mem _ hq, hqx⟩
        · rename_i ha
          exact ⟨a, List.mem_cons_self, not_lt.1 ha⟩
    obtain ⟨p, hp, hx⟩ := h
    rcases List.mem_append.1 hp with hp | hp
    · exact ⟨p, List.mem_append_left _ hp, hx⟩
    · obtain ⟨q, hq, hqx⟩ := key todo ⟨p, hp, hx⟩
      exact ⟨q, List.mem_append_right _ hq, hqx⟩
  · rename_i hc
    cases hl : seen.getLast? with
    | none => simp [hl] at hc
    | some q =>
      simp only [hl, Option.map_some, Option.all_some, decide_eq_true_eq, not_lt] at hc
      exact ⟨q, List.mem_append_left _ (List.mem_of_getLast? hl), hc⟩

/-- What a query returns, and what it leaves behind. -/
theorem Sound.queryFrom {I : σ → Pts ℚ → Prop} {t : STfm σ} (hI : ∀ s src, I s src → I s src.touch)
    (hf : FollowsFrom seen.length I m t g) (hm : 0 < m) (h : Sound g m i u A seen todo) {s : σ} (hs : I s A.src) (x : Ext) :
    ∃ o, A.queryS t s x = some o ∧ o.st.src.points = A.src.points ∧ I o.own o.st.src ∧
      o.res = accumulatedAt g i A.src.points x ∧ ∃ seen' todo', Sound g m i u o.st seen' todo' ∧
        (∀ q, x = .fin q → (span A.src.points).contains x = true → ∃ p ∈ seen', q ≤ p.1) := by
  have h1 := h.touchSrc
  cases hx : (span (seen ++ todo)).contains x with
  | false =>
    have h2 := h1.touch
    have hin : ({ A with src := A.src.touch } : Accum).src.domVal.contains x = false := by
      rw [h1.srcDom, getDomain_eq_span]; exact hx
    have hin2 : ({ A with src := A.src.touch } : Accum).touch.domVal.contains x = false := by
      rw [h2.dom, getDomain_eq_span]; exact hx
    refine ⟨⟨({ A with src := A.src.touch } : Accum).touch, s, .ok none⟩, ?_, ?_, ?_, ?_, _, _, h2,
      fun q _ hc => by rw [h.pts, hx] at hc; cases hc⟩
    · unfold Accum.queryS
      simp only [hin, Bool.false_eq_true, if_false, hin2, Bool.not_false, if_true]
    · show ({ A with src := A.src.touch } : Accum).touch.src.points = _
      rw [touch_points]; rfl
    · show I s ({ A with src := A.src.touch } : Accum).touch.src
      unfold Accum.touch
      cases A.cache
      · exact hI _ _ (hI _ _ hs)
      · exact hI _ _ hs
    · rw [h.pts]
      unfold accumulatedAt
      cases x with
      | ninf => rfl
      | pinf => rfl
      | fin q => simp [hx]
  | true =>
    cases x with
    | ninf => rw [← getDomain_eq_span, (getDomain_contains_inf _).2] at hx; cases hx
    | pinf => rw [← getDomain_eq_span, (getDomain_contains_inf _).1] at hx; cases hx
    | fin x =>
      have hin : ({ A with src := A.src.touch } : Accum).src.domVal.contains (.fin x) = true := by
        rw [h1.srcDom, getDomain_eq_span]; exact hx
      have hsI : I s (if ({ A with src := A.src.touch } : Accum).scanStart.any (fun s => decide (x < s)) then
          ({ A with src := A.src.touch } : Accum).resetScan else { A with src := A.src.touch }).src := by
        split
        · exact hI _ _ hs
        · exact hI _ _ hs
      obtain ⟨A', hA', s', hp', ha'⟩ := h1.resetStale hx
      rw [hA'] at hsI
      have hreach : ∃ p ∈ seen ++ todo, x ≤ p.1 := by
        have hx' := hx
        rw [← getDomain_eq_span'] at hx'
        obtain ⟨p, q, _, hq, _, h2⟩ := (getDomain_contains_fin _ _).1 hx'
        exact ⟨q, List.mem_of_getElem? hq, h2⟩
      have hlen : todo.length < A'.src.points.length + 2 := by
        rw [s'.pts, List.length_append]; omega
      obtain ⟨o, ho, hop, hoI, out, rest, r1, r2, r3, r4, r5⟩ :=
        scanLoopS_spec hI hf hm x todo seen A' s _ le_rfl s' hsI hreach hlen
      have hscan : ({ A with src := A.src.touch } : Accum).scanS t s x = some o := by
        unfold scanS
        simp only
        rw [hA']
        exact ho
      refine ⟨⟨{ o.st with acc := o.st.acc.touch }, o.own, o.st.acc.y (.fin x)⟩, ?_, hop.trans hp', hoI, ?_, _, _, r5.touchAcc,
        fun q hq _ => by cases hq; exact need_reaches hreach h.asc⟩
      · unfold Accum.queryS
        simp only [hin, if_true, Bool.not_true, Bool.false_eq_true, if_false, hscan, r2]
      · have hap : A'.acc.points = A.acc.points := ha'
        rw [hap] at r1
        rw [h.pts, fold_need h.asc h.run hx, r1]
        show o.st.acc.y (.fin x) = _
        rw [y_eq r5.acc.wf, r5.interp, r4]; rfl

/-- The same for a transform that follows the rule at all knots. -/
theorem Sound.queryS {I : σ → Pts ℚ → Prop} {t : STfm σ} (hI : ∀ s src, I s src → I s src.touch)
    (hf : FollowsOwn I m t g) (hm : 0 < m) (h : Sound g m i u A seen todo) {s : σ} (hs : I s A.src) (x : Ext) :
    ∃ o, A.queryS t s x = some o ∧ o.st.src.points = A.src.points ∧ I o.own o.st.src ∧
      o.res = accumulatedAt g i A.src.points x ∧ ∃ seen' todo', Sound g m i u o.st seen' todo' :=
  let ⟨o, h1, h2, h3, h4, seen', todo', h5, _⟩ := h.queryFrom hI (hf.from _) hm hs x
  ⟨o, h1, h2, h3, h4, seen', todo', h5⟩

end Accum
end Curvepy
