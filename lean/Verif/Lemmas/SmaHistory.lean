import Verif.Lemmas.SmaQuery

/-!
# Histories of a moving average
-/

namespace Curvepy
namespace Sma
open Spec Pts Accum

variable {m : ℚ} {u : Bool} {w : Window} {A : Accum} {skip seen todo : List (Pt ℚ)} {p : Pt ℚ} {src : Pts ℚ}

/-! ## The domain -/

/-- The start of the domain. -/
theorem smaDomain_eq (h : Honest src) (w : Window) (m : ℚ) :
    ∃ d, smaDomain src w m = .ok d ∧ ∀ x, d.contains x = true → ∃ q, x = .fin q := by
  have hdf : ∀ a b x, (domainFrom a b).contains x = true → ∃ q, x = .fin q := by
    intro a b x hx
    unfold domainFrom at hx
    split at hx
    · simp [Iv.contains] at hx
    · cases x with
      | fin q => exact ⟨q, rfl⟩
      | ninf => simp [Iv.closed, Iv.contains, Iv.geLo] at hx
      | pinf => simp [Iv.closed, Iv.contains, Iv.leHi] at hx
  have hem : ∀ x, Iv.empty.contains x = true → ∃ q, x = .fin q := by
    intro x hx
    simp [Iv.contains] at hx
  unfold smaDomain
  rw [h.wf.domVal]
  by_cases he : (getDomain src.points).isEmpty = true
  · rw [if_pos he]
    exact ⟨_, rfl, hem⟩
  · rw [if_neg he]
    cases hp : src.points with
    | nil => rw [hp] at he; simp [getDomain] at he
    | cons a as =>
      have hlo : (getDomain (a :: as)).lo = .fin a.1 := rfl
      have hhi : (getDomain (a :: as)).hi = .fin ((a :: as).getLast (by simp)).1 := rfl
      simp only [hlo, hhi]
      cases w with
      | period per =>
        simp only [honest_prev h]
        cases lastUpTo src.points (a.1 + per - m) with
        | none => exact ⟨_, rfl, hdf _ _⟩
        | some z => exact ⟨_, rfl, hdf _ _⟩
      | degree n =>
        simp only
        have hf : ∀ (n : ℕ) (x : ℚ), ∃ z : Option ℚ, forward src m n (.fin x) = .ok (z.map .fin) := by
          intro n
          induction n with
          | zero => intro x; exact ⟨some x, rfl⟩
          | succ n ih =>
            intro x
            simp only [forward, honest_next h]
            cases firstFrom src.points (x + m) with
            | none => exact ⟨none, rfl⟩
            | some z => exact ih z
        obtain ⟨z, hz⟩ := hf (n - 1) a.1
        rw [hz]
        cases z with
        | none => exact ⟨_, rfl, hem⟩
        | some z => exact ⟨_, rfl, hdf _ _⟩

theorem smaTouch_spec (h : SmaSound w m u A skip seen todo) :
    ∃ B d, smaTouch w A = (B, .ok d) ∧ smaDomain A.src w m = .ok d ∧ B.src.points = A.src.points ∧
      SmaSound w m u B skip seen todo := by
  unfold smaTouch
  cases hc : A.cache with
  | some d => exact ⟨A, d, rfl, h.cache d hc, rfl, h⟩
  | none =>
    obtain ⟨d, hd, _⟩ := smaDomain_eq (.read h.src : Honest A.src.touch) w m
    have hs : A.minStep = m := h.step
    simp only [hs, hd]
    have h1 := h.touchSrc
    refine ⟨_, d, rfl, (smaDomain_congr h.src h1.src rfl w).trans hd, rfl, ?_⟩
    exact ⟨h1.src, h1.pts, h1.fit, h1.acc, h1.interp, h1.force, h1.run, h1.cur, h1.start, rfl,
      fun e he => by cases he; exact hd, h1.idleB, h1.idleE⟩

/-! ## Where windows start and end -/

theorem stepBack_any (h : Honest src) : ∀ (n : ℕ) (x : ℚ),
    ∃ z, stepBack src m n (.fin x) = .ok (.fin z) ∧ (z = x ∨ ∃ q ∈ src.points, q.1 = z) := by
  intro n
  induction n with
  | zero => intro x; exact ⟨x, rfl, Or.inl rfl⟩
  | succ n ih =>
    intro x
    rcases Props.C07_x_previous h x m with ⟨z, h1, ⟨q, hq, hz, _⟩, _⟩ | ⟨h1, _⟩
    · obtain ⟨y, h2, h3⟩ := ih z
      refine ⟨y, by simp only [stepBack, h1, h2], Or.inr ?_⟩
      rcases h3 with rfl | h3
      · exact ⟨q, hq, hz⟩
      · exact h3
    · exact ⟨x, by simp only [stepBack, h1], Or.inl rfl⟩

theorem stepOn_any (h : Honest src) : ∀ (n : ℕ) (x : ℚ),
    ∃ z, stepOn src m n (.fin x) = .ok (.fin z) ∧ (z = x ∨ ∃ q ∈ src.points, q.1 = z) := by
  intro n
  induction n with
  | zero => intro x; exact ⟨x, rfl, Or.inl rfl⟩
  | succ n ih =>
    intro x
    rcases Props.C06_x_next h x m with ⟨z, h1, ⟨q, hq, hz, _⟩, _⟩ | ⟨h1, _⟩
    · obtain ⟨y, h2, h3⟩ := ih z
      refine ⟨y, by simp only [stepOn, h1, h2], Or.inr ?_⟩
      rcases h3 with rfl | h3
      · exact ⟨q, hq, hz⟩
      · exact h3
    · exact ⟨x, by simp only [stepOn, h1], Or.inl rfl⟩

theorem smaStart_any (h : Honest src) (x : ℚ) :
    ∃ s, smaStart src w m x = .ok s ∧ ∀ x0, finPart s = some x0 → x0 = x ∨ ∃ q ∈ src.points, q.1 = x0 := by
  cases w with
  | degree n =>
    obtain ⟨z, h1, h2⟩ := stepBack_any (m := m) h (n - 1) x
    refine ⟨some (.fin z), by simp only [smaStart, h1], ?_⟩
    intro x0 hx
    simp only [finPart, Option.some.injEq] at hx
    subst hx
    exact h2
  | period per =>
    rcases Props.C06_x_next h (x - per) m with ⟨z, h1, ⟨q, hq, hz, _⟩, _⟩ | ⟨h1, _⟩
    · refine ⟨_, h1, ?_⟩
      intro x0 hx
      simp only [finPart, Option.some.injEq] at hx
      subst hx
      exact Or.inr ⟨q, hq, hz⟩
    · exact ⟨_, h1, by simp [finPart]⟩

theorem smaEnd_any (h : Honest src) (x : ℚ) :
    ∃ s, smaEnd src w m x = .ok s ∧ ∀ x0, finPart s = some x0 → x0 = x ∨ ∃ q ∈ src.points, q.1 = x0 := by
  cases w with
  | degree n =>
    obtain ⟨z, h1, h2⟩ := stepOn_any (m := m) h (n - 1) x
    refine ⟨some (.fin z), by simp only [smaEnd, h1], ?_⟩
    intro x0 hx
    simp only [finPart, Option.some.injEq] at hx
    subst hx
    exact h2
  | period per =>
    rcases Props.C07_x_previous h (x + per) m with ⟨z, h1, ⟨q, hq, hz, _⟩, _⟩ | ⟨h1, _⟩
    · refine ⟨_, h1, ?_⟩
      intro x0 hx
      simp only [finPart, Option.some.injEq] at hx
      subst hx
      exact Or.inr ⟨q, hq, hz⟩
    · exact ⟨_, h1, by simp [finPart]⟩

/-! ## Queries -/

/-- The state of an average over the points `P`. -/
def Ok (w : Window) (m : ℚ) (u : Bool) (P : List (Pt ℚ)) (A : Accum) : Prop :=
  A.src.points = P ∧ ∃ skip seen todo, SmaSound w m u A skip seen todo

/-- A call that ends and leaves the average in order. -/
def Ends (w : Window) (m : ℚ) (u : Bool) (P : List (Pt ℚ)) (r : Option (Out (Option ℚ))) : Prop :=
  ∃ o, r = some o ∧ Ok w m u P o.st

variable {P : List (Pt ℚ)}

theorem Ok.answer (h : Ok w m u P A) (r : Except Err (Option ℚ)) : Ends w m u P (answer A r) := ⟨_, rfl, h⟩

theorem Ends.whenSome {r : Option (Out (Option ℚ))} {f : Accum → ℚ → Option (Out (Option ℚ))}
    (h : Ends w m u P r) (hf : ∀ A v, Ok w m u P A → Ends w m u P (f A v)) : Ends w m u P (whenSome r f) := by
  obtain ⟨o, rfl, ho⟩ := h
  unfold Sma.whenSome
  cases hr : o.res with
  | error e => simp only [hr]; exact ⟨_, rfl, ho⟩
  | ok v =>
    cases v with
    | none => simp only [hr]; exact ⟨_, rfl, ho⟩
    | some v =>
      simp only [hr]
      obtain ⟨o', h1, h2⟩ := hf o.st v ho
      rw [h1]
      exact ⟨_, rfl, h2⟩

theorem Ok.superY (hm : minStepQ ≤ m) (hw : Fits m w) (h : Ok w m u P A) {x : ℚ} (hx : ∃ q ∈ P, q.1 = x) :
    Ends w m u P (superY w A x) := by
  obtain ⟨rfl, skip, seen, todo, h⟩ := h
  obtain ⟨q, hq, rfl⟩ := hx
  obtain ⟨k, hk⟩ := List.getElem?_of_mem hq
  obtain ⟨o, _, _, _, _, _, h1, h2, h3, _⟩ := superY_spec hm hw h hk
  exact ⟨o, h1, h2, _, _, _, h3⟩

/-- A query ends and leaves the average in order. -/
theorem smaY_ends (hm : minStepQ ≤ m) (hw : Fits m w) :
    ∀ (fuel : ℕ) (A : Accum) (x : Ext), Ok w m u P A → Ends w m u P (smaY w fuel A x) := by
  intro fuel
  induction fuel with
  | zero => intro A x h; exact h.answer _
  | succ fuel ih =>
    intro A x h
    obtain ⟨hP, skip, seen, todo, hs⟩ := h
    obtain ⟨B, d, hB, hd, hBp, sB⟩ := smaTouch_spec hs
    have okB : Ok w m u P B := ⟨hBp.trans hP, _, _, _, sB⟩
    unfold smaY
    simp only [hB]
    split
    · exact okB.answer _
    · cases x with
      | ninf => exact okB.answer _
      | pinf => exact okB.answer _
      | fin x =>
        have hstep : B.minStep = m := sB.step
        obtain ⟨s, hs1, hs2⟩ := smaStart_any (w := w) (m := m) sB.src x
        simp only [hstep, hs1]
        cases hx0 : finPart s with
        | none => exact okB.answer _
        | some x0 =>
          obtain ⟨e, he1, he2⟩ := smaEnd_any (w := w) (m := m) sB.src x0
          simp only [he1]
          split
          · exact okB.answer _
          · rename_i hne
            simp only [Bool.or_eq_true, decide_eq_true_eq, not_or] at hne
            have hk0 : ∃ q ∈ P, q.1 = x0 := by
              rcases hs2 x0 hx0 with h | ⟨q, hq, h⟩
              · exact absurd h hne.1
              · exact ⟨q, by rw [← hP, ← hBp]; exact hq, h⟩
            refine (okB.superY hm hw hk0).whenSome ?_
            intro A1 y0 ok1
            cases hx1 : finPart e with
            | none => exact ok1.answer _
            | some x1 =>
              have hk1 : ∃ q ∈ P, q.1 = x1 := by
                rcases he2 x1 hx1 with h | ⟨q, hq, h⟩
                · exact absurd (by rw [hx1, h]) hne.2
                · exact ⟨q, by rw [← hP, ← hBp]; exact hq, h⟩
              refine (ok1.superY hm hw hk1).whenSome ?_
              intro A2 y1 ok2
              split
              · exact ok2.answer _
              · split
                · split
                  · exact ok2.answer _
                  · split
                    · exact ok2.answer _
                    · split
                      · exact ok2.answer _
                      · refine (ih A2 _ ok2).whenSome ?_
                        intro A3 v ok3
                        exact ok3.answer _
                · split
                  · exact ok2.answer _
                  · split
                    · exact ok2.answer _
                    · split
                      · exact ok2.answer _
                      · refine (ih A2 _ ok2).whenSome ?_
                        intro A3 v ok3
                        exact ok3.answer _

/-! ## Edits of the source -/

theorem SmaSound.edit (h : SmaSound w m u A skip seen todo) {op : Op ℚ} (hl : op.Legal) (r : Reads)
    (hlate : lateError (op.run A.src r).err = false) (ht : Truthful (op.run A.src r).st)
    (hfit : AllFit m u (op.run A.src r).st.points) :
    (A.edit op r).2 = none ∧ Ok w m u (op.run A.src r).st.points (A.edit op r).1 := by
  have hh : Honest (op.run A.src r).st := .edit h.src hl hlate ht
  have hseen : Ascending seen := (List.pairwise_append.1 h.asc').1
  cases outcome h.src.base h.src.wf hl r with
  | idle hs hev _ _ =>
    have hp : (op.run A.src r).st.points = A.src.points := by
      rcases hs with hs | hs <;> rw [hs] <;> rfl
    have he : A.edit op r = ({ A with src := (op.run A.src r).st }, none) := by
      simp only [Accum.edit, hev, notifyAll]
    rw [he]
    exact ⟨rfl, rfl, _, _, _, h.withSrc hh hp⟩
  | stuck iv e he _ hst => rw [hst.err, he] at hlate; cases hlate
  | edited iv hed hk =>
    rw [← hed.points] at hk
    rcases hed.ev with ⟨_, hev, hpp⟩ | ⟨hne, a, b, hev, _⟩
    · have he : A.edit op r = ({ A with src := (op.run A.src r).st }, none) := by
        simp only [Accum.edit, hev, notifyAll]
      rw [he]
      exact ⟨rfl, rfl, _, _, _, h.withSrc hh (by rw [hed.points, hpp])⟩
    · set s' := (op.run A.src r).st with hs'
      obtain ⟨A1, seen', hb, e1, e2, e3, e4, e5, e6, e7, e8, e9, e10, e11, e12⟩ :=
        onBegin_spec (A := { A with src := s' }) (seen := seen) h.acc h.run h.cur h.start hseen iv
      have hB : A1.bIv = Iv.empty := e3.trans h.idleB
      have hE : A1.eIv = Iv.empty := e4.trans h.idleE
      have hedit : A.edit op r = (((gateBegin A1 (updateInterval iv)).1.gateEnd (updateInterval iv)).1, none) := by
        simp only [Accum.edit, hev, notifyAll, notify, ← hs', hb, onEnd]
      by_cases hinf : iv.lo = .pinf
      · have hno : ∀ x : ℚ, iv.geLo (.fin x) = false := by
          intro x
          by_contra hc
          have := (Iv.geLo_iff _ _).1 (by simpa using hc)
          rw [hinf] at this
          simp at this
        have hpts : s'.points = A.src.points := by
          refine ascending_ext hh.wf.asc h.src.wf.asc fun p => hk p ?_
          by_contra hc
          have := ((Iv.contains_iff _ _).1 (by simpa using hc)).1
          rw [hno] at this; cases this
        have hs1 : seen' = seen := by
          rcases e12 with ⟨_, p, _, hp⟩ | ⟨h1, _⟩
          · rw [hno] at hp; cases hp
          · exact h1
        subst hs1
        have hem : (updateInterval iv).isEmpty = true := by
          simp [Iv.isEmpty, updateInterval, hinf]
        have hg1 : gateBegin A1 (updateInterval iv) = (A1, []) := by simp [gateBegin, hem]
        have hg2 : gateEnd A1 (updateInterval iv) = (A1, []) := by simp [gateEnd, hem]
        rw [hedit, hg1, hg2]
        refine ⟨rfl, by show A1.src.points = _; rw [e1], skip, seen', todo, ?_⟩
        exact ⟨by rw [e1]; exact hh, by rw [e1]; exact hpts.trans h.pts, by rw [e1]; exact hfit, e6,
          e7.trans h.interp, e8.trans h.force, e9, e10, e11, e5.trans h.step,
          fun d hd => by
            rw [e1]
            rw [e2] at hd
            exact (smaDomain_congr hh h.src hpts w).trans (h.cache d hd),
          hB, hE⟩
      · have hem : (updateInterval iv).isEmpty = false := by
          rw [Iv.not_isEmpty_iff]
          left
          exact lt_of_le_of_ne (Ext.le_pinf _) hinf
        obtain ⟨hg1, hg2⟩ := gate_roundtrip hB hE hem
        rw [hedit, hg1, hg2]
        have hsplit : ∃ skip' todo', s'.points = skip' ++ (seen' ++ todo') := by
          rcases e12 with ⟨h1, _⟩ | ⟨h1, h2⟩
          · exact ⟨[], s'.points, by rw [h1]; rfl⟩
          · subst h1
            cases hl : seen'.getLast? with
            | none =>
              rw [List.getLast?_eq_none_iff] at hl
              exact ⟨[], s'.points, by rw [hl]; rfl⟩
            | some q =>
              have hq := List.mem_of_getLast? hl
              have hbefore : ∀ p : Pt ℚ, p.1 ≤ q.1 → (p ∈ s'.points ↔ p ∈ A.src.points) := by
                intro p hp
                refine hk p ?_
                by_contra hc
                have := ((Iv.contains_iff _ _).1 (by simpa using hc)).1
                rw [geLo_le hp (h2 q hq)] at this; cases this
              have hsorted := hh.wf.asc
              have hfront : Ascending (skip ++ seen') := by
                have := h.asc
                rw [← List.append_assoc] at this
                exact (List.pairwise_append.1 this).1
              have hlast : ∀ p ∈ skip ++ seen', p.1 ≤ q.1 := by
                intro p hp
                refine le_getLast hfront ?_ hp
                rw [List.getLast?_append, hl]; rfl
              refine ⟨skip, s'.points.filter (fun p => decide (q.1 < p.1)), ?_⟩
              rw [← List.append_assoc]
              refine ascending_ext hsorted ?_ ?_
              · refine List.pairwise_append.2 ⟨hfront, hsorted.filter _, ?_⟩
                intro p hp p' hp'
                have h3 := hlast p hp
                have h4 : q.1 < p'.1 := by simpa using (List.mem_filter.1 hp').2
                linarith
              · intro p
                rw [List.mem_append, List.mem_filter]
                constructor
                · intro hp
                  by_cases hle : p.1 ≤ q.1
                  · left
                    have hp' := (hbefore p hle).1 hp
                    rw [h.pts, ← List.append_assoc] at hp'
                    rcases List.mem_append.1 hp' with hp' | hp'
                    · exact hp'
                    · have := (List.pairwise_append.1 h.asc').2.2 q hq p hp'
                      linarith
                  · exact Or.inr ⟨hp, by simpa using hle⟩
                · rintro (hp | hp)
                  · refine (hbefore p (hlast p hp)).2 ?_
                    rw [h.pts, ← List.append_assoc]; exact List.mem_append_left _ hp
                  · exact hp.1
        obtain ⟨skip', todo', htodo⟩ := hsplit
        refine ⟨rfl, by show A1.src.points = _; rw [e1], skip', seen', todo', ?_⟩
        exact ⟨by show Honest A1.src; rw [e1]; exact hh, by show A1.src.points = _; rw [e1]; exact htodo,
          by show AllFit m u A1.src.points; rw [e1]; exact hfit, e6, e7.trans h.interp, e8.trans h.force, e9, e10,
          e11, e5.trans h.step, (by intro d hd; cases hd), rfl, rfl⟩

theorem SmaSound.new {s : Pts ℚ} (hs : Honest s) (hfit : AllFit m u s.points) :
    SmaSound w m u (Accum.new s m .linear u) [] [] s.points := by
  have h := Sound.new (g := areaRule) (i := .linear) hs (hfit _ (List.suffix_refl _))
  exact ⟨h.src, h.pts, hfit, h.acc, h.interp, h.force, h.run, h.cur, h.start, h.step, (by intro d hd; cases hd),
    h.idleB, h.idleE⟩

/-- Every average is in order. -/
theorem averaging_ok (hm : minStepQ ≤ m) (hw : Fits m w) (h : Averaging w m u A) : Ok w m u A.src.points A := by
  induction h with
  | new hs hf hn =>
    unfold Sma.new at hn
    split at hn
    · cases hn
      exact ⟨rfl, _, _, _, SmaSound.new hs hf⟩
    · cases hn
  | query _ ho ih =>
    obtain ⟨o, h1, h2⟩ := smaY_ends hm hw _ _ _ ih
    rw [ho] at h1
    cases h1
    exact ⟨rfl, h2.2⟩
  | edit _ hl he ht hf ih =>
    obtain ⟨_, _, _, _, hs⟩ := ih
    exact ⟨rfl, (hs.edit hl _ he ht hf).2.2⟩
  | read _ ih =>
    obtain ⟨_, _, _, _, hs⟩ := ih
    obtain ⟨B, d, h1, _, _, h2⟩ := smaTouch_spec hs
    rw [h1]
    exact ⟨rfl, _, _, _, h2⟩
  | readSource _ ih =>
    obtain ⟨_, _, _, _, hs⟩ := ih
    exact ⟨rfl, _, _, _, hs.touchSrc⟩

end Sma
end Curvepy
