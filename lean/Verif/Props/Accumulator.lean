import Verif.Lemmas.Fold

/-!
# Properties C45–C48, C50: accumulators

`Used t m i u A`: an accumulator with transform `t`, `min_step = m`, after any history of queries,
edits of its source and reads.  `Follows m t g`: the transform is a function `g` of the knots
so far.
-/

namespace Curvepy
namespace Props
open Spec Pts Accum

variable {t : Tfm} {g : Rule} {m : ℚ} {i : Interp} {u : Bool} {A : Accum}

theorem Used.sound (hf : Follows m t g) (hm : 0 < m) (h : Used t m i u A) :
    ∃ seen todo, Sound g m i u A seen todo := by
  induction h with
  | new hs hfit => exact ⟨_, _, Sound.new hs hfit⟩
  | query _ ho ih =>
    obtain ⟨_, _, ih⟩ := ih
    obtain ⟨o', h1, _, _, h2⟩ := ih.query hf hm _
    rw [ho] at h1
    cases h1
    exact h2
  | edit _ hl he ht hfit ih =>
    obtain ⟨_, _, ih⟩ := ih
    exact (ih.edit hl _ he ht hfit).2.2
  | read _ ih =>
    obtain ⟨_, _, ih⟩ := ih
    exact ⟨_, _, ih.touch⟩
  | readSource _ ih =>
    obtain ⟨_, _, ih⟩ := ih
    exact ⟨_, _, ih.touchSrc⟩

/-- Any transform that only looks at its arguments follows a rule. -/
theorem follows_plain (f : ℚ → Option ℚ → Option ℚ → Except Err (Option ℚ)) :
    Follows m (plainTfm f) (fun knots out =>
      match knots.getLast? with
      | none => .ok none
      | some p => f p.1 p.2 (lastOut out)) := by
  intro src acc seen rest p _ _ _ _ _
  simp [plainTfm]

/-! ## C46 -/

/-- C46: what an accumulator answers, after any history, is the fold over the current points of
its source, interpolated: it depends on nothing else.  The query terminates and leaves the
source as it was. -/
theorem C46_fold_partial (hf : Follows m t g) (hm : 0 < m) (h : Used t m i u A) (x : Ext) :
    ∃ o, A.query t x = some o ∧ o.res = accumulatedAt g i A.src.points x ∧
      o.st.src.points = A.src.points := by
  obtain ⟨_, _, hs⟩ := Used.sound hf hm h
  obtain ⟨o, h1, h2, h3, _⟩ := hs.query hf hm x
  exact ⟨o, h1, h3, h2⟩

/-- C46: two accumulators whose sources have the same points answer the same, whatever happened to
them and to their sources before. -/
theorem C46_same_partial (hf : Follows m t g) (hm : 0 < m) (hA : Used t m i u A) {B : Accum}
    (hB : Used t m i u B) (hp : A.src.points = B.src.points) (x : Ext) :
    (A.query t x).map Out.res = (B.query t x).map Out.res := by
  obtain ⟨a, h1, h2, _⟩ := C46_fold_partial hf hm hA x
  obtain ⟨b, h3, h4, _⟩ := C46_fold_partial hf hm hB x
  rw [h1, h3, Option.map_some, Option.map_some, h2, h4, hp]

/-- C46: an edit of the source never makes an accumulator raise, and ends as if there were no
accumulator. -/
theorem C46_edit_partial (hf : Follows m t g) (hm : 0 < m) (h : Used t m i u A) {op : Op ℚ}
    (hl : op.Legal) (r : Reads) (he : lateError (op.run A.src r).err = false)
    (ht : Truthful (op.run A.src r).st) (hfit : Fit m u (op.run A.src r).st.points) :
    (A.edit op r).2 = none ∧ (A.edit op r).1.src = (op.run A.src r).st := by
  obtain ⟨_, _, hs⟩ := Used.sound hf hm h
  exact ⟨(hs.edit hl r he ht hfit).1, (hs.edit hl r he ht hfit).2.1⟩

theorem even_fit (u : Bool) (i : Interp) : Fit 1 u (even i).points := by
  rw [even_points]
  refine ⟨by norm_num [Gapped, evenPts], ?_, fun _ => ⟨2, by norm_num [evenPts]⟩⟩
  rintro pre p q r hp _
  exact EquallySpaced.prefix hp ⟨2, by norm_num [evenPts]⟩

theorem demo_fit (i : Interp) : Fit 1 false (demo i).points := by
  rw [demo_points]
  refine ⟨by norm_num [Gapped, demoPts], ?_, by simp⟩
  rintro pre p q r ⟨l, hl⟩ hgap
  exfalso
  simp only [demoPts] at hl
  rcases pre with _ | ⟨a, _ | ⟨b, pre⟩⟩
  · simp only [List.nil_append, List.cons_append, List.cons.injEq] at hl
    obtain ⟨rfl, rfl, rfl, _⟩ := hl
    norm_num at hgap
  · simp only [List.nil_append, List.cons_append, List.cons.injEq] at hl
    obtain ⟨rfl, rfl, rfl, rfl, _⟩ := hl
    norm_num at hgap
  · have := congrArg List.length hl
    simp only [List.length_append, List.length_cons, List.length_nil] at this
    omega

/-- Append to the source behind the accumulator, then query it. -/
example : (((Accum.new (demo .linear) 1 .linear false).edit (.append (6, some 9)) quiet).1.query
    (emaTfm (some (1/2)) none none 1) (.fin 6)).map Out.res = some (.ok (some (11/2))) := by
  decide +kernel
/-- Query, replace a value before the queried position, query again. -/
example : ((queries (emaTfm (some (1/2)) none none 1) (Accum.new (even .linear) 1) [.fin 4]).bind
    fun r => ((r.1.edit (.replace (2, some 7) false) quiet).1.query
      (emaTfm (some (1/2)) none none 1) (.fin 4)).map Out.res) = some (.ok (some 4)) := by
  decide +kernel
example : accumulatedAt (stepRule (emaStep (fun _ _ => 1/2) none)) .linear
    [(0, some 1), (2, some 7), (4, some 4)] (.fin 4) = .ok (some 4) := by decide +kernel
/-- The history of the second example is one of those covered. -/
example : ∃ r, queries (emaTfm (some (1/2)) none none 1) (Accum.new (even .linear) 1) [.fin 4] = some r ∧
    Used (emaTfm (some (1/2)) none none 1) 1 .linear true r.1 := by
  obtain ⟨o, h, _⟩ := C46_fold_partial (ema_follows_alpha (m := 1) (1/2) none 1) one_pos
    (Used.new (i := .linear) (u := true) (even_honest .linear) (even_fit true .linear)) (.fin 4)
  exact ⟨(o.st, o.calls ++ []), by simp only [queries, h], .query (.new (even_honest _) (even_fit _ _)) h⟩

/-- The answer to a query after others. -/
def answerAfter (t : Tfm) (A : Accum) (before : List Ext) (x : Ext) :
    Option (Except Err (Option ℚ)) :=
  (queries t A before).bind fun r => (r.1.query t x).map Out.res

/-- The source of the first counterexample. -/
def flukePts : List (Pt ℚ) := [(0, some 0), (1, some 10), (3, some 0), (9/2, some 0)]

/-- `Points(pts, uniform=False)`. -/
def loose (pts : List (Pt ℚ)) : Pts ℚ := ((blank .linear false).set pts none quiet).st

/-- C46 does not hold: an EMA (fraction `1`, so it equals the data) over the irregular points
`(0,0), (1,10), (3,0), (9/2,0)` gives `10` at `1`, but `20/3` once `9/2` has been queried.  The last
gap happens to be the average of the others, and the accumulated points, which grow one at a
time, then pass for equally spaced. -/
theorem C46_negation_fluke :
    Honest (loose flukePts) ∧ (loose flukePts).points = flukePts ∧
    answerAfter (emaTfm (some 1) none none 1) (Accum.new (loose flukePts) 1 .linear false) []
      (.fin 1) = some (.ok (some 10)) ∧
    answerAfter (emaTfm (some 1) none none 1) (Accum.new (loose flukePts) 1 .linear false) [.fin (9/2)]
      (.fin 1) = some (.ok (some (20/3))) := by
  refine ⟨?_, ?_, ?_, ?_⟩
  · have h : ((blank .linear false).set flukePts none quiet).err = none := by decide +kernel
    refine .new (pts := flukePts) (i := .linear) (u := false) (by norm_num [Ascending, flukePts]) ?_ ?_
    · have h' : ((blank .linear false).set flukePts none ⟨false, false⟩).err = none := h
      simp [Pts.new, h', loose, quiet]
    · intro hu
      have : (loose flukePts).isUniform = false := by decide +kernel
      simp [this] at hu
  all_goals decide +kernel

/-- C46 does not hold: the default `uniform=True` over irregular points.  The query that meets the
irregular knot raises; when the source is then replaced by equally spaced points, the old accumulator
raises an `AssertionError` where a new one answers. -/
theorem C46_negation_uniform :
    let s := loose [(0, some 0), (1, some 10), (3, some 0)]
    let t := emaTfm (some 1) none none 1
    let new : Op ℚ := .set [(0, some 0), (1, some 10), (2, some 4)]
    answerAfter t (Accum.new s 1) [] (.fin 3) = some (.error .nonRegular) ∧
    ((queries t (Accum.new s 1) [.fin 3]).bind fun r =>
      answerAfter t (r.1.edit new quiet).1 [] (.fin 2)) = some (.error .assertion) ∧
    answerAfter t ((Accum.new s 1).edit new quiet).1 [] (.fin 2) = some (.ok (some 4)) := by
  refine ⟨?_, ?_, ?_⟩ <;> decide +kernel

/-- C46 does not hold: another observer that reads the accumulator while the source announces an
edit makes it scan the old data again, and nothing tells it to forget that.  (The source is
replaced between `onBegin` and `onEnd`.) -/
theorem C46_negation_callback :
    let t := emaTfm (some 1) none none 1
    let A := Accum.new (even .linear) 1
    let op : Op ℚ := .replace (2, some 7) false
    let iv := Iv.point 2
    (op.run (even .linear) quiet).ev.map evIv = [iv, iv] ∧
    ((queries t (A.onBegin iv).1 [.fin 4]).bind fun r =>
      answerAfter t ({ r.1 with src := (op.run r.1.src quiet).st }.onEnd iv).1 [] (.fin 2)) =
      some (.ok (some 5)) ∧
    answerAfter t (A.edit op quiet).1 [] (.fin 2) = some (.ok (some 7)) := by
  refine ⟨?_, ?_, ?_⟩ <;> decide +kernel

/-! ## C45 -/

theorem mem_upTo {pts : List (Pt ℚ)} (h : Ascending pts) (x : ℚ) (p : Pt ℚ) :
    p ∈ upTo x pts ↔ p ∈ pts ∧ ∀ r ∈ pts, r.1 < p.1 → r.1 < x := by
  induction pts with
  | nil => simp [upTo]
  | cons a as ih =>
    have h' := List.pairwise_cons.1 h
    unfold upTo
    split
    · rename_i hax
      rw [List.mem_cons, List.mem_cons, ih h'.2]
      constructor
      · rintro (rfl | ⟨h1, h2⟩)
        · refine ⟨Or.inl rfl, ?_⟩
          intro r hr hlt
          rcases List.mem_cons.1 hr with rfl | hr
          · exact hax
          · exact absurd (h'.1 r hr) (not_lt.2 hlt.le)
        · refine ⟨Or.inr h1, ?_⟩
          intro r hr hlt
          rcases List.mem_cons.1 hr with rfl | hr
          · exact hax
          · exact h2 r hr hlt
      · rintro ⟨rfl | h1, h2⟩
        · exact Or.inl rfl
        · exact Or.inr ⟨h1, fun r hr => h2 r (List.mem_cons_of_mem _ hr)⟩
    · rename_i hax
      rw [List.mem_singleton, List.mem_cons]
      constructor
      · rintro rfl
        refine ⟨Or.inl rfl, ?_⟩
        intro r hr hlt
        rcases List.mem_cons.1 hr with rfl | hr
        · exact absurd hlt (lt_irrefl _)
        · exact absurd (h'.1 r hr) (not_lt.2 hlt.le)
      · rintro ⟨rfl | h1, h2⟩
        · rfl
        · exact absurd (h2 a (by simp) (h'.1 p h1)) hax

theorem mem_need {seen todo : List (Pt ℚ)} (h : Ascending (seen ++ todo)) (x : ℚ) (p : Pt ℚ) :
    p ∈ need x seen todo ↔ p ∈ todo ∧ ∀ r ∈ seen ++ todo, r.1 < p.1 → r.1 < x := by
  obtain ⟨h1, h2, h3⟩ := List.pairwise_append.1 h
  unfold need
  cases hl : seen.getLast? with
  | none =>
    have := List.getLast?_eq_none_iff.1 hl
    subst this
    simpa using mem_upTo h2 x p
  | some q =>
    have hq := List.mem_of_getLast? hl
    simp only [Option.map_some, Option.all_some, decide_eq_true_eq]
    split
    · rename_i hlt
      rw [mem_upTo h2]
      constructor
      · rintro ⟨h4, h5⟩
        refine ⟨h4, fun r hr hrp => ?_⟩
        rcases List.mem_append.1 hr with hr | hr
        · exact (le_getLast h1 hl hr).trans_lt hlt
        · exact h5 r hr hrp
      · rintro ⟨h4, h5⟩
        exact ⟨h4, fun r hr => h5 r (by simp [hr])⟩
    · rename_i hlt
      simp only [List.not_mem_nil, false_iff, not_and, not_forall]
      intro hp
      exact ⟨q, by simp [hq], h3 q hq p hp, hlt⟩

theorem ruleCalls_append {g : Rule} {seen out a b out' : List (Pt ℚ)}
    (h : runRule g seen out a = (out', none)) :
    ruleCalls g seen out (a ++ b) = ruleCalls g seen out a ++ ruleCalls g (seen ++ a) out' b := by
  induction a generalizing seen out with
  | nil =>
    simp only [runRule, Prod.mk.injEq, and_true] at h
    subst h
    simp [ruleCalls]
  | cons p ps ih =>
    simp only [runRule] at h
    simp only [List.cons_append, ruleCalls]
    cases hg : g (seen ++ [p]) out with
    | error e => rw [hg] at h; simp at h
    | ok v =>
      rw [hg] at h
      simp only at h ⊢
      rw [ih h]
      simp

theorem queries_spec (hf : Follows m t g) (hm : 0 < m) {pts : List (Pt ℚ)}
    (hok : (runRule g [] [] pts).2 = none) (xs : List Ext) :
    ∀ {A : Accum} {seen todo : List (Pt ℚ)}, Sound g m i u A seen todo → A.src.points = pts →
      ∃ B ext rest, queries t A xs = some (B, ruleCalls g seen A.acc.points ext) ∧
        todo = ext ++ rest ∧ Sound g m i u B (seen ++ ext) rest ∧ B.src.points = pts ∧
        ∀ p, p ∈ ext ↔ p ∈ todo ∧ ∃ x, .fin x ∈ xs ∧ (span pts).contains (.fin x) = true ∧
          ∀ r ∈ pts, r.1 < p.1 → r.1 < x := by
  induction xs with
  | nil =>
    intro A seen todo h hp
    exact ⟨A, [], todo, rfl, rfl, by simpa using h, hp, by simp⟩
  | cons x xs ih =>
    intro A seen todo h hp
    have hpts : seen ++ todo = pts := by rw [← h.pts, hp]
    by_cases hx : (span (seen ++ todo)).contains x = true
    · obtain ⟨q, rfl⟩ : ∃ q, x = .fin q := by
        cases x with
        | fin q => exact ⟨q, rfl⟩
        | ninf => rw [← getDomain_eq_span, (getDomain_contains_inf _).2] at hx; cases hx
        | pinf => rw [← getDomain_eq_span, (getDomain_contains_inf _).1] at hx; cases hx
      obtain ⟨o, h1, h2, h3, h4⟩ := h.query_inside hf hm hx
      rcases h4 with ⟨out, rest, h4, h5, h6, h7⟩ | ⟨out, e, _, _, h4, h5, h6⟩
      · obtain ⟨B, ext, rest', h8, h9, h10, h11, h12⟩ := ih h7 (h2.trans hp)
        have hacc : o.st.acc.points = out := by
          have h7r := h7.run
          rw [runRule_append, h.run] at h7r
          simp only [List.nil_append] at h7r
          rw [h4] at h7r
          simpa using h7r.symm
        refine ⟨B, need q seen todo ++ ext, rest', ?_, ?_, ?_, h11, ?_⟩
        · simp only [queries, h1, h8, h3]
          rw [ruleCalls_append h4, hacc]
        · conv_lhs => rw [h5, h9]
          simp
        · simpa using h10
        · intro p
          rw [List.mem_append, h12, mem_need h.asc, hpts]
          constructor
          · rintro (⟨h13, h14⟩ | ⟨h13, y, h14, h15⟩)
            · exact ⟨h13, q, by simp, hpts ▸ hx, h14⟩
            · exact ⟨by rw [h5]; simp [h13], y, by simp [h14], h15⟩
          · rintro ⟨h13, y, h14, h15, h16⟩
            rcases List.mem_cons.1 h14 with h14 | h14
            · cases h14
              exact Or.inl ⟨h13, h16⟩
            · by_cases hn : p ∈ need q seen todo
              · rw [mem_need h.asc, hpts] at hn
                exact Or.inl hn
              · right
                refine ⟨?_, y, h14, h15, h16⟩
                rw [h5] at h13
                exact (List.mem_append.1 h13).resolve_left hn
      · exfalso
        have hpre : need q seen todo <+: todo := by
          unfold need; split
          · exact upTo_prefix _ _
          · exact List.nil_prefix
        obtain ⟨l, hl⟩ := hpre
        rw [← hpts, runRule_append, h.run] at hok
        simp only [List.nil_append] at hok
        rw [← hl, runRule_append, h4] at hok
        simp at hok
    · obtain ⟨o, h1, h2, h3, h4, h5⟩ := h.query_outside (t := t) (by simpa using hx)
      obtain ⟨B, ext, rest', h8, h9, h10, h11, h12⟩ := ih h5 (h2.trans hp)
      have hacc : o.st.acc.points = A.acc.points := by
        have := h5.run.symm.trans h.run
        simpa using this
      refine ⟨B, ext, rest', ?_, h9, h10, h11, ?_⟩
      · simp only [queries, h1, h8, h3, hacc]; rfl
      · intro p
        rw [h12]
        constructor
        · rintro ⟨h13, y, h14, h15⟩
          exact ⟨h13, y, by simp [h14], h15⟩
        · rintro ⟨h13, y, h14, h15, h16⟩
          rcases List.mem_cons.1 h14 with h14 | h14
          · rw [← h14, hpts, h15] at hx
            exact absurd rfl hx
          · exact ⟨h13, y, h14, h15, h16⟩

theorem ruleCalls_knots {g : Rule} {a out : List (Pt ℚ)} (h : runRule g [] [] a = (out, none)) :
    (ruleCalls g [] [] a).map (fun c => (c.1, c.2.1)) = a ∧
    (ruleCalls g [] [] a).map (fun c => c.2.2) = (none :: out.map Prod.snd).take a.length := by
  induction a using List.reverseRecOn generalizing out with
  | nil =>
    simp only [runRule, Prod.mk.injEq, and_true] at h
    subst h
    simp [ruleCalls]
  | append_singleton a p ih =>
    cases hr : runRule g [] [] a with
    | mk o e =>
      have hrun := h
      rw [runRule_append, hr] at hrun
      cases e with
      | some e => simp at hrun
      | none =>
        obtain ⟨h1, h2⟩ := ih hr
        have hlen : o.length = a.length := by
          have := congrArg List.length (runRule_xs hr)
          simpa using this
        rw [ruleCalls_append hr]
        simp only [List.nil_append, runRule] at hrun
        cases hg : g (a ++ [p]) o with
        | error e => rw [hg] at hrun; simp at hrun
        | ok v =>
          rw [hg] at hrun
          simp only [Prod.mk.injEq, and_true] at hrun
          subst hrun
          constructor
          · rw [List.map_append, h1]; simp [ruleCalls, hg]
          · rw [List.map_append, h2]
            simp only [List.nil_append, ruleCalls, hg, List.map_cons, List.map_nil, List.length_append,
              List.length_cons, List.length_nil, List.map_append]
            rw [← List.cons_append, List.take_append_of_le_length (by simp [hlen]),
              List.take_of_length_le (l := none :: o.map Prod.snd) (i := a.length + 1) (by simp [hlen])]
            rcases List.eq_nil_or_concat o with rfl | ⟨o', q, rfl⟩
            · have : a = [] := by simpa using hlen.symm
              subst this
              simp [lastOut]
            · rw [← hlen]
              simp [lastOut, List.concat_eq_append, List.take_append_of_le_length]

/-- C45: whatever positions are asked for, in whatever order, the transform is called once for each
knot in `seen`, in order, with the value there and with the result of the call before it (`None` for the
first).  `seen` begins with the first knot; it has exactly the knots that no earlier
knot makes unnecessary for one of the positions. -/
theorem C45_calls_partial (hf : Follows m t g) (hm : 0 < m) {s : Pts ℚ} (hs : Honest s)
    (hfit : Fit m u s.points) (hok : (runRule g [] [] s.points).2 = none) (xs : List Ext) :
    ∃ B calls seen rest out, queries t (Accum.new s m i u) xs = some (B, calls) ∧
      s.points = seen ++ rest ∧
      (∀ p, p ∈ seen ↔ p ∈ s.points ∧ ∃ x, .fin x ∈ xs ∧ (span s.points).contains (.fin x) = true ∧
        ∀ r ∈ s.points, r.1 < p.1 → r.1 < x) ∧
      calls.map (fun c => (c.1, c.2.1)) = seen ∧
      runRule g [] [] seen = (out, none) ∧
      calls.map (fun c => c.2.2) = (none :: out.map Prod.snd).take seen.length := by
  have h0 := Sound.new (g := g) (i := i) hs hfit
  obtain ⟨B, ext, rest, h1, h2, h3, _, h4⟩ := queries_spec hf hm hok xs h0 rfl
  have ha : (Accum.new s m i u).acc.points = [] := by
    have := h0.run
    simpa [runRule] using this.symm
  rw [ha] at h1
  obtain ⟨h5, h6⟩ := ruleCalls_knots h3.run
  exact ⟨B, _, ext, rest, B.acc.points, h1, h2, h4, h5, h3.run, h6⟩

/-- Three queries, the furthest at `7/2`: all knots up to `4`, each once. -/
example : (queries (emaTfm (some (1/2)) none none 1) (Accum.new (demo .linear) 1 .linear false)
    [.fin 1, .fin (7/2), .fin 0, .pinf]).map Prod.snd = some [(0, some 1, none), (1, some 3, some 1),
      (3, none, some 2), (4, some 2, some 2)] := by decide +kernel
example : (runRule (stepRule (emaStep (fun _ _ => 1/2) none)) [] [] (demo .linear).points).2 = none := by
  decide +kernel
/-- Two queries that need only two of the three knots. -/
example : (queries (emaTfm (some (1/2)) none none 1) (Accum.new (even .linear) 1)
    [.fin (1/2), .fin 2, .fin 0]).map Prod.snd = some [(0, some 1, none), (2, some 5, some 1)] := by
  decide +kernel

theorem loose_irregular {pts : List (Pt ℚ)} (h : Ascending pts) (hs : ((blank .linear false).set pts none quiet).err = none)
    (hu : (loose pts).isUniform = false) : Honest (loose pts) := by
  refine .new (pts := pts) (i := .linear) (u := false) h ?_ ?_
  · have h' : ((blank .linear false).set pts none ⟨false, false⟩).err = none := hs
    simp [Pts.new, h', loose, quiet]
  · intro hc
    simp [hu] at hc

/-- Two points that are closer than the default step of accumulators. -/
def closePts : List (Pt ℚ) := [(0, some 0), (1/1000000, some 10), (1, some 4)]

theorem close_honest : Honest (loose closePts) :=
  loose_irregular (by norm_num [Ascending, closePts]) (by decide +kernel) (by decide +kernel)

/-- C45 does not hold for points that are closer than the step of the accumulator: the second of them is passed over. -/
theorem C45_negation : Honest (loose closePts) ∧ (loose closePts).points = closePts ∧
    (queries (emaTfm (some (1/2)) none none minStepQ) (Accum.new (loose closePts) minStepQ .linear false) [.fin 1]).map Prod.snd =
      some [(0, some 0, none), (1, some 4, some 0)] :=
  ⟨close_honest, by decide +kernel, by decide +kernel⟩

end Props
end Curvepy
