import Verif.Lemmas.ScanOwn
import Verif.Props.Sma

/-!
# Property C107: smoothed moving averages

`Smoothing n m u S`: a smoothed average of degree `n` after any history of queries, edits of its source and reads.
-/

namespace Curvepy
namespace Spec
open Smma

/-- The first `n` points have values. -/
def StartsWhole (n : ℕ) (pts : List (Pt ℚ)) : Prop := ∀ p ∈ pts.take n, p.2 ≠ none

/-- The smoothed averages obtained from the constructor by queries, edits of the source and reads of the two domains.  The
first `n` points of the source always have values. -/
inductive Smoothing (n : ℕ) (m : ℚ) (u : Bool) : Smma → Prop where
  | new {s : Pts ℚ} {S : Smma} (hs : Honest s) (hf : AllFit m u s.points) (hl : StartsWhole n s.points)
      (h : Smma.new s n m u = .ok S) : Smoothing n m u S
  | query {S S' : Smma} {fuel : ℕ} {x : Ext} {r : Except Err (Option ℚ)} (h : Smoothing n m u S)
      (ho : S.query n (fuel + 1) x = some (S', r)) : Smoothing n m u S'
  | edit {S : Smma} {op : Op ℚ} {r : Pts.Reads} (h : Smoothing n m u S) (hl : op.Legal)
      (he : lateError (op.run S.ema.src r).err = false) (ht : Truthful (op.run S.ema.src r).st)
      (hf : AllFit m u (op.run S.ema.src r).st.points) (hd : StartsWhole n (op.run S.ema.src r).st.points) :
      Smoothing n m u (S.edit op r)
  | read {S : Smma} (h : Smoothing n m u S) : Smoothing n m u S.touch
  | readSource {S : Smma} (h : Smoothing n m u S) : Smoothing n m u S.touchSource

/-- The points that have values. -/
def withValue (knots : List (Pt ℚ)) : List (ℚ × ℚ) := knots.filterMap fun p => p.2.map fun y => (p.1, y)

/-- The average of the first `n` points, then a part `1 / n` of the way to each further value there is. -/
def smoothed (first : List (ℚ × ℚ) → ℚ) (n : ℕ) (l : List (Pt ℚ)) : Option ℚ :=
  if l.length < n then none
  else some ((withValue (l.drop n)).foldl (fun s p => s + (p.2 - s) / n) (first (withValue (l.take n))))

/-- The mean of the values. -/
def meanValue (l : List (ℚ × ℚ)) : ℚ := (l.map Prod.snd).sum / l.length

end Spec

namespace Props
open Spec Pts Accum Sma Smma

variable {m : ℚ} {u : Bool} {l : List (ℚ × ℚ)} {n : ℕ} {S : Smma}

theorem withValue_defined : withValue (defined l) = l := by
  induction l with
  | nil => rfl
  | cons p l ih => simpa [withValue, defined] using ih

/-- What a smoothed average does at each knot. -/
def smmaRule (n : ℕ) : Rule := fun knots out =>
  match knots.getLast? with
  | some (_, some y) =>
    match lastOut out with
    | some e => .ok (some (e + 1 / (n : ℚ) * (y - e)))
    | none =>
      if knots.length < n then .ok none
      else .ok (some (meanHeight (windowAt (withValue knots) n (knots.length - 1))))
  | _ => .ok (lastOut out)

theorem whole_defined {P : List (Pt ℚ)} (h : ∀ p ∈ P, p.2 ≠ none) : defined (withValue P) = P := by
  induction P with
  | nil => rfl
  | cons p P ih =>
    obtain ⟨x, _ | y⟩ := p
    · exact absurd rfl (h (x, none) (by simp))
    · have := ih fun q hq => h q (by simp [hq])
      simp only [withValue, defined] at this
      simp [withValue, defined, this]

theorem _root_.Curvepy.Spec.StartsWhole.take {P : List (Pt ℚ)} (h : StartsWhole n P) (k : ℕ) : StartsWhole n (P.take k) :=
  fun p hp => h p (by
    rw [List.take_take, Nat.min_comm, ← List.take_take] at hp
    exact List.mem_of_mem_take hp)

theorem withValue_append (P Q : List (Pt ℚ)) : withValue (P ++ Q) = withValue P ++ withValue Q := List.filterMap_append

theorem smmaRule_run (hn : 1 ≤ n) : ∀ P : List (Pt ℚ), StartsWhole n P →
    ∃ out, runRule (smmaRule n) [] [] P = (out, none) ∧ lastOut out = smoothed meanHeight n P := by
  intro P
  induction P using List.reverseRecOn with
  | nil => exact fun _ => ⟨[], rfl, by simp [lastOut, smoothed]; omega⟩
  | append_singleton P p ih =>
    intro hw
    obtain ⟨out, h1, h2⟩ := ih (by
      have := hw.take P.length
      rwa [List.take_append_of_le_length le_rfl, List.take_length] at this)
    have hg : smmaRule n (P ++ [p]) out = .ok (smoothed meanHeight n (P ++ [p])) := by
      unfold smmaRule
      simp only [List.getLast?_append, List.getLast?_singleton, Option.some_or]
      obtain ⟨x, _ | y⟩ := p
      · simp only [h2]
        unfold smoothed
        by_cases hlt : P.length < n
        · exact absurd rfl (hw (x, none) (by rw [List.take_of_length_le (by simp; omega)]; simp))
        · have hge : ¬ (P ++ [(x, none)] : List (Pt ℚ)).length < n := by simp; omega
          rw [if_neg hlt, if_neg hge, List.drop_append_of_le_length (by omega), withValue_append,
            List.take_append_of_le_length (by omega)]
          simp [withValue]
      · simp only [h2]
        unfold smoothed
        by_cases hlt : P.length < n
        · rw [if_pos hlt]
          simp only [List.length_append, List.length_singleton]
          by_cases hlt2 : P.length + 1 < n
          · simp [hlt2]
          · have e : P.length + 1 = n := by omega
            rw [if_neg hlt2, if_neg hlt2]
            have e1 : (P ++ [(x, some y)]).drop n = [] := by simp [← e]
            have e2 : (P ++ [(x, some y)]).take n = P ++ [(x, some y)] := List.take_of_length_le (by simp [e])
            rw [e1, e2]
            simp only [withValue, List.filterMap_nil, List.foldl_nil, windowAt]
            have hw' := congrArg List.length (whole_defined (P := P ++ [(x, some y)]) (by rw [← e2]; exact hw))
            simp only [defined, List.length_map, List.length_append, List.length_singleton] at hw'
            rw [show P.length + 1 - 1 + 1 = n by omega, Nat.sub_self, List.drop_zero, List.take_of_length_le]
            show (withValue (P ++ [(x, some y)])).length ≤ n
            omega
        · have hge : ¬ (P ++ [(x, some y)]).length < n := by simp; omega
          simp only [if_neg hlt, if_neg hge]
          rw [List.drop_append_of_le_length (by omega), withValue_append (P.drop n), List.foldl_append,
            List.take_append_of_le_length (by omega)]
          have : withValue [(x, some y)] = [(x, y)] := rfl
          simp only [this, List.foldl_cons, List.foldl_nil]
          generalize List.foldl _ _ _ = z
          congr 2
          ring
    refine ⟨out ++ [(p.1, smoothed meanHeight n (P ++ [p]))], ?_, by simp [lastOut]⟩
    rw [runRule_append, h1]
    simp only [List.nil_append, runRule, hg]

/-- The SMA suits the source. -/
def Suits (n : ℕ) (m : ℚ) (u : Bool) (T : Accum) (src : Pts ℚ) : Prop :=
  Ok (.degree n) m u src.points { T with src := src } ∧ StartsWhole n src.points

theorem Suits.withSrc {T : Accum} {src src' : Pts ℚ} (h : Suits n m u T src) (hs : Honest src')
    (hp : src'.points = src.points) : Suits n m u T src' := by
  obtain ⟨⟨h1, skip, seen, todo, h2⟩, hl⟩ := h
  exact ⟨⟨rfl, _, _, _, h2.withSrc hs hp⟩, hp ▸ hl⟩

theorem Suits.honest {T : Accum} {src : Pts ℚ} (h : Suits n m u T src) : Honest src := by
  obtain ⟨⟨h1, skip, seen, todo, h2⟩, hl⟩ := h
  exact h2.src

theorem Suits.touch {T : Accum} {src : Pts ℚ} (h : Suits n m u T src) : Suits n m u T src.touch :=
  h.withSrc (.read h.honest) rfl

/-- Before the `n`-th knot the SMA has no value. -/
theorem degree_before (hm : minStepQ ≤ m) (hn : 1 ≤ n) {P : List (Pt ℚ)} {T : Accum} (h : Ok (.degree n) m u P T) {x : ℚ}
    (hx : ∀ p, P[n - 1]? = some p → x < p.1) (fuel : ℕ) :
    ∃ o, smaY (.degree n) (fuel + 1) T (.fin x) = some o ∧ Ok (.degree n) m u P o.st ∧ o.res = .ok none := by
  have hm0 : (0 : ℚ) < m := lt_of_lt_of_le (by norm_num [minStepQ]) hm
  obtain ⟨o, ho, hok⟩ := smaY_ends hm (show Fits m (.degree n) from hn) (fuel + 1) T (.fin x) h
  obtain ⟨hP, skip, seen, todo, s0⟩ := h
  obtain ⟨B, d, hB, hdB, hBp, sB⟩ := smaTouch_spec s0
  obtain ⟨d', hd', hcon⟩ := degree_domain s0.src hm0 s0.gapped n x
  rw [hdB] at hd'
  cases hd'
  have : d.contains (.fin x) = false := by
    by_contra hc
    obtain ⟨p, _, h1, _, h2, _⟩ := hcon.1 (by simpa using hc)
    rw [hP] at h1
    exact absurd h2 (not_le.2 (hx p h1))
  refine ⟨o, ho, hok, ?_⟩
  unfold smaY at ho
  simp only [hB, this, Bool.not_false, if_true, answer, Option.some.injEq] at ho
  rw [← ho]

theorem smma_follows (hm : minStepQ ≤ m) (hn : 1 ≤ n) (fuel : ℕ) :
    FollowsOwn (Suits n m u) m (smmaTfm n (fuel + 1)) (smmaRule n) := by
  intro src seen rest p out s hI hs hp hrun _
  obtain ⟨hok, hl⟩ := id hI
  have hseen : src.points.take (seen.length + 1) = seen ++ [p] := by
    rw [hp, List.take_append, List.take_of_length_le (by omega)]; simp
  have hw : StartsWhole n (seen ++ [p]) := hseen ▸ hl.take _
  obtain ⟨x, _ | y⟩ := p
  · refine ⟨s, src, _, rfl, ?_, hI, hs, rfl⟩
    unfold smmaRule
    simp only [List.getLast?_append, List.getLast?_singleton, Option.some_or]
  unfold smmaTfm smmaRule
  simp only [List.getLast?_append, List.getLast?_singleton, Option.some_or, List.length_append, List.length_singleton]
  cases hlast : lastOut out with
  | some e => exact ⟨s, src, _, rfl, rfl, hI, hs, rfl⟩
  | none =>
    simp only
    by_cases hlt : seen.length + 1 < n
    · obtain ⟨o, h1, h2, h3⟩ := degree_before hm hn hok (x := x) (fun r hr =>
        hs.wf.asc.lt (i := seen.length) (j := n - 1) (p := (x, some y)) (by simp [hp]) hr (by omega)) fuel
      refine ⟨o.st, o.st.src, none, by rw [h1, Option.map_some, h3], by rw [if_pos hlt], ?_⟩
      obtain ⟨h4, _, _, _, h5⟩ := id h2
      rw [← h4] at h2
      exact ⟨⟨h2, h4 ▸ hl⟩, h5.src, h4⟩
    · -- no value so far: this is the `n`-th knot
      have hlen : seen.length + 1 = n := by
        by_contra hne
        obtain ⟨out', e1, e2⟩ := smmaRule_run hn seen (by
          have := hl.take seen.length
          rwa [hp, List.take_append_of_le_length le_rfl, List.take_length] at this)
        rw [hrun] at e1
        cases e1
        rw [hlast] at e2
        unfold smoothed at e2
        rw [if_neg (by omega)] at e2
        cases e2
      have hwh : ∀ q ∈ seen ++ [(x, some y)], q.2 ≠ none := by
        intro q hq
        exact hw q (by rwa [List.take_of_length_le (by simp [hlen])])
      have hdef := whole_defined hwh
      have hpre : defined (withValue (seen ++ [(x, some y)])) <+: src.points := by
        rw [hdef, ← hseen]; exact List.take_prefix _ _
      have hvl : (withValue (seen ++ [(x, some y)])).length = seen.length + 1 := by
        have := congrArg List.length hdef
        simpa [defined] using this
      have hkq : (withValue (seen ++ [(x, some y)]))[seen.length]? = some (x, y) := by
        have hs' : (withValue seen).length = seen.length := by
          have := congrArg List.length (whole_defined fun q hq => hwh q (List.mem_append_left _ hq))
          simpa [defined] using this
        rw [withValue_append, List.getElem?_append_right (by omega), hs', Nat.sub_self]; rfl
      obtain ⟨o, h1, h2, h3⟩ := degree_knot hm hn hpre hok hkq (by omega) fuel
      refine ⟨o.st, o.st.src, _, by rw [h1, Option.map_some, h3], by rw [if_neg hlt, Nat.add_sub_cancel], ?_⟩
      obtain ⟨h4, _, _, _, h5⟩ := id h2
      rw [← h4] at h2
      exact ⟨⟨h2, h4 ▸ hl⟩, h5.src, h4⟩

theorem smoothing_sound (hm : minStepQ ≤ m) (hn : 1 ≤ n) (h : Smoothing n m u S) :
    Suits n m u S.sma S.ema.src ∧ AllFit m u S.ema.src.points ∧
      ∃ seen todo, Sound (smmaRule n) m .linear u S.ema seen todo := by
  have hm0 : (0 : ℚ) < m := lt_of_lt_of_le (by norm_num [minStepQ]) hm
  induction h with
  | new hs hf hl hnew =>
    unfold Smma.new at hnew
    split at hnew
    · cases hnew
    · rename_i T hS
      cases hnew
      have hok := averaging_ok hm (show Fits m (.degree n) from hn) (.new hs hf hS)
      unfold Sma.new at hS
      split at hS
      · cases hS
        exact ⟨⟨hok, hl⟩, hf, _, _, Sound.new hs (hf _ (List.suffix_refl _))⟩
      · cases hS
  | query _ ho ih =>
    obtain ⟨h1, hf, seen, todo, h2⟩ := ih
    obtain ⟨o, r1, r2, r3, _, r5⟩ := h2.queryS (fun _ _ h => h.touch) (smma_follows hm hn _) hm0 h1 _
    unfold Smma.query at ho
    rw [r1, Option.map_some, Option.some.injEq, Prod.mk.injEq] at ho
    rw [← ho.1]
    exact ⟨r3, by show AllFit m u o.st.src.points; rw [r2]; exact hf, r5⟩
  | edit _ hl he ht hf hd ih =>
    obtain ⟨⟨⟨_, _, _, _, h1⟩, _⟩, _, seen, todo, h2⟩ := ih
    have hsma := (h1.edit hl _ he ht hf).2
    have hema := h2.edit hl _ he ht (hf _ (List.suffix_refl _))
    unfold Smma.edit
    refine ⟨⟨?_, by rw [hema.2.1]; exact hd⟩, ?_, hema.2.2⟩
    · rw [hema.2.1]
      obtain ⟨h3, _, _, _, h4⟩ := hsma
      exact ⟨rfl, _, _, _, h4.withSrc (.edit h2.src hl he ht) h3.symm⟩
    · rw [hema.2.1]; exact hf
  | read _ ih =>
    obtain ⟨h1, hf, seen, todo, h2⟩ := ih
    refine ⟨h1.withSrc h2.touch.src (touch_points _), ?_, _, _, h2.touch⟩
    show AllFit m u (Accum.touch _).src.points
    rw [touch_points]; exact hf
  | readSource _ ih =>
    obtain ⟨h1, hf, seen, todo, h2⟩ := ih
    exact ⟨h1.touch, hf, _, _, h2.touchSrc⟩

/-- **C107** (partial) At the `k`-th knot, after any history, the smoothed average is that of the first `k` points: none if
there are less than `n`; else the mean height of the line through the first `n`, then a part `1 / n` of the way to each further
value; where a value is missing it stays.  Missing: the first average is not the mean of the values (`C107_negation`); sources
with missing values among the first `n`. -/
theorem C107_partial (hm : minStepQ ≤ m) (hn : 1 ≤ n) (h : Smoothing n m u S) {k : ℕ} {p : Pt ℚ}
    (hk : S.ema.src.points[k]? = some p) (fuel : ℕ) :
    (S.query n (fuel + 1) (.fin p.1)).map Prod.snd =
      some (.ok (smoothed meanHeight n (S.ema.src.points.take (k + 1)))) := by
  have hm0 : (0 : ℚ) < m := lt_of_lt_of_le (by norm_num [minStepQ]) hm
  obtain ⟨h1, _, seen, todo, h2⟩ := smoothing_sound hm hn h
  obtain ⟨o, r1, _, _, r4, _⟩ := h2.queryS (fun _ _ h => h.touch) (smma_follows hm hn fuel) hm0 h1 (.fin p.1)
  unfold Smma.query
  rw [r1, Option.map_some, Option.map_some, r4]
  obtain ⟨out, h3, h4⟩ := smmaRule_run hn (S.ema.src.points.take (k + 1)) (h1.2.take _)
  have := accumulatedAt_knot (g := smmaRule n) .linear h2.src.wf.asc hk h3
  rw [← h4]
  exact congrArg some this

theorem withValue_mem {P : List (Pt ℚ)} {q : ℚ × ℚ} (h : q ∈ withValue P) : (q.1, some q.2) ∈ P := by
  obtain ⟨⟨x, y⟩, hp, he⟩ := List.mem_filterMap.1 h
  obtain ⟨y, rfl, rfl⟩ := Option.map_eq_some_iff.1 he
  exact hp

theorem withValue_asc {P : List (Pt ℚ)} (h : Ascending P) : (withValue P).Pairwise fun p q => p.1 < q.1 := by
  refine List.Pairwise.filterMap _ ?_ h
  rintro ⟨x, y⟩ ⟨x', y'⟩ hlt b hb c hc
  obtain ⟨z, rfl, rfl⟩ := Option.map_eq_some_iff.1 hb
  obtain ⟨z, rfl, rfl⟩ := Option.map_eq_some_iff.1 hc
  exact hlt

theorem smoothed_bounds (hn : 1 ≤ n) {P : List (Pt ℚ)} (hw : StartsWhole n P) (hasc : Ascending P) {lo hi : ℚ}
    (hb : ∀ x y, (x, some y) ∈ P → lo ≤ y ∧ y ≤ hi) {v : ℚ} (hv : smoothed meanHeight n P = some v) : lo ≤ v ∧ v ≤ hi := by
  unfold smoothed at hv
  split at hv
  · cases hv
  · rename_i hlen
    cases hv
    have h0 := meanHeight_bounds (l := withValue (P.take n)) (lo := lo) (hi := hi) (by
      intro h
      have := congrArg List.length (whole_defined (P := P.take n) hw)
      rw [h] at this
      simp only [defined, List.map_nil, List.length_take, List.length_nil] at this
      omega) (withValue_asc (hasc.sublist (List.take_sublist _ _))) (fun p hp => hb _ _ (List.mem_of_mem_take (withValue_mem hp)))
    have hn' : (1 : ℚ) ≤ n := by exact_mod_cast hn
    have key : ∀ (r : List (ℚ × ℚ)) (s : ℚ), (∀ p ∈ r, lo ≤ p.2 ∧ p.2 ≤ hi) → lo ≤ s ∧ s ≤ hi →
        lo ≤ r.foldl (fun (s : ℚ) (p : ℚ × ℚ) => s + (p.2 - s) / (n : ℚ)) s ∧ r.foldl (fun (s : ℚ) (p : ℚ × ℚ) => s + (p.2 - s) / (n : ℚ)) s ≤ hi := by
      intro r
      induction r with
      | nil => intro s _ hs; exact hs
      | cons p r ih =>
        intro s hr hs
        refine ih _ (fun q hq => hr q (List.mem_cons_of_mem _ hq)) ?_
        obtain ⟨h1, h2⟩ := hr p (by simp)
        have e : s + (p.2 - s) / n = ((n - 1) * s + p.2) / n := by field_simp; ring
        simp only [e]
        rw [le_div_iff₀ (by linarith), div_le_iff₀ (by linarith)]
        constructor <;> nlinarith [hs.1, hs.2]
    exact key _ _ (fun p hp => hb _ _ (List.mem_of_mem_drop (withValue_mem hp))) h0

/-- **C107** From the `n`-th knot on there is a value, and it is between the least and the greatest value up to there. -/
theorem C107_bounds (hm : minStepQ ≤ m) (hn : 1 ≤ n) (h : Smoothing n m u S) {k : ℕ} {p : Pt ℚ}
    (hk : S.ema.src.points[k]? = some p) (hnk : n ≤ k + 1) (fuel : ℕ) :
    ∃ v, (S.query n (fuel + 1) (.fin p.1)).map Prod.snd = some (.ok (some v)) ∧
      ∀ lo hi, (∀ x y, (x, some y) ∈ S.ema.src.points.take (k + 1) → lo ≤ y ∧ y ≤ hi) → lo ≤ v ∧ v ≤ hi := by
  have hlk := (List.getElem?_eq_some_iff.1 hk).1
  have h1 := C107_partial hm hn h hk fuel
  obtain ⟨h2, _, _, _, h3⟩ := smoothing_sound hm hn h
  cases hv : smoothed meanHeight n (S.ema.src.points.take (k + 1)) with
  | none =>
    unfold smoothed at hv
    rw [if_neg (by rw [List.length_take]; omega)] at hv
    cases hv
  | some v =>
    rw [hv] at h1
    exact ⟨v, h1, fun lo hi hb => smoothed_bounds hn (h2.2.take _) (h3.src.wf.asc.sublist (List.take_sublist _ _)) hb hv⟩

/-- **C107** Where a value is missing the average stays. -/
theorem C107_missing (hm : minStepQ ≤ m) (hn : 1 ≤ n) (h : Smoothing n m u S) {k : ℕ} {p : Pt ℚ} {x : ℚ}
    (hp : S.ema.src.points[k]? = some p) (hk : S.ema.src.points[k + 1]? = some (x, none)) (fuel : ℕ) :
    (S.query n (fuel + 1) (.fin x)).map Prod.snd = (S.query n (fuel + 1) (.fin p.1)).map Prod.snd := by
  have hlk := (List.getElem?_eq_some_iff.1 hk).1
  obtain ⟨h2, _⟩ := smoothing_sound hm hn h
  rw [C107_partial hm hn h hk fuel, C107_partial hm hn h hp fuel]
  have hnk : n ≤ k + 1 := by
    by_contra hc
    refine h2.2 (x, none) ?_ rfl
    refine List.mem_of_getElem? (i := k + 1) ?_
    rw [List.getElem?_take_of_lt (by omega), hk]
  rw [take_succ_of_getElem? hk]
  have hl : (S.ema.src.points.take (k + 1)).length = k + 1 := by rw [List.length_take]; omega
  unfold smoothed
  rw [if_neg (by rw [List.length_append, hl]; omega), if_neg (by omega), List.drop_append_of_le_length (by omega),
    List.take_append_of_le_length (by omega), withValue_append, show withValue [(x, none)] = [] from rfl, List.append_nil]

/-- **C107** For a degree up to 2 the first average is the mean of the values. -/
theorem C107_small (hm : minStepQ ≤ m) (hn : n = 1 ∨ n = 2) (h : Smoothing n m u S) {k : ℕ} {p : Pt ℚ}
    (hk : S.ema.src.points[k]? = some p) (fuel : ℕ) :
    (S.query n (fuel + 1) (.fin p.1)).map Prod.snd =
      some (.ok (smoothed meanValue n (S.ema.src.points.take (k + 1)))) := by
  have hn1 : 1 ≤ n := by omega
  rw [C107_partial hm hn1 h hk fuel]
  obtain ⟨h2, _, _, _, h3⟩ := smoothing_sound hm hn1 h
  have hasc : Ascending (S.ema.src.points.take (k + 1)) := h3.src.wf.asc.sublist (List.take_sublist _ _)
  have hw := h2.2.take (k + 1)
  revert hasc hw
  generalize S.ema.src.points.take (k + 1) = P
  intro hasc hw
  unfold smoothed
  split
  · rfl
  · rename_i hlen
    congr 4
    have hlv := congrArg List.length (whole_defined (P := P.take n) hw)
    have hasc' := withValue_asc (P := P.take n) (hasc.sublist (List.take_sublist _ _))
    rw [show (defined (withValue (P.take n))).length = (withValue (P.take n)).length by simp [defined],
      List.length_take, Nat.min_eq_left (by omega)] at hlv
    revert hlv hasc'
    generalize withValue (P.take n) = r
    intro hlv hasc'
    rcases hn with rfl | rfl
    · obtain _ | ⟨a, _ | ⟨b, r⟩⟩ := r
      · simp at hlv
      · simp [meanHeight, meanValue]
      · simp at hlv
    · obtain _ | ⟨a, _ | ⟨b, _ | ⟨c, r⟩⟩⟩ := r
      · simp at hlv
      · simp at hlv
      · rw [meanHeight_two ((List.pairwise_cons.1 hasc').1 b (by simp))]
        simp [meanValue]
      · simp at hlv

/-! ### Concrete averages -/

/-- `smma(n)` over the points. -/
def smmaOver (pts : List (Pt ℚ)) (n : ℕ) (m : ℚ) (u : Bool := true) : Except Err Smma := Smma.new (loose pts) n m u

/-- What is answered after other queries. -/
def smmaAfter (n : ℕ) : Smma → List ℚ → ℚ → Option (Except Err (Option ℚ))
  | S, [], x => (S.query n 2 (.fin x)).map Prod.snd
  | S, z :: zs, x => (S.query n 2 (.fin z)).bind fun o => smmaAfter n o.1 zs x

theorem step_smoothing {S : Smma} (hm : m ≤ 1) (h : smmaOver stepPts n m u = .ok S) : Smoothing n m u S := by
  refine .new (loose_honest (by norm_num [Ascending, stepPts])
    ⟨1, by norm_num [stepPts]⟩ (by decide +kernel)) ?_ (fun p hp => ?_) h
  rotate_left
  · rw [show (loose stepPts).points = stepPts by decide +kernel] at hp
    have := List.mem_of_mem_take hp
    simp only [stepPts, List.mem_cons, List.not_mem_nil, or_false] at this
    rcases this with rfl | rfl | rfl | rfl <;> simp
  rw [show (loose stepPts).points = stepPts by decide +kernel]
  refine allFit_of_spaced ?_ ⟨1, by norm_num [stepPts]⟩
  simp only [Gapped, stepPts]
  norm_num
  exact ⟨hm, by linarith, by linarith⟩

/-- A query between others, and one after an edit. -/
example : (match smmaOver stepPts 2 1 with
    | .ok S => [smmaAfter 2 S [] 0, smmaAfter 2 S [] 1, smmaAfter 2 S [3, 0] 2, smmaAfter 2 S [1] 3,
        smmaAfter 2 (S.edit (.replace (2, some 1) false) quiet) [] 3,
        (S.query 2 2 (.fin 3)).bind fun r => smmaAfter 2 (r.1.edit (.replace (2, some 1) false) quiet) [] 3]
    | .error _ => []) =
    [some (.ok none), some (.ok (some 0)), some (.ok (some (3 / 2))), some (.ok (some (21 / 4))),
      some (.ok (some (19 / 4))), some (.ok (some (19 / 4)))] := by decide +kernel
example : smoothed meanHeight 2 [(0, some 0), (1, some 0), (2, some 3), (3, some 9)] = some (21 / 4) := by decide +kernel


/-- A value that is missing. -/
example : (match smmaOver [(0, some 0), (1, some 2), (2, none), (3, some 5)] 2 1 with
    | .ok S => [smmaAfter 2 S [] 1, smmaAfter 2 S [] 2, smmaAfter 2 S [0, 3] 2, smmaAfter 2 S [] 3]
    | .error _ => []) =
    [some (.ok (some 1)), some (.ok (some 1)), some (.ok (some 1)), some (.ok (some 3))] := by decide +kernel

/-- **C107** (negation) The first average of the three values `0`, `0`, `3` is `3/4`, not their mean `1`. -/
theorem C107_negation : ∃ S, smmaOver stepPts 3 1 = .ok S ∧ Smoothing 3 1 true S ∧
    smmaAfter 3 S [] 2 = some (.ok (some (3 / 4))) ∧
    smoothed meanValue 3 [(0, some 0), (1, some 0), (2, some 3)] = some 1 := by
  cases h : smmaOver stepPts 3 1 with
  | error e =>
    exfalso
    have : (match smmaOver stepPts 3 1 with | .ok _ => true | .error _ => false) = true := by decide +kernel
    rw [h] at this
    cases this
  | ok S =>
    refine ⟨S, rfl, step_smoothing le_rfl h, ?_, by decide +kernel⟩
    have : (match smmaOver stepPts 3 1 with | .ok S => smmaAfter 3 S [] 2 | .error _ => none) =
        some (.ok (some (3 / 4))) := by decide +kernel
    rw [h] at this
    exact this

end Props
end Curvepy
