import Verif.Props.Holes
import Verif.Props.Smma

/-!
# Property C167: smoothed averages over points of which some have no value
-/

namespace Curvepy
namespace Props
open Spec Pts Accum Sma Smma

variable {m : ℚ} {u : Bool} {n : ℕ} {S : Smma} {P : List (Pt ℚ)}

theorem stretch_append {Q : List (Pt ℚ)} {j k : ℕ} (hk : k < P.length) : stretch (P ++ Q) j k = stretch P j k := by
  unfold stretch
  rw [List.take_append_of_le_length (by omega)]

theorem startAt_lt {k : ℕ} (h : startAt n P = some k) : k < P.length ∧ n ≤ k + 1 := by
  unfold startAt at h
  have h1 := List.mem_of_find?_eq_some h
  have h2 := List.find?_some h
  simp only [Bool.and_eq_true, decide_eq_true_eq] at h2
  exact ⟨List.mem_range.1 h1, h2.1⟩

theorem startAt_none {k : ℕ} {p : Pt ℚ} (h : startAt n P = none) (hk : P[k]? = some p) (hn : n ≤ k + 1) : p.2 = none := by
  unfold startAt at h
  rw [List.find?_eq_none] at h
  have := h k (List.mem_range.2 (List.getElem?_eq_some_iff.1 hk).1)
  simp only [hk, Option.any_some, Bool.and_eq_true, decide_eq_true_eq, hn, true_and] at this
  simpa using this

theorem startAt_snoc (p : Pt ℚ) : startAt n (P ++ [p]) =
    match startAt n P with
    | some k => some k
    | none => if n ≤ P.length + 1 ∧ p.2.isSome = true then some P.length else none := by
  unfold startAt
  rw [List.length_append, List.length_singleton, List.range_succ, List.find?_append]
  have : (List.range P.length).find? (fun k => decide (n ≤ k + 1) && ((P ++ [p])[k]?.any fun p => p.2.isSome)) =
      (List.range P.length).find? (fun k => decide (n ≤ k + 1) && (P[k]?.any fun p => p.2.isSome)) := by
    have key : ∀ (l : List ℕ), (∀ k ∈ l, k < P.length) →
        l.find? (fun k => decide (n ≤ k + 1) && ((P ++ [p])[k]?.any fun p => p.2.isSome)) =
        l.find? (fun k => decide (n ≤ k + 1) && (P[k]?.any fun p => p.2.isSome)) := by
      intro l
      induction l with
      | nil => intro _; rfl
      | cons a l ih =>
        intro hl
        rw [List.find?_cons, List.find?_cons, List.getElem?_append_left (hl a (by simp)), ih fun k hk => hl k (by simp [hk])]
    exact key _ fun k hk => List.mem_range.1 hk
  rw [this]
  cases (List.range P.length).find? (fun k => decide (n ≤ k + 1) && (P[k]?.any fun p => p.2.isSome)) with
  | some k => rfl
  | none =>
    simp only [Option.none_or, List.find?_cons, List.find?_nil, List.getElem?_append_right le_rfl, Nat.sub_self, List.getElem?_cons_zero,
      Option.any_some]
    by_cases h1 : n ≤ P.length + 1 <;> cases h2 : p.2.isSome <;> simp [h1]

/-- What a smoothed average does at each knot. -/
def holeRule (n : ℕ) : Rule := fun knots out =>
  match knots.getLast? with
  | some (_, some y) =>
    match lastOut out with
    | some e => .ok (some (e + 1 / (n : ℚ) * (y - e)))
    | none =>
      if knots.length < n then .ok none
      else .ok (some (partArea (stretch knots (knots.length - n) (knots.length - 1)) /
        apartBy (stretch knots (knots.length - n) (knots.length - 1))))
  | _ => .ok (lastOut out)

theorem holeRule_run (hn : 2 ≤ n) : ∀ P : List (Pt ℚ),
    ∃ out, runRule (holeRule n) [] [] P = (out, none) ∧ lastOut out = smoothedOver n P := by
  intro P
  induction P using List.reverseRecOn with
  | nil => exact ⟨[], rfl, rfl⟩
  | append_singleton P p ih =>
    obtain ⟨out, h1, h2⟩ := ih
    have hg : holeRule n (P ++ [p]) out = .ok (smoothedOver n (P ++ [p])) := by
      unfold holeRule
      simp only [List.getLast?_append, List.getLast?_singleton, Option.some_or, h2]
      have hd : ∀ k < P.length, (P ++ [p]).drop (k + 1) = P.drop (k + 1) ++ [p] := fun k hk =>
        List.drop_append_of_le_length (by omega)
      unfold smoothedOver
      rw [startAt_snoc]
      obtain ⟨x, _ | y⟩ := p
      · cases hs : startAt n P with
        | none => simp
        | some k =>
          obtain ⟨hk, _⟩ := startAt_lt hs
          simp only [Option.map_some]
          rw [hd k hk, stretch_append hk]
          simp
      · cases hs : startAt n P with
        | none =>
          simp only [Option.map_none, List.length_append, List.length_singleton, Option.isSome_some, and_true]
          by_cases hlt : P.length + 1 < n
          · rw [if_pos hlt, if_neg (by omega)]; rfl
          · rw [if_neg hlt, if_pos (by omega)]
            simp
        | some k =>
          obtain ⟨hk, _⟩ := startAt_lt hs
          simp only [Option.map_some]
          rw [hd k hk, stretch_append hk]
          simp only [List.filterMap_append, List.filterMap_cons, List.filterMap_nil, List.foldl_append, List.foldl_cons, List.foldl_nil]
          generalize List.foldl _ _ _ = z
          congr 2
          ring
    refine ⟨out ++ [(p.1, smoothedOver n (P ++ [p]))], ?_, by simp [lastOut]⟩
    rw [runRule_append, h1]
    simp only [List.nil_append, runRule, hg]

/-- The SMA suits the source. -/
def SuitsFirm (n : ℕ) (m : ℚ) (u : Bool) (T : Accum) (src : Pts ℚ) : Prop :=
  Ok (.degree n) m u src.points { T with src := src } ∧ StartsFirm n src.points

theorem SuitsFirm.withSrc {T : Accum} {src src' : Pts ℚ} (h : SuitsFirm n m u T src) (hs : Honest src')
    (hp : src'.points = src.points) : SuitsFirm n m u T src' := by
  obtain ⟨⟨h1, skip, seen, todo, h2⟩, hl⟩ := h
  exact ⟨⟨rfl, _, _, _, h2.withSrc hs hp⟩, hp ▸ hl⟩

theorem SuitsFirm.honest {T : Accum} {src : Pts ℚ} (h : SuitsFirm n m u T src) : Honest src := by
  obtain ⟨⟨h1, skip, seen, todo, h2⟩, hl⟩ := h
  exact h2.src

theorem SuitsFirm.touch {T : Accum} {src : Pts ℚ} (h : SuitsFirm n m u T src) : SuitsFirm n m u T src.touch :=
  h.withSrc (.read h.honest) rfl

theorem hole_follows (hm : minStepQ ≤ m) (hn : 2 ≤ n) (fuel : ℕ) :
    FollowsOwn (SuitsFirm n m u) m (smmaTfm n (fuel + 1)) (holeRule n) := by
  intro src seen rest p out s hI hs hp hrun _
  obtain ⟨hok, hl⟩ := id hI
  obtain ⟨x, _ | y⟩ := p
  · refine ⟨s, src, _, rfl, ?_, hI, hs, rfl⟩
    unfold holeRule
    simp only [List.getLast?_append, List.getLast?_singleton, Option.some_or]
  unfold smmaTfm holeRule
  simp only [List.getLast?_append, List.getLast?_singleton, Option.some_or, List.length_append, List.length_singleton]
  cases hlast : lastOut out with
  | some e => exact ⟨s, src, _, rfl, rfl, hI, hs, rfl⟩
  | none =>
    simp only
    by_cases hlt : seen.length + 1 < n
    · obtain ⟨o, h1, h2, h3⟩ := degree_before hm (by omega) hok (x := x) (fun r hr =>
        hs.wf.asc.lt (i := seen.length) (j := n - 1) (p := (x, some y)) (by simp [hp]) hr (by omega)) fuel
      refine ⟨o.st, o.st.src, none, by rw [h1, Option.map_some, h3], by rw [if_pos hlt], ?_⟩
      obtain ⟨h4, _, _, _, h5⟩ := id h2
      rw [← h4] at h2
      exact ⟨⟨h2, h4 ▸ hl⟩, h5.src, h4⟩
    · have hnone : startAt n seen = none := by
        obtain ⟨out', e1, e2⟩ := holeRule_run hn seen
        rw [hrun] at e1
        cases e1
        rw [hlast] at e2
        unfold smoothedOver at e2
        simpa using e2.symm
      have hk : src.points[seen.length]? = some (x, some y) := by simp [hp]
      have hshort : seen.length + 1 < 2 * n := by
        by_contra hc
        obtain ⟨i, q, h1, h2, h3, h4⟩ := hl.2 _ _ hk (by simp) (by omega)
        have h5 : seen[i]? = some q := by
          rw [hp, List.getElem?_append_left (by omega)] at h1
          exact h1
        exact h2 (startAt_none hnone h5 h3)
      have hlen := (List.getElem?_eq_some_iff.1 hk).1
      have hj : src.points[seen.length + 1 - n]? = some src.points[seen.length + 1 - n] := List.getElem?_eq_getElem _
      obtain ⟨h0, skip, sn, todo, s0⟩ := id hok
      obtain ⟨o, a, h1, h2, h3, _, h4⟩ := degree_holes hm hn s0 h0 hj hk (by omega) fuel
      have ha : a = 0 := by omega
      subst ha
      have hv : Valued (stretch src.points 0 (seen.length + 1 - n)) = true := by
        unfold Valued stretch
        rw [List.drop_zero, List.any_eq_true]
        have hz : src.points[0]? = some src.points[0] := List.getElem?_eq_getElem _
        refine ⟨src.points[0], ?_, ?_⟩
        · refine List.mem_of_getElem? (i := 0) ?_
          rw [List.getElem?_take_of_lt (by omega)]
          exact hz
        · have := hl.1 src.points[0] (by rw [List.head?_eq_getElem?]; exact hz)
          exact Option.isSome_iff_ne_none.2 this
      rw [hv, if_pos rfl] at h4
      have e1 : stretch (seen ++ [(x, some y)]) (seen.length + 1 - n) (seen.length + 1 - 1) =
          stretch src.points (seen.length + 1 - n) seen.length := by
        rw [Nat.add_sub_cancel, hp, show seen ++ (x, some y) :: rest = (seen ++ [(x, some y)]) ++ rest from by simp,
          stretch_append (P := seen ++ [(x, some y)]) (Q := rest) (by simp)]
      have e2 := stretch_apart (P := src.points) (by omega) hj hk
      refine ⟨o.st, o.st.src, _, by rw [h1, Option.map_some, h4], by rw [if_neg hlt, e1, e2], ?_⟩
      obtain ⟨h4, _, _, _, h5⟩ := id h2
      rw [← h4] at h2
      exact ⟨⟨h2, h4 ▸ hl⟩, h5.src, h4⟩

theorem smoothingOver_sound (hm : minStepQ ≤ m) (hn : 2 ≤ n) (h : SmoothingOver n m u S) :
    SuitsFirm n m u S.sma S.ema.src ∧ AllFit m u S.ema.src.points ∧
      ∃ seen todo, Sound (holeRule n) m .linear u S.ema seen todo := by
  have hm0 : (0 : ℚ) < m := lt_of_lt_of_le (by norm_num [minStepQ]) hm
  induction h with
  | new hs hf hl hnew =>
    unfold Smma.new at hnew
    split at hnew
    · cases hnew
    · rename_i T hS
      cases hnew
      have hok := averaging_ok hm (show Fits m (.degree n) from by unfold Fits; omega) (.new hs hf hS)
      unfold Sma.new at hS
      split at hS
      · cases hS
        exact ⟨⟨hok, hl⟩, hf, _, _, Sound.new hs (hf _ (List.suffix_refl _))⟩
      · cases hS
  | query _ ho ih =>
    obtain ⟨h1, hf, seen, todo, h2⟩ := ih
    obtain ⟨o, r1, r2, r3, _, r5⟩ := h2.queryS (fun _ _ h => h.touch) (hole_follows hm hn _) hm0 h1 _
    unfold Smma.query at ho
    rw [r1, Option.map_some, Option.some.injEq, Prod.mk.injEq] at ho
    rw [← ho.1]
    exact ⟨r3, by show AllFit m u o.st.src.points; rw [r2]; exact hf, r5⟩
  | edit _ hl he ht hf hd ih =>
    obtain ⟨⟨⟨_, _, _, _, h1⟩, _⟩, _, seen, todo, h2⟩ := ih
    have hsma := (h1.edit hl _ he ht hf).2
    have hema := h2.edit hl _ he ht (hf _ (List.suffix_refl _))
    unfold Smma.edit
    refine ⟨⟨?_, by rw [hema.2.1]; exact hd⟩, ?_, hema.2.2⟩
    · rw [hema.2.1]
      obtain ⟨h3, _, _, _, h4⟩ := hsma
      exact ⟨rfl, _, _, _, h4.withSrc (.edit h2.src hl he ht) h3.symm⟩
    · rw [hema.2.1]; exact hf
  | read _ ih =>
    obtain ⟨h1, hf, seen, todo, h2⟩ := ih
    refine ⟨h1.withSrc h2.touch.src (touch_points _), ?_, _, _, h2.touch⟩
    show AllFit m u (Accum.touch _).src.points
    rw [touch_points]; exact hf
  | readSource _ ih =>
    obtain ⟨h1, hf, seen, todo, h2⟩ := ih
    exact ⟨h1.touch, hf, _, _, h2.touchSrc⟩

/-- C167: at every knot, after any history, the smoothed average of degree `n` has no value before the first point with a value
that is at least the `n`-th; there it is the average of the window that ends there, with holes as in C166; and it then moves a part
`1 / n` of the way to each further value there is. -/
theorem C167_answer_partial (hm : minStepQ ≤ m) (hn : 2 ≤ n) (h : SmoothingOver n m u S) {k : ℕ} {p : Pt ℚ}
    (hk : S.ema.src.points[k]? = some p) (fuel : ℕ) :
    (S.query n (fuel + 1) (.fin p.1)).map Prod.snd = some (.ok (smoothedOver n (S.ema.src.points.take (k + 1)))) := by
  have hm0 : (0 : ℚ) < m := lt_of_lt_of_le (by norm_num [minStepQ]) hm
  obtain ⟨h1, _, seen, todo, h2⟩ := smoothingOver_sound hm hn h
  obtain ⟨o, r1, _, _, r4, _⟩ := h2.queryS (fun _ _ h => h.touch) (hole_follows hm hn fuel) hm0 h1 (.fin p.1)
  unfold Smma.query
  rw [r1, Option.map_some, Option.map_some, r4]
  obtain ⟨out, h3, h4⟩ := holeRule_run hn (S.ema.src.points.take (k + 1))
  have := accumulatedAt_knot (g := holeRule n) .linear h2.src.wf.asc hk h3
  rw [← h4]
  exact congrArg some this

/-- C167: sources whose first `n` points have values are among these. -/
theorem C167_whole (hn : 1 ≤ n) (h : StartsWhole n P) : StartsFirm n P := by
  constructor
  · intro p hp
    refine h p ?_
    rw [List.head?_eq_getElem?] at hp
    exact List.mem_of_getElem? (i := 0) (by rw [List.getElem?_take_of_lt (by omega)]; exact hp)
  · intro k p hk hp hkn
    have hl := (List.getElem?_eq_some_iff.1 hk).1
    have hq : P[n - 1]? = some P[n - 1] := List.getElem?_eq_getElem _
    refine ⟨n - 1, P[n - 1], hq, h _ ?_, by omega, by omega⟩
    exact List.mem_of_getElem? (i := n - 1) (by rw [List.getElem?_take_of_lt (by omega)]; exact hq)

/-- C167: bounds.  If zero is within the bounds of the values, so is the smoothed average. -/
theorem C167_bounds (hn : 2 ≤ n) (hasc : Ascending P) {lo hi v : ℚ} (h0 : lo ≤ 0) (h1 : 0 ≤ hi)
    (hb : ∀ x y, (x, some y) ∈ P → lo ≤ y ∧ y ≤ hi) (hv : smoothedOver n P = some v) : lo ≤ v ∧ v ≤ hi := by
  unfold smoothedOver at hv
  obtain ⟨k, hk, hv⟩ := Option.map_eq_some_iff.1 hv
  obtain ⟨hkl, hnk⟩ := startAt_lt hk
  have hsub : (stretch P (k + 1 - n) k).Sublist P := (List.drop_sublist _ _).trans (List.take_sublist _ _)
  obtain ⟨b1, b2, b3, b4⟩ := partArea_bounds (stretch P (k + 1 - n) k) (List.Pairwise.sublist hsub hasc)
    fun x y hx => hb x y (hsub.subset hx)
  have hj : P[k + 1 - n]? = some P[k + 1 - n] := List.getElem?_eq_getElem _
  have hk' : P[k]? = some P[k] := List.getElem?_eq_getElem _
  have hw : 0 < apartBy (stretch P (k + 1 - n) k) := by
    rw [stretch_apart (by omega) hj hk']
    exact sub_pos.2 (hasc.lt hj hk' (by omega))
  have hfirst : lo ≤ partArea (stretch P (k + 1 - n) k) / apartBy (stretch P (k + 1 - n) k) ∧
      partArea (stretch P (k + 1 - n) k) / apartBy (stretch P (k + 1 - n) k) ≤ hi := by
    rw [le_div_iff₀ hw, div_le_iff₀ hw]
    constructor <;> nlinarith
  have hn' : (1 : ℚ) ≤ n := by exact_mod_cast (by omega : 1 ≤ n)
  have key : ∀ (r : List ℚ) (s : ℚ), (∀ y ∈ r, lo ≤ y ∧ y ≤ hi) → lo ≤ s ∧ s ≤ hi →
      lo ≤ r.foldl (fun (s y : ℚ) => s + (y - s) / (n : ℚ)) s ∧ r.foldl (fun (s y : ℚ) => s + (y - s) / (n : ℚ)) s ≤ hi := by
    intro r
    induction r with
    | nil => intro s _ hs; exact hs
    | cons y r ih =>
      intro s hr hs
      refine ih _ (fun q hq => hr q (List.mem_cons_of_mem _ hq)) ?_
      obtain ⟨h1, h2⟩ := hr y (by simp)
      have e : s + (y - s) / n = ((n - 1) * s + y) / n := by field_simp; ring
      simp only [e]
      rw [le_div_iff₀ (by linarith), div_le_iff₀ (by linarith)]
      constructor <;> nlinarith [hs.1, hs.2]
  rw [← hv]
  refine key _ _ (fun y hy => ?_) hfirst
  obtain ⟨⟨x, z⟩, hx, hz⟩ := List.mem_filterMap.1 hy
  simp only at hz
  subst hz
  exact hb x y (List.mem_of_mem_drop hx)

/-! ## Examples -/

def smmaHoles : List (Pt ℚ) := [(0, some 4), (1, none), (2, none), (3, some 4), (4, some 8)]

theorem smmaHoles_firm : StartsFirm 3 smmaHoles := by
  refine ⟨fun p hp => ?_, fun k p hk _ hkn => ?_⟩
  · simp only [smmaHoles, List.head?_cons, Option.some.injEq] at hp
    subst hp; simp
  · have := (List.getElem?_eq_some_iff.1 hk).1
    simp only [smmaHoles, List.length_cons, List.length_nil] at this
    omega

theorem smmaHoles_over : ∃ S, smmaOver smmaHoles 3 1 = .ok S ∧ SmoothingOver 3 1 true S ∧ S.ema.src.points = smmaHoles := by
  have h : (loose smmaHoles).points = smmaHoles := by decide +kernel
  have hf : AllFit 1 true (loose smmaHoles).points := by
    rw [h]
    exact allFit_of_spaced (by norm_num [Gapped, smmaHoles]) ⟨1, by norm_num [smmaHoles]⟩
  refine ⟨_, rfl, .new (loose_honest (by norm_num [Ascending, smmaHoles]) ⟨1, by norm_num [smmaHoles]⟩ (by decide +kernel)) hf
    (by rw [h]; exact smmaHoles_firm) rfl, h⟩

/-- The first average is at the fourth point, and zero, because no two neighbours of its window have values; then it moves a third of the
way. -/
theorem C167_negation : ∃ S, smmaOver smmaHoles 3 1 = .ok S ∧ SmoothingOver 3 1 true S ∧
    (S.query 3 1 (.fin 2)).map Prod.snd = some (.ok none) ∧ (S.query 3 1 (.fin 3)).map Prod.snd = some (.ok (some 0)) ∧
    (S.query 3 1 (.fin 4)).map Prod.snd = some (.ok (some (8 / 3))) := by
  obtain ⟨S, h1, h2, h3⟩ := smmaHoles_over
  have key := fun (k : ℕ) (p : Pt ℚ) (hk : smmaHoles[k]? = some p) =>
    C167_answer_partial (n := 3) (by norm_num [minStepQ]) (by norm_num) h2 (by rw [h3]; exact hk) 0
  rw [h3] at key
  refine ⟨S, h1, h2, (key 2 (2, none) rfl).trans ?_, (key 3 (3, some 4) rfl).trans ?_, (key 4 (4, some 8) rfl).trans ?_⟩ <;> decide +kernel

/-- Such a start is needed: of degree 2 over these points there is no first average at the fourth point, though one is due. -/
example : (match smmaOver smmaHoles 2 1 with | .ok S => (S.query 2 1 (.fin 3)).map Prod.snd | .error _ => none) = some (.ok none) ∧
    smoothedOver 2 smmaHoles = some 4 ∧ smoothedOver 2 (smmaHoles.take 4) = some 0 ∧ startAt 2 smmaHoles = some 3 := by
  refine ⟨?_, ?_, ?_, ?_⟩ <;> decide +kernel

/-- The first average where the third of the points has a value and the second has none. -/
example : smoothedOver 3 [(0, some 1), (1, none), (2, some 3), (3, some 6)] = some 2 ∧
    smoothedOver 3 [(0, some 1), (1, some 3), (2, some 5), (3, none)] = some 3 ∧ smoothedOver 3 smmaHoles = some (8 / 3) := by
  refine ⟨?_, ?_, ?_⟩ <;> decide +kernel

end Props
end Curvepy
