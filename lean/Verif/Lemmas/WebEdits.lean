import Verif.Lemmas.Web
import Verif.Lemmas.NetEdits
import Verif.Props.AccumEvents

/-!
# Networks over several lists of points: edits
-/

namespace Curvepy
open Spec Pts Props Accum

namespace Web
open Net (Change Heard From onwards hear Told Still begun ended evBegins evEnds)

variable {I : ℕ → Interp} {P P' : ℕ → List (Pt ℚ)} {lo : Ext} {o : Bool} {b : ℕ} {X : ℚ → Prop}

/-! ## What an edit leaves -/

/-- Before the position. -/
def before (lo : Ext) (o : Bool) (x : ℚ) : Prop := (onwards lo o).geLo (.fin x) = false

theorem before_le {x z : ℚ} (h : before lo o z) (hx : x ≤ z) : before lo o x := Accum.geLo_le hx h

theorem before_lt {x z : ℚ} (h : before lo o x) (hz : ¬ before lo o z) : x < z := by
  by_contra hc
  exact hz (before_le h (not_lt.1 hc))

theorem change_of {k k' : List (Pt ℚ)} (h : Ascending k) (h' : Ascending k') (hb : ∀ p : Pt ℚ, before lo o p.1 → (p ∈ k ↔ p ∈ k')) :
    Change lo o k k' := by
  have hord : ∀ l : List (Pt ℚ), Ascending l → l = l.filter (fun p => !(onwards lo o).geLo (.fin p.1)) ++
      l.filter (fun p => (onwards lo o).geLo (.fin p.1)) := by
    intro l hl
    refine ascending_ext hl ?_ fun p => ?_
    · refine List.pairwise_append.2 ⟨hl.filter _, hl.filter _, fun p hp q hq => ?_⟩
      have h5 : before lo o p.1 := by simpa [before] using (List.mem_filter.1 hp).2
      have h6 : ¬ before lo o q.1 := by simpa [before] using (List.mem_filter.1 hq).2
      exact before_lt h5 h6
    · rw [List.mem_append, List.mem_filter, List.mem_filter]
      cases (onwards lo o).geLo (.fin p.1) <;> simp
  have hpre : k'.filter (fun p => !(onwards lo o).geLo (.fin p.1)) = k.filter (fun p => !(onwards lo o).geLo (.fin p.1)) := by
    refine ascending_ext (h'.filter _) (h.filter _) fun p => ?_
    rw [List.mem_filter, List.mem_filter]
    cases hg : (onwards lo o).geLo (.fin p.1) with
    | true => simp
    | false => simp [hb p hg]
  refine ⟨k.filter (fun p => !(onwards lo o).geLo (.fin p.1)), k.filter (fun p => (onwards lo o).geLo (.fin p.1)),
    k'.filter (fun p => (onwards lo o).geLo (.fin p.1)), hord _ h, by rw [← hpre]; exact hord _ h', ?_, ?_⟩
  · intro q hq
    simpa using (List.mem_filter.1 hq).2
  · intro q hq
    rcases List.mem_append.1 hq with hq | hq <;> simpa using (List.mem_filter.1 hq).2

/-- An edit of list `b`: before the position nothing changed, and up to it there are old points or none at all after any of the positions
`X`, among which are all positions of the lists. -/
structure Edit (X : ℚ → Prop) (b : ℕ) (lo : Ext) (o : Bool) (P P' : ℕ → List (Pt ℚ)) : Prop where
  asc : ∀ c, Ascending (P c)
  asc' : ∀ c, Ascending (P' c)
  others : ∀ c, c ≠ b → P' c = P c
  mem : ∀ p : Pt ℚ, before lo o p.1 → (p ∈ P b ↔ p ∈ P' b)
  all : ∀ x, anyKnot P x → X x
  all' : ∀ x, anyKnot P' x → X x
  held : ∀ x, X x → before lo o x → ((∀ p ∈ P b, x < p.1) ∧ ∀ p ∈ P' b, x < p.1) ∨ ∃ p ∈ P b, x ≤ p.1 ∧ before lo o p.1

theorem Edit.both (h : Edit X b lo o P P') : ∀ x, anyKnot P x ∨ anyKnot P' x → X x := fun x hx => hx.elim (h.all x) (h.all' x)

theorem uses_succ (n : Node) (ns : List Node) (k : ℕ) : uses b (n :: ns) (k + 1) ↔ uses b ns k := by cases n <;> exact Iff.rfl

/-- Nothing of the curve changed. -/
def Kept (I : ℕ → Interp) (P P' : ℕ → List (Pt ℚ)) (ns : List Node) (k : ℕ) : Prop :=
  webKnots P' ns k = webKnots P ns k ∧ webIn P' ns k = webIn P ns k ∧ webValue I P' ns k = webValue I P ns k

theorem Kept.pts {ns : List Node} {k : ℕ} (h : Kept I P P' ns k) : webPts I P' ns k = webPts I P ns k := by
  unfold webPts; rw [h.2.1, h.2.2]

theorem kept_layer {S : Storey} {j : ℕ} {ns : List Node} (h : Kept I P P' ns j) : Kept I P P' (.layer S j :: ns) 0 := by
  obtain ⟨h1, h2, h3⟩ := h
  refine ⟨h1, h2, ?_⟩
  funext x
  show valueAtE S.interp (foldedBy (plainRule S.tfm) (atAll (webIn P' ns j) (webValue I P' ns j))) x = _
  rw [h2, h3]; rfl

theorem kept_join {js : List ℕ} {u : Bool} {tfm} {ns : List Node} (hall : ∀ j ∈ js, Kept I P P' ns j) :
    Kept I P P' (.join js u tfm :: ns) 0 := by
  have hk : merged (js.flatMap (webKnots P' ns)) = merged (js.flatMap (webKnots P ns)) := by
    rw [List.flatMap_congr fun j hj => (hall j hj).1]
  have hin : ∀ x, (js.all fun j => within (webIn P' ns j) x) = js.all fun j => within (webIn P ns j) x := by
    intro x
    rw [Bool.eq_iff_iff, List.all_eq_true, List.all_eq_true]
    exact forall₂_congr fun j hj => by rw [(hall j hj).2.1]
  refine ⟨hk, ?_, ?_⟩
  · show (merged (js.flatMap (webKnots P' ns))).filter _ = _
    rw [hk]
    exact List.filter_congr fun x _ => hin x
  · funext x
    cases x with
    | fin q =>
      have hv : (js.map fun j => webValue I P' ns j (.fin q)) = js.map fun j => webValue I P ns j (.fin q) :=
        List.map_congr_left fun j hj => by rw [(hall j hj).2.2]
      rw [webValue, webValue, hin q, hv]
    | ninf => rfl
    | pinf => rfl

theorem kept_succ {n : Node} {ns : List Node} {k : ℕ} (h : Kept I P P' ns k) : Kept I P P' (n :: ns) (k + 1) := by
  obtain ⟨h1, h2, h3⟩ := h
  exact ⟨by rw [knots_succ, knots_succ]; exact h1, by rw [in_succ, in_succ]; exact h2, by rw [value_succ, value_succ]; exact h3⟩

theorem kept_refl {ns : List Node} {k : ℕ} : Kept I P P ns k := ⟨rfl, rfl, rfl⟩

/-- A curve that is not made from the list does not change. -/
theorem unused (hE : ∀ c, c ≠ b → P' c = P c) : ∀ (ns : List Node) (k : ℕ), ¬ uses b ns k → Kept I P P' ns k
  | [], c, h => by
    have := hE c h
    refine ⟨?_, ?_, ?_⟩
    · show (P' c).map _ = _; rw [this]; rfl
    · show (P' c).map _ = _; rw [this]; rfl
    · funext x; show valueAtE _ (P' c) x = _; rw [this]; rfl
  | .layer S j :: ns, 0, h => kept_layer (unused hE ns j h)
  | .join js u tfm :: ns, 0, h => kept_join fun j hj => unused hE ns j fun hu => h ⟨j, hj, hu⟩
  | .layer _ _ :: ns, k + 1, h => kept_succ (unused hE ns k h)
  | .join _ _ _ :: ns, k + 1, h => kept_succ (unused hE ns k h)

/-- A curve steps through the points of all lists it is made from, and is defined only where they are. -/
theorem used : ∀ (ns : List Node) (_ : WebSound ns) (k : ℕ), uses b ns k → (∀ p ∈ P b, p.1 ∈ webKnots P ns k) ∧
    ∀ x, within (webIn P ns k) x = true → within ((P b).map Prod.fst) x = true
  | [], _, c, h => by
    have h' : c = b := h
    subst h'
    exact ⟨fun p hp => List.mem_map_of_mem hp, fun x hx => hx⟩
  | .layer S j :: ns, hS, 0, h => used ns hS.2.2 j h
  | .join js u tfm :: ns, hS, 0, ⟨j, hj, h⟩ => by
    obtain ⟨h1, h2⟩ := used ns hS.2.2.2 j h
    refine ⟨fun p hp => mem_merged.2 (List.mem_flatMap.2 ⟨j, hj, h1 p hp⟩), fun x hx => h2 x ?_⟩
    exact (within_join hS.1 u tfm ns x).1 hx j hj
  | .layer _ _ :: ns, hS, k + 1, h => used ns hS.2.2 k h
  | .join _ _ _ :: ns, hS, k + 1, h => used ns hS.2.2.2 k h

/-- Up to the position there are positions of the curve. -/
theorem reached (hE : Edit X b lo o P P') {ns : List Node} (hS : WebSound ns) {k : ℕ} (hu : uses b ns k) {x : ℚ} (hX : X x) (hx : before lo o x)
    (hw : within (webIn P ns k) x = true) : ∃ q ∈ webIn P ns k, x ≤ q ∧ before lo o q := by
  obtain ⟨h1, h2⟩ := used (P := P) ns hS k hu
  obtain ⟨_, q, hq, hxq⟩ := within_iff.1 hw
  by_cases hbq : before lo o q
  · exact ⟨q, hq, hxq, hbq⟩
  rcases hE.held x hX hx with ⟨h3, _⟩ | ⟨p, hp, hxp, hbp⟩
  · obtain ⟨⟨a, ha, hax⟩, _⟩ := within_iff.1 (h2 x hw)
    obtain ⟨p, hp, rfl⟩ := List.mem_map.1 ha
    exact absurd (h3 p hp) (not_lt.2 hax)
  · refine ⟨p.1, (in_iff ns k p.1).2 ⟨h1 p hp, within_between hw (within_mem hq) hxp ?_⟩, hxp, hbp⟩
    exact (before_lt hbp hbq).le

/-- What a curve has before the position is the same before and after the edit. -/
structure Same (X : ℚ → Prop) (I : ℕ → Interp) (lo : Ext) (o : Bool) (P P' : ℕ → List (Pt ℚ)) (ns : List Node) (k : ℕ) : Prop where
  knots : ∀ x, before lo o x → (x ∈ webKnots P ns k ↔ x ∈ webKnots P' ns k)
  inside : ∀ x, X x → before lo o x → (within (webIn P ns k) x = true ↔ within (webIn P' ns k) x = true)
  value : ∀ x, X x → before lo o x → webValue I P ns k (.fin x) = webValue I P' ns k (.fin x)

theorem knots_any : ∀ (ns : List Node) (k : ℕ), ∀ x ∈ webKnots P ns k, anyKnot P x
  | [], c, x, h => by
    obtain ⟨p, hp, rfl⟩ := List.mem_map.1 h
    exact ⟨c, p, hp, rfl⟩
  | .layer _ j :: ns, 0, x, h => knots_any ns j x h
  | .join js u tfm :: ns, 0, x, h => by
    obtain ⟨j, _, hx⟩ := List.mem_flatMap.1 (mem_merged.1 h)
    exact knots_any ns j x hx
  | .layer _ _ :: ns, k + 1, x, h => knots_any ns k x h
  | .join _ _ _ :: ns, k + 1, x, h => knots_any ns k x h

theorem Same.change {ns : List Node} {k : ℕ} (h : Same X I lo o P P' ns k) (hX : ∀ x, anyKnot P x ∨ anyKnot P' x → X x) (hP : ∀ c, Ascending (P c)) (hP' : ∀ c, Ascending (P' c)) :
    Change lo o (webPts I P ns k) (webPts I P' ns k) := by
  refine change_of (webPts_asc hP _ _) (webPts_asc hP' _ _) fun p hp => ?_
  have key : ∀ Q : ℕ → List (Pt ℚ), p ∈ webPts I Q ns k ↔ p.1 ∈ webIn Q ns k ∧ p.2 = webValue I Q ns k (.fin p.1) := by
    intro Q
    unfold webPts atAll
    rw [List.mem_map]
    constructor
    · rintro ⟨x, hx, rfl⟩; exact ⟨hx, rfl⟩
    · rintro ⟨h1, h2⟩; exact ⟨p.1, h1, Prod.ext rfl h2.symm⟩
  rw [key, key, in_iff, in_iff, h.knots _ hp]
  by_cases hm : p.1 ∈ webKnots P' ns k
  · have hx := hX _ (.inr (knots_any _ _ _ hm))
    rw [h.inside _ hx hp, h.value _ hx hp]
  · simp [hm]

theorem folded_value {i : Interp} {g : Rule} (hg : NeverRaises g) {pre c : List (Pt ℚ)} (h : Ascending (pre ++ c)) {x : ℚ}
    (hx : ∃ p ∈ pre, x ≤ p.1) : valueAtE i (foldedBy g (pre ++ c)) (.fin x) = valueAtE i (foldedBy g pre) (.fin x) := by
  obtain ⟨d, hd⟩ := Net.folded_split hg pre c
  have hasc : Ascending (foldedBy g (pre ++ c)) := ascending_xs (foldedBy_xs hg _) h
  show valueAt i _ x = valueAt i _ x
  rw [hd] at hasc ⊢
  refine valueAt_append_left i hasc ?_
  obtain ⟨p, hp, hpx⟩ := hx
  have : p.1 ∈ (foldedBy g pre).map Prod.fst := by rw [foldedBy_xs hg]; exact List.mem_map_of_mem hp
  obtain ⟨q, hq, hqp⟩ := List.mem_map.1 this
  exact ⟨q, hq, by rw [hqp]; exact hpx⟩

theorem folded_outside {i : Interp} {g : Rule} (hg : NeverRaises g) {c : List (Pt ℚ)} (h : Ascending c) {x : ℚ}
    (hx : within (c.map Prod.fst) x = false) : valueAtE i (foldedBy g c) (.fin x) = none := by
  have hxs := foldedBy_xs hg c
  have hasc := ascending_xs hxs h
  refine valueAtE_outside i hasc ?_
  rw [getDomain_eq_span, span_contains_within hasc, hxs]
  exact hx

/-- No curve looks ahead. -/
theorem causal (hE : Edit X b lo o P P') : ∀ (ns : List Node) (_ : WebSound ns) (k : ℕ), Same X I lo o P P' ns k
  | [], _, c => by
    by_cases hc : c = b
    · subst hc
      have hknots : ∀ x, before lo o x → (x ∈ (P c).map Prod.fst ↔ x ∈ (P' c).map Prod.fst) := by
        intro x hx
        constructor
        · intro h
          obtain ⟨p, hp, rfl⟩ := List.mem_map.1 h
          exact List.mem_map_of_mem ((hE.mem p hx).1 hp)
        · intro h
          obtain ⟨p, hp, rfl⟩ := List.mem_map.1 h
          exact List.mem_map_of_mem ((hE.mem p hx).2 hp)
      have hin : ∀ x, X x → before lo o x → (within ((P c).map Prod.fst) x = true ↔ within ((P' c).map Prod.fst) x = true) := by
        intro x hX hx
        have key : ∀ l : List (Pt ℚ), (∀ p ∈ l, x < p.1) → within (l.map Prod.fst) x = false := by
          intro l hl
          by_contra hc
          obtain ⟨⟨a, ha, hax⟩, _⟩ := within_iff.1 (by simpa using hc)
          obtain ⟨p, hp, rfl⟩ := List.mem_map.1 ha
          exact absurd (hl p hp) (not_lt.2 hax)
        rcases hE.held x hX hx with ⟨h1, h2⟩ | ⟨p, hp, hxp, hbp⟩
        · rw [key _ h1, key _ h2]
        · have hp1 : p.1 ∈ (P c).map Prod.fst := List.mem_map_of_mem hp
          have hp2 := (hknots p.1 hbp).1 hp1
          rw [within_iff, within_iff]
          constructor
          · rintro ⟨⟨a, ha, hax⟩, _⟩
            exact ⟨⟨a, (hknots a (before_le hx hax)).1 ha, hax⟩, p.1, hp2, hxp⟩
          · rintro ⟨⟨a, ha, hax⟩, _⟩
            exact ⟨⟨a, (hknots a (before_le hx hax)).2 ha, hax⟩, p.1, hp1, hxp⟩
      refine ⟨hknots, hin, fun x hX hx => ?_⟩
      show valueAtE (I c) (P c) (.fin x) = valueAtE (I c) (P' c) (.fin x)
      cases hw : within ((P c).map Prod.fst) x with
      | false =>
        have hw' : within ((P' c).map Prod.fst) x = false := by
          by_contra hc
          rw [(hin x hX hx).2 (by simpa using hc)] at hw; cases hw
        rw [valueAtE_outside _ (hE.asc c) (by rw [getDomain_eq_span, span_contains_within (hE.asc c)]; exact hw),
          valueAtE_outside _ (hE.asc' c) (by rw [getDomain_eq_span, span_contains_within (hE.asc' c)]; exact hw')]
      | true =>
        obtain ⟨q, hq, hxq, hbq⟩ := reached (k := c) hE (ns := []) trivial rfl hX hx hw
        obtain ⟨pre, e, f, e1, e2, e3, e4⟩ := change_of (hE.asc c) (hE.asc' c) hE.mem
        obtain ⟨p, hp, hpq⟩ := List.mem_map.1 hq
        have hpp : p ∈ pre := by
          rw [e1] at hp
          rcases List.mem_append.1 hp with hp | hp
          · exact hp
          · have := e4 p (List.mem_append_left _ hp)
            rw [hpq] at this
            rw [show (onwards lo o).geLo (.fin q) = false from hbq] at this; cases this
        have hreach : ∃ p ∈ pre, x ≤ p.1 := ⟨p, hpp, by rw [hpq]; exact hxq⟩
        have h1 := hE.asc c
        have h2 := hE.asc' c
        show valueAt _ _ x = valueAt _ _ x
        rw [e1] at h1 ⊢
        rw [e2] at h2 ⊢
        rw [valueAt_append_left _ h1 hreach, valueAt_append_left _ h2 hreach]
    · obtain ⟨h1, h2, h3⟩ := unused (I := I) hE.others [] c hc
      exact ⟨fun x _ => by rw [h1], fun x _ _ => by rw [h2], fun x _ _ => by rw [h3]⟩
  | .layer S j :: ns, hS, 0 => by
    have ih := causal hE ns hS.2.2 j
    refine ⟨ih.knots, ih.inside, fun x hX hx => ?_⟩
    have hg := storey_neverRaises S
    show valueAtE S.interp (foldedBy _ (webPts I P ns j)) (.fin x) = valueAtE S.interp (foldedBy _ (webPts I P' ns j)) (.fin x)
    by_cases hu : uses b ns j
    · have ha := webPts_asc (I := I) hE.asc ns j
      have ha' := webPts_asc (I := I) hE.asc' ns j
      cases hw : within (webIn P ns j) x with
      | false =>
        have hw' : within (webIn P' ns j) x = false := by
          by_contra hc
          rw [(ih.inside x hX hx).2 (by simpa using hc)] at hw; cases hw
        rw [folded_outside hg ha (by rw [webPts_xs]; exact hw), folded_outside hg ha' (by rw [webPts_xs]; exact hw')]
      | true =>
        obtain ⟨q, hq, hxq, hbq⟩ := reached hE hS.2.2 hu hX hx hw
        obtain ⟨pre, e, f, e1, e2, e3, e4⟩ := ih.change hE.both hE.asc hE.asc'
        have hq' : q ∈ (webPts I P ns j).map Prod.fst := by rw [webPts_xs]; exact hq
        obtain ⟨p, hp, hpq⟩ := List.mem_map.1 hq'
        have hpp : p ∈ pre := by
          rw [e1] at hp
          rcases List.mem_append.1 hp with hp | hp
          · exact hp
          · have := e4 p (List.mem_append_left _ hp)
            rw [hpq] at this
            rw [show (onwards lo o).geLo (.fin q) = false from hbq] at this; cases this
        have hreach : ∃ p ∈ pre, x ≤ p.1 := ⟨p, hpp, by rw [hpq]; exact hxq⟩
        rw [e1] at ha ⊢
        rw [e2] at ha' ⊢
        rw [folded_value hg ha hreach, folded_value hg ha' hreach]
    · obtain ⟨_, h2, h3⟩ := unused (I := I) hE.others ns j hu
      have : webPts I P' ns j = webPts I P ns j := by unfold webPts; rw [h2, h3]
      rw [this]
  | .join js u tfm :: ns, hS, 0 => by
    have ih := fun j => causal hE ns hS.2.2.2 j
    have hin : ∀ x, X x → before lo o x → (js.all fun j => within (webIn P ns j) x) = js.all fun j => within (webIn P' ns j) x := by
      intro x hX hx
      rw [Bool.eq_iff_iff, List.all_eq_true, List.all_eq_true]
      exact forall₂_congr fun j _ => (ih j).inside x hX hx
    refine ⟨fun x hx => ?_, fun x hX hx => ?_, fun x hX hx => ?_⟩
    · show x ∈ merged _ ↔ x ∈ merged _
      rw [mem_merged, mem_merged, List.mem_flatMap, List.mem_flatMap]
      exact exists_congr fun j => and_congr_right fun _ => (ih j).knots x hx
    · rw [within_join hS.1, within_join hS.1]
      exact forall₂_congr fun j _ => (ih j).inside x hX hx
    · rw [webValue, webValue, hin x hX hx]
      have hv : (js.map fun j => webValue I P ns j (.fin x)) = js.map fun j => webValue I P' ns j (.fin x) :=
        List.map_congr_left fun j _ => (ih j).value x hX hx
      rw [hv]
  | .layer _ _ :: ns, hS, k + 1 => by
    have := causal hE ns hS.2.2 k
    exact ⟨this.knots, this.inside, this.value⟩
  | .join _ _ _ :: ns, hS, k + 1 => by
    have := causal hE ns hS.2.2.2 k
    exact ⟨this.knots, this.inside, this.value⟩

/-! ## Hearing of an edit -/

theorem heard_mono {same same' : Prop} {bs es : List Iv} (h : Heard lo o same bs es) (hs : same → same') : Heard lo o same' bs es := by
  rcases h with ⟨h1, h2, h3⟩ | h
  · exact .inl ⟨h1, h2, hs h3⟩
  · exact .inr h

theorem heard_append {same same' : Prop} {bs es bs' es' : List Iv} (h : Heard lo o same bs es) (h' : Heard lo o same' bs' es') :
    Heard lo o (same ∧ same') (bs ++ bs') (es ++ es') := by
  rcases h with ⟨rfl, rfl, hs⟩ | h
  · exact heard_mono h' fun h => ⟨hs, h⟩
  rcases h' with ⟨rfl, rfl, _⟩ | h'
  · rw [List.append_nil, List.append_nil]; exact .inr h
  · exact Net.Heard.append (.inr h) (.inr h')

theorem heard_flat {same : ℕ → Prop} {B E : ℕ → List Iv} : ∀ {js : List ℕ}, (∀ j ∈ js, Heard lo o (same j) (B j) (E j)) →
    Heard lo o (∀ j ∈ js, same j) (js.flatMap B) (js.flatMap E)
  | [], _ => .inl ⟨rfl, rfl, by simp⟩
  | j :: js, h => by
    refine heard_mono (heard_append (h j (by simp)) (heard_flat fun i hi => h i (List.mem_cons_of_mem _ hi))) ?_
    rintro ⟨h1, h2⟩ i hi
    rcases List.mem_cons.1 hi with rfl | hi
    · exact h1
    · exact h2 i hi

theorem node_hears {n : Node} {st : n.State} {ns : List Node} {bs es : List Iv} (hn : WebSound (n :: ns)) (hfit : WebFit I P' (n :: ns))
    (hP : ∀ c, Ascending (P c)) (hP' : ∀ c, Ascending (P' c)) (hch : ∀ k, Same X I lo o P P' ns k) (hX : ∀ x, anyKnot P x ∨ anyKnot P' x → X x)
    (hinf : lo = .pinf → P' = P) (hF : NodeFine I P ns n st) (h : Heard lo o (∀ j ∈ n.sources, Kept I P P' ns j) bs es) :
    NodeFine I P' ns n (hear n st bs es).1 ∧ (hear n st bs es).2.err = none ∧
      Heard lo o (Kept I P P' (n :: ns) 0) (hear n st bs es).2.begins (hear n st bs es).2.ends := by
  cases n with
  | layer S j =>
    have h' : Heard lo o (Kept I P P' ns j) bs es := heard_mono h fun h => h j (by simp [Node.sources])
    obtain ⟨L', bs', es', e1, e2, e3⟩ := Net.layer_hears (ks' := webPts I P' ns j) hF hn.1 hfit.1 ((hch j).change hX hP hP')
      (fun h => h.pts) (fun h => by rw [hinf h]; exact kept_refl) h'
    have hr : hear (.layer S j) st bs es = (L', ⟨bs', es', none⟩) := by
      simp only [hear, e1, Net.begun_append, Net.ended_append, Net.begun_begins, Net.ended_begins, Net.begun_fins, Net.ended_fins,
        List.append_nil, List.nil_append]
      rfl
    rw [hr]
    exact ⟨e2, rfl, heard_mono e3 kept_layer⟩
  | join js u tfm =>
    have h' : Heard lo o (Kept I P P' (.join js u tfm :: ns) 0) bs es :=
      heard_mono h fun h => kept_join fun j hj => h j (List.mem_dedup.2 hj)
    obtain ⟨J', bs', es', e1, e2, e3, e4⟩ := Net.joint_hears (J := st) (d' := span (webPts I P' (.join js u tfm :: ns) 0)) hF
      (fun h => by rw [h.pts]) h'
    have hr : hear (.join js u tfm) st bs es = (J', ⟨bs', es', none⟩) := by
      simp only [hear, e2]
      rw [e1]
      rfl
    rw [hr]
    exact ⟨e3, rfl, e4⟩

theorem sound_tail {n : Node} {ns : List Node} (h : WebSound (n :: ns)) : WebSound ns := by
  cases n with
  | layer S j => exact h.2.2
  | join js u tfm => exact h.2.2.2

theorem fit_tail {n : Node} {ns : List Node} (h : WebFit I P (n :: ns)) : WebFit I P ns := by
  cases n with
  | layer S j => exact h.2
  | join js u tfm => exact h

/-- Nothing changed, or an edit as above. -/
def Edited (X : ℚ → Prop) (b : ℕ) (lo : Ext) (o : Bool) (P P' : ℕ → List (Pt ℚ)) : Prop :=
  (∀ x, anyKnot P x ∨ anyKnot P' x → X x) ∧ (P' = P ∨ (lo ≠ .pinf ∧ Edit X b lo o P P'))

theorem Edited.same (h : Edited X b lo o P P') {ns : List Node} (hS : WebSound ns) (k : ℕ) : Same X I lo o P P' ns k := by
  rcases h.2 with rfl | ⟨_, h⟩
  · exact ⟨fun _ _ => Iff.rfl, fun _ _ _ => Iff.rfl, fun _ _ _ => rfl⟩
  · exact causal h ns hS k

theorem Edited.inf (h : Edited X b lo o P P') (hlo : lo = .pinf) : P' = P := by
  rcases h.2 with h | ⟨h, _⟩
  · exact h
  · exact absurd hlo h

theorem spread_fine {p' : ℕ → Pts ℚ} {told : ℕ → Told} (hP : ∀ c, Ascending (P c)) (hp : ∀ c, Still (I c) (P' c) (p' c))
    (hE : Edited X b lo o P P') (herr : ∀ c, (told c).err = none)
    (ht : ∀ c, Heard lo o (P' c = P c) (told c).begins (told c).ends) {ns : List Node} {s s' : State ns} {out : ℕ → Told}
    (h : Spread p' told ns s s' out) (hS : WebSound ns) (hfit : WebFit I P' ns) (hF : WebFine I P ns s) :
    WebFine I P' ns s' ∧ bases s' = p' ∧ ∀ k, (out k).err = none ∧ Heard lo o (Kept I P P' ns k) (out k).begins (out k).ends := by
  induction h with
  | points p =>
    refine ⟨hp, rfl, fun k => ⟨herr k, heard_mono (ht k) fun h => ⟨?_, ?_, ?_⟩⟩⟩
    · show (P' k).map _ = _; rw [h]; rfl
    · show (P' k).map _ = _; rw [h]; rfl
    · funext x; show valueAtE _ (P' k) x = _; rw [h]; rfl
  | @node n ns st s s' out bs es _ hb he ih =>
    obtain ⟨h1, h2, h3⟩ := ih (sound_tail hS) (fit_tail hfit) hF.2
    have hh := (heard_flat (B := fun j => (out j).begins) (E := fun j => (out j).ends) (js := n.sources)
      fun j _ => (h3 j).2).perm hb he
    obtain ⟨g1, g2, g3⟩ := node_hears (st := st) hS hfit hP (fun c => (hp c).asc) (fun k => hE.same (sound_tail hS) k) hE.1
      hE.inf hF.1 hh
    refine ⟨⟨g1, h1⟩, h2, fun k => ?_⟩
    cases k with
    | zero => exact ⟨g2, g3⟩
    | succ k => exact ⟨(h3 k).1, heard_mono (h3 k).2 kept_succ⟩

/-- A curve that is not made from the list hears nothing. -/
theorem spread_unused {p' : ℕ → Pts ℚ} {told : ℕ → Told} (ht : ∀ c, c ≠ b → told c = ⟨[], [], none⟩) {ns : List Node} {s s' : State ns}
    {out : ℕ → Told} (h : Spread p' told ns s s' out) (k : ℕ) (hk : ¬ uses b ns k) : out k = ⟨[], [], none⟩ := by
  induction h generalizing k with
  | points p => exact ht k hk
  | @node n ns st s s' out bs es _ hb he ih =>
    cases k with
    | succ k => exact ih k fun hu => hk ((uses_succ n ns k).2 hu)
    | zero =>
      have hno : ∀ j ∈ n.sources, ¬ uses b ns j := by
        intro j hj hu
        cases n with
        | layer S j' =>
          have : j = j' := by simpa [Node.sources] using hj
          subst this
          exact hk hu
        | join js u tfm => exact hk ⟨j, List.mem_dedup.1 hj, hu⟩
      have h1 : (n.sources.flatMap fun j => (out j).begins) = [] := by
        rw [List.flatMap_eq_nil_iff]
        intro j hj
        rw [ih j (hno j hj)]
      have h2 : (n.sources.flatMap fun j => (out j).ends) = [] := by
        rw [List.flatMap_eq_nil_iff]
        intro j hj
        rw [ih j (hno j hj)]
      rw [h1] at hb
      rw [h2] at he
      obtain rfl := List.perm_nil.1 hb
      obtain rfl := List.perm_nil.1 he
      cases n <;> rfl

/-- The positions before which nothing can change if the edit is announced later. -/
def reach (op : Op ℚ) (P P' : ℕ → List (Pt ℚ)) (x : ℚ) : Prop := op.noReplace ∨ anyKnot P x ∨ anyKnot P' x

/-- What the edited list announces. -/
theorem list_told {p : ℕ → Pts ℚ} (h : ∀ c, Still (I c) (P c) (p c)) {op : Op ℚ} {r : Reads} (hl : op.Legal) (hn : op.apart P b)
    (he : lateError (op.run (p b) r).err = false) (ht : Truthful (op.run (p b) r).st) :
    ∃ lo o, Still (I b) (op.run (p b) r).st.points (op.run (p b) r).st ∧
      Edited (reach op P (Function.update P b (op.run (p b) r).st.points)) b lo o P (Function.update P b (op.run (p b) r).st.points) ∧
      Heard lo o ((op.run (p b) r).st.points = P b) (evBegins (op.run (p b) r).ev) (evEnds (op.run (p b) r).ev) := by
  have hh : Honest (op.run (p b) r).st := .edit (h b).1 hl he ht
  obtain ⟨hs, hpb, hi⟩ := h b
  have hsame : (op.run (p b) r).st.points = (p b).points → Function.update P b (op.run (p b) r).st.points = P := by
    intro h; rw [h, hpb, Function.update_eq_self]
  cases outcome hs.base hs.wf hl r with
  | idle hs' hev _ _ =>
    have hp : (op.run (p b) r).st.points = (p b).points ∧ (op.run (p b) r).st.interp = (p b).interp := by
      rcases hs' with hs' | hs' <;> rw [hs'] <;> exact ⟨rfl, rfl⟩
    exact ⟨.pinf, true, ⟨hh, rfl, hp.2.trans hi⟩, ⟨fun _ h => .inr h, .inl (hsame hp.1)⟩, .inl ⟨by rw [hev]; rfl, by rw [hev]; rfl, hp.1.trans hpb⟩⟩
  | stuck iv e he' _ hst => rw [hst.err, he'] at he; cases he
  | edited iv hed hk =>
    have hst : Still (I b) (op.run (p b) r).st.points (op.run (p b) r).st := ⟨hh, rfl, hed.interp.trans hi⟩
    rw [← hed.points] at hk
    rcases hed.ev with ⟨_, hev, hpp⟩ | ⟨hne, a, c, hev, _⟩
    · have hp : (op.run (p b) r).st.points = (p b).points := by rw [hed.points, hpp]
      exact ⟨.pinf, true, hst, ⟨fun _ h => .inr h, .inl (hsame hp)⟩, .inl ⟨by rw [hev]; rfl, by rw [hev]; rfl, hp.trans hpb⟩⟩
    · rcases edit_held hs hl r hed.err with ⟨h1, _⟩ | ⟨iv', hed', hmeet, hanc⟩
      · rw [hev] at h1; cases h1
      have hiv : iv' = iv := by
        rcases hed'.ev with ⟨_, h1, _⟩ | ⟨_, a', c', h1, _⟩
        · rw [hev] at h1; cases h1
        · rw [hev] at h1
          injection h1 with h1 _
          injection h1 with h1 _
          exact h1.symm
      subst hiv
      have hlo : iv'.lo ≠ .pinf := by
        obtain ⟨q, hq⟩ := hmeet hne
        intro hc
        have := (Iv.geLo_iff _ _).1 ((Iv.contains_iff _ _).1 hq).1
        rw [hc] at this
        simp at this
      refine ⟨iv'.lo, iv'.loOpen, hst, ⟨fun _ h => .inr h, .inr ⟨hlo, ?_⟩⟩, .inr ⟨iv', by rw [hev]; simp [evBegins], by rw [hev]; simp [evEnds], ?_⟩⟩
      · have hother : ∀ c, c ≠ b → Function.update P b (op.run (p b) r).st.points c = P c := fun c hc => Function.update_of_ne hc _ _
        have hmem : ∀ q : Pt ℚ, before iv'.lo iv'.loOpen q.1 → (q ∈ P b ↔ q ∈ (op.run (p b) r).st.points) := by
          intro q hq
          rw [← hpb]
          have : iv'.contains (.fin q.1) = false := by
            by_contra hc
            have := ((Iv.contains_iff _ _).1 (by simpa using hc)).1
            rw [show iv'.geLo (.fin q.1) = false from hq] at this; cases this
          exact (hk q this).symm
        refine ⟨fun c => (h c).asc, fun c => ?_, hother, by rw [Function.update_self]; exact hmem, fun _ h => .inr (.inl h),
          fun _ h => .inr (.inr h), fun x hX hx => ?_⟩
        · by_cases hc : c = b
          · subst hc; rw [Function.update_self]; exact hh.wf.asc
          · rw [Function.update_of_ne hc]; exact (h c).asc
        · rw [Function.update_self]
          rcases hanc with hanc | ⟨q, oa, rfl, hiv⟩
          · rw [← hpb]; exact hanc x hx
          · have hbef : ∀ y : ℚ, before iv'.lo iv'.loOpen y ↔ y < q.1 := by
              intro y
              subst hiv
              rw [← not_le, ← not_iff_not, not_not]
              unfold before
              rw [Bool.not_eq_false, Iv.geLo_iff]
              simp only [Net.onwards, Iv.point, Iv.closed, Ext.fin_lt_fin, Ext.fin.injEq, and_true]
              exact le_iff_lt_or_eq.symm
            have hxq := (hbef x).1 hx
            have hself : ∀ z ∈ P b, z.1 = x → ((∀ w ∈ P b, x < w.1) ∧ ∀ w ∈ ((Op.replace q oa).run (p b) r).st.points, x < w.1) ∨
                ∃ w ∈ P b, x ≤ w.1 ∧ before iv'.lo iv'.loOpen w.1 :=
              fun z hz hzx => .inr ⟨z, hz, hzx.ge, by rw [hzx]; exact hx⟩
            have hlist : ∀ c, c ≠ b → ∀ z ∈ P c, z.1 = x → ((∀ w ∈ P b, x < w.1) ∧ ∀ w ∈ ((Op.replace q oa).run (p b) r).st.points, x < w.1) ∨
                ∃ w ∈ P b, x ≤ w.1 ∧ before iv'.lo iv'.loOpen w.1 := by
              intro c hc z hz hzx
              rcases hn c hc z hz (by rw [hzx]; exact hxq) with h1 | ⟨w, hw, h1, h2⟩
              · rw [hzx] at h1
                refine .inl ⟨h1, fun w hw => ?_⟩
                by_cases hwq : w.1 < q.1
                · exact h1 w ((hmem w ((hbef _).2 hwq)).2 hw)
                · exact hxq.trans_le (not_lt.1 hwq)
              · rw [hzx] at h1
                exact .inr ⟨w, hw, h1, (hbef _).2 h2⟩
            rcases hX with hX | ⟨c, z, hz, hzx⟩ | ⟨c, z, hz, hzx⟩
            · exact absurd hX (by simp [Op.noReplace])
            · by_cases hc : c = b
              · subst hc; exact hself z hz hzx
              · exact hlist c hc z hz hzx
            · by_cases hc : c = b
              · subst hc
                rw [Function.update_self] at hz
                exact hself z ((hmem z (by rw [hzx]; exact hx)).2 hz) hzx
              · rw [hother c hc] at hz
                exact hlist c hc z hz hzx
      · intro d hd
        have : d = iv' := by
          rw [hev] at hd
          simpa [evBegins, evEnds] using hd
        rw [this]
        exact ⟨⟨rfl, rfl, hne⟩, Iv.hiGe_refl _⟩

/-- One of the orders: sources as they are listed. -/
def inOrder (p' : ℕ → Pts ℚ) (told : ℕ → Told) : (ns : List Node) → State ns → State ns × (ℕ → Told)
  | [], _ => (p', told)
  | n :: ns, s =>
    let r := inOrder p' told ns s.2
    let h := hear n s.1 (n.sources.flatMap fun j => (r.2 j).begins) (n.sources.flatMap fun j => (r.2 j).ends)
    ((h.1, r.1), fun k => match k with
      | 0 => h.2
      | k + 1 => r.2 k)

theorem inOrder_spread (p' : ℕ → Pts ℚ) (told : ℕ → Told) : ∀ (ns : List Node) (s : State ns),
    Spread p' told ns s (inOrder p' told ns s).1 (inOrder p' told ns s).2
  | [], p => .points p
  | n :: ns, s => .node (st := s.1) (inOrder_spread p' told ns s.2) (List.Perm.refl _) (List.Perm.refl _)

theorem edits_fine {ns : List Node} (hS : WebSound ns) {s s' : State ns} {op : Op ℚ} {r : Reads} {out : ℕ → Told}
    (hF : WebFine I P ns s) (hl : op.Legal) (hn : op.apart P b) (he : lateError (op.run (bases s b) r).err = false)
    (ht : Truthful (op.run (bases s b) r).st) (hfit : WebFit I (Function.update P b (op.run (bases s b) r).st.points) ns)
    (h : Edits ns b op r s s' out) :
    WebFine I (Function.update P b (op.run (bases s b) r).st.points) ns s' ∧
      bases s' = Function.update (bases s) b (op.run (bases s b) r).st ∧ ∃ lo o,
      Edited (reach op P (Function.update P b (op.run (bases s b) r).st.points)) b lo o P (Function.update P b (op.run (bases s b) r).st.points) ∧
      ∀ k, (out k).err = none ∧
        Heard lo o (Kept I P (Function.update P b (op.run (bases s b) r).st.points) ns k) (out k).begins (out k).ends := by
  obtain ⟨lo, o, h1, h2, h3⟩ := list_told (p := bases s) hF.bases hl hn he ht
  have hp : ∀ c, Still (I c) (Function.update P b (op.run (bases s b) r).st.points c)
      (Function.update (bases s) b (op.run (bases s b) r).st c) := by
    intro c
    by_cases hc : c = b
    · subst hc; rw [Function.update_self, Function.update_self]; exact h1
    · rw [Function.update_of_ne hc, Function.update_of_ne hc]; exact hF.bases c
  have htold : ∀ c, (toldOf b (op.run (bases s b) r).ev c).err = none ∧
      Heard lo o (Function.update P b (op.run (bases s b) r).st.points c = P c) (toldOf b (op.run (bases s b) r).ev c).begins
        (toldOf b (op.run (bases s b) r).ev c).ends := by
    intro c
    unfold toldOf
    by_cases hc : c = b
    · subst hc; rw [if_pos rfl, Function.update_self]; exact ⟨rfl, h3⟩
    · rw [if_neg hc, Function.update_of_ne hc]; exact ⟨rfl, .inl ⟨rfl, rfl, rfl⟩⟩
  obtain ⟨g1, g2, g3⟩ := spread_fine hF.asc hp h2 (fun c => (htold c).1) (fun c => (htold c).2) h hS hfit hF
  exact ⟨g1, g2, lo, o, h2, g3⟩

theorem new_fine {p : ℕ → Pts ℚ} (hs : ∀ b, Honest (p b)) (hi : ∀ b, (p b).interp = I b) : ∀ {ns : List Node},
    WebFit I (fun b => (p b).points) ns → WebFine I (fun b => (p b).points) ns (new p ns)
  | [], _ => fun b => ⟨hs b, rfl, hi b⟩
  | .layer S j :: ns, h => ⟨⟨⟨.inl rfl, rfl, rfl⟩, [], _, rfl, CScan.Sane.new h.1⟩, new_fine hs hi h.2⟩
  | .join js u tfm :: ns, h => ⟨⟨.inl rfl, rfl, rfl⟩, new_fine hs hi h⟩

theorem bases_new (p : ℕ → Pts ℚ) : ∀ ns : List Node, bases (new p ns) = p
  | [] => rfl
  | .layer _ _ :: ns => bases_new p ns
  | .join _ _ _ :: ns => bases_new p ns

theorem fine_points {ns : List Node} {s : State ns} (h : WebFine I P ns s) : pointsOf s = P := by
  funext b
  exact (h.bases b).2.1

theorem read_fine {ns : List Node} (hS : WebSound ns) {k : ℕ} {s s' : State ns} (hF : WebFine I P ns s) (hr : WebRead ns k s s') :
    WebFine I P ns s' := by
  have G := good (I := I) (P := P) hS k
  rcases hr with ⟨x, v, h1⟩ | ⟨x, a, l, v, h1⟩ | ⟨x, a, l, v, h1⟩ | ⟨v, h1⟩ | ⟨d, b, c, n, v, h1⟩
  · exact G.tidy.y x s v s' hF h1
  · exact G.tidy.next x a l s v s' hF h1
  · exact G.tidy.prev x a l s v s' hF h1
  · exact G.tidy.dom s v s' hF h1
  · exact G.sample d b c n s v s' hF h1

theorem used_fine {ns : List Node} (hS : WebSound ns) {s : State ns} (h : WebUsed I ns s) : WebFine I (pointsOf s) ns s := by
  induction h with
  | new hs hi hf =>
    have := new_fine hs hi hf
    rw [fine_points this]
    exact this
  | @read k s s' _ hr ih =>
    have := read_fine hS ih hr
    rw [fine_points this]
    exact this
  | edit _ hl hn he ht hf hr ih =>
    obtain ⟨h1, _⟩ := edits_fine hS ih hl hn he ht hf hr
    rw [fine_points h1]
    exact h1

end Web
end Curvepy
