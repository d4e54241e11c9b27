import Verif.Lemmas.PointsEdit
import Verif.Spec.Edit

namespace Curvepy
open Spec Pts
variable {V : Type}

theorem putPoint_knot {pts : List (Pt V)} (h : Ascending pts) {k : ℕ} {q : Pt V} (p : Pt V)
    (hk : pts[k]? = some q) (hx : p.1 = q.1) : putPoint pts p = pts.set k p := by
  induction pts generalizing k with
  | nil => simp at hk
  | cons a as ih =>
    cases k with
    | zero =>
      simp at hk; subst hk
      simp [putPoint, hx]
    | succ k =>
      have hlt : a.1 < p.1 := by
        rw [hx]; exact h.lt (i := 0) rfl hk (by omega)
      simp only [putPoint, if_neg (not_lt.2 hlt.le), if_neg hlt.ne', List.set_cons_succ]
      rw [ih h.tail (by simpa using hk)]

theorem putPoint_insert {pts : List (Pt V)} {k : ℕ} (p : Pt V)
    (hlo : ∀ (i : ℕ) (q : Pt V), pts[i]? = some q → i < k → q.1 < p.1)
    (hhi : ∀ (i : ℕ) (q : Pt V), pts[i]? = some q → k ≤ i → p.1 < q.1) :
    putPoint pts p = pts.take k ++ p :: pts.drop k := by
  induction pts generalizing k with
  | nil => simp [putPoint]
  | cons a as ih =>
    cases k with
    | zero =>
      have := hhi 0 a rfl (by omega)
      simp [putPoint, this]
    | succ k =>
      have hlt := hlo 0 a rfl (by omega)
      simp only [putPoint, if_neg (not_lt.2 hlt.le), if_neg hlt.ne', List.take_succ_cons,
        List.drop_succ_cons, List.cons_append]
      rw [ih (k := k)]
      · intro i q hq hi; exact hlo (i + 1) q (by simpa using hq) (by omega)
      · intro i q hq hi; exact hhi (i + 1) q (by simpa using hq) (by omega)

theorem mem_putPoint {pts : List (Pt V)} (h : Ascending pts) (p m : Pt V) :
    m ∈ putPoint pts p ↔ m = p ∨ (m ∈ pts ∧ m.1 ≠ p.1) := by
  induction pts with
  | nil => simp [putPoint]
  | cons a as ih =>
    have hgt : ∀ q ∈ as, a.1 < q.1 := (List.pairwise_cons.1 h).1
    unfold putPoint
    split
    · rename_i hlt
      simp only [List.mem_cons]
      constructor
      · rintro (h | h | h)
        · exact Or.inl h
        · exact Or.inr ⟨Or.inl h, by rw [h]; exact hlt.ne'⟩
        · exact Or.inr ⟨Or.inr h, (hlt.trans (hgt m h)).ne'⟩
      · rintro (h | ⟨h, _⟩)
        · exact Or.inl h
        · exact Or.inr h
    · split
      · rename_i _ heq
        simp only [List.mem_cons]
        constructor
        · rintro (h | h)
          · exact Or.inl h
          · exact Or.inr ⟨Or.inr h, by rw [heq]; exact (hgt m h).ne'⟩
        · rintro (h | ⟨h | h, hn⟩)
          · exact Or.inl h
          · exact absurd (by rw [h, heq]) hn
          · exact Or.inr h
      · rename_i hn1 hn2
        simp only [List.mem_cons, ih h.tail]
        constructor
        · rintro (h | h | h)
          · exact Or.inr ⟨Or.inl h, by rw [h]; exact Ne.symm hn2⟩
          · exact Or.inl h
          · exact Or.inr ⟨Or.inr h.1, h.2⟩
        · rintro (h | ⟨h | h, hn⟩)
          · exact Or.inr (Or.inl h)
          · exact Or.inl h
          · exact Or.inr (Or.inr ⟨h, hn⟩)

theorem putPoint_asc {pts : List (Pt V)} (h : Ascending pts) (p : Pt V) :
    Ascending (putPoint pts p) := by
  induction pts with
  | nil => simp [putPoint, Ascending]
  | cons a as ih =>
    have hgt : ∀ q ∈ as, a.1 < q.1 := (List.pairwise_cons.1 h).1
    unfold putPoint
    split
    · rename_i hlt
      refine List.pairwise_cons.2 ⟨?_, h⟩
      intro q hq
      rcases List.mem_cons.1 hq with rfl | hq
      · exact hlt
      · exact hlt.trans (hgt q hq)
    · split
      · rename_i _ heq
        refine List.pairwise_cons.2 ⟨?_, h.tail⟩
        intro q hq; rw [heq]; exact hgt q hq
      · rename_i hn1 hn2
        refine List.pairwise_cons.2 ⟨?_, ih h.tail⟩
        intro q hq
        rcases (mem_putPoint h.tail p q).1 hq with rfl | hq
        · exact lt_of_le_of_ne (not_lt.1 hn1) (Ne.symm hn2)
        · exact hgt q hq.1

theorem dropInside_asc {pts : List (Pt V)} (h : Ascending pts) (d : Iv) :
    Ascending (dropInside pts d) := List.Pairwise.filter _ h

theorem valueAt_append_left [Lerp V] (mode : Interp) {a b : List (Pt V)} (h : Ascending (a ++ b))
    {x : ℚ} (hx : ∃ p ∈ a, x ≤ p.1) : valueAt mode (a ++ b) x = valueAt mode a x := by
  obtain ⟨m, hm, hxm⟩ := hx
  have ha : Ascending a := (List.pairwise_append.1 h).1
  have idx : ∀ (k : ℕ) (p : Pt V), a[k]? = some p → (a ++ b)[k]? = some p := by
    intro k p hk
    rw [List.getElem?_append_left (List.getElem?_eq_some_iff.1 hk).1]; exact hk
  cases Pts.locate a ha x with
  | before hb =>
    rw [valueAt_before mode hb, valueAt_before]
    intro p hp
    rcases List.mem_append.1 hp with hp | hp
    · exact hb p hp
    · exact (hb m hm).trans ((List.pairwise_append.1 h).2.2 m hm p hp)
  | after h' => exact absurd (h' m hm) (not_lt.2 hxm)
  | knot k p hk hx =>
    rw [hx, valueAt_knot mode ha hk, valueAt_knot mode h (idx k p hk)]
  | gap k p q hp hq hpx hxq =>
    rw [valueAt_gap mode ha hp hq hpx hxq, valueAt_gap mode h (idx _ _ hp) (idx _ _ hq) hpx hxq]

theorem valueAt_append_right [Lerp V] (mode : Interp) {a b : List (Pt V)} (h : Ascending (a ++ b))
    {x : ℚ} (hx : ∃ p ∈ b, p.1 ≤ x) : valueAt mode (a ++ b) x = valueAt mode b x := by
  obtain ⟨m, hm, hxm⟩ := hx
  have hb : Ascending b := (List.pairwise_append.1 h).2.1
  have idx : ∀ (k : ℕ) (p : Pt V), b[k]? = some p → (a ++ b)[a.length + k]? = some p := by
    intro k p hk
    rw [List.getElem?_append_right (by omega)]
    simpa using hk
  cases Pts.locate b hb x with
  | before h' => exact absurd (h' m hm) (not_lt.2 hxm)
  | after h' =>
    rw [valueAt_after mode h', valueAt_after]
    intro p hp
    rcases List.mem_append.1 hp with hp | hp
    · exact ((List.pairwise_append.1 h).2.2 p hp m hm).trans (h' m hm)
    · exact h' p hp
  | knot k p hk hx =>
    rw [hx, valueAt_knot mode hb hk, valueAt_knot mode h (idx k p hk)]
  | gap k p q hp hq hpx hxq =>
    rw [valueAt_gap mode hb hp hq hpx hxq, valueAt_gap mode h (idx _ _ hp) (idx _ _ hq) hpx hxq]

namespace Pts

/-- `replace` inside the domain. -/
theorem replace_inside {s : Pts V} (b : s.Base) (w : s.Wf) (p : Pt V) (oa : Bool) (r : Reads)
    (hin : (getDomain s.points).contains (.fin p.1) = true) :
    (s.force = true ∧ (∀ q ∈ s.points, q.1 ≠ p.1) ∧
      Stuck s (Iv.point p.1) .betweenPoints (s.replace p oa r)) ∨
    (¬ (s.force = true ∧ ∀ q ∈ s.points, q.1 ≠ p.1) ∧
      Edited s (putPoint s.points p) (Iv.point p.1) (s.replace p oa r) ∧
      ((∃ q ∈ s.points, q.1 = p.1) → (s.replace p oa r).st.equal = s.equal ∧
        (putPoint s.points p).map Prod.fst = s.points.map Prod.fst) ∧
      ((∀ q ∈ s.points, q.1 ≠ p.1) → (s.replace p oa r).st.equal = false)) := by
  have hud : (Iv.point p.1).isEmpty = false := by simp [Iv.point]
  have bt := b.touch
  have hin' : s.touch.domVal.contains (.fin p.1) = true := by rw [bt.domVal]; exact hin
  set s1 := (s.touch.beginUpdate (Iv.point p.1) r).1 with hs1
  have hl : Looks { s1 with bIv := Iv.empty } s := by
    rw [hs1, beginUpdate_idle r bt.idleB hud]
    dsimp only
    split <;> exact ⟨rfl, rfl, rfl, rfl, rfl, rfl, rfl⟩
  have hpts : s1.points = s.points := hl.points
  have hforce : s1.force = s.force := hl.force
  have heq : s1.equal = s.equal := hl.equal
  have hxi : s1.xIndex p.1 = s.xIndex p.1 := by
    rw [← hl.xIndex]; rfl
  have hasc := putPoint_asc b.asc p
  cases locate s.points b.asc p.1 with
  | before h => simp [not_contains_before h] at hin
  | after h => simp [not_contains_after h] at hin
  | knot k q hk hx =>
    have hlen := (List.getElem?_eq_some_iff.1 hk).1
    have hex : ∃ q ∈ s.points, q.1 = p.1 := ⟨q, List.mem_of_getElem? hk, hx.symm⟩
    right
    refine ⟨fun hc => by obtain ⟨q, h1, h2⟩ := hex; exact hc.2 q h1 h2, ?_⟩
    have hset : pySet s.points (k : ℤ) p = .ok (putPoint s.points p) := by
      rw [putPoint_knot b.asc p hk hx]
      simp [pySet, hlen]
    have hrep : s.replace p oa r =
        ⟨((didChange { s1 with equal := s1.equal, points := putPoint s.points p }).endUpdate
            (Iv.point p.1) r).1, (s.touch.beginUpdate (Iv.point p.1) r).2 ++
          ((didChange { s1 with equal := s1.equal, points := putPoint s.points p }).endUpdate
            (Iv.point p.1) r).2, none⟩ := by
      unfold replace
      simp only [hin', Bool.not_true, Bool.false_eq_true, if_false, ← hs1, hxi, hpts,
        xIndex_knot w hk hx, Int.ceil_natCast, pyGet_nat hk, ne_eq, not_true_eq_false, hset, show ¬ ¬ p.1 = q.1 from not_not.2 hx]
    rw [hrep]
    obtain ⟨h1, h2⟩ := finish r bt hud hasc s1.equal hs1
    refine ⟨h1.looks (touch_looks s), fun _ => ⟨h2.trans heq, ?_⟩,
      fun hn => absurd hx (fun h => hn q (List.mem_of_getElem? hk) h.symm)⟩
    rw [putPoint_knot b.asc p hk hx]
    apply List.ext_getElem?
    intro i
    simp only [List.getElem?_map, List.getElem?_set]
    split
    · rename_i h; subst h
      simp only [hlen, if_true, Option.map_some, hk, hx]
    · rfl
  | gap k q q' hq hq' hpx hxq =>
    have hlen := (List.getElem?_eq_some_iff.1 hq').1
    have hno : ∀ m ∈ s.points, m.1 ≠ p.1 := by
      intro m hm he
      obtain ⟨i, hi⟩ := List.getElem?_of_mem hm
      rcases Nat.lt_or_ge k i with h | h
      · have := b.asc.le hq' hi (by omega); linarith
      · have := b.asc.le hi hq (by omega); linarith
    have ⟨g0, g1⟩ := gap_frac hpx hxq
    have hxi' := xIndex_gap w hq hq' hpx hxq
    have hceil := ceil_nat_add (k := k) g0 g1
    have hne : p.1 ≠ q'.1 := hxq.ne
    by_cases hf : s.force = true
    · left
      refine ⟨hf, hno, ?_⟩
      have hrep : s.replace p oa r =
          ⟨{ s1 with equal := s1.equal }, (s.touch.beginUpdate (Iv.point p.1) r).2,
            some .betweenPoints⟩ := by
        unfold replace
        simp only [hin', Bool.not_true, Bool.false_eq_true, if_false, ← hs1, hxi, hpts,
          hxi', hceil, pyGet_nat hq', ne_eq, hne, not_false_eq_true, if_true, hforce, hf]
      rw [hrep]
      exact (stuck_begin r bt hud _ _ hs1).looks (touch_looks s)
    · right
      refine ⟨fun hc => hf hc.1, ?_⟩
      have hins : pyInsert s.points ((k + 1 : ℕ) : ℤ) p = putPoint s.points p := by
        rw [putPoint_insert (k := k + 1)]
        · simp only [pyInsert, pyClamp_nat hlen.le]
        · intro i m hm hi
          exact lt_of_le_of_lt (b.asc.le hm hq (by omega)) hpx
        · intro i m hm hi
          exact lt_of_lt_of_le hxq (b.asc.le hq' hm (by omega))
      have hrep : s.replace p oa r =
          ⟨((didChange { s1 with equal := false, points := putPoint s.points p }).endUpdate
              (Iv.point p.1) r).1, (s.touch.beginUpdate (Iv.point p.1) r).2 ++
            ((didChange { s1 with equal := false, points := putPoint s.points p }).endUpdate
              (Iv.point p.1) r).2, none⟩ := by
        have hf' : s.force = false := by simpa using hf
        unfold replace
        simp only [hin', Bool.not_true, Bool.false_eq_true, if_false, ← hs1, hxi, hpts,
          hxi', hceil, pyGet_nat hq', ne_eq, hne, not_false_eq_true, if_true, hforce, hf', hins]
      rw [hrep]
      obtain ⟨h1, h2⟩ := finish r bt hud hasc false hs1
      exact ⟨h1.looks (touch_looks s), fun ⟨m, hm, he⟩ => absurd he (hno m hm), fun _ => h2⟩

theorem Base.cover_of_ends {s : Pts V} (b : s.Base) (hne : s.points ≠ []) {d : Iv}
    (hall : ∀ p ∈ s.points, d.contains (.fin p.1) = true) : d.superset s.domVal = true := by
  rw [Iv.superset_iff]
  intro x hx
  rw [b.domVal] at hx
  cases x with
  | ninf => simp [(getDomain_contains_inf s.points).2] at hx
  | pinf => simp [(getDomain_contains_inf s.points).1] at hx
  | fin q =>
    obtain ⟨p, p', hp, hp', h1, h2⟩ := (getDomain_contains_fin _ _).1 hx
    rw [Iv.contains_iff]
    exact ⟨geLo_mono_x h1 ((Iv.contains_iff _ _).1 (hall p (List.mem_of_getElem? hp))).1,
      leHi_mono_x h2 ((Iv.contains_iff _ _).1 (hall p' (List.mem_of_getElem? hp'))).2⟩

/-- Every knot lies in the domain. -/
theorem getDomain_contains_mem {pts : List (Pt V)} (h : Ascending pts) {p : Pt V} (hp : p ∈ pts) :
    (getDomain pts).contains (.fin p.1) = true := by
  obtain ⟨i, hi⟩ := List.getElem?_of_mem hp
  have hne : pts ≠ [] := List.ne_nil_of_mem hp
  obtain ⟨a, as, rfl⟩ := List.exists_cons_of_ne_nil hne
  have hl := (List.getElem?_eq_some_iff.1 hi).1
  exact (getDomain_contains_fin _ _).2 ⟨a, _, rfl, getLast_mem_idx hne,
    h.le (i := 0) rfl hi (by omega), h.le hi (getLast_mem_idx hne) (by omega)⟩

/-- Values outside the span of the points are undefined. -/
theorem valueAtE_outside [Lerp V] (mode : Interp) {pts : List (Pt V)} (h : Ascending pts) {x : Ext}
    (hx : (getDomain pts).contains x = false) : valueAtE mode pts x = none := by
  cases x with
  | ninf => rfl
  | pinf => rfl
  | fin q =>
    cases locate pts h q with
    | before h' => exact valueAt_before mode h'
    | after h' => exact valueAt_after mode h'
    | knot k p hk he =>
      rw [contains_of_idx h hk hk (le_of_eq he.symm) (le_of_eq he)] at hx; cases hx
    | gap k p p' hp hp' h1 h2 =>
      rw [contains_of_idx h hp hp' h1.le h2.le] at hx; cases hx

/-- `reset(domain)`. -/
theorem reset_some [Lerp V] {s : Pts V} (b : s.Base) (w : s.Wf) (d : Iv) (r : Reads) :
    (dropInside s.points d = s.points ∧ ((s.reset (some d) r) = ⟨s, [], none⟩ ∨
      (s.reset (some d) r) = ⟨s.touch, [], none⟩)) ∨
    (∃ iv, dropInside s.points d ≠ s.points ∧ s.force = true ∧ s.setCheck (dropInside s.points d) = false ∧
      Stuck s iv .nonRegular (s.reset (some d) r)) ∨
    (∃ iv, dropInside s.points d ≠ s.points ∧ Edited s (dropInside s.points d) iv (s.reset (some d) r) ∧
      (s.reset (some d) r).st.equal = s.setCheck (dropInside s.points d) ∧
      ¬ (s.force = true ∧ s.setCheck (dropInside s.points d) = false) ∧
      (∀ mode x, iv.contains x = false →
        valueAtE mode (dropInside s.points d) x = valueAtE mode s.points x) ∧
      (∀ p ∈ s.points, d.contains (.fin p.1) = true → iv.contains (.fin p.1) = true) ∧
      ∀ x : ℚ, iv.geLo (.fin x) = false →
        (∀ p ∈ s.points, x < p.1) ∨ ∃ p ∈ s.points, x ≤ p.1 ∧ iv.geLo (.fin p.1) = false) := by
  by_cases hpts : s.points = []
  · left
    refine ⟨by simp [dropInside, hpts], Or.inl ?_⟩
    simp [reset, hpts]
  have hlen : s.points.length ≠ 0 := by simpa using hpts
  have bt := b.touch
  have wt := w.touch
  have hdv : s.touch.domVal = s.domVal := rfl
  by_cases hint : s.touch.domVal.intersects d = true
  swap
  · left
    have hi : (Iv.inter d s.domVal).isEmpty = true := by
      rw [inter_isEmpty_comm]
      simpa [Iv.intersects, hdv] using hint
    refine ⟨?_, Or.inr ?_⟩
    · unfold dropInside
      rw [List.filter_eq_self]
      intro p hp
      simp [disjoint_contains_none w hi p hp]
    · unfold reset
      rw [if_neg hlen]
      simp only
      rw [if_pos (by simpa using hint)]
  have hsetnil : s.touch.set [] none r = s.set [] none r := rfl
  by_cases hsup : d.superset s.touch.domVal = true
  · right; right
    have hall := superset_contains_all w hsup
    have hdrop : dropInside s.points d = [] := by
      unfold dropInside
      rw [List.filter_eq_nil_iff]
      intro p hp
      simp [hall p hp]
    have hres : s.reset (some d) r = s.set [] none r := by
      unfold reset
      rw [if_neg hlen]
      simp only
      rw [if_neg (by simpa using hint), if_pos hsup, hsetnil]
    refine ⟨s.domVal, by rw [hdrop]; exact Ne.symm hpts, ?_⟩
    rw [hdrop, hres]
    rcases set_none b (pts := []) List.Pairwise.nil r with h | ⟨_, h1, h2⟩
    · simp [setCheck] at h
    · refine ⟨h1, h2, by simp [setCheck], ?_, fun p hp _ => ?_, fun x hx => .inl fun p hp => ?_⟩
      · intro mode x hx
        rw [b.domVal] at hx
        rw [valueAtE_outside mode b.asc hx]
        cases x <;> rfl
      · rw [b.domVal]
        exact getDomain_contains_mem b.asc hp
      · by_contra hc
        have hm := (Iv.contains_iff _ _).1 (getDomain_contains_mem b.asc hp)
        rw [b.domVal] at hx
        have hm1 := (Iv.geLo_iff _ _).1 hm.1
        have : (getDomain s.points).geLo (.fin x) = true := by
          rw [Iv.geLo_iff]
          have hle : (Ext.fin p.1) ≤ .fin x := by simpa using hc
          rcases hm1 with h | ⟨h, h'⟩
          · exact .inl (lt_of_lt_of_le h hle)
          · rcases hle.lt_or_eq with h3 | h3
            · exact .inl (h ▸ h3)
            · exact .inr ⟨h.trans h3, h'⟩
        rw [this] at hx; cases hx
  have hsup' : d.superset s.touch.domVal = false := by simpa using hsup
  have hint' : (Iv.inter d s.touch.domVal).isEmpty = false := by
    rw [inter_isEmpty_comm]; simpa [Iv.intersects] using hint
  obtain ⟨A, B, h1, hAB, hBl, h2⟩ := domainIndexes_spec wt hpts d hsup' hint'
  replace hBl : B ≤ s.points.length := hBl
  have hfil : dropInside s.points d = s.points.take A ++ s.points.drop B :=
    filter_not_eq_slice (fun p : Pt V => d.contains (.fin p.1)) s.points A B hAB h2
  by_cases hAeq : A = B
  · left
    refine ⟨?_, Or.inr ?_⟩
    · rw [hfil, hAeq, List.take_append_drop]
    · unfold reset
      rw [if_neg hlen]
      simp only
      rw [if_neg (by simpa using hint), if_neg hsup, h1]
      simp [hAeq]
  have hlt : A < B := by omega
  have hAlen : A < s.points.length := by omega
  -- head and tail keep their ends
  have hhead : pySlice s.touch.points 0 (A : ℤ) = s.points.take A := by
    simp only [pySlice, Pts.touch]
    rw [pyClamp_nat hAlen.le]
    have : pyClamp s.points.length 0 = 0 := by simp [pyClamp]
    rw [this, List.drop_zero]
  have htail : pySlice s.touch.points (B : ℤ) (s.touch.points.length : ℤ) = s.points.drop B := by
    simp only [pySlice, Pts.touch]
    rw [pyClamp_nat hBl, pyClamp_nat le_rfl, List.take_length]
  have hheadlast : ∀ p, (s.points.take A).getLast? = some p → d.contains (.fin p.1) = false ∧
      ∃ k, A = k + 1 ∧ s.points[k]? = some p := by
    intro p hp
    rw [List.getLast?_eq_getElem?] at hp
    have hlt' : (s.points.take A).length = A := by simp; omega
    rw [hlt'] at hp
    have hA0 : A - 1 < A := by
      by_contra hc
      have : A = 0 := by omega
      rw [this] at hp; simp at hp
    rw [List.getElem?_take_of_lt hA0] at hp
    refine ⟨?_, A - 1, by omega, hp⟩
    by_contra hc
    have := (h2 _ p hp).1 (by simpa using hc)
    omega
  have htailfst : ∀ p ps, s.points.drop B = p :: ps → d.contains (.fin p.1) = false ∧
      s.points[B]? = some p := by
    intro p ps hp
    have : s.points[B]? = some p := by
      have : (s.points.drop B)[0]? = some p := by rw [hp]; rfl
      rw [List.getElem?_drop] at this
      simpa using this
    refine ⟨?_, this⟩
    by_contra hc
    have := (h2 _ p this).1 (by simpa using hc)
    omega
  -- both empty is impossible
  have hnotboth : ¬ (s.points.take A).length + (s.points.drop B).length = 0 := by
    intro hc
    simp only [List.length_take, List.length_drop] at hc
    have hA0 : A = 0 := by omega
    have hBlen : B = s.points.length := by omega
    apply hsup
    refine bt.cover_of_ends hpts ?_
    intro p hp
    obtain ⟨i, hi⟩ := List.getElem?_of_mem hp
    have hi' : s.points[i]? = some p := hi
    have := (List.getElem?_eq_some_iff.1 hi').1
    exact (h2 i p hi').2 ⟨by omega, by omega⟩
  obtain ⟨p0, ps0, hcons⟩ := List.exists_cons_of_ne_nil hpts
  have hh0 : s.touch.points.head? = some p0 := by
    show s.points.head? = _
    rw [hcons]; rfl
  have hll : s.touch.points.getLast? = some (s.points.getLast hpts) := by
    show s.points.getLast? = _
    exact List.getLast?_eq_some_getLast hpts
  set iv : Iv :=
    ⟨.fin (match (s.points.take A).getLast? with | some h => h.1 | none => p0.1),
     .fin (match (s.points.drop B).head? with | some t => t.1 | none => (s.points.getLast hpts).1),
     (match (s.points.take A).getLast? with | some _ => true | none => false),
     (match (s.points.drop B).head? with | some _ => true | none => false)⟩ with hiv
  have hres : s.reset (some d) r =
      s.touch.set (dropInside s.points d) (some iv) r := by
    unfold reset
    rw [if_neg hlen]
    simp only
    rw [if_neg (by simpa using hint), if_neg hsup, h1]
    simp only
    rw [if_neg (by simpa using hAeq)]
    simp only [hhead, htail, hh0, hll]
    rw [hfil, hiv]
    cases hc1 : (s.points.take A).getLast? with
    | none =>
      cases hc2 : s.points.drop B with
      | nil =>
        rw [hc2, List.getLast?_eq_none_iff.1 hc1] at hnotboth
        exact absurd rfl hnotboth
      | cons t ts =>
        rw [hc2] at hnotboth
        have e2 := (htailfst t ts hc2).1
        simp only [hc1, e2, Bool.false_eq_true, if_false, hnotboth, List.head?_cons]
    | some h =>
      have e1 := (hheadlast h hc1).1
      cases hc2 : s.points.drop B with
      | nil =>
        rw [hc2] at hnotboth
        simp only [hc1, e1, Bool.false_eq_true, if_false, hnotboth, List.head?_nil]
      | cons t ts =>
        rw [hc2] at hnotboth
        have e2 := (htailfst t ts hc2).1
        simp only [hc1, e1, e2, Bool.false_eq_true, if_false, hnotboth, List.head?_cons]
  -- the first removed point lies in the announced interval
  have hmemA := List.getElem?_eq_getElem hAlen
  have hivAll : ∀ (i : ℕ) (m : Pt V), s.points[i]? = some m → A ≤ i → i < B →
      iv.contains (.fin m.1) = true := by
    intro i m hm hAi hiB
    have hilt := (List.getElem?_eq_some_iff.1 hm).1
    rw [Iv.contains_iff, Iv.geLo_iff, Iv.leHi_iff]
    constructor
    · cases hc : (s.points.take A).getLast? with
      | none =>
        simp only [hiv, hc]
        have hle : p0.1 ≤ m.1 := b.asc.le (i := 0) (by simp [hcons]) hm (by omega)
        rcases hle.lt_or_eq with h | h
        · exact Or.inl (by simpa using h)
        · exact Or.inr ⟨by rw [h], by simp⟩
      | some p =>
        simp only [hiv, hc]
        obtain ⟨_, k, hk, hkp⟩ := hheadlast p hc
        exact Or.inl (by simpa using b.asc.lt hkp hm (by omega))
    · cases hc : s.points.drop B with
      | nil =>
        simp only [hiv, hc, List.head?_nil]
        have hle : m.1 ≤ (s.points.getLast hpts).1 :=
          b.asc.le hm (getLast_mem_idx hpts) (by omega)
        rcases hle.lt_or_eq with h | h
        · exact Or.inl (by simpa using h)
        · exact Or.inr ⟨by rw [h], by simp⟩
      | cons p ps =>
        simp only [hiv, hc, List.head?_cons]
        have hkp := (htailfst p ps hc).2
        exact Or.inl (by simpa using b.asc.lt hm hkp (by omega))
  have hivA : iv.contains (.fin s.points[A].1) = true := hivAll A _ hmemA le_rfl hlt
  have hremoved : ∀ p ∈ s.points, d.contains (.fin p.1) = true → iv.contains (.fin p.1) = true := by
    intro p hp hd
    obtain ⟨i, hi⟩ := List.getElem?_of_mem hp
    have := (h2 i p hi).1 hd
    exact hivAll i p hi this.1 this.2
  have hivne : iv.isEmpty = false := Iv.not_isEmpty_of_mem hivA
  have hascd := dropInside_asc b.asc d
  have hlocal : ∀ mode x, iv.contains x = false →
        valueAtE mode (dropInside s.points d) x = valueAtE mode s.points x := by
    intro mode x hx
    cases x with
    | ninf => rfl
    | pinf => rfl
    | fin q =>
      simp only [valueAtE]
      have hsplit : s.points = s.points.take A ++ s.points.drop A := (List.take_append_drop _ _).symm
      have hsplit2 : s.points = s.points.take B ++ s.points.drop B := (List.take_append_drop _ _).symm
      have hasc1 : Ascending (s.points.take A ++ s.points.drop A) := by rw [← hsplit]; exact b.asc
      have hasc2 : Ascending (s.points.take B ++ s.points.drop B) := by rw [← hsplit2]; exact b.asc
      have hasc3 : Ascending (s.points.take A ++ s.points.drop B) := by rw [← hfil]; exact hascd
      have hx' : ¬ (iv.geLo (.fin q) = true ∧ iv.leHi (.fin q) = true) := by
        rw [← Iv.contains_iff]; simp [hx]
      have key : iv.geLo (.fin q) = false ∨ iv.leHi (.fin q) = false := by
        by_contra hc; push Not at hc; exact hx' (by simpa using hc)
      rcases key with key | key
      · have key' := mt (Iv.geLo_iff iv (.fin q)).2 (by simp [key])
        push Not at key'
        cases hc : (s.points.take A).getLast? with
        | none =>
          have hAnil : s.points.take A = [] := List.getLast?_eq_none_iff.1 hc
          have hq : q < p0.1 := by
            have h1 : ¬ p0.1 < q := by simpa [hiv, hc] using key'.1
            rcases (not_lt.1 h1).lt_or_eq with h | h
            · exact h
            · have h2 := key'.2; simp [hiv, hc, h] at h2
          have hall : ∀ m ∈ s.points, q < m.1 := by
            intro m hm
            obtain ⟨i, hi⟩ := List.getElem?_of_mem hm
            exact lt_of_lt_of_le hq (b.asc.le (i := 0) (by simp [hcons]) hi (by omega))
          rw [valueAt_before mode hall, valueAt_before]
          intro m hm
          exact hall m (List.mem_of_mem_filter hm)
        | some p =>
          have hq : q ≤ p.1 := by simpa [hiv, hc] using key'.1
          have hpm : p ∈ s.points.take A := List.mem_of_getLast? hc
          rw [hfil, valueAt_append_left mode hasc3 ⟨p, hpm, hq⟩]
          conv_rhs => rw [hsplit]
          rw [valueAt_append_left mode hasc1 ⟨p, hpm, hq⟩]
      · have key' := mt (Iv.leHi_iff iv (.fin q)).2 (by simp [key])
        push Not at key'
        cases hc : s.points.drop B with
        | nil =>
          have hq : (s.points.getLast hpts).1 < q := by
            have h1 : ¬ q < (s.points.getLast hpts).1 := by simpa [hiv, hc] using key'.1
            rcases (not_lt.1 h1).lt_or_eq with h | h
            · exact h
            · have h2 := key'.2; simp [hiv, hc, h] at h2
          have hall : ∀ m ∈ s.points, m.1 < q := by
            intro m hm
            obtain ⟨i, hi⟩ := List.getElem?_of_mem hm
            exact lt_of_le_of_lt (b.asc.le hi (getLast_mem_idx hpts)
              (by have := (List.getElem?_eq_some_iff.1 hi).1; omega)) hq
          rw [valueAt_after mode hall, valueAt_after]
          intro m hm
          exact hall m (List.mem_of_mem_filter hm)
        | cons p ps =>
          have hq : p.1 ≤ q := by simpa [hiv, hc] using key'.1
          have hpm : p ∈ s.points.drop B := by rw [hc]; simp
          rw [hfil, valueAt_append_right mode hasc3 ⟨p, hpm, hq⟩]
          conv_rhs => rw [hsplit2]
          rw [valueAt_append_right mode hasc2 ⟨p, hpm, hq⟩]
  have hanchor : ∀ x : ℚ, iv.geLo (.fin x) = false →
      (∀ p ∈ s.points, x < p.1) ∨ ∃ p ∈ s.points, x ≤ p.1 ∧ iv.geLo (.fin p.1) = false := by
    intro q key
    have key' := mt (Iv.geLo_iff iv (.fin q)).2 (by simp [key])
    push Not at key'
    cases hc : (s.points.take A).getLast? with
    | none =>
      left
      have hq : q < p0.1 := by
        have h1 : ¬ p0.1 < q := by simpa [hiv, hc] using key'.1
        rcases (not_lt.1 h1).lt_or_eq with h | h
        · exact h
        · have h2 := key'.2; simp [hiv, hc, h] at h2
      intro m hm
      obtain ⟨i, hi⟩ := List.getElem?_of_mem hm
      exact lt_of_lt_of_le hq (b.asc.le (i := 0) (by simp [hcons]) hi (by omega))
    | some p =>
      right
      have hq : q ≤ p.1 := by simpa [hiv, hc] using key'.1
      refine ⟨p, List.mem_of_mem_take (List.mem_of_getLast? hc), hq, ?_⟩
      by_contra hg
      have hg := (Iv.geLo_iff _ _).1 (by simpa using hg)
      simp [hiv, hc] at hg
  have hchg : dropInside s.points d ≠ s.points := by
    intro hc
    have := congrArg List.length hc
    rw [hfil] at this
    simp only [List.length_append, List.length_take, List.length_drop] at this
    omega
  right
  rw [hres]
  rcases set_some bt hascd hivne r with ⟨h1, h2, h3⟩ | ⟨h0, h1, h2⟩
  · exact Or.inl ⟨iv, hchg, h1, h2, h3.looks (touch_looks s)⟩
  · exact Or.inr ⟨iv, hchg, h1.looks (touch_looks s), h2, h0, hlocal, hremoved, hanchor⟩

end Pts
end Curvepy
