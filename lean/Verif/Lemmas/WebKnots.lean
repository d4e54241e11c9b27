import Verif.Spec.Web
import Verif.Lemmas.Net

/-!
# Networks over several lists of points: positions
-/

namespace Curvepy
open Spec Pts Props Accum

namespace Web

/-! ## Ascending lists of positions -/

theorem mem_putIn {x z : ℚ} : ∀ {l : List ℚ}, z ∈ putIn x l ↔ z = x ∨ z ∈ l
  | [] => by simp [putIn]
  | y :: ys => by
    unfold putIn
    split
    · simp
    · split
      · rename_i h; subst h; simp
      · rw [List.mem_cons, mem_putIn, List.mem_cons]; grind

theorem putIn_asc {x : ℚ} : ∀ {l : List ℚ}, l.Pairwise (· < ·) → (putIn x l).Pairwise (· < ·)
  | [], _ => by simp [putIn]
  | y :: ys, h => by
    have h' := List.pairwise_cons.1 h
    unfold putIn
    split
    · rename_i hx
      refine List.pairwise_cons.2 ⟨fun z hz => ?_, h⟩
      rcases List.mem_cons.1 hz with rfl | hz
      · exact hx
      · exact hx.trans (h'.1 z hz)
    · split
      · exact h
      · rename_i h1 h2
        refine List.pairwise_cons.2 ⟨fun z hz => ?_, putIn_asc h'.2⟩
        rcases mem_putIn.1 hz with rfl | hz
        · exact lt_of_le_of_ne (not_lt.1 h1) (fun h => h2 h.symm)
        · exact h'.1 z hz

theorem putIn_length {x : ℚ} : ∀ {l : List ℚ}, (putIn x l).length ≤ l.length + 1
  | [] => by simp [putIn]
  | y :: ys => by
    unfold putIn
    split
    · simp
    · split
      · simp
      · have := putIn_length (x := x) (l := ys)
        simpa using this

theorem mem_merged {z : ℚ} : ∀ {l : List ℚ}, z ∈ merged l ↔ z ∈ l
  | [] => by simp [merged]
  | y :: ys => by
    have := mem_merged (z := z) (l := ys)
    unfold merged at this ⊢
    rw [List.foldr_cons, mem_putIn, this, List.mem_cons]

theorem merged_asc : ∀ l : List ℚ, (merged l).Pairwise (· < ·)
  | [] => .nil
  | _ :: ys => putIn_asc (merged_asc ys)

theorem merged_length : ∀ l : List ℚ, (merged l).length ≤ l.length
  | [] => le_rfl
  | _ :: ys => putIn_length.trans (Nat.succ_le_succ (merged_length ys))

theorem within_iff {l : List ℚ} {x : ℚ} : within l x = true ↔ (∃ a ∈ l, a ≤ x) ∧ ∃ b ∈ l, x ≤ b := by
  simp [within]

theorem within_mem {l : List ℚ} {x : ℚ} (h : x ∈ l) : within l x = true := within_iff.2 ⟨⟨x, h, le_rfl⟩, x, h, le_rfl⟩

theorem within_between {l : List ℚ} {a x b : ℚ} (ha : within l a = true) (hb : within l b = true) (h1 : a ≤ x) (h2 : x ≤ b) :
    within l x = true := by
  obtain ⟨⟨c, hc, hca⟩, _⟩ := within_iff.1 ha
  obtain ⟨_, d, hd, hbd⟩ := within_iff.1 hb
  exact within_iff.2 ⟨⟨c, hc, hca.trans h1⟩, d, hd, h2.trans hbd⟩

theorem within_congr {l l' : List ℚ} (h : ∀ x, x ∈ l ↔ x ∈ l') (x : ℚ) : within l x = within l' x := by
  rw [Bool.eq_iff_iff, within_iff, within_iff]
  simp [h]

/-- The first position from another one on. -/
def firstAt (l : List ℚ) (y : ℚ) : Option ℚ := l.find? fun z => decide (y ≤ z)

theorem firstAt_some {l : List ℚ} (hl : l.Pairwise (· < ·)) {y z : ℚ} :
    firstAt l y = some z ↔ z ∈ l ∧ y ≤ z ∧ ∀ w ∈ l, y ≤ w → z ≤ w := by
  induction l with
  | nil => simp [firstAt]
  | cons a l ih =>
    have h' := List.pairwise_cons.1 hl
    unfold firstAt at ih ⊢
    rw [List.find?_cons]
    by_cases hy : y ≤ a
    · simp only [hy, decide_true, Option.some.injEq]
      constructor
      · rintro rfl
        refine ⟨by simp, hy, fun w hw _ => ?_⟩
        rcases List.mem_cons.1 hw with rfl | hw
        · exact le_rfl
        · exact (h'.1 w hw).le
      · rintro ⟨h1, h2, h3⟩
        have := h3 a (by simp) hy
        rcases List.mem_cons.1 h1 with rfl | h1
        · rfl
        · exact absurd (h'.1 z h1) (not_lt.2 this)
    · simp only [hy, decide_false]
      rw [ih h'.2]
      constructor
      · rintro ⟨h1, h2, h3⟩
        refine ⟨List.mem_cons_of_mem _ h1, h2, fun w hw hyw => ?_⟩
        rcases List.mem_cons.1 hw with rfl | hw
        · exact absurd hyw hy
        · exact h3 w hw hyw
      · rintro ⟨h1, h2, h3⟩
        refine ⟨?_, h2, fun w hw => h3 w (List.mem_cons_of_mem _ hw)⟩
        rcases List.mem_cons.1 h1 with rfl | h1
        · exact absurd h2 hy
        · exact h1

theorem firstAt_none {l : List ℚ} {y : ℚ} : firstAt l y = none ↔ ∀ w ∈ l, w < y := by
  unfold firstAt
  rw [List.find?_eq_none]
  simp

theorem firstFrom_firstAt (pts : List (Pt ℚ)) (y : ℚ) : firstFrom pts y = firstAt (pts.map Prod.fst) y := by
  unfold firstFrom firstAt
  rw [List.find?_map]
  rfl

/-! ## Positions of curves -/

variable {P : ℕ → List (Pt ℚ)} {I : ℕ → Interp}

theorem knots_succ (n : Node) (ns : List Node) (k : ℕ) : webKnots P (n :: ns) (k + 1) = webKnots P ns k := by cases n <;> rfl
theorem in_succ (n : Node) (ns : List Node) (k : ℕ) : webIn P (n :: ns) (k + 1) = webIn P ns k := by cases n <;> rfl
theorem value_succ (n : Node) (ns : List Node) (k : ℕ) : webValue I P (n :: ns) (k + 1) = webValue I P ns k := by
  funext x; cases n <;> rfl
theorem pts_succ (n : Node) (ns : List Node) (k : ℕ) : webPts I P (n :: ns) (k + 1) = webPts I P ns k := by
  unfold webPts; rw [in_succ, value_succ]

theorem atAll_xs (l : List ℚ) (v : Ext → Option ℚ) : (atAll l v).map Prod.fst = l := by
  simp [atAll, List.map_map, Function.comp_def]

theorem webPts_xs (ns : List Node) (k : ℕ) : (webPts I P ns k).map Prod.fst = webIn P ns k := atAll_xs _ _

theorem knots_asc (hP : ∀ b, Ascending (P b)) : ∀ (ns : List Node) (k : ℕ), (webKnots P ns k).Pairwise (· < ·)
  | [], b => List.pairwise_map.2 (hP b)
  | .layer _ j :: ns, 0 => knots_asc hP ns j
  | .join _ _ _ :: _, 0 => merged_asc _
  | .layer _ _ :: ns, k + 1 => knots_asc hP ns k
  | .join _ _ _ :: ns, k + 1 => knots_asc hP ns k

theorem in_sub : ∀ (ns : List Node) (k : ℕ), (webIn P ns k).Sublist (webKnots P ns k)
  | [], _ => .refl _
  | .layer _ j :: ns, 0 => in_sub ns j
  | .join _ _ _ :: _, 0 => List.filter_sublist
  | .layer _ _ :: ns, k + 1 => in_sub ns k
  | .join _ _ _ :: ns, k + 1 => in_sub ns k

theorem in_asc (hP : ∀ b, Ascending (P b)) (ns : List Node) (k : ℕ) : (webIn P ns k).Pairwise (· < ·) :=
  (knots_asc hP ns k).sublist (in_sub ns k)

theorem webPts_asc (hP : ∀ b, Ascending (P b)) (ns : List Node) (k : ℕ) : Ascending (webPts I P ns k) := by
  have := in_asc hP ns k
  rw [← webPts_xs (I := I)] at this
  exact List.pairwise_map.1 this

theorem in_iff : ∀ (ns : List Node) (k : ℕ) (x : ℚ), x ∈ webIn P ns k ↔ x ∈ webKnots P ns k ∧ within (webIn P ns k) x = true
  | [], _, _ => ⟨fun h => ⟨h, within_mem h⟩, And.left⟩
  | .layer _ j :: ns, 0, x => in_iff ns j x
  | .join js u tfm :: ns, 0, x => by
    refine ⟨fun h => ⟨(in_sub _ _).subset h, within_mem h⟩, fun ⟨h1, h2⟩ => List.mem_filter.2 ⟨h1, ?_⟩⟩
    obtain ⟨⟨a, ha, hax⟩, b, hb, hbx⟩ := within_iff.1 h2
    have ha' := List.all_eq_true.1 (List.mem_filter.1 ha).2
    have hb' := List.all_eq_true.1 (List.mem_filter.1 hb).2
    exact List.all_eq_true.2 fun j hj => within_between (ha' j hj) (hb' j hj) hax hbx
  | .layer _ _ :: ns, k + 1, x => in_iff ns k x
  | .join _ _ _ :: ns, k + 1, x => in_iff ns k x

/-- Among finitely many positions there is a largest. -/
theorem exists_max {α : Type} (f : α → ℚ) : ∀ {l : List α}, l ≠ [] → ∃ a ∈ l, ∀ b ∈ l, f b ≤ f a
  | [], h => absurd rfl h
  | [a], _ => ⟨a, by simp, by simp⟩
  | a :: b :: l, _ => by
    obtain ⟨c, hc, h⟩ := exists_max f (l := b :: l) (by simp)
    by_cases hac : f c ≤ f a
    · refine ⟨a, by simp, fun d hd => ?_⟩
      rcases List.mem_cons.1 hd with rfl | hd
      · exact le_rfl
      · exact (h d hd).trans hac
    · refine ⟨c, List.mem_cons_of_mem _ hc, fun d hd => ?_⟩
      rcases List.mem_cons.1 hd with rfl | hd
      · exact (not_le.1 hac).le
      · exact h d hd

/-- Sources that overlap do so between two of their positions. -/
theorem overlap {L : ℕ → List ℚ} {js : List ℕ} (hne : js ≠ []) {x : ℚ} (h : ∀ j ∈ js, within (L j) x = true) :
    ∃ a b : ℚ, (∃ j ∈ js, a ∈ L j) ∧ (∃ j ∈ js, b ∈ L j) ∧ a ≤ x ∧ x ≤ b ∧ (∀ j ∈ js, within (L j) a = true) ∧
      ∀ j ∈ js, within (L j) b = true := by
  -- the first and last position of each source
  have hlo : ∀ j ∈ js, ∃ a ∈ L j, a ≤ x ∧ ∀ c ∈ L j, a ≤ c := by
    intro j hj
    obtain ⟨⟨a, ha, hax⟩, _⟩ := within_iff.1 (h j hj)
    obtain ⟨c, hc, hmin⟩ := exists_max (fun q : ℚ => -q) (List.ne_nil_of_mem ha)
    exact ⟨c, hc, (neg_le_neg_iff.1 (hmin a ha)).trans hax, fun d hd => neg_le_neg_iff.1 (hmin d hd)⟩
  have hhi : ∀ j ∈ js, ∃ b ∈ L j, x ≤ b ∧ ∀ c ∈ L j, c ≤ b := by
    intro j hj
    obtain ⟨_, b, hb, hbx⟩ := within_iff.1 (h j hj)
    obtain ⟨c, hc, hmax⟩ := exists_max (fun q : ℚ => q) (List.ne_nil_of_mem hb)
    exact ⟨c, hc, hbx.trans (hmax b hb), hmax⟩
  choose! A hA using hlo
  choose! B hB using hhi
  obtain ⟨j, hj, hjm⟩ := exists_max A hne
  obtain ⟨k, hk, hkm⟩ := exists_max (fun j => -B j) hne
  refine ⟨A j, B k, ⟨j, hj, (hA j hj).1⟩, ⟨k, hk, (hB k hk).1⟩, (hA j hj).2.1, (hB k hk).2.1, fun l hl => ?_, fun l hl => ?_⟩
  · exact within_iff.2 ⟨⟨A l, (hA l hl).1, hjm l hl⟩, B l, (hB l hl).1, (hA j hj).2.1.trans (hB l hl).2.1⟩
  · exact within_iff.2 ⟨⟨A l, (hA l hl).1, (hA l hl).2.1.trans (hB k hk).2.1⟩, B l, (hB l hl).1, neg_le_neg_iff.1 (hkm l hl)⟩

/-- A combination is defined exactly where all its sources are. -/
theorem within_join {js : List ℕ} (hne : js ≠ []) (u : Bool) (tfm : Ext → List (Option Num) → Except Err (Option Num)) (ns : List Node)
    (x : ℚ) : within (webIn P (.join js u tfm :: ns) 0) x = true ↔ ∀ j ∈ js, within (webIn P ns j) x = true := by
  constructor
  · intro h j hj
    obtain ⟨⟨a, ha, hax⟩, b, hb, hbx⟩ := within_iff.1 h
    have ha' := List.all_eq_true.1 (List.mem_filter.1 ha).2
    have hb' := List.all_eq_true.1 (List.mem_filter.1 hb).2
    exact within_between (ha' j hj) (hb' j hj) hax hbx
  · intro h
    obtain ⟨a, b, ⟨j, hj, ha⟩, ⟨k, hk, hb⟩, hax, hbx, h1, h2⟩ := overlap hne h
    have key : ∀ j ∈ js, ∀ q ∈ webIn P ns j, (∀ l ∈ js, within (webIn P ns l) q = true) → q ∈ webIn P (.join js u tfm :: ns) 0 := by
      intro j hj q hq hall
      refine List.mem_filter.2 ⟨mem_merged.2 (List.mem_flatMap.2 ⟨j, hj, (in_sub _ _).subset hq⟩), List.all_eq_true.2 hall⟩
    exact within_iff.2 ⟨⟨a, key j hj a ha h1, hax⟩, b, key k hk b hb h2, hbx⟩

/-! ## Domains -/

theorem span_contains_within {pts : List (Pt ℚ)} (h : Ascending pts) (x : ℚ) :
    (span pts).contains (.fin x) = within (pts.map Prod.fst) x := by
  rw [Bool.eq_iff_iff, within_iff, ← getDomain_eq_span]
  constructor
  · intro hx
    obtain ⟨p, r, hp, hr, h1, h2⟩ := (getDomain_contains_fin _ _).1 hx
    exact ⟨⟨p.1, List.mem_map_of_mem (List.mem_of_getElem? hp), h1⟩, r.1, List.mem_map_of_mem (List.mem_of_getElem? hr), h2⟩
  · rintro ⟨⟨a, ha, hax⟩, b, hb, hbx⟩
    obtain ⟨p, hp, rfl⟩ := List.mem_map.1 ha
    obtain ⟨q, hq, rfl⟩ := List.mem_map.1 hb
    have hp' := getDomain_contains_mem h hp
    have hq' := getDomain_contains_mem h hq
    rw [Iv.contains_iff] at hp' hq' ⊢
    refine ⟨?_, ?_⟩
    · by_contra hc
      have := Accum.geLo_le hax (by simpa using hc)
      rw [this] at hp'; exact absurd hp'.1 (by simp)
    · rw [Iv.leHi_iff] at hq' ⊢
      rcases hq'.2 with h | ⟨h, h'⟩
      · exact .inl (lt_of_le_of_lt (by simpa using hbx) h)
      · rcases lt_or_eq_of_le hbx with hl | hl
        · exact .inl (by rw [← h]; simpa using hl)
        · exact .inr ⟨by rw [hl]; exact h, h'⟩

end Web
end Curvepy
