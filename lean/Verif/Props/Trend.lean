import Verif.Spec.Trend
import Mathlib.Tactic.FieldSimp
import Mathlib.Tactic.Ring
import Mathlib.Tactic.LinearCombination

/-!
# Properties of trend lines: sorted insertion and geometry
-/

namespace Curvepy
namespace Props
open Spec Trend

/-! ## C56 -/

theorem bisectLoop_spec (a : List XY) (x : ℚ) (hs : SortedX a) :
    ∀ (lo hi : ℕ), lo ≤ hi → hi ≤ a.length → (∀ j (h : j < a.length), j < lo → (a[j]).1 < x) →
      (∀ j (h : j < a.length), hi ≤ j → x ≤ (a[j]).1) →
      ∃ i, bisectLoop a x lo hi = .ok i ∧ lo ≤ i ∧ i ≤ hi ∧ (∀ j (h : j < a.length), j < i → (a[j]).1 < x) ∧
        (∀ j (h : j < a.length), i ≤ j → x ≤ (a[j]).1) := by
  intro lo hi
  induction lo, hi using bisectLoop.induct a x with
  | case1 lo hi h hn =>
    intro _ h2
    have : (lo + hi) / 2 < a.length := by omega
    simp [List.getElem?_eq_getElem this] at hn
  | case2 lo hi h q hq hlt ih =>
    intro h1 h2 h3 h4
    have hm : (lo + hi) / 2 < a.length := by omega
    have hqe : a[(lo + hi) / 2] = q := by
      rw [List.getElem?_eq_getElem hm] at hq; exact Option.some.inj hq
    obtain ⟨i, e1, e2, e3, e4, e5⟩ := ih (by omega) h2 (by
      intro j hj hjl
      rcases Nat.lt_or_ge j ((lo + hi) / 2) with hl | hl
      · have := List.pairwise_iff_getElem.1 hs j _ hj hm hl
        rw [hqe] at this
        exact lt_of_le_of_lt this hlt
      · have : j = (lo + hi) / 2 := by omega
        subst this; rw [hqe]; exact hlt) h4
    refine ⟨i, ?_, by omega, e3, e4, e5⟩
    rw [bisectLoop, dif_pos h]; simp only [hq, if_pos hlt]; exact e1
  | case3 lo hi h q hq hlt ih =>
    intro h1 h2 h3 h4
    have hm : (lo + hi) / 2 < a.length := by omega
    have hqe : a[(lo + hi) / 2] = q := by
      rw [List.getElem?_eq_getElem hm] at hq; exact Option.some.inj hq
    obtain ⟨i, e1, e2, e3, e4, e5⟩ := ih (by omega) (by omega) h3 (by
      intro j hj hjl
      rcases Nat.lt_or_ge ((lo + hi) / 2) j with hl | hl
      · have := List.pairwise_iff_getElem.1 hs _ j hm hj hl
        rw [hqe] at this
        exact le_trans (not_lt.1 hlt) this
      · have : j = (lo + hi) / 2 := by omega
        subst this; rw [hqe]; exact not_lt.1 hlt)
    refine ⟨i, ?_, by omega, by omega, e4, e5⟩
    rw [bisectLoop, dif_pos h]; simp only [hq, if_neg hlt]; exact e1
  | case4 lo hi h =>
    intro h1 h2 h3 h4
    refine ⟨lo, ?_, le_refl _, h1, h3, ?_⟩
    · rw [bisectLoop, dif_neg h]
    · intro j hj hl; exact h4 j hj (by omega)

theorem insertIdx_take_drop {α : Type} (p : α) : ∀ (a : List α) (i : ℕ), i ≤ a.length →
    a.insertIdx i p = a.take i ++ p :: a.drop i
  | a, 0, _ => by simp
  | [], i + 1, h => by simp at h
  | q :: a, i + 1, h => by
    simp only [List.insertIdx_succ_cons, List.take_succ_cons, List.drop_succ_cons, List.cons_append]
    rw [insertIdx_take_drop p a i (by simpa using h)]

/-- One insertion: the point goes before every point that is not to its left. -/
theorem insort_spec (a : List XY) (p : XY) (nr : Bool) (hs : SortedX a) :
    ∃ b c, a = b ++ c ∧ (∀ q ∈ b, q.1 < p.1) ∧ (∀ q ∈ c, p.1 ≤ q.1) ∧
      insort a p (noRepeat := nr) =
        .ok (if nr = true ∧ (∃ q ∈ a, q.1 = p.1) then a else b ++ p :: c) := by
  obtain ⟨i, e1, -, e3, e4, e5⟩ := bisectLoop_spec a p.1 hs 0 a.length (Nat.zero_le _) (le_refl _)
    (by intro j _ h; omega) (by intro j h h'; omega)
  refine ⟨a.take i, a.drop i, (List.take_append_drop i a).symm, ?_, ?_, ?_⟩
  · intro q hq
    obtain ⟨j, hj, rfl⟩ := List.mem_iff_getElem.1 hq
    rw [List.length_take] at hj
    rw [List.getElem_take]
    exact e4 j (by omega) (by omega)
  · intro q hq
    obtain ⟨j, hj, rfl⟩ := List.mem_iff_getElem.1 hq
    rw [List.length_drop] at hj
    rw [List.getElem_drop]
    exact e5 (i + j) (by omega) (by omega)
  · have hc : (decide (i < a.length) && decide ((a[i]?.map (·.1)) = some p.1)) = true ↔ ∃ q ∈ a, q.1 = p.1 := by
      constructor
      · intro h
        simp only [Bool.and_eq_true, decide_eq_true_eq] at h
        obtain ⟨h1, h2⟩ := h
        rw [List.getElem?_eq_getElem h1] at h2
        exact ⟨a[i], List.getElem_mem h1, by simpa using h2⟩
      · rintro ⟨q, hq, hqp⟩
        obtain ⟨j, hj, rfl⟩ := List.mem_iff_getElem.1 hq
        have hij : i ≤ j := by
          by_contra h
          exact absurd (e4 j hj (by omega)) (by rw [hqp]; exact lt_irrefl _)
        have hi : i < a.length := by omega
        have h1 := e5 i hi (le_refl _)
        have h2 : (a[i]).1 ≤ (a[j]).1 := by
          rcases Nat.eq_or_lt_of_le hij with h | h
          · subst h; exact le_refl _
          · exact List.pairwise_iff_getElem.1 hs i j hi hj h
        have : (a[i]).1 = p.1 := le_antisymm (hqp ▸ h2) h1
        simp [hi, this]
    unfold insort
    rw [if_neg (by decide)]
    simp only [Int.toNat_zero, Option.getD_none, e1, bind, Except.bind, pure, Except.pure]
    rw [Bool.and_assoc]
    by_cases h : nr = true ∧ ∃ q ∈ a, q.1 = p.1
    · rw [if_pos h, if_pos (by rw [Bool.and_eq_true]; exact ⟨h.1, hc.2 h.2⟩)]
    · rw [if_neg h, if_neg (by rw [Bool.and_eq_true]; exact fun h' => h ⟨h'.1, hc.1 h'.2⟩),
        Nat.min_eq_left e3]
      congr 1
      exact insertIdx_take_drop p a i e3

/-- C56: any sequence of insertions keeps the list sorted and loses nothing. -/
theorem C56_sorted (a : List XY) (ps : List XY) (hs : SortedX a) :
    ∃ b, insortAll a ps = .ok b ∧ SortedX b ∧ b.Perm (ps ++ a) := by
  induction ps generalizing a with
  | nil => exact ⟨a, rfl, hs, List.Perm.refl _⟩
  | cons p ps ih =>
    obtain ⟨b, c, rfl, hb, hc, he⟩ := insort_spec a p false hs
    simp only [Bool.false_eq_true, false_and, if_false] at he
    have hs' : SortedX (b ++ p :: c) := by
      rw [SortedX, List.pairwise_append] at hs ⊢
      refine ⟨hs.1, List.pairwise_cons.2 ⟨hc, hs.2.1⟩, ?_⟩
      intro q hq r hr
      rcases List.mem_cons.1 hr with rfl | hr
      · exact le_of_lt (hb q hq)
      · exact hs.2.2 q hq r hr
    obtain ⟨d, h1, h2, h3⟩ := ih _ hs'
    refine ⟨d, ?_, h2, h3.trans ?_⟩
    · show ((p :: ps).foldlM _ _) = _
      rw [List.foldlM_cons, he]; exact h1
    · exact (List.Perm.append_left ps List.perm_middle).trans List.perm_middle

/-- C56: a single insertion puts the point to the left of the points at the same `x`. -/
theorem C56_leftmost (a : List XY) (p : XY) (hs : SortedX a) :
    insort a p = .ok ((a.filter fun q => decide (q.1 < p.1)) ++ p :: a.filter fun q => decide (p.1 ≤ q.1)) := by
  obtain ⟨b, c, rfl, hb, hc, he⟩ := insort_spec a p false hs
  simp only [Bool.false_eq_true, false_and, if_false] at he
  rw [he, List.filter_append, List.filter_append, List.filter_eq_self.2 (by simpa using hb),
    List.filter_eq_nil_iff.2 (by simpa using hc), List.filter_eq_nil_iff.2 (by simpa using hb),
    List.filter_eq_self.2 (by simpa using hc)]
  simp

/-- C56: with `no_repeat` each `x` occurs once, with the first point given there. -/
theorem C56_no_repeat (ps : List XY) :
    ∃ b, insortAll [] ps (noRepeat := true) = .ok b ∧ StrictX b ∧
      ∀ q, q ∈ b ↔ firstAt ps q.1 = some q := by
  suffices H : ∀ (a : List XY), StrictX a → ∃ b, insortAll a ps (noRepeat := true) = .ok b ∧ StrictX b ∧
      ∀ q, q ∈ b ↔ firstAt (a ++ ps) q.1 = some q by
    simpa using H [] List.Pairwise.nil
  induction ps with
  | nil =>
    intro a ha
    refine ⟨a, rfl, ha, ?_⟩
    intro q
    rw [List.append_nil]
    constructor
    · intro hq
      induction a with
      | nil => simp at hq
      | cons r a ih =>
        rw [StrictX, List.pairwise_cons] at ha
        rcases List.mem_cons.1 hq with rfl | hq
        · simp [firstAt]
        · have := ha.1 q hq
          rw [firstAt, List.find?_cons_of_neg (by simp [this.ne])]
          exact ih ha.2 hq
    · intro h; exact List.mem_of_find?_eq_some h
  | cons p ps ih =>
    intro a ha
    have hs : SortedX a := List.Pairwise.imp (fun h => le_of_lt h) ha
    obtain ⟨b, c, rfl, hb, hc, he⟩ := insort_spec a p true hs
    by_cases hex : ∃ q ∈ b ++ c, q.1 = p.1
    · rw [if_pos ⟨rfl, hex⟩] at he
      obtain ⟨d, h1, h2, h3⟩ := ih _ ha
      refine ⟨d, ?_, h2, ?_⟩
      · show ((p :: ps).foldlM _ _) = _
        rw [List.foldlM_cons, he]; exact h1
      · intro q
        rw [h3 q]
        obtain ⟨r, hr, hrp⟩ := hex
        have : firstAt (b ++ c ++ ps) q.1 = firstAt (b ++ c ++ p :: ps) q.1 := by
          unfold firstAt
          rw [List.find?_append (xs := b ++ c) (ys := ps), List.find?_append (xs := b ++ c) (ys := p :: ps)]
          cases hf : (b ++ c).find? fun z => decide (z.1 = q.1) with
          | some z => rfl
          | none =>
            have hne : p.1 ≠ q.1 := by
              intro hpq
              have := List.find?_eq_none.1 hf r hr
              simp [hrp, hpq] at this
            rw [List.find?_cons_of_neg (by simpa using hne)]
        rw [this]
    · rw [if_neg (fun h => hex h.2)] at he
      have hs' : StrictX (b ++ p :: c) := by
        rw [StrictX, List.pairwise_append] at ha ⊢
        refine ⟨ha.1, List.pairwise_cons.2 ⟨?_, ha.2.1⟩, ?_⟩
        · intro q hq
          exact lt_of_le_of_ne (hc q hq) fun h => hex ⟨q, List.mem_append_right _ hq, h.symm⟩
        · intro q hq r hr
          rcases List.mem_cons.1 hr with rfl | hr
          · exact hb q hq
          · exact ha.2.2 q hq r hr
      obtain ⟨d, h1, h2, h3⟩ := ih _ hs'
      refine ⟨d, ?_, h2, ?_⟩
      · show ((p :: ps).foldlM _ _) = _
        rw [List.foldlM_cons, he]; exact h1
      · intro q
        rw [h3 q]
        have hP : ∀ (l : List XY), (∀ z ∈ l, z.1 ≠ p.1) → firstAt (l ++ p :: ps) q.1 =
            if p.1 = q.1 then some p else (firstAt l q.1).or (firstAt ps q.1) := by
          intro l hl
          unfold firstAt
          rw [List.find?_append]
          by_cases hpq : p.1 = q.1
          · rw [if_pos hpq, List.find?_eq_none.2 (by intro z hz; simpa [hpq] using hl z hz),
              List.find?_cons_of_pos (by simpa using hpq)]
            rfl
          · rw [if_neg hpq, List.find?_cons_of_neg (by simpa using hpq)]
        have h4 : ∀ z ∈ b ++ c, z.1 ≠ p.1 := fun z hz h => hex ⟨z, hz, h⟩
        have e1 := hP (b ++ c) h4
        rw [e1]
        by_cases hpq : p.1 = q.1
        · rw [if_pos hpq]
          have : firstAt (b ++ p :: c ++ ps) q.1 = some p := by
            have hb' := hb
            unfold firstAt
            rw [List.append_assoc, List.find?_append, List.find?_eq_none.2 (by
              intro z hz; simpa [hpq] using (hb z hz).ne)]
            simp [hpq]
          rw [this]
        · rw [if_neg hpq]
          have : firstAt (b ++ p :: c ++ ps) q.1 = (firstAt (b ++ c) q.1).or (firstAt ps q.1) := by
            unfold firstAt
            rw [List.find?_append, List.find?_append, List.find?_cons_of_neg (by simpa using hpq),
              ← List.find?_append]
          rw [this]

/-- Six points, three places. -/
example : insortAll [] [(2, 0), (1, 1), (2, 5), (0, 3), (1, 7), (1, 8)] (noRepeat := true) =
    .ok [(0, 3), (1, 1), (2, 0)] := by decide +kernel
example : insortAll [] [(2, 0), (1, 1), (2, 5), (0, 3)] = .ok [(0, 3), (1, 1), (2, 5), (2, 0)] := by decide +kernel

/-! ## C57 -/

/-- C57: the line passes through its points. -/
theorem C57_line_y_ends (l : Chord) (h : l.1.1 ≠ l.2.1) :
    lineY l l.1.1 = some l.1.2 ∧ lineY l l.2.1 = some l.2.2 := by
  have h' : l.2.1 - l.1.1 ≠ 0 := sub_ne_zero.2 h.symm
  constructor
  · rw [lineY, if_neg h.symm]; simp
  · rw [lineY, if_neg h.symm]; simp only; congr 1; field_simp; ring

/-- C57: the values are those of the straight line through the two points; a vertical line has a value
at its own place only. -/
theorem C57_line_y (l : Chord) (x y : ℚ) :
    (l.1.1 ≠ l.2.1 → (lineY l x = some y ↔ OnLine l (x, y))) ∧
    (l.1.1 = l.2.1 → (lineY l x = some y ↔ x = l.1.1 ∧ y = l.1.2)) := by
  constructor
  · intro h
    have h' : l.2.1 - l.1.1 ≠ 0 := sub_ne_zero.2 h.symm
    rw [lineY, if_neg h.symm, OnLine]
    simp only [Option.some.injEq]
    constructor
    · rintro rfl
      field_simp
      ring
    · intro e
      field_simp
      linear_combination -e
  · intro h
    rw [lineY, if_pos h.symm]
    split_ifs with h1
    · subst h1; simp [eq_comm]
    · simp [Ne.symm h1]

/-- C57: `x` inverts `y` on a line that is neither vertical nor horizontal. -/
theorem C57_line_x (l : Chord) (x y : ℚ) (hx : l.1.1 ≠ l.2.1) (hy : l.1.2 ≠ l.2.2) :
    lineX l y = some x ↔ lineY l x = some y := by
  have h1 : l.2.1 - l.1.1 ≠ 0 := sub_ne_zero.2 hx.symm
  have h2 : l.2.2 - l.1.2 ≠ 0 := sub_ne_zero.2 hy.symm
  rw [lineX, if_neg hx.symm, lineY, if_neg hx.symm]
  simp only
  rw [if_neg (div_ne_zero h2 h1)]
  simp only [Option.some.injEq]
  constructor
  · rintro rfl; field_simp; ring
  · rintro rfl; field_simp; ring

/-- C57: on vertical and horizontal lines `x` gives a point of the line, if there is one. -/
theorem C57_line_x_level (l : Chord) (y : ℚ) :
    (l.1.1 = l.2.1 → lineX l y = some l.1.1) ∧
    (l.1.1 ≠ l.2.1 → l.1.2 = l.2.2 → lineX l y = if l.1.2 = y then some l.1.1 else none) := by
  constructor
  · intro h; rw [lineX, if_pos h.symm]
  · intro h h'
    rw [lineX, if_neg h.symm]
    simp only
    rw [if_pos (by rw [h', sub_self, zero_div])]

/-- C57: two lines intersect in the only point on both, unless they are parallel. -/
theorem C57_intersection (l k : Chord) :
    (Parallel l k → lineIntersection l k = none) ∧
    (¬ Parallel l k → ∃ p, lineIntersection l k = some p ∧ OnLine l p ∧ OnLine k p ∧
      ∀ q, OnLine l q → OnLine k q → q = p) := by
  have hdiv : det (l.1.1 - l.2.1, k.1.1 - k.2.1) (l.1.2 - l.2.2, k.1.2 - k.2.2) = 0 ↔ Parallel l k := by
    unfold det Parallel
    simp only
    constructor <;> intro h <;> linear_combination h
  constructor
  · intro h
    rw [lineIntersection]
    simp only
    rw [if_pos (hdiv.2 h)]
  · intro h
    have hd : det (l.1.1 - l.2.1, k.1.1 - k.2.1) (l.1.2 - l.2.2, k.1.2 - k.2.2) ≠ 0 := fun e => h (hdiv.1 e)
    rw [lineIntersection]
    simp only
    rw [if_neg hd]
    refine ⟨_, rfl, ?_, ?_, ?_⟩
    · unfold OnLine
      simp only
      have hX := div_mul_cancel₀ (det (det l.1 l.2, det k.1 k.2) (l.1.1 - l.2.1, k.1.1 - k.2.1)) hd
      have hY := div_mul_cancel₀ (det (det l.1 l.2, det k.1 k.2) (l.1.2 - l.2.2, k.1.2 - k.2.2)) hd
      generalize det (det l.1 l.2, det k.1 k.2) (l.1.1 - l.2.1, k.1.1 - k.2.1) / _ = X at hX ⊢
      generalize det (det l.1 l.2, det k.1 k.2) (l.1.2 - l.2.2, k.1.2 - k.2.2) / _ = Y at hY ⊢
      apply mul_right_cancel₀ hd
      unfold det at hX hY ⊢
      simp only at hX hY ⊢
      linear_combination (l.2.1 - l.1.1) * hY - (l.2.2 - l.1.2) * hX
    · unfold OnLine
      simp only
      have hX := div_mul_cancel₀ (det (det l.1 l.2, det k.1 k.2) (l.1.1 - l.2.1, k.1.1 - k.2.1)) hd
      have hY := div_mul_cancel₀ (det (det l.1 l.2, det k.1 k.2) (l.1.2 - l.2.2, k.1.2 - k.2.2)) hd
      generalize det (det l.1 l.2, det k.1 k.2) (l.1.1 - l.2.1, k.1.1 - k.2.1) / _ = X at hX ⊢
      generalize det (det l.1 l.2, det k.1 k.2) (l.1.2 - l.2.2, k.1.2 - k.2.2) / _ = Y at hY ⊢
      apply mul_right_cancel₀ hd
      unfold det at hX hY ⊢
      simp only at hX hY ⊢
      linear_combination (k.2.1 - k.1.1) * hY - (k.2.2 - k.1.2) * hX
    · rintro ⟨x, y⟩ h1 h2
      unfold det at hd ⊢
      simp only at hd ⊢
      unfold OnLine at h1 h2
      simp only at h1 h2
      refine Prod.ext ?_ ?_
      · simp only
        rw [eq_div_iff hd]
        linear_combination (l.1.1 - l.2.1) * h2 - (k.1.1 - k.2.1) * h1
      · simp only
        rw [eq_div_iff hd]
        linear_combination (l.1.2 - l.2.2) * h2 - (k.1.2 - k.2.2) * h1

example : lineIntersection ((0, 0), (2, 2)) ((0, 3), (3, 0)) = some (3 / 2, 3 / 2) := by decide +kernel
example : lineIntersection ((0, 0), (2, 2)) ((0, 3), (4, 7)) = none := by decide +kernel
example : lineY ((1, 2), (3, 8)) 2 = some 5 ∧ lineX ((1, 2), (3, 8)) 5 = some 2 := by decide +kernel

end Props
end Curvepy
