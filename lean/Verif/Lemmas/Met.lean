import Verif.Lemmas.Scan
import Verif.Spec.CurveScan

/-!
# Points met in steps of some length
-/

namespace Curvepy
open Spec Pts

theorem metFrom_sublist (m : ℚ) : ∀ (a : ℚ) (ps : List (Pt ℚ)), (metFrom m a ps).Sublist ps
  | _, [] => .slnil
  | a, p :: ps => by
    unfold metFrom
    split_ifs
    · exact (metFrom_sublist m p.1 ps).cons_cons p
    · exact (metFrom_sublist m a ps).cons p

theorem metFrom_chain (m : ℚ) : ∀ (a : Pt ℚ) (ps : List (Pt ℚ)), Gapped m (a :: metFrom m a.1 ps)
  | _, [] => List.isChain_singleton _
  | a, p :: ps => by
    unfold metFrom
    split_ifs with h
    · exact List.isChain_cons_cons.2 ⟨h, metFrom_chain m p ps⟩
    · exact metFrom_chain m a ps

theorem metFrom_head (m : ℚ) : ∀ (a : ℚ) (ps : List (Pt ℚ)), (metFrom m a ps).head?.map Prod.fst = firstFrom ps (a + m)
  | _, [] => rfl
  | a, p :: ps => by
    unfold metFrom firstFrom
    split_ifs with h
    · rw [List.find?_cons_of_pos (by simpa using h)]; rfl
    · rw [List.find?_cons_of_neg (by simpa using h)]; exact metFrom_head m a ps

theorem metFrom_split (m : ℚ) : ∀ (a : ℚ) (ps pre : List (Pt ℚ)) (p : Pt ℚ) (rest : List (Pt ℚ)),
    metFrom m a ps = pre ++ p :: rest → ∃ before after, ps = before ++ p :: after ∧ rest = metFrom m p.1 after
  | _, [], pre, _, _, h => by cases pre <;> cases h
  | a, q :: qs, pre, p, rest, h => by
    unfold metFrom at h
    split_ifs at h with hq
    · cases pre with
      | nil =>
        cases h
        exact ⟨[], qs, rfl, rfl⟩
      | cons r pre =>
        simp only [List.cons_append, List.cons.injEq] at h
        obtain ⟨b, c, h1, h2⟩ := metFrom_split m q.1 qs pre p rest h.2
        exact ⟨q :: b, c, by rw [h1]; rfl, h2⟩
    · obtain ⟨b, c, h1, h2⟩ := metFrom_split m a qs pre p rest h
      exact ⟨q :: b, c, by rw [h1]; rfl, h2⟩

theorem met_split (m : ℚ) {ps pre : List (Pt ℚ)} {p : Pt ℚ} {rest : List (Pt ℚ)} (h : met m ps = pre ++ p :: rest) :
    ∃ before after, ps = before ++ p :: after ∧ rest = metFrom m p.1 after := by
  cases ps with
  | nil => cases pre <;> cases h
  | cons q qs =>
    unfold met at h
    cases pre with
    | nil => cases h; exact ⟨[], qs, rfl, rfl⟩
    | cons r pre =>
      simp only [List.cons_append, List.cons.injEq] at h
      obtain ⟨b, c, h1, h2⟩ := metFrom_split m q.1 qs pre p rest h.2
      exact ⟨q :: b, c, by rw [h1]; rfl, h2⟩

theorem metFrom_near {m : ℚ} (hm : 0 < m) : ∀ (a : Pt ℚ) (ps : List (Pt ℚ)), Ascending (a :: ps) → ∀ p ∈ ps,
    ∃ q ∈ a :: metFrom m a.1 ps, q.1 ≤ p.1 ∧ p.1 < q.1 + m
  | a, q :: qs, hasc, p, hp => by
    have h1 := (List.pairwise_cons.1 hasc).1
    have h2 := (List.pairwise_cons.1 hasc).2
    unfold metFrom
    split_ifs with h
    · rcases List.mem_cons.1 hp with rfl | hp
      · exact ⟨p, by simp, le_refl _, by linarith⟩
      · obtain ⟨r, hr, h3⟩ := metFrom_near hm q qs h2 p hp
        exact ⟨r, List.mem_cons_of_mem _ hr, h3⟩
    · rcases List.mem_cons.1 hp with rfl | hp
      · exact ⟨a, by simp, (h1 p (by simp)).le, not_le.1 h⟩
      · exact metFrom_near hm a qs (List.pairwise_cons.2 ⟨fun r hr => h1 r (List.mem_cons_of_mem _ hr),
          (List.pairwise_cons.1 h2).2⟩) p hp

theorem metFrom_all {m : ℚ} : ∀ (a : Pt ℚ) (ps : List (Pt ℚ)), Gapped m (a :: ps) → metFrom m a.1 ps = ps
  | _, [], _ => rfl
  | a, p :: ps, h => by
    obtain ⟨h1, h2⟩ := List.isChain_cons_cons.1 h
    unfold metFrom
    rw [if_pos h1, metFrom_all p ps h2]

theorem met_spec {m : ℚ} (hm : 0 < m) {pts : List (Pt ℚ)} (hasc : Ascending pts) :
    (met m pts).Sublist pts ∧ (met m pts).head? = pts.head? ∧ Gapped m (met m pts) ∧
    ∀ p ∈ pts, ∃ q ∈ met m pts, q.1 ≤ p.1 ∧ p.1 < q.1 + m := by
  cases pts with
  | nil => exact ⟨.slnil, rfl, .nil, by simp⟩
  | cons a ps =>
    refine ⟨(metFrom_sublist m a.1 ps).cons_cons a, rfl, metFrom_chain m a ps, ?_⟩
    intro p hp
    rcases List.mem_cons.1 hp with rfl | hp
    · exact ⟨p, by simp [met], le_refl _, by linarith⟩
    · exact metFrom_near hm a ps hasc p hp

theorem xNext_after {m : ℚ} {s : Pts ℚ} (hs : Honest s) (hm : 0 < m) {pre rest : List (Pt ℚ)} {p : Pt ℚ}
    (h : met m s.points = pre ++ p :: rest) : s.xNext (.fin p.1) (some m) = .ok (rest.head?.map fun q => .fin q.1) := by
  obtain ⟨b, c, h1, rfl⟩ := met_split m h
  have hms : resolveMinStep s.minStep (some m) = some m := by rw [Props.Honest.minStep hs]; rfl
  rw [xNext_fin hs.wf hms]
  have hf : firstFrom s.points (p.1 + m) = firstFrom c (p.1 + m) := by
    have hasc := hs.wf.asc
    rw [h1] at hasc ⊢
    unfold firstFrom
    rw [List.find?_append]
    have : List.find? (fun q => decide (p.1 + m ≤ q.1)) b = none := by
      rw [List.find?_eq_none]
      intro q hq
      have := (List.pairwise_append.1 hasc).2.2 q hq p (by simp)
      simp only [decide_eq_true_eq, not_le]
      linarith
    rw [this, Option.none_or, List.find?_cons_of_neg (by simpa using hm)]
  rw [hf, ← metFrom_head, Option.map_map]
  rfl

theorem met_sublist (m : ℚ) (pts : List (Pt ℚ)) : (met m pts).Sublist pts := by
  cases pts with
  | nil => exact .slnil
  | cons a ps => exact (metFrom_sublist m a.1 ps).cons_cons a

theorem met_gapped (m : ℚ) (pts : List (Pt ℚ)) : Gapped m (met m pts) := by
  cases pts with
  | nil => exact .nil
  | cons a ps => exact metFrom_chain m a ps

theorem met_all {m : ℚ} {pts : List (Pt ℚ)} (h : Gapped m pts) : met m pts = pts := by
  cases pts with
  | nil => rfl
  | cons a ps => show a :: metFrom m a.1 ps = _; rw [metFrom_all a ps h]

theorem met_ne_nil {m : ℚ} {pts : List (Pt ℚ)} (h : pts ≠ []) : met m pts ≠ [] := by
  cases pts with
  | nil => exact absurd rfl h
  | cons a ps => simp [met]

theorem met_head (m : ℚ) (pts : List (Pt ℚ)) : (met m pts).head? = pts.head? := by
  cases pts <;> rfl

theorem metFrom_append (m : ℚ) : ∀ (a : ℚ) (l r : List (Pt ℚ)), ∃ b, metFrom m a (l ++ r) = metFrom m a l ++ metFrom m b r
  | a, [], r => ⟨a, rfl⟩
  | a, p :: l, r => by
    simp only [List.cons_append, metFrom]
    split_ifs
    · obtain ⟨b, hb⟩ := metFrom_append m p.1 l r
      exact ⟨b, by rw [hb]; rfl⟩
    · exact metFrom_append m a l r

/-- What is met in the beginning of a list does not depend on the rest of it. -/
theorem met_append (m : ℚ) (l r : List (Pt ℚ)) : ∃ more, met m (l ++ r) = met m l ++ more ∧ more.Sublist r := by
  cases l with
  | nil => exact ⟨met m r, rfl, met_sublist m r⟩
  | cons a l =>
    obtain ⟨b, hb⟩ := metFrom_append m a.1 l r
    exact ⟨metFrom m b r, by show a :: metFrom m a.1 (l ++ r) = _; rw [hb]; rfl, metFrom_sublist m b r⟩

end Curvepy
