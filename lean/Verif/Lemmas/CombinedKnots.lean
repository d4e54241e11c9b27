import Verif.Lemmas.CombinedIntegral
import Verif.Lemmas.CurveScanSteps
import Verif.Lemmas.Web
import Verif.Lemmas.Combine
import Verif.Props.Arith

/-!
# The knots of a combination of lists of points
-/

namespace Curvepy
namespace CScan
open Spec Pts Web

variable {m : ℚ} {ls : List (List ℚ)}

theorem mem_commonXs {x : ℚ} : x ∈ commonXs ls ↔ (∃ l ∈ ls, x ∈ l) ∧ ∀ l ∈ ls, within l x = true := by
  simp [commonXs, mem_merged, List.mem_flatten]

theorem commonXs_asc (ls : List (List ℚ)) : (commonXs ls).Pairwise (· < ·) := (merged_asc _).filter _

theorem within_commonXs (hne : ls ≠ []) (x : ℚ) : within (commonXs ls) x = true ↔ ∀ l ∈ ls, within l x = true := by
  constructor
  · intro h l hl
    obtain ⟨⟨a, ha, hax⟩, b, hb, hbx⟩ := within_iff.1 h
    exact within_between ((mem_commonXs.1 ha).2 l hl) ((mem_commonXs.1 hb).2 l hl) hax hbx
  · intro h
    have hget : ∀ j ∈ List.range ls.length, ls.getD j [] ∈ ls := by
      intro j hj
      have hj := List.mem_range.1 hj
      rw [show ls.getD j [] = ls[j] by simp [List.getD_eq_getElem?_getD, hj]]
      exact List.getElem_mem hj
    have hall : ∀ l ∈ ls, ∃ j ∈ List.range ls.length, ls.getD j [] = l := by
      intro l hl
      obtain ⟨j, hj, rfl⟩ := List.getElem_of_mem hl
      exact ⟨j, List.mem_range.2 hj, (by simp [List.getD_eq_getElem?_getD, hj])⟩
    obtain ⟨a, b, ⟨j, hj, ha⟩, ⟨k, hk, hb⟩, hax, hbx, h1, h2⟩ := overlap (L := fun j => ls.getD j []) (js := List.range ls.length)
      (by intro h0; exact hne (List.length_eq_zero_iff.1 (List.range_eq_nil.1 h0))) (x := x) (fun j hj => h _ (hget j hj))
    have hin : ∀ z, (∀ j ∈ List.range ls.length, within (ls.getD j []) z = true) → ∀ l ∈ ls, within l z = true := by
      intro z hz l hl
      obtain ⟨j, hj, rfl⟩ := hall l hl
      exact hz j hj
    exact within_iff.2 ⟨⟨a, mem_commonXs.2 ⟨⟨_, hget j hj, ha⟩, hin a h1⟩, hax⟩, b,
      mem_commonXs.2 ⟨⟨_, hget k hk, hb⟩, hin b h2⟩, hbx⟩

/-- A combination of lists of points has as knots the positions of all of them, where all are defined. -/
theorem stepped_combined {ss : List (Pts ℚ)} (hs : ∀ s ∈ ss, Honest s) (hss : ss ≠ []) (hm : 0 < m) {out : List (Pt ℚ)}
    (hne : out ≠ []) (hx : out.map Prod.fst = commonXs (ss.map fun s => s.points.map Prod.fst)) (hg : Gapped m out)
    {tfm : Ext → List (Option Num) → Except Err (Option Num)}
    (hv : ∀ p ∈ out, tfm (.fin p.1) (ss.map fun s => (valueAt s.interp s.points p.1).map .fin) = .ok (p.2.map .fin)) :
    Stepped (fun _ => True) m (Crv.aggregate (ss.map Crv.ofPoints) tfm) out := by
  have hasc : Ascending out := ascending_of_gapped hm hg
  have hls : (ss.map fun s => s.points.map Prod.fst) ≠ [] := by simpa using hss
  have hsd : ∀ s ∈ ss, s.domVal = span s.points := fun s h => by rw [(hs s h).wf.domVal, getDomain_eq_span]
  have hdom : (Crv.aggregate (ss.map Crv.ofPoints) tfm).dom = span out := by
    refine Closed.ext ?_ (Closed.span hasc) fun x => ?_
    · show Closed (Iv.interAll ((ss.map Crv.ofPoints).map (·.dom)))
      refine Closed.interAll (by simpa using hss) ?_
      intro d hd
      simp only [List.mem_map, exists_exists_and_eq_and] at hd
      obtain ⟨s, h, rfl⟩ := hd
      show Closed s.domVal
      rw [hsd s h]
      exact Closed.span (hs s h).wf.asc
    · show (Iv.interAll ((ss.map Crv.ofPoints).map (·.dom))).contains (.fin x) = _
      rw [Bool.eq_iff_iff, span_contains_within hasc, hx, within_commonXs hls, Iv.contains_interAll]
      simp only [List.all_eq_true, List.mem_map, exists_exists_and_eq_and, forall_exists_index, and_imp,
        forall_apply_eq_imp_iff₂]
      refine forall_congr' fun s => forall_congr' fun h => ?_
      show s.domVal.contains _ = true ↔ _
      rw [hsd s h, span_contains_within (hs s h).wf.asc]
  have hknot : ∀ z : ℚ, z ∈ out.map Prod.fst ↔ (∃ s ∈ ss, ∃ r ∈ s.points, r.1 = z) ∧
      ∀ s ∈ ss, within (s.points.map Prod.fst) z = true := by
    intro z
    rw [hx, mem_commonXs]
    simp [List.mem_map]
  refine ⟨hne, fun x => by rw [hdom], by rw [hdom], ?_, ?_⟩
  · intro p hp
    have hc : (span out).contains (.fin p.1) = true := by rw [← getDomain_eq_span]; exact getDomain_contains_mem hasc hp
    have hc' : (Iv.interAll ((ss.map Crv.ofPoints).map (·.dom))).contains (.fin p.1) = true := by rw [← hdom] at hc; exact hc
    have hvals : (ss.map Crv.ofPoints).mapM (fun f => f.y (.fin p.1)) =
        .ok (ss.map fun s => (valueAt s.interp s.points p.1).map .fin) := by
      rw [mapM_ok, List.map_map, List.map_map]
      refine List.map_congr_left fun s h => ?_
      show (s.y (.fin p.1)).map _ = _
      rw [y_eq (hs s h).wf]
      rfl
    simp only [Crv.aggregate, Bool.false_eq_true, if_false, hc', Bool.not_true, hvals]
    exact hv p hp
  · intro pre p q rest e x _ _
    have hpq : p.1 + m ≤ q.1 := by
      rw [e] at hg
      exact (List.isChain_cons_cons.1 (List.IsChain.right_of_append hg)).1
    have hpo : p.1 ∈ out.map Prod.fst := List.mem_map_of_mem (by rw [e]; simp)
    have hqo : q.1 ∈ out.map Prod.fst := List.mem_map_of_mem (by rw [e]; simp)
    have hnb : ∀ z ∈ out.map Prod.fst, p.1 < z → q.1 ≤ z := by
      intro z hz hpz
      obtain ⟨r, hr, rfl⟩ := List.mem_map.1 hz
      rw [e] at hr hasc
      have hasc2 := List.pairwise_append.1 hasc
      rcases List.mem_append.1 hr with hr | hr
      · have := hasc2.2.2 r hr p (by simp); linarith
      · rcases List.mem_cons.1 hr with rfl | hr
        · linarith
        · rcases List.mem_cons.1 hr with rfl | hr
          · exact le_refl _
          · exact ((List.pairwise_cons.1 (List.pairwise_cons.1 hasc2.2.1).2).1 r hr).le
    have hpart : ∀ s ∈ ss, ∃ z : Option ℚ, s.xNext (.fin p.1) (some m) = .ok (z.map .fin) ∧
        (∀ w, z = some w → (∃ r ∈ s.points, r.1 = w) ∧ p.1 + m ≤ w) ∧
        ∀ r ∈ s.points, p.1 + m ≤ r.1 → ∃ w, z = some w ∧ w ≤ r.1 := by
      intro s h
      rcases Props.C06_x_next (hs s h) p.1 m with ⟨z, hz, ⟨r, hr, hrz, hle⟩, hleast⟩ | ⟨h1, h2⟩
      · refine ⟨some z, hz, fun w hw => ?_, fun r' hr' hle' => ⟨z, rfl, hleast ⟨r', hr', rfl, hle'⟩⟩⟩
        cases hw
        exact ⟨⟨r, hr, hrz⟩, hle⟩
      · refine ⟨none, h1, fun w hw => (by cases hw), fun r hr hle => absurd (h2 r hr) (not_lt.2 hle)⟩
    choose! Z hZ using hpart
    have hlist : (ss.map Crv.ofPoints).map (fun f => f.xNext (.fin p.1) (some (.fin m)) (some (.fin x))) =
        (ss.map fun s => (Z s).map Ext.fin).map .ok := by
      rw [List.map_map, List.map_map]
      exact List.map_congr_left fun s h => (hZ s h).1
    obtain ⟨r, hr, hcase⟩ := Props.C29_next (ss.map Crv.ofPoints) tfm false none (.fin p.1) (some (.fin m)) (some (.fin x)) _ hlist
    rw [hr]
    -- one of the lists has the next knot
    obtain ⟨⟨s, h, rq, hrq, hrqx⟩, hwq⟩ := (hknot q.1).1 hqo
    obtain ⟨w, hw, hwq'⟩ := (hZ s h).2.2 rq hrq (by rw [hrqx]; exact hpq)
    have hin : some (Ext.fin w) ∈ ss.map fun s => (Z s).map Ext.fin := List.mem_map.2 ⟨s, h, by rw [hw]; rfl⟩
    have hgood : ∀ z : ℚ, some (Ext.fin z) ∈ (ss.map fun s => (Z s).map Ext.fin) → z ≤ q.1 → z = q.1 := by
      intro z hz hzq
      obtain ⟨s', h', e'⟩ := List.mem_map.1 hz
      have hz' : Z s' = some z := by
        cases hzz : Z s' with
        | none => rw [hzz] at e'; cases e'
        | some z' => rw [hzz] at e'; cases e'; rfl
      obtain ⟨⟨r', hr', hrx'⟩, hle'⟩ := (hZ s' h').2.1 z hz'
      refine le_antisymm hzq (hnb z ((hknot z).2 ⟨⟨s', h', r', hr', hrx'⟩, fun t ht => ?_⟩) (by linarith))
      exact within_between (((hknot p.1).1 hpo).2 t ht) (hwq t ht) (by linarith) hzq
    have hweq : w = q.1 := hgood w hin (by rw [← hrqx]; exact hwq')
    rcases hcase with ⟨_, hno⟩ | ⟨i, rfl, hi, hpi, hmin⟩
    · exact absurd (show Ext.fin p.1 < .fin w by rw [Ext.fin_lt_fin, hweq]; linarith) (hno _ hin)
    · obtain ⟨s', h', e'⟩ := List.mem_map.1 hi
      cases hz : Z s' with
      | none => rw [hz] at e'; cases e'
      | some z =>
        rw [hz] at e'
        cases e'
        have hle : Ext.fin z ≤ .fin w := hmin _ hin (by rw [Ext.fin_lt_fin, hweq]; linarith)
        rw [Ext.fin_le_fin, hweq] at hle
        rw [hgood z hi hle]

end CScan
end Curvepy
