import Verif.Lemmas.PointsEdit2

namespace Curvepy
open Spec Pts
variable {V : Type}

theorem EquallySpaced.pairwise {pts : List (Pt V)} {d : ℚ} (hd : 0 < d)
    (h : pts.IsChain (fun p q => q.1 - p.1 = d)) : pts.Pairwise (fun p q => d ≤ q.1 - p.1) := by
  rw [List.pairwise_iff_getElem]
  intro i j hi hj hij
  have hpos : 0 < pts.length := by omega
  have h0 := List.getElem?_eq_getElem hpos
  have e1 := EquallySpaced.index h h0 (List.getElem?_eq_getElem hi)
  have e2 := EquallySpaced.index h h0 (List.getElem?_eq_getElem hj)
  rw [e1, e2]
  have : ((i : ℚ)) + 1 ≤ j := by exact_mod_cast hij
  nlinarith

theorem chain_ge_total {d : ℚ} (p : Pt V) (ps : List (Pt V))
    (h : (p :: ps).IsChain (fun p q => d ≤ q.1 - p.1)) :
    d * ps.length ≤ ((p :: ps).getLast (by simp)).1 - p.1 ∧
    (((p :: ps).getLast (by simp)).1 - p.1 = d * ps.length →
      (p :: ps).IsChain (fun p q => q.1 - p.1 = d)) := by
  induction ps generalizing p with
  | nil => simp
  | cons q qs ih =>
    rw [List.isChain_cons_cons] at h
    obtain ⟨h1, h2⟩ := ih q h.2
    have hl : (p :: q :: qs).getLast (by simp) = (q :: qs).getLast (by simp) := by simp
    rw [hl]
    constructor
    · push_cast [List.length_cons]; linarith [h.1]
    · intro he
      push_cast [List.length_cons] at he
      rw [List.isChain_cons_cons]
      exact ⟨by linarith [h.1], h2 (by linarith [h.1])⟩

theorem chain_eq_total {d : ℚ} (p : Pt V) (ps : List (Pt V))
    (h : (p :: ps).IsChain (fun p q => q.1 - p.1 = d)) :
    ((p :: ps).getLast (by simp)).1 = p.1 + d * ps.length := by
  induction ps generalizing p with
  | nil => simp
  | cons q qs ih =>
    rw [List.isChain_cons_cons] at h
    have := ih q h.2
    have hl : (p :: q :: qs).getLast (by simp) = (q :: qs).getLast (by simp) := by simp
    rw [hl, this]
    push_cast [List.length_cons]
    linarith [h.1]

theorem equallySpaced_of_length_le_two {pts : List (Pt V)} (h : pts.length ≤ 2) :
    EquallySpaced pts := by
  match pts, h with
  | [], _ => exact ⟨0, by simp⟩
  | [_], _ => exact ⟨0, by simp⟩
  | [p, q], _ => exact ⟨q.1 - p.1, by simp⟩

theorem EquallySpaced.sublist_check {s : Pts V} (ha : Ascending s.points)
    (hi : s.interval = intervalOf s.points) (he : EquallySpaced s.points) {l : List (Pt V)}
    (hl : l.Sublist s.points) (hc : s.setCheck l = true) : EquallySpaced l := by
  match l, hl, hc with
  | [], _, _ => exact ⟨0, by simp⟩
  | [_], _, _ => exact ⟨0, by simp⟩
  | p :: q :: ps, hl, hc =>
    obtain ⟨d, hd⟩ := he
    have hlen : 2 ≤ s.points.length := le_trans (by simp) hl.length_le
    have hiv := intervalOf_eq hd hlen
    have hpos : 0 < d := by
      have h0 := List.getElem?_eq_getElem (l := s.points) (i := 0) (by omega)
      have h1 := List.getElem?_eq_getElem (l := s.points) (i := 1) (by omega)
      have e := EquallySpaced.index hd h0 h1
      have := ha.lt h0 h1 (by omega)
      push_cast at e
      linarith
    have hpw := (EquallySpaced.pairwise hpos hd).sublist hl
    have hch : (p :: q :: ps).IsChain (fun p q => d ≤ q.1 - p.1) := hpw.isChain
    refine ⟨d, (chain_ge_total p (q :: ps) hch).2 ?_⟩
    simp only [setCheck, spacing, List.getLast?_nil, hi, hiv, decide_eq_true_eq] at hc
    rw [hc]; ring

/-- A batch that continues the last stored point in equal steps, and passes the check, leaves
the whole list equally spaced. -/
theorem EquallySpaced.append_check {s : Pts V} (hi : s.interval = intervalOf s.points)
    (he : EquallySpaced s.points) (hne : s.points ≠ []) {p : Pt V} {ps : List (Pt V)}
    (hps : EquallySpaced (s.points.getLast hne :: p :: ps))
    (hc : spacing s.interval s.points p ps = true) : EquallySpaced (s.points ++ p :: ps) := by
  obtain ⟨d, hd⟩ := he
  obtain ⟨e, hch⟩ := hps
  have hlast := List.getLast?_eq_some_getLast hne
  by_cases hlen : 2 ≤ s.points.length
  · have hiv := intervalOf_eq hd hlen
    simp only [spacing, hlast, hi, hiv, decide_eq_true_eq] at hc
    have htot := chain_eq_total _ _ hch
    have hl : (s.points.getLast hne :: p :: ps).getLast (by simp) = (p :: ps).getLast (by simp) := by
      simp
    rw [hl, hc] at htot
    push_cast [List.length_cons] at htot
    have hde : d = e := by
      have : (0 : ℚ) < ps.length + 1 := by positivity
      have h2 : d * ((ps.length : ℚ) + 1) = e * (ps.length + 1) := by linarith
      exact mul_right_cancel₀ this.ne' h2
    subst hde
    rw [List.isChain_cons_cons] at hch
    refine ⟨d, ?_⟩
    rw [List.isChain_append]
    refine ⟨hd, hch.2, ?_⟩
    intro x hx y hy
    rw [hlast] at hx
    simp only [Option.mem_def, Option.some.injEq, List.head?_cons] at hx hy
    rw [← hx, ← hy]; exact hch.1
  · match hp : s.points, hne with
    | [o], _ =>
      refine ⟨e, ?_⟩
      simpa [hp] using hch
    | o :: o' :: os, _ => rw [hp] at hlen; simp at hlen

/-- A single appended point that passes the check leaves the list equally spaced. -/
theorem EquallySpaced.append_one {s : Pts V} (hi : s.interval = intervalOf s.points)
    (he : EquallySpaced s.points) (hne : s.points ≠ []) {p : Pt V}
    (hc : spacing s.interval s.points p [] = true) : EquallySpaced (s.points ++ [p]) :=
  EquallySpaced.append_check hi he hne (equallySpaced_of_length_le_two (by simp)) hc

theorem EquallySpaced.of_xs {a b : List (Pt V)} (h : a.map Prod.fst = b.map Prod.fst)
    (hb : EquallySpaced b) : EquallySpaced a := by
  obtain ⟨d, hd⟩ := hb
  refine ⟨d, ?_⟩
  have h1 : (b.map Prod.fst).IsChain (fun x y : ℚ => y - x = d) := by
    rw [List.isChain_map]; exact hd
  rw [← h, List.isChain_map] at h1
  exact h1

end Curvepy
