import Verif.Props.Rsi
import Verif.Lemmas.Met

/-!
# Property C139: accumulators over points that are closer than their step
-/

namespace Curvepy
namespace Props
open Spec Pts CScan

/-! ## C139 -/

variable {m : ℚ} {s : Pts ℚ}

/-- C139: the points met are some of the points, in their order, beginning with the first, at least a step apart; a
point that is not met lies less than a step after one that is. -/
theorem C139_met (hm : 0 < m) {pts : List (Pt ℚ)} (hasc : Ascending pts) :
    (met m pts).Sublist pts ∧ (met m pts).head? = pts.head? ∧ Gapped m (met m pts) ∧
    ∀ p ∈ pts, ∃ q ∈ met m pts, q.1 ≤ p.1 ∧ p.1 < q.1 + m := met_spec hm hasc

/-- C139: all points are met exactly if they are all at least a step apart. -/
theorem C139_all {pts : List (Pt ℚ)} : met m pts = pts ↔ Gapped m pts := by
  cases pts with
  | nil => exact ⟨fun _ => .nil, fun _ => rfl⟩
  | cons a ps =>
    refine ⟨fun h => ?_, fun h => by show a :: metFrom m a.1 ps = _; rw [metFrom_all a ps h]⟩
    rw [← h]; exact metFrom_chain m a ps

example : met (1 / 2) [(0, some 0), (1/4, some 1), (1/2, some 2), (3/4, some 3), (2, none)] =
    [(0, some 0), (1/2, some 2), (2, none)] := by decide +kernel

/-- C139: whoever steps along a list of points meets these points. -/
theorem C139_shown (hs : Honest s) (hne : s.points ≠ []) (hm : 0 < m) :
    Shown (fun _ => True) m (Crv.ofPoints s) (met m s.points) := by
  have hsub := (C139_met hm hs.wf.asc).1
  have hdom : (Crv.ofPoints s).dom = span s.points := by
    show s.domVal = _
    rw [hs.wf.domVal, getDomain_eq_span]
  refine ⟨?_, ?_, ?_, ?_, ?_, ?_⟩
  · cases h : s.points with
    | nil => exact absurd h hne
    | cons a ps => simp [met]
  · intro p hp
    rw [hdom, ← getDomain_eq_span]
    exact getDomain_contains_mem hs.wf.asc (hsub.subset hp)
  · rw [hdom]
    cases h : s.points with
    | nil => exact absurd h hne
    | cons a ps => rw [span_lo (p := a) rfl, span_lo (p := a) rfl]
  · intro p hp
    show (s.y (.fin p.1)).map _ = _
    rw [Props.C01_stored_value hs (hsub.subset hp)]; rfl
  · intro pre p q rest h x _ _
    exact xNext_after hs hm h
  · intro pre p h x _ _ _
    exact xNext_after hs hm (rest := []) h

/-- C139: an accumulator answers with the fold over the points met, whatever was asked before. -/
theorem C139_fold_partial {t : PTfm} {i : Interp} {u : Bool} {A : CScan} (hs : Honest s) (hne : s.points ≠ []) (hm : 0 < m)
    (hf : NoFluke (met m s.points)) (hu : u = true → EquallySpaced (met m s.points))
    (h : Asked (fun _ => True) (Crv.ofPoints s) t m i u A) (x : ℚ) {n : ℕ} (hn : s.points.length < n) :
    (A.query (Crv.ofPoints s) t n (.fin x)).map (fun r => r.map Prod.snd) =
      some (accumulatedIn (span s.points) (plainRule t) i (met m s.points) x) := by
  have hdom : (Crv.ofPoints s).dom = span s.points := by
    show s.domVal = _
    rw [hs.wf.domVal, getDomain_eq_span]
  obtain ⟨hsub, _, hg, _⟩ := C139_met hm hs.wf.asc
  have hsh := C139_shown hs hne hm
  obtain ⟨seen, todo, he, hA⟩ := Sane.asked hm hsh ⟨hg, hf, hu⟩ h
  have hn' : (seen ++ todo).length < n := by rw [he]; exact lt_of_le_of_lt hsub.length_le hn
  rw [← he] at hsh ⊢
  rw [← hdom]
  rcases hA.query hm hsh (x := x) trivial hn' with ⟨e, h1, h2⟩ | ⟨B, v, _, _, h1, h2, _⟩
  · rw [h1, h2]; rfl
  · rw [h1, h2]; rfl

/-- C139: up to the last point met, that is the curve through the results. -/
theorem C139_within {t : PTfm} {i : Interp} (hm : 0 < m) {pts : List (Pt ℚ)} (hasc : Ascending pts) {x : ℚ}
    (hx : (span (met m pts)).contains (.fin x) = true) :
    accumulatedIn (span pts) (plainRule t) i (met m pts) x = accumulatedAt (plainRule t) i (met m pts) (.fin x) := by
  have hd : (span pts).contains (.fin x) = true := by
    have hsub := (C139_met hm hasc).1
    rw [← getDomain_eq_span] at hx
    obtain ⟨p, q, hp, hq, h1, h2⟩ := (getDomain_contains_fin _ _).1 hx
    rw [← getDomain_eq_span]
    have e1 := getDomain_contains_mem hasc (hsub.subset (List.mem_of_getElem? hp))
    have e2 := getDomain_contains_mem hasc (hsub.subset (List.mem_of_getElem? hq))
    obtain ⟨a, _, ha, _, h3, _⟩ := (getDomain_contains_fin _ _).1 e1
    obtain ⟨a', b, ha', hb, _, h4⟩ := (getDomain_contains_fin _ _).1 e2
    exact (getDomain_contains_fin _ _).2 ⟨a, b, ha, hb, h3.trans h1, h2.trans h4⟩
  simp only [accumulatedIn, accumulatedAt, hd, hx, if_true]
  rfl

/-- C139: after the last point met there is no value, though the source has one. -/
theorem C139_after {g : Rule} {i : Interp} {pts out : List (Pt ℚ)} {x : ℚ}
    (hx : ∀ p ∈ met m pts, p.1 < x) (hr : runRule g [] [] (met m pts) = (out, none)) :
    accumulatedIn (span pts) g i (met m pts) x = .ok none := by
  have hup : ∀ l : List (Pt ℚ), (∀ p ∈ l, p.1 < x) → upTo x l = l := by
    intro l
    induction l with
    | nil => intro _; rfl
    | cons p ps ih =>
      intro h
      unfold upTo
      rw [if_pos (h p (by simp)), ih fun q hq => h q (by simp [hq])]
  unfold accumulatedIn
  split_ifs
  · rw [hup _ hx, hr]
    have hxs : out.map Prod.fst = (met m pts).map Prod.fst := by simpa using runRule_xs hr
    have hlt : ∀ p ∈ out, p.1 < x := by
      intro p hp
      have : p.1 ∈ out.map Prod.fst := List.mem_map_of_mem hp
      rw [hxs] at this
      obtain ⟨q, hq, hqp⟩ := List.mem_map.1 this
      rw [← hqp]; exact hx q hq
    have hv : ∀ l : List (Pt ℚ), (∀ p ∈ l, p.1 < x) → valueAt i l x = none := by
      intro l
      induction l with
      | nil => intro _; rfl
      | cons p ps ih =>
        intro h
        have h0 := h p (by simp)
        cases ps with
        | nil => simp [valueAt, h0.ne']
        | cons q qs =>
          have h1 := h q (by simp)
          simp only [valueAt, if_neg (not_lt.2 h0.le), if_neg h0.ne', if_neg (not_lt.2 h1.le)]
          exact ih fun r hr => h r (by simp [hr])
    simp only [hv _ hlt]
  · rfl

/-- C139: what lies between the points met does not matter. -/
theorem C139_ignored {t : PTfm} {i : Interp} {u : Bool} {A B : CScan} {s' : Pts ℚ} (hs : Honest s) (hs' : Honest s')
    (hne : s.points ≠ []) (hne' : s'.points ≠ []) (hm : 0 < m)
    (hf : NoFluke (met m s.points)) (hu : u = true → EquallySpaced (met m s.points))
    (he : met m s'.points = met m s.points) (hd : span s'.points = span s.points)
    (h : Asked (fun _ => True) (Crv.ofPoints s) t m i u A) (h' : Asked (fun _ => True) (Crv.ofPoints s') t m i u B) (x : ℚ)
    {n : ℕ} (hn : s.points.length < n) (hn' : s'.points.length < n) :
    (A.query (Crv.ofPoints s) t n (.fin x)).map (fun r => r.map Prod.snd) =
      (B.query (Crv.ofPoints s') t n (.fin x)).map (fun r => r.map Prod.snd) := by
  rw [C139_fold_partial hs hne hm hf hu h x hn,
    C139_fold_partial hs' hne' hm (by rw [he]; exact hf) (by rw [he]; exact hu) h' x hn', he, hd]

/-- C139: a moving average, at a point met, is that of the points met up to it. -/
theorem C139_ema_partial {a : ℚ} {i : Interp} {u : Bool} {A : CScan} (hs : Honest s) (hm : 0 < m)
    (hf : NoFluke (met m s.points)) (hu : u = true → EquallySpaced (met m s.points))
    (h : Asked (fun _ => True) (Crv.ofPoints s) (emaBy a) m i u A) {k : ℕ} {p : Pt ℚ} (hk : (met m s.points)[k]? = some p)
    {vs : List ℚ} (hv : ((met m s.points).take (k + 1)).map Prod.snd = vs.map some) {n : ℕ} (hn : s.points.length < n) :
    (A.query (Crv.ofPoints s) (emaBy a) n (.fin p.1)).map (fun r => r.map Prod.snd) = some (.ok (some (decayed a vs))) := by
  have hne : s.points ≠ [] := by
    intro h0; rw [h0] at hk; cases hk
  have hg := (C139_met hm hs.wf.asc).2.2.1
  have hmasc := ascending_of_gapped hm hg
  rw [C139_fold_partial hs hne hm hf hu h p.1 hn, C139_within hm hs.wf.asc (by
    rw [← getDomain_eq_span]; exact getDomain_contains_mem hmasc (List.mem_of_getElem? hk))]
  obtain ⟨out, h1, h2⟩ := Rsi.runRule_ema a _ _ hv (by
    intro h0
    have h3 : ((met m s.points).take (k + 1))[k]? = some p := by rw [List.getElem?_take]; simp [hk]
    rw [h0] at h3; cases h3)
  rw [Accum.accumulatedAt_knot i hmasc hk h1, h2]

/-! ### Concrete cases -/

/-- A pair of points closer than a step, in the middle and at the end. -/
def crowdPts : List (Pt ℚ) := [(0, some 0), (1/1000000, some 10), (1, some 4), (2, some 8), (2000001/1000000, some 100)]

theorem crowd_honest : Honest (loose crowdPts) :=
  loose_irregular (by norm_num [Ascending, crowdPts]) (by decide +kernel) (by decide +kernel)

theorem crowd_met : met (1 / 100000) (loose crowdPts).points = [(0, some 0), (1, some 4), (2, some 8)] := by decide +kernel

example : askedAfter (Crv.ofPoints (loose crowdPts)) (emaBy (1 / 2)) 9 (CScan.new (1 / 100000) .linear true) [] 2 =
    some (.ok (some 5)) := by decide +kernel

/-- C139: a moving average of points that lie closer than a step passes over some of them; it has no value at the last
point, and demands of equal spacing are met though the points are not equally spaced. -/
theorem C139_negation : Honest (loose crowdPts) ∧ (loose crowdPts).y (.fin (2000001/1000000)) = .ok (some 100) ∧
    askedAfter (Crv.ofPoints (loose crowdPts)) (emaBy (1 / 2)) 9 (CScan.new (1 / 100000) .linear true) [] (2000001/1000000) =
      some (.ok none) ∧
    askedAfter (Crv.ofPoints (loose crowdPts)) (emaBy (1 / 2)) 9 (CScan.new (1 / 100000) .linear true) [2] (1/1000000) =
      some (.ok (some (1/500000))) :=
  ⟨crowd_honest, by decide +kernel, by decide +kernel, by decide +kernel⟩
/-! ## An instance of each theorem -/

def fewer : List (Pt ℚ) := [(0, some 0), (1/4, some 1), (1/2, some 2), (3/4, some 3), (2, none)]

example : (met (1 / 2) fewer).Sublist fewer ∧ Gapped (1 / 2) (met (1 / 2) fewer) ∧
    ∀ p ∈ fewer, ∃ q ∈ met (1 / 2) fewer, q.1 ≤ p.1 ∧ p.1 < q.1 + 1 / 2 := by
  obtain ⟨h1, _, h2, h3⟩ := C139_met (m := 1 / 2) (by norm_num) (show Ascending fewer by norm_num [Ascending, fewer])
  exact ⟨h1, h2, h3⟩

example : ¬ Gapped (1 / 2) fewer := by
  rw [← C139_all]
  decide +kernel

example : Gapped (1 / 4) fewer := by
  rw [← C139_all]
  decide +kernel

/-- After the last point met nothing is given, although the source goes on. -/
example : accumulatedIn (span (fewer.take 4)) (plainRule (emaBy (1 / 2))) .linear (met (1 / 2) (fewer.take 4)) (3 / 4) = .ok none := by
  have key : (match runRule (plainRule (emaBy (1 / 2))) [] [] (met (1 / 2) (fewer.take 4)) with
    | (_, none) => true
    | _ => false) = true := by decide +kernel
  match e : runRule (plainRule (emaBy (1 / 2))) [] [] (met (1 / 2) (fewer.take 4)), key with
  | (out, none), _ => exact C139_after (by decide +kernel) e

example : accumulatedIn (span fewer) (plainRule (emaBy (1 / 2))) .linear (met (1 / 2) fewer) (1 / 4) =
    accumulatedAt (plainRule (emaBy (1 / 2))) .linear (met (1 / 2) fewer) (.fin (1 / 4)) :=
  C139_within (by norm_num) (by norm_num [Ascending, fewer]) (by decide +kernel)

end Props
end Curvepy
