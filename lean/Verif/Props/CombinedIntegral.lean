import Verif.Lemmas.CombinedKnots
import Verif.Props.CurveIntegral
import Verif.Props.Averages

/-!
# Property C163: integrals of combinations of lists of points
-/

namespace Curvepy
namespace Props
open Spec Pts CScan Accum

variable {c : Crv} {t : ATfm} {m : ℚ} {i : Interp} {u : Bool} {A : CScan} {G : Rule} {Q : ℚ → Prop} {pts : List (Pt ℚ)}

/-- C163: an accumulator with a transform that looks back, over any curve that shows its knots, answers with the fold over
the knots, whatever was asked before. -/
theorem C163_answer (hm : 0 < m) (hs : Stepped Q m c pts) (hf : Fit m u pts) (hF : FollowsOn pts t G)
    (h : AskedBy Q c t m i u A) {x : ℚ} (hx : Q x) {n : ℕ} (hn : pts.length < n) :
    (A.queryBy c t n (.fin x)).map (fun r => r.map Prod.snd) = some (accumulatedAt G i pts (.fin x)) := by
  rw [← hs.answer]
  have hs := hs.shown (ascending_of_gapped hm hf.gapped)
  obtain ⟨seen, todo, rfl, hA⟩ := Sane.askedBy hm hs hf hF h
  rcases hA.queryOn hm hs hF hx hn with ⟨e, h1, h2⟩ | ⟨B, v, _, _, h1, h2, _⟩
  · rw [h1, h2]; rfl
  · rw [h1, h2]; rfl

/-- One step of the integral. -/
theorem integralBy_on (hm : minStepQ ≤ m) (mode : Interp) (hg : Gapped m pts)
    (hv : ∀ p ∈ pts, c.y (.fin p.1) = .ok (p.2.map .fin)) :
    FollowsOn pts (integralBy c mode) (stepRule (areaStep mode)) := by
  intro acc seen p todo e h2 hx'
  have h0 : (0 : ℚ) < minStepQ := by norm_num [minStepQ]
  have hasc : Ascending pts := ascending_of_gapped (h0.trans_le hm) hg
  subst e
  obtain ⟨ha1, _, ha3⟩ := List.pairwise_append.1 hasc
  simp only [stepRule, List.getLast?_append, List.getLast?_singleton, Option.some_or, List.dropLast_concat, integralBy,
    areaStep]
  cases hp2 : p.2 with
  | none => rfl
  | some y =>
  have hprev : acc.xPrevious (.fin p.1) (some minStepQ) = .ok (seen.getLast?.map fun q => .fin q.1) := by
    have hxmem : ∀ q ∈ acc.points, ∃ r ∈ seen, r.1 = q.1 := by
      intro q hq
      have : q.1 ∈ acc.points.map Prod.fst := List.mem_map_of_mem hq
      rw [hx'] at this
      exact List.mem_map.1 this
    have hxmem' : ∀ q ∈ seen, ∃ r ∈ acc.points, r.1 = q.1 := by
      intro q hq
      have : q.1 ∈ seen.map Prod.fst := List.mem_map_of_mem hq
      rw [← hx'] at this
      exact List.mem_map.1 this
    rcases C07_x_previous h2 p.1 minStepQ with ⟨z, h3, ⟨q, hq, rfl, hle⟩, h4⟩ | ⟨h3, h4⟩
    · rw [h3]
      obtain ⟨r, hr, hrq⟩ := hxmem q hq
      cases hl : seen.getLast? with
      | none => rw [List.getLast?_eq_none_iff.1 hl] at hr; simp at hr
      | some w =>
        have hw := List.mem_of_getLast? hl
        have hgap := gapped_pair hg hl
        obtain ⟨w', hw', hww⟩ := hxmem' w hw
        have h5 : w.1 ≤ q.1 := h4 ⟨w', hw', hww, by linarith⟩
        have h6 : r.1 ≤ w.1 := le_getLast ha1 hl hr
        have : q.1 = w.1 := by linarith
        simp [this]
    · rw [h3]
      cases hl : seen.getLast? with
      | none => rfl
      | some w =>
        have hw := List.mem_of_getLast? hl
        have hgap := gapped_pair hg hl
        obtain ⟨w', hw', hww⟩ := hxmem' w hw
        have := h4 w' hw'
        linarith
  simp only [hprev]
  cases hl : seen.getLast? with
  | none => rfl
  | some w =>
    have hw := List.mem_of_getLast? hl
    have hlt : w.1 < p.1 := ha3 w hw p (by simp)
    have hy : (c.y (.fin w.1) >>= rational) = .ok w.2 := by
      rw [hv w (by simp [hw])]; exact rational_map _
    obtain ⟨wx, wy⟩ := w
    cases wy with
    | none => simp only [Option.map_some, hy]
    | some wy => simp only [Option.map_some, hy, segmentArea_eq mode wy y hlt.ne]

/-- C163: the integral of any curve that shows its knots is, at a knot, the constant plus the areas between the knots up to
there. -/
theorem C163_knots_partial (hm : minStepQ ≤ m) (mode : Interp) (const : ℚ) {l : List (ℚ × ℚ)} (hs : Stepped Q m c (defined l))
    (hf : Fit m u (defined l)) (h : AskedBy Q c (integralBy c mode) m i u A) {k : ℕ} {p : ℚ × ℚ} (hk : l[k]? = some p)
    (hx : Q p.1) {n : ℕ} (hn : l.length < n) :
    (A.integralY c mode const n (.fin p.1)).map (fun r => r.map Prod.snd) =
      some (.ok (some (totalArea mode (l.take (k + 1)) + const))) := by
  have h0 : (0 : ℚ) < minStepQ := by norm_num [minStepQ]
  have hk' : (defined l)[k]? = some (p.1, some p.2) := by simp [defined, hk]
  have := C163_answer (h0.trans_le hm) hs hf (integralBy_on hm mode hf.gapped hs.val) h hx (n := n) (by simpa [defined] using hn)
  have hacc := accumulatedAt_step (areaStep mode) i (ascending_of_gapped (h0.trans_le hm) hf.gapped) hk'
  have ht : (defined l).take (k + 1) = defined (l.take (k + 1)) := by simp [defined, List.map_take]
  rw [ht, stepFold_area mode _ (by intro h0; rw [take_succ_of_getElem? hk] at h0; simp at h0)] at hacc
  simp only at hacc
  rw [hacc] at this
  unfold integralY
  cases hq : A.queryBy c (integralBy c mode) n (.fin p.1) with
  | none => rw [hq] at this; cases this
  | some r =>
    rw [hq] at this
    cases r with
    | error e => cases this
    | ok r =>
      simp only [Option.map_some, Except.map, Option.some.injEq, Except.ok.injEq] at this ⊢
      rw [this]; rfl

/-! ### Areas -/

theorem heightAt_head {p : ℚ × ℚ} {l : List (ℚ × ℚ)} (h : (p :: l).Pairwise fun p q => p.1 < q.1) :
    heightAt (p :: l) p.1 = p.2 := by
  cases l with
  | nil => rfl
  | cons q ps =>
    have := (List.pairwise_cons.1 h).1 q (by simp)
    simp only [heightAt, if_pos this.le]
    ring

/-- The value of a list of points that interpolates with straight lines. -/
theorem valueAt_height {l : List (ℚ × ℚ)} (h : l.Pairwise fun p q => p.1 < q.1) {x : ℚ} (hw : within (l.map Prod.fst) x = true) :
    valueAt .linear (defined l) x = some (heightAt l x) := by
  induction l with
  | nil => simp [within] at hw
  | cons p l ih =>
    obtain ⟨⟨a, ha, hax⟩, b, hb, hbx⟩ := Web.within_iff.1 hw
    have hpx : p.1 ≤ x := by
      obtain ⟨r, hr, rfl⟩ := List.mem_map.1 ha
      rcases List.mem_cons.1 hr with rfl | hr
      · exact hax
      · exact ((List.pairwise_cons.1 h).1 r hr).le.trans hax
    cases l with
    | nil =>
      have hxp : x = p.1 := le_antisymm (by simpa using (by simpa using hb : b = p.1) ▸ hbx) hpx
      simp [defined, valueAt, heightAt, hxp]
    | cons q ps =>
      have hpq := (List.pairwise_cons.1 h).1 q (by simp)
      simp only [defined, List.map_cons, valueAt] at ih ⊢
      rw [if_neg (not_lt.2 hpx)]
      by_cases h1 : x = p.1
      · rw [if_pos h1, h1, heightAt_head h]
      · rw [if_neg h1]
        by_cases h2 : x < q.1
        · rw [if_pos h2]
          simp only [heightAt, if_pos h2.le, between, Lerp.lerp]
          congr 1
          ring
        · rw [if_neg h2]
          have hih := ih (List.pairwise_cons.1 h).2 (by
            refine Web.within_iff.2 ⟨⟨q.1, by simp, not_lt.1 h2⟩, b, ?_, hbx⟩
            rcases List.mem_cons.1 hb with rfl | hb
            · linarith
            · exact hb)
          rw [hih]
          by_cases h3 : x ≤ q.1
          · have : x = q.1 := le_antisymm h3 (not_lt.1 h2)
            subst this
            rw [heightAt_head (List.pairwise_cons.1 h).2]
            simp only [heightAt, if_pos (le_refl q.1)]
            have : q.1 - p.1 ≠ 0 := by intro h0; linarith
            congr 1
            field_simp
            ring
          · simp only [heightAt, if_neg h3]

/-- Between two positions with no point of the list between them, the area is a trapezoid. -/
theorem areaTo_between {l : List (ℚ × ℚ)} (h : l.Pairwise fun p q => p.1 < q.1) {a b : ℚ} (hab : a < b)
    (ha : within (l.map Prod.fst) a = true) (hb : within (l.map Prod.fst) b = true)
    (hno : ∀ p ∈ l, ¬ (a < p.1 ∧ p.1 < b)) :
    areaTo l b - areaTo l a = areaBetween .linear a (heightAt l a) b (heightAt l b) := by
  induction l with
  | nil => simp [within] at ha
  | cons p l ih =>
    cases l with
    | nil =>
      obtain ⟨⟨a', ha', hax⟩, _⟩ := Web.within_iff.1 ha
      obtain ⟨_, b', hb', hbx⟩ := Web.within_iff.1 hb
      simp only [List.map_cons, List.map_nil, List.mem_singleton] at ha' hb'
      subst ha'; subst hb'
      obtain ⟨_, b'', hb'', hbx'⟩ := Web.within_iff.1 ha
      simp only [List.map_cons, List.map_nil, List.mem_singleton] at hb''
      subst hb''
      linarith
    | cons q ps =>
      have hpq := (List.pairwise_cons.1 h).1 q (by simp)
      have hpq0 : q.1 - p.1 ≠ 0 := by intro h0; linarith
      by_cases hbq : b ≤ q.1
      · have haq : a ≤ q.1 := by linarith
        simp only [areaTo, heightAt, if_pos hbq, if_pos haq, areaBetween]
        field_simp
        ring
      · have hqa : q.1 ≤ a := by
          by_contra h1
          exact hno q (by simp) ⟨not_le.1 h1, not_le.1 hbq⟩
        have hw : ∀ x, q.1 ≤ x → within ((p :: q :: ps).map Prod.fst) x = true → within ((q :: ps).map Prod.fst) x = true := by
          intro x hqx hx
          obtain ⟨_, z, hz, hxz⟩ := Web.within_iff.1 hx
          refine Web.within_iff.2 ⟨⟨q.1, by simp, hqx⟩, z, ?_, hxz⟩
          rcases List.mem_cons.1 hz with rfl | hz
          · linarith
          · exact hz
        have hih := ih (List.pairwise_cons.1 h).2 (hw a hqa ha) (hw b (by linarith) hb) fun r hr => hno r (List.mem_cons_of_mem _ hr)
        have hb1 : areaTo (p :: q :: ps) b = (q.1 - p.1) * ((p.2 + q.2) / 2) + areaTo (q :: ps) b := by simp only [areaTo, if_neg hbq]
        have hb2 : heightAt (p :: q :: ps) b = heightAt (q :: ps) b := by simp only [heightAt, if_neg hbq]
        have key : areaTo (p :: q :: ps) a = (q.1 - p.1) * ((p.2 + q.2) / 2) + areaTo (q :: ps) a ∧
            heightAt (p :: q :: ps) a = heightAt (q :: ps) a := by
          by_cases haq : a ≤ q.1
          · have : a = q.1 := le_antisymm haq hqa
            subst this
            rw [heightAt_head (List.pairwise_cons.1 h).2]
            have h0 : areaTo (q :: ps) q.1 = 0 := by
              cases ps with
              | nil => rfl
              | cons r rs =>
                have := (List.pairwise_cons.1 (List.pairwise_cons.1 h).2).1 r (by simp)
                simp only [areaTo, if_pos this.le]; ring
            rw [h0]
            simp only [areaTo, heightAt, if_pos (le_refl q.1)]
            constructor <;> (field_simp; ring)
          · simp only [areaTo, heightAt, if_neg haq, and_self]
        rw [hb1, hb2, key.1, key.2, ← hih]
        ring

/-! ### Sums -/

theorem weighted_sub (ws : List ℚ) (fs : List (List (ℚ × ℚ))) (F G : List (ℚ × ℚ) → ℚ) :
    weighted ws (fs.map fun f => F f - G f) = weighted ws (fs.map F) - weighted ws (fs.map G) := by
  induction fs generalizing ws with
  | nil => cases ws <;> simp [weighted]
  | cons f fs ih =>
    cases ws with
    | nil => simp [weighted]
    | cons w ws => simp only [List.map_cons, weighted, ih]; ring

theorem weighted_area (ws : List ℚ) (fs : List (List (ℚ × ℚ))) (a b : ℚ) (F G : List (ℚ × ℚ) → ℚ) :
    areaBetween .linear a (weighted ws (fs.map F)) b (weighted ws (fs.map G)) =
      weighted ws (fs.map fun f => areaBetween .linear a (F f) b (G f)) := by
  induction fs generalizing ws with
  | nil => cases ws <;> simp [weighted, areaBetween]
  | cons f fs ih =>
    cases ws with
    | nil => simp [weighted, areaBetween]
    | cons w ws =>
      simp only [List.map_cons, weighted, ← ih]
      simp only [areaBetween]
      ring

theorem chain_of_neighbours {α : Type} {R : α → α → Prop} {l : List α} (h : ∀ pre a b rest, l = pre ++ a :: b :: rest → R a b) :
    l.IsChain R := by
  induction l with
  | nil => exact .nil
  | cons a l ih =>
    cases l with
    | nil => exact .singleton a
    | cons b l =>
      refine List.isChain_cons_cons.2 ⟨h [] a b l rfl, ih fun pre c d rest e => h (a :: pre) c d rest (by rw [e]; rfl)⟩

theorem totalArea_exact {mode : Interp} {g F : ℚ → ℚ} {a : ℚ} {ks : List ℚ}
    (h : (a :: ks).IsChain fun a b => areaBetween mode a (g a) b (g b) = F b - F a) :
    totalArea mode ((a :: ks).map fun x => (x, g x)) = F ((a :: ks).getLast (by simp)) - F a := by
  induction ks generalizing a with
  | nil => simp [totalArea]
  | cons b ks ih =>
    obtain ⟨h1, h2⟩ := List.isChain_cons_cons.1 h
    have := ih h2
    simp only [List.map_cons, totalArea] at this ⊢
    have hl : (a :: b :: ks).getLast (by simp) = (b :: ks).getLast (by simp) := rfl
    rw [this, h1, hl]
    ring

/-- Some lists of points that interpolate with straight lines. -/
def Lists (ss : List (Pts ℚ)) (fs : List (List (ℚ × ℚ))) : Prop :=
  List.Forall₂ (fun s f => Honest s ∧ s.interp = .linear ∧ s.points = defined f) ss fs

/-- The combination of some lists of points at the positions of all of them. -/
def combinedAt (ws : List ℚ) (fs : List (List (ℚ × ℚ))) : List (ℚ × ℚ) :=
  (commonXs (fs.map fun f => f.map Prod.fst)).map fun x => (x, weighted ws (fs.map fun f => heightAt f x))

theorem Lists.mem {ss : List (Pts ℚ)} {fs : List (List (ℚ × ℚ))} (h : Lists ss fs) : ∀ f ∈ fs, f.Pairwise fun p q => p.1 < q.1 := by
  induction h with
  | nil => intro f hf; cases hf
  | cons h1 _ ih =>
    intro f hf
    rcases List.mem_cons.1 hf with rfl | hf
    · have := h1.1.wf.asc
      rw [h1.2.2] at this
      unfold Ascending defined at this
      rwa [List.pairwise_map] at this
    · exact ih f hf

theorem Lists.xs {ss : List (Pts ℚ)} {fs : List (List (ℚ × ℚ))} (h : Lists ss fs) :
    (ss.map fun s => s.points.map Prod.fst) = fs.map fun f => f.map Prod.fst := by
  induction h with
  | nil => rfl
  | cons h1 _ ih => simp only [List.map_cons, ih, h1.2.2]; simp [defined, Function.comp_def]

theorem Lists.values {ss : List (Pts ℚ)} {fs : List (List (ℚ × ℚ))} (h : Lists ss fs) {x : ℚ}
    (hx : ∀ f ∈ fs, within (f.map Prod.fst) x = true) :
    (ss.map fun s => (valueAt s.interp s.points x).map Num.fin) = (fs.map fun f => heightAt f x).map fun v => some (.fin v) := by
  have hm := h.mem
  induction h with
  | nil => rfl
  | cons h1 _ ih =>
    simp only [List.map_cons]
    rw [ih (fun f hf => hx f (by simp [hf])) (fun f hf => hm f (by simp [hf])), h1.2.1, h1.2.2, valueAt_height (hm _ (by simp)) (hx _ (by simp))]
    rfl

theorem Lists.honest {ss : List (Pts ℚ)} {fs : List (List (ℚ × ℚ))} (h : Lists ss fs) : ∀ s ∈ ss, Honest s := by
  induction h with
  | nil => intro s hs; cases hs
  | cons h1 _ ih =>
    intro s hs
    rcases List.mem_cons.1 hs with rfl | hs
    · exact h1.1
    · exact ih s hs

section
variable {ss : List (Pts ℚ)} {fs : List (List (ℚ × ℚ))} {ws : List ℚ} {tfm : Ext → List (Option Num) → Except Err (Option Num)}

/-- C163: a combination of lists of points shows the positions of all of them, where all are defined. -/
theorem C163_combined (hL : Lists ss fs) (hm : 0 < m) (hne : combinedAt ws fs ≠ []) (hg : Gapped m (defined (combinedAt ws fs)))
    (ht : ∀ x vs, vs.length = fs.length → tfm x (vs.map fun v => some (.fin v)) = .ok (some (.fin (weighted ws vs)))) :
    Stepped (fun _ => True) m (Crv.aggregate (ss.map Crv.ofPoints) tfm) (defined (combinedAt ws fs)) := by
  have hxs : (defined (combinedAt ws fs)).map Prod.fst = commonXs (ss.map fun s => s.points.map Prod.fst) := by
    rw [hL.xs]; simp [defined, combinedAt, Function.comp_def]
  have hss : ss ≠ [] := by
    rintro rfl
    cases hL
    simp [combinedAt, commonXs, merged] at hne
  refine stepped_combined hL.honest hss hm (by simpa [defined] using hne) hxs hg ?_
  intro p hp
  obtain ⟨x, hx, rfl⟩ : ∃ x ∈ commonXs (fs.map fun f => f.map Prod.fst), (x, some (weighted ws (fs.map fun f => heightAt f x))) = p := by
    simpa [defined, combinedAt] using hp
  have hw : ∀ f ∈ fs, within (f.map Prod.fst) x = true := fun f hf => (mem_commonXs.1 hx).2 _ (List.mem_map.2 ⟨f, hf, rfl⟩)
  simp only
  rw [hL.values hw]
  exact ht _ _ (by simp)

/-- C163: the integral of a weighted sum of lists of points is, at each of their positions, the weighted sum of the areas from
the beginning of the common domain. -/
theorem C163_weighted_partial (hL : Lists ss fs) (hm : minStepQ ≤ m) (const : ℚ)
    (hfit : Fit m u (defined (combinedAt ws fs)))
    (ht : ∀ x vs, vs.length = fs.length → tfm x (vs.map fun v => some (.fin v)) = .ok (some (.fin (weighted ws vs))))
    (h : AskedBy (fun _ => True) (Crv.aggregate (ss.map Crv.ofPoints) tfm)
      (integralBy (Crv.aggregate (ss.map Crv.ofPoints) tfm) .linear) m i u A)
    {a x : ℚ} (ha : (commonXs (fs.map fun f => f.map Prod.fst)).head? = some a)
    (hx : x ∈ commonXs (fs.map fun f => f.map Prod.fst)) {n : ℕ} (hn : (combinedAt ws fs).length < n) :
    (A.integralY (Crv.aggregate (ss.map Crv.ofPoints) tfm) .linear const n (.fin x)).map (fun r => r.map Prod.snd) =
      some (.ok (some (weighted ws (fs.map fun f => areaTo f x - areaTo f a) + const))) := by
  have h0 : (0 : ℚ) < minStepQ := by norm_num [minStepQ]
  have hne : combinedAt ws fs ≠ [] := by
    intro h1
    simp only [combinedAt, List.map_eq_nil_iff] at h1
    rw [h1] at hx; cases hx
  have hst := C163_combined hL (h0.trans_le hm) hne hfit.gapped ht
  obtain ⟨k, hk⟩ := List.getElem?_of_mem hx
  have hk' : (combinedAt ws fs)[k]? = some (x, weighted ws (fs.map fun f => heightAt f x)) := by
    simp [combinedAt, hk]
  have := C163_knots_partial hm .linear const hst hfit h hk' trivial hn
  simp only at this
  rw [this]
  congr 4
  have htake : (combinedAt ws fs).take (k + 1) =
      ((commonXs (fs.map fun f => f.map Prod.fst)).take (k + 1)).map fun x => (x, weighted ws (fs.map fun f => heightAt f x)) := by
    simp [combinedAt, List.map_take]
  rw [htake, weighted_sub]
  have hasc := commonXs_asc (fs.map fun f => f.map Prod.fst)
  have hchain : (commonXs (fs.map fun f => f.map Prod.fst)).IsChain fun a b =>
      areaBetween .linear a (weighted ws (fs.map fun f => heightAt f a)) b (weighted ws (fs.map fun f => heightAt f b)) =
        weighted ws (fs.map fun f => areaTo f b) - weighted ws (fs.map fun f => areaTo f a) := by
    refine chain_of_neighbours fun pre a b rest e => ?_
    have hab : a < b := by
      rw [e] at hasc
      exact (List.pairwise_cons.1 (List.pairwise_append.1 hasc).2.1).1 b (by simp)
    have hia := (mem_commonXs.1 (show a ∈ commonXs (fs.map fun f => f.map Prod.fst) by rw [e]; simp)).2
    have hib := (mem_commonXs.1 (show b ∈ commonXs (fs.map fun f => f.map Prod.fst) by rw [e]; simp)).2
    rw [weighted_area, ← weighted_sub]
    congr 1
    refine List.map_congr_left fun f hf => ?_
    refine (areaTo_between (hL.mem f hf) hab (hia _ (List.mem_map.2 ⟨f, hf, rfl⟩)) (hib _ (List.mem_map.2 ⟨f, hf, rfl⟩)) ?_).symm
    rintro p hp ⟨h1, h2⟩
    have hpk : p.1 ∈ commonXs (fs.map fun f => f.map Prod.fst) := by
      refine mem_commonXs.2 ⟨⟨_, List.mem_map.2 ⟨f, hf, rfl⟩, List.mem_map.2 ⟨p, hp, rfl⟩⟩, fun l hl => ?_⟩
      exact Web.within_between (hia l hl) (hib l hl) h1.le h2.le
    rw [e] at hpk hasc
    have hasc2 := List.pairwise_append.1 hasc
    rcases List.mem_append.1 hpk with hr | hr
    · have := hasc2.2.2 _ hr a (by simp); linarith
    · rcases List.mem_cons.1 hr with hr | hr
      · linarith
      · rcases List.mem_cons.1 hr with hr | hr
        · linarith
        · have := (List.pairwise_cons.1 (List.pairwise_cons.1 hasc2.2.1).2).1 _ hr
          linarith
  generalize hK : commonXs (fs.map fun f => f.map Prod.fst) = K at *
  cases K with
  | nil => cases ha
  | cons b K =>
    cases ha
    have hlast : ((a :: K).take (k + 1)).getLast? = some x := by
      rw [take_succ_of_getElem? hk]; simp
    rw [List.take_succ_cons] at hlast ⊢
    have hch : (a :: K.take k).IsChain fun a b =>
        areaBetween .linear a (weighted ws (fs.map fun f => heightAt f a)) b (weighted ws (fs.map fun f => heightAt f b)) =
          weighted ws (fs.map fun f => areaTo f b) - weighted ws (fs.map fun f => areaTo f a) := by
      have := hchain.take (k + 1)
      rwa [List.take_succ_cons] at this
    rw [totalArea_exact (g := fun x => weighted ws (fs.map fun f => heightAt f x))
      (F := fun x => weighted ws (fs.map fun f => areaTo f x)) hch]
    rw [List.getLast?_eq_some_getLast (by simp)] at hlast
    simp only [Option.some.injEq] at hlast
    rw [hlast]

end

theorem allDefined_some (vs : List ℚ) :
    Crv.allDefined (vs.map fun v => some (.fin v)) = some (vs.map Num.fin) := by
  induction vs with
  | nil => rfl
  | cons v vs ih => simp only [List.map_cons, Crv.allDefined, ih, Option.map_some]

theorem foldl_add (vs : List ℚ) (r : ℚ) :
    (vs.map Num.fin).foldl Num.add (.fin r) = .fin (r + weighted (List.replicate vs.length 1) vs) := by
  induction vs generalizing r with
  | nil => simp [weighted]
  | cons v vs ih =>
    simp only [List.map_cons, List.foldl_cons, List.length_cons, List.replicate_succ, weighted]
    rw [show Num.add (.fin r) (.fin v) = .fin (r + v) from rfl, ih]
    congr 1; ring

theorem subF_some (vs : List ℚ) (r : ℚ) : Crv.subF (vs.map fun v => some (.fin v)) (some (.fin r)) =
    some (.fin (r + weighted (List.replicate vs.length (-1)) vs)) := by
  induction vs generalizing r with
  | nil => simp [weighted, Crv.subF]
  | cons v vs ih =>
    simp only [List.map_cons, Crv.subF, List.length_cons, List.replicate_succ, weighted]
    rw [show Num.sub (.fin r) (.fin v) = .fin (r - v) by simp [Num.sub, Num.add, Num.neg, sub_eq_add_neg], ih]
    congr 2; ring

section
variable {ss : List (Pts ℚ)} {fs : List (List (ℚ × ℚ))}

/-- Arguments of an operation on curves. -/
def asArgs (ss : List (Pts ℚ)) : List Crv.Arg := ss.map fun s => .curve (Crv.ofPoints s)

theorem parse_asArgs (ss : List (Pts ℚ)) : (asArgs ss).map Crv.parse = ss.map Crv.ofPoints := by
  simp [asArgs, Crv.parse, Function.comp_def]

/-- C163: the integral of a sum is the sum of the areas. -/
theorem C163_add_partial (hL : Lists ss fs) (hm : minStepQ ≤ m) (const : ℚ)
    (hfit : Fit m u (defined (combinedAt (List.replicate fs.length 1) fs)))
    (h : AskedBy (fun _ => True) (Crv.addMany (asArgs ss)) (integralBy (Crv.addMany (asArgs ss)) .linear) m i u A)
    {a x : ℚ} (ha : (commonXs (fs.map fun f => f.map Prod.fst)).head? = some a)
    (hx : x ∈ commonXs (fs.map fun f => f.map Prod.fst)) {n : ℕ}
    (hn : (commonXs (fs.map fun f => f.map Prod.fst)).length < n) :
    (A.integralY (Crv.addMany (asArgs ss)) .linear const n (.fin x)).map (fun r => r.map Prod.snd) =
      some (.ok (some ((fs.map fun f => areaTo f x - areaTo f a).sum + const))) := by
  have hw : ∀ vs : List ℚ, weighted (List.replicate vs.length 1) vs = vs.sum := by
    intro vs
    induction vs with
    | nil => rfl
    | cons v vs ih => simp only [List.length_cons, List.replicate_succ, weighted, ih, List.sum_cons, one_mul]
  unfold Crv.addMany at h ⊢
  rw [parse_asArgs] at h ⊢
  rw [C163_weighted_partial hL hm const hfit ?_ h ha hx (by simpa [combinedAt] using hn)]
  · have := hw (fs.map fun f => areaTo f x - areaTo f a)
    rw [List.length_map] at this
    rw [this]
  · intro x vs hl
    have := foldl_add vs 0
    rw [zero_add] at this
    simp only [Crv.addF, allDefined_some, this, hl]

/-- C163: the integral of a difference is the difference of the areas. -/
theorem C163_subtract_partial {s : Pts ℚ} {f : List (ℚ × ℚ)} (hL : Lists (s :: ss) (f :: fs)) (hm : minStepQ ≤ m) (const : ℚ)
    (hfit : Fit m u (defined (combinedAt (1 :: List.replicate fs.length (-1)) (f :: fs))))
    (h : AskedBy (fun _ => True) (Crv.subtractMany (asArgs (s :: ss))) (integralBy (Crv.subtractMany (asArgs (s :: ss))) .linear)
      m i u A)
    {a x : ℚ} (ha : (commonXs ((f :: fs).map fun f => f.map Prod.fst)).head? = some a)
    (hx : x ∈ commonXs ((f :: fs).map fun f => f.map Prod.fst)) {n : ℕ}
    (hn : (commonXs ((f :: fs).map fun f => f.map Prod.fst)).length < n) :
    (A.integralY (Crv.subtractMany (asArgs (s :: ss))) .linear const n (.fin x)).map (fun r => r.map Prod.snd) =
      some (.ok (some ((areaTo f x - areaTo f a) - (fs.map fun f => areaTo f x - areaTo f a).sum + const))) := by
  have hw : ∀ vs : List ℚ, weighted (List.replicate vs.length (-1)) vs = -vs.sum := by
    intro vs
    induction vs with
    | nil => rfl
    | cons v vs ih => simp only [List.length_cons, List.replicate_succ, weighted, ih, List.sum_cons]; ring
  unfold Crv.subtractMany at h ⊢
  rw [parse_asArgs] at h ⊢
  rw [C163_weighted_partial hL hm const hfit ?_ h ha hx (by simpa [combinedAt] using hn)]
  · have := hw (fs.map fun f => areaTo f x - areaTo f a)
    rw [List.length_map] at this
    simp only [List.map_cons, weighted, this]
    congr 4; ring
  · intro x vs hl
    cases vs with
    | nil => cases hl
    | cons v vs =>
      simp only [List.length_cons, Nat.add_right_cancel_iff] at hl
      simp only [List.map_cons, Crv.subF, subF_some, weighted, hl, one_mul]

end

/-! ### The integral of calculus -/

theorem realHeight_cast (f : List (ℚ × ℚ)) (x : ℚ) : realHeight f x = ((heightAt f x : ℚ) : ℝ) := by
  match f with
  | [] => simp [realHeight, heightAt]
  | [p] => simp [realHeight, heightAt]
  | p :: q :: ps =>
    simp only [realHeight, heightAt, Rat.cast_le]
    split
    · push_cast; rfl
    · exact realHeight_cast (q :: ps) x

theorem height_integral {p : ℚ × ℚ} {f : List (ℚ × ℚ)} (hf : (p :: f).Pairwise fun p q => p.1 < q.1) {x : ℚ} (h1 : p.1 ≤ x)
    (h2 : within ((p :: f).map Prod.fst) x = true) :
    IntervalIntegrable (realHeight (p :: f)) MeasureTheory.volume p.1 x ∧
      ((areaTo (p :: f) x : ℚ) : ℝ) = ∫ t in (p.1 : ℝ)..x, realHeight (p :: f) t := by
  induction f generalizing p with
  | nil =>
    have hx : x = p.1 := by
      have := (Web.within_iff.1 h2).2
      simp at this
      exact le_antisymm this h1
    subst hx
    simp [areaTo]
  | cons q ps ih =>
    have hpq : p.1 < q.1 := (List.pairwise_cons.1 hf).1 q (by simp)
    have hne : ((q.1 : ℝ) - p.1) ≠ 0 := by
      have : (p.1 : ℝ) < q.1 := by exact_mod_cast hpq
      linarith
    let s : ℚ := (q.2 - p.2) / (q.1 - p.1)
    have haff : ∀ y : ℚ, p.1 ≤ y → y ≤ q.1 →
        IntervalIntegrable (realHeight (p :: q :: ps)) MeasureTheory.volume p.1 y ∧
        ((lineArea p.1 p.2 s p.1 y : ℚ) : ℝ) = ∫ t in (p.1 : ℝ)..y, realHeight (p :: q :: ps) t := by
      intro y hy hyq
      have hy' : (p.1 : ℝ) ≤ y := by exact_mod_cast hy
      have he : Set.EqOn (fun t : ℝ => (p.2 : ℝ) + (s : ℝ) * (t - p.1)) (realHeight (p :: q :: ps)) (Set.Ioo (p.1 : ℝ) y) := by
        intro t ht
        have : t ≤ (q.1 : ℝ) := ht.2.le.trans (by exact_mod_cast hyq)
        simp only [realHeight, if_pos this, s]
        push_cast
        ring
      refine ⟨?_, ?_⟩
      · refine IntervalIntegrable.congr_uIoo (f := fun t : ℝ => (p.2 : ℝ) + (s : ℝ) * (t - p.1)) ?_ (by rwa [Set.uIoo_of_le hy'])
        exact Continuous.intervalIntegrable (by fun_prop) _ _
      · rw [C160_area, intervalIntegral.integral_congr_Ioo_of_le hy' he]
    by_cases hx : x ≤ q.1
    · obtain ⟨i1, i2⟩ := haff x h1 hx
      refine ⟨i1, ?_⟩
      rw [← i2]
      congr 1
      simp only [areaTo, if_pos hx, lineArea, s]
      ring
    · have hx' : q.1 < x := not_le.1 hx
      have hxr : (q.1 : ℝ) ≤ x := by exact_mod_cast hx'.le
      obtain ⟨i1, i2⟩ := haff q.1 hpq.le le_rfl
      have hw : within ((q :: ps).map Prod.fst) x = true := by
        obtain ⟨b, hb, hxb⟩ := (Web.within_iff.1 h2).2
        refine Web.within_iff.2 ⟨⟨q.1, by simp, hx'.le⟩, b, ?_, hxb⟩
        rcases List.mem_cons.1 hb with rfl | hb
        · linarith
        · exact hb
      obtain ⟨j1, j2⟩ := ih (List.pairwise_cons.1 hf).2 hx'.le hw
      have he : Set.EqOn (realHeight (q :: ps)) (realHeight (p :: q :: ps)) (Set.Ioo (q.1 : ℝ) x) := by
        intro t ht
        have : ¬ t ≤ (q.1 : ℝ) := not_le.2 ht.1
        simp only [realHeight, if_neg this]
      have j1' : IntervalIntegrable (realHeight (p :: q :: ps)) MeasureTheory.volume q.1 x :=
        IntervalIntegrable.congr_uIoo j1 (by rwa [Set.uIoo_of_le hxr])
      refine ⟨i1.trans j1', ?_⟩
      rw [← intervalIntegral.integral_add_adjacent_intervals i1 j1', ← i2, ← intervalIntegral.integral_congr_Ioo_of_le hxr he, ← j2]
      rw [← Rat.cast_add]
      congr 1
      simp only [areaTo, if_neg hx, lineArea, s]
      have : q.1 - p.1 ≠ 0 := by linarith
      field_simp
      ring

/-- C163: the areas are integrals of calculus of the straight lines through the points. -/
theorem C163_calculus {f : List (ℚ × ℚ)} (hf : f.Pairwise fun p q => p.1 < q.1) {a b : ℚ}
    (ha : within (f.map Prod.fst) a = true) (hb : within (f.map Prod.fst) b = true) :
    ((areaTo f b - areaTo f a : ℚ) : ℝ) = ∫ t in (a : ℝ)..b, realHeight f t := by
  cases f with
  | nil => simp [within] at ha
  | cons p f =>
    have h1 : ∀ {x : ℚ}, within ((p :: f).map Prod.fst) x = true → p.1 ≤ x := by
      intro x hx
      obtain ⟨a, ha, hax⟩ := (Web.within_iff.1 hx).1
      obtain ⟨w, hw, rfl⟩ := List.mem_map.1 ha
      rcases List.mem_cons.1 hw with rfl | hw
      · exact hax
      · exact ((List.pairwise_cons.1 hf).1 w hw).le.trans hax
    obtain ⟨i1, e1⟩ := height_integral hf (h1 ha) ha
    obtain ⟨i2, e2⟩ := height_integral hf (h1 hb) hb
    push_cast
    rw [e1, e2, ← intervalIntegral.integral_interval_sub_left i2 i1]

/-! ### Examples and limits -/

/-- Points of another list, between those of `saw`. -/
def betweenPts : List (Pt ℚ) := [(1 / 2, some 0), (3 / 2, some 4), (5 / 2, some 1)]

theorem between_honest : Honest (loose betweenPts) :=
  loose_honest (by simp [Ascending, betweenPts]; norm_num) ⟨1, by simp [betweenPts]; norm_num⟩ (by decide +kernel)

def sawLine : List (ℚ × ℚ) := [(0, 1), (1, 3), (2, 2), (3, 2)]
def betweenLine : List (ℚ × ℚ) := [(1 / 2, 0), (3 / 2, 4), (5 / 2, 1)]

example : Lists [loose sawPts, loose betweenPts] [sawLine, betweenLine] :=
  .cons ⟨saw_honest, rfl, rfl⟩ (.cons ⟨between_honest, by decide +kernel, by decide +kernel⟩ .nil)
example : commonXs [sawLine.map Prod.fst, betweenLine.map Prod.fst] = [1 / 2, 1, 3 / 2, 2, 5 / 2] ∧
    combinedAt [1, 1] [sawLine, betweenLine] = [(1 / 2, 2), (1, 5), (3 / 2, 13 / 2), (2, 9 / 2), (5 / 2, 3)] ∧
    areaTo sawLine 2 - areaTo sawLine (1 / 2) = 15 / 4 ∧ areaTo betweenLine 2 - areaTo betweenLine (1 / 2) = 29 / 8 := by
  decide +kernel
example : areaAfter (Crv.addMany (asArgs [loose sawPts, loose betweenPts])) .linear 1 9 (CScan.new (1 / 100000) .linear false)
      [5 / 2, 1] 2 = some (.ok (some (67 / 8))) ∧
    areaAfter (Crv.subtractMany (asArgs [loose sawPts, loose betweenPts])) .linear 1 9 (CScan.new (1 / 100000) .linear false)
      [5 / 2, 1] 2 = some (.ok (some (9 / 8))) := by decide +kernel
theorem spaced_fit {l : List (Pt ℚ)} (hg : Gapped m l) (he : EquallySpaced l) : Fit m u l :=
  ⟨hg, fun _ _ _ _ hp _ => EquallySpaced.prefix hp he, fun _ => he⟩

example (const : ℚ) {n : ℕ} (hn : 5 < n)
    (h : AskedBy (fun _ => True) (Crv.addMany (asArgs [loose sawPts, loose betweenPts]))
      (integralBy (Crv.addMany (asArgs [loose sawPts, loose betweenPts])) .linear) (1 / 100000) i u A) :
    (A.integralY (Crv.addMany (asArgs [loose sawPts, loose betweenPts])) .linear const n (.fin 2)).map (fun r => r.map Prod.snd) =
      some (.ok (some (59 / 8 + const))) := by
  have hk : commonXs [sawLine.map Prod.fst, betweenLine.map Prod.fst] = [1 / 2, 1, 3 / 2, 2, 5 / 2] := by decide +kernel
  rw [C163_add_partial (fs := [sawLine, betweenLine]) (a := 1 / 2) (.cons ⟨saw_honest, rfl, rfl⟩
    (.cons ⟨between_honest, by decide +kernel, by decide +kernel⟩ .nil)) (by norm_num [minStepQ]) const ?_ h
    (by simp only [List.map_cons, List.map_nil, hk]; rfl) (by simp only [List.map_cons, List.map_nil, hk]; simp)
    (by simp only [List.map_cons, List.map_nil, hk]; exact hn)]
  · have : ([sawLine, betweenLine].map fun f => areaTo f 2 - areaTo f (1 / 2)).sum = 59 / 8 := by decide +kernel
    rw [this]
  · rw [show defined (combinedAt (List.replicate [sawLine, betweenLine].length 1) [sawLine, betweenLine]) =
      [(1 / 2, some 2), (1, some 5), (3 / 2, some (13 / 2)), (2, some (9 / 2)), (5 / 2, some 3)] by decide +kernel]
    exact spaced_fit (by simp [Gapped]; norm_num) ⟨1 / 2, by simp; norm_num⟩

/-- The product of the two lists between two of their positions, integrated. -/
theorem product_area : (∫ t in ((1 / 2 : ℚ) : ℝ)..(1 : ℚ), realHeight sawLine t * realHeight betweenLine t) = ((4 / 3 : ℚ) : ℝ) := by
  have e : Set.EqOn (fun t => realHeight sawLine t * realHeight betweenLine t) (fun t : ℝ => 8 * t ^ 2 - 2)
      (Set.Ioo ((1 / 2 : ℚ) : ℝ) (1 : ℚ)) := by
    intro t ht
    have h1 : t ≤ ((1 : ℚ) : ℝ) := ht.2.le
    have h2 : t ≤ ((3 / 2 : ℚ) : ℝ) := h1.trans (by norm_num)
    simp only [sawLine, betweenLine, realHeight, if_pos h1, if_pos h2]
    push_cast
    ring
  rw [intervalIntegral.integral_congr_Ioo_of_le (by norm_num) e]
  rw [intervalIntegral.integral_sub (Continuous.intervalIntegrable (by fun_prop) _ _) (by simp),
    intervalIntegral.integral_const_mul, integral_pow, intervalIntegral.integral_const]
  norm_num

/-- C163 fails in general: products are taken to be straight between the positions; and between the positions the integral
of a sum is not the area, but runs straight. -/
theorem C163_negation :
    (let new := CScan.new (1 / 100000) .linear false
     areaAfter (Crv.multiplyMany (asArgs [loose sawPts, loose betweenPts])) .linear 0 9 new [] 1 = some (.ok (some (3 / 2))) ∧
     areaAfter (Crv.addMany (asArgs [loose sawPts, loose betweenPts])) .linear 0 9 new [] (9 / 4) = some (.ok (some (133 / 16)))) ∧
    (∫ t in ((1 / 2 : ℚ) : ℝ)..(1 : ℚ), realHeight sawLine t * realHeight betweenLine t) = ((4 / 3 : ℚ) : ℝ) ∧
    (areaTo sawLine (9 / 4) - areaTo sawLine (1 / 2)) + (areaTo betweenLine (9 / 4) - areaTo betweenLine (1 / 2)) = 269 / 32 :=
  ⟨by decide +kernel, product_area, by decide +kernel⟩

end Props
end Curvepy
