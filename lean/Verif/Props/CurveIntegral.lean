import Verif.Lemmas.CurveIntegral
import Verif.Model.Line
import Verif.Props.CurveScan
import Mathlib.Analysis.SpecialFunctions.Integrals.Basic

/-!
# Properties C159, C160: accumulators and integrals of curves without knots
-/

namespace Curvepy
namespace Props
open Spec Pts CScan Accum

variable {c : Crv} {t : ATfm} {m : ℚ} {i : Interp} {u : Bool} {A : CScan} {g : ℚ → ℚ} {G : Rule} {xs : List ℚ}

/-- Answer of an integral at `x` after the queries `ys`. -/
def areaAfter (c : Crv) (mode : Interp) (const : ℚ) (n : ℕ) : CScan → List ℚ → ℚ → Option (Except Err (Option ℚ))
  | A, [], x => (A.integralY c mode const n (.fin x)).map fun r => r.map Prod.snd
  | A, y :: ys, x =>
    match A.integralY c mode const n (.fin y) with
    | some (.ok (B, _)) => areaAfter c mode const n B ys x
    | some (.error e) => some (.error e)
    | none => none

/-- The line with the value `1` at `0` and slope `2`. -/
def upLine : Crv := Line.crv ⟨(0, 1), .fin 2⟩

/-! ## C159 -/

theorem isInf_max_pinf (m : ℚ) : Crv.resolve (some .pinf) (some (.fin m)) = some .pinf := by
  simp [Crv.resolve]

theorem unbroken_next {x l : ℚ} (h : x < l) (m : ℚ) :
    Crv.baseNext Iv.infinite (some .pinf) (.fin x) (some (.fin m)) (some (.fin l)) = .ok (some (.fin l)) := by
  have hl : (Ext.fin l < Iv.infinite.hi) := Ext.fin_lt_pinf l
  have hc : Iv.infinite.contains (.fin l) (enforceStart := false) = true := by rfl
  unfold Crv.baseNext
  rw [isInf_max_pinf]
  simp only [show Ext.isInf Ext.pinf = true from rfl, if_true, hl, hc, Bool.not_true, Bool.false_eq_true, if_false]

/-- C159: a line that is not upright is such a curve. -/
theorem C159_line (m : ℚ) (x0 y0 s : ℚ) :
    Unbroken m (fun x => y0 + s * (x - x0)) (Line.crv ⟨(x0, y0), .fin s⟩) where
  lo := rfl
  dom _ := rfl
  val x := by simp [Line.crv, Line.y, Num.add, Num.mul, Num.sub, Num.neg, Num.ofExt, sub_eq_add_neg]
  next _ _ h := unbroken_next h m

/-- C159: and a constant. -/
theorem C159_constant (m v : ℚ) : Unbroken m (fun _ => v) (Crv.constant (.fin v)) where
  lo := rfl
  dom _ := rfl
  val _ := rfl
  next _ _ h := unbroken_next h m

/-- C159: an accumulator over a curve without knots answers with the fold over the positions asked for so far, as far as
they remained. -/
theorem C159_answer (hm : 0 < m) (hc : Unbroken m g c) (hf : FollowsAt g m t G) (h : Inquired c t m i u xs A) {x : ℚ}
    (hfit : AskedFit m u (xs ++ [x])) {n : ℕ} (hn : 2 ≤ n) :
    (A.queryBy c t n (.fin x)).map (fun r => r.map Prod.snd) =
      some (match runRule G [] [] (sampledAt g (visited (xs ++ [x]))) with
        | (out, none) => .ok (valueAt i out x)
        | (_, some e) => .error e) := by
  have hA := Sane.inquired hm hc hf h fun pre hp => hfit pre (hp.trans (List.prefix_append _ _))
  have hfx := Fit.sampledAt hfit (List.prefix_refl _) g
  rw [visited_snoc] at hfx ⊢
  rcases hA.queryBy hm hc hf hfx hn with ⟨e, h1, h2⟩ | ⟨B, h1, h2, _⟩
  · rw [h2]
    generalize runRule G [] [] (sampledAt g (visit (visited xs) x)) = r at h1
    obtain ⟨r1, r2⟩ := r
    cases h1; rfl
  · rw [h2]
    generalize runRule G [] [] (sampledAt g (visit (visited xs) x)) = r at h1
    obtain ⟨r1, r2⟩ := r
    cases h1; rfl

theorem scanLoopBy_plain (c : Crv) (t : PTfm) (x : ℚ) (n : ℕ) (A : CScan) :
    scanLoopBy c (fun _ => t) x n A = CScan.scanLoop c t x n A := by
  induction n generalizing A with
  | zero => rfl
  | succ n ih => unfold scanLoopBy CScan.scanLoop; simp only [ih]; rfl

/-- C159: the scan is the one of C92. -/
theorem C159_same (c : Crv) (t : PTfm) (n : ℕ) (A : CScan) (x : Ext) : A.queryBy c (fun _ => t) n x = A.query c t n x := by
  unfold CScan.queryBy CScan.query CScan.scan
  simp only [scanLoopBy_plain]
  rfl

/-- C159: the moving averages are accumulators of this kind. -/
theorem C159_plain (g : ℚ → ℚ) (m : ℚ) (t : PTfm) : FollowsAt g m (fun _ => t) (plainRule t) := by
  intro acc ks x _ _ _
  simp [plainRule, sampledAt_snoc]

/-- C159: the first of the positions that remain is the least that was ever asked for. -/
theorem C159_least (xs : List ℚ) {a : ℚ} (h : (visited xs).head? = some a) : a ∈ xs ∧ ∀ x ∈ xs, a ≤ x := by
  induction xs using List.reverseRecOn generalizing a with
  | nil => cases h
  | append_singleton xs x ih =>
    rw [visited_snoc] at h
    cases hh : (visited xs).head? with
    | none =>
      have hv : visited xs = [] := by simpa using hh
      have hx : xs = [] := by
        rcases List.eq_nil_or_concat xs with rfl | ⟨ys, y, rfl⟩
        · rfl
        · rw [List.concat_eq_append, visited_snoc] at hv
          unfold visit at hv
          split at hv
          · split_ifs at hv
            · simp at hv
            · rename_i h1 _ _ _; rw [hv] at h1; cases h1
          · cases hv
      subst hx
      rw [hv] at h
      cases h; simp
    | some b =>
      obtain ⟨h1, h2⟩ := ih hh
      cases hl : (visited xs).getLast? with
      | none =>
        have : visited xs = [] := by simpa using hl
        rw [this] at hh; cases hh
      | some e =>
        simp only [visit, hh, hl] at h
        split_ifs at h with h3 h4
        · cases h
          refine ⟨by simp, fun y hy => ?_⟩
          rcases List.mem_append.1 hy with hy | hy
          · exact h3.le.trans (h2 y hy)
          · simp at hy; rw [hy]
        · rw [List.head?_append, hh] at h
          cases h
          refine ⟨by simp [h1], fun y hy => ?_⟩
          rcases List.mem_append.1 hy with hy | hy
          · exact h2 y hy
          · simp at hy; rw [hy]; exact not_lt.1 h3
        · rw [hh] at h
          cases h
          refine ⟨by simp [h1], fun y hy => ?_⟩
          rcases List.mem_append.1 hy with hy | hy
          · exact h2 y hy
          · simp at hy; rw [hy]; exact not_lt.1 h3

theorem visited_ne (xs : List ℚ) (x : ℚ) : visited (xs ++ [x]) ≠ [] := by
  rw [visited_snoc]
  unfold visit
  split
  · rename_i h1 _
    split_ifs
    · simp
    · simp
    · intro h0; rw [h0] at h1; cases h1
  · simp

/-- C159: and the position asked for last is among them or before the last of them. -/
theorem C159_reached (xs : List ℚ) (x : ℚ) : x ∈ visited (xs ++ [x]) ∨
    ∃ a b, (visited xs).head? = some a ∧ (visited xs).getLast? = some b ∧ a ≤ x ∧ x ≤ b ∧
      visited (xs ++ [x]) = visited xs := by
  rw [visited_snoc]
  unfold visit
  split
  · rename_i a b h1 h2
    split_ifs with h3 h4
    · simp
    · simp
    · exact Or.inr ⟨a, b, h1, h2, not_lt.1 h3, not_lt.1 h4, rfl⟩
  · simp

example : visited [0, 2, 1, 4] = [0, 2, 4] ∧ visited [0, 2, 1, -3, 4] = [-3, 4] := by decide +kernel
example : Unbroken 1 (fun x => 1 + 2 * (x - 0)) upLine := C159_line 1 0 1 2

/-- C159: a moving average of a line depends on the positions asked for, and so does a moving average of a constant not. -/
theorem C159_negation :
    (let t := emaBy (1 / 2)
     askedAfter upLine t 9 (CScan.new (1 / 100000) .linear false) [0] 2 = some (.ok (some 3)) ∧
     askedAfter upLine t 9 (CScan.new (1 / 100000) .linear false) [0, 1] 2 = some (.ok (some (7 / 2))) ∧
     askedAfter upLine t 9 (CScan.new (1 / 100000) .linear false) [0, 1, -1] 2 = some (.ok (some 2)) ∧
     askedAfter upLine t 9 (CScan.new (1 / 100000) .linear false) [] 2 = some (.ok (some 5)) ∧
     askedAfter upLine t 9 (CScan.new (1 / 100000) .linear true) [0, 1] 3 = some (.error .nonRegular)) := by decide +kernel

/-! ## C160 -/

/-- One step of the integral. -/
theorem integralBy_step (hm : minStepQ ≤ m) (mode : Interp) (hc : Unbroken m g c) :
    FollowsAt g m (integralBy c mode) (stepRule (areaStep mode)) := by
  intro acc ks x h2 hx hg
  have h0 : (0 : ℚ) < minStepQ := by norm_num [minStepQ]
  have hasc : Ascending (sampledAt g (ks ++ [x])) := ascending_of_gapped (h0.trans_le hm) hg
  rw [sampledAt_snoc] at hg hasc ⊢
  obtain ⟨ha1, ha2, ha3⟩ := List.pairwise_append.1 hasc
  simp only [stepRule, List.getLast?_append, List.getLast?_singleton, Option.some_or, List.dropLast_concat, integralBy,
    areaStep]
  have hx' : acc.points.map Prod.fst = (sampledAt g ks).map Prod.fst := hx.trans (sampledAt_xs g ks).symm
  have hprev : acc.xPrevious (.fin x) (some minStepQ) = .ok ((sampledAt g ks).getLast?.map fun q => .fin q.1) := by
    have hxmem : ∀ q ∈ acc.points, ∃ r ∈ sampledAt g ks, r.1 = q.1 := by
      intro q hq
      have : q.1 ∈ acc.points.map Prod.fst := List.mem_map_of_mem hq
      rw [hx'] at this
      exact List.mem_map.1 this
    have hxmem' : ∀ q ∈ sampledAt g ks, ∃ r ∈ acc.points, r.1 = q.1 := by
      intro q hq
      have : q.1 ∈ (sampledAt g ks).map Prod.fst := List.mem_map_of_mem hq
      rw [← hx'] at this
      exact List.mem_map.1 this
    rcases Props.C07_x_previous h2 x minStepQ with ⟨z, h3, ⟨q, hq, rfl, hle⟩, h4⟩ | ⟨h3, h4⟩
    · rw [h3]
      obtain ⟨r, hr, hrq⟩ := hxmem q hq
      cases hl : (sampledAt g ks).getLast? with
      | none => rw [List.getLast?_eq_none_iff.1 hl] at hr; simp at hr
      | some w =>
        have hw := List.mem_of_getLast? hl
        have hgap := gapped_pair hg hl
        obtain ⟨w', hw', hww⟩ := hxmem' w hw
        have h5 : w.1 ≤ q.1 := h4 ⟨w', hw', hww, by linarith⟩
        have h6 : r.1 ≤ w.1 := le_getLast ha1 hl hr
        have : q.1 = w.1 := by linarith
        simp [this]
    · rw [h3]
      cases hl : (sampledAt g ks).getLast? with
      | none => rfl
      | some w =>
        have hw := List.mem_of_getLast? hl
        have hgap := gapped_pair hg hl
        obtain ⟨w', hw', hww⟩ := hxmem' w hw
        have := h4 w' hw'
        linarith
  rw [hprev]
  cases hl : (sampledAt g ks).getLast? with
  | none => rfl
  | some w =>
    have hw := List.mem_of_getLast? hl
    have hlt : w.1 < x := ha3 w hw (x, some (g x)) (by simp)
    obtain ⟨k, _, rfl⟩ : ∃ k ∈ ks, (k, some (g k)) = w := by simpa [sampledAt] using hw
    have hy : (c.y (.fin k) >>= rational) = .ok (some (g k)) := by rw [hc.val]; rfl
    simp only [Option.map_some, hy, segmentArea_eq mode (g k) (g x) hlt.ne]

/-- C160: the integral of a curve without knots is the constant plus the sum of the areas between the positions asked for,
as far as they remained, and runs straight between them. -/
theorem C160_sum (hm : minStepQ ≤ m) (mode : Interp) (const : ℚ) (hc : Unbroken m g c)
    (h : Inquired c (integralBy c mode) m i u xs A) {x : ℚ} (hfit : AskedFit m u (xs ++ [x])) {n : ℕ} (hn : 2 ≤ n) :
    (A.integralY c mode const n (.fin x)).map (fun r => r.map Prod.snd) =
      some (.ok ((valueAt i (runRule (stepRule (areaStep mode)) [] [] (sampledAt g (visited (xs ++ [x])))).1 x).map
        (· + const))) := by
  have h0 : (0 : ℚ) < minStepQ := by norm_num [minStepQ]
  have := C159_answer (h0.trans_le hm) hc (integralBy_step hm mode hc) h hfit hn
  obtain ⟨out, ho, _⟩ := runRule_step (areaStep mode) (sampledAt g (visited (xs ++ [x])))
  rw [ho] at this ⊢
  simp only at this
  unfold integralY
  cases hq : A.queryBy c (integralBy c mode) n (.fin x) with
  | none => rw [hq] at this; cases this
  | some r =>
    rw [hq] at this
    cases r with
    | error e => cases this
    | ok r =>
      simp only [Option.map_some, Except.map, Option.some.injEq, Except.ok.injEq] at this ⊢
      rw [this]

/-- Where the areas are exact, so are the sums. -/
theorem run_exact {mode : Interp} {F : ℚ → ℚ} (hF : ∀ a b, areaBetween mode a (g a) b (g b) = F b - F a) (a : ℚ)
    (ks : List ℚ) : runRule (stepRule (areaStep mode)) [] [] (sampledAt g (a :: ks)) =
      ((a :: ks).map fun x => (x, some (F x - F a)), none) := by
  induction ks using List.reverseRecOn with
  | nil => simp [sampledAt, runRule, stepRule, areaStep, lastOut]
  | append_singleton ks x ih =>
    rw [← List.cons_append, sampledAt_snoc]
    refine (runRule_snoc_ok ih (v := some (F x - F a)) ?_).trans ?_
    · rcases List.eq_nil_or_concat ks with rfl | ⟨ks', k, rfl⟩
      · simp only [stepRule, sampledAt, areaStep, lastOut]
        simp [hF]
      · simp only [List.concat_eq_append, ← List.cons_append, sampledAt_snoc]
        rw [List.map_append]
        simp only [stepRule, areaStep, lastOut, List.map_singleton, List.getLast?_append, List.getLast?_singleton,
          Option.some_or, List.dropLast_concat, Option.map_some, Option.getD_some, hF]
        congr 2
        ring
    · simp

/-- The integral where the areas are exact: at the positions that remained, and between them. -/
theorem exact_answer {mode : Interp} {F : ℚ → ℚ} (hF : ∀ a b, areaBetween mode a (g a) b (g b) = F b - F a)
    (hm : minStepQ ≤ m) (const : ℚ) (hc : Unbroken m g c) (h : Inquired c (integralBy c mode) m .linear u xs A) {x : ℚ}
    (hfit : AskedFit m u (xs ++ [x])) {n : ℕ} (hn : 2 ≤ n) {a : ℚ} (ha : (visited (xs ++ [x])).head? = some a) :
    (x ∈ visited (xs ++ [x]) → (A.integralY c mode const n (.fin x)).map (fun r => r.map Prod.snd) =
      some (.ok (some (F x - F a + const)))) ∧
    (∀ k p q, (visited (xs ++ [x]))[k]? = some p → (visited (xs ++ [x]))[k + 1]? = some q → p < x → x < q →
      (A.integralY c mode const n (.fin x)).map (fun r => r.map Prod.snd) =
      some (.ok (some ((1 - (x - p) / (q - p)) * F p + (x - p) / (q - p) * F q - F a + const)))) := by
  have h0 : (0 : ℚ) < minStepQ := by norm_num [minStepQ]
  have hs := C160_sum hm mode const hc h hfit hn
  obtain ⟨ks, hks⟩ : ∃ ks, visited (xs ++ [x]) = a :: ks := by
    cases hv : visited (xs ++ [x]) with
    | nil => rw [hv] at ha; cases ha
    | cons b bs => rw [hv] at ha; cases ha; exact ⟨bs, rfl⟩
  have hasc : Ascending ((a :: ks).map fun x => ((x, some (F x - F a)) : Pt ℚ)) := by
    have := ascending_of_gapped (h0.trans_le hm) (Fit.sampledAt hfit (List.prefix_refl _) g).gapped
    rw [hks] at this
    unfold Ascending sampledAt at *
    rw [List.pairwise_map] at this ⊢
    exact this
  rw [hks, run_exact hF] at hs
  rw [hks]
  refine ⟨fun hx => ?_, fun k p q hp hq h1 h2 => ?_⟩
  · obtain ⟨k, hk⟩ := List.getElem?_of_mem hx
    rw [hs, valueAt_knot .linear hasc (k := k) (p := (x, some (F x - F a))) (by rw [List.getElem?_map, hk]; rfl)]
    rfl
  · rw [hs, valueAt_gap .linear hasc (k := k) (p := (p, some (F p - F a))) (q := (q, some (F q - F a)))
      (by rw [List.getElem?_map, hp]; rfl) (by rw [List.getElem?_map, hq]; rfl) h1 h2]
    simp only [between, Lerp.lerp, Option.map_some]
    congr 3
    ring

section
variable {x0 y0 s : ℚ}

/-- Area under the line from `a` to `b`. -/
def lineArea (x0 y0 s a b : ℚ) : ℚ := (y0 - s * x0) * (b - a) + s * (b ^ 2 - a ^ 2) / 2

/-- C160: that is the integral of calculus. -/
theorem C160_area (x0 y0 s a b : ℚ) :
    ((lineArea x0 y0 s a b : ℚ) : ℝ) = ∫ t in (a : ℝ)..b, ((y0 : ℝ) + s * (t - x0)) := by
  have e : ∀ t : ℝ, (y0 : ℝ) + s * (t - x0) = ((y0 : ℝ) - s * x0) + s * t := fun t => by ring
  simp only [e]
  rw [intervalIntegral.integral_add (by simp) (Continuous.intervalIntegrable (by fun_prop) _ _),
    intervalIntegral.integral_const_mul, integral_id, intervalIntegral.integral_const]
  simp only [lineArea, smul_eq_mul]
  push_cast
  ring

theorem line_exact (x0 y0 s a b : ℚ) : areaBetween .linear a (y0 + s * (a - x0)) b (y0 + s * (b - x0)) =
    ((y0 - s * x0) * b + s * b ^ 2 / 2) - ((y0 - s * x0) * a + s * a ^ 2 / 2) := by
  simp only [areaBetween]; ring

/-- C160: the integral of a line is the constant plus the area from the least position ever asked for, at positions that
remained, in particular at a position after all others. -/
theorem C160_line_partial (hm : minStepQ ≤ m) (const : ℚ)
    (h : Inquired (Line.crv ⟨(x0, y0), .fin s⟩) (integralBy (Line.crv ⟨(x0, y0), .fin s⟩) .linear) m .linear u xs A) {x : ℚ}
    (hfit : AskedFit m u (xs ++ [x])) {n : ℕ} (hn : 2 ≤ n) {a : ℚ} (ha : (visited (xs ++ [x])).head? = some a)
    (hx : x ∈ visited (xs ++ [x])) :
    (A.integralY (Line.crv ⟨(x0, y0), .fin s⟩) .linear const n (.fin x)).map (fun r => r.map Prod.snd) =
      some (.ok (some (lineArea x0 y0 s a x + const))) := by
  rw [(exact_answer (fun a b => line_exact x0 y0 s a b) hm const (C159_line m x0 y0 s) h hfit hn ha).1 hx]
  congr 3
  simp only [lineArea]; ring

/-- C160: between two of them it is off by half the slope times the product of the distances to them. -/
theorem C160_between_partial (hm : minStepQ ≤ m) (const : ℚ)
    (h : Inquired (Line.crv ⟨(x0, y0), .fin s⟩) (integralBy (Line.crv ⟨(x0, y0), .fin s⟩) .linear) m .linear u xs A) {x : ℚ}
    (hfit : AskedFit m u (xs ++ [x])) {n : ℕ} (hn : 2 ≤ n) {a : ℚ} (ha : (visited (xs ++ [x])).head? = some a)
    {k : ℕ} {p q : ℚ} (hp : (visited (xs ++ [x]))[k]? = some p) (hq : (visited (xs ++ [x]))[k + 1]? = some q)
    (h1 : p < x) (h2 : x < q) :
    (A.integralY (Line.crv ⟨(x0, y0), .fin s⟩) .linear const n (.fin x)).map (fun r => r.map Prod.snd) =
      some (.ok (some (lineArea x0 y0 s a x + const + s / 2 * ((x - p) * (q - x))))) := by
  rw [(exact_answer (fun a b => line_exact x0 y0 s a b) hm const (C159_line m x0 y0 s) h hfit hn ha).2 k p q hp hq h1 h2]
  congr 3
  have : q - p ≠ 0 := by linarith
  simp only [lineArea]
  field_simp
  ring

end

/-- C160: the integral of a constant is the constant times the distance from the least position ever asked for, at every
position and in every mode. -/
theorem C160_constant_partial (hm : minStepQ ≤ m) (mode : Interp) (const v : ℚ)
    (h : Inquired (Crv.constant (.fin v)) (integralBy (Crv.constant (.fin v)) mode) m .linear u xs A) {x : ℚ}
    (hfit : AskedFit m u (xs ++ [x])) {n : ℕ} (hn : 2 ≤ n) {a : ℚ} (ha : (visited (xs ++ [x])).head? = some a) :
    (A.integralY (Crv.constant (.fin v)) mode const n (.fin x)).map (fun r => r.map Prod.snd) =
      some (.ok (some (v * (x - a) + const))) := by
  have h0 : (0 : ℚ) < minStepQ := by norm_num [minStepQ]
  have hF : ∀ a b : ℚ, areaBetween mode a v b v = v * b - v * a := by
    intro a b; cases mode <;> simp only [areaBetween] <;> ring
  obtain ⟨e1, e2⟩ := exact_answer (g := fun _ => v) (F := fun x => v * x) hF hm const (C159_constant m v) h hfit hn ha
  by_cases hx : x ∈ visited (xs ++ [x])
  · rw [e1 hx]; congr 3; ring
  · obtain ⟨a', b, h1, h2, h3, h4, h5⟩ := (C159_reached xs x).resolve_left hx
    rw [h5] at hx e2
    have hasc : (visited xs).Pairwise (· < ·) := by
      have := ascending_of_gapped (h0.trans_le hm) (Fit.sampledAt hfit (List.prefix_append xs [x]) (fun _ => v)).gapped
      unfold Ascending sampledAt at this
      rw [List.pairwise_map] at this
      exact this
    obtain ⟨k, p, q, hp, hq, hpx, hxq⟩ := Spec.exists_gap hasc h1 h2 h3 h4 hx
    rw [e2 k p q hp hq hpx hxq]
    have : q - p ≠ 0 := by linarith
    congr 3
    field_simp
    ring

theorem visited_first {xs : List ℚ} {x : ℚ} (h : ∀ y ∈ xs, x < y) : visited (xs ++ [x]) = [x] := by
  rw [visited_snoc]
  unfold visit
  split
  · rename_i a b h1 _
    rw [if_pos (h a (C159_least xs h1).1)]
  · rfl

/-- C160: the first position asked for gets the constant, and so does every position before all others. -/
theorem C160_first (hm : minStepQ ≤ m) (mode : Interp) (const : ℚ) (hc : Unbroken m g c)
    (h : Inquired c (integralBy c mode) m i u xs A) (hfit : AskedFit m u xs) {x : ℚ} (hx : ∀ y ∈ xs, x < y) {n : ℕ}
    (hn : 2 ≤ n) :
    (A.integralY c mode const n (.fin x)).map (fun r => r.map Prod.snd) = some (.ok (some const)) := by
  have hv := visited_first hx
  have hfit' : AskedFit m u (xs ++ [x]) := by
    intro pre hp
    rcases List.prefix_concat_iff.1 hp with rfl | hp
    · rw [hv]
      refine ⟨.singleton _, ?_, fun _ => ⟨0, .singleton _⟩⟩
      intro pre p q r hp
      have := hp.length_le
      simp at this
    · exact hfit pre hp
  rw [C160_sum hm mode const hc h hfit' hn, hv]
  simp [sampledAt, runRule, stepRule, areaStep, lastOut, valueAt]

/-- Whoever demands equal gaps must ask for equally spaced positions. -/
theorem append_uneven {s : Pts ℚ} (h : Honest s) (hf : s.force = true) {p : Pt ℚ} (hlast : ∀ q ∈ s.points, q.1 < p.1)
    (hu : EquallySpaced s.points) (hn : ¬ EquallySpaced (s.points ++ [p])) (r : Reads) :
    (s.append p r).err = some .nonRegular := by
  cases hs : s.points with
  | nil => rw [hs] at hn; exact absurd (equallySpaced_of_length_le_two (by simp)) hn
  | cons a as =>
    have hl1 : ((a :: as).getLast (by simp)).1 < p.1 := hlast _ (by rw [hs]; exact List.getLast_mem _)
    have key : spacing s.interval s.points p [] = false := by
      rw [Bool.eq_false_iff]
      intro h0
      rw [spacing_one h.base.intv hs] at h0
      rcases h0 with rfl | ⟨pre, q, rfl, hq⟩
      · rw [hs] at hn; exact hn (equallySpaced_of_length_le_two (by simp))
      · apply hn
        obtain ⟨d, hd⟩ := hu
        rw [hs] at hd
        have h2 := chain_eq_total a (pre ++ [q]) hd
        have h4 : (a :: (pre ++ [q])).getLast (by simp) = q := by rw [List.getLast_cons (by simp)]; simp
        rw [h4] at h2
        have hpos : (0 : ℚ) < pre.length + 1 := by positivity
        have h5 : p.1 - q.1 = d := by
          rw [hq, h2]
          simp only [List.length_append, List.length_singleton]
          push_cast
          field_simp
          ring
        refine ⟨d, ?_⟩
        rw [hs, List.isChain_append]
        refine ⟨hd, .singleton _, ?_⟩
        intro y hy z hz
        have hy' : (a :: (pre ++ [q])).getLast? = some q := by rw [← List.cons_append, List.getLast?_append]; simp
        rw [hy'] at hy
        cases hy
        simp at hz
        rw [← hz]
        exact h5
    rcases appendList_cons (p := p) (ps := []) h.base r hs (by simp [Ascending]) hl1 with ⟨_, _, h1⟩ | ⟨h1, _, _⟩
    · exact h1.err
    · exact absurd ⟨hf, key⟩ h1

/-- C160: with `uniform`, which is the default, a position further on whose gap differs from the earlier ones raises. -/
theorem C160_uneven (hm : minStepQ ≤ m) (mode : Interp) (const : ℚ) (hc : Unbroken m g c)
    (h : Inquired c (integralBy c mode) m i true xs A) (hfit : AskedFit m true xs) {x b : ℚ}
    (hb : (visited xs).getLast? = some b) (hx : b + m ≤ x)
    (hu : ¬ EquallySpaced ((visited xs ++ [x]).map fun x => ((x, none) : Pt ℚ))) {n : ℕ} (hn : 2 ≤ n) :
    A.integralY c mode const n (.fin x) = some (.error .nonRegular) := by
  have h0 : (0 : ℚ) < minStepQ := by norm_num [minStepQ]
  have hm0 := h0.trans_le hm
  have hA := Sane.inquired hm0 hc (integralBy_step hm mode hc) h hfit
  obtain ⟨n, rfl⟩ : ∃ k, n = k + 2 := ⟨n - 2, by omega⟩
  have hcur : A.current = some b := by rw [hA.cur, ← List.getLast?_map, sampledAt_xs, hb]
  have hbx : b < x := by linarith
  have hxs : A.acc.points.map Prod.fst = visited xs := hA.accXs.trans (sampledAt_xs g _)
  have hasc := (List.pairwise_append.1 (hA.asc hm0)).1
  have hbefore : ∀ q ∈ A.acc.points, q.1 < x := by
    intro q hq
    have : q.1 ∈ A.acc.points.map Prod.fst := List.mem_map_of_mem hq
    rw [hA.accXs] at this
    obtain ⟨q', hq', hqq⟩ := List.mem_map.1 this
    have hl : (sampledAt g (visited xs)).getLast? = some (b, some (g b)) := by
      simp [sampledAt, hb]
    have := Accum.le_getLast hasc hl hq'
    rw [← hqq]
    exact lt_of_le_of_lt this hbx
  have hgap : Gapped m (sampledAt g (visited xs ++ [x])) := by
    rw [sampledAt_snoc]
    unfold Gapped
    rw [List.isChain_append]
    refine ⟨(Fit.sampledAt hfit (List.prefix_refl _) g).gapped, .singleton _, ?_⟩
    intro y hy z hz
    have hl : (sampledAt g (visited xs)).getLast? = some (b, some (g b)) := by simp [sampledAt, hb]
    rw [hl] at hy
    cases hy
    simp at hz
    rw [← hz]
    exact hx
  obtain ⟨v, hv⟩ : ∃ v, integralBy c mode A.acc.touch x (some (g x)) (lastOut A.acc.points) = .ok v := by
    have := integralBy_step hm mode hc A.acc.touch (visited xs) x (.read hA.acc) hxs hgap
    have h1 : lastOut A.acc.touch.points = lastOut A.acc.points := rfl
    rw [h1] at this
    rw [this]
    simp [stepRule, sampledAt_snoc]
  have hlast : Accum.lastOf A.acc.touch x = .ok (lastOut A.acc.points) := lastOf_eq (.read hA.acc) hbefore
  have herr : (A.acc.touch.append (x, v) Accum.quiet).err = some .nonRegular := by
    refine append_uneven (s := A.acc.touch) (p := (x, v)) (.read hA.acc) hA.force hbefore ?_ ?_ _
    · exact EquallySpaced.of_xs (b := sampledAt g (visited xs)) hA.accXs
        ((Fit.sampledAt hfit (List.prefix_refl _) g).uniform rfl)
    · intro hes
      apply hu
      refine EquallySpaced.of_xs (b := A.acc.touch.points ++ [(x, v)]) ?_ hes
      have hxs' : A.acc.touch.points.map Prod.fst = visited xs := hxs
      have e : (A.acc.touch.points ++ [(x, v)]).map Prod.fst = visited xs ++ [x] := by rw [List.map_append, hxs']; rfl
      rw [e]
      simp [Function.comp_def]
  have hacc : A.accumulate (integralBy c mode A.acc.touch) x (some (g x)) = .error .nonRegular := by
    simp only [CScan.accumulate, hlast, hv, bind, Except.bind, herr]
  have hnp : A.nextPos c x = .ok (A, some (.fin x)) := by
    have hnone : A.acc.xNext (.fin b) (some m) = .ok none := by
      rcases Props.C06_x_next hA.acc b m with ⟨z, _, ⟨r, hr, hrz, hz⟩, _⟩ | ⟨h1, _⟩
      · exfalso
        have hmem : r.1 ∈ A.acc.points.map Prod.fst := List.mem_map_of_mem hr
        rw [hA.accXs] at hmem
        obtain ⟨r', hr', hrr⟩ := List.mem_map.1 hmem
        have hl : (sampledAt g (visited xs)).getLast? = some (b, some (g b)) := by simp [sampledAt, hb]
        have h7 := Accum.le_getLast hasc hl hr'
        simp only at h7
        linarith
      · exact h1
    simp only [CScan.nextPos, hcur, CScan.xNext, hA.step, hnone, hc.next b x hbx, bind, Except.bind, Accum.pyOr, pure,
      Except.pure]
  have hy : (c.y (.fin x) >>= rational) = .ok (some (g x)) := by rw [hc.val]; rfl
  have hstart : A.scanStart.any (fun s => decide (x < s)) = false := by
    have hne : sampledAt g (visited xs) ≠ [] := by
      intro h0
      have : visited xs = [] := by simpa [sampledAt] using h0
      rw [this] at hb; cases hb
    rw [hA.start hne, ← List.head?_map, sampledAt_xs]
    cases hh : (visited xs).head? with
    | none => rfl
    | some a =>
      have hl : (sampledAt g (visited xs)).getLast? = some (b, some (g b)) := by simp [sampledAt, hb]
      have hmem : (a, some (g a)) ∈ sampledAt g (visited xs) := by
        simp only [sampledAt, List.mem_map]
        exact ⟨a, List.mem_of_head? hh, rfl⟩
      have h7 := Accum.le_getLast hasc hl hmem
      simp only at h7
      simp only [Option.any_some, decide_eq_false_iff_not, not_lt]
      linarith
  have hc1 : A.current.all (fun k => decide (k < x)) = true := by rw [hcur]; simpa using hbx
  have hc2 : A.current.any (fun j => decide (x ≤ j)) = false := by rw [hcur]; simpa using hbx
  simp only [integralY, CScan.queryBy, hc.dom, Bool.not_true, Bool.false_eq_true, if_false, hstart, scanLoopBy, hc1, if_true,
    hnp, hc2, hy, hacc, Option.map_some, Except.map]

/-- `integral_test.test_basic` and the like: one position after another. -/
example : areaAfter upLine .linear 0 9 (CScan.new (1 / 100000) .linear true) [0, 1] 2 = some (.ok (some 6)) ∧
    areaAfter upLine .linear 7 9 (CScan.new (1 / 100000) .linear true) [] 2 = some (.ok (some 7)) ∧
    areaAfter (.constant (.fin 3)) .previous 1 9 (CScan.new (1 / 100000) .linear false) [4, 2, 5] (7 / 2) =
      some (.ok (some (11 / 2))) := by decide +kernel
example : AskedFit 1 false [0, 2, 1] := by
  intro pre hp
  have hv : visited pre = [] ∨ visited pre = [0] ∨ visited pre = [0, 2] := by
    obtain ⟨t, ht⟩ := hp
    match pre, ht with
    | [], _ => exact Or.inl rfl
    | [_], ht => cases ht; exact Or.inr (Or.inl rfl)
    | [_, _], ht => cases ht; exact Or.inr (Or.inr (by decide +kernel))
    | [_, _, _], ht => cases ht; exact Or.inr (Or.inr (by decide +kernel))
  rcases hv with h | h | h <;> rw [h] <;>
    refine ⟨by simp [Gapped]; try norm_num, ?_, by simp⟩ <;>
    intro pre p q r hp <;> have := hp.length_le <;> simp at this

/-- C160 fails in general: the integral of a line depends on what was asked before; positions closer than `MIN_STEP` count
areas twice; and a gap that equals the average of the others by accident spoils the answers. -/
theorem C160_negation :
    (let new := CScan.new (1 / 100000) .linear false
     areaAfter upLine .linear 0 9 new [0] 1 = some (.ok (some 2)) ∧
     areaAfter upLine .linear 0 9 new [0, 2] 1 = some (.ok (some 3)) ∧
     areaAfter upLine .linear 0 9 new [0, 2, -1] 1 = some (.ok (some 2)) ∧
     areaAfter upLine .linear 0 9 new [0, 1] (1 + 1 / 1000000) = some (.ok (some (4000003000001 / 1000000000000))) ∧
     areaAfter upLine .linear 0 9 new [0, 1, 3, 9 / 2] 1 ≠ some (.ok (some 2)) ∧
     areaAfter upLine .linear 0 9 (CScan.new (1 / 100000) .linear true) [0, 1] 3 = some (.error .nonRegular)) := by
  decide +kernel

/-! ## Further examples -/

/-- The hypotheses of C159 and C160 hold together: a line asked at 0 and 2, then at 1. -/
theorem asked_line : ∃ A, Inquired upLine (integralBy upLine .linear) 1 .linear false [0, 2] A := by
  have h : (match (CScan.new 1 .linear false).queryBy upLine (integralBy upLine .linear) 9 (.fin 0) with
      | some (.ok (B, _)) => match B.queryBy upLine (integralBy upLine .linear) 9 (.fin 2) with
        | some (.ok _) => true
        | _ => false
      | _ => false) = true := by decide +kernel
  split at h
  · rename_i B v hB
    split at h
    · rename_i r hC
      obtain ⟨C, w⟩ := r
      exact ⟨C, .ask (xs := [0]) (.ask (xs := []) .new hB) hC⟩
    · cases h
  · cases h

theorem asked_fit : AskedFit 1 false [0, 2, 1] := by
  intro pre hp
  have hv : visited pre = [] ∨ visited pre = [0] ∨ visited pre = [0, 2] := by
    obtain ⟨t, ht⟩ := hp
    match pre, ht with
    | [], _ => exact Or.inl rfl
    | [_], ht => cases ht; exact Or.inr (Or.inl rfl)
    | [_, _], ht => cases ht; exact Or.inr (Or.inr (by decide +kernel))
    | [_, _, _], ht => cases ht; exact Or.inr (Or.inr (by decide +kernel))
  rcases hv with h | h | h <;> rw [h] <;>
    refine ⟨by simp [Gapped]; try norm_num, ?_, by simp⟩ <;>
    intro pre p q r hp <;> have := hp.length_le <;> simp at this

/-- Between 0 and 2 the integral of 1 + 2x is above the area by (x - 0)(2 - x): at 1 it is 3 instead of 2. -/
example : ∃ A, Inquired upLine (integralBy upLine .linear) 1 .linear false [0, 2] A ∧
    (A.integralY upLine .linear 0 9 (.fin 1)).map (fun r => r.map Prod.snd) = some (.ok (some 3)) := by
  obtain ⟨A, h⟩ := asked_line
  have hv : visited ([0, 2] ++ [1]) = [0, 2] := by decide +kernel
  refine ⟨A, h, ?_⟩
  have := C160_between_partial (x := 1) (a := 0) (k := 0) (p := 0) (q := 2) (n := 9) (by norm_num [minStepQ]) 0 h asked_fit (by norm_num)
    (by rw [hv]; rfl) (by rw [hv]; rfl) (by rw [hv]; rfl) (by norm_num) (by norm_num)
  refine this.trans ?_
  norm_num [lineArea]

/-- C160: before everything asked so far the integral is the constant. -/
example : ∃ A, Inquired upLine (integralBy upLine .linear) 1 .linear false [0, 2] A ∧
    (A.integralY upLine .linear 7 9 (.fin (-5))).map (fun r => r.map Prod.snd) = some (.ok (some 7)) := by
  obtain ⟨A, h⟩ := asked_line
  refine ⟨A, h, C160_first (by norm_num [minStepQ]) .linear 7 (C159_line 1 0 1 2) h ?_ (by norm_num) (by norm_num)⟩
  exact fun pre hp => asked_fit pre (hp.trans (List.prefix_append [0, 2] [1]))

example : lineArea 0 1 2 0 2 = 6 := by norm_num [lineArea]

/-- C160: where the curve has no value the sum stays as it was. -/
theorem C160_missing (c : Crv) (mode : Interp) (acc : Pts ℚ) (x : ℚ) (sum : Option ℚ) :
    integralBy c mode acc x none sum = .ok sum := rfl

/-- A curve with the values of a constant on `[0, 9]` except at 2: there the sum stays 3, and from there to 3 no area is added. -/
def withGap : Crv := Crv.generic (fun x => if x = .fin 2 then .ok none else .ok (some (.fin 3))) (Iv.closed 0 9)

example : areaAfter withGap .linear 0 9 (CScan.new 1 .linear false) [0, 1] 2 = some (.ok (some 3)) ∧
    areaAfter withGap .linear 0 9 (CScan.new 1 .linear false) [0, 1, 2] 3 = some (.ok (some 3)) ∧
    areaAfter withGap .linear 0 9 (CScan.new 1 .linear false) [0, 1, 2, 3] 4 = some (.ok (some 6)) := by
  refine ⟨?_, ?_, ?_⟩ <;> decide +kernel

end Props
end Curvepy
