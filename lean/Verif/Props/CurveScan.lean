import Verif.Lemmas.CurveScanSteps
import Verif.Props.ExtremasScan

/-!
# Properties C92, C93: accumulators over any curve
-/

namespace Curvepy
namespace Props
open Spec Pts CScan

/-! ### Concrete curves -/

/-- Answer at `x` after the queries `ys`. -/
def askedAfter (c : Crv) (t : PTfm) (n : ℕ) : CScan → List ℚ → ℚ → Option (Except Err (Option ℚ))
  | A, [], x => (A.query c t n (.fin x)).map fun r => r.map Prod.snd
  | A, y :: ys, x =>
    match A.query c t n (.fin y) with
    | some (.ok (B, _)) => askedAfter c t n B ys x
    | some (.error e) => some (.error e)
    | none => none

def sawPts : List (Pt ℚ) := [(0, some 1), (1, some 3), (2, some 2), (3, some 2)]
def saw : Crv := Crv.ofPoints (loose sawPts)
def sawMax : Crv := Crv.max [.curve saw, .number (.fin 0)]

theorem saw_honest : Honest (loose sawPts) :=
  loose_honest (by simp [Ascending, sawPts]; norm_num) ⟨1, by simp [sawPts]; norm_num⟩ (by decide +kernel)

/-! ## C92 -/

section
variable {c : Crv} {t : PTfm} {m : ℚ} {i : Interp} {u : Bool} {A : CScan} {Q : ℚ → Prop} {pts : List (Pt ℚ)}

/-- C92: an accumulator over any curve that shows its knots to whoever steps along it answers with the fold over the
knots, whatever was asked before. -/
theorem C92_fold_partial (hm : 0 < m) (hs : Stepped Q m c pts) (hf : Fit m u pts) (h : Asked Q c t m i u A) {x : ℚ}
    (hx : Q x) {n : ℕ} (hn : pts.length < n) :
    (A.query c t n (.fin x)).map (fun r => r.map Prod.snd) = some (accumulatedAt (plainRule t) i pts (.fin x)) := by
  rw [← hs.answer]
  have hs := hs.shown (ascending_of_gapped hm hf.gapped)
  obtain ⟨seen, todo, rfl, hA⟩ := Sane.asked hm hs hf h
  rcases hA.query hm hs hx hn with ⟨e, h1, h2⟩ | ⟨B, v, _, _, h1, h2, _⟩
  · rw [h1, h2]; rfl
  · rw [h1, h2]; rfl

/-- C92: with fewer iterations the model gives that answer or none. -/
theorem C92_iterations (hm : 0 < m) (hs : Stepped Q m c pts) (hf : Fit m u pts) (h : Asked Q c t m i u A) {x : ℚ}
    (hx : Q x) (n : ℕ) : A.query c t n (.fin x) = none ∨
    (A.query c t n (.fin x)).map (fun r => r.map Prod.snd) = some (accumulatedAt (plainRule t) i pts (.fin x)) := by
  cases hq : A.query c t n (.fin x) with
  | none => exact Or.inl rfl
  | some r =>
    right
    rw [← C92_fold_partial hm hs hf h hx (n := n + (pts.length + 1)) (by omega), query_more _ hq]

/-- C92: a list of points is such a curve, for all positions. -/
theorem C92_points {s : Pts ℚ} (hs : Honest s) (hne : s.points ≠ []) (hm : 0 < m) (hg : Gapped m s.points) :
    Stepped (fun _ => True) m (Crv.ofPoints s) s.points := stepped_points hs hne hm hg

/-- C92: and so is a mapped curve, with the mapped values. -/
theorem C92_map {out : List (Pt ℚ)} (hs : Stepped Q m c pts) {n : ℕ} {tfm : Ext → Option Num → Except Err (Option Num)}
    {ms : Ext} {d : Crv} (hd : c.map n tfm false ms = .ok d) (hms : Crv.mapStep c.minStep ms ≤ .fin m)
    (hv : List.Forall₂ (fun p q => q.1 = p.1 ∧ tfm (.fin p.1) (p.2.map .fin) = .ok (q.2.map .fin)) pts out) :
    Stepped Q m d out := stepped_map hs hd hms hv

/-- C92: and a curve combined with a number, but only for positions of knots. -/
theorem C92_number_partial {out : List (Pt ℚ)} (hs : Stepped Q m c pts) (hasc : Ascending pts)
    (hQ : ∀ p ∈ pts, Q p.1) (w : Num) (tfm : Ext → List (Option Num) → Except Err (Option Num))
    (hv : List.Forall₂ (fun p q => q.1 = p.1 ∧ tfm (.fin p.1) [p.2.map .fin, some w] = .ok (q.2.map .fin)) pts out) :
    Stepped (fun x => ∃ p ∈ out, p.1 = x) m (Crv.aggregate [c, .constant w] tfm) out :=
  stepped_number hs hasc hQ w tfm hv

example : Stepped (fun _ => True) (1 / 100000) saw sawPts := by
  have h := C92_points (s := loose sawPts) saw_honest (by decide +kernel) (m := 1 / 100000) (by norm_num)
    (by
      show Gapped _ sawPts
      simp [Gapped, sawPts]; norm_num)
  exact h
/-- C92: a moving average of a curve combined with a number depends on what was asked before, between the knots; if
it demands equal spacing it raises there. -/
theorem C92_negation :
    (let t := emaBy (1 / 2)
     askedAfter sawMax t 9 (CScan.new (1 / 100000) .linear false) [] 2 = some (.ok (some 2)) ∧
     askedAfter sawMax t 9 (CScan.new (1 / 100000) .linear false) [1 / 2] 2 = some (.ok (some (17 / 8))) ∧
     askedAfter sawMax t 9 (CScan.new (1 / 100000) .linear true) [1 / 2] 2 = some (.error .nonRegular) ∧
     askedAfter saw t 9 (CScan.new (1 / 100000) .linear true) [1 / 2] 2 = some (.ok (some 2))) := by decide +kernel

example : sawMax.y (.fin 2) = .ok (some (.fin 2)) ∧
    sawMax.xNext (.fin 0) (some (.fin (1 / 100000))) (some (.fin (1 / 2))) = .ok (some (.fin (1 / 2))) ∧
    saw.xNext (.fin 0) (some (.fin (1 / 100000))) (some (.fin (1 / 2))) = .ok (some (.fin 1)) := by decide +kernel

/-- A domain that is open at its beginning: the first knot is the next one. -/
example : askedAfter { saw with dom := ⟨.fin 0, .fin 3, true, false⟩ } (emaBy (1 / 2)) 9 (CScan.new (1 / 100000) .linear true)
    [] 2 = some (.ok (some (5 / 2))) := by decide +kernel
/-- Values that are not finite. -/
example : askedAfter { saw with y := fun _ => .ok (some .pinf) } (emaBy (1 / 2)) 9 (CScan.new (1 / 100000) .linear true)
    [] 2 = some (.error .overflow) := by decide +kernel

end

/-! ## C93 -/

variable {c : Crv} {t : PTfm} {m : ℚ} {i : Interp} {u : Bool} {A : CScan} {Q : ℚ → Prop}

/-- C93: a moving average of any curve whose values are within bounds stays within them, at every position and after
every history of queries. -/
theorem C93_bounds {a lo hi : ℚ} (h0 : 0 ≤ a) (h1 : a ≤ 1)
    (hc : ∀ x v, c.y x = .ok (some v) → ∀ q, v = .fin q → lo ≤ q ∧ q ≤ hi)
    (h : Asked Q c (emaBy a) m i u A) {n : ℕ} {x : Ext} {B : CScan} {v : ℚ}
    (e : A.query c (emaBy a) n x = some (.ok (B, some v))) : lo ≤ v ∧ v ≤ hi := by
  have hS : Convex (fun q => lo ≤ q ∧ q ≤ hi) := by
    rintro a b w ⟨a1, a2⟩ ⟨b1, b2⟩ w0 w1
    constructor <;> nlinarith
  have hb : Crv.Between (fun q => lo ≤ q ∧ q ≤ hi) c := by
    intro x v hv
    obtain ⟨w, hw, hr⟩ := bind_inv hv
    cases w with
    | none => cases hr
    | some w =>
      cases w with
      | fin q => cases hr; exact hc x _ hw _ rfl
      | pinf => cases hr
      | ninf => cases hr
      | nan => cases hr
  have hk := keeps_ema hS h0 h1
  exact (Within.query hb hS hk (Within.asked hb hS hk h) e).2 v rfl

example : askedAfter sawMax (emaBy (1 / 2)) 9 (CScan.new (1 / 100000) .linear false) [1 / 2, 3] (5 / 2) =
    some (.ok (some (67 / 32))) := by decide +kernel

end Props
end Curvepy
