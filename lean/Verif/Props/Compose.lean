import Verif.Lemmas.Compose
import Verif.Props.AccumSample

/-!
# Property C123: combinations of accumulating curves
-/

namespace Curvepy
namespace Accum
open Spec Crv Props

variable {ι : Type} [DecidableEq ι]

namespace Family

/-- A combination of the accumulators, as it is read. -/
abbrev read (F : Family ι) (e : Expr ι) : Machine (ι → Accum) :=
  e.machine (fun i => .one i (Accum.machine (F.tfm i))) fun i => some (.fin (F.step i))

/-- The combination of what is accumulated over lists of points. -/
abbrev meant (F : Family ι) (g : ι → Rule) (pts : ι → List (Pt ℚ)) (e : Expr ι) : Crv :=
  e.curve fun i => accumulatedCurve (g i) (F.interp i) (F.step i) (pts i)

/-- All accumulators follow rules, with positive steps. -/
structure Lawful (F : Family ι) (g : ι → Rule) : Prop where
  rule : ∀ i, Follows (F.step i) (F.tfm i) (g i)
  step : ∀ i, 0 < F.step i

variable {F : Family ι} {g : ι → Rule} {s : ι → Accum}

theorem read_forwards (hF : F.Lawful g) (pts : ι → List (Pt ℚ)) (e : Expr ι) (he : e.Ahead) :
    Forwards (F.read e) (fun s => ∀ i, Steady (g i) (F.step i) (F.interp i) (F.uniform i) (pts i) (s i)) (F.meant g pts e) :=
  e.forwards
    (fun i => Forwards.one (J := fun i A => Steady (g i) (F.step i) (F.interp i) (F.uniform i) (pts i) A)
      (steady_forwards (hF.rule i) (hF.step i))) (fun _ => rfl) he

theorem read_imitates (hF : F.Lawful g) (pts : ι → List (Pt ℚ)) (e : Expr ι) :
    Imitates (F.read e) (fun s => ∀ i, Complete (g i) (F.step i) (F.interp i) (F.uniform i) (pts i) (s i))
      (F.meant g pts e) :=
  e.imitates
    (fun i => Imitates.one (J := fun i A => Complete (g i) (F.step i) (F.interp i) (F.uniform i) (pts i) A)
      (complete_imitates (hF.rule i) (hF.step i))) (fun _ => rfl)

theorem steady_own {A : Accum} {pts : List (Pt ℚ)} (h : Steady g' m i u pts A) : Steady g' m i u A.src.points A :=
  ⟨rfl, h.2⟩

theorem Lived.steady (hF : F.Lawful g) (h : F.Lived s) :
    ∀ i, Steady (g i) (F.step i) (F.interp i) (F.uniform i) (s i).src.points (s i) := by
  induction h with
  | new h => exact fun i => used_steady (hF.rule i) (hF.step i) (h i)
  | value _ e he x hr ih =>
    exact fun i => steady_own (agrees_state ((read_forwards hF _ e he).y x) ih hr i)
  | next _ e he x m l hr ih =>
    exact fun i => steady_own (agrees_state ((read_forwards hF _ e he).next x m l) ih hr i)
  | sample _ e he d m st fuel hr ih =>
    exact fun i => steady_own (agrees_state ((read_forwards hF _ e he).samplePoints d m st fuel) ih hr i)
  | @edit s _ i op r hl he ht hf ih =>
    intro j
    by_cases hj : j = i
    · subst hj
      rw [Function.update_self]
      obtain ⟨_, _, _, hs⟩ := ih j
      exact ⟨rfl, (hs.edit hl r he ht hf).2.2⟩
    · rw [Function.update_of_ne hj]; exact ih j

end Family
end Accum

namespace Props
open Spec Crv Accum Accum.Family

variable {ι : Type} [DecidableEq ι] {F : Family ι} {g : ι → Rule} {s : ι → Accum}

/-- C123: after any history of reads and edits, whatever is put together from accumulating curves has the values and next positions
of the same combination of what is accumulated over the current points, and gives the same samples. -/
theorem C123_values (hF : F.Lawful g) (h : F.Lived s) (e : Expr ι) (he : e.Ahead) :
    (∀ x, ((F.read e).y x s).map Prod.fst = some ((F.meant g (fun i => (s i).src.points) e).y x)) ∧
    (∀ x m l, ((F.read e).xNext x m l s).map Prod.fst = some ((F.meant g (fun i => (s i).src.points) e).xNext x m l)) ∧
    (∀ d m st fuel, ((F.read e).samplePoints d m st fuel s).map Prod.fst =
      (F.meant g (fun i => (s i).src.points) e).samplePoints d m st fuel) ∧
    ((F.read e).dom s).map Prod.fst = some (.ok (F.meant g (fun i => (s i).src.points) e).dom) := by
  have H := read_forwards hF (fun i => (s i).src.points) e he
  have hs := Lived.steady hF h
  exact ⟨fun x => agrees_result (H.y x) hs, fun x m l => agrees_result (H.next x m l) hs,
    fun d m st fuel => agrees_result (H.samplePoints d m st fuel) hs, agrees_result H.dom hs⟩

/-- C123: reading a combination changes no points. -/
theorem C123_undisturbed (hF : F.Lawful g) (h : F.Lived s) (e : Expr ι) (he : e.Ahead) {s' : ι → Accum} :
    (∀ x v, (F.read e).y x s = some (v, s') → ∀ i, (s' i).src.points = (s i).src.points) ∧
    (∀ x m l v, (F.read e).xNext x m l s = some (v, s') → ∀ i, (s' i).src.points = (s i).src.points) ∧
    (∀ d m st fuel v, (F.read e).samplePoints d m st fuel s = some (v, s') →
      ∀ i, (s' i).src.points = (s i).src.points) := by
  have H := read_forwards hF (fun i => (s i).src.points) e he
  have hs := Lived.steady hF h
  exact ⟨fun x v hr i => (agrees_state (H.y x) hs hr i).1, fun x m l v hr i => (agrees_state (H.next x m l) hs hr i).1,
    fun d m st fuel v hr i => (agrees_state (H.samplePoints d m st fuel) hs hr i).1⟩

/-- C123 (partial: all points were accumulated): then also for `x_previous` and for slopes and differences that look back.
Missing: before that they are false, see C117. -/
theorem C123_complete_partial (hF : F.Lawful g)
    (hs : ∀ i, Complete (g i) (F.step i) (F.interp i) (F.uniform i) (s i).src.points (s i)) (e : Expr ι) (x : Ext) :
    ((F.read e).y x s).map Prod.fst = some ((F.meant g (fun i => (s i).src.points) e).y x) ∧
    (∀ m l, ((F.read e).xPrevious x m l s).map Prod.fst =
      some ((F.meant g (fun i => (s i).src.points) e).xPrevious x m l)) ∧
    (∀ f m l, ((F.read e).dY x f m l s).map Prod.fst = some ((F.meant g (fun i => (s i).src.points) e).dY x f m l)) := by
  have H := read_imitates hF (fun i => (s i).src.points) e
  exact ⟨agrees_result (H.y x) hs, fun m l => agrees_result (H.prev x m l) hs,
    fun f m l => agrees_result (H.toForwards.dY x f (fun _ => H) m l) hs⟩

/-- The value of an operator at a position where both operands are defined. -/
theorem binary_value {a b : Crv} {tfm : Ext → List (Option Num) → Except Err (Option Num)} {x : Ext} {v w : Option Num}
    (ha : a.y x = .ok v) (hb : b.y x = .ok w) (hx : (Iv.interAll [a.dom, b.dom]).contains x = true) :
    (Crv.aggregate [a, b] tfm).y x = tfm x [v, w] := by
  show (if !(Iv.interAll [a.dom, b.dom]).contains x then _ else _) = _
  rw [hx]
  simp [List.mapM_cons, ha, hb, bind, Except.bind, pure, Except.pure]

/-- C123: sums, differences, products and quotients of two accumulating curves, after any history. -/
theorem C123_operators (hF : F.Lawful g) (h : F.Lived s) (i j : ι) {x : ℚ} {v w : Option ℚ}
    (hv : accumulatedAt (g i) (F.interp i) (s i).src.points (.fin x) = .ok v)
    (hw : accumulatedAt (g j) (F.interp j) (s j).src.points (.fin x) = .ok w)
    (hx : (span (s i).src.points).contains (.fin x) = true) (hx' : (span (s j).src.points).contains (.fin x) = true) :
    ((F.read (.add (.leaf i) (.leaf j))).y (.fin x) s).map Prod.fst =
      some (.ok (v.bind fun a => w.map fun b => .fin (a + b))) ∧
    ((F.read (.sub (.leaf i) (.leaf j))).y (.fin x) s).map Prod.fst =
      some (.ok (v.bind fun a => w.map fun b => .fin (a - b))) ∧
    ((F.read (.mul (.leaf i) (.leaf j))).y (.fin x) s).map Prod.fst =
      some (.ok (v.bind fun a => w.map fun b => .fin (a * b))) ∧
    (w ≠ some 0 → ((F.read (.div (.leaf i) (.leaf j))).y (.fin x) s).map Prod.fst =
      some (.ok (v.bind fun a => w.map fun b => .fin (a / b)))) := by
  have hd : (Iv.interAll [(accumulatedCurve (g i) (F.interp i) (F.step i) (s i).src.points).dom,
      (accumulatedCurve (g j) (F.interp j) (F.step j) (s j).src.points).dom]).contains (.fin x) = true := by
    rw [Iv.contains_interAll]
    simp only [List.all_cons, List.all_nil, Bool.and_true, Bool.and_eq_true]
    exact ⟨hx, hx'⟩
  have hy : (accumulatedCurve (g i) (F.interp i) (F.step i) (s i).src.points).y (.fin x) = .ok (v.map .fin) := by
    show Except.map _ _ = _; rw [hv]; rfl
  have hy' : (accumulatedCurve (g j) (F.interp j) (F.step j) (s j).src.points).y (.fin x) = .ok (w.map .fin) := by
    show Except.map _ _ = _; rw [hw]; rfl
  have key : ∀ tfm, ((F.read (.aggregate ![.leaf i, .leaf j] tfm false none)).y (.fin x) s).map Prod.fst =
      some (tfm (.fin x) [v.map .fin, w.map .fin]) := fun tfm => by
    have he : (Expr.aggregate ![.leaf i, .leaf j] tfm false none : Expr ι).Ahead :=
      fun k => Fin.cases trivial (fun k => Fin.cases trivial (fun k => k.elim0) k) k
    rw [(C123_values hF h _ he).1, ← binary_value (tfm := tfm) hy hy' hd]
    rfl
  refine ⟨(key _).trans ?_, (key _).trans ?_, (key _).trans ?_, fun h0 => (key _).trans ?_⟩
  · rcases v with _ | v <;> rcases w with _ | w <;> simp [addF, allDefined, Num.add]
  · rcases v with _ | v <;> rcases w with _ | w <;> simp [subF, Num.sub, Num.add, Num.neg, sub_eq_add_neg]
  · rcases v with _ | v <;> rcases w with _ | w <;> simp [multF, Num.mul]
  · rcases v with _ | v <;> rcases w with _ | w <;> simp [divF, Num.div]
    have : w ≠ 0 := fun h => h0 (by rw [h])
    simp [this]

/-- A fast and a slow average of the same points. -/
def twoAverages : Family Bool where
  tfm b := emaTfm (some (if b then 1/2 else 1/4)) none none 1
  step _ := 1
  interp _ := .linear
  uniform _ := true

theorem twoAverages_lawful : ∃ g, twoAverages.Lawful g :=
  ⟨_, ⟨fun b => ema_follows_alpha (m := 1) (if b then 1/2 else 1/4) none 1, fun _ => one_pos⟩⟩

theorem twoAverages_lived : twoAverages.Lived fun _ => Accum.new (loose fivePts) 1 :=
  .new fun b => .new five_honest five_fit

/-- The value of a combination after reading others. -/
def valueAfter (F : Family Bool) (s : Bool → Accum) : List (Expr Bool × Ext) → Expr Bool → Ext → Option (Except Err (Option Num))
  | [], e, x => ((F.read e).y x s).map Prod.fst
  | (d, z) :: before, e, x => ((F.read d).y z s).bind fun r => valueAfter F r.2 before e x

/-- The difference of the averages at 4, its slope ahead, and twice the fast one, three later. -/
example :
    let s : Bool → Accum := fun _ => Accum.new (loose fivePts) 1
    let diff : Expr Bool := .sub (.leaf true) (.leaf false)
    valueAfter twoAverages s [] diff (.fin 4) = some (.ok (some (.fin (49/32)))) ∧
    valueAfter twoAverages s [(.leaf true, .fin 2), (diff, .fin 5)] diff (.fin 4) = some (.ok (some (.fin (49/32)))) ∧
    valueAfter twoAverages s [(.leaf true, .fin 2)] (.differential diff true) (.fin 4) =
      some (.ok (some (.fin (-161/128)))) ∧
    valueAfter twoAverages s [] (.offset (.mul (.leaf true) (.still (.constant (.fin 2)))) 3) (.fin 7) =
      some (.ok (some (.fin 9))) := by
  refine ⟨?_, ?_, ?_, ?_⟩ <;> decide +kernel

example : accumulatedAt (stepRule (emaStep (fun _ _ => 1/2) none)) .linear fivePts (.fin 4) = .ok (some (9/2)) ∧
    accumulatedAt (stepRule (emaStep (fun _ _ => 1/4) none)) .linear fivePts (.fin 4) = .ok (some (95/32)) ∧
    (9/2 : ℚ) - 95/32 = 49/32 := by refine ⟨?_, ?_, ?_⟩ <;> decide +kernel
/-! ## An instance of each theorem -/

theorem twoAverages_rules :
    twoAverages.Lawful fun b => stepRule (emaStep (fun _ _ => if b then 1/2 else 1/4) none) :=
  ⟨fun b => ema_follows_alpha (m := 1) (if b then 1/2 else 1/4) none 1, fun _ => one_pos⟩

example (x : Ext) : ∃ g : Bool → Rule,
    ((twoAverages.read (.leaf true)).y x fun _ => Accum.new (loose fivePts) 1).map Prod.fst =
      some ((twoAverages.meant g (fun _ => fivePts) (.leaf true)).y x) :=
  ⟨_, (C123_values twoAverages_rules twoAverages_lived (.leaf true) trivial).1 x⟩

example {s' : Bool → Accum} {v : Except Err (Option Num)}
    (h : (twoAverages.read (.leaf true)).y (.fin 4) (fun _ => Accum.new (loose fivePts) 1) = some (v, s')) (b : Bool) :
    (s' b).src.points = fivePts :=
  (C123_undisturbed twoAverages_rules twoAverages_lived (.leaf true) trivial).1 _ _ h b

example : ((twoAverages.read (.sub (.leaf true) (.leaf false))).y (.fin 4) fun _ => Accum.new (loose fivePts) 1).map Prod.fst =
    some (.ok (some (.fin (9/2 - 95/32)))) :=
  (C123_operators (x := 4) (v := some (9/2)) (w := some (95/32)) twoAverages_rules twoAverages_lived true false
    (by decide +kernel) (by decide +kernel) (by decide +kernel) (by decide +kernel)).2.1

end Props
end Curvepy
