import Verif.Lemmas.NetEdits
import Verif.Props.Tower

/-!
# C130, C131: networks of accumulators and combinations over one list of points
-/

namespace Curvepy
namespace Props
open Spec Pts Accum Net

variable {i : Interp} {ns : List Node} {s s' : Net.State ns}

/-! ## StaysFinite transforms -/

theorem plain_of {tfm : Ext → List (Option Num) → Except Err (Option Num)}
    (h : ∀ (x : Ext) (vs : List (Option ℚ)), ∃ v : Option ℚ, tfm x (vs.map (Option.map .fin)) = .ok (v.map .fin)) : StaysFinite tfm := by
  intro x vs
  obtain ⟨v, hv⟩ := h x vs
  have : plainly tfm x vs = v := by
    unfold plainly
    rw [hv]
    cases v <;> rfl
  rw [hv, this]

theorem subF_fin : ∀ (vs : List (Option ℚ)) (r : Option ℚ), ∃ v : Option ℚ,
    Crv.subF (vs.map (Option.map .fin)) (r.map .fin) = v.map .fin
  | [], r => ⟨some (r.getD 0), by cases r <;> rfl⟩
  | none :: _, _ => ⟨none, rfl⟩
  | some y :: vs, none => subF_fin vs (some y)
  | some y :: vs, some r => by
    obtain ⟨v, h⟩ := subF_fin vs (some (r - y))
    refine ⟨v, ?_⟩
    rw [← h, sub_eq_add_neg]
    rfl

theorem multF_fin : ∀ (vs : List (Option ℚ)) (r : ℚ), ∃ v : Option ℚ,
    Crv.multF (vs.map (Option.map .fin)) (.fin r) = v.map .fin
  | [], r => ⟨some r, rfl⟩
  | none :: _, _ => ⟨none, rfl⟩
  | some y :: vs, r => multF_fin vs (r * y)

theorem addF_fin (vs : List (Option ℚ)) : ∃ v : Option ℚ, Crv.addF (vs.map (Option.map .fin)) = v.map .fin := by
  have key : ∀ vs : List (Option ℚ), Crv.allDefined (vs.map (Option.map .fin)) = none ∨
      ∃ qs : List ℚ, Crv.allDefined (vs.map (Option.map .fin)) = some (qs.map .fin) := by
    intro vs
    induction vs with
    | nil => exact .inr ⟨[], rfl⟩
    | cons v vs ih =>
      cases v with
      | none => exact .inl rfl
      | some y =>
        rcases ih with h | ⟨qs, h⟩
        · exact .inl (by simp [Crv.allDefined, h])
        · exact .inr ⟨y :: qs, by simp [Crv.allDefined, h]⟩
  have hsum : ∀ (qs : List ℚ) (a : ℚ), ∃ v : ℚ, (qs.map Num.fin).foldl Num.add (.fin a) = .fin v := by
    intro qs
    induction qs with
    | nil => intro a; exact ⟨a, rfl⟩
    | cons q qs ih => intro a; exact ih (a + q)
  unfold Crv.addF
  rcases key vs with h | ⟨qs, h⟩ <;> rw [h]
  · exact ⟨none, rfl⟩
  · obtain ⟨v, hv⟩ := hsum qs 0
    exact ⟨some v, by simp only [hv]; rfl⟩

/-- Differences, products and sums of curves are plain (`curve.py:739-783`). -/
theorem plain_sub : StaysFinite fun _ ys => .ok (Crv.subF ys none) :=
  plain_of fun _ vs => by obtain ⟨v, h⟩ := subF_fin vs none; exact ⟨v, congrArg _ h⟩

theorem plain_mult : StaysFinite fun _ ys => .ok (Crv.multF ys (.fin 1)) :=
  plain_of fun _ vs => by obtain ⟨v, h⟩ := multF_fin vs 1; exact ⟨v, congrArg _ h⟩

theorem plain_add : StaysFinite fun _ ys => .ok (Crv.addF ys) :=
  plain_of fun _ vs => by obtain ⟨v, h⟩ := addF_fin vs; exact ⟨v, congrArg _ h⟩

theorem plainly_sub (x : Ext) (a b : ℚ) : plainly (fun _ ys => .ok (Crv.subF ys none)) x [some a, some b] = some (a - b) := by
  simp [plainly, Crv.subF, Num.sub, Num.neg, Num.add, sub_eq_add_neg]

/-! ## What the values mean -/

/-- At the positions of the points an accumulator has what its function makes of the value of its source and its own value at the point
before. -/
theorem C130_step {S : Storey} {j : ℕ} {pts : List (Pt ℚ)} (hasc : Ascending pts) {n : ℕ} {p : Pt ℚ} (hp : pts[n]? = some p) :
    netValue i pts (.layer S j :: ns) 0 (.fin p.1) = S.f p.1 (netValue i pts ns j (.fin p.1))
      (if n = 0 then none else (pts[n - 1]?).bind fun q => netValue i pts (.layer S j :: ns) 0 (.fin q.1)) := by
  obtain ⟨tl, h1, h2, h3⟩ := plain_steps S (knotsOf pts (netValue i pts ns j)) [] []
  have hg := storey_neverRaises S
  have e : foldedBy (plainRule S.tfm) (knotsOf pts (netValue i pts ns j)) = tl := by
    show (runRule (plainRule S.tfm) [] [] _).1 = tl
    rw [h1]; rfl
  have hx : tl.map Prod.fst = pts.map Prod.fst := by rw [← e]; exact (foldedBy_xs hg _).trans (knotsOf_xs _ _)
  have hasc' : Ascending tl := ascending_xs hx hasc
  have hval : ∀ q : Pt ℚ, q ∈ tl → netValue i pts (.layer S j :: ns) 0 (.fin q.1) = q.2 := by
    intro q hq
    show valueAtE S.interp (foldedBy _ _) (.fin q.1) = q.2
    rw [e]
    exact valueAt_mem hasc' hq
  have hk : (knotsOf pts (netValue i pts ns j))[n]? = some (p.1, netValue i pts ns j (.fin p.1)) := by
    simp [knotsOf, hp]
  have hn := h3 n _ hk
  have := hval _ (List.mem_of_getElem? hn)
  rw [this]
  simp only
  congr 1
  by_cases h0 : n = 0
  · simp [h0, lastOut]
  · simp only [h0, if_false]
    have hlen : n - 1 < pts.length := by
      have := (List.getElem?_eq_some_iff.1 hp).1
      omega
    have hlen' : n - 1 < tl.length := by
      have := congrArg List.length hx
      simp only [List.length_map] at this
      omega
    have hfst : (tl[n - 1]).1 = (pts[n - 1]).1 := by
      have := congrArg (fun l => l[n - 1]?) hx
      simp only [List.getElem?_map, List.getElem?_eq_getElem hlen, List.getElem?_eq_getElem hlen', Option.map_some,
        Option.some.injEq] at this
      exact this
    rw [List.getElem?_eq_getElem hlen, List.getElem?_eq_getElem hlen']
    simp only [Option.map_some, Option.getD_some, Option.bind_some]
    rw [← hfst]
    exact (hval _ (List.getElem_mem hlen')).symm

/-! ## Any history -/

/-- Every curve of the network has the value that the current points give it, whatever was read and edited before and in whatever order the
curves heard of the edits. -/
theorem C130_values (hS : ∀ n ∈ ns, Node.Sound n) (h : NetUsed i ns s) (k : ℕ) (x : Ext) :
    ((Net.machine ns k).y x s).map Prod.fst = some (.ok ((netValue i (base s).points ns k x).map .fin)) := by
  obtain ⟨s', h1, _⟩ := ((good hS k).y x s (netUsed_fine hS h)).2 _ rfl
  rw [h1]; rfl

/-- All domains are that of the points. -/
theorem C130_domain (hS : ∀ n ∈ ns, Node.Sound n) (h : NetUsed i ns s) (k : ℕ) :
    ((Net.machine ns k).dom s).map Prod.fst = some (.ok (span (base s).points)) := by
  obtain ⟨s', h1, _⟩ := (((good hS k).shown 0).dom s (netUsed_fine hS h)).2 _ rfl
  rw [h1, span_xs (knotsOf_xs _ _)]; rfl

/-- Reading a curve does not change the points, and so no value of any curve. -/
theorem C130_undisturbed (hS : ∀ n ∈ ns, Node.Sound n) (h : NetUsed i ns s) {k : ℕ} (hr : NetRead ns k s s') :
    (base s').points = (base s).points ∧ ∀ j x, ((Net.machine ns j).y x s').map Prod.fst = ((Net.machine ns j).y x s).map Prod.fst := by
  have G := good (i := i) (pts := (base s).points) hS k
  have hF := netUsed_fine hS h
  have : NetFine i (base s).points ns s' := by
    rcases hr with ⟨x, v, h1⟩ | ⟨x, a, l, v, h1⟩ | ⟨x, a, l, v, h1⟩ | ⟨v, h1⟩ | ⟨d, b, c, n, v, h1⟩
    · exact G.tidy.y x s v s' hF h1
    · exact G.tidy.next x a l s v s' hF h1
    · exact G.tidy.prev x a l s v s' hF h1
    · exact G.tidy.dom s v s' hF h1
    · exact G.sample d b c n s v s' hF h1
  refine ⟨this.base.2.1, fun j x => ?_⟩
  rw [C130_values hS h j x, C130_values hS (.read h hr) j x, this.base.2.1]

/-- An edit can always reach all curves. -/
theorem C131_exists (op : Op ℚ) (r : Reads) (s : Net.State ns) : ∃ s' out, Net.Edits ns op r s s' out := spread_exists _ _ _ _

/-- The points announce one interval at most, at the beginning and at the end. -/
theorem C131_once {p : Pts ℚ} (hs : Honest p) {op : Op ℚ} {r : Reads} (hl : op.Legal) (he : lateError (op.run p r).err = false) :
    ∃ ds : List Iv, ds.length ≤ 1 ∧ evBegins (op.run p r).ev = ds ∧ evEnds (op.run p r).ev = ds := by
  cases outcome hs.base hs.wf hl r with
  | idle hs' hev _ _ => exact ⟨[], by simp, by rw [hev]; rfl, by rw [hev]; rfl⟩
  | stuck iv e he' _ hst => rw [hst.err, he'] at he; cases he
  | edited iv hed hk =>
    rcases hed.ev with ⟨_, hev, hpp⟩ | ⟨hne, a, b, hev, _⟩
    · exact ⟨[], by simp, by rw [hev]; rfl, by rw [hev]; rfl⟩
    · exact ⟨[iv], by simp, by rw [hev]; rfl, by rw [hev]; rfl⟩

/-- No curve raises while it hears of an edit, and the points are edited. -/
theorem C131_edit (hS : ∀ n ∈ ns, Node.Sound n) (h : NetUsed i ns s) {op : Op ℚ} {r : Reads} {out : ℕ → Told} (hl : op.Legal)
    (he : lateError (op.run (base s) r).err = false) (ht : Truthful (op.run (base s) r).st)
    (hf : ∀ n ∈ ns, Node.Fit (op.run (base s) r).st.points n) (hr : Net.Edits ns op r s s' out) :
    base s' = (op.run (base s) r).st ∧ ∀ k, (out k).err = none := by
  obtain ⟨_, h2, _, _, _, h3⟩ := edits_fine hS (netUsed_fine hS h) hl he ht hf hr
  exact ⟨h2, fun k => (h3 k).1⟩

/-- If a curve announces nothing, nothing changed; otherwise one announced interval begins and ends the update and covers all that are
announced, and its values at points before that interval stay. -/
theorem C131_announced (hS : ∀ n ∈ ns, Node.Sound n) (h : NetUsed i ns s) {op : Op ℚ} {r : Reads} {out : ℕ → Told} (hl : op.Legal)
    (he : lateError (op.run (base s) r).err = false) (ht : Truthful (op.run (base s) r).st)
    (hf : ∀ n ∈ ns, Node.Fit (op.run (base s) r).st.points n) (hr : Net.Edits ns op r s s' out) (k : ℕ) :
    ((out k).begins = [] ∧ (out k).ends = [] ∧ (base s').points = (base s).points) ∨
    ∃ top, top ∈ (out k).begins ∧ top ∈ (out k).ends ∧ (∀ d ∈ (out k).begins ++ (out k).ends, top.superset d = true) ∧
      (∀ p, top.geLo (.fin p.1) = false → (p ∈ (base s').points ↔ p ∈ (base s).points)) ∧
      ∀ p ∈ (base s).points, top.geLo (.fin p.1) = false →
        netValue i (base s').points ns k (.fin p.1) = netValue i (base s).points ns k (.fin p.1) := by
  have hF := netUsed_fine hS h
  obtain ⟨h1, h2, lo, o, h3, h4⟩ := edits_fine hS hF hl he ht hf hr
  have hb : (base s').points = (op.run (base s) r).st.points := by rw [h2]
  rcases (h4 k).2 with ⟨e1, e2, e3⟩ | ⟨top, e1, e2, e3⟩
  · exact .inl ⟨e1, e2, hb.trans e3⟩
  · have hall := (e3 top (List.mem_append_left _ e1)).1
    refine .inr ⟨top, e1, e2, fun d hd => ?_, ?_⟩
    · rw [hall.superset (e3 d hd).1]; exact (e3 d hd).2
    · have ha : Ascending (base s).points := hF.base.asc
      have ha' : Ascending (op.run (base s) r).st.points := h1.base.asc
      rw [hb]
      obtain ⟨pre, a, b, e4, e5, e6, e7⟩ := h3
      rw [e5] at ha' ⊢
      rw [e4] at ha ⊢
      have hout : ∀ p ∈ a ++ b, top.geLo (.fin p.1) = true := fun p hp => by rw [geLo_onwards hall]; exact e7 p hp
      refine ⟨fun p hp => ?_, fun p hp hpt => ?_⟩
      · have hna : p ∉ a := fun hc => by rw [hout p (List.mem_append_left _ hc)] at hp; cases hp
        have hnb : p ∉ b := fun hc => by rw [hout p (List.mem_append_right _ hc)] at hp; cases hp
        simp [hna, hnb]
      · rcases List.mem_append.1 hp with hp | hp
        · exact (causal ha ha' ns k p hp).symm
        · rw [hout p (List.mem_append_left _ hp)] at hpt; cases hpt

/-! ## Examples -/

/-- A slower average. -/
def thirdEma (m : ℚ) : Storey :=
  { f := fun _ y e => match y, e with
      | none, e => e
      | some y, none => some y
      | some y, some e => some (e + 1/3 * (y - e))
    minStep := m, interp := .linear, uniform := true }

/-- `fast - slow`, its average, and the difference of both: `histogram`, `signal`, `macd`, `slow` and `fast`. -/
def macdNet : List Node :=
  let sub : Ext → List (Option Num) → Except Err (Option Num) := fun _ ys => .ok (Crv.subF ys none)
  [.join [1, 0] false sub, .layer (halfEma 1) 0, .join [1, 0] false sub, .layer (thirdEma 1) 1, .layer (halfEma 1) 0]

theorem macd_sound : ∀ n ∈ macdNet, Node.Sound n := by
  intro n hn
  simp only [macdNet, List.mem_cons, List.not_mem_nil, or_false] at hn
  rcases hn with rfl | rfl | rfl | rfl | rfl
  · exact ⟨by simp, plain_sub⟩
  · exact one_pos (α := ℚ)
  · exact ⟨by simp, plain_sub⟩
  · exact one_pos (α := ℚ)
  · exact one_pos (α := ℚ)

theorem macd_fit {pts : List (Pt ℚ)} (h : Fit 1 true pts) : ∀ n ∈ macdNet, Node.Fit pts n := by
  intro n hn
  simp only [macdNet, List.mem_cons, List.not_mem_nil, or_false] at hn
  rcases hn with rfl | rfl | rfl | rfl | rfl
  · trivial
  · exact h
  · trivial
  · exact h
  · exact h

theorem macd_used : NetUsed .linear macdNet (Net.new (loose fivePts) macdNet) := .new five_honest rfl (macd_fit five_fit)

example : ((Net.machine macdNet 0).y (.fin (7/2)) (Net.new (loose fivePts) macdNet)).map Prod.fst =
    some (.ok (some (.fin (91/432)))) := by
  rw [C130_values macd_sound macd_used]
  decide +kernel

/-- The domain of the histogram, and its value after the signal line was read. -/
example : ((Net.machine macdNet 0).dom (Net.new (loose fivePts) macdNet)).map Prod.fst = some (.ok (span fivePts)) ∧
    ∃ s, NetRead macdNet 1 (Net.new (loose fivePts) macdNet) s ∧
      ((Net.machine macdNet 0).y (.fin 4) s).map Prod.fst = some (.ok (some (.fin (85/216)))) := by
  constructor
  · rw [C130_domain macd_sound macd_used]; decide +kernel
  · have key : ((Net.machine macdNet 1).y (.fin 3) (Net.new (loose fivePts) macdNet)).isSome = true := by decide +kernel
    obtain ⟨⟨v, s⟩, hs⟩ := Option.isSome_iff_exists.1 key
    refine ⟨s, .inl ⟨_, _, hs⟩, ?_⟩
    rw [(C130_undisturbed macd_sound macd_used (.inl ⟨_, _, hs⟩)).2 0 (.fin 4), C130_values macd_sound macd_used]
    decide +kernel

/-- The edit in the order of the lists. -/
def editInOrder (ns : List Node) (op : Op ℚ) (s : Net.State ns) : Net.State ns × (ℕ → Told) :=
  inOrder (op.run (base s) quiet).st ⟨evBegins (op.run (base s) quiet).ev, evEnds (op.run (base s) quiet).ev, none⟩ ns s

theorem editInOrder_edits (ns : List Node) (op : Op ℚ) (s : Net.State ns) :
    Net.Edits ns op quiet s (editInOrder ns op s).1 (editInOrder ns op s).2 := inOrder_spread _ _ _ _

/-- The histogram was read, then the last point was replaced and the histogram read again. -/
example : (((Net.machine macdNet 0).y (.fin 5) (Net.new (loose fivePts) macdNet)).map Prod.fst =
      some (.ok (some (.fin (-335/1296))))) ∧
    (((Net.machine macdNet 0).y (.fin 5) (Net.new (loose fivePts) macdNet)).bind fun r =>
      ((Net.machine macdNet 0).y (.fin 5) (editInOrder macdNet (.replace (5, some 9) false) r.2).1).map Prod.fst) =
      some (.ok (some (.fin (529/1296)))) := by
  constructor <;> decide +kernel

/-- Each combination announces the end of an update once for every end it hears of: after one appended point the histogram announces one
beginning and four ends. -/
theorem C131_negation_once : ∃ (ns : List Node) (i : Interp) (s s' : Net.State ns) (op : Op ℚ) (r : Reads) (out : ℕ → Told),
    (∀ n ∈ ns, Node.Sound n) ∧ NetUsed i ns s ∧ op.Legal ∧ (op.run (base s) r).err = none ∧
    Truthful (op.run (base s) r).st ∧ (∀ n ∈ ns, Node.Fit (op.run (base s) r).st.points n) ∧ Net.Edits ns op r s s' out ∧
    (out 0).begins.length = 1 ∧ (out 0).ends.length = 4 := by
  have key : (((Net.machine macdNet 0).y (.fin 5) (Net.new (loose fivePts) macdNet)).any fun r =>
    ((Op.append (6, some 9)).run (base r.2) quiet).err = none ∧
    ((Op.append (6, some 9)).run (base r.2) quiet).st.points = fivePts ++ [(6, some 9)] ∧
    ((editInOrder macdNet (.append (6, some 9)) r.2).2 0).begins.length = 1 ∧
    ((editInOrder macdNet (.append (6, some 9)) r.2).2 0).ends.length = 4) = true := by decide +kernel
  obtain ⟨⟨v, s⟩, hs, key⟩ := Option.any_eq_true _ _ |>.1 key
  obtain ⟨k1, k2, k3, k4⟩ := of_decide_eq_true key
  have hfit : Fit 1 true (fivePts ++ [(6, some 9)]) := by
    refine ⟨by norm_num [Gapped, fivePts], ?_, fun _ => ⟨1, by norm_num [fivePts]⟩⟩
    rintro pre p q r hp _
    exact EquallySpaced.prefix hp ⟨1, by norm_num [fivePts]⟩
  refine ⟨macdNet, .linear, s, _, .append (6, some 9), quiet, _, macd_sound, .read (k := 0) macd_used (.inl ⟨_, _, hs⟩), by trivial, k1,
    fun _ => ?_, ?_, editInOrder_edits _ _ _, k3, k4⟩
  · rw [k2]; exact hfit.uniform rfl
  · rw [k2]; exact macd_fit hfit
/-! ## More instances -/

example (s : Net.State macdNet) : ∃ s' out, Net.Edits macdNet (.replace (5, some 9) false) quiet s s' out := C131_exists _ _ _

/-- Replacing the last value is told of at most once. -/
example : ∃ ds : List Iv, ds.length ≤ 1 ∧ evBegins ((Op.replace (5, some 9) false).run (loose fivePts) quiet).ev = ds ∧
    evEnds ((Op.replace (5, some 9) false).run (loose fivePts) quiet).ev = ds :=
  C131_once five_honest (by trivial) (by decide +kernel)

/-- The value of the fast average at `3` comes from the point there and the value at `2`. -/
example : netValue .linear fivePts [.layer (halfEma 1) 0] 0 (.fin 3) =
    (halfEma 1).f 3 (netValue .linear fivePts [] 0 (.fin 3)) (netValue .linear fivePts [.layer (halfEma 1) 0] 0 (.fin 2)) :=
  C130_step (n := 2) (p := (3, some 2)) (by norm_num [Ascending, fivePts]) rfl

end Props
end Curvepy
