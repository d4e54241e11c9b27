import Verif.Lemmas.WebEdits
import Verif.Props.Net

/-!
# C136, C137: networks of accumulators and combinations over several lists of points
-/

namespace Curvepy
namespace Props
open Spec Pts Accum Web
open Net (Told)

variable {I : ℕ → Interp} {ns : List Node} {s s' : Web.State ns}

/-! ## What the values mean -/

/-- At the positions of its source an accumulator has what its function makes of the value of its source and its own value at the position
before. -/
theorem C136_step {S : Storey} {j : ℕ} {P : ℕ → List (Pt ℚ)} (hP : ∀ b, Ascending (P b)) {n : ℕ} {x : ℚ}
    (hx : (webIn P ns j)[n]? = some x) :
    webValue I P (.layer S j :: ns) 0 (.fin x) = S.f x (webValue I P ns j (.fin x))
      (if n = 0 then none else ((webIn P ns j)[n - 1]?).bind fun q => webValue I P (.layer S j :: ns) 0 (.fin q)) := by
  obtain ⟨tl, h1, h2, h3⟩ := plain_steps S (webPts I P ns j) [] []
  have hg := storey_neverRaises S
  have e : foldedBy (plainRule S.tfm) (webPts I P ns j) = tl := by
    show (runRule (plainRule S.tfm) [] [] _).1 = tl
    rw [h1]; rfl
  have hxs : tl.map Prod.fst = webIn P ns j := by rw [← e]; exact (foldedBy_xs hg _).trans (webPts_xs _ _)
  have hasc' : Ascending tl := ascending_xs (hxs.trans (webPts_xs (I := I) ns j).symm) (webPts_asc hP ns j)
  have hval : ∀ q : Pt ℚ, q ∈ tl → webValue I P (.layer S j :: ns) 0 (.fin q.1) = q.2 := by
    intro q hq
    show valueAtE S.interp (foldedBy _ (webPts I P ns j)) (.fin q.1) = q.2
    rw [e]
    exact valueAt_mem hasc' hq
  have hk : (webPts I P ns j)[n]? = some (x, webValue I P ns j (.fin x)) := by
    simp [webPts, atAll, hx]
  have hn := h3 n _ hk
  have := hval _ (List.mem_of_getElem? hn)
  rw [this]
  simp only
  congr 1
  by_cases h0 : n = 0
  · simp [h0, lastOut]
  · simp only [h0, if_false]
    have hlen : n - 1 < (webIn P ns j).length := by
      have := (List.getElem?_eq_some_iff.1 hx).1
      omega
    have hlen' : n - 1 < tl.length := by
      have := congrArg List.length hxs
      simp only [List.length_map] at this
      omega
    have hfst : (tl[n - 1]).1 = (webIn P ns j)[n - 1] := by
      have := congrArg (fun l => l[n - 1]?) hxs
      simp only [List.getElem?_map, List.getElem?_eq_getElem hlen, List.getElem?_eq_getElem hlen', Option.map_some,
        Option.some.injEq] at this
      exact this
    rw [List.getElem?_eq_getElem hlen, List.getElem?_eq_getElem hlen']
    simp only [Option.map_some, Option.getD_some, Option.bind_some]
    rw [← hfst]
    exact (hval _ (List.getElem_mem hlen')).symm

/-! ## Any history -/

/-- Every curve of the network has the value that the current points of all lists give it. -/
theorem C136_values_partial (hS : WebSound ns) (h : WebUsed I ns s) (k : ℕ) (x : Ext) :
    ((Web.machine ns k).y x s).map Prod.fst = some (.ok ((webValue I (pointsOf s) ns k x).map .fin)) := by
  obtain ⟨s', h1, _⟩ := ((Web.good hS k).y x s (used_fine hS h)).2 _ rfl
  rw [h1]; rfl

/-- The domain of a curve contains the positions that lie between positions of all the lists it is made from. -/
theorem C136_domain_partial (hS : WebSound ns) (h : WebUsed I ns s) (k : ℕ) :
    ∃ d, ((Web.machine ns k).dom s).map Prod.fst = some (.ok d) ∧
      ∀ x, d.contains (.fin x) = true ↔ within (webIn (pointsOf s) ns k) x = true := by
  have hF := used_fine hS h
  obtain ⟨s', h1, _⟩ := ((Web.good hS k).dom s hF).2 _ rfl
  refine ⟨_, by rw [h1]; rfl, fun x => ?_⟩
  rw [span_contains_within (webPts_asc hF.asc ns k), webPts_xs]

/-- A combination is defined where all its sources are. -/
theorem C136_overlap {js : List ℕ} {u : Bool} {tfm} (hne : js ≠ []) (P : ℕ → List (Pt ℚ)) (x : ℚ) :
    within (webIn P (.join js u tfm :: ns) 0) x = true ↔ ∀ j ∈ js, within (webIn P ns j) x = true := within_join hne u tfm ns x

/-- Reading a curve does not change the points, and so no value of any curve. -/
theorem C136_undisturbed_partial (hS : WebSound ns) (h : WebUsed I ns s) {k : ℕ} (hr : WebRead ns k s s') :
    pointsOf s' = pointsOf s ∧ ∀ j x, ((Web.machine ns j).y x s').map Prod.fst = ((Web.machine ns j).y x s).map Prod.fst := by
  have := fine_points (read_fine hS (used_fine hS h) hr)
  refine ⟨this, fun j x => ?_⟩
  rw [C136_values_partial hS h j x, C136_values_partial hS (.read h hr) j x, this]

/-- An edit can always reach all curves. -/
theorem C137_exists (b : ℕ) (op : Op ℚ) (r : Reads) (s : Web.State ns) : ∃ s' out, Web.Edits ns b op r s s' out :=
  ⟨_, _, Web.inOrder_spread _ _ _ _⟩

/-- No curve raises while it hears of an edit, and the one list is edited. -/
theorem C137_edit_partial (hS : WebSound ns) (h : WebUsed I ns s) {b : ℕ} {op : Op ℚ} {r : Reads} {out : ℕ → Told} (hl : op.Legal)
    (hn : op.apart (pointsOf s) b) (he : lateError (op.run (bases s b) r).err = false) (ht : Truthful (op.run (bases s b) r).st)
    (hf : WebFit I (Function.update (pointsOf s) b (op.run (bases s b) r).st.points) ns) (hr : Web.Edits ns b op r s s' out) :
    bases s' = Function.update (bases s) b (op.run (bases s b) r).st ∧ ∀ k, (out k).err = none := by
  obtain ⟨_, h2, _, _, _, h3⟩ := Web.edits_fine hS (used_fine hS h) hl hn he ht hf hr
  exact ⟨h2, fun k => (h3 k).1⟩

/-- If a curve announces nothing, neither its domain nor its values changed; otherwise one announced interval begins and ends the update and
covers all that are announced, and neither its values nor its domain change before that interval; after a `replace`, at the positions of the
points. -/
theorem C137_announced_partial (hS : WebSound ns) (h : WebUsed I ns s) {b : ℕ} {op : Op ℚ} {r : Reads} {out : ℕ → Told} (hl : op.Legal)
    (hn : op.apart (pointsOf s) b) (he : lateError (op.run (bases s b) r).err = false) (ht : Truthful (op.run (bases s b) r).st)
    (hf : WebFit I (Function.update (pointsOf s) b (op.run (bases s b) r).st.points) ns) (hr : Web.Edits ns b op r s s' out) (k : ℕ) :
    ((out k).begins = [] ∧ (out k).ends = [] ∧ webIn (pointsOf s') ns k = webIn (pointsOf s) ns k ∧
      webValue I (pointsOf s') ns k = webValue I (pointsOf s) ns k) ∨
    ∃ top, top ∈ (out k).begins ∧ top ∈ (out k).ends ∧ (∀ d ∈ (out k).begins ++ (out k).ends, top.superset d = true) ∧
      ∀ x, top.geLo (.fin x) = false → op.noReplace ∨ anyKnot (pointsOf s) x ∨ anyKnot (pointsOf s') x →
        (within (webIn (pointsOf s') ns k) x = true ↔ within (webIn (pointsOf s) ns k) x = true) ∧
        webValue I (pointsOf s') ns k (.fin x) = webValue I (pointsOf s) ns k (.fin x) := by
  obtain ⟨h1, h2, lo, o, h3, h4⟩ := Web.edits_fine hS (used_fine hS h) hl hn he ht hf hr
  rw [fine_points h1]
  rcases (h4 k).2 with ⟨e1, e2, e3⟩ | ⟨top, e1, e2, e3⟩
  · exact .inl ⟨e1, e2, e3.2⟩
  · have hall := (e3 top (List.mem_append_left _ e1)).1
    have hsame := h3.same (I := I) hS k
    refine .inr ⟨top, e1, e2, fun d hd => ?_, fun x hx hX => ?_⟩
    · rw [hall.superset (e3 d hd).1]; exact (e3 d hd).2
    · rw [Net.geLo_onwards hall] at hx
      exact ⟨(hsame.inside x hX hx).symm, (hsame.value x hX hx).symm⟩

/-- A curve that is not made from the edited list announces nothing and does not change. -/
theorem C137_independent {b : ℕ} {op : Op ℚ} {r : Reads} {out : ℕ → Told} (hr : Web.Edits ns b op r s s' out) {k : ℕ}
    (hk : ¬ uses b ns k) (P : ℕ → List (Pt ℚ)) (new : List (Pt ℚ)) :
    out k = ⟨[], [], none⟩ ∧ webIn (Function.update P b new) ns k = webIn P ns k ∧
      webValue I (Function.update P b new) ns k = webValue I P ns k :=
  ⟨spread_unused (fun c hc => if_neg hc) hr k hk, (unused (fun c hc => Function.update_of_ne hc _ _) ns k hk).2⟩

/-! ## Examples -/

/-- Two lists of points, and empty ones. -/
def aPts : List (Pt ℚ) := [(0, some 1), (2, some 5), (4, some 3)]
def bPts : List (Pt ℚ) := [(1, some 2), (3, some 4), (5, some 1)]
def twoLists : ℕ → Pts ℚ
  | 0 => loose aPts
  | 1 => loose bPts
  | _ => loose []

/-- `(a.ema - b).ema`, `a.ema - b`, `a.ema` and `b.ema`, then the lists `a` and `b`. -/
def spreadWeb : List Node :=
  let sub : Ext → List (Option Num) → Except Err (Option Num) := fun _ ys => .ok (Crv.subF ys none)
  [.layer (halfEma 1) 0, .join [0, 3] false sub, .layer (halfEma 1) 1, .layer (thirdEma 1) 1]

theorem spread_sound : WebSound spreadWeb := by
  refine ⟨one_pos, ?_, by simp, rfl, plain_sub, one_pos, ?_, one_pos, ?_, trivial⟩ <;> decide +kernel

theorem lists_points : (fun b => (twoLists b).points) = fun b => match b with | 0 => aPts | 1 => bPts | _ => [] := by
  funext b
  match b with
  | 0 => show (loose aPts).points = aPts; decide +kernel
  | 1 => show (loose bPts).points = bPts; decide +kernel
  | b + 2 => show (loose []).points = []; decide +kernel

theorem lists_honest (b : ℕ) : Honest (twoLists b) := by
  match b with
  | 0 => exact loose_honest (by norm_num [Ascending, aPts]) ⟨2, by norm_num [aPts]⟩ (by decide +kernel)
  | 1 => exact loose_honest (by norm_num [Ascending, bPts]) ⟨2, by norm_num [bPts]⟩ (by decide +kernel)
  | b + 2 => exact loose_honest (pts := []) (by simp [Ascending]) ⟨2, by simp⟩ (by decide +kernel)

theorem fit_evenly {pts : List (Pt ℚ)} {xs : List ℚ} {u : Bool} (d : ℚ) (hd : 1 ≤ d) (h : pts.map Prod.fst = xs)
    (hc : xs.IsChain fun p q => q - p = d) : Fit 1 u pts := by
  rw [← h, List.isChain_map] at hc
  exact fit_spaced (hc.imp fun p q hpq => by linarith) ⟨d, hc⟩

/-- The points of both lists. -/
def listsOf (a b : List (Pt ℚ)) : ℕ → List (Pt ℚ)
  | 0 => a
  | 1 => b
  | _ => []

theorem spread_fit {a b : List (Pt ℚ)} {xs ys zs : List ℚ} {c d e : ℚ} (hc : 1 ≤ c) (hd : 1 ≤ d) (he : 1 ≤ e)
    (hxs : webIn (listsOf a b) (spreadWeb.drop 1) 0 = xs) (hys : a.map Prod.fst = ys) (hzs : b.map Prod.fst = zs)
    (h1 : xs.IsChain fun p q => q - p = c) (h2 : ys.IsChain fun p q => q - p = d) (h3 : zs.IsChain fun p q => q - p = e) :
    WebFit (fun _ => .linear) (listsOf a b) spreadWeb :=
  ⟨fit_evenly c hc ((webPts_xs _ _).trans hxs) h1, fit_evenly d hd ((webPts_xs _ _).trans hys) h2,
    fit_evenly e he ((webPts_xs _ _).trans hzs) h3, trivial⟩

theorem lists_eq : (fun b => (twoLists b).points) = listsOf aPts bPts := lists_points

theorem spread_used : WebUsed (fun _ => .linear) spreadWeb (Web.new twoLists spreadWeb) := by
  refine .new lists_honest (fun b => ?_) ?_
  · match b with
    | 0 => show (loose aPts).interp = _; decide +kernel
    | 1 => show (loose bPts).interp = _; decide +kernel
    | b + 2 => show (loose []).interp = _; decide +kernel
  · rw [lists_eq]
    refine spread_fit (xs := [1, 2, 3, 4]) (ys := [0, 2, 4]) (zs := [1, 3, 5]) (c := 1) (d := 2) (e := 2) le_rfl one_le_two one_le_two
      (by decide +kernel) (by decide +kernel) (by decide +kernel) ?_ ?_ ?_ <;> norm_num

theorem spread_points : pointsOf (Web.new twoLists spreadWeb) = listsOf aPts bPts := by
  rw [← lists_eq]
  funext b
  show (bases (Web.new twoLists spreadWeb) b).points = _
  rw [bases_new]

example : ((Web.machine spreadWeb 0).y (.fin (7/2)) (Web.new twoLists spreadWeb)).map Prod.fst = some (.ok (some (.fin (-1/4)))) := by
  rw [C136_values_partial spread_sound spread_used, spread_points]
  decide +kernel

/-- The domain is the overlap of both lists. -/
example : ∃ d, ((Web.machine spreadWeb 0).dom (Web.new twoLists spreadWeb)).map Prod.fst = some (.ok d) ∧
    d.contains (.fin 1) = true ∧ d.contains (.fin 4) = true ∧ d.contains (.fin (9/2)) = false := by
  obtain ⟨d, h1, h2⟩ := C136_domain_partial spread_sound spread_used 0
  rw [spread_points] at h2
  refine ⟨d, h1, (h2 1).2 (by decide +kernel), (h2 4).2 (by decide +kernel), ?_⟩
  rw [← Bool.not_eq_true, h2]
  decide +kernel

/-- The edit in the order of the lists. -/
def webInOrder (ns : List Node) (b : ℕ) (op : Op ℚ) (s : Web.State ns) : Web.State ns × (ℕ → Told) :=
  Web.inOrder (Function.update (bases s) b (op.run (bases s b) quiet).st) (toldOf b (op.run (bases s b) quiet).ev) ns s

theorem webInOrder_edits (ns : List Node) (b : ℕ) (op : Op ℚ) (s : Web.State ns) :
    Web.Edits ns b op quiet s (webInOrder ns b op s).1 (webInOrder ns b op s).2 := Web.inOrder_spread _ _ _ _

/-- A value was read, a point appended to the first list, and the value at a position that was outside of its domain read. -/
example : (((Web.machine spreadWeb 0).y (.fin 4) (Web.new twoLists spreadWeb)).bind fun r =>
      ((Web.machine spreadWeb 0).y (.fin 5) (webInOrder spreadWeb 0 (.append (6, some 9)) r.2).1).map Prod.fst) =
      some (.ok (some (.fin (7/4)))) ∧
    webValue (fun _ => .linear) (listsOf (aPts ++ [(6, some 9)]) bPts) spreadWeb 0 (.fin 5) = some (7/4) := by
  constructor <;> decide +kernel

theorem b_only : ¬ uses 0 spreadWeb 3 := by
  show ¬ (1 = 0)
  decide

/-- The average of the second list does not hear of it. -/
example : (webInOrder spreadWeb 0 (.append (6, some 9)) (Web.new twoLists spreadWeb)).2 3 = ⟨[], [], none⟩ :=
  (C137_independent (I := fun _ => .linear) (webInOrder_edits _ _ _ _) (k := 3) b_only (listsOf aPts bPts) []).1

theorem update_listsOf (a b c : List (Pt ℚ)) : Function.update (listsOf a b) 0 c = listsOf c b := by
  funext n
  match n with
  | 0 => rfl
  | 1 => rfl
  | n + 2 => rfl

/-- `replace` announces only the replaced position, although the values back to the point before it change.  If another list has a point
between them, an accumulator over both lists keeps the value from before the edit. -/
theorem C136_negation : ∃ (ns : List Node) (I : ℕ → Interp) (s s' : Web.State ns) (b : ℕ) (op : Op ℚ) (r : Reads) (out : ℕ → Told),
    WebSound ns ∧ WebUsed I ns s ∧ op.Legal ∧ (op.run (bases s b) r).err = none ∧ Truthful (op.run (bases s b) r).st ∧
    WebFit I (Function.update (pointsOf s) b (op.run (bases s b) r).st.points) ns ∧ Web.Edits ns b op r s s' out ∧
    pointsOf s' = Function.update (pointsOf s) b (op.run (bases s b) r).st.points ∧
    ((Web.machine ns 0).y (.fin 3) s').map Prod.fst = some (.ok (some (.fin (-1/2)))) ∧
    webValue I (pointsOf s') ns 0 (.fin 3) = some (1/4) := by
  have key : (((Web.machine spreadWeb 0).y (.fin 3) (Web.new twoLists spreadWeb)).any fun r =>
    ((Op.replace (4, some 9) false).run (bases r.2 0) quiet).err = none ∧
    ((Op.replace (4, some 9) false).run (bases r.2 0) quiet).st.points = [(0, some 1), (2, some 5), (4, some 9)] ∧
    ((Web.machine spreadWeb 0).y (.fin 3) (webInOrder spreadWeb 0 (.replace (4, some 9) false) r.2).1).map Prod.fst =
      some (.ok (some (.fin (-1/2))))) = true := by decide +kernel
  obtain ⟨⟨v, s⟩, hs, key⟩ := Option.any_eq_true _ _ |>.1 key
  obtain ⟨k1, k2, k3⟩ := of_decide_eq_true key
  have hread : WebRead spreadWeb 0 (Web.new twoLists spreadWeb) s := .inl ⟨_, _, hs⟩
  have hpts : pointsOf s = listsOf aPts bPts := (C136_undisturbed_partial spread_sound spread_used hread).1.trans spread_points
  have hnew : pointsOf (webInOrder spreadWeb 0 (.replace (4, some 9) false) s).1 =
      Function.update (pointsOf s) 0 ((Op.replace (4, some 9) false).run (bases s 0) quiet).st.points := by
    funext n
    show (bases (webInOrder spreadWeb 0 (.replace (4, some 9) false) s).1 n).points = _
    show (Function.update (bases s) 0 ((Op.replace (4, some 9) false).run (bases s 0) quiet).st n).points = _
    by_cases hn : n = 0
    · subst hn; rw [Function.update_self, Function.update_self]
    · rw [Function.update_of_ne hn, Function.update_of_ne hn]; rfl
  refine ⟨spreadWeb, fun _ => .linear, s, _, 0, .replace (4, some 9) false, quiet, _, spread_sound, .read spread_used hread, by trivial, k1,
    fun _ => ?_, ?_, webInOrder_edits _ _ _ _, hnew, k3, ?_⟩
  · rw [k2]; exact ⟨2, by norm_num⟩
  · rw [hpts, k2, update_listsOf]
    refine spread_fit (xs := [1, 2, 3, 4]) (ys := [0, 2, 4]) (zs := [1, 3, 5]) (c := 1) (d := 2) (e := 2) le_rfl one_le_two one_le_two
      (by decide +kernel) (by decide +kernel) (by decide +kernel) ?_ ?_ ?_ <;> norm_num
  · rw [hnew, hpts, k2, update_listsOf]
    decide +kernel

/-- One list of points, and its average. -/
def oneList : ℕ → Pts ℚ
  | 0 => loose aPts
  | _ => loose []

def oneWeb : List Node := [.layer (halfEma 1) 0]

theorem one_sound : WebSound oneWeb := by
  refine ⟨one_pos, ?_, trivial⟩
  decide +kernel

theorem one_fit {a : List (Pt ℚ)} {xs : List ℚ} {c : ℚ} (hc : 1 ≤ c) (hxs : a.map Prod.fst = xs)
    (h : xs.IsChain fun p q => q - p = c) : WebFit (fun _ => .linear) (listsOf a []) oneWeb :=
  ⟨fit_evenly c hc ((webPts_xs _ _).trans hxs) h, trivial⟩

theorem oneList_eq : (fun b => (oneList b).points) = listsOf aPts [] := by
  funext b
  match b with
  | 0 => show (loose aPts).points = aPts; decide +kernel
  | 1 => show (loose []).points = []; decide +kernel
  | b + 2 => show (loose []).points = []; decide +kernel

theorem one_used : WebUsed (fun _ => .linear) oneWeb (Web.new oneList oneWeb) := by
  refine .new (fun b => ?_) (fun b => ?_) ?_
  · match b with
    | 0 => exact loose_honest (by norm_num [Ascending, aPts]) ⟨2, by norm_num [aPts]⟩ (by decide +kernel)
    | b + 1 => exact loose_honest (pts := []) (by simp [Ascending]) ⟨2, by simp⟩ (by decide +kernel)
  · match b with
    | 0 => show (loose aPts).interp = _; decide +kernel
    | b + 1 => show (loose []).interp = _; decide +kernel
  · rw [oneList_eq]
    refine one_fit (xs := [0, 2, 4]) (c := 2) one_le_two (by decide +kernel) ?_
    norm_num

theorem one_points : pointsOf (Web.new oneList oneWeb) = listsOf aPts [] := by
  rw [← oneList_eq]
  funext b
  show (bases (Web.new oneList oneWeb) b).points = _
  rw [bases_new]

/-- Values change before everything that is announced: after the last of three points is replaced, its list and its average announce
nothing before this point, but have other values between the second point and it. -/
theorem C137_negation : ∃ (ns : List Node) (I : ℕ → Interp) (s s' : Web.State ns) (b : ℕ) (op : Op ℚ) (r : Reads) (out : ℕ → Told),
    WebSound ns ∧ WebUsed I ns s ∧ op.Legal ∧ op.apart (pointsOf s) b ∧ (op.run (bases s b) r).err = none ∧
    Truthful (op.run (bases s b) r).st ∧
    WebFit I (Function.update (pointsOf s) b (op.run (bases s b) r).st.points) ns ∧ Web.Edits ns b op r s s' out ∧
    (∀ k ∈ [0, 1], (out k).begins ≠ [] ∧ ∀ d ∈ (out k).begins ++ (out k).ends, d.geLo (.fin 3) = false) ∧
    webValue I (pointsOf s) ns 0 (.fin 3) = some 3 ∧ webValue I (pointsOf s') ns 0 (.fin 3) = some (9/2) ∧
    webValue I (pointsOf s) ns 1 (.fin 3) = some 4 ∧ webValue I (pointsOf s') ns 1 (.fin 3) = some 7 := by
  have hnew : pointsOf (webInOrder oneWeb 0 (.replace (4, some 9) false) (Web.new oneList oneWeb)).1 =
      listsOf [(0, some 1), (2, some 5), (4, some 9)] [] := by
    funext n
    show (Function.update (bases (Web.new oneList oneWeb)) 0
      ((Op.replace (4, some 9) false).run (bases (Web.new oneList oneWeb) 0) quiet).st n).points = _
    by_cases hn : n = 0
    · subst hn; rw [Function.update_self]; decide +kernel
    · rw [Function.update_of_ne hn]
      have := congrFun one_points n
      rw [show (bases (Web.new oneList oneWeb) n).points = pointsOf (Web.new oneList oneWeb) n from rfl, this]
      match n, hn with
      | 1, _ => rfl
      | n + 2, _ => rfl
  have hp : ((Op.replace (4, some 9) false).run (bases (Web.new oneList oneWeb) 0) quiet).st.points =
      [(0, some 1), (2, some 5), (4, some 9)] := by decide +kernel
  refine ⟨oneWeb, fun _ => .linear, Web.new oneList oneWeb, _, 0, .replace (4, some 9) false, quiet, _, one_sound, one_used, by trivial, ?_,
    by decide +kernel, fun _ => ?_, ?_, webInOrder_edits _ _ _ _, by decide +kernel, ?_, ?_, ?_, ?_⟩
  · intro c hc q hq _
    rw [one_points] at hq
    match c, hc, hq with
    | 0, hc, _ => exact absurd rfl hc
    | 1, _, hq => cases hq
    | c + 2, _, hq => cases hq
  · rw [hp]; exact ⟨2, by norm_num⟩
  · rw [one_points, hp, update_listsOf]
    refine one_fit (xs := [0, 2, 4]) (c := 2) one_le_two (by decide +kernel) ?_
    norm_num
  · rw [one_points]; decide +kernel
  · rw [hnew]; decide +kernel
  · rw [one_points]; decide +kernel
  · rw [hnew]; decide +kernel

/-- A `replace` that is covered: that of the first point of the second list. -/
example : (Op.replace (1, some 7) false).apart (listsOf aPts bPts) 1 := by
  intro c hc q hq hlt
  left
  match c, hc, hq with
  | 0, _, hq =>
    intro z hz
    simp only [listsOf, bPts, List.mem_cons, List.not_mem_nil, or_false] at hz
    simp only at hlt
    rcases hz with rfl | rfl | rfl <;> simp only <;> linarith
  | 1, hc, _ => exact absurd rfl hc
  | c + 2, _, hq => cases hq

end Props
end Curvepy
