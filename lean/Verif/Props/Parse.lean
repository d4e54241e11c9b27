import Verif.Model.Parse
import Verif.Props.PointsQuery
import Verif.Props.PointsEdit

/-!
# Property C158: what is taken as a curve
-/

namespace Curvepy
namespace Props
open Spec PyArg

/-! ## One curve -/

/-- C158: a curve is taken as it is, a number as that value everywhere, a function as its values everywhere. -/
theorem C158_one (c : Crv) (v : Num) (f : Ext → Except Err (Option Num)) (x : Ext) :
    (one (.curve c)).parse = .ok (some c) ∧
    (∃ k, (one (.number v)).parse = .ok (some k) ∧ k.y x = .ok (some v) ∧ k.dom = Iv.infinite) ∧
    (∃ k, (one (.func f)).parse = .ok (some k) ∧ k.y x = f x ∧ k.dom = Iv.infinite) := by
  refine ⟨rfl, ⟨_, rfl, rfl, rfl⟩, ⟨_, rfl, ?_, rfl⟩⟩
  simp [Crv.parse, Crv.generic]

/-- A list of points as it is given. -/
def given (pts : List (Pt ℚ)) : PyArg := .list (pts.map fun p => .pair p.1 p.2)

theorem points_given (pts : List (Pt ℚ)) : points (pts.map fun p => .pair p.1 p.2) = .ok pts := by
  induction pts with
  | nil => rfl
  | cons p ps ih => simp only [List.map_cons, points, ih, bind, Except.bind, pure, Except.pure]

theorem parse_given (pts : List (Pt ℚ)) :
    (given pts).parse = (do let s ← Pts.new pts; pure (some (Crv.ofPoints s)) : Except Err (Option Crv)) := by
  have h : (given pts).parse = ofPoints (pts.map fun p => .pair p.1 p.2) := by
    cases pts with
    | nil => rfl
    | cons p ps => rfl
  rw [h]
  simp only [ofPoints, points_given, bind, Except.bind]

theorem new_regular {pts : List (Pt ℚ)} (ha : Ascending pts) (hd : EquallySpaced pts) :
    ∃ s, Pts.new pts .linear true = .ok s ∧ Honest s ∧ s.points = pts := by
  obtain ⟨d, hd'⟩ := hd
  have hc : (Pts.blank .linear true : Pts ℚ).setCheck pts = true := by
    cases pts with
    | nil => rfl
    | cons p ps =>
      cases ps with
      | nil => simp [Pts.setCheck, Pts.spacing, Pts.blank]
      | cons q qs =>
        have ht := chain_eq_total p (q :: qs) hd'
        have hpq : q.1 - p.1 = d := (List.isChain_cons_cons.1 hd').1
        simp only [Pts.setCheck, Pts.blank, Pts.spacing, List.getLast?_nil, decide_eq_true_eq]
        rw [ht, hpq]
  rcases Pts.set_none (Pts.blank_base .linear true) ha ⟨false, false⟩ with ⟨_, h2, _⟩ | ⟨_, h2, _⟩
  · rw [hc] at h2; cases h2
  · have hn : Pts.new pts .linear true = .ok ((Pts.blank .linear true).set pts none ⟨false, false⟩).st := by
      simp only [Pts.new, h2.err]
    exact ⟨_, hn, .new ha hn fun _ => by rw [h2.points]; exact ⟨d, hd'⟩, h2.points⟩

/-- C158: a list of equally spaced points is taken as the curve through them. -/
theorem C158_points {pts : List (Pt ℚ)} (ha : Ascending pts) (hd : EquallySpaced pts) :
    ∃ c, (given pts).parse = .ok (some c) ∧ (∀ p ∈ pts, c.y (.fin p.1) = .ok (p.2.map .fin)) ∧
      ∀ x : ℚ, c.dom.contains (.fin x) = true ↔
        ∃ p q, pts.head? = some p ∧ pts.getLast? = some q ∧ p.1 ≤ x ∧ x ≤ q.1 := by
  obtain ⟨s, hn, hs, hp⟩ := new_regular ha hd
  refine ⟨Crv.ofPoints s, ?_, ?_, ?_⟩
  · rw [parse_given]
    simp only [hn, bind, Except.bind, pure, Except.pure]
  · intro p hm
    have := C01_stored_value hs (p := p) (by rw [hp]; exact hm)
    show (s.y (.fin p.1)).map _ = _
    rw [this]
    rfl
  · intro x
    show s.domVal.contains (.fin x) = true ↔ _
    rw [hs.base.domVal, Pts.getDomain_contains_fin, hp, List.head?_eq_getElem?, List.getLast?_eq_getElem?]

/-- C158, a negation: points that are not equally spaced are refused. -/
theorem C158_irregular {a b c : ℚ} {u v w : Option ℚ} (hab : a < b) (hbc : b < c) (h : c - b ≠ b - a) :
    (given [(a, u), (b, v), (c, w)]).parse = .error .nonRegular := by
  rw [parse_given]
  have ha : Ascending [(a, u), (b, v), (c, w)] := by simp [Ascending, hab, hbc, hab.trans hbc]
  have hc : (Pts.blank .linear true : Pts ℚ).setCheck [(a, u), (b, v), (c, w)] = false := by
    simp only [Pts.setCheck, Pts.blank, Pts.spacing, List.getLast?_nil, decide_eq_false_iff_not]
    norm_num
    intro hc
    exact h (by linarith)
  rcases Pts.set_none (Pts.blank_base .linear true) ha ⟨false, false⟩ with ⟨_, _, h3⟩ | ⟨h1, _, _⟩
  · simp only [Pts.new, h3.err, bind, Except.bind]
  · exact absurd ⟨rfl, hc⟩ h1

/-- C158: what is refused. -/
theorem C158_refused (x : ℚ) (y : Option ℚ) (t : Char) (s : List Char) (a : PyArg) (l : List PyArg)
    (ha : a.items.length ≠ 2) :
    object.parse = .error .exception ∧ (pair x y).parse = .error .exception ∧ (text (t :: s)).parse = .error .exception ∧
    (PyArg.list (a :: l)).parse = .error .exception := by
  refine ⟨rfl, rfl, rfl, ?_⟩
  have : (a.isSequence && a.items.length == 2) = false := by simp [ha]
  show (if (a.isSequence && a.items.length == 2) = true then _ else _) = _
  rw [this]
  rfl

/-- C158: `None` stays `None`; an empty list, and an empty string, is a curve without values. -/
theorem C158_empty : nothing.parse = .ok none ∧
    ∃ c, (PyArg.list []).parse = .ok (some c) ∧ (text []).parse = .ok (some c) ∧ c.dom = Iv.empty ∧ ∀ x, c.y x = .ok none := by
  refine ⟨rfl, _, rfl, rfl, rfl, fun x => ?_⟩
  cases x <;> rfl

/-! ## Many curves -/

/-- C158: curves that are given one after another are those of the list. -/
theorem C158_spread (f : List Crv → Crv) {a : PyArg} (h : a.isSequence = false) (args : List PyArg) :
    many f a args = many f (.list (a :: args)) := by
  have e : gather a args = .list (a :: args) := by unfold gather; rw [h]; rfl
  unfold many
  rw [e]
  rfl

/-- C158, a negation: what follows a sequence is ignored. -/
theorem C158_ignored (f : List Crv → Crv) {a : PyArg} (h : a.isSequence = true) (args : List PyArg) :
    many f a args = many f a := by
  unfold many gather
  rw [h]
  rfl

theorem parseAll_ones (as : List Crv.Arg) : parseAll (as.map .one) = .ok (as.map fun a => some (Crv.parse a)) := by
  induction as with
  | nil => rfl
  | cons a as ih => simp only [List.map_cons, parseAll, parse, ih, bind, Except.bind, pure, Except.pure]

/-- C158: `parse_many` takes each of its arguments, or each item of a list, as a curve, in order. -/
theorem C158_parse_many (a : Crv.Arg) (as : List Crv.Arg) (args : List PyArg) :
    parseMany (.one a) (as.map .one) = .ok (some (Crv.parse a) :: as.map fun a => some (Crv.parse a)) ∧
    parseMany (.list (as.map .one)) args = .ok (as.map fun a => some (Crv.parse a)) :=
  ⟨parseAll_ones (a :: as), parseAll_ones as⟩

theorem many_ones (f : List Crv → Crv) (as : List Crv.Arg) :
    many f (.list (as.map .one)) = .ok (f (as.map Crv.parse)) := by
  have h1 : ∀ as : List Crv.Arg, parseAll (as.map .one) = .ok ((as.map Crv.parse).map some) := by
    intro as
    induction as with
    | nil => rfl
    | cons a as ih => simp only [List.map_cons, parseAll, parse, ih, bind, Except.bind, pure, Except.pure]
  have h2 : ∀ cs : List Crv, present (cs.map some) = .ok cs := by
    intro cs
    induction cs with
    | nil => rfl
    | cons c cs ih => simp only [List.map_cons, present, ih, bind, Except.bind, pure, Except.pure]
  show (do let cs ← parseAll (as.map .one); let cs ← present cs; pure (f cs) : Except Err Crv) = _
  simp only [h1, h2, bind, Except.bind, pure, Except.pure]

/-- C158: sums and first values of curves, functions and numbers are those of `Model/Curve`. -/
theorem C158_many (as : List Crv.Arg) :
    add (.list (as.map .one)) = .ok (Crv.addMany as) ∧ first (.list (as.map .one)) = .ok (Crv.first as) :=
  ⟨many_ones _ as, many_ones _ as⟩

/-- C158: a list of points can be added to a curve, from both sides. -/
theorem C158_plus (a : Crv) {b : PyArg} {c : Crv} (h : b.parse = .ok (some c)) :
    plus a b = .ok (Crv.addMany [.curve a, .curve c]) ∧ rplus a b = .ok (Crv.addMany [.curve c, .curve a]) := by
  constructor
  · unfold plus add
    show (do let cs ← parseAll [.one (.curve a), b]; let cs ← present cs
             pure (Crv.aggregate cs fun _ ys => .ok (Crv.addF ys)) : Except Err Crv) = _
    have h0 : (one (.curve a)).parse = .ok (some a) := rfl
    simp only [parseAll, h0, h, bind, Except.bind, pure, Except.pure, present]
    rfl
  · unfold rplus add
    show (do let cs ← parseAll [b, .one (.curve a)]; let cs ← present cs
             pure (Crv.aggregate cs fun _ ys => .ok (Crv.addF ys)) : Except Err Crv) = _
    have h0 : (one (.curve a)).parse = .ok (some a) := rfl
    simp only [parseAll, h0, h, bind, Except.bind, pure, Except.pure, present]
    rfl

/-- C158: `None` among the curves raises. -/
theorem C158_none (f : List Crv → Crv) (as : List Crv.Arg) :
    many f (.list (as.map .one ++ [.nothing])) = .error .attribute := by
  have h1 : ∀ as : List Crv.Arg, parseAll (as.map .one ++ [.nothing]) = .ok ((as.map Crv.parse).map some ++ [none]) := by
    intro as
    induction as with
    | nil => rfl
    | cons a as ih => simp only [List.map_cons, List.cons_append, parseAll, parse, ih, bind, Except.bind, pure, Except.pure]
  have h2 : ∀ cs : List Crv, present (cs.map some ++ [none]) = .error .attribute := by
    intro cs
    induction cs with
    | nil => rfl
    | cons c cs ih => simp only [List.map_cons, List.cons_append, present, ih, bind, Except.bind]
  show (do let cs ← parseAll (as.map .one ++ [.nothing]); let cs ← present cs; pure (f cs) : Except Err Crv) = _
  simp only [h1, h2, bind, Except.bind]

/-- C158, a negation: a list of points cannot be the first of several curves. -/
theorem C158_points_first (f : List Crv → Crv) (p : Pt ℚ) (ps : List (Pt ℚ)) (args : List PyArg) :
    many f (given (p :: ps)) args = .error .exception := by
  rw [C158_ignored f rfl]
  rfl

/-- C158: `Curve.zero` ignores its argument. -/
theorem C158_zero (a : PyArg) (x : Ext) : (zero a).y x = .ok (some (.fin 0)) := rfl

/-! ## Extensions -/

/-- C158: the names of extensions. -/
theorem C158_extension (c : Crv) (a b r : Bool) (p : ℚ) (hp : 0 < p) :
    c.extension "constant" a b r = .ok (.constant (Extn.mk' Extn.constant c a b r)) ∧
    c.extension "tangent" a b r = .ok (.tangent (Extn.mk' (Extn.tangent (1 / 100000)) c a b r)) ∧
    c.extension "sin" a b r (some p) = .ok (.sin p (a && !c.dom.isNegInf) (b && !c.dom.isPosInf) r) := by
  refine ⟨rfl, rfl, ?_⟩
  have : ¬ p ≤ 0 := not_le.2 hp
  show (if p ≤ 0 then _ else _) = _
  rw [if_neg this]
  rfl

/-- C158: any other name is refused; a sine needs a period, and only a sine takes one. -/
theorem C158_unknown (c : Crv) (name : String) (a b r : Bool) (p : Option ℚ) (h1 : name ≠ "constant") (h2 : name ≠ "tangent")
    (h3 : name ≠ "sin") : c.extension name a b r p = .error .exception := by
  simp [Crv.extension, ExtnClass.name, List.find?, Ne.symm h1, Ne.symm h2, Ne.symm h3, beq_eq_false_iff_ne.2]

theorem C158_period (c : Crv) (a b r : Bool) (p : ℚ) :
    c.extension "sin" a b r = .error .assertion ∧ c.extension "constant" a b r (some p) = .error .type ∧
    c.extension "tangent" a b r (some p) = .error .type := ⟨rfl, rfl, rfl⟩

/-- C158: by default only the end is extended: before the domain there is no value. -/
theorem C158_default {c : Crv} {s : Extn (Option Num)} (h : c.extension "constant" = .ok (.constant s)) {x : Ext}
    {v : Option Num} (hne : c.dom.isEmpty = false) (hv : c.y c.dom.hi = .ok v) (hx : c.dom.contains x = false)
    (hlt : x < c.dom.hi) : (Extn.y Extn.constant c s x).2 = .ok none := by
  have e : s = Extn.mk' Extn.constant c false true false := by
    have := (C158_extension c false true false 1 one_pos).1
    have h' : c.extension "constant" = c.extension "constant" false true false := rfl
    rw [h', this] at h
    injection h with h
    injection h with h
    exact h.symm
  have hlt' : ¬ c.dom.hi ≤ x := not_le.2 hlt
  rw [e]
  cases hp : c.dom.isPosInf <;>
    simp [Extn.y, hx, Extn.updateIfNeeded, Extn.mk', Extn.constant, hne, Extn.andThen, Extn.constantStart, Extn.constantStop, hv,
      Extn.check, Extn.setInterval, Extn.yExtension, hlt', hp]

/-- C158, a negation: a curve without values that is extended by default raises as soon as it is read. -/
theorem C158_empty_negation {s : Extn (Option Num)} (h : Crv.empty.extension "constant" = .ok (.constant s)) (x : Ext) :
    (Extn.y Extn.constant Crv.empty s x).2 = .error .attribute := by
  have e : s = Extn.mk' Extn.constant Crv.empty false true false := by
    have := (C158_extension Crv.empty false true false 1 one_pos).1
    have h' : Crv.empty.extension "constant" = Crv.empty.extension "constant" false true false := rfl
    rw [h', this] at h
    injection h with h
    injection h with h
    exact h.symm
  rw [e]
  have : Crv.empty.dom.contains x = false := rfl
  simp only [Extn.y, this]
  rfl

/-! ## Examples -/

/-- C158, a negation: the second argument of a sum is lost. -/
theorem C158_negation :
    ∃ c, add (.list [.one (.number (.fin 1))]) [.one (.number (.fin 2))] = .ok c ∧ c.y (.fin 0) = .ok (some (.fin 1)) :=
  ⟨_, rfl, by decide +kernel⟩

example : ∃ c, add (.one (.number (.fin 1))) [.one (.number (.fin 2))] = .ok c ∧ c.y (.fin 0) = .ok (some (.fin 3)) :=
  ⟨_, rfl, by decide +kernel⟩
example : EquallySpaced [((0 : ℚ), some (1 : ℚ)), (2, some 5), (4, none)] := ⟨2, by norm_num⟩
example : ∃ c, (given [(0, some 1), (2, some 5), (4, none)]).parse = .ok (some c) ∧ c.y (.fin 2) = .ok (some (.fin 5)) := by
  obtain ⟨c, h1, h2, -⟩ := C158_points (pts := [(0, some 1), (2, some 5), (4, none)]) (by norm_num [Ascending]) ⟨2, by norm_num⟩
  exact ⟨c, h1, h2 (2, some 5) (by simp)⟩
example : (given [(0, some 1), (2, some 5), (5, some 1)]).parse = .error .nonRegular :=
  C158_irregular (by norm_num) (by norm_num) (by norm_num)
example : ∃ s, (Crv.ofPoints (even .linear)).extension "constant" = .ok (.constant s) ∧
    (Extn.y Extn.constant (Crv.ofPoints (even .linear)) s (.fin (-1))).2 = .ok none ∧
    (Extn.y Extn.constant (Crv.ofPoints (even .linear)) s (.fin 7)).2 = .ok (some (.fin 4)) :=
  ⟨_, rfl, by decide +kernel, by decide +kernel⟩

/-! ## Further examples -/

/-- C158: what is refused, and what raises later. -/
example : (pair 1 (some 2)).parse = .error .exception ∧ (text ['1']).parse = .error .exception ∧
    (PyArg.list [.one (.number (.fin 1))]).parse = .error .exception ∧
    add (given [(0, some 1), (1, some 2)]) [.one (.number (.fin 1))] = .error .exception :=
  ⟨rfl, rfl, (C158_refused 0 none 'a' [] (.one (.number (.fin 1))) [] (by decide)).2.2.2,
    C158_points_first _ _ _ _⟩

example (f : List Crv → Crv) : many f (.list [.one (.number (.fin 1)), .nothing]) = .error .attribute :=
  C158_none f [.number (.fin 1)]

example : (zero (.one (.number (.fin 9)))).y (.fin 4) = .ok (some (.fin 0)) ∧ (Crv.constant (.fin 1)).extension "linear" = .error .exception ∧
    (Crv.constant (.fin 1)).extension "sin" = .error .assertion :=
  ⟨C158_zero _ _, C158_unknown (.constant (.fin 1)) "linear" true true false none (by decide) (by decide) (by decide), (C158_period (.constant (.fin 1)) _ _ _ 1).1⟩

/-- C158: a list that begins with a pair must consist of pairs. -/
theorem C158_mixed (p : Pt ℚ) (ps : List (Pt ℚ)) {a : PyArg} (ha : ∀ x y, a ≠ .pair x y) (l : List PyArg) :
    (PyArg.list (((p :: ps).map fun p => .pair p.1 p.2) ++ a :: l)).parse = .error .type := by
  have key : ∀ qs : List (Pt ℚ), points ((qs.map fun p => .pair p.1 p.2) ++ a :: l) = .error .type := by
    intro qs
    induction qs with
    | nil =>
      cases a <;> first | rfl | exact absurd rfl (ha _ _)
    | cons q qs ih => simp only [List.map_cons, List.cons_append, points, ih]; rfl
  have h := key (p :: ps)
  show ofPoints (((p :: ps).map fun p => PyArg.pair p.1 p.2) ++ a :: l) = _
  rw [ofPoints, h]
  rfl

/-- C158: a pair in the place of several curves is taken as two curves, and must not lack the second. -/
theorem C158_two (f : List Crv → Crv) (x y : ℚ) (args : List PyArg) :
    many f (.pair x (some y)) args = many f (.list [.one (.number (.fin x)), .one (.number (.fin y))]) ∧
    many f (.pair x none) args = .error .attribute := ⟨rfl, rfl⟩

example : ∃ a b c, parseMany (.one (.number (.fin 1))) [.one (.number (.fin 2)), .one (.number (.fin 3))] = .ok [some a, some b, some c] ∧
    a.y (.fin 0) = .ok (some (.fin 1)) ∧ b.y (.fin 0) = .ok (some (.fin 2)) ∧ c.y (.fin 0) = .ok (some (.fin 3)) :=
  ⟨_, _, _, (C158_parse_many (.number (.fin 1)) [.number (.fin 2), .number (.fin 3)] []).1, rfl, rfl, rfl⟩

example : (PyArg.list [.pair 0 (some 1), .pair 1 none, .one (.number (.fin 3)), .pair 2 (some 1)]).parse = .error .type ∧
    (∃ c, add (.pair 2 (some 3)) = .ok c ∧ c.y (.fin 0) = .ok (some (.fin 5))) :=
  ⟨C158_mixed (0, some 1) [(1, none)] (by simp) _, _, rfl, by decide +kernel⟩

end Props
end Curvepy
