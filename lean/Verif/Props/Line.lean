import Verif.Model.Line
import Verif.Lemmas.Interval
import Mathlib.Tactic.FieldSimp
import Mathlib.Tactic.Ring
import Mathlib.Tactic.Linarith

/-!
# Constants and lines: C35, C36, C51
-/

namespace Curvepy.Props

theorem edit_idle {D : Type} {dom : Iv} (hd : dom.isEmpty = false) (old new : D) :
    Held.edit ⟨Gate.init, old⟩ dom new =
      (⟨Gate.init, new⟩, [.begin dom old, .finish dom new]) := by
  have h1 : Iv.empty.superset dom = false := by
    rw [← Bool.not_eq_true]; intro h
    obtain ⟨x, hx⟩ := Iv.exists_mem dom hd
    have := (Iv.superset_iff _ _).1 h x hx
    simp [Iv.contains, Iv.isEmpty_empty] at this
  have h2 : Iv.union Iv.empty dom = dom := by simp [Iv.union, Iv.isEmpty_empty, hd]
  have h3 : dom.superset dom = true := (Iv.superset_iff _ _).2 fun _ h => h
  simp [Held.edit, Gate.begin, Gate.finish, Gate.init, hd, h1, h2, h3]

/-! ## C51 -/

/-- **C51** Assigning values one after the other to a constant (on a domain with a position in it):
each assignment of the present value announces nothing, each other announces one begin at which the
old value is read and then one end at which the new value is read. -/
theorem C51_assign {V : Type} [DecidableEq V] (dom : Iv) (hd : ∃ x, dom.contains x = true) (v : V)
    (vs : List V) (w : V) :
    let h := (Constant.setAll dom ⟨Gate.init, v⟩ vs).1
    let r := Constant.setValue dom h w
    h.data = (v :: vs).getLast (by simp) ∧
    h.gate.isUpdating = false ∧
    r.1.data = w ∧ r.1.gate.isUpdating = false ∧
    r.2 = if w = h.data then [] else [.begin dom h.data, .finish dom w] := by
  obtain ⟨x, hx⟩ := hd
  have hne := Iv.not_isEmpty_of_mem hx
  have step : ∀ (v w : V), (Constant.setValue dom ⟨Gate.init, v⟩ w) =
      (⟨Gate.init, w⟩, if w = v then [] else [.begin dom v, .finish dom w]) := by
    intro v w
    unfold Constant.setValue
    split
    · rename_i h; simp only at h; subst h; rfl
    · rename_i h; rw [edit_idle hne]
  have main : ∀ (vs : List V) (v : V), (Constant.setAll dom ⟨Gate.init, v⟩ vs).1 =
      ⟨Gate.init, (v :: vs).getLast (by simp)⟩ := by
    intro vs
    induction vs with
    | nil => intro v; rfl
    | cons w vs ih =>
      intro v
      simp only [Constant.setAll, step]
      rw [ih]
      simp
  intro h r
  have hh : h = ⟨Gate.init, (v :: vs).getLast (by simp)⟩ := main vs v
  have hi : Gate.init.isUpdating = false := by decide +kernel
  refine ⟨by rw [hh], by rw [hh]; exact hi, ?_⟩
  have hr : r = Constant.setValue dom h w := rfl
  clear_value h
  subst hh
  rw [step] at hr
  rw [hr]
  exact ⟨rfl, hi, rfl⟩

example : (Constant.setAll Iv.infinite ⟨Gate.init, (0 : ℚ)⟩ [1, 1, 2]).2 =
    [[.begin Iv.infinite 0, .finish Iv.infinite 1], [],
      [.begin Iv.infinite 1, .finish Iv.infinite 2]] := by decide +kernel

/-! ## C35 -/

/-- **C35** A line given by two points with different x passes through both, however the points are
given and whatever the line was before. -/
theorem C35_points (h : Held LineData) (c : Option ℚ) (s : Option Num) (p q : ℚ × ℚ)
    (r1 r2 : Option (ℚ × ℚ)) (rest : List (ℚ × ℚ)) (hx : p.1 ≠ q.1) (a : Line.Args)
    (ha : a = { const := c, slope := s, p1 := some p, p2 := some q } ∨
      a = { const := c, slope := s, p1 := r1, p2 := r2, points := some (p :: q :: rest) }) :
    (Line.set h a).2.2 = none ∧
    Line.y (Line.set h a).1.data (.fin p.1) = .fin p.2 ∧
    Line.y (Line.set h a).1.data (.fin q.1) = .fin q.2 := by
  have hp : Line.params a = .ok ⟨p, .fin ((q.2 - p.2) / (q.1 - p.1))⟩ := by
    rcases ha with rfl | rfl
    · simp [Line.params, hx.symm, bind, Except.bind, pure, Except.pure]
    · simp [Line.params, hx.symm, bind, Except.bind, pure, Except.pure, pyGet]
  have hd : (Line.set h a).1.data = ⟨p, .fin ((q.2 - p.2) / (q.1 - p.1))⟩ ∧
      (Line.set h a).2.2 = none := by
    unfold Line.set
    rw [hp]
    simp only
    split
    · rename_i he
      refine ⟨?_, rfl⟩
      obtain ⟨g, ⟨⟨u, v⟩, w⟩⟩ := h
      simp only at he ⊢
      rw [← he.1, ← he.2.1, ← he.2.2]
    · exact ⟨rfl, rfl⟩
  rw [hd.1]
  refine ⟨hd.2, ?_, ?_⟩
  · simp [Line.y, Num.add, Num.mul, Num.sub, Num.neg]
  · have : q.1 - p.1 ≠ 0 := sub_ne_zero.2 hx.symm
    simp only [Line.y, Num.add, Num.mul, Num.sub, Num.neg, Num.fin.injEq]
    field_simp
    ring

theorem set_data (h : Held LineData) (a : Line.Args) (d : LineData) (hp : Line.params a = .ok d) :
    (Line.set h a).1.data = d ∧ (Line.set h a).2.2 = none := by
  unfold Line.set
  rw [hp]
  simp only
  split
  · rename_i he
    refine ⟨?_, rfl⟩
    obtain ⟨g, ⟨⟨u, v⟩, w⟩⟩ := h
    obtain ⟨⟨u', v'⟩, w'⟩ := d
    simp only at he ⊢
    rw [he.1, he.2.1, he.2.2]
  · exact ⟨rfl, rfl⟩

/-- **C35** A line given by a constant and a slope has that intercept and that slope; a line given by
a point and a slope passes through the point with that slope. -/
theorem C35_slope (h : Held LineData) (c s : ℚ) (p : ℚ × ℚ) (c' : Option ℚ) :
    (let d := (Line.set h { const := some c, slope := some (.fin s) }).1.data;
      Line.const d = .fin c ∧ Line.dY d = .fin s ∧ ∀ x, Line.y d (.fin x) = .fin (c + s * x)) ∧
    (let d := (Line.set h { const := c', slope := some (.fin s), p1 := some p }).1.data;
      Line.dY d = .fin s ∧ ∀ x, Line.y d (.fin x) = .fin (p.2 + s * (x - p.1))) := by
  constructor
  · intro d
    have hd : d = ⟨(0, c), .fin s⟩ :=
      (set_data h { const := some c, slope := some (.fin s) } ⟨(0, c), .fin s⟩ (by
        simp [Line.params, bind, Except.bind, pure, Except.pure])).1
    clear_value d
    subst hd
    refine ⟨?_, rfl, ?_⟩
    · simp [Line.const, Line.y, Num.add, Num.mul, Num.sub, Num.neg]
    · intro x; simp [Line.y, Num.add, Num.mul, Num.sub, Num.neg]
  · intro d
    have hd : d = ⟨p, .fin s⟩ :=
      (set_data h { const := c', slope := some (.fin s), p1 := some p } ⟨p, .fin s⟩ (by
        simp [Line.params, bind, Except.bind, pure, Except.pure])).1
    clear_value d
    subst hd
    refine ⟨rfl, ?_⟩
    intro x
    simp [Line.y, Num.add, Num.mul, Num.sub, Num.neg, sub_eq_add_neg]

/-- **C35** A line with a finite slope other than 0 is inverted by `x`, on both sides; with slope 0
asking for `x` raises `ZeroDivisionError`. -/
theorem C35_inverse (r : ℚ × ℚ) (s : ℚ) (hs : s ≠ 0) :
    (∀ x : ℚ, Line.x ⟨r, .fin s⟩ (Line.y ⟨r, .fin s⟩ (.fin x)) = .ok (.fin x)) ∧
    (∀ y : ℚ, ∃ x : ℚ, Line.x ⟨r, .fin s⟩ (.fin y) = .ok (.fin x) ∧
      Line.y ⟨r, .fin s⟩ (.fin x) = .fin y) ∧
    ∀ y, Line.x ⟨r, .fin 0⟩ y = .error .zeroDiv := by
  refine ⟨?_, ?_, ?_⟩
  · intro x
    simp only [Line.x, Line.y, Num.add, Num.mul, Num.sub, Num.neg, Num.div, hs, if_false, bind,
      Except.bind, pure, Except.pure, Except.ok.injEq, Num.fin.injEq]
    field_simp
    ring
  · intro y
    refine ⟨r.1 + (y - r.2) / s, ?_, ?_⟩
    · simp only [Line.x, Num.add, Num.sub, Num.neg, Num.div, hs, if_false, bind, Except.bind, pure,
        Except.pure, Except.ok.injEq, Num.fin.injEq]
      ring
    · simp only [Line.y, Num.add, Num.mul, Num.sub, Num.neg, Num.fin.injEq]
      field_simp
      ring
  · intro y
    simp [Line.x, Num.div, bind, Except.bind]

/-- **C35** Setting a line that is not updating: rejected arguments change and announce nothing, the
present parameters announce nothing, others announce one begin at which the old parameters are read
and one end at which the new ones are read. -/
theorem C35_set (d : LineData) (a : Line.Args) :
    Line.set ⟨Gate.init, d⟩ a =
      match Line.params a with
      | .error e => (⟨Gate.init, d⟩, [], some e)
      | .ok d' => (⟨Gate.init, d'⟩,
          if d' = d then [] else [.begin Iv.infinite d, .finish Iv.infinite d'], none) := by
  unfold Line.set
  cases hp : Line.params a with
  | error e => rfl
  | ok d' =>
    obtain ⟨⟨u, v⟩, w⟩ := d
    obtain ⟨⟨u', v'⟩, w'⟩ := d'
    simp only [LineData.mk.injEq, Prod.mk.injEq, and_assoc]
    split
    · rename_i he; obtain ⟨rfl, rfl, rfl⟩ := he; rfl
    · rw [edit_idle (by decide +kernel)]

/-- **C35** What is rejected: no point and no constant, or no slope and no second point, or a list of
less than two points. -/
theorem C35_rejected (a : Line.Args) :
    (∃ e, Line.params a = .error e) ↔
      match a.points with
      | some l => l.length < 2
      | none => (a.p1 = none ∧ a.const = none) ∨ (a.p2 = none ∧ a.slope = none) := by
  obtain ⟨c, s, p1, p2, pts⟩ := a
  cases pts with
  | some l =>
    match l with
    | [] => simp [Line.params, pyGet, bind, Except.bind]
    | [_] => simp [Line.params, pyGet, bind, Except.bind]
    | p :: q :: rest =>
      simp only [Line.params, pyGet, bind, Except.bind, pure, Except.pure]
      by_cases h1 : q.1 = p.1
      · by_cases h2 : p.2 ≤ q.2 <;> simp [h1, h2]
      · simp [h1]
  | none =>
    cases p1 with
    | none =>
      cases c with
      | none =>
        cases p2 <;> simp [Line.params, bind, Except.bind, pure, Except.pure]
      | some c =>
        cases p2 with
        | none => cases s <;> simp [Line.params, bind, Except.bind, pure, Except.pure]
        | some q =>
          simp only [Line.params, bind, Except.bind, pure, Except.pure]
          by_cases h1 : q.1 = 0
          · by_cases h2 : c ≤ q.2 <;> simp [h1, h2]
          · simp [h1]
    | some p =>
      cases p2 with
      | none => cases s <;> simp [Line.params, bind, Except.bind, pure, Except.pure]
      | some q =>
        simp only [Line.params, bind, Except.bind, pure, Except.pure]
        by_cases h1 : q.1 = p.1
        · by_cases h2 : p.2 ≤ q.2 <;> simp [h1, h2]
        · simp [h1]

example : Line.mk { p1 := some (1, 2), p2 := some (3, 6) } =
      .ok ⟨Gate.init, ⟨(1, 2), .fin 2⟩⟩ ∧
    (Line.set ⟨Gate.init, ⟨(1, 2), .fin 2⟩⟩ { const := some 0, slope := some (.fin 2) }).2.1.length
      = 2 ∧
    Line.mk { const := some 1 } = .error .exception ∧
    Line.x ⟨(1, 2), .fin 2⟩ (.fin 6) = .ok (.fin 3) := by decide +kernel

/-! ## C36 -/

/-- **C36** The partial integral of a line is the exact (signed) area of the trapezoid below it. -/
theorem C36_area (r : ℚ × ℚ) (s a b : ℚ) :
    ∃ ya yb : ℚ, Line.y ⟨r, .fin s⟩ (.fin a) = .fin ya ∧ Line.y ⟨r, .fin s⟩ (.fin b) = .fin yb ∧
      Line.partialIntegration ⟨r, .fin s⟩ a b = .fin ((b - a) * (ya + yb) / 2) := by
  refine ⟨r.2 + s * (a - r.1), r.2 + s * (b - r.1), ?_, ?_, ?_⟩
  · simp [Line.y, Num.add, Num.mul, Num.sub, Num.neg, sub_eq_add_neg]
  · simp [Line.y, Num.add, Num.mul, Num.sub, Num.neg, sub_eq_add_neg]
  · unfold Line.partialIntegration
    split
    · rename_i h; subst h; simp
    · simp only [Line.const, Line.y, Num.add, Num.mul, Num.sub, Num.neg, Num.fin.injEq]
      ring

/-- **C36** It is additive over adjacent intervals and antisymmetric. -/
theorem C36_additive (r : ℚ × ℚ) (s a b c : ℚ) :
    Num.add (Line.partialIntegration ⟨r, .fin s⟩ a b) (Line.partialIntegration ⟨r, .fin s⟩ b c) =
      Line.partialIntegration ⟨r, .fin s⟩ a c ∧
    Line.partialIntegration ⟨r, .fin s⟩ b a =
      Num.neg (Line.partialIntegration ⟨r, .fin s⟩ a b) := by
  have key : ∀ a b, Line.partialIntegration ⟨r, .fin s⟩ a b =
      .fin ((b - a) * ((r.2 + s * (a - r.1)) + (r.2 + s * (b - r.1))) / 2) := by
    intro a b
    obtain ⟨ya, yb, h1, h2, h3⟩ := C36_area r s a b
    rw [h3]
    simp only [Line.y, Num.add, Num.mul, Num.sub, Num.neg, Num.fin.injEq] at h1 h2
    rw [← h1, ← h2]
    simp only [Num.fin.injEq]
    ring
  rw [key, key, key, key]
  simp only [Num.add, Num.neg, Num.fin.injEq]
  constructor <;> ring

example : Line.partialIntegration ⟨(1, 2), .fin 2⟩ 1 3 = .fin 8 := by decide +kernel

end Curvepy.Props
