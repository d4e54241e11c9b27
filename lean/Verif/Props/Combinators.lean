import Verif.Lemmas.Combine
import Verif.Props.Arith
import Mathlib.Topology.Instances.Rat
import Mathlib.Topology.Algebra.Order.Field

/-!
# Transformed, shifted and joined curves: C30-C34
-/

namespace Curvepy.Props
open Spec Crv

/-! ## C30 -/

theorem resolve_idem (o m : Option Ext) : resolve o (resolve o m) = resolve o m := by
  cases o with
  | none => cases m <;> rfl
  | some s =>
    cases m with
    | none => simp [resolve]
    | some m =>
      simp only [resolve]
      by_cases h : m < s <;> simp [h]

/-- **C30** A map with a function of one or two arguments applies it to the value, has the same domain,
and with `skip_none` leaves `None` alone. -/
theorem C30_map (c : Crv) (n : ℕ) (hn : n = 1 ∨ n = 2)
    (tfm : Ext → Option Num → Except Err (Option Num)) (skip : Bool) (ms : Ext) :
    ∃ d, c.map n tfm skip ms = .ok d ∧ d.dom = c.dom ∧
      (∀ x v, c.y x = .ok (some v) → d.y x = tfm x (some v)) ∧
      (∀ x, c.y x = .ok none → d.y x = if skip then .ok none else tfm x none) ∧
      ∀ x e, c.y x = .error e → d.y x = .error e := by
  have h : ¬ (n = 0 ∨ 2 < n) := by omega
  refine ⟨_, if_neg h, rfl, ?_, ?_, ?_⟩
  · intro x v hv
    simp [hv, bind, Except.bind]
  · intro x hv
    cases skip <;> simp [hv, bind, Except.bind]
  · intro x e hv
    simp [hv, bind, Except.bind]

/-- **C30** A function of no or of more than two arguments is refused. -/
theorem C30_refused (c : Crv) (n : ℕ) (hn : n = 0 ∨ 2 < n)
    (tfm : Ext → Option Num → Except Err (Option Num)) (skip : Bool) (ms : Ext) :
    c.map n tfm skip ms = .error .exception := if_pos hn

/-- **C30** (partial: for steps not below the step of the map, by default `MIN_STEP`)
The next and previous positions are those of the curve. -/
theorem C30_next_partial (c : Crv) (hc : Resolves c) (n : ℕ) (hn : n = 1 ∨ n = 2)
    (tfm : Ext → Option Num → Except Err (Option Num)) (skip : Bool) (ms : Ext) (x m : Ext)
    (l : Option Ext) (hm : ms ≤ m) :
    ∃ d, c.map n tfm skip ms = .ok d ∧ d.xNext x (some m) l = c.xNext x (some m) l ∧
      d.xPrevious x (some m) l = c.xPrevious x (some m) l := by
  have h : ¬ (n = 0 ∨ 2 < n) := by omega
  refine ⟨_, if_neg h, ?_⟩
  have key : resolve c.minStep (resolve (some (mapStep c.minStep ms)) (some m)) =
      resolve c.minStep (some m) := by
    have hstep : mapStep c.minStep ms = ms ∨
        ∃ s, c.minStep = some s ∧ mapStep c.minStep ms = s := by
      cases hs : c.minStep with
      | none => left; rfl
      | some s =>
        by_cases h1 : s ≠ .fin 0 ∧ ms < s
        · right; exact ⟨s, rfl, if_pos h1⟩
        · left; exact if_neg h1
    rcases hstep with h1 | ⟨s, h1, h2⟩
    · rw [h1]
      have : resolve (some ms) (some m) = some m := congrArg some (if_neg (not_lt.2 hm))
      rw [this]
    · rw [h2, h1]
      exact resolve_idem _ _
  constructor
  · simp only
    rw [(hc x (some m) l).1, (hc x _ l).1, key]
  · simp only
    rw [(hc x (some m) l).2, (hc x _ l).2, key]

/-- **C30** The negation for smaller steps: a curve with a step of one millionth, asked for its next
position without a step, moves by a millionth, but its map moves by `MIN_STEP`. -/
theorem C30_negation :
    let c := generic (fun x => .ok (some (.ofExt x))) (minStep := some (.fin (1 / 1000000)))
    ∃ d, c.map 1 (fun _ v => .ok v) = .ok d ∧
      c.xNext (.fin 0) none none = .ok (some (.fin (1 / 1000000))) ∧
      d.xNext (.fin 0) none none = .ok (some (.fin (1 / 100000))) := by
  refine ⟨_, if_neg (by decide), by decide +kernel, by decide +kernel⟩

theorem neg_neg' (v : Num) : v.neg.neg = v := by cases v <;> simp [Num.neg]
theorem abs_neg' (v : Num) : v.neg.abs = v.abs := by cases v <;> simp [Num.neg, Num.abs]
theorem le_abs' (v : Num) (h : v ≠ .nan) : Num.le (.fin 0) v.abs = true := by
  cases v <;> simp_all [Num.le, Num.abs]

/-- **C30** `-c` has the negated values, `-(-c)` is `c`. -/
theorem C30_neg (c : Crv) :
    ∃ d e, neg c = .ok d ∧ neg d = .ok e ∧ SameValues e c ∧
      d.dom = c.dom ∧ ∀ x v, c.y x = .ok (some v) → d.y x = .ok (some v.neg) := by
  obtain ⟨d, hd, dd, d1, d2, d3⟩ := C30_map c 2 (Or.inr rfl) negT false MIN_STEP
  obtain ⟨e, he, de, e1, e2, e3⟩ := C30_map d 2 (Or.inr rfl) negT false MIN_STEP
  refine ⟨d, e, hd, he, ⟨fun _ => by rw [de, dd], ?_⟩, dd, ?_⟩
  · intro x
    cases hy : c.y x with
    | error r => exact e3 x r (d3 x r hy)
    | ok v =>
      cases v with
      | none => exact e2 x (d2 x hy)
      | some v => rw [e1 x _ (d1 x v hy), negT, neg_neg']
  · intro x v hy
    exact d1 x v hy

/-- **C30** `abs(c)` has the absolute values, is not negative, and equals `abs(-c)`. -/
theorem C30_abs (c : Crv) :
    ∃ d e f, abs c = .ok d ∧ neg c = .ok e ∧ abs e = .ok f ∧ SameValues f d ∧ d.dom = c.dom ∧
      ∀ x v, c.y x = .ok (some v) → v ≠ .nan →
        ∃ w, d.y x = .ok (some w) ∧ Num.le (.fin 0) w = true ∧ (w = v ∨ w = v.neg) := by
  obtain ⟨d, hd, dd, d1, d2, d3⟩ := C30_map c 2 (Or.inr rfl) absT false MIN_STEP
  obtain ⟨e, he, de, e1, e2, e3⟩ := C30_map c 2 (Or.inr rfl) negT false MIN_STEP
  obtain ⟨f, hf, df, f1, f2, f3⟩ := C30_map e 2 (Or.inr rfl) absT false MIN_STEP
  refine ⟨d, e, f, hd, he, hf, ⟨fun _ => by rw [df, de, dd], ?_⟩, dd, ?_⟩
  · intro x
    cases hy : c.y x with
    | error r => rw [f3 x r (e3 x r hy), d3 x r hy]
    | ok v =>
      cases v with
      | none => rw [f2 x (e2 x hy), d2 x hy]
      | some v => rw [f1 x _ (e1 x v hy), d1 x v hy, absT, absT, abs_neg']
  · intro x v hy hn
    refine ⟨v.abs, d1 x v hy, le_abs' v hn, ?_⟩
    cases v with
    | fin q =>
      rcases abs_choice q with h | h
      · left; simp [Num.abs, h]
      · right; simp [Num.abs, Num.neg, h]
    | pinf => left; rfl
    | ninf => right; rfl
    | nan => exact absurd rfl hn

/-- **C30** The reciprocal: pointwise for finite values other than 0, where the reciprocal of the
reciprocal is the value again; at 0 it raises `ZeroDivisionError`; `None` stays `None`. -/
theorem C30_recip (c : Crv) :
    ∃ d e, recip c = .ok d ∧ recip d = .ok e ∧ d.dom = c.dom ∧
      (∀ x q, c.y x = .ok (some (.fin q)) → q ≠ 0 →
        d.y x = .ok (some (.fin (1 / q))) ∧ e.y x = c.y x) ∧
      (∀ x, c.y x = .ok (some (.fin 0)) → d.y x = .error .zeroDiv) ∧
      ∀ x, c.y x = .ok none → d.y x = .ok none := by
  obtain ⟨d, hd, dd, d1, d2, d3⟩ := C30_map c 2 (Or.inr rfl) recipT false MIN_STEP
  obtain ⟨e, he, de, e1, e2, e3⟩ := C30_map d 2 (Or.inr rfl) recipT false MIN_STEP
  refine ⟨d, e, hd, he, dd, ?_, ?_, ?_⟩
  · intro x q hy hq
    have h1 : d.y x = .ok (some (.fin (1 / q))) := by
      rw [d1 x _ hy]
      simp [recipT, Num.div, hq, Except.map]
    refine ⟨h1, ?_⟩
    rw [e1 x _ h1, hy]
    simp [recipT, Num.div, hq, Except.map]
  · intro x hy
    rw [d1 x _ hy]
    simp [recipT, Num.div, Except.map]
  · intro x hy
    exact d2 x hy

/-- The curves that step on their own resolve the step. -/
theorem resolves_generic (f : Ext → Except Err (Option Num)) (d : Iv) (s : Option Ext) :
    Resolves (generic f d s) := by
  intro x m l
  simp [generic, baseNext, basePrevious, resolve_idem]

theorem resolves_constant (v : Num) (d : Iv) : Resolves (constant v d) := by
  intro x m l
  simp [constant, baseNext, basePrevious, resolve_idem]

example : (do let d ← neg square; d.y (.fin 3)) = .ok (some (.fin (-9))) ∧
    (do let d ← recip square; d.y (.fin 3)) = .ok (some (.fin (1 / 9))) ∧
    (do let d ← square.map 1 (fun _ v => .ok v); d.xNext (.fin 3) (some (.fin 2)) none) =
      .ok (some (.fin 5)) ∧ Resolves square :=
  ⟨by decide +kernel, by decide +kernel, by decide +kernel, resolves_generic _ _ _⟩

/-! ## C31 -/

theorem addQ_lt (k : ℚ) (a b : Ext) : a.addQ k < b.addQ k ↔ a < b := by
  cases a <;> cases b <;> simp [Ext.addQ]

theorem addQ_le (k : ℚ) (a b : Ext) : a.addQ k ≤ b.addQ k ↔ a ≤ b := by
  cases a <;> cases b <;> simp [Ext.addQ]

theorem addQ_inj (k : ℚ) (a b : Ext) : a.addQ k = b.addQ k ↔ a = b := by
  cases a <;> cases b <;> simp [Ext.addQ]

theorem addQ_cancel (k : ℚ) (a : Ext) : (a.addQ k).addQ (-k) = a := by
  cases a <;> simp [Ext.addQ]

theorem addQ_cancel' (k : ℚ) (a : Ext) : (a.addQ (-k)).addQ k = a := by
  cases a <;> simp [Ext.addQ]

theorem addQ_addQ (k j : ℚ) (a : Ext) : (a.addQ k).addQ j = a.addQ (k + j) := by
  cases a <;> simp [Ext.addQ, add_assoc]

theorem offsetInterval_contains (k : ℚ) (d : Iv) (x : Ext) :
    (offsetInterval k d).contains (x.addQ k) = d.contains x := by
  obtain ⟨lo, hi, lo', hi'⟩ := d
  simp [offsetInterval, Iv.contains, Iv.isEmpty, Iv.geLo, Iv.leHi, addQ_lt, addQ_le, addQ_inj]

/-- **C31** The values of an offset curve are the curve's, shifted; the domain is the shifted domain;
the intervals announced are the shifted intervals. -/
theorem C31_shift (c : Crv) (hc : Respects c) (k : ℚ) (x : Ext) :
    (c.offset k).y x = c.y (x.addQ (-k)) ∧
    (c.offset k).dom.contains (x.addQ k) = c.dom.contains x ∧
    (∀ d : Iv, (offsetInterval k d).contains (x.addQ k) = d.contains x) ∧
    (c.offset k).dom = offsetInterval k c.dom ∧ Respects (c.offset k) := by
  have hy : ∀ x, (c.offset k).y x = c.y (x.addQ (-k)) := by
    intro x
    simp only [offset]
    cases h : c.dom.contains (x.addQ (-k)) with
    | true => simp
    | false => simp [hc _ h]
  refine ⟨hy x, offsetInterval_contains k c.dom x, fun d => offsetInterval_contains k d x, rfl, ?_⟩
  intro z hz
  rw [hy]
  apply hc
  have := offsetInterval_contains k c.dom (z.addQ (-k))
  rw [addQ_cancel'] at this
  rw [← this]
  exact hz

/-- **C31** Offsets add up, and the opposite offset undoes an offset. -/
theorem C31_compose (c : Crv) (hc : Respects c) (k j : ℚ) :
    SameValues ((c.offset k).offset j) (c.offset (k + j)) ∧
    SameValues ((c.offset k).offset (-k)) c := by
  have hk : Respects (c.offset k) := (C31_shift c hc k (.fin 0)).2.2.2.2
  refine ⟨⟨?_, ?_⟩, ?_, ?_⟩
  · intro x
    congr 1
    simp [offset, offsetInterval, addQ_addQ]
  · intro x
    rw [(C31_shift _ hk j x).1, (C31_shift c hc k _).1, (C31_shift c hc _ x).1, addQ_addQ]
    congr 2; ring
  · intro x
    congr 1
    simp [offset, offsetInterval, addQ_cancel]
  · intro x
    rw [(C31_shift _ hk (-k) x).1, (C31_shift c hc k _).1, neg_neg, addQ_cancel]

/-- **C31** (partial: without limit, and for next/previous positions in the domain of the curve)
The next and previous positions are those of the curve, shifted. -/
theorem C31_next_partial (c : Crv) (k : ℚ) (x : Ext) (m : Option Ext) :
    (∀ e, c.xNext (x.addQ (-k)) m none = .error e → (c.offset k).xNext x m none = .error e) ∧
    (c.xNext (x.addQ (-k)) m none = .ok none → (c.offset k).xNext x m none = .ok none) ∧
    (∀ z, c.xNext (x.addQ (-k)) m none = .ok (some z) → c.dom.contains z = true →
      (c.offset k).xNext x m none = .ok (some (z.addQ k))) ∧
    (∀ e, c.xPrevious (x.addQ (-k)) m none = .error e →
      (c.offset k).xPrevious x m none = .error e) ∧
    (c.xPrevious (x.addQ (-k)) m none = .ok none → (c.offset k).xPrevious x m none = .ok none) ∧
    ∀ z, c.xPrevious (x.addQ (-k)) m none = .ok (some z) → c.dom.contains z = true →
      (c.offset k).xPrevious x m none = .ok (some (z.addQ k)) := by
  refine ⟨?_, ?_, ?_, ?_, ?_, ?_⟩
  · intro e h; simp [offset, h, bind, Except.bind]
  · intro h; simp [offset, h, bind, Except.bind, pure, Except.pure]
  · intro z h hz; simp [offset, h, hz, bind, Except.bind, pure, Except.pure]
  · intro e h; simp [offset, h, bind, Except.bind]
  · intro h; simp [offset, h, bind, Except.bind, pure, Except.pure]
  · intro z h hz; simp [offset, h, hz, bind, Except.bind, pure, Except.pure]

/-- **C31** The negation with a limit: the limit is passed on without the shift, so that the next
position is beyond it; and before the domain: the curve has a next position but the offset curve has
none. -/
theorem C31_negation :
    (∃ c : Crv, Respects c ∧ (c.offset 5).xNext (.fin 6) (some (.fin 4)) (some (.fin 8)) =
        .ok (some (.fin 10)) ∧
      c.xNext (.fin 1) (some (.fin 4)) (some (.fin 3)) = .ok (some (.fin 3))) ∧
    ∃ c : Crv, Respects c ∧ c.xNext (.fin (-3)) (some (.fin 1)) none = .ok (some (.fin (-2))) ∧
      (c.offset 5).xNext (.fin 2) (some (.fin 1)) none = .ok none := by
  have hr : Respects (generic (fun x => .ok (some (.ofExt x))) (Iv.closed 0 100)) := by
    intro x hx
    simp only [generic] at hx ⊢
    simp [hx]
  exact ⟨⟨_, hr, by decide +kernel, by decide +kernel⟩, _, hr, by decide +kernel,
    by decide +kernel⟩

example : (square.offset 3).y (.fin 6) = .ok (some (.fin 9)) ∧
    (square.offset 3).y (.fin 4) = .ok none ∧
    (square.offset 3).xNext (.fin 6) (some (.fin 2)) none = .ok (some (.fin 8)) := by
  decide +kernel

/-! ## C32 -/

/-- **C32** The value comes from the piece that contains `x`; it is `None` outside all pieces. -/
theorem C32_value (ps : List (Crv × Iv)) (ha : AscendingPieces (ps.map (·.2))) (x : Ext) :
    (∀ f d, (f, d) ∈ ps → d.contains x = true → (piecewise ps).y x = f.y x) ∧
    ((∀ f d, (f, d) ∈ ps → d.contains x = false) → (piecewise ps).y x = .ok none) :=
  ⟨fun _ _ hm hc => piecewiseY_some ha hm hc, fun h => piecewiseY_none fun p hp => h p.1 p.2 hp⟩

/-- **C32** The domain is the smallest interval that covers the pieces. -/
theorem C32_domain (ps : List (Crv × Iv)) : IsHull (ps.map (·.2)) (piecewise ps).dom := by
  constructor
  · intro i hi x hx
    exact (Iv.superset_iff _ _).1 (Iv.unionAll_superset hi) x hx
  · intro c hc x hx
    exact (Iv.superset_iff _ _).1
      (Iv.unionAll_least fun i hi => (Iv.superset_iff _ _).2 (hc i hi)) x hx

/-- **C32** As many functions as domains are needed. -/
theorem C32_refused (fs : List Arg) (ds : List Iv) :
    (fs.length ≠ ds.length → mkPiecewise fs ds = .error .exception) ∧
    (fs.length = ds.length → mkPiecewise fs ds = .ok (piecewise ((fs.map parse).zip ds))) := by
  constructor <;> intro h <;> simp [mkPiecewise, h]

/-- Ramp up to 5, square from then on. -/
def joined : Crv := piecewise [(ramp, Iv.closedOpen 0 5), (square, Iv.closed 5 20)]

/-- **C32** The negation for next/previous positions: the pieces have a next (previous) position but
the piecewise curve returns none. -/
theorem C32_negation :
    AscendingPieces [Iv.closedOpen 0 5, Iv.closed 5 20] ∧
    ramp.xNext (.fin 1) (some (.fin 1)) none = .ok (some (.fin 2)) ∧
    joined.xNext (.fin 1) (some (.fin 1)) none = .ok none ∧
    square.xPrevious (.fin 10) (some (.fin 1)) none = .ok (some (.fin 9)) ∧
    joined.xPrevious (.fin 10) (some (.fin 1)) none = .ok none := by
  refine ⟨?_, by decide +kernel, by decide +kernel, by decide +kernel, by decide +kernel⟩
  simp only [AscendingPieces, List.pairwise_cons, List.mem_singleton, forall_eq, List.not_mem_nil,
    false_imp_iff, implies_true, List.Pairwise.nil, and_true]
  intro x y hx hy
  rw [Iv.contains_iff, Iv.leHi_iff] at hx
  rw [Iv.contains_iff, Iv.geLo_iff] at hy
  have hx1 : x < .fin 5 := by
    rcases hx.2 with h | ⟨_, h⟩
    · exact h
    · cases h
  have hy1 : .fin 5 ≤ y := by
    rcases hy.1 with h | ⟨h, _⟩
    · exact h.le
    · exact h.le
  exact hx1.trans_le hy1

theorem bind_ok {α β : Type} {x : Except Err α} {f : α → Except Err β} {b : β}
    (h : (x >>= f) = .ok b) : ∃ a, x = .ok a ∧ f a = .ok b := by
  cases x with
  | error e => cases h
  | ok a => exact ⟨a, rfl, h⟩

/-- **C32** (partial: soundness) If a piecewise curve reports a next position at all, it is the end of
the last piece, and `x` is in that piece; likewise for the previous position and the first piece. -/
theorem C32_next_partial (ps : List (Crv × Iv)) (x z : Ext) (m l : Option Ext) :
    ((piecewise ps).xNext x m l = .ok (some z) →
      ∃ p, ps.getLast? = some p ∧ p.2.contains x = true ∧ z = p.2.hi) ∧
    ((piecewise ps).xPrevious x m l = .ok (some z) →
      ∃ p, ps.head? = some p ∧ p.2.contains x = true ∧ z = p.2.lo) := by
  constructor
  · intro h
    simp only [piecewise] at h
    split at h
    · cases h
    · split at h
      · cases h
      · obtain ⟨xs, _, h⟩ := bind_ok h
        split at h
        · cases h
        · split at h
          · cases h
          · rename_i d hd
            rw [List.getLast?_map] at hd
            cases hl : ps.getLast? with
            | none => rw [hl] at hd; cases hd
            | some p =>
              rw [hl] at hd
              cases hd
              split at h
              · cases h; exact ⟨p, rfl, ‹_›, rfl⟩
              · cases h
  · intro h
    simp only [piecewise] at h
    split at h
    · cases h
    · split at h
      · cases h
      · obtain ⟨xs, _, h⟩ := bind_ok h
        split at h
        · cases h
        · split at h
          · cases h
          · rename_i d hd
            rw [List.head?_map] at hd
            cases hl : ps.head? with
            | none => rw [hl] at hd; cases hd
            | some p =>
              rw [hl] at hd
              cases hd
              split at h
              · cases h; exact ⟨p, rfl, ‹_›, rfl⟩
              · cases h

theorem mapM_all_ok {α β : Type} (f : α → Except Err β) (g : α → β) : ∀ (l : List α), (∀ a ∈ l, f a = .ok (g a)) →
    l.mapM f = .ok (l.map g)
  | [], _ => rfl
  | a :: l, h => by
    rw [List.mapM_cons, h a (by simp), mapM_all_ok f g l fun b hb => h b (by simp [hb])]
    rfl

theorem anyCandidate_iff (g : Crv × Iv → Option Ext) : ∀ ps : List (Crv × Iv),
    anyCandidate (ps.map g) (ps.map (·.2)) = true ↔ ∃ p ∈ ps, ∃ z, g p = some z ∧ p.2.contains z = true
  | [] => by simp [anyCandidate]
  | p :: ps => by
    have ih := anyCandidate_iff g ps
    cases h : g p with
    | none => simp [anyCandidate, h, ih]
    | some z => simp [anyCandidate, h, ih]

/-- **C32** What the next position is, if no piece raises (`next p` is what the piece `p` gives): none if any of the pieces has one within
its domain; and the end of the last piece if none has, and `x` is in the last piece and not too near to the end of the domain. -/
theorem C32_next_exact (ps : List (Crv × Iv)) (x s : Ext) (m l : Option Ext) (hm : resolve none m = some s)
    (next : Crv × Iv → Option Ext) (hn : ∀ p ∈ ps, p.1.xNext x (some s) l = .ok (next p)) :
    ((∃ p ∈ ps, ∃ z, next p = some z ∧ p.2.contains z = true) → (piecewise ps).xNext x m l = .ok none) ∧
    (∀ p, ps.getLast? = some p → (∀ p ∈ ps, ∀ z, next p = some z → p.2.contains z = false) →
      (piecewise ps).dom.contains (step x s) (enforceEnd := false) = true → p.2.contains x = true →
      (piecewise ps).xNext x m l = .ok (some p.2.hi)) := by
  constructor
  · intro h
    simp only [piecewise, hm]
    split
    · rfl
    · rw [mapM_all_ok _ next ps hn]
      show (if anyCandidate (ps.map next) (ps.map (·.2)) then pure none else _) = _
      rw [if_pos ((anyCandidate_iff next ps).2 h)]
      rfl
  · intro p hp hno hd hx
    simp only [piecewise] at hd
    simp only [piecewise, hm, hd, Bool.not_true, Bool.false_eq_true, if_false]
    rw [mapM_all_ok _ next ps hn]
    show (if anyCandidate (ps.map next) (ps.map (·.2)) then pure none else _) = _
    rw [if_neg, List.getLast?_map, hp]
    · simp only [Option.map_some, hx, if_true]; rfl
    · rw [anyCandidate_iff]
      rintro ⟨q, hq, z, h1, h2⟩
      rw [hno q hq z h1] at h2
      cases h2

/-- **C32** The same for the previous position, with the first piece. -/
theorem C32_previous_exact (ps : List (Crv × Iv)) (x s : Ext) (m l : Option Ext) (hm : resolve none m = some s)
    (prev : Crv × Iv → Option Ext) (hn : ∀ p ∈ ps, p.1.xPrevious x (some s) l = .ok (prev p)) :
    ((∃ p ∈ ps, ∃ z, prev p = some z ∧ p.2.contains z = true) → (piecewise ps).xPrevious x m l = .ok none) ∧
    (∀ p, ps.head? = some p → (∀ p ∈ ps, ∀ z, prev p = some z → p.2.contains z = false) →
      (piecewise ps).dom.contains (stepBack x s) (enforceEnd := false) = true → p.2.contains x = true →
      (piecewise ps).xPrevious x m l = .ok (some p.2.lo)) := by
  constructor
  · intro h
    simp only [piecewise, hm]
    split
    · rfl
    · rw [mapM_all_ok _ prev ps hn]
      show (if anyCandidate (ps.map prev) (ps.map (·.2)) then pure none else _) = _
      rw [if_pos ((anyCandidate_iff prev ps).2 h)]
      rfl
  · intro p hp hno hd hx
    simp only [piecewise] at hd
    simp only [piecewise, hm, hd, Bool.not_true, Bool.false_eq_true, if_false]
    rw [mapM_all_ok _ prev ps hn]
    show (if anyCandidate (ps.map prev) (ps.map (·.2)) then pure none else _) = _
    rw [if_neg, List.head?_map, hp]
    · simp only [Option.map_some, hx, if_true]; rfl
    · rw [anyCandidate_iff]
      rintro ⟨q, hq, z, h1, h2⟩
      rw [hno q hq z h1] at h2
      cases h2

/-- The first of two pieces has a next position within its domain, which is lost. -/
example : joined.xNext (.fin 1) (some (.fin 1)) none = .ok none :=
  (C32_next_exact _ _ (.fin 1) _ none (by decide +kernel)
    (fun _ => some (.fin 2)) (by
      simp only [List.mem_cons, List.not_mem_nil, or_false, forall_eq_or_imp, forall_eq]
      constructor <;> decide +kernel)).1
    ⟨_, List.mem_cons_self, .fin 2, rfl, by decide +kernel⟩

example : joined.y (.fin 4) = .ok (some (.fin 4)) ∧ joined.y (.fin 5) = .ok (some (.fin 25)) ∧
    joined.y (.fin 21) = .ok none ∧
    joined.xNext (.fin 10) (some (.fin 11)) none = .ok (some (.fin 20)) := by decide +kernel

/-! ## C33 -/

/-- **C33** A blend of two curves with values on the domain of the first is the linear crossfade of
the values: the first curve up to `s`, the second from `t`, the weighted mean in between; and `None`
outside the domain of the first. -/
theorem C33_blend (a : Crv) (b : Arg) (s t : ℚ) (hst : s < t) (p q r : Iv)
    (hp : Partition a.dom s t p q r) (f g : ℚ → ℚ)
    (hf : ∀ x, a.dom.contains (.fin x) = true → a.y (.fin x) = .ok (some (.fin (f x))))
    (hg : ∀ x, a.dom.contains (.fin x) = true → (parse b).dom.contains (.fin x) = true ∧
      (parse b).y (.fin x) = .ok (some (.fin (g x)))) :
    ∃ c, blend a b s t [p, q, r] = .ok c ∧
      (∀ x, a.dom.contains (.fin x) = true →
        c.y (.fin x) = .ok (some (.fin (crossfade s t f g x)))) ∧
      ∀ x, a.dom.contains x = false → c.y x = .ok none := by
  have hb : blend a b s t [p, q, r] = .ok (piecewise
      [(a, p), (aggregate [a, parse b] (blendF s t), q), (parse b, r)]) :=
    (C32_refused _ _).2 rfl
  refine ⟨_, hb, ?_, ?_⟩
  · intro x hx
    simp only [piecewise]
    have hts : t - s ≠ 0 := sub_ne_zero.2 hst.ne'
    have htp : 0 < t - s := sub_pos.2 hst
    rcases (hp.cover _).1 hx with h | h | h
    · have hxs : x ≤ s := by simpa using hp.left _ h
      rw [piecewiseY_some (f := a) (d := p) (by simpa using hp.asc) (by simp [parse]) h, hf x hx]
      have hu : (x - s) / (t - s) ≤ 0 := div_nonpos_of_nonpos_of_nonneg (by linarith) htp.le
      simp [crossfade, (min_le_right _ _).trans hu]
    · have hm := hp.middle _ h
      have h1 : s ≤ x := by simpa using hm.1
      have h2 : x ≤ t := by simpa using hm.2
      rw [piecewiseY_some (f := aggregate [a, parse b] (blendF s t)) (d := q) (by simpa using hp.asc)
        (by simp [parse]) h]
      have hv : ValuesAt [.curve a, b] (.fin x) [some (.fin (f x)), some (.fin (g x))] := by
        simp [ValuesAt, parse, hf x hx, (hg x hx).2]
        cases b <;> simpa [parse] using (hg x hx).2
      have hagg := aggregate_y hv (blendF s t) false none
      have hdom : (aggregate ([.curve a, b].map parse) (blendF s t)).dom.contains (.fin x) = true := by
        refine (interAll_contains [.curve a, b] (.fin x)).2 ?_
        intro o ho
        simp at ho
        rcases ho with rfl | rfl
        · exact hx
        · exact (hg x hx).1
      rw [if_pos hdom] at hagg
      have hu0 : 0 ≤ (x - s) / (t - s) := div_nonneg (by linarith) htp.le
      have hu1 : (x - s) / (t - s) ≤ 1 := by rw [div_le_one htp]; linarith
      simp only [List.map_cons, List.map_nil] at hagg
      have : parse (.curve a) = a := rfl
      rw [this] at hagg
      rw [hagg]
      simp [blendF, Num.ofExt, Num.sub, Num.neg, Num.add, Num.div, hts, Num.mul, crossfade, hu0, hu1,
        ← sub_eq_add_neg]
    · have hxt : t ≤ x := by simpa using hp.right _ h
      rw [piecewiseY_some (f := parse b) (d := r) (by simpa using hp.asc) (by simp [parse]) h,
        (hg x hx).2]
      have hu1 : 1 ≤ (x - s) / (t - s) := by rw [le_div_iff₀ htp]; linarith
      simp [crossfade, hu1]
  · intro x hx
    simp only [piecewise]
    apply piecewiseY_none
    intro o ho
    rw [← Bool.not_eq_true]
    intro hc
    have : a.dom.contains x = true := by
      rw [hp.cover]
      simp at ho
      rcases ho with rfl | rfl | rfl
      · exact Or.inl hc
      · exact Or.inr (Or.inl hc)
      · exact Or.inr (Or.inr hc)
    rw [hx] at this
    cases this

/-- **C33** The crossfade is the first curve up to `s`, the second from `t`, and lies between the two
everywhere. -/
theorem C33_between (s t : ℚ) (hst : s < t) (f g : ℚ → ℚ) (x : ℚ) :
    (x ≤ s → crossfade s t f g x = f x) ∧ (t ≤ x → crossfade s t f g x = g x) ∧
    (s ≤ x → x ≤ t → crossfade s t f g x = f x + (x - s) / (t - s) * (g x - f x)) ∧
    min (f x) (g x) ≤ crossfade s t f g x ∧ crossfade s t f g x ≤ max (f x) (g x) := by
  have htp : 0 < t - s := sub_pos.2 hst
  have key : ∀ u : ℚ, 0 ≤ u → u ≤ 1 → min (f x) (g x) ≤ (1 - u) * f x + u * g x ∧
      (1 - u) * f x + u * g x ≤ max (f x) (g x) := by
    intro u h0 h1
    have a1 := min_le_left (f x) (g x)
    have a2 := min_le_right (f x) (g x)
    have b1 := le_max_left (f x) (g x)
    have b2 := le_max_right (f x) (g x)
    constructor
    · nlinarith [mul_le_mul_of_nonneg_left a1 (sub_nonneg.2 h1), mul_le_mul_of_nonneg_left a2 h0]
    · nlinarith [mul_le_mul_of_nonneg_left b1 (sub_nonneg.2 h1), mul_le_mul_of_nonneg_left b2 h0]
  refine ⟨?_, ?_, ?_, ?_⟩
  · intro h
    have hu : (x - s) / (t - s) ≤ 0 := div_nonpos_of_nonpos_of_nonneg (by linarith) htp.le
    simp [crossfade, (min_le_right _ _).trans hu]
  · intro h
    have hu1 : 1 ≤ (x - s) / (t - s) := by rw [le_div_iff₀ htp]; linarith
    simp [crossfade, hu1]
  · intro h1 h2
    have hu0 : 0 ≤ (x - s) / (t - s) := div_nonneg (by linarith) htp.le
    have hu1 : (x - s) / (t - s) ≤ 1 := by rw [div_le_one htp]; linarith
    simp only [crossfade, min_eq_right hu1, max_eq_right hu0]
    ring
  · exact key _ (le_max_left _ _) (max_le zero_le_one (min_le_left _ _))

/-- **C33** The crossfade is continuous wherever both curves are, also at `s` and `t`. -/
theorem C33_continuous (s t : ℚ) (f g : ℚ → ℚ) (x : ℚ) (hf : ContinuousAt f x)
    (hg : ContinuousAt g x) : ContinuousAt (crossfade s t f g) x := by
  unfold crossfade
  fun_prop

example : Partition (Iv.closed 0 10) 2 4 (Iv.closedOpen 0 2) (Iv.closedOpen 2 4) (Iv.closed 4 10) ∧
    (do let c ← blend ramp (.curve square) 2 4
          [Iv.closedOpen 0 2, Iv.closedOpen 2 4, Iv.closed 4 10]
        c.y (.fin 3)) = .ok (some (.fin 6)) := by
  refine ⟨⟨?_, ?_, ?_, ?_, ?_⟩, by decide +kernel⟩
  all_goals simp only [Iv.contains_iff, Iv.geLo_iff, Iv.leHi_iff, Iv.closed, Iv.closedOpen,
    AscendingPieces, List.pairwise_cons, List.mem_cons, List.not_mem_nil, or_false,
    forall_eq_or_imp, forall_eq, false_imp_iff, implies_true, List.Pairwise.nil, and_true]
  · intro x
    cases x <;> simp
    rename_i q
    constructor
    · rintro ⟨h1, h2⟩
      rcases lt_or_ge q 2 with h | h
      · exact Or.inl ⟨h1, h⟩
      · rcases lt_or_ge q 4 with h' | h'
        · exact Or.inr (Or.inl ⟨by rcases h.lt_or_eq with h | h <;> simp [h], h'⟩)
        · exact Or.inr (Or.inr ⟨by rcases h'.lt_or_eq with h | h <;> simp [h], h2⟩)
    · rintro (⟨h1, h2⟩ | ⟨h1, h2⟩ | ⟨h1, h2⟩)
      · exact ⟨h1, Or.inl (by linarith)⟩
      · exact ⟨Or.inl (by rcases h1 with h | h <;> linarith), Or.inl (by linarith)⟩
      · exact ⟨Or.inl (by rcases h1 with h | h <;> linarith), h2⟩
  · intro x; cases x <;> simp
    intro _ h; exact h.le
  · intro x; cases x <;> simp
    intro h h'
    exact ⟨by rcases h with h | h <;> linarith, h'.le⟩
  · intro x; cases x <;> simp
    intro h h'
    rcases h with h | h <;> linarith
  · refine ⟨⟨?_, ?_⟩, ?_⟩ <;> intro x y <;> cases x <;> cases y <;> simp <;> intro _ h1 h2 h3 <;>
      rcases h2 with h2 | h2 <;> linarith

/-! ## C34 -/

/-- **C34** A function as a curve, and the subset of a curve: the function inside the domain, `None`
outside. -/
theorem C34_generic (f : Ext → Except Err (Option Num)) (d : Iv) (m : Option Ext) (c : Crv) (x : Ext) :
    (generic f d m).dom = d ∧ (c.subset d).dom = d ∧
    (generic f d m).y x = (if d.contains x = true then f x else .ok none) ∧
    (c.subset d).y x = (if d.contains x = true then c.y x else .ok none) := by
  refine ⟨rfl, rfl, ?_, ?_⟩ <;> simp only [subset, generic] <;>
    cases d.contains x <;> simp

/-- **C34** (partial: without an explicit domain) A constant has its value everywhere. -/
theorem C34_constant_partial (v : Num) (x : Ext) :
    (constant v).y x = .ok (some v) ∧ (constant v).dom.contains x = true := by
  refine ⟨rfl, ?_⟩
  cases x <;> simp [constant, Iv.infinite, Iv.contains_iff, Iv.geLo, Iv.leHi]

/-- **C34** The negation: a constant with an explicit domain has its value outside of it too. -/
theorem C34_negation :
    (constant (.fin 1) (Iv.closed 0 1)).dom.contains (.fin 2) = false ∧
    (constant (.fin 1) (Iv.closed 0 1)).y (.fin 2) = .ok (some (.fin 1)) := by decide +kernel

example : (square.subset (Iv.closed 3 4)).y (.fin 3) = .ok (some (.fin 9)) ∧
    (square.subset (Iv.closed 3 4)).y (.fin 5) = .ok none := by decide +kernel

/-! ## Further examples -/

/-- C30: the transform sees the value; what is refused; absolute values of a curve and its negative. -/
example : (do let d ← ramp.map 1 (fun _ v => .ok v) true; d.y (.fin 5)) = .ok none ∧
    square.map 3 (fun _ v => .ok v) true = .error .exception ∧
    (do let d ← neg square; let e ← abs d; e.y (.fin 3)) = .ok (some (.fin 9)) :=
  ⟨by decide +kernel, C30_refused square 3 (Or.inr (by norm_num)) _ true _, by decide +kernel⟩

/-- C31: there and back again. -/
example : ((square.offset 3).offset 2).y (.fin 8) = .ok (some (.fin 9)) ∧ (square.offset 5).y (.fin 8) = .ok (some (.fin 9)) ∧
    ((square.offset 3).offset (-3)).y (.fin 4) = square.y (.fin 4) ∧ (square.offset 3).dom = Iv.closed 5 23 := by
  refine ⟨?_, ?_, ?_, ?_⟩ <;> decide +kernel

/-- C32: pieces without an interval are refused; the domain of two pieces. -/
example : mkPiecewise [.curve ramp] [] = .error .exception ∧ joined.dom = Iv.closed 0 20 :=
  ⟨(C32_refused [.curve ramp] []).1 (by simp), by decide +kernel⟩

/-- C33: half way; a corner. -/
example : crossfade 2 4 (fun x => x) (fun x => x ^ 2) 3 = 6 ∧ crossfade 2 4 (fun x => x) (fun x => x ^ 2) 1 = 1 ∧
    ContinuousAt (crossfade 2 4 (fun x => x) (fun x => x ^ 2)) 2 :=
  ⟨((C33_between 2 4 (by norm_num) _ _ 3).2.2.1 (by norm_num) (by norm_num)).trans (by norm_num),
    (C33_between 2 4 (by norm_num) _ _ 1).1 (by norm_num),
    C33_continuous 2 4 _ _ 2 continuousAt_id (continuous_pow 2).continuousAt⟩

/-- C34: constants without a domain. -/
example : (constant (.fin 7)).y .pinf = .ok (some (.fin 7)) ∧ (constant (.fin 7)).dom.contains .ninf = true :=
  ⟨(C34_constant_partial (.fin 7) .pinf).1, (C34_constant_partial (.fin 7) .ninf).2⟩

end Curvepy.Props
