import Verif.Lemmas.Combine

/-!
# Arithmetic and choices between curves: C25-C29
-/

namespace Curvepy.Props
open Spec Crv

/-- A ramp `x ↦ x` on `[0, 10]`, `None` at 5. -/
def ramp : Crv := generic (fun x => if x = .fin 5 then .ok none else .ok (some (.ofExt x)))
  (Iv.closed 0 10)

/-- A square `x ↦ x²` on `[2, 20]`. -/
def square : Crv :=
  generic (fun x => .ok (some (Num.mul (.ofExt x) (.ofExt x)))) (Iv.closed 2 20)

/-! ## C25 -/

/-- **C25** The sum: `None` absorbs, numbers add up. -/
theorem C25_add (args : List Arg) (x : Ext) (vals : List (Option Num)) (hv : ValuesAt args x vals)
    (hd : InAll args x) :
    (none ∈ vals → (addMany args).y x = .ok none) ∧
    ∀ qs : List ℚ, vals = qs.map (fun q => some (.fin q)) →
      (addMany args).y x = .ok (some (.fin qs.sum)) := by
  have hc : (addMany args).dom.contains x = true := (interAll_contains args x).2 hd
  have hy : (addMany args).y x = .ok (addF vals) := by
    unfold addMany at hc ⊢
    rw [aggregate_y hv, if_pos hc]
  constructor
  · intro h
    rw [hy, addF, allDefined_none h]
  · rintro qs rfl
    rw [hy, addF]
    have : (qs.map fun q => some (Num.fin q)) = (qs.map Num.fin).map some := by simp
    rw [this, allDefined_some]
    simp only [foldl_add, zero_add]

/-- **C25** The difference: `None` absorbs, the other values are subtracted from the first. -/
theorem C25_subtract (args : List Arg) (x : Ext) (vals : List (Option Num))
    (hv : ValuesAt args x vals) (hd : InAll args x) :
    (none ∈ vals → (subtractMany args).y x = .ok none) ∧
    ∀ (q : ℚ) (qs : List ℚ), vals = some (.fin q) :: qs.map (fun q => some (.fin q)) →
      (subtractMany args).y x = .ok (some (.fin (q - qs.sum))) := by
  have hc : (subtractMany args).dom.contains x = true := (interAll_contains args x).2 hd
  have hy : (subtractMany args).y x = .ok (subF vals none) := by
    unfold subtractMany at hc ⊢
    rw [aggregate_y hv, if_pos hc]
  constructor
  · intro h
    rw [hy, subF_none h]
  · rintro q qs rfl
    rw [hy, subF, subF_some]

/-- **C25** The product: `None` absorbs, numbers multiply. -/
theorem C25_multiply (args : List Arg) (x : Ext) (vals : List (Option Num))
    (hv : ValuesAt args x vals) (hd : InAll args x) :
    (none ∈ vals → (multiplyMany args).y x = .ok none) ∧
    ∀ qs : List ℚ, vals = qs.map (fun q => some (.fin q)) →
      (multiplyMany args).y x = .ok (some (.fin qs.prod)) := by
  have hc : (multiplyMany args).dom.contains x = true := (interAll_contains args x).2 hd
  have hy : (multiplyMany args).y x = .ok (multF vals (.fin 1)) := by
    unfold multiplyMany at hc ⊢
    rw [aggregate_y hv, if_pos hc]
  constructor
  · intro h
    rw [hy, multF_none h]
  · rintro qs rfl
    rw [hy, multF_some, one_mul]

/-- **C25** Outside the common domain all of them are `None`, without evaluating anything. -/
theorem C25_outside (args : List Arg) (x : Ext) (hd : ¬ InAll args x) :
    (addMany args).y x = .ok none ∧ (subtractMany args).y x = .ok none ∧
    (multiplyMany args).y x = .ok none ∧ (divideMany args).y x = .ok none := by
  have h : (Iv.interAll ((args.map parse).map (·.dom))).contains x = false := by
    rw [← Bool.not_eq_true, interAll_contains]; exact hd
  simp only [addMany, subtractMany, multiplyMany, divideMany, aggregate]
  simp only [Bool.false_eq_true, if_false, h]
  exact ⟨rfl, rfl, rfl, rfl⟩

/-- **C25** The domain is the intersection of the domains. -/
theorem C25_domain (args : List Arg) (_ : args ≠ []) (x : Ext) :
    ((addMany args).dom.contains x = true ↔ InAll args x) ∧
    ((subtractMany args).dom.contains x = true ↔ InAll args x) ∧
    ((multiplyMany args).dom.contains x = true ↔ InAll args x) ∧
    ((divideMany args).dom.contains x = true ↔ InAll args x) :=
  ⟨interAll_contains args x, interAll_contains args x, interAll_contains args x,
    interAll_contains args x⟩

/-- **C25** A number stands for the curve with that value everywhere, on either side. -/
theorem C25_number (c : Crv) (x : Ext) (v q : ℚ) (hd : c.dom.contains x = true)
    (hy : c.y x = .ok (some (.fin v))) :
    (addMany [.curve c, .number (.fin q)]).y x = .ok (some (.fin (v + q))) ∧
    (addMany [.number (.fin q), .curve c]).y x = .ok (some (.fin (q + v))) ∧
    (subtractMany [.curve c, .number (.fin q)]).y x = .ok (some (.fin (v - q))) ∧
    (subtractMany [.number (.fin q), .curve c]).y x = .ok (some (.fin (q - v))) ∧
    (multiplyMany [.curve c, .number (.fin q)]).y x = .ok (some (.fin (v * q))) ∧
    (multiplyMany [.number (.fin q), .curve c]).y x = .ok (some (.fin (q * v))) := by
  have hinf : Iv.infinite.contains x = true := by
    cases x <;> simp [Iv.infinite, Iv.contains_iff, Iv.geLo, Iv.leHi]
  have v1 : ValuesAt [.curve c, .number (.fin q)] x
      (([v, q] : List ℚ).map fun q => some (.fin q)) := by
    simp [ValuesAt, parse, hy, constant]
  have v2 : ValuesAt [.number (.fin q), .curve c] x
      (([q, v] : List ℚ).map fun q => some (.fin q)) := by
    simp [ValuesAt, parse, hy, constant]
  have d1 : InAll [.curve c, .number (.fin q)] x := by
    intro a ha
    simp at ha
    rcases ha with rfl | rfl
    · exact hd
    · exact hinf
  have d2 : InAll [.number (.fin q), .curve c] x := by
    intro a ha
    simp at ha
    rcases ha with rfl | rfl
    · exact hinf
    · exact hd
  refine ⟨?_, ?_, ?_, ?_, ?_, ?_⟩
  · simpa using (C25_add _ x _ v1 d1).2 [v, q] rfl
  · simpa using (C25_add _ x _ v2 d2).2 [q, v] rfl
  · simpa using (C25_subtract _ x _ v1 d1).2 v [q] rfl
  · simpa using (C25_subtract _ x _ v2 d2).2 q [v] rfl
  · simpa using (C25_multiply _ x _ v1 d1).2 [v, q] rfl
  · simpa using (C25_multiply _ x _ v2 d2).2 [q, v] rfl

example : (addMany [.curve ramp, .number (.fin 1), .curve square]).y (.fin 3) =
      .ok (some (.fin 13)) ∧
    (subtractMany [.number (.fin 1), .curve ramp, .curve square]).y (.fin 3) =
      .ok (some (.fin (-11))) ∧
    (multiplyMany [.curve ramp, .curve square]).y (.fin 3) = .ok (some (.fin 27)) ∧
    (addMany [.curve ramp, .curve square]).y (.fin 5) = .ok none ∧
    (addMany [.curve ramp, .curve square]).y (.fin 1) = .ok none ∧
    InAll [.curve ramp, .curve square] (.fin 3) := by
  refine ⟨by decide +kernel, by decide +kernel, by decide +kernel, by decide +kernel,
    by decide +kernel, ?_⟩
  intro a ha
  simp at ha
  rcases ha with rfl | rfl <;> decide +kernel

/-! ## C26 -/

/-- **C26** Division raises nothing, for any values. -/
theorem C26_total (args : List Arg) (x : Ext) (vals : List (Option Num))
    (hv : ValuesAt args x vals) : ∃ r, (divideMany args).y x = .ok r := by
  unfold divideMany
  rw [aggregate_y hv]
  split
  · exact divF_total vals none
  · exact ⟨_, rfl⟩

/-- **C26** Division: `None` absorbs; without a 0 among the divisors the quotient; with one,
infinity: positive iff the quotient before the first 0 is not negative and an even number of the
divisors behind are negative, or the opposite of both. -/
theorem C26_divide (args : List Arg) (x : Ext) (vals : List (Option Num))
    (hv : ValuesAt args x vals) (hd : InAll args x) :
    (none ∈ vals → (divideMany args).y x = .ok none) ∧
    (∀ (q : ℚ) (qs : List ℚ), vals = (q :: qs).map (fun q => some (.fin q)) → 0 ∉ qs →
      (divideMany args).y x = .ok (some (.fin (q / qs.prod)))) ∧
    ∀ (q : ℚ) (as bs : List ℚ), vals = (q :: as ++ 0 :: bs).map (fun q => some (.fin q)) → 0 ∉ as →
      (divideMany args).y x = .ok (some
        (if (0 ≤ q / as.prod ↔ Even (bs.filter (· < 0)).length) then .pinf else .ninf)) := by
  have hc : (divideMany args).dom.contains x = true := (interAll_contains args x).2 hd
  have hy : (divideMany args).y x = divF vals none := by
    unfold divideMany at hc ⊢
    rw [aggregate_y hv, if_pos hc]
  refine ⟨?_, ?_, ?_⟩
  · intro h
    rw [hy, divF_none h]
  · rintro q qs rfl hz
    rw [hy, List.map_cons, divF]
    have := divF_fin qs q hz []
    rw [List.append_nil] at this
    rw [this]; rfl
  · rintro q as bs rfl hz
    rw [hy, List.map_append, List.map_cons, List.cons_append, divF, divF_fin as q hz,
      List.map_cons, divF, if_pos rfl]
    have : (if Num.le (.fin 0) (.fin (q / as.prod)) = true then Num.pinf else .ninf) =
        if decide (0 ≤ q / as.prod) = true then Num.pinf else .ninf := by simp [Num.le]
    rw [this, divF_inf]
    congr 2
    simp only [Nat.even_iff]
    by_cases h1 : 0 ≤ q / as.prod <;>
      by_cases h2 : (bs.filter (· < 0)).length % 2 = 0 <;> simp [h1, h2]

example : (divideMany [.curve square, .curve ramp]).y (.fin 4) = .ok (some (.fin 4)) ∧
    (divideMany [.number (.fin (-1)), .number (.fin 0), .curve square]).y (.fin 4) =
      .ok (some .ninf) ∧
    (divideMany [.number (.fin 0), .number (.fin 0), .number (.fin (-2))]).y (.fin 4) =
      .ok (some .ninf) ∧
    (divideMany [.number (.fin 1), .curve ramp]).y (.fin 5) = .ok none := by decide +kernel

/-! ## C27 -/

theorem contains_of_mem_values {args : List Arg} {x : Ext} {vals : List (Option Num)}
    (hv : ValuesAt args x vals) : vals.length = args.length := by
  have := congrArg List.length hv
  simpa using this.symm

/-- **C27** `Curve.min` inside its domain: the least of the defined values, `None` iff there is
none (no value may be nan). -/
theorem C27_min (args : List Arg) (ignoreEmpty : Bool) (x : Ext) (vals : List (Option Num))
    (hv : ValuesAt args x vals) (hn : some .nan ∉ vals)
    (hd : (Crv.min args ignoreEmpty).dom.contains x = true) :
    ((Crv.min args ignoreEmpty).y x = .ok none ∧ ∀ o ∈ vals, o = none) ∨
    ∃ m, (Crv.min args ignoreEmpty).y x = .ok (some m) ∧ IsLeastValue vals m := by
  have hn' : ∀ v, some v ∈ vals → v ≠ .nan := by
    rintro v hm rfl; exact hn hm
  have hy : (Crv.min args ignoreEmpty).y x =
      .ok (if ignoreEmpty then minValsWithEmpty vals else minVals vals none) := by
    unfold Crv.min at hd ⊢
    rw [aggregate_y hv, if_pos hd]
  rw [hy]
  cases ignoreEmpty with
  | false =>
    rcases minVals_spec vals none hn' (by simp) with ⟨h1, _, h3⟩ | ⟨m, h1, h2, h3, _⟩
    · left; exact ⟨by simp [h1], h3⟩
    · right; exact ⟨m, by simp [h1], by simpa using h2, h3⟩
  | true =>
    simp only [if_true, minValsWithEmpty, pyMin_eq]
    have hmem : ∀ v, some v ∈ (vals.filterMap id).map some ↔ some v ∈ vals := by
      intro v; simp
    rcases minVals_spec ((vals.filterMap id).map some) none
        (fun v hm => hn' v ((hmem v).1 hm)) (by simp) with ⟨h1, _, h3⟩ | ⟨m, h1, h2, h3, _⟩
    · left
      refine ⟨by rw [h1], ?_⟩
      intro o ho
      cases o with
      | none => rfl
      | some v => exact absurd (h3 (some v) ((hmem v).2 ho)) (by simp)
    · right
      exact ⟨m, by rw [h1], (hmem m).1 (by simpa using h2), fun v hm => h3 v ((hmem v).2 hm)⟩

/-- **C27** `Curve.max` inside its domain: the greatest of the defined values, `None` iff there is
none. -/
theorem C27_max (args : List Arg) (ignoreEmpty : Bool) (x : Ext) (vals : List (Option Num))
    (hv : ValuesAt args x vals) (hn : some .nan ∉ vals)
    (hd : (Crv.max args ignoreEmpty).dom.contains x = true) :
    ((Crv.max args ignoreEmpty).y x = .ok none ∧ ∀ o ∈ vals, o = none) ∨
    ∃ m, (Crv.max args ignoreEmpty).y x = .ok (some m) ∧ IsGreatestValue vals m := by
  have hn' : ∀ v, some v ∈ vals → v ≠ .nan := by
    rintro v hm rfl; exact hn hm
  have hy : (Crv.max args ignoreEmpty).y x =
      .ok (if ignoreEmpty then maxValsWithEmpty vals else maxVals vals none) := by
    unfold Crv.max at hd ⊢
    rw [aggregate_y hv, if_pos hd]
  rw [hy]
  cases ignoreEmpty with
  | false =>
    rcases maxVals_spec vals none hn' (by simp) with ⟨h1, _, h3⟩ | ⟨m, h1, h2, h3, _⟩
    · left; exact ⟨by simp [h1], h3⟩
    · right; exact ⟨m, by simp [h1], by simpa using h2, h3⟩
  | true =>
    simp only [if_true, maxValsWithEmpty, pyMax_eq]
    have hmem : ∀ v, some v ∈ (vals.filterMap id).map some ↔ some v ∈ vals := by
      intro v; simp
    rcases maxVals_spec ((vals.filterMap id).map some) none
        (fun v hm => hn' v ((hmem v).1 hm)) (by simp) with ⟨h1, _, h3⟩ | ⟨m, h1, h2, h3, _⟩
    · left
      refine ⟨by rw [h1], ?_⟩
      intro o ho
      cases o with
      | none => rfl
      | some v => exact absurd (h3 (some v) ((hmem v).2 ho)) (by simp)
    · right
      exact ⟨m, by rw [h1], (hmem m).1 (by simpa using h2), fun v hm => h3 v ((hmem v).2 hm)⟩

/-- **C27** The domains: the intersection, or with `ignore_empty` the smallest interval that
covers all domains; outside, the value is `None`. -/
theorem C27_domain (args : List Arg) (_ : args ≠ []) (ignoreEmpty : Bool) :
    (Crv.min args ignoreEmpty).dom = (Crv.max args ignoreEmpty).dom ∧
    (ignoreEmpty = false → ∀ x, (Crv.min args ignoreEmpty).dom.contains x = true ↔ InAll args x) ∧
    (ignoreEmpty = true →
      IsHull (args.map fun a => (parse a).dom) (Crv.min args ignoreEmpty).dom) ∧
    ∀ x, (Crv.min args ignoreEmpty).dom.contains x = false →
      (Crv.min args ignoreEmpty).y x = .ok none ∧ (Crv.max args ignoreEmpty).y x = .ok none := by
  refine ⟨rfl, ?_, ?_, ?_⟩
  · rintro rfl x
    exact interAll_contains args x
  · rintro rfl
    simp only [Crv.min, aggregate, if_true, List.map_map]
    constructor
    · intro i hi x hx
      exact (Iv.superset_iff _ _).1 (Iv.unionAll_superset hi) x hx
    · intro c hc x hx
      exact (Iv.superset_iff _ _).1
        (Iv.unionAll_least fun i hi => (Iv.superset_iff _ _).2 (hc i hi)) x hx
  · intro x hx
    simp only [Crv.min, Crv.max, aggregate] at hx ⊢
    simp only [hx]
    exact ⟨rfl, rfl⟩

example : (Crv.min [.curve ramp, .curve square, .number (.fin 7)]).y (.fin 3) =
      .ok (some (.fin 3)) ∧
    (Crv.min [.curve ramp, .curve square]).y (.fin 5) = .ok (some (.fin 25)) ∧
    (Crv.max [.curve square, .curve ramp] true).y (.fin 1) = .ok (some (.fin 1)) ∧
    (Crv.max [.curve square, .curve ramp]).y (.fin 1) = .ok none := by decide +kernel

/-! ## C28 -/

theorem firstVal_spec (vals : List (Option Num)) : FirstDefined vals (firstVal vals) := by
  induction vals with
  | nil => left; simp [firstVal]
  | cons o vals ih =>
    cases o with
    | some v => right; exact ⟨v, [], vals, rfl, rfl, by simp⟩
    | none =>
      rcases ih with ⟨h1, h2⟩ | ⟨v, l1, l2, h1, h2, h3⟩
      · left; exact ⟨h1, by simpa using h2⟩
      · right
        refine ⟨v, none :: l1, l2, h1, by rw [h2]; rfl, ?_⟩
        intro o ho
        rcases List.mem_cons.1 ho with rfl | ho
        · rfl
        · exact h3 o ho

/-- **C28** `Curve.first`: the first value that is not `None`, `None` iff there is none; for
curves that are `None` outside their domains. -/
theorem C28_first (args : List Arg) (x : Ext) (vals : List (Option Num))
    (hv : ValuesAt args x vals) (hr : ∀ a ∈ args, Respects (parse a)) :
    ∃ r, (first args).y x = .ok r ∧ FirstDefined vals r := by
  unfold first
  rw [aggregate_y hv]
  split
  · exact ⟨_, rfl, firstVal_spec vals⟩
  · rename_i hc
    refine ⟨none, rfl, Or.inl ⟨rfl, ?_⟩⟩
    intro o ho
    obtain ⟨i, hi, rfl⟩ := List.getElem_of_mem ho
    have hlen := contains_of_mem_values hv
    have hi' : i < args.length := by omega
    have hi2 : (args.map fun a => (parse a).y x)[i]? = (vals.map Except.ok)[i]? :=
      congrArg (fun l => l[i]?) hv
    simp only [List.getElem?_map, List.getElem?_eq_getElem hi', List.getElem?_eq_getElem hi,
      Option.map_some, Option.some.injEq] at hi2
    have hcon : (parse args[i]).dom.contains x = false := by
      rw [← Bool.not_eq_true]
      intro hcc
      apply hc
      simp only [aggregate, if_true, List.map_map]
      exact (Iv.superset_iff _ _).1 (Iv.unionAll_superset (i := (parse args[i]).dom)
        (List.mem_map.2 ⟨args[i], List.getElem_mem _, rfl⟩)) x hcc
    rw [hr _ (List.getElem_mem _) x hcon] at hi2
    exact (Except.ok.inj hi2).symm

example : (first [.curve ramp, .curve square]).y (.fin 5) = .ok (some (.fin 25)) ∧
    (first [.curve ramp, .curve square]).y (.fin 3) = .ok (some (.fin 3)) ∧
    (first [.curve ramp, .curve square]).y (.fin 30) = .ok none ∧ Respects ramp := by
  refine ⟨by decide +kernel, by decide +kernel, by decide +kernel, ?_⟩
  intro x hx
  simp only [ramp, generic] at hx ⊢
  simp [hx]

/-! ## C29 -/

/-- **C29** The next position of an aggregate: the smallest of the next positions of its parts
that is behind `x`, `None` iff there is none. -/
theorem C29_next (funcs : List Crv) (tfm : Ext → List (Option Num) → Except Err (Option Num))
    (u : Bool) (d : Option Num) (x : Ext) (m l : Option Ext) (xs : List (Option Ext))
    (hx : funcs.map (fun f => f.xNext x m l) = xs.map .ok) :
    ∃ r, (aggregate funcs tfm u d).xNext x m l = .ok r ∧
      ((r = none ∧ ∀ i, some i ∈ xs → ¬ x < i) ∨
        ∃ i, r = some i ∧ some i ∈ xs ∧ x < i ∧ ∀ j, some j ∈ xs → x < j → i ≤ j) := by
  simp only [aggregate]
  rw [(mapM_ok _ _ _).2 hx]
  refine ⟨_, rfl, ?_⟩
  rcases minOrNone_spec x xs none (by simp) with ⟨h1, _, h3⟩ | ⟨i, h1, h2, h3, h4, _⟩
  · left; exact ⟨h1, h3⟩
  · right; exact ⟨i, h1, by simpa using h3, h2, h4⟩

/-- **C29** The previous position of an aggregate: the greatest of the previous positions of its
parts that is before `x`, `None` iff there is none. -/
theorem C29_previous (funcs : List Crv) (tfm : Ext → List (Option Num) → Except Err (Option Num))
    (u : Bool) (d : Option Num) (x : Ext) (m l : Option Ext) (xs : List (Option Ext))
    (hx : funcs.map (fun f => f.xPrevious x m l) = xs.map .ok) :
    ∃ r, (aggregate funcs tfm u d).xPrevious x m l = .ok r ∧
      ((r = none ∧ ∀ i, some i ∈ xs → ¬ i < x) ∨
        ∃ i, r = some i ∧ some i ∈ xs ∧ i < x ∧ ∀ j, some j ∈ xs → j < x → j ≤ i) := by
  simp only [aggregate]
  rw [(mapM_ok _ _ _).2 hx]
  refine ⟨_, rfl, ?_⟩
  rcases maxOrNone_spec x xs none (by simp) with ⟨h1, _, h3⟩ | ⟨i, h1, h2, h3, h4, _⟩
  · left; exact ⟨h1, h3⟩
  · right; exact ⟨i, h1, by simpa using h3, h2, h4⟩

/-- Steps of 2 and of 3. -/
example : (addMany [.curve { ramp with xNext := baseNext ramp.dom (some (.fin 3)) },
      .curve { ramp with xNext := baseNext ramp.dom (some (.fin 2)) }, .number (.fin 1)]).xNext
        (.fin 1) (some MIN_STEP) none = .ok (some (.fin 3)) ∧
    (addMany [.curve ramp, .curve square]).xNext (.fin 10) (some (.fin 11)) none = .ok none := by
  decide +kernel

/-! ## Further examples -/

/-- C25: with a number on either side; outside one of the domains. -/
example : (subtractMany [.number (.fin 1), .curve square]).y (.fin 3) = .ok (some (.fin (1 - 9))) ∧
    (multiplyMany [.curve square, .number (.fin 2)]).y (.fin 3) = .ok (some (.fin (9 * 2))) ∧
    (divideMany [.curve ramp, .curve square]).y (.fin 1) = .ok none ∧ ¬ InAll [.curve ramp, .curve square] (.fin 1) := by
  have h := C25_number square (.fin 3) 9 2 (by decide +kernel) (by decide +kernel)
  have h' := C25_number square (.fin 3) 9 1 (by decide +kernel) (by decide +kernel)
  have hn : ¬ InAll [.curve ramp, .curve square] (.fin 1) := by
    intro hd
    have := hd (.curve square) (by simp)
    revert this
    decide +kernel
  exact ⟨h'.2.2.2.1, h.2.2.2.2.1, (C25_outside _ _ hn).2.2.2, hn⟩

/-- C27: the domains of the least of two curves, with and without the places where one is missing. -/
example : (Crv.min [.curve ramp, .curve square]).dom = Iv.closed 2 10 ∧ (Crv.min [.curve ramp, .curve square] true).dom = Iv.closed 0 20 ∧
    (Crv.min [.curve ramp, .curve square] true).y (.fin 15) = .ok (some (.fin 225)) ∧
    (Crv.max [.curve ramp, .curve square]).y (.fin 3) = .ok (some (.fin 9)) := by
  refine ⟨?_, ?_, ?_, ?_⟩ <;> decide +kernel

/-- C29: back to the nearest of both. -/
example : (addMany [.curve { ramp with xPrevious := basePrevious ramp.dom (some (.fin 3)) },
      .curve { ramp with xPrevious := basePrevious ramp.dom (some (.fin 2)) }]).xPrevious (.fin 9) (some MIN_STEP) none =
    .ok (some (.fin 7)) := by decide +kernel

end Curvepy.Props
