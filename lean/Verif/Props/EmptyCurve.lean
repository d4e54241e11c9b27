import Verif.Lemmas.Combine
import Verif.Model.Sampling

/-!
# C133: the empty curve
-/

namespace Curvepy
namespace Props
open Crv

theorem empty_contains (x : Ext) (s e : Bool) : Iv.empty.contains x s e = false := by
  have h : Iv.empty.isEmpty = true := by decide +kernel
  simp [Iv.contains, h]

theorem resolve_far (m : Option Ext) : ∃ k, resolve (some .pinf) m = some k := by
  cases m with
  | none => exact ⟨_, rfl⟩
  | some m => exact ⟨_, rfl⟩

theorem empty_next (x : Ext) (m l : Option Ext) : Crv.empty.xNext x m l = .ok none := by
  obtain ⟨k, hk⟩ := resolve_far m
  show baseNext Iv.empty (some .pinf) x m l = _
  simp only [baseNext, hk, empty_contains]
  rfl

theorem empty_previous (x : Ext) (m l : Option Ext) : Crv.empty.xPrevious x m l = .ok none := by
  obtain ⟨k, hk⟩ := resolve_far m
  show basePrevious Iv.empty (some .pinf) x m l = _
  simp only [basePrevious, hk, empty_contains]
  rfl

/-- No values, positions and slopes. -/
theorem C133_nothing (x : Ext) (m l : Option Ext) (forward : Bool) :
    Crv.empty.dom.contains x = false ∧ Crv.empty.y x = .ok none ∧ Crv.empty.xNext x m l = .ok none ∧
    Crv.empty.xPrevious x m l = .ok none ∧ Crv.empty.dY x forward m l = .ok none := by
  refine ⟨empty_contains _ _ _, rfl, empty_next _ _ _, empty_previous _ _ _, ?_⟩
  cases forward <;> simp [Crv.dY, empty_next, empty_previous, bind, Except.bind, pure, Except.pure]

/-- No samples, no range, nothing to be found. -/
theorem C133_samples (d : Option Iv) (m : Option Ext) (s : Option ℚ) (x : Ext) (k : ℤ) (b o : Bool) (n : ℕ)
    (dY : Ext → Bool → Except Err (Option Num)) :
    Crv.empty.samplePoints d m s n = some (.ok []) ∧ Crv.empty.samplePointsFrom x k b o m = .ok [] ∧
    getRange [] = .ok none ∧ (Crv.empty.minimise dY x m s (n + 1)).1 = .ok none ∧ (Crv.empty.maximise dY x m s (n + 1)).1 = .ok none := by
  refine ⟨?_, ?_, rfl, rfl, rfl⟩
  · have h : (sampleDomain Crv.empty d).isEmpty = true := by
      cases d with
      | none => decide +kernel
      | some d =>
        have h : Iv.empty.isEmpty = true := by decide +kernel
        simp [sampleDomain, Crv.empty, Iv.inter, h]
    simp only [samplePoints, h, if_true]
  · cases o with
    | false => rfl
    | true =>
      have h : ∀ b' m n, fromLoop Crv.empty b' m n x = .ok [] := by
        intro b' m n
        cases n with
        | zero => rfl
        | succ n => cases b' <;> simp [fromLoop, empty_next, empty_previous, bind, Except.bind, pure, Except.pure]
      simp only [samplePointsFrom, if_true]
      exact h _ _ _

theorem interAll_mem_empty : ∀ {ds : List Iv}, Iv.empty ∈ ds → Iv.interAll ds = Iv.empty
  | [], h => absurd h (by simp)
  | d :: ds, h => by
    have he : Iv.empty.isEmpty = true := by decide +kernel
    rcases List.mem_cons.1 h with rfl | h
    · simp [Iv.interAll, Iv.inter, he]
    · simp [Iv.interAll, Iv.inter, interAll_mem_empty h, he]

/-- What is combined with the empty curve, where all must have a value, has no domain and no value. -/
theorem absorbed {args : List Arg} (h : .curve Crv.empty ∈ args) (tfm : Ext → List (Option Num) → Except Err (Option Num)) :
    (aggregate (args.map parse) tfm).dom = Iv.empty ∧ ∀ x, (aggregate (args.map parse) tfm).y x = .ok none := by
  have hd : Iv.interAll ((args.map parse).map (·.dom)) = Iv.empty :=
    interAll_mem_empty (List.mem_map.2 ⟨Crv.empty, List.mem_map.2 ⟨_, h, rfl⟩, rfl⟩)
  refine ⟨hd, fun x => ?_⟩
  simp only [aggregate, hd, empty_contains, Bool.false_eq_true, if_false, Bool.not_false, if_true]

/-- Sums, differences, products, quotients, and minima and maxima where all must have a value. -/
theorem C133_absorbing {args : List Arg} (h : .curve Crv.empty ∈ args) :
    ∀ c ∈ [addMany args, subtractMany args, multiplyMany args, divideMany args, Crv.min args, Crv.max args],
      c.dom = Iv.empty ∧ ∀ x, c.y x = .ok none := by
  intro c hc
  simp only [List.mem_cons, List.not_mem_nil, or_false] at hc
  rcases hc with rfl | rfl | rfl | rfl | rfl | rfl <;> exact absorbed h _

/-- Negative, inverse and absolute value. -/
theorem C133_unary : ∀ r ∈ [Crv.neg Crv.empty, Crv.recip Crv.empty, Crv.abs Crv.empty],
    ∃ c, r = .ok c ∧ c.dom = Iv.empty ∧ ∀ x m l, c.y x = .ok none ∧ c.xNext x m l = .ok none ∧ c.xPrevious x m l = .ok none := by
  intro r hr
  simp only [List.mem_cons, List.not_mem_nil, or_false] at hr
  rcases hr with rfl | rfl | rfl <;>
    exact ⟨_, rfl, rfl, fun x m l => ⟨rfl, empty_next _ _ _, empty_previous _ _ _⟩⟩

theorem unionAll_normal (ds : List Iv) (h : (Iv.unionAll ds).isEmpty = true) : Iv.unionAll ds = Iv.empty := by
  cases ds with
  | nil => rfl
  | cons d ds =>
    simp only [Iv.unionAll] at h ⊢
    obtain ⟨h1, h2⟩ : d.isEmpty = true ∧ (Iv.unionAll ds).isEmpty = true := by simpa [Iv.union_isEmpty] using h
    simp [Iv.union, h1, h2]

theorem unionAll_skip (pre post : List Iv) : Iv.unionAll (pre ++ Iv.empty :: post) = Iv.unionAll (pre ++ post) := by
  induction pre with
  | nil =>
    show Iv.union Iv.empty (Iv.unionAll post) = Iv.unionAll post
    rcases h : (Iv.unionAll post).isEmpty with _ | _
    · exact Iv.union_empty_left h
    · rw [unionAll_normal post h]; decide +kernel
  | cons d pre ih => simp only [List.cons_append, Iv.unionAll, ih]

theorem mapM_skip {α : Type} (g : Crv → Except Err (Option α)) (he : g Crv.empty = .ok none) (pre post : List Crv) :
    (pre ++ Crv.empty :: post).mapM g = (do
      let a ← pre.mapM g
      let b ← post.mapM g
      pure (a ++ none :: b)) := by
  rw [List.mapM_append, List.mapM_cons, he]
  rcases pre.mapM g with e | a <;> rcases post.mapM g with e' | b <;> rfl

theorem minOrNone_skip (x : Ext) (a b : List (Option Ext)) (o : Option Ext) :
    minOrNone x (a ++ none :: b) o = minOrNone x (a ++ b) o := by
  induction a generalizing o with
  | nil => rfl
  | cons v a ih => cases v <;> simp [minOrNone, ih]

theorem maxOrNone_skip (x : Ext) (a b : List (Option Ext)) (o : Option Ext) :
    maxOrNone x (a ++ none :: b) o = maxOrNone x (a ++ b) o := by
  induction a generalizing o with
  | nil => rfl
  | cons v a ih => cases v <;> simp [maxOrNone, ih]

/-- Where missing values are skipped, so is the empty curve. -/
theorem skipped {tfm : Ext → List (Option Num) → Except Err (Option Num)} (h : ∀ x a b, tfm x (a ++ none :: b) = tfm x (a ++ b))
    (pre post : List Crv) (d : Option Num) :
    aggregate (pre ++ Crv.empty :: post) tfm true d = aggregate (pre ++ post) tfm true d := by
  have hd : Iv.unionAll ((pre ++ Crv.empty :: post).map (·.dom)) = Iv.unionAll ((pre ++ post).map (·.dom)) := by
    simp only [List.map_append, List.map_cons]
    exact unionAll_skip _ _
  have happ : ∀ {α : Type} (g : Crv → Except Err (Option α)), (pre ++ post).mapM g = (do
      let a ← pre.mapM g
      let b ← post.mapM g
      pure (a ++ b)) := fun g => by rw [List.mapM_append]
  unfold aggregate
  simp only [hd, if_true]
  congr 1
  · funext x
    split
    · rfl
    · rw [mapM_skip _ rfl, happ]
      rcases pre.mapM fun f : Crv => f.y x with e | a <;> rcases post.mapM fun f : Crv => f.y x with e' | b <;> first | rfl | exact h x a b
  · funext x m l
    rw [mapM_skip _ (empty_next x m l), happ]
    rcases pre.mapM fun f : Crv => f.xNext x m l with e | a <;> rcases post.mapM fun f : Crv => f.xNext x m l with e' | b <;>
      first | rfl | exact congrArg _ (minOrNone_skip x a b none)
  · funext x m l
    rw [mapM_skip _ (empty_previous x m l), happ]
    rcases pre.mapM fun f : Crv => f.xPrevious x m l with e | a <;> rcases post.mapM fun f : Crv => f.xPrevious x m l with e' | b <;>
      first | rfl | exact congrArg _ (maxOrNone_skip x a b none)

theorem firstVal_skip (a b : List (Option Num)) : firstVal (a ++ none :: b) = firstVal (a ++ b) := by
  induction a with
  | nil => rfl
  | cons v a ih => cases v <;> simp [firstVal, ih]

/-- `first`, and minima and maxima that ignore missing values, are as without the empty curve. -/
theorem C133_neutral (pre post : List Arg) :
    first (pre ++ .curve Crv.empty :: post) = first (pre ++ post) ∧
    Crv.min (pre ++ .curve Crv.empty :: post) true = Crv.min (pre ++ post) true ∧
    Crv.max (pre ++ .curve Crv.empty :: post) true = Crv.max (pre ++ post) true := by
  refine ⟨?_, ?_, ?_⟩
  · simp only [first, List.map_append, List.map_cons, parse]
    exact skipped (fun _ a b => by rw [firstVal_skip]) _ _ _
  · simp only [Crv.min, List.map_append, List.map_cons, parse, if_true]
    exact skipped (fun _ a b => by simp [minValsWithEmpty]) _ _ _
  · simp only [Crv.max, List.map_append, List.map_cons, parse, if_true]
    exact skipped (fun _ a b => by simp [maxValsWithEmpty]) _ _ _

/-- A sum with the empty curve has next positions all the same. -/
theorem C133_negation (k : ℚ) (x : Ext) (m l : Option Ext) {z : Ext} (hz : (Crv.constant (.fin k)).xNext x m l = .ok (some z)) (hx : x < z) :
    (addMany [.number (.fin k), .curve Crv.empty]).dom = Iv.empty ∧
    (addMany [.number (.fin k), .curve Crv.empty]).xNext x m l = .ok (some z) := by
  refine ⟨(absorbed (by simp) _).1, ?_⟩
  simp only [addMany, aggregate, List.map_cons, List.map_nil, parse, List.mapM_cons, List.mapM_nil, hz, empty_next]
  simp [bind, Except.bind, pure, Except.pure, minOrNone, pickMin, hx]

example : (Crv.constant (.fin 3)).xNext (.fin 0) (some MIN_STEP) (some (.fin 5)) = .ok (some (.fin 5)) ∧ Ext.fin 0 < .fin 5 := by
  constructor <;> decide +kernel

example : (Crv.max [.number (.fin 2), .curve Crv.empty] true).y (.fin 7) = .ok (some (.fin 2)) ∧
    (Crv.max [.number (.fin 2), .curve Crv.empty]).y (.fin 7) = .ok none := by
  constructor <;> decide +kernel

/-! ### An instance of each theorem -/

-- `C133_nothing`, `C133_samples`
example : Crv.empty.xNext .ninf (some MIN_STEP) none = .ok none ∧
    Crv.empty.samplePoints (some (Iv.closed 0 5)) none (some 1) 7 = some (.ok []) :=
  ⟨(C133_nothing .ninf (some MIN_STEP) none true).2.2.1,
    (C133_samples (some (Iv.closed 0 5)) none (some 1) (.fin 0) 0 true true 7 fun _ _ => .ok none).1⟩

-- `C133_absorbing`
example : (addMany [.number (.fin 2), .curve Crv.empty]).y (.fin 7) = .ok none ∧
    (divideMany [.number (.fin 2), .curve Crv.empty]).dom = Iv.empty :=
  ⟨(C133_absorbing (args := [.number (.fin 2), .curve Crv.empty]) (by simp) _ (.head _)).2 _,
    (C133_absorbing (args := [.number (.fin 2), .curve Crv.empty]) (by simp) _ (.tail _ (.tail _ (.tail _ (.head _))))).1⟩

-- `C133_unary`
example : ∃ c, Crv.neg Crv.empty = .ok c ∧ c.y (.fin 3) = .ok none := by
  obtain ⟨c, h, -, h'⟩ := C133_unary _ (.head _)
  exact ⟨c, h, (h' (.fin 3) none none).1⟩

-- `C133_neutral`
example : first [.number (.fin 2), .curve Crv.empty, .number (.fin 3)] = first [.number (.fin 2), .number (.fin 3)] :=
  (C133_neutral [.number (.fin 2)] [.number (.fin 3)]).1

end Props
end Curvepy
