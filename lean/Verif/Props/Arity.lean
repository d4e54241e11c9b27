import Verif.Model.Arity
import Verif.Props.Combinators

/-!
# Property C122: functions given by users are called with what they accept
-/

namespace Curvepy
namespace Props
open Spec Crv PyFn

variable {V R : Type}

/-- Every parameter that can only be given by keyword has a default. -/
def KeywordsOptional (ps : List Param) : Prop := ∀ p ∈ ps, p.kind = .keywordOnly → p.hasDefault = true

/-- Every parameter that can be given by position has a default. -/
def PositionsOptional (ps : List Param) : Prop :=
  ∀ p ∈ ps, p.kind = .positionalOnly ∨ p.kind = .positionalOrKeyword → p.hasDefault = true

theorem count_foldl (ps : List Param) (n : ℕ) :
    ps.foldl (fun count p => if isPositional p then count + 1 else count) n = n + (ps.filter isPositional).length := by
  induction ps generalizing n with
  | nil => simp
  | cons p ps ih =>
    rw [List.foldl_cons, ih]
    by_cases h : isPositional p = true
    · simp [h]; omega
    · simp [h]

theorem countPositional_eq {f : PyFn V R} (hc : f.callable = true) (hb : f.builtin = false) (k : ℕ) :
    f.countPositional k = .ok (f.params.filter isPositional).length := by
  simp [countPositional, hc, hb, count_foldl]

theorem binds_zero (ps : List Param) : binds ps 0 = true ↔ KeywordsOptional ps ∧ PositionsOptional ps := by
  induction ps with
  | nil => simp [binds, KeywordsOptional, PositionsOptional]
  | cons p ps ih =>
    obtain ⟨k, d⟩ := p
    simp only [KeywordsOptional, PositionsOptional, List.forall_mem_cons] at ih ⊢
    cases k <;> simp [binds, ih, and_assoc] <;> tauto

/-- Python's order of parameters: what is given by position comes before `*args`. -/
def Ordered (ps : List Param) : Prop :=
  ps.Pairwise fun p q => p.kind = .varPositional → isPositional q = false

theorem binds_count {ps : List Param} (ho : Ordered ps) :
    binds ps (ps.filter isPositional).length = true ↔ KeywordsOptional ps := by
  induction ps with
  | nil => simp [binds, KeywordsOptional]
  | cons p ps ih =>
    obtain ⟨hp, ho⟩ := List.pairwise_cons.1 ho
    replace ih := ih ho
    obtain ⟨k, d⟩ := p
    simp only [KeywordsOptional, List.forall_mem_cons] at ih ⊢
    cases k
    · simp [isPositional, binds, ih]
    · simp [isPositional, binds, ih]
    · have h0 : ps.filter isPositional = [] := by
        rw [List.filter_eq_nil_iff]
        intro q hq
        simp [hp q hq rfl]
      rw [h0] at ih
      have h1 : (⟨.varPositional, d⟩ :: ps : List Param).filter isPositional = [] := by
        simp [h0, isPositional]
      rw [h1]
      simpa [binds] using ih
    · have h1 : (⟨.keywordOnly, d⟩ :: ps : List Param).filter isPositional = ps.filter isPositional := by
        simp [isPositional]
      rw [h1]
      simp [binds, ih]
    · have h1 : (⟨.varKeyword, d⟩ :: ps : List Param).filter isPositional = ps.filter isPositional := by
        simp [isPositional]
      rw [h1]
      simp [binds, ih]

theorem plain_count (k : ℕ) : ((plainParams k).filter isPositional).length = k := by
  simp [plainParams, isPositional]

theorem plain_binds (k n : ℕ) : binds (plainParams k) n = decide (n = k) := by
  induction k generalizing n with
  | zero => cases n <;> rfl
  | succ k ih =>
    cases n with
    | zero => simp [plainParams, List.replicate_succ, binds]
    | succ n =>
      have := ih n
      simp only [plainParams] at this
      simp [plainParams, List.replicate_succ, binds, this]

/-- C122: a function is adapted exactly if it has one or two parameters to be given by position. -/
theorem C122_adapted {f : PyFn V R} (hc : f.callable = true) (hb : f.builtin = false) (w : Bool) :
    f.adapt = .ok w ↔ ∃ k, (f.params.filter isPositional).length = k ∧ ((k = 1 ∧ w = false) ∨ (k = 2 ∧ w = true)) := by
  rw [adapt, countPositional_eq hc hb]
  generalize (f.params.filter isPositional).length = k
  simp only [bind, Except.bind, pure, Except.pure, exists_eq_left']
  by_cases h : k = 0 ∨ 2 < k
  · rw [if_pos h]
    simp only [reduceCtorEq, false_iff]
    omega
  · rw [if_neg h, Except.ok.injEq]
    have : k = 1 ∨ k = 2 := by omega
    rcases this with rfl | rfl <;> cases w <;> simp

/-- C122: an adapted function is called with the value, or the position and the value; the call is accepted exactly if all
parameters to be given by keyword have defaults. -/
theorem C122_called {f : PyFn V R} (hc : f.callable = true) (hb : f.builtin = false) (ho : Ordered f.params) {w : Bool}
    (ha : f.adapt = .ok w) (x v : V) :
    (KeywordsOptional f.params → f.apply w x v = f.run (if w then [x, v] else [v])) ∧
    (¬ KeywordsOptional f.params → f.apply w x v = .error .type) := by
  obtain ⟨k, hk, h⟩ := (C122_adapted hc hb w).1 ha
  have hbind := binds_count ho
  rw [hk] at hbind
  rcases h with ⟨rfl, rfl⟩ | ⟨rfl, rfl⟩
  · constructor
    · intro h
      simp [apply, call, hc, hbind.2 h]
    · intro h
      rw [← hbind, Bool.not_eq_true] at h
      simp [apply, call, hc, h]
  · constructor
    · intro h
      simp [apply, call, hc, hbind.2 h]
    · intro h
      rw [← hbind, Bool.not_eq_true] at h
      simp [apply, call, hc, h]

/-- C122 (partial: without options and not builtin): `Map` accepts exactly the functions of one or two arguments, and calls them
with the value, or with the position and the value.
Missing: builtins and functions with optional parameters, see the negations. -/
theorem C122_map_partial (c : Crv) (k : ℕ) (run : List Arg1 → Except Err (Option Num)) (skip : Bool) (ms : Ext) :
    (k = 1 → ∃ d, c.mapFn { params := plainParams k, run } skip ms = .ok d ∧ d.dom = c.dom ∧
      ∀ x v, c.y x = .ok v → d.y x = if v = none ∧ skip = true then .ok none else run [.val v]) ∧
    (k = 2 → ∃ d, c.mapFn { params := plainParams k, run } skip ms = .ok d ∧ d.dom = c.dom ∧
      ∀ x v, c.y x = .ok v → d.y x = if v = none ∧ skip = true then .ok none else run [.pos x, .val v]) ∧
    (k = 0 ∨ 2 < k → c.mapFn { params := plainParams k, run } skip ms = .error .exception) := by
  have had : ∀ w, ({ params := plainParams k, run } : PyFn Arg1 (Option Num)).adapt = .ok w ↔
      (k = 1 ∧ w = false) ∨ (k = 2 ∧ w = true) := fun w => by
    rw [C122_adapted rfl rfl]
    simp only [plain_count, exists_eq_left']
  refine ⟨?_, ?_, ?_⟩
  · rintro rfl
    unfold mapFn
    rw [(had false).2 (Or.inl ⟨rfl, rfl⟩)]
    refine ⟨_, rfl, rfl, fun x v hv => ?_⟩
    simp only [hv, bind, Except.bind, Bool.and_eq_true, Option.isNone_iff_eq_none]
    split_ifs <;> simp [apply, call, plain_binds]
  · rintro rfl
    unfold mapFn
    rw [(had true).2 (Or.inr ⟨rfl, rfl⟩)]
    refine ⟨_, rfl, rfl, fun x v hv => ?_⟩
    simp only [hv, bind, Except.bind, Bool.and_eq_true, Option.isNone_iff_eq_none]
    split_ifs <;> simp [apply, call, plain_binds]
  · intro h
    unfold mapFn adapt
    rw [countPositional_eq rfl rfl, plain_count]
    simp [bind, Except.bind, h]

/-- C122 (partial: as above): `AccumulatorMap` with a function of one or two arguments and a positive window calls it with the
values of the window, newest first, or with the position and them; other functions and windows are refused. -/
theorem C122_accumulator_partial (k : ℕ) (run : List Arg2 → Except Err (Option ℚ)) (degree : Given) (isPeriod : Bool) (m : ℚ) :
    (∀ t, Accum.mapFn { params := plainParams k, run } degree isPeriod m = .ok t →
      (k = 1 ∨ k = 2) ∧ ∃ q, degree = some q ∧ 0 < q ∧ (isPeriod = false → 1 ≤ q) ∧
      ∀ src acc x y last, t src acc x y last =
        match Accum.windowBefore src (if isPeriod then none else some ⌊q⌋.toNat) (if isPeriod then some q else none) m x with
        | .error e => .error e
        | .ok ys => run (if k = 2 then [.pos x, .vals (y :: ys)] else [.vals (y :: ys)])) ∧
    (∀ q, (k = 1 ∨ k = 2) → degree = some q → 0 < q → (isPeriod = false → 1 ≤ q) →
      ∃ t, Accum.mapFn { params := plainParams k, run } degree isPeriod m = .ok t) := by
  have had : ∀ w, ({ params := plainParams k, run } : PyFn Arg2 (Option ℚ)).adapt = .ok w ↔
      (k = 1 ∧ w = false) ∨ (k = 2 ∧ w = true) := fun w => by
    rw [C122_adapted rfl rfl]
    simp only [plain_count, exists_eq_left']
  have hw : ∀ q : ℚ, 1 ≤ q → ¬ pyInt q ≤ 0 ∧ pyInt q = ⌊q⌋ := by
    intro q hq
    have h1 : (1 : ℤ) ≤ ⌊q⌋ := Int.le_floor.2 (by exact_mod_cast hq)
    have h0 : (0 : ℚ) ≤ q := by linarith
    rw [pyInt, if_pos h0]
    exact ⟨by omega, rfl⟩
  have hw' : ∀ q : ℚ, ¬ pyInt q ≤ 0 → 1 ≤ q := by
    intro q hq
    rw [pyInt] at hq
    split_ifs at hq with h0
    · have : (1 : ℤ) ≤ ⌊q⌋ := by omega
      exact_mod_cast Int.le_floor.1 this
    · exact absurd (Int.ceil_le.2 (by push_cast; linarith : q ≤ ((0 : ℤ) : ℚ))) hq
  constructor
  · intro t ht
    unfold Accum.mapFn at ht
    rcases ha : ({ params := plainParams k, run } : PyFn Arg2 (Option ℚ)).adapt with e | w
    · rw [ha] at ht; cases ht
    rw [ha] at ht
    have hk := (had w).1 ha
    refine ⟨by rcases hk with h | h <;> simp [h.1], ?_⟩
    cases degree with
    | none => cases isPeriod <;> simp [windowOf, bind, Except.bind] at ht
    | some q =>
      refine ⟨q, rfl, ?_⟩
      cases isPeriod with
      | true =>
        simp only [windowOf, bind, Except.bind] at ht
        by_cases hq : q ≤ 0
        · rw [if_pos hq] at ht; cases ht
        rw [if_neg hq] at ht
        injection ht with ht
        refine ⟨not_le.1 hq, by simp, fun src acc x y last => ?_⟩
        rw [← ht]
        dsimp only
        simp only [if_true]
        rcases hwb : Accum.windowBefore src _ _ m x with e | ys
        · rfl
        · rcases hk with ⟨rfl, rfl⟩ | ⟨rfl, rfl⟩ <;> simp [apply, call, plain_binds]
      | false =>
        simp only [windowOf, bind, Except.bind] at ht
        by_cases hq : pyInt q ≤ 0
        · rw [if_pos hq] at ht; cases ht
        rw [if_neg hq] at ht
        injection ht with ht
        have h1 := hw' q hq
        refine ⟨by linarith, fun _ => h1, fun src acc x y last => ?_⟩
        rw [← ht]
        dsimp only
        simp only [Bool.false_eq_true, if_false, (hw q h1).2]
        rcases hwb : Accum.windowBefore src _ _ m x with e | ys
        · rfl
        · rcases hk with ⟨rfl, rfl⟩ | ⟨rfl, rfl⟩ <;> simp [apply, call, plain_binds]
  · rintro q hk rfl h0 h1
    have : ∃ w, ({ params := plainParams k, run } : PyFn Arg2 (Option ℚ)).adapt = .ok w := by
      rcases hk with rfl | rfl
      · exact ⟨false, (had false).2 (Or.inl ⟨rfl, rfl⟩)⟩
      · exact ⟨true, (had true).2 (Or.inr ⟨rfl, rfl⟩)⟩
    obtain ⟨w, hw2⟩ := this
    unfold Accum.mapFn
    rw [hw2]
    cases isPeriod with
    | true => exact ⟨_, by simp only [windowOf, if_neg (not_le.2 h0), bind, Except.bind]; rfl⟩
    | false => exact ⟨_, by simp only [windowOf, if_neg (hw q (h1 rfl)).1, bind, Except.bind]; rfl⟩

/-- C122: an observer is told the interval exactly if it has one parameter to be given by position, otherwise it is called
without arguments. -/
theorem C122_observer {f : PyFn V R} (hc : f.callable = true) (hb : f.builtin = false) (ho : Ordered f.params) (d : V) :
    ∃ w, f.withInterval = .ok w ∧
      ((f.params.filter isPositional).length = 1 → KeywordsOptional f.params → f.notify w d = f.run [d]) ∧
      ((f.params.filter isPositional).length ≠ 1 → KeywordsOptional f.params → PositionsOptional f.params →
        f.notify w d = f.run []) ∧
      ((f.params.filter isPositional).length ≠ 1 → ¬ (KeywordsOptional f.params ∧ PositionsOptional f.params) →
        f.notify w d = .error .type) := by
  refine ⟨decide ((f.params.filter isPositional).length = 1), ?_, ?_, ?_, ?_⟩
  · rw [withInterval, countPositional_eq hc hb]; rfl
  · intro h1 h2
    have := (binds_count ho).2 h2
    rw [h1] at this
    simp [notify, h1, call, hc, this]
  · intro h1 h2 h3
    simp [notify, h1, call, hc, (binds_zero _).2 ⟨h2, h3⟩]
  · intro h1 h2
    rw [← binds_zero, Bool.not_eq_true] at h2
    simp [notify, h1, call, hc, h2]

/-- What is not callable is refused. -/
theorem C122_not_callable {f : PyFn V R} (hc : f.callable = false) :
    f.adapt = .error .exception ∧ f.withInterval = .error .exception := by
  constructor <;> simp [adapt, withInterval, countPositional, hc, bind, Except.bind]

/-- A function of everything. -/
def gather : List Arg1 → Except Err (Option Num)
  | [.val v] => .ok v
  | [.pos _] => .ok (some (.fin 100))
  | [.pos _, _] => .ok (some (.fin 200))
  | _ => .ok (some (.fin 300))

/-- Disagreement with C122: a function `f(*args)` is refused although it can be called with the value; a function `f(y, k=1)`
gets the position for the value; a builtin of two parameters cannot be called; and a function with a required keyword is accepted,
reading the curve then raises. -/
theorem C122_negation (v : Option Num) :
    let args : PyFn Arg1 (Option Num) := { params := [⟨.varPositional, false⟩], run := gather }
    let opt : PyFn Arg1 (Option Num) := { params := [⟨.positionalOrKeyword, false⟩, ⟨.positionalOrKeyword, true⟩], run := gather }
    let bi : PyFn Arg1 (Option Num) := { params := plainParams 2, builtin := true, run := gather }
    let kw : PyFn Arg1 (Option Num) := { params := plainParams 1 ++ [⟨.keywordOnly, false⟩], run := gather }
    (args.adapt = .error .exception ∧ args.call [.val v] = .ok v) ∧
    (opt.adapt = .ok true ∧ opt.call [.val v] = .ok v ∧ opt.apply true (.pos (.fin 0)) (.val v) = .ok (some (.fin 200))) ∧
    (bi.adapt = .ok false ∧ bi.apply false (.pos (.fin 0)) (.val v) = .error .type ∧
      bi.call [.pos (.fin 0), .val v] = .ok (some (.fin 200))) ∧
    (kw.adapt = .ok false ∧ kw.apply false (.pos (.fin 0)) (.val v) = .error .type) := by
  refine ⟨⟨?_, ?_⟩, ⟨?_, ?_, ?_⟩, ⟨?_, ?_, ?_⟩, ?_, ?_⟩ <;> rfl

/-- Disagreement with C122: an observer of two parameters is registered, and raises at the first update. -/
theorem C122_negation_observer (d : V) (run : List V → Except Err R) :
    let f : PyFn V R := { params := plainParams 2, run }
    f.withInterval = .ok false ∧ f.notify false d = .error .type := ⟨rfl, rfl⟩

example : Ordered [⟨.positionalOrKeyword, false⟩, ⟨.varPositional, false⟩, ⟨.keywordOnly, true⟩, ⟨.varKeyword, false⟩] ∧
    binds [⟨.positionalOrKeyword, false⟩, ⟨.varPositional, false⟩, ⟨.keywordOnly, true⟩, ⟨.varKeyword, false⟩] 5 = true ∧
    binds (plainParams 2) 1 = false := by
  refine ⟨?_, ?_, ?_⟩
  · simp [Ordered, isPositional]
  · rfl
  · rfl

/-- The absolute value as a map of a function of one argument. -/
example : ∃ d, (Crv.generic (fun x => match x with | .fin q => .ok (some (.fin q)) | _ => .ok none) (Iv.closed (-2) 2)).mapFn
      { params := plainParams 1, run := fun a => match a with
        | [.val (some (.fin q))] => .ok (some (.fin |q|)) | _ => .error .type } = .ok d ∧
    d.y (.fin (-1)) = .ok (some (.fin 1)) := ⟨_, rfl, by decide +kernel⟩

example : (windowOf (some (5/2)) false) = .ok (some 2, none) ∧ (windowOf (some (1/2)) false) = .error .exception ∧
    windowOf none true = .error .exception ∧ windowOf none false = .error .type ∧ windowOf (some 3) true = .ok (none, some 3) := by
  refine ⟨?_, ?_, ?_, ?_, ?_⟩ <;> decide +kernel

/-! ### An instance of each theorem -/

/-- A function of a position and a value, with a parameter that must be given by its name, or one with a default. -/
def pairFn (d : Bool) : PyFn ℕ ℕ :=
  { params := [⟨.positionalOrKeyword, false⟩, ⟨.positionalOrKeyword, false⟩, ⟨.keywordOnly, d⟩], run := fun a => .ok (a.foldl (· * 10 + ·) 0) }

-- `C122_adapted`, `C122_called`
example : (pairFn true).adapt = .ok true ∧ (pairFn true).apply true 3 4 = .ok 34 ∧ (pairFn false).apply true 3 4 = .error .type := by
  have ha : ∀ d, (pairFn d).adapt = .ok true := fun d => (C122_adapted rfl rfl true).2 ⟨2, rfl, .inr ⟨rfl, rfl⟩⟩
  have ho : ∀ d, Ordered (pairFn d).params := by intro d; simp [Ordered, pairFn]
  refine ⟨ha _, ?_, ?_⟩
  · exact (C122_called rfl rfl (ho _) (ha true) 3 4).1 (by simp [KeywordsOptional, pairFn])
  · exact (C122_called rfl rfl (ho _) (ha false) 3 4).2 (by simp [KeywordsOptional, pairFn])

-- `C122_map_partial`: three parameters
example : (Crv.constant (.fin 3)).mapFn { params := plainParams 3, run := gather } true MIN_STEP = .error .exception :=
  (C122_map_partial (Crv.constant (.fin 3)) 3 gather true MIN_STEP).2.2 (.inr (by norm_num))

-- `C122_accumulator_partial`
example : ∃ t, Accum.mapFn { params := plainParams 2, run := fun _ => .ok (some 1) } (some 3) true 1 = .ok t :=
  (C122_accumulator_partial 2 (fun _ => .ok (some 1)) (some 3) true 1).2 3 (.inr rfl) rfl (by norm_num) (by simp)

-- `C122_observer`: two parameters without defaults
example : ∃ w, (pairFn true).withInterval = .ok w ∧ (pairFn true).notify w 3 = .error .type := by
  obtain ⟨w, h, -, -, h'⟩ := C122_observer (f := pairFn true) rfl rfl (by simp [Ordered, pairFn]) 3
  exact ⟨w, h, h' (by simp [pairFn, isPositional]) (by simp [PositionsOptional, pairFn])⟩

-- `C122_not_callable`
example : ({ pairFn true with callable := false } : PyFn ℕ ℕ).adapt = .error .exception := (C122_not_callable rfl).1

end Props
end Curvepy
