import Verif.Lemmas.Algebra
import Verif.Props.Arith
import Verif.Props.Combinators

/-!
# Laws of curves: C113-C115
-/

namespace Curvepy.Props
open Spec Crv

/-! ## C113 -/

theorem allDefined_eq {ys : List (Option Num)} {vs : List Num} (h : allDefined ys = some vs) : ys = vs.map some := by
  induction ys generalizing vs with
  | nil => cases h; rfl
  | cons y ys ih =>
    cases y with
    | none => cases h
    | some v =>
      simp only [allDefined, Option.map_eq_some_iff] at h
      obtain ⟨ws, h1, rfl⟩ := h
      rw [ih h1]; rfl

theorem defined_or (ys : List (Option Num)) : none ∈ ys ∨ ∃ vs : List Num, ys = vs.map some := by
  induction ys with
  | nil => exact .inr ⟨[], rfl⟩
  | cons y ys ih =>
    rcases ih with h | ⟨vs, rfl⟩
    · exact .inl (by simp [h])
    · cases y with
      | none => exact .inl (by simp)
      | some v => exact .inr ⟨v :: vs, rfl⟩

theorem addF_none {ys : List (Option Num)} (h : none ∈ ys) : addF ys = none := by rw [addF, allDefined_none h]

theorem addF_some (vs : List Num) : addF (vs.map some) = some (vs.foldl Num.add (.fin 0)) := by
  rw [addF, allDefined_some]

theorem multF_none' {ys : List (Option Num)} (h : none ∈ ys) (r : Num) : multF ys r = none := by
  induction ys generalizing r with
  | nil => cases h
  | cons y ys ih =>
    cases y with
    | none => rfl
    | some v => exact ih (by simpa using h) _

theorem multF_some' (vs : List Num) (r : Num) : multF (vs.map some) r = some (vs.foldl Num.mul r) := by
  induction vs generalizing r with
  | nil => rfl
  | cons v vs ih => exact ih _

theorem map_some_perm {vs ws : List Num} (h : (vs.map some).Perm (ws.map some)) : vs.Perm ws :=
  (List.map_perm_map_iff (Option.some_injective _)).1 h

/-- A number for all of them, by an operation that is associative and commutative. -/
structure Folds (t : List (Option Num) → Option Num) (op : Num → Num → Num) (e : Num) : Prop where
  none : ∀ {ys}, .none ∈ ys → t ys = .none
  some : ∀ vs : List Num, t (vs.map some) = some (vs.foldl op e)
  comm : ∀ a b, op a b = op b a
  assoc : ∀ a b c, op (op a b) c = op a (op b c)
  unit : ∀ a, op e a = a

theorem adds : Folds addF Num.add (.fin 0) := ⟨addF_none, addF_some, Num.add_comm', Num.add_assoc', Num.zero_add'⟩

theorem multiplies : Folds (fun ys => multF ys (.fin 1)) Num.mul (.fin 1) :=
  ⟨fun h => multF_none' h _, fun vs => multF_some' vs _, Num.mul_comm', Num.mul_assoc', Num.one_mul'⟩

theorem Folds.perm {t op e} (h : Folds t op e) {ys zs : List (Option Num)} (hp : ys.Perm zs) : t ys = t zs := by
  rcases defined_or ys with hn | ⟨vs, rfl⟩
  · rw [h.none hn, h.none (hp.subset hn)]
  · rcases defined_or zs with hn | ⟨ws, rfl⟩
    · have := hp.symm.subset hn; simp at this
    · rw [h.some, h.some]
      congr 1
      exact (map_some_perm hp).foldl_eq' (fun a _ b _ z => by rw [h.assoc, h.assoc, h.comm a b]) e

theorem Folds.foldl {t op e} (h : Folds t op e) (vs : List Num) (a : Num) : vs.foldl op a = op a (vs.foldl op e) := by
  induction vs generalizing a with
  | nil => rw [List.foldl_nil, List.foldl_nil, h.comm, h.unit]
  | cons v vs ih => rw [List.foldl_cons, List.foldl_cons, ih, ih (op e v), h.unit, h.assoc]

theorem Folds.splice {t op e} (h : Folds t op e) (us vs ws : List (Option Num)) :
    t (us ++ vs ++ ws) = t (us ++ t vs :: ws) := by
  rcases defined_or us with hn | ⟨us, rfl⟩
  · rw [h.none (by simp [hn]), h.none (by simp [hn])]
  rcases defined_or vs with hn | ⟨vs, rfl⟩
  · rw [h.none (by simp [hn]), h.none (ys := _ ++ _) (by simp [h.none hn])]
  rcases defined_or ws with hn | ⟨ws, rfl⟩
  · rw [h.none (by simp [hn]), h.none (by simp [hn])]
  rw [h.some, ← List.map_append, ← List.map_append, h.some, ← List.map_cons (f := Option.some), ← List.map_append, h.some]
  simp only [List.foldl_append, List.foldl_cons]
  rw [h.foldl vs]

/-- **C113** The order of the curves does not matter for sums and products. -/
theorem C113_order {as bs : List Arg} (h : as.Perm bs) :
    SameCurve (addMany as) (addMany bs) ∧ SameCurve (multiplyMany as) (multiplyMany bs) :=
  ⟨aggregate_perm (h.map _) (fun _ _ _ hp => congrArg Except.ok (adds.perm hp)) _ _,
    aggregate_perm (h.map _) (fun _ _ _ hp => congrArg Except.ok (multiplies.perm hp)) _ _⟩

/-- **C113** A sum among the summands, or a product among the factors, can be written out. -/
theorem C113_nested (as bs cs : List Arg) (_ : bs ≠ []) :
    SameCurve (addMany (as ++ .curve (addMany bs) :: cs)) (addMany (as ++ bs ++ cs)) ∧
    SameCurve (multiplyMany (as ++ .curve (multiplyMany bs) :: cs)) (multiplyMany (as ++ bs ++ cs)) := by
  constructor
  · have := aggregate_nested (as.map parse) (bs.map parse) (cs.map parse) adds.splice
    simpa only [addMany, List.map_append, List.map_cons, parse] using this
  · have := aggregate_nested (t := fun ys => multF ys (.fin 1)) (as.map parse) (bs.map parse) (cs.map parse) multiplies.splice
    simpa only [multiplyMany, List.map_append, List.map_cons, parse] using this

/-- Three curves: `(r + s) + 1` is `1 + r + s`. -/
example : (addMany [.curve (addMany [.curve ramp, .curve square]), .number (.fin 1)]).y (.fin 3) = .ok (some (.fin 13)) :=
  ((C113_nested [] [.curve ramp, .curve square] [.number (.fin 1)] (by simp)).1.y (.fin 3) _).2
    (((C113_order (as := [.number (.fin 1), .curve ramp, .curve square]) (bs := [.curve ramp, .curve square, .number (.fin 1)])
      (List.perm_append_comm (l₁ := [Arg.number (.fin 1)]) (l₂ := [Arg.curve ramp, Arg.curve square]))).1.y
      (.fin 3) _).1 (by decide +kernel))

/-! ## C114 -/

theorem valuesAt_of_mapM {args : List Arg} {x : Ext} {vs : List (Option Num)}
    (h : ((args.map parse).mapM fun f => f.y x) = .ok vs) : ValuesAt args x vs := by
  rw [mapM_ok, List.map_map] at h; exact h

theorem least_unique {vs ws : List (Option Num)} {a b : Num} (hm : ∀ v, some v ∈ vs ↔ some v ∈ ws) (ha : IsLeastValue vs a)
    (hb : IsLeastValue ws b) : a = b := by
  have h1 := ha.2 b ((hm b).2 hb.1)
  have h2 := hb.2 a ((hm a).1 ha.1)
  cases a <;> cases b <;> simp [Num.le] at h1 h2 ⊢
  exact le_antisymm h1 h2

theorem greatest_unique {vs ws : List (Option Num)} {a b : Num} (hm : ∀ v, some v ∈ vs ↔ some v ∈ ws)
    (ha : IsGreatestValue vs a) (hb : IsGreatestValue ws b) : a = b := by
  have h1 := ha.2 b ((hm b).2 hb.1)
  have h2 := hb.2 a ((hm a).1 ha.1)
  cases a <;> cases b <;> simp [Num.le] at h1 h2 ⊢
  exact le_antisymm h2 h1

/-- No curve is undefined as a number (`nan`) at the position. -/
def NoNan (args : List Arg) (x : Ext) : Prop := ∀ a ∈ args, (parse a).y x ≠ .ok (some .nan)

theorem noNan_vals {args : List Arg} {x : Ext} {vs : List (Option Num)} (h : NoNan args x) (hv : ValuesAt args x vs) :
    some .nan ∉ vs := by
  intro hm
  have : Except.ok (some Num.nan) ∈ vs.map (Except.ok (ε := Err)) := List.mem_map_of_mem hm
  rw [← hv] at this
  obtain ⟨a, ha, he⟩ := List.mem_map.1 this
  exact h a ha he

theorem aggregate_raise {args : List Arg} {tfm : Ext → List (Option Num) → Except Err (Option Num)} {u : Bool} {x : Ext}
    {o : Option Num} (hd : (aggregate (args.map parse) tfm u).dom.contains x = true)
    (h : (aggregate (args.map parse) tfm u).y x = .ok o) : ∃ vs, ((args.map parse).mapM fun f => f.y x) = .ok vs := by
  simp only [aggregate] at hd h
  simp only [hd] at h
  cases hv : (args.map parse).mapM fun f => f.y x with
  | error e => rw [hv] at h; cases h
  | ok vs => exact ⟨vs, rfl⟩

theorem min_perm_value {as bs : List Arg} (h : as.Perm bs) (ie : Bool) {x : Ext} (hn : NoNan as x) {o : Option Num}
    (hd : (Crv.min as ie).dom.contains x = true) (hd' : (Crv.min bs ie).dom.contains x = true)
    (ho : (Crv.min as ie).y x = .ok o) : (Crv.min bs ie).y x = .ok o := by
  obtain ⟨vs, hvs⟩ := aggregate_raise hd ho
  obtain ⟨ws, hws, hp⟩ := mapM_perm _ (h.map parse) hvs
  have hv := valuesAt_of_mapM hvs
  have hw := valuesAt_of_mapM hws
  have hn' : NoNan bs x := fun a ha => hn a (h.symm.subset ha)
  have hmem : ∀ v, some v ∈ vs ↔ some v ∈ ws := fun v => hp.mem_iff
  rcases C27_min as ie x vs hv (noNan_vals hn hv) hd with ⟨e, h0⟩ | ⟨a, e, ha⟩ <;>
    rcases C27_min bs ie x ws hw (noNan_vals hn' hw) hd' with ⟨e', h0'⟩ | ⟨b, e', hb⟩
  · rw [e', ← e, ho]
  · have := h0 _ ((hmem b).2 hb.1); cases this
  · have := h0' _ ((hmem a).1 ha.1); cases this
  · rw [e', ← ho, e, least_unique hmem ha hb]

theorem max_perm_value {as bs : List Arg} (h : as.Perm bs) (ie : Bool) {x : Ext} (hn : NoNan as x) {o : Option Num}
    (hd : (Crv.max as ie).dom.contains x = true) (hd' : (Crv.max bs ie).dom.contains x = true)
    (ho : (Crv.max as ie).y x = .ok o) : (Crv.max bs ie).y x = .ok o := by
  obtain ⟨vs, hvs⟩ := aggregate_raise hd ho
  obtain ⟨ws, hws, hp⟩ := mapM_perm _ (h.map parse) hvs
  have hv := valuesAt_of_mapM hvs
  have hw := valuesAt_of_mapM hws
  have hn' : NoNan bs x := fun a ha => hn a (h.symm.subset ha)
  have hmem : ∀ v, some v ∈ vs ↔ some v ∈ ws := fun v => hp.mem_iff
  rcases C27_max as ie x vs hv (noNan_vals hn hv) hd with ⟨e, h0⟩ | ⟨a, e, ha⟩ <;>
    rcases C27_max bs ie x ws hw (noNan_vals hn' hw) hd' with ⟨e', h0'⟩ | ⟨b, e', hb⟩
  · rw [e', ← e, ho]
  · have := h0 _ ((hmem b).2 hb.1); cases this
  · have := h0' _ ((hmem a).1 ha.1); cases this
  · rw [e', ← ho, e, greatest_unique hmem ha hb]

theorem aggregate_undefined {fs : List Crv} {tfm : Ext → List (Option Num) → Except Err (Option Num)} {u : Bool} {x : Ext}
    (h : (aggregate fs tfm u).dom.contains x = false) : (aggregate fs tfm u).y x = .ok none := by
  simp only [aggregate] at h ⊢
  simp only [h]; rfl

/-- **C114** (partial: where no curve is `nan`) The order of the curves does not matter for minimum and maximum. -/
theorem C114_order_partial {as bs : List Arg} (h : as.Perm bs) (ie : Bool) (x : Ext) :
    (Crv.min as ie).dom.contains x = (Crv.min bs ie).dom.contains x ∧
    (NoNan as x → Alike ((Crv.min as ie).y x) ((Crv.min bs ie).y x) ∧ Alike ((Crv.max as ie).y x) ((Crv.max bs ie).y x)) ∧
    ∀ m l, Alike ((Crv.min as ie).xNext x m l) ((Crv.min bs ie).xNext x m l) ∧
      Alike ((Crv.min as ie).xPrevious x m l) ((Crv.min bs ie).xPrevious x m l) := by
  have hs := aggregate_perm (h.map parse) (tfm := fun _ _ => .ok none) (fun _ _ _ _ => rfl) ie none
  have hdom : (Crv.min as ie).dom.contains x = (Crv.min bs ie).dom.contains x := hs.dom x
  refine ⟨hdom, fun hn => ?_, fun m l => ⟨hs.next x m l, hs.previous x m l⟩⟩
  have hn' : NoNan bs x := fun a ha => hn a (h.symm.subset ha)
  have hdom' : (Crv.max as ie).dom.contains x = (Crv.max bs ie).dom.contains x := hs.dom x
  constructor
  · cases hd : (Crv.min as ie).dom.contains x with
    | false =>
      have hd' : (Crv.min bs ie).dom.contains x = false := hdom ▸ hd
      unfold Crv.min at hd hd' ⊢
      rw [aggregate_undefined hd', aggregate_undefined hd]
      exact fun _ => Iff.rfl
    | true =>
      have hd' : (Crv.min bs ie).dom.contains x = true := hdom ▸ hd
      exact alike_of_imp (fun _ => min_perm_value h ie hn hd hd') fun _ => min_perm_value h.symm ie hn' hd' hd
  · cases hd : (Crv.max as ie).dom.contains x with
    | false =>
      have hd' : (Crv.max bs ie).dom.contains x = false := hdom' ▸ hd
      unfold Crv.max at hd hd' ⊢
      rw [aggregate_undefined hd', aggregate_undefined hd]
      exact fun _ => Iff.rfl
    | true =>
      have hd' : (Crv.max bs ie).dom.contains x = true := hdom' ▸ hd
      exact alike_of_imp (fun _ => max_perm_value h ie hn hd hd') fun _ => max_perm_value h.symm ie hn' hd' hd

/-- **C114** does not hold where a curve is `nan`: the first value wins. -/
theorem C114_negation :
    (Crv.min [.number .nan, .number (.fin 1)]).y (.fin 0) = .ok (some .nan) ∧
    (Crv.min [.number (.fin 1), .number .nan]).y (.fin 0) = .ok (some (.fin 1)) := by decide +kernel

/-- Such values come about: `inf - inf`. -/
example : (subtractMany [.curve (divideMany [.number (.fin 1), .number (.fin 0)]),
    .curve (divideMany [.number (.fin 1), .number (.fin 0)])]).y (.fin 0) = .ok (some .nan) := by decide +kernel

theorem neg_y {c d : Crv} (h : neg c = .ok d) (x : Ext) : d.dom = c.dom ∧ d.y x = (c.y x).map (Option.map Num.neg) := by
  unfold neg Crv.map at h
  rw [if_neg (by decide)] at h
  cases h
  refine ⟨rfl, ?_⟩
  simp only [Bool.and_false, Bool.false_eq_true, if_false]
  cases c.y x with
  | error e => rfl
  | ok v => cases v <;> rfl

theorem neg_mapM {cs ds : List Crv} (h : List.Forall₂ (fun c d => neg c = .ok d) cs ds) (x : Ext) :
    ds.map (·.dom) = cs.map (·.dom) ∧
    (ds.mapM fun d : Crv => d.y x) = (cs.mapM fun c : Crv => c.y x).map (List.map (Option.map Num.neg)) := by
  induction h with
  | nil => exact ⟨rfl, rfl⟩
  | @cons c d cs ds h1 _ ih =>
    refine ⟨by rw [List.map_cons, List.map_cons, ih.1]; exact congrArg (· :: _) (neg_y h1 x).1, ?_⟩
    rw [List.mapM_cons, List.mapM_cons, (neg_y h1 x).2, ih.2]
    cases c.y x with
    | error e => rfl
    | ok v => cases cs.mapM fun c : Crv => c.y x <;> rfl

theorem maxVals_neg (vs : List (Option Num)) (b : Option Num) :
    maxVals (vs.map (Option.map Num.neg)) (b.map Num.neg) = (minVals vs b).map Num.neg := by
  induction vs generalizing b with
  | nil => rfl
  | cons v vs ih =>
    cases b with
    | none => exact ih v
    | some b =>
      cases v with
      | none => exact ih (some b)
      | some w =>
        have : maxVals (((some w :: vs).map (Option.map Num.neg))) ((some b).map Num.neg) =
            maxVals (vs.map (Option.map Num.neg)) ((if Num.lt w b then some w else some b).map Num.neg) := by
          simp only [List.map_cons, Option.map_some, maxVals, Num.neg_lt]
          split <;> rfl
        rw [this, ih]
        rfl

theorem pyMax_neg (vs : List Num) : pyMax (vs.map Num.neg) = (pyMin vs).map Num.neg := by
  have key : ∀ (vs : List Num) (b : Num), (vs.map Num.neg).foldl (fun b w => if Num.lt b w then w else b) b.neg =
      (vs.foldl (fun b w => if Num.lt w b then w else b) b).neg := by
    intro vs
    induction vs with
    | nil => intro b; rfl
    | cons v vs ih =>
      intro b
      rw [List.map_cons, List.foldl_cons, List.foldl_cons, ← ih, Num.neg_lt]
      split <;> rfl
  cases vs with
  | nil => rfl
  | cons v vs => exact congrArg some (key vs v)

/-- **C114** The maximum of the opposites is the opposite of the minimum, with or without missing values, `nan` or not. -/
theorem C114_opposite {cs ds : List Crv} (h : List.Forall₂ (fun c d => neg c = .ok d) cs ds) (ie : Bool) :
    ∃ e, neg (Crv.min (cs.map .curve) ie) = .ok e ∧ SameValues e (Crv.max (ds.map .curve) ie) := by
  have hm : ∀ l : List Crv, (l.map Arg.curve).map parse = l := fun l => by
    rw [List.map_map]; exact List.map_id l
  have he : ∃ e, neg (Crv.min (cs.map .curve) ie) = .ok e := by
    unfold neg Crv.map; exact ⟨_, if_neg (by decide)⟩
  obtain ⟨e, he⟩ := he
  have hd : (Crv.max (ds.map .curve) ie).dom = (Crv.min (cs.map .curve) ie).dom := by
    simp only [Crv.max, Crv.min, aggregate, hm, (neg_mapM h (.fin 0)).1]
  refine ⟨e, he, fun x => by rw [(neg_y he x).1, hd], fun x => ?_⟩
  rw [(neg_y he x).2]
  cases hc : (Crv.min (cs.map .curve) ie).dom.contains x with
  | false =>
    have hc' : (Crv.max (ds.map .curve) ie).dom.contains x = false := by rw [hd, hc]
    unfold Crv.min at hc; unfold Crv.max at hc'
    unfold Crv.min Crv.max
    rw [aggregate_undefined hc, aggregate_undefined hc']
    rfl
  | true =>
    have hc' : (Crv.max (ds.map .curve) ie).dom.contains x = true := by rw [hd, hc]
    simp only [Crv.min, Crv.max, aggregate, hm] at hc hc' ⊢
    simp only [hc, hc', (neg_mapM h x).2]
    cases cs.mapM fun c : Crv => c.y x with
    | error e => rfl
    | ok vs =>
      show Except.ok _ = Except.ok _
      congr 1
      cases ie with
      | false => exact (maxVals_neg vs none).symm
      | true =>
        simp only [if_true, minValsWithEmpty, maxValsWithEmpty]
        rw [← pyMax_neg]
        congr 1
        induction vs with
        | nil => rfl
        | cons v vs ih => cases v <;> simp_all

example : (Crv.min [.curve ramp, .curve square, .number (.fin 5)]).y (.fin 3) = .ok (some (.fin 3)) ∧
    (Crv.min [.number (.fin 5), .curve square, .curve ramp]).y (.fin 3) = .ok (some (.fin 3)) ∧
    (neg ramp >>= fun a => neg square >>= fun b => (Crv.max [.curve a, .curve b]).y (.fin 3)) = .ok (some (.fin (-3))) := by
  decide +kernel

/-! ## C115 -/

theorem neg_foldl (vs : List Num) (a : Num) : (vs.foldl Num.add a).neg = (vs.map Num.neg).foldl Num.add a.neg := by
  induction vs generalizing a with
  | nil => rfl
  | cons v vs ih => rw [List.foldl_cons, ih, List.map_cons, List.foldl_cons, Num.neg_add']

theorem subF_foldl (vs : List Num) (a : Num) :
    subF (vs.map some) (some a) = some ((vs.map Num.neg).foldl Num.add a) := by
  induction vs generalizing a with
  | nil => rfl
  | cons v vs ih => exact ih _

theorem subF_eq (y : Option Num) (ys : List (Option Num)) : subF (y :: ys) none = addF [y, (addF ys).map Num.neg] := by
  rcases defined_or ys with hn | ⟨vs, rfl⟩
  · rw [addF_none hn, subF_none (by simp [hn]), addF_none (by simp)]
  · cases y with
    | none => rw [subF_none (by simp), addF_none (by simp)]
    | some a =>
      rw [addF_some]
      show subF (vs.map some) (some a) = _
      rw [subF_foldl]
      show _ = addF ([a, (vs.foldl Num.add (.fin 0)).neg].map some)
      rw [addF_some, neg_foldl]
      simp only [List.foldl_cons, List.foldl_nil, Num.zero_add']
      rw [adds.foldl]
      have : Num.neg (.fin 0) = .fin 0 := by simp [Num.neg]
      rw [this]

/-- **C115** A difference is the sum with the opposite of the sum of the others. -/
theorem C115_difference (a : Arg) (bs : List Arg) :
    ∃ e, neg (addMany bs) = .ok e ∧
      (∀ x, (subtractMany (a :: bs)).dom.contains x = (addMany [a, .curve e]).dom.contains x) ∧
      ∀ x, Alike ((subtractMany (a :: bs)).y x) ((addMany [a, .curve e]).y x) := by
  have he : ∃ e, neg (addMany bs) = .ok e := by
    unfold neg Crv.map; exact ⟨_, if_neg (by decide)⟩
  obtain ⟨e, he⟩ := he
  have hdom : ∀ x, (subtractMany (a :: bs)).dom.contains x = (addMany [a, .curve e]).dom.contains x := by
    intro x
    rw [Bool.eq_iff_iff]
    show (Iv.interAll _).contains x = true ↔ (Iv.interAll _).contains x = true
    rw [inter_mem, inter_mem]
    simp only [List.map_cons, List.map_nil, List.mem_cons, List.not_mem_nil, or_false, forall_eq_or_imp, forall_eq, parse,
      (neg_y he x).1]
    refine and_congr_right fun _ => ?_
    show _ ↔ (Iv.interAll _).contains x = true
    rw [inter_mem]
  refine ⟨e, he, hdom, fun x o => ?_⟩
  have hd := hdom x
  cases hc : (addMany [a, .curve e]).dom.contains x with
  | false =>
    rw [hc] at hd
    unfold addMany at hc
    unfold subtractMany at hd
    unfold subtractMany addMany
    rw [aggregate_outside hd, aggregate_outside hc]
  | true =>
    rw [hc] at hd
    have hb : (addMany bs).dom.contains x = true := by
      have := (inter_mem _ _).1 hc e.dom (by simp [parse])
      rwa [(neg_y he x).1] at this
    unfold addMany at hc hb
    unfold subtractMany at hd
    unfold subtractMany
    rw [aggregate_inside hd]
    have := aggregate_inside hc o
    unfold addMany
    rw [this]
    simp only [List.map_cons, List.map_nil, mapM_cons_ok, parse, (neg_y he x).2]
    have hbo := aggregate_inside hb
    constructor
    · rintro ⟨_, ⟨u, vs, rfl, h1, h2⟩, rfl⟩
      refine ⟨[u, (addF vs).map Num.neg], ⟨u, _, rfl, h1, _, [], rfl, ?_, rfl⟩, subF_eq u vs⟩
      unfold addMany
      rw [(hbo (addF vs)).2 ⟨vs, h2, rfl⟩]; rfl
    · rintro ⟨_, ⟨u, _, rfl, h1, w, _, rfl, h2, h3⟩, rfl⟩
      cases hy : (addMany bs).y x with
      | error e => rw [hy] at h2; cases h2
      | ok r =>
        rw [hy] at h2
        obtain ⟨vs, h4, rfl⟩ := (hbo r).1 hy
        cases h2; cases h3
        exact ⟨_, ⟨u, vs, rfl, h1, h4⟩, (subF_eq u vs).symm⟩

/-- **C115** (partial: where the values are numbers) A product distributes over a sum. -/
theorem C115_distributive_partial (c : Arg) (as : List Arg) (has : as ≠ []) (x : Ext) (k : ℚ) (qs : List ℚ)
    (hk : (parse c).y x = .ok (some (.fin k))) (hq : ValuesAt as x (qs.map fun q => some (.fin q))) :
    (multiplyMany [c, .curve (addMany as)]).dom.contains x =
      (addMany (as.map fun a => .curve (multiplyMany [c, a]))).dom.contains x ∧
    (multiplyMany [c, .curve (addMany as)]).y x = (addMany (as.map fun a => .curve (multiplyMany [c, a]))).y x := by
  have h1 : (multiplyMany [c, .curve (addMany as)]).dom.contains x = true ↔ (parse c).dom.contains x = true ∧ InAll as x := by
    rw [(C25_domain _ (by simp) x).2.2.1]
    simp only [InAll, List.mem_cons, List.not_mem_nil, or_false, forall_eq_or_imp, forall_eq]
    refine and_congr_right fun _ => ?_
    rw [show parse (.curve (addMany as)) = addMany as from rfl, (C25_domain as has x).1]; rfl
  have h2 : (addMany (as.map fun a => .curve (multiplyMany [c, a]))).dom.contains x = true ↔
      (parse c).dom.contains x = true ∧ InAll as x := by
    rw [(C25_domain _ (by simpa using has) x).1]
    simp only [InAll, List.mem_map, forall_exists_index, and_imp, forall_apply_eq_imp_iff₂]
    have h3 : ∀ a, (parse (.curve (multiplyMany [c, a]))).dom.contains x = true ↔
        (parse c).dom.contains x = true ∧ (parse a).dom.contains x = true := by
      intro a
      rw [show parse (.curve (multiplyMany [c, a])) = multiplyMany [c, a] from rfl, (C25_domain _ (by simp) x).2.2.1]
      simp [InAll]
    simp only [h3]
    constructor
    · intro h
      obtain ⟨a, ha⟩ := List.exists_mem_of_ne_nil as has
      exact ⟨(h a ha).1, fun a ha => (h a ha).2⟩
    · exact fun h a ha => ⟨h.1, h.2 a ha⟩
  refine ⟨by rw [Bool.eq_iff_iff, h1, h2], ?_⟩
  by_cases hd : (parse c).dom.contains x = true ∧ InAll as x
  · have hs : (addMany as).y x = .ok (some (.fin qs.sum)) := (C25_add as x _ hq hd.2).2 qs rfl
    have hp : ∀ a ∈ as, ∀ q : ℚ, (parse a).y x = .ok (some (.fin q)) →
        (multiplyMany [c, a]).y x = .ok (some (.fin (k * q))) := by
      intro a ha q hq
      have := (C25_multiply [c, a] x [some (.fin k), some (.fin q)] (by simp [ValuesAt, hk, hq])
        (by simpa [InAll] using ⟨hd.1, hd.2 a ha⟩)).2 [k, q] rfl
      simpa using this
    have hl : (multiplyMany [c, .curve (addMany as)]).y x = .ok (some (.fin (k * qs.sum))) := by
      have := (C25_multiply [c, .curve (addMany as)] x [some (.fin k), some (.fin qs.sum)] (by
        rw [ValuesAt, List.map_cons, List.map_cons, hk, show parse (.curve (addMany as)) = addMany as from rfl, hs]; rfl)
        (by rw [← (C25_domain _ (by simp) x).2.2.1]; exact h1.2 hd)).2 [k, qs.sum] rfl
      simpa using this
    have hv : ValuesAt (as.map fun a => .curve (multiplyMany [c, a])) x ((qs.map (k * ·)).map fun q => some (.fin q)) := by
      unfold ValuesAt at hq ⊢
      rw [List.map_map]
      clear hs hl h1 h2 hd has
      induction as generalizing qs with
      | nil => cases qs <;> simp_all
      | cons a as ih =>
        cases qs with
        | nil => simp at hq
        | cons q qs =>
          simp only [List.map_cons, List.cons.injEq] at hq
          simp only [List.map_cons, Function.comp, List.cons.injEq]
          exact ⟨hp a (by simp) q hq.1, by simpa [Function.comp_def] using ih qs hq.2 fun a ha => hp a (by simp [ha])⟩
    have hr := (C25_add _ x _ hv (by rw [← (C25_domain _ (by simpa using has) x).1]; exact h2.2 hd)).2 _ rfl
    rw [hl, hr, List.sum_map_mul_left]
    simp
  · rw [(C25_outside _ x (by rw [← (C25_domain _ (by simp) x).2.2.1, h1]; exact hd)).2.2.1,
      (C25_outside _ x (by rw [← (C25_domain _ (by simpa using has) x).1, h2]; exact hd)).1]

/-- **C115** does not hold for infinite values: `inf * (2 - 1)` is `inf`, `inf * 2 + inf * (-1)` is `nan`. -/
theorem C115_negation :
    (multiplyMany [.number .pinf, .curve (addMany [.number (.fin 2), .number (.fin (-1))])]).y (.fin 0) = .ok (some .pinf) ∧
    (addMany [.curve (multiplyMany [.number .pinf, .number (.fin 2)]),
      .curve (multiplyMany [.number .pinf, .number (.fin (-1))])]).y (.fin 0) = .ok (some .nan) := by decide +kernel

/-- **C115** Mapping twice is mapping with both functions, one after the other. -/
theorem C115_map_twice (c : Crv) (f g : Ext → Option Num → Except Err (Option Num)) (ms : Ext) :
    ∃ d e e', c.map 2 f false ms = .ok d ∧ d.map 2 g false ms = .ok e ∧ c.map 2 (fun x v => f x v >>= g x) false ms = .ok e' ∧
      SameCurve e e' ∧ e.minStep = e'.minStep := by
  have hs : mapStep (some (mapStep c.minStep ms)) ms = mapStep c.minStep ms := by
    unfold mapStep
    cases c.minStep with
    | none => simp
    | some m => by_cases h : m ≠ .fin 0 ∧ ms < m <;> simp [h]
  have hr : ∀ M a, resolve (some M) (resolve (some M) a) = resolve (some M) a := by
    intro M a
    cases a with
    | none => simp [resolve]
    | some a => by_cases h : a < M <;> simp [resolve, h]
  refine ⟨_, _, _, if_neg (by decide), if_neg (by decide), if_neg (by decide), ⟨fun _ => rfl, fun x => ?_, fun x m l => ?_,
    fun x m l => ?_⟩, congrArg some hs⟩
  · simp only [Bool.and_false, Bool.false_eq_true, if_false]
    cases c.y x with
    | error e => exact fun _ => Iff.rfl
    | ok v => exact fun _ => Iff.rfl
  · simp only [hs, hr]; exact fun _ => Iff.rfl
  · simp only [hs, hr]; exact fun _ => Iff.rfl

/-- **C115** An offset of a sum or product is the sum or product of the offsets. -/
theorem C115_offset (as : List Crv) (k : ℚ) :
    SameValues ((addMany (as.map .curve)).offset k) (addMany (as.map fun a => .curve (a.offset k))) ∧
    SameValues ((multiplyMany (as.map .curve)).offset k) (multiplyMany (as.map fun a => .curve (a.offset k))) := by
  have hsh : ∀ (d : Iv) (x : Ext), (offsetInterval k d).contains x = d.contains (x.addQ (-k)) := by
    intro d x
    have := (C31_shift (constant (.fin 0)) (fun x h => by rw [(C34_constant_partial _ x).2] at h; cases h) k
      (x.addQ (-k))).2.2.1 d
    rw [← this]
    congr 1
    cases x <;> simp [Ext.addQ]
  have key : ∀ t : List (Option Num) → Option Num,
      SameValues ((aggregate as fun _ vs => .ok (t vs)).offset k) (aggregate (as.map fun a => a.offset k) fun _ vs => .ok (t vs)) := by
    intro t
    have hdom : ∀ x, ((aggregate as fun _ vs => .ok (t vs)).offset k).dom.contains x =
        (aggregate (as.map fun a => a.offset k) fun _ vs => .ok (t vs)).dom.contains x := by
      intro x
      rw [show ((aggregate as fun _ vs => .ok (t vs)).offset k).dom = offsetInterval k (aggregate as fun _ vs => .ok (t vs)).dom
        from rfl, hsh]
      rw [Bool.eq_iff_iff]
      show (Iv.interAll _).contains _ = true ↔ (Iv.interAll _).contains x = true
      rw [inter_mem, inter_mem, List.map_map]
      simp only [List.mem_map, forall_exists_index, and_imp, forall_apply_eq_imp_iff₂, Function.comp]
      refine forall_congr' fun a => imp_congr_right fun _ => ?_
      rw [show (a.offset k).dom = offsetInterval k a.dom from rfl, hsh]
    refine ⟨hdom, fun x => ?_⟩
    have hd := hdom x
    rw [show ((aggregate as fun _ vs => .ok (t vs)).offset k).dom = offsetInterval k (aggregate as fun _ vs => .ok (t vs)).dom
      from rfl, hsh] at hd
    cases hc : (aggregate (as.map fun a => a.offset k) fun _ vs => .ok (t vs)).dom.contains x with
    | false =>
      rw [hc] at hd
      rw [aggregate_outside hc]
      simp only [offset, hd]; rfl
    | true =>
      rw [hc] at hd
      have hy : ∀ a ∈ as, (a.offset k).y x = a.y (x.addQ (-k)) := by
        intro a ha
        have : a.dom.contains (x.addQ (-k)) = true := by
          have := (inter_mem _ _).1 hd a.dom (by simpa using ⟨a, ha, rfl⟩)
          exact this
        simp only [offset, this]; rfl
      have hm : ((as.map fun a => a.offset k).mapM fun f => f.y x) = as.mapM fun f => f.y (x.addQ (-k)) := by
        clear hdom hd hc
        induction as with
        | nil => rfl
        | cons a as ih =>
          rw [List.map_cons, List.mapM_cons, List.mapM_cons, hy a (by simp), ih fun b hb => hy b (by simp [hb])]
      have e1 : (aggregate (as.map fun a => a.offset k) fun _ vs => .ok (t vs)).y x =
          (((as.map fun a => a.offset k).mapM fun f => f.y x) >>= fun vs => .ok (t vs)) := by
        simp only [aggregate] at hc ⊢
        simp only [hc]; rfl
      have e2 : (aggregate as fun _ vs => .ok (t vs)).y (x.addQ (-k)) =
          ((as.mapM fun f => f.y (x.addQ (-k))) >>= fun vs => .ok (t vs)) := by
        simp only [aggregate] at hd ⊢
        simp only [hd]; rfl
      rw [e1, hm, ← e2]
      show (if !(aggregate as fun _ vs => .ok (t vs)).dom.contains (x.addQ (-k)) then _ else _) = _
      rw [hd]; rfl
  have hm : (as.map Arg.curve).map parse = as := by rw [List.map_map]; exact List.map_id as
  have hm' : (as.map fun a => Arg.curve (a.offset k)).map parse = as.map fun a => a.offset k := by rw [List.map_map]; rfl
  constructor
  · unfold addMany; rw [hm, hm']; exact key _
  · unfold multiplyMany; rw [hm, hm']; exact key _

example : (subtractMany [.number (.fin 20), .curve ramp, .curve square]).y (.fin 3) = .ok (some (.fin 8)) ∧
    (neg (addMany [.curve ramp, .curve square]) >>= fun e => (addMany [.number (.fin 20), .curve e]).y (.fin 3)) =
      .ok (some (.fin 8)) ∧
    (multiplyMany [.curve ramp, .curve (addMany [.curve square, .number (.fin 3)])]).y (.fin 2) = .ok (some (.fin 14)) ∧
    (ramp.map 2 (fun _ v => .ok (v.map (Num.mul (.fin 2)))) >>= fun d => neg d >>= fun e => e.y (.fin 3)) =
      .ok (some (.fin (-6))) ∧
    ((addMany [.curve ramp, .curve square]).offset 1).y (.fin 3) = .ok (some (.fin 6)) := by decide +kernel

end Curvepy.Props
