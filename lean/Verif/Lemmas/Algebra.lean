import Verif.Lemmas.Combine
import Verif.Spec.Algebra
import Mathlib.Tactic.LinearCombination
import Mathlib.Data.List.Perm.Basic

/-! Lemmas about numbers and combined curves, for the laws of curves. -/

namespace Curvepy
open Spec

namespace Num

theorem add_comm' (a b : Num) : add a b = add b a := by
  cases a <;> cases b <;> simp [add, _root_.add_comm]

theorem add_assoc' (a b c : Num) : add (add a b) c = add a (add b c) := by
  cases a <;> cases b <;> cases c <;> simp [add, _root_.add_assoc]

theorem zero_add' (a : Num) : add (.fin 0) a = a := by cases a <;> simp [add]

theorem neg_add' (a b : Num) : neg (add a b) = add (neg a) (neg b) := by
  cases a <;> cases b <;> simp [add, neg, _root_.add_comm]

theorem infOf_neg (q : ℚ) : infOf (-q) = neg (infOf q) := by
  unfold infOf
  rcases lt_trichotomy q 0 with h | h | h
  · rw [if_neg (by simpa using h.ne), if_pos (by simpa using h), if_neg h.ne, if_neg (not_lt.2 h.le)]; rfl
  · subst h; simp [neg]
  · rw [if_neg (by simpa using h.ne'), if_neg (by simpa using h.le), if_neg h.ne', if_pos h]; rfl

theorem mul_comm' (a b : Num) : mul a b = mul b a := by
  cases a <;> cases b <;> simp [mul, _root_.mul_comm]

/-- Infinity with a sign. -/
theorem infOf_mul (a b : ℚ) : infOf (a * b) = mul (infOf a) (.fin b) := by
  unfold infOf
  rcases lt_trichotomy a 0 with h | h | h
  · rw [if_neg h.ne, if_neg (not_lt.2 h.le)]
    simp only [mul, infOf]
    rcases lt_trichotomy b 0 with h' | h' | h'
    · simp [h.ne, h'.ne, h', mul_pos_of_neg_of_neg h h']
    · simp [h']
    · simp [h.ne, h'.ne', not_lt.2 (mul_neg_of_neg_of_pos h h').le, not_lt.2 h'.le, h'.le]
  · subst h; simp [mul]
  · rw [if_neg h.ne', if_pos h]
    simp only [mul, infOf]
    rcases lt_trichotomy b 0 with h' | h' | h'
    · simp [h.ne', h'.ne, not_lt.2 h'.le, not_lt.2 (mul_neg_of_pos_of_neg h h').le]
    · simp [h']
    · simp [h.ne', h'.ne', h', mul_pos h h']

theorem mul_infOf_pinf (a : ℚ) : mul (infOf a) .pinf = infOf a := by
  unfold infOf; split_ifs <;> rfl

theorem mul_infOf_ninf (a : ℚ) : mul (infOf a) .ninf = neg (infOf a) := by
  unfold infOf; split_ifs <;> rfl

theorem neg_neg' (a : Num) : neg (neg a) = a := by cases a <;> simp [neg]

theorem mul_assoc' (a b c : Num) : mul (mul a b) c = mul a (mul b c) := by
  have h1 : ∀ (q : ℚ), mul (infOf q) .nan = .nan := by intro q; unfold infOf; split_ifs <;> rfl
  have h2 : ∀ (q : ℚ), mul .pinf (infOf q) = infOf q := fun q => by rw [mul_comm', mul_infOf_pinf]
  have h3 : ∀ (q : ℚ), mul .ninf (infOf q) = neg (infOf q) := fun q => by rw [mul_comm', mul_infOf_ninf]
  have h4 : ∀ (p q : ℚ), mul (.fin p) (infOf q) = infOf (p * q) := fun p q => by
    rw [mul_comm', ← infOf_mul, _root_.mul_comm]
  have h5 : ∀ (p q : ℚ), mul (infOf p) (.fin q) = infOf (p * q) := fun p q => (infOf_mul p q).symm
  have h6 : ∀ (p q : ℚ), mul (neg (infOf p)) (.fin q) = neg (infOf (p * q)) := fun p q => by
    rw [← infOf_neg, h5, ← infOf_neg]; congr 1; ring
  have h7 : ∀ (p q : ℚ), mul (.fin p) (neg (infOf q)) = neg (infOf (p * q)) := fun p q => by
    rw [mul_comm', h6, _root_.mul_comm]
  have h8 : ∀ q, mul (neg (infOf q)) .nan = .nan := fun q => by rw [← infOf_neg, h1]
  have h9 : ∀ q, mul (neg (infOf q)) .pinf = neg (infOf q) := fun q => by rw [← infOf_neg, mul_infOf_pinf]
  have h10 : ∀ q, mul (neg (infOf q)) .ninf = infOf q := fun q => by
    rw [← infOf_neg, mul_infOf_ninf, ← infOf_neg, neg_neg]
  have h11 : ∀ q, mul .pinf (neg (infOf q)) = neg (infOf q) := fun q => by rw [mul_comm', h9]
  have h12 : ∀ q, mul .ninf (neg (infOf q)) = infOf q := fun q => by rw [mul_comm', h10]
  have e1 : ∀ p q, mul (.fin p) (.fin q) = .fin (p * q) := fun _ _ => rfl
  have e2 : ∀ q, mul (.fin q) .pinf = infOf q := fun _ => rfl
  have e3 : ∀ q, mul (.fin q) .ninf = infOf (-q) := fun _ => rfl
  have e4 : ∀ q, mul .pinf (.fin q) = infOf q := fun _ => rfl
  have e5 : ∀ q, mul .ninf (.fin q) = infOf (-q) := fun _ => rfl
  have e6 : ∀ a, mul .nan a = .nan := fun a => by cases a <;> rfl
  have e7 : ∀ a, mul a .nan = .nan := fun a => by cases a <;> rfl
  have e8 : mul .pinf .pinf = .pinf := rfl
  have e9 : mul .pinf .ninf = .ninf := rfl
  have e10 : mul .ninf .pinf = .ninf := rfl
  have e11 : mul .ninf .ninf = .pinf := rfl
  cases a <;> cases b <;> cases c <;>
    simp only [e1, e2, e3, e4, e5, e6, e7, e8, e9, e10, e11, _root_.mul_assoc, h1, h2, h3, h4, h5, h6, h7, h8, h9, h10, h11, h12, infOf_neg, mul_infOf_pinf,
      mul_infOf_ninf, neg_neg']

theorem one_mul' (a : Num) : mul (.fin 1) a = a := by cases a <;> simp [mul, infOf]

theorem neg_lt (a b : Num) : lt (neg a) (neg b) = lt b a := by
  cases a <;> cases b <;> simp [neg, lt]

end Num

theorem mapM_perm {α β : Type} (f : α → Except Err β) {l k : List α} (h : l.Perm k) {vs : List β}
    (hv : l.mapM f = .ok vs) : ∃ ws, k.mapM f = .ok ws ∧ vs.Perm ws := by
  rw [mapM_ok] at hv
  have hp : (vs.map (Except.ok (ε := Err))).Perm (k.map f) := hv ▸ h.map f
  have hall : ∀ r ∈ k.map f, ∃ w, r = .ok w := by
    intro r hr
    obtain ⟨w, -, hw⟩ := List.mem_map.1 (hp.symm.subset hr)
    exact ⟨w, hw.symm⟩
  have : ∀ rs : List (Except Err β), (∀ r ∈ rs, ∃ w, r = .ok w) → ∃ ws : List β, rs = ws.map .ok := by
    intro rs
    induction rs with
    | nil => exact fun _ => ⟨[], rfl⟩
    | cons r rs ih =>
      intro h
      obtain ⟨w, hw⟩ := h r (by simp)
      obtain ⟨ws, hws⟩ := ih fun r hr => h r (by simp [hr])
      exact ⟨w :: ws, by rw [hw, hws]; rfl⟩
  obtain ⟨ws, hws⟩ := this _ hall
  refine ⟨ws, (mapM_ok f k ws).2 hws, ?_⟩
  rw [hws] at hp
  have inj : Function.Injective (Except.ok (ε := Err) (α := β)) := fun a b h => by cases h; rfl
  exact (List.map_perm_map_iff inj).1 hp

theorem alike_of_imp {α : Type} {r s : Except Err α} (h1 : ∀ v, r = .ok v → s = .ok v) (h2 : ∀ v, s = .ok v → r = .ok v) :
    Alike r s := fun v => ⟨h1 v, h2 v⟩

namespace Crv

theorem minOrNone_eq {gt : Ext} {is js : List (Option Ext)} (h1 : ∀ i, gt < i → some i ∈ is → some i ∈ js)
    (h2 : ∀ i, gt < i → some i ∈ js → ∃ j, some j ∈ is ∧ gt < j ∧ j ≤ i) : minOrNone gt is none = minOrNone gt js none := by
  rcases minOrNone_spec gt is none (by simp) with ⟨e, -, h⟩ | ⟨m, e, hm, hmem, hle, -⟩ <;>
    rcases minOrNone_spec gt js none (by simp) with ⟨e', -, h'⟩ | ⟨m', e', hm', hmem', hle', -⟩
  · rw [e, e']
  · obtain ⟨j, hj, hg, -⟩ := h2 m' hm' (by simpa using hmem')
    exact absurd hg (h j hj)
  · exact absurd hm (h' m (h1 m hm (by simpa using hmem)))
  · rw [e, e']
    obtain ⟨j, hj, hg, hji⟩ := h2 m' hm' (by simpa using hmem')
    exact congrArg some (le_antisymm ((hle j hj hg).trans hji) (hle' m (h1 m hm (by simpa using hmem)) hm))

theorem maxOrNone_eq {lt : Ext} {is js : List (Option Ext)} (h1 : ∀ i, i < lt → some i ∈ is → some i ∈ js)
    (h2 : ∀ i, i < lt → some i ∈ js → ∃ j, some j ∈ is ∧ j < lt ∧ i ≤ j) : maxOrNone lt is none = maxOrNone lt js none := by
  rcases maxOrNone_spec lt is none (by simp) with ⟨e, -, h⟩ | ⟨m, e, hm, hmem, hle, -⟩ <;>
    rcases maxOrNone_spec lt js none (by simp) with ⟨e', -, h'⟩ | ⟨m', e', hm', hmem', hle', -⟩
  · rw [e, e']
  · obtain ⟨j, hj, hg, -⟩ := h2 m' hm' (by simpa using hmem')
    exact absurd hg (h j hj)
  · exact absurd hm (h' m (h1 m hm (by simpa using hmem)))
  · rw [e, e']
    obtain ⟨j, hj, hg, hji⟩ := h2 m' hm' (by simpa using hmem')
    exact congrArg some (le_antisymm (hle' m (h1 m hm (by simpa using hmem)) hm) (hji.trans (hle j hj hg)))

theorem inter_mem (l : List Iv) (x : Ext) : (Iv.interAll l).contains x = true ↔ ∀ i ∈ l, i.contains x = true := by
  rw [Iv.contains_interAll, List.all_eq_true]

/-- Curves in another order. -/
theorem aggregate_perm {fs gs : List Crv} (h : fs.Perm gs)
    {tfm : Ext → List (Option Num) → Except Err (Option Num)}
    (ht : ∀ x {vs ws : List (Option Num)}, vs.Perm ws → tfm x vs = tfm x ws) (u : Bool) (d : Option Num) :
    SameCurve (aggregate fs tfm u d) (aggregate gs tfm u d) := by
  have hdom : ∀ x, (aggregate fs tfm u d).dom.contains x = (aggregate gs tfm u d).dom.contains x := by
    intro x
    have hm : ∀ i, i ∈ fs.map (·.dom) ↔ i ∈ gs.map (·.dom) := fun i => (h.map _).mem_iff
    cases u with
    | false =>
      simp only [aggregate, Bool.false_eq_true, if_false]
      rw [Bool.eq_iff_iff, inter_mem, inter_mem]
      exact forall_congr' fun i => imp_congr_left (hm i)
    | true =>
      simp only [aggregate, if_true]
      rw [Bool.eq_iff_iff]
      constructor
      · exact (Iv.superset_iff _ _).1 (Iv.unionAll_least fun i hi => Iv.unionAll_superset ((hm i).1 hi)) x
      · exact (Iv.superset_iff _ _).1 (Iv.unionAll_least fun i hi => Iv.unionAll_superset ((hm i).2 hi)) x
  have hy : ∀ {fs gs : List Crv}, fs.Perm gs → (∀ x, (aggregate fs tfm u d).dom.contains x = (aggregate gs tfm u d).dom.contains x) →
      ∀ x v, (aggregate fs tfm u d).y x = .ok v → (aggregate gs tfm u d).y x = .ok v := by
    intro fs gs h hdom x v hv
    have hd := hdom x
    simp only [aggregate] at hd hv ⊢
    rw [← hd]
    generalize Iv.contains (if u = true then Iv.unionAll (fs.map (·.dom)) else Iv.interAll (fs.map (·.dom))) x = c at hv ⊢
    cases c with
    | false => exact hv
    | true =>
      simp only [Bool.not_true, Bool.false_eq_true, if_false] at hv ⊢
      cases hvs : fs.mapM fun f => f.y x with
      | error e => rw [hvs] at hv; cases hv
      | ok vs =>
        rw [hvs] at hv
        obtain ⟨ws, hws, hp⟩ := mapM_perm _ h hvs
        rw [hws]
        exact (ht x hp).symm.trans hv
  have hn : ∀ {fs gs : List Crv}, fs.Perm gs → ∀ x m l v, (aggregate fs tfm u d).xNext x m l = .ok v →
      (aggregate gs tfm u d).xNext x m l = .ok v := by
    intro fs gs h x m l v hv
    simp only [aggregate] at hv ⊢
    cases hvs : fs.mapM fun f => f.xNext x m l with
    | error e => rw [hvs] at hv; cases hv
    | ok vs =>
      rw [hvs] at hv
      obtain ⟨ws, hws, hp⟩ := mapM_perm _ h hvs
      rw [hws, ← hv]
      exact congrArg Except.ok (minOrNone_eq (fun i _ hi => hp.symm.subset hi) fun i hi hm => ⟨i, hp.subset hm, hi, le_rfl⟩)
  have hpv : ∀ {fs gs : List Crv}, fs.Perm gs → ∀ x m l v, (aggregate fs tfm u d).xPrevious x m l = .ok v →
      (aggregate gs tfm u d).xPrevious x m l = .ok v := by
    intro fs gs h x m l v hv
    simp only [aggregate] at hv ⊢
    cases hvs : fs.mapM fun f => f.xPrevious x m l with
    | error e => rw [hvs] at hv; cases hv
    | ok vs =>
      rw [hvs] at hv
      obtain ⟨ws, hws, hp⟩ := mapM_perm _ h hvs
      rw [hws, ← hv]
      exact congrArg Except.ok (maxOrNone_eq (fun i _ hi => hp.symm.subset hi) fun i hi hm => ⟨i, hp.subset hm, hi, le_rfl⟩)
  exact ⟨hdom, fun x => alike_of_imp (hy h hdom x) (hy h.symm (fun x => (hdom x).symm) x),
    fun x m l => alike_of_imp (hn h x m l) (hn h.symm x m l),
    fun x m l => alike_of_imp (hpv h x m l) (hpv h.symm x m l)⟩

theorem mapM_append_ok {α β : Type} (f : α → Except Err β) (l k : List α) (rs : List β) :
    (l ++ k).mapM f = .ok rs ↔ ∃ us vs, rs = us ++ vs ∧ l.mapM f = .ok us ∧ k.mapM f = .ok vs := by
  simp only [mapM_ok, List.map_append]
  constructor
  · intro h
    obtain ⟨us, vs, h1, h2, h3⟩ := List.map_eq_append_iff.1 h.symm
    exact ⟨us, vs, h1, h2.symm, h3.symm⟩
  · rintro ⟨us, vs, rfl, h1, h2⟩
    rw [h1, h2, List.map_append]

theorem mapM_cons_ok {α β : Type} (f : α → Except Err β) (a : α) (k : List α) (rs : List β) :
    (a :: k).mapM f = .ok rs ↔ ∃ u vs, rs = u :: vs ∧ f a = .ok u ∧ k.mapM f = .ok vs := by
  simp only [mapM_ok, List.map_cons]
  constructor
  · intro h
    obtain ⟨u, vs, h1, h2, h3⟩ := List.map_eq_cons_iff.1 h.symm
    exact ⟨u, vs, h1, h2.symm, h3.symm⟩
  · rintro ⟨us, vs, rfl, h1, h2⟩
    rw [h1, h2, List.map_cons]

/-- One of the curves stands for others. -/
theorem splice_ok {α β γ : Type} (f : α → Except Err β) (t : List β → β) (r : List β → γ)
    (ht : ∀ us vs ws, r (us ++ vs ++ ws) = r (us ++ t vs :: ws)) (as bs cs : List α) (z : α)
    (hz : ∀ v, f z = .ok v ↔ ∃ vs, bs.mapM f = .ok vs ∧ v = t vs) (o : γ) :
    (∃ vs, (as ++ z :: cs).mapM f = .ok vs ∧ o = r vs) ↔ ∃ vs, (as ++ bs ++ cs).mapM f = .ok vs ∧ o = r vs := by
  simp only [mapM_append_ok, mapM_cons_ok, hz]
  constructor
  · rintro ⟨_, ⟨us, _, rfl, h1, v, ws, rfl, ⟨vs, h2, rfl⟩, h3⟩, rfl⟩
    exact ⟨_, ⟨_, ws, rfl, ⟨us, vs, rfl, h1, h2⟩, h3⟩, (ht us vs ws).symm⟩
  · rintro ⟨_, ⟨_, ws, rfl, ⟨us, vs, rfl, h1, h2⟩, h3⟩, rfl⟩
    exact ⟨_, ⟨us, _, rfl, h1, _, ws, rfl, ⟨vs, h2, rfl⟩, h3⟩, ht us vs ws⟩

theorem bind_ok_iff {α β : Type} (r : Except Err α) (g : α → β) (o : β) :
    (do let vs ← r; (Except.ok (g vs) : Except Err β)) = .ok o ↔ ∃ vs, r = .ok vs ∧ o = g vs := by
  cases r with
  | error e => constructor <;> intro h <;> simp [bind, Except.bind] at h
  | ok v =>
    show Except.ok (g v) = Except.ok o ↔ _
    constructor
    · rintro ⟨⟩; exact ⟨v, rfl, rfl⟩
    · rintro ⟨_, ⟨⟩, rfl⟩; rfl

theorem minOrNone_splice (x : Ext) (us vs ws : List (Option Ext)) :
    minOrNone x (us ++ vs ++ ws) none = minOrNone x (us ++ minOrNone x vs none :: ws) none := by
  symm
  rcases minOrNone_spec x vs none (by simp) with ⟨e, -, h⟩ | ⟨m, e, hm, hmem, hle, -⟩
  · rw [e]
    refine minOrNone_eq (fun i hi hmem => ?_) fun i hi hmem => ⟨i, ?_, hi, le_rfl⟩
    · simp only [List.mem_append, List.mem_cons, reduceCtorEq, false_or] at hmem ⊢; tauto
    · simp only [List.mem_append, List.mem_cons, reduceCtorEq, false_or] at hmem ⊢
      rcases hmem with (h' | h') | h'
      · exact .inl h'
      · exact absurd hi (h i h')
      · exact .inr h'
  · rw [e]
    have hmem : some m ∈ vs := by simpa using hmem
    refine minOrNone_eq (fun i hi hmem => ?_) fun i hi hmem => ?_
    · simp only [List.mem_append, List.mem_cons] at hmem ⊢
      rcases hmem with h' | h' | h'
      · exact .inl (.inl h')
      · cases h'; exact .inl (.inr (by assumption))
      · exact .inr h'
    · simp only [List.mem_append, List.mem_cons] at hmem ⊢
      rcases hmem with (h' | h') | h'
      · exact ⟨i, .inl h', hi, le_rfl⟩
      · exact ⟨m, .inr (.inl rfl), hm, hle i h' hi⟩
      · exact ⟨i, .inr (.inr h'), hi, le_rfl⟩

theorem maxOrNone_splice (x : Ext) (us vs ws : List (Option Ext)) :
    maxOrNone x (us ++ vs ++ ws) none = maxOrNone x (us ++ maxOrNone x vs none :: ws) none := by
  symm
  rcases maxOrNone_spec x vs none (by simp) with ⟨e, -, h⟩ | ⟨m, e, hm, hmem, hle, -⟩
  · rw [e]
    refine maxOrNone_eq (fun i hi hmem => ?_) fun i hi hmem => ⟨i, ?_, hi, le_rfl⟩
    · simp only [List.mem_append, List.mem_cons, reduceCtorEq, false_or] at hmem ⊢; tauto
    · simp only [List.mem_append, List.mem_cons, reduceCtorEq, false_or] at hmem ⊢
      rcases hmem with (h' | h') | h'
      · exact .inl h'
      · exact absurd hi (h i h')
      · exact .inr h'
  · rw [e]
    have hmem : some m ∈ vs := by simpa using hmem
    refine maxOrNone_eq (fun i hi hmem => ?_) fun i hi hmem => ?_
    · simp only [List.mem_append, List.mem_cons] at hmem ⊢
      rcases hmem with h' | h' | h'
      · exact .inl (.inl h')
      · cases h'; exact .inl (.inr (by assumption))
      · exact .inr h'
    · simp only [List.mem_append, List.mem_cons] at hmem ⊢
      rcases hmem with (h' | h') | h'
      · exact ⟨i, .inl h', hi, le_rfl⟩
      · exact ⟨m, .inr (.inl rfl), hm, hle i h' hi⟩
      · exact ⟨i, .inr (.inr h'), hi, le_rfl⟩

theorem aggregate_inside {fs : List Crv} {t : List (Option Num) → Option Num} {x : Ext}
    (h : (aggregate fs fun _ vs => .ok (t vs)).dom.contains x = true) (o : Option Num) :
    (aggregate fs fun _ vs => .ok (t vs)).y x = .ok o ↔ ∃ vs, (fs.mapM fun f => f.y x) = .ok vs ∧ o = t vs := by
  rw [← bind_ok_iff]
  simp only [aggregate] at h ⊢
  simp only [h]; rfl

theorem aggregate_outside {fs : List Crv} {t : List (Option Num) → Option Num} {x : Ext}
    (h : (aggregate fs fun _ vs => .ok (t vs)).dom.contains x = false) :
    (aggregate fs fun _ vs => .ok (t vs)).y x = .ok none := by
  simp only [aggregate] at h ⊢
  simp only [h]; rfl

/-- A curve in the place of some of the curves. -/
theorem aggregate_nested {t : List (Option Num) → Option Num} (as bs cs : List Crv)
    (ht : ∀ us vs ws, t (us ++ vs ++ ws) = t (us ++ t vs :: ws)) :
    SameCurve (aggregate (as ++ aggregate bs (fun _ vs => .ok (t vs)) :: cs) fun _ vs => .ok (t vs))
      (aggregate (as ++ bs ++ cs) fun _ vs => .ok (t vs)) := by
  have hdom : ∀ x, (aggregate (as ++ aggregate bs (fun _ vs => .ok (t vs)) :: cs) fun _ vs => .ok (t vs)).dom.contains x =
      (aggregate (as ++ bs ++ cs) fun _ vs => .ok (t vs)).dom.contains x := by
    intro x
    simp only [aggregate, Bool.false_eq_true, if_false]
    rw [Bool.eq_iff_iff, inter_mem, inter_mem]
    simp only [List.map_append, List.map_cons, List.mem_append, List.mem_cons]
    constructor
    · rintro h i ((hi | hi) | hi)
      · exact h i (.inl hi)
      · have := h _ (.inr (.inl rfl))
        rw [inter_mem] at this
        exact this i hi
      · exact h i (.inr (.inr hi))
    · rintro h i (hi | rfl | hi)
      · exact h i (.inl (.inl hi))
      · rw [inter_mem]; exact fun j hj => h j (.inl (.inr hj))
      · exact h i (.inr hi)
  refine ⟨hdom, fun x o => ?_, fun x m l o => ?_, fun x m l o => ?_⟩
  · have hd := hdom x
    cases hc : (aggregate (as ++ bs ++ cs) fun _ vs => .ok (t vs)).dom.contains x with
    | false =>
      rw [hc] at hd
      rw [aggregate_outside hd, aggregate_outside hc]
    | true =>
      have hb : (aggregate bs fun _ vs => .ok (t vs)).dom.contains x = true := by
        simp only [aggregate, Bool.false_eq_true, if_false] at hc ⊢
        rw [inter_mem] at hc ⊢
        intro i hi; exact hc i (by simp only [List.map_append, List.mem_append]; exact .inl (.inr hi))
      rw [hc] at hd
      rw [aggregate_inside hd, aggregate_inside hc]
      exact splice_ok _ t t ht as bs cs _ (aggregate_inside hb) o
  · exact (bind_ok_iff _ _ _).trans ((splice_ok (fun f : Crv => f.xNext x m l) (fun xs => minOrNone x xs none)
      (fun xs => minOrNone x xs none) (minOrNone_splice x) as bs cs _ (fun v => bind_ok_iff _ _ v) o).trans
      (bind_ok_iff _ _ _).symm)
  · exact (bind_ok_iff _ _ _).trans ((splice_ok (fun f : Crv => f.xPrevious x m l) (fun xs => maxOrNone x xs none)
      (fun xs => maxOrNone x xs none) (maxOrNone_splice x) as bs cs _ (fun v => bind_ok_iff _ _ v) o).trans
      (bind_ok_iff _ _ _).symm)

end Crv
end Curvepy
