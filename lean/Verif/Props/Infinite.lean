import Verif.Props.Algebra

/-!
# Property C118: infinite and undefined values in arithmetic
-/

namespace Curvepy
namespace Props
open Spec Crv

/-- Below zero. -/
def Negative (n : Num) : Prop := n = .ninf ∨ ∃ q, n = .fin q ∧ q < 0

instance : DecidablePred Negative := fun n => by
  cases n with
  | fin q => exact decidable_of_iff (q < 0) (by simp [Negative])
  | pinf => exact isFalse (by simp [Negative])
  | ninf => exact isTrue (.inl rfl)
  | nan => exact isFalse (by simp [Negative])

/-- What a sum is. -/
structure IsSum (ns : List Num) (r : Num) : Prop where
  nan : r = .nan ↔ .nan ∈ ns ∨ (.pinf ∈ ns ∧ .ninf ∈ ns)
  pinf : r = .pinf ↔ .pinf ∈ ns ∧ .ninf ∉ ns ∧ .nan ∉ ns
  ninf : r = .ninf ↔ .ninf ∈ ns ∧ .pinf ∉ ns ∧ .nan ∉ ns
  fin : ∀ qs : List ℚ, ns = qs.map .fin → r = .fin qs.sum

/-- What a product is. -/
structure IsProduct (ns : List Num) (r : Num) : Prop where
  nan : r = .nan ↔ .nan ∈ ns ∨ (.fin 0 ∈ ns ∧ (.pinf ∈ ns ∨ .ninf ∈ ns))
  pinf : r = .pinf ↔ (.pinf ∈ ns ∨ .ninf ∈ ns) ∧ .fin 0 ∉ ns ∧ .nan ∉ ns ∧ Even (ns.filter Negative).length
  ninf : r = .ninf ↔ (.pinf ∈ ns ∨ .ninf ∈ ns) ∧ .fin 0 ∉ ns ∧ .nan ∉ ns ∧ ¬ Even (ns.filter Negative).length
  fin : ∀ qs : List ℚ, ns = qs.map .fin → r = .fin qs.prod

theorem isSum_foldl (ns : List Num) : IsSum ns (ns.foldl Num.add (.fin 0)) := by
  induction ns using List.reverseRecOn with
  | nil => exact ⟨by simp, by simp, by simp, by rintro (_ | ⟨q, qs⟩) h <;> simp at h ⊢⟩
  | append_singleton ns n ih =>
    obtain ⟨h1, h2, h3, h4⟩ := ih
    rw [List.foldl_append]
    simp only [List.foldl_cons, List.foldl_nil]
    generalize ns.foldl Num.add (.fin 0) = s at h1 h2 h3 h4
    refine ⟨?_, ?_, ?_, ?_⟩
    · simp only [List.mem_append, List.mem_singleton]
      cases s <;> cases n <;> simp [Num.add] at h1 h2 h3 ⊢ <;> grind
    · simp only [List.mem_append, List.mem_singleton]
      cases s <;> cases n <;> simp [Num.add] at h1 h2 h3 ⊢ <;> grind
    · simp only [List.mem_append, List.mem_singleton]
      cases s <;> cases n <;> simp [Num.add] at h1 h2 h3 ⊢ <;> grind
    · intro qs hq
      obtain ⟨as, bs, rfl, ha, hb⟩ := List.map_eq_append_iff.1 hq.symm
      obtain ⟨b, rfl, rfl⟩ : ∃ b, bs = [b] ∧ Num.fin b = n := by
        rcases bs with _ | ⟨b, _ | ⟨c, bs⟩⟩ <;> simp at hb ⊢
        exact hb
      rw [h4 as ha.symm]
      simp [Num.add]

theorem isProduct_foldl (ns : List Num) : IsProduct ns (ns.foldl Num.mul (.fin 1)) ∧
    (∀ q, ns.foldl Num.mul (.fin 1) = .fin q → (q = 0 ↔ .fin 0 ∈ ns) ∧ (q ≠ 0 → (0 < q ↔ Even (ns.filter Negative).length))) := by
  induction ns using List.reverseRecOn with
  | nil => exact ⟨⟨by simp, by simp, by simp, by rintro (_ | ⟨q, qs⟩) h <;> simp at h ⊢⟩, by simp⟩
  | append_singleton ns n ih =>
    obtain ⟨⟨h1, h2, h3, h4⟩, h5⟩ := ih
    rw [List.foldl_append]
    simp only [List.foldl_cons, List.foldl_nil]
    have hev : Even ((ns ++ [n]).filter Negative).length ↔ (Even (ns.filter Negative).length ↔ ¬ Negative n) := by
      rw [List.filter_append, List.length_append, Nat.even_add]
      by_cases h : Negative n <;> simp [h]
    have hfin : ∀ qs : List ℚ, ns ++ [n] = qs.map .fin → Num.mul (ns.foldl Num.mul (.fin 1)) n = .fin qs.prod := by
      intro qs hq
      obtain ⟨as, bs, rfl, ha, hb⟩ := List.map_eq_append_iff.1 hq.symm
      obtain ⟨b, rfl, rfl⟩ : ∃ b, bs = [b] ∧ Num.fin b = n := by
        rcases bs with _ | ⟨b, _ | ⟨c, bs⟩⟩ <;> simp at hb ⊢
        exact hb
      rw [h4 as ha.symm]
      simp [Num.mul]
    generalize ns.foldl Num.mul (.fin 1) = s at h1 h2 h3 h4 h5 hfin
    generalize Even (ns.filter Negative).length = E at h2 h3 h5 hev
    have hneg : ∀ q, Negative (.fin q) ↔ q < 0 := by simp [Negative]
    have hp : ¬ Negative .pinf := by simp [Negative]
    have hn : Negative .ninf := .inl rfl
    have key : (Num.mul s n = .nan ↔ .nan ∈ ns ++ [n] ∨ (.fin 0 ∈ ns ++ [n] ∧ (.pinf ∈ ns ++ [n] ∨ .ninf ∈ ns ++ [n]))) ∧
      (Num.mul s n = .pinf ↔ (.pinf ∈ ns ++ [n] ∨ .ninf ∈ ns ++ [n]) ∧ .fin 0 ∉ ns ++ [n] ∧ .nan ∉ ns ++ [n] ∧
        (E ↔ ¬ Negative n)) ∧
      (Num.mul s n = .ninf ↔ (.pinf ∈ ns ++ [n] ∨ .ninf ∈ ns ++ [n]) ∧ .fin 0 ∉ ns ++ [n] ∧ .nan ∉ ns ++ [n] ∧
        ¬ (E ↔ ¬ Negative n)) ∧
      ∀ q, Num.mul s n = .fin q → (q = 0 ↔ .fin 0 ∈ ns ++ [n]) ∧ (q ≠ 0 → (0 < q ↔ (E ↔ ¬ Negative n))) := by
      simp only [List.mem_append, List.mem_singleton]
      cases s with
      | nan => cases n <;> simp [Num.mul] at h1 h2 h3 ⊢ <;> grind
      | pinf =>
        cases n with
        | fin q =>
          rcases lt_trichotomy q 0 with hq | rfl | hq
          · simp [Num.mul, Num.infOf, hq.ne, hq.not_gt, hneg, hq, hq.ne'] at h1 h2 h3 ⊢ <;> grind
          · simp [Num.mul, Num.infOf] at h1 h2 h3 ⊢ <;> grind
          · simp [Num.mul, Num.infOf, hq.ne, hq.not_gt, hneg, hq, hq.ne'] at h1 h2 h3 ⊢ <;> grind
        | _ => simp [Num.mul, hp, hn] at h1 h2 h3 ⊢ <;> grind
      | ninf =>
        cases n with
        | fin q =>
          rcases lt_trichotomy q 0 with hq | rfl | hq
          · simp [Num.mul, Num.infOf, hq.ne, hq.not_gt, hneg, hq, hq.ne'] at h1 h2 h3 ⊢ <;> grind
          · simp [Num.mul, Num.infOf] at h1 h2 h3 ⊢ <;> grind
          · simp [Num.mul, Num.infOf, hq.ne, hq.not_gt, hneg, hq, hq.ne', hq.le] at h1 h2 h3 ⊢ <;> grind
        | _ => simp [Num.mul, hp, hn] at h1 h2 h3 ⊢ <;> grind
      | fin p =>
        obtain ⟨h5, h6⟩ := h5 p rfl
        cases n with
        | fin q =>
          simp only [reduceCtorEq, false_iff] at h1 h2 h3
          refine ⟨by simp [Num.mul]; grind, by simp [Num.mul]; grind, by simp [Num.mul]; grind, ?_⟩
          rintro _ ⟨⟩
          constructor
          · rw [mul_eq_zero, h5, Num.fin.injEq, eq_comm (a := (0 : ℚ))]
          · intro hpq
            have hp0 : p ≠ 0 := left_ne_zero_of_mul hpq
            have hq0 : q ≠ 0 := right_ne_zero_of_mul hpq
            rw [hneg, ← h6 hp0, not_lt]
            rcases lt_or_gt_of_ne hp0 with a | a <;> rcases lt_or_gt_of_ne hq0 with b | b
            · exact iff_of_true (mul_pos_of_neg_of_neg a b) (iff_of_false a.not_gt b.not_ge)
            · exact iff_of_false (mul_neg_of_neg_of_pos a b).not_gt (fun h => a.not_gt (h.2 b.le))
            · exact iff_of_false (mul_neg_of_pos_of_neg a b).not_gt (fun h => b.not_ge (h.1 a))
            · exact iff_of_true (mul_pos a b) (iff_of_true a b.le)
        | nan => simp [Num.mul]
        | pinf =>
          rcases lt_trichotomy p 0 with hq | rfl | hq
          · simp [Num.mul, Num.infOf, hq.ne, hq.not_gt, hp, hq, hq.ne'] at h1 h2 h3 h5 h6 ⊢ <;> grind
          · simp [Num.mul, Num.infOf] at h1 h2 h3 h5 h6 ⊢ <;> grind
          · simp [Num.mul, Num.infOf, hq.ne, hq.not_gt, hp, hq, hq.ne'] at h1 h2 h3 h5 h6 ⊢ <;> grind
        | ninf =>
          rcases lt_trichotomy p 0 with hq | rfl | hq
          · simp [Num.mul, Num.infOf, hq.ne, hq.not_gt, hn, hq, hq.ne'] at h1 h2 h3 h5 h6 ⊢ <;> grind
          · simp [Num.mul, Num.infOf] at h1 h2 h3 h5 h6 ⊢ <;> grind
          · simp [Num.mul, Num.infOf, hq.ne, hq.not_gt, hn, hq, hq.ne', hq.le] at h1 h2 h3 h5 h6 ⊢ <;> grind
    obtain ⟨k1, k2, k3, k4⟩ := key
    exact ⟨⟨k1, by rw [hev]; exact k2, by rw [hev]; exact k3, hfin⟩, by rw [hev]; exact k4⟩

/-- **C118** Sums: `nan` for `nan` or both infinities among the values, else the infinity among them, else the sum. -/
theorem C118_add (args : List Arg) (x : Ext) (ns : List Num) (hv : ValuesAt args x (ns.map some)) (hd : InAll args x) :
    ∃ r, (addMany args).y x = .ok (some r) ∧ IsSum ns r := by
  have hc : (addMany args).dom.contains x = true := (interAll_contains args x).2 hd
  have hy : (addMany args).y x = .ok (addF (ns.map some)) := by
    unfold addMany at hc ⊢
    rw [aggregate_y hv, if_pos hc]
  exact ⟨_, by rw [hy, addF_some], isSum_foldl ns⟩

/-- **C118** Differences are sums with the opposites of all but the first value. -/
theorem C118_subtract (args : List Arg) (x : Ext) (n : Num) (ns : List Num) (hv : ValuesAt args x ((n :: ns).map some))
    (hd : InAll args x) :
    ∃ r, (subtractMany args).y x = .ok (some r) ∧ IsSum (n :: ns.map Num.neg) r := by
  have hc : (subtractMany args).dom.contains x = true := (interAll_contains args x).2 hd
  have hy : (subtractMany args).y x = .ok (subF ((n :: ns).map some) none) := by
    unfold subtractMany at hc ⊢
    rw [aggregate_y hv, if_pos hc]
  refine ⟨_, by rw [hy, List.map_cons, subF, subF_foldl], ?_⟩
  have := isSum_foldl (n :: ns.map Num.neg)
  rwa [List.foldl_cons, show Num.add (.fin 0) n = n by cases n <;> simp [Num.add]] at this

/-- **C118** Products: `nan` for `nan` or both 0 and an infinity among the values, else, with an infinity among them,
infinite with the sign of the number of negative ones, else the product. -/
theorem C118_multiply (args : List Arg) (x : Ext) (ns : List Num) (hv : ValuesAt args x (ns.map some)) (hd : InAll args x) :
    ∃ r, (multiplyMany args).y x = .ok (some r) ∧ IsProduct ns r := by
  have hc : (multiplyMany args).dom.contains x = true := (interAll_contains args x).2 hd
  have hy : (multiplyMany args).y x = .ok (multF (ns.map some) (.fin 1)) := by
    unfold multiplyMany at hc ⊢
    rw [aggregate_y hv, if_pos hc]
  exact ⟨_, by rw [hy, multF_some'], (isProduct_foldl ns).1⟩

/-- What a quotient is, where the divisor is not 0. -/
structure IsQuotient (a b r : Num) : Prop where
  nan : r = .nan ↔ a = .nan ∨ b = .nan ∨ ((a = .pinf ∨ a = .ninf) ∧ (b = .pinf ∨ b = .ninf))
  pinf : r = .pinf ↔ (a = .pinf ∨ a = .ninf) ∧ (∃ q, b = .fin q) ∧ (Negative a ↔ Negative b)
  ninf : r = .ninf ↔ (a = .pinf ∨ a = .ninf) ∧ (∃ q, b = .fin q) ∧ ¬ (Negative a ↔ Negative b)
  fin : ∀ p q, a = .fin p → b = .fin q → r = .fin (p / q)
  zero : ∀ p, a = .fin p → (b = .pinf ∨ b = .ninf) → r = .fin 0

theorem divF_snoc (ns : List Num) (a : Num) (rest : List (Option Num)) :
    ∃ r, divF (ns.map some) (some a) = .ok (some r) ∧ divF (ns.map some ++ rest) (some a) = divF rest (some r) := by
  induction ns generalizing a with
  | nil => exact ⟨a, rfl, rfl⟩
  | cons n ns ih =>
    rw [List.map_cons, List.cons_append, divF, divF]
    by_cases h0 : n = .fin 0
    · simp only [if_pos h0]
      exact ih _
    · simp only [if_neg h0]
      obtain ⟨q, hq⟩ : ∃ q, Num.div a n = .ok q := by
        cases n with
        | fin q =>
          have : q ≠ 0 := by simpa using h0
          cases a <;> simp [Num.div, this]
        | _ => cases a <;> simp [Num.div]
      rw [hq]
      exact ih _

/-- **C118** Quotients, divisor by divisor (partial: no `nan` over 0): `nan` for `nan` or two infinities; an infinity over a
number is infinite with the sign of both, a number over an infinity is 0; over 0 the result is infinite with the sign of
the dividend.
Missing: `nan` over 0, see `C118_negation`. -/
theorem C118_divide_partial (init : List Arg) (b : Arg) (x : Ext) (ns : List Num) (d : Num) (hne : ns ≠ [])
    (hv : ValuesAt init x (ns.map some)) (hb : (parse b).y x = .ok (some d)) (hd : InAll (init ++ [b]) x) :
    ∃ a r, (divideMany init).y x = .ok (some a) ∧ (divideMany (init ++ [b])).y x = .ok (some r) ∧
      (d ≠ .fin 0 → IsQuotient a d r) ∧
      (d = .fin 0 → a ≠ .nan → (r = .ninf ↔ Negative a) ∧ (r = .pinf ↔ ¬ Negative a)) := by
  have hv' : ValuesAt (init ++ [b]) x ((ns ++ [d]).map some) := by
    unfold ValuesAt at hv ⊢
    simp [hv, hb]
  have hd' : InAll init x := fun a ha => hd a (by simp [ha])
  have hc : (divideMany init).dom.contains x = true := (interAll_contains _ x).2 hd'
  have hc' : (divideMany (init ++ [b])).dom.contains x = true := (interAll_contains _ x).2 hd
  have hy : (divideMany init).y x = divF (ns.map some) none := by
    unfold divideMany at hc ⊢
    rw [aggregate_y hv, if_pos hc]
  have hy' : (divideMany (init ++ [b])).y x = divF ((ns ++ [d]).map some) none := by
    unfold divideMany at hc' ⊢
    rw [aggregate_y hv', if_pos hc']
  obtain ⟨n, ns, rfl⟩ := List.exists_cons_of_ne_nil hne
  obtain ⟨a, h1, h2⟩ := divF_snoc ns n [some d]
  rw [hy, hy']
  rw [List.map_append, List.map_cons, List.cons_append, divF, divF]
  rw [List.map_cons, List.map_nil, h2, h1]
  refine ⟨a, ?_⟩
  rw [divF]
  by_cases h0 : d = .fin 0
  · rw [if_pos h0]
    refine ⟨_, rfl, rfl, fun h => absurd h0 h, fun _ hn => ?_⟩
    cases a with
    | fin q =>
      by_cases hq : 0 ≤ q
      · simp [Num.le, hq, Negative, hq.not_gt]
      · simp [Num.le, hq, Negative, not_le.1 hq]
    | nan => exact absurd rfl hn
    | _ => simp [Num.le, Negative]
  · rw [if_neg h0]
    cases d with
    | fin q =>
      have hq : q ≠ 0 := by simpa using h0
      rcases lt_or_gt_of_ne hq with h | h
      · cases a <;>
        · refine ⟨_, rfl, by simp only [Num.div, if_neg hq]; rfl, fun _ => ⟨?_, ?_, ?_, ?_, ?_⟩, fun e => absurd e h0⟩ <;>
            simp [Num.infOf, hq, h, h.not_gt, Negative]
      · cases a <;>
        · refine ⟨_, rfl, by simp only [Num.div, if_neg hq]; rfl, fun _ => ⟨?_, ?_, ?_, ?_, ?_⟩, fun e => absurd e h0⟩ <;>
            simp [Num.infOf, hq, h, h.not_gt, h.le, Negative]
    | _ =>
      cases a <;>
      · refine ⟨_, rfl, rfl, fun _ => ⟨?_, ?_, ?_, ?_, ?_⟩, fun e => absurd e h0⟩ <;> simp [Negative]

/-- Disagreement with C118: `nan` over 0 is minus infinity. -/
theorem C118_negation : (divideMany [.number .nan, .number (.fin 0)]).y (.fin 1) = .ok (some .ninf) ∧
    (divideMany [.number .nan, .number (.fin 2)]).y (.fin 1) = .ok (some .nan) := by
  constructor <;> decide +kernel

example : (addMany [.number .pinf, .number (.fin 2)]).y (.fin 1) = .ok (some .pinf) ∧
    (addMany [.number .pinf, .number (.fin 2), .number .ninf]).y (.fin 1) = .ok (some .nan) ∧
    (subtractMany [.number (.fin 2), .number .pinf]).y (.fin 1) = .ok (some .ninf) ∧
    (multiplyMany [.number .pinf, .number (.fin (-2)), .number .ninf]).y (.fin 1) = .ok (some .pinf) ∧
    (multiplyMany [.number (.fin 0), .number .pinf]).y (.fin 1) = .ok (some .nan) ∧
    (divideMany [.number (.fin (-3)), .number (.fin 0), .number (.fin (-2))]).y (.fin 1) = .ok (some .pinf) ∧
    (divideMany [.number (.fin (-3)), .number .ninf]).y (.fin 1) = .ok (some (.fin 0)) := by
  refine ⟨?_, ?_, ?_, ?_, ?_, ?_, ?_⟩ <;> decide +kernel

/-- The hypotheses can be met. -/
example : ValuesAt [.number .pinf, .number (.fin 2)] (.fin 1) ([.pinf, .fin 2].map some) ∧
    InAll [.number .pinf, .number (.fin 2)] (.fin 1) := by
  refine ⟨rfl, ?_⟩
  intro a ha
  simp only [List.mem_cons, List.not_mem_nil, or_false] at ha
  rcases ha with rfl | rfl <;> decide +kernel
/-! ## An instance of each theorem -/

theorem mixed_in : InAll [.number .pinf, .number (.fin 2)] (.fin 1) := by
  intro a ha
  simp only [List.mem_cons, List.not_mem_nil, or_false] at ha
  rcases ha with rfl | rfl <;> decide +kernel

example : ∃ r, (addMany [.number .pinf, .number (.fin 2)]).y (.fin 1) = .ok (some r) ∧ IsSum [.pinf, .fin 2] r :=
  C118_add _ _ [.pinf, .fin 2] rfl mixed_in

example : ∃ r, (subtractMany [.number .pinf, .number (.fin 2)]).y (.fin 1) = .ok (some r) ∧ IsSum [.pinf, .fin (-2)] r :=
  C118_subtract _ _ .pinf [.fin 2] rfl mixed_in

example : ∃ r, (multiplyMany [.number .pinf, .number (.fin 2)]).y (.fin 1) = .ok (some r) ∧ IsProduct [.pinf, .fin 2] r :=
  C118_multiply _ _ [.pinf, .fin 2] rfl mixed_in

example : ∃ a r, (divideMany [.number .pinf]).y (.fin 1) = .ok (some a) ∧
    (divideMany [.number .pinf, .number (.fin 2)]).y (.fin 1) = .ok (some r) ∧ IsQuotient a (.fin 2) r := by
  obtain ⟨a, r, h1, h2, h3, _⟩ := C118_divide_partial [.number .pinf] (.number (.fin 2)) (.fin 1) [.pinf] (.fin 2) (by simp) rfl
    (by decide +kernel) mixed_in
  exact ⟨a, r, h1, h2, h3 (by decide)⟩

end Props
end Curvepy
