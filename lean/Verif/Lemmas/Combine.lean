import Verif.Lemmas.Interval
import Verif.Spec.Combine
import Mathlib.Algebra.Order.BigOperators.Group.List
import Mathlib.Algebra.BigOperators.Group.List.Basic
import Mathlib.Algebra.GroupWithZero.Basic
import Mathlib.Tactic.Ring
import Mathlib.Tactic.Linarith
import Mathlib.Tactic.FieldSimp

/-! Lemmas about combined curves. -/

namespace Curvepy
open Spec

theorem mapM_ok {α β : Type} (f : α → Except Err β) (l : List α) (vs : List β) :
    l.mapM f = .ok vs ↔ l.map f = vs.map .ok := by
  induction l generalizing vs with
  | nil =>
    simp only [List.mapM_nil, List.map_nil]
    constructor
    · intro h; cases h; rfl
    · intro h
      cases vs with
      | nil => rfl
      | cons => simp at h
  | cons a l ih =>
    rw [List.mapM_cons, List.map_cons]
    cases ha : f a with
    | error e =>
      constructor
      · intro h; cases h
      · intro h
        cases vs with
        | nil => simp at h
        | cons => simp at h
    | ok b =>
      cases hl : l.mapM f with
      | error e =>
        constructor
        · intro h; cases h
        · intro h
          cases vs with
          | nil => simp at h
          | cons v vs =>
            simp only [List.map_cons, List.cons.injEq] at h
            rw [(ih vs).2 h.2] at hl
            cases hl
      | ok bs =>
        have := (ih bs).1 hl
        constructor
        · intro h
          cases h
          simp [this]
        · intro h
          cases vs with
          | nil => simp at h
          | cons v vs =>
            simp only [List.map_cons, List.cons.injEq, Except.ok.injEq] at h
            have h2 := (ih vs).2 h.2
            rw [hl] at h2
            cases h2
            rw [h.1]
            rfl

namespace Crv

theorem aggregate_y {args : List Arg} {x : Ext} {vals : List (Option Num)}
    (hv : ValuesAt args x vals) (tfm : Ext → List (Option Num) → Except Err (Option Num))
    (u : Bool) (d : Option Num) :
    (aggregate (args.map parse) tfm u d).y x =
      if (aggregate (args.map parse) tfm u d).dom.contains x then tfm x vals else .ok d := by
  have h : (args.map parse).mapM (fun f => f.y x) = .ok vals := by
    rw [mapM_ok, List.map_map]; exact hv
  cases hz : (aggregate (args.map parse) tfm u d).dom.contains x with
  | false =>
    simp only [aggregate] at hz ⊢
    simp only [hz, Bool.not_false, if_true]
    rfl
  | true =>
    simp only [aggregate] at hz ⊢
    rw [h]
    simp only [hz, Bool.not_true, if_true]
    rfl

theorem interAll_contains (args : List Arg) (x : Ext) :
    (Iv.interAll ((args.map parse).map (·.dom))).contains x = true ↔ InAll args x := by
  rw [Iv.contains_interAll]
  simp [InAll]

/-! ### Sums and so on -/

theorem allDefined_none {ys : List (Option Num)} (h : none ∈ ys) : allDefined ys = none := by
  induction ys with
  | nil => simp at h
  | cons y ys ih =>
    cases y with
    | none => rfl
    | some v =>
      simp at h
      simp [allDefined, ih h]

theorem allDefined_some (vs : List Num) : allDefined (vs.map some) = some vs := by
  induction vs with
  | nil => rfl
  | cons v vs ih => simp [allDefined, ih]

theorem foldl_add (qs : List ℚ) (a : ℚ) :
    (qs.map Num.fin).foldl Num.add (.fin a) = .fin (a + qs.sum) := by
  induction qs generalizing a with
  | nil => simp
  | cons q qs ih =>
    simp only [List.map_cons, List.foldl_cons, Num.add, ih, List.sum_cons]
    congr 1; ring

theorem subF_none {ys : List (Option Num)} (h : none ∈ ys) (r : Option Num) : subF ys r = none := by
  induction ys generalizing r with
  | nil => simp at h
  | cons y ys ih =>
    cases y with
    | none => cases r <;> rfl
    | some v =>
      simp at h
      cases r <;> simp [subF, ih h]

theorem subF_some (qs : List ℚ) (a : ℚ) :
    subF (qs.map fun q => some (.fin q)) (some (.fin a)) = some (.fin (a - qs.sum)) := by
  induction qs generalizing a with
  | nil => simp [subF]
  | cons q qs ih =>
    simp only [List.map_cons, subF, Num.sub, Num.neg, Num.add, ih, List.sum_cons]
    congr 2; ring

theorem multF_none {ys : List (Option Num)} (h : none ∈ ys) (r : Num) : multF ys r = none := by
  induction ys generalizing r with
  | nil => simp at h
  | cons y ys ih =>
    cases y with
    | none => rfl
    | some v => simp at h; simp [multF, ih h]

theorem multF_some (qs : List ℚ) (a : ℚ) :
    multF (qs.map fun q => some (.fin q)) (.fin a) = some (.fin (a * qs.prod)) := by
  induction qs generalizing a with
  | nil => simp [multF]
  | cons q qs ih =>
    simp only [List.map_cons, multF, Num.mul, ih, List.prod_cons]
    congr 2; ring

theorem divF_none {ys : List (Option Num)} (h : none ∈ ys) (r : Option Num) :
    divF ys r = .ok none := by
  induction ys generalizing r with
  | nil => simp at h
  | cons y ys ih =>
    cases y with
    | none => cases r <;> rfl
    | some v =>
      simp at h
      cases r with
      | none => simp [divF, ih h]
      | some r =>
        simp only [divF]
        split
        · exact ih h _
        · rename_i hv
          have : ∃ q, Num.div r v = .ok q := by
            cases v with
            | fin b =>
              have hb : b ≠ 0 := fun hb => hv (by rw [hb])
              cases r <;> simp [Num.div, hb]
            | _ => cases r <;> simp [Num.div]
          obtain ⟨q, hq⟩ := this
          rw [hq]
          exact ih h _

theorem divF_total (ys : List (Option Num)) (r : Option Num) : ∃ o, divF ys r = .ok o := by
  induction ys generalizing r with
  | nil => exact ⟨_, rfl⟩
  | cons y ys ih =>
    cases y with
    | none => cases r <;> exact ⟨_, rfl⟩
    | some v =>
      cases r with
      | none => exact ih _
      | some r =>
        simp only [divF]
        split
        · exact ih _
        · rename_i hv
          have : ∃ q, Num.div r v = .ok q := by
            cases v with
            | fin b =>
              have hb : b ≠ 0 := fun hb => hv (by rw [hb])
              cases r <;> simp [Num.div, hb]
            | _ => cases r <;> simp [Num.div]
          obtain ⟨q, hq⟩ := this
          rw [hq]
          exact ih _

theorem divF_fin (as : List ℚ) (a : ℚ) (h : 0 ∉ as) (rest : List (Option Num)) :
    divF ((as.map fun q => some (.fin q)) ++ rest) (some (.fin a)) =
      divF rest (some (.fin (a / as.prod))) := by
  induction as generalizing a with
  | nil => simp
  | cons q qs ih =>
    simp only [List.mem_cons, not_or] at h
    have hq : q ≠ 0 := fun e => h.1 e.symm
    simp only [List.map_cons, List.cons_append, divF, Num.fin.injEq, hq, if_false, Num.div]
    rw [ih _ h.2, List.prod_cons, div_div]

/-- Number of negative entries. -/
theorem divF_inf (bs : List ℚ) (pos : Bool) :
    divF (bs.map fun q => some (.fin q)) (some (if pos then .pinf else .ninf)) =
      .ok (some (if (decide ((bs.filter (· < 0)).length % 2 = 0)) = pos then .pinf else .ninf)) := by
  induction bs generalizing pos with
  | nil => cases pos <;> rfl
  | cons b bs ih =>
    simp only [List.map_cons, divF]
    rcases lt_trichotomy b 0 with hb | hb | hb
    · have h1 : ¬ b = 0 := hb.ne
      have h2 : ¬ (0 < b) := by linarith
      have hdiv : Num.div (if pos = true then .pinf else .ninf) (.fin b) =
          .ok (if (!pos) = true then .pinf else .ninf) := by
        cases pos <;> simp [Num.div, Num.infOf, h1, h2, hb]
      rw [if_neg (by simpa using h1), hdiv]
      simp only
      rw [ih]
      have : (List.filter (fun x => decide (x < 0)) (b :: bs)).length =
          (List.filter (fun x => decide (x < 0)) bs).length + 1 := by simp [hb]
      rw [this]
      generalize (List.filter (fun x => decide (x < 0)) bs).length = n
      rcases Nat.mod_two_eq_zero_or_one n with hn | hn
      · have : (n + 1) % 2 = 1 := by omega
        simp only [hn, this]
        cases pos <;> rfl
      · have : (n + 1) % 2 = 0 := by omega
        simp only [hn, this]
        cases pos <;> rfl
    · subst hb
      rw [if_pos rfl]
      have : (if Num.le (.fin 0) (if pos = true then .pinf else .ninf) = true then Num.pinf
          else .ninf) = (if pos = true then .pinf else .ninf) := by cases pos <;> rfl
      rw [this, ih]
      simp
    · have h1 : ¬ b = 0 := hb.ne'
      have h2 : ¬ (b < 0) := by linarith
      have hdiv : Num.div (if pos = true then .pinf else .ninf) (.fin b) =
          .ok (if pos = true then .pinf else .ninf) := by
        cases pos
        · have : ¬ (0 < -b) := by linarith
          simp [Num.div, Num.infOf, h1, this]
        · simp [Num.div, Num.infOf, h1, hb]
      rw [if_neg (by simpa using h1), hdiv]
      simp only
      rw [ih]
      simp [h2]

/-! ### Extrema -/

theorem num_le_refl {a : Num} (h : a ≠ .nan) : Num.le a a = true := by
  cases a <;> simp_all [Num.le]

theorem num_le_trans {a b c : Num} (h1 : Num.le a b = true) (h2 : Num.le b c = true) :
    Num.le a c = true := by
  cases a <;> cases b <;> cases c <;> simp_all [Num.le]
  linarith

theorem num_le_of_lt {a b : Num} (h : Num.lt a b = true) : Num.le a b = true := by
  cases a <;> cases b <;> simp_all [Num.le, Num.lt]
  linarith

theorem num_le_of_not_lt {a b : Num} (ha : a ≠ .nan) (hb : b ≠ .nan) (h : Num.lt a b = false) :
    Num.le b a = true := by
  cases a <;> cases b <;> simp_all [Num.le, Num.lt]

theorem minVals_spec (vals : List (Option Num)) (best : Option Num)
    (hn : ∀ v, some v ∈ vals → v ≠ .nan) (hb : ∀ b, best = some b → b ≠ .nan) :
    (minVals vals best = none ∧ best = none ∧ ∀ o ∈ vals, o = none) ∨
    ∃ m, minVals vals best = some m ∧ (some m ∈ vals ∨ best = some m) ∧
      (∀ v, some v ∈ vals → Num.le m v = true) ∧ ∀ b, best = some b → Num.le m b = true := by
  induction vals generalizing best with
  | nil =>
    cases best with
    | none => left; simp [minVals]
    | some b => right; exact ⟨b, rfl, Or.inr rfl, by simp, by
        rintro _ h; cases h; exact num_le_refl (hb b rfl)⟩
  | cons v vs ih =>
    have hn' : ∀ w, some w ∈ vs → w ≠ .nan := fun w hw => hn w (by simp [hw])
    cases best with
    | none =>
      simp only [minVals]
      have hv : ∀ b, v = some b → b ≠ .nan := fun b hb => hn b (by simp [hb])
      rcases ih v hn' hv with ⟨h1, h2, h3⟩ | ⟨m, h1, h2, h3, h4⟩
      · left
        refine ⟨h1, trivial, ?_⟩
        intro o ho
        rcases List.mem_cons.1 ho with rfl | ho
        · exact h2
        · exact h3 o ho
      · right
        refine ⟨m, h1, Or.inl ?_, ?_, by simp⟩
        · rcases h2 with h2 | h2
          · simp [h2]
          · simp [h2]
        · intro w hw
          rcases List.mem_cons.1 hw with rfl | hw
          · exact h4 w rfl
          · exact h3 w hw
    | some b =>
      right
      cases v with
      | none =>
        simp only [minVals]
        rcases ih (some b) hn' hb with ⟨_, h2, _⟩ | ⟨m, h1, h2, h3, h4⟩
        · cases h2
        · refine ⟨m, h1, ?_, ?_, h4⟩
          · rcases h2 with h2 | h2
            · simp [h2]
            · simp [h2]
          · intro w hw; simp at hw; exact h3 w hw
      | some w =>
        have hw : w ≠ .nan := hn w (by simp)
        have hbn := hb b rfl
        simp only [minVals]
        rcases ih (if Num.lt w b then some w else some b) hn' (by
          intro c hc; split at hc <;> cases hc <;> assumption) with ⟨_, h2, _⟩ | ⟨m, h1, h2, h3, h4⟩
        · split at h2 <;> cases h2
        · refine ⟨m, h1, ?_, ?_, ?_⟩
          · rcases h2 with h2 | h2
            · simp [h2]
            · split at h2
              · simp [h2]
              · right; exact h2
          · intro z hz
            rcases List.mem_cons.1 hz with hz | hz
            · cases hz
              split at h4
              · exact h4 w rfl
              · rename_i hlt
                exact num_le_trans (h4 b rfl) (num_le_of_not_lt hw hbn (by simpa using hlt))
            · exact h3 z hz
          · rintro c hc
            cases hc
            split at h4
            · rename_i hlt
              exact num_le_trans (h4 w rfl) (num_le_of_lt hlt)
            · exact h4 b rfl

theorem maxVals_spec (vals : List (Option Num)) (best : Option Num)
    (hn : ∀ v, some v ∈ vals → v ≠ .nan) (hb : ∀ b, best = some b → b ≠ .nan) :
    (maxVals vals best = none ∧ best = none ∧ ∀ o ∈ vals, o = none) ∨
    ∃ m, maxVals vals best = some m ∧ (some m ∈ vals ∨ best = some m) ∧
      (∀ v, some v ∈ vals → Num.le v m = true) ∧ ∀ b, best = some b → Num.le b m = true := by
  induction vals generalizing best with
  | nil =>
    cases best with
    | none => left; simp [maxVals]
    | some b => right; exact ⟨b, rfl, Or.inr rfl, by simp, by
        rintro _ h; cases h; exact num_le_refl (hb b rfl)⟩
  | cons v vs ih =>
    have hn' : ∀ w, some w ∈ vs → w ≠ .nan := fun w hw => hn w (by simp [hw])
    cases best with
    | none =>
      simp only [maxVals]
      have hv : ∀ b, v = some b → b ≠ .nan := fun b hb => hn b (by simp [hb])
      rcases ih v hn' hv with ⟨h1, h2, h3⟩ | ⟨m, h1, h2, h3, h4⟩
      · left
        refine ⟨h1, trivial, ?_⟩
        intro o ho
        rcases List.mem_cons.1 ho with rfl | ho
        · exact h2
        · exact h3 o ho
      · right
        refine ⟨m, h1, Or.inl ?_, ?_, by simp⟩
        · rcases h2 with h2 | h2
          · simp [h2]
          · simp [h2]
        · intro w hw
          rcases List.mem_cons.1 hw with rfl | hw
          · exact h4 w rfl
          · exact h3 w hw
    | some b =>
      right
      cases v with
      | none =>
        simp only [maxVals]
        rcases ih (some b) hn' hb with ⟨_, h2, _⟩ | ⟨m, h1, h2, h3, h4⟩
        · cases h2
        · refine ⟨m, h1, ?_, ?_, h4⟩
          · rcases h2 with h2 | h2
            · simp [h2]
            · simp [h2]
          · intro w hw; simp at hw; exact h3 w hw
      | some w =>
        have hw : w ≠ .nan := hn w (by simp)
        have hbn := hb b rfl
        simp only [maxVals]
        rcases ih (if Num.lt b w then some w else some b) hn' (by
          intro c hc; split at hc <;> cases hc <;> assumption) with ⟨_, h2, _⟩ | ⟨m, h1, h2, h3, h4⟩
        · split at h2 <;> cases h2
        · refine ⟨m, h1, ?_, ?_, ?_⟩
          · rcases h2 with h2 | h2
            · simp [h2]
            · split at h2
              · simp [h2]
              · right; exact h2
          · intro z hz
            rcases List.mem_cons.1 hz with hz | hz
            · cases hz
              split at h4
              · exact h4 w rfl
              · rename_i hlt
                exact num_le_trans (num_le_of_not_lt hbn hw (by simpa using hlt)) (h4 b rfl)
            · exact h3 z hz
          · rintro c hc
            cases hc
            split at h4
            · rename_i hlt
              exact num_le_trans (num_le_of_lt hlt) (h4 w rfl)
            · exact h4 b rfl

theorem pyMin_eq (vs : List Num) : pyMin vs = minVals (vs.map some) none := by
  cases vs with
  | nil => rfl
  | cons v vs =>
    simp only [pyMin, List.map_cons, minVals]
    induction vs generalizing v with
    | nil => rfl
    | cons w ws ih =>
      simp only [List.foldl_cons, List.map_cons, minVals]
      rw [ih]
      cases Num.lt w v <;> rfl

theorem pyMax_eq (vs : List Num) : pyMax vs = maxVals (vs.map some) none := by
  cases vs with
  | nil => rfl
  | cons v vs =>
    simp only [pyMax, List.map_cons, maxVals]
    induction vs generalizing v with
    | nil => rfl
    | cons w ws ih =>
      simp only [List.foldl_cons, List.map_cons, maxVals]
      rw [ih]
      cases Num.lt v w <;> rfl

theorem pickMin_spec (gt i : Ext) (best : Option Ext) (hb : ∀ b, best = some b → gt < b) :
    (pickMin gt i best = none ∧ best = none ∧ ¬ gt < i) ∨
    ∃ m, pickMin gt i best = some m ∧ gt < m ∧ (m = i ∨ best = some m) ∧ (gt < i → m ≤ i) ∧
      ∀ b, best = some b → m ≤ b := by
  cases best with
  | none =>
    by_cases h : gt < i
    · right; exact ⟨i, by simp [pickMin, h], h, Or.inl rfl, fun _ => le_refl _, by simp⟩
    · left; simp [pickMin, h]
  | some b =>
    right
    have hgb := hb b rfl
    by_cases h1 : i < b
    · by_cases h : gt < i
      · exact ⟨i, by simp [pickMin, h, h1], h, Or.inl rfl, fun _ => le_refl _, by
          rintro _ ⟨⟩; exact h1.le⟩
      · exact ⟨b, by simp [pickMin, h], hgb, Or.inr rfl, fun h' => absurd h' h, by
          rintro _ ⟨⟩; exact le_refl _⟩
    · exact ⟨b, by simp [pickMin, h1], hgb, Or.inr rfl, fun _ => not_lt.1 h1, by
        rintro _ ⟨⟩; exact le_refl _⟩

theorem minOrNone_spec (gt : Ext) (is : List (Option Ext)) (best : Option Ext)
    (hb : ∀ b, best = some b → gt < b) :
    (minOrNone gt is best = none ∧ best = none ∧ ∀ i, some i ∈ is → ¬ gt < i) ∨
    ∃ m, minOrNone gt is best = some m ∧ gt < m ∧ (some m ∈ is ∨ best = some m) ∧
      (∀ i, some i ∈ is → gt < i → m ≤ i) ∧ ∀ b, best = some b → m ≤ b := by
  induction is generalizing best with
  | nil =>
    cases best with
    | none => left; simp [minOrNone]
    | some b => right; exact ⟨b, rfl, hb b rfl, Or.inr rfl, by simp, by simp⟩
  | cons o is ih =>
    cases o with
    | none =>
      simp only [minOrNone]
      rcases ih best hb with ⟨h1, h2, h3⟩ | ⟨m, h1, h2, h3, h4, h5⟩
      · exact Or.inl ⟨h1, h2, by simpa using h3⟩
      · exact Or.inr ⟨m, h1, h2, by simpa using h3, by simpa using h4, h5⟩
    | some i =>
      simp only [minOrNone]
      rcases pickMin_spec gt i best hb with ⟨e, hbn, hgi⟩ | ⟨p, e, hgp, hp, hpi, hpb⟩
      · rw [e]
        rcases ih none (by simp) with ⟨h1, h2, h3⟩ | ⟨m, h1, h2, h3, h4, h5⟩
        · left
          refine ⟨h1, hbn, ?_⟩
          intro j hj
          rcases List.mem_cons.1 hj with hj | hj
          · cases hj; exact hgi
          · exact h3 j hj
        · right
          refine ⟨m, h1, h2, ?_, ?_, by simp [hbn]⟩
          · rcases h3 with h3 | h3
            · simp [h3]
            · cases h3
          · intro j hj hgj
            rcases List.mem_cons.1 hj with hj | hj
            · cases hj; exact absurd hgj hgi
            · exact h4 j hj hgj
      · rw [e]
        right
        rcases ih (some p) (by rintro _ ⟨⟩; exact hgp) with ⟨_, h2, _⟩ | ⟨m, h1, h2, h3, h4, h5⟩
        · cases h2
        · refine ⟨m, h1, h2, ?_, ?_, ?_⟩
          · rcases h3 with h3 | h3
            · simp [h3]
            · cases h3
              rcases hp with hp | hp
              · simp [hp]
              · right; exact hp
          · intro j hj hgj
            rcases List.mem_cons.1 hj with hj | hj
            · cases hj; exact (h5 p rfl).trans (hpi hgj)
            · exact h4 j hj hgj
          · intro b hbb
            exact (h5 p rfl).trans (hpb b hbb)

theorem pickMax_spec (lt i : Ext) (best : Option Ext) (hb : ∀ b, best = some b → b < lt) :
    (pickMax lt i best = none ∧ best = none ∧ ¬ i < lt) ∨
    ∃ m, pickMax lt i best = some m ∧ m < lt ∧ (m = i ∨ best = some m) ∧ (i < lt → i ≤ m) ∧
      ∀ b, best = some b → b ≤ m := by
  cases best with
  | none =>
    by_cases h : i < lt
    · right; exact ⟨i, by simp [pickMax, h], h, Or.inl rfl, fun _ => le_refl _, by simp⟩
    · left; simp [pickMax, h]
  | some b =>
    right
    have hgb := hb b rfl
    by_cases h1 : b < i
    · by_cases h : i < lt
      · exact ⟨i, by simp [pickMax, h, h1], h, Or.inl rfl, fun _ => le_refl _, by
          rintro _ ⟨⟩; exact h1.le⟩
      · exact ⟨b, by simp [pickMax, h], hgb, Or.inr rfl, fun h' => absurd h' h, by
          rintro _ ⟨⟩; exact le_refl _⟩
    · exact ⟨b, by simp [pickMax, h1], hgb, Or.inr rfl, fun _ => not_lt.1 h1, by
        rintro _ ⟨⟩; exact le_refl _⟩

theorem maxOrNone_spec (lt : Ext) (is : List (Option Ext)) (best : Option Ext)
    (hb : ∀ b, best = some b → b < lt) :
    (maxOrNone lt is best = none ∧ best = none ∧ ∀ i, some i ∈ is → ¬ i < lt) ∨
    ∃ m, maxOrNone lt is best = some m ∧ m < lt ∧ (some m ∈ is ∨ best = some m) ∧
      (∀ i, some i ∈ is → i < lt → i ≤ m) ∧ ∀ b, best = some b → b ≤ m := by
  induction is generalizing best with
  | nil =>
    cases best with
    | none => left; simp [maxOrNone]
    | some b => right; exact ⟨b, rfl, hb b rfl, Or.inr rfl, by simp, by simp⟩
  | cons o is ih =>
    cases o with
    | none =>
      simp only [maxOrNone]
      rcases ih best hb with ⟨h1, h2, h3⟩ | ⟨m, h1, h2, h3, h4, h5⟩
      · exact Or.inl ⟨h1, h2, by simpa using h3⟩
      · exact Or.inr ⟨m, h1, h2, by simpa using h3, by simpa using h4, h5⟩
    | some i =>
      simp only [maxOrNone]
      rcases pickMax_spec lt i best hb with ⟨e, hbn, hgi⟩ | ⟨p, e, hgp, hp, hpi, hpb⟩
      · rw [e]
        rcases ih none (by simp) with ⟨h1, h2, h3⟩ | ⟨m, h1, h2, h3, h4, h5⟩
        · left
          refine ⟨h1, hbn, ?_⟩
          intro j hj
          rcases List.mem_cons.1 hj with hj | hj
          · cases hj; exact hgi
          · exact h3 j hj
        · right
          refine ⟨m, h1, h2, ?_, ?_, by simp [hbn]⟩
          · rcases h3 with h3 | h3
            · simp [h3]
            · cases h3
          · intro j hj hgj
            rcases List.mem_cons.1 hj with hj | hj
            · cases hj; exact absurd hgj hgi
            · exact h4 j hj hgj
      · rw [e]
        right
        rcases ih (some p) (by rintro _ ⟨⟩; exact hgp) with ⟨_, h2, _⟩ | ⟨m, h1, h2, h3, h4, h5⟩
        · cases h2
        · refine ⟨m, h1, h2, ?_, ?_, ?_⟩
          · rcases h3 with h3 | h3
            · simp [h3]
            · cases h3
              rcases hp with hp | hp
              · simp [hp]
              · right; exact hp
          · intro j hj hgj
            rcases List.mem_cons.1 hj with hj | hj
            · cases hj; exact (hpi hgj).trans (h5 p rfl)
            · exact h4 j hj hgj
          · intro b hbb
            exact (hpb b hbb).trans (h5 p rfl)

/-! ### Piecewise -/

theorem contains_noStart (d : Iv) (x : Ext) :
    d.contains x (enforceStart := false) = (!d.isEmpty && d.leHi x) := by
  simp [Iv.contains]

theorem contains_noEnd (d : Iv) (x : Ext) :
    d.contains x (enforceEnd := false) = (!d.isEmpty && d.geLo x) := by
  simp [Iv.contains]

theorem piecewiseY_none {x : Ext} {ps : List (Crv × Iv)}
    (h : ∀ p ∈ ps, p.2.contains x = false) : piecewiseY x ps = .ok none := by
  induction ps with
  | nil => rfl
  | cons p ps ih =>
    obtain ⟨f, d⟩ := p
    simp only [piecewiseY]
    have hd := h (f, d) (by simp)
    by_cases h1 : d.contains x (enforceStart := false) = true
    · rw [h1]
      by_cases h2 : d.contains x (enforceEnd := false) = true
      · exfalso
        rw [contains_noStart] at h1
        rw [contains_noEnd] at h2
        simp only at hd
        rw [← Bool.not_eq_true, Iv.contains_iff] at hd
        simp only [Bool.and_eq_true] at h1 h2
        exact hd ⟨h2.2, h1.2⟩
      · rw [Bool.not_eq_true] at h2
        rw [h2]; rfl
    · rw [Bool.not_eq_true] at h1
      rw [h1]
      exact ih fun p hp => h p (by simp [hp])

theorem piecewiseY_some {x : Ext} {ps : List (Crv × Iv)}
    (hasc : AscendingPieces (ps.map (·.2))) {f : Crv} {d : Iv} (hm : (f, d) ∈ ps)
    (hc : d.contains x = true) : piecewiseY x ps = f.y x := by
  induction ps with
  | nil => simp at hm
  | cons p ps ih =>
    obtain ⟨g, e⟩ := p
    rw [List.map_cons, AscendingPieces, List.pairwise_cons] at hasc
    simp only [piecewiseY]
    rcases List.mem_cons.1 hm with heq | hm
    · cases heq
      have hne := Iv.not_isEmpty_of_mem hc
      rw [Iv.contains_iff] at hc
      rw [contains_noStart, contains_noEnd, hne, hc.1, hc.2]
      rfl
    · have hlt := hasc.1 d (List.mem_map.2 ⟨_, hm, rfl⟩)
      by_cases h1 : e.contains x (enforceStart := false) = true
      · exfalso
        rw [contains_noStart] at h1
        simp only [Bool.and_eq_true, Bool.not_eq_true'] at h1
        obtain ⟨z, hz⟩ := Iv.exists_mem e h1.1
        have hzx := hlt z x hz hc
        have : e.contains x = true := by
          rw [Iv.contains_iff] at hz ⊢
          refine ⟨?_, h1.2⟩
          rw [Iv.geLo_iff] at hz ⊢
          rcases hz.1 with h | ⟨h, _⟩
          · exact Or.inl (h.trans hzx)
          · exact Or.inl (h ▸ hzx)
        exact lt_irrefl _ (hlt x x this hc)
      · rw [Bool.not_eq_true] at h1
        rw [h1]
        exact ih hasc.2 hm

end Crv
end Curvepy
