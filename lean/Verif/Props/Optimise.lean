import Verif.Props.Sampling

/-!
# Searching for minima and maxima: C41, C69
-/

namespace Curvepy.Props
open Spec Crv

/-! ## C41 -/

theorem maxDecide_eq (d0 d1 : Option Num) :
    maxDecide d0 d1 = minDecide (d0.map Num.neg) (d1.map Num.neg) := by
  have hle : ∀ d : Num, Num.le (.fin 0) d = Num.le d.neg (.fin 0) := by
    intro d; cases d <;> simp [Num.le, Num.neg]
  have hle' : ∀ d : Num, Num.le d (.fin 0) = Num.le (.fin 0) d.neg := by
    intro d; cases d <;> simp [Num.le, Num.neg]
  have hlt : ∀ d : Num, Num.lt (.fin 0) d = Num.lt d.neg (.fin 0) := by
    intro d; cases d <;> simp [Num.lt, Num.neg]
  have hmul : ∀ a b : Num, Num.mul a.neg b.neg = Num.mul a b := by
    intro a b; cases a <;> cases b <;> simp [Num.mul, Num.neg]
  have habs : ∀ a : Num, a.neg.abs = a.abs := by
    intro a; cases a <;> simp [Num.abs, Num.neg]
  cases d0 with
  | none => cases d1 <;> simp [maxDecide, minDecide, hle]
  | some a =>
    cases d1 with
    | none => simp [maxDecide, minDecide, hle']
    | some b => simp only [maxDecide, minDecide, Option.map_some, hmul, habs, hle a, hle' b, hlt b]

/-- **C41** Maximising is minimising with the slopes negated. -/
theorem C41_maximise_eq (c : Crv) (dY : Ext → Bool → Except Err (Option Num)) (x : Ext)
    (minStep : Option Ext) (step : Option ℚ) (n : ℕ) :
    maximise c dY x minStep step n =
      minimise c (fun x f => (dY x f).map fun d => d.map Num.neg) x minStep step n := by
  have : ∀ n x prev, search c maxDecide dY minStep step n x prev =
      search c minDecide (fun x f => (dY x f).map fun d => d.map Num.neg) minStep step n x prev := by
    intro n
    induction n with
    | zero => intro x prev; rfl
    | succ n ih =>
      intro x prev
      cases x with
      | none => rfl
      | some x =>
        simp only [search]
        rcases c.y x with e | (_ | v)
        · rfl
        · rfl
        · rcases dY x false with e | d0
          · rfl
          · rcases dY x true with e | d1
            · rfl
            · simp only [Except.map, ← maxDecide_eq, ih]
  exact this n (some x) none

theorem moveOn_neighbour {c : Crv} {minStep : Option Ext} {step : Option ℚ} {f : Bool} {x z : Ext}
    (h : moveOn c minStep step f x = .ok (some z)) : Neighbour c minStep step x z := by
  cases step <;> cases f <;> simp_all [moveOn, Neighbour]

theorem minDecide_stay {d0 d1 : Option Num} (h : minDecide d0 d1 = .stay) :
    (d0 = none ∧ d1 = none) ∨ ∃ a b, d0 = some a ∧ d1 = some b ∧ Num.lt a (.fin 0) = true ∧
      Num.lt (.fin 0) b = true := by
  cases d0 with
  | none =>
    cases d1 with
    | none => exact Or.inl ⟨rfl, rfl⟩
    | some b => simp only [minDecide] at h; split at h <;> simp at h
  | some a =>
    cases d1 with
    | none => simp only [minDecide] at h; split at h <;> simp at h
    | some b =>
      right
      refine ⟨a, b, rfl, rfl, ?_⟩
      simp only [minDecide] at h
      split at h
      · rename_i hc
        obtain ⟨h1, h2, h3⟩ := hc
        cases a with
        | fin p =>
          cases b with
          | fin q =>
            simp only [Num.mul, Num.lt, Num.le, decide_eq_true_eq] at h1 h2 h3 ⊢
            constructor
            · rcases h2.lt_or_eq with h | h
              · exact h
              · rw [h] at h1; simp at h1
            · rcases h3.lt_or_eq with h | h
              · exact h
              · rw [← h] at h1; simp at h1
          | pinf =>
            simp only [Num.mul, Num.infOf, Num.le, decide_eq_true_eq] at h1 h2
            simp only [Num.lt, decide_eq_true_eq, and_true]
            by_contra hp
            have : p = 0 := le_antisymm h2 (not_lt.1 hp)
            simp [this, Num.lt] at h1
          | ninf => simp [Num.le] at h3
          | nan => simp [Num.le] at h3
        | pinf => simp [Num.le] at h2
        | nan => simp [Num.le] at h2
        | ninf =>
          cases b with
          | fin q =>
            simp only [Num.mul, Num.infOf, Num.le, decide_eq_true_eq] at h1 h3
            simp only [Num.lt, decide_eq_true_eq, true_and]
            by_contra hp
            have : q = 0 := le_antisymm (not_lt.1 hp) h3
            simp [this, Num.lt] at h1
          | pinf => simp [Num.lt]
          | ninf => simp [Num.le] at h3
          | nan => simp [Num.le] at h3
      · split at h <;> simp at h

theorem search_spec (c : Crv) (dY : Ext → Bool → Except Err (Option Num)) (minStep : Option Ext)
    (step : Option ℚ) (n : ℕ) (x : Ext) (prev : Option Ext) :
    let r := search c minDecide dY minStep step n (some x) prev
    r.2.length ≤ n ∧ r.2.IsChain (Neighbour c minStep step) ∧ (0 < n → r.2.head? = some x) ∧
    ∀ z, r.1 = .ok (some z) → r.2.length = n ∨
      (r.2.getLast? = some z ∧ (LocalMin dY z ∨ Isolated dY z)) ∨
      (∃ w, r.2.getLast? = some w ∧ c.y w = .ok none ∧
        (prev.toList ++ r.2).dropLast.getLast? = some z) := by
  induction n generalizing x prev with
  | zero => simp [search]
  | succ n ih =>
    simp only [search]
    rcases hy : c.y x with e | (_ | v)
    · simp
    · simp only [List.length_singleton, List.getLast?_singleton]
      refine ⟨by omega, by simp, by simp, ?_⟩
      rintro z hz
      simp only [Except.ok.injEq] at hz
      refine Or.inr (Or.inr ⟨x, rfl, hy, ?_⟩)
      rw [hz]; rfl
    · rcases h0 : dY x false with e | d0
      · simp
      · rcases h1 : dY x true with e | d1
        · simp
        · cases hd : minDecide d0 d1 with
          | stay =>
            simp only [hd, List.length_singleton, List.getLast?_singleton]
            refine ⟨by omega, by simp, by simp, ?_⟩
            rintro z hz
            simp only [Except.ok.injEq, Option.some.injEq] at hz
            subst hz
            refine Or.inr (Or.inl ⟨rfl, ?_⟩)
            rcases minDecide_stay hd with ⟨rfl, rfl⟩ | ⟨a, b, rfl, rfl, ha, hb⟩
            · exact Or.inr ⟨h0, h1⟩
            · exact Or.inl ⟨a, b, h0, h1, ha, hb⟩
          | giveUp => simp [hd]
          | move f =>
            rcases hm : moveOn c minStep step f x with e | (_ | x1)
            · simp [hd, hm]
            · cases n with
              | zero => simp [hd, hm, search]
              | succ n => simp [hd, hm, search]
            · simp only [hd, hm]
              have := ih x1 (some x)
              simp only at this
              revert this
              generalize search c minDecide dY minStep step n (some x1) (some x) = r
              rintro ⟨i1, i2, i3, i4⟩
              refine ⟨by simpa using i1, ?_, by simp, ?_⟩
              · rw [List.isChain_cons]
                refine ⟨?_, i2⟩
                intro w hw
                cases n with
                | zero =>
                  have : r.2 = [] := List.length_eq_zero_iff.1 (by omega)
                  rw [this] at hw; simp at hw
                | succ n =>
                  rw [i3 (by omega)] at hw
                  cases hw
                  exact moveOn_neighbour hm
              · intro z hz
                rcases i4 z hz with h | ⟨h, h'⟩ | ⟨w, h, h', h''⟩
                · exact Or.inl (by simp [h])
                · refine Or.inr (Or.inl ⟨?_, h'⟩)
                  rw [List.getLast?_cons, h]; rfl
                · refine Or.inr (Or.inr ⟨w, ?_, h', ?_⟩)
                  · rw [List.getLast?_cons, h]; rfl
                  · have hne : r.2 ≠ [] := by rintro h0; rw [h0] at h; simp at h
                    simp only [Option.toList_some, List.singleton_append] at h''
                    cases prev with
                    | none => simpa using h''
                    | some p =>
                      simp only [Option.toList_some, List.singleton_append]
                      rw [List.dropLast_cons_of_ne_nil (by simp), List.getLast?_cons, h'']
                      rfl

/-- **C41** `minimise` looks at no more than `max_iterations` positions, beginning with the start, each
the next or previous one of the one before.  If it returns a position then either it used all its
iterations, or the position is the last it looked at and is a local minimum by its slopes (or has no
neighbours), or the curve is undefined at the last position and it is the position before. -/
theorem C41_minimise (c : Crv) (dY : Ext → Bool → Except Err (Option Num)) (x : Ext)
    (minStep : Option Ext) (step : Option ℚ) (n : ℕ) :
    let r := minimise c dY x minStep step n
    r.2.length ≤ n ∧ r.2.IsChain (Neighbour c minStep step) ∧ (0 < n → r.2.head? = some x) ∧
    ∀ z, r.1 = .ok (some z) → r.2.length = n ∨
      (r.2.getLast? = some z ∧ (LocalMin dY z ∨ Isolated dY z)) ∨
      (∃ w, r.2.getLast? = some w ∧ c.y w = .ok none ∧ r.2.dropLast.getLast? = some z) :=
  search_spec c dY minStep step n x none

/-- **C41** The same for `maximise`. -/
theorem C41_maximise (c : Crv) (dY : Ext → Bool → Except Err (Option Num)) (x : Ext)
    (minStep : Option Ext) (step : Option ℚ) (n : ℕ) :
    let r := maximise c dY x minStep step n
    r.2.length ≤ n ∧ r.2.IsChain (Neighbour c minStep step) ∧ (0 < n → r.2.head? = some x) ∧
    ∀ z, r.1 = .ok (some z) → r.2.length = n ∨
      (r.2.getLast? = some z ∧ (LocalMax dY z ∨ Isolated dY z)) ∨
      (∃ w, r.2.getLast? = some w ∧ c.y w = .ok none ∧ r.2.dropLast.getLast? = some z) := by
  rw [C41_maximise_eq]
  obtain ⟨h1, h2, h3, h4⟩ := C41_minimise c (fun x f => (dY x f).map fun d => d.map Num.neg) x minStep step n
  refine ⟨h1, h2, h3, fun z hz => ?_⟩
  have hneg : ∀ (z : Ext) (f : Bool) (r : Option Num),
      (dY z f).map (fun d => d.map Num.neg) = .ok r → ∃ s, dY z f = .ok s ∧ s.map Num.neg = r := by
    intro z f r h
    cases hd : dY z f with
    | error e => rw [hd] at h; cases h
    | ok s => rw [hd] at h; cases h; exact ⟨s, rfl, rfl⟩
  rcases h4 z hz with h | ⟨h, h' | h'⟩ | h
  · exact Or.inl h
  · obtain ⟨a, b, ha, hb, h5, h6⟩ := h'
    obtain ⟨s, hs, hs'⟩ := hneg _ _ _ ha
    obtain ⟨t, ht, ht'⟩ := hneg _ _ _ hb
    obtain ⟨s, rfl, rfl⟩ := Option.map_eq_some_iff.1 hs'
    obtain ⟨t, rfl, rfl⟩ := Option.map_eq_some_iff.1 ht'
    refine Or.inr (Or.inl ⟨h, Or.inl ⟨s, t, hs, ht, ?_, ?_⟩⟩)
    · cases s <;> simp_all [Num.lt, Num.neg]
    · cases t <;> simp_all [Num.lt, Num.neg]
  · obtain ⟨s, hs, hs'⟩ := hneg _ _ _ h'.1
    obtain ⟨t, ht, ht'⟩ := hneg _ _ _ h'.2
    rw [Option.map_eq_none_iff.1 hs'] at hs
    rw [Option.map_eq_none_iff.1 ht'] at ht
    exact Or.inr (Or.inl ⟨h, Or.inr ⟨hs, ht⟩⟩)
  · exact Or.inr (Or.inr h)

/-- A valley with its bottom at 4: `|x - 4|` on `[0, 10]`, minimum step 1. -/
def valley : Crv := generic (fun x => .ok (some (Num.abs (Num.sub (.ofExt x) (.fin 4)))))
  (Iv.closed 0 10) (some (.fin 1))

example : minimise valley (fun x f => valley.dY x f) (.fin 7) (some (.fin 1)) none 1000 =
      (.ok (some (.fin 4)), [.fin 7, .fin 6, .fin 5, .fin 4]) ∧
    minimise valley (fun x f => valley.dY x f) (.fin 7) (some (.fin 1)) none 2 =
      (.ok (some (.fin 5)), [.fin 7, .fin 6]) ∧
    maximise valley (fun x f => valley.dY x f) (.fin 7) (some (.fin 1)) none 1000 =
      (.ok none, [.fin 7, .fin 8, .fin 9, .fin 10]) := by
  refine ⟨?_, ?_, ?_⟩ <;> decide +kernel

/-- **C41** Neither reports an optimum at the edge of the domain: the greatest value of the valley is at
10, its least value on `[5, 10]` at 5, and the search that arrives there returns `None`. -/
theorem C41_edge :
    (maximise valley (fun x f => valley.dY x f) (.fin 7) (some (.fin 1)) none 1000).1 = .ok none ∧
    (let c := valley.subset (Iv.closed 5 10);
      (minimise c (fun x f => c.dY x f) (.fin 7) (some (.fin 1)) none 1000).1 = .ok none) := by
  refine ⟨?_, ?_⟩ <;> decide +kernel

/-! ## C69 -/

theorem mul_same {a b : Num} (h : (Num.lt a (.fin 0) = true ∧ Num.lt b (.fin 0) = true) ∨
    (Num.lt (.fin 0) a = true ∧ Num.lt (.fin 0) b = true)) : Num.lt (Num.mul a b) (.fin 0) = false := by
  cases a <;> cases b <;> simp only [Num.lt, Num.mul, Num.infOf, decide_eq_true_eq, Bool.false_eq_true,
    and_false, false_and, or_false, false_or, and_true, true_and, reduceCtorEq] at h ⊢
  · rcases h with h | h
    · simpa using (mul_pos_of_neg_of_neg h.1 h.2).le
    · simpa using (mul_pos h.1 h.2).le
  · simp [h, h.ne']
  · rw [← neg_pos] at h
    simp [h, h.ne', neg_eq_zero.not.1 h.ne']
  · simp [h, h.ne']
  · rw [← neg_pos] at h
    simp [h, h.ne', neg_eq_zero.not.1 h.ne']

theorem mul_opposite {a b : Num} (h0 : Num.lt a (.fin 0) = true) (h1 : Num.lt (.fin 0) b = true) :
    Num.lt (Num.mul a b) (.fin 0) = true := by
  cases a <;> cases b <;> simp only [Num.lt, Num.mul, Num.infOf, decide_eq_true_eq, Bool.false_eq_true]
    at h0 h1 ⊢
  · exact mul_neg_of_neg_of_pos h0 h1
  · simp [h0.ne, not_lt.2 h0.le]
  · simp [h1.ne', not_lt.2 h1.le]

theorem search_down (c : Crv) (dY : Ext → Bool → Except Err (Option Num)) (minStep : Option Ext)
    (p : ℤ → Ext) (lo k0 hi : ℤ)
    (hy : ∀ k, lo ≤ k → k ≤ hi → ∃ v, c.y (p k) = .ok (some v))
    (hnext : ∀ k, lo ≤ k → k < k0 → c.xNext (p k) minStep none = .ok (some (p (k + 1))))
    (hprev : ∀ k, k0 < k → k ≤ hi → c.xPrevious (p k) minStep none = .ok (some (p (k - 1))))
    (hmin : LocalMin dY (p k0))
    (hleft : ∀ k, lo ≤ k → k < k0 → ∃ d0 d1, dY (p k) false = .ok d0 ∧ dY (p k) true = .ok (some d1) ∧
      Num.lt d1 (.fin 0) = true ∧ ∀ d, d0 = some d → Num.lt d (.fin 0) = true)
    (hright : ∀ k, k0 < k → k ≤ hi → ∃ d0 d1, dY (p k) false = .ok (some d0) ∧ dY (p k) true = .ok d1 ∧
      Num.lt (.fin 0) d0 = true ∧ ∀ d, d1 = some d → Num.lt (.fin 0) d = true)
    (n : ℕ) (k : ℤ) (h1 : lo ≤ k) (h2 : k ≤ hi) (hlo : lo ≤ k0) (hhi : k0 ≤ hi)
    (hn : (k - k0).natAbs < n) (prev : Option Ext) :
    (search c minDecide dY minStep none n (some (p k)) prev).1 = .ok (some (p k0)) := by
  induction n generalizing k prev with
  | zero => omega
  | succ n ih =>
    obtain ⟨v, hv⟩ := hy k h1 h2
    simp only [search, hv]
    rcases lt_trichotomy k k0 with hk | rfl | hk
    · obtain ⟨d0, d1, e0, e1, s1, s0⟩ := hleft k h1 hk
      simp only [e0, e1]
      have hd : minDecide d0 (some d1) = .move true := by
        cases d0 with
        | none => simp [minDecide, num_le_of_lt s1]
        | some d => simp [minDecide, mul_same (Or.inl ⟨s0 d rfl, s1⟩), s1]
      simp only [hd, moveOn, hnext k h1 hk]
      exact ih (k + 1) (by omega) (by omega) (by omega) _
    · obtain ⟨a, b, e0, e1, s0, s1⟩ := hmin
      have hd : minDecide (some a) (some b) = .stay := by
        simp [minDecide, mul_opposite s0 s1, num_le_of_lt s0, num_le_of_lt s1]
      simp only [e0, e1, hd]
    · obtain ⟨d0, d1, e0, e1, s0, s1⟩ := hright k hk h2
      simp only [e0, e1]
      have hd : minDecide (some d0) d1 = .move false := by
        cases d1 with
        | none => simp [minDecide, num_le_of_lt s0]
        | some d =>
          have hl : Num.lt d (.fin 0) = false := by
            have := s1 d rfl
            cases d with
            | fin q => simp only [Num.lt, decide_eq_true_eq] at this; simpa [Num.lt] using this.le
            | ninf => simp [Num.lt] at this
            | _ => rfl
          simp [minDecide, mul_same (Or.inr ⟨s0, s1 d rfl⟩), hl]
      simp only [hd, moveOn, hprev k hk h2]
      exact ih (k - 1) (by omega) (by omega) (by omega) _

/-- A finite ladder of positions `p lo < ... < p hi` along which the curve moves, with its values. -/
structure Ladder (c : Crv) (m : Option Ext) (p v : ℤ → ℚ) (lo hi : ℤ) : Prop where
  asc : ∀ k, lo ≤ k → k < hi → p k < p (k + 1)
  val : ∀ k, lo ≤ k → k ≤ hi → c.y (.fin (p k)) = .ok (some (.fin (v k)))
  next : ∀ k, lo ≤ k → k < hi → c.xNext (.fin (p k)) m none = .ok (some (.fin (p (k + 1))))
  prev : ∀ k, lo < k → k ≤ hi → c.xPrevious (.fin (p k)) m none = .ok (some (.fin (p (k - 1))))
  nextEnd : c.xNext (.fin (p hi)) m none = .ok none
  prevEnd : c.xPrevious (.fin (p lo)) m none = .ok none

theorem Ladder.forward {c : Crv} {m : Option Ext} {p v : ℤ → ℚ} {lo hi : ℤ}
    (L : Ladder c (resolve c.minStep m) p v lo hi) {k : ℤ} (h1 : lo ≤ k) (h2 : k < hi) :
    c.dY (.fin (p k)) true m none = .ok (some (.fin ((v (k + 1) - v k) / (p (k + 1) - p k)))) :=
  C43_quotient c _ _ _ _ true m none (L.next k h1 h2) (L.val k h1 h2.le)
    (L.val (k + 1) (by omega) (by omega)) (L.asc k h1 h2).ne'

theorem Ladder.backward {c : Crv} {m : Option Ext} {p v : ℤ → ℚ} {lo hi : ℤ}
    (L : Ladder c (resolve c.minStep m) p v lo hi) {k : ℤ} (h1 : lo < k) (h2 : k ≤ hi) :
    c.dY (.fin (p k)) false m none = .ok (some (.fin ((v k - v (k - 1)) / (p k - p (k - 1))))) := by
  have h := C43_quotient c (p k) (p (k - 1)) (v k) (v (k - 1)) false m none (L.prev k h1 h2)
    (L.val k h1.le h2) (L.val (k - 1) (by omega) (by omega))
    (by have := L.asc (k - 1) (by omega) (by omega); rw [sub_add_cancel] at this; exact this.ne)
  rw [h, ← neg_sub (v k), ← neg_sub (p k), neg_div_neg_eq]

theorem Ladder.forwardEnd {c : Crv} {m : Option Ext} {p v : ℤ → ℚ} {lo hi : ℤ}
    (L : Ladder c (resolve c.minStep m) p v lo hi) : c.dY (.fin (p hi)) true m none = .ok none :=
  C43_none c _ true m none none L.nextEnd (Or.inl rfl)

theorem Ladder.backwardEnd {c : Crv} {m : Option Ext} {p v : ℤ → ℚ} {lo hi : ℤ}
    (L : Ladder c (resolve c.minStep m) p v lo hi) : c.dY (.fin (p lo)) false m none = .ok none :=
  C43_none c _ false m none none L.prevEnd (Or.inl rfl)

/-- **C69** On a curve whose values fall strictly up to a position inside the domain and rise strictly
after it, `minimise` finds that position from every start, given enough iterations (as many as there
are positions to walk), and it is the least value. -/
theorem C69_minimise (c : Crv) (ms : Option Ext) (p v : ℤ → ℚ) (lo k0 hi : ℤ) (hlo : lo < k0)
    (hhi : k0 < hi) (hd : Ladder c (resolve c.minStep (some MIN_STEP)) p v lo hi)
    (hm : Ladder c ms p v lo hi)
    (hdown : ∀ k, lo ≤ k → k < k0 → v (k + 1) < v k) (hup : ∀ k, k0 ≤ k → k < hi → v k < v (k + 1))
    (k : ℤ) (h1 : lo ≤ k) (h2 : k ≤ hi) (n : ℕ) (hn : (k - k0).natAbs < n) :
    (minimise c (fun x f => c.dY x f) (.fin (p k)) ms none n).1 = .ok (some (.fin (p k0))) ∧
    ∀ j, lo ≤ j → j ≤ hi → v k0 ≤ v j := by
  have neg : ∀ j, lo ≤ j → j < k0 → Num.lt (.fin ((v (j + 1) - v j) / (p (j + 1) - p j))) (.fin 0) := by
    intro j g1 g2
    simp only [Num.lt, decide_eq_true_eq]
    exact div_neg_of_neg_of_pos (by linarith [hdown j g1 g2]) (by linarith [hd.asc j g1 (by omega)])
  have pos : ∀ j, k0 ≤ j → j < hi → Num.lt (.fin 0) (.fin ((v (j + 1) - v j) / (p (j + 1) - p j))) := by
    intro j g1 g2
    simp only [Num.lt, decide_eq_true_eq]
    exact div_pos (by linarith [hup j g1 g2]) (by linarith [hd.asc j (by omega) g2])
  have neg' : ∀ j, lo < j → j ≤ k0 → Num.lt (.fin ((v j - v (j - 1)) / (p j - p (j - 1)))) (.fin 0) := by
    intro j g1 g2
    have := neg (j - 1) (by omega) (by omega)
    rwa [sub_add_cancel] at this
  have pos' : ∀ j, k0 < j → j ≤ hi → Num.lt (.fin 0) (.fin ((v j - v (j - 1)) / (p j - p (j - 1)))) := by
    intro j g1 g2
    have := pos (j - 1) (by omega) (by omega)
    rwa [sub_add_cancel] at this
  constructor
  · refine search_down c _ ms (fun k => .fin (p k)) lo k0 hi ?_ ?_ ?_ ?_ ?_ ?_ n k h1 h2 hlo.le hhi.le hn
      none
    · exact fun j g1 g2 => ⟨_, hm.val j g1 g2⟩
    · exact fun j g1 g2 => hm.next j g1 (by omega)
    · exact fun j g1 g2 => hm.prev j (by omega) g2
    · exact ⟨_, _, hd.backward hlo hhi.le, hd.forward hlo.le hhi, neg' k0 hlo (le_refl _),
        pos k0 (le_refl _) hhi⟩
    · intro j g1 g2
      rcases g1.lt_or_eq with g1' | rfl
      · exact ⟨_, _, hd.backward g1' (by omega), hd.forward g1 (by omega), neg j g1 g2,
          fun d hd => by cases hd; exact neg' j g1' g2.le⟩
      · exact ⟨_, _, hd.backwardEnd, hd.forward (le_refl _) (by omega), neg lo (le_refl _) hlo,
          fun d hd => by cases hd⟩
    · intro j g1 g2
      rcases g2.lt_or_eq with g2' | rfl
      · exact ⟨_, _, hd.backward (by omega) g2, hd.forward (by omega) g2', pos' j g1 g2,
          fun d hd => by cases hd; exact pos j g1.le g2'⟩
      · exact ⟨_, _, hd.backward (by omega) (le_refl _), hd.forwardEnd, pos' j g1 (le_refl _),
          fun d hd => by cases hd⟩
  · have right : ∀ i : ℕ, k0 + i ≤ hi → v k0 ≤ v (k0 + i) := by
      intro i
      induction i with
      | zero => intro _; simp
      | succ i ih =>
        intro hi'
        push_cast at hi' ⊢
        have := hup (k0 + i) (by omega) (by omega)
        rw [add_assoc] at this
        linarith [ih (by omega)]
    have left : ∀ i : ℕ, lo ≤ k0 - i → v k0 ≤ v (k0 - i) := by
      intro i
      induction i with
      | zero => intro _; simp
      | succ i ih =>
        intro hi'
        push_cast at hi' ⊢
        have := hdown (k0 - (i + 1)) (by omega) (by omega)
        rw [show k0 - ((i : ℤ) + 1) + 1 = k0 - i by ring] at this
        linarith [ih (by omega)]
    intro j g1 g2
    rcases le_total k0 j with h | h
    · have := right (j - k0).toNat (by omega)
      rwa [show k0 + ((j - k0).toNat : ℤ) = j by omega] at this
    · have := left (k0 - j).toNat (by omega)
      rwa [show k0 - ((k0 - j).toNat : ℤ) = j by omega] at this

theorem valley_ladder (m : Option Ext) (hm : resolve valley.minStep m = some (.fin 1)) :
    Ladder valley m (fun k => k) (fun k => |(k : ℚ) - 4|) 0 10 := by
  have hc : ∀ k : ℤ, 0 ≤ k → k ≤ 10 → (0 : ℚ) ≤ k ∧ (k : ℚ) ≤ 10 := by
    intro k h1 h2; exact ⟨by exact_mod_cast h1, by exact_mod_cast h2⟩
  have hm' : resolve (some (.fin 1)) m = some (.fin 1) := hm
  refine ⟨?_, ?_, ?_, ?_, ?_, ?_⟩
  · intro k _ _; simp
  · intro k h1 h2
    obtain ⟨g1, g2⟩ := hc k h1 h2
    have : (Iv.closed 0 10).contains (.fin k) = true := by
      rw [Iv.contains_iff, Iv.geLo_iff, Iv.leHi_iff]
      simp only [Iv.closed, Ext.fin_lt_fin, Ext.fin.injEq, and_true]
      exact ⟨g1.lt_or_eq.imp_right fun h => h, g2.lt_or_eq⟩
    simp [valley, generic, this, Num.ofExt, Num.sub, Num.add, Num.neg, Num.abs, sub_eq_add_neg]
  · intro k h1 h2
    refine ((C44_next _ _ m none (.fin k) _ hm').2 _).2 ⟨?_, by decide +kernel, ?_⟩
    · simp [Ext.isInf, step, Ext.addQ]
    · simp only [Iv.closed, Ext.fin_lt_fin, Ext.fin.injEq, and_true]
      exact (hc (k + 1) (by omega) (by omega)).2.lt_or_eq
  · intro k h1 h2
    refine ((C44_previous _ _ m none (.fin k) _ hm').2 _).2 ⟨?_, by decide +kernel, ?_⟩
    · simp [Ext.isInf, stepBack, Ext.addQ, sub_eq_add_neg]
    · simp only [Iv.closed, Ext.fin_lt_fin, Ext.fin.injEq, and_true]
      exact (hc (k - 1) (by omega) (by omega)).1.lt_or_eq.imp_right Eq.symm
  · simp only [valley, generic, baseNext, hm']; decide +kernel
  · simp only [valley, generic, basePrevious, hm']; decide +kernel

example : (minimise valley (fun x f => valley.dY x f) (.fin 9) (some (.fin 1)) none 6).1 =
    .ok (some (.fin 4)) :=
  (C69_minimise valley (some (.fin 1)) (fun k => k) (fun k => |(k : ℚ) - 4|) 0 4 10 (by norm_num)
    (by norm_num) (valley_ladder _ (by decide +kernel)) (valley_ladder _ (by decide +kernel))
    (by
      intro k _ h
      have h' : (k : ℚ) + 1 ≤ 4 := by exact_mod_cast h
      push_cast
      rw [abs_of_nonpos (by linarith), abs_of_nonpos (by linarith)]; linarith)
    (by
      intro k h _
      have h' : (4 : ℚ) ≤ k := by exact_mod_cast h
      push_cast
      rw [abs_of_nonneg (by linarith), abs_of_nonneg (by linarith)]; linarith)
    9 (by norm_num) (by norm_num) 6 (by decide)).1

/-- **C69** The negation for values that are level: on a constant function the search walks to the
start of the domain and back and forth there until the iterations are used up; what it returns
depends on whether their number is even. -/
theorem C69_negation :
    (let c := generic (fun _ => .ok (some (.fin 7))) (Iv.closed 0 10) (some (.fin 1));
      (minimise c (fun x f => c.dY x f) (.fin 2) (some (.fin 1)) none 6).2 =
        [.fin 2, .fin 1, .fin 0, .fin 1, .fin 0, .fin 1] ∧
      (minimise c (fun x f => c.dY x f) (.fin 2) (some (.fin 1)) none 6).1 = .ok (some (.fin 0)) ∧
      (minimise c (fun x f => c.dY x f) (.fin 2) (some (.fin 1)) none 7).1 = .ok (some (.fin 1))) := by
  refine ⟨?_, ?_, ?_⟩ <;> decide +kernel

end Curvepy.Props
