import Verif.Spec.TrendTermination
import Verif.Lemmas.TrendTermination
import Mathlib.Data.Finset.Card
import Mathlib.Data.Finset.Prod

/-!
# C74: the scan of a point ends, without a tolerance

Every round of the loop but the last finds a line that became valid and is no copy of another one.  Without a tolerance such
a line covers its two ends for the rest of the scan, so each pair of known points is found at most once on each side.
-/

namespace Curvepy
namespace Props
open Spec Trend

/-! ## Lines over known points -/

/-- A precise line with a boundary of known points. -/
def Fine (U : Finset XY) (t : TLine) : Prop := Precise t ∧ ∀ q ∈ t.boundary, q ∈ U

theorem append_boundary {t u : TLine} {p : XY} {us : List XY} {b : Bool} (e : t.didAppend p us = .ok (u, b)) :
    ∀ q ∈ u.boundary, q = p ∨ q ∈ t.boundary := by
  rcases append_cases e with rfl | ⟨bs, ts, hbs, -, e1⟩ | ⟨-, -, v, c, e1, e2⟩
  · exact fun q hq => .inr hq
  · have hmem := (insort_mem hbs).2
    obtain ⟨v, l', up, lo, i, a', e', s, d, f1, -, -, -, rfl⟩ := TLine.updateTrend_eq e1
    intro q hq
    simp only at hq
    unfold TLine.renew at f1
    split_ifs at f1
    · obtain ⟨bs2, ts', rfl, hs, -, -⟩ := TLine.setTrend_eq f1
      exact hmem q (hs.subset hq)
    · simp only [Except.ok.injEq] at f1
      subst f1
      exact hmem q hq
  · obtain ⟨i, a', e', s, r1⟩ := TLine.updatePoi_eq e1
    obtain ⟨d', r2⟩ := TLine.updatePrediction_eq e2
    rw [r2, r1]
    exact fun q hq => .inr hq

theorem Fine.append {U : Finset XY} {t u : TLine} {p : XY} {us : List XY} {b : Bool} (h : Fine U t) (hp : p ∈ U)
    (e : t.didAppend p us = .ok (u, b)) : Fine U u := by
  refine ⟨h.1.append e, fun q hq => ?_⟩
  rcases append_boundary e q hq with rfl | hq
  · exact hp
  · exact h.2 q hq

/-! ## Copies -/

theorem hasCoincident_false {line : TLine} {self : Option ℕ} : ∀ {ls : List TLine} {j0 : ℕ},
    Trd.hasCoincident line self j0 ls = .ok false → ∀ j o, ls[j]? = some o → self ≠ some (j0 + j) → o.isReady = true →
      line.search.intersects o.search = true → o.lineCoincident line ≠ .ok true
  | [], _, _ => by simp
  | o' :: rest, j0, h => by
    intro j o hj hs hr hi hc
    rw [Trd.hasCoincident] at h
    cases j with
    | zero =>
      simp only [List.getElem?_cons_zero, Option.some.injEq] at hj
      subst hj
      rw [if_neg (by simpa [hr, hi] using hs), hc] at h
      simp [bind, Except.bind, pure, Except.pure] at h
    | succ j =>
      simp only [List.getElem?_cons_succ] at hj
      have key : Trd.hasCoincident line self (j0 + 1) rest = .ok false := by
        split_ifs at h with h1
        · exact h
        · obtain ⟨c, -, h⟩ := bind_inv h
          split_ifs at h with h2
          · simp [pure, Except.pure] at h
          · exact h
      exact hasCoincident_false key j o hj (by rwa [Nat.add_assoc, Nat.add_comm 1 j]) hr hi hc

theorem hasNested_false {line : TLine} {level i : ℕ} : ∀ {nested : List (List TLine)} {k0 : ℕ},
    Trd.hasCoincidentNested line level i k0 nested = .ok false → ∀ k ls, nested[k]? = some ls →
      Trd.hasCoincident line (if k0 + k = level then some i else none) 0 ls = .ok false
  | [], _, _ => by simp
  | ls' :: rest, k0, h => by
    intro k ls hk
    rw [Trd.hasCoincidentNested] at h
    obtain ⟨c, h1, h⟩ := bind_inv h
    split_ifs at h with h2
    · simp [pure, Except.pure] at h
    · cases k with
      | zero =>
        simp only [List.getElem?_cons_zero, Option.some.injEq] at hk
        subst hk
        rw [Nat.add_zero, h1]
        simpa using h2
      | succ k =>
        simp only [List.getElem?_cons_succ] at hk
        have := hasNested_false h k ls hk
        rwa [Nat.add_assoc, Nat.add_comm 1 k] at this

/-- A line over the ends of which another one goes is a copy. -/
theorem covered_copy {o line : TLine} {l : Chord} (ho : Precise o) (hl : line.line = some l) (hp : Precise line)
    (hc : Covers line l.1 l.2) (h : Covers o l.1 l.2) :
    o.isReady = true ∧ line.search.intersects o.search = true ∧ o.lineCoincident line = .ok true := by
  obtain ⟨h1, h2, h3⟩ := covers_on ho h
  refine ⟨valid_ready h.valid, ?_, ?_⟩
  · rw [Iv.intersects_iff]
    exact ⟨.fin l.1.1, (covers_on hp hc).1, h1⟩
  · unfold TLine.lineCoincident
    rw [hl]
    simp only [need, bind, Except.bind, h2, h3]
    rfl

/-! ## Removal -/

theorem erase_keeps {α : Type} {ls : List α} : ∀ {is : List ℕ} {b : ℕ}, is.Pairwise (· < ·) → (∀ i ∈ is, b ≤ i) →
    ∀ {j : ℕ} {t : α}, j ∉ is → ls[j]? = some t → ∃ j', (is.foldr (fun i ls => ls.eraseIdx i) ls)[j']? = some t ∧
      (j < b → j' = j) ∧ (b ≤ j → b ≤ j')
  | [], b, _, _, j, t, _, h => ⟨j, h, fun _ => rfl, fun h => h⟩
  | i :: is, b, hp, hb, j, t, hj, h => by
    obtain ⟨h1, h2⟩ := List.pairwise_cons.1 hp
    simp only [List.mem_cons, not_or] at hj
    obtain ⟨j', e1, e2, e3⟩ := erase_keeps h2 (b := i + 1) (fun k hk => h1 k hk) hj.2 h
    have hbi := hb i (by simp)
    rw [List.foldr_cons]
    rcases Nat.lt_or_ge j i with hji | hji
    · rw [e2 (by omega)] at e1
      refine ⟨j, ?_, fun _ => rfl, fun h => h⟩
      rw [List.getElem?_eraseIdx_of_lt hji]; exact e1
    · have h4 := e3 (by omega)
      refine ⟨j' - 1, ?_, fun h => by omega, fun _ => by omega⟩
      rw [List.getElem?_eraseIdx_of_ge (by omega), Nat.sub_add_cancel (by omega)]
      exact e1

/-! ## One line of a level -/

/-- Every pair is covered by a line of another level, or by one of this level that is not going to be removed. -/
def Safe (nested : List (List TLine)) (level : ℕ) (v : Trd.Vals) (P : Finset (XY × XY)) : Prop :=
  ∀ ab ∈ P, (∃ k ls t, k ≠ level ∧ nested[k]? = some ls ∧ t ∈ ls ∧ Covers t ab.1 ab.2) ∨
    ∃ j t, j ∉ v.remove ∧ v.lines[j]? = some t ∧ Covers t ab.1 ab.2

/-- What holds after the lines before the `i`-th were looked at. -/
structure Looks (U : Finset XY) (nested : List (List TLine)) (level : ℕ) (n i : ℕ) (v : Trd.Vals) : Prop where
  fine : ∀ t ∈ v.lines, Fine U t
  below : ∀ j ∈ v.remove, j < i
  asc : v.remove.Pairwise (· < ·)
  new : ∀ q ∈ v.newPts, q ∈ U
  safe : ∃ P, Safe nested level v P ∧ P ⊆ U ×ˢ U ∧ (n + if v.newPts = [] then 0 else 1) ≤ P.card

theorem looks_step {U : Finset XY} {nested : List (List TLine)} {level n i : ℕ} {p : XY} {us : List XY} {v w : Trd.Vals}
    (hn : ∀ ls ∈ nested, ∀ t ∈ ls, Fine U t) (hlev : level < nested.length) (hp : p ∈ U)
    (h : Looks U nested level n i v) (e : Trd.validateAt us nested level p v i = .ok w) :
    Looks U nested level n (i + 1) w := by
  obtain ⟨P, hsafe, hsub, hcard⟩ := h.safe
  unfold Trd.validateAt at e
  split at e
  · simp only [Except.ok.injEq] at e
    subst e
    exact ⟨h.fine, fun j hj => by have := h.below j hj; omega, h.asc, h.new, P, hsafe, hsub, hcard⟩
  · rename_i line hline
    obtain ⟨⟨u, b⟩, e1, e⟩ := bind_inv e
    have hi : i < v.lines.length := by
      by_contra hc
      rw [List.getElem?_eq_none (by omega)] at hline; cases hline
    have hfl := h.fine line (List.mem_of_getElem? hline)
    have hfu := hfl.append hp e1
    have hfine : ∀ t ∈ v.lines.set i u, Fine U t := by
      intro t ht
      rcases List.mem_or_eq_of_mem_set ht with h1 | h1
      · exact h.fine t h1
      · rw [h1]; exact hfu
    have hbelow : ∀ j ∈ v.remove, j < i + 1 := fun j hj => by have := h.below j hj; omega
    have hself : (v.lines.set i u)[i]? = some u := by
      rw [List.getElem?_set_self hi]
    -- what was covered is covered by another line, or by this one, which was valid and still is
    have hkeep : ∀ ab ∈ P, ((∃ k ls t, k ≠ level ∧ nested[k]? = some ls ∧ t ∈ ls ∧ Covers t ab.1 ab.2) ∨
        ∃ j t, j ≠ i ∧ j ∉ v.remove ∧ (v.lines.set i u)[j]? = some t ∧ Covers t ab.1 ab.2) ∨
        (Covers line ab.1 ab.2 ∧ Covers u ab.1 ab.2) := by
      intro ab hab
      rcases hsafe ab hab with h1 | ⟨j, t, h1, h2, h3⟩
      · exact .inl (.inl h1)
      · by_cases hj : j = i
        · subst hj
          rw [hline] at h2
          have := Option.some.inj h2
          subst this
          exact .inr ⟨h3, covers_append hfl.1 h3 e1⟩
        · exact .inl (.inr ⟨j, t, hj, h1, by rw [List.getElem?_set_ne (Ne.symm hj)]; exact h2, h3⟩)
    -- nothing is removed
    have hstay : ∀ nw, Safe nested level { v with lines := v.lines.set i u, newPts := nw } P := by
      intro nw ab hab
      rcases hkeep ab hab with (h1 | ⟨j, t, -, h1, h2, h3⟩) | ⟨-, h1⟩
      · exact .inl h1
      · exact .inr ⟨j, t, h1, h2, h3⟩
      · exact .inr ⟨i, u, fun hm => absurd (h.below i hm) (lt_irrefl _), hself, h1⟩
    have same : Looks U nested level n (i + 1) { v with lines := v.lines.set i u } :=
      ⟨hfine, hbelow, h.asc, h.new, P, hstay v.newPts, hsub, hcard⟩
    -- this line is removed
    have gone : (line.isValid = false ∨ u.isValid = false) →
        Looks U nested level n (i + 1) { v with lines := v.lines.set i u, remove := v.remove ++ [i] } := by
      intro hv
      refine ⟨hfine, ?_, ?_, h.new, P, ?_, hsub, hcard⟩
      · intro j hj
        rcases List.mem_append.1 hj with hj | hj
        · exact hbelow j hj
        · rw [List.mem_singleton.1 hj]; omega
      · refine List.pairwise_append.2 ⟨h.asc, List.pairwise_singleton _ _, ?_⟩
        intro j hj k hk
        rw [List.mem_singleton.1 hk]
        exact h.below j hj
      · intro ab hab
        rcases hkeep ab hab with (h1 | ⟨j, t, h0, h1, h2, h3⟩) | ⟨h1, h2⟩
        · exact .inl h1
        · refine .inr ⟨j, t, ?_, h2, h3⟩
          intro hm
          rcases List.mem_append.1 hm with hm | hm
          · exact h1 hm
          · exact h0 (List.mem_singleton.1 hm)
        · rcases hv with hv | hv
          · rw [h1.valid] at hv; cases hv
          · rw [h2.valid] at hv; cases hv
    simp only at e
    split_ifs at e with c1 c2 c3 c4
    · obtain ⟨c, e2, e⟩ := bind_inv e
      have hvf : line.isValid = false := by simpa using c3
      split_ifs at e with c5
      · rw [← pure_inv e]
        exact gone (.inl hvf)
      · -- the line is new
        rw [Bool.not_eq_true] at c5
        subst c5
        obtain ⟨l, hl, hcov, hh, hg, m1, m2⟩ := covers_new hfl.1 hvf e1 c2
        have u1 : l.1 ∈ U := by
          rcases m1 with m1 | m1
          · rw [m1]; exact hp
          · exact hfl.2 _ m1
        have u2 : l.2 ∈ U := by
          rcases m2 with m2 | m2
          · rw [m2]; exact hp
          · exact hfl.2 _ m2
        have hnot : (l.1, l.2) ∉ P := by
          intro hm
          rcases hkeep _ hm with (⟨k, ls, t, h0, h1, h2, h3⟩ | ⟨j, t, h0, -, h2, h3⟩) | ⟨h1, -⟩
          · obtain ⟨g1, g2, g3⟩ := covered_copy (hn ls (List.mem_of_getElem? h1) t h2).1 hl hfu.1 hcov h3
            have k1 : (nested.set level (v.lines.set i u))[k]? = some ls := by
              rw [List.getElem?_set_ne (Ne.symm h0)]; exact h1
            obtain ⟨j, hj⟩ := List.mem_iff_getElem?.1 h2
            exact hasCoincident_false (hasNested_false e2 k ls k1) j t hj (by rw [if_neg (by omega)]; simp) g1 g2 g3
          · obtain ⟨g1, g2, g3⟩ := covered_copy (hfine t (List.mem_of_getElem? h2)).1 hl hfu.1 hcov h3
            have k1 : (nested.set level (v.lines.set i u))[level]? = some (v.lines.set i u) := by
              rw [List.getElem?_set_self hlev]
            refine hasCoincident_false (hasNested_false e2 level _ k1) j t h2 ?_ g1 g2 g3
            rw [if_pos (by omega)]
            simp only [ne_eq, Option.some.injEq]
            omega
          · rw [h1.valid] at hvf; cases hvf
        rw [hh, hg] at e
        simp only at e
        obtain ⟨n1, e3, e⟩ := bind_inv e
        obtain ⟨n2, e4, e⟩ := bind_inv e
        have mem1 := (insort_mem e3).2
        have mem2 := (insort_mem e4).2
        rw [← pure_inv e]
        refine ⟨hfine, hbelow, h.asc, ?_, insert (l.1, l.2) P, ?_, ?_, ?_⟩
        · intro q hq
          rcases mem2 q hq with rfl | hq
          · exact u2
          · rcases mem1 q hq with rfl | hq
            · exact u1
            · exact h.new q hq
        · intro ab hab
          rcases Finset.mem_insert.1 hab with rfl | hab
          · exact .inr ⟨i, u, fun hm => absurd (h.below i hm) (lt_irrefl _), hself, hcov⟩
          · exact hstay n2 ab hab
        · intro ab hab
          rcases Finset.mem_insert.1 hab with rfl | hab
          · exact Finset.mem_product.2 ⟨u1, u2⟩
          · exact hsub hab
        · rw [Finset.card_insert_of_notMem hnot]
          split_ifs <;> omega
    · rw [← pure_inv e]; exact same
    · obtain ⟨c, -, e⟩ := bind_inv e
      split_ifs at e
      · rw [← pure_inv e]
        exact gone (.inr (by simpa using c2))
      · rw [← pure_inv e]; exact same
    · rw [← pure_inv e]; exact same
    · rw [← pure_inv e]; exact same

/-! ## One side of a trend -/

/-- All lines of one side are fine, and cover `N` pairs of known points. -/
structure Side (U : Finset XY) (N : ℕ) (L : List (List TLine)) : Prop where
  fine : ∀ ls ∈ L, ∀ t ∈ ls, Fine U t
  covers : ∃ P : Finset (XY × XY), (∀ ab ∈ P, ∃ ls ∈ L, ∃ t ∈ ls, Covers t ab.1 ab.2) ∧ P ⊆ U ×ˢ U ∧ N ≤ P.card

theorem Side.bound {U : Finset XY} {N : ℕ} {L : List (List TLine)} (h : Side U N L) : N ≤ U.card * U.card := by
  obtain ⟨P, -, h1, h2⟩ := h.covers
  exact h2.trans (by rw [← Finset.card_product]; exact Finset.card_le_card h1)

theorem Side.nested {U : Finset XY} {N : ℕ} {L : List (List TLine)} (h : Side U N L) : Side U N (L ++ [[]]) := by
  refine ⟨?_, ?_⟩
  · intro ls hls t ht
    rcases List.mem_append.1 hls with hls | hls
    · exact h.fine ls hls t ht
    · rw [List.mem_singleton.1 hls] at ht; cases ht
  · obtain ⟨P, h1, h2⟩ := h.covers
    refine ⟨P, fun ab hab => ?_, h2⟩
    obtain ⟨ls, hls, t, ht, hc⟩ := h1 ab hab
    exact ⟨ls, List.mem_append_left _ hls, t, ht, hc⟩

theorem untolerant_same {s t : Trd} (h : Untolerant s) (k : Unchanged s t) : Untolerant t :=
  ⟨k.rel.trans h.rel, k.tol.trans h.tol, by rw [k.width]; exact h.wide, by rw [k.search]; exact h.reach⟩

theorem create_fine {U : Finset XY} {s : Trd} (h : Untolerant s) (u : Bool) : Fine U (s.createLine u) := by
  refine ⟨⟨Grown.new _ _ _ _ _ _ _ _, ⟨h.rel, h.tol⟩, h.wide, rfl, h.reach⟩, ?_⟩
  intro q hq
  simp [Trd.createLine, TLine.new] at hq

theorem looks_fold {U : Finset XY} {nested : List (List TLine)} {level n : ℕ} {p : XY} {us : List XY}
    (hn : ∀ ls ∈ nested, ∀ t ∈ ls, Fine U t) (hlev : level < nested.length) (hp : p ∈ U) : ∀ (k i : ℕ) {v w : Trd.Vals},
    Looks U nested level n i v → (List.range' i k).foldlM (Trd.validateAt us nested level p) v = .ok w →
      Looks U nested level n (i + k) w
  | 0, i, v, w, h, e => by rw [← pure_inv e]; exact h
  | k + 1, i, v, w, h, e => by
    rw [List.range'_succ, List.foldlM_cons] at e
    obtain ⟨c, e1, e⟩ := bind_inv e
    have := looks_fold hn hlev hp k (i + 1) (looks_step hn hlev hp h e1) e
    rwa [Nat.add_assoc, Nat.add_comm 1 k] at this

theorem side_append {U : Finset XY} {s s' : Trd} {u : Bool} {level N : ℕ} {p : XY} {ps : List XY} (hx : Untolerant s)
    (hp : p ∈ U) (h : Side U N (if u then s.upper else s.lower)) (e : s.appendValidate u level p = .ok (s', ps)) :
    Side U (N + if ps = [] then 0 else 1) (if u then s'.upper else s'.lower) ∧
      (if u then s'.lower else s'.upper) = (if u then s.lower else s.upper) ∧ (∀ q ∈ ps, q ∈ U) ∧ Unchanged s s' := by
  unfold Trd.appendValidate at e
  simp only at e
  generalize hnest : (if u = true then s.upper else s.lower) = nested at e h
  split at e
  · cases e
  · rename_i lines hl
    obtain ⟨v, e1, e⟩ := bind_inv e
    obtain ⟨ls, e2, e⟩ := bind_inv e
    have e3 := pure_inv e
    have hlev : level < nested.length := by
      by_contra hc
      rw [List.getElem?_eq_none (by omega)] at hl; cases hl
    obtain ⟨P, h1, h2, h3⟩ := h.covers
    have h0 : Looks U nested level N 0 ⟨lines, [], []⟩ := by
      refine ⟨h.fine lines (List.mem_of_getElem? hl), by simp, by simp, by simp, P, ?_, h2, by simpa using h3⟩
      intro ab hab
      obtain ⟨ms, hms, t, ht, hc⟩ := h1 ab hab
      obtain ⟨k, hk⟩ := List.mem_iff_getElem?.1 hms
      by_cases hkl : k = level
      · subst hkl
        rw [hl] at hk
        rw [← Option.some.inj hk] at ht
        obtain ⟨j, hj⟩ := List.mem_iff_getElem?.1 ht
        exact .inr ⟨j, t, by simp, hj, hc⟩
      · exact .inl ⟨k, ms, t, hkl, hk, ht, hc⟩
    rw [List.range_eq_range'] at e1
    have hL := looks_fold h.fine hlev hp _ 0 h0 e1
    obtain ⟨Q, q1, q2, q3⟩ := hL.safe
    rw [List.foldl_reverse] at e2
    -- the lines of this level afterwards
    have hls : (∀ t ∈ ls, Fine U t) ∧
        ∀ t ∈ v.remove.foldr (fun i ls => ls.eraseIdx i) v.lines, t ∈ ls := by
      have hm : ∀ t ∈ v.remove.foldr (fun i ls => ls.eraseIdx i) v.lines, Fine U t := by
        intro t ht
        rw [← List.foldl_reverse] at ht
        exact hL.fine t (mem_erased ht)
      unfold Trd.tryFork at e2
      obtain ⟨y, -, e2⟩ := bind_inv e2
      split_ifs at e2
      · rw [← pure_inv e2]
        exact ⟨hm, fun t ht => ht⟩
      · obtain ⟨⟨r, c⟩, e4, e2⟩ := bind_inv e2
        rw [← pure_inv e2]
        refine ⟨?_, fun t ht => List.mem_append_left _ ht⟩
        intro t ht
        rcases List.mem_append.1 ht with ht | ht
        · exact hm t ht
        · rw [List.mem_singleton.1 ht]
          exact (create_fine hx u).append hp e4
    have hset := set_all (k := level) h.fine hls.1
    have hself : (nested.set level ls)[level]? = some ls := by rw [List.getElem?_set_self hlev]
    simp only [Prod.mk.injEq] at e3
    obtain ⟨e3, rfl⟩ := e3
    have side : Side U (N + if v.newPts = [] then 0 else 1) (nested.set level ls) := by
      refine ⟨hset, Q, ?_, q2, q3⟩
      intro ab hab
      rcases q1 ab hab with ⟨k, ms, t, a1, a2, a3, a4⟩ | ⟨j, t, a1, a2, a3⟩
      · exact ⟨ms, List.mem_of_getElem? (i := k) (by rw [List.getElem?_set_ne (Ne.symm a1)]; exact a2), t, a3, a4⟩
      · obtain ⟨j', b1, -⟩ := erase_keeps hL.asc (b := 0) (fun _ _ => Nat.zero_le _) a1 a2
        exact ⟨ls, List.mem_of_getElem? hself, t, hls.2 t (List.mem_of_getElem? b1), a3⟩
    cases u
    · subst e3
      exact ⟨side, rfl, hL.new, ⟨rfl, rfl, rfl, rfl, rfl, rfl, rfl⟩⟩
    · subst e3
      exact ⟨side, rfl, hL.new, ⟨rfl, rfl, rfl, rfl, rfl, rfl, rfl⟩⟩

/-! ## A whole trend -/

/-- The lines of the trend cover `N` pairs of known points, counted on both sides. -/
def Sound (U : Finset XY) (N : ℕ) (s : Trd) : Prop :=
  Untolerant s ∧ ∃ a b, Side U a s.upper ∧ Side U b s.lower ∧ N ≤ a + b

theorem Sound.bound {U : Finset XY} {N : ℕ} {s : Trd} (h : Sound U N s) : N ≤ 2 * (U.card * U.card) := by
  obtain ⟨-, a, b, h1, h2, h3⟩ := h
  have := h1.bound
  have := h2.bound
  omega

theorem Sound.less {U : Finset XY} {N M : ℕ} {s : Trd} (h : Sound U N s) (k : M ≤ N) : Sound U M s := by
  obtain ⟨h0, a, b, h1, h2, h3⟩ := h
  exact ⟨h0, a, b, h1, h2, k.trans h3⟩

theorem covered_append {U : Finset XY} {s s' : Trd} {u : Bool} {level N : ℕ} {p : XY} {ps : List XY} (h : Sound U N s)
    (hp : p ∈ U) (e : s.appendValidate u level p = .ok (s', ps)) :
    Sound U (N + if ps = [] then 0 else 1) s' ∧ ∀ q ∈ ps, q ∈ U := by
  obtain ⟨h0, a, b, h1, h2, h3⟩ := h
  cases u
  · obtain ⟨g1, g2, g3, g4⟩ := side_append (u := false) h0 hp (N := b) h2 e
    simp only [Bool.false_eq_true, if_false] at g1 g2
    exact ⟨⟨untolerant_same h0 g4, a, _, by rw [g2]; exact h1, g1, by omega⟩, g3⟩
  · obtain ⟨g1, g2, g3, g4⟩ := side_append (u := true) h0 hp (N := a) h1 e
    simp only [if_true] at g1 g2
    exact ⟨⟨untolerant_same h0 g4, _, b, g1, by rw [g2]; exact h2, by omega⟩, g3⟩

theorem covered_level {U : Finset XY} {level N : ℕ} : ∀ {pts : List XY} {s s' : Trd} {as bs : List XY},
    Sound U (N + if as = [] then 0 else 1) s → (∀ p ∈ pts, p ∈ U) → (∀ q ∈ as, q ∈ U) →
    pts.foldlM (fun (r : Trd × List XY) p => do
      let u ← Trd.appendValidate r.1 true level p
      let all ← insortAll r.2 u.2
      let l ← Trd.appendValidate u.1 false level p
      let all ← insortAll all l.2
      pure (l.1, all)) (s, as) = .ok (s', bs) →
    Sound U (N + if bs = [] then 0 else 1) s' ∧ ∀ q ∈ bs, q ∈ U
  | [], s, s', as, bs, h, _, ha, e => by
    have := pure_inv e
    simp only [Prod.mk.injEq] at this
    rw [← this.1, ← this.2]
    exact ⟨h, ha⟩
  | p :: pts, s, s', as, bs, h, hp, ha, e => by
    rw [List.foldlM_cons] at e
    obtain ⟨⟨t, cs⟩, e1, e⟩ := bind_inv e
    obtain ⟨⟨u, us⟩, f1, e1⟩ := bind_inv e1
    obtain ⟨ds, f2, e1⟩ := bind_inv e1
    obtain ⟨⟨l, ls⟩, f3, e1⟩ := bind_inv e1
    obtain ⟨es, f4, e1⟩ := bind_inv e1
    have e2 := pure_inv e1
    simp only [Prod.mk.injEq] at e2
    obtain ⟨rfl, rfl⟩ := e2
    simp only at f1 f2 f3 f4
    obtain ⟨g1, g2⟩ := covered_append h (hp p (by simp)) f1
    obtain ⟨k1, k2⟩ := covered_append g1 (hp p (by simp)) f3
    have m1 := insortAll_mem f2
    have m2 := insortAll_mem f4
    refine covered_level (k1.less ?_) (fun q hq => hp q (List.mem_cons_of_mem _ hq)) ?_ e
    · by_cases h1 : as = []
      · by_cases h2 : us = []
        · by_cases h3 : ls = []
          · have h4 : es = [] := by
              subst h1 h2 h3
              rw [← pure_inv (show pure ds = _ from f4), ← pure_inv (show pure [] = _ from f2)]
            simp [h1, h2, h3, h4]
          · simp only [h3, if_false]; split_ifs <;> omega
        · simp only [h2, if_false]; split_ifs <;> omega
      · simp only [h1, if_false]; split_ifs <;> omega
    · intro q hq
      rcases m2 q hq with h1 | h1
      · exact k2 q h1
      · rcases m1 q h1 with h2 | h2
        · exact g2 q h2
        · exact ha q h2

theorem covered_step {U : Finset XY} {level N : ℕ} {pts : List XY} {s : Trd} {r : Trd.Loop} (h : Sound U N s)
    (hp : ∀ p ∈ pts, p ∈ U) (e : s.scanStep level pts = .ok r) :
    (∃ s', r = .done s' ∧ Sound U N s') ∨
      ∃ s' l q, r = .more s' l q ∧ Sound U (N + 1) s' ∧ ∀ p ∈ q, p ∈ U := by
  unfold Trd.scanStep at e
  split_ifs at e with h1
  · obtain ⟨⟨v, vs⟩, e2, e⟩ := bind_inv e
    obtain ⟨g1, g2⟩ := covered_level (as := []) (by simpa using h) hp (by simp) e2
    simp only at e
    split_ifs at e with h2 h3
    · exact .inl ⟨v, (pure_inv e).symm, g1.less (by omega)⟩
    · refine .inr ⟨_, _, _, (pure_inv e).symm, ?_, g2⟩
      rw [if_neg (by rintro rfl; simp at h2)] at g1
      obtain ⟨k0, a, b, k1, k2, k3⟩ := g1
      exact ⟨⟨k0.rel, k0.tol, k0.wide, k0.reach⟩, a, b, k1.nested, k2.nested, k3⟩
    · refine .inr ⟨_, _, _, (pure_inv e).symm, ?_, g2⟩
      rw [if_neg (by rintro rfl; simp at h2)] at g1
      exact g1
  · exact .inl ⟨s, (pure_inv e).symm, h⟩

theorem covered_loop {U : Finset XY} : ∀ {n N level : ℕ} {pts : List XY} {s : Trd} {r : Trd.Loop}, Sound U N s →
    (∀ p ∈ pts, p ∈ U) → Trd.scanLoop n s level pts = .ok r →
    (∃ s', r = .done s' ∧ Sound U N s') ∨ ∃ s' l q, r = .more s' l q ∧ Sound U (N + n) s'
  | 0, N, level, pts, s, r, h, hp, e => by
    simp only [Trd.scanLoop, Except.ok.injEq] at e
    exact .inr ⟨s, level, pts, e.symm, h⟩
  | n + 1, N, level, pts, s, r, h, hp, e => by
    rw [Trd.scanLoop] at e
    obtain ⟨q, e1, e⟩ := bind_inv e
    rcases covered_step h hp e1 with ⟨s', rfl, h1⟩ | ⟨s', l, qs, rfl, h1, h2⟩
    · exact .inl ⟨s', (pure_inv e).symm, h1⟩
    · rcases covered_loop h1 h2 e with ⟨s'', h3, h4⟩ | ⟨s'', l', q', h3, h4⟩
      · exact .inl ⟨s'', h3, h4.less (by omega)⟩
      · exact .inr ⟨s'', l', q', h3, h4.less (by omega)⟩

theorem covered_scan {U : Finset XY} {n : ℕ} {s : Trd} {x : ℚ} {y : Option ℚ} {r : Trd.Loop} (h : Sound U 0 s)
    (hp : ∀ v, y = some v → (x, v) ∈ U) (e : s.trendScan n x y = .ok r) :
    (∃ s', r = .done s' ∧ Sound U 0 s') ∨ (∃ s' l q, r = .more s' l q) ∧ n ≤ 2 * (U.card * U.card) := by
  unfold Trd.trendScan at e
  cases y with
  | none =>
    simp only [Except.ok.injEq] at e
    exact .inl ⟨s, e.symm, h⟩
  | some v =>
    obtain ⟨k0, k⟩ := h
    have h0 : Sound U 0 { s with points := s.points ++ [(x, v)] } := ⟨⟨k0.rel, k0.tol, k0.wide, k0.reach⟩, k⟩
    rcases covered_loop h0 (by simpa using hp v rfl) e with h1 | ⟨s', l, q, h1, h2⟩
    · exact .inl h1
    · exact .inr ⟨⟨s', l, q, h1⟩, by simpa using h2.bound⟩

theorem covered_lines {U : Finset XY} {s : Trd} (hx : Untolerant s) (hU : ∀ t ∈ s.upper.flatten, Fine U t)
    (hL : ∀ t ∈ s.lower.flatten, Fine U t) : Sound U 0 s := by
  have key : ∀ {L : List (List TLine)}, (∀ t ∈ L.flatten, Fine U t) → Side U 0 L := fun h =>
    ⟨fun ls hls t ht => h t (List.mem_flatten.2 ⟨ls, hls, ht⟩), ∅, by simp, by simp, by simp⟩
  exact ⟨hx, 0, 0, key hU, key hL, le_refl _⟩

theorem Sound.insert {U : Finset XY} {s : Trd} (h : Sound U 0 s) (p : XY) : Sound (insert p U) 0 s := by
  obtain ⟨h0, a, b, ⟨f1, -⟩, ⟨f2, -⟩, -⟩ := h
  refine covered_lines h0 ?_ ?_
  · intro t ht
    obtain ⟨ls, hls, ht⟩ := List.mem_flatten.1 ht
    exact ⟨(f1 ls hls t ht).1, fun q hq => Finset.mem_insert_of_mem ((f1 ls hls t ht).2 q hq)⟩
  · intro t ht
    obtain ⟨ls, hls, ht⟩ := List.mem_flatten.1 ht
    exact ⟨(f2 ls hls t ht).1, fun q hq => Finset.mem_insert_of_mem ((f2 ls hls t ht).2 q hq)⟩

theorem covered_scanned {U : Finset XY} {s : Trd} (h : TrdScanned s) (hx : Untolerant s) (hU : known s ⊆ U) : Sound U 0 s := by
  obtain ⟨h1, h2⟩ := C145_lines h
  have key : ∀ {u : Bool} {t : TLine}, t ∈ s.upper.flatten ++ s.lower.flatten → Grown t → Carries s u t → Fine U t := by
    intro u t ht hg hc
    refine ⟨⟨hg, ⟨hc.rel.trans hx.rel, hc.tol.trans hx.tol⟩, by rw [hc.width]; exact hx.wide, hc.dist,
      by rw [hc.search]; exact hx.reach⟩, fun q hq => hU ?_⟩
    unfold known
    rw [List.mem_toFinset, List.mem_flatMap]
    exact ⟨t, ht, hq⟩
  exact covered_lines hx (fun t ht => key (List.mem_append_left _ ht) (h1 t ht).1 (h1 t ht).2)
    fun t ht => key (List.mem_append_right _ ht) (h2 t ht).1 (h2 t ht).2

/-! ## C74 -/

/-- C74, without a tolerance: whatever was scanned and updated before, the scan of a point ends, with a result or an
exception, after at most `2 (k + 1)² + 1` rounds, where `k` is the number of points known to the lines.  Each pair of
them makes at most one new line on either side. -/
theorem C74_precise {s : Trd} (h : TrdScanned s) (hx : Untolerant s) (x : ℚ) (y : Option ℚ) {n : ℕ}
    (hn : 2 * ((known s).card + 1) ^ 2 < n) : ∀ s' l p, s.trendScan n x y ≠ .ok (.more s' l p) := by
  intro s' l p e
  have hs : Sound (insert (x, y.getD 0) (known s)) 0 s := covered_scanned h hx (Finset.subset_insert _ _)
  rcases covered_scan hs (by rintro v rfl; exact Finset.mem_insert_self _ _) e with ⟨_, h1, -⟩ | ⟨-, h1⟩
  · cases h1
  · have h2 := Finset.card_insert_le (x, y.getD 0) (known s)
    have h3 := Nat.mul_le_mul h2 h2
    rw [pow_two] at hn
    omega

/-- C74, without a tolerance: no scan is endless. -/
theorem C74_ends {s : Trd} (h : TrdScanned s) (hx : Untolerant s) (x : ℚ) (y : Option ℚ) : ¬ Endless s x y := by
  intro he
  obtain ⟨s', l, p, e⟩ := he (2 * ((known s).card + 1) ^ 2 + 1)
  exact C74_precise h hx x y (Nat.lt_succ_self _) s' l p e

/-- C74, without a tolerance, for a new trend after `k` points: at most `2 (k + 1)² + 1` rounds. -/
theorem C74_rounds {s : Trd} {k : ℕ} (h : Begun k s) (hx : Untolerant s) (x : ℚ) (y : Option ℚ) {n : ℕ}
    (hn : 2 * (k + 1) ^ 2 < n) : ∀ s' l p, s.trendScan n x y ≠ .ok (.more s' l p) := by
  have H : ∃ U : Finset XY, U.card ≤ k ∧ Sound U 0 s := by
    clear hn
    induction h with
    | new w m d r a b g =>
      refine ⟨∅, by simp, covered_lines hx ?_ ?_⟩
      · intro t ht; simp [Trd.new] at ht
      · intro t ht; simp [Trd.new] at ht
    | @scan k s s' n x' y' h e ih =>
      have hscanned : TrdScanned s := by
        clear e ih hx
        induction h with
        | new w m d r a b g => exact .new _ _ _ _ _ _ _
        | scan h e ih => exact .scan ih e
      have hu := C145_unchanged hscanned (dom := Iv.empty) (.inl e)
      have hx0 : Untolerant s := ⟨hu.rel.symm.trans hx.rel, hu.tol.symm.trans hx.tol, by rw [← hu.width]; exact hx.wide,
        by rw [← hu.search]; exact hx.reach⟩
      obtain ⟨U, h1, h2⟩ := ih hx0
      have h3 := h2.insert (x', y'.getD 0)
      refine ⟨_, (Finset.card_insert_le (x', y'.getD 0) U).trans (by omega), ?_⟩
      rcases covered_scan h3 (by rintro v rfl; exact Finset.mem_insert_self _ _) e with ⟨t, g1, g2⟩ | ⟨⟨_, _, _, g1⟩, -⟩
      · rw [Trd.Loop.done.inj g1]; exact g2
      · cases g1
  obtain ⟨U, h1, h0⟩ := H
  intro s' l p e
  have h3 := h0.insert (x, y.getD 0)
  rcases covered_scan h3 (by rintro v rfl; exact Finset.mem_insert_self _ _) e with ⟨_, g1, -⟩ | ⟨-, g1⟩
  · cases g1
  · have h4 := (Finset.card_insert_le (x, y.getD 0) U).trans (Nat.succ_le_succ h1)
    have h5 := Nat.mul_le_mul h4 h4
    rw [pow_two] at hn
    simp only [Nat.succ_eq_add_one] at h5
    omega

/-! ## Queries -/

/-- The positions of the source which were not scanned yet, and one more if nothing was. -/
def ahead (A : TScan) : ℕ :=
  match A.current with
  | none => A.src.points.length + 1
  | some c => (A.src.points.filter fun p => decide (c < p.1)).length

theorem filter_less {α : Type} {p q : α → Bool} {l : List α} (h : ∀ a ∈ l, q a = true → p a = true) {a : α} (ha : a ∈ l)
    (hp : p a = true) (hq : q a = false) : (l.filter q).length < (l.filter p).length := by
  rw [← List.countP_eq_length_filter, ← List.countP_eq_length_filter]
  induction l with
  | nil => cases ha
  | cons b l ih =>
    rw [List.countP_cons, List.countP_cons]
    have h1 := List.countP_mono_left (l := l) (p := q) (q := p) fun a ha => h a (List.mem_cons_of_mem _ ha)
    rcases List.mem_cons.1 ha with rfl | ha
    · rw [hp, hq]; simp; omega
    · have h2 := ih (fun a ha => h a (List.mem_cons_of_mem _ ha)) ha
      have h3 := h b (by simp)
      by_cases hb : q b = true
      · rw [hb, h3 hb]; simp; omega
      · rw [Bool.not_eq_true] at hb
        rw [hb]; simp; split_ifs <;> omega

theorem scan_ends {x : ℚ} : ∀ (k : ℕ) {A : TScan}, ahead A ≤ k → Honest A.src → 0 < A.minStep → TrdScanned A.trd →
    Untolerant A.trd → ∃ N, ∀ n, N ≤ n → TScan.scanLoop x n A ≠ none := by
  intro k
  induction k with
  | zero =>
    intro A hk hs hm ht hx
    refine ⟨1, fun n hn => ?_⟩
    obtain ⟨n, rfl⟩ : ∃ m, n = m + 1 := ⟨n - 1, by omega⟩
    cases hc : A.current with
    | none => rw [ahead, hc] at hk; simp at hk
    | some c =>
      rw [ahead, hc] at hk
      rw [TScan.scanLoop]
      split_ifs
      · have hx : A.nextPos x = .ok (A, none) := by
          unfold TScan.nextPos
          rw [hc]
          rcases Props.C06_x_next hs c A.minStep with ⟨z, -, ⟨r, hr, hrz, hz⟩, -⟩ | ⟨h1, -⟩
          · exfalso
            have : r ∈ A.src.points.filter fun p => decide (c < p.1) := by
              rw [List.mem_filter]
              exact ⟨hr, by simp; linarith⟩
            have := List.length_pos_of_mem this
            simp only at hk
            omega
          · simp only [h1, bind, Except.bind, pure, Except.pure]
        rw [hx]
        simp
      · simp
  | succ k ih =>
    intro A hk hs hm ht hx
    by_cases hgo : A.current.all (fun c => A.continueScan c x) = true
    swap
    · refine ⟨1, fun n hn => ?_⟩
      obtain ⟨n, rfl⟩ : ∃ m, n = m + 1 := ⟨n - 1, by omega⟩
      rw [TScan.scanLoop, if_neg hgo]
      simp
    cases hp : A.nextPos x with
    | error e =>
      refine ⟨1, fun n hn => ?_⟩
      obtain ⟨n, rfl⟩ : ∃ m, n = m + 1 := ⟨n - 1, by omega⟩
      rw [TScan.scanLoop, if_pos hgo, hp]
      simp
    | ok r =>
      obtain ⟨B, o⟩ := r
      cases o with
      | none =>
        refine ⟨1, fun n hn => ?_⟩
        obtain ⟨n, rfl⟩ : ∃ m, n = m + 1 := ⟨n - 1, by omega⟩
        rw [TScan.scanLoop, if_pos hgo, hp]
        simp
      | some c =>
        have hB : B.src = A.src ∧ B.trd = A.trd ∧ B.minStep = A.minStep ∧ B.current = A.current := by
          unfold TScan.nextPos at hp
          split at hp
          · obtain ⟨q, -, e⟩ := bind_inv hp
            have := pure_inv e
            simp only [Prod.mk.injEq] at this
            rw [← this.1]
            exact ⟨rfl, rfl, rfl, rfl⟩
          · obtain ⟨q, -, e⟩ := bind_inv hp
            have := pure_inv e
            simp only [Prod.mk.injEq] at this
            rw [← this.1]
            exact ⟨rfl, rfl, rfl, rfl⟩
        obtain ⟨b1, b2, b3, b4⟩ := hB
        -- the next round
        have next : ∀ (z : ℚ) (s : Trd), c = .fin z → TrdScanned s → Untolerant s → A.src.domVal.contains c = true →
            B.current.any (fun k => decide (z ≤ k)) = false →
            ∃ N, ∀ n, N ≤ n → TScan.scanLoop x n { B with trd := s, current := some z } ≠ none := by
          intro z s hz hs1 hs2 hin hadv
          refine ih ?_ (by rw [b1]; exact hs) (by rw [b3]; exact hm) hs1 hs2
          have less : ahead { B with trd := s, current := some z } < ahead A := by
            unfold ahead
            simp only [b1]
            cases hc : A.current with
            | none =>
              simp only
              exact Nat.lt_succ_of_le (List.length_filter_le _ _)
            | some d =>
              simp only
              have hnext : ∃ r ∈ A.src.points, r.1 = z ∧ d < z := by
                unfold TScan.nextPos at hp
                rw [hc] at hp
                simp only at hp
                rcases Props.C06_x_next hs d A.minStep with ⟨z', h1, ⟨r, hr, hrz, hz'⟩, -⟩ | ⟨h1, -⟩
                · rw [h1] at hp
                  simp only [bind, Except.bind, pure, Except.pure, Except.ok.injEq, Prod.mk.injEq,
                    Option.some.injEq] at hp
                  have : z' = z := by
                    have := hp.2.trans hz
                    simpa using this
                  exact ⟨r, hr, by rw [hrz, this], by rw [← this]; linarith⟩
                · rw [h1] at hp
                  simp [bind, Except.bind, pure, Except.pure] at hp
              obtain ⟨r, hr, hrz, hd⟩ := hnext
              refine filter_less ?_ hr (by simp [hrz, hd]) (by simp [hrz])
              intro a _ h1
              simp only [decide_eq_true_eq] at h1 ⊢
              linarith
          omega
        by_cases hin : A.src.domVal.contains c = true
        swap
        · refine ⟨1, fun n hn => ?_⟩
          obtain ⟨n, rfl⟩ : ∃ m, n = m + 1 := ⟨n - 1, by omega⟩
          rw [TScan.scanLoop, if_pos hgo, hp]
          rw [Bool.not_eq_true] at hin
          simp [b1, hin]
        cases c with
        | ninf =>
          refine ⟨1, fun n hn => ?_⟩
          obtain ⟨n, rfl⟩ : ∃ m, n = m + 1 := ⟨n - 1, by omega⟩
          rw [TScan.scanLoop, if_pos hgo, hp]
          simp [b1, hin]
        | pinf =>
          refine ⟨1, fun n hn => ?_⟩
          obtain ⟨n, rfl⟩ : ∃ m, n = m + 1 := ⟨n - 1, by omega⟩
          rw [TScan.scanLoop, if_pos hgo, hp]
          simp [b1, hin]
        | fin z =>
          by_cases hadv : B.current.any (fun k => decide (z ≤ k)) = true
          · refine ⟨1, fun n hn => ?_⟩
            obtain ⟨n, rfl⟩ : ∃ m, n = m + 1 := ⟨n - 1, by omega⟩
            rw [TScan.scanLoop, if_pos hgo, hp]
            simp only [b1, hin, Bool.not_true, Bool.false_eq_true, if_false, hadv, if_true]
            simp
          rw [Bool.not_eq_true] at hadv
          cases hy : A.src.y (.fin z) with
          | error e =>
            refine ⟨1, fun n hn => ?_⟩
            obtain ⟨n, rfl⟩ : ∃ m, n = m + 1 := ⟨n - 1, by omega⟩
            rw [TScan.scanLoop, if_pos hgo, hp]
            simp only [b1, hin, Bool.not_true, Bool.false_eq_true, if_false, hadv, hy]
            simp
          | ok y =>
            by_cases hdone : ∃ m s, A.trd.trendScan m z y = .ok (.done s)
            · obtain ⟨m, s, hms⟩ := hdone
              have hu := C145_unchanged ht (dom := Iv.empty) (.inl hms)
              obtain ⟨N, hN⟩ := next z s rfl (ht.scan hms) (untolerant_same hx hu) hin hadv
              refine ⟨max m N + 1, fun n hn => ?_⟩
              obtain ⟨n, rfl⟩ : ∃ m, n = m + 1 := ⟨n - 1, by omega⟩
              rw [TScan.scanLoop, if_pos hgo, hp]
              have hmn := trendScan_more (n - m) hms
              rw [show m + (n - m) = n by omega] at hmn
              simp only [b1, hin, Bool.not_true, Bool.false_eq_true, if_false, hadv, hy, b2, hmn]
              have := hN n (by omega)
              simp only [b1] at this
              exact this
            · refine ⟨2 * ((known A.trd).card + 1) ^ 2 + 2, fun n hn => ?_⟩
              obtain ⟨n, rfl⟩ : ∃ m, n = m + 1 := ⟨n - 1, by omega⟩
              rw [TScan.scanLoop, if_pos hgo, hp]
              simp only [b1, hin, Bool.not_true, Bool.false_eq_true, if_false, hadv, hy, b2]
              cases hr : A.trd.trendScan n z y with
              | error e => simp
              | ok l =>
                cases l with
                | done s => exact absurd ⟨n, s, hr⟩ hdone
                | more s l p => exact absurd hr (C74_precise ht hx z y (by omega) s l p)

theorem nextPos_keeps {A B : TScan} {x : ℚ} {o : Option Ext} (e : A.nextPos x = .ok (B, o)) :
    B.src = A.src ∧ B.minStep = A.minStep := by
  unfold TScan.nextPos at e
  split at e
  · obtain ⟨q, -, e⟩ := bind_inv e
    have := pure_inv e
    simp only [Prod.mk.injEq] at this
    rw [← this.1]
    exact ⟨rfl, rfl⟩
  · obtain ⟨q, -, e⟩ := bind_inv e
    have := pure_inv e
    simp only [Prod.mk.injEq] at this
    rw [← this.1]
    exact ⟨rfl, rfl⟩

theorem scanLoop_keeps {x : ℚ} : ∀ {n : ℕ} {A B : TScan}, TScan.scanLoop x n A = some (.ok B) →
    B.src = A.src ∧ B.minStep = A.minStep
  | 0, A, B, e => by simp [TScan.scanLoop] at e
  | n + 1, A, B, e => by
    rw [TScan.scanLoop] at e
    split_ifs at e
    · split at e
      · simp at e
      · rename_i C hC
        simp only [Option.some.injEq, Except.ok.injEq] at e
        rw [← e]; exact nextPos_keeps hC
      · rename_i C c hC
        obtain ⟨k1, k2⟩ := nextPos_keeps hC
        split_ifs at e
        · simp only [Option.some.injEq, Except.ok.injEq] at e
          rw [← e]; exact ⟨k1, k2⟩
        · split at e
          · split_ifs at e
            · simp at e
            · split at e
              · simp at e
              · split at e
                · simp at e
                · cases e
                · obtain ⟨g1, g2⟩ := scanLoop_keeps e
                  exact ⟨g1.trans k1, g2.trans k2⟩
          · simp at e
    · simp only [Option.some.injEq, Except.ok.injEq] at e
      rw [← e]; exact ⟨rfl, rfl⟩

theorem query_keeps {n : ℕ} {A B : TScan} {x : ℚ} {v : Option (List TLine)} (e : A.query n x = some (.ok (B, v))) :
    B.src = A.src ∧ B.minStep = A.minStep := by
  unfold TScan.query at e
  split_ifs at e
  · simp only [Option.some.injEq, Except.ok.injEq, Prod.mk.injEq] at e
    rw [← e.1]; exact ⟨rfl, rfl⟩
  · split at e
    · cases e
    · simp at e
    · rename_i C hC
      simp only [Option.some.injEq, Except.ok.injEq, Prod.mk.injEq] at e
      rw [← e.1]
      unfold TScan.scan at hC
      have := scanLoop_keeps hC
      split_ifs at this
      · exact this
      · exact this

theorem notify_keeps : ∀ {es : List (Pts.Ev ℚ)} {A B : TScan}, A.notifyAll es = .ok B →
    B.src = A.src ∧ B.minStep = A.minStep
  | [], A, B, e => by
    simp only [TScan.notifyAll, Except.ok.injEq] at e
    rw [← e]; exact ⟨rfl, rfl⟩
  | .begin d _ :: es, A, B, e => by
    rw [TScan.notifyAll] at e
    obtain ⟨C, e1, e⟩ := bind_inv e
    obtain ⟨g1, g2⟩ := notify_keeps e
    have hd : ∀ d, (A.dropScanned d).src = A.src ∧ (A.dropScanned d).minStep = A.minStep := by
      intro d
      unfold TScan.dropScanned
      simp only
      split <;> split_ifs <;> exact ⟨rfl, rfl⟩
    unfold TScan.onBegin at e1
    simp only at e1
    obtain ⟨s, -, e1⟩ := bind_inv e1
    rw [← pure_inv e1] at g1 g2
    exact ⟨g1.trans (hd _).1, g2.trans (hd _).2⟩
  | .fin _ _ :: es, A, B, e => by
    rw [TScan.notifyAll] at e
    exact notify_keeps e

/-- C74, without a tolerance: every query of a trend over points ends, whatever was asked and edited before. -/
theorem C74_query {allowed : Op ℚ → Prop} {t0 : Trd} {m : ℚ} (h0 : TrdScanned t0) (hx : Untolerant t0) (hm : 0 < m)
    {A : TScan} (h : Fed allowed t0 m A) (x : ℚ) : ∃ N, ∀ n, N ≤ n → A.query n x ≠ none := by
  have hk := fed_kind (kind_scanned t0) ⟨h0, scanned_all h0⟩ h
  have hs : Honest A.src ∧ A.minStep = m := by
    clear hk
    induction h with
    | new hs hg => exact ⟨hs, rfl⟩
    | query h hq ih =>
      obtain ⟨g1, g2⟩ := query_keeps hq
      rw [g1, g2]; exact ih
    | edit h ha hl he ht hg hB ih =>
      obtain ⟨g1, g2⟩ := notify_keeps hB
      rw [g1, g2]
      exact ⟨.edit ih.1 hl he ht, ih.2⟩
  obtain ⟨hs, rfl⟩ := hs
  have hu := untolerant_same hx hk.2.same
  have key : ∀ B : TScan, B.src = A.src → B.trd = A.trd → B.minStep = A.minStep →
      ∃ N, ∀ n, N ≤ n → TScan.scanLoop x n B ≠ none := fun B e1 e2 e3 =>
    scan_ends _ (le_refl _) (by rw [e1]; exact hs) (by rw [e3]; exact hm) (by rw [e2]; exact hk.1) (by rw [e2]; exact hu)
  obtain ⟨N, hN⟩ := key (if A.scanStart.any (fun s => decide (x < s)) then A.resetScan else A)
    (by split_ifs <;> rfl) (by split_ifs <;> rfl) (by split_ifs <;> rfl)
  refine ⟨N, fun n hn => ?_⟩
  unfold TScan.query
  split_ifs
  · simp
  · have := hN n hn
    unfold TScan.scan
    split
    · rename_i h; exact absurd h this
    · simp
    · simp

/-! ## Concrete trends -/

/-- A zigzag, and a trend over it without a tolerance. -/
def zigzag : Trd := scanned (Trd.new 1 2 0 2 none (some 0) (8 / 5)) [(0, 0), (1, 2), (2, 0), (3, 1)]

theorem zigzag_untolerant : Untolerant zigzag := by
  have : zigzag.yRel = none ∧ zigzag.yAbs = some 0 ∧ zigzag.minWidth = 1 ∧ zigzag.searchRel = 2 := by decide +kernel
  obtain ⟨h1, h2, h3, h4⟩ := this
  exact ⟨h1, h2, by rw [h3]; norm_num, .inr (by rw [h4]; norm_num)⟩

theorem zigzag_scanned : TrdScanned zigzag := scanned_scanned (TrdScanned.new _ _ _ _ _ _ _) _

/-- The scan of the next point takes two rounds, and ends. -/
example : ¬ Endless zigzag 4 (some 0) ∧ (∃ s l p, zigzag.trendScan 1 4 (some 0) = .ok (.more s l p)) ∧
    ∃ s, zigzag.trendScan 2 4 (some 0) = .ok (.done s) := by
  refine ⟨C74_ends zigzag_scanned zigzag_untolerant 4 (some 0), ?_, ?_⟩
  · have : (match zigzag.trendScan 1 4 (some 0) with | .ok (.more ..) => true | _ => false) = true := by decide +kernel
    split at this
    · rename_i h; exact ⟨_, _, _, h⟩
    · cases this
  · have : (match zigzag.trendScan 2 4 (some 0) with | .ok (.done _) => true | _ => false) = true := by decide +kernel
    split at this
    · rename_i h; exact ⟨_, h⟩
    · cases this

/-- The lines know four points. -/
example : (known zigzag).card = 4 := by decide +kernel

/-- A trend after one point that searches just the length of its lines, without the end. -/
def shortTrd : Trd := scanned (Trd.new 1 2 0 1 none (some 0) (8 / 5)) [(0, 0)]

/-- The reach of the search is needed: with a search that is as long as the line, the second point takes more than
`2 (1 + 1)²` rounds. -/
example : shortTrd.yRel = none ∧ shortTrd.yAbs = some 0 ∧ shortTrd.searchRel = 1 ∧
    ∃ s l p, shortTrd.trendScan 9 1 (some 0) = .ok (.more s l p) := by
  refine ⟨by decide +kernel, by decide +kernel, by decide +kernel, ?_⟩
  have : (match shortTrd.trendScan 9 1 (some 0) with | .ok (.more ..) => true | _ => false) = true := by decide +kernel
  split at this
  · rename_i h; exact ⟨_, _, _, h⟩
  · cases this

/-- Every query of a trend over points ends. -/
example (x : ℚ) : ∃ N, ∀ n, N ≤ n →
    (TScan.new (loose bumpPts) (Trd.new 1 2 0 2 none (some 0) (8 / 5)) (1 / 100)).query n x ≠ none := by
  have h : (loose bumpPts).points = bumpPts := by decide +kernel
  refine C74_query (allowed := fun _ => True) (TrdScanned.new _ _ _ _ _ _ _)
    ⟨rfl, rfl, by norm_num [Trd.new], .inr (by norm_num [Trd.new])⟩ (by norm_num : (0 : ℚ) < 1 / 100)
    (.new (loose_honest (by norm_num [Ascending, bumpPts]) bumpPts_spaced (by decide +kernel)) ?_) x
  rw [h]; exact bumpPts_gapped

end Props
end Curvepy
