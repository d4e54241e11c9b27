import Verif.Props.TrendScan

/-!
# Properties of trends: levels of nested lines
-/

namespace Curvepy
namespace Props
open Spec Trend

theorem append_levels {s u : Trd} {up : Bool} {k : ℕ} {p : XY} {n : List XY}
    (h : s.appendValidate up k p = .ok (u, n)) :
    u.upper.length = s.upper.length ∧ u.lower.length = s.lower.length := by
  unfold Trd.appendValidate at h
  simp only at h
  split at h
  · cases h
  · obtain ⟨v, -, h⟩ := bind_inv h
    obtain ⟨ls, -, h⟩ := bind_inv h
    have := pure_inv h
    simp only [Prod.mk.injEq] at this
    rw [← this.1]
    cases up <;> simp

theorem level_levels {k : ℕ} : ∀ {ps : List XY} {s u : Trd} {a b : List XY},
    ps.foldlM (levelStep k) (s, a) = .ok (u, b) →
    u.upper.length = s.upper.length ∧ u.lower.length = s.lower.length
  | [], s, u, a, b, h => by
    have := pure_inv h
    simp only [Prod.mk.injEq] at this
    rw [← this.1]; exact ⟨rfl, rfl⟩
  | p :: ps, s, u, a, b, h => by
    rw [List.foldlM_cons] at h
    obtain ⟨⟨w, c⟩, e, h⟩ := bind_inv h
    unfold levelStep at e
    obtain ⟨r1, e1, e⟩ := bind_inv e
    obtain ⟨r2, e2, e⟩ := bind_inv e
    obtain ⟨r3, e3, e⟩ := bind_inv e
    obtain ⟨r4, e4, e⟩ := bind_inv e
    have := pure_inv e
    simp only [Prod.mk.injEq] at this
    obtain ⟨rfl, rfl⟩ := this
    have f1 := append_levels (n := r1.2) e1
    have f2 := append_levels (n := r3.2) e3
    have f3 := level_levels h
    exact ⟨f3.1.trans (f2.1.trans f1.1), f3.2.trans (f2.2.trans f1.2)⟩

theorem step_even {s : Trd} {k : ℕ} {ps : List XY} {l : Trd.Loop} (hs : s.upper.length = s.lower.length)
    (h : s.scanStep k ps = .ok l) :
    (∃ u, l = .done u ∧ u.upper.length = u.lower.length) ∨
      ∃ u j qs, l = .more u j qs ∧ u.upper.length = u.lower.length := by
  unfold Trd.scanStep at h
  split_ifs at h with h1
  · obtain ⟨r, e, h⟩ := bind_inv h
    have f := level_levels (b := r.2) e
    split_ifs at h with h2
    · have := pure_inv h
      exact .inl ⟨_, this.symm, by rw [f.1, f.2, hs]⟩
    · have := pure_inv h
      refine .inr ⟨_, _, _, this.symm, ?_⟩
      simp only [List.length_append, List.length_singleton]
      rw [f.1, f.2, hs]
    · have := pure_inv h
      exact .inr ⟨_, _, _, this.symm, by rw [f.1, f.2, hs]⟩
  · have := pure_inv h
    exact .inl ⟨_, this.symm, hs⟩

theorem loop_even : ∀ {n : ℕ} {s : Trd} {k : ℕ} {ps : List XY} {l : Trd.Loop},
    s.upper.length = s.lower.length → Trd.scanLoop n s k ps = .ok l →
    (∃ u, l = .done u ∧ u.upper.length = u.lower.length) ∨
      ∃ u j qs, l = .more u j qs ∧ u.upper.length = u.lower.length
  | 0, s, k, ps, l, hs, h => by
    simp only [Trd.scanLoop, Except.ok.injEq] at h
    exact .inr ⟨_, _, _, h.symm, hs⟩
  | n + 1, s, k, ps, l, hs, h => by
    rw [Trd.scanLoop] at h
    obtain ⟨m, e, h⟩ := bind_inv h
    rcases step_even hs e with ⟨u, rfl, hu⟩ | ⟨u, j, qs, rfl, hu⟩
    · have := pure_inv h
      exact .inl ⟨u, this.symm, hu⟩
    · exact loop_even hu h

/-- C78 (partial: no update): as long as points are only added there are as many levels above as below, at the end
and after each round of every scan.
Missing: updates, see `C78_negation`. -/
theorem C78_partial {k : ℕ} {s : Trd} (h : Begun k s) : s.upper.length = s.lower.length ∧
    ∀ n x y l, s.trendScan n x y = .ok l → ∀ u j qs, l = .done u ∨ l = .more u j qs →
      u.upper.length = u.lower.length := by
  have key : ∀ {s : Trd}, s.upper.length = s.lower.length → ∀ n x y l, s.trendScan n x y = .ok l →
      ∀ u j qs, l = .done u ∨ l = .more u j qs → u.upper.length = u.lower.length := by
    intro s hs n x y l e u j qs hl
    unfold Trd.trendScan at e
    split at e
    · simp only [Except.ok.injEq] at e
      rw [← e] at hl
      rcases hl with h | h <;> cases h
      exact hs
    · rename_i y0
      rcases loop_even (s := { s with points := s.points ++ [(x, y0)] }) hs e with ⟨v, rfl, hv⟩ | ⟨v, _, _, rfl, hv⟩
      · rcases hl with h | h <;> cases h; exact hv
      · rcases hl with h | h <;> cases h; exact hv
  suffices s.upper.length = s.lower.length from ⟨this, key this⟩
  induction h with
  | new => rfl
  | scan h e ih => exact key ih _ _ _ _ e _ 0 [] (.inl rfl)

/-- Points of a trend with nested lines. -/
def nestedPts : List XY := [(0, 1), (1, 4), (2, 1), (3, 3), (4, 3)]

def nestedTrd : Trd := scanned (Trd.new 2 3 0 10 none (some 1) (8 / 5)) nestedPts

def updatedTrd : Trd :=
  match nestedTrd.beginUpdate ⟨.fin 2, .pinf, false, false⟩ with
  | .ok s => s
  | .error _ => nestedTrd

/-- The first round of the scan of `(2, 5)` leads to a second one, which fails. -/
def fails (s : Trd) : Bool :=
  match s.scanStep 0 [(2, 5)] with
  | .ok (.more u k ps) => decide (u.scanStep k ps = .error .index)
  | _ => false

/-- Disagreement with C78: an update from position 2 on leaves one level of lines below and two above, and the next
scan fails with an `IndexError`. -/
theorem C78_negation : ∃ s : Trd, TrdScanned s ∧ s.lower.length < s.upper.length ∧
    ∀ n, s.trendScan (n + 2) 2 (some 5) = .error .index := by
  have hs : TrdScanned updatedTrd := by
    have h0 : TrdScanned nestedTrd := scanned_scanned (TrdScanned.new _ _ _ _ _ _ _) _
    unfold updatedTrd
    split
    · rename_i s h
      exact TrdScanned.update h0 h
    · exact h0
  refine ⟨updatedTrd, hs, by decide +kernel, fun n => ?_⟩
  let s0 : Trd := { updatedTrd with points := updatedTrd.points ++ [(2, 5)] }
  have h1 : fails s0 = true := by decide +kernel
  unfold fails at h1
  show Trd.scanLoop (n + 1 + 1) s0 0 [(2, 5)] = _
  split at h1
  · rename_i u k ps e
    rw [decide_eq_true_eq] at h1
    rw [Trd.scanLoop, e]
    show Trd.scanLoop (n + 1) u k ps = _
    rw [Trd.scanLoop, h1]
    rfl
  · cases h1

theorem scanned_begun {k : ℕ} {s : Trd} (h : Begun k s) : ∀ ps, ∃ j, Begun j (scanned s ps) := by
  intro ps
  induction ps generalizing k s with
  | nil => exact ⟨k, h⟩
  | cons p ps ih =>
    unfold scanned
    split
    · rename_i e; exact ih (.scan h e)
    · exact ⟨k, h⟩

example : (∃ k, Begun k nestedTrd) ∧ nestedTrd.upper.length = 2 ∧ nestedTrd.lower.length = 2 :=
  ⟨scanned_begun (Begun.new _ _ _ _ _ _ _) _, by decide +kernel, by decide +kernel⟩

end Props
end Curvepy
