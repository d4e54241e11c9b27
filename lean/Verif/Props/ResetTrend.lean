import Verif.Props.Reset
import Verif.Props.TrendHistory
import Verif.Props.TrendHull
import Verif.Props.TrendTermination

/-!
# Property C169: calculating a trend anew
-/

namespace Curvepy
namespace Props
open Spec Pts Trend

variable {m : ℚ}

/-- Both sides have a level of lines. -/
def Leveled (s : Trd) : Prop := s.upper ≠ [] ∧ s.lower ≠ []

theorem append_leveled {s s' : Trd} {u : Bool} {level : ℕ} {p : XY} {ps : List XY} (h : Leveled s)
    (e : s.appendValidate u level p = .ok (s', ps)) : Leveled s' := by
  unfold Trd.appendValidate at e
  simp only at e
  split at e
  · cases e
  · obtain ⟨v, -, e⟩ := bind_inv e
    obtain ⟨ls, -, e⟩ := bind_inv e
    have e3 := pure_inv e
    simp only [Prod.mk.injEq] at e3
    rw [← e3.1]
    have hset : ∀ (L : List (List TLine)), L ≠ [] → L.set level ls ≠ [] := by
      intro L hL hn
      have := congrArg List.length hn
      simp at this
      exact hL this
    cases u
    · exact ⟨h.1, hset _ h.2⟩
    · exact ⟨hset _ h.1, h.2⟩

theorem level_leveled {s s' : Trd} {level : ℕ} {pts ps : List XY} (h : Leveled s)
    (e : s.scanLevel level pts = .ok (s', ps)) : Leveled s' := by
  unfold Trd.scanLevel at e
  refine foldlM_all (P := fun r : Trd × List XY => Leveled r.1) ?_ (a := (s, [])) h e
  intro a b a' k e
  obtain ⟨⟨x, xs⟩, e1, e⟩ := bind_inv e
  obtain ⟨y, -, e⟩ := bind_inv e
  obtain ⟨⟨z, zs⟩, e2, e⟩ := bind_inv e
  obtain ⟨q, -, e⟩ := bind_inv e
  rw [← pure_inv e]
  exact append_leveled (append_leveled k e1) e2

/-- The trend where the loop stands. -/
def loopTrd : Trd.Loop → Trd
  | .done s => s
  | .more s _ _ => s

theorem loop_leveled : ∀ {n : ℕ} {s s' : Trd} {level : ℕ} {pts : List XY}, Leveled s →
    Trd.scanLoop n s level pts = .ok (.done s') → Leveled s'
  | 0, s, s', level, pts, h, e => by simp [Trd.scanLoop] at e
  | n + 1, s, s', level, pts, h, e => by
    rw [Trd.scanLoop] at e
    obtain ⟨r, e1, e⟩ := bind_inv e
    have hr : Leveled (loopTrd r) := by
      unfold Trd.scanStep at e1
      split_ifs at e1 with h1
      · obtain ⟨⟨v, vs⟩, e2, e1⟩ := bind_inv e1
        have hv := level_leveled h e2
        simp only at e1
        split_ifs at e1 with h2 h3
        · rw [← pure_inv e1]; exact hv
        · rw [← pure_inv e1]; exact ⟨by simp [loopTrd], by simp [loopTrd]⟩
        · rw [← pure_inv e1]; exact hv
      · rw [← pure_inv e1]; exact h
    cases r with
    | done w =>
      have := pure_inv e
      rw [← Trd.Loop.done.inj this]
      exact hr
    | more w l q => exact loop_leveled hr e

theorem nested_leveled {dom : Iv} {points : List XY} {L L' : List (List TLine)} (h : L ≠ [])
    (e : Trd.updateNested dom points L = .ok L') : L' ≠ [] := by
  unfold Trd.updateNested at e
  obtain ⟨M, e1, e⟩ := bind_inv e
  have hM : M ≠ [] := by
    rintro rfl
    cases hr : L.reverse with
    | nil => exact h (List.reverse_eq_nil_iff.1 hr)
    | cons a as =>
      rw [hr, List.mapM_cons] at e1
      obtain ⟨b, -, e1⟩ := bind_inv e1
      obtain ⟨m', -, e1⟩ := bind_inv e1
      have := pure_inv e1
      cases this
  split at e
  · rename_i hr
    exact absurd (List.reverse_eq_nil_iff.1 hr) hM
  · rw [← pure_inv e]; simp

theorem kind_leveled : Kind Leveled where
  scan := by
    intro s s' n x y h e
    unfold Trd.trendScan at e
    cases y with
    | none =>
      simp only [Except.ok.injEq, Trd.Loop.done.injEq] at e
      rw [← e]; exact h
    | some y => exact loop_leveled (s := { s with points := s.points ++ [(x, y)] }) h e
  update := by
    intro s s' dom h e
    unfold Trd.beginUpdate at e
    simp only at e
    obtain ⟨up, e1, e⟩ := bind_inv e
    obtain ⟨lo, e2, e⟩ := bind_inv e
    rw [← pure_inv e]
    exact ⟨nested_leveled h.1 e1, nested_leveled h.2 e2⟩

/-- A line with points searches somewhere. -/
theorem grown_searches {l : TLine} (h : Grown l) (hw : 0 < l.minWidth) (hn : l.trend ≠ []) : l.search.isEmpty = false := by
  have closed : ∀ {a b : ℚ}, a ≤ b → (Iv.closed a b).isEmpty = false := by
    intro a b h
    rw [Iv.not_isEmpty_iff]
    rcases h.lt_or_eq with h | rfl
    · exact Or.inl (by simpa [Iv.closed] using h)
    · exact Or.inr ⟨rfl, rfl, rfl⟩
  have half : ∀ {a b : ℚ}, a < b → (Iv.closedOpen a b).isEmpty = false := by
    intro a b h
    rw [Iv.not_isEmpty_iff]
    exact Or.inl (by simpa [Iv.closedOpen] using h)
  rw [C84_search h hw]
  have hf := grown_fit h
  cases hl : l.line with
  | none =>
    rw [hl] at hf
    match ht : l.trend with
    | [] => exact absurd ht hn
    | [p] => simp only [searchOf, hl, ht]; exact closed le_rfl
    | [p, q] => rw [ht] at hf; simp [lineFit] at hf
    | p :: q :: r :: rest =>
      rw [ht] at hf
      simp only [lineFit] at hf
      obtain ⟨f, -, hf⟩ := bind_inv hf
      cases pure_inv hf
  | some k =>
    have ha := (grown_kept h hw).asc k hl
    have hd : 0 < k.2.1 - k.1.1 := by linarith
    simp only [searchOf, hl]
    split_ifs with h1 h2
    · exact closed le_rfl
    · exact closed ha.le
    · have hp : 0 < l.searchRel * (k.2.1 - k.1.1) := mul_pos (not_le.1 h2) hd
      split
      · split_ifs with h3
        · exact half h3.1
        · exact half (by linarith)
      · exact half (by linarith)

theorem fed_keeps {allowed : Op ℚ → Prop} {t0 : Trd} {A : TScan} (h : Fed allowed t0 m A) :
    Honest A.src ∧ Gapped m A.src.points ∧ A.minStep = m := by
  induction h with
  | new hs hg => exact ⟨hs, hg, rfl⟩
  | query h hq ih =>
    obtain ⟨g1, g2⟩ := query_keeps hq
    rw [g1, g2]; exact ih
  | edit h ha hl he ht hg hB ih =>
    obtain ⟨g1, g2⟩ := notify_keeps hB
    rw [g1, g2]
    exact ⟨.edit ih.1 hl he ht, hg, ih.2.2⟩

/-- C169: a trend is after a new calculation a trend made now, after any edits and queries, and it does not raise. -/
theorem C169_trend {allowed : Op ℚ → Prop} {w d sr g : ℚ} {k : ℕ} {yr ya : Option ℚ} {A : TScan} (hw : 0 < w)
    (h : Fed allowed (Trd.new w k d sr yr ya g) m A) :
    A.recalculate = .ok (TScan.new A.src (Trd.new w k d sr yr ya g) m) := by
  have h0 : TrdScanned (Trd.new w k d sr yr ya g) := TrdScanned.new _ _ _ _ _ _ _
  obtain ⟨-, hA⟩ := fed_kind (kind_scanned _) ⟨h0, scanned_all h0⟩ h
  obtain ⟨hu, hl⟩ := fed_kind kind_leveled ⟨by simp [Trd.new], by simp [Trd.new]⟩ h
  rw [trend_bare A hu hl, (fed_keeps h).2.2]
  · congr 2
    have e := hA.same
    cases hs : A.trd with
    | mk a1 a2 a3 a4 a5 a6 a7 a8 a9 a10 =>
      rw [hs] at e
      obtain ⟨e1, e2, e3, e4, e5, e6, e7⟩ := e
      simp only at e1 e2 e3 e4 e5 e6 e7
      subst e1 e2 e3 e4 e5 e6 e7
      rfl
  · intro t ht hn
    have : Made (Trd.new w k d sr yr ya g) true t ∨ Made (Trd.new w k d sr yr ya g) false t := by
      simp only [TScan.allLines, List.mem_append, List.mem_flatten] at ht
      rcases ht with ⟨ls, h1, h2⟩ | ⟨ls, h1, h2⟩
      · exact Or.inl (hA.upper ls h1 t h2)
      · exact Or.inr (hA.lower ls h1 t h2)
    have : Grown t ∧ t.minWidth = w := by
      rcases this with h | h <;> exact ⟨h.1, h.2.width⟩
    exact grown_searches this.1 (by rw [this.2]; exact hw) hn

/-- C169: what C88 and C89 say of trends that were only appended to holds again after a new calculation. -/
theorem C169_trend_again {allowed allowed' : Op ℚ → Prop} {w d sr g : ℚ} {k : ℕ} {yr ya : Option ℚ} {A B : TScan} (hw : 0 < w)
    (h : Fed allowed (Trd.new w k d sr yr ya g) m A) (e : A.recalculate = .ok B) : Fed allowed' (Trd.new w k d sr yr ya g) m B := by
  rw [C169_trend hw h] at e
  rw [← Except.ok.inj e]
  exact .new (fed_keeps h).1 (fed_keeps h).2.1

/-! ## Examples -/

/-- The witness of C89 put right: one line again. -/
example : (match (asked bumped 30 3).recalculate with
      | .ok A => (answer A 30 3).map List.length
      | .error _ => none) = some 1 ∧ (answer (asked bumped 30 3) 30 3).map List.length = some 0 := by
  refine ⟨?_, ?_⟩ <;> decide +kernel

example : (asked bumped 30 3).recalculate = .ok (TScan.new (asked bumped 30 3).src bumpTrd (1 / 100)) :=
  C169_trend one_pos (fed_asked bumped_fed 30 3)

end Props
end Curvepy
