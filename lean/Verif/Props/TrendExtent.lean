import Verif.Props.TrendHistory

/-!
# Property C96: how much of its source a trend scans
-/

namespace Curvepy
namespace Spec

/-- The search of a line begins at or before a position. -/
def SearchBegun (l : TLine) (x : ℚ) : Prop :=
  l.search.isEmpty = false ∧ (⟨l.search.lo, .pinf, l.search.loOpen, true⟩ : Iv).contains (.fin x) = true

/-- A trend that has scanned the points `pre` knows enough about the position: it got there, has a line, and all its
lines are searched after the position only. -/
def Settled (pre : List (Pt ℚ)) (s : Trd) (x : ℚ) : Prop :=
  (∃ p, pre.getLast? = some p ∧ x ≤ p.1) ∧ (∃ L ∈ s.upper ++ s.lower, L ≠ []) ∧
    ∀ L ∈ s.upper ++ s.lower, ∀ l ∈ L, ¬ SearchBegun l x

/-- The points `mid` follow the points `pre`, and the trend is settled after none of the beginnings. -/
def Unsettled (t0 : Trd) (pre mid : List (Pt ℚ)) (x : ℚ) : Prop :=
  ∀ a b, mid = a ++ b → b ≠ [] → ∀ s, ScansTo t0 (pre ++ a) s → ¬ Settled (pre ++ a) s x

end Spec

namespace Props
open Spec Trend

variable {t0 : Trd} {m : ℚ}

theorem begun_iff (l : TLine) (x : ℚ) : l.search.contains (.fin x) (enforceEnd := false) = true ↔ SearchBegun l x := by
  unfold SearchBegun
  rw [Iv.contains_iff]
  unfold Iv.contains
  have h : (⟨l.search.lo, .pinf, l.search.loOpen, true⟩ : Iv).leHi (.fin x) = true := by simp [Iv.leHi]
  have h' : (⟨l.search.lo, .pinf, l.search.loOpen, true⟩ : Iv).geLo (.fin x) = l.search.geLo (.fin x) := rfl
  rw [h, h']
  simp

theorem settled_iff {A : TScan} {pre rest : List (Pt ℚ)} (h : Trail t0 m A pre rest) (x : ℚ) :
    A.current.all (fun c => A.continueScan c x) = false ↔ Settled pre A.trd x := by
  have hcur := h.cur
  unfold Settled
  cases hl : pre.getLast? with
  | none =>
    rw [hl] at hcur
    rw [hcur]
    simp
  | some p =>
    rw [hl] at hcur
    simp only [Option.map_some] at hcur
    rw [hcur]
    have hin : A.domVal.contains (.fin p.1) = true := by
      have hp : p ∈ pre := List.mem_of_getLast? hl
      have h1 : A.src.domVal.contains (.fin p.1) = true := by
        rw [h.dom]
        exact Pts.getDomain_contains_mem h.asc (by simp [hp])
      have h2 := Iv.not_isEmpty_of_mem h1
      unfold TScan.domVal TScan.extended
      rw [h2, if_neg (by simp), Iv.contains_iff]
      rw [Iv.contains_iff] at h1
      exact ⟨h1.1, by simp [Iv.leHi]⟩
    simp only [Option.all_some, TScan.continueScan, hin, Bool.not_true, Bool.false_eq_true, if_false,
      Option.some.injEq, exists_eq_left']
    have hany : A.allLines.any
        (fun l => l.search.contains (.fin x) (enforceEnd := false)) = true ↔
        ∃ L ∈ A.trd.upper ++ A.trd.lower, ∃ l ∈ L, SearchBegun l x := by
      rw [TScan.allLines, ← List.flatten_append, List.any_eq_true]
      simp only [List.mem_flatten, begun_iff]
      constructor
      · rintro ⟨l, ⟨L, h1, h2⟩, h3⟩; exact ⟨L, h1, l, h2, h3⟩
      · rintro ⟨L, h1, l, h2, h3⟩; exact ⟨l, ⟨L, h1, h2⟩, h3⟩
    have hemp : A.allLines.isEmpty = false ↔
        ∃ L ∈ A.trd.upper ++ A.trd.lower, L ≠ [] := by
      rw [TScan.allLines, ← List.flatten_append, ← Bool.not_eq_true, List.isEmpty_iff, List.flatten_eq_nil_iff]
      push Not
      rfl
    by_cases h1 : p.1 < x
    · rw [if_pos h1]
      constructor
      · intro h; cases h
      · rintro ⟨h2, _⟩; linarith
    · rw [if_neg h1]
      by_cases h2 : A.allLines.any
        (fun l => l.search.contains (.fin x) (enforceEnd := false)) = true
      · rw [if_pos h2]
        constructor
        · intro h; cases h
        · rintro ⟨_, _, h3⟩
          obtain ⟨L, h4, l, h5, h6⟩ := hany.1 h2
          exact absurd h6 (h3 L h4 l h5)
      · rw [if_neg h2, hemp]
        constructor
        · intro h3
          exact ⟨not_lt.1 h1, h3, fun L h4 l h5 h6 => h2 (hany.2 ⟨L, h4, l, h5, h6⟩)⟩
        · exact fun h3 => h3.2.1

theorem unsettled_cons {A : TScan} {pre rest mid : List (Pt ℚ)} {p : Pt ℚ} {x : ℚ} (hs : ScansTo t0 pre A.trd)
    (h0 : ¬ Settled pre A.trd x) (h : Unsettled t0 (pre ++ [p]) mid x) : Unsettled t0 pre (p :: mid) x := by
  intro a b e hb s hsc
  cases a with
  | nil =>
    rw [List.append_nil] at hsc ⊢
    rw [scans_unique hsc hs]
    exact h0
  | cons q a =>
    simp only [List.cons_append, List.cons.injEq] at e
    obtain ⟨rfl, e⟩ := e
    have := h a b e hb s (by simpa using hsc)
    simpa using this

theorem unsettled_nil (t0 : Trd) (pre : List (Pt ℚ)) (x : ℚ) : Unsettled t0 pre [] x := by
  intro a b e hb
  simp only [List.nil_eq, List.append_eq_nil_iff] at e
  exact absurd e.2 hb

/-- What a scan for a position does from a trail. -/
def Ends (t0 : Trd) (m : ℚ) (pre rest : List (Pt ℚ)) (x : ℚ) : Except Err TScan → Prop
  | .ok B => ∃ mid rest', rest = mid ++ rest' ∧ Trail t0 m B (pre ++ mid) rest' ∧ Unsettled t0 pre mid x ∧
      (rest' = [] ∨ Settled (pre ++ mid) B.trd x)
  | .error e => ∃ mid p rest' s n, rest = mid ++ p :: rest' ∧ ScansTo t0 (pre ++ mid) s ∧
      Unsettled t0 pre (mid ++ [p]) x ∧ s.trendScan n p.1 p.2 = .error e

theorem scanLoop_ends (hm : 0 < m) (x : ℚ) : ∀ (n : ℕ) {A : TScan} {R : Except Err TScan} {pre rest : List (Pt ℚ)},
    Trail t0 m A pre rest → A.src.points ≠ [] → TScan.scanLoop x n A = some R → Ends t0 m pre rest x R
  | 0, A, B, pre, rest, _, _, e => by simp [TScan.scanLoop] at e
  | n + 1, A, B, pre, rest, h, hne, e => by
    rw [TScan.scanLoop] at e
    by_cases hgo : A.current.all (fun c => A.continueScan c x) = true
    · have hns : ¬ Settled pre A.trd x := by
        rw [← settled_iff h, hgo]; simp
      rw [if_pos hgo] at e
      cases rest with
      | nil =>
        cases hc : A.current with
        | none =>
          exfalso
          rw [h.pts, h.nil_of_cur hc] at hne
          exact hne rfl
        | some c =>
          have : A.nextPos x = .ok (A, none) := by
            unfold TScan.nextPos
            rw [hc]
            simp only [h.xNext hm hc, List.head?_nil, Option.map_none]
            rfl
          rw [this] at e
          simp only [Option.some.injEq] at e
          subst e
          exact ⟨[], [], rfl, by simpa using h, unsettled_nil _ _ _, .inl rfl⟩
      | cons p rest =>
        obtain ⟨C, hC, hT, hCs, hCt⟩ := h.nextPos hm x
        have hcon : C.src.domVal.contains (.fin p.1) = true := by
          rw [hT.dom]
          exact Pts.getDomain_contains_mem hT.asc (by simp)
        have hadv : C.current.any (fun k => decide (p.1 ≤ k)) = false := by
          rw [hT.cur]
          cases hl : pre.getLast? with
          | none => rfl
          | some q =>
            have := (List.pairwise_append.1 h.asc).2.2 q (List.mem_of_getLast? hl) p (by simp)
            simpa using this
        have hy : C.src.y (.fin p.1) = .ok p.2 := Props.C01_stored_value hT.src (by rw [hT.pts]; simp)
        rw [hC] at e
        simp only [hcon, Bool.not_true, Bool.false_eq_true, if_false, hadv, hy] at e
        split at e
        · rename_i er hs
          simp only [Option.some.injEq] at e
          subst e
          exact ⟨[], p, rest, C.trd, n, rfl, by simpa using hT.scans,
            unsettled_cons (A := A) (rest := rest) h.scans hns (unsettled_nil _ _ _), hs⟩
        · cases e
        · rename_i s hs
          have hT2 : Trail t0 m { C with trd := s, current := some p.1 } (pre ++ [p]) rest :=
            ⟨hT.src, by show C.src.points = _; rw [hT.pts]; simp, hT.gapped, hT.step, by simp, hT.start,
              .snoc hT.scans hs⟩
          have := scanLoop_ends hm x n hT2 (by show C.src.points ≠ []; rw [hCs]; exact hne) e
          cases B with
          | ok B =>
            obtain ⟨mid, rest', g1, g2, g3, g4⟩ := this
            exact ⟨p :: mid, rest', by rw [g1]; rfl, by simpa using g2,
              unsettled_cons (A := A) (rest := rest) h.scans hns g3, by simpa using g4⟩
          | error er =>
            obtain ⟨mid, q, rest', s, k, g1, g2, g3, g4⟩ := this
            exact ⟨p :: mid, q, rest', s, k, by rw [g1]; rfl, by simpa using g2,
              unsettled_cons (A := A) (rest := rest) h.scans hns g3, g4⟩
    · rw [if_neg hgo] at e
      simp only [Option.some.injEq] at e
      subst e
      simp only [Bool.not_eq_true] at hgo
      exact ⟨[], rest, rfl, by simpa using h, unsettled_nil _ _ _, .inr (by simpa using (settled_iff h x).1 hgo)⟩

/-- A query at or after the first point is a scan. -/
theorem Trail.query_eq {A : TScan} {pre rest ps : List (Pt ℚ)} {p : Pt ℚ} (h : Trail t0 m A pre rest)
    (hp : A.src.points = p :: ps) {x : ℚ} (hx : p.1 ≤ x) (n : ℕ) :
    A.query n x = (TScan.scanLoop x n A).map (Except.map fun B => (B, some (B.trd.scannedY (some x)))) := by
  have hasc := h.asc
  rw [← h.pts, hp] at hasc
  have hd' := h.dom
  rw [← h.pts, hp] at hd'
  have hdom : A.domVal.contains (.fin x) = true := by
    unfold TScan.domVal TScan.extended
    rw [hd', Pts.getDomain_not_isEmpty hasc (by simp), if_neg (by simp), Iv.contains_iff]
    simp [Iv.geLo, Iv.leHi, Pts.getDomain, Iv.closed]
    exact hx
  have hreset : (if A.scanStart.any (fun s => decide (x < s)) then A.resetScan else A) = A := by
    rw [if_neg]
    intro hs
    cases hss : A.scanStart with
    | none => rw [hss] at hs; cases hs
    | some s =>
      rw [hss] at hs
      simp only [Option.any_some, decide_eq_true_eq] at hs
      obtain ⟨p', hp', hps⟩ := h.start s hss
      rw [hp] at hp'
      cases hp'
      linarith
  unfold TScan.query TScan.scan
  rw [hreset, hdom]
  simp only [Bool.not_true, Bool.and_false, Bool.false_eq_true, if_false]
  cases TScan.scanLoop x n A with
  | none => rfl
  | some R => cases R <;> rfl

variable {w : ℚ} {k : ℕ} {d sr g : ℚ} {yr ya : Option ℚ}

/-- What a query does from a trail. -/
theorem Trail.query_ends (hm : 0 < m) {A B : TScan} {pre rest : List (Pt ℚ)} (h : Trail t0 m A pre rest) {n : ℕ} {x : ℚ}
    {v : Option (List TLine)} (hx : ∃ p ∈ A.src.points, p.1 ≤ x) (e : A.query n x = some (.ok (B, v))) :
    B.src = A.src ∧ v = some (B.trd.scannedY (some x)) ∧ Ends t0 m pre rest x (.ok B) := by
  obtain ⟨hsrc, _⟩ := h.query hm e
  obtain ⟨q, hq, hqx⟩ := hx
  obtain ⟨p, ps, hp⟩ := List.exists_cons_of_ne_nil (List.ne_nil_of_mem hq)
  have hpx : p.1 ≤ x := by
    have hasc := h.asc
    rw [← h.pts, hp] at hasc
    rw [hp] at hq
    rcases List.mem_cons.1 hq with rfl | hq
    · exact hqx
    · have := (List.pairwise_cons.1 hasc).1 q hq
      linarith
  rw [h.query_eq hp hpx] at e
  cases hR : TScan.scanLoop x n A with
  | none => rw [hR] at e; cases e
  | some R =>
    rw [hR] at e
    cases R with
    | error er => simp [Except.map] at e
    | ok C =>
      simp only [Option.map_some, Except.map, Option.some.injEq, Except.ok.injEq, Prod.mk.injEq] at e
      obtain ⟨rfl, rfl⟩ := e
      exact ⟨hsrc, rfl, scanLoop_ends hm x n h (by rw [hp]; simp) hR⟩

/-- C96 (partial: edits add points at the end): a query at or after the first point goes on from where the last one
stopped, and scans no point too many and none too few: it stops at the end of the source or as soon as the trend is
settled, and no sooner than it is.
Missing: other edits, see `C88_negation`. -/
theorem C96_extent_partial (hw : 0 < w) (hm : 0 < m) {A B : TScan}
    (h : Fed Appends (Trd.new w k d sr yr ya g) m A) {n : ℕ} {x : ℚ} {v : Option (List TLine)}
    (hx : ∃ p ∈ A.src.points, p.1 ≤ x) (e : A.query n x = some (.ok (B, v))) :
    B.src = A.src ∧ v = some (B.trd.scannedY (some x)) ∧
      ∃ pre mid rest, A.src.points = pre ++ mid ++ rest ∧ ScansTo (Trd.new w k d sr yr ya g) pre A.trd ∧
        A.current = pre.getLast?.map Prod.fst ∧ ScansTo (Trd.new w k d sr yr ya g) (pre ++ mid) B.trd ∧
        B.current = (pre ++ mid).getLast?.map Prod.fst ∧
        Unsettled (Trd.new w k d sr yr ya g) pre mid x ∧ (rest = [] ∨ Settled (pre ++ mid) B.trd x) := by
  obtain ⟨pre, rest, hT⟩ := fed_trail (clean_new hw k d sr yr ya g) hm h
  obtain ⟨hsrc, hv, mid, rest', h1, h2, h3, h4⟩ := hT.query_ends hm hx e
  exact ⟨hsrc, hv, pre, mid, rest', by rw [hT.pts, h1, List.append_assoc], hT.scans, hT.cur, h2.scans, h2.cur, h3, h4⟩

/-- C96, failures (partial: edits add points at the end): a query fails only if the trend fails to add one of the points
that have to be scanned. -/
theorem C96_failure_partial (hw : 0 < w) (hm : 0 < m) {A : TScan}
    (h : Fed Appends (Trd.new w k d sr yr ya g) m A) {n : ℕ} {x : ℚ} {er : Err}
    (e : A.query n x = some (.error er)) :
    ∃ pre mid p rest s l, A.src.points = pre ++ mid ++ p :: rest ∧ ScansTo (Trd.new w k d sr yr ya g) pre A.trd ∧
      ScansTo (Trd.new w k d sr yr ya g) (pre ++ mid) s ∧
      Unsettled (Trd.new w k d sr yr ya g) pre (mid ++ [p]) x ∧ s.trendScan l p.1 p.2 = .error er := by
  obtain ⟨pre, rest, hT⟩ := fed_trail (clean_new hw k d sr yr ya g) hm h
  have hne : ∃ p ps, A.src.points = p :: ps ∧ p.1 ≤ x := by
    by_contra hcon
    push Not at hcon
    unfold TScan.query at e
    have hout : (!A.src.domVal.contains (.fin x) && !A.domVal.contains (.fin x)) = true := by
      rw [Bool.and_eq_true]
      cases hp : A.src.points with
      | nil =>
        have h1 : A.src.domVal = Iv.empty := by rw [hT.dom, ← hT.pts, hp]; rfl
        unfold TScan.domVal TScan.extended
        rw [h1]
        exact ⟨rfl, rfl⟩
      | cons p ps =>
        have hlt := hcon p ps hp
        have hasc := hT.asc
        rw [← hT.pts, hp] at hasc
        have hd' := hT.dom
        rw [← hT.pts, hp] at hd'
        unfold TScan.domVal TScan.extended
        rw [hd', Pts.getDomain_not_isEmpty hasc (by simp), if_neg (by simp)]
        simp only [Bool.not_eq_true']
        constructor <;> by_contra hc <;> simp only [Bool.not_eq_false] at hc <;> rw [Iv.contains_iff] at hc <;>
          simp [Iv.geLo, Iv.leHi, Pts.getDomain, Iv.closed] at hc
        · linarith [hc.1]
        · linarith
    rw [if_pos hout] at e
    simp at e
  obtain ⟨p, ps, hp, hpx⟩ := hne
  rw [hT.query_eq hp hpx] at e
  cases hR : TScan.scanLoop x n A with
  | none => rw [hR] at e; cases e
  | some R =>
    rw [hR] at e
    cases R with
    | ok C => simp [Except.map] at e
    | error er' =>
      simp only [Option.map_some, Except.map, Option.some.injEq, Except.error.injEq] at e
      subst e
      obtain ⟨mid, q, rest', s, l, h1, h2, h3, h4⟩ := scanLoop_ends hm x n hT (by rw [hp]; simp) hR
      exact ⟨pre, mid, q, rest', s, l, by rw [hT.pts, h1, List.append_assoc], hT.scans, h2, h3, h4⟩

/-! ## C97 -/

/-- C97, the same query again (edits add points at the end): it scans nothing and returns the same lines. -/
theorem C97_again_partial (hw : 0 < w) (hm : 0 < m) {A B C : TScan} (h : Fed Appends (Trd.new w k d sr yr ya g) m A)
    {n l : ℕ} {x : ℚ} {v u : Option (List TLine)} (hx : ∃ p ∈ A.src.points, p.1 ≤ x)
    (e : A.query n x = some (.ok (B, v))) (f : B.query l x = some (.ok (C, u))) :
    C.trd = B.trd ∧ C.current = B.current ∧ u = v := by
  obtain ⟨pre, rest, hT⟩ := fed_trail (clean_new hw k d sr yr ya g) hm h
  obtain ⟨hs, hv, mid, rest', h1, h2, h3, h4⟩ := hT.query_ends hm hx e
  obtain ⟨_, hu, mid', rest'', g1, g2, g3, g4⟩ := h2.query_ends hm (by rw [hs]; exact hx) f
  have key : mid' = [] := by
    by_contra hne
    rcases h4 with h4 | h4
    · subst h4
      simp only [List.nil_eq, List.append_eq_nil_iff] at g1
      exact hne g1.1
    · exact g3 [] mid' rfl hne B.trd (by simpa using h2.scans) (by simpa using h4)
  subst key
  rw [List.append_nil] at g2
  have := scans_unique g2.scans h2.scans
  exact ⟨this, by rw [g2.cur, h2.cur], by rw [hu, hv, this]⟩

/-- C97 (partial: edits add points at the end, and the trend is settled at the position after no proper beginning of
the source): a query returns the lines of the trend that results from the scan of all points, whatever was asked before.
Missing: other positions, see `C97_negation`. -/
theorem C97_partial (hw : 0 < w) (hm : 0 < m) {A B : TScan} (h : Fed Appends (Trd.new w k d sr yr ya g) m A)
    {n : ℕ} {x : ℚ} {v : Option (List TLine)} (hx : ∃ p ∈ A.src.points, p.1 ≤ x)
    (hu : Unsettled (Trd.new w k d sr yr ya g) [] A.src.points x) (e : A.query n x = some (.ok (B, v))) :
    ScansTo (Trd.new w k d sr yr ya g) A.src.points B.trd ∧ v = some (B.trd.scannedY (some x)) := by
  obtain ⟨hs, hv, pre, mid, rest, h1, _, _, h3, _, _, h5⟩ := C96_extent_partial hw hm h hx e
  have key : rest = [] := by
    by_contra hne
    rcases h5 with h5 | h5
    · exact hne h5
    · exact hu (pre ++ mid) rest h1 hne B.trd (by simpa using h3) (by simpa using h5)
  rw [h1, key, List.append_nil]
  exact ⟨h3, hv⟩

/-- Two equal values, some above them and the first value again. -/
def basinPts : List (Pt ℚ) := [(0, some 1), (1, some 1), (2, some 2), (3, some 2), (4, some 2), (5, some 1)]

/-- A trend over the points. -/
def basin : TScan := TScan.new (loose basinPts) bumpTrd (1 / 100)

theorem basin_fed : Fed Appends bumpTrd (1 / 100) basin := by
  have h : (loose basinPts).points = basinPts := by decide +kernel
  refine .new (loose_honest (by norm_num [Ascending, basinPts]) ⟨1, by norm_num [basinPts]⟩ (by decide +kernel)) ?_
  rw [h]; norm_num [Gapped, basinPts]

/-- Disagreement with C97: over the same points, which do not change, a trend returns no line at the first point if that
is asked first, and returns one after a query at the last point. -/
theorem C97_negation : ∃ A B : TScan, Fed Appends bumpTrd (1 / 100) A ∧ Fed Appends bumpTrd (1 / 100) B ∧
    A.src.points = basinPts ∧ B.src.points = basinPts ∧
    (answer A 40 0).map List.length = some 0 ∧ (answer B 40 0).map List.length = some 1 :=
  ⟨basin, asked basin 40 5, basin_fed, fed_asked basin_fed 40 5, by decide +kernel, by decide +kernel,
    by decide +kernel, by decide +kernel⟩

/-- The query at the first point stops at the fifth of six points, one at the last point scans all. -/
example : (asked basin 40 0).current = some 4 ∧ (asked basin 40 5).current = some 5 ∧
    (asked (asked basin 40 0) 40 0).current = some 4 ∧
    ((answer (asked basin 40 5) 40 0).map fun ls => ls.map TLine.trend) = some [[(0, 1), (1, 1), (5, 1)]] := by
  refine ⟨?_, ?_, ?_, ?_⟩ <;> decide +kernel

end Props
end Curvepy
