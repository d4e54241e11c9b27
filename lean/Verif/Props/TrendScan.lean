import Verif.Props.TrendLine

/-!
# Properties of trends: scanning
-/

namespace Curvepy
namespace Props
open Spec Trend

/-- No point is on the trend of the line. -/
def Inert (o : TLine) : Prop := ∀ p, o.onTrend p = .ok false

/-- A criterion to compute with. -/
def blank (o : TLine) : Bool :=
  o.line.isNone ||
    match o.tolLower, o.tolUpper with
    | some a, some b => decide (a.1.1 ≠ a.2.1) && decide (b.1.1 ≠ b.2.1) && decide (a.1.2 = a.2.2) &&
        decide (b.1.2 = b.2.2) && decide (b.1.2 < a.1.2)
    | _, _ => false

theorem lineY_flat {l : Chord} (h1 : l.1.1 ≠ l.2.1) (h2 : l.1.2 = l.2.2) (x : ℚ) : lineY l x = some l.1.2 := by
  refine (((C57_line_y l x l.1.2).1 h1)).mpr ?_
  unfold OnLine
  simp only
  rw [h2]; ring

theorem blank_inert {o : TLine} (h : blank o = true) : Inert o := by
  intro p
  unfold TLine.onTrend
  unfold blank at h
  cases hl : o.line with
  | none => simp
  | some l =>
    rw [hl] at h
    simp only [Option.isNone_some, Bool.false_or] at h
    split_ifs
    · rfl
    · split at h
      · rename_i a b ha hb
        simp only [Bool.and_eq_true, decide_eq_true_eq] at h
        obtain ⟨⟨⟨⟨h1, h2⟩, h3⟩, h4⟩, h5⟩ := h
        rw [ha, hb]
        simp only [need, bind, Except.bind, lineY_flat h1 h3, lineY_flat h2 h4]
        split_ifs with h6
        · simp only [pure, Except.pure, Except.ok.injEq, decide_eq_false_iff_not]
          intro h7; linarith
        · rfl
      · cases h

theorem inert_list {line : TLine} {ls : List TLine} (hl : line.line.isSome = true) (h : ∀ o ∈ ls, Inert o) :
    ∀ j, Trd.hasCoincident line none j ls = .ok false := by
  induction ls with
  | nil => intro j; rfl
  | cons o ls ih =>
    intro j
    rw [Trd.hasCoincident, ih (fun o ho => h o (List.mem_cons_of_mem _ ho))]
    have : o.lineCoincident line = .ok false := by
      unfold TLine.lineCoincident
      cases hk : line.line with
      | none => rw [hk] at hl; cases hl
      | some l => simp [need, bind, Except.bind, h o List.mem_cons_self l.1, pure, Except.pure]
    rw [this]
    split_ifs <;> rfl

theorem inert_nested {line : TLine} {L : List TLine} {i k0 : ℕ} (hl : line.line.isSome = true) :
    ∀ (pre : List (List TLine)) (k : ℕ), (∀ ls ∈ pre, ∀ o ∈ ls, Inert o) →
      Trd.hasCoincidentNested line (k + pre.length) i k (pre ++ [L]) = Trd.hasCoincidentNested line k0 i k0 [L]
  | [], k, _ => by
    simp [Trd.hasCoincidentNested]
  | ls :: pre, k, h => by
    rw [List.cons_append, Trd.hasCoincidentNested, if_neg (by simp), inert_list hl (h ls List.mem_cons_self)]
    have := inert_nested (L := L) (i := i) (k0 := k0) hl pre (k + 1) (fun l hl => h l (List.mem_cons_of_mem _ hl))
    rw [show k + (ls :: pre).length = k + 1 + pre.length by simp; omega]
    simpa [bind, Except.bind] using this

theorem valid_ready {t : TLine} (h : t.isValid = true) : t.line.isSome = true := by
  unfold TLine.isValid at h
  split_ifs at h with h1 h2
  simp only [Bool.or_eq_true, Bool.not_eq_true', not_or] at h1
  exact Option.isSome_iff_ne_none.mpr (by simpa [TLine.isReady] using h1.1.1)

theorem inert_validate {pre : List (List TLine)} {L : List TLine} {ps : List XY} {p : XY}
    (h : ∀ ls ∈ pre, ∀ o ∈ ls, Inert o) (v : Trd.Vals) (i : ℕ) :
    Trd.validateAt ps (pre ++ [L]) pre.length p v i = Trd.validateAt ps [L] 0 p v i := by
  unfold Trd.validateAt
  split
  · rfl
  · rename_i line _
    cases line.didAppend p ps with
    | error e => rfl
    | ok r =>
      simp only [bind, Except.bind]
      split_ifs with h1 h2 h3
      · have : (pre ++ [L]).set pre.length (v.lines.set i r.1) = pre ++ [v.lines.set i r.1] := by simp
        rw [this]
        have := inert_nested (L := v.lines.set i r.1) (i := i) (k0 := 0) (valid_ready h2) pre 0 h
        rw [Nat.zero_add] at this
        rw [this]
        rfl
      all_goals rfl

theorem inert_upper {s : Trd} {pre : List (List TLine)} {L : List TLine} {p : XY}
    (hs : s.upper = pre ++ [L]) (h : ∀ ls ∈ pre, ∀ o ∈ ls, Inert o) :
    s.appendValidate true pre.length p = (Trd.appendValidate { s with upper := [L] } true 0 p).map fun r =>
        ({ s with upper := pre ++ r.1.upper }, r.2) := by
  unfold Trd.appendValidate
  have hv : Trd.validateAt s.points (pre ++ [L]) pre.length p = Trd.validateAt s.points [L] 0 p :=
    funext fun v => funext fun i => inert_validate h v i
  simp only [if_true, hs, List.getElem?_concat_length, List.getElem?_cons_zero, hv]
  cases (List.range L.length).foldlM (Trd.validateAt s.points [L] 0 p) ⟨L, [], []⟩ with
  | error e => rfl
  | ok v =>
    simp only [bind, Except.bind]
    have : s.tryFork true (List.foldl (fun ls i => ls.eraseIdx i) v.lines v.remove.reverse) p =
      Trd.tryFork { s with upper := [L] } true
        (List.foldl (fun ls i => ls.eraseIdx i) v.lines v.remove.reverse) p := rfl
    rw [this]
    cases Trd.tryFork { s with upper := [L] } true
        (List.foldl (fun ls i => ls.eraseIdx i) v.lines v.remove.reverse) p with
    | error e => rfl
    | ok ls => simp [pure, Except.pure, Except.map]

theorem inert_lower {s : Trd} {pre : List (List TLine)} {L : List TLine} {p : XY}
    (hs : s.lower = pre ++ [L]) (h : ∀ ls ∈ pre, ∀ o ∈ ls, Inert o) :
    s.appendValidate false pre.length p = (Trd.appendValidate { s with lower := [L] } false 0 p).map fun r =>
        ({ s with lower := pre ++ r.1.lower }, r.2) := by
  unfold Trd.appendValidate
  have hv : Trd.validateAt s.points (pre ++ [L]) pre.length p = Trd.validateAt s.points [L] 0 p :=
    funext fun v => funext fun i => inert_validate h v i
  simp only [Bool.false_eq_true, if_false, hs, List.getElem?_concat_length, List.getElem?_cons_zero, hv]
  cases (List.range L.length).foldlM (Trd.validateAt s.points [L] 0 p) ⟨L, [], []⟩ with
  | error e => rfl
  | ok v =>
    simp only [bind, Except.bind]
    have : s.tryFork false (List.foldl (fun ls i => ls.eraseIdx i) v.lines v.remove.reverse) p =
      Trd.tryFork { s with lower := [L] } false
        (List.foldl (fun ls i => ls.eraseIdx i) v.lines v.remove.reverse) p := rfl
    rw [this]
    cases Trd.tryFork { s with lower := [L] } false
        (List.foldl (fun ls i => ls.eraseIdx i) v.lines v.remove.reverse) p with
    | error e => rfl
    | ok ls => simp [pure, Except.pure, Except.map]

theorem frame_upper (s : Trd) (k : ℕ) (p : XY) (x : List (List TLine)) :
    Trd.appendValidate { s with lower := x } true k p =
      (s.appendValidate true k p).map fun r => ({ r.1 with lower := x }, r.2) := by
  unfold Trd.appendValidate
  simp only [if_true]
  cases s.upper[k]? with
  | none => rfl
  | some L =>
    simp only
    cases (List.range L.length).foldlM (Trd.validateAt s.points s.upper k p) ⟨L, [], []⟩ with
    | error e => rfl
    | ok v =>
      simp only [bind, Except.bind]
      have : Trd.tryFork { s with lower := x } true
          (List.foldl (fun ls i => ls.eraseIdx i) v.lines v.remove.reverse) p =
        s.tryFork true (List.foldl (fun ls i => ls.eraseIdx i) v.lines v.remove.reverse) p := rfl
      rw [this]
      cases s.tryFork true (List.foldl (fun ls i => ls.eraseIdx i) v.lines v.remove.reverse) p <;> rfl

theorem frame_lower (s : Trd) (k : ℕ) (p : XY) (x : List (List TLine)) :
    Trd.appendValidate { s with upper := x } false k p =
      (s.appendValidate false k p).map fun r => ({ r.1 with upper := x }, r.2) := by
  unfold Trd.appendValidate
  simp only [Bool.false_eq_true, if_false]
  cases s.lower[k]? with
  | none => rfl
  | some L =>
    simp only
    cases (List.range L.length).foldlM (Trd.validateAt s.points s.lower k p) ⟨L, [], []⟩ with
    | error e => rfl
    | ok v =>
      simp only [bind, Except.bind]
      have : Trd.tryFork { s with upper := x } false
          (List.foldl (fun ls i => ls.eraseIdx i) v.lines v.remove.reverse) p =
        s.tryFork false (List.foldl (fun ls i => ls.eraseIdx i) v.lines v.remove.reverse) p := rfl
      rw [this]
      cases s.tryFork false (List.foldl (fun ls i => ls.eraseIdx i) v.lines v.remove.reverse) p <;> rfl

/-- What a level of a scan does to the lines and to the attributes. -/
theorem append_upper {s u : Trd} {L : List TLine} {p : XY} {n : List XY} (hs : s.upper = [L])
    (h : s.appendValidate true 0 p = .ok (u, n)) : ∃ U, u = { s with upper := [U] } := by
  unfold Trd.appendValidate at h
  simp only [if_true, hs, List.getElem?_cons_zero] at h
  obtain ⟨v, -, h⟩ := bind_inv h
  obtain ⟨ls, -, h⟩ := bind_inv h
  have := pure_inv h
  simp only [List.set_cons_zero, Prod.mk.injEq] at this
  exact ⟨ls, this.1.symm⟩

theorem append_lower {s u : Trd} {L : List TLine} {p : XY} {n : List XY} (hs : s.lower = [L])
    (h : s.appendValidate false 0 p = .ok (u, n)) : ∃ U, u = { s with lower := [U] } := by
  unfold Trd.appendValidate at h
  simp only [Bool.false_eq_true, if_false, hs, List.getElem?_cons_zero] at h
  obtain ⟨v, -, h⟩ := bind_inv h
  obtain ⟨ls, -, h⟩ := bind_inv h
  have := pure_inv h
  simp only [List.set_cons_zero, Prod.mk.injEq] at this
  exact ⟨ls, this.1.symm⟩

/-- The round for one point of a level. -/
def levelStep (k : ℕ) (r : Trd × List XY) (p : XY) : Except Err (Trd × List XY) := do
  let u ← Trd.appendValidate r.1 true k p
  let all ← insortAll r.2 u.2
  let l ← Trd.appendValidate u.1 false k p
  let all ← insortAll all l.2
  pure (l.1, all)

theorem inert_step {s u : Trd} {pu pl : List (List TLine)} {U L : List TLine} {p : XY} {a b : List XY}
    (hk : pl.length = pu.length)
    (hu : ∀ ls ∈ pu, ∀ o ∈ ls, Inert o) (hl : ∀ ls ∈ pl, ∀ o ∈ ls, Inert o)
    (h : levelStep 0 ({ s with upper := [U], lower := [L] }, a) p = .ok (u, b)) :
    ∃ U' L', u = { s with upper := [U'], lower := [L'] } ∧
      levelStep pu.length ({ s with upper := pu ++ [U], lower := pl ++ [L] }, a) p =
        .ok ({ s with upper := pu ++ [U'], lower := pl ++ [L'] }, b) := by
  unfold levelStep at h ⊢
  obtain ⟨⟨v, n⟩, e1, h⟩ := bind_inv h
  obtain ⟨al, e2, h⟩ := bind_inv h
  obtain ⟨⟨w, m⟩, e3, h⟩ := bind_inv h
  obtain ⟨al', e4, h⟩ := bind_inv h
  have := pure_inv h
  simp only [Prod.mk.injEq] at this
  obtain ⟨rfl, rfl⟩ := this
  obtain ⟨U', rfl⟩ := append_upper (L := U) rfl e1
  obtain ⟨L', rfl⟩ := append_lower (L := L) rfl e3
  refine ⟨U', L', rfl, ?_⟩
  have f1 : Trd.appendValidate { s with upper := pu ++ [U], lower := pl ++ [L] } true pu.length p =
      .ok ({ s with upper := pu ++ [U'], lower := pl ++ [L] }, n) := by
    rw [inert_upper (L := U) rfl hu]
    have := frame_upper { s with upper := [U], lower := [L] } 0 p (pl ++ [L])
    rw [e1] at this
    simp only at this ⊢
    rw [this]
    rfl
  have f2 : Trd.appendValidate { s with upper := pu ++ [U'], lower := pl ++ [L] } false pu.length p =
      .ok ({ s with upper := pu ++ [U'], lower := pl ++ [L'] }, m) := by
    rw [← hk, inert_lower (L := L) rfl hl]
    have := frame_lower { s with upper := [U'], lower := [L] } 0 p (pu ++ [U'])
    rw [e3] at this
    simp only at this ⊢
    rw [this]
    rfl
  simp only [f1, bind, Except.bind, e2, f2, e4]
  rfl

theorem inert_fold {s : Trd} {pu pl : List (List TLine)} (hk : pl.length = pu.length)
    (hu : ∀ ls ∈ pu, ∀ o ∈ ls, Inert o) (hl : ∀ ls ∈ pl, ∀ o ∈ ls, Inert o) :
    ∀ (ps : List XY) (U L : List TLine) (a b : List XY) (u : Trd),
      ps.foldlM (levelStep 0) ({ s with upper := [U], lower := [L] }, a) = .ok (u, b) →
      ∃ U' L', u = { s with upper := [U'], lower := [L'] } ∧
        ps.foldlM (levelStep pu.length) ({ s with upper := pu ++ [U], lower := pl ++ [L] }, a) =
          .ok ({ s with upper := pu ++ [U'], lower := pl ++ [L'] }, b)
  | [], U, L, a, b, u, h => by
    have := pure_inv h
    simp only [Prod.mk.injEq] at this
    obtain ⟨rfl, rfl⟩ := this
    exact ⟨U, L, rfl, rfl⟩
  | p :: ps, U, L, a, b, u, h => by
    rw [List.foldlM_cons] at h ⊢
    obtain ⟨⟨v, c⟩, e, h⟩ := bind_inv h
    obtain ⟨U', L', rfl, h2⟩ := inert_step hk hu hl e
    rw [h2]
    exact inert_fold hk hu hl ps U' L' c b u h

/-- A level with the same points as the one before, on top of inert levels, ends with the same points. -/
theorem inert_round {s u : Trd} {pu pl : List (List TLine)} {ps : List XY} (hk : pl.length = pu.length)
    (hu : ∀ ls ∈ pu, ∀ o ∈ ls, Inert o) (hl : ∀ ls ∈ pl, ∀ o ∈ ls, Inert o) (hne : ps ≠ [])
    (h : Trd.scanLevel { s with upper := [[]], lower := [[]] } 0 ps = .ok (u, ps)) :
    ∃ U L, u = { s with upper := [U], lower := [L] } ∧
      Trd.scanStep { s with upper := pu ++ [[]], lower := pl ++ [[]] } pu.length ps =
        .ok (.more { s with upper := pu ++ [U] ++ [[]], lower := pl ++ [L] ++ [[]] } (pu.length + 1) ps) := by
  obtain ⟨U, L, rfl, h2⟩ := inert_fold hk hu hl ps [] [] [] ps u h
  refine ⟨U, L, rfl, ?_⟩
  unfold Trd.scanStep
  rw [if_pos (by simp)]
  have h2' : Trd.scanLevel { s with upper := pu ++ [[]], lower := pl ++ [[]] } pu.length ps =
    .ok ({ s with upper := pu ++ [U], lower := pl ++ [L] }, ps) := h2
  rw [h2']
  simp only [bind, Except.bind]
  rw [if_neg (by simpa using hne), if_pos (by simp)]
  rfl

/-- Such levels are added for ever. -/
theorem inert_loop {s : Trd} {U L : List TLine} {ps : List XY} (hne : ps ≠ [])
    (h : Trd.scanLevel { s with upper := [[]], lower := [[]] } 0 ps =
      .ok ({ s with upper := [U], lower := [L] }, ps))
    (hU : ∀ o ∈ U, Inert o) (hL : ∀ o ∈ L, Inert o) :
    ∀ (n : ℕ) (pu pl : List (List TLine)), pl.length = pu.length → (∀ ls ∈ pu, ∀ o ∈ ls, Inert o) →
      (∀ ls ∈ pl, ∀ o ∈ ls, Inert o) →
      ∃ s' l p, Trd.scanLoop n { s with upper := pu ++ [[]], lower := pl ++ [[]] } pu.length ps = .ok (.more s' l p)
  | 0, pu, pl, _, _, _ => ⟨_, _, _, rfl⟩
  | n + 1, pu, pl, hk, hu, hl => by
    obtain ⟨U', L', e, h2⟩ := inert_round hk hu hl hne h
    simp only [Trd.mk.injEq, List.cons.injEq, and_true, true_and] at e
    obtain ⟨rfl, rfl⟩ := e
    rw [Trd.scanLoop, h2]
    simp only [bind, Except.bind]
    have := inert_loop hne h hU hL n (pu ++ [U]) (pl ++ [L]) (by simp [hk])
      (by
        intro ls hls
        rcases List.mem_append.mp hls with h | h
        · exact hu ls h
        · rw [List.mem_singleton.mp h]; exact hU)
      (by
        intro ls hls
        rcases List.mem_append.mp hls with h | h
        · exact hl ls h
        · rw [List.mem_singleton.mp h]; exact hL)
    rw [show (pu ++ [U]).length = pu.length + 1 by simp] at this
    exact this

theorem scanLoop_more {s' : Trd} {l' : ℕ} {p' : List XY} :
    ∀ (m : ℕ) {s : Trd} {l : ℕ} {p : List XY}, Trd.scanLoop m s l p = .ok (.more s' l' p') →
      ∀ n, Trd.scanLoop (m + n) s l p = Trd.scanLoop n s' l' p'
  | 0, s, l, p, h, n => by
    simp only [Trd.scanLoop, Except.ok.injEq, Trd.Loop.more.injEq] at h
    obtain ⟨rfl, rfl, rfl⟩ := h
    rw [Nat.zero_add]
  | m + 1, s, l, p, h, n => by
    rw [Trd.scanLoop] at h
    obtain ⟨r, e, h⟩ := bind_inv h
    rw [show m + 1 + n = m + n + 1 by omega, Trd.scanLoop, e]
    cases r with
    | done s => cases h
    | more a b c => exact scanLoop_more m h n

theorem scanLoop_less {s' : Trd} {l' : ℕ} {p' : List XY} :
    ∀ (m n : ℕ) {s : Trd} {l : ℕ} {p : List XY}, Trd.scanLoop (n + m) s l p = .ok (.more s' l' p') →
      ∃ a b c, Trd.scanLoop n s l p = .ok (.more a b c)
  | _, 0, s, l, p, _ => ⟨_, _, _, rfl⟩
  | m, n + 1, s, l, p, h => by
    rw [show n + 1 + m = n + m + 1 by omega, Trd.scanLoop] at h
    obtain ⟨r, e, h⟩ := bind_inv h
    rw [Trd.scanLoop, e]
    cases r with
    | done s => cases h
    | more a b c => exact scanLoop_less m n h

/-- What the scans of some points give, to compute with. -/
def scanned (s : Trd) : List XY → Trd
  | [] => s
  | p :: ps => match s.trendScan 20 p.1 (some p.2) with
    | .ok (.done s) => scanned s ps
    | _ => s

theorem scanned_scanned {s : Trd} (h : TrdScanned s) : ∀ ps, TrdScanned (scanned s ps) := by
  intro ps
  induction ps generalizing s with
  | nil => exact h
  | cons p ps ih =>
    unfold scanned
    split
    · rename_i e; exact ih (.scan h e)
    · exact h

/-- The trend of the example, with the default tolerance. -/
def negative : Trd := scanned (Trd.new 1 3 0 10 none none (8 / 5)) [(0, -1), (1, -1), (2, -1)]

/-- After two rounds. -/
def negative2 : Trd :=
  match negative.trendScan 2 3 (some (-1)) with
  | .ok (.more s _ _) => s
  | _ => negative

/-- The points of every round from the third on. -/
def negativePts : List XY := [(0, -1), (0, -1), (1, -1), (1, -1), (2, -1), (2, -1), (3, -1), (3, -1)]

/-- The lines of every level from the third on. -/
def negativeLevel : Trd :=
  match Trd.scanLevel { negative2 with upper := [[]], lower := [[]] } 0 negativePts with
  | .ok r => r.1
  | _ => negative

/-- Disagreement with C74: with the default tolerance, the fourth of four points at `-1` is scanned for ever. -/
theorem C74_negation : ∃ s : Trd, TrdScanned s ∧ s.points = [(0, -1), (1, -1), (2, -1)] ∧ s.yRel = some (1 / 100) ∧
    s.minPoints = 3 ∧ Endless s 3 (some (-1)) := by
  refine ⟨negative, scanned_scanned (TrdScanned.new _ _ _ _ _ _ _) _, by decide +kernel, by decide +kernel,
    by decide +kernel, ?_⟩
  have h1 : negative.trendScan 2 3 (some (-1)) = .ok (.more negative2 2 negativePts) := by decide +kernel
  have h2 : negative2 =
      { negative2 with upper := negative2.upper.take 2 ++ [[]], lower := negative2.lower.take 2 ++ [[]] } := by
    decide +kernel
  have h3 : Trd.scanLevel { negative2 with upper := [[]], lower := [[]] } 0 negativePts =
      .ok ({ negative2 with upper := [negativeLevel.upper.flatten], lower := [negativeLevel.lower.flatten] },
        negativePts) := by decide +kernel
  have b1 : (negative2.upper.take 2).all (·.all blank) = true := by decide +kernel
  have b2 : (negative2.lower.take 2).all (·.all blank) = true := by decide +kernel
  have b3 : negativeLevel.upper.flatten.all blank = true := by decide +kernel
  have b4 : negativeLevel.lower.flatten.all blank = true := by decide +kernel
  simp only [List.all_eq_true] at b1 b2 b3 b4
  have key := fun n => inert_loop (s := negative2) (by decide) h3 (fun o ho => blank_inert (b3 o ho))
    (fun o ho => blank_inert (b4 o ho)) n (negative2.upper.take 2) (negative2.lower.take 2) (by decide +kernel)
    (fun ls hl o ho => blank_inert (b1 ls hl o ho)) (fun ls hl o ho => blank_inert (b2 ls hl o ho))
  rw [← h2, show (negative2.upper.take 2).length = 2 by decide +kernel] at key
  intro n
  unfold Trd.trendScan at h1 ⊢
  obtain ⟨a, b, c, h⟩ := key n
  have := scanLoop_more 2 h1 n
  rw [h, Nat.add_comm] at this
  exact scanLoop_less 2 n this

/-- The same points above zero are scanned. -/
example : (scanned (Trd.new 1 3 0 10 none none (8 / 5)) [(0, 1), (1, 1), (2, 1), (3, 1)]).points.length = 4 := by
  decide +kernel

/-! ### The first points -/

theorem append_length {t u : TLine} {p : XY} {ps : List XY} {b : Bool} {k : ℕ} (h : t.didAppend p ps = .ok (u, b))
    (h1 : t.boundary.length ≤ k) (h2 : t.trend.length ≤ k) : u.boundary.length ≤ k + 1 ∧ u.trend.length ≤ k + 1 := by
  rcases append_cases h with rfl | ⟨bs, ts, e1, e2, e⟩ | ⟨-, -, v, c, e1, e2⟩
  · omega
  · have hb := insort_length e1
    have ht : ts.length ≤ k + 1 := by
      rcases e2 with rfl | ⟨-, -, e2⟩
      · omega
      · have := insort_length e2; omega
    obtain ⟨h3, h4⟩ := TLine.updateTrend_length e
    simp only at h3 h4
    refine ⟨by omega, h4.trans (max_le (by omega) ht)⟩
  · obtain ⟨i, a, e, s, rfl⟩ := TLine.updatePoi_eq e1
    obtain ⟨d, rfl⟩ := TLine.updatePrediction_eq e2
    simp only; omega

theorem few_invalid {t : TLine} (h : t.trend.length < t.minPoints) : t.isValid = false := by
  unfold TLine.isValid
  rw [if_pos (by simp [h])]

theorem foldlM_range {σ : Type} {f : σ → ℕ → Except Err σ} (P : ℕ → σ → Prop) :
    ∀ (n : ℕ) {v0 v : σ}, (∀ i u w, i < n → P i u → f u i = .ok w → P (i + 1) w) → P 0 v0 →
      (List.range n).foldlM f v0 = .ok v → P n v
  | 0, v0, v, _, h0, h => by
    have := pure_inv h
    exact this ▸ h0
  | n + 1, v0, v, hs, h0, h => by
    rw [List.range_succ, List.foldlM_append] at h
    obtain ⟨u, h1, h⟩ := bind_inv h
    have hu := foldlM_range P n (fun i u w hi => hs i u w (by omega)) h0 h1
    rw [List.foldlM_cons] at h
    obtain ⟨w, h2, h⟩ := bind_inv h
    have := pure_inv h
    exact this ▸ hs n u w (by omega) hu h2

/-- Lines with at most `k` points. -/
def FewPts (m k : ℕ) (o : TLine) : Prop := o.boundary.length ≤ k ∧ o.trend.length ≤ k ∧ o.minPoints = m

theorem FewPts.mono {m k l : ℕ} {o : TLine} (h : FewPts m k o) (hl : k ≤ l) : FewPts m l o :=
  ⟨h.1.trans hl, h.2.1.trans hl, h.2.2⟩

theorem few_step {m k : ℕ} {o u : TLine} {p : XY} {ps : List XY} {b : Bool} (h : FewPts m k o)
    (e : o.didAppend p ps = .ok (u, b)) : FewPts m (k + 1) u := by
  obtain ⟨h1, h2⟩ := append_length e h.1 h.2.1
  exact ⟨h1, h2, (same_append e).points.trans h.2.2⟩

theorem few_validate {m k : ℕ} {ps : List XY} {nested : List (List TLine)} {level : ℕ} {p : XY} {v w : Trd.Vals}
    {i : ℕ} (hm : k + 1 < m) (h : ∀ o, v.lines[i]? = some o → FewPts m k o)
    (e : Trd.validateAt ps nested level p v i = .ok w) :
    w.newPts = v.newPts ∧ ∀ j o, w.lines[j]? = some o → (j = i ∧ FewPts m (k + 1) o) ∨ v.lines[j]? = some o := by
  unfold Trd.validateAt at e
  split at e
  · simp only [Except.ok.injEq] at e
    subst e
    exact ⟨rfl, fun j o h => .inr h⟩
  · rename_i line hline
    obtain ⟨⟨r, b⟩, e1, e⟩ := bind_inv e
    have hf := few_step (h line hline) e1
    have hi : r.isValid = false := few_invalid (by rw [hf.2.2]; have := hf.2.1; omega)
    have hset : ∀ j o, (v.lines.set i r)[j]? = some o → (j = i ∧ FewPts m (k + 1) o) ∨ v.lines[j]? = some o := by
      intro j o ho
      rw [List.getElem?_set] at ho
      split_ifs at ho with h1 h2
      · simp only [Option.some.injEq] at ho
        subst ho
        exact .inl ⟨h1.symm, hf⟩
      · exact .inr ho
    simp only [hi, Bool.false_eq_true, if_false] at e
    split_ifs at e
    · obtain ⟨c, -, e⟩ := bind_inv e
      split_ifs at e
      · have := pure_inv e; subst this; exact ⟨rfl, hset⟩
      · have := pure_inv e; subst this; exact ⟨rfl, hset⟩
    · have := pure_inv e; subst this; exact ⟨rfl, hset⟩
    · have := pure_inv e; subst this; exact ⟨rfl, hset⟩

theorem foldl_erase_subset {α : Type} : ∀ (is : List ℕ) (ls : List α),
    (is.foldl (fun ls i => ls.eraseIdx i) ls) ⊆ ls
  | [], ls => List.Subset.refl _
  | i :: is, ls => fun _ h => List.eraseIdx_subset (foldl_erase_subset is _ h)

theorem few_lines {m k : ℕ} {ps : List XY} {nested : List (List TLine)} {level : ℕ} {p : XY} {v : Trd.Vals}
    {ls : List TLine} (hm : k + 1 < m) (h : ∀ o ∈ ls, FewPts m k o)
    (e : (List.range ls.length).foldlM (Trd.validateAt ps nested level p) ⟨ls, [], []⟩ = .ok v) :
    v.newPts = [] ∧ ∀ o ∈ v.lines, FewPts m (k + 1) o := by
  have := foldlM_range (fun i (v : Trd.Vals) => v.newPts = [] ∧
      ∀ j o, v.lines[j]? = some o → FewPts m (k + 1) o ∧ (i ≤ j → FewPts m k o)) ls.length
    (v0 := ⟨ls, [], []⟩) (v := v) ?_ ?_ e
  · refine ⟨this.1, fun o ho => ?_⟩
    obtain ⟨j, hj⟩ := List.getElem?_of_mem ho
    exact (this.2 j o hj).1
  · intro i u w _ hu e
    obtain ⟨h1, h2⟩ := few_validate hm (fun o ho => (hu.2 i o ho).2 (le_refl _)) e
    refine ⟨h1.trans hu.1, fun j o ho => ?_⟩
    rcases h2 j o ho with ⟨rfl, h3⟩ | h3
    · exact ⟨h3, fun hj => by omega⟩
    · exact ⟨(hu.2 j o h3).1, fun hj => (hu.2 j o h3).2 (by omega)⟩
  · refine ⟨rfl, fun j o ho => ?_⟩
    have := h o (List.mem_of_getElem? ho)
    exact ⟨this.mono (by omega), fun _ => this⟩

theorem few_fork {s : Trd} {up : Bool} {k : ℕ} {ls ls' : List TLine} {p : XY}
    (h : ∀ o ∈ ls, FewPts s.minPoints (k + 1) o) (e : s.tryFork up ls p = .ok ls') :
    ∀ o ∈ ls', FewPts s.minPoints (k + 1) o := by
  unfold Trd.tryFork at e
  obtain ⟨b, -, e⟩ := bind_inv e
  split_ifs at e
  · have := pure_inv e; subst this; exact h
  · obtain ⟨r, e1, e⟩ := bind_inv e
    have := pure_inv e; subst this
    intro o ho
    rcases List.mem_append.mp ho with ho | ho
    · exact h o ho
    · rw [List.mem_singleton.mp ho]
      exact (few_step (m := s.minPoints) (k := 0) (u := r.1) (b := r.2) ⟨le_refl _, le_refl _, rfl⟩ e1).mono (by omega)

theorem few_upper {s u : Trd} {k : ℕ} {L : List TLine} {p : XY} {n : List XY} (hm : k + 1 < s.minPoints)
    (hs : s.upper = [L]) (hL : ∀ o ∈ L, FewPts s.minPoints k o) (h : s.appendValidate true 0 p = .ok (u, n)) :
    ∃ U, u = { s with upper := [U] } ∧ n = [] ∧ ∀ o ∈ U, FewPts s.minPoints (k + 1) o := by
  unfold Trd.appendValidate at h
  simp only [if_true, hs, List.getElem?_cons_zero] at h
  obtain ⟨v, e1, h⟩ := bind_inv h
  obtain ⟨ls, e2, h⟩ := bind_inv h
  have := pure_inv h
  simp only [List.set_cons_zero, Prod.mk.injEq] at this
  obtain ⟨h1, h2⟩ := few_lines hm hL e1
  exact ⟨ls, this.1.symm, this.2.symm.trans h1, few_fork (fun o ho => h2 o (foldl_erase_subset _ _ ho)) e2⟩

theorem few_lower {s u : Trd} {k : ℕ} {L : List TLine} {p : XY} {n : List XY} (hm : k + 1 < s.minPoints)
    (hs : s.lower = [L]) (hL : ∀ o ∈ L, FewPts s.minPoints k o) (h : s.appendValidate false 0 p = .ok (u, n)) :
    ∃ U, u = { s with lower := [U] } ∧ n = [] ∧ ∀ o ∈ U, FewPts s.minPoints (k + 1) o := by
  unfold Trd.appendValidate at h
  simp only [Bool.false_eq_true, if_false, hs, List.getElem?_cons_zero] at h
  obtain ⟨v, e1, h⟩ := bind_inv h
  obtain ⟨ls, e2, h⟩ := bind_inv h
  have := pure_inv h
  simp only [List.set_cons_zero, Prod.mk.injEq] at this
  obtain ⟨h1, h2⟩ := few_lines hm hL e1
  exact ⟨ls, this.1.symm, this.2.symm.trans h1, few_fork (fun o ho => h2 o (foldl_erase_subset _ _ ho)) e2⟩

/-- One level with lines of at most `k` points. -/
def FewTrd (k : ℕ) (s : Trd) : Prop :=
  ∃ U L, s.upper = [U] ∧ s.lower = [L] ∧ (∀ o ∈ U, FewPts s.minPoints k o) ∧ ∀ o ∈ L, FewPts s.minPoints k o

theorem few_scan {s : Trd} {k n : ℕ} {x : ℚ} {y : Option ℚ} {r : Trd.Loop} (hm : k + 1 < s.minPoints)
    (h : FewTrd k s) (e : s.trendScan (n + 1) x y = .ok r) :
    ∃ s', r = .done s' ∧ FewTrd (k + 1) s' ∧ s'.minPoints = s.minPoints := by
  obtain ⟨U, L, hU, hL, h1, h2⟩ := h
  unfold Trd.trendScan at e
  split at e
  · simp only [Except.ok.injEq] at e
    subst e
    exact ⟨s, rfl, ⟨U, L, hU, hL, fun o ho => (h1 o ho).mono (by omega), fun o ho => (h2 o ho).mono (by omega)⟩, rfl⟩
  · rename_i y
    rw [Trd.scanLoop] at e
    obtain ⟨l, e1, e⟩ := bind_inv e
    unfold Trd.scanStep at e1
    rw [if_pos (by simp [hU])] at e1
    obtain ⟨q, e2, e1⟩ := bind_inv e1
    unfold Trd.scanLevel at e2
    rw [List.foldlM_cons] at e2
    obtain ⟨w, e3, e2⟩ := bind_inv e2
    have := pure_inv e2
    subst this
    obtain ⟨⟨a, na⟩, f1, e3⟩ := bind_inv e3
    obtain ⟨ia, f2, e3⟩ := bind_inv e3
    obtain ⟨⟨b, nb⟩, f3, e3⟩ := bind_inv e3
    obtain ⟨ib, f4, e3⟩ := bind_inv e3
    have := pure_inv e3
    subst this
    obtain ⟨U', rfl, rfl, hU'⟩ := few_upper (k := k) (s := { s with points := s.points ++ [(x, y)] }) hm hU h1 f1
    have := pure_inv f2
    subst this
    obtain ⟨L', rfl, rfl, hL'⟩ :=
      few_lower (k := k) (s := { s with points := s.points ++ [(x, y)], upper := [U'] }) hm hL h2 f3
    have := pure_inv f4
    subst this
    rw [if_pos (by simp)] at e1
    have := pure_inv e1
    subst this
    have := pure_inv e
    subst this
    exact ⟨_, rfl, ⟨U', L', rfl, rfl, hU', hL'⟩, rfl⟩

theorem append_frame {s u : Trd} {up : Bool} {k : ℕ} {p : XY} {n : List XY}
    (h : s.appendValidate up k p = .ok (u, n)) : ∃ U L, u = { s with upper := U, lower := L } := by
  unfold Trd.appendValidate at h
  simp only at h
  split at h
  · cases h
  · obtain ⟨v, -, h⟩ := bind_inv h
    obtain ⟨ls, -, h⟩ := bind_inv h
    have := pure_inv h
    simp only [Prod.mk.injEq] at this
    rw [← this.1]
    split_ifs <;> exact ⟨_, _, rfl⟩

theorem level_frame {k : ℕ} : ∀ {ps : List XY} {s u : Trd} {a b : List XY},
    ps.foldlM (levelStep k) (s, a) = .ok (u, b) → ∃ U L, u = { s with upper := U, lower := L }
  | [], s, u, a, b, h => by
    have := pure_inv h
    simp only [Prod.mk.injEq] at this
    exact ⟨s.upper, s.lower, this.1.symm⟩
  | p :: ps, s, u, a, b, h => by
    rw [List.foldlM_cons] at h
    obtain ⟨⟨w, c⟩, e, h⟩ := bind_inv h
    unfold levelStep at e
    obtain ⟨r1, e1, e⟩ := bind_inv e
    obtain ⟨r2, e2, e⟩ := bind_inv e
    obtain ⟨r3, e3, e⟩ := bind_inv e
    obtain ⟨r4, e4, e⟩ := bind_inv e
    have := pure_inv e
    simp only [Prod.mk.injEq] at this
    obtain ⟨rfl, rfl⟩ := this
    obtain ⟨U1, L1, f1⟩ := append_frame (n := r1.2) e1
    obtain ⟨U2, L2, f2⟩ := append_frame (n := r3.2) e3
    obtain ⟨U3, L3, f3⟩ := level_frame h
    exact ⟨U3, L3, by rw [f3, f2, f1]⟩

theorem loop_frame : ∀ {n : ℕ} {s u : Trd} {k : ℕ} {ps : List XY}, Trd.scanLoop n s k ps = .ok (.done u) →
    ∃ U L, u = { s with upper := U, lower := L }
  | 0, s, u, k, ps, h => by simp [Trd.scanLoop] at h
  | n + 1, s, u, k, ps, h => by
    rw [Trd.scanLoop] at h
    obtain ⟨l, e, h⟩ := bind_inv h
    unfold Trd.scanStep at e
    split_ifs at e
    · obtain ⟨r, e1, e⟩ := bind_inv e
      obtain ⟨U, L, f⟩ := level_frame (u := r.1) (b := r.2) e1
      split_ifs at e
      · have := pure_inv e
        subst this
        have := pure_inv h
        simp only [Trd.Loop.done.injEq] at this
        exact ⟨U, L, by rw [← this, f]⟩
      · have := pure_inv e
        subst this
        obtain ⟨U', L', f'⟩ := loop_frame h
        exact ⟨U', L', by rw [f', f]⟩
      · have := pure_inv e
        subst this
        obtain ⟨U', L', f'⟩ := loop_frame h
        exact ⟨U', L', by rw [f', f]⟩
    · have := pure_inv e
      subst this
      have := pure_inv h
      simp only [Trd.Loop.done.injEq] at this
      exact ⟨s.upper, s.lower, by rw [← this]⟩

/-- C74, for the first points: as long as there are too few points for a valid line, the scan of a point ends
with its first round.  Missing: later points; see the negation. -/
theorem C74_partial {s : Trd} {k : ℕ} (h : Begun k s) (hm : k + 1 < s.minPoints) (n : ℕ) (x : ℚ) (y : Option ℚ) :
    ∀ s' l p, s.trendScan (n + 1) x y ≠ .ok (.more s' l p) := by
  have H : ∀ {k s}, Begun k s → k < s.minPoints → FewTrd k s := by
    intro k s h
    induction h with
    | new w m d s r a g => exact fun _ => ⟨[], [], rfl, rfl, by simp, by simp⟩
    | @scan k s s' n x y h e ih =>
      intro hm
      cases n with
      | zero =>
        unfold Trd.trendScan at e
        split at e
        · simp only [Except.ok.injEq, Trd.Loop.done.injEq] at e
          subst e
          obtain ⟨U, L, hU, hL, h1, h2⟩ := ih (by omega)
          exact ⟨U, L, hU, hL, fun o ho => (h1 o ho).mono (by omega), fun o ho => (h2 o ho).mono (by omega)⟩
        · simp [Trd.scanLoop] at e
      | succ n =>
        have hp : s'.minPoints = s.minPoints := by
          have e' := e
          unfold Trd.trendScan at e'
          split at e'
          · simp only [Except.ok.injEq, Trd.Loop.done.injEq] at e'
            rw [e']
          · obtain ⟨U, L, f⟩ := loop_frame e'
            rw [f]
        rw [hp] at hm
        obtain ⟨s'', h1, h2, -⟩ := few_scan hm (ih (by omega)) e
        simp only [Trd.Loop.done.injEq] at h1
        rw [h1]; exact h2
  intro s' l p e
  obtain ⟨s'', h1, -, -⟩ := few_scan hm (H h (by omega)) e
  cases h1

end Props
end Curvepy
