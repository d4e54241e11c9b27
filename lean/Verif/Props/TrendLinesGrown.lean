import Verif.Spec.TrendLinesGrown
import Verif.Props.TrendHistory
import Verif.Props.TrendFit
import Verif.Props.TrendExtended

/-!
# C145: the lines of a trend
-/

namespace Curvepy
namespace Props
open Spec Trend

/-! ## All lines of a trend -/

/-- A line made by the trend. -/
def Made (s : Trd) (u : Bool) (t : TLine) : Prop := Grown t ∧ Carries s u t

theorem Made.append {s : Trd} {u : Bool} {t t' : TLine} {p : XY} {us : List XY} {b : Bool} (h : Made s u t)
    (e : t.didAppend p us = .ok (t', b)) : Made s u t' := by
  have k := same_append e
  have c := h.2
  exact ⟨h.1.append e, ⟨k.upper.trans c.side, k.width.trans c.width, k.points.trans c.points, k.dist.trans c.dist,
    k.search.trans c.search, k.rel.trans c.rel, k.tol.trans c.tol, k.gold.trans c.gold⟩⟩

theorem Made.update {s : Trd} {u : Bool} {t t' : TLine} {dom : Iv} {us : List XY} (h : Made s u t)
    (e : t.beginUpdate dom us = .ok t') : Made s u t' := by
  have k := same_update e
  have c := h.2
  exact ⟨h.1.update e, ⟨k.upper.trans c.side, k.width.trans c.width, k.points.trans c.points, k.dist.trans c.dist,
    k.search.trans c.search, k.rel.trans c.rel, k.tol.trans c.tol, k.gold.trans c.gold⟩⟩

/-- Every line on every level was made by the trend, each on its side. -/
structure AllMade (s0 s : Trd) : Prop where
  same : Unchanged s0 s
  upper : ∀ ls ∈ s.upper, ∀ t ∈ ls, Made s0 true t
  lower : ∀ ls ∈ s.lower, ∀ t ∈ ls, Made s0 false t

theorem unchanged_refl (s : Trd) : Unchanged s s := ⟨rfl, rfl, rfl, rfl, rfl, rfl, rfl⟩

theorem unchanged_trans {s t u : Trd} (h : Unchanged s t) (k : Unchanged t u) : Unchanged s u :=
  ⟨k.1.trans h.1, k.2.trans h.2, k.3.trans h.3, k.4.trans h.4, k.5.trans h.5, k.6.trans h.6, k.7.trans h.7⟩

theorem unchanged_made {s s' : Trd} (h : Unchanged s s') {u : Bool} {t : TLine} (m : Made s u t) : Made s' u t := by
  have c := m.2
  exact ⟨m.1, ⟨c.side, c.width.trans h.width.symm, c.points.trans h.points.symm, c.dist,
    c.search.trans h.search.symm, c.rel.trans h.rel.symm, c.tol.trans h.tol.symm, c.gold.trans h.gold.symm⟩⟩

theorem made_create {s0 s : Trd} (h : Unchanged s0 s) (u : Bool) : Made s0 u (s.createLine u) := by
  refine ⟨Grown.new _ _ _ _ _ _ _ _, ?_⟩
  unfold Trd.createLine TLine.new
  refine ⟨rfl, h.width, h.points, rfl, h.search, h.rel, h.tol, h.gold⟩

theorem set_all {P : TLine → Prop} {L : List (List TLine)} {k : ℕ} {ls : List TLine} (h : ∀ ms ∈ L, ∀ t ∈ ms, P t)
    (hl : ∀ t ∈ ls, P t) : ∀ ms ∈ L.set k ls, ∀ t ∈ ms, P t := by
  intro ms hms
  rcases List.mem_or_eq_of_mem_set hms with h1 | h1
  · exact h ms h1
  · rw [h1]; exact hl

theorem validate_all {s0 : Trd} {u : Bool} {points : List XY} {nested : List (List TLine)} {level : ℕ} {p : XY}
    {v w : Trd.Vals} {i : ℕ} (hv : ∀ t ∈ v.lines, Made s0 u t) (h : Trd.validateAt points nested level p v i = .ok w) :
    ∀ t ∈ w.lines, Made s0 u t := by
  unfold Trd.validateAt at h
  split at h
  · simp only [Except.ok.injEq] at h
    rw [← h]; exact hv
  · rename_i line hline
    obtain ⟨⟨line', b⟩, e, h⟩ := bind_inv h
    have hm : ∀ t ∈ v.lines.set i line', Made s0 u t := by
      intro t ht
      rcases List.mem_or_eq_of_mem_set ht with h1 | h1
      · exact hv t h1
      · rw [h1]
        exact (hv line (List.mem_of_getElem? hline)).append e
    have key : w.lines = v.lines.set i line' := by
      simp only at h
      split_ifs at h
      · obtain ⟨c, -, h⟩ := bind_inv h
        split_ifs at h
        · rw [← pure_inv h]
        · split at h
          · obtain ⟨n, -, h⟩ := bind_inv h
            obtain ⟨n', -, h⟩ := bind_inv h
            rw [← pure_inv h]
          · cases h
      · rw [← pure_inv h]
      · obtain ⟨c, -, h⟩ := bind_inv h
        split_ifs at h <;> rw [← pure_inv h]
      · rw [← pure_inv h]
      · rw [← pure_inv h]
    rw [key]
    exact hm

theorem foldlM_all {α β : Type} {f : α → β → Except Err α} {P : α → Prop}
    (hf : ∀ a b a', P a → f a b = .ok a' → P a') : ∀ {l : List β} {a a' : α}, P a → l.foldlM f a = .ok a' → P a'
  | [], a, a', h, e => by rw [← pure_inv e]; exact h
  | b :: l, a, a', h, e => by
    rw [List.foldlM_cons] at e
    obtain ⟨c, e1, e⟩ := bind_inv e
    exact foldlM_all hf (hf a b c h e1) e

theorem mem_erased {ls : List TLine} : ∀ {is : List ℕ} {t : TLine},
    t ∈ is.foldl (fun ls i => ls.eraseIdx i) ls → t ∈ ls := by
  intro is
  induction is generalizing ls with
  | nil => exact fun h => h
  | cons i is ih => exact fun h => List.mem_of_mem_eraseIdx (ih h)

theorem append_all {s0 s s' : Trd} {u : Bool} {level : ℕ} {p : XY} {ps : List XY} (h : AllMade s0 s)
    (e : s.appendValidate u level p = .ok (s', ps)) : AllMade s0 s' := by
  unfold Trd.appendValidate at e
  simp only at e
  split at e
  · cases e
  · rename_i lines hl
    obtain ⟨v, e1, e⟩ := bind_inv e
    obtain ⟨ls, e2, e⟩ := bind_inv e
    have e3 := pure_inv e
    have hn : ∀ ls ∈ (if u = true then s.upper else s.lower), ∀ t ∈ ls, Made s0 u t := by
      cases u
      · exact h.lower
      · exact h.upper
    have hv : ∀ t ∈ v.lines, Made s0 u t :=
      foldlM_all (P := fun v : Trd.Vals => ∀ t ∈ v.lines, Made s0 u t) (fun a b a' k e => validate_all k e)
        (hn lines (List.mem_of_getElem? hl)) e1
    have hls : ∀ t ∈ ls, Made s0 u t := by
      unfold Trd.tryFork at e2
      obtain ⟨y, -, e2⟩ := bind_inv e2
      split_ifs at e2
      · rw [← pure_inv e2]
        exact fun t ht => hv t (mem_erased ht)
      · obtain ⟨⟨r, c⟩, e4, e2⟩ := bind_inv e2
        rw [← pure_inv e2]
        intro t ht
        rcases List.mem_append.1 ht with ht | ht
        · exact hv t (mem_erased ht)
        · rw [List.mem_singleton.1 ht]
          exact (made_create h.same u).append e4
    have hset := set_all (k := level) hn hls
    simp only [Prod.mk.injEq] at e3
    rw [← e3.1]
    have hs := h.same
    cases u
    · exact ⟨⟨hs.1, hs.2, hs.3, hs.4, hs.5, hs.6, hs.7⟩, h.upper, hset⟩
    · exact ⟨⟨hs.1, hs.2, hs.3, hs.4, hs.5, hs.6, hs.7⟩, hset, h.lower⟩

theorem level_all {s0 s s' : Trd} {level : ℕ} {pts ps : List XY} (h : AllMade s0 s)
    (e : s.scanLevel level pts = .ok (s', ps)) : AllMade s0 s' := by
  unfold Trd.scanLevel at e
  refine foldlM_all (P := fun r : Trd × List XY => AllMade s0 r.1) ?_ (a := (s, [])) h e
  intro a b a' k e
  obtain ⟨⟨x, xs⟩, e1, e⟩ := bind_inv e
  obtain ⟨y, -, e⟩ := bind_inv e
  obtain ⟨⟨z, zs⟩, e2, e⟩ := bind_inv e
  obtain ⟨q, -, e⟩ := bind_inv e
  rw [← pure_inv e]
  exact append_all (append_all k e1) e2

theorem loop_all {s0 : Trd} : ∀ {n : ℕ} {s s' : Trd} {level : ℕ} {pts : List XY}, AllMade s0 s →
    Trd.scanLoop n s level pts = .ok (.done s') → AllMade s0 s'
  | 0, s, s', level, pts, h, e => by simp [Trd.scanLoop] at e
  | n + 1, s, s', level, pts, h, e => by
    rw [Trd.scanLoop] at e
    obtain ⟨r, e1, e⟩ := bind_inv e
    have hr : ∀ w, (r = .done w ∨ ∃ l q, r = .more w l q) → AllMade s0 w := by
      unfold Trd.scanStep at e1
      split_ifs at e1 with h1
      · obtain ⟨⟨v, vs⟩, e2, e1⟩ := bind_inv e1
        have hv := level_all h e2
        simp only at e1
        split_ifs at e1 with h2 h3
        · have := pure_inv e1
          intro w hw
          rcases hw with hw | ⟨l, q, hw⟩
          · rw [hw] at this
            rw [← Trd.Loop.done.inj this]; exact hv
          · rw [hw] at this; cases this
        · have := pure_inv e1
          intro w hw
          rcases hw with hw | ⟨l, q, hw⟩
          · rw [hw] at this; cases this
          · rw [hw] at this
            rw [← (Trd.Loop.more.inj this).1]
            have hs := hv.same
            refine ⟨⟨hs.1, hs.2, hs.3, hs.4, hs.5, hs.6, hs.7⟩, ?_, ?_⟩
            · intro ls hls t ht
              rcases List.mem_append.1 hls with hls | hls
              · exact hv.upper ls hls t ht
              · rw [List.mem_singleton.1 hls] at ht; cases ht
            · intro ls hls t ht
              rcases List.mem_append.1 hls with hls | hls
              · exact hv.lower ls hls t ht
              · rw [List.mem_singleton.1 hls] at ht; cases ht
        · have := pure_inv e1
          intro w hw
          rcases hw with hw | ⟨l, q, hw⟩
          · rw [hw] at this; cases this
          · rw [hw] at this
            rw [← (Trd.Loop.more.inj this).1]
            exact hv
      · have := pure_inv e1
        intro w hw
        rcases hw with hw | ⟨l, q, hw⟩
        · rw [hw] at this
          rw [← Trd.Loop.done.inj this]; exact h
        · rw [hw] at this; cases this
    cases r with
    | done w =>
      have := pure_inv e
      rw [← Trd.Loop.done.inj this]
      exact hr w (.inl rfl)
    | more w l q => exact loop_all (hr w (.inr ⟨l, q, rfl⟩)) e

theorem scan_all {s0 s s' : Trd} {n : ℕ} {x : ℚ} {y : Option ℚ} (h : AllMade s0 s)
    (e : s.trendScan n x y = .ok (.done s')) : AllMade s0 s' := by
  unfold Trd.trendScan at e
  cases y with
  | none =>
    simp only [Except.ok.injEq, Trd.Loop.done.injEq] at e
    rw [← e]; exact h
  | some y =>
    have hs := h.same
    have h0 : AllMade s0 { s with points := s.points ++ [(x, y)] } :=
      ⟨⟨hs.1, hs.2, hs.3, hs.4, hs.5, hs.6, hs.7⟩, h.upper, h.lower⟩
    exact loop_all h0 e

theorem mapM_all {α β : Type} {f : α → Except Err β} {P : α → Prop} {Q : β → Prop}
    (hf : ∀ a b, P a → f a = .ok b → Q b) : ∀ {l : List α} {m : List β}, (∀ a ∈ l, P a) → l.mapM f = .ok m →
    ∀ b ∈ m, Q b
  | [], m, h, e => by
    rw [List.mapM_nil] at e
    rw [← pure_inv e]
    exact fun b hb => by cases hb
  | a :: l, m, h, e => by
    rw [List.mapM_cons] at e
    obtain ⟨b, e1, e⟩ := bind_inv e
    obtain ⟨m', e2, e⟩ := bind_inv e
    rw [← pure_inv e]
    intro c hc
    rcases List.mem_cons.1 hc with rfl | hc
    · exact hf a _ (h a (by simp)) e1
    · exact mapM_all hf (fun a ha => h a (List.mem_cons_of_mem _ ha)) e2 c hc

theorem nested_all {s0 : Trd} {u : Bool} {dom : Iv} {points : List XY} {L L' : List (List TLine)}
    (h : ∀ ls ∈ L, ∀ t ∈ ls, Made s0 u t) (e : Trd.updateNested dom points L = .ok L') :
    ∀ ls ∈ L', ∀ t ∈ ls, Made s0 u t := by
  unfold Trd.updateNested at e
  obtain ⟨M, e1, e⟩ := bind_inv e
  have hM : ∀ ls ∈ M, ∀ t ∈ ls, Made s0 u t := by
    refine mapM_all (P := fun ls => ∀ t ∈ ls, Made s0 u t) (Q := fun ls => ∀ t ∈ ls, Made s0 u t) ?_
      (fun ls hls => h ls (List.mem_reverse.1 hls)) e1
    intro a b ha e2
    unfold Trd.updateLines at e2
    obtain ⟨ls, e3, e2⟩ := bind_inv e2
    rw [← pure_inv e2]
    intro t ht
    have := List.mem_reverse.1 (List.mem_of_mem_filter ht)
    exact mapM_all (P := Made s0 u) (Q := Made s0 u) (fun a b k e => k.update e)
      (fun t ht => ha t (List.mem_reverse.1 ht)) e3 t this
  have hR : ∀ ls ∈ M.reverse, ∀ t ∈ ls, Made s0 u t := fun ls hls => hM ls (List.mem_reverse.1 hls)
  split at e
  · rw [← pure_inv e]
    exact fun ls hls => by cases hls
  · rename_i l rest hr
    rw [hr] at hR
    rw [← pure_inv e]
    intro ls hls
    rcases List.mem_cons.1 hls with rfl | hls
    · exact hR _ (by simp)
    · exact hR _ (List.mem_cons_of_mem _ (List.mem_of_mem_filter hls))

theorem update_all {s0 s s' : Trd} {dom : Iv} (h : AllMade s0 s) (e : s.beginUpdate dom = .ok s') : AllMade s0 s' := by
  unfold Trd.beginUpdate at e
  simp only at e
  obtain ⟨up, e1, e⟩ := bind_inv e
  obtain ⟨lo, e2, e⟩ := bind_inv e
  rw [← pure_inv e]
  have hs := h.same
  exact ⟨⟨hs.1, hs.2, hs.3, hs.4, hs.5, hs.6, hs.7⟩, nested_all h.upper e1, nested_all h.lower e2⟩

theorem scanned_all {s : Trd} (h : TrdScanned s) : AllMade s s := by
  suffices hh : ∃ s0, AllMade s0 s by
    obtain ⟨s0, h1⟩ := hh
    exact ⟨unchanged_refl s, fun ls hls t ht => unchanged_made h1.same (h1.upper ls hls t ht),
      fun ls hls t ht => unchanged_made h1.same (h1.lower ls hls t ht)⟩
  induction h with
  | new w m d r a b g =>
    refine ⟨_, unchanged_refl _, ?_, ?_⟩
    · intro ls hls t ht
      rw [List.mem_singleton.1 (show ls ∈ [[]] from hls)] at ht; cases ht
    · intro ls hls t ht
      rw [List.mem_singleton.1 (show ls ∈ [[]] from hls)] at ht; cases ht
  | scan h e ih => obtain ⟨s0, h1⟩ := ih; exact ⟨s0, scan_all h1 e⟩
  | update h e ih => obtain ⟨s0, h1⟩ := ih; exact ⟨s0, update_all h1 e⟩

/-! ## The distance of points is not used -/

/-- Another distance of points. -/
def apart (d : ℚ) (s : Trd) : Trd := { s with minDist := d }

/-- Another distance of points, in the course of a scan. -/
def apartLoop (d : ℚ) : Trd.Loop → Trd.Loop
  | .done s => .done (apart d s)
  | .more s l ps => .more (apart d s) l ps

theorem apart_append (d : ℚ) (s : Trd) (u : Bool) (level : ℕ) (p : XY) :
    (apart d s).appendValidate u level p = (s.appendValidate u level p).map fun r => (apart d r.1, r.2) := by
  unfold Trd.appendValidate
  simp only
  have hn : (if u = true then (apart d s).upper else (apart d s).lower) = if u = true then s.upper else s.lower := rfl
  rw [hn]
  cases (if u = true then s.upper else s.lower)[level]? with
  | none => rfl
  | some ls =>
    have hf : ∀ ms, (apart d s).tryFork u ms p = s.tryFork u ms p := fun _ => rfl
    simp only [hf]
    show ((List.range ls.length).foldlM _ _ >>= _) = _
    rw [show (apart d s).points = s.points from rfl]
    cases (List.range ls.length).foldlM (Trd.validateAt s.points (if u = true then s.upper else s.lower) level p)
        ⟨ls, [], []⟩ with
    | error e => rfl
    | ok v =>
      simp only [bind, Except.bind]
      cases s.tryFork u (v.remove.reverse.foldl (fun ls i => ls.eraseIdx i) v.lines) p with
      | error e => rfl
      | ok ms => cases u <;> rfl

theorem apart_level (d : ℚ) (level : ℕ) : ∀ (pts : List XY) (s : Trd) (all : List XY),
    pts.foldlM (fun r p => do
      let u ← Trd.appendValidate r.1 true level p
      let all ← insortAll r.2 u.2
      let l ← Trd.appendValidate u.1 false level p
      let all ← insortAll all l.2
      pure (l.1, all)) (apart d s, all) =
    Except.map (fun r : Trd × List XY => (apart d r.1, r.2)) (pts.foldlM (fun r p => do
      let u ← Trd.appendValidate r.1 true level p
      let all ← insortAll r.2 u.2
      let l ← Trd.appendValidate u.1 false level p
      let all ← insortAll all l.2
      pure (l.1, all)) (s, all))
  | [], s, all => rfl
  | p :: pts, s, all => by
    rw [List.foldlM_cons, List.foldlM_cons]
    simp only [apart_append, bind, Except.bind]
    cases s.appendValidate true level p with
    | error e => rfl
    | ok r =>
      simp only [Except.map]
      cases insortAll all r.2 with
      | error e => rfl
      | ok a1 =>
        simp only [apart_append]
        cases r.1.appendValidate false level p with
        | error e => rfl
        | ok r2 =>
          simp only [Except.map]
          cases insortAll a1 r2.2 with
          | error e => rfl
          | ok a2 => exact apart_level d level pts r2.1 a2

theorem apart_step (d : ℚ) (s : Trd) (level : ℕ) (pts : List XY) :
    Trd.scanStep (apart d s) level pts = (Trd.scanStep s level pts).map (apartLoop d) := by
  unfold Trd.scanStep
  rw [show (apart d s).upper = s.upper from rfl]
  by_cases h : level < s.upper.length
  · rw [if_pos h, if_pos h]
    have hl : (apart d s).scanLevel level pts = (s.scanLevel level pts).map fun r => (apart d r.1, r.2) :=
      apart_level d level pts s []
    rw [hl]
    cases s.scanLevel level pts with
    | error e => rfl
    | ok r =>
      simp only [Except.map, bind, Except.bind]
      by_cases h2 : r.2.length = 0
      · rw [if_pos h2, if_pos h2]; rfl
      · rw [if_neg h2, if_neg h2]
        rw [show (apart d r.1).upper = r.1.upper from rfl]
        by_cases h3 : r.1.upper.length = level + 1
        · rw [if_pos h3, if_pos h3]; rfl
        · rw [if_neg h3, if_neg h3]; rfl
  · rw [if_neg h, if_neg h]; rfl

theorem apart_loop (d : ℚ) : ∀ (n : ℕ) (s : Trd) (level : ℕ) (pts : List XY),
    Trd.scanLoop n (apart d s) level pts = (Trd.scanLoop n s level pts).map (apartLoop d)
  | 0, s, level, pts => rfl
  | n + 1, s, level, pts => by
    rw [Trd.scanLoop, Trd.scanLoop, apart_step]
    cases Trd.scanStep s level pts with
    | error e => rfl
    | ok r =>
      cases r with
      | done s => rfl
      | more s l ps => exact apart_loop d n s l ps

/-! ## Histories -/

/-- Scans and updates keep the property. -/
structure Kind (P : Trd → Prop) : Prop where
  scan : ∀ {s s' : Trd} {n : ℕ} {x : ℚ} {y : Option ℚ}, P s → s.trendScan n x y = .ok (.done s') → P s'
  update : ∀ {s s' : Trd} {dom : Iv}, P s → s.beginUpdate dom = .ok s' → P s'

variable {P : Trd → Prop}

theorem scanLoop_kind (K : Kind P) (x : ℚ) : ∀ (n : ℕ) {A B : TScan}, P A.trd →
    TScan.scanLoop x n A = some (.ok B) → P B.trd
  | 0, A, B, _, e => by simp [TScan.scanLoop] at e
  | n + 1, A, B, h, e => by
    rw [TScan.scanLoop] at e
    by_cases hc : (A.current.all fun c => A.continueScan c x) = true
    · rw [if_pos hc] at e
      have hp : ∀ A' p, A.nextPos x = .ok (A', p) → A'.trd = A.trd := by
        intro A' p hp
        unfold TScan.nextPos at hp
        split at hp
        · obtain ⟨q, -, hp⟩ := bind_inv hp
          have := pure_inv hp
          simp only [Prod.mk.injEq] at this
          rw [← this.1]
        · obtain ⟨q, -, hp⟩ := bind_inv hp
          have := pure_inv hp
          simp only [Prod.mk.injEq] at this
          rw [← this.1]
      cases hn : A.nextPos x with
      | error er => rw [hn] at e; simp at e
      | ok r =>
        obtain ⟨A', p⟩ := r
        have ht := hp A' p hn
        have h' : P A'.trd := by rw [ht]; exact h
        rw [hn] at e
        cases p with
        | none =>
          simp only [Option.some.injEq, Except.ok.injEq] at e
          rw [← e]; exact h'
        | some c =>
          simp only at e
          by_cases hd : (!A'.src.domVal.contains c) = true
          · rw [if_pos hd] at e
            simp only [Option.some.injEq, Except.ok.injEq] at e
            rw [← e]; exact h'
          · rw [if_neg hd] at e
            cases c with
            | fin c =>
              simp only at e
              by_cases hk : (A'.current.any fun k => decide (c ≤ k)) = true
              · rw [if_pos hk] at e; simp at e
              · rw [if_neg hk] at e
                cases hy : A'.src.y (.fin c) with
                | error er => rw [hy] at e; simp at e
                | ok y =>
                  rw [hy] at e
                  simp only at e
                  cases hs : A'.trd.trendScan n c y with
                  | error er => rw [hs] at e; simp at e
                  | ok l =>
                    rw [hs] at e
                    cases l with
                    | more a b d => simp at e
                    | done u =>
                      simp only at e
                      exact scanLoop_kind K x n (A := { A' with trd := u, current := some c }) (K.scan h' hs) e
            | ninf => simp at e
            | pinf => simp at e
    · rw [if_neg hc] at e
      simp only [Option.some.injEq, Except.ok.injEq] at e
      rw [← e]; exact h

theorem scan_kind (K : Kind P) {n : ℕ} {A B : TScan} {x : ℚ} (h : P A.trd) (e : A.scan n x = some (.ok B)) :
    P B.trd := by
  unfold TScan.scan at e
  refine scanLoop_kind K x n ?_ e
  split_ifs
  · exact h
  · exact h

theorem query_kind (K : Kind P) {n : ℕ} {A B : TScan} {x : ℚ} {v : Option (List TLine)} (h : P A.trd)
    (e : A.query n x = some (.ok (B, v))) : P B.trd := by
  unfold TScan.query at e
  split_ifs at e
  · simp only [Option.some.injEq, Except.ok.injEq, Prod.mk.injEq] at e
    rw [← e.1]; exact h
  · split at e
    · cases e
    · simp at e
    · rename_i B' hB
      simp only [Option.some.injEq, Except.ok.injEq, Prod.mk.injEq] at e
      rw [← e.1]; exact scan_kind K h hB

theorem begin_kind (K : Kind P) {A B : TScan} {d : Iv} (h : P A.trd) (e : A.onBegin d = .ok B) : P B.trd := by
  unfold TScan.onBegin at e
  simp only at e
  obtain ⟨s, e1, e⟩ := bind_inv e
  rw [← pure_inv e]
  refine K.update (dom := Accum.updateInterval d) ?_ e1
  have hd : ∀ d, (A.dropScanned d).trd = A.trd := by
    intro d
    unfold TScan.dropScanned
    simp only
    split
    · split_ifs <;> rfl
    · split_ifs <;> rfl
  rw [hd]; exact h

theorem notify_kind (K : Kind P) : ∀ {es : List (Pts.Ev ℚ)} {A B : TScan}, P A.trd → A.notifyAll es = .ok B →
    P B.trd
  | [], A, B, h, e => by
    simp only [TScan.notifyAll, Except.ok.injEq] at e
    rw [← e]; exact h
  | .begin d _ :: es, A, B, h, e => by
    rw [TScan.notifyAll] at e
    obtain ⟨C, e1, e⟩ := bind_inv e
    exact notify_kind K (begin_kind K h e1) e
  | .fin _ _ :: es, A, B, h, e => by
    rw [TScan.notifyAll] at e
    exact notify_kind K h e

theorem edit_kind (K : Kind P) {A B : TScan} {op : Op ℚ} {r : Pts.Reads} (h : P A.trd) (e : A.edit op r = .ok B) :
    P B.trd := by
  unfold TScan.edit at e
  exact notify_kind K (A := { A with src := (op.run A.src r).st }) h e

theorem fed_kind (K : Kind P) {allowed : Op ℚ → Prop} {t0 : Trd} {m : ℚ} (h0 : P t0) {A : TScan}
    (h : Fed allowed t0 m A) : P A.trd := by
  induction h with
  | new hs hg => exact h0
  | query h hq ih => exact query_kind K ih hq
  | edit h ha hl he ht hg hB ih => exact edit_kind K ih hB

theorem kind_scanned (s0 : Trd) : Kind fun s => TrdScanned s ∧ AllMade s0 s :=
  ⟨fun h e => ⟨h.1.scan e, scan_all h.2 e⟩, fun h e => ⟨h.1.update e, update_all h.2 e⟩⟩

/-! ## C145 -/

/-- C145: whatever points were scanned and updates were made, every line of a trend came from the constructor by
appending points and by updates, and it has the parameters of the trend.  The lines above are upper lines, and the ones
below lower lines. -/
theorem C145_lines {s : Trd} (h : TrdScanned s) :
    (∀ t ∈ s.upper.flatten, Grown t ∧ Carries s true t) ∧ ∀ t ∈ s.lower.flatten, Grown t ∧ Carries s false t := by
  have k := scanned_all h
  constructor
  · intro t ht
    obtain ⟨ls, hls, ht⟩ := List.mem_flatten.1 ht
    exact k.upper ls hls t ht
  · intro t ht
    obtain ⟨ls, hls, ht⟩ := List.mem_flatten.1 ht
    exact k.lower ls hls t ht

/-- C145, parameters: neither scans nor updates change those of the trend. -/
theorem C145_unchanged {s s' : Trd} (h : TrdScanned s) {n : ℕ} {x : ℚ} {y : Option ℚ} {dom : Iv}
    (e : s.trendScan n x y = .ok (.done s') ∨ s.beginUpdate dom = .ok s') : Unchanged s s' := by
  rcases e with e | e
  · exact (scan_all (scanned_all h) e).same
  · exact (update_all (scanned_all h) e).same

/-- C145, distances: with another distance of points the scan of a point ends in the same way and gives the same
lines. -/
theorem C145_ignored (d : ℚ) (n : ℕ) (s : Trd) (x : ℚ) (y : Option ℚ) :
    (∀ e, s.trendScan n x y = .error e → Trd.trendScan n { s with minDist := d } x y = .error e) ∧
    ∀ s', s.trendScan n x y = .ok (.done s') →
      Trd.trendScan n { s with minDist := d } x y = .ok (.done { s' with minDist := d }) := by
  have key : (apart d s).trendScan n x y = (s.trendScan n x y).map (apartLoop d) := by
    cases y with
    | none => rfl
    | some y => exact apart_loop d n { s with points := s.points ++ [(x, y)] } 0 [(x, y)]
  constructor
  · intro e he
    rw [he] at key
    exact key
  · intro s' hs
    rw [hs] at key
    exact key

open Classical in
/-- C145, sides: where a query of the trend gives lines, `lower` and `upper` give the two parts of them. -/
theorem C145_sides {n : ℕ} {A B : TScan} {x : ℚ} {v : List TLine} (h : A.query n x = some (.ok (B, some v))) :
    ∃ lo up, A.lower n (some x) = some (.ok (B, lo)) ∧ A.upper n (some x) = some (.ok (B, up)) ∧ v = lo ++ up ∧
      lo = B.trd.lower.flatten.filter (fun t => decide (Offered B.trd (some x) t)) ∧
      up = B.trd.upper.flatten.filter (fun t => decide (Offered B.trd (some x) t)) := by
  have hf : ∀ (s : Trd) (x : Option ℚ) (ls : List TLine), (ls.filter fun l => s.lineFilter l x) =
      ls.filter fun t => decide (Offered s x t) := by
    intro s x ls
    congr 1
    funext t
    rw [Bool.eq_iff_iff, lineFilter_iff, decide_eq_true_eq]
  unfold TScan.query at h
  split_ifs at h
  · simp at h
  · split at h
    · cases h
    · simp at h
    · rename_i B' hB
      simp only [Option.some.injEq, Except.ok.injEq, Prod.mk.injEq] at h
      obtain ⟨rfl, rfl⟩ := h
      refine ⟨B'.trd.scannedLower (some x), B'.trd.scannedUpper (some x), ?_, ?_, rfl, hf _ _ _, hf _ _ _⟩
      · simp only [TScan.lower, TScan.scanTo, hB]
      · simp only [TScan.upper, TScan.scanTo, hB]

open Classical in
/-- C145, without a position: nothing is scanned, and all lines with enough points and width are given. -/
theorem C145_known (n : ℕ) (A : TScan) :
    A.lower n none = some (.ok (A, A.trd.lower.flatten.filter fun t => decide (Offered A.trd none t))) ∧
    A.upper n none = some (.ok (A, A.trd.upper.flatten.filter fun t => decide (Offered A.trd none t))) ∧
    A.lines = (A.trd.lower.flatten ++ A.trd.upper.flatten).filter fun t => decide (Offered A.trd none t) := by
  have hf : ∀ (s : Trd) (x : Option ℚ) (ls : List TLine), (ls.filter fun l => s.lineFilter l x) =
      ls.filter fun t => decide (Offered s x t) := by
    intro s x ls
    congr 1
    funext t
    rw [Bool.eq_iff_iff, lineFilter_iff, decide_eq_true_eq]
  refine ⟨?_, ?_, ?_⟩
  · simp only [TScan.lower, TScan.scanTo, Trd.scannedLower, hf]
  · simp only [TScan.upper, TScan.scanTo, Trd.scannedUpper, hf]
  · rw [List.filter_append]
    simp only [TScan.lines, Trd.scannedLower, Trd.scannedUpper, hf]

/-- C145, answers: whatever queries and edits were made, every line that a query gives was made by the trend, is as
wide as the trend asks for, has as many points as it asks for and its search interval contains the position. -/
theorem C145_answer {allowed : Op ℚ → Prop} {w m : ℚ} {k : ℕ} {d sr : ℚ} {yr ya : Option ℚ} {g : ℚ} {A B : TScan}
    (h : Fed allowed (Trd.new w k d sr yr ya g) m A) {n : ℕ} {x : ℚ} {v : List TLine}
    (e : A.query n x = some (.ok (B, some v))) : ∀ t ∈ v, Grown t ∧ t.line ≠ none ∧ w ≤ extent t.trend ∧
      k ≤ t.trend.length ∧ t.search.contains (.fin x) = true ∧
      (t.upper = true → t ∈ B.trd.upper.flatten) ∧ (t.upper = false → t ∈ B.trd.lower.flatten) := by
  have h0 : TrdScanned (Trd.new w k d sr yr ya g) := TrdScanned.new _ _ _ _ _ _ _
  obtain ⟨hB, hA⟩ := query_kind (kind_scanned _) (fed_kind (kind_scanned _) ⟨h0, scanned_all h0⟩ h) e
  have hu := hA.same
  obtain ⟨lo, up, -, -, rfl, rfl, rfl⟩ := C145_sides e
  obtain ⟨hU, hL⟩ := C145_lines hB
  intro t ht
  rcases List.mem_append.1 ht with ht | ht
  · obtain ⟨h1, h2⟩ := List.mem_filter.1 ht
    have h2 : Offered B.trd (some x) t := by simpa using h2
    obtain ⟨g1, g2⟩ := hL t h1
    refine ⟨g1, h2.line, ?_, ?_, h2.covers x rfl, ?_, fun _ => h1⟩
    · have := h2.wide; rw [hu.width] at this; exact this
    · have := h2.points; rw [g2.points, hu.points] at this; exact this
    · intro h3; rw [g2.side] at h3; cases h3
  · obtain ⟨h1, h2⟩ := List.mem_filter.1 ht
    have h2 : Offered B.trd (some x) t := by simpa using h2
    obtain ⟨g1, g2⟩ := hU t h1
    refine ⟨g1, h2.line, ?_, ?_, h2.covers x rfl, fun _ => h1, ?_⟩
    · have := h2.wide; rw [hu.width] at this; exact this
    · have := h2.points; rw [g2.points, hu.points] at this; exact this
    · intro h3; rw [g2.side] at h3; cases h3

/-- C145, fit: a line that a trend has fits its trend points at least as well as any other straight line. -/
theorem C145_fit {s : Trd} (h : TrdScanned s) (hw : 0 < s.minWidth) {t : TLine}
    (ht : t ∈ s.upper.flatten ∨ t ∈ s.lower.flatten) {l : Chord} (hl : t.line = some l) :
    ∃ r : ℚ → ℚ, (∀ x, lineY l x = some (r x)) ∧ ∀ m c : ℚ,
      (t.trend.map fun p => (p.2 - r p.1) ^ 2).sum ≤ (t.trend.map fun p => (p.2 - (m * p.1 + c)) ^ 2).sum := by
  obtain ⟨hU, hL⟩ := C145_lines h
  rcases ht with ht | ht
  · obtain ⟨g, c⟩ := hU t ht
    exact C81_least g (by rw [c.width]; exact hw) hl
  · obtain ⟨g, c⟩ := hL t ht
    exact C81_least g (by rw [c.width]; exact hw) hl

/-- Disagreement with C145: the distance of points that a trend is made with is not that of its lines. -/
theorem C145_negation : ∃ s : Trd, TrdScanned s ∧ s.minDist = 5 ∧ (∃ t ∈ s.upper.flatten, t.isValid = true) ∧
    ∀ t ∈ s.upper.flatten, t.minDist ≠ s.minDist := by
  refine ⟨scanned (Trd.new 3 3 5 10 none (some (1 / 2)) (8 / 5)) [(1, 3), (2, 3), (3, 3), (4, 3), (5, 3)],
    scanned_scanned (TrdScanned.new _ _ _ _ _ _ _) _, by decide +kernel, by decide +kernel, ?_⟩
  intro t ht
  rw [((C145_lines (scanned_scanned (TrdScanned.new _ _ _ _ _ _ _) _)).1 t ht).2.dist]
  decide +kernel

/-- What `upper` or `lower` gives: how far it scanned, and the trend points of the lines. -/
def sideOf (r : Option (Except Err (TScan × List TLine))) : Option (Option ℚ × List (List XY)) :=
  match r with
  | some (.ok (B, ls)) => some (B.current, ls.map (·.trend))
  | _ => none

example : sideOf (bump.lower 30 (some 3)) = some (some 3, [[(0, 1), (1, 1), (3, 1)]]) ∧
    sideOf (bump.upper 30 (some 3)) = some (some 3, []) ∧
    (answer bump 30 3).map (List.map (·.trend)) = some [[(0, 1), (1, 1), (3, 1)]] ∧
    sideOf (bump.lower 30 none) = some (none, []) ∧ (asked bump 30 3).lines.map (·.trend) = [[(0, 1), (1, 1), (3, 1)]] ∧
    answer bump 30 (-1) = none ∧ sideOf (bump.upper 30 (some (-1))) = some (some 0, []) := by
  refine ⟨?_, ?_, ?_, ?_, ?_, ?_, ?_⟩ <;> decide +kernel

example : ∀ t ∈ (asked bump 30 3).trd.lower.flatten, Grown t ∧ Carries (asked bump 30 3).trd false t :=
  (C145_lines (fed_kind (kind_scanned bumpTrd) ⟨TrdScanned.new _ _ _ _ _ _ _, scanned_all (TrdScanned.new _ _ _ _ _ _ _)⟩
    (fed_asked (bump_fed fun _ => True) 30 3)).1).2

/-! ### An instance of each theorem -/

theorem asked_scanned : TrdScanned (asked bump 30 3).trd :=
  (fed_kind (kind_scanned bumpTrd) ⟨TrdScanned.new _ _ _ _ _ _ _, scanned_all (TrdScanned.new _ _ _ _ _ _ _)⟩
    (fed_asked (bump_fed fun _ => True) 30 3)).1

-- `C145_sides`, `C145_answer`: the answer at `4` after a query at `3`
example : ∃ B v, (asked bump 30 3).query 30 4 = some (.ok (B, some v)) ∧
    (∀ t ∈ v, Grown t ∧ t.line ≠ none ∧ 1 ≤ extent t.trend ∧ 3 ≤ t.trend.length) ∧
    ∃ lo up, (asked bump 30 3).lower 30 (some 4) = some (.ok (B, lo)) ∧ (asked bump 30 3).upper 30 (some 4) = some (.ok (B, up)) ∧
      v = lo ++ up := by
  have key : (match (asked bump 30 3).query 30 4 with | some (.ok (_, some _)) => true | _ => false) = true := by decide +kernel
  match e : (asked bump 30 3).query 30 4, key with
  | some (.ok (B, some v)), _ =>
    refine ⟨B, v, rfl, fun t ht => ?_, ?_⟩
    · have := C145_answer (fed_asked (bump_fed fun _ => True) 30 3) e t ht
      exact ⟨this.1, this.2.1, this.2.2.1, this.2.2.2.1⟩
    · obtain ⟨lo, up, h1, h2, h3, -⟩ := C145_sides e
      exact ⟨lo, up, h1, h2, h3⟩

-- `C145_known`: without a position
example : ∃ ls, bump.lower 30 none = some (.ok (bump, ls)) := ⟨_, (C145_known 30 bump).1⟩

-- `C145_fit`: no other line fits better than that of a trend found
example {t : TLine} (ht : t ∈ (asked bump 30 3).trd.lower.flatten) {l : Chord} (hl : t.line = some l) (m c : ℚ) :
    ∃ r : ℚ → ℚ, (∀ x, lineY l x = some (r x)) ∧
      (t.trend.map fun p => (p.2 - r p.1) ^ 2).sum ≤ (t.trend.map fun p => (p.2 - (m * p.1 + c)) ^ 2).sum := by
  obtain ⟨r, h, h'⟩ := C145_fit asked_scanned (by decide +kernel) (.inr ht) hl
  exact ⟨r, h, h' m c⟩

end Props
end Curvepy
