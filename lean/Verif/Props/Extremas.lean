import Verif.Spec.Extremas
import Verif.Props.Averages
import Mathlib.Data.List.Induction

/-!
# Property C60: extremas
-/

namespace Curvepy
namespace Props
open Spec Extr

/-- The scan over points, without errors. -/
def foldDev (s : Found) (l : List Dev) : Found := l.foldl (fun s p => extremaStep s p.x p.y p.phase) s

theorem deviating_append (ref : ℚ → Option ℚ) (dev : ℚ) (a b : List (Pt ℚ)) :
    deviating ref dev (a ++ b) = deviating ref dev a ++ deviating ref dev b := by
  induction a with
  | nil => rfl
  | cons p ps ih =>
    obtain ⟨x, y⟩ := p
    cases y with
    | none => exact ih
    | some y =>
      simp only [List.cons_append, deviating]
      cases ref x with
      | none => exact ih
      | some y0 =>
        simp only
        split
        · rw [ih]; rfl
        · exact ih

theorem extremaScan_eq {ref : ℚ → Option ℚ} {dev : ℚ} {p : Pt ℚ} (h : RefFine ref [p]) (s : Found) :
    extremaScan ref dev s p.1 p.2 = .ok (foldDev s (deviating ref dev [p])) := by
  obtain ⟨x, y⟩ := p
  unfold extremaScan
  cases y with
  | none => rfl
  | some y =>
    simp only [deviating]
    cases hr : ref x with
    | none => rfl
    | some y0 =>
      have h0 : y0 ≠ 0 := by
        rintro rfl
        exact h (x, some y) (by simp) rfl hr
      simp only [h0, if_false]
      by_cases hd : |y / y0 - 1| ≤ dev
      · rw [if_pos hd, if_neg (not_lt.2 hd)]; rfl
      · rw [if_neg hd, if_pos (not_le.1 hd)]; rfl

/-- What the scan has found in the points so far. -/
def foundIn (ref : ℚ → Option ℚ) (dev : ℚ) (pts : List (Pt ℚ)) : Found :=
  foldDev ([], none) (deviating ref dev pts)

theorem foundIn_snoc (ref : ℚ → Option ℚ) (dev : ℚ) (a b : List (Pt ℚ)) :
    foundIn ref dev (a ++ b) = foldDev (foundIn ref dev a) (deviating ref dev b) := by
  unfold foundIn foldDev
  rw [deviating_append, List.foldl_append]

theorem step_prefix (s : Found) (x y ph : ℚ) : s.1 <+: (extremaStep s x y ph).1 := by
  unfold extremaStep
  split
  · exact List.prefix_refl _
  · split
    · exact List.prefix_append _ _
    · split <;> exact List.prefix_refl _

theorem foldDev_prefix (s : Found) (l : List Dev) : s.1 <+: (foldDev s l).1 := by
  induction l generalizing s with
  | nil => exact List.prefix_refl _
  | cons p ps ih => exact (step_prefix s p.x p.y p.phase).trans (ih _)

theorem deviating_phase {ref : ℚ → Option ℚ} {dev : ℚ} (hd : 0 ≤ dev) {pts : List (Pt ℚ)}
    (hf : RefFine ref pts) : ∀ d ∈ deviating ref dev pts, d.phase ≠ 0 := by
  induction pts with
  | nil => simp [deviating]
  | cons p ps ih =>
    obtain ⟨x, y⟩ := p
    have ih := ih fun q hq => hf q (by simp [hq])
    intro d h
    cases y with
    | none => exact ih d h
    | some y =>
      simp only [deviating] at h
      cases hr : ref x with
      | none => rw [hr] at h; exact ih d h
      | some y0 =>
        rw [hr] at h
        simp only at h
        split at h
        · rename_i hlt
          rcases List.mem_cons.1 h with rfl | h
          · intro h0
            have : y = y0 := by have : y - y0 = 0 := h0; linarith
            subst this
            by_cases hy : y = 0
            · subst hy
              exact hf (x, some 0) (by simp) rfl hr
            · rw [div_self hy] at hlt
              simp at hlt
              linarith
          · exact ih d h
        · exact ih d h


/-- The state of the scan, in terms of excursions. -/
def Shape (l : List Dev) (s : Found) : Prop :=
  (l = [] ∧ s = ([], none)) ∨
  ∃ rs r up e ph, Excursions l (rs ++ [(r, up)]) ∧ List.Forall₂ IsPeak rs s.1 ∧ s.2 = some (e, ph) ∧
    IsPeak (r, up) e ∧ (if up then 0 < ph else ph < 0)

theorem excursions_grow {l r : List Dev} {rs : List (List Dev × Bool)} {up : Bool} {d : Dev}
    (h : Excursions l (rs ++ [(r, up)])) (hd : Side up [d]) :
    Excursions (l ++ [d]) (rs ++ [(r ++ [d], up)]) := by
  obtain ⟨h1, h2, h3⟩ := h
  refine ⟨?_, ?_, ?_⟩
  · rw [← h1]; simp
  · intro q hq
    rcases List.mem_append.1 hq with hq | hq
    · exact h2 q (by simp [hq])
    · simp only [List.mem_singleton] at hq
      subst hq
      refine ⟨by simp, ?_⟩
      intro p hp
      rcases List.mem_append.1 hp with hp | hp
      · exact (h2 (r, up) (by simp)).2 p hp
      · exact hd p hp
  · rw [List.isChain_append] at h3 ⊢
    refine ⟨h3.1, by simp, ?_⟩
    intro x hx y hy
    simp only [List.head?_cons, Option.mem_def, Option.some.injEq] at hy
    subst hy
    exact h3.2.2 x hx (r, up) (by simp)

theorem excursions_next {l r : List Dev} {rs : List (List Dev × Bool)} {up : Bool} {d : Dev}
    (h : Excursions l (rs ++ [(r, up)])) (hd : Side (!up) [d]) :
    Excursions (l ++ [d]) (rs ++ [(r, up)] ++ [([d], !up)]) := by
  obtain ⟨h1, h2, h3⟩ := h
  refine ⟨?_, ?_, ?_⟩
  · rw [← h1]; simp
  · intro q hq
    rcases List.mem_append.1 hq with hq | hq
    · exact h2 q hq
    · simp only [List.mem_singleton] at hq
      subst hq
      exact ⟨by simp, hd⟩
  · rw [List.isChain_append]
    refine ⟨h3, by simp, ?_⟩
    intro x hx y hy
    simp only [List.head?_cons, Option.mem_def, Option.some.injEq, List.getLast?_append,
      List.getLast?_singleton, Option.or_some, Option.some_or] at hx hy
    subst hy
    subst hx
    cases up <;> simp

theorem isPeak_one (d : Dev) (up : Bool) : IsPeak ([d], up) (d.x, d.y) :=
  ⟨[], d, [], rfl, rfl, by simp, by simp⟩

theorem Shape.step {l : List Dev} {s : Found} (h : Shape l s) {d : Dev} (hd : d.phase ≠ 0) :
    Shape (l ++ [d]) (extremaStep s d.x d.y d.phase) := by
  have hside : ∃ up, Side up [d] ∧ (if up then 0 < d.phase else d.phase < 0) := by
    rcases lt_or_gt_of_ne hd with h | h
    · exact ⟨false, by intro p hp; simp only [List.mem_singleton] at hp; subst hp; simpa using h, by simpa using h⟩
    · exact ⟨true, by intro p hp; simp only [List.mem_singleton] at hp; subst hp; simpa using h, by simpa using h⟩
  obtain ⟨up', hs, hsg⟩ := hside
  rcases h with ⟨rfl, rfl⟩ | ⟨rs, r, up, e, ph, h1, h2, h3, h4, h5⟩
  · refine Or.inr ⟨[], [d], up', (d.x, d.y), d.phase, ⟨by simp, ?_, by simp⟩, List.Forall₂.nil, rfl, isPeak_one d up', hsg⟩
    intro q hq
    simp only [List.nil_append, List.mem_singleton] at hq
    subst hq
    exact ⟨by simp, hs⟩
  · unfold extremaStep
    rw [h3]
    simp only
    by_cases hup : up' = up
    · subst hup
      have hn : ¬ ph * d.phase < 0 := by
        cases up' with
        | true => simp at h5 hsg; exact not_lt.2 (mul_pos h5 hsg).le
        | false => simp at h5 hsg; exact not_lt.2 (mul_pos_of_neg_of_neg h5 hsg).le
      rw [if_neg hn]
      obtain ⟨a, p, b, ha, he, hb, hc⟩ := h4
      subst he
      simp only at ha hb hc
      split
      · rename_i hmore
        have hm : if up' then p.y < d.y else d.y < p.y := by
          cases up' with
          | true => simp at hsg ⊢; rcases hmore with h | h; exact h.2; linarith [h.1]
          | false => simp at hsg ⊢; rcases hmore with h | h; linarith [h.1]; exact h.2
        refine Or.inr ⟨rs, r ++ [d], up', (d.x, d.y), d.phase, excursions_grow h1 hs, h2, rfl, ?_, hsg⟩
        refine ⟨r, d, [], rfl, rfl, ?_, by simp⟩
        intro q hq
        rw [ha] at hq
        simp only
        rcases List.mem_append.1 hq with hq | hq
        · have := hb q hq
          cases up' <;> simp at hm this ⊢ <;> linarith
        · rcases List.mem_cons.1 hq with rfl | hq
          · exact hm
          · have := hc q hq
            cases up' <;> simp at hm this ⊢ <;> linarith
      · rename_i hmore
        have hm : if up' then d.y ≤ p.y else p.y ≤ d.y := by
          cases up' with
          | true => simp at hsg ⊢; by_contra hc; exact hmore (Or.inl ⟨hsg, not_le.1 hc⟩)
          | false => simp at hsg ⊢; by_contra hc; exact hmore (Or.inr ⟨hsg, not_le.1 hc⟩)
        refine Or.inr ⟨rs, r ++ [d], up', (p.x, p.y), ph, excursions_grow h1 hs, h2, h3, ?_, h5⟩
        refine ⟨a, p, b ++ [d], by simp [ha], rfl, hb, ?_⟩
        intro q hq
        rcases List.mem_append.1 hq with hq | hq
        · exact hc q hq
        · simp only [List.mem_singleton] at hq
          subst hq
          exact hm
    · have hup' : up' = !up := by cases up <;> cases up' <;> simp_all
      subst hup'
      have hn : ph * d.phase < 0 := by
        cases up with
        | true => simp at h5 hsg; exact mul_neg_of_pos_of_neg h5 hsg
        | false => simp at h5 hsg; exact mul_neg_of_neg_of_pos h5 hsg
      rw [if_pos hn]
      exact Or.inr ⟨rs ++ [(r, up)], [d], !up, (d.x, d.y), d.phase, excursions_next h1 hs,
        List.rel_append h2 (.cons h4 .nil), rfl, isPeak_one d _, hsg⟩

theorem shape_found {ref : ℚ → Option ℚ} {dev : ℚ} (hd : 0 ≤ dev) {pts : List (Pt ℚ)}
    (hf : RefFine ref pts) : Shape (deviating ref dev pts) (foundIn ref dev pts) := by
  have hp := deviating_phase hd hf
  unfold foundIn foldDev
  generalize deviating ref dev pts = l at hp ⊢
  induction l using List.reverseRecOn with
  | nil => exact Or.inl ⟨rfl, rfl⟩
  | append_singleton l d ih =>
    rw [List.foldl_append]
    exact Shape.step (ih fun q hq => hp q (by simp [hq])) (hp d (by simp))

/-- C60: scanning divides the deviating points into excursions and finds the extremum of each but the last. -/
theorem C60_found {ref : ℚ → Option ℚ} {dev : ℚ} (hd : 0 ≤ dev) {pts : List (Pt ℚ)}
    (hf : RefFine ref pts) : ∃ rs, Excursions (deviating ref dev pts) rs ∧
      List.Forall₂ IsPeak rs.dropLast (foundIn ref dev pts).1 := by
  rcases shape_found hd hf with ⟨h1, h2⟩ | ⟨rs, r, up, e, ph, h1, h2, _⟩
  · rw [h1, h2]
    exact ⟨[], ⟨rfl, by simp, by simp⟩, List.Forall₂.nil⟩
  · exact ⟨_, h1, by rw [List.dropLast_concat]; exact h2⟩

theorem deviating_mem {ref : ℚ → Option ℚ} {dev : ℚ} {pts : List (Pt ℚ)} :
    ∀ d ∈ deviating ref dev pts, (d.x, some d.y) ∈ pts ∧ ref d.x = some (d.y - d.phase) := by
  induction pts with
  | nil => simp [deviating]
  | cons p ps ih =>
    obtain ⟨x, y⟩ := p
    have ih' : ∀ d ∈ deviating ref dev ps, (d.x, some d.y) ∈ (x, y) :: ps ∧ ref d.x = some (d.y - d.phase) :=
      fun d hd => ⟨by simp [(ih d hd).1], (ih d hd).2⟩
    intro d h
    cases y with
    | none => exact ih' d h
    | some y =>
      simp only [deviating] at h
      cases hr : ref x with
      | none => rw [hr] at h; exact ih' d h
      | some y0 =>
        rw [hr] at h
        simp only at h
        split at h
        · rcases List.mem_cons.1 h with rfl | h
          · exact ⟨by simp, by simp [hr]⟩
          · exact ih' d h
        · exact ih' d h

theorem deviating_asc {ref : ℚ → Option ℚ} {dev : ℚ} {pts : List (Pt ℚ)} (h : Ascending pts) :
    (deviating ref dev pts).Pairwise fun a b => a.x < b.x := by
  induction pts with
  | nil => exact List.Pairwise.nil
  | cons p ps ih =>
    obtain ⟨x, y⟩ := p
    obtain ⟨h1, h2⟩ := List.pairwise_cons.1 h
    cases y with
    | none => exact ih h2
    | some y =>
      simp only [deviating]
      cases hr : ref x with
      | none => exact ih h2
      | some y0 =>
        simp only
        split
        · exact List.pairwise_cons.2 ⟨fun d hd => h1 _ (deviating_mem d hd).1, ih h2⟩
        · exact ih h2

theorem IsPeak.mem {r : List Dev × Bool} {e : ℚ × ℚ} (h : IsPeak r e) : ∃ p ∈ r.1, e = (p.x, p.y) := by
  obtain ⟨a, p, b, h1, h2, _⟩ := h
  exact ⟨p, by rw [h1]; simp, h2⟩

theorem forall₂_mem {α β : Type} {R : α → β → Prop} {l : List α} {l' : List β}
    (h : List.Forall₂ R l l') {b : β} (hb : b ∈ l') : ∃ a ∈ l, R a b := by
  induction h with
  | nil => cases hb
  | @cons a b' l l' hab h ih =>
    rcases List.mem_cons.1 hb with rfl | hb
    · exact ⟨a, by simp, hab⟩
    · obtain ⟨a', h1, h2⟩ := ih hb
      exact ⟨a', by simp [h1], h2⟩

theorem forall₂_chain {α β : Type} {R : α → β → Prop} {S : α → α → Prop} {T : β → β → Prop}
    (hst : ∀ a a' b b', R a b → R a' b' → S a a' → T b b') {l : List α} {l' : List β}
    (h : List.Forall₂ R l l') (hl : l.IsChain S) : l'.IsChain T := by
  induction h with
  | nil => simp
  | @cons a b l l' hab h ih =>
    cases h with
    | nil => simp
    | @cons a' b' l l' hab' h =>
      rw [List.isChain_cons_cons] at hl ⊢
      exact ⟨hst a a' b b' hab hab' hl.1, ih hl.2⟩

theorem mem_of_dropLast {α : Type} {l : List α} {a : α} (h : a ∈ l.dropLast) : a ∈ l :=
  List.dropLast_subset l h

theorem excursion_mem {l : List Dev} {rs : List (List Dev × Bool)} (h : Excursions l rs)
    {r : List Dev × Bool} (hr : r ∈ rs) {p : Dev} (hp : p ∈ r.1) : p ∈ l := by
  rw [← h.all]
  exact List.mem_flatten.2 ⟨r.1, List.mem_map.2 ⟨r, hr, rfl⟩, hp⟩

/-- C60: the extremas are points of the curve, in strictly increasing order. -/
theorem C60_order {ref : ℚ → Option ℚ} {dev : ℚ} (hd : 0 ≤ dev) {pts : List (Pt ℚ)} (ha : Ascending pts)
    (hf : RefFine ref pts) : (foundIn ref dev pts).1.Pairwise (fun e f => e.1 < f.1) ∧
      ∀ e ∈ (foundIn ref dev pts).1, (e.1, some e.2) ∈ pts := by
  obtain ⟨rs, h1, h2⟩ := C60_found hd hf
  have hasc := deviating_asc (ref := ref) (dev := dev) ha
  rw [← h1.all, List.pairwise_flatten, List.pairwise_map] at hasc
  constructor
  · have hsub : rs.dropLast.Pairwise (fun a b => ∀ x ∈ a.1, ∀ y ∈ b.1, x.x < y.x) :=
      hasc.2.sublist (List.dropLast_sublist rs)
    have := forall₂_chain (T := fun e f : ℚ × ℚ => e.1 < f.1) ?_ h2 hsub.isChain
    · exact List.isChain_iff_pairwise.1 this
    · intro a a' b b' hp hp' hs
      obtain ⟨p, hq, rfl⟩ := IsPeak.mem hp
      obtain ⟨p', hq', rfl⟩ := IsPeak.mem hp'
      exact hs p hq p' hq'
  · intro e he
    obtain ⟨r, hr, hp⟩ := forall₂_mem h2 he
    obtain ⟨p, hq, rfl⟩ := IsPeak.mem hp
    exact (deviating_mem p (excursion_mem h1 (mem_of_dropLast hr) hq)).1

/-- C60: the extremas alternate between above and below the reference. -/
theorem C60_alternate {ref : ℚ → Option ℚ} {dev : ℚ} (hd : 0 ≤ dev) {pts : List (Pt ℚ)}
    (hf : RefFine ref pts) : (foundIn ref dev pts).1.IsChain fun e f =>
      ∃ a b, ref e.1 = some a ∧ ref f.1 = some b ∧ (a < e.2 ∧ f.2 < b ∨ e.2 < a ∧ b < f.2) := by
  obtain ⟨rs, h1, h2⟩ := C60_found hd hf
  have h3 : List.Forall₂ (fun a e => a ∈ rs ∧ IsPeak a e) rs.dropLast (foundIn ref dev pts).1 :=
    (List.forall₂_and_left (p := fun a => a ∈ rs) _ _).2 ⟨fun a ha => mem_of_dropLast ha, h2⟩
  have hch : rs.dropLast.IsChain fun a b => a.2 ≠ b.2 :=
    h1.alternate.prefix (List.dropLast_prefix rs)
  refine forall₂_chain ?_ h3 hch
  rintro ⟨r, up⟩ ⟨r', up'⟩ b b' ⟨hm, hp⟩ ⟨hm', hp'⟩ hne
  obtain ⟨p, hq, rfl⟩ := IsPeak.mem hp
  obtain ⟨p', hq', rfl⟩ := IsPeak.mem hp'
  have s1 := (h1.side _ hm).2 p hq
  have s2 := (h1.side _ hm').2 p' hq'
  have e1 := (deviating_mem p (excursion_mem h1 hm hq)).2
  have e2 := (deviating_mem p' (excursion_mem h1 hm' hq')).2
  refine ⟨_, _, e1, e2, ?_⟩
  cases up <;> cases up' <;> simp at hne s1 s2
  · exact Or.inr ⟨by simp only; linarith, by simp only; linarith⟩
  · exact Or.inl ⟨by simp only; linarith, by simp only; linarith⟩

/-! ## Repeats

After an edit behind the scanned part the last extremum is found again and recorded again. -/

/-- The second list with elements repeated. -/
inductive Stutter : List (ℚ × ℚ) → List (ℚ × ℚ) → Prop where
  | nil : Stutter [] []
  | next {l l' : List (ℚ × ℚ)} (e : ℚ × ℚ) (h : Stutter l l') : Stutter (l ++ [e]) (l' ++ [e])
  | again {l l' : List (ℚ × ℚ)} (e : ℚ × ℚ) (h : Stutter l (l' ++ [e])) :
      Stutter (l ++ [e]) (l' ++ [e])

theorem Stutter.last {l l' : List (ℚ × ℚ)} (h : Stutter l l') : l.getLast? = l'.getLast? := by
  cases h <;> simp

theorem Stutter.head {l l' : List (ℚ × ℚ)} (h : Stutter l l') : l.head? = l'.head? := by
  induction h with
  | nil => rfl
  | next e h ih => simp only [List.head?_append, ih]
  | again e h ih =>
    simp only [List.head?_append, ih]
    simp

theorem Stutter.mem {l l' : List (ℚ × ℚ)} (h : Stutter l l') (e : ℚ × ℚ) : e ∈ l ↔ e ∈ l' := by
  induction h with
  | nil => rfl
  | next e h ih => simp only [List.mem_append, ih]
  | again e h ih =>
    simp only [List.mem_append, ih]
    simp

theorem Stutter.nil_left {l : List (ℚ × ℚ)} (h : Stutter [] l) : l = [] := by
  have := h.last
  simp at this
  exact List.getLast?_eq_none_iff.1 this.symm

theorem Stutter.refl (l : List (ℚ × ℚ)) : Stutter l l := by
  induction l using List.reverseRecOn with
  | nil => exact .nil
  | append_singleton l e ih => exact .next e ih

theorem Stutter.filter {l l' : List (ℚ × ℚ)} (h : Stutter l l') (P : ℚ × ℚ → Bool) :
    Stutter (l.filter P) (l'.filter P) := by
  induction h with
  | nil => exact .nil
  | next e h ih =>
    rw [List.filter_append, List.filter_append]
    cases hp : P e with
    | true => simp only [List.filter_cons, hp, if_true, List.filter_nil]; exact .next e ih
    | false => simpa [List.filter_cons, hp] using ih
  | again e h ih =>
    rw [List.filter_append]
    rw [List.filter_append] at ih ⊢
    cases hp : P e with
    | true =>
      simp only [List.filter_cons, hp, if_true, List.filter_nil] at ih ⊢
      exact .again e ih
    | false => simpa [List.filter_cons, hp] using ih

theorem Stutter.sorted {l l' : List (ℚ × ℚ)} (h : Stutter l l') (hs : l'.Pairwise fun e f => e.1 < f.1) :
    l.Pairwise fun e f => e.1 ≤ f.1 := by
  induction h with
  | nil => exact List.Pairwise.nil
  | next e h ih =>
    rw [List.pairwise_append] at hs ⊢
    refine ⟨ih hs.1, by simp, ?_⟩
    intro a ha b hb
    exact (hs.2.2 a ((h.mem a).1 ha) b hb).le
  | again e h ih =>
    rw [List.pairwise_append]
    refine ⟨ih hs, by simp, ?_⟩
    intro a ha b hb
    simp only [List.mem_singleton] at hb
    subst hb
    rcases List.mem_append.1 ((h.mem a).1 ha) with ha | ha
    · exact ((List.pairwise_append.1 hs).2.2 a ha b (by simp)).le
    · simp only [List.mem_singleton] at ha
      exact le_of_eq (by rw [ha])

theorem interval_eq (l : List (ℚ × ℚ)) (hl : l ≠ []) :
    interval l = Iv.closed (l.head hl).1 (l.getLast hl).1 := by
  cases l with
  | nil => exact absurd rfl hl
  | cons e es => rfl

theorem Stutter.interval {l l' : List (ℚ × ℚ)} (h : Stutter l l') : Extr.interval l = Extr.interval l' := by
  by_cases hl : l = []
  · subst hl; rw [h.nil_left]
  · have hl' : l' ≠ [] := by
      rintro rfl
      have := h.last
      simp at this
      exact hl this
    have h1 := h.head
    have h2 := h.last
    rw [List.head?_eq_some_head hl, List.head?_eq_some_head hl'] at h1
    rw [List.getLast?_eq_some_getLast hl, List.getLast?_eq_some_getLast hl'] at h2
    rw [interval_eq l hl, interval_eq l' hl', Option.some.inj h1, Option.some.inj h2]

theorem split_sorted {l : List (ℚ × ℚ)} (h : l.Pairwise fun e f => e.1 ≤ f.1) (x : ℚ) :
    l.takeWhile (fun e => decide (e.1 ≤ x)) = l.filter (fun e => decide (e.1 ≤ x)) ∧
    l = l.filter (fun e => decide (e.1 ≤ x)) ++ l.filter (fun e => !decide (e.1 ≤ x)) := by
  induction l with
  | nil => exact ⟨rfl, rfl⟩
  | cons e es ih =>
    obtain ⟨h1, h2⟩ := List.pairwise_cons.1 h
    obtain ⟨i1, i2⟩ := ih h2
    by_cases he : e.1 ≤ x
    · simp only [List.takeWhile_cons, List.filter_cons, he, decide_true, if_true, Bool.not_true,
        Bool.false_eq_true, if_false, List.cons_append]
      exact ⟨by rw [i1], by rw [← i2]⟩
    · have hall : ∀ f ∈ es, ¬ f.1 ≤ x := fun f hf hc => he ((h1 f hf).trans hc)
      have hn : es.filter (fun e => decide (e.1 ≤ x)) = [] := by
        rw [List.filter_eq_nil_iff]; intro f hf; simpa using hall f hf
      have ha : es.filter (fun e => !decide (e.1 ≤ x)) = es := by
        rw [List.filter_eq_self]; intro f hf; simpa using hall f hf
      simp only [List.takeWhile_cons, List.filter_cons, he, decide_false, Bool.false_eq_true, if_false,
        Bool.not_false, if_true, hn, ha, List.nil_append, and_self]

theorem pyGet_last {α : Type} (l : List α) (a : α) (r : List α) :
    pyGet (l ++ a :: r) ((l ++ [a]).length - 1 : ℤ) = .ok a := by
  unfold pyGet
  simp

theorem pyGet_next {α : Type} (l : List α) (a : α) (r : List α) :
    pyGet (l ++ a :: r) (l.length : ℤ) = .ok a := by
  unfold pyGet
  simp

theorem pyGet_neg_one {α : Type} (l : List α) (a : α) : pyGet (l ++ [a]) (-1) = .ok a := by
  unfold pyGet
  simp

theorem defined_asc {l : List (ℚ × ℚ)} (h : l.Pairwise fun e f => e.1 < f.1) : Ascending (defined l) := by
  unfold Ascending defined
  rw [List.pairwise_map]
  exact h

theorem scannedY_eq {l l' : List (ℚ × ℚ)} (h : Stutter l l') (hs : l'.Pairwise fun e f => e.1 < f.1) (x : ℚ) :
    scannedY l x = .ok (valueAt .linear (defined l') x) := by
  have hasc := defined_asc hs
  have hiv := h.interval
  unfold scannedY
  rw [hiv]
  by_cases hl' : l' = []
  · subst hl'
    have : (Extr.interval []).contains (.fin x) = false := rfl
    rw [this]
    rfl
  · have hl : l ≠ [] := by
      rintro rfl
      exact hl' h.nil_left
    have hhead : l.head hl = l'.head hl' := by
      have h1 := h.head
      rw [List.head?_eq_some_head hl, List.head?_eq_some_head hl'] at h1
      exact Option.some.inj h1
    have hlast : l.getLast hl = l'.getLast hl' := by
      have h1 := h.last
      rw [List.getLast?_eq_some_getLast hl, List.getLast?_eq_some_getLast hl'] at h1
      exact Option.some.inj h1
    have hk0 : (defined l')[0]? = some ((l'.head hl').1, some (l'.head hl').2) := by
      cases l' with
      | nil => exact absurd rfl hl'
      | cons a as => rfl
    have hkl : (defined l')[l'.length - 1]? = some ((l'.getLast hl').1, some (l'.getLast hl').2) := by
      simp [defined, List.getElem?_map, List.getLast_eq_getElem]
    rw [interval_eq l' hl']
    by_cases hc : (Iv.closed (l'.head hl').1 (l'.getLast hl').1).contains (.fin x) = true
    · rw [hc]
      rw [Iv.contains_closed, Bool.and_eq_true, decide_eq_true_eq, decide_eq_true_eq] at hc
      simp only [Bool.not_true, Bool.false_eq_true, if_false]
      have e1 : (Iv.closed (l'.head hl').1 (l'.getLast hl').1).lo = .fin (l'.head hl').1 := rfl
      have e2 : (Iv.closed (l'.head hl').1 (l'.getLast hl').1).hi = .fin (l'.getLast hl').1 := rfl
      rw [e1, e2]
      by_cases hx0 : x = (l'.head hl').1
      · rw [if_pos (by rw [hx0]), hx0, Pts.valueAt_knot _ hasc hk0]
        have : pyGet l 0 = .ok (l.head hl) := by
          cases l with
          | nil => exact absurd rfl hl
          | cons a as => rfl
        rw [this, hhead]
        rfl
      · rw [if_neg (by simpa using hx0)]
        by_cases hx1 : x = (l'.getLast hl').1
        · rw [if_pos (by rw [hx1]), hx1, Pts.valueAt_knot _ hasc hkl]
          have : pyGet l (-1) = .ok (l.getLast hl) := by
            conv_lhs => rw [← List.dropLast_append_getLast hl]
            exact pyGet_neg_one _ _
          rw [this, hlast]
          rfl
        · rw [if_neg (by simpa using hx1)]
          obtain ⟨t1, t2⟩ := split_sorted (h.sorted hs) x
          obtain ⟨_, t2'⟩ := split_sorted (hs.imp fun {a b} hab => hab.le) x
          have sA := h.filter (fun e => decide (e.1 ≤ x))
          have sB := h.filter (fun e => !decide (e.1 ≤ x))
          have hA' : l'.head hl' ∈ l'.filter (fun e => decide (e.1 ≤ x)) := by
            rw [List.mem_filter]
            exact ⟨List.head_mem hl', by simpa using hc.1⟩
          have hB' : l'.getLast hl' ∈ l'.filter (fun e => !decide (e.1 ≤ x)) := by
            rw [List.mem_filter]
            refine ⟨List.getLast_mem hl', ?_⟩
            simp only [Bool.not_eq_true', decide_eq_false_iff_not, not_le]
            exact lt_of_le_of_ne (by simpa using hc.2) hx1
          have hA := (sA.mem _).2 hA'
          have hB := (sB.mem _).2 hB'
          unfold bisectRight
          rw [t1]
          generalize hfa : l.filter (fun e => decide (e.1 ≤ x)) = fa at *
          generalize hfb : l.filter (fun e => !decide (e.1 ≤ x)) = fb at *
          generalize hfa' : l'.filter (fun e => decide (e.1 ≤ x)) = fa' at *
          generalize hfb' : l'.filter (fun e => !decide (e.1 ≤ x)) = fb' at *
          obtain ⟨a0, p1, rfl⟩ : ∃ a0 p1, fa = a0 ++ [p1] :=
            ⟨_, _, (List.dropLast_append_getLast (List.ne_nil_of_mem hA)).symm⟩
          obtain ⟨a0', p1', rfl⟩ : ∃ a0 p1, fa' = a0 ++ [p1] :=
            ⟨_, _, (List.dropLast_append_getLast (List.ne_nil_of_mem hA')).symm⟩
          obtain ⟨p2, b0, rfl⟩ := List.exists_cons_of_ne_nil (List.ne_nil_of_mem hB)
          obtain ⟨p2', b0', rfl⟩ := List.exists_cons_of_ne_nil (List.ne_nil_of_mem hB')
          have q1 : p1 = p1' := by simpa using sA.last
          have q2 : p2 = p2' := by simpa using sB.head
          subst q1
          subst q2
          have hp1 : p1.1 ≤ x := by
            have : p1 ∈ l'.filter (fun e => decide (e.1 ≤ x)) := by rw [hfa']; simp
            simpa using (List.mem_filter.1 this).2
          have hp2 : x < p2.1 := by
            have : p2 ∈ l'.filter (fun e => !decide (e.1 ≤ x)) := by rw [hfb']; simp
            simpa using (List.mem_filter.1 this).2
          have g1 : pyGet l (((a0 ++ [p1]).length : ℤ) - 1) = .ok p1 := by
            rw [t2, List.append_assoc]
            exact pyGet_last a0 p1 (p2 :: b0)
          have g2 : pyGet l ((a0 ++ [p1]).length : ℤ) = .ok p2 := by
            conv_lhs => rw [t2]
            exact pyGet_next (a0 ++ [p1]) p2 b0
          simp only [g1, g2, bind, Except.bind]
          have hne : p2.1 - p1.1 ≠ 0 := by linarith
          rw [if_neg hne]
          have k1 : (defined l')[a0'.length]? = some (p1.1, some p1.2) := by
            rw [t2']; simp [defined]
          have k2 : (defined l')[a0'.length + 1]? = some (p2.1, some p2.2) := by
            rw [t2']; simp [defined]
          rcases hp1.lt_or_eq with hlt | heq
          · rw [Pts.valueAt_gap _ hasc k1 k2 hlt hp2]
            simp only [between, Lerp.lerp]
            rfl
          · have hv := Pts.valueAt_knot .linear hasc k1
            rw [← heq, hv]
            simp [pure, Except.pure]
    · have hc' : (Iv.closed (l'.head hl').1 (l'.getLast hl').1).contains (.fin x) = false := by simpa using hc
      rw [hc']
      simp only [Bool.not_false, if_true]
      rw [Iv.contains_closed, Bool.and_eq_true, decide_eq_true_eq, decide_eq_true_eq, not_and_or, not_le, not_le]
        at hc
      congr 1
      symm
      rcases hc with hc | hc
      · apply Pts.valueAt_before
        intro p hp
        obtain ⟨e, he, rfl⟩ := List.mem_map.1 hp
        refine lt_of_lt_of_le hc ?_
        obtain ⟨a, as, rfl⟩ := List.exists_cons_of_ne_nil hl'
        rcases List.mem_cons.1 he with rfl | he
        · exact le_refl _
        · exact ((List.pairwise_cons.1 hs).1 e he).le
      · apply Pts.valueAt_after
        intro p hp
        obtain ⟨e, he, rfl⟩ := List.mem_map.1 hp
        refine lt_of_le_of_lt ?_ hc
        rw [← List.dropLast_append_getLast hl'] at he hs
        rcases List.mem_append.1 he with he | he
        · exact ((List.pairwise_append.1 hs).2.2 e he _ (by simp)).le
        · simp only [List.mem_singleton] at he
          exact le_of_eq (by rw [he])

/-! ## Between two operations -/

variable {ref : ℚ → Option ℚ} {dev m : ℚ}

theorem deviating_one (p : Pt ℚ) : deviating ref dev [p] = [] ∨
    ∃ d, deviating ref dev [p] = [d] ∧ p = (d.x, some d.y) ∧ ref d.x = some (d.y - d.phase) := by
  obtain ⟨x, y⟩ := p
  cases y with
  | none => exact Or.inl rfl
  | some y =>
    simp only [deviating]
    cases hr : ref x with
    | none => exact Or.inl rfl
    | some y0 =>
      simp only
      split
      · exact Or.inr ⟨_, rfl, rfl, by simp [hr]⟩
      · exact Or.inl rfl

theorem foldDev_one (s : Found) (d : Dev) : foldDev s [d] = extremaStep s d.x d.y d.phase := rfl

/-- The possible extremum is a knot, and the scan up to it ends like the one up to here. -/
theorem possible_knot {pre : List (Pt ℚ)} {e : ℚ × ℚ} {ph : ℚ} (h : (foundIn ref dev pre).2 = some (e, ph)) :
    ∃ pre', pre' <+: pre ∧ pre'.getLast? = some (e.1, some e.2) ∧
      foundIn ref dev pre' = ((foundIn ref dev pre).1, some (e, ph)) ∧ ref e.1 = some (e.2 - ph) := by
  induction pre using List.reverseRecOn with
  | nil => cases h
  | append_singleton pre p ih =>
    have hself : foundIn ref dev (pre ++ [p]) = ((foundIn ref dev (pre ++ [p])).1, some (e, ph)) := by
      rw [← h]
    rw [foundIn_snoc] at h hself ⊢
    rcases deviating_one (ref := ref) (dev := dev) p with hd | ⟨d, hd, hp, hr⟩
    · rw [hd] at h ⊢
      obtain ⟨pre', h1, h2, h3, h4⟩ := ih h
      exact ⟨pre', h1.trans (List.prefix_append _ _), h2, h3, h4⟩
    · rw [hd, foldDev_one] at h hself ⊢
      have hown : (e, ph) = ((d.x, d.y), d.phase) → ∃ pre', pre' <+: pre ++ [p] ∧
          pre'.getLast? = some (e.1, some e.2) ∧ foundIn ref dev pre' =
            ((extremaStep (foundIn ref dev pre) d.x d.y d.phase).1, some (e, ph)) ∧ ref e.1 = some (e.2 - ph) := by
        intro he
        cases he
        refine ⟨pre ++ [p], List.prefix_refl _, by simp [hp], ?_, hr⟩
        rw [foundIn_snoc, hd, foldDev_one]
        exact hself
      unfold extremaStep at h hown ⊢
      cases hs : (foundIn ref dev pre).2 with
      | none =>
        rw [hs] at h hown
        exact hown (Option.some.inj h).symm
      | some q =>
        obtain ⟨e0, ph0⟩ := q
        rw [hs] at h hown
        simp only at h hown ⊢
        split
        · rename_i hn
          rw [if_pos hn] at h hown
          exact hown (Option.some.inj h).symm
        · rename_i hn
          rw [if_neg hn] at h hown
          split
          · rename_i hm
            rw [if_pos hm] at h hown
            exact hown (Option.some.inj h).symm
          · rename_i hm
            rw [if_neg hm] at h
            obtain ⟨pre', h1, h2, h3, h4⟩ := ih h
            exact ⟨pre', h1.trans (List.prefix_append _ _), h2, h3, h4⟩

theorem prefix_snoc_cases {α : Type} {a b : List α} {x y : α} (h : a ++ [x] <+: b ++ [y]) :
    a ++ [x] <+: b ∨ (a = b ∧ x = y) := by
  rcases List.prefix_concat_iff.1 h with h | h
  · right
    have := List.append_inj' h rfl
    exact ⟨this.1, by simpa using this.2⟩
  · exact Or.inl h

/-- A confirmed extremum once was the possible one. -/
theorem confirmed_knot {all : List (Pt ℚ)} {es : List (ℚ × ℚ)} {e : ℚ × ℚ}
    (h : es ++ [e] <+: (foundIn ref dev all).1) : ∃ pre' ph, pre' <+: all ∧
      pre'.getLast? = some (e.1, some e.2) ∧ foundIn ref dev pre' = (es, some (e, ph)) ∧
      ref e.1 = some (e.2 - ph) := by
  induction all using List.reverseRecOn with
  | nil =>
    have := List.prefix_nil.1 h
    simp at this
  | append_singleton pre p ih =>
    have hold : es ++ [e] <+: (foundIn ref dev pre).1 → ∃ pre' ph, pre' <+: pre ++ [p] ∧
      pre'.getLast? = some (e.1, some e.2) ∧ foundIn ref dev pre' = (es, some (e, ph)) ∧
      ref e.1 = some (e.2 - ph) := by
      intro h
      obtain ⟨pre', ph, h1, h2⟩ := ih h
      exact ⟨pre', ph, h1.trans (List.prefix_append _ _), h2⟩
    rw [foundIn_snoc] at h
    rcases deviating_one (ref := ref) (dev := dev) p with hd | ⟨d, hd, hp, hr⟩
    · rw [hd] at h
      exact hold h
    · rw [hd, foldDev_one] at h
      unfold extremaStep at h
      cases hs : (foundIn ref dev pre).2 with
      | none => rw [hs] at h; exact hold h
      | some q =>
        obtain ⟨e0, ph0⟩ := q
        rw [hs] at h
        simp only at h
        split at h
        · rcases prefix_snoc_cases h with h | ⟨h1, h2⟩
          · exact hold h
          · subst h1
            subst h2
            obtain ⟨pre', h1, h2, h3, h4⟩ := possible_knot hs
            exact ⟨pre', ph0, h1.trans (List.prefix_append _ _), h2, h3, h4⟩
        · split at h <;> exact hold h

/-- The next to be confirmed is the possible one or a later one. -/
theorem next_confirmed {s : Found} {e0 : ℚ × ℚ} {ph0 : ℚ} (hs : s.2 = some (e0, ph0)) {l : List Dev}
    {e : ℚ × ℚ} (h : s.1 ++ [e] <+: (foldDev s l).1) : e = e0 ∨ ∃ d ∈ l, e = (d.x, d.y) := by
  induction l generalizing s e0 ph0 with
  | nil =>
    have := h.length_le
    simp [foldDev] at this
  | cons d ds ih =>
    have hf : foldDev s (d :: ds) = foldDev (extremaStep s d.x d.y d.phase) ds := rfl
    rw [hf] at h
    have hlater : ∀ s' : Found, s'.1 = s.1 → ∀ e1 ph1, s'.2 = some (e1, ph1) → (e1 = e0 ∨ e1 = (d.x, d.y)) →
        s.1 ++ [e] <+: (foldDev s' ds).1 → e = e0 ∨ ∃ d' ∈ d :: ds, e = (d'.x, d'.y) := by
      intro s' h1 e1 ph1 h2 h3 h4
      rw [← h1] at h4
      rcases ih h2 h4 with h5 | ⟨d', h5, h6⟩
      · rw [h5]
        rcases h3 with h3 | h3
        · exact Or.inl h3
        · exact Or.inr ⟨d, by simp, h3⟩
      · exact Or.inr ⟨d', by simp [h5], h6⟩
    unfold extremaStep at h
    rw [hs] at h
    simp only at h
    split at h
    · have h1 := foldDev_prefix (s.1 ++ [e0], some ((d.x, d.y), d.phase)) ds
      have := List.prefix_of_prefix_length_le h h1 (by simp)
      rcases prefix_snoc_cases this with h | h
      · have := h.length_le
        simp at this
      · exact Or.inl h.2
    · split at h
      · exact hlater (s.1, some ((d.x, d.y), d.phase)) rfl _ _ rfl (Or.inr rfl) h
      · exact hlater s rfl _ _ hs (Or.inl rfl) h

theorem foundIn_mono {a b : List (Pt ℚ)} (h : a <+: b) :
    (foundIn ref dev a).1 <+: (foundIn ref dev b).1 := by
  obtain ⟨c, rfl⟩ := h
  rw [foundIn_snoc]
  exact foldDev_prefix _ _

theorem refFine_sub {a b : List (Pt ℚ)} (h : RefFine ref b) (hs : ∀ p ∈ a, p ∈ b) : RefFine ref a :=
  fun p hp => h p (hs p hp)

/-- What is remembered after `pre`: what a scan would have found, up to repeats (`fresh`); the same with the last
extremum recorded already, to be found again (`rewound`); or a possible extremum from further on (`ahead`). -/
inductive Known (ref : ℚ → Option ℚ) (dev : ℚ) (pre all : List (Pt ℚ)) (s : Found) : Prop where
  | fresh (h1 : Stutter s.1 (foundIn ref dev pre).1) (h2 : s.2 = (foundIn ref dev pre).2)
  | rewound (e : ℚ × ℚ) (ph : ℚ) (h1 : (foundIn ref dev pre).2 = some (e, ph)) (h2 : s.2 = some (e, ph))
      (h3 : Stutter s.1 ((foundIn ref dev pre).1 ++ [e]))
      (h4 : (foundIn ref dev pre).1 ++ [e] <+: (foundIn ref dev all).1)
  | ahead (pre2 : List (Pt ℚ)) (h1 : pre <+: pre2) (h2 : pre2 <+: all) (h3 : s.1 = [])
      (h4 : foundIn ref dev pre2 = ([], s.2))

theorem ahead_same (hd : 0 ≤ dev) {pre : List (Pt ℚ)} (hf : RefFine ref pre) {o : Option ((ℚ × ℚ) × ℚ)}
    (h : foundIn ref dev pre = ([], o)) {d : Dev} (hm : d ∈ deviating ref dev pre) :
    extremaStep ([], o) d.x d.y d.phase = ([], o) := by
  have hs := shape_found hd hf
  rw [h] at hs
  rcases hs with ⟨h1, _⟩ | ⟨rs, r, up, e, ph, h1, h2, h3, h4, h5⟩
  · rw [h1] at hm; cases hm
  · cases h2
    simp only at h3
    subst h3
    have hall := h1.all
    simp only [List.nil_append, List.map_cons, List.map_nil, List.flatten_cons, List.flatten_nil,
      List.append_nil] at hall
    rw [← hall] at hm
    have hside := (h1.side (r, up) (by simp)).2 d hm
    obtain ⟨a, p, b, ha, he, hb, hc⟩ := h4
    simp only at ha hb hc
    subst he
    have hle : if up then d.y ≤ p.y else p.y ≤ d.y := by
      rw [ha] at hm
      rcases List.mem_append.1 hm with hm | hm
      · have := hb d hm
        cases up <;> simp at this ⊢ <;> exact this.le
      · rcases List.mem_cons.1 hm with rfl | hm
        · cases up <;> simp
        · exact hc d hm
    unfold extremaStep
    simp only
    cases up with
    | true =>
      simp only [if_true] at hside hle h5
      rw [if_neg (not_lt.2 (mul_pos h5 hside).le), if_neg]
      rintro (h | h)
      · exact absurd h.2 (not_lt.2 hle)
      · exact absurd h.1 (not_lt.2 hside.le)
    | false =>
      simp only [Bool.false_eq_true, if_false] at hside hle h5
      rw [if_neg (not_lt.2 (mul_pos_of_neg_of_neg h5 hside).le), if_neg]
      rintro (h | h)
      · exact absurd h.1 (not_lt.2 hside.le)
      · exact absurd h.2 (not_lt.2 hle)

theorem step_stutter {s t : Found} (h1 : Stutter s.1 t.1) (h2 : s.2 = t.2) (x y ph : ℚ) :
    Stutter (extremaStep s x y ph).1 (extremaStep t x y ph).1 ∧
      (extremaStep s x y ph).2 = (extremaStep t x y ph).2 := by
  unfold extremaStep
  rw [h2]
  cases t.2 with
  | none => exact ⟨h1, rfl⟩
  | some q =>
    simp only
    split
    · exact ⟨.next _ h1, rfl⟩
    · split
      · exact ⟨h1, rfl⟩
      · exact ⟨h1, h2⟩

/-- The scan goes on by one knot. -/
theorem Known.step (hd : 0 ≤ dev) {pre rest : List (Pt ℚ)} {p : Pt ℚ} {s : Found}
    (hasc : Ascending (pre ++ p :: rest)) (hf : RefFine ref (pre ++ p :: rest))
    (h : Known ref dev pre (pre ++ p :: rest) s) :
    Known ref dev (pre ++ [p]) (pre ++ p :: rest) (foldDev s (deviating ref dev [p])) := by
  have hfresh : Stutter s.1 (foundIn ref dev pre).1 → s.2 = (foundIn ref dev pre).2 →
      Known ref dev (pre ++ [p]) (pre ++ p :: rest) (foldDev s (deviating ref dev [p])) := by
    intro h1 h2
    rcases deviating_one (ref := ref) (dev := dev) p with hd | ⟨d, hd, hp, hr⟩
    · refine .fresh ?_ ?_ <;> rw [foundIn_snoc, hd]
      · exact h1
      · exact h2
    · obtain ⟨h3, h4⟩ := step_stutter h1 h2 d.x d.y d.phase
      refine .fresh ?_ ?_ <;> rw [foundIn_snoc, hd, foldDev_one]
      · exact h3
      · exact h4
  cases h with
  | fresh h1 h2 => exact hfresh h1 h2
  | ahead pre2 h1 h2 h3 h4 =>
    by_cases he : pre = pre2
    · subst he
      refine hfresh ?_ ?_
      · rw [h3, h4]; exact .nil
      · rw [h4]
    · have hpre : pre ++ [p] <+: pre2 := by
        refine List.prefix_of_prefix_length_le (l₃ := pre ++ p :: rest) ⟨rest, by simp⟩ h2 ?_
        have := h1.length_le
        have hne : pre.length ≠ pre2.length := fun h => he (h1.eq_of_length h)
        simp only [List.length_append, List.length_singleton]
        omega
      have hsame : foldDev s (deviating ref dev [p]) = s := by
        have hs : s = ([], s.2) := by rw [← h3]
        rcases deviating_one (ref := ref) (dev := dev) p with hd' | ⟨d, hd', hp, hr⟩
        · rw [hd']; rfl
        · rw [hd', foldDev_one, hs]
          refine ahead_same hd (pre := pre2) (refFine_sub hf fun q hq => h2.subset hq) h4 ?_
          obtain ⟨c, hc⟩ := hpre
          rw [← hc, deviating_append, deviating_append, hd']
          simp
      rw [hsame]
      exact .ahead pre2 hpre h2 h3 h4
  | rewound e ph h1 h2 h3 h4 =>
    obtain ⟨pre', hp1, hp2, _, _⟩ := possible_knot h1
    have he : (e.1, some e.2) ∈ pre := hp1.subset (List.mem_of_getLast? hp2)
    have hlt : e.1 < p.1 := (List.pairwise_append.1 hasc).2.2 _ he p (by simp)
    rcases deviating_one (ref := ref) (dev := dev) p with hd' | ⟨d, hd', hp, hr⟩
    · refine .rewound e ph ?_ ?_ ?_ ?_
      · rw [foundIn_snoc, hd']; exact h1
      · rw [hd']; exact h2
      · rw [foundIn_snoc, hd']; exact h3
      · rw [foundIn_snoc, hd']; exact h4
    · have hF : foundIn ref dev (pre ++ [p]) = extremaStep (foundIn ref dev pre) d.x d.y d.phase := by
        rw [foundIn_snoc, hd', foldDev_one]
      rw [hd', foldDev_one]
      by_cases hn : ph * d.phase < 0
      · refine .fresh ?_ ?_
        · rw [hF]
          unfold extremaStep
          rw [h1, h2]
          simp only [hn, if_true]
          exact .again e h3
        · rw [hF]
          unfold extremaStep
          rw [h1, h2]
          simp only [hn, if_true]
      · by_cases hmo : (d.phase > 0 ∧ d.y > e.2) ∨ (d.phase < 0 ∧ d.y < e.2)
        · exfalso
          have hF' : foundIn ref dev (pre ++ [p]) = ((foundIn ref dev pre).1, some ((d.x, d.y), d.phase)) := by
            rw [hF]
            unfold extremaStep
            rw [h1]
            simp only [hn, if_false, hmo, if_true]
          have hall : foundIn ref dev (pre ++ p :: rest) =
              foldDev (foundIn ref dev (pre ++ [p])) (deviating ref dev rest) := by
            rw [← foundIn_snoc]; simp
          rw [hall, hF'] at h4
          rcases next_confirmed (s := ((foundIn ref dev pre).1, some ((d.x, d.y), d.phase))) rfl h4 with h | ⟨d', hd'', h⟩
          · have hpx : p.1 = d.x := by rw [hp]
            have : e.1 = d.x := by rw [h]
            linarith
          · have hm := (deviating_mem d' hd'').1
            have h5 := (List.pairwise_append.1 hasc).2.2 _ he _ (List.mem_cons_of_mem p hm)
            have : e.1 = d'.x := by rw [h]
            simp only at h5
            linarith
        · refine .rewound e ph ?_ ?_ ?_ ?_
          · rw [hF]
            unfold extremaStep
            rw [h1]
            simp only [hn, if_false, hmo]
            exact h1
          · unfold extremaStep
            rw [h2]
            simp only [hn, if_false, hmo]
            exact h2
          · rw [hF]
            unfold extremaStep
            rw [h1, h2]
            simp only [hn, if_false, hmo]
            exact h3
          · rw [hF]
            unfold extremaStep
            rw [h1]
            simp only [hn, if_false, hmo]
            exact h4

/-- What is recorded is confirmed by the points there are. -/
theorem Known.confirmed {pre all : List (Pt ℚ)} {s : Found} (hp : pre <+: all) (h : Known ref dev pre all s) :
    ∃ G, Stutter s.1 G ∧ G <+: (foundIn ref dev all).1 ∧ (∀ e ∈ G, (e.1, some e.2) ∈ pre) := by
  have hmem : ∀ e ∈ (foundIn ref dev pre).1, (e.1, some e.2) ∈ pre := by
    intro e he
    obtain ⟨a, b, hab⟩ := List.append_of_mem he
    obtain ⟨pre', _, h1, h2, _⟩ := confirmed_knot (ref := ref) (dev := dev) (all := pre) (es := a) (e := e)
      ⟨b, by rw [hab]; simp⟩
    exact h1.subset (List.mem_of_getLast? h2)
  cases h with
  | fresh h1 h2 => exact ⟨_, h1, foundIn_mono hp, hmem⟩
  | rewound e ph h1 h2 h3 h4 =>
    refine ⟨_, h3, h4, ?_⟩
    intro e' he'
    rcases List.mem_append.1 he' with he' | he'
    · exact hmem e' he'
    · simp only [List.mem_singleton] at he'
      subst he'
      obtain ⟨pre', h5, h6, _⟩ := possible_knot h1
      exact h5.subset (List.mem_of_getLast? h6)
  | ahead pre2 h1 h2 h3 h4 => exact ⟨[], by rw [h3]; exact .nil, List.nil_prefix, by simp⟩

/-- After all points everything confirmed is recorded. -/
theorem Known.complete {all : List (Pt ℚ)} {s : Found} (h : Known ref dev all all s) :
    Stutter s.1 (foundIn ref dev all).1 := by
  cases h with
  | fresh h1 h2 => exact h1
  | rewound e ph h1 h2 h3 h4 =>
    have := h4.length_le
    simp at this
  | ahead pre2 h1 h2 h3 h4 =>
    have : all = pre2 := h1.eq_of_length (le_antisymm h1.length_le h2.length_le)
    subst this
    rw [h3, h4]; exact .nil

/-- Three excursions around 10, of which the last is not over. -/
example : (foundIn (fun _ => some 10) (1 / 10) [(0, some 12), (1, some 13), (2, some 10), (3, some 7), (4, some 8), (5, some 14)]).1 =
      [(1, 13), (3, 7)] ∧
    deviating (fun _ => some 10) (1 / 10) [(0, some 12), (1, some 13), (2, some 10), (3, some 7), (4, some 8), (5, some 14)] =
      [⟨0, 12, 2⟩, ⟨1, 13, 3⟩, ⟨3, 7, -3⟩, ⟨4, 8, -2⟩, ⟨5, 14, 4⟩] ∧
    RefFine (fun _ => some 10) [(0, some 12), (1, some 13), (2, some 10), (3, some 7), (4, some 8), (5, some 14)] := by
  refine ⟨by decide +kernel, by decide +kernel, fun _ _ _ => by simp⟩

end Props
end Curvepy
