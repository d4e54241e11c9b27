import Verif.Model.Interval

namespace Curvepy
namespace Iv

theorem isEmpty_iff (i : Iv) :
    i.isEmpty = true ↔ i.hi < i.lo ∨ (i.lo = i.hi ∧ (i.loOpen = true ∨ i.hiOpen = true)) := by
  simp [isEmpty]

theorem not_isEmpty_iff (i : Iv) :
    i.isEmpty = false ↔ i.lo < i.hi ∨ (i.lo = i.hi ∧ i.loOpen = false ∧ i.hiOpen = false) := by
  rw [← Bool.not_eq_true, isEmpty_iff]
  constructor
  · intro h
    rcases lt_trichotomy i.lo i.hi with h1 | h1 | h1
    · exact Or.inl h1
    · right; refine ⟨h1, ?_, ?_⟩
      · by_contra h2; exact h (Or.inr ⟨h1, Or.inl (by simpa using h2)⟩)
      · by_contra h2; exact h (Or.inr ⟨h1, Or.inr (by simpa using h2)⟩)
    · exact absurd (Or.inl h1) h
  · rintro (h | ⟨h1, h2, h3⟩) (h4 | ⟨h4, h5⟩)
    · exact lt_asymm h h4
    · exact absurd h4 h.ne
    · exact absurd h1 h4.ne'
    · simp [h2, h3] at h5

theorem geLo_iff (i : Iv) (x : Ext) :
    i.geLo x = true ↔ i.lo < x ∨ (i.lo = x ∧ i.loOpen = false) := by
  unfold geLo
  cases i.loOpen <;> simp [le_iff_lt_or_eq]

theorem leHi_iff (i : Iv) (x : Ext) :
    i.leHi x = true ↔ x < i.hi ∨ (x = i.hi ∧ i.hiOpen = false) := by
  unfold leHi
  cases i.hiOpen <;> simp [le_iff_lt_or_eq]

theorem contains_iff (i : Iv) (x : Ext) :
    i.contains x = true ↔ i.geLo x = true ∧ i.leHi x = true := by
  unfold contains
  simp only [Bool.and_eq_true, Bool.not_eq_true', Bool.not_true, Bool.false_or, and_assoc]
  constructor
  · rintro ⟨_, h⟩; exact h
  · intro h
    refine ⟨?_, h⟩
    rw [not_isEmpty_iff]
    rw [geLo_iff, leHi_iff] at h
    rcases h with ⟨h1 | ⟨h1, h1'⟩, h2 | ⟨h2, h2'⟩⟩
    · exact Or.inl (h1.trans h2)
    · subst h2; exact Or.inl h1
    · subst h1; exact Or.inl h2
    · subst h1; exact Or.inr ⟨h2, h1', h2'⟩

theorem exists_mem (i : Iv) (h : i.isEmpty = false) : ∃ x, i.contains x = true := by
  rw [not_isEmpty_iff] at h
  rcases h with h | ⟨h1, h2, h3⟩
  · obtain ⟨x, hx1, hx2⟩ := exists_between h
    exact ⟨x, by rw [contains_iff, geLo_iff, leHi_iff]; exact ⟨Or.inl hx1, Or.inl hx2⟩⟩
  · exact ⟨i.lo, by rw [contains_iff, geLo_iff, leHi_iff]; exact ⟨Or.inr ⟨rfl, h2⟩, Or.inr ⟨h1, h3⟩⟩⟩

theorem not_isEmpty_of_mem {i : Iv} {x : Ext} (h : i.contains x = true) : i.isEmpty = false := by
  unfold contains at h
  simp only [Bool.and_eq_true, Bool.not_eq_true'] at h
  exact h.1.1

theorem isEmpty_iff_forall (i : Iv) : i.isEmpty = true ↔ ∀ x, i.contains x = false := by
  constructor
  · intro h x
    by_contra h2
    have := not_isEmpty_of_mem (by simpa using h2 : i.contains x = true)
    simp [h] at this
  · intro h
    by_contra h2
    obtain ⟨x, hx⟩ := exists_mem i (by simpa using h2)
    simp [h x] at hx

@[simp] theorem isEmpty_empty : empty.isEmpty = true := by decide
@[simp] theorem contains_empty (x : Ext) : empty.contains x = false :=
  (isEmpty_iff_forall _).1 isEmpty_empty x
@[simp] theorem contains_infinite (x : Ext) : infinite.contains x = true := by
  rw [contains_iff]; simp [geLo, leHi, infinite]
@[simp] theorem isEmpty_infinite : infinite.isEmpty = false := by decide

theorem loLe_iff (a b : Iv) :
    loLe a b = true ↔ a.lo < b.lo ∨ (a.lo = b.lo ∧ (a.loOpen = false ∨ b.loOpen = true)) := by
  simp [loLe]

theorem hiGe_iff (a b : Iv) :
    hiGe a b = true ↔ b.hi < a.hi ∨ (a.hi = b.hi ∧ (a.hiOpen = false ∨ b.hiOpen = true)) := by
  simp [hiGe]

theorem geLo_mono {a b : Iv} (h : loLe a b = true) {x : Ext} (hx : b.geLo x = true) :
    a.geLo x = true := by
  rw [loLe_iff] at h; rw [geLo_iff] at *
  rcases h with h | ⟨h, h'⟩ <;> rcases hx with hx | ⟨hx, hx'⟩
  · exact Or.inl (h.trans hx)
  · subst hx; exact Or.inl h
  · exact Or.inl (h ▸ hx)
  · right; refine ⟨h.trans hx, ?_⟩
    rcases h' with h' | h'
    · exact h'
    · simp [h'] at hx'

theorem leHi_mono {a b : Iv} (h : hiGe a b = true) {x : Ext} (hx : b.leHi x = true) :
    a.leHi x = true := by
  rw [hiGe_iff] at h; rw [leHi_iff] at *
  rcases h with h | ⟨h, h'⟩ <;> rcases hx with hx | ⟨hx, hx'⟩
  · exact Or.inl (hx.trans h)
  · subst hx; exact Or.inl h
  · exact Or.inl (h ▸ hx)
  · right; refine ⟨hx.trans h.symm, ?_⟩
    rcases h' with h' | h'
    · exact h'
    · simp [h'] at hx'

theorem loLe_total (a b : Iv) : loLe a b = true ∨ loLe b a = true := by
  rw [loLe_iff, loLe_iff]
  rcases lt_trichotomy a.lo b.lo with h | h | h
  · exact Or.inl (Or.inl h)
  · cases ha : a.loOpen
    · exact Or.inl (Or.inr ⟨h, Or.inl rfl⟩)
    · exact Or.inr (Or.inr ⟨h.symm, Or.inr rfl⟩)
  · exact Or.inr (Or.inl h)

theorem hiGe_total (a b : Iv) : hiGe a b = true ∨ hiGe b a = true := by
  rw [hiGe_iff, hiGe_iff]
  rcases lt_trichotomy a.hi b.hi with h | h | h
  · exact Or.inr (Or.inl h)
  · cases ha : a.hiOpen
    · exact Or.inl (Or.inr ⟨h, Or.inl rfl⟩)
    · exact Or.inr (Or.inr ⟨h.symm, Or.inr rfl⟩)
  · exact Or.inl (Or.inl h)

theorem loLe_refl (a : Iv) : loLe a a = true := by
  rcases loLe_total a a with h | h <;> exact h
theorem hiGe_refl (a : Iv) : hiGe a a = true := by
  rcases hiGe_total a a with h | h <;> exact h

theorem loLe_trans {a b c : Iv} (h1 : loLe a b = true) (h2 : loLe b c = true) :
    loLe a c = true := by
  rw [loLe_iff] at *
  rcases h1 with h1 | ⟨h1, h1'⟩ <;> rcases h2 with h2 | ⟨h2, h2'⟩
  · exact Or.inl (h1.trans h2)
  · exact Or.inl (h2 ▸ h1)
  · exact Or.inl (h1 ▸ h2)
  · refine Or.inr ⟨h1.trans h2, ?_⟩
    rcases h1' with h1' | h1'
    · exact Or.inl h1'
    · rcases h2' with h2' | h2'
      · simp [h1'] at h2'
      · exact Or.inr h2'

theorem hiGe_trans {a b c : Iv} (h1 : hiGe a b = true) (h2 : hiGe b c = true) :
    hiGe a c = true := by
  rw [hiGe_iff] at *
  rcases h1 with h1 | ⟨h1, h1'⟩ <;> rcases h2 with h2 | ⟨h2, h2'⟩
  · exact Or.inl (h2.trans h1)
  · exact Or.inl (h2 ▸ h1)
  · exact Or.inl (h1 ▸ h2)
  · refine Or.inr ⟨h1.trans h2, ?_⟩
    rcases h1' with h1' | h1'
    · exact Or.inl h1'
    · rcases h2' with h2' | h2'
      · simp [h1'] at h2'
      · exact Or.inr h2'

theorem superset_iff_raw (a b : Iv) :
    superset a b = true ↔ b.isEmpty = true ∨
      (a.isEmpty = false ∧ loLe a b = true ∧ hiGe a b = true) := by
  simp [superset, and_assoc]

/-- `is_superset_of` is the subset relation on contained positions. -/
theorem superset_iff (a b : Iv) :
    superset a b = true ↔ ∀ x, b.contains x = true → a.contains x = true := by
  rw [superset_iff_raw]
  constructor
  · rintro (h | ⟨_, h1, h2⟩) x hx
    · rw [(isEmpty_iff_forall b).1 h x] at hx; cases hx
    · rw [contains_iff] at *
      exact ⟨geLo_mono h1 hx.1, leHi_mono h2 hx.2⟩
  · intro h
    by_cases hb : b.isEmpty = true
    · exact Or.inl hb
    right
    have hb' : b.isEmpty = false := by simpa using hb
    obtain ⟨x0, hx0⟩ := exists_mem b hb'
    refine ⟨not_isEmpty_of_mem (h x0 hx0), ?_, ?_⟩
    · by_contra hn
      have hn' : loLe a b = false := by simpa using hn
      rw [not_isEmpty_iff] at hb'
      have hlt : b.lo < a.lo ∨ (b.lo = a.lo ∧ b.loOpen = false ∧ a.loOpen = true) := by
        rw [loLe_iff] at hn
        rcases lt_trichotomy a.lo b.lo with h1 | h1 | h1
        · exact absurd (Or.inl h1) hn
        · right; refine ⟨h1.symm, ?_, ?_⟩
          · by_contra hh; exact hn (Or.inr ⟨h1, Or.inr (by simpa using hh)⟩)
          · by_contra hh; exact hn (Or.inr ⟨h1, Or.inl (by simpa using hh)⟩)
        · exact Or.inl h1
      rcases hlt with hlt | ⟨he, ho, hao⟩
      · rcases hb' with hb' | ⟨hb1, hb2, hb3⟩
        · obtain ⟨x, hx1, hx2⟩ := exists_between (lt_min hlt hb')
          have := h x (by
            rw [contains_iff, geLo_iff, leHi_iff]
            exact ⟨Or.inl hx1, Or.inl (lt_of_lt_of_le hx2 (min_le_right _ _))⟩)
          rw [contains_iff, geLo_iff] at this
          have hxa := lt_of_lt_of_le hx2 (min_le_left a.lo b.hi)
          rcases this.1 with h1 | ⟨h1, _⟩
          · exact lt_asymm h1 hxa
          · exact absurd h1.symm hxa.ne
        · have := h b.lo (by
            rw [contains_iff, geLo_iff, leHi_iff]
            exact ⟨Or.inr ⟨rfl, hb2⟩, Or.inr ⟨hb1, hb3⟩⟩)
          rw [contains_iff, geLo_iff] at this
          rcases this.1 with h1 | ⟨h1, _⟩
          · exact lt_asymm h1 hlt
          · exact absurd h1.symm hlt.ne
      · have := h b.lo (by
          rw [contains_iff, geLo_iff, leHi_iff]
          refine ⟨Or.inr ⟨rfl, ho⟩, ?_⟩
          rcases hb' with hb' | ⟨hb1, hb2, hb3⟩
          · exact Or.inl hb'
          · exact Or.inr ⟨hb1, hb3⟩)
        rw [contains_iff, geLo_iff] at this
        rcases this.1 with h1 | ⟨_, h1⟩
        · exact absurd he h1.ne'
        · simp [hao] at h1
    · by_contra hn
      rw [not_isEmpty_iff] at hb'
      have hlt : a.hi < b.hi ∨ (b.hi = a.hi ∧ b.hiOpen = false ∧ a.hiOpen = true) := by
        rw [hiGe_iff] at hn
        rcases lt_trichotomy a.hi b.hi with h1 | h1 | h1
        · exact Or.inl h1
        · right; refine ⟨h1.symm, ?_, ?_⟩
          · by_contra hh; exact hn (Or.inr ⟨h1, Or.inr (by simpa using hh)⟩)
          · by_contra hh; exact hn (Or.inr ⟨h1, Or.inl (by simpa using hh)⟩)
        · exact absurd (Or.inl h1) hn
      rcases hlt with hlt | ⟨he, ho, hao⟩
      · rcases hb' with hb' | ⟨hb1, hb2, hb3⟩
        · obtain ⟨x, hx1, hx2⟩ := exists_between (max_lt hlt hb')
          have := h x (by
            rw [contains_iff, geLo_iff, leHi_iff]
            exact ⟨Or.inl (lt_of_le_of_lt (le_max_right _ _) hx1), Or.inl hx2⟩)
          rw [contains_iff, leHi_iff] at this
          have hxa := lt_of_le_of_lt (le_max_left a.hi b.lo) hx1
          rcases this.2 with h1 | ⟨h1, _⟩
          · exact lt_asymm h1 hxa
          · exact absurd h1.symm hxa.ne
        · have := h b.hi (by
            rw [contains_iff, geLo_iff, leHi_iff]
            exact ⟨Or.inr ⟨hb1, hb2⟩, Or.inr ⟨rfl, hb3⟩⟩)
          rw [contains_iff, leHi_iff] at this
          rcases this.2 with h1 | ⟨h1, _⟩
          · exact lt_asymm h1 hlt
          · exact absurd h1.symm hlt.ne
      · have := h b.hi (by
          rw [contains_iff, geLo_iff, leHi_iff]
          refine ⟨?_, Or.inr ⟨rfl, ho⟩⟩
          rcases hb' with hb' | ⟨hb1, hb2, hb3⟩
          · exact Or.inl hb'
          · exact Or.inr ⟨hb1, hb2⟩)
        rw [contains_iff, leHi_iff] at this
        rcases this.2 with h1 | ⟨_, h1⟩
        · exact absurd he h1.ne'.symm
        · simp [hao] at h1

theorem superset_refl (a : Iv) : superset a a = true := (superset_iff a a).2 fun _ h => h
theorem superset_trans {a b c : Iv} (h1 : superset a b = true) (h2 : superset b c = true) :
    superset a c = true := by
  rw [superset_iff] at *; exact fun x hx => h1 x (h2 x hx)
theorem superset_of_isEmpty {a b : Iv} (h : b.isEmpty = true) : superset a b = true := by
  simp [superset, h]

theorem contains_interRaw (a b : Iv) (x : Ext) :
    (interRaw a b).contains x = (a.contains x && b.contains x) := by
  rw [Bool.eq_iff_iff, Bool.and_eq_true, contains_iff, contains_iff, contains_iff]
  have hl : (interRaw a b).geLo x = true ↔ a.geLo x = true ∧ b.geLo x = true := by
    by_cases h : loLe a b = true
    · have : (interRaw a b).geLo x = b.geLo x := by simp [interRaw, geLo, h]
      rw [this]; exact ⟨fun hb => ⟨geLo_mono h hb, hb⟩, fun h => h.2⟩
    · have : (interRaw a b).geLo x = a.geLo x := by simp [interRaw, geLo, h]
      have h' := (loLe_total a b).resolve_left h
      rw [this]; exact ⟨fun hb => ⟨hb, geLo_mono h' hb⟩, fun h => h.1⟩
  have hr : (interRaw a b).leHi x = true ↔ a.leHi x = true ∧ b.leHi x = true := by
    by_cases h : hiGe a b = true
    · have : (interRaw a b).leHi x = b.leHi x := by simp [interRaw, leHi, h]
      rw [this]; exact ⟨fun hb => ⟨leHi_mono h hb, hb⟩, fun h => h.2⟩
    · have : (interRaw a b).leHi x = a.leHi x := by simp [interRaw, leHi, h]
      have h' := (hiGe_total a b).resolve_left h
      rw [this]; exact ⟨fun hb => ⟨hb, leHi_mono h' hb⟩, fun h => h.1⟩
  rw [hl, hr]; tauto

/-- `intersection` contains exactly the common positions. -/
theorem contains_inter (a b : Iv) (x : Ext) :
    (inter a b).contains x = (a.contains x && b.contains x) := by
  unfold inter
  split
  · rename_i h
    rw [contains_empty]
    rw [Bool.or_eq_true] at h
    rcases h with h | h
    · rw [(isEmpty_iff_forall a).1 h x]; rfl
    · rw [(isEmpty_iff_forall b).1 h x]; simp
  · split
    · rename_i h
      rw [contains_empty, ← contains_interRaw, (isEmpty_iff_forall _).1 h x]
    · exact contains_interRaw a b x

theorem contains_interAll (l : List Iv) (x : Ext) :
    (interAll l).contains x = l.all (fun i => i.contains x) := by
  induction l with
  | nil => simp [interAll]
  | cons i l ih => simp [interAll, contains_inter, ih]

theorem intersects_iff (a b : Iv) :
    intersects a b = true ↔ ∃ x, a.contains x = true ∧ b.contains x = true := by
  unfold intersects
  rw [Bool.not_eq_true']
  constructor
  · intro h
    obtain ⟨x, hx⟩ := exists_mem _ h
    rw [contains_inter, Bool.and_eq_true] at hx
    exact ⟨x, hx⟩
  · rintro ⟨x, hx⟩
    exact not_isEmpty_of_mem (x := x) (by rw [contains_inter, Bool.and_eq_true]; exact hx)

theorem union_left (a b : Iv) : superset (union a b) a = true := by
  unfold union
  split
  · rename_i h; exact superset_of_isEmpty h
  · rename_i ha
    split
    · exact superset_refl a
    · rename_i hb
      rw [superset_iff]
      intro x hx
      rw [contains_iff] at *
      constructor
      · by_cases h : loLe a b = true
        · simpa [geLo, h] using hx.1
        · have h' := geLo_mono ((loLe_total a b).resolve_left h) hx.1
          simpa [geLo, h] using h'
      · by_cases h : hiGe a b = true
        · simpa [leHi, h] using hx.2
        · have h' := leHi_mono ((hiGe_total a b).resolve_left h) hx.2
          simpa [leHi, h] using h'

theorem union_right (a b : Iv) : superset (union a b) b = true := by
  unfold union
  split
  · split
    · rename_i h; exact superset_of_isEmpty h
    · exact superset_refl b
  · rename_i ha
    split
    · rename_i h; exact superset_of_isEmpty h
    · rename_i hb
      rw [superset_iff]
      intro x hx
      rw [contains_iff] at *
      constructor
      · by_cases h : loLe a b = true
        · have h' := geLo_mono h hx.1
          simpa [geLo, h] using h'
        · simpa [geLo, h] using hx.1
      · by_cases h : hiGe a b = true
        · have h' := leHi_mono h hx.2
          simpa [leHi, h] using h'
        · simpa [leHi, h] using hx.2

/-- `union` is the least interval covering both arguments. -/
theorem union_least {a b c : Iv} (h1 : superset c a = true) (h2 : superset c b = true) :
    superset c (union a b) = true := by
  unfold union
  split
  · split
    · exact superset_of_isEmpty isEmpty_empty
    · exact h2
  · rename_i ha
    split
    · exact h1
    · rename_i hb
      have ha' : a.isEmpty = false := by simpa using ha
      have hb' : b.isEmpty = false := by simpa using hb
      rw [superset_iff_raw] at h1 h2 ⊢
      rcases h1 with h1 | ⟨hc, h1, h1'⟩
      · simp [h1] at ha
      rcases h2 with h2 | ⟨_, h2, h2'⟩
      · simp [h2] at hb
      refine Or.inr ⟨hc, ?_, ?_⟩
      · by_cases h : loLe a b = true
        · rw [loLe_iff] at h1 ⊢; simpa only [h, if_true] using h1
        · rw [loLe_iff] at h2 ⊢; simp only [h, Bool.false_eq_true, if_false]; exact h2
      · by_cases h : hiGe a b = true
        · rw [hiGe_iff] at h1' ⊢; simpa only [h, if_true] using h1'
        · rw [hiGe_iff] at h2' ⊢; simp only [h, Bool.false_eq_true, if_false]; exact h2'

theorem union_isEmpty (a b : Iv) :
    (union a b).isEmpty = true ↔ a.isEmpty = true ∧ b.isEmpty = true := by
  constructor
  · intro h
    rw [isEmpty_iff_forall] at h
    rw [isEmpty_iff_forall, isEmpty_iff_forall]
    have h1 := (superset_iff _ _).1 (union_left a b)
    have h2 := (superset_iff _ _).1 (union_right a b)
    constructor
    · intro x; by_contra hx
      have := h1 x (by simpa using hx); simp [h x] at this
    · intro x; by_contra hx
      have := h2 x (by simpa using hx); simp [h x] at this
  · rintro ⟨h1, h2⟩; simp [union, h1, h2]

theorem union_empty_left {b : Iv} (hb : b.isEmpty = false) : union empty b = b := by
  simp [union, hb]

theorem union_empty_right {a : Iv} (ha : a.isEmpty = false) : union a empty = a := by
  simp [union, ha]

@[simp] theorem isEmpty_closed (a b : ℚ) : (closed a b).isEmpty = decide (b < a) := by
  simp [isEmpty, closed]
@[simp] theorem isEmpty_point (a : ℚ) : (point a).isEmpty = false := by
  simp [point]
@[simp] theorem isEmpty_openClosed (a b : ℚ) : (openClosed a b).isEmpty = decide (b ≤ a) := by
  by_cases h : b ≤ a
  · rcases h.lt_or_eq with h | h <;> simp [isEmpty, openClosed, h]
    exact h.le
  · simp only [h, decide_false]
    rw [not_isEmpty_iff]; left; simp [openClosed]; exact not_le.1 h
@[simp] theorem isEmpty_opened (a b : ℚ) : (opened a b).isEmpty = decide (b ≤ a) := by
  by_cases h : b ≤ a
  · rcases h.lt_or_eq with h | h <;> simp [isEmpty, opened, h]
    exact h.le
  · simp only [h, decide_false]
    rw [not_isEmpty_iff]; left; simp [opened]; exact not_le.1 h

@[simp] theorem contains_closed (a b x : ℚ) :
    (closed a b).contains (.fin x) = (decide (a ≤ x) && decide (x ≤ b)) := by
  rw [Bool.eq_iff_iff, contains_iff]; simp [geLo, leHi, closed]
@[simp] theorem contains_opened (a b x : ℚ) :
    (opened a b).contains (.fin x) = (decide (a < x) && decide (x < b)) := by
  rw [Bool.eq_iff_iff, contains_iff]; simp [geLo, leHi, opened]
@[simp] theorem contains_openClosed (a b x : ℚ) :
    (openClosed a b).contains (.fin x) = (decide (a < x) && decide (x ≤ b)) := by
  rw [Bool.eq_iff_iff, contains_iff]; simp [geLo, leHi, openClosed]
@[simp] theorem contains_closedOpen (a b x : ℚ) :
    (closedOpen a b).contains (.fin x) = (decide (a ≤ x) && decide (x < b)) := by
  rw [Bool.eq_iff_iff, contains_iff]; simp [geLo, leHi, closedOpen]

theorem unionAll_superset {l : List Iv} {i : Iv} (h : i ∈ l) :
    superset (unionAll l) i = true := by
  induction l with
  | nil => simp at h
  | cons j l ih =>
    rcases List.mem_cons.1 h with h | h
    · subst h; exact union_left _ _
    · exact superset_trans (union_right _ _) (ih h)

theorem unionAll_least {l : List Iv} {c : Iv} (h : ∀ i ∈ l, superset c i = true) :
    superset c (unionAll l) = true := by
  induction l with
  | nil => exact superset_of_isEmpty isEmpty_empty
  | cons j l ih =>
    exact union_least (h j (by simp)) (ih fun i hi => h i (by simp [hi]))

end Iv
end Curvepy
