import Verif.Lemmas.Graph

/-!
# Graphs of curves: C23, C24
-/

namespace Curvepy
open Spec

namespace Props

/-! ## The edges of the library are faithful -/

/-- Maps, aggregates and piecewise curves pass intervals on unchanged. -/
theorem faithful_id : FaithfulEdge id := ⟨fun _ h => h, fun _ _ _ h => h⟩

theorem shift_contains (k : ℚ) (d : Iv) (x : Ext) :
    (Net.shift k d).contains (x.addQ k) = d.contains x := by
  obtain ⟨lo, hi, lo', hi'⟩ := d
  have h1 : ∀ a b : Ext, (a.addQ k ≤ b.addQ k ↔ a ≤ b) := by
    intro a b; cases a <;> cases b <;> simp [Ext.addQ]
  have h2 : ∀ a b : Ext, (a.addQ k < b.addQ k ↔ a < b) := by
    intro a b; cases a <;> cases b <;> simp [Ext.addQ]
  rw [Bool.eq_iff_iff, Iv.contains_iff, Iv.contains_iff]
  simp only [Net.shift, Iv.geLo, Iv.leHi]
  cases lo' <;> cases hi' <;> simp [h1, h2]

theorem addQ_neg (x : Ext) (k : ℚ) : (x.addQ (-k)).addQ k = x := by
  cases x <;> simp [Ext.addQ]

/-- Offset curves shift intervals. -/
theorem faithful_shift (k : ℚ) : FaithfulEdge (Net.shift k) := by
  constructor
  · rintro a ⟨q, hq⟩
    exact ⟨q + k, (shift_contains k a (.fin q)).trans hq⟩
  · intro a b _ h x hx
    rw [← addQ_neg x k, shift_contains] at hx ⊢
    exact h _ hx

/-- Scanning curves extend intervals to the right. -/
theorem faithful_scanOn : FaithfulEdge Net.scanOn := by
  constructor
  · rintro a ⟨q, hq⟩
    refine ⟨q, ?_⟩
    rw [Iv.contains_iff] at hq ⊢
    exact ⟨hq.1, by simp [Net.scanOn, Iv.leHi]⟩
  · rintro a b ⟨q, hq⟩ h x hx
    have ha := h _ hq
    rw [Iv.contains_iff] at hx hq ha ⊢
    refine ⟨?_, hx.2⟩
    have hx1 : b.geLo x = true := hx.1
    show a.geLo x = true
    rcases le_or_gt x (.fin q) with hle | hlt
    · have : b.contains x = true := by
        rw [Iv.contains_iff]
        refine ⟨hx1, ?_⟩
        rw [Iv.leHi_iff] at hq ⊢
        rcases hq.2 with h2 | ⟨h2, h3⟩
        · exact Or.inl (hle.trans_lt h2)
        · rcases hle.lt_or_eq with h4 | h4
          · exact Or.inl (h2 ▸ h4)
          · exact Or.inr ⟨h4.trans h2, h3⟩
      exact ((Iv.contains_iff _ _).1 (h _ this)).1
    · rw [Iv.geLo_iff] at ha ⊢
      rcases ha.1 with h2 | ⟨h2, _⟩
      · exact Or.inl (h2.trans hlt)
      · exact Or.inl (h2 ▸ hlt)

/-! ## C23 -/

/-- **C23** One complete edit of curve `s` on `d`, in any acyclic graph in which nothing is
updating: after `begin_update` exactly the dependents are updating and each has announced a
begin; during `end_update` each announces an end that covers everything it announced before; the
others are never called; in the end nothing is updating. -/
theorem C23_edit_reaches_dependents (net : Net) (n s : ℕ) (d : Iv) (hac : Acyclic net n)
    (hf : FaithfulNet net) (hs : s < n) (hd : Occupied d) :
    let b := net.beginEdit n Net.idle s d
    let e := net.endEdit n b.1 s d
    (∀ j, (b.1 j).isUpdating = true ↔ Depends net s j) ∧
    (∀ j, Depends net s j → beginsOf b.2 j ≠ [] ∧
      ∃ E ∈ endsOf e.2 j, ∀ B ∈ beginsOf b.2 j, Covers E B) ∧
    (∀ x ∈ b.2 ++ e.2, Depends net s x.node) ∧
    e.1 = Net.idle := by
  intro b e
  have hb := Net.propagate_spec (net := net) (mk := .begin) hac n Net.idle s d hs (by omega)
  have he := Net.propagate_spec (net := net) (mk := .finish) hac n b.1 s d hs (by omega)
  change Net.Local Net.idle b.1 b.2 ∧ Net.Wave net .begin b.2 [(s, d)] at hb
  change Net.Local b.1 e.1 e.2 ∧ Net.Wave net .finish e.2 [(s, d)] at he
  clear_value b e
  obtain ⟨h1, w1⟩ := hb
  obtain ⟨h2, w2⟩ := he
  have hed := Net.edited hf hd hac h1 h2 w1 w2
  have hcall := Net.called_iff hac h1 w1 fun j => (hed j).occ
  refine ⟨?_, ?_, ?_, ?_⟩
  · intro j
    rw [hcall j]
    obtain ⟨bs, hbs⟩ := Net.calls_eq_map w1.kind j
    have hst := h1.state j
    have hocc := (hed j).occ
    rw [hbs] at hst hocc
    have hhull := (Gate.run_begins bs).1
    change b.1 j = (Gate.init.run _).1 at hst
    rw [hst, hbs, Gate.isUpdating]
    constructor
    · intro hu
      cases bs with
      | nil => exact absurd hu (by decide)
      | cons d0 ds => exact ⟨d0, by simp⟩
    · rintro ⟨b', hb'⟩
      have hb'' : b' ∈ bs := by simpa using hb'
      rw [Net.occupied_not_isEmpty (Net.occupied_of_covers (hhull.1 b' hb'') (hocc b' hb'))]
      rfl
  · intro j hj
    obtain ⟨b', hb'⟩ := (hcall j).1 hj
    obtain ⟨a, E, hE, hcov⟩ :=
      Net.Gate_announced_end h1 h2 w1.kind w2.kind (hed j).occ (hed j).cov hb'
    obtain ⟨d', hd'⟩ := w2.kind _ hE
    simp only at hd'
    subst hd'
    refine ⟨?_, E, Net.mem_endsOf.2 ⟨d', hE⟩, ?_⟩
    · obtain ⟨bs, hbs⟩ := Net.calls_eq_map w1.kind j
      cases bs with
      | nil => rw [hbs] at hb'; simp at hb'
      | cons d0 ds =>
        intro hnil
        have hm := Net.first_announced h1 hbs ((hed j).occ d0 (by rw [hbs]; simp))
        have hmem : d0 ∈ beginsOf b.2 j := Net.mem_beginsOf.2 ⟨d0, hm⟩
        rw [hnil] at hmem
        simp at hmem
    · intro B hB
      obtain ⟨d0, hd0⟩ := Net.mem_beginsOf.1 hB
      have := Net.announced_begin h1 hd0
      subst this
      exact hcov _ (Net.mem_calls.2 ⟨_, hd0⟩)
  · intro x hx
    rcases List.mem_append.1 hx with hx | hx
    · exact Net.wave_depends hac w1 x hx
    · exact Net.wave_depends hac w2 x hx
  · funext j
    have h12 := h1.append h2
    rw [h12.state j, Net.calls_append]
    apply Gate.run_idle_eIv
    apply Gate.quiescent_of_covered
    intro pre I post hsplit
    obtain ⟨bs, hbs⟩ := Net.calls_eq_map w1.kind j
    obtain ⟨es, hes⟩ := Net.calls_eq_map w2.kind j
    have hI : Gate.Act.begin I ∈ Net.calls b.2 j := by
      have : Gate.Act.begin I ∈ Net.calls b.2 j ++ Net.calls e.2 j := by rw [hsplit]; simp
      rcases List.mem_append.1 this with h | h
      · exact h
      · rw [hes] at h; simp at h
    obtain ⟨x, hx, hc⟩ := (hed j).cov I hI
    refine ⟨x, ?_, hc⟩
    have hlen : pre.length < (Net.calls b.2 j).length := by
      by_contra hge
      push Not at hge
      have : (Net.calls b.2 j ++ Net.calls e.2 j)[pre.length]? = some (.begin I) := by
        rw [hsplit]; simp
      rw [List.getElem?_append_right hge, hes] at this
      obtain ⟨y, hy⟩ := List.mem_of_getElem? this |> List.mem_map.1
      cases hy.2
    have : Net.calls e.2 j <:+ post := by
      have h3 : Net.calls e.2 j <:+ pre ++ .begin I :: post := ⟨_, hsplit⟩
      have h4 : post <:+ pre ++ .begin I :: post := ⟨pre ++ [.begin I], by simp⟩
      apply List.suffix_of_suffix_length_le h3 h4
      have := congrArg List.length hsplit
      simp at this
      omega
    exact this.subset hx

/-- A source (0), an offset by 1 (1), a map of the source (2) and an aggregate (3) of both, read by
an accumulator (4); curve 5 is independent. -/
def diamond : Net where
  out
    | 0 => [(2, id), (1, Net.shift 1)]
    | 1 => [(3, id)]
    | 2 => [(3, id)]
    | 3 => [(4, Net.scanOn)]
    | _ => []

theorem diamond_acyclic : Acyclic diamond 6 := by
  intro i e he
  rcases i with _ | _ | _ | _ | i <;> simp [diamond] at he
  · rcases he with rfl | rfl <;> simp
  · subst he; simp
  · subst he; simp
  · subst he; simp

theorem diamond_faithful : FaithfulNet diamond := by
  intro i e he
  rcases i with _ | _ | _ | _ | i <;> simp [diamond] at he
  · rcases he with rfl | rfl
    · exact faithful_id
    · exact faithful_shift 1
  · subst he; exact faithful_id
  · subst he; exact faithful_id
  · subst he; exact faithful_scanOn

example :
    let b := diamond.beginEdit 6 Net.idle 0 (Iv.closed 0 2)
    let e := diamond.endEdit 6 b.1 0 (Iv.closed 0 2)
    Acyclic diamond 6 ∧ FaithfulNet diamond ∧ Occupied (Iv.closed 0 2) ∧ Depends diamond 0 4 ∧
    beginsOf b.2 3 = [Iv.closed 0 2, Iv.closed 1 3] ∧
    endsOf e.2 3 = [Iv.closed 0 3] ∧ e.1 4 = Gate.init := by
  refine ⟨diamond_acyclic, diamond_faithful, ⟨1, by decide +kernel⟩, ?_, ?_⟩
  · exact (.step (j := 3) (t := Net.scanOn) (.step (j := 2) (t := id) (.step (j := 0) (t := id) .self
      (by simp [diamond])) (by simp [diamond])) (by simp [diamond]))
  · decide +kernel

/-- **C23** Any sequence of complete edits leaves nothing updating. -/
theorem C23_edits_leave_idle (net : Net) (n : ℕ) (hac : Acyclic net n) (hf : FaithfulNet net)
    (edits : List (ℕ × Iv)) (h : ∀ x ∈ edits, x.1 < n ∧ Occupied x.2) :
    edits.foldl (fun st x => (net.endEdit n (net.beginEdit n st x.1 x.2).1 x.1 x.2).1) Net.idle =
      Net.idle := by
  induction edits with
  | nil => rfl
  | cons x edits ih =>
    rw [List.foldl_cons]
    have h1 := h x (by simp)
    rw [(C23_edit_reaches_dependents net n x.1 x.2 hac hf h1.1 h1.2).2.2.2]
    exact ih fun y hy => h y (by simp [hy])

example : ([(0, Iv.closed 0 2), (2, Iv.opened 5 6), (0, Iv.infinite)] : List (ℕ × Iv)).foldl
    (fun st x => (diamond.endEdit 6 (diamond.beginEdit 6 st x.1 x.2).1 x.1 x.2).1) Net.idle =
      Net.idle :=
  C23_edits_leave_idle diamond 6 diamond_acyclic diamond_faithful _ (by
    intro x hx
    simp at hx
    rcases hx with rfl | rfl | rfl
    · exact ⟨by simp, 1, by decide +kernel⟩
    · exact ⟨by simp, 11 / 2, by decide +kernel⟩
    · exact ⟨by simp, 0, by decide +kernel⟩)

/-! ## C24 -/

/-- **C24, negated**: with two paths to it, a dependent can announce more than one begin for one
edit. -/
theorem C24_negation : ¬ ∀ (net : Net) (n s : ℕ) (d : Iv), Acyclic net n → FaithfulNet net →
    s < n → Occupied d →
    let b := net.beginEdit n Net.idle s d
    let e := net.endEdit n b.1 s d
    ∀ j, Depends net s j → (beginsOf b.2 j).length = 1 ∧ (endsOf e.2 j).length = 1 := by
  intro h
  have := h diamond 6 0 (Iv.closed 0 2) diamond_acyclic diamond_faithful (by simp)
    ⟨1, by decide +kernel⟩ 3
    (.step (j := 2) (t := id) (.step (j := 0) (t := id) .self (by simp [diamond])) (by simp [diamond]))
  exact absurd this.1 (by decide +kernel)

/-- **C24, negated** even if all dependents pass the interval on unchanged (`c + (-c)`): one begin
but two ends. -/
theorem C24_negation_identity : ∃ net : Net, Acyclic net 3 ∧
    (∀ i, ∀ x ∈ net.out i, x.2 = id) ∧ Depends net 0 2 ∧
    let b := net.beginEdit 3 Net.idle 0 (Iv.closed 0 2)
    let e := net.endEdit 3 b.1 0 (Iv.closed 0 2)
    beginsOf b.2 2 = [Iv.closed 0 2] ∧ endsOf e.2 2 = [Iv.closed 0 2, Iv.closed 0 2] := by
  refine ⟨⟨fun i => match i with | 0 => [(2, id), (1, id)] | 1 => [(2, id)] | _ => []⟩,
    ?_, ?_, ?_, ?_⟩
  · intro i e he
    rcases i with _ | _ | i <;> simp at he
    · rcases he with rfl | rfl <;> simp
    · subst he; simp
  · intro i e he
    rcases i with _ | _ | i <;> simp at he
    · rcases he with rfl | rfl <;> rfl
    · subst he; rfl
  · exact .step (t := id) .self (by simp)
  · decide +kernel

/-- **C24**, for graphs in which every curve has one source that it observes once (missing:
graphs with several paths to a curve, for which it is false). -/
theorem C24_one_end_per_edit_partial (net : Net) (n s : ℕ) (d : Iv) (hac : Acyclic net n)
    (hf : FaithfulNet net) (hfo : Forest net) (hs : s < n) (hd : Occupied d) :
    let b := net.beginEdit n Net.idle s d
    let e := net.endEdit n b.1 s d
    ∀ j, Depends net s j → (beginsOf b.2 j).length = 1 ∧ (endsOf e.2 j).length = 1 := by
  intro b e j hj
  have h := C23_edit_reaches_dependents net n s d hac hf hs hd
  have hb : ∀ k, (Net.calls b.2 k).length ≤ 1 :=
    Net.calls_le_one hac hfo
      (fun k => Net.propagate_count (mk := .begin) hac n Net.idle s d k hs (by omega))
      (fun x hx => Net.depends_le hac (h.2.2.1 x (List.mem_append.2 (Or.inl hx))))
  have he : ∀ k, (Net.calls e.2 k).length ≤ 1 :=
    Net.calls_le_one hac hfo
      (fun k => Net.propagate_count (mk := .finish) hac n b.1 s d k hs (by omega))
      (fun x hx => Net.depends_le hac (h.2.2.1 x (List.mem_append.2 (Or.inr hx))))
  obtain ⟨h1, E, h2, -⟩ := h.2.1 j hj
  constructor
  · exact le_antisymm ((Net.length_beginsOf_le _ _).trans (hb j)) (List.length_pos_iff.2 h1)
  · exact le_antisymm ((Net.length_endsOf_le _ _).trans (he j))
      (List.length_pos_iff.2 (List.ne_nil_of_mem h2))

/-- A source, an offset of it, two maps of the offset. -/
def tree : Net where
  out
    | 0 => [(1, Net.shift 1)]
    | 1 => [(2, id), (3, Net.scanOn)]
    | _ => []

example :
    let b := tree.beginEdit 4 Net.idle 0 (Iv.closed 0 2)
    let e := tree.endEdit 4 b.1 0 (Iv.closed 0 2)
    Acyclic tree 4 ∧ FaithfulNet tree ∧ Forest tree ∧ Depends tree 0 3 ∧
    beginsOf b.2 3 = [⟨.fin 1, .pinf, false, true⟩] ∧ (endsOf e.2 3).length = 1 := by
  refine ⟨?_, ?_, ?_, ?_, ?_⟩
  · intro i e he
    rcases i with _ | _ | i <;> simp [tree] at he
    · subst he; simp
    · rcases he with rfl | rfl <;> simp
  · intro i e he
    rcases i with _ | _ | i <;> simp [tree] at he
    · subst he; exact faithful_shift 1
    · rcases he with rfl | rfl
      · exact faithful_id
      · exact faithful_scanOn
  · intro j
    constructor
    · rintro i i' ⟨t, ht⟩ ⟨t', ht'⟩
      rcases i with _ | _ | i <;> rcases i' with _ | _ | i' <;> simp [tree] at ht ht' <;> omega
    · intro i
      rcases i with _ | _ | i
      · simp [tree, List.filter]; split <;> simp
      · simp only [tree, List.filter]
        by_cases h2 : 2 = j
        · subst h2; simp
        · by_cases h3 : 3 = j
          · subst h3; simp
          · simp [h2, h3]
      · simp [tree]
  · exact .step (j := 1) (t := Net.scanOn) (.step (j := 0) (t := Net.shift 1) .self (by simp [tree])) (by simp [tree])
  · decide +kernel

end Props
end Curvepy
