import Verif.Lemmas.Net

/-!
# Networks: edits
-/

namespace Curvepy
open Spec Pts Props Accum

namespace Net

variable {i : Interp} {lo : Ext} {o : Bool} {pts pts' : List (Pt ℚ)}

/-! ## Changes from some position on -/

/-- Everything from some position on. -/
def onwards (lo : Ext) (o : Bool) : Iv := ⟨lo, .pinf, o, true⟩

/-- Before some position nothing changed. -/
def Change (lo : Ext) (o : Bool) (pts pts' : List (Pt ℚ)) : Prop := ∃ pre a b, pts = pre ++ a ∧ pts' = pre ++ b ∧
  (∀ p ∈ pre, (onwards lo o).geLo (.fin p.1) = false) ∧ ∀ p ∈ a ++ b, (onwards lo o).geLo (.fin p.1) = true

theorem Change.none (h : Change .pinf o pts pts') : pts' = pts := by
  obtain ⟨pre, a, b, rfl, rfl, _, h⟩ := h
  have hno : ∀ p ∈ a ++ b, False := fun p hp => by
    have := (Iv.geLo_iff _ _).1 (h p hp)
    simp [onwards] at this
  have h1 : a = [] := List.eq_nil_iff_forall_not_mem.2 fun p hp => hno p (List.mem_append_left _ hp)
  have h2 : b = [] := List.eq_nil_iff_forall_not_mem.2 fun p hp => hno p (List.mem_append_right _ hp)
  rw [h1, h2]

theorem folded_split {g : Rule} (hg : NeverRaises g) (pre c : List (Pt ℚ)) :
    ∃ d, foldedBy g (pre ++ c) = foldedBy g pre ++ d := by
  have e := foldedBy_run hg (pre ++ c)
  rw [runRule_append, foldedBy_run hg pre] at e
  obtain ⟨d, hd⟩ := runRule_prefix e
  exact ⟨d, hd.symm⟩

/-- A curve of a network does not look ahead. -/
theorem causal {pre a b : List (Pt ℚ)} (ha : Ascending (pre ++ a)) (hb : Ascending (pre ++ b)) : ∀ (ns : List Node) (k : ℕ),
    ∀ p ∈ pre, netValue i (pre ++ a) ns k (.fin p.1) = netValue i (pre ++ b) ns k (.fin p.1)
  | [], k, p, hp => by
    show valueAt i _ p.1 = valueAt i _ p.1
    rw [valueAt_mem ha (List.mem_append_left _ hp), valueAt_mem hb (List.mem_append_left _ hp)]
  | .layer S j :: ns, 0, p, hp => by
    have hg := storey_neverRaises S
    have hk : knotsOf pre (netValue i (pre ++ a) ns j) = knotsOf pre (netValue i (pre ++ b) ns j) :=
      List.map_congr_left fun q hq => by rw [causal ha hb ns j q hq]
    have key : ∀ c : List (Pt ℚ), Ascending (pre ++ c) → ∀ e ∈ foldedBy (plainRule S.tfm) (knotsOf pre (netValue i (pre ++ c) ns j)),
        valueAtE S.interp (foldedBy (plainRule S.tfm) (knotsOf (pre ++ c) (netValue i (pre ++ c) ns j))) (.fin e.1) = e.2 := by
      intro c hc e he
      have hs : knotsOf (pre ++ c) (netValue i (pre ++ c) ns j) =
          knotsOf pre (netValue i (pre ++ c) ns j) ++ knotsOf c (netValue i (pre ++ c) ns j) := List.map_append
      have hasc : Ascending (foldedBy (plainRule S.tfm) (knotsOf (pre ++ c) (netValue i (pre ++ c) ns j))) :=
        ascending_xs ((foldedBy_xs hg _).trans (knotsOf_xs _ _)) hc
      refine valueAt_mem hasc ?_
      obtain ⟨d, hd⟩ := folded_split hg (knotsOf pre (netValue i (pre ++ c) ns j)) (knotsOf c (netValue i (pre ++ c) ns j))
      rw [hs, hd]
      exact List.mem_append_left _ he
    have hx : p.1 ∈ (foldedBy (plainRule S.tfm) (knotsOf pre (netValue i (pre ++ a) ns j))).map Prod.fst := by
      rw [foldedBy_xs hg, knotsOf_xs]
      exact List.mem_map_of_mem hp
    obtain ⟨e, he, hep⟩ := List.mem_map.1 hx
    rw [← hep]
    show valueAtE _ _ _ = valueAtE _ _ _
    rw [key a ha e he, key b hb e (hk ▸ he)]
  | .join js u tfm :: ns, 0, p, hp => by
    have hin : ∀ c : List (Pt ℚ), Ascending (pre ++ c) → (span (pre ++ c)).contains (.fin p.1) = true := by
      intro c hc
      rw [← getDomain_eq_span]
      exact getDomain_contains_mem hc (List.mem_append_left _ hp)
    rw [netValue, netValue, hin a ha, hin b hb]
    simp only [if_true]
    congr 1
    exact List.map_congr_left fun j _ => causal ha hb ns j p hp
  | .layer _ _ :: ns, k + 1, p, hp => causal ha hb ns k p hp
  | .join _ _ _ :: ns, k + 1, p, hp => causal ha hb ns k p hp

theorem Change.knots (h : Change lo o pts pts') (ha : Ascending pts) (hb : Ascending pts') (ns : List Node) (k : ℕ) :
    Change lo o (knotsOf pts (netValue i pts ns k)) (knotsOf pts' (netValue i pts' ns k)) := by
  obtain ⟨pre, a, b, rfl, rfl, h1, h2⟩ := h
  refine ⟨knotsOf pre (netValue i (pre ++ a) ns k), knotsOf a (netValue i (pre ++ a) ns k),
    knotsOf b (netValue i (pre ++ b) ns k), List.map_append, ?_, ?_, ?_⟩
  · have hk : knotsOf pre (netValue i (pre ++ a) ns k) = knotsOf pre (netValue i (pre ++ b) ns k) :=
      List.map_congr_left fun q hq => by rw [causal ha hb ns k q hq]
    rw [hk]
    exact List.map_append
  · intro p hp
    obtain ⟨q, hq, rfl⟩ := List.mem_map.1 hp
    exact h1 q hq
  · intro p hp
    rcases List.mem_append.1 hp with hp | hp <;> obtain ⟨q, hq, rfl⟩ := List.mem_map.1 hp
    · exact h2 q (List.mem_append_left _ hq)
    · exact h2 q (List.mem_append_right _ hq)

/-! ## Announcements -/

/-- An announcement of a change from the position on. -/
def From (lo : Ext) (o : Bool) (d : Iv) : Prop := d.lo = lo ∧ d.loOpen = o ∧ d.isEmpty = false

theorem From.superset {a b : Iv} (ha : From lo o a) (hb : From lo o b) : a.superset b = Iv.hiGe a b := by
  obtain ⟨a1, a2, a3⟩ := ha
  obtain ⟨b1, b2, b3⟩ := hb
  have : Iv.loLe a b = true := by simp [Iv.loLe, a1, b1, a2, b2]
  simp [Iv.superset, a3, b3, this]

theorem From.union {a b : Iv} (ha : From lo o a) (hb : From lo o b) (h : Iv.hiGe a b = false) : Iv.union a b = b := by
  obtain ⟨a1, a2, a3⟩ := ha
  obtain ⟨b1, b2, b3⟩ := hb
  have : Iv.loLe a b = true := by simp [Iv.loLe, a1, b1, a2, b2]
  simp only [Iv.union, a3, b3, this, h, if_true, Bool.false_eq_true, if_false]
  rw [a1, a2, ← b1, ← b2]

theorem From.antisymm {a b : Iv} (ha : From lo o a) (hb : From lo o b) (h1 : Iv.hiGe a b = true) (h2 : Iv.hiGe b a = true) :
    a = b := by
  rw [Iv.hiGe_iff] at h1 h2
  obtain ⟨al, ah, ao, aho⟩ := a
  obtain ⟨bl, bh, bo, bho⟩ := b
  obtain ⟨a1, a2, _⟩ := ha
  obtain ⟨b1, b2, _⟩ := hb
  simp only at a1 a2 b1 b2 h1 h2
  subst a1 a2
  rcases h1 with h1 | ⟨h1, h3⟩ <;> rcases h2 with h2 | ⟨h2, h4⟩
  · exact absurd (h1.trans h2) (lt_irrefl _)
  · rw [h2] at h1; exact absurd h1 (lt_irrefl _)
  · rw [h1] at h2; exact absurd h2 (lt_irrefl _)
  · subst h1
    subst b1 b2
    cases aho <;> cases bho <;> simp_all

/-- What is announced during an edit: nothing, if nothing changed; or changes from the position on, the largest of them at the beginning as
well as at the end. -/
def Heard (lo : Ext) (o : Bool) (same : Prop) (bs es : List Iv) : Prop :=
  (bs = [] ∧ es = [] ∧ same) ∨ ∃ top, top ∈ bs ∧ top ∈ es ∧ ∀ d ∈ bs ++ es, From lo o d ∧ Iv.hiGe top d = true

/-! ## Combinations hear of an edit -/

theorem hearBegins_spec : ∀ {bs : List Iv} {J : Joint}, (J.bIv = Iv.empty ∨ From lo o J.bIv) → (∀ d ∈ bs, From lo o d) →
    ∃ b out, hearBegins J bs = ({ J with bIv := b }, out) ∧ (∀ d ∈ out, d ∈ bs) ∧ (b = J.bIv ∨ b ∈ out) ∧
      (From lo o J.bIv → From lo o b ∧ Iv.hiGe b J.bIv = true) ∧ ∀ d ∈ bs, From lo o b ∧ Iv.hiGe b d = true
  | [], J, _, _ => ⟨J.bIv, [], rfl, by simp, .inl rfl, fun h => ⟨h, Iv.hiGe_refl _⟩, by simp⟩
  | d :: bs, J, hJ, hbs => by
    have hd := hbs d (by simp)
    have hrest : ∀ e ∈ bs, From lo o e := fun e he => hbs e (List.mem_cons_of_mem _ he)
    by_cases hc : J.bIv.superset d = true
    · have hb : J.onBegin d = (J, []) := by simp [Joint.onBegin, hc]
      obtain ⟨b, out, h1, h2, h3, h4, h5⟩ := hearBegins_spec hJ hrest
      have hf : From lo o J.bIv := by
        rcases hJ with h | h
        · rw [h, superset_empty hd.2.2] at hc; cases hc
        · exact h
      rw [hf.superset hd] at hc
      refine ⟨b, out, by simp [hearBegins, hb, h1], fun e he => List.mem_cons_of_mem _ (h2 e he), h3, h4, fun e he => ?_⟩
      rcases List.mem_cons.1 he with rfl | he
      · exact ⟨(h4 hf).1, Iv.hiGe_trans (h4 hf).2 hc⟩
      · exact h5 e he
    · rw [Bool.not_eq_true] at hc
      have hu : Iv.union J.bIv d = d ∧ (From lo o J.bIv → Iv.hiGe d J.bIv = true) := by
        rcases hJ with h | h
        · refine ⟨by rw [h]; exact Iv.union_empty_left hd.2.2, fun hf => ?_⟩
          have := hf.2.2
          rw [h] at this; cases this
        · rw [h.superset hd] at hc
          refine ⟨h.union hd hc, fun _ => ?_⟩
          rcases Iv.hiGe_total J.bIv d with h' | h'
          · rw [h'] at hc; cases hc
          · exact h'
      have hb : J.onBegin d = ({ J with bIv := d }, [d]) := by simp [Joint.onBegin, hc, hd.2.2, hu.1]
      obtain ⟨b, out, h1, h2, h3, h4, h5⟩ := hearBegins_spec (J := { J with bIv := d }) (.inr hd) hrest
      refine ⟨b, d :: out, by simp [hearBegins, hb, h1], ?_, .inr ?_, fun hf => ?_, fun e he => ?_⟩
      · intro e he
        rcases List.mem_cons.1 he with rfl | he
        · simp
        · exact List.mem_cons_of_mem _ (h2 e he)
      · rcases h3 with rfl | h3
        · simp
        · exact List.mem_cons_of_mem _ h3
      · exact ⟨(h4 hd).1, Iv.hiGe_trans (h4 hd).2 (hu.2 hf)⟩
      · rcases List.mem_cons.1 he with rfl | he
        · exact h4 hd
        · exact h5 e he

/-- After the end everything that is heard is announced. -/
theorem hearEnds_after {c : Option Iv} : ∀ {es : List Iv}, (∀ d ∈ es, From lo o d) → ∃ c',
    hearEnds ⟨c, Iv.empty, Iv.empty⟩ es = (⟨c', Iv.empty, Iv.empty⟩, es) ∧ (c = none → c' = none)
  | [], _ => ⟨c, rfl, id⟩
  | d :: es, h => by
    have hd := h d (by simp)
    have he : Joint.onEnd ⟨c, Iv.empty, Iv.empty⟩ d = (⟨none, Iv.empty, Iv.empty⟩, [d]) := by
      have hs : Iv.superset d Iv.empty = true := Iv.superset_of_isEmpty (by decide)
      simp [Joint.onEnd, hd.2.2, superset_empty hd.2.2, Iv.union_empty_left hd.2.2, hs]
    obtain ⟨c', h1, h2⟩ := hearEnds_after (c := none) (es := es) fun e he => h e (List.mem_cons_of_mem _ he)
    exact ⟨c', by simp [hearEnds, he, h1], fun _ => h2 rfl⟩

theorem hearEnds_spec {top : Iv} (ht : From lo o top) : ∀ {es : List Iv} {J : Joint}, J.bIv = top →
    (J.eIv = Iv.empty ∨ (From lo o J.eIv ∧ Iv.hiGe J.eIv top = false)) → (∀ d ∈ es, From lo o d ∧ Iv.hiGe top d = true) → top ∈ es →
    ∃ out, hearEnds J es = (⟨none, Iv.empty, Iv.empty⟩, out) ∧ (∀ d ∈ out, d ∈ es) ∧ top ∈ out := by
  intro es
  induction es with
  | nil => intro J _ _ _ hm; cases hm
  | cons d es ih =>
    intro J hb hE h hm
    have hd := h d (by simp)
    have hrest : ∀ e ∈ es, From lo o e ∧ Iv.hiGe top e = true := fun e he => h e (List.mem_cons_of_mem _ he)
    by_cases hc : J.eIv.superset d = true
    · have he : J.onEnd d = (J, []) := by simp [Joint.onEnd, hc]
      have hf : From lo o J.eIv ∧ Iv.hiGe J.eIv top = false := by
        rcases hE with h | h
        · rw [h, superset_empty hd.1.2.2] at hc; cases hc
        · exact h
      rw [hf.1.superset hd.1] at hc
      have hne : top ≠ d := by
        rintro rfl
        rw [hf.2] at hc; cases hc
      have hm' : top ∈ es := by
        rcases List.mem_cons.1 hm with h | h
        · exact absurd h hne
        · exact h
      obtain ⟨out, h1, h2, h3⟩ := ih hb hE hrest hm'
      exact ⟨out, by simp [hearEnds, he, h1], fun e he => List.mem_cons_of_mem _ (h2 e he), h3⟩
    · rw [Bool.not_eq_true] at hc
      have hu : Iv.union J.eIv d = d := by
        rcases hE with h | h
        · rw [h]; exact Iv.union_empty_left hd.1.2.2
        · exact h.1.union hd.1 (by rw [← h.1.superset hd.1]; exact hc)
      by_cases hg : Iv.hiGe d top = true
      · have hdt : d = top := hd.1.antisymm ht hg hd.2
        have he : J.onEnd d = (⟨none, Iv.empty, Iv.empty⟩, [d]) := by
          have hs : d.superset J.bIv = true := by rw [hb, hd.1.superset ht]; exact hg
          simp [Joint.onEnd, hc, hd.1.2.2, hu, hs]
        obtain ⟨c', h1, h2⟩ := hearEnds_after (c := none) (es := es) fun e he => (hrest e he).1
        obtain rfl := h2 rfl
        refine ⟨d :: es, by simp [hearEnds, he, h1], fun _ h => h, by rw [hdt]; simp⟩
      · rw [Bool.not_eq_true] at hg
        have he : J.onEnd d = ({ J with eIv := d }, []) := by
          have hs : d.superset J.bIv = false := by rw [hb, hd.1.superset ht]; exact hg
          simp [Joint.onEnd, hc, hd.1.2.2, hu, hs]
        have hm' : top ∈ es := by
          rcases List.mem_cons.1 hm with h | h
          · rw [← h, Iv.hiGe_refl] at hg; cases hg
          · exact h
        obtain ⟨out, h1, h2, h3⟩ := ih (J := { J with eIv := d }) hb (.inr ⟨hd.1, hg⟩) hrest hm'
        exact ⟨out, by simp [hearEnds, he, h1], fun e he => List.mem_cons_of_mem _ (h2 e he), h3⟩

theorem joint_hears {J : Joint} {d d' : Iv} {same : Prop} {bs es : List Iv} (hJ : Joint.Calm d J) (hsame : same → d' = d)
    (h : Heard lo o same bs es) :
    ∃ J' bs' es', hearBegins J bs = ((hearBegins J bs).1, bs') ∧ hearEnds (hearBegins J bs).1 es = (J', es') ∧
      Joint.Calm d' J' ∧ Heard lo o same bs' es' := by
  rcases h with ⟨rfl, rfl, hs⟩ | ⟨top, h1, h2, h3⟩
  · exact ⟨J, [], [], rfl, rfl, hsame hs ▸ hJ, .inl ⟨rfl, rfl, hs⟩⟩
  · have hbs : ∀ d ∈ bs, From lo o d ∧ Iv.hiGe top d = true := fun d hd => h3 d (List.mem_append_left _ hd)
    have hes : ∀ d ∈ es, From lo o d ∧ Iv.hiGe top d = true := fun d hd => h3 d (List.mem_append_right _ hd)
    have ht := (hbs top h1).1
    obtain ⟨b, out, e1, e2, e3, _, e5⟩ := hearBegins_spec (J := J) (.inl hJ.idleB) fun d hd => (hbs d hd).1
    have hf := (e5 top h1).1
    have hbm : b ∈ out := by
      rcases e3 with h | h
      · have := hf.2.2
        rw [h, hJ.idleB] at this; cases this
      · exact h
    have hbt : b = top := hf.antisymm ht (e5 top h1).2 (hbs b (e2 b hbm)).2
    subst hbt
    obtain ⟨out', f1, f2, f3⟩ := hearEnds_spec (J := { J with bIv := b }) ht rfl (.inl hJ.idleE) hes h2
    refine ⟨⟨none, Iv.empty, Iv.empty⟩, out, out', by rw [e1], by rw [e1]; exact f1, ⟨.inl rfl, rfl, rfl⟩, .inr ⟨b, hbm, f3, ?_⟩⟩
    intro d hd
    rcases List.mem_append.1 hd with hd | hd
    · exact hbs d (e2 d hd)
    · exact hes d (f2 d hd)

/-! ## Accumulators hear of an edit -/

section
variable {g : Rule} {m : ℚ} {u : Bool} {seen : List (Pt ℚ)} {L : Layer} {ks ks' : List (Pt ℚ)}

/-- The accumulator has seen these knots. -/
structure Part (g : Rule) (m : ℚ) (i : Interp) (u : Bool) (seen : List (Pt ℚ)) (L : Layer) : Prop where
  acc : Honest L.scan.acc
  interp : L.scan.acc.interp = i
  force : L.scan.acc.force = u
  run : runRule g [] [] seen = (L.scan.acc.points, none)
  cur : L.scan.current = seen.getLast?.map Prod.fst
  start : seen ≠ [] → L.scan.scanStart = seen.head?.map Prod.fst
  step : L.scan.minStep = m

theorem begin_step (h : Part g m i u seen L) (hasc : Ascending seen) (d : Iv) : ∃ L1 seen', Part g m i u seen' L1 ∧
    L1.cache = L.cache ∧ L1.bIv = L.bIv ∧ L1.eIv = L.eIv ∧
    ((seen' = [] ∧ ∃ p ∈ seen, d.geLo (.fin p.1) = true) ∨ (seen' = seen ∧ ∀ p ∈ seen, d.geLo (.fin p.1) = false)) ∧
    L.notify (.begin d) = (Layer.ofAlone (gateBegin L1.alone (updateInterval d)).1,
      (gateBegin L1.alone (updateInterval d)).2.map .begin, none) := by
  obtain ⟨A1, seen', hb, e1, e2, e3, e4, e5, e6, e7, e8, e9, e10, e11, e12⟩ :=
    Accum.onBegin_spec (A := L.alone) (seen := seen) h.acc h.run h.cur h.start hasc d
  have hal : (Layer.ofAlone A1).alone = A1 := by
    have : A1.src = Pts.blank .linear false := e1
    unfold Layer.ofAlone Layer.alone
    rw [← this]
  refine ⟨Layer.ofAlone A1, seen', ⟨e6, e7.trans h.interp, e8.trans h.force, e9, e10, e11, e5.trans h.step⟩, e2, e3, e4, e12, ?_⟩
  rw [hal]
  simp only [Layer.notify, hb]

theorem ofAlone_alone (L : Layer) : Layer.ofAlone L.alone = L := rfl

theorem gate_again {U : Iv} (hU : U.isEmpty = false) (hb : L.bIv = U) : gateBegin L.alone U = (L.alone, []) := by
  have : L.alone.bIv = U := hb
  simp [gateBegin, this, Iv.superset_refl]

theorem gate_empty {U : Iv} (hU : U.isEmpty = true) : gateBegin L.alone U = (L.alone, []) ∧ gateEnd L.alone U = (L.alone, []) := by
  simp [gateBegin, gateEnd, hU]

theorem update_onwards {d : Iv} (h : From lo o d) : updateInterval d = onwards lo o := by
  unfold updateInterval onwards
  rw [h.1, h.2.1]

theorem geLo_onwards {d : Iv} (h : From lo o d) (x : Ext) : d.geLo x = (onwards lo o).geLo x := by
  rw [← update_onwards h]; rfl

theorem onwards_empty : (onwards lo o).isEmpty = decide (lo = .pinf) := by
  cases lo <;> simp [onwards, Iv.isEmpty]

theorem notifyAll_step {L' : Layer} {e : Passed} {out : List Passed} (h : L.notify e = (L', out, none)) (es : List Passed) :
    L.notifyAll (e :: es) = ((L'.notifyAll es).1, out ++ (L'.notifyAll es).2.1, (L'.notifyAll es).2.2) := by
  simp only [Layer.notifyAll, h]

/-- Further beginnings, while the update is under way. -/
theorem begins_again (hU : (onwards lo o).isEmpty = false) (rest : List Passed) : ∀ {bs : List Iv} {L : Layer},
    Part g m i u seen L → Ascending seen → (∀ p ∈ seen, (onwards lo o).geLo (.fin p.1) = false) → L.bIv = onwards lo o →
    (∀ d ∈ bs, From lo o d) → ∃ L', Part g m i u seen L' ∧ L'.bIv = onwards lo o ∧ L'.eIv = L.eIv ∧ L'.cache = L.cache ∧
      L.notifyAll (bs.map .begin ++ rest) = L'.notifyAll rest := by
  intro bs
  induction bs with
  | nil => intro L h _ _ hb _; exact ⟨L, h, hb, rfl, rfl, rfl⟩
  | cons d bs ih =>
    intro L h hasc hs hb hbs
    have hd := hbs d (by simp)
    obtain ⟨L1, seen', h1, c1, c2, c3, c4, c5⟩ := begin_step h hasc d
    have hseen : seen' = seen := by
      rcases c4 with ⟨_, p, hp, hp'⟩ | ⟨h, _⟩
      · rw [geLo_onwards hd, hs p hp] at hp'; cases hp'
      · exact h
    subst hseen
    rw [update_onwards hd, gate_again hU (c2.trans hb), ofAlone_alone] at c5
    obtain ⟨L', f1, f2, f3, f4, f5⟩ := ih h1 hasc hs (c2.trans hb) fun e he => hbs e (List.mem_cons_of_mem _ he)
    refine ⟨L', f1, f2, f3.trans c3, f4.trans c1, ?_⟩
    rw [List.map_cons, List.cons_append, notifyAll_step c5, f5]
    rfl

/-- Ends after the end. -/
theorem ends_again (hU : (onwards lo o).isEmpty = false) : ∀ {es : List Iv} {L : Layer},
    Part g m i u seen L → L.bIv = Iv.empty → L.eIv = Iv.empty → L.cache = none → (∀ d ∈ es, From lo o d) →
    ∃ L', Part g m i u seen L' ∧ L'.bIv = Iv.empty ∧ L'.eIv = Iv.empty ∧ L'.cache = none ∧
      L.notifyAll (es.map .fin) = (L', List.replicate es.length (.fin (onwards lo o)), none) := by
  intro es
  induction es with
  | nil => intro L h hb he hc _; exact ⟨L, h, hb, he, hc, rfl⟩
  | cons d es ih =>
    intro L h hb he hc hes
    have hd := hes d (by simp)
    have hs : (onwards lo o).superset Iv.empty = true := Iv.superset_of_isEmpty (by decide)
    have hbA : L.alone.bIv = Iv.empty := hb
    have heA : L.alone.eIv = Iv.empty := he
    have hn : L.notify (.fin d) = ({ L with bIv := Iv.empty, eIv := Iv.empty, cache := none }, [.fin (onwards lo o)], none) := by
      have hg : gateEnd L.alone (onwards lo o) =
          ({ L.alone with bIv := Iv.empty, eIv := Iv.empty, cache := none }, [onwards lo o]) := by
        simp [gateEnd, hU, heA, hbA, superset_empty hU, Iv.union_empty_left hU, hs]
      simp only [Layer.notify, Accum.onEnd, update_onwards hd, hg]
      rfl
    obtain ⟨L', f1, f2, f3, f4, f5⟩ := ih (L := { L with bIv := Iv.empty, eIv := Iv.empty, cache := none })
      ⟨h.acc, h.interp, h.force, h.run, h.cur, h.start, h.step⟩ rfl rfl rfl fun e he => hes e (List.mem_cons_of_mem _ he)
    refine ⟨L', f1, f2, f3, f4, ?_⟩
    rw [List.map_cons, notifyAll_step hn, f5]
    rfl

/-- Announcements about nothing. -/
theorem nothing_heard (rest : List Passed) : ∀ {bs : List Iv} {L : Layer},
    Part g m i u seen L → Ascending seen → (∀ d ∈ bs, From .pinf o d) → ∃ L', Part g m i u seen L' ∧ L'.bIv = L.bIv ∧ L'.eIv = L.eIv ∧
      L'.cache = L.cache ∧ L.notifyAll (bs.map .begin ++ rest) = L'.notifyAll rest := by
  intro bs
  induction bs with
  | nil => intro L h _ _; exact ⟨L, h, rfl, rfl, rfl, rfl⟩
  | cons d bs ih =>
    intro L h hasc hbs
    have hd := hbs d (by simp)
    obtain ⟨L1, seen', h1, c1, c2, c3, c4, c5⟩ := begin_step h hasc d
    have hseen : seen' = seen := by
      rcases c4 with ⟨_, p, hp, hp'⟩ | ⟨h, _⟩
      · have := (Iv.geLo_iff _ _).1 hp'
        rw [hd.1] at this
        simp at this
      · exact h
    subst hseen
    rw [update_onwards hd, (gate_empty (by rw [onwards_empty]; rfl)).1, ofAlone_alone] at c5
    obtain ⟨L', f1, f2, f3, f4, f5⟩ := ih h1 hasc fun e he => hbs e (List.mem_cons_of_mem _ he)
    refine ⟨L', f1, f2.trans c2, f3.trans c3, f4.trans c1, ?_⟩
    rw [List.map_cons, List.cons_append, notifyAll_step c5, f5]
    rfl

theorem nothing_ended {L : Layer} : ∀ {es : List Iv}, (∀ d ∈ es, From .pinf o d) → L.notifyAll (es.map .fin) = (L, [], none) := by
  intro es
  induction es with
  | nil => intro _; rfl
  | cons d es ih =>
    intro h
    have hn : L.notify (.fin d) = (L, [], none) := by
      simp only [Layer.notify, Accum.onEnd, update_onwards (h d (by simp)), (gate_empty (L := L) (U := onwards .pinf o) (by rw [onwards_empty]; rfl)).2]
      rfl
    rw [List.map_cons, notifyAll_step hn, ih fun e he => h e (List.mem_cons_of_mem _ he)]
    rfl

theorem begun_fins (l : List Iv) : begun (l.map .fin) = [] := by induction l <;> simp_all [begun]
theorem ended_fins (l : List Iv) : ended (l.map .fin) = l := by induction l <;> simp_all [ended]

theorem layer_hears {bs es : List Iv} (hF : Layer.Fine g m i u ks L) (hm : 0 < m) (hfit : Fit m u ks') (hch : Change lo o ks ks')
    {same : Prop} (hsame : same → ks' = ks) (hinf : lo = .pinf → same) (h : Heard lo o same bs es) :
    ∃ L' bs' es', L.notifyAll (bs.map .begin ++ es.map .fin) = (L', bs'.map .begin ++ es'.map .fin, none) ∧
      Layer.Fine g m i u ks' L' ∧ Heard lo o same bs' es' := by
  obtain ⟨hi, seen, todo, he, hS⟩ := hF
  have hp : Part g m i u seen L := ⟨hS.acc, hS.interp, hS.force, hS.run, hS.cur, hS.start, hS.step⟩
  have hasc : Ascending seen := (List.pairwise_append.1 (hS.asc hm)).1
  rcases h with ⟨rfl, rfl, hs⟩ | ⟨top, h1, h2, h3⟩
  · exact ⟨L, [], [], rfl, hsame hs ▸ ⟨hi, seen, todo, he, hS⟩, .inl ⟨rfl, rfl, hs⟩⟩
  · have hbs : ∀ d ∈ bs, From lo o d := fun d hd => (h3 d (List.mem_append_left _ hd)).1
    have hes : ∀ d ∈ es, From lo o d := fun d hd => (h3 d (List.mem_append_right _ hd)).1
    by_cases hlo : lo = .pinf
    · have hs := hinf hlo
      subst hlo
      obtain rfl := hch.none
      obtain ⟨L', f1, f2, f3, f4, f5⟩ := nothing_heard (es.map .fin) hp hasc hbs
      rw [nothing_ended hes] at f5
      refine ⟨L', [], [], f5, ⟨⟨f4 ▸ hi.cache, f2.trans hi.idleB, f3.trans hi.idleE⟩, seen, todo, he, ?_⟩, .inl ⟨rfl, rfl, hs⟩⟩
      exact ⟨hS.fit, f1.acc, f1.interp, f1.force, f1.run, f1.cur, f1.start, f1.step⟩
    · have hU : (onwards lo o).isEmpty = false := by rw [onwards_empty]; simpa using hlo
      obtain ⟨d, bs, rfl⟩ := List.exists_cons_of_ne_nil (List.ne_nil_of_mem h1)
      obtain ⟨e, es, rfl⟩ := List.exists_cons_of_ne_nil (List.ne_nil_of_mem h2)
      have hd := hbs d (by simp)
      have hfe := hes e (by simp)
      obtain ⟨L1, seen', c0, c1, c2, c3, c4, c5⟩ := begin_step hp hasc d
      have hb1 : L1.alone.bIv = Iv.empty := c2.trans hi.idleB
      rw [update_onwards hd] at c5
      have hg1 : gateBegin L1.alone (onwards lo o) = ({ L1.alone with bIv := onwards lo o }, [onwards lo o]) := by
        simp [gateBegin, hU, hb1, superset_empty hU, Iv.union_empty_left hU]
      rw [hg1] at c5
      have hasc' : Ascending seen' := by
        rcases c4 with ⟨rfl, _⟩ | ⟨rfl, _⟩
        · exact List.Pairwise.nil
        · exact hasc
      have hbefore : ∀ p ∈ seen', (onwards lo o).geLo (.fin p.1) = false := by
        rcases c4 with ⟨rfl, _⟩ | ⟨rfl, h⟩
        · simp
        · intro p hp'; rw [← geLo_onwards hd]; exact h p hp'
      obtain ⟨L2, d1, d2, d3, d4, d5⟩ := begins_again (L := { L1 with bIv := onwards lo o }) hU ((e :: es).map .fin)
        ⟨c0.acc, c0.interp, c0.force, c0.run, c0.cur, c0.start, c0.step⟩ hasc' hbefore rfl
        (bs := bs) fun x hx => hbs x (List.mem_cons_of_mem _ hx)
      have he2 : L2.alone.eIv = Iv.empty := d3.trans (c3.trans hi.idleE)
      have hn : L2.notify (.fin e) = ({ L2 with bIv := Iv.empty, eIv := Iv.empty, cache := none }, [.fin (onwards lo o)], none) := by
        have hb2 : L2.alone.bIv = onwards lo o := d2
        have hg : gateEnd L2.alone (onwards lo o) =
            ({ L2.alone with bIv := Iv.empty, eIv := Iv.empty, cache := none }, [onwards lo o]) := by
          simp [gateEnd, hU, he2, hb2, superset_empty hU, Iv.union_empty_left hU, Iv.superset_refl]
        simp only [Layer.notify, Accum.onEnd, update_onwards hfe, hg]
        rfl
      obtain ⟨L3, f1, f2, f3, f4, f5⟩ := ends_again (L := { L2 with bIv := Iv.empty, eIv := Iv.empty, cache := none }) hU
        ⟨d1.acc, d1.interp, d1.force, d1.run, d1.cur, d1.start, d1.step⟩ rfl rfl rfl (es := es)
        fun x hx => hes x (List.mem_cons_of_mem _ hx)
      refine ⟨L3, [onwards lo o], List.replicate (es.length + 1) (onwards lo o), ?_, ⟨⟨.inl f4, f2, f3⟩, ?_⟩, .inr ⟨onwards lo o,
        by simp, by simp, ?_⟩⟩
      · rw [List.map_cons, List.cons_append, notifyAll_step c5]
        have : Layer.ofAlone { L1.alone with bIv := onwards lo o } = { L1 with bIv := onwards lo o } := rfl
        rw [this, d5, List.map_cons, notifyAll_step hn, f5]
        simp [List.replicate_succ]
      · obtain ⟨pre, a, b, rfl, rfl, g1, g2⟩ := hch
        have hsplit : ∃ todo', seen' ++ todo' = pre ++ b := by
          rcases c4 with ⟨rfl, _⟩ | ⟨rfl, _⟩
          · exact ⟨pre ++ b, rfl⟩
          · obtain ⟨mid, hmid⟩ := prefix_before (P := fun p => (onwards lo o).geLo (.fin p.1) = true) he
              (fun p hp' => by rw [hbefore p hp']; simp) (fun p hp' => g2 p (List.mem_append_left _ hp'))
            exact ⟨mid ++ b, by rw [hmid, List.append_assoc]⟩
        obtain ⟨todo', ht⟩ := hsplit
        exact ⟨seen', todo', ht, by rw [ht]; exact hfit, f1.acc, f1.interp, f1.force, f1.run, f1.cur, f1.start, f1.step⟩
      · intro x hx
        have : x = onwards lo o := by
          rcases List.mem_append.1 hx with hx | hx
          · simpa using hx
          · exact (List.mem_replicate.1 hx).2
        rw [this]
        exact ⟨⟨rfl, rfl, hU⟩, Iv.hiGe_refl _⟩

end

/-! ## All curves hear of an edit -/

theorem begun_append (a b : List Passed) : begun (a ++ b) = begun a ++ begun b := by
  induction a with
  | nil => rfl
  | cons p a ih => cases p <;> simp [begun, ih]

theorem ended_append (a b : List Passed) : ended (a ++ b) = ended a ++ ended b := by
  induction a with
  | nil => rfl
  | cons p a ih => cases p <;> simp [ended, ih]

theorem begun_begins (l : List Iv) : begun (l.map .begin) = l := by induction l <;> simp_all [begun]
theorem ended_begins (l : List Iv) : ended (l.map .begin) = [] := by induction l <;> simp_all [ended]

theorem Heard.perm {same : Prop} {bs es bs' es' : List Iv} (h : Heard lo o same bs es) (hb : bs'.Perm bs) (he : es'.Perm es) :
    Heard lo o same bs' es' := by
  rcases h with ⟨rfl, rfl, h⟩ | ⟨top, h1, h2, h3⟩
  · exact .inl ⟨List.perm_nil.1 hb, List.perm_nil.1 he, h⟩
  · refine .inr ⟨top, hb.mem_iff.2 h1, he.mem_iff.2 h2, fun d hd => h3 d ?_⟩
    rcases List.mem_append.1 hd with hd | hd
    · exact List.mem_append_left _ (hb.mem_iff.1 hd)
    · exact List.mem_append_right _ (he.mem_iff.1 hd)

theorem Heard.append {same : Prop} {bs es bs' es' : List Iv} (h : Heard lo o same bs es) (h' : Heard lo o same bs' es') :
    Heard lo o same (bs ++ bs') (es ++ es') := by
  rcases h with ⟨rfl, rfl, hs⟩ | ⟨top, h1, h2, h3⟩
  · exact h'
  rcases h' with ⟨rfl, rfl, hs⟩ | ⟨top', h1', h2', h3'⟩
  · rw [List.append_nil, List.append_nil]; exact .inr ⟨top, h1, h2, h3⟩
  rcases Iv.hiGe_total top top' with hc | hc
  · refine .inr ⟨top, by simp [h1], by simp [h2], fun d hd => ?_⟩
    have hd' : d ∈ bs ++ es ∨ d ∈ bs' ++ es' := by simp only [List.mem_append] at hd ⊢; grind
    rcases hd' with hd | hd
    · exact h3 d hd
    · exact ⟨(h3' d hd).1, Iv.hiGe_trans hc (h3' d hd).2⟩
  · refine .inr ⟨top', by simp [h1'], by simp [h2'], fun d hd => ?_⟩
    have hd' : d ∈ bs ++ es ∨ d ∈ bs' ++ es' := by simp only [List.mem_append] at hd ⊢; grind
    rcases hd' with hd | hd
    · exact ⟨(h3 d hd).1, Iv.hiGe_trans hc (h3 d hd).2⟩
    · exact h3' d hd

theorem Heard.flat {same : Prop} {B E : ℕ → List Iv} (h : ∀ j, Heard lo o same (B j) (E j)) : ∀ {js : List ℕ}, js ≠ [] →
    Heard lo o same (js.flatMap B) (js.flatMap E)
  | [], hne => absurd rfl hne
  | [j], _ => by simpa using h j
  | j :: k :: js, _ => (h j).append (Heard.flat h (js := k :: js) (by simp))

theorem node_hears {n : Node} {st : n.State} {ns : List Node} {bs es : List Iv} (hn : Node.Sound n) (hfit : Node.Fit pts' n)
    (ha : Ascending pts) (hb : Ascending pts') (hch : Change lo o pts pts') (hF : NodeFine i pts ns n st)
    (h : Heard lo o (pts' = pts) bs es) :
    NodeFine i pts' ns n (hear n st bs es).1 ∧ (hear n st bs es).2.err = none ∧
      Heard lo o (pts' = pts) (hear n st bs es).2.begins (hear n st bs es).2.ends := by
  cases n with
  | layer S j =>
    obtain ⟨L', bs', es', e1, e2, e3⟩ := layer_hears (same := pts' = pts) hF hn (fit_xs (knotsOf_xs pts' _) hfit) (hch.knots ha hb ns j)
      (fun h => by rw [h]) (fun h => by subst h; exact hch.none) h
    have hr : hear (.layer S j) st bs es = (L', ⟨bs', es', none⟩) := by
      simp only [hear, e1, begun_append, ended_append, begun_begins, ended_begins, begun_fins, ended_fins, List.append_nil,
        List.nil_append]
      rfl
    rw [hr]
    exact ⟨e2, rfl, e3⟩
  | join js u tfm =>
    obtain ⟨J', bs', es', e1, e2, e3, e4⟩ := joint_hears (J := st) (d' := span pts') hF (fun h => by rw [h]) h
    have hr : hear (.join js u tfm) st bs es = (J', ⟨bs', es', none⟩) := by
      simp only [hear, e2]
      rw [e1]
      rfl
    rw [hr]
    exact ⟨e3, rfl, e4⟩

theorem spread_fine {p' : Pts ℚ} {told : Told} (hp : Still i pts' p') (hch : Change lo o pts pts') (herr : told.err = none)
    (ht : Heard lo o (pts' = pts) told.begins told.ends) {ns : List Node} {s s' : State ns} {out : ℕ → Told}
    (h : Spread p' told ns s s' out) (hS : ∀ n ∈ ns, Node.Sound n) (hfit : ∀ n ∈ ns, Node.Fit pts' n) (hF : NetFine i pts ns s) :
    NetFine i pts' ns s' ∧ base s' = p' ∧ ∀ k, (out k).err = none ∧ Heard lo o (pts' = pts) (out k).begins (out k).ends := by
  induction h with
  | points p => exact ⟨hp, rfl, fun _ => ⟨herr, ht⟩⟩
  | @node n ns st s s' out bs es _ hb he ih =>
    obtain ⟨h1, h2, h3⟩ := ih (fun m hm => hS m (List.mem_cons_of_mem _ hm)) (fun m hm => hfit m (List.mem_cons_of_mem _ hm)) hF.2
    have hne : n.sources ≠ [] := by
      cases n with
      | layer S j => simp [Node.sources]
      | join js u tfm =>
        have : js ≠ [] := (hS (.join js u tfm) (by simp)).1
        obtain ⟨j, js, rfl⟩ := List.exists_cons_of_ne_nil this
        exact List.ne_nil_of_mem (a := j) (List.mem_dedup.2 (by simp))
    have hh := (Heard.flat (B := fun j => (out j).begins) (E := fun j => (out j).ends) (fun j => (h3 j).2) hne).perm hb he
    obtain ⟨g1, g2, g3⟩ := node_hears (st := st) (hS n (by simp)) (hfit n (by simp)) hF.2.base.asc hp.asc hch hF.1 hh
    refine ⟨⟨g1, h1⟩, h2, fun k => ?_⟩
    cases k with
    | zero => exact ⟨g2, g3⟩
    | succ k => exact h3 k

/-- What the points announce. -/
theorem points_told {p : Pts ℚ} (h : Still i pts p) {op : Op ℚ} {r : Reads} (hl : op.Legal) (he : lateError (op.run p r).err = false)
    (ht : Truthful (op.run p r).st) : ∃ lo o, Still i (op.run p r).st.points (op.run p r).st ∧
      Change lo o pts (op.run p r).st.points ∧
      Heard lo o ((op.run p r).st.points = pts) (evBegins (op.run p r).ev) (evEnds (op.run p r).ev) := by
  have hh : Honest (op.run p r).st := .edit h.1 hl he ht
  obtain ⟨hs, rfl, hi⟩ := h
  have hsame : ∀ q : List (Pt ℚ), q = p.points → Change .pinf true p.points q := by
    rintro q rfl
    refine ⟨p.points, [], [], by simp, by simp, fun q _ => ?_, by simp⟩
    simp [onwards, Iv.geLo]
  cases outcome hs.base hs.wf hl r with
  | idle hs' hev _ _ =>
    have hp : (op.run p r).st.points = p.points ∧ (op.run p r).st.interp = p.interp := by
      rcases hs' with hs' | hs' <;> rw [hs'] <;> exact ⟨rfl, rfl⟩
    exact ⟨.pinf, true, ⟨hh, rfl, hp.2.trans hi⟩, hsame _ hp.1, .inl ⟨by rw [hev]; rfl, by rw [hev]; rfl, hp.1⟩⟩
  | stuck iv e he' _ hst => rw [hst.err, he'] at he; cases he
  | edited iv hed hk =>
    have hst : Still i (op.run p r).st.points (op.run p r).st := ⟨hh, rfl, hed.interp.trans hi⟩
    rw [← hed.points] at hk
    rcases hed.ev with ⟨_, hev, hpp⟩ | ⟨hne, a, b, hev, _⟩
    · have hp : (op.run p r).st.points = p.points := by rw [hed.points, hpp]
      exact ⟨.pinf, true, hst, hsame _ hp, .inl ⟨by rw [hev]; rfl, by rw [hev]; rfl, hp⟩⟩
    · have hf : From iv.lo iv.loOpen iv := ⟨rfl, rfl, hne⟩
      have hgl : ∀ x : ℚ, (onwards iv.lo iv.loOpen).geLo (.fin x) = iv.geLo (.fin x) := fun _ => rfl
      have hord : ∀ l : List (Pt ℚ), Ascending l → l = l.filter (fun p => !iv.geLo (.fin p.1)) ++
          l.filter (fun p => iv.geLo (.fin p.1)) := by
        intro l hl
        refine ascending_ext hl ?_ fun p => ?_
        · refine List.pairwise_append.2 ⟨hl.filter _, hl.filter _, fun p hp q hq => ?_⟩
          have h5 : iv.geLo (.fin p.1) = false := by simpa using (List.mem_filter.1 hp).2
          have h6 : iv.geLo (.fin q.1) = true := by simpa using (List.mem_filter.1 hq).2
          by_contra hc
          rw [Accum.geLo_le (not_lt.1 hc) h5] at h6; cases h6
        · rw [List.mem_append, List.mem_filter, List.mem_filter]
          cases iv.geLo (.fin p.1) <;> simp
      have hpre : (op.run p r).st.points.filter (fun p => !iv.geLo (.fin p.1)) =
          p.points.filter (fun p => !iv.geLo (.fin p.1)) := by
        refine ascending_ext (hh.wf.asc.filter _) (hs.wf.asc.filter _) fun q => ?_
        rw [List.mem_filter, List.mem_filter]
        cases hgp : iv.geLo (.fin q.1) with
        | true => simp
        | false =>
          have : iv.contains (.fin q.1) = false := by
            by_contra hc
            have := ((Iv.contains_iff _ _).1 (by simpa using hc)).1
            rw [hgp] at this; cases this
          simp [hk q this]
      refine ⟨iv.lo, iv.loOpen, hst, ⟨p.points.filter (fun p => !iv.geLo (.fin p.1)), p.points.filter (fun p => iv.geLo (.fin p.1)),
        (op.run p r).st.points.filter (fun p => iv.geLo (.fin p.1)), hord _ hs.wf.asc, by rw [← hpre]; exact hord _ hh.wf.asc, ?_, ?_⟩,
        .inr ⟨iv, by rw [hev]; simp [evBegins], by rw [hev]; simp [evEnds], ?_⟩⟩
      · intro q hq
        rw [hgl]
        simpa using (List.mem_filter.1 hq).2
      · intro q hq
        rw [hgl]
        rcases List.mem_append.1 hq with hq | hq <;> simpa using (List.mem_filter.1 hq).2
      · intro d hd
        have : d = iv := by
          rw [hev] at hd
          simpa [evBegins, evEnds] using hd
        rw [this]
        exact ⟨hf, Iv.hiGe_refl _⟩

/-- One of the orders: sources as they are listed. -/
def inOrder (p' : Pts ℚ) (told : Told) : (ns : List Node) → State ns → State ns × (ℕ → Told)
  | [], _ => (p', fun _ => told)
  | n :: ns, s =>
    let r := inOrder p' told ns s.2
    let h := hear n s.1 (n.sources.flatMap fun j => (r.2 j).begins) (n.sources.flatMap fun j => (r.2 j).ends)
    ((h.1, r.1), fun k => match k with
      | 0 => h.2
      | k + 1 => r.2 k)

theorem inOrder_spread (p' : Pts ℚ) (told : Told) : ∀ (ns : List Node) (s : State ns),
    Spread p' told ns s (inOrder p' told ns s).1 (inOrder p' told ns s).2
  | [], p => .points p
  | n :: ns, s => .node (st := s.1) (inOrder_spread p' told ns s.2) (List.Perm.refl _) (List.Perm.refl _)

theorem spread_exists (p' : Pts ℚ) (told : Told) (ns : List Node) (s : State ns) : ∃ s' out, Spread p' told ns s s' out :=
  ⟨_, _, inOrder_spread p' told ns s⟩

theorem edits_fine {ns : List Node} (hS : ∀ n ∈ ns, Node.Sound n) {s s' : State ns} {op : Op ℚ} {r : Reads} {out : ℕ → Told}
    (hF : NetFine i pts ns s) (hl : op.Legal) (he : lateError (op.run (base s) r).err = false)
    (ht : Truthful (op.run (base s) r).st) (hfit : ∀ n ∈ ns, Node.Fit (op.run (base s) r).st.points n)
    (h : Edits ns op r s s' out) :
    NetFine i (op.run (base s) r).st.points ns s' ∧ base s' = (op.run (base s) r).st ∧ ∃ lo o,
      Change lo o pts (op.run (base s) r).st.points ∧
      ∀ k, (out k).err = none ∧ Heard lo o ((op.run (base s) r).st.points = pts) (out k).begins (out k).ends := by
  obtain ⟨lo, o, h1, h2, h3⟩ := points_told hF.base hl he ht
  obtain ⟨g1, g2, g3⟩ := spread_fine h1 h2 rfl h3 h hS hfit hF
  exact ⟨g1, g2, lo, o, h2, g3⟩

theorem netNew_fine {p : Pts ℚ} (hs : Honest p) (hi : p.interp = i) : ∀ {ns : List Node}, (∀ n ∈ ns, Node.Fit p.points n) →
    NetFine i p.points ns (new p ns)
  | [], _ => ⟨hs, rfl, hi⟩
  | .layer S j :: ns, h => by
    refine ⟨⟨⟨.inl rfl, rfl, rfl⟩, [], _, rfl, CScan.Sane.new ?_⟩, netNew_fine hs hi fun n hn => h n (List.mem_cons_of_mem _ hn)⟩
    exact fit_xs (knotsOf_xs _ _) (h (.layer S j) (by simp))
  | .join js u tfm :: ns, h => ⟨⟨.inl rfl, rfl, rfl⟩, netNew_fine hs hi fun n hn => h n (List.mem_cons_of_mem _ hn)⟩

theorem netUsed_fine {ns : List Node} (hS : ∀ n ∈ ns, Node.Sound n) {s : State ns} (h : NetUsed i ns s) :
    NetFine i (base s).points ns s := by
  induction h with
  | new hs hi hf =>
    have := netNew_fine hs hi hf
    rw [this.base.2.1]
    exact this
  | @read k s s' _ hr ih =>
    have G := good (i := i) (pts := (base s).points) hS k
    have : NetFine i (base s).points ns s' := by
      rcases hr with ⟨x, v, h1⟩ | ⟨x, a, l, v, h1⟩ | ⟨x, a, l, v, h1⟩ | ⟨v, h1⟩ | ⟨d, b, c, n, v, h1⟩
      · exact G.tidy.y x s v s' ih h1
      · exact G.tidy.next x a l s v s' ih h1
      · exact G.tidy.prev x a l s v s' ih h1
      · exact G.tidy.dom s v s' ih h1
      · exact G.sample d b c n s v s' ih h1
    rw [this.base.2.1]
    exact this
  | edit _ hl he ht hf hr ih =>
    obtain ⟨h1, h2, _⟩ := edits_fine hS ih hl he ht hf hr
    rw [h2]
    exact h1

end Net
end Curvepy
