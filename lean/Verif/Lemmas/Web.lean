import Verif.Lemmas.WebKnots

/-!
# Networks over several lists of points: reading
-/

namespace Curvepy
open Spec Pts Props Accum

/-! ## Closed intervals -/

namespace Web

/-- Empty or closed at both ends. -/
def Closed (d : Iv) : Prop := d = Iv.empty ∨ ∃ a b : ℚ, a ≤ b ∧ d = Iv.closed a b

theorem closed_contains {a b : ℚ} (h : a ≤ b) (x : ℚ) : (Iv.closed a b).contains (.fin x) = true ↔ a ≤ x ∧ x ≤ b := by
  rw [Iv.contains_iff, Iv.geLo_iff, Iv.leHi_iff]
  simp only [Iv.closed, Ext.fin_lt_fin, Ext.fin.injEq, and_true]
  constructor
  · rintro ⟨h1, h2⟩
    exact ⟨by rcases h1 with h | h <;> linarith, by rcases h2 with h | h <;> linarith⟩
  · rintro ⟨h1, h2⟩
    exact ⟨by rcases lt_or_eq_of_le h1 with h | h <;> simp [h], by rcases lt_or_eq_of_le h2 with h | h <;> simp [h]⟩

theorem empty_contains (x : Ext) : Iv.empty.contains x = false := rfl

theorem Closed.ext {d e : Iv} (hd : Closed d) (he : Closed e) (h : ∀ x : ℚ, d.contains (.fin x) = e.contains (.fin x)) : d = e := by
  rcases hd with rfl | ⟨a, b, hab, rfl⟩ <;> rcases he with rfl | ⟨a', b', hab', rfl⟩
  · rfl
  · have := h a'
    rw [empty_contains, (closed_contains hab' a').2 ⟨le_rfl, hab'⟩] at this; cases this
  · have := h a
    rw [empty_contains, (closed_contains hab a).2 ⟨le_rfl, hab⟩] at this; cases this
  · have h1 := (closed_contains hab' a).1 (by rw [← h]; exact (closed_contains hab a).2 ⟨le_rfl, hab⟩)
    have h2 := (closed_contains hab' b).1 (by rw [← h]; exact (closed_contains hab b).2 ⟨hab, le_rfl⟩)
    have h3 := (closed_contains hab a').1 (by rw [h]; exact (closed_contains hab' a').2 ⟨le_rfl, hab'⟩)
    have h4 := (closed_contains hab b').1 (by rw [h]; exact (closed_contains hab' b').2 ⟨hab', le_rfl⟩)
    rw [le_antisymm h3.1 h1.1, le_antisymm h2.2 h4.2]

theorem Closed.span {pts : List (Pt ℚ)} (h : Ascending pts) : Closed (span pts) := by
  cases pts with
  | nil => exact .inl rfl
  | cons p ps =>
    refine .inr ⟨p.1, ((p :: ps).getLast (by simp)).1, ?_, ?_⟩
    · exact Ascending.le h (i := 0) rfl (getLast_mem_idx (by simp)) (by omega)
    · unfold Spec.span
      rw [List.getLast?_eq_some_getLast (by simp)]
      rfl

theorem closed_isEmpty {a b : ℚ} (h : a ≤ b) : (Iv.closed a b).isEmpty = false :=
  Iv.not_isEmpty_of_mem ((closed_contains h a).2 ⟨le_rfl, h⟩)

theorem Closed.inter {d e : Iv} (hd : Closed d) (he : Closed e) : Closed (Iv.inter d e) := by
  rcases hd with rfl | ⟨a, b, hab, rfl⟩
  · exact .inl (by simp [Iv.inter, show Iv.empty.isEmpty = true from rfl])
  rcases he with rfl | ⟨a', b', hab', rfl⟩
  · exact .inl (by simp [Iv.inter, show Iv.empty.isEmpty = true from rfl])
  have key : Iv.interRaw (Iv.closed a b) (Iv.closed a' b') = Iv.closed (max a a') (min b b') := by
    have h1 : Iv.loLe (Iv.closed a b) (Iv.closed a' b') = decide (a ≤ a') := by
      rcases lt_trichotomy a a' with h | h | h <;> first | (subst h; simp [Iv.loLe, Iv.closed]) | simp [Iv.loLe, Iv.closed, h, h.le, h.ne, h.ne', not_lt.2, not_le.2, le_of_lt]
    have h2 : Iv.hiGe (Iv.closed a b) (Iv.closed a' b') = decide (b' ≤ b) := by
      rcases lt_trichotomy b b' with h | h | h <;> first | (subst h; simp [Iv.hiGe, Iv.closed]) | simp [Iv.hiGe, Iv.closed, h, h.le, h.ne, h.ne', not_lt.2, not_le.2, le_of_lt]
    unfold Iv.interRaw
    rw [h1, h2]
    have hmax : max a a' = if a ≤ a' then a' else a := max_def a a'
    have hmin : min b b' = if b' ≤ b then b' else b := by rw [min_comm]; exact min_def b' b
    rw [hmax, hmin]
    by_cases h3 : a ≤ a' <;> by_cases h4 : b' ≤ b <;> simp [Iv.closed, h3, h4]
  unfold Iv.inter
  simp only [closed_isEmpty hab, closed_isEmpty hab', Bool.or_self, Bool.false_eq_true, if_false, key]
  by_cases h : max a a' ≤ min b b'
  · rw [closed_isEmpty h]
    exact .inr ⟨_, _, h, rfl⟩
  · have : (Iv.closed (max a a') (min b b')).isEmpty = true := by simp [Iv.isEmpty, Iv.closed, not_le.1 h]
    rw [this]
    exact .inl rfl

theorem Closed.interAll : ∀ {ds : List Iv}, ds ≠ [] → (∀ d ∈ ds, Closed d) → Closed (Iv.interAll ds)
  | [], h, _ => absurd rfl h
  | [d], _, h => by
    have hd := h d (by simp)
    rw [interAll_same (d := d) ?_ (by simp) (by simp)]
    · exact hd
    · rcases hd with rfl | ⟨a, b, hab, rfl⟩
      · exact .inl rfl
      · exact .inr ⟨closed_isEmpty hab, a, b, rfl, rfl⟩
  | d :: e :: ds, _, h =>
    (h d (by simp)).inter (Closed.interAll (ds := e :: ds) (by simp) fun f hf => h f (List.mem_cons_of_mem _ hf))

/-! ## One of many lists of points -/

variable {I : ℕ → Interp} {P : ℕ → List (Pt ℚ)}

section
variable {σ α : Type} {J : ℕ → σ → Prop}

theorem part_keeps {b : ℕ} {s : ℕ → σ} {t : σ} (hs : ∀ c, J c (s c)) (ht : J b t) : ∀ c, J c (Function.update s b t c) := by
  intro c
  by_cases h : c = b
  · subst h; rw [Function.update_self]; exact ht
  · rw [Function.update_of_ne h]; exact hs c

theorem agrees_part {b : ℕ} {p : Run σ α} {r : Option (Except Err α)} (h : Agrees (J b) p r) :
    Agrees (fun s : ℕ → σ => ∀ c, J c (s c)) (p.part b) r := by
  intro s hs
  refine ⟨fun hr => ?_, fun v hv => ?_⟩
  · have := (h (s b) (hs b)).1 hr
    show (p (s b)).map _ = none
    rw [this]; rfl
  · obtain ⟨t, h1, h2⟩ := (h (s b) (hs b)).2 v hv
    refine ⟨Function.update s b t, ?_, part_keeps hs h2⟩
    show (p (s b)).map _ = _
    rw [h1]; rfl

theorem orderly_part {b : ℕ} {p : Run σ α} (h : Orderly (J b) p) : Orderly (fun s : ℕ → σ => ∀ c, J c (s c)) (p.part b) := by
  intro s v s' hs hp
  have hp' : (p (s b)).map (fun r => (r.1, Function.update s b r.2)) = some (v, s') := hp
  rw [Option.map_eq_some_iff] at hp'
  obtain ⟨⟨v', t⟩, h1, h2⟩ := hp'
  cases h2
  exact part_keeps hs (h (s b) _ _ (hs b) h1)

theorem tidy_part {b : ℕ} {M : Machine σ} (h : Tidy M (J b)) : Tidy (M.part b) (fun s : ℕ → σ => ∀ c, J c (s c)) :=
  ⟨orderly_part h.dom, orderly_part h.minStep, fun x => orderly_part (h.y x), fun x m l => orderly_part (h.next x m l),
    fun x m l => orderly_part (h.prev x m l)⟩

end

/-! ## Networks -/

/-- A curve of the network in order. -/
def NodeFine (I : ℕ → Interp) (P : ℕ → List (Pt ℚ)) (ns : List Node) : (n : Node) → n.State → Prop
  | .layer S j, L => Layer.Fine (plainRule S.tfm) S.minStep S.interp S.uniform (webPts I P ns j) L
  | .join js u tfm, J => Joint.Calm (span (webPts I P (.join js u tfm :: ns) 0)) J

/-- Between two operations all curves are in order. -/
def WebFine (I : ℕ → Interp) (P : ℕ → List (Pt ℚ)) : (ns : List Node) → State ns → Prop
  | [], p => ∀ b, Net.Still (I b) (P b) (p b)
  | n :: ns, s => NodeFine I P ns n s.1 ∧ WebFine I P ns s.2

theorem WebFine.bases : ∀ {ns : List Node} {s : State ns}, WebFine I P ns s → ∀ b, Net.Still (I b) (P b) (bases s b)
  | [], _, h => h
  | _ :: _, s, h => WebFine.bases (s := s.2) h.2

theorem WebFine.asc {ns : List Node} {s : State ns} (h : WebFine I P ns s) (b : ℕ) : Ascending (P b) := (h.bases b).asc

theorem knots_size : ∀ {ns : List Node} {s : State ns} (_ : WebFine I P ns s) (k : ℕ), (webKnots P ns k).length ≤ size ns k s
  | [], p, h, b => by
    show ((P b).map Prod.fst).length ≤ (p b).points.length
    rw [(h b).2.1, List.length_map]
  | .layer _ j :: ns, s, h, 0 => knots_size (s := s.2) h.2 j
  | .join js u tfm :: ns, s, h, 0 => by
    refine (merged_length _).trans ?_
    show (js.flatMap (webKnots P ns)).length ≤ (js.map fun j => size ns j s.2).sum
    have hall : ∀ j, (webKnots P ns j).length ≤ size ns j s.2 := fun j => knots_size (s := s.2) h.2 j
    clear h
    induction js with
    | nil => simp
    | cons j js ih =>
      rw [List.flatMap_cons, List.length_append, List.map_cons, List.sum_cons]
      exact Nat.add_le_add (hall j) (ih s hall)
  | .layer _ _ :: ns, s, h, k + 1 => knots_size (s := s.2) h.2 k
  | .join _ _ _ :: ns, s, h, k + 1 => knots_size (s := s.2) h.2 k

theorem pts_size {ns : List Node} {s : State ns} (h : WebFine I P ns s) (k : ℕ) : (webPts I P ns k).length ≤ size ns k s := by
  have : (webPts I P ns k).length = (webIn P ns k).length := by rw [← webPts_xs (I := I), List.length_map]
  rw [this]
  exact (in_sub ns k).length_le.trans (knots_size h k)

/-- What all curves have in common. -/
structure Good (I : ℕ → Interp) (P : ℕ → List (Pt ℚ)) (ns : List Node) (k : ℕ) : Prop where
  dom : Agrees (WebFine I P ns) (machine ns k).dom (some (.ok (span (webPts I P ns k))))
  tidy : Tidy (machine ns k) (WebFine I P ns)
  y x : Agrees (WebFine I P ns) ((machine ns k).y x) (some (.ok ((webValue I P ns k x).map .fin)))
  next (x a : ℚ) (l : Option Ext) : within (webIn P ns k) x = true → 0 < a → webStep ns k ≤ a →
    Agrees (WebFine I P ns) ((machine ns k).xNext (.fin x) (some (.fin a)) l) (some (.ok ((firstAt (webKnots P ns k) (x + a)).map .fin)))
  sample d m c n : Orderly (WebFine I P ns) (sample ns k d m c n)

/-- From a position of the curve the next one is the following one. -/
theorem firstAt_next (hP : ∀ b, Ascending (P b)) {ns : List Node} {k : ℕ} {pre rest : List ℚ} {p q a : ℚ}
    (h : webIn P ns k = pre ++ p :: q :: rest) (ha : 0 < a) (hq : p + a ≤ q) : firstAt (webKnots P ns k) (p + a) = some q := by
  have hp' : p ∈ webIn P ns k := by rw [h]; simp
  have hq' : q ∈ webIn P ns k := by rw [h]; simp
  rw [firstAt_some (knots_asc hP ns k)]
  refine ⟨(in_sub ns k).subset hq', hq, fun w hw hpw => ?_⟩
  by_contra hc
  have hwq := not_le.1 hc
  have hw' : w ∈ webIn P ns k := (in_iff ns k w).2 ⟨hw, within_between (within_mem hp') (within_mem hq') (by linarith) hwq.le⟩
  have hasc := in_asc hP ns k
  rw [h] at hw' hasc
  have h1 := List.pairwise_append.1 hasc
  have h2 := List.pairwise_cons.1 h1.2.1
  have h3 := List.pairwise_cons.1 h2.2
  rcases List.mem_append.1 hw' with hw' | hw'
  · have := h1.2.2 w hw' p (by simp); linarith
  · rcases List.mem_cons.1 hw' with rfl | hw'
    · linarith
    · rcases List.mem_cons.1 hw' with rfl | hw'
      · linarith
      · have := h3.1 w hw'; linarith

theorem Good.shown {ns : List Node} {k : ℕ} (h : Good I P ns k) {c : ℚ} (hc : webStep ns k ≤ c) :
    Layer.Shown (machine ns k) (WebFine I P ns) (webPts I P ns k) c where
  dom := h.dom
  val p hp := by
    have : p.2 = webValue I P ns k (.fin p.1) := by
      obtain ⟨x, _, rfl⟩ := List.mem_map.1 hp
      rfl
    rw [this]
    exact h.y _
  next pre p q rest a l h1 h2 h3 h4 := by
    intro s hs
    have hx : webIn P ns k = pre.map Prod.fst ++ p.1 :: q.1 :: rest.map Prod.fst := by
      rw [← webPts_xs (I := I), h1]; simp
    have := h.next p.1 a l (within_mem (by rw [hx]; simp)) h3 (hc.trans h4) s hs
    rw [firstAt_next hs.asc hx h3 h2] at this
    exact this

theorem good_points (b : ℕ) : Good I P [] b where
  dom := by
    intro s hs
    have e : webPts I P [] b = P b := by
      have : webPts I P [] b = knotsOf (P b) (valueAtE (I b) (P b)) := by
        show ((P b).map Prod.fst).map _ = _
        rw [List.map_map]; rfl
      rw [this, knotsOf_self (hs b).asc]
    rw [e]
    exact agrees_part (J := fun c => Net.Still (I c) (P c)) Net.points_dom s hs
  tidy := tidy_part (J := fun c => Net.Still (I c) (P c)) Net.points_tidy
  y x := agrees_part (J := fun c => Net.Still (I c) (P c)) (Net.points_y x)
  next x a l _ _ _ := by
    refine agrees_part (J := fun c => Net.Still (I c) (P c)) (b := b) (p := Net.points.xNext (.fin x) (some (.fin a)) l) ?_
    intro p hp
    refine ⟨nofun, fun v hv => ?_⟩
    cases hv
    refine ⟨p.touch, ?_, hp.touch⟩
    show some (p.xNext (.fin x) (some a), p.touch) = _
    rw [Layer.acc_next hp.1, hp.2.1]
    simp only [knotAfter, firstFrom_firstAt]
    rfl
  sample d m c n := (tidy_part (J := fun c => Net.Still (I c) (P c)) (b := b) Net.points_tidy).samplePoints d m c n

theorem good_behind {n : Node} {ns : List Node} {k : ℕ} (h : Good I P ns k) : Good I P (n :: ns) (k + 1) := by
  have e1 : machine (n :: ns) (k + 1) = (machine ns k).behind := by cases n <;> rfl
  have e3 : ∀ d m c j, sample (n :: ns) (k + 1) d m c j = (sample ns k d m c j).behind := by cases n <;> intros <;> rfl
  have e4 : webStep (n :: ns) (k + 1) = webStep ns k := by cases n <;> rfl
  refine ⟨?_, ?_, ?_, ?_, ?_⟩
  · rw [e1, pts_succ]; exact h.dom.behind
  · rw [e1]; exact h.tidy.behind
  · intro x; rw [e1, value_succ]; exact (h.y x).behind
  · intro x a l; rw [e1, in_succ, knots_succ, e4]; exact fun h1 h2 h3 => (h.next x a l h1 h2 h3).behind
  · intro d m c j; rw [e3]; exact (h.sample d m c j).behind

/-- Own points first, then the source. -/
theorem layer_next {S : Storey} {j : ℕ} {ns : List Node} {x a : ℚ} {l : Option Ext} (hx : within (webIn P ns j) x = true) (ha : 0 < a)
    (hS : S.minStep ≤ a)
    (hM : Agrees (WebFine I P ns) ((machine ns j).xNext (.fin x) (some (.fin a)) l)
      (some (.ok ((firstAt (webKnots P ns j) (x + a)).map .fin)))) :
    Agrees (WebFine I P (.layer S j :: ns)) ((machine (.layer S j :: ns) 0).xNext (.fin x) (some (.fin a)) l)
      (some (.ok ((firstAt (webKnots P ns j) (x + a)).map .fin))) := by
  rintro ⟨L, s⟩ ⟨hF, hs⟩
  refine ⟨nofun, fun v hv => ?_⟩
  cases hv
  obtain ⟨hi, seen, todo, he, h⟩ := id hF
  have hc : Crv.resolve (some (.fin S.minStep)) (some (.fin a)) = some (.fin a) := by
    simp only [Crv.resolve, Ext.fin_lt_fin, not_lt.2 hS, if_false]
  have hown : Layer.ownNext L.scan.acc (.fin x) (some (.fin a)) = .ok ((firstAt (seen.map Prod.fst) (x + a)).map .fin) := by
    show L.scan.acc.xNext (.fin x) (some a) = _
    rw [Layer.acc_next h.acc, knotAfter_xs h.accXs]
    simp only [knotAfter, firstFrom_firstAt]
  obtain ⟨s', e, hs'⟩ := Layer.below_eq hM hs L
  have hrun : Layer.xNext (machine ns j) (.fin x) (some (.fin a)) l (L, s) =
      Layer.orElse ((firstAt (seen.map Prod.fst) (x + a)).map .fin)
        (Layer.below ((machine ns j).xNext (.fin x) (some (.fin a)) l)) (L, s) := by
    have hstep : L.scan.minStep = S.minStep := h.step
    simp only [Layer.xNext, run_bind, Layer.get, Option.bind_some, hstep, hc, hown, Run.lift]
  have goal : ∃ r, Layer.xNext (machine ns j) (.fin x) (some (.fin a)) l (L, s) =
      some (.ok ((firstAt (webKnots P ns j) (x + a)).map .fin), r) ∧ WebFine I P (.layer S j :: ns) r := by
    rw [hrun]
    cases hk : firstAt (seen.map Prod.fst) (x + a) with
    | none => exact ⟨(L, s'), e, hF, hs'⟩
    | some z =>
      have hin : webIn P ns j = seen.map Prod.fst ++ todo.map Prod.fst := by
        rw [← webPts_xs (I := I), ← he, List.map_append]
      have hasc := in_asc hs.asc ns j
      rw [hin] at hasc
      obtain ⟨h1, h2, h3⟩ := (firstAt_some (List.pairwise_append.1 hasc).1).1 hk
      have hzin : z ∈ webIn P ns j := by rw [hin]; exact List.mem_append_left _ h1
      have hz : firstAt (webKnots P ns j) (x + a) = some z := by
        rw [firstAt_some (knots_asc hs.asc ns j)]
        refine ⟨(in_sub ns j).subset hzin, h2, fun w hw hxw => ?_⟩
        by_contra hc
        have hwz := not_le.1 hc
        have hw' : w ∈ webIn P ns j := (in_iff ns j w).2 ⟨hw, within_between hx (within_mem hzin) (by linarith) hwz.le⟩
        rw [hin] at hw'
        rcases List.mem_append.1 hw' with hw' | hw'
        · have := h3 w hw' hxw; linarith
        · have := (List.pairwise_append.1 hasc).2.2 z h1 w hw'; linarith
      rw [hz]
      rw [hz] at e
      simp only [Option.map_some, Layer.orElse]
      split
      · exact ⟨(L, s'), e, hF, hs'⟩
      · exact ⟨(L, s), rfl, hF, hs⟩
  obtain ⟨r, h1, h2⟩ := goal
  exact ⟨r, h1, h2⟩

theorem good_layer {S : Storey} {j : ℕ} {ns : List Node} (hm : 0 < S.minStep) (hS : webStep ns j ≤ S.minStep) (h : Good I P ns j) :
    Good I P (.layer S j :: ns) 0 := by
  have hsize : ∀ s, WebFine I P ns s → (webPts I P ns j).length ≤ size ns j s := fun s hs => pts_size hs j
  have hg := storey_neverRaises S
  have hsh := h.shown hS
  refine ⟨?_, Layer.tidy hsh hm hsize hg h.tidy, fun x => Layer.y_knots (p := S.tfm) (i := S.interp) (u := S.uniform) hsh hm hsize hg x,
    fun x a l h1 h2 h3 => ?_, fun d m c n => Layer.sample_orderly hsh hm hsize hg h.tidy d m c n⟩
  · have : span (webPts I P (.layer S j :: ns) 0) = span (webPts I P ns j) :=
      span_xs (by rw [webPts_xs, webPts_xs]; rfl)
    rw [this]
    exact Layer.dom_agrees hsh
  · exact layer_next h1 h2 h3 (h.next x a l h1 h2 (hS.trans h3))

theorem minOrNone_spec {gt : Ext} : ∀ {is : List (Option Ext)} {best : Option Ext}, (∀ i, some i ∈ is → gt < i) →
    (Crv.minOrNone gt is best = none → best = none ∧ ∀ i ∈ is, i = none) ∧
    ∀ z, Crv.minOrNone gt is best = some z → (best = some z ∨ some z ∈ is) ∧ (∀ b, best = some b → z ≤ b) ∧ ∀ i, some i ∈ is → z ≤ i
  | [], best, _ => by
    refine ⟨fun h => ⟨h, by simp⟩, fun z h => ⟨.inl h, fun b hb => ?_, by simp⟩⟩
    have h' : best = some z := h
    rw [h'] at hb
    cases hb
    exact le_rfl
  | none :: is, best, h => by
    obtain ⟨h1, h2⟩ := minOrNone_spec (is := is) (best := best) fun i hi => h i (List.mem_cons_of_mem _ hi)
    refine ⟨fun hn => ⟨(h1 hn).1, fun i hi => ?_⟩, fun z hz => ⟨?_, (h2 z hz).2.1, fun i hi => ?_⟩⟩
    · rcases List.mem_cons.1 hi with rfl | hi
      · rfl
      · exact (h1 hn).2 i hi
    · exact (h2 z hz).1.imp id (List.mem_cons_of_mem _)
    · rcases List.mem_cons.1 hi with hi | hi
      · cases hi
      · exact (h2 z hz).2.2 i hi
  | some a :: is, best, h => by
    obtain ⟨h1, h2⟩ := minOrNone_spec (is := is) (best := Crv.pickMin gt a best) fun i hi => h i (List.mem_cons_of_mem _ hi)
    have ha := h a (by simp)
    have hp : ∃ c, Crv.pickMin gt a best = some c ∧ c ≤ a ∧ (∀ b, best = some b → c ≤ b) ∧ (c = a ∨ best = some c) := by
      cases best with
      | none => exact ⟨a, by simp [Crv.pickMin, ha], le_rfl, by simp, .inl rfl⟩
      | some b =>
        by_cases hab : a < b
        · exact ⟨a, by simp [Crv.pickMin, ha, hab], le_rfl, by simpa using hab.le, .inl rfl⟩
        · exact ⟨b, by simp [Crv.pickMin, hab], not_lt.1 hab, by simp, .inr rfl⟩
    obtain ⟨c, hc, hca, hcb, hor⟩ := hp
    refine ⟨fun hn => ?_, fun z hz => ?_⟩
    · have := (h1 hn).1
      rw [hc] at this; cases this
    · obtain ⟨g1, g2, g3⟩ := h2 z hz
      have hzc := g2 c hc
      refine ⟨?_, fun b hb => hzc.trans (hcb b hb), fun i hi => ?_⟩
      · rcases g1 with g1 | g1
        · rw [hc] at g1
          cases g1
          rcases hor with rfl | hor
          · exact .inr (by simp)
          · exact .inl hor
        · exact .inr (List.mem_cons_of_mem _ g1)
      · rcases List.mem_cons.1 hi with hi | hi
        · cases hi; exact hzc.trans hca
        · exact g3 i hi

theorem join_next {js : List ℕ} {ns : List Node} (hP : ∀ b, Ascending (P b)) {x a : ℚ} (ha : 0 < a) :
    Crv.minOrNone (.fin x) (js.map fun j => (firstAt (webKnots P ns j) (x + a)).map Ext.fin) none =
      (firstAt (merged (js.flatMap (webKnots P ns))) (x + a)).map .fin := by
  have hgt : ∀ i, some i ∈ js.map (fun j => (firstAt (webKnots P ns j) (x + a)).map Ext.fin) → Ext.fin x < i := by
    intro i hi
    obtain ⟨j, _, hj⟩ := List.mem_map.1 hi
    obtain ⟨z, hz, rfl⟩ := Option.map_eq_some_iff.1 hj
    have := ((firstAt_some (knots_asc hP ns j)).1 hz).2.1
    rw [Ext.fin_lt_fin]; linarith
  obtain ⟨h1, h2⟩ := minOrNone_spec (best := none) hgt
  cases hr : Crv.minOrNone (.fin x) (js.map fun j => (firstAt (webKnots P ns j) (x + a)).map Ext.fin) none with
  | none =>
    have hall := (h1 hr).2
    have : firstAt (merged (js.flatMap (webKnots P ns))) (x + a) = none := by
      rw [firstAt_none]
      intro w hw
      obtain ⟨j, hj, hw⟩ := List.mem_flatMap.1 (mem_merged.1 hw)
      have := hall _ (List.mem_map.2 ⟨j, hj, rfl⟩)
      rw [Option.map_eq_none_iff, firstAt_none] at this
      exact this w hw
    rw [this]; rfl
  | some z =>
    obtain ⟨g1, _, g3⟩ := h2 z hr
    rcases g1 with g1 | g1
    · cases g1
    obtain ⟨j, hj, hz⟩ := List.mem_map.1 g1
    obtain ⟨q, hq, rfl⟩ := Option.map_eq_some_iff.1 hz
    obtain ⟨e1, e2, e3⟩ := (firstAt_some (knots_asc hP ns j)).1 hq
    have : firstAt (merged (js.flatMap (webKnots P ns))) (x + a) = some q := by
      rw [firstAt_some (merged_asc _)]
      refine ⟨mem_merged.2 (List.mem_flatMap.2 ⟨j, hj, e1⟩), e2, fun w hw hxw => ?_⟩
      obtain ⟨k, hk, hw⟩ := List.mem_flatMap.1 (mem_merged.1 hw)
      cases hf : firstAt (webKnots P ns k) (x + a) with
      | none =>
        have := firstAt_none.1 hf w hw
        linarith
      | some r =>
        have h4 := g3 (.fin r) (List.mem_map.2 ⟨k, hk, by rw [hf]; rfl⟩)
        have h5 := ((firstAt_some (knots_asc hP ns k)).1 hf).2.2 w hw hxw
        rw [Ext.fin_le_fin] at h4
        exact h4.trans h5
    rw [this]; rfl

theorem le_foldr_max {f : ℕ → ℚ} : ∀ {js : List ℕ} {j : ℕ}, j ∈ js → f j ≤ (js.map f).foldr max 0
  | [], _, h => by cases h
  | k :: js, j, h => by
    rw [List.map_cons, List.foldr_cons]
    rcases List.mem_cons.1 h with rfl | h
    · exact le_max_left _ _
    · exact (le_foldr_max h).trans (le_max_right _ _)

theorem good_join {js : List ℕ} {tfm : Ext → List (Option Num) → Except Err (Option Num)} {ns : List Node}
    (hne : js ≠ []) (hp : StaysFinite tfm) (h : ∀ j ∈ js, Good I P ns j) : Good I P (.join js false tfm :: ns) 0 := by
  have hcon : (∀ b, Ascending (P b)) → ∀ k (ns : List Node) (x : ℚ), (span (webPts I P ns k)).contains (.fin x) = within (webIn P ns k) x := by
    intro hP k ns x
    rw [span_contains_within (webPts_asc hP ns k), webPts_xs]
  have hd : Joint.Joins (WebFine I P ns) (machine ns) js false (fun j => span (webPts I P ns j))
      (span (webPts I P (.join js false tfm :: ns) 0)) := by
    refine ⟨fun j hj => (h j hj).dom, fun s hs => ?_⟩
    have hP := hs.asc
    refine Closed.ext (Closed.interAll (by simpa using hne) ?_) (.span (webPts_asc hP _ _)) fun x => ?_
    · intro d hd
      obtain ⟨j, _, rfl⟩ := List.mem_map.1 hd
      exact .span (webPts_asc hP _ _)
    · rw [hcon hP, if_neg (by simp), Iv.contains_interAll, List.all_map, Bool.eq_iff_iff, List.all_eq_true, within_join hne]
      simp only [Function.comp_apply, hcon hP]
  have hti : Tidy (machine (.join js false tfm :: ns) 0) (WebFine I P (.join js false tfm :: ns)) :=
    Joint.tidy (tfm := tfm) hd fun j hj => (h j hj).tidy
  refine ⟨Joint.dom_agrees hd, hti, fun x => ?_, fun x a l h1 h2 h3 => ?_, fun d m c n => hti.samplePoints d m c n⟩
  · intro s hs
    have hP := WebFine.asc hs
    have h1 := Joint.y_agrees (tfm := tfm) hd (x := x) (g := fun j => (webValue I P ns j x).map .fin) (fun j hj => (h j hj).y x) s hs
    have h2 : (if (span (webPts I P (.join js false tfm :: ns) 0)).contains x then tfm x (js.map fun j => (webValue I P ns j x).map Num.fin)
        else .ok none) = (.ok ((webValue I P (.join js false tfm :: ns) 0 x).map .fin) : Except Err (Option Num)) := by
      cases x with
      | fin q =>
        have e : (span (webPts I P (.join js false tfm :: ns) 0)).contains (.fin q) = js.all fun j => within (webIn P ns j) q := by
          rw [hcon hP, Bool.eq_iff_iff, within_join hne, List.all_eq_true]
        rw [e, webValue]
        split
        · rw [← hp, List.map_map]; rfl
        · rfl
      | ninf =>
        rw [if_neg]
        · rfl
        · rcases Closed.span (webPts_asc (I := I) hP (.join js false tfm :: ns) 0) with h | ⟨a, b, _, h⟩ <;> rw [h] <;>
            simp [Iv.contains, Iv.geLo, Iv.leHi, Iv.empty, Iv.closed, Iv.isEmpty]
      | pinf =>
        rw [if_neg]
        · rfl
        · rcases Closed.span (webPts_asc (I := I) hP (.join js false tfm :: ns) 0) with h | ⟨a, b, _, h⟩ <;> rw [h] <;>
            simp [Iv.contains, Iv.geLo, Iv.leHi, Iv.empty, Iv.closed, Iv.isEmpty]
    rw [h2] at h1
    exact h1
  · intro s hs
    have hP := WebFine.asc hs
    have hn := Joint.next_agrees (I := WebFine I P ns) (F := machine ns) (js := js) (d := span (webPts I P (.join js false tfm :: ns) 0))
      (union := false) (tfm := tfm) (x := .fin x) (m := some (.fin a)) (l := l)
      (q := fun j => (firstAt (webKnots P ns j) (x + a)).map Ext.fin)
      (fun j hj => (h j hj).next x a l ((within_join hne false tfm ns x).1 h1 j hj) h2 ((le_foldr_max hj).trans h3)) s hs
    rw [join_next hP h2] at hn
    exact hn

theorem good : ∀ {ns : List Node}, WebSound ns → ∀ k, Good I P ns k
  | [], _, k => good_points k
  | .layer _ _ :: _, hS, k + 1 => good_behind (good hS.2.2 k)
  | .join _ _ _ :: _, hS, k + 1 => good_behind (good hS.2.2.2 k)
  | .layer S j :: ns, hS, 0 => good_layer hS.1 hS.2.1 (good hS.2.2 j)
  | .join js u tfm :: ns, hS, 0 => by
    obtain ⟨h1, rfl, h2, h3⟩ := hS
    exact good_join h1 h2 fun j _ => good h3 j

end Web
end Curvepy
