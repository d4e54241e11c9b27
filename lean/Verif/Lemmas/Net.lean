import Verif.Spec.Net
import Verif.Lemmas.TowerHistory
import Verif.Lemmas.Compose

/-!
# Networks: reading
-/

namespace Curvepy
open Spec Pts Props Accum

section
variable {σ τ α β : Type} {J : σ → Prop} {P : τ → Prop}

/-! ## Beside another state -/

theorem Agrees.behind {p : Run σ α} {r : Option (Except Err α)} (h : Agrees J p r) :
    Agrees (fun s : τ × σ => P s.1 ∧ J s.2) p.behind r := by
  rintro ⟨a, s⟩ ⟨ha, hs⟩
  refine ⟨fun hr => ?_, fun v hv => ?_⟩
  · have := (h s hs).1 hr
    show (p s).map _ = none
    rw [this]; rfl
  · obtain ⟨s', h1, h2⟩ := (h s hs).2 v hv
    refine ⟨(a, s'), ?_, ha, h2⟩
    show (p s).map _ = _
    rw [h1]; rfl

theorem Orderly.behind {p : Run σ α} (h : Orderly J p) : Orderly (fun s : τ × σ => P s.1 ∧ J s.2) p.behind := by
  rintro ⟨a, s⟩ v ⟨b, s'⟩ ⟨ha, hs⟩ hp
  have hp' : (p s).map (fun r => (r.1, (a, r.2))) = some (v, (b, s')) := hp
  rw [Option.map_eq_some_iff] at hp'
  obtain ⟨⟨v', s1⟩, h1, h2⟩ := hp'
  cases h2
  exact ⟨ha, h s _ _ hs h1⟩

variable {M : Machine σ} {pts : List (Pt ℚ)}

theorem Tidy.behind (h : Tidy M J) : Tidy M.behind (fun s : τ × σ => P s.1 ∧ J s.2) :=
  ⟨h.dom.behind, h.minStep.behind, fun x => (h.y x).behind, fun x m l => (h.next x m l).behind,
    fun x m l => (h.prev x m l).behind⟩

theorem Layer.Shown.behind {c : ℚ} (h : Layer.Shown M J pts c) : Layer.Shown M.behind (fun s : τ × σ => P s.1 ∧ J s.2) pts c :=
  ⟨h.dom.behind, fun p hp => (h.val p hp).behind, fun pre p q rest a l h1 h2 h3 h4 => (h.next pre p q rest a l h1 h2 h3 h4).behind⟩

theorem Orderly.mapM {f : β → Run σ α} : ∀ {Ms : List β}, (∀ M ∈ Ms, Orderly J (f M)) → Orderly J (Ms.mapM f)
  | [], _ => .pure' _
  | M :: Ms, h => by
    rw [List.mapM_cons]
    exact .bind (h M (by simp)) fun _ => .bind (Orderly.mapM fun N hN => h N (List.mem_cons_of_mem _ hN)) fun _ => .pure' _

/-- If all give values that are known, so does asking one after the other. -/
theorem Agrees.each {f : β → Run σ α} {g : β → α} : ∀ {Ms : List β}, (∀ M ∈ Ms, Agrees J (f M) (some (.ok (g M)))) →
    Agrees J (Ms.mapM f) (some (.ok (Ms.map g)))
  | [], _ => .pure' _
  | M :: Ms, h => by
    rw [List.mapM_cons]
    exact .bind_ok (h M (by simp)) (.bind_ok (Agrees.each fun N hN => h N (List.mem_cons_of_mem _ hN)) (.pure' _))

end

/-! ## Knots -/

theorem knotsOf_xs (pts : List (Pt ℚ)) (v : Ext → Option ℚ) : (knotsOf pts v).map Prod.fst = pts.map Prod.fst := by
  simp [knotsOf, List.map_map, Function.comp_def]

theorem knotsOf_length (pts : List (Pt ℚ)) (v : Ext → Option ℚ) : (knotsOf pts v).length = pts.length := by simp [knotsOf]

theorem knotsOf_congr {a b : List (Pt ℚ)} (h : a.map Prod.fst = b.map Prod.fst) (v : Ext → Option ℚ) :
    knotsOf a v = knotsOf b v := by
  have key : ∀ l : List (Pt ℚ), knotsOf l v = (l.map Prod.fst).map fun x => (x, v (.fin x)) := fun l => by
    simp [knotsOf, List.map_map, Function.comp_def]
  rw [key, key, h]

theorem knotsOf_self {i : Interp} {pts : List (Pt ℚ)} (h : Ascending pts) : knotsOf pts (valueAtE i pts) = pts := by
  unfold knotsOf
  conv_rhs => rw [← List.map_id pts]
  refine List.map_congr_left fun p hp => ?_
  exact Prod.ext rfl (valueAt_mem h hp)

theorem knotsOf_folded {i : Interp} {g : Rule} {pts ks : List (Pt ℚ)} (hg : NeverRaises g) (h : Ascending pts)
    (hk : ks.map Prod.fst = pts.map Prod.fst) : knotsOf pts (valueAtE i (foldedBy g ks)) = foldedBy g ks := by
  have hx : (foldedBy g ks).map Prod.fst = pts.map Prod.fst := (foldedBy_xs hg ks).trans hk
  rw [knotsOf_congr hx.symm, knotsOf_self (ascending_xs hx h)]

theorem span_empty_or (pts : List (Pt ℚ)) (h : Ascending pts) :
    span pts = Iv.empty ∨ ((span pts).isEmpty = false ∧ ∃ a b : ℚ, (span pts).lo = .fin a ∧ (span pts).hi = .fin b) := by
  cases pts with
  | nil => exact .inl rfl
  | cons p ps =>
    refine .inr ⟨?_, ?_⟩
    · refine Iv.not_isEmpty_of_mem (x := .fin p.1) ?_
      rw [← getDomain_eq_span]
      exact getDomain_contains_mem h (by simp)
    · unfold span
      rw [List.getLast?_eq_some_getLast (by simp)]
      exact ⟨p.1, _, rfl, rfl⟩

theorem unionAll_same {d : Iv} (hd : d = Iv.empty ∨ d.isEmpty = false) : ∀ {ds : List Iv}, ds ≠ [] → (∀ e ∈ ds, e = d) →
    Iv.unionAll ds = d
  | [], h, _ => absurd rfl h
  | [e], _, h => by
    rw [h e (by simp)]
    rcases hd with rfl | hd
    · decide
    · exact Iv.union_empty_right hd
  | e :: f :: ds, _, h => by
    rw [Iv.unionAll, unionAll_same hd (by simp) (fun x hx => h x (List.mem_cons_of_mem _ hx)), h e (by simp)]
    rcases hd with rfl | hd
    · decide
    · simp [Iv.union, hd]

theorem interAll_same {d : Iv} (hd : d = Iv.empty ∨ (d.isEmpty = false ∧ ∃ a b : ℚ, d.lo = .fin a ∧ d.hi = .fin b)) :
    ∀ {ds : List Iv}, ds ≠ [] → (∀ e ∈ ds, e = d) → Iv.interAll ds = d
  | [], h, _ => absurd rfl h
  | [e], _, h => by
    rw [h e (by simp)]
    rcases hd with rfl | ⟨hd, a, b, ha, hb⟩
    · decide
    · have h1 : Iv.loLe d Iv.infinite = false := by simp [Iv.loLe, Iv.infinite, ha]
      have h2 : Iv.hiGe d Iv.infinite = false := by simp [Iv.hiGe, Iv.infinite, hb]
      have h3 : Iv.interRaw d Iv.infinite = d := by simp [Iv.interRaw, h1, h2]
      simp [Iv.interAll, Iv.inter, hd, h3]
  | e :: f :: ds, _, h => by
    rw [Iv.interAll, interAll_same hd (by simp) (fun x hx => h x (List.mem_cons_of_mem _ hx)), h e (by simp)]
    rcases hd with rfl | ⟨hd, _⟩
    · decide
    · exact inter_self' hd

theorem minOrNone_same {x q : Ext} (hq : x < q) : ∀ {n : ℕ} {best : Option Ext}, (best = none ∧ n ≠ 0 ∨ best = some q) →
    Crv.minOrNone x (List.replicate n (some q)) best = some q
  | 0, best, h => by
    rcases h with ⟨_, h⟩ | h
    · exact absurd rfl h
    · rw [h]; rfl
  | n + 1, best, h => by
    rw [List.replicate_succ, Crv.minOrNone]
    refine minOrNone_same hq (.inr ?_)
    rcases h with ⟨rfl, _⟩ | rfl
    · simp [Crv.pickMin, hq]
    · simp [Crv.pickMin]

/-! ## The points -/

namespace Net

variable {i : Interp} {pts : List (Pt ℚ)}

/-- Points in order. -/
def Still (i : Interp) (pts : List (Pt ℚ)) (p : Pts ℚ) : Prop := Honest p ∧ p.points = pts ∧ p.interp = i

theorem Still.touch {p : Pts ℚ} (h : Still i pts p) : Still i pts p.touch := ⟨.read h.1, h.2.1, h.2.2⟩

theorem Still.asc {p : Pts ℚ} (h : Still i pts p) : Ascending pts := h.2.1 ▸ h.1.wf.asc

theorem points_dom : Agrees (Still i pts) points.dom (some (.ok (span pts))) := by
  intro p hp
  refine ⟨nofun, fun v hv => ?_⟩
  cases hv
  refine ⟨p.touch, ?_, hp.touch⟩
  show some (Except.ok p.domVal, p.touch) = _
  rw [hp.1.wf.domVal, getDomain_eq_span, hp.2.1]

theorem points_y (x : Ext) : Agrees (Still i pts) (points.y x) (some (.ok ((valueAtE i pts x).map .fin))) := by
  intro p hp
  refine ⟨nofun, fun v hv => ?_⟩
  cases hv
  refine ⟨p.touch, ?_, hp.touch⟩
  show some ((p.y x).map (Option.map Num.fin), p.touch) = _
  rw [y_eq hp.1.wf, hp.2.1, hp.2.2]
  rfl

theorem points_shown {c : ℚ} : Layer.Shown points (Still i pts) pts c where
  dom := points_dom
  val q hq := by
    intro p hp
    have := points_y (.fin q.1) p hp
    have hv : valueAtE i pts (.fin q.1) = q.2 := valueAt_mem hp.asc hq
    rw [hv] at this
    exact this
  next pre q r rest a l h1 h2 h3 _ := by
    intro p hp
    refine ⟨nofun, fun v hv => ?_⟩
    cases hv
    refine ⟨p.touch, ?_, hp.touch⟩
    show some (p.xNext (.fin q.1) (some a), p.touch) = _
    have hasc := hp.asc
    rw [Layer.acc_next hp.1, hp.2.1, h1, knotAfter_knot (h1 ▸ hasc) h3 h2]

theorem points_tidy : Tidy points (Still i pts) where
  dom := points_dom.orderly
  minStep := by rintro p v p' hp h; cases h; exact hp
  y x := (points_y x).orderly
  next x m l := by rintro p v p' hp h; cases h; exact hp.touch
  prev x m l := by rintro p v p' hp h; cases h; exact hp.touch

end Net

/-! ## Combinations -/

namespace Joint
open Crv

variable {σ : Type} {I : σ → Prop} {d : Iv} {js : List ℕ} {F : ℕ → Machine σ} {D : ℕ → Iv} {union : Bool}
  {tfm : Ext → List (Option Num) → Except Err (Option Num)}

/-- Between two operations; `d` is the domain. -/
structure Calm (d : Iv) (J : Joint) : Prop where
  cache : J.cache = none ∨ J.cache = some d
  idleB : J.bIv = Iv.empty
  idleE : J.eIv = Iv.empty

/-- `D` are the domains of the sources. -/
structure Joins (I : σ → Prop) (F : ℕ → Machine σ) (js : List ℕ) (union : Bool) (D : ℕ → Iv) (d : Iv) : Prop where
  doms : ∀ j ∈ js, Agrees I (F j).dom (some (.ok (D j)))
  all : ∀ s, I s → (if union then Iv.unionAll (js.map D) else Iv.interAll (js.map D)) = d

theorem dom_agrees (h : Joins I F js union D d) :
    Agrees (fun s : Joint × σ => Calm d s.1 ∧ I s.2) (dom (js.map F) union) (some (.ok d)) := by
  rintro ⟨J, s⟩ ⟨hJ, hs⟩
  refine ⟨nofun, fun v hv => ?_⟩
  cases hv
  rcases hJ.cache with hc | hc <;> replace hc : J.cache = _ := hc
  · obtain ⟨⟨J', s'⟩, h1, h2⟩ := ((Agrees.each (J := fun t : Joint × σ => t.1 = J ∧ I t.2) (f := fun j => (F j).dom.behind)
      (g := D) (Ms := js) fun j hj => (h.doms j hj).behind (P := fun t => t = J)) (J, s) ⟨rfl, hs⟩).2 _ rfl
    have hd := h.all s hs
    have h3 : J' = J := h2.1
    subst h3
    refine ⟨({ J' with cache := some d }, s'), ?_, ⟨.inr rfl, hJ.idleB, hJ.idleE⟩, h2.2⟩
    unfold dom
    simp only [run_bind, get, Option.bind_some, hc, List.mapM_map]
    have h1' : (js.mapM ((fun M : Machine σ => (M.dom.behind : Run (Joint × σ) Iv)) ∘ F)) (J', s) = some (.ok (js.map D), (J', s')) := h1
    rw [h1']
    simp only [Option.bind_some, put, pure_run]
    rw [hd]
  · refine ⟨(J, s), ?_, hJ, hs⟩
    unfold dom
    simp only [run_bind, get, Option.bind_some, hc, pure_run]

theorem tidy (h : Joins I F js union D d) (hT : ∀ j ∈ js, Tidy (F j) I) :
    Tidy (machine (js.map F) union tfm) (fun s : Joint × σ => Calm d s.1 ∧ I s.2) := by
  have hT' : ∀ M ∈ js.map F, Tidy M I := by
    intro M hM
    obtain ⟨j, hj, rfl⟩ := List.mem_map.1 hM
    exact hT j hj
  refine ⟨(dom_agrees h).orderly, .pure' _, fun x => ?_, fun x m l => ?_, fun x m l => ?_⟩
  · refine .bind (dom_agrees h).orderly fun d => ?_
    split
    · exact .pure' _
    · exact .bind (.mapM fun M hM => ((hT' M hM).y x).behind) fun _ => .lift _
  · exact .bind (.mapM fun M hM => ((hT' M hM).next x m l).behind) fun _ => .pure' _
  · exact .bind (.mapM fun M hM => ((hT' M hM).prev x m l).behind) fun _ => .pure' _

theorem y_agrees (h : Joins I F js union D d) {x : Ext} {g : ℕ → Option Num}
    (hy : ∀ j ∈ js, Agrees I ((F j).y x) (some (.ok (g j)))) :
    Agrees (fun s : Joint × σ => Calm d s.1 ∧ I s.2) ((machine (js.map F) union tfm).y x)
      (some (if d.contains x then tfm x (js.map g) else .ok none)) := by
  refine .bind_ok (dom_agrees h) ?_
  cases hx : d.contains x
  · exact .pure' _
  · refine .bind_ok ?_ (.lift _)
    rw [List.mapM_map]
    exact .each fun j hj => (hy j hj).behind

theorem next_agrees {x : Ext} {m l : Option Ext} {q : ℕ → Option Ext}
    (hn : ∀ j ∈ js, Agrees I ((F j).xNext x m l) (some (.ok (q j)))) :
    Agrees (fun s : Joint × σ => Calm d s.1 ∧ I s.2) ((machine (js.map F) union tfm).xNext x m l)
      (some (.ok (minOrNone x (js.map q) none))) := by
  refine .bind_ok ?_ (.pure' _)
  rw [List.mapM_map]
  exact .each fun j hj => (hn j hj).behind

end Joint

/-! ## Networks -/

namespace Net

variable {i : Interp} {pts : List (Pt ℚ)}

/-- A curve of the network in order. -/
def NodeFine (i : Interp) (pts : List (Pt ℚ)) (ns : List Node) : (n : Node) → n.State → Prop
  | .layer S j, L => Layer.Fine (plainRule S.tfm) S.minStep S.interp S.uniform (knotsOf pts (netValue i pts ns j)) L
  | .join _ _ _, J => Joint.Calm (span pts) J

/-- Between two operations all curves are in order. -/
def NetFine (i : Interp) (pts : List (Pt ℚ)) : (ns : List Node) → State ns → Prop
  | [], p => Still i pts p
  | n :: ns, s => NodeFine i pts ns n s.1 ∧ NetFine i pts ns s.2

theorem NetFine.base : ∀ {ns : List Node} {s : State ns}, NetFine i pts ns s → Still i pts (base s)
  | [], _, h => h
  | _ :: _, s, h => NetFine.base (s := s.2) h.2

/-- What all curves have in common. -/
structure Good (i : Interp) (pts : List (Pt ℚ)) (ns : List Node) (k : ℕ) : Prop where
  shown c : Layer.Shown (machine ns k) (NetFine i pts ns) (knotsOf pts (netValue i pts ns k)) c
  tidy : Tidy (machine ns k) (NetFine i pts ns)
  y x : Agrees (NetFine i pts ns) ((machine ns k).y x) (some (.ok ((netValue i pts ns k x).map .fin)))
  sample d m c n : Orderly (NetFine i pts ns) (sample ns k d m c n)

theorem knotsOf_mem {v : Ext → Option ℚ} {p : Pt ℚ} (h : p ∈ knotsOf pts v) : p.2 = v (.fin p.1) := by
  unfold knotsOf at h
  obtain ⟨q, _, rfl⟩ := List.mem_map.1 h
  rfl

theorem knotsOf_split {v w : Ext → Option ℚ} {pre rest : List (Pt ℚ)} {p q : Pt ℚ}
    (h : knotsOf pts v = pre ++ p :: q :: rest) : ∃ pre' p' q' rest', knotsOf pts w = pre' ++ p' :: q' :: rest' ∧
      p'.1 = p.1 ∧ q'.1 = q.1 := by
  have hx : (knotsOf pts w).map Prod.fst = (pre ++ p :: q :: rest).map Prod.fst := by
    rw [← h, knotsOf_xs, knotsOf_xs]
  have : knotsOf pts w = (knotsOf pts w).map fun r => (r.1, w (.fin r.1)) := by
    simp [knotsOf, List.map_map, Function.comp_def]
  refine ⟨pre.map (fun r => (r.1, w (.fin r.1))), (p.1, w (.fin p.1)), (q.1, w (.fin q.1)),
    rest.map (fun r => (r.1, w (.fin r.1))), ?_, rfl, rfl⟩
  have e : ∀ l : List (Pt ℚ), (l.map fun r => (r.1, w (.fin r.1))) = (l.map Prod.fst).map fun x => (x, w (.fin x)) := fun l => by
    simp [List.map_map, Function.comp_def]
  rw [this, e, hx, ← e]
  simp

theorem good_points (k : ℕ) : Good i pts [] k where
  shown c := by
    have h := points_shown (i := i) (pts := pts) (c := c)
    refine ⟨fun s hs => ?_, fun p hp s hs => ?_, fun pre p q rest a l h1 h2 h3 h4 s hs => ?_⟩ <;>
      have e : knotsOf pts (netValue i pts [] k) = pts := knotsOf_self (Still.asc hs)
    · rw [e]; exact h.dom s hs
    · rw [e] at hp; exact h.val p hp s hs
    · rw [e] at h1; exact h.next pre p q rest a l h1 h2 h3 h4 s hs
  tidy := points_tidy
  y x := points_y x
  sample d m c n := points_tidy.samplePoints d m c n

theorem good_behind {n : Node} {ns : List Node} {k : ℕ} (h : Good i pts ns k) : Good i pts (n :: ns) (k + 1) := by
  have e1 : machine (n :: ns) (k + 1) = (machine ns k).behind := by cases n <;> rfl
  have e2 : netValue i pts (n :: ns) (k + 1) = netValue i pts ns k := by cases n <;> rfl
  have e3 : ∀ d m c j, sample (n :: ns) (k + 1) d m c j = (sample ns k d m c j).behind := by cases n <;> intros <;> rfl
  refine ⟨?_, ?_, ?_, ?_⟩
  · intro c; rw [e1, e2]; exact (h.shown c).behind
  · rw [e1]; exact h.tidy.behind
  · intro x; rw [e1, e2]; exact (h.y x).behind
  · intro d m c j; rw [e3]; exact (h.sample d m c j).behind

theorem good_layer {S : Storey} {j : ℕ} {ns : List Node} (hm : 0 < S.minStep) (h : Good i pts ns j) :
    Good i pts (.layer S j :: ns) 0 := by
  have hsize : ∀ s, NetFine i pts ns s → (knotsOf pts (netValue i pts ns j)).length ≤ (base s).points.length := by
    intro s hs
    rw [hs.base.2.1, knotsOf_length]
  have hg := storey_neverRaises S
  have hy := fun x => Layer.y_knots (p := S.tfm) (i := S.interp) (u := S.uniform) (h.shown _) hm hsize hg x
  refine ⟨fun c => ?_, Layer.tidy (h.shown _) hm hsize hg h.tidy, hy, fun d m c n =>
    Layer.sample_orderly (h.shown _) hm hsize hg h.tidy d m c n⟩
  have hs := Layer.shown_over (t := S.tfm) (i := S.interp) (u := S.uniform) (c' := c) (h.shown _) hm hsize hg
  have e : ∀ s, NetFine i pts (.layer S j :: ns) s →
      knotsOf pts (netValue i pts (.layer S j :: ns) 0) = foldedBy (plainRule S.tfm) (knotsOf pts (netValue i pts ns j)) :=
    fun s hs => knotsOf_folded hg (Still.asc (NetFine.base hs)) (knotsOf_xs _ _)
  refine ⟨fun s h1 => ?_, fun p hp s h1 => ?_, fun pre p q rest a l h2 h3 h4 h5 s h1 => ?_⟩
  · rw [e s h1]; exact hs.dom s h1
  · rw [e s h1] at hp; exact hs.val p hp s h1
  · rw [e s h1] at h2; exact hs.next pre p q rest a l h2 h3 h4 h5 s h1

theorem good_join {js : List ℕ} {u : Bool} {tfm : Ext → List (Option Num) → Except Err (Option Num)} {ns : List Node}
    (hne : js ≠ []) (hp : StaysFinite tfm) (h : ∀ j ∈ js, Good i pts ns j) : Good i pts (.join js u tfm :: ns) 0 := by
  have hd : Joint.Joins (NetFine i pts ns) (machine ns) js u (fun _ => span pts) (span pts) := by
    refine ⟨fun j hj => ?_, fun s hs => ?_⟩
    · have := ((h j hj).shown 0).dom
      rwa [span_xs (knotsOf_xs pts _)] at this
    · have hsp := span_empty_or pts (Still.asc (NetFine.base hs))
      have hne' : (js.map fun _ => span pts) ≠ [] := by simpa using hne
      have hall : ∀ e ∈ js.map (fun _ => span pts), e = span pts := by simp
      cases u
      · exact interAll_same hsp hne' hall
      · exact unionAll_same (hsp.imp id (·.1)) hne' hall
  have hti : Tidy (machine (.join js u tfm :: ns) 0) (NetFine i pts (.join js u tfm :: ns)) :=
    Joint.tidy (tfm := tfm) hd fun j hj => (h j hj).tidy
  have hdom : Agrees (NetFine i pts (.join js u tfm :: ns)) (machine (.join js u tfm :: ns) 0).dom (some (.ok (span pts))) :=
    Joint.dom_agrees hd
  have hy : ∀ x, Agrees (NetFine i pts (.join js u tfm :: ns)) ((machine (.join js u tfm :: ns) 0).y x)
      (some (.ok ((netValue i pts (.join js u tfm :: ns) 0 x).map .fin))) := by
    intro x
    have h1 := Joint.y_agrees (tfm := tfm) hd (x := x)
      (g := fun j => (netValue i pts ns j x).map .fin) fun j hj => (h j hj).y x
    have h2 : (if (span pts).contains x then tfm x (js.map fun j => (netValue i pts ns j x).map Num.fin) else .ok none) =
        (.ok ((netValue i pts (.join js u tfm :: ns) 0 x).map .fin) : Except Err (Option Num)) := by
      rw [netValue]
      split
      · rw [← hp, List.map_map]; rfl
      · rfl
    rw [h2] at h1
    exact h1
  refine ⟨fun c => ⟨?_, ?_, ?_⟩, hti, hy, fun d m c n => hti.samplePoints d m c n⟩
  · rw [span_xs (knotsOf_xs pts _)]; exact hdom
  · intro p hp
    rw [knotsOf_mem hp]
    exact hy _
  · intro pre p q rest a l h1 h2 h3 h4
    have hn := Joint.next_agrees (I := NetFine i pts ns) (F := machine ns) (js := js) (d := span pts) (union := u) (tfm := tfm)
      (x := .fin p.1) (m := some (.fin a)) (l := l) (q := fun _ => some (.fin q.1)) fun j hj => by
        obtain ⟨pre', p', q', rest', e1, e2, e3⟩ := knotsOf_split (w := netValue i pts ns j) h1
        rw [← e2, ← e3]
        exact ((h j hj).shown c).next pre' p' q' rest' a l e1 (by rw [e2, e3]; exact h2) h3 h4
    rw [List.map_const', minOrNone_same (by simp; linarith) (.inl ⟨rfl, by simpa using hne⟩)] at hn
    exact hn

theorem good : ∀ {ns : List Node}, (∀ n ∈ ns, Node.Sound n) → ∀ k, Good i pts ns k
  | [], _, k => good_points k
  | n :: ns, hS, k + 1 => good_behind (good (fun m hm => hS m (List.mem_cons_of_mem _ hm)) k)
  | .layer S j :: ns, hS, 0 => good_layer (hS (.layer S j) (by simp)) (good (fun m hm => hS m (List.mem_cons_of_mem _ hm)) j)
  | .join js u tfm :: ns, hS, 0 => by
    have h : js ≠ [] ∧ StaysFinite tfm := hS (.join js u tfm) (by simp)
    exact good_join h.1 h.2 fun j _ => good (fun m hm => hS m (List.mem_cons_of_mem _ hm)) j

end Net

end Curvepy
