import Verif.Lemmas.Machine
import Verif.Spec.Compose

/-!
# Combinations of curves with a state behave like combinations of curves without
-/

namespace Curvepy
open Crv

variable {σ α β : Type} {I : σ → Prop}

theorem Agrees.mapM {γ : Type} {Ms : List β} {cs : List γ} {f : β → Run σ α} {g : γ → Except Err α}
    (h : List.Forall₂ (fun M c => Agrees I (f M) (some (g c))) Ms cs) : Agrees I (Ms.mapM f) (some (cs.mapM g)) := by
  induction h with
  | nil => exact .pure' _
  | cons h1 _ ih =>
    rw [List.mapM_cons, List.mapM_cons]
    exact .bind' h1 fun a _ => .bind' ih fun as _ => .pure' _

theorem mapM_pure {γ : Type} (l : List γ) (f : γ → α) :
    l.mapM (fun c => (Except.ok (f c) : Except Err α)) = .ok (l.map f) := by
  induction l with
  | nil => rfl
  | cons a l ih => rw [List.mapM_cons, ih]; rfl

theorem Agrees.ite {p q : Run σ α} {r t : Option (Except Err α)} {b : Prop} [Decidable b] (hp : b → Agrees I p r)
    (hq : ¬ b → Agrees I q t) : Agrees I (if b then p else q) (if b then r else t) := by
  split
  · exact hp ‹_›
  · exact hq ‹_›

theorem Agrees.iteSome {p q : Run σ α} {r t : Except Err α} {b : Prop} [Decidable b] (hp : b → Agrees I p (some r))
    (hq : ¬ b → Agrees I q (some t)) : Agrees I (if b then p else q) (some (if b then r else t)) := by
  split
  · exact hp ‹_›
  · exact hq ‹_›

section
variable {Ms : List (Machine σ)} {cs : List Crv}

theorem unitedDom_agrees (h : List.Forall₂ (fun M c => Forwards M I c) Ms cs) (union : Bool) :
    Agrees I (Machine.unitedDom Ms union)
      (some (.ok (if union then Iv.unionAll (cs.map (·.dom)) else Iv.interAll (cs.map (·.dom))))) := by
  have hd : Agrees I (Ms.mapM fun M => M.dom) (some (.ok (cs.map (·.dom)))) := by
    rw [← mapM_pure]
    exact .mapM (h.imp fun _ _ hf => hf.dom)
  exact .bind_ok hd (.pure' _)

theorem Forwards.aggregate (h : List.Forall₂ (fun M c => Forwards M I c) Ms cs)
    (tfm : Ext → List (Option Num) → Except Err (Option Num)) (union : Bool) (default : Option Num) :
    Forwards (Machine.aggregate Ms tfm union default) I (Crv.aggregate cs tfm union default) where
  dom := unitedDom_agrees h union
  minStep := .pure' _
  y x := by
    refine .bind_ok (unitedDom_agrees h union) (.iteSome (fun _ => .pure' _) fun _ => ?_)
    exact .bind' (.mapM (h.imp fun _ _ hf => hf.y x)) fun _ _ => .lift _
  next x m l := .bind' (.mapM (h.imp fun _ _ hf => hf.next x m l)) fun _ _ => .pure' _

theorem Imitates.aggregate (h : List.Forall₂ (fun M c => Imitates M I c) Ms cs)
    (tfm : Ext → List (Option Num) → Except Err (Option Num)) (union : Bool) (default : Option Num) :
    Imitates (Machine.aggregate Ms tfm union default) I (Crv.aggregate cs tfm union default) where
  toForwards := .aggregate (h.imp fun _ _ hf => hf.toForwards) tfm union default
  prev x m l := .bind' (.mapM (h.imp fun _ _ hf => hf.prev x m l)) fun _ _ => .pure' _

end

variable {M : Machine σ} {c : Crv}

theorem Forwards.map (h : Forwards M I c) (tfm : Ext → Option Num → Except Err (Option Num)) (skip : Bool) (m : Ext) :
    Forwards (Machine.map M c.minStep tfm skip m) I ((c.map 2 tfm skip m).toOption.getD .empty) where
  dom := h.dom
  minStep := .pure' _
  y x := .bind' (h.y x) fun v _ => .iteSome (fun _ => .pure' _) fun _ => .lift _
  next x m l := h.next _ _ _

theorem Imitates.map (h : Imitates M I c) (tfm : Ext → Option Num → Except Err (Option Num)) (skip : Bool) (m : Ext) :
    Imitates (Machine.map M c.minStep tfm skip m) I ((c.map 2 tfm skip m).toOption.getD .empty) where
  toForwards := h.toForwards.map tfm skip m
  prev x m l := h.prev _ _ _

theorem Forwards.differential (h : Forwards M I c) (forward : Bool) (hb : forward = false → Imitates M I c) :
    Forwards (Machine.differential M c.minStep forward) I ((c.differential forward).toOption.getD .empty) where
  dom := h.dom
  minStep := .pure' _
  y x := .bind' (h.y x) fun v _ => by
    simp only [Bool.and_false, Bool.false_eq_true, if_false]
    exact h.dY x forward hb _ _
  next x m l := h.next _ _ _

theorem Imitates.differential (h : Imitates M I c) (forward : Bool) :
    Imitates (Machine.differential M c.minStep forward) I ((c.differential forward).toOption.getD .empty) where
  toForwards := h.toForwards.differential forward fun _ => h
  prev x m l := h.prev _ _ _

theorem Forwards.offset (h : Forwards M I c) (k : ℚ) : Forwards (Machine.offset M k) I (c.offset k) where
  dom := .bind_ok h.dom (.pure' _)
  minStep := .pure' _
  y x := .bind_ok h.dom (.iteSome (fun _ => .pure' _) fun _ => h.y _)
  next x m l := .bind' (h.next _ m l) fun x1 _ => by
    cases x1 with
    | none => exact .pure' _
    | some x1 => exact .bind_ok h.dom (.iteSome (fun _ => .pure' _) fun _ => .pure' _)

theorem Imitates.offset (h : Imitates M I c) (k : ℚ) : Imitates (Machine.offset M k) I (c.offset k) where
  toForwards := h.toForwards.offset k
  prev x m l := .bind' (h.prev _ m l) fun x1 _ => by
    cases x1 with
    | none => exact .pure' _
    | some x1 => exact .bind_ok h.dom (.iteSome (fun _ => .pure' _) fun _ => .pure' _)

theorem Imitates.subset (h : Forwards M I c) (d : Iv) : Imitates (Machine.subset M c.minStep d) I (c.subset d) where
  dom := .pure' _
  minStep := .pure' _
  y x := .iteSome (fun _ => .pure' _) fun _ => h.y x
  next x m l := .lift _
  prev x m l := .lift _

theorem Imitates.still (c : Crv) : Imitates (Machine.still c) I c where
  dom := .pure' _
  minStep := .pure' _
  y x := .lift _
  next x m l := .lift _
  prev x m l := .lift _

section
variable {ps : List (Machine σ × Iv)} {qs : List (Crv × Iv)}

theorem forall₂_domains (h : List.Forall₂ (fun p q => p.2 = q.2) ps qs) : ps.map (·.2) = qs.map (·.2) := by
  induction h with
  | nil => rfl
  | cons h1 _ ih => rw [List.map_cons, List.map_cons, h1, ih]

theorem piecewiseY_agrees (h : List.Forall₂ (fun p q => Forwards p.1 I q.1 ∧ p.2 = q.2) ps qs) (x : Ext) :
    Agrees I (Machine.piecewiseY x ps) (some (Crv.piecewiseY x qs)) := by
  induction h with
  | nil => exact .pure' _
  | @cons p q ps qs h1 _ ih =>
    obtain ⟨M, d⟩ := p
    obtain ⟨c, d'⟩ := q
    obtain ⟨hf, hd⟩ := h1
    change d = d' at hd
    subst hd
    exact .iteSome (fun _ => ih) fun _ => .iteSome (fun _ => .pure' _) fun _ => hf.y x

theorem Forwards.piecewise (h : List.Forall₂ (fun p q => Forwards p.1 I q.1 ∧ p.2 = q.2) ps qs) :
    Forwards (Machine.piecewise ps) I (Crv.piecewise qs) where
  dom := by
    have := forall₂_domains (h.imp fun _ _ hp => hp.2)
    show Agrees I (pure (Iv.unionAll (ps.map (·.2)))) _
    rw [this]
    exact .pure' _
  minStep := .pure' _
  y x := piecewiseY_agrees h x
  next x m l := by
    have hd := forall₂_domains (h.imp fun _ _ hp => hp.2)
    show Agrees I _ (some (_ : Except Err (Option Ext)))
    simp only [Machine.piecewise, Crv.piecewise, hd]
    cases resolve none m with
    | none => exact .lift _
    | some s =>
      refine .iteSome (fun _ => .pure' _) fun _ => ?_
      refine .bind' (.mapM (h.imp fun _ _ hf => hf.1.next x _ l)) fun xs _ => .iteSome (fun _ => .pure' _) fun _ => ?_
      cases (qs.map (·.2)).getLast? with
      | none => exact .lift _
      | some d => exact .iteSome (fun _ => .pure' _) fun _ => .pure' _

theorem Imitates.piecewise (h : List.Forall₂ (fun p q => Imitates p.1 I q.1 ∧ p.2 = q.2) ps qs) :
    Imitates (Machine.piecewise ps) I (Crv.piecewise qs) where
  toForwards := .piecewise (h.imp fun _ _ hf => ⟨hf.1.toForwards, hf.2⟩)
  prev x m l := by
    have hd := forall₂_domains (h.imp fun _ _ hp => hp.2)
    show Agrees I _ (some (_ : Except Err (Option Ext)))
    simp only [Machine.piecewise, Crv.piecewise, hd]
    cases resolve none m with
    | none => exact .lift _
    | some s =>
      refine .iteSome (fun _ => .pure' _) fun _ => ?_
      refine .bind' (.mapM (h.imp fun _ _ hf => hf.1.prev x _ l)) fun xs _ => .iteSome (fun _ => .pure' _) fun _ => ?_
      cases (qs.map (·.2)).head? with
      | none => exact .lift _
      | some d => exact .iteSome (fun _ => .pure' _) fun _ => .pure' _

end

section
variable {ι : Type} [DecidableEq ι] {τ : ι → Type} {J : ∀ i, τ i → Prop}

theorem Agrees.onOne {i : ι} {p : Run (τ i) α} {r : Option (Except Err α)} (h : Agrees (J i) p r) :
    Agrees (fun s : ∀ j, τ j => ∀ j, J j (s j)) (Machine.onOne i p) r := by
  intro s hs
  refine ⟨fun hr => ?_, fun v hv => ?_⟩
  · show (p (s i)).map _ = none
    rw [(h _ (hs i)).1 hr]
    rfl
  · obtain ⟨s', h1, h2⟩ := (h _ (hs i)).2 v hv
    refine ⟨Function.update s i s', ?_, fun j => ?_⟩
    · show (p (s i)).map _ = _
      rw [h1]
      rfl
    · by_cases hj : j = i
      · subst hj; simpa using h2
      · rw [Function.update_of_ne hj]; exact hs j

theorem Forwards.one {i : ι} {M : Machine (τ i)} {c : Crv} (h : Forwards M (J i) c) :
    Forwards (Machine.one i M) (fun s : ∀ j, τ j => ∀ j, J j (s j)) c where
  dom := .onOne h.dom
  minStep := .onOne h.minStep
  y x := .onOne (h.y x)
  next x m l := .onOne (h.next x m l)

theorem Imitates.one {i : ι} {M : Machine (τ i)} {c : Crv} (h : Imitates M (J i) c) :
    Imitates (Machine.one i M) (fun s : ∀ j, τ j => ∀ j, J j (s j)) c where
  toForwards := .one h.toForwards
  prev x m l := .onOne (h.prev x m l)

end

namespace Expr
variable {ι : Type} {Ms : ι → Machine σ} {cs : ι → Crv} {steps : ι → Option Ext}

theorem curve_minStep (hs : ∀ i, (cs i).minStep = steps i) (e : Expr ι) : (e.curve cs).minStep = e.minStep steps := by
  induction e with
  | leaf i => exact hs i
  | still c => rfl
  | aggregate es tfm union default ih => rfl
  | map e tfm skip m ih =>
    show some (mapStep (e.curve cs).minStep m) = _
    rw [ih]; rfl
  | offset e k ih => rfl
  | differential e f ih =>
    show some (mapStep (e.curve cs).minStep MIN_STEP) = _
    rw [ih]; rfl
  | subset e d ih => exact ih
  | piecewise es ds ih => rfl

theorem forall₂_ofFn {n : ℕ} {P : α → β → Prop} {f : Fin n → α} {g : Fin n → β} (h : ∀ j, P (f j) (g j)) :
    List.Forall₂ P (List.ofFn f) (List.ofFn g) := by
  induction n with
  | zero => simp
  | succ n ih =>
    rw [List.ofFn_succ, List.ofFn_succ]
    exact .cons (h 0) (ih fun j => h j.succ)

theorem imitates (h : ∀ i, Imitates (Ms i) I (cs i)) (hs : ∀ i, (cs i).minStep = steps i) (e : Expr ι) :
    Imitates (e.machine Ms steps) I (e.curve cs) := by
  induction e with
  | leaf i => exact h i
  | still c => exact .still c
  | aggregate es tfm union default ih => exact .aggregate (forall₂_ofFn ih) _ _ _
  | map e tfm skip m ih => rw [machine, ← curve_minStep hs e]; exact ih.map tfm skip m
  | offset e k ih => exact ih.offset k
  | differential e f ih => rw [machine, ← curve_minStep hs e]; exact ih.differential f
  | subset e d ih => rw [machine, ← curve_minStep hs e]; exact .subset ih.toForwards d
  | piecewise es ds ih => exact .piecewise (forall₂_ofFn fun j => ⟨ih j, rfl⟩)

theorem forwards (h : ∀ i, Forwards (Ms i) I (cs i)) (hs : ∀ i, (cs i).minStep = steps i) (e : Expr ι) (he : e.Ahead) :
    Forwards (e.machine Ms steps) I (e.curve cs) := by
  induction e with
  | leaf i => exact h i
  | still c => exact (Imitates.still c).toForwards
  | aggregate es tfm union default ih => exact .aggregate (forall₂_ofFn fun j => ih j (he j)) _ _ _
  | map e tfm skip m ih => rw [machine, ← curve_minStep hs e]; exact (ih he).map tfm skip m
  | offset e k ih => exact (ih he).offset k
  | differential e f ih =>
    rw [machine, ← curve_minStep hs e]
    obtain ⟨rfl, he⟩ := he
    exact (ih he).differential true nofun
  | subset e d ih => rw [machine, ← curve_minStep hs e]; exact (Imitates.subset (ih he) d).toForwards
  | piecewise es ds ih => exact .piecewise (forall₂_ofFn fun j => ⟨ih j (he j), rfl⟩)

end Expr
end Curvepy
