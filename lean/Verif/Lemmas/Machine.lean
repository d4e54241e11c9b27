import Verif.Model.Machine

/-!
# When a curve with a state behaves like a curve without
-/

namespace Curvepy
open Crv

variable {σ α β : Type} {I : σ → Prop}

theorem run_bind (p : Run σ α) (f : α → Run σ β) (s : σ) :
    (p >>= f) s = (p s).bind fun r => match r.1 with | .ok a => f a r.2 | .error e => some (.error e, r.2) := by
  show (StateT.bind p _) s = _
  unfold StateT.bind
  rcases p s with _ | ⟨_ | _, _⟩ <;> rfl

theorem pure_run (a : α) (s : σ) : (pure a : Run σ α) s = some (.ok a, s) := rfl

/-- Started in a state with `I`, the computation has the given outcome and leaves a state with `I`. -/
def Agrees (I : σ → Prop) (p : Run σ α) (r : Option (Except Err α)) : Prop :=
  ∀ s, I s → (r = none → p s = none) ∧ ∀ v, r = some v → ∃ s', p s = some (v, s') ∧ I s'

namespace Agrees

theorem pure' (a : α) : Agrees I (pure a) (some (.ok a)) :=
  fun s hs => ⟨nofun, fun v hv => by cases hv; exact ⟨s, rfl, hs⟩⟩

theorem lift (r : Except Err α) : Agrees I (Run.lift r) (some r) :=
  fun s hs => ⟨nofun, fun v hv => by cases hv; exact ⟨s, rfl, hs⟩⟩

theorem more : Agrees I (Run.more : Run σ α) none := fun _ _ => ⟨fun _ => rfl, nofun⟩

theorem bind_ok {p : Run σ α} {a : α} {f : α → Run σ β} {r : Option (Except Err β)} (hp : Agrees I p (some (.ok a)))
    (hf : Agrees I (f a) r) : Agrees I (p >>= f) r := by
  intro s hs
  obtain ⟨s1, h1, hs1⟩ := (hp s hs).2 _ rfl
  have e : (p >>= f) s = f a s1 := by
    show (StateT.bind p _) s = _
    simp only [StateT.bind, h1]
    rfl
  rw [e]
  exact hf s1 hs1

theorem bind_error {p : Run σ α} {e : Err} {f : α → Run σ β} (hp : Agrees I p (some (.error e))) :
    Agrees I (p >>= f) (some (.error e)) := by
  intro s hs
  obtain ⟨s1, h1, hs1⟩ := (hp s hs).2 _ rfl
  refine ⟨nofun, fun v hv => ?_⟩
  cases hv
  refine ⟨s1, ?_, hs1⟩
  show (StateT.bind p _) s = _
  simp only [StateT.bind, h1]
  rfl

theorem bind_more {p : Run σ α} {f : α → Run σ β} (hp : Agrees I p none) : Agrees I (p >>= f) none := by
  intro s hs
  refine ⟨fun _ => ?_, nofun⟩
  show (StateT.bind p _) s = _
  simp only [StateT.bind, (hp s hs).1 rfl]
  rfl

/-- A last step that only changes the result. -/
theorem bind_pure {p : Run σ α} {r : Option (Except Err α)} (hp : Agrees I p r) (f : α → β) :
    Agrees I (p >>= fun a => pure (f a)) (r.map fun v => v.map f) := by
  rcases r with _ | e | a
  · exact bind_more hp
  · exact bind_error hp
  · exact bind_ok hp (pure' _)

theorem bind' {p : Run σ α} {r : Except Err α} {f : α → Run σ β} {k : α → Except Err β} (hp : Agrees I p (some r))
    (hf : ∀ a, r = .ok a → Agrees I (f a) (some (k a))) : Agrees I (p >>= f) (some (r >>= k)) := by
  rcases r with e | a
  · exact bind_error hp
  · exact bind_ok hp (hf a rfl)

end Agrees

/-- In states with `I` the machine answers like the curve, as far as the domain, values and `x_next` are concerned, and
keeps `I`. -/
structure Forwards (M : Machine σ) (I : σ → Prop) (c : Crv) : Prop where
  dom : Agrees I M.dom (some (.ok c.dom))
  minStep : Agrees I M.minStep (some (.ok c.minStep))
  y x : Agrees I (M.y x) (some (c.y x))
  next x m l : Agrees I (M.xNext x m l) (some (c.xNext x m l))

/-- Also for `x_previous`. -/
structure Imitates (M : Machine σ) (I : σ → Prop) (c : Crv) : Prop extends Forwards M I c where
  prev x m l : Agrees I (M.xPrevious x m l) (some (c.xPrevious x m l))

variable {M : Machine σ} {c : Crv}

theorem Forwards.stepLoop (h : Forwards M I c) (b step : ℚ) (n : ℕ) (x : ℚ) :
    Agrees I (M.stepLoop b step n x) (c.stepLoop b step n x) := by
  induction n generalizing x with
  | zero => exact .more
  | succ n ih =>
    unfold Machine.stepLoop Crv.stepLoop
    split
    · have hy := h.y (.fin x)
      cases hc : c.y (.fin x) with
      | error e => rw [hc] at hy; exact .bind_error hy
      | ok y => rw [hc] at hy; exact .bind_ok hy (.bind_pure (ih _) _)
    · exact .pure' _

theorem Forwards.chainLoop (h : Forwards M I c) (m b : Ext) (k : ℤ) (n : ℕ) (x : Option Ext) :
    Agrees I (M.chainLoop m b k n x) (c.chainLoop m b k n x) := by
  induction n generalizing x with
  | zero => exact .more
  | succ n ih =>
    cases x with
    | none => exact .pure' _
    | some x =>
      unfold Machine.chainLoop Crv.chainLoop
      split
      · have hy := h.y x
        cases hc : c.y x with
        | error e => rw [hc] at hy; exact .bind_error hy
        | ok y =>
          rw [hc] at hy
          refine .bind_ok hy ?_
          cases hb : bin x m with
          | error e => exact .bind_error (.lift _)
          | ok xb =>
            refine .bind_ok (.lift _) ?_
            simp only
            split
            · exact .pure' _
            · have hn := h.next x (some m) (some b)
              cases hx : c.xNext x (some m) (some b) with
              | error e => rw [hx] at hn; exact .bind_error hn
              | ok x1 =>
                rw [hx] at hn
                refine .bind_ok hn ?_
                cases x1 with
                | none => exact .pure' _
                | some x1 =>
                  simp only
                  cases hb1 : bin x1 m with
                  | error e => exact .bind_error (.lift _)
                  | ok xb1 =>
                    refine .bind_ok (.lift _) ?_
                    simp only
                    split
                    · exact .lift _
                    · exact .bind_pure (ih _) _
      · exact .pure' _

theorem Forwards.addEnd (h : Forwards M I c) (d : Iv) (ps : List Sample) :
    Agrees I (M.addEnd d ps) (some (c.addEnd d ps)) := by
  unfold Machine.addEnd Crv.addEnd
  split
  · exact .pure' _
  · cases ps.getLast? with
    | none => exact .lift _
    | some p =>
      simp only
      split
      · exact .pure' _
      · have hy := h.y d.hi
        cases hc : c.y d.hi with
        | error e => rw [hc] at hy; exact .bind_error hy
        | ok y => rw [hc] at hy; exact .bind_ok hy (.pure' _)

theorem Forwards.firstSample (h : Forwards M I c) (a : ℚ) (o : Bool) :
    Agrees I (M.firstSample a o) (some (c.firstSample a o)) := by
  unfold Machine.firstSample Crv.firstSample
  split
  · exact .pure' _
  · have hy := h.y (.fin a)
    cases hc : c.y (.fin a) with
    | error e => rw [hc] at hy; exact .bind_error hy
    | ok y => rw [hc] at hy; exact .bind_ok hy (.pure' _)

theorem Forwards.sampleDomain (h : Forwards M I c) (domain : Option Iv) :
    Agrees I (M.sampleDomain domain) (some (.ok (c.sampleDomain domain))) := by
  cases domain with
  | none => exact h.dom
  | some d => exact .bind_ok h.dom (.pure' _)

/-- Sampling gives the same. -/
theorem Forwards.samplePoints (h : Forwards M I c) (domain : Option Iv) (minStep : Option Ext) (step : Option ℚ)
    (fuel : ℕ) : Agrees I (M.samplePoints domain minStep step fuel) (c.samplePoints domain minStep step fuel) := by
  unfold Machine.samplePoints Crv.samplePoints
  refine .bind_ok h.minStep (.bind_ok (h.sampleDomain domain) ?_)
  simp only
  generalize c.sampleDomain domain = d
  cases d.isEmpty
  swap; · exact .pure' _
  cases d.isFinite
  · exact .lift _
  simp only [Bool.false_eq_true, if_false, Bool.not_true]
  match hlo : d.lo, hhi : d.hi with
  | .fin a, .fin b =>
    simp only
    cases hb : endBin b (resolve c.minStep minStep) with
    | error e => exact .bind_error (.lift _)
    | ok eb =>
      refine .bind_ok (.lift _) ?_
      have hf := h.firstSample a d.loOpen
      simp only
      cases hfs : c.firstSample a d.loOpen with
      | error e => rw [hfs] at hf; exact .bind_error hf
      | ok ps =>
        rw [hfs] at hf
        refine .bind_ok hf ?_
        simp only
        cases step with
        | some s => exact .bind_pure (h.stepLoop _ _ _ _) _
        | none =>
          cases resolve c.minStep minStep with
          | none => exact .lift _
          | some m =>
            simp only
            split
            · have hn := h.next (.fin a) (some m) (some (.fin b))
              cases hx : c.xNext (.fin a) (some m) (some (.fin b)) with
              | error e => rw [hx] at hn; exact .bind_error hn
              | ok x =>
                rw [hx] at hn
                refine .bind_ok hn ?_
                have hl := h.chainLoop m (.fin b) eb fuel x
                simp only
                rcases hcl : c.chainLoop m (.fin b) eb fuel x with _ | e | qs
                · rw [hcl] at hl; exact .bind_more hl
                · rw [hcl] at hl; exact .bind_error hl
                · rw [hcl] at hl; exact .bind_ok hl (h.addEnd _ _)
            · exact .lift _
  | .ninf, _ => exact .lift _
  | .pinf, _ => exact .lift _
  | .fin _, .ninf => exact .lift _
  | .fin _, .pinf => exact .lift _

/-- Moving on, in the directions in which machine and curve agree. -/
theorem Forwards.fromLoop (h : Forwards M I c) (backward : Bool)
    (hb : backward = true → Imitates M I c) (m : Option Ext) (n : ℕ) (x : Ext) :
    Agrees I (M.fromLoop backward m n x) (some (c.fromLoop backward m n x)) := by
  induction n generalizing x with
  | zero => exact .pure' _
  | succ n ih =>
    unfold Machine.fromLoop Crv.fromLoop
    have key : ∀ (p : Run σ (Option Ext)) (r : Except Err (Option Ext)), Agrees I p (some r) →
        Agrees I (p >>= fun x1 => match x1 with
          | none => pure []
          | some x1 => M.y x1 >>= fun y => match y with
            | none => pure []
            | some y => M.fromLoop backward m n x1 >>= fun rest => pure ((x1, some y) :: rest))
          (some (r >>= fun x1 => match x1 with
          | none => pure []
          | some x1 => c.y x1 >>= fun y => match y with
            | none => pure []
            | some y => c.fromLoop backward m n x1 >>= fun rest => pure ((x1, some y) :: rest))) := by
      intro p r hp
      refine .bind' hp ?_
      intro x1 _
      cases x1 with
      | none => exact .pure' _
      | some x1 =>
        refine .bind' (h.y x1) ?_
        intro y _
        cases y with
        | none => exact .pure' _
        | some y => exact .bind' (ih _) fun _ _ => .pure' _
    cases backward
    · exact key _ _ (h.next x m none)
    · exact key _ _ ((hb rfl).prev x m none)

theorem Forwards.samplePointsFrom (h : Forwards M I c) (x : Ext) (limit : ℤ) (backward isOpen : Bool)
    (hb : (if limit < 0 then !backward else backward) = true → Imitates M I c) (minStep : Option Ext) :
    Agrees I (M.samplePointsFrom x limit backward isOpen minStep)
      (some (c.samplePointsFrom x limit backward isOpen minStep)) := by
  unfold Machine.samplePointsFrom Crv.samplePointsFrom
  refine .bind_ok h.minStep ?_
  simp only
  cases isOpen
  · simp only [Bool.false_eq_true, if_false]
    refine .bind' (h.y x) ?_
    intro y _
    cases y with
    | none => exact .pure' _
    | some y => exact h.fromLoop _ hb _ _ _
  · exact h.fromLoop _ hb _ _ _

theorem Forwards.dY (h : Forwards M I c) (x : Ext) (forward : Bool) (hb : forward = false → Imitates M I c)
    (minStep limit : Option Ext) :
    Agrees I (M.dY x forward minStep limit) (some (c.dY x forward minStep limit)) := by
  unfold Machine.dY Crv.dY
  refine .bind_ok h.minStep ?_
  simp only
  have key : ∀ (p : Run σ (Option Ext)) (r : Except Err (Option Ext)), Agrees I p (some r) →
      Agrees I (p >>= fun x1 => match x1 with
        | none => pure none
        | some x1 => M.y x1 >>= fun y1 => match y1 with
          | none => pure none
          | some y1 => M.y x >>= fun y => match y with
            | none => pure none
            | some y =>
              if x1 = x then
                pure (some (if forward then if Num.le y y1 then Num.pinf else .ninf
                  else (if Num.le y y1 then Num.pinf else .ninf).neg))
              else Run.lift (Num.div (Num.sub y1 y) (Num.sub (.ofExt x1) (.ofExt x))) >>= fun q => pure (some q))
        (some (r >>= fun x1 => match x1 with
        | none => pure none
        | some x1 => c.y x1 >>= fun y1 => match y1 with
          | none => pure none
          | some y1 => c.y x >>= fun y => match y with
            | none => pure none
            | some y =>
              if x1 = x then
                pure (some (if forward then if Num.le y y1 then Num.pinf else .ninf
                  else (if Num.le y y1 then Num.pinf else .ninf).neg))
              else Num.div (Num.sub y1 y) (Num.sub (.ofExt x1) (.ofExt x)) >>= fun q => pure (some q))) := by
    intro p r hp
    refine .bind' hp ?_
    intro x1 _
    cases x1 with
    | none => exact .pure' _
    | some x1 =>
      refine .bind' (h.y x1) ?_
      intro y1 _
      cases y1 with
      | none => exact .pure' _
      | some y1 =>
        refine .bind' (h.y x) ?_
        intro y _
        cases y with
        | none => exact .pure' _
        | some y =>
          simp only
          by_cases hx : x1 = x
          · rw [if_pos hx, if_pos hx]; exact .pure' _
          · rw [if_neg hx, if_neg hx]; exact .bind' (.lift _) fun _ _ => .pure' _
  cases forward
  · exact key _ _ ((hb rfl).prev _ _ _)
  · exact key _ _ (h.next _ _ _)

theorem Imitates.search (h : Imitates M I c) (decide : Option Num → Option Num → Decision) (minStep : Option Ext)
    (step : Option ℚ) (n : ℕ) (x prev : Option Ext) :
    Agrees I (M.search decide minStep step n x prev)
      (some (c.search decide (fun x f => c.dY x f) minStep step n x prev).1) := by
  induction n generalizing x prev with
  | zero => exact .pure' _
  | succ n ih =>
    cases x with
    | none => exact .lift _
    | some x =>
      unfold Machine.search Crv.search
      have hy := h.y x
      cases hc : c.y x with
      | error e => rw [hc] at hy; exact .bind_error hy
      | ok y =>
        rw [hc] at hy
        refine .bind_ok hy ?_
        cases y with
        | none => exact .pure' _
        | some y =>
          have h0 := h.toForwards.dY x false (fun _ => h) (some MIN_STEP) none
          simp only
          cases hd0 : c.dY x false with
          | error e => rw [hd0] at h0; exact .bind_error h0
          | ok d0 =>
            rw [hd0] at h0
            refine .bind_ok h0 ?_
            have h1 := h.toForwards.dY x true (fun _ => h) (some MIN_STEP) none
            simp only
            cases hd1 : c.dY x true with
            | error e => rw [hd1] at h1; exact .bind_error h1
            | ok d1 =>
              rw [hd1] at h1
              refine .bind_ok h1 ?_
              simp only
              cases decide d0 d1 with
              | stay => exact .pure' _
              | giveUp => exact .pure' _
              | move f =>
                simp only
                have hmv : Agrees I (M.moveOn minStep step f x) (some (c.moveOn minStep step f x)) := by
                  unfold Machine.moveOn Crv.moveOn
                  cases step <;> cases f
                  · exact h.prev _ _ _
                  · exact h.next _ _ _
                  · exact .pure' _
                  · exact .pure' _
                cases hm : c.moveOn minStep step f x with
                | error e => rw [hm] at hmv; exact .bind_error hmv
                | ok x1 => rw [hm] at hmv; exact .bind_ok hmv (ih _ _)

end Curvepy
