import Verif.Props.Observer

/-!
# Observers and updates: C65 (unsubscribing), C66 (registry changes from callbacks), C67 (pairing)
-/

namespace Curvepy
open Spec

namespace World

theorem step_old {w : World} (h : Ok w) (op : Op) (c t : ℕ) (ht : t ≤ w.ctr)
    (hm : t ∈ ((w.step op).1.reg c).order) : t ∈ (w.reg c).order := by
  have hkeep : ∀ p : ℕ → Bool, t ∈ ((w.reg c).keep p).order → t ∈ (w.reg c).order :=
    fun p hp => (List.mem_filter.1 hp).1
  cases op with
  | add c' a =>
    simp only [step] at hm
    rcases addObserver_cases w c' a with ⟨_, _, e⟩ | ⟨_, _, _, e⟩ | ⟨_, _, e⟩
    · rw [e] at hm; exact hm
    · rw [e] at hm; exact hm
    · rw [e] at hm
      by_cases hc : c = c'
      · subst hc
        simp only [setReg, if_true, Registry.register] at hm
        have hne : t ≠ w.ctr + 1 := by omega
        cases hp : a.prioritize <;> simpa [hp, hne] using hm
      · simpa [setReg, hc] using hm
  | removeToken c' t' =>
    simp only [step, removeToken_reg h] at hm; exact hkeep _ hm
  | removeObj c' o =>
    simp only [step, removeObj_reg h] at hm; exact hkeep _ hm
  | die o =>
    simp only [step, die_reg h] at hm; exact hkeep _ hm

theorem step_ctr (w : World) (op : Op) : w.ctr ≤ (w.step op).1.ctr := by
  cases op with
  | add c a =>
    simp only [step]
    rcases addObserver_cases w c a with ⟨_, _, e⟩ | ⟨_, _, _, e⟩ | ⟨_, _, e⟩ <;> rw [e] <;>
      simp [setReg]
  | removeToken c t => exact le_refl _
  | removeObj c o => simp only [step, removeObj]; split <;> exact le_refl _
  | die o => exact le_refl _

theorem run_ok {w : World} (h : Ok w) (ops : List Op) : Ok (w.run ops).1 := by
  induction ops generalizing w with
  | nil => exact h
  | cons a as ih => exact ih (ok_step h a)

/-- Nothing registers an old token anew. -/
theorem run_old {w : World} (h : Ok w) (ops : List Op) (c t : ℕ) (ht : t ≤ w.ctr)
    (hm : t ∈ ((w.run ops).1.reg c).order) : t ∈ (w.reg c).order := by
  induction ops generalizing w with
  | nil => exact hm
  | cons a as ih =>
    refine step_old h a c t ht (ih (ok_step h a) (le_trans ht (step_ctr w a)) hm)

theorem unsubscribeAll_reg {w : World} (h : Ok w) (ps : List (ℕ × ℕ)) (k : ℕ) :
    (w.unsubscribeAll ps).reg k = (w.reg k).keep (fun j => decide ((k, j) ∉ ps)) := by
  induction ps generalizing w with
  | nil => simpa [unsubscribeAll] using (Registry.keep_of_all (h.reg k) (by simp)).symm
  | cons p ps ih =>
    obtain ⟨c, t⟩ := p
    have hr := removeToken_reg h c t
    have h' : Ok (w.removeToken c t) := ok_keep h rfl _ hr
    rw [unsubscribeAll, ih h', hr k, Registry.keep_keep]
    congr 1; funext j
    by_cases h1 : k = c <;> by_cases h2 : j = t <;> simp [h1, h2]

theorem subscribeAll_spec {w : World} (h : Ok w) (cs : List ℕ) :
    Ok (w.subscribeAll cs).1 ∧ w.ctr ≤ (w.subscribeAll cs).1.ctr ∧
      (∀ t ∈ (w.subscribeAll cs).2, w.ctr < t ∧ t ≤ (w.subscribeAll cs).1.ctr) ∧
      (w.subscribeAll cs).2.length = cs.length ∧
      ∀ c t, t ∈ (w.subscribeAll cs).2 →
        t ∈ ((w.subscribeAll cs).1.reg c).order → (c, t) ∈ cs.zip (w.subscribeAll cs).2 := by
  induction cs generalizing w with
  | nil => simp [subscribeAll, h]
  | cons c cs ih =>
    rcases addObserver_cases w c { onBegin := some true, onEnd := some true, prioritize := true }
      with ⟨e, _⟩ | ⟨_, _, e, _⟩ | ⟨_, _, e⟩
    · cases e
    · cases e
    · have hok := ok_register h c ⟨none, false, Iv.infinite, some true, some true⟩ true
      have ih' := ih hok
      simp only [Option.getD_none] at e
      simp only [subscribeAll]
      rw [e]
      simp only
      generalize hw1 : (({ w with ctr := w.ctr + 1 } : World).setReg c
        ((w.reg c).register (w.ctr + 1) ⟨none, false, Iv.infinite, some true, some true⟩ true)) = w1
        at ih' hok
      have hctr : w1.ctr = w.ctr + 1 := by rw [← hw1]; rfl
      obtain ⟨i1, i2, i3, i4, i5⟩ := ih'
      refine ⟨i1, by omega, ?_, by simp [i4], ?_⟩
      · intro t ht
        rcases List.mem_cons.1 ht with ht | ht
        · omega
        · have := i3 t ht; omega
      · intro k t ht hm
        rw [List.zip_cons_cons]
        by_cases htn : t ∈ (w1.subscribeAll cs).2
        · exact List.mem_cons_of_mem _ (i5 k t htn hm)
        · rcases List.mem_cons.1 ht with ht | ht
          · subst ht
            -- the token is registered on `c` only
            have : ∀ (cs : List ℕ) (w : World), Ok w → ∀ k t, t ≤ w.ctr →
                t ∈ ((w.subscribeAll cs).1.reg k).order → t ∈ (w.reg k).order := by
              intro cs
              induction cs with
              | nil => intro w _ k t _ hm; exact hm
              | cons d cs ihc =>
                intro w hw k t hle hm
                simp only [subscribeAll] at hm
                rcases addObserver_cases w d
                  { onBegin := some true, onEnd := some true, prioritize := true }
                  with ⟨e, _⟩ | ⟨_, _, e, _⟩ | ⟨_, _, e⟩
                · cases e
                · cases e
                · rw [e] at hm
                  simp only at hm
                  have h1 := ihc _ (ok_register hw d _ true) k t
                    (by simp only [setReg]; omega) hm
                  have := step_old hw (.add d
                    { onBegin := some true, onEnd := some true, prioritize := true }) k t hle
                  simp only [step, e] at this
                  exact this h1
            have h1 := this cs w1 hok k _ (by omega) hm
            have h2 : w.ctr + 1 ∈ (w1.reg c).order := by
              rw [← hw1]; simp [setReg, Registry.register]
            have := hok.uniq _ _ _ h1 h2
            simp [this]
          · exact absurd ht htn

end World

namespace Props

/-! ## C65 -/

/-- **C65** (second half) Destroying a combined curve never removes a registration it did not make, in
whatever order the set of its sources was iterated and whatever happened in between. -/
theorem C65_no_others (ops ops' : List World.Op) (funcs uniq : List ℕ) :
    let s := (World.init.run ops).1.subscribeAll uniq
    let w := (s.1.run ops').1
    ∀ c t, t ∉ s.2 → ((w.destroy funcs s.2).reg c).data t = (w.reg c).data t := by
  intro s w c t ht
  have hs := World.subscribeAll_spec (World.ok_run ops) uniq
  have hw : w.Ok := World.run_ok hs.1 ops'
  clear_value w
  unfold World.destroy
  rw [World.unsubscribeAll_reg hw]
  have hn : (c, t) ∉ funcs.zip s.2 := fun h => ht (List.of_mem_zip h).2
  simp [Registry.keep, hn]

/-- **C65** (first half, partial) If the sources are distinct and the set happened to be iterated in the
order of `funcs`, all registrations of a destroyed combined curve are gone.  Missing: any other
iteration order, and repeated sources; there the claim is false, see `C65_negation`. -/
theorem C65_removed_partial (ops ops' : List World.Op) (funcs : List ℕ) :
    let s := (World.init.run ops).1.subscribeAll funcs
    let w := (s.1.run ops').1
    ∀ c, ∀ t ∈ s.2, ((w.destroy funcs s.2).reg c).data t = none := by
  intro s w c t ht
  have hs := World.subscribeAll_spec (World.ok_run ops) funcs
  have hw : w.Ok := World.run_ok hs.1 ops'
  unfold World.destroy
  rw [World.unsubscribeAll_reg hw]
  by_cases hm : t ∈ (w.reg c).order
  · have h1 := World.run_old hs.1 ops' c t (hs.2.2.1 t ht).2 hm
    have h2 : (c, t) ∈ funcs.zip s.2 := hs.2.2.2.2 c t ht h1
    simp [Registry.keep, h2]
  · rw [(hw.reg c).mem] at hm
    simp only [Bool.not_eq_true, Option.isSome_eq_false_iff, Option.isNone_iff_eq_none] at hm
    simp [Registry.keep, hm]

/-- Two sources that already have observers; the new registrations come and go. -/
example :
    let w := (World.init.run demoOps).1
    let s := w.subscribeAll [1, 0]
    s.2 = [6, 7] ∧ (s.1.reg 0).order = [7, 5, 3, 4] ∧
      ((s.1.destroy [1, 0] s.2).reg 0).order = (w.reg 0).order ∧
      ((s.1.destroy [1, 0] s.2).reg 1).order = (w.reg 1).order := by decide +kernel

/-- **C65 is false**: with the sources `[0, 1]` and the set iterated as `[1, 0]`, tokens and sources are
paired wrongly and both registrations survive; with a repeated source `[0, 0, 1]` iterated as
`[0, 1]`, the registration on 1 survives. -/
theorem C65_negation :
    (let s := World.init.subscribeAll [1, 0]
     [1, 0].Perm [0, 1].dedup ∧
     ((s.1.destroy [0, 1] s.2).reg 0).order = [2] ∧
     ((s.1.destroy [0, 1] s.2).reg 1).order = [1]) ∧
    (let s := World.init.subscribeAll [0, 1]
     [0, 1].Perm [0, 0, 1].dedup ∧ ((s.1.destroy [0, 0, 1] s.2).reg 1).order = [2]) := by
  decide +kernel

/-- **C65 is false** for extensions: they register without an object, before all observers, for the beginnings and ends of
updates, and unregister by object, so the registration stays, on every curve and after any history. -/
theorem C65_extension_negation (ops : List World.Op) (c self : ℕ) :
    let w := (World.init.run ops).1
    let s := w.subscribeExtension c
    ∃ t, s.2 = .ok t ∧ t ∉ (w.reg c).order ∧ (s.1.reg c).order = t :: (w.reg c).order ∧
      ((s.1.destroyExtension c self).reg c).order.head? = some t ∧
      ((s.1.destroyExtension c self).reg c).data t = some ⟨none, false, Iv.infinite, some true, some true⟩ := by
  intro w s
  have hw : w.Ok := World.ok_run ops
  have hr : w.Ok → s.1.Ok := fun h => by
    have := World.run_ok h [.add c { onBegin := some true, onEnd := some true, prioritize := true }]
    exact this
  have hs : s = ((({ w with ctr := w.ctr + 1 } : World).setReg c ((w.reg c).register (w.ctr + 1)
      ⟨none, false, Iv.infinite, some true, some true⟩ true)), .ok (w.ctr + 1)) := rfl
  have hreg : s.1.reg c = (w.reg c).register (w.ctr + 1) ⟨none, false, Iv.infinite, some true, some true⟩ true := by
    rw [hs]; simp [World.setReg]
  have hdata : (s.1.reg c).data (w.ctr + 1) = some ⟨none, false, Iv.infinite, some true, some true⟩ := by
    rw [hreg]; simp [Registry.register]
  have hnb : Registry.bound s.1.dead self (s.1.reg c) (w.ctr + 1) = false := by simp [Registry.bound, hdata]
  refine ⟨w.ctr + 1, rfl, fun h => ?_, by rw [hreg]; rfl, ?_, ?_⟩
  · have := (hw.le c _ h).2
    omega
  · unfold World.destroyExtension
    rw [World.removeObj_reg (hr hw)]
    have : (s.1.reg c).order = (w.ctr + 1) :: (w.reg c).order := by rw [hreg]; rfl
    simp only [Registry.keep, this, decide_true, Bool.true_and, List.filter_cons, hnb, Bool.not_false, if_true,
      List.head?_cons]
  · unfold World.destroyExtension
    rw [World.removeObj_reg (hr hw)]
    simp [Registry.keep, hnb, hdata]

example : let w := (World.init.run demoOps).1
    ((((w.subscribeExtension 0).1).destroyExtension 0 7).reg 0).order = [6, 5] := by decide +kernel

/-! ## C66 -/

/-- A callback that removes its own registration if `self t`, and does nothing otherwise. -/
def onlySelf (self : ℕ → Bool) (t : ℕ) (g : Registry) : Registry :=
  if self t then g.removeToken t else g

theorem endLoop_self {g : Registry} (h : g.Ok) (d : Iv) (self : ℕ → Bool) (ts : List ℕ)
    (hnd : ts.Nodup) (p : ℕ → Bool) (hp : ∀ t ∈ ts, t ∈ g.order ∧ p t = true) :
    ∃ g', Registry.endLoop d (onlySelf self) ts (g.keep p) =
      (g', Registry.expected (·.onEnd) g d ts, none) := by
  induction ts generalizing p with
  | nil => exact ⟨_, rfl⟩
  | cons t ts ih =>
    have hn := List.nodup_cons.1 hnd
    have ht := hp t (by simp)
    obtain ⟨o, ho⟩ := Option.isSome_iff_exists.1 ((h.mem t).1 ht.1)
    have hd : (g.keep p).data t = some o := by simp [Registry.keep, ht.2, ho]
    have ih0 := ih hn.2 p (fun k hk => hp k (by simp [hk]))
    have ih1 := ih hn.2 (fun k => p k && k != t) (fun k hk => by
      have := hp k (by simp [hk])
      have hne : k ≠ t := fun he => hn.1 (he ▸ hk)
      simp [this, hne])
    have hself : onlySelf self t (g.keep p) = g.keep p ∨
        onlySelf self t (g.keep p) = g.keep (fun k => p k && k != t) := by
      unfold onlySelf
      split
      · right; rw [Registry.removeToken_eq (Registry.ok_keep h p), Registry.keep_keep]
      · left; rfl
    unfold Registry.endLoop
    simp only [hd]
    unfold Registry.expected
    rw [List.filterMap_cons]
    simp only [ho]
    split
    · cases hw : o.onEnd with
      | none =>
        simp only [Option.map_none]
        exact ih0
      | some w =>
        simp only [Option.map_some]
        rcases hself with e | e
        · obtain ⟨g', hg⟩ := ih0
          rw [e, hg]; exact ⟨g', rfl⟩
        · obtain ⟨g', hg⟩ := ih1
          rw [e, hg]; exact ⟨g', rfl⟩
    · exact ih0

/-- **C66** (partial) Observers that unregister *themselves* in their *end* callback do not disturb an
announced end: everyone is called exactly as without that, and nothing is raised.  Missing:
begin callbacks, and removing other observers, where it is false (`C66_negation_begin`,
`C66_negation_end`). -/
theorem C66_end_partial (ops : List World.Op) (c : ℕ) (d : Iv) (self : ℕ → Bool)
    (calls : List Call) (hc : EndCalls ((World.init.run ops).1.reg c) d calls) :
    ∃ g', ((World.init.run ops).1.reg c).deliverEnd d (onlySelf self) = (g', calls, none) := by
  have hok := (World.ok_run ops).reg c
  rw [(endCalls_iff hok d calls).1 hc]
  have := endLoop_self hok d self _ hok.nodup (fun _ => true) (by simp)
  rwa [Registry.keep_of_all hok (by simp)] at this

example : (((World.init.run demoOps).1.reg 0).deliverEnd (Iv.closed 0 2)
    (onlySelf fun t => t == 5)).2 = ([⟨5, none⟩, ⟨3, some (Iv.closed 0 2)⟩], none) := by
  decide +kernel

/-- Two observers with both callbacks. -/
def twoObservers : Registry :=
  ((World.init.run [.add 0 { onBegin := some true, onEnd := some true },
    .add 0 { onBegin := some true, onEnd := some true }]).1.reg 0)

/-- **C66 is false** for begin: if the first observer unregisters itself in its begin callback, the
second never hears of the update. -/
theorem C66_negation_begin :
    (twoObservers.deliverBegin (Iv.closed 0 1) (fun _ r => r) 9).map (·.2) =
      some ([⟨1, some (Iv.closed 0 1)⟩, ⟨2, some (Iv.closed 0 1)⟩], none) ∧
    (twoObservers.deliverBegin (Iv.closed 0 1) (onlySelf fun t => t == 1) 9).map (·.2) =
      some ([⟨1, some (Iv.closed 0 1)⟩], none) := by decide +kernel

/-- **C66 is false** for end: if the first observer unregisters the second in its end callback,
`end_update` raises `KeyError`. -/
theorem C66_negation_end :
    (twoObservers.deliverEnd (Iv.closed 0 1)
      (fun t g => if t = 1 then g.removeToken 2 else g)).2 =
      ([⟨1, some (Iv.closed 0 1)⟩], some .key) := by decide +kernel

/-! ## C67 -/

/-- `begin_update(d)`, `end_update(d)` for each interval in turn. -/
def sequentialPairs (ds : List Iv) : List Gate.Act := ds.flatMap fun d => [.begin d, .finish d]

/-- **C67** (partial) If each update is over before the next begins, every update announces one begin and
one end, both with its own interval.  Missing: overlapping updates, where it is false
(`C67_negation`). -/
theorem C67_pairs_partial (ds : List Iv) (h : ∀ d ∈ ds, Spec.Inhabited d) :
    (Gate.init.run (sequentialPairs ds)).2 =
      ds.flatMap fun d => [(.begin d, some d), (.finish d, some d)] := by
  suffices hs : Gate.init.run (sequentialPairs ds) =
      (Gate.init, ds.flatMap fun d => [(.begin d, some d), (.finish d, some d)]) by rw [hs]
  induction ds with
  | nil => rfl
  | cons d ds ih =>
    have hd := (inhabited_iff d).1 (h d (by simp))
    have ih' := ih fun k hk => h k (by simp [hk])
    have hsup : Iv.empty.superset d = false := by
      rw [Bool.eq_false_iff]
      intro hs
      obtain ⟨x, hx⟩ := Iv.exists_mem d hd
      have := Iv.not_isEmpty_of_mem ((Iv.superset_iff _ _).1 hs x hx)
      rw [Iv.isEmpty_empty] at this; cases this
    have hb : Gate.init.act (.begin d) = (⟨d, Iv.empty⟩, some d) := by
      simp [Gate.act, Gate.begin, Gate.init, hd, hsup, Iv.union_empty_left hd]
    have he : (⟨d, Iv.empty⟩ : Gate).act (.finish d) = (Gate.init, some d) := by
      simp [Gate.act, Gate.finish, Gate.init, hd, hsup, Iv.union_empty_left hd, Iv.superset_refl]
    unfold sequentialPairs at ih' ⊢
    simp only [List.flatMap_cons, List.cons_append, List.nil_append, Gate.run, hb, he, ih']

example : ∀ d ∈ [Iv.closed 0 1, Iv.infinite, Iv.openClosed 1 2], Spec.Inhabited d := by
  intro d hd
  rw [inhabited_iff]
  revert d
  decide +kernel

/-- **C67 is false** for overlapping updates: of two nested updates of the same interval, one begin but two
ends are announced; the same happens if the outer one ends first. -/
theorem C67_negation :
    (Gate.init.run [.begin (Iv.closed 0 1), .begin (Iv.closed 0 1), .finish (Iv.closed 0 1),
      .finish (Iv.closed 0 1)]).2.map (·.2) =
      [some (Iv.closed 0 1), none, some (Iv.closed 0 1), some (Iv.closed 0 1)] ∧
    (Gate.init.run [.begin (Iv.closed 0 3), .begin (Iv.closed 1 2), .finish (Iv.closed 0 3),
      .finish (Iv.closed 1 2)]).2.map (·.2) =
      [some (Iv.closed 0 3), none, some (Iv.closed 0 3), some (Iv.closed 1 2)] := by
  decide +kernel

end Props
end Curvepy
