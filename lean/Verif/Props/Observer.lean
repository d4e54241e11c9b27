import Verif.Lemmas.Observer

/-!
# Observers and updates: C17-C22, C65-C67
-/

namespace Curvepy.Props
open Spec

/-- A process with two curves (0 and 1) and five registrations, one of them removed. -/
def demoOps : List World.Op :=
  [.add 0 { onBegin := some true, onEnd := some true },
   .add 1 { onBegin := some false, prioritize := true, domain := some (Iv.closed 0 1) },
   .add 0 { onEnd := some true, obj := some 7, prioritize := true },
   .add 0 { },
   .add 0 { onBegin := some false, obj := some 7, autoremove := true,
            domain := some (Iv.closed 5 6) },
   .removeToken 0 1,
   .add 0 { onBegin := some true, onEnd := some false, prioritize := true }]

/-! ## C17 -/

/-- **C17** A token returned for a registration has never been returned before, by any curve. -/
theorem C17_tokens_unique (ops : List World.Op) : (tokens (World.init.run ops).2).Nodup := by
  induction ops using List.reverseRecOn with
  | nil => simp [World.run, tokens]
  | append_singleton as a ih =>
    have hle := World.tokens_le as
    rw [World.run_snoc]
    rw [World.tokens_append]
    revert ih hle
    generalize (World.init.run as).1 = w
    generalize (World.init.run as).2 = log
    intro ih hle
    cases a with
    | add c a =>
      simp only [World.step]
      rcases World.addObserver_cases w c a with ⟨_, _, e⟩ | ⟨_, _, _, e⟩ | ⟨_, _, e⟩
      · rw [e]; simpa [tokens] using ih
      · rw [e]; simpa [tokens] using ih
      · rw [e]
        simp only [tokens, Nat.add_eq_zero_iff, one_ne_zero, and_false, if_false]
        rw [List.nodup_append]
        refine ⟨ih, by simp, ?_⟩
        intro x hx y hy
        rw [List.mem_singleton] at hy
        have := (hle x hx).2
        omega
    | removeToken c t => simpa [World.step, tokens] using ih
    | removeObj c o => simpa [World.step, tokens] using ih
    | die o => simpa [World.step, tokens] using ih

/-- **C17** Without a callback `add_observer` returns 0 and registers nothing; with one it
returns a token other than 0 under which exactly the given observer is registered on exactly that
curve (or refuses an autoremoved observer without an object and registers nothing). -/
theorem C17_add (ops : List World.Op) (c : ℕ) (a : World.AddArgs) :
    let w := (World.init.run ops).1
    (a.onBegin = none ∧ a.onEnd = none → w.addObserver c a = (w, .ok 0)) ∧
    (¬(a.onBegin = none ∧ a.onEnd = none) →
      (a.obj = none ∧ a.autoremove = true →
        (w.addObserver c a).2 = .error .exception ∧ (w.addObserver c a).1.reg = w.reg) ∧
      (¬(a.obj = none ∧ a.autoremove = true) →
        ∃ t, (w.addObserver c a).2 = .ok t ∧ t ≠ 0 ∧ (∀ k, (w.reg k).data t = none) ∧
          ∀ k j, ((w.addObserver c a).1.reg k).data j =
            if k = c ∧ j = t then
              some ⟨a.obj, a.autoremove, a.domain.getD Iv.infinite, a.onBegin, a.onEnd⟩
            else (w.reg k).data j)) := by
  intro w
  have hok : w.Ok := World.ok_run ops
  clear_value w
  have hfresh : ∀ k, (w.reg k).data (w.ctr + 1) = none := by
    intro k
    by_contra hne
    have hs : ((w.reg k).data (w.ctr + 1)).isSome = true := by
      rw [Option.isSome_iff_ne_none]; exact hne
    have := (hok.le k _ (((hok.reg k).mem _).2 hs)).2
    omega
  rcases World.addObserver_cases w c a with ⟨h1, h2, e⟩ | ⟨h1, h2, h3, e⟩ | ⟨h1, h2, e⟩
  · exact ⟨fun _ => e, fun h => absurd ⟨h1, h2⟩ h⟩
  · refine ⟨fun h => absurd h h1, fun _ => ⟨fun _ => ?_, fun h => absurd ⟨h2, h3⟩ h⟩⟩
    rw [e]; exact ⟨rfl, rfl⟩
  · refine ⟨fun h => absurd h h1, fun _ => ⟨fun h => absurd h h2, fun _ => ?_⟩⟩
    refine ⟨w.ctr + 1, by rw [e], by omega, hfresh, ?_⟩
    intro k j
    rw [e]
    by_cases hk : k = c
    · subst hk
      by_cases hj : j = w.ctr + 1 <;> simp [World.setReg, Registry.register, hj]
    · simp [World.setReg, hk]

/-- **C17** The live registrations of a curve are served in registration order, except that
prioritised ones come before all earlier ones. -/
theorem C17_order (ops : List World.Op) (c : ℕ) :
    let r := World.init.run ops
    (r.1.reg c).order =
      (serviceOrder (registrations c r.2)).filter fun t => ((r.1.reg c).data t).isSome := by
  induction ops using List.reverseRecOn with
  | nil => rfl
  | append_singleton as a ih =>
    have hok := World.ok_run as
    have hle := World.tokens_le as
    have hreg := World.registrations_tokens c (World.init.run as).2
    rw [World.run_snoc]
    simp only at ih ⊢
    revert ih hok hle hreg
    generalize (World.init.run as).1 = w
    generalize (World.init.run as).2 = log
    intro ih hok hle hreg
    rw [World.registrations_append]
    have removal : ∀ (p : ℕ → Bool) (w' : World), w'.reg c = (w.reg c).keep p →
        (w'.reg c).order = (serviceOrder (registrations c log)).filter
          fun t => ((w'.reg c).data t).isSome := by
      intro p w' hw
      rw [hw]
      show ((w.reg c).order).filter p = _
      rw [ih, List.filter_filter]
      refine List.filter_congr fun t _ => ?_
      by_cases hp : p t = true <;> simp [Registry.keep, hp]
    cases a with
    | removeToken c' t =>
      simp only [World.step, registrations, List.append_nil]
      exact removal _ _ (World.removeToken_reg hok c' t c)
    | removeObj c' o =>
      simp only [World.step, registrations, List.append_nil]
      exact removal _ _ (World.removeObj_reg hok c' o c)
    | die o =>
      simp only [World.step, registrations, List.append_nil]
      exact removal _ _ (World.die_reg hok o c)
    | add c' a =>
      simp only [World.step]
      rcases World.addObserver_cases w c' a with ⟨_, _, e⟩ | ⟨_, _, _, e⟩ | ⟨_, _, e⟩
      · rw [e]; simpa [registrations] using ih
      · rw [e]; simpa [registrations] using ih
      · rw [e]
        by_cases hc : c = c'
        · subst hc
          have hne : ∀ t ∈ serviceOrder (registrations c log), t ≠ w.ctr + 1 := by
            intro t ht
            obtain ⟨b, hb⟩ := (World.mem_serviceOrder _ t).1 ht
            have := (hle t (hreg _ hb)).2
            omega
          have hold : ((serviceOrder (registrations c log)).filter fun t =>
              ((if t = w.ctr + 1 then some (⟨a.obj, a.autoremove, a.domain.getD Iv.infinite,
                a.onBegin, a.onEnd⟩ : Obs) else (w.reg c).data t)).isSome) = (w.reg c).order := by
            rw [ih]
            refine List.filter_congr fun t ht => ?_
            rw [if_neg (hne t ht)]
          cases hp : a.prioritize with
          | true =>
            simp only [World.setReg, if_true, Registry.register, hp, registrations, true_and, ne_eq,
              Nat.add_eq_zero_iff, one_ne_zero, and_false, not_false_eq_true]
            rw [World.serviceOrder_true, List.filter_cons, if_pos (by simp), hold]
          | false =>
            simp only [World.setReg, if_true, Registry.register, hp, registrations, true_and, ne_eq,
              Nat.add_eq_zero_iff, one_ne_zero, and_false, not_false_eq_true, Bool.false_eq_true,
              if_false]
            rw [World.serviceOrder_false, List.filter_append, hold]
            simp
        · have hc' : ¬(c' = c) := fun h => hc h.symm
          simp only [World.setReg, if_neg hc, registrations, hc', false_and, if_false,
            List.append_nil]
          exact ih

/-- Registrations 3 and 5 (prioritised), then 4; registration 1 was removed. -/
example : ((World.init.run demoOps).1.reg 0).order = [5, 3, 4] ∧
    tokens (World.init.run demoOps).2 = [1, 2, 3, 4, 5] := by decide +kernel

/-! ## C19 -/

theorem beginCalls_iff {g : Registry} (h : g.Ok) (d : Iv) (calls : List Call) :
    BeginCalls g d calls ↔ calls = Registry.expected (·.onBegin) g d g.order := by
  have hm : ∀ t ∈ g.order, (g.data t).isSome = true := fun t ht => (h.mem t).1 ht
  have key := Registry.beginLoop_id d hm 0
  constructor
  · rintro ⟨fuel, hf⟩
    have h1 := Registry.beginLoop_mono' d _ (Nat.le_add_right fuel (g.order.length + 1)) g 0 _ hf
    rw [key _ (by omega)] at h1
    simp only [Option.some.injEq, Prod.mk.injEq, List.drop_zero] at h1
    exact h1.2.1.symm
  · rintro rfl
    exact ⟨g.order.length + 1, by rw [Registry.deliverBegin, key _ (by omega), List.drop_zero]⟩

theorem endCalls_iff {g : Registry} (h : g.Ok) (d : Iv) (calls : List Call) :
    EndCalls g d calls ↔ calls = Registry.expected (·.onEnd) g d g.order := by
  unfold EndCalls Registry.deliverEnd
  rw [Registry.endLoop_id d g.order fun t ht => (h.mem t).1 ht]
  simp [eq_comm]

/-- **C19** An announced begin calls each observer whose domain meets the interval exactly once, with
the interval if the callback takes it, and no other; in service order; and nothing else happens
to the registry. -/
theorem C19_begin (ops : List World.Op) (c : ℕ) (d : Iv) :
    let g := (World.init.run ops).1.reg c
    ∃ calls, BeginCalls g d calls ∧ (∀ calls', BeginCalls g d calls' → calls' = calls) ∧
      (∀ k, k ∈ calls ↔ Wanted (·.onBegin) g d k) ∧ (calls.map (·.token)).Nodup ∧
      (calls.map (·.token)).Sublist
        (serviceOrder (registrations c (World.init.run ops).2)) := by
  intro g
  have hok := (World.ok_run ops).reg c
  refine ⟨_, (beginCalls_iff hok d _).2 rfl, fun _ h => (beginCalls_iff hok d _).1 h, ?_, ?_, ?_⟩
  · intro k
    rw [Registry.mem_expected]
    refine ⟨fun h => h.2, fun h => ⟨?_, h⟩⟩
    obtain ⟨o, w, ho, _⟩ := h
    exact (hok.mem _).2 (by rw [ho]; rfl)
  · exact (Registry.expected_tokens _ _ _ _).nodup hok.nodup
  · refine (Registry.expected_tokens _ _ _ _).trans ?_
    have := C17_order ops c
    simp only at this
    rw [this]
    exact List.filter_sublist

/-- **C19** The same for an announced end. -/
theorem C19_end (ops : List World.Op) (c : ℕ) (d : Iv) :
    let g := (World.init.run ops).1.reg c
    ∃ calls, EndCalls g d calls ∧ (∀ calls', EndCalls g d calls' → calls' = calls) ∧
      (∀ k, k ∈ calls ↔ Wanted (·.onEnd) g d k) ∧ (calls.map (·.token)).Nodup ∧
      (calls.map (·.token)).Sublist
        (serviceOrder (registrations c (World.init.run ops).2)) := by
  intro g
  have hok := (World.ok_run ops).reg c
  refine ⟨_, (endCalls_iff hok d _).2 rfl, fun _ h => (endCalls_iff hok d _).1 h, ?_, ?_, ?_⟩
  · intro k
    rw [Registry.mem_expected]
    refine ⟨fun h => h.2, fun h => ⟨?_, h⟩⟩
    obtain ⟨o, w, ho, _⟩ := h
    exact (hok.mem _).2 (by rw [ho]; rfl)
  · exact (Registry.expected_tokens _ _ _ _).nodup hok.nodup
  · refine (Registry.expected_tokens _ _ _ _).trans ?_
    have := C17_order ops c
    simp only at this
    rw [this]
    exact List.filter_sublist

/-- A begin on [0, 2] of curve 0: registration 5 is called with the interval, 3 has no begin
callback, 4 watches [5, 6] only. -/
example : (((World.init.run demoOps).1.reg 0).deliverBegin (Iv.closed 0 2) (fun _ r => r) 9).map
    (·.2) = some ([⟨5, some (Iv.closed 0 2)⟩], none) := by decide +kernel
example : (((World.init.run demoOps).1.reg 0).deliverBegin (Iv.closed 0 5) (fun _ r => r) 9).map
    (·.2) = some ([⟨5, some (Iv.closed 0 5)⟩, ⟨4, none⟩], none) := by decide +kernel
example : (((World.init.run demoOps).1.reg 0).deliverEnd (Iv.closed 0 2) (fun _ r => r)).2 =
    ([⟨5, none⟩, ⟨3, some (Iv.closed 0 2)⟩], none) := by decide +kernel

/-! ## C18 -/

theorem beginCalls_keep {g : Registry} (h : g.Ok) (p : ℕ → Bool) {d : Iv} {calls : List Call}
    (hc : BeginCalls g d calls) : BeginCalls (g.keep p) d (calls.filter fun k => p k.token) := by
  rw [beginCalls_iff (Registry.ok_keep h p), Registry.expected_keep, (beginCalls_iff h d calls).1 hc]

theorem endCalls_keep {g : Registry} (h : g.Ok) (p : ℕ → Bool) {d : Iv} {calls : List Call}
    (hc : EndCalls g d calls) : EndCalls (g.keep p) d (calls.filter fun k => p k.token) := by
  rw [endCalls_iff (Registry.ok_keep h p), Registry.expected_keep, (endCalls_iff h d calls).1 hc]

/-- **C18** After `c.remove_observer(token)` every announcement on every curve makes the same callbacks
as before, in the same order, except those of that registration of `c`; unknown tokens change
nothing; repeating it changes nothing. -/
theorem C18_token (ops : List World.Op) (c t : ℕ) :
    let w := (World.init.run ops).1
    let w' := w.removeToken c t
    (∀ k d calls, BeginCalls (w.reg k) d calls →
      BeginCalls (w'.reg k) d (calls.filter fun x => !(decide (k = c) && x.token == t))) ∧
    (∀ k d calls, EndCalls (w.reg k) d calls →
      EndCalls (w'.reg k) d (calls.filter fun x => !(decide (k = c) && x.token == t))) ∧
    (w'.reg c).data t = none ∧
    ((w.reg c).data t = none → ∀ k, w'.reg k = w.reg k) ∧
    ∀ k, (w'.removeToken c t).reg k = w'.reg k := by
  intro w w'
  have hok := World.ok_run ops
  have hr := World.removeToken_reg hok c t
  have hok' : World.Ok w' := World.ok_keep hok rfl _ hr
  refine ⟨?_, ?_, ?_, ?_, ?_⟩
  · intro k d calls h
    show BeginCalls ((w.removeToken c t).reg k) d _
    rw [hr k]; exact beginCalls_keep (hok.reg k) _ h
  · intro k d calls h
    show EndCalls ((w.removeToken c t).reg k) d _
    rw [hr k]; exact endCalls_keep (hok.reg k) _ h
  · show ((w.removeToken c t).reg c).data t = none
    rw [hr c]; simp [Registry.keep]
  · intro hn k
    show (w.removeToken c t).reg k = w.reg k
    rw [hr k]
    refine Registry.keep_of_all (hok.reg k) fun j hj => ?_
    by_cases hk : k = c
    · subst hk
      have : j ≠ t := by
        rintro rfl
        have := ((hok.reg k).mem j).1 hj
        rw [hn] at this; cases this
      simp [this]
    · simp [hk]
  · intro k
    rw [World.removeToken_reg hok' c t k]
    refine Registry.keep_of_all (hok'.reg k) fun j hj => ?_
    have : j ∈ ((w.removeToken c t).reg k).order := hj
    rw [hr k] at this
    exact (List.mem_filter.1 this).2

/-- Registration `t` on curve `k` was made for object `o` or for one that has died. -/
def BoundTo (w : World) (o k t : ℕ) : Prop :=
  ∃ ob j, (w.reg k).data t = some ob ∧ ob.obj = some j ∧ (w.dead j = true ∨ j = o)

theorem bound_iff (w : World) (o k t : ℕ) :
    Registry.bound w.dead o (w.reg k) t = true ↔ BoundTo w o k t := by
  unfold Registry.bound BoundTo
  cases hd : (w.reg k).data t with
  | none => simp
  | some ob =>
    cases ho : ob.obj with
    | none => simp [ho]
    | some j => simp [ho]

open Classical in
/-- **C18** `c.remove_observer(obj)` removes exactly the registrations made on `c` for `obj`, and those
whose object died; it does not raise. -/
theorem C18_object (ops : List World.Op) (c o : ℕ) :
    let w := (World.init.run ops).1
    let w' := (w.removeObj c o).1
    (w.removeObj c o).2 = none ∧
    (∀ k d calls, BeginCalls (w.reg k) d calls →
      BeginCalls (w'.reg k) d (calls.filter fun x => !decide (k = c ∧ BoundTo w o k x.token))) ∧
    (∀ k d calls, EndCalls (w.reg k) d calls →
      EndCalls (w'.reg k) d (calls.filter fun x => !decide (k = c ∧ BoundTo w o k x.token))) ∧
    ∀ k t, (w'.reg k).data t = if k = c ∧ BoundTo w o k t then none else (w.reg k).data t := by
  intro w w'
  have hok : w.Ok := World.ok_run ops
  clear_value w
  have hr := World.removeObj_reg hok c o
  have hb : ∀ k t, (!(decide (k = c) && Registry.bound w.dead o (w.reg k) t)) =
      !decide (k = c ∧ BoundTo w o k t) := by
    intro k t
    have := bound_iff w o k t
    by_cases h1 : k = c <;> by_cases h2 : BoundTo w o k t <;> simp_all
  refine ⟨World.removeObj_ok hok c o, ?_, ?_, ?_⟩
  · intro k d calls h
    show BeginCalls ((w.removeObj c o).1.reg k) d _
    rw [hr k]
    have := beginCalls_keep (hok.reg k)
      (fun j => !(decide (k = c) && Registry.bound w.dead o (w.reg k) j)) h
    simpa only [hb] using this
  · intro k d calls h
    show EndCalls ((w.removeObj c o).1.reg k) d _
    rw [hr k]
    have := endCalls_keep (hok.reg k)
      (fun j => !(decide (k = c) && Registry.bound w.dead o (w.reg k) j)) h
    simpa only [hb] using this
  · intro k t
    show ((w.removeObj c o).1.reg k).data t = _
    rw [hr k]
    simp only [Registry.keep]
    show (if (!(decide (k = c) && Registry.bound w.dead o (w.reg k) t)) = true then _ else _) = _
    rw [hb k t]
    by_cases h : k = c ∧ BoundTo w o k t <;> simp [h]

/-- **C18** When an object dies, exactly the autoremoved registrations made for it disappear, from every
curve. -/
theorem C18_death (ops : List World.Op) (o : ℕ) :
    let w := (World.init.run ops).1
    ∀ k t, ((w.die o).reg k).data t =
      match (w.reg k).data t with
      | some ob => if ob.auto = true ∧ ob.obj = some o then none else some ob
      | none => none := by
  intro w k t
  have hok : w.Ok := World.ok_run ops
  clear_value w
  rw [World.die_reg hok o k]
  simp only [Registry.keep, World.autoTokens, List.mem_filter]
  show (if _ then (w.reg k).data t else none) = _
  cases hd : (w.reg k).data t with
  | none => simp
  | some ob =>
    have hm : t ∈ (w.reg k).order := ((hok.reg k).mem t).2 (by rw [hd]; rfl)
    simp only [hm, true_and]
    by_cases h : ob.auto = true ∧ ob.obj = some o
    · simp [h.1, h.2]
    · have h' : (ob.auto && ob.obj == some o) = false := by
        rw [Bool.eq_false_iff]; intro hc; apply h; simpa using hc
      rw [if_neg h]; simp [h']

/-- **C18** The objects counted as dead by `remove_observer(obj)` (see `BoundTo`) are exactly those
that died. -/
theorem C18_dead (ops : List World.Op) (o : ℕ) :
    (World.init.run ops).1.dead o = true ↔ .die o ∈ ops := by
  induction ops using List.reverseRecOn with
  | nil => simp [World.run, World.init]
  | append_singleton as a ih =>
    rw [World.run_snoc, List.mem_append, ← ih, List.mem_singleton]
    generalize (World.init.run as).1 = w
    cases a with
    | add c a =>
      have : (w.addObserver c a).1.dead = w.dead := by
        unfold World.addObserver
        split
        · rfl
        · dsimp only
          split <;> rfl
      simp [World.step, this]
    | removeToken c t => simp [World.step, World.removeToken, World.setReg]
    | removeObj c k =>
      have : (w.removeObj c k).1.dead = w.dead := by
        unfold World.removeObj
        split <;> rfl
      simp [World.step, this]
    | die k =>
      simp only [World.step, World.die, World.Op.die.injEq]
      by_cases h : o = k <;> simp [h]

example : (World.init.run (demoOps ++ [.die 9])).1.dead 9 = true ∧
    (World.init.run (demoOps ++ [.die 9])).1.dead 7 = false := by decide +kernel

/-- Removing registration 3 by its token, by its object, and by an unknown token. -/
example : (((World.init.run demoOps).1.removeToken 0 3).reg 0).order = [5, 4] ∧
    (((World.init.run demoOps).1.removeObj 0 7).1.reg 0).order = [5] ∧
    (((World.init.run demoOps).1.die 7).reg 0).order = [5, 3] ∧
    (((World.init.run demoOps).1.removeToken 0 2).reg 0).order = [5, 3, 4] := by decide +kernel

/-! ## C20 -/

/-- **C20** After any calls, `end_update(d)` announces an end iff `d` is not empty and whatever covers the
intervals ended since the last announced end (including `d`) covers all those begun; the end is
announced with the hull of the ended ones, covers everything begun, and leaves the curve not
updating. -/
theorem C20_end (as : List Gate.Act) (d : Iv) :
    let g := (Gate.init.run as).1
    let P := pending (Gate.init.run as).2
    (((g.finish d).2.isSome = true) ↔
      Spec.Inhabited d ∧
        ∀ c, (∀ i ∈ ended P ++ [d], Covers c i) → ∀ b ∈ begun P, Covers c b) ∧
    (∀ e, (g.finish d).2 = some e →
      IsHull (ended P ++ [d]) e ∧ (∀ b ∈ begun P, Covers e b) ∧
        (g.finish d).1.isUpdating = false) := by
  intro g P
  have h : Gate.Inv g P := Gate.inv_run as
  have hu := isHull_snoc h.e d
  have key : (g.finish d).2 =
      if d.isEmpty = false ∧ (Iv.union g.eIv d).superset g.bIv = true ∧ g.eIv.superset d = false
      then some (Iv.union g.eIv d) else none := by
    unfold Gate.finish
    by_cases h1 : d.isEmpty = true
    · simp [h1]
    · by_cases h2 : g.eIv.superset d = true
      · simp [h2]
      · by_cases h3 : (Iv.union g.eIv d).superset g.bIv = true <;> simp [h1, h2, h3]
  -- an end covered by what was ended already never completes an update
  have late : d.isEmpty = false → g.eIv.superset d = true →
      (Iv.union g.eIv d).superset g.bIv = false := by
    intro h1 h2
    have hne : g.eIv.isEmpty = false := by
      obtain ⟨x, hx⟩ := Iv.exists_mem d h1
      exact Iv.not_isEmpty_of_mem ((Iv.superset_iff _ _).1 h2 x hx)
    have hb : g.bIv.isEmpty = false := by
      by_contra hb
      rw [Bool.not_eq_false] at hb
      rw [h.idle hb] at hne; cases hne
    have hbusy := h.busy hb
    rw [Bool.eq_false_iff] at hbusy ⊢
    intro hs
    exact hbusy (Iv.superset_trans (Iv.union_least (Iv.superset_refl _) h2) hs)
  constructor
  · rw [key, inhabited_iff]
    constructor
    · intro hs
      split at hs
      · rename_i hc
        refine ⟨hc.1, fun c hcov b hb => ?_⟩
        have h1 : Covers c (Iv.union g.eIv d) := hu.covers_iff.2 hcov
        exact (h1.trans ((covers_iff _ _).2 hc.2.1)).trans (h.b.1 b hb)
      · cases hs
    · rintro ⟨h1, h2⟩
      have h3 : (Iv.union g.eIv d).superset g.bIv = true := by
        rw [← covers_iff, h.b.covers_iff]
        exact h2 _ hu.1
      have h4 : g.eIv.superset d = false := by
        rw [Bool.eq_false_iff]
        intro h4
        rw [late h1 h4] at h3; cases h3
      rw [if_pos ⟨h1, h3, h4⟩]; rfl
  · intro e he
    rw [key] at he
    split at he
    · rename_i hc
      cases he
      refine ⟨hu, fun b hb => ((covers_iff _ _).2 hc.2.1).trans (h.b.1 b hb), ?_⟩
      unfold Gate.finish
      simp [hc.1, hc.2.1, hc.2.2, Gate.isUpdating, Iv.isEmpty_empty]
    · cases he

/-- **C20** `begin_update(d)` announces exactly `d`, unless `d` is empty or already covered by the hull of
what was begun since the last announced end. -/
theorem C20_begin (as : List Gate.Act) (d : Iv) :
    let g := (Gate.init.run as).1
    let P := pending (Gate.init.run as).2
    ∀ i, (g.begin d).2 = some i ↔
      i = d ∧ Spec.Inhabited d ∧ ∃ c, (∀ b ∈ begun P, Covers c b) ∧ ¬ Covers c d := by
  intro g P i
  have h : Gate.Inv g P := Gate.inv_run as
  have hcov : (∃ c, (∀ b ∈ begun P, Covers c b) ∧ ¬ Covers c d) ↔ g.bIv.superset d = false := by
    rw [Bool.eq_false_iff, ne_eq, ← covers_iff]
    constructor
    · rintro ⟨c, hc, hn⟩ hs
      exact hn ((h.b.2 c hc).trans hs)
    · intro hn
      exact ⟨g.bIv, h.b.1, hn⟩
  rw [hcov, inhabited_iff]
  unfold Gate.begin
  by_cases h1 : d.isEmpty = true <;> by_cases h2 : g.bIv.superset d = true <;>
    simp [h1, h2, eq_comm]

/-- **C20** The curve is updating iff something was begun since the last announced end. -/
theorem C20_updating (as : List Gate.Act) :
    (Gate.init.run as).1.isUpdating = true ↔
      ∃ b ∈ begun (pending (Gate.init.run as).2), Spec.Inhabited b := by
  have h := Gate.inv_run as
  unfold Gate.isUpdating
  rw [Bool.not_eq_true', ← inhabited_iff]
  constructor
  · intro hin
    by_contra hn
    push Not at hn
    have : Covers Iv.empty (Gate.init.run as).1.bIv := by
      refine h.b.2 _ fun b hb x hx => ?_
      exact absurd ⟨x, hx⟩ (hn b hb)
    obtain ⟨x, hx⟩ := hin
    have := Iv.not_isEmpty_of_mem (this x hx)
    rw [Iv.isEmpty_empty] at this; cases this
  · rintro ⟨b, hb, x, hx⟩
    exact ⟨x, h.b.1 b hb x hx⟩

/-- Two overlapping edits: the end comes only when both are over, with the hull. -/
example : (Gate.init.run [.begin (Iv.closed 0 1), .begin (Iv.closed 3 4), .begin (Iv.closed 1 2),
      .finish (Iv.closed 0 1), .finish (Iv.closed 3 4)]).2.map (·.2) =
    [some (Iv.closed 0 1), some (Iv.closed 3 4), none, none, some (Iv.closed 0 4)] := by
  decide +kernel

/-! ## C21 -/

/-- **C21** If every `begin_update(I)` is followed by an `end_update(I)`, in any interleaving, the curve is not
updating in the end. -/
theorem C21_quiescent (as : List Gate.Act)
    (hm : ∀ pre I post, as = pre ++ .begin I :: post → .finish I ∈ post) :
    (Gate.init.run as).1.isUpdating = false := by
  have h := Gate.inv_run as
  obtain ⟨pre, hp⟩ := Gate.pending_suffix (Gate.init.run as).2
  rw [Gate.run_log_fst] at hp
  by_contra hc
  have hb : (Gate.init.run as).1.bIv.isEmpty = false := by
    simpa [Gate.isUpdating] using hc
  have hbusy := h.busy hb
  rw [Bool.eq_false_iff, ne_eq, ← covers_iff] at hbusy
  apply hbusy
  rw [h.b.covers_iff]
  intro b hb
  refine h.e.1 b (mem_ended.2 ?_)
  obtain ⟨s, t, hst⟩ := List.append_of_mem (mem_begun.1 hb)
  have hmem := hm (pre ++ s) b t (by rw [hp, hst]; simp)
  rw [hst]
  simp [hmem]

/-- Two overlapping pairs, closed in the order they were opened. -/
example : ∀ pre I post,
    [Gate.Act.begin (Iv.closed 0 2), .begin (Iv.closed 1 3), .finish (Iv.closed 0 2),
      .finish (Iv.closed 1 3)] = pre ++ .begin I :: post → Gate.Act.finish I ∈ post := by
  intro pre I post h
  rcases pre with _ | ⟨a, _ | ⟨b, _ | ⟨c, _ | ⟨e, pre⟩⟩⟩⟩ <;> simp at h
  · obtain ⟨rfl, rfl⟩ := h; simp
  · obtain ⟨_, rfl, rfl⟩ := h; simp

/-! ## C22 -/

/-- Data is assigned only while an update is in progress (as `Points` does,
`points.py:79-85`, `94-109`, `169-175`). -/
def Disciplined {D : Type} (getDomain : D → Iv) : Cell D → List (Cell.Act D) → Prop
  | _, [] => True
  | c, a :: as =>
    (match a with
      | .change _ => c.gate.isUpdating = true
      | _ => True) ∧ Disciplined getDomain (c.act getDomain a) as

/-- **C22** Whenever a curve is not updating, the domain it reports is the one of its current data, however
domain reads, updates and data changes were interleaved. -/
theorem C22_domain_fresh {D : Type} (getDomain : D → Iv) (v : D) (as : List (Cell.Act D))
    (hd : Disciplined getDomain (Cell.init v) as) :
    let c := (Cell.init v).run getDomain as
    c.gate.isUpdating = false → c.domain getDomain = getDomain c.data := by
  have main : ∀ (as : List (Cell.Act D)) (c : Cell D), Cell.Fresh getDomain c →
      Disciplined getDomain c as → Cell.Fresh getDomain (c.run getDomain as) := by
    intro as
    induction as with
    | nil => intro c h _; exact h
    | cons a as ih =>
      intro c h hdis
      refine ih _ ?_ hdis.2
      cases a with
      | read =>
        intro hu
        right
        have := h hu
        simp only [Cell.act, Cell.domain]
        rcases this with h1 | h1 <;> simp [h1]
      | begin d =>
        intro hu
        refine h ?_
        simp only [Cell.act, Gate.isUpdating, Gate.begin] at hu ⊢
        split at hu
        · exact hu
        · rename_i hc
          simp only [Bool.not_eq_false'] at hu
          rw [Iv.union_isEmpty] at hu
          simp_all
      | finish d =>
        intro hu
        rcases hfin : c.gate.finish d with ⟨g, o⟩
        simp only [Cell.act, hfin] at hu ⊢
        cases o with
        | some e => left; rfl
        | none =>
          refine h ?_
          simp only at hu
          unfold Gate.finish at hfin
          split at hfin
          · cases hfin; exact hu
          · simp only at hfin
            split at hfin
            · cases hfin; exact hu
            · cases hfin
      | change v =>
        intro hu
        exact absurd hdis.1 (by simpa [Cell.act] using hu)
  intro c hu
  have hf := main as (Cell.init v) (fun _ => Or.inl rfl) hd hu
  show c.cache.getD _ = _
  rcases hf with h | h
  · rw [show c.cache = none from h]; rfl
  · rw [show c.cache = some _ from h]; rfl

/-- The domain is read before and during an update and is fresh afterwards. -/
example : Disciplined (fun n : ℕ => Iv.closed 0 n) (Cell.init 1)
      [.read, .begin (Iv.closed 1 2), .read, .change 2, .read, .finish (Iv.closed 1 2)] ∧
    ((Cell.init 1).run (fun n : ℕ => Iv.closed 0 n)
      [.read, .begin (Iv.closed 1 2), .read, .change 2, .read, .finish (Iv.closed 1 2)]).domain
        (fun n : ℕ => Iv.closed 0 n) = Iv.closed 0 2 := by
  refine ⟨?_, by decide +kernel⟩
  simp only [Disciplined]
  decide +kernel

end Curvepy.Props
