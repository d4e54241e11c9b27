import Verif.Lemmas.Interval
import Verif.Spec.Update
import Mathlib.Data.List.Induction

/-! Lemmas about pending updates and observer registries. -/

namespace Curvepy
open Spec

theorem covers_iff (a b : Iv) : Covers a b ↔ a.superset b = true := (Iv.superset_iff a b).symm

theorem inhabited_iff (a : Iv) : Spec.Inhabited a ↔ a.isEmpty = false := by
  constructor
  · rintro ⟨x, hx⟩; exact Iv.not_isEmpty_of_mem hx
  · intro h; exact Iv.exists_mem a h

theorem meets_iff (a b : Iv) : Meets a b ↔ a.intersects b = true := (Iv.intersects_iff a b).symm

theorem covers_refl (a : Iv) : Covers a a := fun _ h => h
theorem Spec.Covers.trans {a b c : Iv} (h1 : Covers a b) (h2 : Covers b c) : Covers a c :=
  fun x h => h1 x (h2 x h)

theorem covers_of_isEmpty {a b : Iv} (h : b.isEmpty = true) : Covers a b :=
  (covers_iff a b).2 (Iv.superset_of_isEmpty h)

theorem isHull_nil : IsHull [] Iv.empty :=
  ⟨by simp, fun _ _ => covers_of_isEmpty Iv.isEmpty_empty⟩

theorem isHull_snoc {L : List Iv} {e : Iv} (h : IsHull L e) (d : Iv) :
    IsHull (L ++ [d]) (Iv.union e d) := by
  constructor
  · intro i hi
    rcases List.mem_append.1 hi with hi | hi
    · exact ((covers_iff _ _).2 (Iv.union_left e d)).trans (h.1 i hi)
    · rw [List.mem_singleton] at hi; subst hi
      exact (covers_iff _ _).2 (Iv.union_right e i)
  · intro c hc
    rw [covers_iff]
    refine Iv.union_least ((covers_iff _ _).1 (h.2 c fun i hi => hc i (by simp [hi]))) ?_
    exact (covers_iff _ _).1 (hc d (by simp))

theorem isHull_snoc_covered {L : List Iv} {e d : Iv} (h : IsHull L e) (hd : Covers e d) :
    IsHull (L ++ [d]) e := by
  constructor
  · intro i hi
    rcases List.mem_append.1 hi with hi | hi
    · exact h.1 i hi
    · rw [List.mem_singleton] at hi; subst hi; exact hd
  · intro c hc
    exact h.2 c fun i hi => hc i (by simp [hi])

theorem Spec.IsHull.covers_iff {L : List Iv} {e c : Iv} (h : IsHull L e) :
    Covers c e ↔ ∀ i ∈ L, Covers c i :=
  ⟨fun hc i hi => hc.trans (h.1 i hi), h.2 c⟩

theorem begun_append (a b : List Gate.Act) : begun (a ++ b) = begun a ++ begun b := by
  induction a with
  | nil => rfl
  | cons x a ih => cases x <;> simp [begun, ih]

theorem ended_append (a b : List Gate.Act) : ended (a ++ b) = ended a ++ ended b := by
  induction a with
  | nil => rfl
  | cons x a ih => cases x <;> simp [ended, ih]

theorem mem_begun {l : List Gate.Act} {d : Iv} : d ∈ begun l ↔ Gate.Act.begin d ∈ l := by
  induction l with
  | nil => simp [begun]
  | cons x l ih => cases x <;> simp [begun, ih]

theorem mem_ended {l : List Gate.Act} {d : Iv} : d ∈ ended l ↔ Gate.Act.finish d ∈ l := by
  induction l with
  | nil => simp [ended]
  | cons x l ih => cases x <;> simp [ended, ih]

namespace Gate

theorem run_append (g : Gate) (as bs : List Act) :
    g.run (as ++ bs) =
      (((g.run as).1.run bs).1, (g.run as).2 ++ ((g.run as).1.run bs).2) := by
  induction as generalizing g with
  | nil => rfl
  | cons a as ih => simp [run, ih]

theorem run_snoc (g : Gate) (as : List Act) (a : Act) :
    g.run (as ++ [a]) =
      (((g.run as).1.act a).1, (g.run as).2 ++ [(a, ((g.run as).1.act a).2)]) := by
  rw [run_append]; simp [run]

theorem pending_snoc (log : UpdateLog) (p : Act × Option Iv) :
    pending (log ++ [p]) = pendingStep (pending log) p := by
  simp [pending]

/-- What the state of a gate knows about the calls made since the last announced end. -/
structure Inv (g : Gate) (P : List Act) : Prop where
  b : IsHull (begun P) g.bIv
  e : IsHull (ended P) g.eIv
  idle : g.bIv.isEmpty = true → g.eIv.isEmpty = true
  busy : g.bIv.isEmpty = false → g.eIv.superset g.bIv = false

theorem inv_init : Inv init [] := by
  refine ⟨isHull_nil, isHull_nil, fun _ => Iv.isEmpty_empty, fun h => ?_⟩
  simp [init, Iv.isEmpty_empty] at h

theorem inv_step {g : Gate} {P : List Act} (h : Inv g P) (a : Act) :
    Inv (g.act a).1 (pendingStep P (a, (g.act a).2)) := by
  cases a with
  | begin d =>
    have hp : ∀ o, pendingStep P (Act.begin d, o) = P ++ [Act.begin d] := by intro o; cases o <;> rfl
    rw [hp]
    have hb : begun (P ++ [Act.begin d]) = begun P ++ [d] := by simp [begun_append, begun]
    have he : ended (P ++ [Act.begin d]) = ended P := by simp [ended_append, ended]
    simp only [act, begin]
    by_cases hc : (d.isEmpty || g.bIv.superset d) = true
    · rw [if_pos hc]
      refine ⟨?_, ?_, h.idle, h.busy⟩
      · rw [hb]
        refine isHull_snoc_covered h.b ?_
        rcases Bool.or_eq_true_iff.1 hc with hc | hc
        · exact covers_of_isEmpty hc
        · exact (covers_iff _ _).2 hc
      · rw [he]; exact h.e
    · rw [if_neg hc]
      simp only [Bool.or_eq_true, not_or, Bool.not_eq_true] at hc
      refine ⟨?_, ?_, ?_, ?_⟩
      · rw [hb]; exact isHull_snoc h.b d
      · rw [he]; exact h.e
      · intro hu
        exfalso
        have hu' : (Iv.union g.bIv d).isEmpty = true := hu
        rw [Iv.union_isEmpty] at hu'
        simp [hc.1] at hu'
      · intro _
        show g.eIv.superset (Iv.union g.bIv d) = false
        by_cases hbe : g.bIv.isEmpty = true
        · have := h.idle hbe
          rw [Bool.eq_false_iff]
          intro hs
          have h2 := Iv.superset_trans hs (Iv.union_right g.bIv d)
          rw [Iv.superset_iff] at h2
          obtain ⟨x, hx⟩ := Iv.exists_mem d hc.1
          have := Iv.not_isEmpty_of_mem (h2 x hx)
          simp_all
        · simp only [Bool.not_eq_true] at hbe
          have := h.busy hbe
          rw [Bool.eq_false_iff] at this ⊢
          intro hs
          exact this (Iv.superset_trans hs (Iv.union_left g.bIv d))
  | finish d =>
    have hb : begun (P ++ [Act.finish d]) = begun P := by simp [begun_append, begun]
    have he : ended (P ++ [Act.finish d]) = ended P ++ [d] := by simp [ended_append, ended]
    unfold act finish
    by_cases hc : (d.isEmpty || g.eIv.superset d) = true
    · simp only [if_pos hc, pendingStep]
      refine ⟨?_, ?_, h.idle, h.busy⟩
      · rw [hb]; exact h.b
      · rw [he]
        refine isHull_snoc_covered h.e ?_
        rcases Bool.or_eq_true_iff.1 hc with hc | hc
        · exact covers_of_isEmpty hc
        · exact (covers_iff _ _).2 hc
    · simp only [if_neg hc]
      by_cases hs : (Iv.union g.eIv d).superset g.bIv = true
      · simp only [hs, Bool.not_true, Bool.false_eq_true, if_false, pendingStep]
        exact inv_init
      · have hs' : (Iv.union g.eIv d).superset g.bIv = false := by simpa using hs
        simp only [hs', Bool.not_false, if_true, pendingStep]
        refine ⟨?_, ?_, ?_, ?_⟩
        · rw [hb]; exact h.b
        · rw [he]; exact isHull_snoc h.e d
        · intro hbe
          exfalso
          have := Iv.superset_of_isEmpty (a := Iv.union g.eIv d) hbe
          simp_all
        · intro _; exact hs'

theorem inv_run (as : List Act) : Inv (init.run as).1 (pending (init.run as).2) := by
  induction as using List.reverseRecOn with
  | nil => exact inv_init
  | append_singleton as a ih =>
    rw [run_snoc, pending_snoc]
    exact inv_step ih a

theorem run_log_fst (g : Gate) (as : List Act) : (g.run as).2.map (·.1) = as := by
  induction as generalizing g with
  | nil => rfl
  | cons a as ih => simp [run, ih]

/-- The pending calls are the last ones. -/
theorem pending_suffix (log : UpdateLog) : ∃ pre, log.map (·.1) = pre ++ pending log := by
  induction log using List.reverseRecOn with
  | nil => exact ⟨[], rfl⟩
  | append_singleton log p ih =>
    obtain ⟨pre, h⟩ := ih
    rw [pending_snoc, List.map_append, h]
    obtain ⟨a, o⟩ := p
    cases a with
    | begin d => exact ⟨pre, by simp [pendingStep]⟩
    | finish d =>
      cases o with
      | none => exact ⟨pre, by simp [pendingStep]⟩
      | some e => exact ⟨pre ++ pending log ++ [.finish d], by simp [pendingStep]⟩

end Gate

namespace Cell
variable {D : Type}

/-- The cache of an idle curve is not stale. -/
def Fresh (getDomain : D → Iv) (c : Cell D) : Prop :=
  c.gate.isUpdating = false → c.cache = none ∨ c.cache = some (getDomain c.data)

end Cell

namespace Registry

/-- The token list and the dictionary agree. -/
structure Ok (g : Registry) : Prop where
  nodup : g.order.Nodup
  mem : ∀ t, t ∈ g.order ↔ (g.data t).isSome = true

theorem ok_init : Ok init := ⟨List.nodup_nil, by simp [init]⟩

theorem ok_register {g : Registry} (h : Ok g) {t : ℕ} (ht : t ∉ g.order) (o : Obs) (prio : Bool) :
    Ok (g.register t o prio) := by
  constructor
  · unfold register
    cases prio
    · simp only [Bool.false_eq_true, if_false]
      rw [List.nodup_append]
      refine ⟨h.nodup, by simp, ?_⟩
      intro a ha b hb
      rw [List.mem_singleton] at hb; subst hb
      rintro rfl; exact ht ha
    · simp only [if_true]
      exact List.nodup_cons.2 ⟨ht, h.nodup⟩
  · intro k
    unfold register
    by_cases hk : k = t
    · cases prio <;> simp [hk]
    · cases prio <;> simp [hk, h.mem]

/-- Keep exactly the tokens satisfying `p`. -/
def keep (g : Registry) (p : ℕ → Bool) : Registry :=
  { data := fun k => if p k then g.data k else none, order := g.order.filter p }

theorem ok_keep {g : Registry} (h : Ok g) (p : ℕ → Bool) : Ok (g.keep p) := by
  constructor
  · exact h.nodup.filter _
  · intro t
    by_cases hp : p t = true <;> simp [keep, hp, h.mem]

theorem keep_keep (g : Registry) (p q : ℕ → Bool) :
    (g.keep p).keep q = g.keep (fun k => p k && q k) := by
  simp only [keep, List.filter_filter]
  congr 1
  · funext k
    by_cases h1 : p k = true <;> by_cases h2 : q k = true <;> simp [h1, h2]
  · congr 1; funext k
    by_cases h1 : p k = true <;> by_cases h2 : q k = true <;> simp [h1, h2]

theorem keep_of_all {g : Registry} {p : ℕ → Bool} (h : Ok g) (hp : ∀ t ∈ g.order, p t = true) :
    g.keep p = g := by
  unfold keep
  have h1 : g.order.filter p = g.order := List.filter_eq_self.2 hp
  have h2 : (fun k => if p k then g.data k else none) = g.data := by
    funext k
    by_cases hk : p k = true
    · simp [hk]
    · simp only [hk]
      have : k ∉ g.order := fun hm => hk (hp k hm)
      rw [h.mem] at this
      simp only [Bool.not_eq_true, Option.isSome_eq_false_iff, Option.isNone_iff_eq_none] at this
      simp [this]
  rw [h1, h2]

theorem keep_congr {g : Registry} {p q : ℕ → Bool} (h : Ok g)
    (hpq : ∀ t ∈ g.order, p t = q t) : g.keep p = g.keep q := by
  unfold keep
  congr 1
  · funext k
    by_cases hk : k ∈ g.order
    · rw [hpq k hk]
    · rw [h.mem] at hk
      simp only [Bool.not_eq_true, Option.isSome_eq_false_iff, Option.isNone_iff_eq_none] at hk
      simp [hk]
  · exact List.filter_congr hpq

theorem erase_keep {g : Registry} (h : Ok g) (t : ℕ) :
    ({ data := fun j => if j = t then none else g.data j, order := g.order.erase t } : Registry) =
      g.keep (fun k => k != t) := by
  unfold keep
  congr 1
  · funext k; by_cases hk : k = t <;> simp [hk]
  · exact h.nodup.erase_eq_filter t

theorem removeToken_eq {g : Registry} (h : Ok g) (t : ℕ) :
    g.removeToken t = g.keep (fun k => k != t) := by
  unfold removeToken
  by_cases ht : (g.data t).isSome = true
  · rw [if_pos ht, erase_keep h]
  · rw [if_neg ht]
    refine (keep_of_all h ?_).symm
    intro k hk
    simp only [bne_iff_ne, ne_eq]
    rintro rfl
    exact ht ((h.mem k).1 hk)

/-- Registration `t` is bound to a dead object or to `o`. -/
def bound (dead : ℕ → Bool) (o : ℕ) (g : Registry) (t : ℕ) : Bool :=
  match g.data t with
  | some ob => match ob.obj with
    | some k => dead k || k == o
    | none => false
  | none => false

theorem removeObjGo_eq (dead : ℕ → Bool) (o : ℕ) (g0 : Registry) (h0 : Ok g0) (ts : List ℕ)
    (p : ℕ → Bool) (hts : ts.Nodup) (hmem : ∀ t ∈ ts, t ∈ g0.order ∧ p t = true) :
    removeObjGo dead o ts (g0.keep p) =
      .ok (g0.keep fun k => p k && !(decide (k ∈ ts) && bound dead o g0 k)) := by
  induction ts generalizing p with
  | nil => simp [removeObjGo]
  | cons t ts ih =>
    have ht := hmem t (by simp)
    obtain ⟨ob, hob⟩ := Option.isSome_iff_exists.1 ((h0.mem t).1 ht.1)
    have hd : (g0.keep p).data t = some ob := by simp [keep, ht.2, hob]
    have hnd := List.nodup_cons.1 hts
    have skip : ∀ (hbd : bound dead o g0 t = false),
        removeObjGo dead o ts (g0.keep p) =
          .ok (g0.keep fun k => p k && !(decide (k ∈ t :: ts) && bound dead o g0 k)) := by
      intro hbd
      rw [ih p hnd.2 (fun k hk => hmem k (by simp [hk]))]
      congr 1
      refine keep_congr h0 fun k _ => ?_
      by_cases hkt : k = t
      · subst hkt; simp [hbd]
      · simp [hkt]
    unfold removeObjGo
    rw [hd]
    cases hobj : ob.obj with
    | none =>
      simp only [hobj]
      exact skip (by simp [bound, hob, hobj])
    | some k =>
      simp only [hobj]
      by_cases hk : (dead k || k == o) = true
      · rw [if_pos hk, erase_keep (ok_keep h0 p), keep_keep, ih _ hnd.2]
        · congr 1
          refine keep_congr h0 fun j _ => ?_
          by_cases hjt : j = t
          · subst hjt; simp [bound, hob, hobj, hk]
          · have hb : (j != t) = true := by simpa using hjt
            simp [hjt, hb]
        · intro j hj
          refine ⟨(hmem j (by simp [hj])).1, ?_⟩
          have : j ≠ t := fun he => hnd.1 (he ▸ hj)
          simp [(hmem j (by simp [hj])).2, this]
      · rw [if_neg hk]
        exact skip (by simpa [bound, hob, hobj] using hk)

theorem removeObj_eq (dead : ℕ → Bool) (o : ℕ) {g : Registry} (h : Ok g) :
    g.removeObj dead o = .ok (g.keep fun k => !bound dead o g k) := by
  have h1 := removeObjGo_eq dead o g h g.order (fun _ => true) h.nodup (by simp)
  have h2 : g.keep (fun _ => true) = g := keep_of_all h (by simp)
  rw [h2] at h1
  unfold removeObj
  rw [h1]
  congr 1
  refine keep_congr h fun k hk => ?_
  simp [hk]

theorem foldl_removeToken {g : Registry} (h : Ok g) (ts : List ℕ) :
    ts.foldl removeToken g = g.keep (fun k => decide (k ∉ ts)) := by
  induction ts generalizing g with
  | nil => simpa using (keep_of_all h (by simp)).symm
  | cons t ts ih =>
    rw [List.foldl_cons, removeToken_eq h, ih (ok_keep h _), keep_keep]
    congr 1; funext k
    by_cases hk : k = t <;> simp [hk]

/-- The calls the registrations ask for, in order. -/
def expected (cb : Obs → Option Bool) (g : Registry) (d : Iv) (ts : List ℕ) : List Call :=
  ts.filterMap fun t =>
    match g.data t with
    | some o => if d.intersects o.domain then (cb o).map fun w => ⟨t, callArg w d⟩ else none
    | none => none

theorem endLoop_id {g : Registry} (d : Iv) (ts : List ℕ)
    (h : ∀ t ∈ ts, (g.data t).isSome = true) :
    endLoop d (fun _ r => r) ts g = (g, expected (·.onEnd) g d ts, none) := by
  induction ts with
  | nil => rfl
  | cons t ts ih =>
    obtain ⟨o, ho⟩ := Option.isSome_iff_exists.1 (h t (by simp))
    have ih' := ih fun k hk => h k (by simp [hk])
    unfold endLoop
    simp only [ho]
    unfold expected
    rw [List.filterMap_cons]
    simp only [ho]
    split
    · cases hw : o.onEnd with
      | none => simp only [Option.map_none]; rw [ih']; rfl
      | some w => simp only [Option.map_some]; rw [ih']; rfl
    · rw [ih']; rfl

theorem beginLoop_id {g : Registry} (d : Iv) (h : ∀ t ∈ g.order, (g.data t).isSome = true)
    (i fuel : ℕ) (hf : g.order.length - i < fuel) :
    beginLoop d (fun _ r => r) fuel g i =
      some (g, expected (·.onBegin) g d (g.order.drop i), none) := by
  induction fuel generalizing i with
  | zero => omega
  | succ n ih =>
    unfold beginLoop
    by_cases hi : i < g.order.length
    · rw [List.getElem?_eq_getElem hi]
      have hd : g.order.drop i = g.order[i] :: g.order.drop (i + 1) := List.drop_eq_getElem_cons hi
      obtain ⟨o, ho⟩ := Option.isSome_iff_exists.1 (h g.order[i] (List.getElem_mem hi))
      have ih' := ih (i + 1) (by omega)
      simp only [ho]
      rw [hd]
      unfold expected
      rw [List.filterMap_cons]
      simp only [ho]
      split
      · cases hw : o.onBegin with
        | none => simp only [Option.map_none]; rw [ih']; rfl
        | some w => simp only [Option.map_some]; rw [ih']; rfl
      · rw [ih']; rfl
    · rw [List.getElem?_eq_none (by omega)]
      simp only
      rw [List.drop_eq_nil_of_le (by omega)]
      rfl

theorem beginLoop_mono (d : Iv) (eff : ℕ → Registry → Registry) (n : ℕ) (g : Registry) (i : ℕ)
    (r : Registry × List Call × Option Err) (h : beginLoop d eff n g i = some r) :
    beginLoop d eff (n + 1) g i = some r := by
  induction n generalizing g i r with
  | zero => simp [beginLoop] at h
  | succ n ih =>
    unfold beginLoop at h ⊢
    cases hget : g.order[i]? with
    | none => rw [hget] at h; exact h
    | some t =>
      rw [hget] at h
      simp only at h ⊢
      cases hdat : g.data t with
      | none => rw [hdat] at h; exact h
      | some o =>
        rw [hdat] at h
        simp only at h ⊢
        split at h
        · rename_i hint
          rw [if_pos hint]
          cases hw : o.onBegin with
          | none => rw [hw] at h; exact ih _ _ _ h
          | some w =>
            rw [hw] at h
            simp only at h ⊢
            cases hb : beginLoop d eff n (eff t g) (i + 1) with
            | none => rw [hb] at h; simp at h
            | some q => rw [hb] at h; rw [ih _ _ _ hb]; exact h
        · rename_i hint
          rw [if_neg hint]
          exact ih _ _ _ h

theorem beginLoop_mono' (d : Iv) (eff : ℕ → Registry → Registry) {n m : ℕ} (hnm : n ≤ m)
    (g : Registry) (i : ℕ) (r : Registry × List Call × Option Err)
    (h : beginLoop d eff n g i = some r) : beginLoop d eff m g i = some r := by
  induction hnm with
  | refl => exact h
  | step _ ih => exact beginLoop_mono _ _ _ _ _ _ ih

theorem mem_expected {cb : Obs → Option Bool} {g : Registry} {d : Iv} {ts : List ℕ} {k : Call} :
    k ∈ expected cb g d ts ↔ k.token ∈ ts ∧ Wanted cb g d k := by
  unfold expected Wanted
  rw [List.mem_filterMap]
  constructor
  · rintro ⟨t, ht, h⟩
    cases hd : g.data t with
    | none => simp [hd] at h
    | some o =>
      simp only [hd] at h
      split at h
      · rename_i hi
        obtain ⟨w, hw, he⟩ := Option.map_eq_some_iff.1 h
        subst he
        exact ⟨ht, o, w, hd, (meets_iff _ _).2 hi, hw, rfl⟩
      · cases h
  · rintro ⟨ht, o, w, hd, hm, hw, ha⟩
    refine ⟨k.token, ht, ?_⟩
    rw [hd]
    simp only [if_pos ((meets_iff _ _).1 hm), hw, Option.map_some]
    congr 1
    cases k
    simp_all [callArg]

theorem expected_tokens (cb : Obs → Option Bool) (g : Registry) (d : Iv) (ts : List ℕ) :
    ((expected cb g d ts).map (·.token)).Sublist ts := by
  induction ts with
  | nil => simp [expected]
  | cons t ts ih =>
    unfold expected at ih ⊢
    rw [List.filterMap_cons]
    split
    · exact ih.cons _
    · rename_i k hk
      have : k.token = t := by
        cases hd : g.data t with
        | none => simp [hd] at hk
        | some o =>
          simp only [hd] at hk
          split at hk
          · obtain ⟨w, _, he⟩ := Option.map_eq_some_iff.1 hk; subst he; rfl
          · cases hk
      rw [List.map_cons, this]
      exact ih.cons_cons t

theorem filterMap_filter_token (f f' : ℕ → Option Call) (p : ℕ → Bool)
    (hf : ∀ t k, f t = some k → k.token = t) (hp : ∀ t, p t = true → f' t = f t) (ts : List ℕ) :
    (ts.filter p).filterMap f' = (ts.filterMap f).filter (fun k => p k.token) := by
  induction ts with
  | nil => rfl
  | cons t ts ih =>
    rw [List.filter_cons, List.filterMap_cons]
    by_cases h : p t = true
    · rw [if_pos h, List.filterMap_cons, hp t h, ih]
      cases hft : f t with
      | none => rfl
      | some k => simp [hf t k hft, h]
    · rw [if_neg h, ih]
      cases hft : f t with
      | none => rfl
      | some k => simp [hf t k hft, h]

theorem expected_keep (cb : Obs → Option Bool) (g : Registry) (d : Iv) (p : ℕ → Bool) :
    expected cb (g.keep p) d (g.keep p).order =
      (expected cb g d g.order).filter (fun k => p k.token) := by
  refine filterMap_filter_token _ _ p ?_ ?_ g.order
  · intro t k hk
    cases hd : g.data t with
    | none => simp [hd] at hk
    | some o =>
      simp only [hd] at hk
      split at hk
      · obtain ⟨w, _, he⟩ := Option.map_eq_some_iff.1 hk; subst he; rfl
      · cases hk
  · intro t ht
    have : (g.keep p).data t = g.data t := by simp [keep, ht]
    simp only [this]

end Registry

namespace World

/-- Tokens of different registrations differ, and none is larger than the counter. -/
structure Ok (w : World) : Prop where
  reg : ∀ c, (w.reg c).Ok
  le : ∀ c t, t ∈ (w.reg c).order → 0 < t ∧ t ≤ w.ctr
  uniq : ∀ c c' t, t ∈ (w.reg c).order → t ∈ (w.reg c').order → c = c'

theorem ok_init : Ok init :=
  ⟨fun _ => Registry.ok_init, by simp [init, Registry.init], by simp [init, Registry.init]⟩

/-- A step that only removes registrations. -/
theorem ok_keep {w w' : World} (h : Ok w) (hc : w'.ctr = w.ctr) (p : ℕ → ℕ → Bool)
    (hr : ∀ c, w'.reg c = (w.reg c).keep (p c)) : Ok w' := by
  have sub : ∀ c t, t ∈ (w'.reg c).order → t ∈ (w.reg c).order := by
    intro c t ht
    rw [hr] at ht
    exact (List.mem_filter.1 ht).1
  refine ⟨fun c => ?_, fun c t ht => ?_, fun c c' t h1 h2 => h.uniq c c' t (sub _ _ h1) (sub _ _ h2)⟩
  · rw [hr]; exact Registry.ok_keep (h.reg c) _
  · rw [hc]; exact h.le c t (sub c t ht)

theorem removeToken_reg {w : World} (h : Ok w) (c t : ℕ) (k : ℕ) :
    (w.removeToken c t).reg k = (w.reg k).keep (fun j => !(decide (k = c) && j == t)) := by
  unfold removeToken setReg
  by_cases hk : k = c
  · subst hk
    simp only [if_true]
    rw [Registry.removeToken_eq (h.reg k)]
    simp [bne]
  · simp only [if_neg hk]
    exact (Registry.keep_of_all (h.reg k) (by simp [hk])).symm

theorem removeObj_reg {w : World} (h : Ok w) (c o : ℕ) (k : ℕ) :
    (w.removeObj c o).1.reg k =
      (w.reg k).keep (fun j => !(decide (k = c) && Registry.bound w.dead o (w.reg k) j)) := by
  unfold removeObj
  rw [Registry.removeObj_eq _ _ (h.reg c)]
  simp only [setReg]
  by_cases hk : k = c
  · subst hk; simp
  · simp only [if_neg hk]
    exact (Registry.keep_of_all (h.reg k) (by simp [hk])).symm

theorem removeObj_ok {w : World} (h : Ok w) (c o : ℕ) : (w.removeObj c o).2 = none := by
  unfold removeObj
  rw [Registry.removeObj_eq _ _ (h.reg c)]

theorem die_reg {w : World} (h : Ok w) (o : ℕ) (k : ℕ) :
    (w.die o).reg k = (w.reg k).keep (fun j => decide (j ∉ autoTokens (w.reg k) o)) := by
  simp only [die]
  exact Registry.foldl_removeToken (h.reg k) _

theorem addObserver_cases (w : World) (c : ℕ) (a : AddArgs) :
    (a.onBegin = none ∧ a.onEnd = none ∧ w.addObserver c a = (w, .ok 0)) ∨
    (¬(a.onBegin = none ∧ a.onEnd = none) ∧ a.obj = none ∧ a.autoremove = true ∧
      w.addObserver c a = ({ w with ctr := w.ctr + 1 }, .error .exception)) ∨
    (¬(a.onBegin = none ∧ a.onEnd = none) ∧ ¬(a.obj = none ∧ a.autoremove = true) ∧
      w.addObserver c a =
        (({ w with ctr := w.ctr + 1 } : World).setReg c
          ((w.reg c).register (w.ctr + 1)
            { obj := a.obj, auto := a.autoremove, domain := a.domain.getD Iv.infinite,
              onBegin := a.onBegin, onEnd := a.onEnd } a.prioritize), .ok (w.ctr + 1))) := by
  unfold addObserver
  by_cases h1 : (a.onBegin.isNone && a.onEnd.isNone) = true
  · left
    rw [if_pos h1]
    simp only [Bool.and_eq_true, Option.isNone_iff_eq_none] at h1
    exact ⟨h1.1, h1.2, rfl⟩
  · right
    have h1' : ¬(a.onBegin = none ∧ a.onEnd = none) := by
      simpa only [Bool.and_eq_true, Option.isNone_iff_eq_none] using h1
    rw [if_neg h1]
    by_cases h2 : (a.obj.isNone && a.autoremove) = true
    · left
      simp only [if_pos h2]
      simp only [Bool.and_eq_true, Option.isNone_iff_eq_none] at h2
      exact ⟨h1', h2.1, h2.2, trivial⟩
    · right
      simp only [if_neg h2]
      exact ⟨h1', by simpa only [Bool.and_eq_true, Option.isNone_iff_eq_none] using h2, trivial⟩

theorem ok_register {w : World} (h : Ok w) (c : ℕ) (o : Obs) (prio : Bool) :
    Ok (({ w with ctr := w.ctr + 1 } : World).setReg c
      ((w.reg c).register (w.ctr + 1) o prio)) := by
  have hfresh : ∀ k, w.ctr + 1 ∉ (w.reg k).order := by
    intro k hk
    have := (h.le k _ hk).2
    omega
  have hm : ∀ k t, t ∈ ((({ w with ctr := w.ctr + 1 } : World).setReg c
      ((w.reg c).register (w.ctr + 1) o prio)).reg k).order →
      t ∈ (w.reg k).order ∨ (k = c ∧ t = w.ctr + 1) := by
    intro k t ht
    by_cases hk : k = c
    · subst hk
      simp only [setReg, if_true, Registry.register] at ht
      cases prio <;> simp at ht <;> tauto
    · simp only [setReg, if_neg hk] at ht
      exact Or.inl ht
  refine ⟨fun k => ?_, fun k t ht => ?_, fun k k' t h1 h2 => ?_⟩
  · by_cases hk : k = c
    · subst hk
      simp only [setReg, if_true]
      exact Registry.ok_register (h.reg k) (hfresh k) o prio
    · simp only [setReg, if_neg hk]; exact h.reg k
  · simp only [setReg]
    rcases hm k t ht with hm | ⟨_, hm⟩
    · have := h.le k t hm; omega
    · omega
  · rcases hm k t h1 with a1 | ⟨a1, a2⟩ <;> rcases hm k' t h2 with b1 | ⟨b1, b2⟩
    · exact h.uniq k k' t a1 b1
    · subst b2; exact absurd a1 (hfresh k)
    · subst a2; exact absurd b1 (hfresh k')
    · rw [a1, b1]

theorem ok_step {w : World} (h : Ok w) (op : Op) : Ok (w.step op).1 := by
  cases op with
  | add c a =>
    simp only [step]
    rcases addObserver_cases w c a with ⟨_, _, e⟩ | ⟨_, _, _, e⟩ | ⟨_, _, e⟩
    · rw [e]; exact h
    · rw [e]
      exact ⟨h.reg, fun k t ht => by have := h.le k t ht; simp only; omega, h.uniq⟩
    · rw [e]; exact ok_register h c _ _
  | removeToken c t =>
    exact ok_keep h rfl _ (fun k => removeToken_reg h c t k)
  | removeObj c o =>
    refine ok_keep h ?_ _ (fun k => removeObj_reg h c o k)
    simp only [step, removeObj]
    split <;> rfl
  | die o =>
    exact ok_keep h rfl _ (fun k => die_reg h o k)

theorem run_append (w : World) (as bs : List Op) :
    w.run (as ++ bs) =
      (((w.run as).1.run bs).1, (w.run as).2 ++ ((w.run as).1.run bs).2) := by
  induction as generalizing w with
  | nil => rfl
  | cons a as ih => simp [run, ih]

theorem run_snoc (w : World) (as : List Op) (a : Op) :
    w.run (as ++ [a]) =
      (((w.run as).1.step a).1, (w.run as).2 ++ [(a, ((w.run as).1.step a).2)]) := by
  rw [run_append]; simp [run]

theorem ok_run (as : List Op) : Ok (init.run as).1 := by
  induction as using List.reverseRecOn with
  | nil => exact ok_init
  | append_singleton as a ih => rw [run_snoc]; exact ok_step ih a

theorem tokens_append (a b : WorldLog) : tokens (a ++ b) = tokens a ++ tokens b := by
  induction a with
  | nil => rfl
  | cons p a ih =>
    obtain ⟨op, r⟩ := p
    cases op <;> rcases r with _ | _ | t <;> simp [tokens, ih]
    split <;> simp

theorem registrations_append (c : ℕ) (a b : WorldLog) :
    registrations c (a ++ b) = registrations c a ++ registrations c b := by
  induction a with
  | nil => rfl
  | cons p a ih =>
    obtain ⟨op, r⟩ := p
    cases op <;> rcases r with _ | _ | t <;> simp [registrations, ih]
    split <;> simp

theorem serviceOrder_true (L : List (ℕ × Bool)) (t : ℕ) :
    serviceOrder (L ++ [(t, true)]) = t :: serviceOrder L := by
  simp [serviceOrder]

theorem serviceOrder_false (L : List (ℕ × Bool)) (t : ℕ) :
    serviceOrder (L ++ [(t, false)]) = serviceOrder L ++ [t] := by
  simp [serviceOrder]

theorem mem_serviceOrder (L : List (ℕ × Bool)) (t : ℕ) :
    t ∈ serviceOrder L ↔ ∃ b, (t, b) ∈ L := by
  simp [serviceOrder, or_comm]

/-- Every token handed out is at most the counter. -/
theorem tokens_le (as : List Op) :
    ∀ t ∈ tokens (init.run as).2, 0 < t ∧ t ≤ (init.run as).1.ctr := by
  induction as using List.reverseRecOn with
  | nil => simp [run, tokens]
  | append_singleton as a ih =>
    intro t ht
    rw [run_snoc] at ht ⊢
    rw [tokens_append, List.mem_append] at ht
    simp only
    have mono : (init.run as).1.ctr ≤ ((init.run as).1.step a).1.ctr := by
      generalize (init.run as).1 = w
      cases a with
      | add c a =>
        simp only [step]
        rcases addObserver_cases w c a with ⟨_, _, e⟩ | ⟨_, _, _, e⟩ | ⟨_, _, e⟩ <;> rw [e] <;>
          simp [setReg]
      | removeToken c t => exact le_refl _
      | removeObj c o => simp only [step, removeObj]; split <;> exact le_refl _
      | die o => exact le_refl _
    rcases ht with ht | ht
    · have := ih t ht; omega
    · revert ht
      generalize (init.run as).1 = w
      cases a with
      | add c a =>
        simp only [step]
        rcases addObserver_cases w c a with ⟨_, _, e⟩ | ⟨_, _, _, e⟩ | ⟨_, _, e⟩ <;> rw [e] <;>
          simp [setReg, tokens]
        intro h; omega
      | removeToken c t => simp [step, tokens]
      | removeObj c o => simp [step, tokens]
      | die o => simp [step, tokens]

theorem registrations_tokens (c : ℕ) (log : WorldLog) :
    ∀ p ∈ registrations c log, p.1 ∈ tokens log := by
  induction log with
  | nil => simp [registrations]
  | cons q log ih =>
    obtain ⟨op, r⟩ := q
    intro p hp
    cases op with
    | add c' a =>
      rcases r with _ | _ | t
      · exact ih p hp
      · exact ih p hp
      · simp only [registrations] at hp
        simp only [tokens]
        split at hp
        · rename_i hc
          rw [if_neg hc.2]
          rcases List.mem_cons.1 hp with hp | hp
          · subst hp; simp
          · exact List.mem_cons_of_mem _ (ih p hp)
        · split
          · exact ih p hp
          · exact List.mem_cons_of_mem _ (ih p hp)
    | removeToken _ _ => exact ih p hp
    | removeObj _ _ => exact ih p hp
    | die _ => exact ih p hp

end World
end Curvepy
