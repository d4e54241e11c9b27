import Verif.Lemmas.Observer
import Verif.Spec.Graph

/-! Lemmas about propagation of updates. -/

namespace Curvepy
open Spec

namespace Gate

/-- The curve is idle in the end if everything begun is later covered by something ended. -/
theorem quiescent_of_covered (as : List Act)
    (hm : ∀ pre I post, as = pre ++ .begin I :: post → ∃ e, .finish e ∈ post ∧ Covers e I) :
    (init.run as).1.bIv.isEmpty = true := by
  have h := inv_run as
  obtain ⟨pre, hp⟩ := pending_suffix (init.run as).2
  rw [run_log_fst] at hp
  by_contra hc
  rw [Bool.not_eq_true] at hc
  have hbusy := h.busy hc
  rw [Bool.eq_false_iff, ne_eq, ← covers_iff] at hbusy
  apply hbusy
  rw [h.b.covers_iff]
  intro b hb
  obtain ⟨s, t, hst⟩ := List.append_of_mem (mem_begun.1 hb)
  obtain ⟨e, he, hcov⟩ := hm (pre ++ s) b t (by rw [hp, hst]; simp)
  refine (h.e.1 e (mem_ended.2 ?_)).trans hcov
  rw [hst]
  simp [he]

theorem act_begin_some {g : Gate} {d e : Iv} (h : (g.act (.begin d)).2 = some e) :
    e = d ∧ d.isEmpty = false := by
  simp only [act, begin] at h
  split at h
  · cases h
  · rename_i hc
    simp at h hc
    exact ⟨h.symm, hc.1⟩

/-- Run of begins only. -/
theorem run_begins (bs : List Iv) :
    IsHull bs (init.run (bs.map .begin)).1.bIv ∧ (init.run (bs.map .begin)).1.eIv = Iv.empty := by
  induction bs using List.reverseRecOn with
  | nil => exact ⟨isHull_nil, rfl⟩
  | append_singleton bs b ih =>
    rw [List.map_append, List.map_singleton, run_snoc]
    simp only [act, begin]
    by_cases hc : (b.isEmpty || (init.run (bs.map .begin)).1.bIv.superset b) = true
    · rw [if_pos hc]
      refine ⟨isHull_snoc_covered ih.1 ?_, ih.2⟩
      rcases Bool.or_eq_true_iff.1 hc with hc | hc
      · exact covers_of_isEmpty hc
      · exact (covers_iff _ _).2 hc
    · rw [if_neg hc]
      exact ⟨isHull_snoc ih.1 b, ih.2⟩

theorem pending_no_end {log : UpdateLog} (h : ∀ d e, (Act.finish d, some e) ∉ log) :
    pending log = log.map (·.1) := by
  induction log using List.reverseRecOn with
  | nil => rfl
  | append_singleton log p ih =>
    rw [pending_snoc, ih fun d e hm => h d e (by simp [hm])]
    obtain ⟨a, o⟩ := p
    cases a with
    | begin d => simp [pendingStep]
    | finish d =>
      cases o with
      | none => simp [pendingStep]
      | some e => exact absurd (by simp) (h d e)

/-- Begins followed by ends that cover them: the first announced end covers everything begun. -/
theorem exists_end (bs es : List Iv) (hb : ∃ b ∈ bs, b.isEmpty = false)
    (hcov : ∀ b ∈ bs, ∃ e ∈ es, Covers e b) :
    ∃ d E, (Act.finish d, some E) ∈ (init.run (bs.map .begin ++ es.map .finish)).2 ∧
      ∀ b ∈ bs, Covers E b := by
  -- the first announced end among a prefix of the ends
  by_contra hn
  push Not at hn
  have key : ∀ es', es' <+: es →
      ∀ d e, (Act.finish d, some e) ∉ (init.run (bs.map .begin ++ es'.map .finish)).2 := by
    intro es'
    induction es' using List.reverseRecOn with
    | nil =>
      intro _ d e hm
      have : (Act.finish d) ∈ (init.run (bs.map .begin ++ ([] : List Iv).map .finish)).2.map (·.1) :=
        List.mem_map.2 ⟨_, hm, rfl⟩
      rw [run_log_fst] at this
      simp at this
    | append_singleton es' x ih =>
      intro hpre d e hm
      have hpre' : es' <+: es := (List.prefix_append _ _).trans hpre
      have ih' := ih hpre'
      rw [List.map_append, List.map_singleton, ← List.append_assoc, run_snoc, List.mem_append] at hm
      rcases hm with hm | hm
      · exact ih' d e hm
      · simp only [List.mem_singleton, Prod.mk.injEq, Act.finish.injEq] at hm
        obtain ⟨rfl, he⟩ := hm
        -- it covers everything
        have hinv := inv_run (bs.map .begin ++ es'.map .finish)
        rw [pending_no_end ih', run_log_fst] at hinv
        have hE : ∀ b ∈ bs, Covers e b := by
          intro b hb
          have h1 : Covers (init.run (bs.map .begin ++ es'.map .finish)).1.bIv b :=
            hinv.b.1 b (mem_begun.2 (by simp [hb]))
          simp only [act, finish] at he
          split at he
          · cases he
          · split at he
            · cases he
            · rename_i hsup
              simp only [Option.some.injEq] at he
              subst he
              simp only [Bool.not_eq_true', Bool.not_eq_false] at hsup
              exact ((covers_iff _ _).2 hsup).trans h1
        obtain ⟨b, hb, hbad⟩ := hn d e (by
          obtain ⟨tl, rfl⟩ := hpre
          rw [List.map_append, ← List.append_assoc, run_append, List.mem_append]
          left
          rw [List.map_append, List.map_singleton, ← List.append_assoc, run_snoc, List.mem_append]
          right
          rw [he]; simp)
        exact hbad (hE b hb)
  have hnone := key es (List.prefix_refl _)
  have hinv := inv_run (bs.map .begin ++ es.map .finish)
  rw [pending_no_end hnone, run_log_fst] at hinv
  obtain ⟨b, hb, hbe⟩ := hb
  have hbusy : (init.run (bs.map .begin ++ es.map .finish)).1.bIv.isEmpty = false := by
    obtain ⟨x, hx⟩ := Iv.exists_mem b hbe
    exact Iv.not_isEmpty_of_mem (hinv.b.1 b (mem_begun.2 (by simp [hb])) x hx)
  have := hinv.busy hbusy
  rw [Bool.eq_false_iff, ne_eq, ← covers_iff, hinv.b.covers_iff] at this
  apply this
  intro b' hb'
  have hb'' : b' ∈ bs := by
    have := mem_begun.1 hb'
    simpa using this
  obtain ⟨e, he, hc⟩ := hcov b' hb''
  exact (hinv.e.1 e (mem_ended.2 (by simp [he]))).trans hc

theorem run_idle_eIv {as : List Act} (h : (init.run as).1.bIv.isEmpty = true) :
    (init.run as).1 = init := by
  have key : ∀ as, (init.run as).1.bIv.isEmpty = true → (init.run as).1 = init := by
    intro as
    induction as using List.reverseRecOn with
    | nil => intro _; rfl
    | append_singleton as a ih =>
      rw [run_snoc]
      simp only
      intro hb
      cases a with
      | begin d =>
        simp only [act, begin] at hb ⊢
        split at hb
        · rename_i hc; rw [if_pos hc]; exact ih hb
        · rename_i hc
          exfalso
          simp only at hb
          rw [Iv.union_isEmpty] at hb
          simp_all
      | finish d =>
        simp only [act, finish] at hb ⊢
        split at hb
        · rename_i hc; rw [if_pos hc]; exact ih hb
        · rename_i hc
          rw [if_neg hc]
          split at hb
          · rename_i hs
            exfalso
            simp only at hb
            rw [Iv.superset_of_isEmpty hb] at hs
            simp at hs
          · rename_i hs
            rw [if_neg hs]; rfl
  exact key as h

end Gate

namespace Net

/-- The calls curve `j` received. -/
def calls (l : List Entry) (j : ℕ) : List Gate.Act :=
  (l.filter fun x => x.node = j).map (·.act)

/-- What curve `j` made of them. -/
def history (l : List Entry) (j : ℕ) : UpdateLog :=
  (l.filter fun x => x.node = j).map fun x => (x.act, x.announced)

theorem calls_append (a b : List Entry) (j : ℕ) : calls (a ++ b) j = calls a j ++ calls b j := by
  simp [calls]

theorem history_append (a b : List Entry) (j : ℕ) :
    history (a ++ b) j = history a j ++ history b j := by
  simp [history]

theorem history_fst (l : List Entry) (j : ℕ) : (history l j).map (·.1) = calls l j := by
  simp [history, calls]

theorem mem_history {l : List Entry} {j : ℕ} {a : Gate.Act} {o : Option Iv} :
    (a, o) ∈ history l j ↔ (⟨j, a, o⟩ : Entry) ∈ l := by
  simp only [history, List.mem_map, List.mem_filter, decide_eq_true_eq, Prod.mk.injEq]
  constructor
  · rintro ⟨x, ⟨hx, rfl⟩, rfl, rfl⟩; exact hx
  · intro h; exact ⟨_, ⟨h, rfl⟩, rfl, rfl⟩

/-- What an execution fragment looks like from every curve. -/
structure Local (st st' : St) (l : List Entry) : Prop where
  state : ∀ j, st' j = ((st j).run (calls l j)).1
  log : ∀ j, history l j = ((st j).run (calls l j)).2

theorem Local.nil (st : St) : Local st st [] := ⟨fun _ => rfl, fun _ => rfl⟩

theorem Local.append {st st1 st2 : St} {a b : List Entry} (h1 : Local st st1 a)
    (h2 : Local st1 st2 b) : Local st st2 (a ++ b) := by
  constructor
  · intro j
    rw [calls_append, Gate.run_append, h2.state j, h1.state j]
  · intro j
    rw [calls_append, history_append, Gate.run_append, h1.log j, h2.log j, h1.state j]

theorem Local.one (st : St) (i : ℕ) (a : Gate.Act) :
    Local st (upd st i ((st i).act a).1) [⟨i, a, ((st i).act a).2⟩] := by
  constructor
  · intro j
    by_cases h : j = i
    · subst h; simp [calls, upd, Gate.run]
    · have h' : ¬ i = j := fun e => h e.symm
      simp [calls, upd, Gate.run, h, h']
  · intro j
    by_cases h : j = i
    · subst h; simp [calls, history, Gate.run]
    · have h' : ¬ i = j := fun e => h e.symm
      simp [calls, history, Gate.run, h']

variable {net : Net} {mk : Iv → Gate.Act}

/-- What one wave of calls looks like. -/
structure Wave (net : Net) (mk : Iv → Gate.Act) (l : List Entry) (roots : List (ℕ × Iv)) :
    Prop where
  kind : ∀ x ∈ l, ∃ d, x.act = mk d
  root : ∀ r ∈ roots, ∃ o, (⟨r.1, mk r.2, o⟩ : Entry) ∈ l
  down : ∀ i a e, (⟨i, a, some e⟩ : Entry) ∈ l → ∀ j t, (j, t) ∈ net.out i →
    ∃ o, (⟨j, mk (t e), o⟩ : Entry) ∈ l
  up : ∀ x ∈ l, (∃ r ∈ roots, x.node = r.1 ∧ x.act = mk r.2) ∨
    ∃ i a e t, (⟨i, a, some e⟩ : Entry) ∈ l ∧ (x.node, t) ∈ net.out i ∧ x.act = mk (t e)

theorem Wave.append {a b : List Entry} {ra rb : List (ℕ × Iv)} (h1 : Wave net mk a ra)
    (h2 : Wave net mk b rb) : Wave net mk (a ++ b) (ra ++ rb) := by
  refine ⟨?_, ?_, ?_, ?_⟩
  · intro x hx
    rcases List.mem_append.1 hx with hx | hx
    · exact h1.kind x hx
    · exact h2.kind x hx
  · intro r hr
    rcases List.mem_append.1 hr with hr | hr
    · obtain ⟨o, h⟩ := h1.root r hr; exact ⟨o, by simp [h]⟩
    · obtain ⟨o, h⟩ := h2.root r hr; exact ⟨o, by simp [h]⟩
  · intro i a' e hx j t hj
    rcases List.mem_append.1 hx with hx | hx
    · obtain ⟨o, h⟩ := h1.down i a' e hx j t hj; exact ⟨o, by simp [h]⟩
    · obtain ⟨o, h⟩ := h2.down i a' e hx j t hj; exact ⟨o, by simp [h]⟩
  · intro x hx
    rcases List.mem_append.1 hx with hx | hx
    · rcases h1.up x hx with ⟨r, hr, h⟩ | ⟨i, a', e, t, h, h'⟩
      · exact Or.inl ⟨r, by simp [hr], h⟩
      · exact Or.inr ⟨i, a', e, t, by simp [h], h'⟩
    · rcases h2.up x hx with ⟨r, hr, h⟩ | ⟨i, a', e, t, h, h'⟩
      · exact Or.inl ⟨r, by simp [hr], h⟩
      · exact Or.inr ⟨i, a', e, t, by simp [h], h'⟩

theorem Wave.nil : Wave net mk [] [] := ⟨by simp, by simp, by simp, by simp⟩

theorem forEach_spec {f : St → ℕ → Iv → St × List Entry} {es : List (ℕ × (Iv → Iv))} {e : Iv}
    (hf : ∀ p ∈ es, ∀ st d, Local st (f st p.1 d).1 (f st p.1 d).2 ∧
      Wave net mk (f st p.1 d).2 [(p.1, d)]) (st : St) :
    Local st (forEach f e es st).1 (forEach f e es st).2 ∧
      Wave net mk (forEach f e es st).2 (es.map fun p => (p.1, p.2 e)) := by
  induction es generalizing st with
  | nil => exact ⟨Local.nil st, Wave.nil⟩
  | cons p es ih =>
    obtain ⟨j, t⟩ := p
    have h1 := hf (j, t) (by simp) st (t e)
    have h2 := ih (fun p hp => hf p (by simp [hp])) (f st j (t e)).1
    simp only [forEach]
    exact ⟨h1.1.append h2.1, by simpa using h1.2.append h2.2⟩

theorem propagate_spec {n : ℕ} (hac : Acyclic net n) (k : ℕ) (st : St) (i : ℕ) (d : Iv)
    (hi : i < n) (hk : n ≤ i + k) :
    Local st (net.propagate mk k st i d).1 (net.propagate mk k st i d).2 ∧
      Wave net mk (net.propagate mk k st i d).2 [(i, d)] := by
  induction k generalizing st i d with
  | zero => omega
  | succ k ih =>
    have hone := Local.one st i (mk d)
    unfold propagate
    rcases hact : (st i).act (mk d) with ⟨g, o⟩
    rw [hact] at hone
    simp only at hone ⊢
    cases o with
    | none =>
      refine ⟨hone, ⟨by simp, by simp, by simp, by simp⟩⟩
    | some e =>
      simp only
      have hfe := forEach_spec (net := net) (mk := mk) (f := net.propagate mk k)
        (es := net.out i) (e := e) (fun p hp st' d' => by
          have := hac i p hp
          exact ih st' p.1 d' this.2 (by omega)) (upd st i g)
      refine ⟨?_, ?_⟩
      · have := hone.append hfe.1
        simpa using this
      · refine ⟨?_, ?_, ?_, ?_⟩
        · intro x hx
          rcases List.mem_cons.1 hx with rfl | hx
          · exact ⟨d, rfl⟩
          · exact hfe.2.kind x hx
        · intro r hr
          rw [List.mem_singleton] at hr; subst hr
          exact ⟨some e, by simp⟩
        · intro i' a e' hx j t hj
          rcases List.mem_cons.1 hx with heq | hx
          · simp only [Entry.mk.injEq, Option.some.injEq] at heq
            obtain ⟨rfl, _, rfl⟩ := heq
            obtain ⟨o, ho⟩ := hfe.2.root (j, t e') (List.mem_map.2 ⟨(j, t), hj, rfl⟩)
            exact ⟨o, by simp [ho]⟩
          · obtain ⟨o, ho⟩ := hfe.2.down i' a e' hx j t hj
            exact ⟨o, by simp [ho]⟩
        · intro x hx
          rcases List.mem_cons.1 hx with rfl | hx
          · exact Or.inl ⟨(i, d), by simp, rfl, rfl⟩
          · right
            rcases hfe.2.up x hx with ⟨r, hr, h1, h2⟩ | ⟨i', a, e', t, h, h'⟩
            · obtain ⟨p, hp, rfl⟩ := List.mem_map.1 hr
              exact ⟨i, mk d, e, p.2, by simp, by rw [h1]; exact hp, h2⟩
            · exact ⟨i', a, e', t, by simp [h], h'⟩

theorem occupied_not_isEmpty {a : Iv} (h : Occupied a) : a.isEmpty = false := by
  obtain ⟨q, hq⟩ := h
  exact Iv.not_isEmpty_of_mem hq

theorem occupied_of_covers {a b : Iv} (h : Covers a b) (hb : Occupied b) : Occupied a := by
  obtain ⟨q, hq⟩ := hb
  exact ⟨q, h _ hq⟩

variable {n : ℕ}

theorem mem_calls {l : List Entry} {j : ℕ} {a : Gate.Act} :
    a ∈ calls l j ↔ ∃ o, (⟨j, a, o⟩ : Entry) ∈ l := by
  rw [← history_fst]
  simp only [List.mem_map, Prod.exists, exists_and_right, exists_eq_right, mem_history]

theorem calls_eq_map {mk : Iv → Gate.Act} {l : List Entry} (h : ∀ x ∈ l, ∃ d, x.act = mk d)
    (j : ℕ) : ∃ ds : List Iv, calls l j = ds.map mk := by
  induction l with
  | nil => exact ⟨[], rfl⟩
  | cons x l ih =>
    obtain ⟨ds, hds⟩ := ih fun y hy => h y (by simp [hy])
    obtain ⟨d, hd⟩ := h x (by simp)
    by_cases hx : x.node = j
    · exact ⟨d :: ds, by simp only [calls] at hds ⊢; simp [hx, hd, hds]⟩
    · exact ⟨ds, by simp only [calls] at hds ⊢; simp [hx, hds]⟩

/-- Everything known about one complete edit of `s` on `d`, seen from curve `j`. -/
structure Edited (net : Net) (s : ℕ) (d : Iv) (l1 l2 : List Entry) (j : ℕ) : Prop where
  occ : ∀ b, Gate.Act.begin b ∈ calls l1 j → Occupied b
  cov : ∀ b, Gate.Act.begin b ∈ calls l1 j → ∃ e, Gate.Act.finish e ∈ calls l2 j ∧ Covers e b

theorem Gate_announced_end {l1 l2 : List Entry} {st1 st2 : St} {j : ℕ}
    (h1 : Local idle st1 l1) (h2 : Local st1 st2 l2)
    (w1 : ∀ x ∈ l1, ∃ d, x.act = Gate.Act.begin d) (w2 : ∀ x ∈ l2, ∃ d, x.act = Gate.Act.finish d)
    (hocc : ∀ b, Gate.Act.begin b ∈ calls l1 j → Occupied b)
    (hcov : ∀ b, Gate.Act.begin b ∈ calls l1 j →
      ∃ e, Gate.Act.finish e ∈ calls l2 j ∧ Covers e b)
    {b : Iv} (hb : Gate.Act.begin b ∈ calls l1 j) :
    ∃ a E, (⟨j, a, some E⟩ : Entry) ∈ l2 ∧ ∀ b', Gate.Act.begin b' ∈ calls l1 j → Covers E b' := by
  obtain ⟨bs, hbs⟩ := calls_eq_map w1 j
  obtain ⟨es, hes⟩ := calls_eq_map w2 j
  have h12 := h1.append h2
  have hlog := h12.log j
  rw [calls_append, hbs, hes] at hlog
  rw [hbs] at hb hocc hcov
  rw [hes] at hcov
  have hb' : b ∈ bs := by simpa using hb
  obtain ⟨d, E, hE, hE'⟩ := Gate.exists_end bs es
    ⟨b, hb', occupied_not_isEmpty (hocc b hb)⟩ (by
      intro b hb
      obtain ⟨e, he, hc⟩ := hcov b (by simpa using hb)
      exact ⟨e, by simpa using he, hc⟩)
  refine ⟨.finish d, E, ?_, ?_⟩
  · have : ((Gate.Act.finish d, some E) : Gate.Act × Option Iv) ∈ history (l1 ++ l2) j := by
      rw [hlog]; exact hE
    rw [mem_history, List.mem_append] at this
    rcases this with h | h
    · obtain ⟨_, hk⟩ := w1 _ h; cases hk
    · exact h
  · intro b' hb'
    rw [hbs] at hb'
    exact hE' b' (by simpa using hb')

/-- A begin announced by an idle curve is the interval it was called with. -/
theorem announced_begin {l1 : List Entry} {st1 : St} (h1 : Local idle st1 l1) {i : ℕ} {d e : Iv}
    (h : (⟨i, .begin d, some e⟩ : Entry) ∈ l1) : e = d := by
  have hm : ((Gate.Act.begin d, some e) : Gate.Act × Option Iv) ∈ history l1 i := mem_history.2 h
  rw [h1.log i] at hm
  clear h h1
  generalize calls l1 i = as at hm
  generalize (idle : St) i = g at hm
  induction as generalizing g with
  | nil => simp [Gate.run] at hm
  | cons a as ih =>
    simp only [Gate.run, List.mem_cons, Prod.mk.injEq] at hm
    rcases hm with ⟨rfl, ho⟩ | hm
    · exact (Gate.act_begin_some ho.symm).1
    · exact ih _ hm

theorem edited {s : ℕ} {d : Iv} (hf : FaithfulNet net) (hd : Occupied d)
    (hac : Acyclic net n) {l1 l2 : List Entry} {st1 st2 : St}
    (h1 : Local idle st1 l1) (h2 : Local st1 st2 l2)
    (w1 : Wave net .begin l1 [(s, d)]) (w2 : Wave net .finish l2 [(s, d)]) (j : ℕ) :
    Edited net s d l1 l2 j := by
  induction j using Nat.strong_induction_on with
  | _ j ih =>
    have key : ∀ b, Gate.Act.begin b ∈ calls l1 j →
        Occupied b ∧ ∃ e, Gate.Act.finish e ∈ calls l2 j ∧ Covers e b := by
      intro b hb
      obtain ⟨o, ho⟩ := mem_calls.1 hb
      rcases w1.up _ ho with ⟨r, hr, hn, ha⟩ | ⟨i, a, e, t, hi, ht, ha⟩
      · rw [List.mem_singleton] at hr
        subst hr
        simp only [Gate.Act.begin.injEq] at hn ha
        subst hn ha
        refine ⟨hd, b, ?_, covers_refl _⟩
        obtain ⟨o', ho'⟩ := w2.root (j, b) (by simp)
        exact mem_calls.2 ⟨o', ho'⟩
      · simp only [Gate.Act.begin.injEq] at ht ha
        subst ha
        have hij : i < j := (hac i _ ht).1
        have hfe := hf i _ ht
        obtain ⟨a', rfl⟩ := w1.kind _ hi
        have hae := announced_begin h1 hi
        subst hae
        have hbi : Gate.Act.begin e ∈ calls l1 i := mem_calls.2 ⟨_, hi⟩
        have hoe := (ih i hij).occ e hbi
        refine ⟨hfe.1 e hoe, ?_⟩
        obtain ⟨a', E, hE, hcE⟩ := Gate_announced_end h1 h2 w1.kind w2.kind (ih i hij).occ
          (ih i hij).cov hbi
        obtain ⟨o', ho'⟩ := w2.down i a' E hE j t ht
        exact ⟨t E, mem_calls.2 ⟨o', ho'⟩, hfe.2 E e hoe (hcE e hbi)⟩
    exact ⟨fun b hb => (key b hb).1, fun b hb => (key b hb).2⟩

/-- An idle curve announces the first begin it gets. -/
theorem first_announced {l1 : List Entry} {st1 : St} (h1 : Local idle st1 l1) {j : ℕ} {d0 : Iv}
    {ds : List Iv} (hds : calls l1 j = (d0 :: ds).map .begin) (ho : Occupied d0) :
    (⟨j, .begin d0, some d0⟩ : Entry) ∈ l1 := by
  have hl := h1.log j
  rw [hds, List.map_cons] at hl
  simp only [Gate.run, idle] at hl
  have hann : (Gate.init.act (.begin d0)).2 = some d0 := by
    simp only [Gate.act, Gate.begin]
    rw [if_neg]
    rw [occupied_not_isEmpty ho]
    simp only [Bool.false_or, Bool.not_eq_true]
    rw [Bool.eq_false_iff, ne_eq, ← covers_iff]
    intro hc
    obtain ⟨q, hq⟩ := ho
    have := hc _ hq
    have h0 : Gate.init.bIv.isEmpty = true := by decide
    rw [Iv.isEmpty_iff_forall] at h0
    rw [h0] at this
    cases this
  have hm : ((Gate.Act.begin d0, some d0) : Gate.Act × Option Iv) ∈ history l1 j := by
    rw [hl, hann]; simp
  exact mem_history.1 hm

/-- Called curves are dependents, and dependents are called. -/
theorem called_iff {s : ℕ} {d : Iv} (hac : Acyclic net n)
    {l1 : List Entry} {st1 : St}
    (h1 : Local idle st1 l1) (w1 : Wave net .begin l1 [(s, d)])
    (hocc : ∀ j b, Gate.Act.begin b ∈ calls l1 j → Occupied b) (j : ℕ) :
    Depends net s j ↔ ∃ b, Gate.Act.begin b ∈ calls l1 j := by
  constructor
  · intro h
    induction h with
    | self =>
      obtain ⟨o, ho⟩ := w1.root (s, d) (by simp)
      exact ⟨d, mem_calls.2 ⟨o, ho⟩⟩
    | @step j k t _ ht ih =>
      obtain ⟨b, hb⟩ := ih
      -- the first call is announced
      obtain ⟨ds, hds⟩ := calls_eq_map w1.kind j
      cases ds with
      | nil => rw [hds] at hb; simp at hb
      | cons d0 ds =>
        have ho : Occupied d0 := hocc j d0 (by rw [hds]; simp)
        obtain ⟨o, ho⟩ := w1.down j _ d0 (first_announced h1 hds ho) k t ht
        exact ⟨t d0, mem_calls.2 ⟨o, ho⟩⟩
  · induction j using Nat.strong_induction_on with
    | _ j ih =>
      rintro ⟨b, hb⟩
      obtain ⟨o, ho⟩ := mem_calls.1 hb
      rcases w1.up _ ho with ⟨r, hr, hn, -⟩ | ⟨i, a, e, t, hi, ht, ha⟩
      · rw [List.mem_singleton] at hr
        subst hr
        simp only at hn
        subst hn
        exact .self
      · obtain ⟨a', rfl⟩ := w1.kind _ hi
        exact .step (ih i (hac i _ ht).1 ⟨a', mem_calls.2 ⟨_, hi⟩⟩) ht

theorem mem_beginsOf {l : List Entry} {j : ℕ} {e : Iv} :
    e ∈ beginsOf l j ↔ ∃ d, (⟨j, .begin d, some e⟩ : Entry) ∈ l := by
  simp only [beginsOf, List.mem_filterMap]
  constructor
  · rintro ⟨⟨i, a, o⟩, hx, h⟩
    cases a with
    | begin d =>
      simp only at h
      split at h
      · rename_i hi; subst hi; subst h; exact ⟨d, hx⟩
      · cases h
    | finish d => cases h
  · rintro ⟨d, h⟩
    exact ⟨_, h, by simp⟩

theorem mem_endsOf {l : List Entry} {j : ℕ} {e : Iv} :
    e ∈ endsOf l j ↔ ∃ d, (⟨j, .finish d, some e⟩ : Entry) ∈ l := by
  simp only [endsOf, List.mem_filterMap]
  constructor
  · rintro ⟨⟨i, a, o⟩, hx, h⟩
    cases a with
    | begin d => cases h
    | finish d =>
      simp only at h
      split at h
      · rename_i hi; subst hi; subst h; exact ⟨d, hx⟩
      · cases h
  · rintro ⟨d, h⟩
    exact ⟨_, h, by simp⟩


/-- How many dependents numbered `j` are called because of an entry. -/
def weight (net : Net) (j : ℕ) (x : Entry) : ℕ :=
  if x.announced.isSome then ((net.out x.node).filter fun e => e.1 = j).length else 0

theorem forEach_count {mk : Iv → Gate.Act} {f : St → ℕ → Iv → St × List Entry}
    {es : List (ℕ × (Iv → Iv))} {e : Iv} (j : ℕ)
    (hf : ∀ p ∈ es, ∀ st d, (calls (f st p.1 d).2 j).length =
      (if p.1 = j then 1 else 0) + ((f st p.1 d).2.map (weight net j)).sum) (st : St) :
    (calls (forEach f e es st).2 j).length =
      (es.filter fun p => p.1 = j).length + ((forEach f e es st).2.map (weight net j)).sum := by
  induction es generalizing st with
  | nil => rfl
  | cons p es ih =>
    obtain ⟨k, t⟩ := p
    have h1 := hf (k, t) (by simp) st (t e)
    have h2 := ih (fun p hp => hf p (by simp [hp])) (f st k (t e)).1
    simp only [forEach, calls_append, List.length_append, List.map_append, List.sum_append]
    simp only at h1
    rw [h1, h2]
    by_cases hk : k = j
    · simp [hk]; omega
    · simp [hk]; omega

theorem propagate_count (hac : Acyclic net n) (k : ℕ) (st : St) (i : ℕ) (d : Iv) (j : ℕ)
    (hi : i < n) (hk : n ≤ i + k) :
    (calls (net.propagate mk k st i d).2 j).length =
      (if i = j then 1 else 0) + ((net.propagate mk k st i d).2.map (weight net j)).sum := by
  induction k generalizing st i d with
  | zero => omega
  | succ k ih =>
    unfold propagate
    rcases hact : (st i).act (mk d) with ⟨g, o⟩
    cases o with
    | none =>
      by_cases h : i = j
      · simp [calls, weight, h]
      · simp [calls, weight, h]
    | some e =>
      simp only
      have hfe := forEach_count (net := net) (mk := mk) (f := net.propagate mk k)
        (es := net.out i) (e := e) j (fun p hp st' d' => by
          have := hac i p hp
          exact ih st' p.1 d' this.2 (by omega)) (upd st i g)
      have hc : ∀ l : List Entry, (calls (⟨i, mk d, some e⟩ :: l) j).length =
          (if i = j then 1 else 0) + (calls l j).length := by
        intro l
        by_cases h : i = j
        · simp [calls, h]; omega
        · simp [calls, h]
      rw [hc, hfe, List.map_cons, List.sum_cons]
      simp [weight]

theorem depends_le {s j : ℕ} (hac : Acyclic net n) (h : Depends net s j) : s ≤ j := by
  induction h with
  | self => exact le_refl _
  | step _ ht ih => exact ih.trans (hac _ _ ht).1.le

theorem sum_le_length {l : List Entry} {f : Entry → ℕ} {p : Entry → Bool}
    (h0 : ∀ x ∈ l, p x = false → f x = 0) (h1 : ∀ x ∈ l, p x = true → f x ≤ 1) :
    (l.map f).sum ≤ (l.filter p).length := by
  induction l with
  | nil => simp
  | cons x l ih =>
    have := ih (fun y hy => h0 y (by simp [hy])) (fun y hy => h1 y (by simp [hy]))
    cases hp : p x with
    | true => have := h1 x (by simp) hp; simp [hp]; omega
    | false => have := h0 x (by simp) hp; simp [hp]; omega

/-- In a forest every curve is called at most once per wave. -/
theorem calls_le_one (hac : Acyclic net n) (hfo : Forest net) {l : List Entry} {s : ℕ}
    (hcount : ∀ j, (calls l j).length = (if s = j then 1 else 0) + (l.map (weight net j)).sum)
    (hdep : ∀ x ∈ l, s ≤ x.node) (j : ℕ) : (calls l j).length ≤ 1 := by
  induction j using Nat.strong_induction_on with
  | _ j ih =>
    rw [hcount j]
    have hw : ∀ x ∈ l, weight net j x ≠ 0 → x.node < j ∧ ∃ t, (j, t) ∈ net.out x.node := by
      intro x _ hx
      unfold weight at hx
      split at hx
      · obtain ⟨p, hp⟩ := List.exists_mem_of_length_pos (Nat.pos_of_ne_zero hx)
        rw [List.mem_filter] at hp
        obtain ⟨k, t⟩ := p
        simp only [decide_eq_true_eq] at hp
        obtain ⟨hp, rfl⟩ := hp
        exact ⟨(hac _ _ hp).1, t, hp⟩
      · exact absurd rfl hx
    by_cases hs : s = j
    · have : (l.map (weight net j)).sum = 0 := by
        rw [List.sum_eq_zero]
        intro y hy
        obtain ⟨x, hx, rfl⟩ := List.mem_map.1 hy
        by_contra hne
        have := (hw x hx hne).1
        have := hdep x hx
        omega
      simp [hs, this]
    · simp only [hs, if_false, Nat.zero_add]
      by_cases hex : ∃ x ∈ l, weight net j x ≠ 0
      · obtain ⟨x0, hx0, hne0⟩ := hex
        obtain ⟨hlt, ht⟩ := hw x0 hx0 hne0
        refine le_trans (sum_le_length (p := fun x => decide (x.node = x0.node)) ?_ ?_) ?_
        · intro x hx hp
          by_contra hne
          have := (hfo j).1 _ _ (hw x hx hne).2 ht
          simp [this] at hp
        · intro x _ _
          unfold weight
          split
          · exact (hfo j).2 _
          · omega
        · refine le_trans ?_ (ih x0.node hlt)
          simp [calls]
      · push Not at hex
        rw [List.sum_eq_zero]
        · omega
        · intro y hy
          obtain ⟨x, hx, rfl⟩ := List.mem_map.1 hy
          exact hex x hx

theorem length_beginsOf_le (l : List Entry) (j : ℕ) :
    (beginsOf l j).length ≤ (calls l j).length := by
  induction l with
  | nil => simp [beginsOf]
  | cons x l ih =>
    obtain ⟨i, a, o⟩ := x
    simp only [beginsOf, calls, List.length_map] at ih ⊢
    by_cases h : i = j
    · cases a <;> cases o <;> simp [h] <;> omega
    · cases a <;> simp [h] <;> omega

theorem length_endsOf_le (l : List Entry) (j : ℕ) :
    (endsOf l j).length ≤ (calls l j).length := by
  induction l with
  | nil => simp [endsOf]
  | cons x l ih =>
    obtain ⟨i, a, o⟩ := x
    simp only [endsOf, calls, List.length_map] at ih ⊢
    by_cases h : i = j
    · cases a <;> cases o <;> simp [h] <;> omega
    · cases a <;> simp [h] <;> omega

/-- Everything that happens is at a dependent. -/
theorem wave_depends {s : ℕ} {d : Iv} {mk : Iv → Gate.Act} {l : List Entry} (hac : Acyclic net n)
    (w : Wave net mk l [(s, d)]) : ∀ x ∈ l, Depends net s x.node := by
  have : ∀ j, ∀ x ∈ l, x.node = j → Depends net s j := by
    intro j
    induction j using Nat.strong_induction_on with
    | _ j ih =>
      rintro x hx rfl
      rcases w.up x hx with ⟨r, hr, hn, -⟩ | ⟨i, a, e, t, hi, ht, -⟩
      · rw [List.mem_singleton] at hr
        subst hr
        rw [hn]; exact .self
      · exact .step (ih i (hac i _ ht).1 _ hi rfl) ht
  exact fun x hx => this _ x hx rfl

end Net
end Curvepy
