import Verif.Lemmas.Combine
import Verif.Spec.Sampling
import Verif.Props.Combinators
import Verif.Props.PointsQuery
import Verif.Props.Line

/-!
# Sampling: C37-C40, C42-C44
-/

namespace Curvepy.Props
open Spec Crv

/-! ## C37 -/

/-- The setting of the sampling theorems: the common domain is between two numbers. -/
structure OnInterval (c : Crv) (domain : Option Iv) (a b : ℚ) : Prop where
  ne : (sampleDomain c domain).isEmpty = false
  lo : (sampleDomain c domain).lo = .fin a
  hi : (sampleDomain c domain).hi = .fin b

theorem OnInterval.finite {c : Crv} {domain : Option Iv} {a b : ℚ} (h : OnInterval c domain a b) :
    (sampleDomain c domain).isFinite = true := by
  simp [Iv.isFinite, Iv.isNegInf, Iv.isPosInf, h.ne, h.lo, h.hi]

theorem OnInterval.le {c : Crv} {domain : Option Iv} {a b : ℚ} (h : OnInterval c domain a b) :
    a ≤ b := by
  have := h.ne
  simp only [Iv.isEmpty, h.lo, h.hi, Bool.or_eq_false_iff, decide_eq_false_iff_not, Ext.fin_lt_fin,
    not_lt] at this
  exact this.1

theorem stepLoop_spec (c : Crv) (a b s : ℚ) (v : ℕ → Option Num) (N : ℕ)
    (hN : ∀ k : ℕ, k ≤ N ↔ a + k * s ≤ b)
    (hv : ∀ k : ℕ, k ≤ N → c.y (.fin (a + k * s)) = .ok (v k)) (r j fuel : ℕ) (hj : j + r = N + 1)
    (hf : r < fuel) :
    stepLoop c b s fuel (a + j * s) =
      some (.ok ((List.range' j r).map fun k : ℕ => (.fin (a + k * s), v k))) := by
  induction r generalizing j fuel with
  | zero =>
    obtain ⟨f, rfl⟩ : ∃ f, fuel = f + 1 := ⟨fuel - 1, by omega⟩
    have : ¬ (a + j * s ≤ b) := fun h => by have := (hN j).2 h; omega
    simp [stepLoop, this]
  | succ r ih =>
    obtain ⟨f, rfl⟩ : ∃ f, fuel = f + 1 := ⟨fuel - 1, by omega⟩
    have hjN : j ≤ N := by omega
    simp only [stepLoop, (hN j).1 hjN, if_true, hv j hjN]
    have e : a + j * s + s = a + ((j + 1 : ℕ) : ℚ) * s := by push_cast; ring
    rw [e, ih (j + 1) f (by omega) (by omega)]
    rfl

theorem endBin_ok {b : ℚ} {m : Option Ext} (hm : m ≠ some (.fin 0)) : ∃ e, endBin b m = .ok e := by
  cases m with
  | none => exact ⟨0, rfl⟩
  | some m =>
    cases m with
    | fin q =>
      have : q ≠ 0 := by rintro rfl; exact hm rfl
      exact ⟨_, by simp [endBin, bin, this]; rfl⟩
    | _ => exact ⟨0, rfl⟩

/-- **C37** Sampling with a step `s > 0` returns exactly the points at `a + k s` for `k = 0, 1, ...` up
to `b` (from `k = 1` if the domain is open at `a`), each with the curve's value, after finitely many
steps. -/
theorem C37_step (c : Crv) (domain : Option Iv) (minStep : Option Ext) (a b s : ℚ) (hs : 0 < s)
    (hd : OnInterval c domain a b) (hm : resolve c.minStep minStep ≠ some (.fin 0))
    (v : ℕ → Option Num)
    (hv : ∀ k : ℕ, a + k * s ≤ b → c.y (.fin (a + k * s)) = .ok (v k)) :
    ∃ N : ℕ, (∀ k : ℕ, k ≤ N ↔ a + k * s ≤ b) ∧ ∀ fuel, N < fuel →
      samplePoints c domain minStep (some s) fuel = some (.ok
        (((List.range (N + 1)).map fun k : ℕ => ((.fin (a + k * s), v k) : Sample)).drop
          (if (sampleDomain c domain).loOpen then 1 else 0))) := by
  have hab := hd.le
  have hN : ∀ k : ℕ, k ≤ ⌊(b - a) / s⌋₊ ↔ a + k * s ≤ b := by
    intro k
    rw [Nat.le_floor_iff (div_nonneg (by linarith) hs.le), le_div_iff₀ hs]
    constructor <;> intro h <;> linarith
  refine ⟨⌊(b - a) / s⌋₊, hN, ?_⟩
  generalize ⌊(b - a) / s⌋₊ = N at hN
  intro fuel hf
  have hloop := stepLoop_spec c a b s v N hN (fun k hk => hv k ((hN k).1 hk)) N 1 fuel
    (by omega) hf
  have hbin := endBin_ok (b := b) hm
  obtain ⟨e, he⟩ := hbin
  unfold samplePoints
  simp only [hd.ne, hd.finite, hd.lo, hd.hi]
  rw [he]
  have ha0 : c.y (.fin a) = .ok (v 0) := by
    have := hv 0 (by simpa using hab)
    simpa using this
  have hloop' : stepLoop c b s fuel (a + s) =
      some (.ok ((List.range' 1 N).map fun k : ℕ => (.fin (a + k * s), v k))) := by
    rw [← hloop]; simp
  rw [List.range_eq_range', List.range'_succ]
  cases hlo : (sampleDomain c domain).loOpen with
  | true =>
    simp [hloop', Except.map, firstSample]
  | false =>
    simp [ha0, hloop', Except.map, firstSample]

/-- **C37** The other direction: with a step that is not positive (and a curve that does not raise)
sampling never ends. -/
theorem C37_endless (c : Crv) (domain : Option Iv) (minStep : Option Ext) (a b s : ℚ) (hs : s ≤ 0)
    (hd : OnInterval c domain a b) (hm : resolve c.minStep minStep ≠ some (.fin 0))
    (hv : ∀ x, ∃ v, c.y x = .ok v) (fuel : ℕ) :
    samplePoints c domain minStep (some s) fuel = none := by
  have hab := hd.le
  have key : ∀ fuel (x : ℚ), x ≤ b → stepLoop c b s fuel x = none := by
    intro fuel
    induction fuel with
    | zero => intro x _; rfl
    | succ n ih =>
      intro x hx
      obtain ⟨v, hv⟩ := hv (.fin x)
      simp [stepLoop, hx, hv, ih (x + s) (by linarith)]
  have hbin := endBin_ok (b := b) hm
  obtain ⟨e, he⟩ := hbin
  obtain ⟨va, hva⟩ := hv (.fin a)
  unfold samplePoints
  simp only [hd.ne, hd.finite, hd.lo, hd.hi]
  rw [he]
  have := key fuel (a + s) (by linarith)
  cases hlo : (sampleDomain c domain).loOpen with
  | true => simp [this, firstSample]
  | false => simp [hva, this, firstSample]

example : samplePoints square (some (Iv.openClosed 3 5)) none (some (1 / 2)) 10 =
      some (.ok [(.fin (7 / 2), some (.fin (49 / 4))), (.fin 4, some (.fin 16)),
        (.fin (9 / 2), some (.fin (81 / 4))), (.fin 5, some (.fin 25))]) ∧
    OnInterval square (some (Iv.openClosed 3 5)) 3 5 :=
  ⟨by decide +kernel, by decide +kernel, by decide +kernel, by decide +kernel⟩

/-! ## C38 -/

theorem pyRound_bounds (q : ℚ) : q - 1 / 2 ≤ pyRound q ∧ (pyRound q : ℚ) ≤ q + 1 / 2 := by
  have h1 := Int.floor_le q
  have h2 := Int.lt_floor_add_one q
  unfold pyRound
  split
  · constructor <;> linarith
  · split
    · push_cast; constructor <;> linarith
    · have : q - ⌊q⌋ = 1 / 2 := le_antisymm (not_lt.1 ‹_›) (not_lt.1 ‹_›)
      split
      · constructor <;> linarith
      · push_cast; constructor <;> linarith

theorem pyRound_lt {q : ℚ} (h : ∀ n : ℤ, q ≠ n + 1 / 2) : (pyRound q : ℚ) < q + 1 / 2 := by
  refine lt_of_le_of_ne (pyRound_bounds q).2 ?_
  intro e
  apply h (pyRound q - 1)
  push_cast
  linarith

theorem pyRound_mono {q r : ℚ} (h : ∀ n : ℤ, q ≠ n + 1 / 2) (hqr : q ≤ r) :
    pyRound q ≤ pyRound r := by
  have h1 := pyRound_lt h
  have h2 := (pyRound_bounds r).1
  have : (pyRound q : ℚ) < (pyRound r + 1 : ℤ) := by push_cast; linarith
  exact Int.lt_add_one_iff.1 (by exact_mod_cast this)

theorem pyRound_step {q r : ℚ} (h : ∀ n : ℤ, q ≠ n + 1 / 2) (hqr : q + 1 ≤ r) :
    pyRound q < pyRound r := by
  have h1 := pyRound_lt h
  have h2 := (pyRound_bounds r).1
  have : (pyRound q : ℚ) < (pyRound r : ℤ) := by linarith
  exact_mod_cast this

theorem chain_head {c : Crv} {m b x : ℚ} {l : List ℚ} (h : Chain c m b x l) :
    ∃ t, l = x :: t ∧ x ≤ b := by
  cases h with
  | last => exact ⟨[], rfl, le_refl _⟩
  | stop h _ => exact ⟨[], rfl, h.le⟩
  | next h _ _ _ => exact ⟨_, rfl, h.le⟩

theorem chain_sorted {c : Crv} {m b x : ℚ} {l : List ℚ} (hm : 0 < m) (h : Chain c m b x l)
    (ha : ∀ z ∈ l, Advances c m b z) : l.Pairwise (· < ·) ∧ (∀ z ∈ l, x ≤ z ∧ z ≤ b) := by
  induction h with
  | last => simp
  | stop h _ => simp [h.le]
  | @next x z l hx hn hz hl ih =>
    have hxz : x < z := by
      obtain ⟨q, hq, h⟩ := ha x (by simp) (.fin z) hn
      cases hq
      rcases h with h | h
      · linarith
      · rw [h]; exact hx
    obtain ⟨i1, i2⟩ := ih fun y hy => ha y (by simp [hy])
    constructor
    · rw [List.pairwise_cons]
      exact ⟨fun y hy => hxz.trans_le (i2 y hy).1, i1⟩
    · intro y hy
      rcases List.mem_cons.1 hy with rfl | hy
      · exact ⟨le_refl _, hx.le⟩
      · exact ⟨hxz.le.trans (i2 y hy).1, (i2 y hy).2⟩

theorem chainLoop_spec {c : Crv} {m b x : ℚ} {l : List ℚ} (hm : 0 < m) (h : Chain c m b x l)
    (ha : ∀ z ∈ l, Advances c m b z) (hh : ∀ z ∈ l, NotHalfway m z) (v : ℚ → Option Num)
    (hv : ∀ z ∈ l, c.y (.fin z) = .ok (v z)) (fuel : ℕ) (hf : l.length < fuel) :
    ∃ L : List ℚ, (L = l ∨ (L ≠ [] ∧ L ++ [b] = l)) ∧
      chainLoop c (.fin m) (.fin b) (pyRound (b / m)) fuel (some (.fin x)) =
        some (.ok (L.map fun z => (.fin z, v z))) := by
  have hbins : ∀ x z : ℚ, NotHalfway m x → x + m ≤ z → pyRound (x / m) < pyRound (z / m) := by
    intro x z h1 h2
    apply pyRound_step h1
    rw [div_add_one hm.ne']
    exact div_le_div_of_nonneg_right h2 hm.le
  induction h generalizing fuel with
  | last =>
    obtain ⟨f, rfl⟩ : ∃ f, fuel = f + 1 := ⟨fuel - 1, by simp at hf; omega⟩
    refine ⟨[b], Or.inl rfl, ?_⟩
    simp [chainLoop, hv b (by simp), bin, hm.ne']
  | @stop x hx hn =>
    obtain ⟨f, rfl⟩ : ∃ f, fuel = f + 2 := ⟨fuel - 2, by simp at hf; omega⟩
    refine ⟨[x], Or.inl rfl, ?_⟩
    rw [chainLoop]
    simp only [Ext.fin_le_fin, hx.le, if_true, hv x (by simp), bin, hm.ne', if_false]
    split
    · rfl
    · rcases hn with hn | ⟨z, hn, hz⟩
      · rw [hn]; rfl
      · rw [hn]
        have hxz : x + m ≤ z := by
          obtain ⟨q, hq, h⟩ := ha x (by simp) (.fin z) hn
          cases hq
          rcases h with h | h
          · exact h
          · rw [h] at hz; exact absurd hz (lt_irrefl _)
        have hlt := hbins x z (hh x (by simp)) hxz
        simp [hlt, chainLoop, not_le.2 hz, Except.map, hm.ne']
  | @next x z l hx hn hz hl ih =>
    obtain ⟨f, rfl⟩ : ∃ f, fuel = f + 1 := ⟨fuel - 1, by simp at hf; omega⟩
    have hadv : x + m ≤ z ∨ z = b := by
      obtain ⟨q, hq, h⟩ := ha x (by simp) (.fin z) hn
      cases hq
      exact h
    obtain ⟨t, rfl, _⟩ := chain_head hl
    rw [chainLoop]
    simp only [Ext.fin_le_fin, hx.le, if_true, hv x (by simp), bin, hm.ne', if_false]
    have hxb : pyRound (x / m) ≤ pyRound (b / m) :=
      pyRound_mono (hh x (by simp)) (div_le_div_of_nonneg_right hx.le hm.le)
    have hzb : pyRound (z / m) ≤ pyRound (b / m) :=
      pyRound_mono (hh z (by simp)) (div_le_div_of_nonneg_right hz hm.le)
    split
    · rename_i heq
      refine ⟨[x], Or.inr ⟨by simp, ?_⟩, rfl⟩
      have hz' : z = b := by
        rcases hadv with h | h
        · have := hbins x z (hh x (by simp)) h
          omega
        · exact h
      subst hz'
      cases hl with
      | last => rfl
      | stop h _ => exact absurd h (lt_irrefl _)
      | next h _ _ _ => exact absurd h (lt_irrefl _)
    · rename_i hne
      have hlt : pyRound (x / m) < pyRound (z / m) := by
        rcases hadv with h | h
        · exact hbins x z (hh x (by simp)) h
        · subst h; omega
      obtain ⟨L, hL, hrun⟩ := ih (fun y hy => ha y (by simp [hy])) (fun y hy => hh y (by simp [hy]))
        (fun y hy => hv y (by simp [hy])) f (by simp at hf ⊢; omega)
      refine ⟨x :: L, ?_, ?_⟩
      · rcases hL with rfl | ⟨h1, h2⟩
        · exact Or.inl rfl
        · exact Or.inr ⟨by simp, by rw [← h2]; rfl⟩
      · rw [hn]
        simp [hlt, hrun, Except.map, hm.ne']

/-- Appending the end of the domain to increasing positions inside it. -/
theorem addEnd_spec {c : Crv} {d : Iv} {b : ℚ} (hb : d.hi = .fin b) (v : ℚ → Option Num)
    (hv : c.y (.fin b) = .ok (v b)) (L : List ℚ) (hne : L ≠ [] ∨ d.hiOpen = true)
    (hs : L.Pairwise (· < ·)) (hle : ∀ z ∈ L, z ≤ b) :
    ∃ zs : List ℚ, addEnd c d (L.map fun z => (.fin z, v z)) =
        .ok (zs.map fun z => (.fin z, v z)) ∧
      zs.Pairwise (· < ·) ∧ (∀ z, z ∈ zs ↔ z ∈ L ∨ (z = b ∧ d.hiOpen = false)) := by
  cases ho : d.hiOpen with
  | true => exact ⟨L, by simp [addEnd, ho], hs, by simp⟩
  | false =>
    have hne : L ≠ [] := by simpa [ho] using hne
    obtain ⟨K, q, rfl⟩ : ∃ K q, L = K ++ [q] :=
      ⟨L.dropLast, L.getLast hne, (List.dropLast_append_getLast hne).symm⟩
    by_cases hq : q = b
    · subst hq
      refine ⟨K ++ [q], by simp [addEnd, ho, hb], hs, by simp⟩
    · refine ⟨K ++ [q] ++ [b], by simp [addEnd, ho, hb, hq, hv], ?_, by simp [or_assoc]⟩
      rw [List.pairwise_append]
      refine ⟨hs, by simp, ?_⟩
      intro z hz w hw
      rw [List.mem_singleton.1 hw]
      have hqb : q < b := lt_of_le_of_ne (hle q (by simp)) hq
      rcases List.mem_append.1 hz with hz' | hz'
      · have := (List.pairwise_append.1 hs).2.2 z hz' q (by simp)
        exact this.trans hqb
      · rw [List.mem_singleton.1 hz']; exact hqb

/-- **C38** (partial: only for positions that are no odd multiples of half the step, and only if there
is a position at all after the start; see `C38_negation`)  Sampling without a step returns strictly
increasing positions in the domain: the start exactly if it belongs to the domain, the end if it
belongs to the domain, every position in between that the curve's `x_next` yields, and nothing else,
each with the curve's value. -/
theorem C38_partial (c : Crv) (domain : Option Iv) (minStep : Option Ext) (a b m : ℚ)
    (hd : OnInterval c domain a b) (hab : a < b) (hr : resolve c.minStep minStep = some (.fin m))
    (hm : 0 < m) (x : ℚ) (l : List ℚ)
    (hx : c.xNext (.fin a) (some (.fin m)) (some (.fin b)) = .ok (some (.fin x)))
    (hc : Chain c m b x l) (ha : ∀ z ∈ a :: l, Advances c m b z) (hh : ∀ z ∈ l, NotHalfway m z)
    (v : ℚ → Option Num) (hv : ∀ z ∈ a :: b :: l, c.y (.fin z) = .ok (v z)) (fuel : ℕ)
    (hf : l.length < fuel) :
    ∃ zs : List ℚ,
      samplePoints c domain minStep none fuel = some (.ok (zs.map fun z => (.fin z, v z))) ∧
      zs.Pairwise (· < ·) ∧ (∀ z ∈ zs, a ≤ z ∧ z ≤ b) ∧
      (a ∈ zs ↔ (sampleDomain c domain).loOpen = false) ∧
      ((sampleDomain c domain).hiOpen = false → b ∈ zs) ∧
      (∀ z ∈ l, z < b → z ∈ zs) ∧ (∀ z ∈ zs, z = a ∨ z = b ∨ z ∈ l) := by
  have hax : a < x := by
    obtain ⟨q, hq, h⟩ := ha a (by simp) (.fin x) hx
    cases hq
    rcases h with h | h
    · linarith
    · rw [h]; exact hab
  obtain ⟨hs, hbd⟩ := chain_sorted hm hc fun z hz => ha z (by simp [hz])
  obtain ⟨t, ht, hxb⟩ := chain_head hc
  obtain ⟨L, hL, hrun⟩ := chainLoop_spec hm hc (fun z hz => ha z (by simp [hz])) hh v
    (fun z hz => hv z (by simp [hz])) fuel hf
  have hsub : ∀ z ∈ L, z ∈ l := by
    rcases hL with rfl | ⟨_, h⟩
    · exact fun _ h => h
    · intro z hz; rw [← h]; simp [hz]
  have hsup : ∀ z ∈ l, z < b → z ∈ L := by
    rcases hL with rfl | ⟨_, h⟩
    · exact fun _ h _ => h
    · intro z hz hzb; rw [← h] at hz
      rcases List.mem_append.1 hz with h | h
      · exact h
      · rw [List.mem_singleton.1 h] at hzb; exact absurd hzb (lt_irrefl _)
  have hLs : L.Pairwise (· < ·) := by
    rcases hL with rfl | ⟨_, h⟩
    · exact hs
    · rw [← h] at hs; exact (List.pairwise_append.1 hs).1
  have hLne : L ≠ [] := by
    rcases hL with rfl | ⟨h, _⟩
    · rw [ht]; simp
    · exact h
  have hfirst : firstSample c a (sampleDomain c domain).loOpen = .ok
      (((if (sampleDomain c domain).loOpen then [] else [a]) : List ℚ).map fun z => (.fin z, v z)) := by
    cases (sampleDomain c domain).loOpen <;> simp [firstSample, hv a (by simp)]
  obtain ⟨zs, hz1, hz2, hz3⟩ := addEnd_spec (c := c) hd.hi v (hv b (by simp))
    ((if (sampleDomain c domain).loOpen then [] else [a]) ++ L) (Or.inl (by simp [hLne]))
    (by
      rw [List.pairwise_append]
      refine ⟨by cases (sampleDomain c domain).loOpen <;> simp, hLs, ?_⟩
      intro z hz w hw
      have : z = a := by revert hz; cases (sampleDomain c domain).loOpen <;> simp
      rw [this]
      exact hax.trans_le (hbd w (hsub w hw)).1)
    (by
      intro z hz
      rcases List.mem_append.1 hz with h | h
      · have : z = a := by revert h; cases (sampleDomain c domain).loOpen <;> simp
        rw [this]; exact hab.le
      · exact (hbd z (hsub z h)).2)
  have hmem : ∀ z, z ∈ zs ↔ (z = a ∧ (sampleDomain c domain).loOpen = false) ∨ z ∈ L ∨
      (z = b ∧ (sampleDomain c domain).hiOpen = false) := by
    intro z
    rw [hz3 z, List.mem_append]
    cases (sampleDomain c domain).loOpen <;> simp [or_assoc]
  refine ⟨zs, ?_, hz2, ?_, ?_, ?_, ?_, ?_⟩
  · unfold samplePoints
    simp only [hd.ne, hd.finite, hd.lo, hd.hi, hr, hfirst]
    simp only [endBin, bin, hm.ne', if_false, Bool.false_eq_true, Bool.not_true, Ext.fin_lt_fin, hm,
      if_true, hx]
    rw [hrun]
    simp only [Option.map_some]
    rw [← List.map_append, hz1]
  · intro z hz
    rcases (hmem z).1 hz with h | h | h
    · rw [h.1]; exact ⟨le_refl _, hab.le⟩
    · exact ⟨(hax.trans_le (hbd z (hsub z h)).1).le, (hbd z (hsub z h)).2⟩
    · rw [h.1]; exact ⟨hab.le, le_refl _⟩
  · rw [hmem]
    constructor
    · rintro (h | h | h)
      · exact h.2
      · exact absurd (hbd a (hsub a h)).1 (not_le.2 hax)
      · exact absurd h.1 hab.ne
    · exact fun h => Or.inl ⟨rfl, h⟩
  · exact fun h => (hmem b).2 (Or.inr (Or.inr ⟨rfl, h⟩))
  · exact fun z hz hzb => (hmem z).2 (Or.inr (Or.inl (hsup z hz hzb)))
  · intro z hz
    rcases (hmem z).1 hz with h | h | h
    · exact Or.inl h.1
    · exact Or.inr (Or.inr (hsub z h))
    · exact Or.inr (Or.inl h.1)

/-- **C38** If the curve has no position after the start, the start and the end are sampled. -/
theorem C38_ends (c : Crv) (domain : Option Iv) (minStep : Option Ext) (a b m : ℚ)
    (hd : OnInterval c domain a b) (hab : a < b) (hr : resolve c.minStep minStep = some (.fin m))
    (hm : 0 < m) (ho : (sampleDomain c domain).loOpen = false ∨ (sampleDomain c domain).hiOpen = true)
    (hx : c.xNext (.fin a) (some (.fin m)) (some (.fin b)) = .ok none ∨
      ∃ x, c.xNext (.fin a) (some (.fin m)) (some (.fin b)) = .ok (some (.fin x)) ∧ b < x)
    (v : ℚ → Option Num) (hv : ∀ z ∈ [a, b], c.y (.fin z) = .ok (v z)) (fuel : ℕ) (hf : 0 < fuel) :
    ∃ zs : List ℚ,
      samplePoints c domain minStep none fuel = some (.ok (zs.map fun z => (.fin z, v z))) ∧
      zs.Pairwise (· < ·) ∧ ∀ z, z ∈ zs ↔ (z = a ∧ (sampleDomain c domain).loOpen = false) ∨
        (z = b ∧ (sampleDomain c domain).hiOpen = false) := by
  have hfirst : firstSample c a (sampleDomain c domain).loOpen = .ok
      (((if (sampleDomain c domain).loOpen then [] else [a]) : List ℚ).map fun z => (.fin z, v z)) := by
    cases (sampleDomain c domain).loOpen <;> simp [firstSample, hv a (by simp)]
  obtain ⟨zs, hz1, hz2, hz3⟩ := addEnd_spec (c := c) hd.hi v (hv b (by simp))
    (if (sampleDomain c domain).loOpen then [] else [a])
    (by
      rcases ho with h | h
      · exact Or.inl (by simp [h])
      · exact Or.inr h)
    (by cases (sampleDomain c domain).loOpen <;> simp)
    (by
      intro z hz
      have : z = a := by revert hz; cases (sampleDomain c domain).loOpen <;> simp
      rw [this]; exact hab.le)
  have hmem : ∀ z, z ∈ zs ↔ (z = a ∧ (sampleDomain c domain).loOpen = false) ∨
      (z = b ∧ (sampleDomain c domain).hiOpen = false) := by
    intro z
    rw [hz3 z]
    cases (sampleDomain c domain).loOpen <;> simp
  obtain ⟨f, rfl⟩ : ∃ f, fuel = f + 1 := ⟨fuel - 1, by omega⟩
  refine ⟨zs, ?_, hz2, hmem⟩
  unfold samplePoints
  simp only [hd.ne, hd.finite, hd.lo, hd.hi, hr, hfirst]
  simp only [endBin, bin, hm.ne', if_false, Bool.false_eq_true, Bool.not_true, Ext.fin_lt_fin, hm,
    if_true]
  rcases hx with hx | ⟨x, hx, hxb⟩
  · simp only [hx, chainLoop, Option.map_some, List.append_nil, hz1]
  · simp only [hx, chainLoop, Ext.fin_le_fin, not_le.2 hxb, if_false, Option.map_some,
      List.append_nil, hz1]


/-! ## C44 -/

theorem contains_noLo (d : Iv) (x : Ext) : d.contains x (enforceStart := false) = true ↔
    d.isEmpty = false ∧ (x < d.hi ∨ (x = d.hi ∧ d.hiOpen = false)) := by
  rw [← Iv.leHi_iff]
  simp [Iv.contains]

theorem contains_noHi (d : Iv) (x : Ext) : d.contains x (enforceEnd := false) = true ↔
    d.isEmpty = false ∧ (d.lo < x ∨ (x = d.lo ∧ d.loOpen = false)) := by
  rw [eq_comm (a := x), ← Iv.geLo_iff]
  simp [Iv.contains]

/-- **C44** The step that applies is the greatest of those given by the curve and the caller. -/
theorem C44_step (own arg : Option Ext) :
    (resolve own arg = none ↔ own = none ∧ arg = none) ∧
    ∀ m, resolve own arg = some m ↔ IsGreatest {s | own = some s ∨ arg = some s} m := by
  have hmax : ∀ a m x : Ext, (if a < m then m else a) = x ↔
      IsGreatest {s | some m = some s ∨ some a = some s} x := by
    intro a m x
    constructor
    · rintro rfl
      split
      · exact ⟨Or.inl rfl, by rintro s (h | h) <;> cases h; exacts [le_refl _, (‹a < m› : _).le]⟩
      · exact ⟨Or.inr rfl, by rintro s (h | h) <;> cases h; exacts [not_lt.1 ‹_›, le_refl _]⟩
    · rintro ⟨h, hu⟩
      have h1 := hu (Or.inl rfl : m ∈ {s | some m = some s ∨ some a = some s})
      have h2 := hu (Or.inr rfl : a ∈ {s | some m = some s ∨ some a = some s})
      rcases h with h | h <;> cases h
      · split
        · rfl
        · exact le_antisymm h2 (not_lt.1 ‹_›)
      · exact if_neg (not_lt.2 h1)
  constructor
  · cases own <;> cases arg <;> simp [resolve]
  · intro m
    cases own with
    | none =>
      cases arg with
      | none => simp [resolve, IsGreatest]
      | some a =>
        simp only [resolve, Option.some.injEq, reduceCtorEq, false_or]
        constructor
        · rintro rfl; exact ⟨rfl, fun s h => (show a = s from h).ge⟩
        · exact fun h => h.1
    | some o =>
      cases arg with
      | none =>
        simp only [resolve, Option.some.injEq, reduceCtorEq, or_false]
        constructor
        · rintro rfl; exact ⟨rfl, fun s h => (show o = s from h).ge⟩
        · exact fun h => h.1
      | some a =>
        simp only [resolve, Option.some.injEq]
        have := hmax a o m
        simpa only [Option.some.injEq] using this

/-- Where the default `x_next` wants to go. -/
theorem clamp_iff (t z : Ext) (limit : Option Ext) :
    (match limit with
      | some l => if l < t then l else t
      | none => t) = z ↔
    (z = t ∧ ∀ l, limit = some l → t ≤ l) ∨ (limit = some z ∧ z < t) := by
  cases limit with
  | none => simp [eq_comm]
  | some l =>
    simp only [Option.some.injEq, forall_eq']
    split
    · rename_i h
      constructor
      · rintro rfl; exact Or.inr ⟨rfl, h⟩
      · rintro (⟨_, h'⟩ | ⟨rfl, _⟩)
        · exact absurd h (not_lt.2 h')
        · rfl
    · rename_i h
      constructor
      · rintro rfl; exact Or.inl ⟨rfl, not_lt.1 h⟩
      · rintro (⟨rfl, _⟩ | ⟨rfl, h'⟩)
        · rfl
        · exact absurd h' h

theorem clampBack_iff (t z : Ext) (limit : Option Ext) :
    (match limit with
      | some l => if t < l then l else t
      | none => t) = z ↔
    (z = t ∧ ∀ l, limit = some l → l ≤ t) ∨ (limit = some z ∧ t < z) := by
  cases limit with
  | none => simp [eq_comm]
  | some l =>
    simp only [Option.some.injEq, forall_eq']
    split
    · rename_i h
      constructor
      · rintro rfl; exact Or.inr ⟨rfl, h⟩
      · rintro (⟨_, h'⟩ | ⟨rfl, _⟩)
        · exact absurd h (not_lt.2 h')
        · rfl
    · rename_i h
      constructor
      · rintro rfl; exact Or.inl ⟨rfl, not_lt.1 h⟩
      · rintro (⟨rfl, _⟩ | ⟨rfl, h'⟩)
        · rfl
        · exact absurd h' h

theorem guard_iff (b : Bool) (t z : Ext) : (if !b then (.ok none : Except Err (Option Ext))
    else .ok (some t)) = .ok (some z) ↔ t = z ∧ b = true := by
  cases b <;> simp

theorem guard_ok (b : Bool) (t : Ext) : ∃ r, (if !b then (.ok none : Except Err (Option Ext))
    else .ok (some t)) = .ok r := by
  cases b <;> simp

/-- **C44** The default `x_next` with a step: `x + m`, or the limit if that comes before, if this is
not past the end of the domain; otherwise `None`. -/
theorem C44_next (dom : Iv) (own arg limit : Option Ext) (x m : Ext)
    (hm : resolve own arg = some m) :
    (∃ r, baseNext dom own x arg limit = .ok r) ∧
    ∀ z, baseNext dom own x arg limit = .ok (some z) ↔
      (let t := if m.isInf then dom.hi else step x m;
        (z = t ∧ ∀ l, limit = some l → t ≤ l) ∨ (limit = some z ∧ z < t)) ∧
      dom.isEmpty = false ∧ (z < dom.hi ∨ (z = dom.hi ∧ dom.hiOpen = false)) := by
  unfold baseNext
  simp only [hm]
  refine ⟨guard_ok _ _, fun z => ?_⟩
  rw [guard_iff]
  constructor
  · rintro ⟨h1, h2⟩
    exact ⟨(clamp_iff _ _ _).1 h1, (contains_noLo _ _).1 (h1 ▸ h2)⟩
  · rintro ⟨h1, h2⟩
    have h1 := (clamp_iff _ _ _).2 h1
    exact ⟨h1, (congrArg (dom.contains · false) h1).trans ((contains_noLo _ _).2 h2)⟩

/-- **C44** The default `x_previous`: the mirror image. -/
theorem C44_previous (dom : Iv) (own arg limit : Option Ext) (x m : Ext)
    (hm : resolve own arg = some m) :
    (∃ r, basePrevious dom own x arg limit = .ok r) ∧
    ∀ z, basePrevious dom own x arg limit = .ok (some z) ↔
      (let t := if m.isInf then dom.lo else stepBack x m;
        (z = t ∧ ∀ l, limit = some l → l ≤ t) ∨ (limit = some z ∧ t < z)) ∧
      dom.isEmpty = false ∧ (dom.lo < z ∨ (z = dom.lo ∧ dom.loOpen = false)) := by
  unfold basePrevious
  simp only [hm]
  refine ⟨guard_ok _ _, fun z => ?_⟩
  rw [guard_iff]
  constructor
  · rintro ⟨h1, h2⟩
    exact ⟨(clampBack_iff _ _ _).1 h1, (contains_noHi _ _).1 (h1 ▸ h2)⟩
  · rintro ⟨h1, h2⟩
    have h1 := (clampBack_iff _ _ _).2 h1
    exact ⟨h1, (congrArg (dom.contains · true false) h1).trans ((contains_noHi _ _).2 h2)⟩

/-- **C44** Without any step both raise `TypeError`. -/
theorem C44_no_step (dom : Iv) (limit : Option Ext) (x : Ext) :
    baseNext dom none x none limit = .error .type ∧
    basePrevious dom none x none limit = .error .type := ⟨rfl, rfl⟩

example : baseNext (Iv.closed 0 10) (some (.fin 2)) (.fin 3) (some (.fin 1)) none = .ok (some (.fin 5)) ∧
    baseNext (Iv.closed 0 10) (some (.fin 2)) (.fin 3) (some (.fin 1)) (some (.fin 4)) =
      .ok (some (.fin 4)) ∧
    baseNext (Iv.closed 0 10) (some (.fin 2)) (.fin 9) none none = .ok none ∧
    baseNext (Iv.closed 0 10) (some (.fin 2)) (.fin 9) (some .pinf) none = .ok (some (.fin 10)) ∧
    basePrevious (Iv.openClosed 0 10) (some (.fin 2)) (.fin 2) none none = .ok none := by
  decide +kernel

/-- **C44** "Next" is not always after: with an infinite step a position at or past the end of the
domain gets the end of the domain as its next position (`Constant` on `[0, 1]`, `x_next(5) = 1`). -/
theorem C44_negation :
    (constant (.fin 7) (Iv.closed 0 1)).xNext (.fin 5) none none = .ok (some (.fin 1)) ∧
    (constant (.fin 7) (Iv.closed 0 1)).xNext (.fin 1) none none = .ok (some (.fin 1)) ∧
    (constant (.fin 7) (Iv.closed 0 1)).xPrevious (.fin (-5)) none none = .ok (some (.fin 0)) ∧
    baseNext (Iv.closed 0 10) (some (.fin 1)) (.fin 6) none (some (.fin 4)) = .ok (some (.fin 4)) := by
  decide +kernel

/-- **C44** With a positive step, and no limit before `x`, the next position is after `x`. -/
theorem C44_after (dom : Iv) (own arg limit : Option Ext) (x m : ℚ) (z : Ext)
    (hm : resolve own arg = some (.fin m)) (h0 : 0 < m)
    (hl : ∀ l, limit = some l → .fin x < l)
    (h : baseNext dom own (.fin x) arg limit = .ok (some z)) :
    .fin x < z ∧ z ≤ .fin (x + m) ∧ ∀ l, limit = some l → z ≤ l := by
  have := (((C44_next dom own arg limit (.fin x) (.fin m) hm).2 z).1 h).1
  simp only [Ext.isInf, Bool.false_eq_true, if_false, step, Ext.addQ] at this
  rcases this with ⟨rfl, h'⟩ | ⟨h', hz⟩
  · exact ⟨by simpa using h0, le_refl _, h'⟩
  · exact ⟨hl z h', hz.le, fun l hl' => by rw [h'] at hl'; cases hl'; exact le_refl _⟩

/-! ## C38: curves with the default next position -/

theorem generic_next {f : Ext → Except Err (Option Num)} {dom : Iv} {ms : Option Ext}
    {arg : Option Ext} {m b : ℚ} (hr : resolve ms arg = some (.fin m))
    (hb : dom.contains (.fin b) = true) (x : ℚ) :
    (generic f dom ms).xNext (.fin x) arg (some (.fin b)) = .ok (some (.fin (min (x + m) b))) := by
  have hb' := (Iv.contains_iff ..).1 hb
  rw [Iv.leHi_iff] at hb'
  refine ((C44_next dom ms arg (some (.fin b)) (.fin x) (.fin m) hr).2 _).2 ⟨?_, ?_, ?_⟩
  · simp only [Ext.isInf, Bool.false_eq_true, if_false, step, Ext.addQ, Option.some.injEq,
      forall_eq', Ext.fin_le_fin, Ext.fin_lt_fin, Ext.fin.injEq]
    rcases le_total (x + m) b with h | h
    · exact Or.inl ⟨min_eq_left h, h⟩
    · rcases h.lt_or_eq with h | h
      · exact Or.inr ⟨(min_eq_right h.le).symm, by rw [min_eq_right h.le]; exact h⟩
      · exact Or.inl ⟨min_eq_left h.ge, h.ge⟩
  · exact Iv.not_isEmpty_of_mem hb
  · have hle : Ext.fin (min (x + m) b) ≤ .fin b := (Ext.fin_le_fin _ _).2 (min_le_right _ _)
    rcases hb'.2 with h | h
    · exact Or.inl (hle.trans_lt h)
    · rcases hle.lt_or_eq with h' | h'
      · exact Or.inl (h.1 ▸ h')
      · exact Or.inr (h' ▸ h)

theorem generic_chain {f : Ext → Except Err (Option Num)} {dom : Iv} {ms : Option Ext} {m b : ℚ}
    (h0 : 0 < m) (hr : resolve ms (some (.fin m)) = some (.fin m))
    (hb : dom.contains (.fin b) = true) (n : ℕ) (x : ℚ) (hx : x ≤ b) (hn : b ≤ x + n * m) :
    ∃ l, Chain (generic f dom ms) m b x l ∧ l.length ≤ n + 1 ∧
      ∀ z, z ∈ l ↔ z = b ∨ (z < b ∧ ∃ k : ℕ, z = x + k * m) := by
  induction n generalizing x with
  | zero =>
    obtain rfl : x = b := le_antisymm hx (by simpa using hn)
    refine ⟨[x], Chain.last, by simp, fun z => ?_⟩
    simp only [List.mem_singleton]
    constructor
    · exact Or.inl
    · rintro (h | ⟨h, k, rfl⟩)
      · exact h
      · have : (0 : ℚ) ≤ k * m := by positivity
        linarith
  | succ n ih =>
    rcases hx.lt_or_eq with hx | rfl
    · obtain ⟨l, h1, h2, h3⟩ := ih (min (x + m) b) (min_le_right _ _) (by
        push_cast at hn
        rcases le_total (x + m) b with h | h
        · rw [min_eq_left h]; linarith
        · rw [min_eq_right h]
          have : (0 : ℚ) ≤ n * m := by positivity
          linarith)
      refine ⟨x :: l, Chain.next hx (generic_next hr hb x) (min_le_right _ _) h1, by simpa using h2,
        fun z => ?_⟩
      rw [List.mem_cons, h3]
      constructor
      · rintro (rfl | rfl | ⟨h, k, rfl⟩)
        · exact Or.inr ⟨hx, 0, by simp⟩
        · exact Or.inl rfl
        · refine Or.inr ⟨h, k + 1, ?_⟩
          rcases le_total (x + m) b with h' | h'
          · rw [min_eq_left h']; push_cast; ring
          · rw [min_eq_right h'] at h
            have : (0 : ℚ) ≤ k * m := by positivity
            linarith
      · rintro (rfl | ⟨h, k, rfl⟩)
        · exact Or.inr (Or.inl rfl)
        · cases k with
          | zero => exact Or.inl (by simp)
          | succ k =>
            refine Or.inr (Or.inr ⟨h, k, ?_⟩)
            have : (0 : ℚ) ≤ k * m := by positivity
            push_cast at h ⊢
            rw [min_eq_left (by linarith)]; ring
    · refine ⟨[x], Chain.last, by simp, fun z => ?_⟩
      simp only [List.mem_singleton]
      constructor
      · exact Or.inl
      · rintro (h | ⟨h, k, rfl⟩)
        · exact h
        · have : (0 : ℚ) ≤ k * m := by positivity
          linarith

/-- **C38** (partial: start and end of the domain must not be odd multiples of half the step)
A function curve sampled with a minimum step `m` from `a` to a closed end `b`: exactly the positions
`a` (if closed), `a + m`, `a + 2m`, ... below `b`, and `b`, in this order, with their values. -/
theorem C38_generic_partial (f : Ext → Except Err (Option Num)) (dom : Iv) (ms : Option Ext)
    (domain : Option Iv) (minStep : Option Ext) (a b m : ℚ)
    (hd : OnInterval (generic f dom ms) domain a b) (hab : a < b)
    (hr : resolve ms minStep = some (.fin m)) (h0 : 0 < m)
    (hb : (sampleDomain (generic f dom ms) domain).hiOpen = false)
    (ha' : NotHalfway m a) (hb' : NotHalfway m b)
    (v : ℚ → Option Num) (hv : ∀ z, a ≤ z → z ≤ b → (generic f dom ms).y (.fin z) = .ok (v z)) :
    ∃ (zs : List ℚ) (N : ℕ), zs.Pairwise (· < ·) ∧
      (∀ z, z ∈ zs ↔ z = b ∨ (z < b ∧ ∃ k : ℕ, z = a + k * m ∧
        (k = 0 → (sampleDomain (generic f dom ms) domain).loOpen = false))) ∧
      ∀ fuel, N ≤ fuel → samplePoints (generic f dom ms) domain minStep none fuel =
        some (.ok (zs.map fun z => (.fin z, v z))) := by
  have hbd : dom.contains (.fin b) = true := by
    have : (sampleDomain (generic f dom ms) domain).contains (.fin b) = true := by
      rw [Iv.contains_iff, Iv.geLo_iff, Iv.leHi_iff, hd.lo, hd.hi]
      exact ⟨Or.inl (by simpa using hab), Or.inr ⟨rfl, hb⟩⟩
    cases domain with
    | none => exact this
    | some d =>
      have h := (Iv.contains_inter ..).symm.trans this
      simp only [Bool.and_eq_true] at h
      exact h.1
  have hr' : resolve ms (some (.fin m)) = some (.fin m) := by
    rw [← hr]; exact resolve_idem ms minStep
  have hadv : ∀ z, Advances (generic f dom ms) m b z := by
    intro z w hw
    rw [generic_next hr' hbd] at hw
    cases hw
    refine ⟨_, rfl, ?_⟩
    rcases le_total (z + m) b with h | h
    · exact Or.inl (min_eq_left h).ge
    · exact Or.inr (min_eq_right h)
  obtain ⟨n, hn⟩ := Archimedean.arch (b - a) h0
  have hx1 : a < min (a + m) b := lt_min (by linarith) hab
  obtain ⟨l, h1, h2, h3⟩ := generic_chain (f := f) h0 hr' hbd n (min (a + m) b) (min_le_right _ _)
    (by rw [nsmul_eq_mul] at hn; linarith)
  have hform : ∀ z ∈ l, z = b ∨ (z < b ∧ ∃ k : ℕ, z = a + (k + 1 : ℕ) * m) := by
    intro z hz
    rcases (h3 z).1 hz with h | ⟨h, k, rfl⟩
    · exact Or.inl h
    · refine Or.inr ⟨h, k, ?_⟩
      rcases le_total (a + m) b with h' | h'
      · rw [min_eq_left h']; push_cast; ring
      · rw [min_eq_right h'] at h
        have : (0 : ℚ) ≤ k * m := by positivity
        linarith
  have hnh : ∀ z ∈ l, NotHalfway m z := by
    intro z hz
    rcases hform z hz with rfl | ⟨_, k, rfl⟩
    · exact hb'
    · intro j hj
      apply ha' (j - (k + 1 : ℕ))
      rw [add_div, mul_div_cancel_right₀ _ h0.ne'] at hj
      push_cast at hj ⊢
      linarith
  have hin : ∀ z ∈ l, a < z ∧ z ≤ b := by
    intro z hz
    rcases hform z hz with rfl | ⟨h, k, rfl⟩
    · exact ⟨hab, le_refl _⟩
    · have : (0 : ℚ) < (k + 1 : ℕ) * m := by positivity
      exact ⟨by linarith, h.le⟩
  have hv' : ∀ z ∈ a :: b :: l, (generic f dom ms).y (.fin z) = .ok (v z) := by
    intro z hz
    simp only [List.mem_cons] at hz
    rcases hz with rfl | rfl | hz
    · exact hv z (le_refl _) hab.le
    · exact hv z hab.le (le_refl _)
    · exact hv z (hin z hz).1.le (hin z hz).2
  have main := fun fuel hf => C38_partial (generic f dom ms) domain minStep a b m hd hab hr h0 _ l
    (generic_next hr' hbd a) h1 (fun z _ => hadv z) hnh v hv' fuel hf
  have hchar : ∀ zs : List ℚ, (∀ z ∈ zs, a ≤ z ∧ z ≤ b) ∧
      (a ∈ zs ↔ (sampleDomain (generic f dom ms) domain).loOpen = false) ∧
      ((sampleDomain (generic f dom ms) domain).hiOpen = false → b ∈ zs) ∧
      (∀ z ∈ l, z < b → z ∈ zs) ∧ (∀ z ∈ zs, z = a ∨ z = b ∨ z ∈ l) →
      ∀ z, z ∈ zs ↔ z = b ∨ (z < b ∧ ∃ k : ℕ, z = a + k * m ∧
        (k = 0 → (sampleDomain (generic f dom ms) domain).loOpen = false)) := by
    rintro zs ⟨_, g2, g3, g4, g5⟩ z
    constructor
    · intro hz
      rcases g5 z hz with rfl | h | h
      · exact Or.inr ⟨hab, 0, by simp, fun _ => g2.1 hz⟩
      · exact Or.inl h
      · rcases hform z h with h | ⟨h, k, hk⟩
        · exact Or.inl h
        · exact Or.inr ⟨h, k + 1, hk, by simp⟩
    · rintro (rfl | ⟨h, k, rfl, hk⟩)
      · exact g3 hb
      · cases k with
        | zero =>
          have := g2.2 (hk rfl)
          simpa using this
        | succ k =>
          refine g4 _ ((h3 _).2 (Or.inr ⟨h, k, ?_⟩)) h
          have : (0 : ℚ) ≤ k * m := by positivity
          push_cast at h ⊢
          rw [min_eq_left (by linarith)]; ring
  obtain ⟨zs, e1, e2, e3⟩ := main (l.length + 1) (by omega)
  refine ⟨zs, l.length + 1, e2, hchar zs e3, ?_⟩
  intro fuel hf
  obtain ⟨ws, w1, w2, w3⟩ := main fuel (by omega)
  rw [w1]
  have : ws = zs := List.Perm.eq_of_pairwise (le := (· < ·))
    (fun x y _ _ h h' => absurd h h'.asymm) w2 e2
    ((List.perm_ext_iff_of_nodup (w2.imp fun h => h.ne) (e2.imp fun h => h.ne)).2
      fun z => by rw [hchar ws w3, hchar zs e3])
  rw [this]

example : samplePoints ramp (some (Iv.openClosed 2 (9 / 2))) (some (.fin 1)) none 10 =
      some (.ok [(.fin 3, some (.fin 3)), (.fin 4, some (.fin 4)), (.fin (9 / 2), some (.fin (9 / 2)))]) ∧
    samplePoints ramp (some (Iv.closed 4 6)) (some (.fin 1)) none 10 =
      some (.ok [(.fin 4, some (.fin 4)), (.fin 5, none), (.fin 6, some (.fin 6))]) := by
  decide +kernel

/-- **C38** With an infinite step exactly the two ends are sampled. -/
theorem C38_infinite (c : Crv) (domain : Option Iv) (minStep : Option Ext) (a b : ℚ)
    (hd : OnInterval c domain a b) (hr : resolve c.minStep minStep = some .pinf)
    (hx : c.xNext (.fin a) (some .pinf) (some (.fin b)) = .ok (some (.fin b)))
    (va vb : Option Num) (ha : c.y (.fin a) = .ok va) (hb : c.y (.fin b) = .ok vb) (fuel : ℕ)
    (hf : 0 < fuel) :
    samplePoints c domain minStep none fuel = some (.ok
      ((if (sampleDomain c domain).loOpen then [] else [(.fin a, va)]) ++ [(.fin b, vb)])) := by
  obtain ⟨f, rfl⟩ : ∃ f, fuel = f + 1 := ⟨fuel - 1, by omega⟩
  unfold samplePoints
  simp only [hd.ne, hd.finite, hd.lo, hd.hi, hr]
  have h0 : Ext.fin 0 < .pinf := by decide
  cases hlo : (sampleDomain c domain).loOpen <;> cases hhi : (sampleDomain c domain).hiOpen <;>
    simp [firstSample, ha, endBin, bin, h0, hx, chainLoop, hb, addEnd, hd.hi, hhi]

/-- **C38** The negation.  (1) A function sampled with step 1 from 1/2 to 7/2 raises, although its next
positions are exactly one step apart: 3/2 and 5/2 are both rounded to 2.  (2) On a domain with open
start and closed end and no knot in between, `IndexError`.  (3) A domain of one point gives that point
twice.  (4) The open end of the domain is sampled. -/
theorem C38_negation :
    samplePoints ramp (some (Iv.closed (1 / 2) (7 / 2))) (some (.fin 1)) none 10 =
      some (.error .exception) ∧
    samplePoints (addMany [.curve (ofPoints (demo .linear))]) (some (Iv.openClosed 1 2))
      (some (.fin 1)) none 10 = some (.error .index) ∧
    samplePoints ramp (some (Iv.closed 3 3)) (some (.fin 1)) none 10 =
      some (.ok [(.fin 3, some (.fin 3)), (.fin 3, some (.fin 3))]) ∧
    samplePoints ramp (some (Iv.closedOpen 2 4)) (some (.fin 1)) none 10 =
      some (.ok [(.fin 2, some (.fin 2)), (.fin 3, some (.fin 3)), (.fin 4, some (.fin 4))]) ∧
    (sampleDomain ramp (some (Iv.closedOpen 2 4))).contains (.fin 4) = false := by
  refine ⟨?_, ?_, ?_, ?_, ?_⟩ <;> decide +kernel


/-! ## C39 -/

theorem rangeLoop_spec (vs : List Num) (l h : Num) (hl : l ≠ .nan) (hh : h ≠ .nan)
    (hn : Num.nan ∉ vs) :
    ∃ l' h', rangeLoop (vs.map some) (some l) (some h) = .ok (some l', some h') ∧
      l' ∈ l :: vs ∧ h' ∈ h :: vs ∧ (∀ v ∈ l :: vs, Num.le l' v = true) ∧
      ∀ v ∈ h :: vs, Num.le v h' = true := by
  induction vs generalizing l h with
  | nil =>
    exact ⟨l, h, rfl, by simp, by simp, by simp [num_le_refl hl], by simp [num_le_refl hh]⟩
  | cons w vs ih =>
    have hw : w ≠ .nan := fun e => hn (by simp [e])
    obtain ⟨l', h', e, a1, a2, a3, a4⟩ := ih (if Num.lt w l then w else l) (if Num.lt h w then w else h)
      (by split <;> assumption) (by split <;> assumption) (fun e => hn (by simp [e]))
    refine ⟨l', h', ?_, ?_, ?_, ?_, ?_⟩
    · rw [← e]
      cases h1 : Num.lt w l <;> cases h2 : Num.lt h w <;>
        simp [rangeLoop, h1, h2, bind, Except.bind, pure, Except.pure]
    · rcases List.mem_cons.1 a1 with a1 | a1
      · rw [a1]; split <;> simp
      · simp [a1]
    · rcases List.mem_cons.1 a2 with a2 | a2
      · rw [a2]; split <;> simp
      · simp [a2]
    · have hm := a3 _ (List.mem_cons_self ..)
      intro v hv
      simp only [List.mem_cons] at hv
      rcases hv with rfl | rfl | hv
      · cases h1 : Num.lt w v with
        | true => simp only [h1, if_true] at hm; exact num_le_trans hm (num_le_of_lt h1)
        | false => simpa [h1] using hm
      · cases h1 : Num.lt v l with
        | true => simpa [h1] using hm
        | false =>
          simp only [h1] at hm
          exact num_le_trans hm (num_le_of_not_lt hw hl h1)
      · exact a3 v (by simp [hv])
    · have hm := a4 _ (List.mem_cons_self ..)
      intro v hv
      simp only [List.mem_cons] at hv
      rcases hv with rfl | rfl | hv
      · cases h1 : Num.lt v w with
        | true => simp only [h1, if_true] at hm; exact num_le_trans (num_le_of_lt h1) hm
        | false => simpa [h1] using hm
      · cases h1 : Num.lt h v with
        | true => simpa [h1] using hm
        | false =>
          simp only [h1] at hm
          exact num_le_trans (num_le_of_not_lt hh hw h1) hm
      · exact a4 v (by simp [hv])

theorem rangeLoop_nones (n : ℕ) (vs : List (Option Num)) :
    rangeLoop (List.replicate n none ++ vs) none none = rangeLoop vs none none := by
  induction n with
  | zero => rfl
  | succ n ih =>
    rw [← ih, List.replicate_succ, List.cons_append, rangeLoop]
    rfl

/-- **C39** (partial: undefined values only before all others; see `C39_negation`)  The range of a
sample is between its least and its greatest value, and is empty exactly if there is no value. -/
theorem C39_range_partial (ps : List Sample) (n : ℕ) (vs : List Num) (hn : Num.nan ∉ vs)
    (hp : ps.map (·.2) = List.replicate n none ++ vs.map some) :
    (vs = [] ∧ getRange ps = .ok none) ∨
    ∃ l h, getRange ps = .ok (some (l, h)) ∧ IsLeastValue (ps.map (·.2)) l ∧
      IsGreatestValue (ps.map (·.2)) h := by
  have hr : rangeLoop (ps.map (·.2)) none none = rangeLoop (vs.map some) none none := by
    rw [hp, rangeLoop_nones]
  cases vs with
  | nil => exact Or.inl ⟨rfl, by simp [getRange, hr, rangeLoop]; rfl⟩
  | cons w vs =>
    right
    have hw : w ≠ .nan := fun e => hn (by simp [e])
    obtain ⟨l, h, e, a1, a2, a3, a4⟩ := rangeLoop_spec vs w w hw hw (fun e => hn (by simp [e]))
    have hr' : rangeLoop (ps.map (·.2)) none none = .ok (some l, some h) := by
      rw [hr, ← e]; rfl
    have hmem : ∀ v, some v ∈ ps.map (·.2) ↔ v ∈ w :: vs := by
      intro v; rw [hp]
      simp only [List.mem_append, List.mem_replicate, reduceCtorEq, and_false, false_or,
        List.mem_map, Option.some.injEq, exists_eq_right]
    refine ⟨l, h, by simp [getRange, hr']; rfl, ⟨(hmem l).2 a1, fun v hv => a3 v ((hmem v).1 hv)⟩,
      ⟨(hmem h).2 a2, fun v hv => a4 v ((hmem v).1 hv)⟩⟩

/-- **C39** An undefined value after a defined one raises `TypeError`. -/
theorem C39_none_raises (l1 l2 : List Sample) (v : Num) (x z : Ext) (n : ℕ)
    (h1 : l1.map (·.2) = List.replicate n none) (vs : List Num) (l3 : List Sample)
    (h2 : l2.map (·.2) = vs.map some) :
    getRange (l1 ++ (x, some v) :: l2 ++ (z, none) :: l3) = .error .type := by
  have key : ∀ (vs : List Num) (l h : Num) (r : List (Option Num)),
      rangeLoop (vs.map some ++ none :: r) (some l) (some h) = .error .type := by
    intro vs
    induction vs with
    | nil => intro l h r; rfl
    | cons w vs ih =>
      intro l h r
      cases h1 : Num.lt w l <;> cases h2 : Num.lt h w <;>
        simp [rangeLoop, h1, h2, bind, Except.bind, pure, Except.pure, ih]
  have := key vs v v (l3.map (·.2))
  have e : rangeLoop ((l1 ++ (x, some v) :: l2 ++ (z, none) :: l3).map (·.2)) none none =
      .error .type := by
    rw [List.map_append, List.map_append, h1, List.append_assoc, rangeLoop_nones]
    simp only [List.map_cons, h2, List.cons_append]
    rw [← this]; rfl
  simp only [getRange, e]; rfl

example : getRange [(.fin 0, none), (.fin 1, some (.fin 3)), (.fin 2, some .ninf), (.fin 3, some (.fin 5))] =
    .ok (some (.ninf, .fin 5)) := by decide +kernel

/-- **C39** The negation: the range of a curve with an undefined value inside raises, and the sample of
undefined values is not empty but has an empty range. -/
theorem C39_negation :
    samplePoints ramp (some (Iv.closed 4 6)) (some (.fin 1)) none 10 =
      some (.ok [(.fin 4, some (.fin 4)), (.fin 5, none), (.fin 6, some (.fin 6))]) ∧
    getRange [(.fin 4, some (.fin 4)), (.fin 5, none), (.fin 6, some (.fin 6))] = .error .type ∧
    getRange [(.fin 5, none)] = .ok none := by decide +kernel

/-! ## C40 -/

theorem fromLoop_spec (c : Crv) (backward : Bool) (m : Option Ext) (n : ℕ) (x : Ext)
    (l : List (Ext × Num))
    (h : Walk (fun x => if backward then c.xPrevious x m none else c.xNext x m none) c.y n x l) :
    fromLoop c backward m n x = .ok (l.map fun p => (p.1, some p.2)) := by
  induction h with
  | zero => rfl
  | noNext h => cases backward <;> simp_all [fromLoop, bind, Except.bind, pure, Except.pure]
  | noValue h hy => cases backward <;> simp_all [fromLoop, bind, Except.bind, pure, Except.pure]
  | point h hy _ ih => cases backward <;> simp_all [fromLoop, bind, Except.bind, pure, Except.pure]

/-- A walk exists whenever the curve does not raise, and there is only one. -/
theorem walk_exists {move : Ext → Except Err (Option Ext)} {y : Ext → Except Err (Option Num)}
    (hm : ∀ x, ∃ r, move x = .ok r) (hy : ∀ x, ∃ r, y x = .ok r) (n : ℕ) (x : Ext) :
    ∃ l, Walk move y n x l ∧ l.length ≤ n := by
  induction n generalizing x with
  | zero => exact ⟨[], .zero, by simp⟩
  | succ n ih =>
    obtain ⟨r, hr⟩ := hm x
    cases r with
    | none => exact ⟨[], .noNext hr, by simp⟩
    | some z =>
      obtain ⟨r', hr'⟩ := hy z
      cases r' with
      | none => exact ⟨[], .noValue hr hr', by simp⟩
      | some v =>
        obtain ⟨l, hl, hn⟩ := ih z
        exact ⟨(z, v) :: l, .point hr hr' hl, by simpa using hn⟩

/-- **C40** With `open=True` the points after `x` (before, if `backward` or `limit < 0`, but not both)
are returned, at most `|limit|`, up to the end of the curve or the first undefined value. -/
theorem C40_open (c : Crv) (x : Ext) (limit : ℤ) (backward : Bool) (minStep : Option Ext)
    (l : List (Ext × Num))
    (h : Walk (fun x => if backward = decide (0 ≤ limit) then
        c.xPrevious x (resolve c.minStep minStep) none
      else c.xNext x (resolve c.minStep minStep) none) c.y limit.natAbs x l) :
    samplePointsFrom c x limit backward true minStep = .ok (l.map fun p => (p.1, some p.2)) := by
  simp only [samplePointsFrom, if_true]
  apply fromLoop_spec
  convert h using 3 with z
  by_cases h0 : limit < 0
  · have : ¬ 0 ≤ limit := by omega
    cases backward <;> simp [h0, this]
  · have : 0 ≤ limit := by omega
    cases backward <;> simp [h0, this]

/-- **C40** (partial: the point at `x` itself is missing, see `C40_negation`)  With `open=False` one point
less is returned; nothing if the curve is undefined at `x`. -/
theorem C40_closed_partial (c : Crv) (x : Ext) (limit : ℤ) (backward : Bool) (minStep : Option Ext) :
    (c.y x = .ok none → samplePointsFrom c x limit backward false minStep = .ok []) ∧
    (∀ v (l : List (Ext × Num)), c.y x = .ok (some v) →
      Walk (fun x => if backward = decide (0 ≤ limit) then
          c.xPrevious x (resolve c.minStep minStep) none
        else c.xNext x (resolve c.minStep minStep) none) c.y (limit.natAbs - 1) x l →
      samplePointsFrom c x limit backward false minStep = .ok (l.map fun p => (p.1, some p.2))) := by
  constructor
  · intro h; simp [samplePointsFrom, h, bind, Except.bind, pure, Except.pure]
  · intro v l hv h
    simp only [samplePointsFrom, Bool.false_eq_true, if_false, hv, bind, Except.bind]
    apply fromLoop_spec
    convert h using 3 with z
    by_cases h0 : limit < 0
    · have : ¬ 0 ≤ limit := by omega
      cases backward <;> simp [h0, this]
    · have : 0 ≤ limit := by omega
      cases backward <;> simp [h0, this]

example : samplePointsFrom ramp (.fin 1) 3 false true (some (.fin 1)) =
      .ok [(.fin 2, some (.fin 2)), (.fin 3, some (.fin 3)), (.fin 4, some (.fin 4))] ∧
    samplePointsFrom ramp (.fin 3) 9 false true (some (.fin 1)) = .ok [(.fin 4, some (.fin 4))] ∧
    samplePointsFrom ramp (.fin 2) (-9) false true (some (.fin 1)) =
      .ok [(.fin 1, some (.fin 1)), (.fin 0, some (.fin 0))] := by decide +kernel
example : Walk (fun x => if false = decide ((0 : ℤ) ≤ 3) then
        ramp.xPrevious x (resolve ramp.minStep (some (.fin 1))) none
      else ramp.xNext x (resolve ramp.minStep (some (.fin 1))) none) ramp.y 2 (.fin 3)
    [(.fin 4, .fin 4)] :=
  .point (by decide +kernel) (by decide +kernel) 
    (.noValue (z := .fin 5) (by decide +kernel) (by decide +kernel))

/-- **C40** The negation: with `open=False` and a limit of 3 the point at `x` is not among the points, and
only two are returned. -/
theorem C40_negation :
    samplePointsFrom ramp (.fin 1) 3 false false (some (.fin 1)) =
      .ok [(.fin 2, some (.fin 2)), (.fin 3, some (.fin 3))] ∧
    ramp.y (.fin 1) = .ok (some (.fin 1)) := by decide +kernel

/-! ## C42 -/

theorem regression_none (fit : List (ℚ × ℚ) → ℚ × ℚ) (ps : List (ℚ × Option ℚ)) :
    (∃ p ∈ ps, p.2 = none) → regression fit ps = .ok none := by
  rintro ⟨p, hp, h⟩
  have : ps.mapM (fun p => p.2.map fun y => (p.1, y)) = none := by
    induction ps with
    | nil => simp at hp
    | cons q ps ih =>
      rcases List.mem_cons.1 hp with rfl | hp
      · simp [List.mapM_cons, h]
      · rw [List.mapM_cons, ih hp]
        cases q.2 <;> rfl
  simp [regression, this]

theorem mapM_defined (qs : List (ℚ × ℚ)) :
    (qs.map fun q => ((q.1, some q.2) : ℚ × Option ℚ)).mapM (fun p => p.2.map fun y => (p.1, y)) =
      some qs := by
  induction qs with
  | nil => rfl
  | cons q qs ih => rw [List.map_cons, List.mapM_cons, ih]; rfl

theorem mk_of_params {a : Line.Args} {d : LineData} (h : Line.params a = .ok d) :
    (Line.mk a).map (fun h => some h.data) = .ok (some d) := by
  obtain ⟨e1, e2⟩ := set_data ⟨Gate.init, ⟨(0, 0), .fin 0⟩⟩ a d h
  unfold Line.mk
  revert e1 e2
  rcases Line.set ⟨Gate.init, ⟨(0, 0), .fin 0⟩⟩ a with ⟨h, n, e⟩
  rintro rfl rfl
  rfl

/-- **C42** Regression is `None` for fewer than two points or if a value is undefined, the line through
both points for two points (with different positions), and otherwise the line that the least squares
routine finds. -/
theorem C42_regression (fit : List (ℚ × ℚ) → ℚ × ℚ) :
    (∀ ps, ((∃ p ∈ ps, p.2 = none) ∨ ps.length < 2) → regression fit ps = .ok none) ∧
    (∀ x1 y1 x2 y2 : ℚ, x1 ≠ x2 → ∃ d, regression fit [(x1, some y1), (x2, some y2)] = .ok (some d) ∧
      Line.y d (.fin x1) = .fin y1 ∧ Line.y d (.fin x2) = .fin y2) ∧
    (∀ qs : List (ℚ × ℚ), 3 ≤ qs.length →
      ∃ d, regression fit (qs.map fun q => (q.1, some q.2)) = .ok (some d) ∧
        ∀ x : ℚ, Line.y d (.fin x) = .fin ((fit qs).1 * x + (fit qs).2)) := by
  refine ⟨?_, ?_, ?_⟩
  · rintro ps (h | h)
    · exact regression_none fit ps h
    · match ps, h with
      | [], _ => rfl
      | [(x, none)], _ => exact regression_none fit _ ⟨(x, none), by simp, rfl⟩
      | [(x, some y)], _ => rfl
  · intro x1 y1 x2 y2 h
    have hp : Line.params { p1 := some (x1, y1), p2 := some (x2, y2) } =
        .ok ⟨(x1, y1), .fin ((y2 - y1) / (x2 - x1))⟩ := by
      simp [Line.params, h.symm, bind, Except.bind, pure, Except.pure]
    have hx : x2 - x1 ≠ 0 := sub_ne_zero.2 h.symm
    refine ⟨⟨(x1, y1), .fin ((y2 - y1) / (x2 - x1))⟩, ?_, ?_, ?_⟩
    · rw [← mk_of_params hp]
      rfl
    · simp [Line.y, Num.add, Num.mul, Num.sub, Num.neg]
    · simp only [Line.y, Num.add, Num.mul, Num.sub, Num.neg, Num.fin.injEq]
      field_simp
      ring
  · intro qs h
    match qs, h with
    | a :: b :: c :: qs, _ =>
    have := mapM_defined (a :: b :: c :: qs)
    have hp : Line.params { const := some (fit (a :: b :: c :: qs)).2, slope := some (.fin (fit (a :: b :: c :: qs)).1) } =
        .ok ⟨(0, (fit (a :: b :: c :: qs)).2), .fin (fit (a :: b :: c :: qs)).1⟩ := by
      simp [Line.params, bind, Except.bind, pure, Except.pure]
    refine ⟨⟨(0, (fit (a :: b :: c :: qs)).2), .fin (fit (a :: b :: c :: qs)).1⟩, ?_, ?_⟩
    · rw [← mk_of_params hp]
      simp only [regression, this]
    · intro x
      simp [Line.y, Num.add, Num.mul, Num.sub, Num.neg, add_comm]

/-! ## C43 -/

/-- **C42** If the least squares routine does what it promises, no line has a smaller sum of squared
errors than the regression of three or more points. -/
theorem C42_least (fit : List (ℚ × ℚ) → ℚ × ℚ) (qs : List (ℚ × ℚ)) (h : 3 ≤ qs.length)
    (hfit : ∀ s c : ℚ, (qs.map fun q => ((fit qs).1 * q.1 + (fit qs).2 - q.2) ^ 2).sum ≤
      (qs.map fun q => (s * q.1 + c - q.2) ^ 2).sum) :
    ∃ (d : LineData) (y : ℚ → ℚ), regression fit (qs.map fun q => (q.1, some q.2)) = .ok (some d) ∧
      (∀ x : ℚ, Line.y d (.fin x) = .fin (y x)) ∧
      ∀ s c : ℚ, (qs.map fun q => (y q.1 - q.2) ^ 2).sum ≤ (qs.map fun q => (s * q.1 + c - q.2) ^ 2).sum := by
  obtain ⟨d, h1, h2⟩ := (C42_regression fit).2.2 qs h
  exact ⟨d, fun x => (fit qs).1 * x + (fit qs).2, h1, h2, hfit⟩

example : (regression (fun _ => (2, 1)) [(0, some 1), (2, some 5)]).toOption.join.map (Line.y · (.fin 1)) =
      some (.fin 3) ∧
    regression (fun _ => (2, 1)) [(0, some 1), (1, none), (2, some 5)] = .ok none := by
  decide +kernel

/-- **C42** Two points at the same position (which sampling a domain of one point gives, `C38_negation`)
make a vertical line. -/
theorem C42_vertical (fit : List (ℚ × ℚ) → ℚ × ℚ) (x y : ℚ) :
    ∃ d, regression fit [(x, some y), (x, some y)] = .ok (some d) ∧ Line.dY d = .pinf ∧
      Line.y d (.fin x) = .nan := by
  have hp : Line.params { p1 := some (x, y), p2 := some (x, y) } = .ok ⟨(x, y), .pinf⟩ := by
    simp [Line.params, bind, Except.bind, pure, Except.pure]
  refine ⟨⟨(x, y), .pinf⟩, ?_, rfl, ?_⟩
  · rw [← mk_of_params hp]; rfl
  · simp [Line.y, Num.add, Num.mul, Num.sub, Num.neg, Num.infOf]

/-! ## C43 -/

/-- **C43** The slope is the difference quotient to the neighbouring position. -/
theorem C43_quotient (c : Crv) (x x1 y y1 : ℚ) (forward : Bool) (minStep limit : Option Ext)
    (hx : (if forward then c.xNext (.fin x) (resolve c.minStep minStep) limit
      else c.xPrevious (.fin x) (resolve c.minStep minStep) limit) = .ok (some (.fin x1)))
    (hy : c.y (.fin x) = .ok (some (.fin y))) (hy1 : c.y (.fin x1) = .ok (some (.fin y1)))
    (hne : x1 ≠ x) : dY c (.fin x) forward minStep limit = .ok (some (.fin ((y1 - y) / (x1 - x)))) := by
  have hne' : x1 + -x ≠ 0 := by rw [← sub_eq_add_neg]; exact sub_ne_zero.2 hne
  cases forward <;>
    simp_all [dY, bind, Except.bind, pure, Except.pure, Num.div, Num.sub, Num.add, Num.neg,
      Num.ofExt, sub_eq_add_neg]

/-- **C43** No neighbouring position, or no value at it or at the position: no slope. -/
theorem C43_none (c : Crv) (x : Ext) (forward : Bool) (minStep limit : Option Ext) (r : Option Ext)
    (hx : (if forward then c.xNext x (resolve c.minStep minStep) limit
      else c.xPrevious x (resolve c.minStep minStep) limit) = .ok r)
    (h : r = none ∨ ∃ x1, r = some x1 ∧
      (c.y x1 = .ok none ∨ ((∃ v, c.y x1 = .ok v) ∧ c.y x = .ok none))) :
    dY c x forward minStep limit = .ok none := by
  rcases h with rfl | ⟨x1, rfl, h⟩
  · cases forward <;> simp_all [dY, bind, Except.bind, pure, Except.pure]
  · rcases h with h | ⟨⟨v, h⟩, h'⟩
    · cases forward <;> simp_all [dY, bind, Except.bind, pure, Except.pure]
    · cases forward <;> cases v <;> simp_all [dY, bind, Except.bind, pure, Except.pure]

/-- **C43** Where the curve is straight between a position and its neighbour, the slope is the slope
of the curve, in both directions. -/
theorem C43_straight (c : Crv) (x x1 s k : ℚ) (forward : Bool) (minStep limit : Option Ext)
    (hx : (if forward then c.xNext (.fin x) (resolve c.minStep minStep) limit
      else c.xPrevious (.fin x) (resolve c.minStep minStep) limit) = .ok (some (.fin x1)))
    (hne : x1 ≠ x) (hy : ∀ z ∈ [x, x1], c.y (.fin z) = .ok (some (.fin (s * z + k)))) :
    dY c (.fin x) forward minStep limit = .ok (some (.fin s)) := by
  rw [C43_quotient c x x1 _ _ forward minStep limit hx (hy x (by simp)) (hy x1 (by simp)) hne]
  have : x1 - x ≠ 0 := sub_ne_zero.2 hne
  congr 3
  field_simp
  ring

/-- **C43** If the neighbouring position is the position itself (see `C44_negation`) the slope is
infinite, whatever the curve. -/
theorem C43_same (c : Crv) (x : Ext) (v : ℚ) (forward : Bool) (minStep limit : Option Ext)
    (hx : (if forward then c.xNext x (resolve c.minStep minStep) limit
      else c.xPrevious x (resolve c.minStep minStep) limit) = .ok (some x))
    (hy : c.y x = .ok (some (.fin v))) :
    dY c x forward minStep limit = .ok (some (if forward then .pinf else .ninf)) := by
  cases forward <;>
    simp_all [dY, bind, Except.bind, pure, Except.pure, Num.le, Num.neg]

example : dY ramp (.fin 3) false (some (.fin 1)) = .ok (some (.fin 1)) ∧
    dY ramp (.fin 4) true (some (.fin 1)) = .ok none ∧
    dY square (.fin 3) true (some (.fin 1)) = .ok (some (.fin 7)) ∧
    dY (constant (.fin 7) (Iv.closed 0 1)) (.fin 1) true = .ok (some .pinf) := by decide +kernel

/-! ## Further examples -/

/-- C37: five positions a half apart; a step back never ends. -/
example : (∃ N : ℕ, ∀ k : ℕ, k ≤ N ↔ (3 : ℚ) + k * (1 / 2) ≤ 5) ∧
    ∀ fuel, samplePoints (constant (.fin 7)) (some (Iv.closed 0 5)) (some (.fin 1)) (some (-1)) fuel = none := by
  constructor
  · obtain ⟨N, hN, _⟩ := C37_step (constant (.fin 7)) (some (Iv.closed 3 5)) (some (.fin 1)) 3 5 (1 / 2) (by norm_num)
      ⟨by decide +kernel, by decide +kernel, by decide +kernel⟩ (by decide +kernel) (fun _ => some (.fin 7)) fun _ _ => rfl
    exact ⟨N, hN⟩
  · exact C37_endless _ _ _ 0 5 (-1) (by norm_num) ⟨by decide +kernel, by decide +kernel, by decide +kernel⟩ (by decide +kernel)
      fun x => ⟨_, rfl⟩

/-- C38: only the two ends, where the next position lies behind the end. -/
example : samplePoints ramp (some (Iv.closed 2 4)) (some (.fin 3)) none 10 =
      some (.ok [(.fin 2, some (.fin 2)), (.fin 4, some (.fin 4))]) ∧
    samplePoints (constant (.fin 7)) (some (Iv.closed 2 4)) none none 10 =
      some (.ok [(.fin 2, some (.fin 7)), (.fin 4, some (.fin 7))]) := by
  refine ⟨?_, ?_⟩ <;> decide +kernel

/-- C38: steps of one from 1/4 on, and the end. -/
example : samplePoints ramp (some (Iv.closed (1 / 4) (5 / 2 + 1 / 8))) (some (.fin 1)) none 10 =
      some (.ok [(.fin (1 / 4), some (.fin (1 / 4))), (.fin (5 / 4), some (.fin (5 / 4))), (.fin (9 / 4), some (.fin (9 / 4))),
        (.fin (21 / 8), some (.fin (21 / 8)))]) ∧ NotHalfway 1 (1 / 4) := by
  refine ⟨by decide +kernel, fun n h => ?_⟩
  have : (4 * n + 1 : ℚ) = 0 := by linarith
  have : (4 * n + 1 : ℤ) = 0 := by exact_mod_cast this
  omega

/-- C39: missing values are left out before the first value and raise after it. -/
example : getRange [(.fin 0, none), (.fin 1, none), (.fin 2, some (.fin 3)), (.fin 3, some (.fin 1))] = .ok (some (.fin 1, .fin 3)) ∧
    getRange [(.fin 0, none), (.fin 1, some (.fin 3)), (.fin 2, none), (.fin 3, some .nan)] = .error .type := by
  refine ⟨by decide +kernel, ?_⟩
  exact C39_none_raises [(.fin 0, none)] [] (.fin 3) (.fin 1) (.fin 2) 1 rfl [] [(.fin 3, some .nan)] rfl

/-- C42: the fit of least squares through (0, 0), (1, 1), (2, 1) is x/2 + 1/6. -/
example : ∃ d, regression (fun _ => (1 / 2, 1 / 6)) [(0, some 0), (1, some 1), (2, some 1)] = .ok (some d) ∧
    ∀ x : ℚ, Line.y d (.fin x) = .fin (1 / 2 * x + 1 / 6) :=
  (C42_regression fun _ => (1 / 2, 1 / 6)).2.2 [(0, 0), (1, 1), (2, 1)] (by simp)

example : ∃ (d : LineData) (y : ℚ → ℚ), regression (fun _ => (1 / 2, 1 / 6)) [(0, some 0), (1, some 1), (2, some 1)] = .ok (some d) ∧
    (∀ x : ℚ, Line.y d (.fin x) = .fin (y x)) ∧
    ∀ s c : ℚ, ([(0, 0), (1, 1), (2, 1)].map fun q : ℚ × ℚ => (y q.1 - q.2) ^ 2).sum ≤
      ([(0, 0), (1, 1), (2, 1)].map fun q : ℚ × ℚ => (s * q.1 + c - q.2) ^ 2).sum := by
  refine C42_least (fun _ => (1 / 2, 1 / 6)) [(0, 0), (1, 1), (2, 1)] (by simp) fun s c => ?_
  norm_num
  nlinarith [sq_nonneg (6 * s + 6 * c - 4), sq_nonneg (2 * s - 1), sq_nonneg (3 * s + 3 * c - 2)]

/-- C43: the slope of a line; no value next to a missing one; C44: a step of two from 3. -/
example : dY (generic (fun x => .ok (some (.add (.mul (.fin 2) (.ofExt x)) (.fin 1))))) (.fin 3) true (some (.fin 1)) = .ok (some (.fin 2)) ∧
    dY ramp (.fin 5) true (some (.fin 1)) = .ok none := by
  refine ⟨?_, ?_⟩ <;> decide +kernel

example : Ext.fin 3 < .fin 5 ∧ Ext.fin 5 ≤ .fin (3 + 2) ∧ ∀ l, some (Ext.fin 6) = some l → Ext.fin 5 ≤ l :=
  C44_after (Iv.closed 0 10) (some (.fin 2)) (some (.fin 1)) (some (.fin 6)) 3 2 (.fin 5) (by decide +kernel) (by norm_num)
    (by intro l hl; cases hl; decide) (by decide +kernel)

end Curvepy.Props
