import Verif.Props.ExtremasScan

/-!
# Property C60: a reference of zero
-/

namespace Curvepy
namespace Props
open Spec Extr

/-- Without the zeros. -/
def hide (ref : ℚ → Option ℚ) (x : ℚ) : Option ℚ := if ref x = some 0 then none else ref x

theorem hide_fine (ref : ℚ → Option ℚ) (l : List (Pt ℚ)) : RefFine (hide ref) l := by
  intro p _ _ h
  unfold hide at h
  split_ifs at h with h1
  exact h1 h

/-- The same, with another reference. -/
def refer (A : Extr) (ref : ℚ → Option ℚ) : Extr := { A with ref := ref }

theorem nextPos_refer (A : Extr) (ref : ℚ → Option ℚ) (x : ℚ) {B : Extr} {v : Except Err (Option Ext)}
    (h : (refer A ref).nextPos x = (B, v)) : A.nextPos x = (refer B A.ref, v) ∧ refer (refer B A.ref) ref = B ∧ B.src = A.src := by
  unfold Extr.nextPos at *
  cases hc : A.current with
  | none =>
    have : (refer A ref).current = none := hc
    rw [this] at h
    obtain ⟨rfl, rfl⟩ := Prod.mk.inj h
    exact ⟨rfl, rfl, rfl⟩
  | some c =>
    have : (refer A ref).current = some c := hc
    rw [this] at h
    obtain ⟨rfl, rfl⟩ := Prod.mk.inj h
    exact ⟨rfl, rfl, rfl⟩

theorem extremaScan_hide {ref : ℚ → Option ℚ} {q : Pt ℚ} (h : RefFine ref [q]) (dev : ℚ) (s : Found) :
    extremaScan ref dev s q.1 q.2 = extremaScan (hide ref) dev s q.1 q.2 := by
  obtain ⟨x, _ | y⟩ := q
  · rfl
  · have := h (x, some y) (by simp) rfl
    simp [extremaScan, hide, this]

/-- A scan stops with an error at the first point with a value where the reference is zero, if it gets there, and it does if the
position asked for is not before it. -/
theorem scanLoop_zero {ref : ℚ → Option ℚ} {dev m : ℚ} (hd : 0 ≤ dev) (hm : 0 < m) (x : ℚ) {p : Pt ℚ} {y : ℚ} (hy : p.2 = some y)
    (h0 : ref p.1 = some 0) {post : List (Pt ℚ)} : ∀ (mid pre : List (Pt ℚ)) (A : Extr) (n : ℕ),
    Track (hide ref) dev m (refer A (hide ref)) pre (mid ++ p :: post) → A.ref = ref → RefFine ref mid → mid.length < n →
    ∃ B e pre' mid', scanLoop x n A = some (B, e) ∧ B.src = A.src ∧ B.ref = ref ∧
      Track (hide ref) dev m (refer B (hide ref)) pre' (mid' ++ p :: post) ∧ RefFine ref mid' ∧
      (p.1 ≤ x → e = some .zeroDiv) := by
  intro mid
  induction mid with
  | nil =>
    intro pre A n h hr hf hn
    obtain ⟨n, rfl⟩ : ∃ k, n = k + 1 := ⟨n - 1, by simp at hn; omega⟩
    cases hgo : A.current.all (fun c => A.continueScan c x) with
    | false =>
      refine ⟨A, none, pre, [], ?_, rfl, hr, h, hf, fun hx => ?_⟩
      · unfold scanLoop
        rw [hgo]
        rfl
      · exfalso
        have hcur : A.current = pre.getLast?.map Prod.fst := h.cur
        cases hl : pre.getLast? with
        | none => rw [hcur, hl] at hgo; cases hgo
        | some q =>
          have := (List.pairwise_append.1 h.asc).2.2 q (List.mem_of_getLast? hl) p (by simp)
          rw [hcur, hl] at hgo
          simp only [Option.map_some, Option.all_some, continueScan] at hgo
          rw [if_pos (by linarith)] at hgo
          cases hgo
    | true =>
      obtain ⟨B, hB, hT⟩ := Track.nextPos (p := p) (rest := post) h hm x
      obtain ⟨h1, h2, h3⟩ := nextPos_refer A (hide ref) x hB
      have hcon : B.src.domVal.contains (.fin p.1) = true := by
        rw [hT.dom]
        exact Pts.getDomain_contains_mem hT.asc (by simp)
      have hadv : B.current.any (fun k => decide (p.1 ≤ k)) = false := by
        rw [hT.cur]
        cases hl : pre.getLast? with
        | none => rfl
        | some q =>
          have := (List.pairwise_append.1 h.asc).2.2 q (List.mem_of_getLast? hl) p (by simp)
          simpa using this
      have hy' : B.src.y (.fin p.1) = .ok p.2 := Props.C01_stored_value hT.src (by rw [hT.pts]; simp)
      refine ⟨refer B A.ref, some .zeroDiv, pre, [], ?_, h3, hr, by rw [h2]; exact hT, hf, fun _ => rfl⟩
      have hz : extremaScan A.ref B.minDev (B.extremas, B.possible) p.1 p.2 = .error .zeroDiv := by
        rw [hy, hr]
        simp [extremaScan, h0]
      unfold scanLoop
      simp only [hgo, if_true, h1]
      simp only [refer, hcon, Bool.not_true, Bool.false_eq_true, if_false, hadv, hy', hz]
  | cons q mid ih =>
    intro pre A n h hr hf hn
    obtain ⟨n, rfl⟩ : ∃ k, n = k + 1 := ⟨n - 1, by simp at hn; omega⟩
    cases hgo : A.current.all (fun c => A.continueScan c x) with
    | false =>
      refine ⟨A, none, pre, q :: mid, ?_, rfl, hr, h, hf, fun hx => ?_⟩
      · unfold scanLoop
        rw [hgo]
        rfl
      · exfalso
        have hcur : A.current = pre.getLast?.map Prod.fst := h.cur
        cases hl : pre.getLast? with
        | none => rw [hcur, hl] at hgo; cases hgo
        | some r =>
          have := (List.pairwise_append.1 h.asc).2.2 r (List.mem_of_getLast? hl) p (by simp)
          rw [hcur, hl] at hgo
          simp only [Option.map_some, Option.all_some, continueScan] at hgo
          rw [if_pos (by linarith)] at hgo
          cases hgo
    | true =>
      obtain ⟨B, hB, hT⟩ := Track.nextPos (p := q) (rest := mid ++ p :: post) h hm x
      obtain ⟨h1, h2, h3⟩ := nextPos_refer A (hide ref) x hB
      have hcon : B.src.domVal.contains (.fin q.1) = true := by
        rw [hT.dom]
        exact Pts.getDomain_contains_mem hT.asc (by simp)
      have hadv : B.current.any (fun k => decide (q.1 ≤ k)) = false := by
        rw [hT.cur]
        cases hl : pre.getLast? with
        | none => rfl
        | some r =>
          have := (List.pairwise_append.1 h.asc).2.2 r (List.mem_of_getLast? hl) q (by simp)
          simpa using this
      have hy' : B.src.y (.fin q.1) = .ok q.2 := Props.C01_stored_value hT.src (by rw [hT.pts]; simp)
      have hsc : extremaScan A.ref B.minDev (B.extremas, B.possible) q.1 q.2 =
          .ok (foldDev (B.extremas, B.possible) (deviating (hide ref) dev [q])) := by
        rw [hr, hT.hasDev, extremaScan_hide (refFine_sub hf (by simp))]
        exact extremaScan_eq (refFine_sub (hide_fine ref [q]) (by simp)) _
      have hstep := Known.step hd hT.asc (by rw [← hT.pts]; exact hT.fine) hT.known
      set s := foldDev (B.extremas, B.possible) (deviating (hide ref) dev [q]) with hs
      have hT2 : Track (hide ref) dev m (refer { refer B A.ref with extremas := s.1, possible := s.2, current := some q.1 } (hide ref))
          (pre ++ [q]) (mid ++ p :: post) := by
        refine ⟨hT.src, by show B.src.points = _; rw [hT.pts]; simp, hT.gapped, hT.fine, rfl, hT.hasDev,
          hT.step, by rw [List.getLast?_append]; rfl, hT.start, ?_⟩
        have : pre ++ [q] ++ (mid ++ p :: post) = pre ++ q :: (mid ++ p :: post) := by simp
        rw [this]
        exact hstep
      obtain ⟨C, e, pre', mid', c1, c2, c3⟩ := ih (pre ++ [q]) _ n hT2 hr (refFine_sub hf (fun r hr => by simp [hr])) (by simpa using hn)
      refine ⟨C, e, pre', mid', ?_, c2.trans h3, c3⟩
      unfold scanLoop
      simp only [hgo, if_true, h1]
      simp only [refer, hcon, Bool.not_true, Bool.false_eq_true, if_false, hadv, hy', hsc]
      exact c1

/-- What `y` returns where a scan has to pass a zero reference, and what it leaves behind. -/
theorem query_zero {ref : ℚ → Option ℚ} {dev m : ℚ} (hd : 0 ≤ dev) (hm : 0 < m) {p : Pt ℚ} {y : ℚ} (hy : p.2 = some y)
    (h0 : ref p.1 = some 0) {post mid pre : List (Pt ℚ)} {A : Extr}
    (h : Track (hide ref) dev m (refer A (hide ref)) pre (mid ++ p :: post)) (hr : A.ref = ref) (hf : RefFine ref mid) (x : Ext) :
    ∃ B v pre' mid', A.query x = some (B, v) ∧ B.src = A.src ∧ B.ref = ref ∧
      Track (hide ref) dev m (refer B (hide ref)) pre' (mid' ++ p :: post) ∧ RefFine ref mid' ∧
      (.fin p.1 ≤ x → A.src.domVal.contains x = true → v = .error .zeroDiv) := by
  have hdom : A.src.domVal = Pts.getDomain (pre ++ (mid ++ p :: post)) := h.dom
  unfold Extr.query
  cases hx : A.src.domVal.contains x with
  | false => exact ⟨A, .ok none, pre, mid, rfl, rfl, hr, h, hf, by simp⟩
  | true =>
    cases x with
    | ninf => rw [hdom, (Pts.getDomain_contains_inf _).2] at hx; cases hx
    | pinf => rw [hdom, (Pts.getDomain_contains_inf _).1] at hx; cases hx
    | fin x =>
      have hreset : (if A.scanStart.any (fun s => decide (x < s)) then A.resetScan else A) = A := by
        rw [if_neg]
        intro hs
        cases hss : A.scanStart with
        | none => rw [hss] at hs; cases hs
        | some s =>
          rw [hss] at hs
          simp only [Option.any_some, decide_eq_true_eq] at hs
          obtain ⟨q, hq, hqs⟩ := h.start s hss
          rw [hdom] at hx
          obtain ⟨p', q', hp', _, h1, _⟩ := (Pts.getDomain_contains_fin _ _).1 hx
          rw [← h.pts, ← List.head?_eq_getElem?, hq] at hp'
          cases hp'
          linarith
      obtain ⟨B, e, pre', mid', b1, b2, b3, b4, b5, b6⟩ := scanLoop_zero hd hm x hy h0 mid pre A (A.src.points.length + 2) h hr hf
        (by
          have : A.src.points = pre ++ (mid ++ p :: post) := h.pts
          rw [this]; simp; omega)
      have hscan : A.scan x = some (B, e) := by
        unfold scan
        simp only [hreset]
        exact b1
      cases e with
      | none =>
        refine ⟨B, scannedY B.extremas x, pre', mid', by simp [hscan], b2, b3, b4, b5, fun hle _ => ?_⟩
        have := b6 (by simpa using hle)
        cases this
      | some e =>
        refine ⟨B, .error e, pre', mid', by simp [hscan], b2, b3, b4, b5, fun hle _ => ?_⟩
        have := b6 (by simpa using hle)
        rw [Option.some.inj this]

/-- The first point with a value where the reference is zero. -/
theorem first_zero {ref : ℚ → Option ℚ} : ∀ {l : List (Pt ℚ)} {p : Pt ℚ}, p ∈ l → p.2.isSome → ref p.1 = some 0 → Ascending l →
    ∃ mid q post y, l = mid ++ q :: post ∧ RefFine ref mid ∧ q.2 = some y ∧ ref q.1 = some 0 ∧ q.1 ≤ p.1 := by
  intro l
  induction l with
  | nil => intro p hp; cases hp
  | cons r l ih =>
    intro p hp hs h0 hasc
    by_cases hr : r.2.isSome ∧ ref r.1 = some 0
    · obtain ⟨y, hy⟩ := Option.isSome_iff_exists.1 hr.1
      refine ⟨[], r, l, y, rfl, (fun q hq => by cases hq), hy, hr.2, ?_⟩
      rcases List.mem_cons.1 hp with rfl | hp
      · exact le_rfl
      · exact ((List.pairwise_cons.1 hasc).1 p hp).le
    · rcases List.mem_cons.1 hp with rfl | hp
      · exact absurd ⟨hs, h0⟩ hr
      · obtain ⟨mid, q, post, y, h1, h2, h3⟩ := ih hp hs h0 (List.pairwise_cons.1 hasc).2
        refine ⟨r :: mid, q, post, y, by rw [h1]; rfl, ?_, h3⟩
        intro t ht hts
        rcases List.mem_cons.1 ht with rfl | ht
        · exact fun h => hr ⟨hts, h⟩
        · exact h2 t ht hts

/-- Reached by queries, whether they raised or not. -/
inductive Asked (A : Extr) : Extr → Prop where
  | refl : Asked A A
  | query {B C : Extr} {x : Ext} {v : Except Err (Option ℚ)} (h : Asked A B) (hq : B.query x = some (C, v)) : Asked A C

/-- C60: where the reference is zero at a point that has a value, every query at or after that point raises `ZeroDivisionError`,
whatever was asked before. -/
theorem C60_zero_raises {ref : ℚ → Option ℚ} {dev m : ℚ} (hm : 0 < m) {s : Pts ℚ} (hs : Honest s) (hg : Gapped m s.points)
    {p : Pt ℚ} (hp : p ∈ s.points) (hv : p.2.isSome) (h0 : ref p.1 = some 0) {B : Extr} (hB : Asked (Extr.new s ref dev m) B)
    {x : ℚ} (hx : p.1 ≤ x) (hin : s.domVal.contains (.fin x) = true) :
    ∃ C, B.query (.fin x) = some (C, .error .zeroDiv) := by
  obtain ⟨mid, q, post, y, h1, h2, h3, h4, h5⟩ := first_zero hp hv h0 hs.wf.asc
  have key : ∃ pre mid', B.src = s ∧ B.ref = ref ∧
      Track (hide ref) |dev| m (refer B (hide ref)) pre (mid' ++ q :: post) ∧ RefFine ref mid' := by
    induction hB with
    | refl =>
      exact ⟨[], mid, rfl, rfl, ⟨hs, h1, hg, hide_fine ref _, rfl, rfl, rfl, rfl, (fun s hs => by cases hs),
        Known.fresh Stutter.nil rfl⟩, h2⟩
    | query _ hq ih =>
      obtain ⟨pre, mid', i1, i2, i3, i4⟩ := ih
      obtain ⟨C, v, pre', mid'', c1, c2, c3, c4, c5, _⟩ := query_zero (abs_nonneg dev) hm h3 h4 i3 i2 i4 _
      rw [hq] at c1
      cases c1
      exact ⟨pre', mid'', c2.trans i1, c3, c4, c5⟩
  obtain ⟨pre, mid', i1, i2, i3, i4⟩ := key
  obtain ⟨C, v, _, _, c1, _, _, _, _, c6⟩ := query_zero (abs_nonneg dev) hm h3 h4 i3 i2 i4 (.fin x)
  rw [c6 (by simpa using h5.trans hx) (by rw [i1]; exact hin)] at c1
  exact ⟨C, c1⟩

/-- A reference that is zero from 2 on: the first two points can be read. -/
example : ((Extr.new (loose wavePts) (fun x => if x < 2 then some 10 else some 0) 0 1).query (.fin 3)).map Prod.snd =
      some (.error .zeroDiv) ∧
    ((Extr.new (loose wavePts) (fun x => if x < 2 then some 10 else some 0) 0 1).query (.fin 0)).map Prod.snd =
      some (.ok (some 8)) := by
  constructor <;> decide +kernel

end Props
end Curvepy
