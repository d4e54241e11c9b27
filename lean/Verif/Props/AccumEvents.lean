import Verif.Model.AccumEvents
import Verif.Props.Accumulator
import Verif.Props.PointsEdit

/-!
# Properties C111, C112: what accumulators announce
-/

namespace Curvepy
namespace Props
open Spec Pts Accum

variable {t : Tfm} {g : Rule} {m : ℚ} {i : Interp} {u : Bool} {A : Accum}

/-- Before the interval there are no points, or there is a point between the position and the interval. -/
def Anchored (iv : Iv) (old new : List (Pt ℚ)) : Prop :=
  ∀ x : ℚ, iv.geLo (.fin x) = false →
    ((∀ p ∈ old, x < p.1) ∧ ∀ p ∈ new, x < p.1) ∨ ∃ p ∈ old, x ≤ p.1 ∧ iv.geLo (.fin p.1) = false

theorem geLo_of_contains {iv : Iv} {a x : ℚ} (h : iv.contains (.fin a) = true) (hx : iv.geLo (.fin x) = false) : x < a := by
  by_contra hc
  have := geLo_le (not_lt.1 hc) hx
  rw [((Iv.contains_iff _ _).1 h).1] at this; cases this

theorem anchored_set {s : Pts ℚ} (b : s.Base) {pts : List (Pt ℚ)} (hl : Ascending pts) :
    Anchored (s.setIv pts) s.points pts := by
  intro x hx
  refine .inl ⟨fun p hp => geLo_of_contains (iv := s.setIv pts) ?_ hx, fun p hp => geLo_of_contains (iv := s.setIv pts) ?_ hx⟩
  · have h1 := getDomain_contains_mem b.asc hp
    rw [← b.domVal] at h1
    cases pts with
    | nil => exact h1
    | cons p ps => exact (Iv.superset_iff _ _).1 (Iv.union_left _ _) _ h1
  · cases pts with
    | nil => cases hp
    | cons q ps =>
      exact (Iv.superset_iff _ _).1 (Iv.union_right _ _) _ (getDomain_contains_mem hl hp)

theorem set_meets {s : Pts ℚ} (b : s.Base) {pts : List (Pt ℚ)} (hl : Ascending pts) (h : (s.setIv pts).isEmpty = false) :
    ∃ q : ℚ, (s.setIv pts).contains (.fin q) = true := by
  cases pts with
  | nil =>
    change s.domVal.isEmpty = false at h
    show ∃ q : ℚ, s.domVal.contains (.fin q) = true
    rw [b.domVal] at h ⊢
    cases hp : s.points with
    | nil => rw [hp] at h; simp [getDomain] at h
    | cons p ps => exact ⟨p.1, getDomain_contains_mem (hp ▸ b.asc) (by simp)⟩
  | cons p ps =>
    exact ⟨p.1, (Iv.superset_iff _ _).1 (Iv.union_right _ _) _ (getDomain_contains_mem hl (by simp))⟩

theorem appendList_anchored {s : Pts ℚ} (b : s.Base) {ps : List (Pt ℚ)} (hl : Ascending ps) (r : Reads)
    (he : (s.appendList ps r).err = none) :
    (s.appendList ps r).ev = [] ∧ (s.appendList ps r).st.points = s.points ∨
    ∃ iv, Edited s (s.appendList ps r).st.points iv (s.appendList ps r) ∧ (iv.isEmpty = false → ∃ q : ℚ, iv.contains (.fin q) = true) ∧
      Anchored iv s.points (s.appendList ps r).st.points := by
  cases hs : s.points with
  | nil =>
    have h : s.appendList ps r = s.set ps none r := by
      unfold appendList
      split
      · rfl
      · rename_i h; rw [hs] at h; cases h
    rw [h] at he ⊢
    rcases set_none b hl r with ⟨_, _, h⟩ | ⟨_, h, _⟩
    · rw [h.err] at he; cases he
    · refine .inr ⟨s.setIv ps, ?_, set_meets b hl, ?_⟩ <;> rw [h.points]
      · exact h
      · rw [← hs]; exact anchored_set b hl
  | cons o os =>
    cases ps with
    | nil => exact .inl ⟨(C09_empty b r).2.1, by rw [(C09_empty b r).2.2.1, hs]⟩
    | cons p ps =>
      by_cases hle : p.1 ≤ ((o :: os).getLast (by simp)).1
      · rw [appendList_nonAscending r hs hle] at he; cases he
      · rcases appendList_cons b r hs hl (not_le.1 hle) with ⟨_, _, h⟩ | ⟨hc, h, _⟩
        · rw [h.err] at he; cases he
        · refine .inr ⟨appendIv o os p ps, ?_, fun _ => ⟨((p :: ps).getLast (by simp)).1, ?_⟩, ?_⟩
          · rw [h.points]; exact h
          · have hple : p.1 ≤ ((p :: ps).getLast (by simp)).1 :=
              Ascending.le hl (i := 0) rfl (getLast_mem_idx (by simp)) (by omega)
            rw [Iv.contains_iff, Iv.geLo_iff, Iv.leHi_iff]
            exact ⟨.inl (by simpa [appendIv, Iv.openClosed] using lt_of_lt_of_le (not_le.1 hle) hple),
              .inr ⟨by simp [appendIv, Iv.openClosed], rfl⟩⟩
          · intro x hx
            refine .inr ⟨(o :: os).getLast (by simp), List.getLast_mem _, ?_, ?_⟩
            · by_contra hc
              have : (appendIv o os p ps).geLo (.fin x) = true := by
                rw [Iv.geLo_iff]
                exact .inl (by simpa [appendIv, Iv.openClosed] using hc)
              rw [this] at hx; cases hx
            · by_contra hg
              have hg := (Iv.geLo_iff _ _).1 (by simpa using hg)
              simp [appendIv, Iv.openClosed] at hg

/-- Whatever is edited before the interval; the interval of a `replace` inside the domain is the replaced position. -/
theorem edit_held {s : Pts ℚ} (h : Honest s) {op : Op ℚ} (hl : op.Legal) (r : Reads)
    (he : (op.run s r).err = none) :
    (op.run s r).ev = [] ∧ (op.run s r).st.points = s.points ∨
    ∃ iv, Edited s (op.run s r).st.points iv (op.run s r) ∧ (iv.isEmpty = false → ∃ q : ℚ, iv.contains (.fin q) = true) ∧
      (Anchored iv s.points (op.run s r).st.points ∨ ∃ p oa, op = .replace p oa ∧ iv = Iv.point p.1) := by
  cases op with
  | set pts =>
    simp only [Op.run] at he ⊢
    rcases set_none h.base hl r with ⟨_, _, hst⟩ | ⟨_, hed, _⟩
    · rw [hst.err] at he; cases he
    · refine .inr ⟨s.setIv pts, ?_, set_meets h.base hl, .inl ?_⟩ <;> rw [hed.points]
      · exact hed
      · exact anchored_set h.base hl
  | append p =>
    rcases appendList_anchored h.base (ps := [p]) (by simp [Ascending]) r he with h1 | ⟨iv, h1, h2, h3⟩
    · exact .inl h1
    · exact .inr ⟨iv, h1, h2, .inl h3⟩
  | appendList ps =>
    rcases appendList_anchored h.base hl r he with h1 | ⟨iv, h1, h2, h3⟩
    · exact .inl h1
    · exact .inr ⟨iv, h1, h2, .inl h3⟩
  | replace p oa =>
    simp only [Op.run] at he ⊢
    by_cases hin : (getDomain s.points).contains (.fin p.1) = true
    · rcases replace_inside h.base h.wf p oa r hin with ⟨_, _, hst⟩ | ⟨_, hed, _⟩
      · rw [hst.err] at he; cases he
      · refine .inr ⟨Iv.point p.1, ?_, fun _ => ⟨p.1, ?_⟩, .inr ⟨p, oa, rfl, rfl⟩⟩
        · rw [hed.points]; exact hed
        · rw [Iv.contains_iff, Iv.geLo_iff, Iv.leHi_iff]; simp [Iv.point, Iv.closed]
    · have hout := replace_outside h.base p oa r (by simpa using hin)
      cases oa with
      | false => rw [hout] at he; simp at he
      | true =>
        simp only [if_true] at hout
        rw [hout] at he ⊢
        rcases appendList_anchored h.base.touch (ps := [p]) (by simp [Ascending]) r he with h1 | ⟨iv, h1, h2, h3⟩
        · exact .inl h1
        · exact .inr ⟨iv, h1.looks (touch_looks s), h2, .inl h3⟩
  | reset d =>
    cases d with
    | none =>
      simp only [Op.run] at he ⊢
      by_cases hp : s.points.length = 0
      · have : s.reset none r = ⟨s, [], none⟩ := by simp only [reset, hp, if_true]
        rw [this]; exact .inl ⟨rfl, rfl⟩
      · have : s.reset none r = s.set [] none r := by simp only [reset, hp, if_false]
        rw [this] at he ⊢
        rcases set_none h.base (pts := []) List.Pairwise.nil r with ⟨_, hc, _⟩ | ⟨_, hed, _⟩
        · simp [setCheck] at hc
        · refine .inr ⟨s.setIv [], ?_, set_meets h.base .nil, .inl ?_⟩ <;> rw [hed.points]
          · exact hed
          · exact anchored_set h.base .nil
    | some d =>
      simp only [Op.run] at he ⊢
      rcases reset_some h.base h.wf d r with ⟨_, h2 | h2⟩ | ⟨iv, _, _, _, h3⟩ | ⟨iv, h0, h1, _, _, _, hrem, hanc⟩
      · rw [h2]; exact .inl ⟨rfl, rfl⟩
      · rw [h2]; exact .inl ⟨rfl, rfl⟩
      · rw [h3.err] at he; cases he
      · refine .inr ⟨iv, by rw [h1.points]; exact h1, fun _ => ?_, .inl fun x hx => ?_⟩
        · by_contra hc
          push Not at hc
          apply h0
          unfold dropInside
          rw [List.filter_eq_self]
          intro p hp
          by_contra hd
          exact hc p.1 (hrem p hp (by simpa using hd))
        · rcases hanc x hx with ha | ha
          · refine .inl ⟨ha, fun p hp => ha p ?_⟩
            rw [h1.points] at hp
            exact List.mem_of_mem_filter hp
          · exact .inr ha

theorem edit_anchored {s : Pts ℚ} (h : Honest s) {op : Op ℚ} (hl : op.Legal) (r : Reads)
    (he : (op.run s r).err = none) :
    (op.run s r).ev = [] ∧ (op.run s r).st.points = s.points ∨
    ∃ iv, Edited s (op.run s r).st.points iv (op.run s r) ∧ (iv.isEmpty = false → ∃ q : ℚ, iv.contains (.fin q) = true) ∧
      (notReplace op → Anchored iv s.points (op.run s r).st.points) := by
  rcases edit_held h hl r he with h1 | ⟨iv, h1, h2, h3⟩
  · exact .inl h1
  · refine .inr ⟨iv, h1, h2, fun hn => ?_⟩
    rcases h3 with h3 | ⟨p, oa, rfl, _⟩
    · exact h3
    · exact absurd hn (by simp [notReplace])

/-- What the accumulator announces: everything from the beginning of the interval on. -/
theorem passed_edit (h : Sound g m i u A seen todo) {op : Op ℚ} (r : Reads) {iv : Iv} {a b : Pts ℚ}
    (hev : (op.run A.src r).ev = [.begin iv a, .fin iv b]) (hq : ∃ q : ℚ, iv.contains (.fin q) = true) :
    A.editPassed op r = [.begin ⟨iv.lo, .pinf, iv.loOpen, true⟩, .fin ⟨iv.lo, .pinf, iv.loOpen, true⟩] := by
  have hseen : Ascending seen := (List.pairwise_append.1 h.asc).1
  obtain ⟨A1, seen', hb, e1, e2, e3, e4, -⟩ :=
    onBegin_spec (A := { A with src := (op.run A.src r).st }) (seen := seen) h.acc h.run h.cur h.start hseen iv
  have hB : A1.bIv = Iv.empty := e3.trans h.idleB
  have hE : A1.eIv = Iv.empty := e4.trans h.idleE
  have hlo : iv.lo < .pinf := by
    obtain ⟨q, hq⟩ := hq
    rcases (Iv.geLo_iff _ _).1 ((Iv.contains_iff _ _).1 hq).1 with h | ⟨h, _⟩
    · exact h.trans (by simp)
    · rw [h]; simp
  have hem : (updateInterval iv).isEmpty = false := by
    rw [Iv.not_isEmpty_iff]; exact .inl hlo
  obtain ⟨hg1, hg2⟩ := gate_roundtrip hB hE hem
  simp only [editPassed, hev, passedAll, passed, notify, hb, onEnd, hg1, hg2]
  rfl

/-- C111: an edit of the source that succeeds is announced once before and once after, as an edit of everything from the
beginning of the source's interval on; an edit the source is silent about is not announced. -/
theorem C111_announced (hf : Follows m t g) (hm : 0 < m) (h : Used t m i u A) {op : Op ℚ} (hl : op.Legal) (r : Reads)
    (he : (op.run A.src r).err = none) :
    ((op.run A.src r).ev = [] ∧ A.editPassed op r = []) ∨
    ∃ iv a b, (op.run A.src r).ev = [.begin iv a, .fin iv b] ∧
      A.editPassed op r = [.begin ⟨iv.lo, .pinf, iv.loOpen, true⟩, .fin ⟨iv.lo, .pinf, iv.loOpen, true⟩] := by
  obtain ⟨seen, todo, hs⟩ := Used.sound hf hm h
  have hnil : (op.run A.src r).ev = [] → A.editPassed op r = [] := by
    intro h; simp only [editPassed, h, passedAll]
  rcases edit_anchored hs.src hl r he with ⟨h1, -⟩ | ⟨iv, hed, hq, -⟩
  · exact .inl ⟨h1, hnil h1⟩
  · rcases hed.ev with ⟨_, h2, _⟩ | ⟨hne, a, b, h2, _⟩
    · exact .inl ⟨h2, hnil h2⟩
    · exact .inr ⟨iv, a, b, h2, passed_edit hs r h2 (hq hne)⟩

/-- A knot is appended, and a value is replaced. -/
example : (Accum.new (even .linear) 1).editPassed (.append (6, some 9)) quiet =
    [.begin ⟨.fin 4, .pinf, true, true⟩, .fin ⟨.fin 4, .pinf, true, true⟩] := by decide +kernel
example : (Accum.new (even .linear) 1).editPassed (.replace (2, some 7) false) quiet =
    [.begin ⟨.fin 2, .pinf, false, true⟩, .fin ⟨.fin 2, .pinf, false, true⟩] := by decide +kernel
/-- Appending nothing. -/
example : (Accum.new (even .linear) 1).editPassed (.appendList []) quiet = [] := by decide +kernel

theorem split_at {a : List (Pt ℚ)} (ha : Ascending a) (k : ℚ) :
    a = a.filter (fun p => decide (p.1 ≤ k)) ++ a.filter (fun p => decide (k < p.1)) := by
  refine ascending_ext ha ?_ fun p => ?_
  · refine List.pairwise_append.2 ⟨ha.filter _, ha.filter _, fun p hp q hq => ?_⟩
    have h1 : p.1 ≤ k := by simpa using (List.mem_filter.1 hp).2
    have h2 : k < q.1 := by simpa using (List.mem_filter.1 hq).2
    linarith
  · rw [List.mem_append, List.mem_filter, List.mem_filter]
    constructor
    · intro hp
      by_cases h : p.1 ≤ k
      · exact .inl ⟨hp, by simpa using h⟩
      · exact .inr ⟨hp, by simpa using h⟩
    · rintro (h | h) <;> exact h.1

/-- Lists that are the same up to a point after the position. -/
theorem accumulatedAt_local {a b : List (Pt ℚ)} (ha : Ascending a) (hb : Ascending b) {k : Pt ℚ} {x : ℚ} (hk : k ∈ a)
    (hx : x ≤ k.1) (hs : ∀ p : Pt ℚ, p.1 ≤ k.1 → (p ∈ b ↔ p ∈ a)) :
    accumulatedAt g i b (.fin x) = accumulatedAt g i a (.fin x) := by
  have hkb : k ∈ b := (hs k le_rfl).2 hk
  have hfil : b.filter (fun p => decide (p.1 ≤ k.1)) = a.filter (fun p => decide (p.1 ≤ k.1)) := by
    refine ascending_ext (hb.filter _) (ha.filter _) fun p => ?_
    rw [List.mem_filter, List.mem_filter]
    constructor
    · rintro ⟨h1, h2⟩; exact ⟨(hs p (by simpa using h2)).1 h1, h2⟩
    · rintro ⟨h1, h2⟩; exact ⟨(hs p (by simpa using h2)).2 h1, h2⟩
  have hup : ∀ l : List (Pt ℚ), Ascending l → k ∈ l → upTo x l = upTo x (l.filter (fun p => decide (p.1 ≤ k.1))) := by
    intro l hl hkl
    conv_lhs => rw [split_at hl k.1]
    exact upTo_append_of_reached ⟨k, List.mem_filter.2 ⟨hkl, by simp⟩, hx⟩
  have hspan : ∀ l : List (Pt ℚ), Ascending l → k ∈ l →
      ((span l).contains (.fin x) = true ↔ ∃ p ∈ l.filter (fun p => decide (p.1 ≤ k.1)), p.1 ≤ x) := by
    intro l hl hkl
    rw [← getDomain_eq_span]
    constructor
    · intro hc
      cases l with
      | nil => cases hkl
      | cons p ps =>
        have hp : p.1 ≤ x := by
          have := (Iv.geLo_iff _ _).1 ((Iv.contains_iff _ _).1 hc).1
          rcases this with h | ⟨h, _⟩
          · exact le_of_lt (by simpa [getDomain, Iv.closed] using h)
          · exact le_of_eq (by simpa [getDomain, Iv.closed] using h)
        refine ⟨p, List.mem_filter.2 ⟨by simp, by simpa using hp.trans hx⟩, hp⟩
    · rintro ⟨p, hp, hpx⟩
      have hp := (List.mem_filter.1 hp).1
      obtain ⟨n, hn⟩ := List.getElem?_of_mem hp
      obtain ⟨n', hn'⟩ := List.getElem?_of_mem hkl
      exact contains_of_idx hl hn hn' hpx hx
  have hsp : (span b).contains (.fin x) = (span a).contains (.fin x) := by
    rw [Bool.eq_iff_iff, hspan b hb hkb, hspan a ha hk, hfil]
  simp only [accumulatedAt, hsp, hup b hb hkb, hup a ha hk, hfil]

/-- C112 for `set`, `append`, `append_list` and `reset`: outside the announced interval the values of the accumulator
stay as they were.  Missing: `replace`, see `C112_negation`. -/
theorem C112_partial (hf : Follows m t g) (hm : 0 < m) (h : Used t m i u A) {op : Op ℚ} (hl : op.Legal)
    (hnr : notReplace op) (r : Reads) (he : (op.run A.src r).err = none) (ht : Truthful (op.run A.src r).st)
    (hfit : Fit m u (op.run A.src r).st.points) (x : Ext)
    (hx : ∀ e ∈ A.editPassed op r, e.iv.contains x = false) :
    ((A.edit op r).1.query t x).map Out.res = (A.query t x).map Out.res := by
  have hlate : lateError (op.run A.src r).err = false := by rw [he]; rfl
  have hA : Used t m i u (A.edit op r).1 := .edit h hl hlate ht hfit
  obtain ⟨o1, h1, h2, -⟩ := C46_fold_partial hf hm hA x
  obtain ⟨o2, h3, h4, -⟩ := C46_fold_partial hf hm h x
  rw [h1, h3, Option.map_some, Option.map_some, h2, h4, (C46_edit_partial hf hm h hl r hlate ht hfit).2]
  congr 1
  obtain ⟨seen, todo, hs⟩ := Used.sound hf hm h
  have hh : Honest (op.run A.src r).st := .edit hs.src hl hlate ht
  cases x with
  | ninf => rfl
  | pinf => rfl
  | fin x =>
    rcases edit_anchored hs.src hl r he with ⟨-, hp⟩ | ⟨iv, hed, hq, hanc⟩
    · rw [hp]
    · rcases hed.ev with ⟨_, _, hp⟩ | ⟨hne, a, b, hev, _⟩
      · rw [hp]
      · have hgl : iv.geLo (.fin x) = false := by
          rw [passed_edit hs r hev (hq hne)] at hx
          by_contra hc
          have hg : iv.geLo (.fin x) = true := by simpa using hc
          have : (⟨iv.lo, .pinf, iv.loOpen, true⟩ : Iv).contains (.fin x) = true := by
            rw [Iv.contains_iff]
            exact ⟨hg, by rw [Iv.leHi_iff]; exact .inl (by simp)⟩
          have := this.symm.trans (hx (.begin ⟨iv.lo, .pinf, iv.loOpen, true⟩) (by simp))
          cases this
        rcases hanc hnr x hgl with ⟨h5, h6⟩ | ⟨k, hk, hxk, hgk⟩
        · have hout : ∀ l : List (Pt ℚ), Ascending l → (∀ p ∈ l, x < p.1) → accumulatedAt g i l (.fin x) = .ok none := by
            intro l hl hb
            have : (span l).contains (.fin x) = false := by
              rw [← getDomain_eq_span]
              by_contra hc
              have hc : (getDomain l).contains (.fin x) = true := by simpa using hc
              cases l with
              | nil => exact absurd (Iv.not_isEmpty_of_mem hc) (by simp [getDomain])
              | cons p ps =>
                have := (Iv.geLo_iff _ _).1 ((Iv.contains_iff _ _).1 hc).1
                have hp := hb p (by simp)
                rcases this with h | ⟨h, _⟩
                · have : p.1 < x := by simpa [getDomain, Iv.closed] using h
                  linarith
                · have : p.1 = x := by simpa [getDomain, Iv.closed] using h
                  linarith
            simp [accumulatedAt, this]
          rw [hout _ hh.wf.asc h6, hout _ hs.src.wf.asc h5]
        · refine accumulatedAt_local hs.src.wf.asc hh.wf.asc hk hxk fun p hp => ?_
          by_contra hc
          obtain ⟨iv', a', b', h7, h8⟩ := C70_points_local hs.src hl r hc
          rw [hev] at h7
          cases h7
          have := geLo_le hp hgk
          rw [((Iv.contains_iff _ _).1 h8).1] at this; cases this

theorem fit_spaced {l : List (Pt ℚ)} {u : Bool} (hg : Gapped 1 l) (he : EquallySpaced l) : Fit 1 u l :=
  ⟨hg, fun _ _ _ _ hp _ => EquallySpaced.prefix hp he, fun _ => he⟩

/-- Appending a knot: the values up to `4` stay. -/
example : (((Accum.new (even .linear) 1).edit (.append (6, some 9)) quiet).1.query
    (emaTfm (some (1/2)) none none 1) (.fin 3)).map Out.res =
    ((Accum.new (even .linear) 1).query (emaTfm (some (1/2)) none none 1) (.fin 3)).map Out.res :=
  C112_partial (ema_follows_alpha (m := 1) (1/2) none 1) one_pos (.new (even_honest _) (even_fit true _))
    (by trivial) (by trivial) quiet (by decide +kernel)
    (fun _ => by
      rw [show ((Op.append (6, some 9)).run (Accum.new (even .linear) 1).src quiet).st.points = [(0, some 1), (2, some 5), (4, some 4), (6, some 9)] by decide +kernel]
      exact ⟨2, by norm_num⟩)
    (by
      rw [show ((Op.append (6, some 9)).run (Accum.new (even .linear) 1).src quiet).st.points = [(0, some 1), (2, some 5), (4, some 4), (6, some 9)] by decide +kernel]
      exact fit_spaced (by norm_num [Gapped]) ⟨2, by norm_num⟩) _ (by decide +kernel)
example : ((Accum.new (even .linear) 1).query (emaTfm (some (1/2)) none none 1) (.fin 3)).map Out.res =
    some (.ok (some (13/4))) := by decide +kernel

/-- C112 does not hold for `replace`: a new value at `2` is announced as an edit from `2` on, but the average at `1`,
interpolated between the knots `0` and `2`, changes as well. -/
theorem C112_negation :
    ∃ (t : Tfm) (g : Rule) (m : ℚ) (i : Interp) (u : Bool) (A : Accum) (op : Op ℚ) (r : Reads) (x : Ext),
      Follows m t g ∧ 0 < m ∧ Used t m i u A ∧ op.Legal ∧ (op.run A.src r).err = none ∧ Truthful (op.run A.src r).st ∧
      Fit m u (op.run A.src r).st.points ∧ A.editPassed op r ≠ [] ∧
      (∀ e ∈ A.editPassed op r, e.iv.contains x = false) ∧
      ((A.edit op r).1.query t x).map Out.res ≠ (A.query t x).map Out.res :=
  ⟨emaTfm (some (1/2)) none none 1, _, 1, .linear, true, Accum.new (even .linear) 1, .replace (2, some 7) false, quiet,
    .fin 1, ema_follows_alpha (1/2) none 1, one_pos, .new (even_honest _) (even_fit _ _), by trivial, by decide +kernel,
    (fun _ => by
      rw [show ((Op.replace (2, some 7) false).run (Accum.new (even .linear) 1).src quiet).st.points = [(0, some 1), (2, some 7), (4, some 4)] by decide +kernel]
      exact ⟨2, by norm_num⟩),
    (by
      rw [show ((Op.replace (2, some 7) false).run (Accum.new (even .linear) 1).src quiet).st.points = [(0, some 1), (2, some 7), (4, some 4)] by decide +kernel]
      exact fit_spaced (by norm_num [Gapped]) ⟨2, by norm_num⟩),
    by decide +kernel, by decide +kernel, by decide +kernel⟩

end Props
end Curvepy
