import Verif.Spec.Descriptor

/-!
# Properties of function descriptors
-/

namespace Curvepy
namespace Props
open Spec Desc

variable {C : Type}

/-! ## C53 -/

/-- The list of decorators is longer only after an exception. -/
def Restores {α : Type} (r : Except Err α × List Deco) (ds : List Deco) : Prop :=
  ∃ ext, r.2 = ds ++ ext ∧ ∀ a, r.1 = .ok a → ext = []

theorem Restores.same {α : Type} (r : Except Err α) (ds : List Deco) : Restores (r, ds) ds :=
  ⟨[], by simp, fun _ _ => rfl⟩

theorem Restores.andThen {α β : Type} {r : Except Err α × List Deco} {ds : List Deco}
    {f : α → List Deco → Except Err β × List Deco} (h : Restores r ds) (hf : ∀ a, Restores (f a ds) ds) :
    Restores (Desc.andThen r f) ds := by
  obtain ⟨ext, h1, h2⟩ := h
  obtain ⟨r, ds'⟩ := r
  unfold Desc.andThen
  cases r with
  | error e => exact ⟨ext, h1, by simp⟩
  | ok a =>
    have := h2 a rfl
    subst this
    simp only [List.append_nil] at h1
    subst h1
    exact hf a

theorem deco_restores (L : Lib C) {P : Parser C} (hP : ∀ d fr cur ds, Restores (P d fr cur ds) ds) (n : ℕ) (fr : Bool)
    (o : Deco) (v cur : Val C) (ds : List Deco) : Restores (decoKey L P n fr o v cur ds) ds := by
  unfold decoKey
  obtain ⟨ext, h1, h2⟩ := hP v fr cur (ds ++ [o])
  generalize P v fr cur (ds ++ [o]) = r at *
  obtain ⟨r, ds'⟩ := r
  simp only at h1 h2
  unfold Desc.andThen
  cases r with
  | error e => exact ⟨[o] ++ ext, by simp [h1], by simp⟩
  | ok a =>
    have := h2 a rfl
    subst this
    simp only [List.append_nil] at h1
    subst h1
    refine ⟨[], ?_, fun _ _ => rfl⟩
    simp [List.eraseIdx_append_of_length_le]

theorem func_restores (L : Lib C) {P : Parser C} (hP : ∀ d fr cur ds, Restores (P d fr cur ds) ds)
    (f : Fn) (v cur : Val C) (ds : List Deco) : Restores (funcKey L P f v cur ds) ds := by
  unfold funcKey
  split
  · exact Restores.same _ _
  · exact (hP _ _ _ _).andThen fun a => Restores.same _ _

theorem plain_restores {P : Parser C} (hP : ∀ d fr cur ds, Restores (P d fr cur ds) ds)
    (v cur : Val C) (ds : List Deco) : Restores (plainKey P v cur ds) ds := by
  unfold plainKey
  split_ifs
  · exact Restores.same _ _
  · exact hP _ _ _ _
  · exact Restores.same _ _

theorem keys_restores (L : Lib C) {P : Parser C} (hP : ∀ d fr cur ds, Restores (P d fr cur ds) ds) (n : ℕ)
    (fr : Bool) (ds : List Deco) : ∀ (m : List (Key × Val C)) (cur : Val C) (vals : List (Key × Val C)),
    Restores (keys L P n fr m cur vals ds) ds
  | [], cur, vals => Restores.same _ _
  | (.deco o, v) :: rest, cur, vals => by
    rw [keys]
    refine (deco_restores L hP n fr o v cur ds).andThen fun a => ?_
    cases a with
    | go c => exact keys_restores L hP n fr ds rest c vals
    | stop v => exact Restores.same _ _
    | keep w => exact (plain_restores hP w cur ds).andThen fun a => keys_restores L hP n fr ds rest cur _
  | (.func f, v) :: rest, cur, vals => by
    rw [keys]
    exact (func_restores L hP f v cur ds).andThen fun c => keys_restores L hP n fr ds rest c vals
  | (.plain s, v) :: rest, cur, vals => by
    rw [keys]
    exact (plain_restores hP v cur ds).andThen fun a => keys_restores L hP n fr ds rest cur _

theorem items_restores {P : Parser C} (hP : ∀ d fr cur ds, Restores (P d fr cur ds) ds)
    (ds : List Deco) : ∀ l : List (Val C), Restores (items P l ds) ds
  | [] => Restores.same _ _
  | v :: rest => by
    rw [items]
    exact (hP _ _ _ _).andThen fun w => (items_restores hP ds rest).andThen fun ws => Restores.same _ _

theorem parse_map (L : Lib C) (n : ℕ) (m : List (Key × Val C)) (fr : Bool) (cur : Val C) (ds : List Deco) :
    parse L (n + 1) (.map m) fr cur ds = keys L (parse L n) m.length fr m cur [] ds := rfl

theorem parse_list (L : Lib C) (n : ℕ) (l : List (Val C)) (fr : Bool) (cur : Val C) (ds : List Deco) :
    parse L (n + 1) (.list l) fr cur ds =
      if fr then andThen (items (parse L n) l ds) fun ws ds => (.ok (.list ws), ds) else (.error .type, ds) := rfl

theorem parse_leaf {L : Lib C} (n : ℕ) (d : Val C) (fr : Bool) (cur : Val C) (ds : List Deco)
    (h1 : ∀ m, d ≠ .map m) (h2 : ∀ l, d ≠ .list l) :
    parse L (n + 1) d fr cur ds = if fr then (leaf L ds d, ds) else (.error .type, ds) := by
  cases d with
  | map m => exact absurd rfl (h1 m)
  | list l => exact absurd rfl (h2 l)
  | _ => rfl

theorem parse_restores (L : Lib C) : ∀ (n : ℕ) (d : Val C) (fr : Bool) (cur : Val C) (ds : List Deco),
    Restores (parse L n d fr cur ds) ds
  | 0, d, fr, cur, ds => Restores.same _ _
  | n + 1, d, fr, cur, ds => by
    have hP := parse_restores L n
    cases d with
    | map m => exact keys_restores L hP _ fr ds _ _ _
    | list l =>
      rw [parse_list]
      split_ifs
      · exact (items_restores hP ds _).andThen fun a => Restores.same _ _
      · exact Restores.same _ _
    | _ => rw [parse_leaf _ _ _ _ _ (by simp) (by simp)]; split_ifs <;> exact Restores.same _ _

/-- C53: parsing leaves the list of decorators as it was. -/
theorem C53_restored (L : Lib C) {n : ℕ} {d : Val C} {fr : Bool} {cur : Val C} {ds ds' : List Deco} {v : Val C}
    (h : parse L n d fr cur ds = (.ok v, ds')) : ds' = ds := by
  obtain ⟨ext, h1, h2⟩ := parse_restores L n d fr cur ds
  rw [h] at h1 h2
  rw [h2 v rfl] at h1
  simpa using h1

/-- C53, if parsing raises: decorators may stay at the end of the list; those from before stay in place. -/
theorem C53_raised (L : Lib C) (n : ℕ) (d : Val C) (fr : Bool) (cur : Val C) (ds : List Deco) :
    ds <+: (parse L n d fr cur ds).2 := by
  obtain ⟨ext, h1, -⟩ := parse_restores L n d fr cur ds
  exact ⟨ext, h1.symm⟩

/-- The result of parsing with these decorators. -/
def Parses (L : Lib C) (n : ℕ) (d : Val C) (fr : Bool) (cur : Val C) (ds : List Deco) (v : Val C) : Prop :=
  (parse L n d fr cur ds).1 = .ok v

theorem parses_iff {L : Lib C} {n : ℕ} {d : Val C} {fr : Bool} {cur : Val C} {ds : List Deco} {v : Val C} :
    Parses L n d fr cur ds v ↔ parse L n d fr cur ds = (.ok v, ds) := by
  constructor
  · intro h
    have : parse L n d fr cur ds = (.ok v, (parse L n d fr cur ds).2) := Prod.ext h rfl
    rw [this, C53_restored L this]
  · intro h; unfold Parses; rw [h]

theorem andThen_ok {α β : Type} {f : α → List Deco → Except Err β × List Deco} (a : α) (ds : List Deco) :
    andThen (.ok a, ds) f = f a ds := rfl

theorem items_ok {L : Lib C} {n : ℕ} {ds : List Deco} : ∀ {l m : List (Val C)},
    items (parse L n) l ds = (.ok m, ds) ↔ List.Forall₂ (fun v w => Parses L n v true .null ds w) l m
  | [], m => by simp [items, eq_comm]
  | v :: l, m => by
    rw [items]
    constructor
    · intro h
      cases hv : parse L n v true .null ds with
      | mk r ds1 =>
      rw [hv] at h
      cases r with
      | error e => simp [andThen] at h
      | ok w =>
      have := C53_restored L hv
      subst this
      rw [andThen_ok] at h
      cases hl : items (parse L n) l ds1 with
      | mk r ds2 =>
      rw [hl] at h
      cases r with
      | error e => simp [andThen] at h
      | ok ws =>
      rw [andThen_ok] at h
      simp only [Prod.mk.injEq, Except.ok.injEq] at h
      obtain ⟨rfl, rfl⟩ := h
      exact List.Forall₂.cons (parses_iff.2 hv) (items_ok.1 hl)
    · intro h
      cases h with
      | cons h1 h2 =>
        rw [parses_iff.1 h1, andThen_ok, items_ok.2 h2, andThen_ok]

/-- C53: members of a sequence are parsed with the decorators around the sequence, whatever decorators are used in
the members before. -/
theorem C53_members (L : Lib C) (n : ℕ) (l m : List (Val C)) (cur : Val C) (ds : List Deco) :
    Parses L (n + 1) (.list l) true cur ds (.list m) ↔
      List.Forall₂ (fun v w => Parses L n v true .null ds w) l m := by
  rw [← items_ok, parses_iff, parse_list, if_pos rfl]
  constructor
  · intro h
    obtain ⟨ext, h1, h2⟩ := items_restores (parse_restores L n) ds l
    cases hl : items (parse L n) l ds with
    | mk r ds2 =>
    rw [hl] at h h1 h2
    cases r with
    | error e => simp [andThen] at h
    | ok ws =>
      rw [andThen_ok] at h
      simpa using h
  · intro h
    rw [h, andThen_ok]

/-! ## C54 -/

theorem base_value {b : Base} {x : ℝ} (h : baseValue b = some x) : b.value = .ok x := by
  unfold baseValue at h
  split at h <;> simp at h <;> subst h <;> simp [Base.value]

theorem applied_call {L : Lib C} {f : Fn} {cur : Val C} {args : List (Val C)} {kw : Kw C} {r : Val C}
    (h : Applied L f cur args kw r) : ∃ k, consOf L cur f = .ok k ∧ call L k cur args kw = .ok r := by
  cases h with
  | const h => exact ⟨_, rfl, by simp [call, isNull, h]⟩
  | line h => exact ⟨_, rfl, by simp [call, isNull, h]⟩
  | first hg h =>
    rename_i g
    refine ⟨⟨fun _ => g, false⟩, ?_, ?_⟩
    · simp only [consOf, nextCons, truthy, Bool.false_eq_true, if_false, hg]
    · simp [call, isNull, h]
  | next hg ha h =>
    rename_i c g
    refine ⟨⟨fun _ => g, false⟩, ?_, ?_⟩
    · simp only [consOf, nextCons, truthy, if_true, hg]
    · have : putFirst (.curve c) args = .curve c :: args := by
        unfold putFirst
        split
        · rename_i l rest; exact absurd rfl (ha l rest)
        · rfl
      simp [call, isNull, this, h]
  | nextList hg h =>
    rename_i g _ _
    refine ⟨⟨fun _ => g, false⟩, ?_, ?_⟩
    · simp only [consOf, nextCons, truthy, if_true, hg]
    · simp [call, isNull, putFirst, h]
  | methodFirst h0 h1 hp hg h =>
    rename_i s _ _ _ _ _
    refine ⟨⟨callMethod L s, true⟩, ?_, ?_⟩
    rotate_left
    · simp only [call, isNull, Bool.and_self, if_true, hp]
      simp [bind, Except.bind, callMethod, truthy, hg, h]
    · simp only [consOf, nextCons, truthy, Bool.false_eq_true, if_false, h0, h1]
  | method h0 hg h =>
    rename_i s _ _
    refine ⟨⟨callMethod L s, true⟩, ?_, ?_⟩
    · simp only [consOf, nextCons, truthy, if_true, h0, hg]
    · simp [call, isNull, callMethod, truthy, hg, h]
  | log hb h =>
    refine ⟨_, by rw [consOf, base_value hb]; rfl, ?_⟩
    simp [call, isNull, h]
  | logFirst hb hp h =>
    refine ⟨_, by rw [consOf, base_value hb]; rfl, ?_⟩
    simp [call, isNull, hp, bind, Except.bind, h]

theorem func_applied {L : Lib C} {n : ℕ} {f : Fn} {v a cur r : Val C} {ds : List Deco} {args : List (Val C)} {kw : Kw C}
    (hp : Parses L n v true .null ds a) (hs : splitArgs a = .ok (args, kw)) (h : Applied L f cur args kw r) :
    funcKey L (parse L n) f v cur ds = (.ok r, ds) := by
  obtain ⟨k, h1, h2⟩ := applied_call h
  unfold funcKey
  rw [h1]
  simp only
  rw [parses_iff.1 hp, andThen_ok, hs]
  simp [bind, Except.bind, h2]

theorem keys_chained {L : Lib C} {n N : ℕ} {fr : Bool} {ds : List Deco} {m : List (Key × Val C)} {cur c : Val C}
    (h : Chained L (Parses L n) fr ds m cur c) (rest : List (Key × Val C)) (vals : List (Key × Val C)) :
    keys L (parse L n) N fr (m ++ rest) cur vals ds = keys L (parse L n) N fr rest c vals ds := by
  induction h with
  | nil => rfl
  | list hp h hr ih =>
    rw [List.cons_append, keys, func_applied hp (args := _) (kw := []) (by simp [splitArgs, popArgs]) h, andThen_ok, ih]
  | named hp hm h hr ih =>
    rw [List.cons_append, keys, func_applied hp (args := []) (kw := _) ?_ h, andThen_ok, ih]
    show popArgs [] _ = _
    unfold popArgs
    rw [List.find?_eq_none.2 (by simpa using hm)]
  | single hp h1 h2 h hr ih =>
    rename_i f v a rest cur r c
    rw [List.cons_append, keys, func_applied hp (args := [a]) (kw := []) ?_ h, andThen_ok, ih]
    unfold splitArgs
    split
    · rename_i m; exact absurd rfl (h2 m)
    · rename_i l; exact absurd rfl (h1 l)
    · rfl
  | decorated ho hp hr ih =>
    rename_i o v rest cur r c
    have : decoKey L (parse L n) N fr o v cur ds = (.ok (.go (.curve r)), ds) := by
      unfold decoKey
      simp only
      rw [parses_iff.1 hp, andThen_ok]
      have : exitLog L o (.curve r) = .ok (.curve r) := by
        unfold exitLog
        split
        · rename_i b; exact absurd rfl (ho b)
        · rfl
      rw [this]
      simp [bind, Except.bind, List.eraseIdx_append_of_length_le]
    rw [List.cons_append, keys, this, andThen_ok]
    exact ih
  | logged hb hp hx hr ih =>
    rename_i b x v rest cur s r c
    have : decoKey L (parse L n) N fr (.log b) v cur ds = (.ok (.go (.curve r)), ds) := by
      unfold decoKey
      simp only
      rw [parses_iff.1 hp, andThen_ok]
      have : exitLog L (.log b) (.curve s) = .ok (.curve r) := by
        have hv : b.value = .ok x := by
          unfold baseValue at hb
          split at hb <;> simp at hb <;> subst hb <;> simp [Base.value]
        simp [exitLog, hv, bind, Except.bind, raise, hx, Except.map]
      rw [this]
      simp [bind, Except.bind, List.eraseIdx_append_of_length_le]
    rw [List.cons_append, keys, this, andThen_ok]
    exact ih

/-- C54 (partial: the result is true): functions and decorators in a row are applied one after the other, each to the
result of the one before.
Missing: results that are false, see `C54_negation_false`, and arguments of `$log`, see `C54_negation_log`. -/
theorem C54_chain_partial {L : Lib C} {n : ℕ} {fr : Bool} {ds : List Deco} {m : List (Key × Val C)} {cur c : Val C}
    (h : Chained L (Parses L n) fr ds m cur c) (hc : truthy c = true) :
    Parses L (n + 1) (.map m) fr cur ds c := by
  unfold Parses
  rw [parse_map, ← List.append_nil m, keys_chained h, keys, if_pos hc]

/-- C54: a key that is neither a function nor a decorator is rejected after a function. -/
theorem C54_rejected {L : Lib C} {n : ℕ} {fr : Bool} {ds : List Deco} {m : List (Key × Val C)} {cur c : Val C}
    (h : Chained L (Parses L n) fr ds m cur c) (hc : c ≠ .null) (s : String) (v : Val C)
    (rest : List (Key × Val C)) :
    (parse L (n + 1) (.map (m ++ (.plain s, v) :: rest)) fr cur ds).1 = .error .exception := by
  rw [parse_map, keys_chained h, keys]
  have : isNull c = false := by
    unfold isNull; split
    · exact absurd rfl hc
    · rfl
  simp [plainKey, this, andThen]

theorem leaf_neutral {L : Lib C} {ds : List Deco} (hd : Neutral ds) (d : Val C) : leaf L ds d = .ok d := by
  obtain ⟨h1, h2, h3, h4⟩ := hd
  unfold leaf
  rw [if_neg h1]
  split
  · rw [if_neg h2, if_neg h3, if_neg h4]
  · rfl

/-- C54: data without functions and decorators comes back as it is. -/
theorem C54_plain (L : Lib C) : ∀ {k : ℕ} {d : Val C} {ds : List Deco}, Plain k d → Neutral ds →
    Parses L k d true .null ds d
  | 0, _, _, h, _ => by simp [Plain] at h
  | k + 1, .list l, ds, h, hd => by
    simp only [Plain] at h
    rw [C53_members]
    exact List.forall₂_same.2 fun v hv => C54_plain L (h v hv) hd
  | k + 1, .map m, ds, h, hd => by
    simp only [Plain] at h
    have key : ∀ (N : ℕ) (m vals : List (Key × Val C)), (∀ p ∈ m, (∃ s, p.1 = .plain s) ∧ Plain k p.2) →
        keys L (parse L k) N true m .null vals ds = (.ok (.map (vals ++ m)), ds) := by
      intro N m
      induction m with
      | nil => intro vals _; simp [keys, truthy]
      | cons p m ih =>
        intro vals hm
        obtain ⟨⟨s, hs⟩, hp⟩ := hm p List.mem_cons_self
        obtain ⟨key, v⟩ := p
        simp only at hs hp
        subst hs
        rw [keys]
        have : plainKey (parse L k) v .null ds = (.ok v, ds) := by
          unfold plainKey
          simp only [isNull, Bool.not_true, Bool.false_eq_true, if_false]
          split_ifs
          · exact parses_iff.1 (C54_plain L hp hd)
          · rfl
        rw [this, andThen_ok, ih _ fun q hq => hm q (List.mem_cons_of_mem _ hq)]
        simp
    unfold Parses
    rw [parse_map, key _ _ _ h]
    rfl
  | k + 1, .null, ds, h, hd => by
    unfold Parses; rw [parse_leaf _ _ _ _ _ (by simp) (by simp)]; simp [leaf_neutral hd]
  | k + 1, .num _, ds, h, hd => by
    unfold Parses; rw [parse_leaf _ _ _ _ _ (by simp) (by simp)]; simp [leaf_neutral hd]
  | k + 1, .str _, ds, h, hd => by
    unfold Parses; rw [parse_leaf _ _ _ _ _ (by simp) (by simp)]; simp [leaf_neutral hd]
  | k + 1, .curve _, ds, h, hd => by
    unfold Parses; rw [parse_leaf _ _ _ _ _ (by simp) (by simp)]; simp [leaf_neutral hd]

/-! ## C52 -/

theorem base_pos {b : Base} {x : ℝ} (h : baseValue b = some x) : 0 < x ∧ x ≠ 1 := by
  unfold baseValue at h
  split at h <;> simp at h <;> subst h
  · exact ⟨Real.exp_pos 1, by simp⟩
  · norm_num
  · norm_num

theorem leaf_logged {L : Lib C} {ds : List Deco} (hd : Neutral ds) {b : Base} {x : ℝ} (hb : baseValue b = some x)
    {r : ℝ} (hr : 0 < r) : leaf L (ds ++ [.log b]) (.num r) = .ok (.num (Real.logb x r)) := by
  obtain ⟨h1, h2, h3, h4⟩ := hd
  unfold leaf
  unfold baseValue at hb
  split at hb <;> simp at hb <;> subst hb <;> simp [h1, h2, h3, h4, logB, hr, Except.map]

/-- C52, the leaves (partial: nested sequences): in a sequence under one logarithm every number is replaced by its
logarithm once.
Missing: arguments by name and in `@args`, other bases and other logarithms around, see the negations. -/
theorem C52_leaves_partial (L : Lib C) {b : Base} {x : ℝ} (hb : baseValue b = some x) {ds : List Deco}
    (hd : Neutral ds) : ∀ {k : ℕ} {d w : Val C}, Logged x k d w → Parses L k d true .null (ds ++ [.log b]) w
  | 0, _, _, h => by simp [Logged] at h
  | k + 1, .num r, w, h => by
    simp only [Logged] at h
    obtain ⟨hr, rfl⟩ := h
    unfold Parses; rw [parse_leaf _ _ _ _ _ (by simp) (by simp)]; simp [leaf_logged hd hb hr]
  | k + 1, .str s, w, h => by
    simp only [Logged] at h
    subst h
    unfold Parses; rw [parse_leaf _ _ _ _ _ (by simp) (by simp)]
    have : Deco.date ∉ ds ++ [.log b] := by simp [hd.1]
    simp [leaf, this]
  | k + 1, .list l, w, h => by
    simp only [Logged] at h
    obtain ⟨m, rfl, h⟩ := h
    rw [C53_members]
    exact h.imp fun v w h => C52_leaves_partial L hb hd h
  | k + 1, .null, w, h => by simp [Logged] at h
  | k + 1, .map _, w, h => by simp [Logged] at h
  | k + 1, .curve _, w, h => by simp [Logged] at h

theorem deco_log {L : Lib C} {n N : ℕ} {fr : Bool} {b : Base} {x : ℝ} (hb : b.value = .ok x) (hx : 0 < x)
    {v cur : Val C} {ds : List Deco} {r : ℝ} (hp : Parses L n v fr cur (ds ++ [.log b]) (.num r)) :
    decoKey L (parse L n) N fr (.log b) v cur ds =
      (if N ≠ 1 then .error .value else .ok (.stop (.num (x ^ r))), ds) := by
  unfold decoKey
  simp only
  rw [parses_iff.1 hp, andThen_ok]
  simp [exitLog, hb, bind, Except.bind, raise, hx, List.eraseIdx_append_of_length_le]

theorem parse_log {L : Lib C} {n : ℕ} {fr : Bool} {b : Base} {x : ℝ} (hb : b.value = .ok x) (hx : 0 < x)
    {v cur : Val C} {ds : List Deco} {r : ℝ} (hp : Parses L n v fr cur (ds ++ [.log b]) (.num r)) :
    Parses L (n + 1) (.map [(.deco (.log b), v)]) fr cur ds (.num (x ^ r)) := by
  unfold Parses
  rw [parse_map, keys, deco_log hb hx hp]
  simp [andThen]

/-- C52, a number (partial: one logarithm): what is taken at the leaf is given back at the decorator. -/
theorem C52_number_partial (L : Lib C) {b : Base} {x : ℝ} (hb : baseValue b = some x) {ds : List Deco}
    (hd : Neutral ds) (n : ℕ) {r : ℝ} (hr : 0 < r) :
    Parses L (n + 2) (.map [(.deco (.log b), .num r)]) true .null ds (.num r) := by
  obtain ⟨h1, h2⟩ := base_pos hb
  have := parse_log (base_value hb) h1
    (C52_leaves_partial L hb hd (k := n + 1) (d := .num r) (w := .num (Real.logb x r)) ⟨hr, rfl⟩)
  rwa [Real.rpow_logb h1 h2 hr] at this

/-- C52, a sum (partial: one logarithm, numbers as the arguments): a sum of numbers under a logarithm is their
product. -/
theorem C52_add_partial {L : Lib C} {eval : C → ℝ → Option ℝ} (hL : Arithmetic L eval) {b : Base} {x : ℝ}
    (hb : baseValue b = some x) {ds : List Deco} (hd : Neutral ds) (n : ℕ) (fr : Bool) {rs : List ℝ} (hrs : rs ≠ [])
    (hpos : ∀ r ∈ rs, 0 < r) :
    ∃ c, Parses L (n + 4) (.map [(.deco (.log b), .map [(.func (.other "add"), .list (rs.map .num))])]) fr .null ds
      (.curve c) ∧ ∀ t, eval c t = some rs.prod := by
  obtain ⟨hx, hx1⟩ := base_pos hb
  obtain ⟨g, hg, hadd⟩ := hL.add
  obtain ⟨c, hc, hcv⟩ := hadd (rs.map (Real.logb x)) (by simpa using hrs)
  obtain ⟨d, hd1, hdv⟩ := hL.pow x c hx
  have h1 : Parses L (n + 2) (.list (rs.map .num)) true .null (ds ++ [.log b])
      (.list ((rs.map (Real.logb x)).map .num)) := by
    refine C52_leaves_partial L hb hd ⟨_, rfl, ?_⟩
    rw [List.map_map, List.forall₂_map_left_iff, List.forall₂_map_right_iff, List.forall₂_same]
    intro r hr
    exact ⟨hpos r hr, rfl⟩
  have h2 : Parses L (n + 3) (.map [(.func (.other "add"), .list (rs.map .num))]) fr .null (ds ++ [.log b])
      (.curve c) := C54_chain_partial (.list h1 (.first hg hc) .nil) rfl
  refine ⟨d, C54_chain_partial (.logged hb h2 hd1 .nil) rfl, fun t => ?_⟩
  rw [hdv, hcv]
  simp only [Option.map_some, Option.some.injEq]
  clear hc hcv hadd h1 h2 hrs
  induction rs with
  | nil => simp
  | cons r rs ih =>
    have := ih fun q hq => hpos q (List.mem_cons_of_mem _ hq)
    rw [List.map_cons, List.sum_cons, Real.rpow_add hx, this, List.prod_cons,
      Real.rpow_logb hx hx1 (hpos r List.mem_cons_self)]

/-! ### Curves as functions -/

/-- Functions as curves. -/
noncomputable def asFun : Val (ℝ → ℝ) → Except Err (ℝ → ℝ)
  | .num r => .ok fun _ => r
  | .curve c => .ok c
  | _ => .error .exception

/-- `add_many` of functions. -/
noncomputable def addFuns : List (Val (ℝ → ℝ)) → Except Err (ℝ → ℝ)
  | [] => .ok fun _ => 0
  | v :: vs => do
    let f ← asFun v
    let g ← addFuns vs
    .ok fun x => f x + g x

/-- Constants, sums and values of functions. -/
noncomputable def funLib : Lib (ℝ → ℝ) where
  constant := fun args kw => match args, kw with
    | [.num r], [] => .ok (.curve fun _ => r)
    | [], [(.plain "y", .num r)] => .ok (.curve fun _ => r)
    | _, _ => .error .type
  line := fun _ _ => .error .type
  log := fun c b kw => match kw with
    | [] => .ok (.curve fun x => Real.logb b (c x))
    | [(.plain "base", .num b)] => .ok (.curve fun x => Real.logb b (c x))
    | _ => .error .type
  classMethod := fun _ s => if s = "add" then some fun args _ => (addFuns args).map .curve else none
  method := fun c s => if s = "y" then some fun args _ => match args with
      | [.num x] => .ok (.num (c x))
      | _ => .error .type
    else none
  obj := fun _ => 0
  parse := fun v => (asFun v).map .curve
  pow := fun b c => .ok fun x => b ^ c x
  date := fun _ => .error .exception

theorem addFuns_nums : ∀ rs : List ℝ, addFuns (rs.map .num) = .ok fun _ => rs.sum
  | [] => rfl
  | r :: rs => by
    rw [List.map_cons, addFuns, addFuns_nums rs]
    simp [asFun, bind, Except.bind]

theorem funLib_arithmetic : Arithmetic funLib fun c x => some (c x) where
  add := ⟨fun args _ => (addFuns args).map .curve, by simp [funLib],
    fun rs _ => ⟨fun _ => rs.sum, by simp [addFuns_nums, Except.map], fun _ => rfl⟩⟩
  pow := fun b c _ => ⟨_, rfl, fun _ => rfl⟩

example : ∃ c, Parses funLib 4
    (.map [(.deco (.log (.nat 2)), .map [(.func (.other "add"), .list [.num 16, .num 16])])]) false .null []
      (.curve c) ∧ c 0 = 256 := by
  obtain ⟨c, h1, h2⟩ := C52_add_partial funLib_arithmetic (b := .nat 2) rfl (ds := []) (by simp [Neutral]) 0 false
    (rs := [16, 16]) (by simp) (by simp)
  refine ⟨c, h1, ?_⟩
  have := h2 0
  norm_num at this
  exact this

theorem args_twice {L : Lib C} {n : ℕ} {v : Val C} {l m : List (Val C)} {ds : List Deco}
    (h1 : Parses L n v true .null (ds ++ [.args]) (.list l)) (h2 : Parses L n (.list l) true .null ds (.list m)) :
    Parses L (n + 1) (.map [(.deco .args, v)]) true .null ds (.map [(.deco .args, .list m)]) := by
  have h3 : decoKey L (parse L n) 1 true .args v .null ds = (.ok (.keep (.list l)), ds) := by
    unfold decoKey
    simp only
    rw [parses_iff.1 h1, andThen_ok]
    simp [exitLog, bind, Except.bind, List.eraseIdx_append_of_length_le]
  unfold Parses
  rw [parse_map, List.length_singleton, keys, h3, andThen_ok]
  simp only
  rw [show plainKey (parse L n) (.list l) .null ds = (.ok (.list m), ds) from parses_iff.1 h2, andThen_ok]
  simp [keys, truthy]

theorem logb_2_4 : Real.logb 2 4 = 2 := by
  rw [show (4 : ℝ) = 2 ^ (2 : ℝ) by norm_num, Real.logb_rpow (by norm_num) (by norm_num)]

theorem logb_2_16 : Real.logb 2 16 = 4 := by
  rw [show (16 : ℝ) = 2 ^ (4 : ℝ) by norm_num, Real.logb_rpow (by norm_num) (by norm_num)]

/-- Disagreement with C52: numbers in `@args` are replaced by their logarithm twice, so that the sum of 4 and 16 under
a logarithm is 8 and not 64. -/
theorem C52_negation_args : ∃ c, Parses funLib 5 (.map [(.deco (.log (.nat 2)),
    .map [(.func (.other "add"), .map [(.deco .args, .list [.num 4, .num 16])])])]) false .null [] (.curve c) ∧
    ∀ x, c x = 8 := by
  have h1 : Parses funLib 2 (.list [.num 4, .num 16]) true .null ([.log (.nat 2)] ++ [.args]) (.list [.num 2, .num 4]) := by
    rw [C53_members]
    refine .cons ?_ (.cons ?_ .nil) <;> unfold Parses <;> rw [parse_leaf _ _ _ _ _ (by simp) (by simp)] <;>
      simp [leaf, logB, Except.map, logb_2_4, logb_2_16]
  have h2 : Parses funLib 2 (.list [.num 2, .num 4]) true .null [.log (.nat 2)] (.list [.num 1, .num 2]) := by
    rw [C53_members]
    refine .cons ?_ (.cons ?_ .nil) <;> unfold Parses <;> rw [parse_leaf _ _ _ _ _ (by simp) (by simp)] <;>
      simp [leaf, logB, Except.map, logb_2_4]
  have h3 := args_twice h1 h2
  have h4 : funcKey funLib (parse funLib 3) (.other "add") (.map [(.deco .args, .list [.num 4, .num 16])]) .null
      [.log (.nat 2)] = (.ok (.curve fun _ => 1 + (2 + 0)), [.log (.nat 2)]) := by
    obtain ⟨k, e1, e2⟩ := applied_call (L := funLib) (f := .other "add") (cur := .null) (args := [.num 1, .num 2])
      (kw := []) (r := .curve fun _ => 1 + (2 + 0))
      (.first (g := fun args _ => (addFuns args).map .curve) (by simp [funLib]) rfl)
    unfold funcKey
    rw [e1]
    simp only
    rw [parses_iff.1 h3, andThen_ok]
    have : splitArgs (C := ℝ → ℝ) (.map [(.deco .args, .list [.num 1, .num 2])]) = .ok ([.num 1, .num 2], []) := rfl
    rw [this]
    simp [bind, Except.bind, e2]
  have h5 : Parses funLib 4 (.map [(.func (.other "add"), .map [(.deco .args, .list [.num 4, .num 16])])]) false
      .null ([] ++ [.log (.nat 2)]) (.curve fun _ => 1 + (2 + 0)) := by
    unfold Parses
    rw [parse_map, keys, List.nil_append, h4, andThen_ok]
    simp [keys, truthy]
  exact ⟨_, C54_chain_partial (.logged (x := 2) rfl h5 rfl .nil) rfl, fun x => by norm_num⟩

/-- Disagreement with C52: numbers as arguments by name are not replaced, so that the constant 4 under a logarithm is
16. -/
theorem C52_negation_named : ∃ c, Parses funLib 4 (.map [(.deco (.log (.nat 2)),
    .map [(.func .const, .map [(.plain "y", .num 4)])])]) false .null [] (.curve c) ∧ ∀ x, c x = 16 := by
  have h1 : Parses funLib 2 (.map [(.plain "y", .num 4)]) true .null ([] ++ [.log (.nat 2)])
      (.map [(.plain "y", .num 4)]) := by
    unfold Parses
    rw [parse_map]
    simp [keys, plainKey, isNull, nested, andThen, truthy]
  have h2 : Parses funLib 3 (.map [(.func .const, .map [(.plain "y", .num 4)])]) false .null ([] ++ [.log (.nat 2)])
      (.curve fun _ => 4) := C54_chain_partial (.named h1 (by simp) (.const rfl) .nil) rfl
  exact ⟨_, C54_chain_partial (.logged (x := 2) rfl h2 rfl .nil) rfl, fun x => by norm_num⟩

/-- Disagreement with C52: for other bases than `e`, 2 and 10 numbers are not replaced, but the result is raised. -/
theorem C52_negation_base (L : Lib C) (n : ℕ) (b : ℕ) (h2 : b ≠ 2) (h10 : b ≠ 10) (hb : 0 < b) (r : ℝ) :
    Parses L (n + 2) (.map [(.deco (.log (.nat b)), .num r)]) true .null [] (.num ((b : ℝ) ^ r)) := by
  refine parse_log (x := b) rfl (by exact_mod_cast hb) ?_
  unfold Parses
  rw [parse_leaf _ _ _ _ _ (by simp) (by simp)]
  simp [leaf, Ne.symm h2, Ne.symm h10]

/-- Disagreement with C52: under two logarithms a number is replaced once, but raised twice. -/
theorem C52_negation_nested (L : Lib C) (n : ℕ) {r : ℝ} (hr : 0 < r) :
    Parses L (n + 3) (.map [(.deco (.log (.nat 2)), .map [(.deco (.log (.nat 2)), .num r)])]) true .null []
      (.num (2 ^ r)) := by
  refine parse_log (x := 2) rfl (by norm_num) ?_
  have h : Parses L (n + 1) (.num r) true .null ([] ++ [.log (.nat 2)] ++ [.log (.nat 2)]) (.num (Real.logb 2 r)) := by
    unfold Parses
    rw [parse_leaf _ _ _ _ _ (by simp) (by simp)]
    simp [leaf, logB, hr, Except.map]
  have := parse_log (x := 2) rfl (by norm_num) h
  rwa [Real.rpow_logb (by norm_num) (by norm_num) hr] at this

/-- Disagreement with C54: if the last function gives 0, the result is an empty mapping: the value of the constant 0. -/
theorem C54_negation_false : Parses funLib 2 (.map [(.func .const, .num 0), (.func (.other "y"), .num 3)]) false .null []
    (.map []) := by
  have h1 : ∀ r : ℝ, Parses funLib 1 (.num r) true .null [] (.num r) := fun r => C54_plain _ trivial (by simp [Neutral])
  have h : Chained funLib (Parses funLib 1) false [] [(.func .const, .num 0), (.func (.other "y"), .num 3)] .null
      (.num 0) := by
    refine .single (h1 0) (by simp) (by simp) (.const (r := .curve fun _ => 0) rfl) ?_
    refine .single (h1 3) (by simp) (by simp) ?_ .nil
    exact .method (by simp [funLib]) (by simp [funLib]; rfl) rfl
  unfold Parses
  rw [parse_map, ← List.append_nil [(_, _), (_, _)], keys_chained h]
  simp [keys, truthy]

/-- Disagreement with C54: an argument of `$log` that is not given by name is ignored: the logarithm of a constant is
the natural one, whatever base is given. -/
theorem C54_negation_log (a b : ℝ) : Parses funLib 3
    (.map [(.func .const, .num a), (.func (.log .e), .list [.num b])]) false .null []
    (.curve fun _ => Real.log a) := by
  have h1 : Parses funLib 2 (.num a) true .null [] (.num a) := C54_plain _ trivial (by simp [Neutral])
  have h2 : Parses funLib 2 (.list [.num b]) true .null [] (.list [.num b]) :=
    C54_plain _ (by simp [Plain]) (by simp [Neutral])
  have hc : Chained funLib (Parses funLib 2) false [] [(.func .const, .num a)] .null (.curve fun _ => a) :=
    .single h1 (by simp) (by simp) (.const rfl) .nil
  have hf : funcKey funLib (parse funLib 2) (.log .e) (.list [.num b]) (.curve fun _ => a) [] =
      (.ok (.curve fun _ => Real.log a), []) := by
    unfold funcKey
    rw [consOf, base_value (x := Real.exp 1) rfl]
    simp only [bind, Except.bind]
    rw [parses_iff.1 h2, andThen_ok]
    simp [splitArgs, popArgs, call, isNull, funLib, Real.logb]
  unfold Parses
  rw [parse_map]
  rw [show [(Key.func .const, Val.num a), (Key.func (.log .e), Val.list [Val.num b])] =
    [(Key.func .const, Val.num a)] ++ [(Key.func (.log .e), Val.list [Val.num b])] from rfl, keys_chained hc, keys, hf,
    andThen_ok]
  simp [keys, truthy]

/-- A number after a number under a logarithm stays as it is. -/
example : Parses funLib 3 (.list [.map [(.deco (.log (.nat 2)), .num 8)], .num 8]) true .null []
    (.list [.num 8, .num 8]) := by
  rw [C53_members]
  exact .cons (C52_number_partial _ (b := .nat 2) rfl (by simp [Neutral]) 0 (by norm_num))
    (.cons (C54_plain _ trivial (by simp [Neutral])) .nil)

/-- After an exception a decorator stays. -/
example : parse funLib 3 (.map [(.deco .date, .list [.num 8])]) true .null [.args] = (.error .exception, [.args, .date]) := by
  simp [parse, keys, decoKey, items, andThen, leaf, funLib]

example : ∃ c, Parses funLib 3 (.map [(.func .const, .num 16), (.func (.other "add"), .list [.num 10])]) false .null []
    (.curve c) ∧ c 0 = 26 := by
  refine ⟨_, C54_chain_partial (.single (C54_plain _ trivial (by simp [Neutral])) (by simp) (by simp) (.const rfl)
    (.list (l := [.num 10]) (C54_plain _ ?_ (by simp [Neutral])) (.next (g := fun args _ => (addFuns args).map .curve) (by simp [funLib]) (by simp) rfl) .nil)) rfl, ?_⟩
  · simp [Plain]
  · norm_num

end Props
end Curvepy
