import Verif.Props.Descriptor
import Verif.Spec.Readme

/-!
# Property C165: the descriptors of the README
-/

namespace Curvepy
namespace Props
open Spec Desc

variable {C : Type} {L : Lib C} {eval : C → ℝ → Option ℝ} {time : String → Option ℝ}

theorem onLogChart_eq {b t₁ t₂ p₁ p₂ x : ℝ} (hb : 0 < b) (hb1 : b ≠ 1) (ht : t₁ ≠ t₂) (h1 : 0 < p₁) (h2 : 0 < p₂) :
    b ^ (Real.logb b p₁ + (x - t₁) * ((Real.logb b p₂ - Real.logb b p₁) / (t₂ - t₁))) = onLogChart t₁ p₁ t₂ p₂ x := by
  have hd : t₂ - t₁ ≠ 0 := sub_ne_zero.2 (Ne.symm ht)
  have e : Real.logb b p₁ + (x - t₁) * ((Real.logb b p₂ - Real.logb b p₁) / (t₂ - t₁)) =
      Real.logb b p₁ * ((t₂ - x) / (t₂ - t₁)) + Real.logb b p₂ * ((x - t₁) / (t₂ - t₁)) := by
    field_simp
    ring
  rw [e, Real.rpow_add hb, Real.rpow_mul hb.le, Real.rpow_mul hb.le, Real.rpow_logb hb hb1 h1, Real.rpow_logb hb hb1 h2]
  rfl

theorem parse_date (hL : Charted L eval time) {s : String} {t : ℝ} (h : time s = some t) (n : ℕ) (ds : List Deco) :
    Parses L (n + 2) (dated s) true .null ds (.num t) := by
  unfold Parses dated
  rw [parse_map, keys]
  have : decoKey L (parse L (n + 1)) 1 true .date (.str s) .null ds = (.ok (.stop (.num t)), ds) := by
    unfold decoKey
    simp only
    rw [parse_leaf _ _ _ _ _ (by simp) (by simp)]
    simp [leaf, hL.date s t h, andThen, exitLog, bind, Except.bind, List.eraseIdx_append_of_length_le]
  rw [List.length_singleton, this]
  rfl

theorem parse_plain_map {n : ℕ} {fr : Bool} {s : String} {v w : Val C} {ds : List Deco} (hn : nested v = true)
    (h : Parses L n v true .null ds w) : Parses L (n + 1) (.map [(.plain s, v)]) fr .null ds (.map [(.plain s, w)]) := by
  unfold Parses
  rw [parse_map, keys]
  have : plainKey (parse L n) v .null ds = (.ok w, ds) := by
    unfold plainKey
    simp only [isNull, Bool.not_true, Bool.false_eq_true, if_false, hn, if_true]
    exact parses_iff.1 h
  rw [this, andThen_ok]
  simp [keys, truthy]

theorem parse_points {n : ℕ} {ds : List Deco} {x₁ y₁ x₂ y₂ v₁ w₁ v₂ w₂ : Val C} (h1 : Parses L n x₁ true .null ds v₁)
    (h2 : Parses L n y₁ true .null ds w₁) (h3 : Parses L n x₂ true .null ds v₂) (h4 : Parses L n y₂ true .null ds w₂) :
    Parses L (n + 2) (twoPoints (x₁, y₁) (x₂, y₂)) true .null ds (twoPoints (v₁, w₁) (v₂, w₂)) := by
  unfold twoPoints
  rw [C53_members]
  refine .cons ?_ (.cons ?_ .nil) <;> rw [C53_members]
  · exact .cons h1 (.cons h2 .nil)
  · exact .cons h3 (.cons h4 .nil)

/-- C165: the full example of the README gives, for any two dates, any two prices and any logarithm, the curve that joins the
prices on a logarithmic chart. -/
theorem C165_price (hL : Charted L eval time) {b : Base} {y : ℝ} (hb : baseValue b = some y) {d₁ d₂ : String} {t₁ t₂ p₁ p₂ : ℝ}
    (h1 : time d₁ = some t₁) (h2 : time d₂ = some t₂) (ht : t₁ ≠ t₂) (hp1 : 0 < p₁) (hp2 : 0 < p₂) (n : ℕ) (fr : Bool) :
    ∃ c, Parses L (n + 8) (priceLine b d₁ d₂ p₁ p₂) fr .null [] (.map [(.plain "price", .curve c)]) ∧
      ∀ x, eval c x = some (onLogChart t₁ p₁ t₂ p₂ x) := by
  obtain ⟨hy, hy1⟩ := base_pos hb
  obtain ⟨l, hl, hlv⟩ := hL.line t₁ (Real.logb y p₁) t₂ (Real.logb y p₂) ht
  obtain ⟨c, hc, hcv⟩ := hL.pow y l hy
  have hN : Neutral [] := by simp [Neutral]
  have e1 : Parses L (n + 4) (twoPoints (dated d₁, .num p₁) (dated d₂, .num p₂)) true .null ([] ++ [.log b])
      (twoPoints (.num t₁, .num (Real.logb y p₁)) (.num t₂, .num (Real.logb y p₂))) :=
    parse_points (parse_date hL h1 n _) (C52_leaves_partial L hb hN (k := n + 2) ⟨hp1, rfl⟩) (parse_date hL h2 n _)
      (C52_leaves_partial L hb hN (k := n + 2) ⟨hp2, rfl⟩)
  have e2 := parse_plain_map (fr := true) (s := "points") rfl e1
  have e3 : Parses L (n + 6) (.map [(.func .line, .map [(.plain "points", twoPoints (dated d₁, .num p₁) (dated d₂, .num p₂))])])
      true .null ([] ++ [.log b]) (.curve l) := C54_chain_partial (.named e2 (by simp) (.line hl) .nil) rfl
  have e4 := C54_chain_partial (.logged (fragment := true) (cur := .null) hb e3 hc .nil) rfl
  refine ⟨c, parse_plain_map rfl e4, fun x => ?_⟩
  rw [hcv, hlv, Option.map_some, onLogChart_eq hy hy1 ht hp1 hp2]

/-- C165: that curve has the prices at the dates, stays positive, and its logarithm is straight. -/
theorem C165_joins {t₁ t₂ p₁ p₂ : ℝ} (ht : t₁ ≠ t₂) (hp1 : 0 < p₁) (hp2 : 0 < p₂) :
    onLogChart t₁ p₁ t₂ p₂ t₁ = p₁ ∧ onLogChart t₁ p₁ t₂ p₂ t₂ = p₂ ∧
      ∀ x, 0 < onLogChart t₁ p₁ t₂ p₂ x ∧
        Real.log (onLogChart t₁ p₁ t₂ p₂ x) = Real.log p₁ + (x - t₁) / (t₂ - t₁) * (Real.log p₂ - Real.log p₁) := by
  have hd : t₂ - t₁ ≠ 0 := sub_ne_zero.2 (Ne.symm ht)
  refine ⟨by simp [onLogChart, div_self hd], by simp [onLogChart, div_self hd], fun x => ⟨?_, ?_⟩⟩
  · exact mul_pos (Real.rpow_pos_of_pos hp1 _) (Real.rpow_pos_of_pos hp2 _)
  · rw [onLogChart, Real.log_mul (Real.rpow_pos_of_pos hp1 _).ne' (Real.rpow_pos_of_pos hp2 _).ne', Real.log_rpow hp1, Real.log_rpow hp2]
    field_simp
    ring

/-- C165: with numbers in place of dates the positions become logarithms as well, so that the curve has its prices at the
logarithms of the positions. -/
theorem C165_numbers (hL : Charted L eval time) {b : Base} {y : ℝ} (hb : baseValue b = some y) {x₁ x₂ p₁ p₂ : ℝ}
    (hx1 : 0 < x₁) (hx2 : 0 < x₂) (hx : x₁ ≠ x₂) (hp1 : 0 < p₁) (hp2 : 0 < p₂) (n : ℕ) (fr : Bool) :
    ∃ c, Parses L (n + 7) (.map [(.deco (.log b), .map [(.func .line, .map [(.plain "points",
        twoPoints (.num x₁, .num p₁) (.num x₂, .num p₂))])])]) fr .null [] (.curve c) ∧
      ∀ x, eval c x = some (onLogChart (Real.logb y x₁) p₁ (Real.logb y x₂) p₂ x) := by
  obtain ⟨hy, hy1⟩ := base_pos hb
  have hne : Real.logb y x₁ ≠ Real.logb y x₂ := by
    intro h
    apply hx
    rw [← Real.rpow_logb hy hy1 hx1, h, Real.rpow_logb hy hy1 hx2]
  obtain ⟨l, hl, hlv⟩ := hL.line (Real.logb y x₁) (Real.logb y p₁) (Real.logb y x₂) (Real.logb y p₂) hne
  obtain ⟨c, hc, hcv⟩ := hL.pow y l hy
  have hN : Neutral [] := by simp [Neutral]
  have hleaf : ∀ {r : ℝ}, 0 < r → Parses L (n + 2) (.num r) true .null ([] ++ [.log b]) (.num (Real.logb y r)) :=
    fun hr => C52_leaves_partial L hb hN (k := n + 2) ⟨hr, rfl⟩
  have e1 := parse_points (hleaf hx1) (hleaf hp1) (hleaf hx2) (hleaf hp2)
  have e2 := parse_plain_map (fr := true) (s := "points") rfl e1
  have e3 : Parses L (n + 6) (.map [(.func .line, .map [(.plain "points", twoPoints (.num x₁, .num p₁) (.num x₂, .num p₂))])])
      fr .null ([] ++ [.log b]) (.curve l) := C54_chain_partial (.named e2 (by simp) (.line hl) .nil) rfl
  refine ⟨c, C54_chain_partial (.logged hb e3 hc .nil) rfl, fun x => ?_⟩
  rw [hcv, hlv, Option.map_some, onLogChart_eq hy hy1 hne hp1 hp2]

/-- C165: `{"$raised": {"@args": [a], "base": b}}` is the power that the README says. -/
theorem C165_raised {m g : List (Val C) → Kw C → Except Err (Val C)} {k c : C} {a b : ℝ} (h0 : L.classMethod L.obj "raised" = none)
    (h1 : L.method L.obj "raised" = some m) (hp : L.parse (.num a) = .ok (.curve k)) (hg : L.method k "raised" = some g)
    (h : g [] [(.plain "base", .num b)] = .ok (.curve c)) (n : ℕ) (fr : Bool) :
    Parses L (n + 4) (.map [(.func (.other "raised"), .map [(.deco .args, .list [.num a]), (.plain "base", .num b)])]) fr .null []
      (.curve c) := by
  have hN : Neutral [.args] := by simp [Neutral]
  have hN0 : Neutral [] := by simp [Neutral]
  have e1 : Parses L (n + 2) (.list [.num a]) true .null ([] ++ [.args]) (.list [.num a]) :=
    C54_plain L (by simp [Plain]) hN
  have e2 : Parses L (n + 2) (.list [.num a]) true .null [] (.list [.num a]) := C54_plain L (by simp [Plain]) hN0
  have e3 : Parses L (n + 3) (.map [(.deco .args, .list [.num a]), (.plain "base", .num b)]) true .null []
      (.map [(.deco .args, .list [.num a]), (.plain "base", .num b)]) := by
    have h3 : decoKey L (parse L (n + 2)) 2 true .args (.list [.num a]) .null [] = (.ok (.keep (.list [.num a])), []) := by
      unfold decoKey
      simp only
      rw [parses_iff.1 e1, andThen_ok]
      simp [exitLog, bind, Except.bind]
    unfold Parses
    rw [parse_map, keys]
    rw [show [(Key.deco Deco.args, Val.list [Val.num a]), (Key.plain "base", Val.num b)].length = 2 from rfl, h3, andThen_ok]
    simp only
    rw [show plainKey (parse L (n + 2)) (.list [.num a]) .null [] = (.ok (.list [.num a]), []) from parses_iff.1 e2, andThen_ok]
    simp [keys, plainKey, isNull, nested, andThen, truthy]
  obtain ⟨K, e4, e5⟩ := applied_call (.methodFirst (args := []) h0 h1 hp hg h)
  have e6 : funcKey L (parse L (n + 3)) (.other "raised") (.map [(.deco .args, .list [.num a]), (.plain "base", .num b)]) .null [] =
      (.ok (.curve c), []) := by
    unfold funcKey
    rw [e4]
    simp only
    rw [parses_iff.1 e3, andThen_ok]
    have : splitArgs (C := C) (.map [(.deco .args, .list [.num a]), (.plain "base", .num b)]) =
      .ok ([.num a], [(.plain "base", .num b)]) := rfl
    rw [this]
    simp [bind, Except.bind, e5]
  unfold Parses
  rw [parse_map, keys, e6, andThen_ok]
  simp [keys, truthy]

/-! ### Functions as curves -/

/-- The times of two dates. -/
def someTimes (s : String) : Option ℝ :=
  if s = "2020-05-08 11:01" then some 1588935660 else if s = "2020-05-13 05:00" then some 1589346000 else none

/-- `Line(points=...)` for functions. -/
noncomputable def lineFun : List (Val (ℝ → ℝ)) → Kw (ℝ → ℝ) → Except Err (Val (ℝ → ℝ))
  | [], [(.plain "points", .list [.list [.num x₁, .num y₁], .list [.num x₂, .num y₂]])] =>
    .ok (.curve fun x => y₁ + (x - x₁) * ((y₂ - y₁) / (x₂ - x₁)))
  | _, _ => .error .type

noncomputable def chartLib : Lib (ℝ → ℝ) :=
  { funLib with
    line := lineFun
    date := fun v => match v with
      | .str s => match someTimes s with
        | some t => .ok (.num t)
        | none => .error .exception
      | _ => .error .exception
    method := fun c s => if s = "raised" then some fun _ kw => match kw with
        | [(.plain "base", .num b)] => .ok (.curve fun x => b ^ c x)
        | _ => .error .type
      else none }

theorem chartLib_charted : Charted chartLib (fun c x => some (c x)) someTimes where
  line := fun x₁ y₁ x₂ y₂ _ => ⟨_, rfl, fun _ => rfl⟩
  pow := fun b c _ => ⟨_, rfl, fun _ => rfl⟩
  date := fun s t h => by simp [chartLib, h]

/-- The example of the README. -/
example : ∃ c, Parses chartLib 8 (priceLine .e "2020-05-08 11:01" "2020-05-13 05:00" 10080.2 8975.0) false .null []
    (.map [(.plain "price", .curve c)]) ∧ c 1588935660 = 10080.2 ∧ c 1589346000 = 8975.0 := by
  obtain ⟨c, h1, h2⟩ := C165_price chartLib_charted (b := .e) rfl (d₁ := "2020-05-08 11:01") (d₂ := "2020-05-13 05:00")
    (t₁ := 1588935660) (t₂ := 1589346000) (p₁ := 10080.2) (p₂ := 8975.0) (by simp [someTimes]) (by simp [someTimes])
    (by norm_num) (by norm_num) (by norm_num) 0 false
  obtain ⟨j1, j2, _⟩ := C165_joins (t₁ := 1588935660) (t₂ := 1589346000) (p₁ := 10080.2) (p₂ := 8975.0) (by norm_num)
    (by norm_num) (by norm_num)
  refine ⟨c, h1, ?_, ?_⟩
  · have := h2 1588935660; rw [j1] at this; exact Option.some.inj this
  · have := h2 1589346000; rw [j2] at this; exact Option.some.inj this

/-- `{"$raised": {"@args": [4], "base": 2}}` is 16. -/
example : ∃ c, Parses chartLib 4 (.map [(.func (.other "raised"), .map [(.deco .args, .list [.num 4]), (.plain "base", .num 2)])])
    false .null [] (.curve c) ∧ ∀ x, c x = 16 := by
  refine ⟨fun _ => 2 ^ (4 : ℝ), C165_raised (k := fun _ => 4) (by simp [chartLib, funLib]) (by simp [chartLib]; rfl) rfl
    (by simp [chartLib]; rfl) (by simp) 0 false, fun _ => by norm_num⟩

/-- C165: positions given as numbers do not keep their prices. The line that joins 5 at 1 with 7 at 2, on a chart with base 2, has 7 at 1. -/
theorem C165_positions : ∃ c, Parses chartLib 7 (.map [(.deco (.log (.nat 2)), .map [(.func .line, .map [(.plain "points",
    twoPoints (.num 1, .num 5) (.num 2, .num 7))])])]) false .null [] (.curve c) ∧ c 0 = 5 ∧ c 1 = 7 := by
  obtain ⟨c, h1, h2⟩ := C165_numbers chartLib_charted (b := .nat 2) rfl (x₁ := 1) (x₂ := 2) (p₁ := 5) (p₂ := 7) (by norm_num)
    (by norm_num) (by norm_num) (by norm_num) (by norm_num) 0 false
  rw [Real.logb_one, Real.logb_self_eq_one (by norm_num)] at h2
  obtain ⟨j1, j2, _⟩ := C165_joins (t₁ := 0) (t₂ := 1) (p₁ := 5) (p₂ := 7) (by norm_num) (by norm_num) (by norm_num)
  refine ⟨c, h1, ?_, ?_⟩
  · have := h2 0; rw [j1] at this; exact Option.some.inj this
  · have := h2 1; rw [j2] at this; exact Option.some.inj this

end Props
end Curvepy
