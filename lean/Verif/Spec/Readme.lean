import Verif.Spec.Descriptor

/-!
# What the README says about descriptors
-/

namespace Curvepy
namespace Spec
open Desc

variable {C : Type}

/-- Two points in a descriptor. -/
def twoPoints (p q : Val C × Val C) : Val C := .list [.list [p.1, p.2], .list [q.1, q.2]]

/-- `{"@date": s}`. -/
def dated (s : String) : Val C := .map [(.deco .date, .str s)]

/-- The example of the README, with any dates and prices, and any base. -/
def priceLine (b : Base) (d₁ d₂ : String) (p₁ p₂ : ℝ) : Val C :=
  .map [(.plain "price", .map [(.deco (.log b), .map [(.func .line, .map [(.plain "points",
    twoPoints (dated d₁, .num p₁) (dated d₂, .num p₂))])])])]

/-- Lines through two points, powers and dates behave as such. -/
structure Charted (L : Lib C) (eval : C → ℝ → Option ℝ) (time : String → Option ℝ) : Prop where
  line : ∀ x₁ y₁ x₂ y₂ : ℝ, x₁ ≠ x₂ → ∃ c, L.line [] [(.plain "points", twoPoints (.num x₁, .num y₁) (.num x₂, .num y₂))] =
    .ok (.curve c) ∧ ∀ x, eval c x = some (y₁ + (x - x₁) * ((y₂ - y₁) / (x₂ - x₁)))
  pow : ∀ b c, 0 < b → ∃ d, L.pow b c = .ok d ∧ ∀ x, eval d x = (eval c x).map (b ^ ·)
  date : ∀ s t, time s = some t → L.date (.str s) = .ok (.num t)

/-- Two prices joined by a straight line on a logarithmic chart. -/
noncomputable def onLogChart (t₁ p₁ t₂ p₂ x : ℝ) : ℝ := p₁ ^ ((t₂ - x) / (t₂ - t₁)) * p₂ ^ ((x - t₁) / (t₂ - t₁))

end Spec
end Curvepy
