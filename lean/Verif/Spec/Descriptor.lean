import Verif.Model.Descriptor
import Mathlib.Data.List.Forall2

/-!
# What descriptors mean
-/

namespace Curvepy
namespace Spec
open Desc

variable {C : Type}

/-- A nested sequence of positive numbers and strings, at most `k` deep, with every number replaced by its logarithm
once. -/
def Logged (b : ℝ) : ℕ → Val C → Val C → Prop
  | 0, _, _ => False
  | _ + 1, .num r, w => 0 < r ∧ w = .num (Real.logb b r)
  | _ + 1, .str s, w => w = .str s
  | k + 1, .list l, w => ∃ m, w = .list m ∧ List.Forall₂ (Logged b k) l m
  | _ + 1, _, _ => False

/-- Data without functions and decorators, at most `k` deep. -/
def Plain : ℕ → Val C → Prop
  | 0, _ => False
  | _ + 1, .null => True
  | _ + 1, .num _ => True
  | _ + 1, .str _ => True
  | _ + 1, .curve _ => True
  | k + 1, .list l => ∀ v ∈ l, Plain k v
  | k + 1, .map m => ∀ p ∈ m, (∃ s, p.1 = .plain s) ∧ Plain k p.2

/-- The logarithms descriptors know. -/
noncomputable def baseValue : Base → Option ℝ
  | .e => some (Real.exp 1)
  | .nat 2 => some 2
  | .nat 10 => some 10
  | _ => none

/-- Decorators that leave numbers and strings alone. -/
def Neutral (ds : List Deco) : Prop :=
  Deco.date ∉ ds ∧ Deco.log .e ∉ ds ∧ Deco.log (.nat 2) ∉ ds ∧ Deco.log (.nat 10) ∉ ds

/-- The function of a key applied to the curve before, if there is one, and arguments. -/
inductive Applied (L : Lib C) : Fn → Val C → List (Val C) → Kw C → Val C → Prop where
  | const {args kw r} (h : L.constant args kw = .ok r) : Applied L .const .null args kw r
  | line {args kw r} (h : L.line args kw = .ok r) : Applied L .line .null args kw r
  /-- a class method as the first function -/
  | first {s g args kw r} (hg : L.classMethod L.obj s = some g) (h : g args kw = .ok r) :
      Applied L (.other s) .null args kw r
  /-- a class method gets the curve before as its first argument -/
  | next {s c g args kw r} (hg : L.classMethod c s = some g) (ha : ∀ l rest, args ≠ .list l :: rest)
      (h : g (.curve c :: args) kw = .ok r) : Applied L (.other s) (.curve c) args kw r
  /-- or as the first of a list of curves -/
  | nextList {s c g l args kw r} (hg : L.classMethod c s = some g)
      (h : g (.list (.curve c :: l) :: args) kw = .ok r) : Applied L (.other s) (.curve c) (.list l :: args) kw r
  /-- a method as the first function is called on the first argument -/
  | methodFirst {s a c m g args kw r} (h0 : L.classMethod L.obj s = none) (h1 : L.method L.obj s = some m)
      (hp : L.parse a = .ok (.curve c)) (hg : L.method c s = some g) (h : g args kw = .ok r) :
      Applied L (.other s) .null (a :: args) kw r
  /-- a method is called on the curve before -/
  | method {s c g args kw r} (h0 : L.classMethod c s = none) (hg : L.method c s = some g) (h : g args kw = .ok r) :
      Applied L (.other s) (.curve c) args kw r
  /-- the logarithm of the curve before -/
  | log {b x c kw r} (hb : baseValue b = some x) (h : L.log c x kw = .ok r) : Applied L (.log b) (.curve c) [] kw r
  /-- the logarithm of the argument -/
  | logFirst {b x a c kw r} (hb : baseValue b = some x) (hp : L.parse a = .ok (.curve c)) (h : L.log c x kw = .ok r) :
      Applied L (.log b) .null [a] kw r

/-- Functions and decorators in a row: from a curve (or none) to a curve, where `P` parses what is nested. -/
inductive Chained (L : Lib C) (P : Val C → Bool → Val C → List Deco → Val C → Prop) (fragment : Bool)
    (ds : List Deco) : List (Key × Val C) → Val C → Val C → Prop where
  | nil {c} : Chained L P fragment ds [] c c
  | list {f v l rest cur r c} (hp : P v true .null ds (.list l)) (h : Applied L f cur l [] r)
      (hr : Chained L P fragment ds rest r c) : Chained L P fragment ds ((.func f, v) :: rest) cur c
  | named {f v m rest cur r c} (hp : P v true .null ds (.map m)) (hm : ∀ p ∈ m, p.1 ≠ .deco .args)
      (h : Applied L f cur [] m r) (hr : Chained L P fragment ds rest r c) :
      Chained L P fragment ds ((.func f, v) :: rest) cur c
  | single {f v a rest cur r c} (hp : P v true .null ds a) (h1 : ∀ l, a ≠ .list l) (h2 : ∀ m, a ≠ .map m)
      (h : Applied L f cur [a] [] r) (hr : Chained L P fragment ds rest r c) :
      Chained L P fragment ds ((.func f, v) :: rest) cur c
  | decorated {o v rest cur r c} (ho : ∀ b, o ≠ .log b) (hp : P v fragment cur (ds ++ [o]) (.curve r))
      (hr : Chained L P fragment ds rest (.curve r) c) : Chained L P fragment ds ((.deco o, v) :: rest) cur c
  | logged {b x v rest cur s r c} (hb : baseValue b = some x) (hp : P v fragment cur (ds ++ [.log b]) (.curve s))
      (hx : L.pow x s = .ok r)
      (hr : Chained L P fragment ds rest (.curve r) c) : Chained L P fragment ds ((.deco (.log b), v) :: rest) cur c

/-- Sums and powers of curves behave as such. -/
structure Arithmetic (L : Lib C) (eval : C → ℝ → Option ℝ) : Prop where
  add : ∃ g, L.classMethod L.obj "add" = some g ∧ ∀ rs : List ℝ, rs ≠ [] →
    ∃ c, g (rs.map .num) [] = .ok (.curve c) ∧ ∀ x, eval c x = some rs.sum
  pow : ∀ b c, 0 < b → ∃ d, L.pow b c = .ok d ∧ ∀ x, eval d x = (eval c x).map (b ^ ·)

end Spec
end Curvepy
