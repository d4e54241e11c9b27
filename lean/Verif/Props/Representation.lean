import Verif.Spec.Representation
import Verif.Props.SmaLength
import Mathlib.Tactic.Ring

/-!
# What curves are shown as

`C174`: the text that a curve is shown as, read as an expression, is the curve.
-/

namespace Curvepy
namespace Props
open Spec Repr

/-! ## Numbers -/

/-- The expression of a number. -/
def numEx (q : ℚ) : Ex := if q < 0 then .neg (.num (-q)) else .num q

theorem numEx_literal (q : ℚ) : (numEx q).literal = some q := by
  unfold numEx
  split <;> simp [Ex.literal]

theorem numEx_value (q x : ℚ) : (numEx q).value x = some q := by
  unfold numEx
  split <;> simp [Ex.value]

theorem numText_length (q : ℚ) : 1 ≤ (numText q).length := by
  unfold numText
  split <;> simp

/-- A number before a token that cannot belong to it. -/
theorem sign_num (q : ℚ) {t : Tok} (ht : t = .rp ∨ t = .plus) (n : ℕ) (rest : List Tok) :
    readPart (n + 5) .sign (numText q ++ t :: rest) = some (numEx q, t :: rest) := by
  unfold numText numEx
  split <;> rcases ht with rfl | rfl <;> rfl

theorem sum_num (q : ℚ) (n : ℕ) (rest : List Tok) :
    readPart (n + 7) .sum (numText q ++ .rp :: rest) = some (numEx q, .rp :: rest) := by
  unfold numText numEx
  split <;> rfl

/-! ## Lines -/

/-- **A line is shown as its formula**: read with the precedences of Python, the text of a line has the value of the line at
every position. -/
theorem C174_line (ref : ℚ × ℚ) (slope : ℚ) :
    ∃ e, readText (text (.line ref slope)) = some e ∧
      ∀ x, (e.value x).map Num.fin = some (Line.y ⟨ref, .fin slope⟩ (.fin x)) := by
  obtain ⟨a, b⟩ := ref
  refine ⟨(fun p : Ex => if b = 0 then p else .add p (numEx b))
    (.mul (if a = 0 then .x else .sub .x (numEx a)) (numEx slope)), ?_, ?_⟩
  · simp only [text, lineText, readText, numText, numEx]
    split_ifs <;> rfl
  · intro x
    have hv : ((fun p : Ex => if b = 0 then p else .add p (numEx b))
        (.mul (if a = 0 then .x else .sub .x (numEx a)) (numEx slope))).value x = some (b + slope * (x - a)) := by
      by_cases ha : a = 0 <;> by_cases hb : b = 0 <;>
        simp only [ha, hb, if_true, if_false, Ex.value, numEx_value, Option.bind_some, Option.map_some] <;>
        (congr 1; ring)
    rw [hv]
    simp [Line.y, Num.add, Num.mul, Num.sub, Num.neg, sub_eq_add_neg]

/-! ## Curves made of others -/

/-- The expression that a curve is shown as. -/
def treeOf : Shown → Ex
  | .named s => .word s
  | .line _ _ => .x
  | .both f a b => .apply f (treeOf a) (treeOf b)
  | .offset c k _ => .call (treeOf c) "offset" (numEx k)
  | .sma c (.degree n) => .call (treeOf c) "sma" (numEx n)
  | .sma c (.period p) => .call (treeOf c) "sma" (numEx p)
  | .ema c a p => .call (treeOf c) "ema" (numEx ((orOpt a p).getD 0))

/-- How many calls are made on it. -/
def callsOf : Shown → ℕ
  | .offset c _ _ => callsOf c + 1
  | .sma c _ => callsOf c + 1
  | .ema c _ _ => callsOf c + 1
  | _ => 1

theorem windowText_degree {n : ℕ} (hn : 1 ≤ n) : windowText (.degree n) = numText n := by
  have : (n : ℚ) ≠ 0 := by exact_mod_cast (by omega : n ≠ 0)
  simp [windowText, orOpt, optText, this]

/-- One more call. -/
theorem read_call (a : Ex) (f : String) (q : ℚ) (n : ℕ) (rest : List Tok) :
    readPart (n + 8) (.morePost a) (.dot :: .word f :: .lp :: (numText q ++ .rp :: rest)) =
      readPart (n + 7) (.morePost (.call a f (numEx q))) rest := by
  show ((readPart (n + 7) .sum (numText q ++ .rp :: rest)).bind fun r => _) = _
  rw [sum_num]
  rfl

theorem callsOf_le {c : Shown} (h : PlainShown c) : 1 ≤ callsOf c ∧ callsOf c ≤ (text c).length := by
  induction c with
  | named s => simp [callsOf, text]
  | line r k => exact absurd h id
  | both f a b _ _ => simp [callsOf, text]
  | offset c k d ih =>
    obtain ⟨h1, h2⟩ := ih h.1
    simp only [callsOf, text, List.length_append, List.length_cons]
    omega
  | sma c w ih =>
    obtain ⟨h1, h2⟩ := ih h.1
    simp only [callsOf, text, List.length_append, List.length_cons]
    omega
  | ema c a p ih =>
    obtain ⟨h1, h2⟩ := ih h.1
    simp only [callsOf, text, List.length_append, List.length_cons]
    omega

/-- Reading a whole expression before a token that ends it. -/
theorem sum_of_post {ts rest : List Tok} {e : Ex} {t : Tok} {n k : ℕ} (hk : k + 1 ≤ n)
    (hs : ∀ r, ts ≠ .minus :: r) (h : readPart n .post ts = readPart (n - k) (.morePost e) (t :: rest))
    (ht : t = .rp ∨ t = .comma) : readPart (n + 3) .sum ts = some (e, t :: rest) := by
  have h1 : readPart n .post ts = some (e, t :: rest) := by
    rw [h]
    obtain ⟨j, hj⟩ : ∃ j, n - k = j + 1 := ⟨n - k - 1, by omega⟩
    rw [hj]
    rcases ht with rfl | rfl <;> rfl
  have h2 : readPart (n + 1) .sign ts = some (e, t :: rest) := by
    rw [← h1]
    match ts, hs with
    | [], _ => rfl
    | .minus :: r, hs => exact absurd rfl (hs r)
    | .x :: _, _ | .num _ :: _, _ | .word _ :: _, _ | .plus :: _, _ | .times :: _, _ | .dot :: _, _ | .comma :: _, _
    | .lp :: _, _ | .rp :: _, _ => rfl
  have h3 : readPart (n + 2) .prod ts = some (e, t :: rest) := by
    show ((readPart (n + 1) .sign ts).bind fun r => _) = _
    rw [h2]
    rcases ht with rfl | rfl <;> rfl
  show ((readPart (n + 2) .prod ts).bind fun r => _) = _
  rw [h3]
  rcases ht with rfl | rfl <;> rfl

theorem text_head {c : Shown} (h : PlainShown c) (rest : List Tok) : ∃ s r, text c ++ rest = .word s :: r := by
  induction c generalizing rest with
  | named s => exact ⟨s, rest, rfl⟩
  | line r k => exact absurd h id
  | both f a b _ _ => exact ⟨f, _, rfl⟩
  | offset c k d ih =>
    simp only [text, List.append_assoc]
    exact ih h.1 _
  | sma c w ih =>
    simp only [text, List.append_assoc]
    exact ih h.1 _
  | ema c a p ih =>
    simp only [text, List.append_assoc]
    exact ih h.1 _

/-- Reading a curve leaves its expression, on which more calls may follow. -/
theorem read_shown {c : Shown} (h : PlainShown c) : ∀ (n : ℕ) (rest : List Tok), (∀ r, rest ≠ .lp :: r) →
    readPart (n + 8 * (text c).length) .post (text c ++ rest) =
      readPart (n + 8 * (text c).length - callsOf c) (.morePost (treeOf c)) rest := by
  induction c with
  | named s =>
    intro n rest hr
    match rest, hr with
    | [], _ => rfl
    | .lp :: r, hr => exact absurd rfl (hr r)
    | .x :: _, _ | .num _ :: _, _ | .word _ :: _, _ | .plus :: _, _ | .times :: _, _ | .dot :: _, _ | .comma :: _, _
    | .minus :: _, _ | .rp :: _, _ => rfl
  | line r k => exact absurd h id
  | both f a b iha ihb =>
    intro n rest _
    obtain ⟨ha, hb⟩ := h
    obtain ⟨a1, a2⟩ := callsOf_le ha
    obtain ⟨b1, b2⟩ := callsOf_le hb
    have hlen : (text (.both f a b)).length = (text a).length + (text b).length + 4 := by
      simp only [text, List.length_append, List.length_cons, List.length_nil]
      omega
    have hcat : text (.both f a b) ++ rest = .word f :: .lp :: (text a ++ .comma :: (text b ++ .rp :: rest)) := by
      simp [text]
    rw [hcat, hlen]
    obtain ⟨N, hN⟩ : ∃ N, N = n + 8 * ((text a).length + (text b).length + 4) - 2 := ⟨_, rfl⟩
    have e1 : n + 8 * ((text a).length + (text b).length + 4) = N + 2 := by omega
    have h1 : readPart N .sum (text a ++ .comma :: (text b ++ .rp :: rest)) =
        some (treeOf a, .comma :: (text b ++ .rp :: rest)) := by
      have := sum_of_post (ts := text a ++ .comma :: (text b ++ .rp :: rest)) (n := N - 3) (k := callsOf a) (by omega)
        (by
          obtain ⟨s, r, hs⟩ := text_head ha (.comma :: (text b ++ .rp :: rest))
          rw [hs]
          intro r' hc
          cases hc)
        (by
          have := iha ha (N - 3 - 8 * (text a).length) (.comma :: (text b ++ .rp :: rest)) (by intro r hc; cases hc)
          rwa [Nat.sub_add_cancel (by omega)] at this) (.inr rfl)
      rwa [Nat.sub_add_cancel (by omega)] at this
    have h2 : readPart N .sum (text b ++ .rp :: rest) = some (treeOf b, .rp :: rest) := by
      have := sum_of_post (ts := text b ++ .rp :: rest) (n := N - 3) (k := callsOf b) (by omega)
        (by
          obtain ⟨s, r, hs⟩ := text_head hb (.rp :: rest)
          rw [hs]
          intro r' hc
          cases hc)
        (by
          have := ihb hb (N - 3 - 8 * (text b).length) (.rp :: rest) (by intro r hc; cases hc)
          rwa [Nat.sub_add_cancel (by omega)] at this) (.inl rfl)
      rwa [Nat.sub_add_cancel (by omega)] at this
    rw [e1]
    show ((readPart (N + 1) .atom _).bind fun r => _) = _
    have h3 : readPart (N + 1) .atom (.word f :: .lp :: (text a ++ .comma :: (text b ++ .rp :: rest))) =
        some (.apply f (treeOf a) (treeOf b), rest) := by
      show ((readPart N .sum _).bind fun r => _) = _
      rw [h1]
      show ((readPart N .sum _).bind fun r => _) = _
      rw [h2]
      rfl
    rw [h3]
    rfl
  | offset c k d ih =>
    intro n rest _
    obtain ⟨c1, c2⟩ := callsOf_le h.1
    have hcat : text (.offset c k d) ++ rest = text c ++ .dot :: .word "offset" :: .lp :: (numText k ++ .rp :: rest) := by
      simp [text]
    have hlen : (text (.offset c k d)).length = (text c).length + (numText k).length + 4 := by
      simp only [text, List.length_append, List.length_cons, List.length_nil]
      omega
    rw [hcat, hlen]
    have := ih h.1 (n + 8 * ((numText k).length + 4)) (.dot :: .word "offset" :: .lp :: (numText k ++ .rp :: rest))
      (by intro r hc; cases hc)
    rw [show n + 8 * ((text c).length + (numText k).length + 4) = n + 8 * ((numText k).length + 4) + 8 * (text c).length by ring,
      this]
    obtain ⟨N, hN⟩ : ∃ N, n + 8 * ((numText k).length + 4) + 8 * (text c).length - callsOf c = N + 8 :=
      ⟨n + 8 * ((numText k).length + 4) + 8 * (text c).length - callsOf c - 8, by omega⟩
    rw [hN, read_call]
    show _ = readPart (_ - (callsOf c + 1)) _ _
    congr 1
    omega
  | sma c w ih =>
    intro n rest _
    obtain ⟨c1, c2⟩ := callsOf_le h.1
    obtain ⟨hc, m, hm, rfl⟩ := h
    have hcat : text (.sma c (.degree m)) ++ rest = text c ++ .dot :: .word "sma" :: .lp :: (numText m ++ .rp :: rest) := by
      simp [text, windowText_degree hm]
    have hlen : (text (.sma c (.degree m))).length = (text c).length + (numText m).length + 4 := by
      simp only [text, windowText_degree hm, List.length_append, List.length_cons, List.length_nil]
      omega
    rw [hcat, hlen]
    have := ih hc (n + 8 * ((numText m).length + 4)) (.dot :: .word "sma" :: .lp :: (numText m ++ .rp :: rest))
      (by intro r hc; cases hc)
    rw [show n + 8 * ((text c).length + (numText m).length + 4) = n + 8 * ((numText m).length + 4) + 8 * (text c).length by ring,
      this]
    obtain ⟨N, hN⟩ : ∃ N, n + 8 * ((numText m).length + 4) + 8 * (text c).length - callsOf c = N + 8 :=
      ⟨n + 8 * ((numText m).length + 4) + 8 * (text c).length - callsOf c - 8, by omega⟩
    rw [hN, read_call]
    show _ = readPart (_ - (callsOf c + 1)) _ _
    congr 1
    omega
  | ema c a p ih =>
    intro n rest _
    obtain ⟨c1, c2⟩ := callsOf_le h.1
    obtain ⟨hc, q, hq, rfl, rfl⟩ := h
    have ht : optText (orOpt (some q) none) = numText q := by simp [orOpt, hq, optText]
    have hcat : text (.ema c (some q) none) ++ rest = text c ++ .dot :: .word "ema" :: .lp :: (numText q ++ .rp :: rest) := by
      simp [text, ht]
    have hlen : (text (.ema c (some q) none)).length = (text c).length + (numText q).length + 4 := by
      simp only [text, ht, List.length_append, List.length_cons, List.length_nil]
      omega
    rw [hcat, hlen]
    have := ih hc (n + 8 * ((numText q).length + 4)) (.dot :: .word "ema" :: .lp :: (numText q ++ .rp :: rest))
      (by intro r hc; cases hc)
    rw [show n + 8 * ((text c).length + (numText q).length + 4) = n + 8 * ((numText q).length + 4) + 8 * (text c).length by ring,
      this]
    obtain ⟨N, hN⟩ : ∃ N, n + 8 * ((numText q).length + 4) + 8 * (text c).length - callsOf c = N + 8 :=
      ⟨n + 8 * ((numText q).length + 4) + 8 * (text c).length - callsOf c - 8, by omega⟩
    rw [hN, read_call]
    have he : treeOf (.ema c (some q) none) = .call (treeOf c) "ema" (numEx q) := by simp [treeOf, orOpt, hq]
    rw [he]
    show _ = readPart (_ - (callsOf c + 1)) _ _
    congr 1
    omega

theorem tree_curve {c : Shown} (h : PlainShown c) : (treeOf c).curve = some c := by
  induction c with
  | named s => rfl
  | line r k => exact absurd h id
  | both f a b iha ihb => simp [treeOf, Ex.curve, iha h.1, ihb h.2]
  | offset c k d ih =>
    obtain ⟨hc, rfl⟩ := h
    simp [treeOf, Ex.curve, ih hc, numEx_literal]
  | sma c w ih =>
    obtain ⟨hc, n, hn, rfl⟩ := h
    have : (1 : ℚ) ≤ n := by exact_mod_cast hn
    simp [treeOf, Ex.curve, ih hc, numEx_literal, hn]
  | ema c a p ih =>
    obtain ⟨hc, q, hq, rfl, rfl⟩ := h
    simp [treeOf, Ex.curve, ih hc, numEx_literal, orOpt, hq]

/-- **Shown as the expression that makes it**: the text of a curve made of curves with names, by combining two, by offsets, by
averages over numbers of points and by averages with weights, nested in any way, makes the same curve again. -/
theorem C174_back_partial {c : Shown} (h : PlainShown c) : (readText (text c)).bind Ex.curve = some c := by
  obtain ⟨c1, c2⟩ := callsOf_le h
  have h1 := read_shown h 5 [] (by intro r hc; cases hc)
  rw [List.append_nil] at h1
  obtain ⟨N, hN⟩ : ∃ N, 5 + 8 * (text c).length - callsOf c = N + 1 := ⟨5 + 8 * (text c).length - callsOf c - 1, by omega⟩
  have h2 : readPart (5 + 8 * (text c).length) .post (text c) = some (treeOf c, []) := by rw [h1, hN]; rfl
  have h3 : readPart (6 + 8 * (text c).length) .sign (text c) = some (treeOf c, []) := by
    obtain ⟨s, r, hs⟩ := text_head h []
    rw [List.append_nil] at hs
    rw [← h2, show 6 + 8 * (text c).length = (5 + 8 * (text c).length) + 1 by ring]
    generalize 5 + 8 * (text c).length = M
    rw [hs]
    rfl
  have h4 : readPart (7 + 8 * (text c).length) .prod (text c) = some (treeOf c, []) := by
    rw [show 7 + 8 * (text c).length = (6 + 8 * (text c).length) + 1 by ring]
    show ((readPart _ .sign (text c)).bind fun r => _) = _
    rw [h3, show 6 + 8 * (text c).length = (5 + 8 * (text c).length) + 1 by ring]
    rfl
  have h5 : readPart (8 * (text c).length + 8) .sum (text c) = some (treeOf c, []) := by
    rw [show 8 * (text c).length + 8 = (7 + 8 * (text c).length) + 1 by ring]
    show ((readPart _ .prod (text c)).bind fun r => _) = _
    rw [h4, show 7 + 8 * (text c).length = (6 + 8 * (text c).length) + 1 by ring]
    rfl
  simp only [readText, h5, Option.bind_some]
  exact tree_curve h

/-- **Different curves of these kinds are shown differently.** -/
theorem C174_differ_partial {c d : Shown} (hc : PlainShown c) (hd : PlainShown d) (h : text c = text d) : c = d := by
  have h1 := C174_back_partial hc
  rw [h, C174_back_partial hd] at h1
  exact (Option.some.inj h1).symm

/-! ## Witnesses -/

/-- **Averages over a length of time** are shown as averages over so many points, which are others. -/
theorem C174_negation_period :
    text (.sma (.named "c") (.period 3)) = text (.sma (.named "c") (.degree 3)) ∧
    (readText (text (.sma (.named "c") (.period 3)))).bind Ex.curve = some (.sma (.named "c") (.degree 3)) ∧
    smaAfter (.period 3) (smaOver (latePts.take 5) (1/100) false) [] 15 ≠
      smaAfter (.degree 3) (smaOver (latePts.take 5) (1/100) false) [] 15 := by
  refine ⟨?_, ?_, ?_⟩ <;> decide +kernel

/-- **Averages with a period** are shown as averages with that weight. -/
theorem C174_negation_weight : (readText (text (.ema (.named "c") none (some 10)))).bind Ex.curve =
    some (.ema (.named "c") (some 10) none) := by decide +kernel

/-- **Averages with the weight `0`** are all shown as `ema(None)`, which makes no curve. -/
theorem C174_negation_zero (c : Shown) : text (.ema c (some 0) none) = text c ++ [.dot, .word "ema", .lp, .word "None", .rp] ∧
    (readText (text (.ema (.named "c") (some 0) none))).bind Ex.curve = none := by
  refine ⟨by simp [text, orOpt, optText], by decide +kernel⟩

/-- **Offsets by durations** are shown as offsets by numbers. -/
theorem C174_negation_duration : (readText (text (.offset (.named "c") 2 (some "month")))).bind Ex.curve =
    some (.offset (.named "c") 2 none) := by decide +kernel

/-- **What is made of a line** is shown as if it was made of its last number: `x * 2 + 3.offset(1)`. -/
theorem C174_negation_line : readText (text (.offset (.line (0, 3) 2) 1 none)) =
    some (.add (.mul .x (.num 2)) (.call (.num 3) "offset" (.num 1))) := by decide +kernel

/-! ## Examples -/

/-- `add(a.sma(3), b.offset(-2)).ema(1/2)` -/
example : (readText (text (.ema (.both "add" (.sma (.named "a") (.degree 3)) (.offset (.named "b") (-2) none)) (some (1/2)) none))).bind
    Ex.curve = some (.ema (.both "add" (.sma (.named "a") (.degree 3)) (.offset (.named "b") (-2) none)) (some (1/2)) none) :=
  C174_back_partial ⟨⟨⟨trivial, 3, by norm_num, rfl⟩, trivial, rfl⟩, 1/2, by norm_num, rfl, rfl⟩

/-- `(x - -3) * -2 + 5` -/
example : text (.line (-3, 5) (-2)) = [.lp, .x, .minus, .minus, .num 3, .rp, .times, .minus, .num 2, .plus, .num 5] ∧
    (readText (text (.line (-3, 5) (-2)))).bind (Ex.value 1) = some (-3) := by
  constructor <;> decide +kernel

example : ∃ e, readText (text (.line (-3, 5) (-2))) = some e ∧
    ∀ x, (e.value x).map Num.fin = some (Line.y ⟨(-3, 5), .fin (-2)⟩ (.fin x)) := C174_line _ _

example : text (.sma (.named "a") (.degree 3)) ≠ text (.sma (.named "a") (.degree 4)) := fun h => by
  have := C174_differ_partial (c := .sma (.named "a") (.degree 3)) (d := .sma (.named "a") (.degree 4))
    ⟨trivial, 3, by norm_num, rfl⟩ ⟨trivial, 4, by norm_num, rfl⟩ h
  simp at this

end Props
end Curvepy
