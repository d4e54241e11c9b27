import Mathlib.Data.List.Induction
import Verif.Spec.Util

/-!
# Property C55: `flatten` and `extend`
-/

namespace Curvepy
namespace Props
open Spec
open Py (flatten flattenList isIterable put putAll extendLoop extend)
variable {α : Type}

mutual
theorem leaves_flatten : ∀ x : Py α, Leaves x (flatten x)
  | .none => by simpa [flatten] using Leaves.none
  | .atom a => by simpa [flatten] using Leaves.atom a
  | .str s => by simpa [flatten] using Leaves.str s
  | .dict d => by simpa [flatten] using Leaves.dict d
  | .list l => by simpa [flatten] using leaves_flattenList l
theorem leaves_flattenList : ∀ l : List (Py α), Leaves (.list l) (flattenList l)
  | [] => by simpa [flattenList] using Leaves.nil
  | x :: xs => by
    have h : (if x.isIterable then flatten x else [x]) = flatten x := by
      cases x <;> simp [isIterable, flatten]
    rw [flattenList, h]
    exact .cons (leaves_flatten x) (leaves_flattenList xs)
end

theorem leaves_unique {x : Py α} {a b : List (Py α)} (ha : Leaves x a) (hb : Leaves x b) : a = b := by
  induction ha generalizing b with
  | none => cases hb; rfl
  | atom => cases hb; rfl
  | str => cases hb; rfl
  | dict => cases hb; rfl
  | nil => cases hb; rfl
  | cons _ _ ih1 ih2 =>
    cases hb with
    | cons h1 h2 => rw [ih1 h1, ih2 h2]

/-- C55: `flatten(items)` is the list of leaves of `items`, from left to right, at any depth. -/
theorem C55_flatten (x : Py α) (l : List (Py α)) : flatten x = l ↔ Leaves x l :=
  ⟨fun h => h ▸ leaves_flatten x, fun h => leaves_unique (leaves_flatten x) h⟩

example : flatten (.list [.atom 1, .list [.str "ab", .list [], .list [.none, .atom 2]],
    .dict [("k", 3)]] : Py ℕ) = [.atom 1, .str "ab", .none, .atom 2, .dict [("k", 3)]] := by
  simp [flatten, flattenList, isIterable]

theorem lookup_put (d : List (String × α)) (k k' : String) (v : α) :
    lookup (put d k v) k' = if k = k' then some v else lookup d k' := by
  induction d with
  | nil =>
    by_cases h : k = k' <;> simp [put, lookup, h]
  | cons p rest ih =>
    obtain ⟨k1, v1⟩ := p
    by_cases h1 : k1 = k
    · subst h1
      by_cases h : k1 = k' <;> simp [put, lookup, h]
    · simp only [put, if_neg h1]
      by_cases h : k1 = k'
      · subst h
        simp [lookup, Ne.symm h1]
      · have h' : (k1 == k') = false := by simpa using h
        unfold lookup at ih ⊢
        rw [List.find?_cons_of_neg (by simp [h]), List.find?_cons_of_neg (by simp [h])]
        exact ih

theorem lookup_putAll {d o : List (String × α)} (ho : UniqueKeys o) (k : String) :
    lookup (putAll d o) k = (lookup o k).or (lookup d k) := by
  induction o generalizing d with
  | nil => rfl
  | cons p rest ih =>
    obtain ⟨k1, v1⟩ := p
    have hn : k1 ∉ rest.map Prod.fst ∧ (rest.map Prod.fst).Nodup := by
      simpa [UniqueKeys] using ho
    rw [putAll, ih hn.2, lookup_put]
    by_cases h : k1 = k
    · subst h
      have h0 : lookup rest k1 = none := by
        unfold lookup
        rw [Option.map_eq_none_iff, List.find?_eq_none]
        intro q hq hc
        exact hn.1 (List.mem_map.2 ⟨q, hq, by simpa using hc⟩)
      rw [h0]
      simp [lookup]
    · simp [h, lookup]

theorem lookupLast_snoc (ds : List (List (String × α))) (d : List (String × α)) (k : String) :
    lookupLast (ds ++ [d]) k = (lookup d k).or (lookupLast ds k) := by
  unfold lookupLast
  rw [List.reverse_append, List.reverse_singleton, List.singleton_append, List.findSome?_cons]
  cases lookup d k <;> rfl

theorem lookupLast_append (ds es : List (List (String × α))) (k : String) :
    lookupLast (ds ++ es) k = (lookupLast es k).or (lookupLast ds k) := by
  induction es using List.reverseRecOn with
  | nil => simp [lookupLast]
  | append_singleton es e ih =>
    rw [← List.append_assoc, lookupLast_snoc, ih, lookupLast_snoc, Option.or_assoc]

theorem extendLoop_spec {d : List (String × α)} {l : List (Py α)} (hl : Mappings l)
    (hu : ∀ o ∈ dictsOf l, UniqueKeys o) :
    (extendLoop d l).2 = none ∧
      ∀ k, lookup (extendLoop d l).1 k = (lookupLast (dictsOf l) k).or (lookup d k) := by
  induction l generalizing d with
  | nil => exact ⟨rfl, fun k => rfl⟩
  | cons x xs ih =>
    have hl' : Mappings xs := fun y hy => hl y (List.mem_cons_of_mem _ hy)
    rcases hl x List.mem_cons_self with rfl | ⟨o, rfl⟩
    · exact ih hl' hu
    · have ih := ih (d := putAll d o) hl' (fun y hy => hu y (List.mem_cons_of_mem _ hy))
      refine ⟨ih.1, fun k => ?_⟩
      have h2 := ih.2 k
      rw [lookup_putAll (hu o List.mem_cons_self)] at h2
      have h3 : dictsOf (.dict o :: xs) = [o] ++ dictsOf xs := rfl
      rw [extendLoop, h2, h3, lookupLast_append, Option.or_assoc]
      congr 1
      simp only [lookupLast, List.reverse_singleton, List.findSome?_cons, List.findSome?_nil]
      cases lookup o k <;> rfl

/-- C55: `extend(a, b1, …, bn)`, the `b`s nested in lists in any way and possibly `None`, maps each key to
its value in the last argument that has it; `a` itself changes only with `in_place`, and then it is the
result. -/
theorem C55_extend {a : List (String × α)} {others l : List (Py α)} {inPlace : Bool}
    (hl : Leaves (.list others) l) (hm : Mappings l) (hu : ∀ o ∈ dictsOf l, UniqueKeys o) :
    ∃ r, (extend a others inPlace).result = .ok r ∧ (∀ k, lookup r k = lookupLast (a :: dictsOf l) k) ∧
      (extend a others inPlace).primary = if inPlace then r else a := by
  have h : flattenList others = l := leaves_unique (leaves_flattenList others) hl
  obtain ⟨h1, h2⟩ := extendLoop_spec (d := a) hm hu
  refine ⟨(extendLoop a l).1, ?_, ?_, ?_⟩
  · simp only [extend, h, h1]
  · intro k
    rw [h2, show a :: dictsOf l = [a] ++ dictsOf l from rfl, lookupLast_append]
    congr 1
    simp only [lookupLast, List.reverse_singleton, List.findSome?_cons, List.findSome?_nil]
    cases lookup a k <;> rfl
  · simp only [extend, h]

/-- C55: an argument that is neither a dictionary nor `None` raises, after the ones before it were
copied. -/
theorem C55_extend_raises {a : List (String × α)} {others l : List (Py α)} {inPlace : Bool}
    (hl : Leaves (.list others) l) (hm : ¬ Mappings l) :
    (extend a others inPlace).result = .error .attribute := by
  have h : flattenList others = l := leaves_unique (leaves_flattenList others) hl
  have : ∀ d : List (String × α), (extendLoop d l).2 = some .attribute := by
    clear hl h
    induction l with
    | nil => exact absurd (fun x hx => by simp at hx) hm
    | cons x xs ih =>
      intro d
      cases x with
      | none =>
        exact ih (fun hc => hm (fun y hy => by
          rcases List.mem_cons.1 hy with rfl | hy
          · exact Or.inl rfl
          · exact hc y hy)) d
      | dict o =>
        exact ih (fun hc => hm (fun y hy => by
          rcases List.mem_cons.1 hy with rfl | hy
          · exact Or.inr ⟨o, rfl⟩
          · exact hc y hy)) (putAll d o)
      | atom _ => rfl
      | str _ => rfl
      | list _ => rfl
  simp only [extend, h, this]

theorem put_keys (d : List (String × α)) (k : String) (v : α) :
    (put d k v).map Prod.fst = if k ∈ d.map Prod.fst then d.map Prod.fst else d.map Prod.fst ++ [k] := by
  induction d with
  | nil => simp [put]
  | cons p rest ih =>
    obtain ⟨k1, v1⟩ := p
    by_cases h1 : k1 = k
    · subst h1; simp [put]
    · simp only [put, if_neg h1, List.map_cons, ih, List.mem_cons, Ne.symm h1, false_or]
      split <;> simp

/-- C55: keys stay unique. -/
theorem C55_extend_unique {a : List (String × α)} (ha : UniqueKeys a) (others : List (Py α))
    (inPlace : Bool) : UniqueKeys (extend a others inPlace).primary ∧
      ∀ r, (extend a others inPlace).result = .ok r → UniqueKeys r := by
  have hput : ∀ (d : List (String × α)) k v, UniqueKeys d → UniqueKeys (put d k v) := by
    intro d k v hd
    unfold UniqueKeys at hd ⊢
    rw [put_keys]
    split
    · exact hd
    · rename_i hk
      exact List.nodup_append.2 ⟨hd, by simp, by
        intro x hx y hy; rw [List.mem_singleton.1 hy]; rintro rfl; exact hk hx⟩
  have hall : ∀ (o d : List (String × α)), UniqueKeys d → UniqueKeys (putAll d o) := by
    intro o
    induction o with
    | nil => exact fun d h => h
    | cons p rest ih => exact fun d h => ih _ (hput d _ _ h)
  have hloop : ∀ (l : List (Py α)) (d : List (String × α)), UniqueKeys d →
      UniqueKeys (extendLoop d l).1 := by
    intro l
    induction l with
    | nil => exact fun d h => h
    | cons x xs ih =>
      intro d h
      cases x with
      | none => exact ih d h
      | dict o => exact ih _ (hall o d h)
      | atom _ => exact h
      | str _ => exact h
      | list _ => exact h
  refine ⟨?_, fun r hr => ?_⟩
  · simp only [extend]
    split
    · exact hloop _ _ ha
    · exact ha
  · simp only [extend] at hr
    split at hr
    · cases hr
    · cases hr; exact hloop _ _ ha

example : (extend [("a", 1), ("b", 2)] [.dict [("b", 3)], .none, .list [.dict [("c", 4), ("b", 5)]]]
    false).result = .ok [("a", 1), ("b", 5), ("c", 4)] ∧
    (extend [("a", 1), ("b", 2)] [.dict [("b", 3)], .none, .list [.dict [("c", 4), ("b", 5)]]]
    false).primary = [("a", 1), ("b", 2)] ∧
    (extend [("a", 1), ("b", 2)] [.dict [("b", 3)]] true).primary = [("a", 1), ("b", 3)] := by
  simp [extend, flattenList, flatten, isIterable, extendLoop, putAll, put]
example : lookupLast [[("a", 1), ("b", 2)], [("b", 3)], [("c", 4), ("b", 5)]] "b" = some 5 := by decide +kernel
example : (extend [("a", 1)] [.dict [("b", 3)], .str "x"] false).result = .error .attribute := by
  simp [extend, flattenList, flatten, isIterable, extendLoop]

end Props
end Curvepy
