import Verif.Model.Quotes

/-!
# Histories of quotes
-/

namespace Curvepy
namespace Spec

/-- Edits of quotes. -/
inductive QOp where
  | set (l : List (Pt Quote))
  | appendList (l : List (Pt Quote))
  | append (p : Pt Quote)

/-- Run an edit. -/
def QOp.run (op : QOp) (q : Quotes) (r : Pts.Reads) : Quotes.QRes :=
  match op with
  | .set l => q.set l r
  | .appendList l => q.appendList l r
  | .append p => q.append p r

/-- The encoder, or none, as a function. -/
def encoding (q : Quotes) : Pt Quote → Except Err (Pt Quote) := q.encoder.getD .ok

/-- The batch given is strictly ascending once encoded, as the docstrings demand. -/
def QOp.Legal (q : Quotes) : QOp → Prop
  | .set l => ∀ es, l.mapM (encoding q) = .ok es → Ascending es
  | .appendList l => ∀ es, l.mapM (encoding q) = .ok es → Ascending es
  | .append _ => True

/-- Legal edits, some accepted (these are listed), some refused without an update having begun. -/
inductive QRuns : Quotes → List QOp → Quotes → Prop where
  | done (q : Quotes) : QRuns q [] q
  | accept {q q' : Quotes} {op : QOp} {ops : List QOp} (r : Pts.Reads) (hl : op.Legal q)
      (h : (op.run q r).err = none) (hs : QRuns (op.run q r).st ops q') : QRuns q (op :: ops) q'
  | refuse {q q' : Quotes} {op : QOp} {ops : List QOp} (r : Pts.Reads) (hl : op.Legal q)
      (h : (op.run q r).err ≠ none) (hr : lateError (op.run q r).err = false)
      (hs : QRuns (op.run q r).st ops q') : QRuns q ops q'

/-- What was given since the last `set`, in order; `c p` for what `append p` should contribute. -/
def given (c : Pt Quote → Pt Quote) : List (Pt Quote) → List QOp → List (Pt Quote)
  | acc, [] => acc
  | _, .set l :: ops => given c l ops
  | acc, .appendList l :: ops => given c (acc ++ l) ops
  | acc, .append p :: ops => given c (acc ++ [c p]) ops

/-- The encoded point, where there is one. -/
def once (f : Pt Quote → Except Err (Pt Quote)) (p : Pt Quote) : Pt Quote :=
  match f p with
  | .ok e => e
  | .error _ => p

/-- Quotes reached by legal edits, where no edit raised late and the spacing was not misjudged. -/
inductive QHonest : Quotes → Prop where
  | new (u : Bool) (f : Option (Pt Quote → Except Err (Pt Quote))) : QHonest (Quotes.new u f)
  | edit {q : Quotes} {op : QOp} {r : Pts.Reads} (h : QHonest q) (hl : op.Legal q)
      (hr : lateError (op.run q r).err = false) (ht : Truthful (op.run q r).st.points) :
      QHonest (op.run q r).st

/-- Point `k` is the last one at or before `x`, and `x` is not after the end. -/
def Governs {V : Type} (l : List (Pt V)) (k : ℕ) (x : ℚ) : Prop :=
  ∃ p, l[k]? = some p ∧ p.1 ≤ x ∧
    match l[k + 1]? with
    | none => x = p.1
    | some q => x < q.1

/-- Entry `i` of the `n` quotes up to quote `k`. -/
def lastEntries (l : List (ℚ × Quote)) (i n k : ℕ) : Set ℚ :=
  {y | ∃ j q, l[j]? = some q ∧ j ≤ k ∧ k < j + n ∧ q.2[i]? = some y}

end Spec
end Curvepy
