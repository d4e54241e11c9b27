import Mathlib.Data.Rat.Defs

/-!
# Calling Python functions

When a function can be called with some positional arguments, by Python's rules: the arguments are given to the parameters from
the left; what is left over goes to `*args`; parameters without an argument need a default.
-/

namespace Curvepy

/-- `inspect.Parameter.kind`. -/
inductive ParamKind where
  | positionalOnly
  | positionalOrKeyword
  | varPositional
  | keywordOnly
  | varKeyword
deriving DecidableEq, Repr

/-- A parameter. -/
structure Param where
  kind : ParamKind
  hasDefault : Bool := false
deriving DecidableEq, Repr

namespace Spec

/-- `n` positional arguments can be given to these parameters. -/
def binds : List Param → ℕ → Bool
  | [], n => n == 0
  | p :: ps, n =>
    match p.kind, n with
    | .positionalOnly, 0 => p.hasDefault && binds ps 0
    | .positionalOnly, n + 1 => binds ps n
    | .positionalOrKeyword, 0 => p.hasDefault && binds ps 0
    | .positionalOrKeyword, n + 1 => binds ps n
    | .varPositional, _ => binds ps 0
    | .keywordOnly, n => p.hasDefault && binds ps n
    | .varKeyword, n => binds ps n

/-- A function of `k` arguments, without options. -/
def plainParams (k : ℕ) : List Param := List.replicate k { kind := .positionalOrKeyword }

end Spec
end Curvepy
