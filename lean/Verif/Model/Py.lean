import Mathlib.Data.Real.Basic

/-!
# Python run-time notions shared by all model files

These definitions model no particular file of `/repo`; they are the conventions in which the
Python and Cython sources are transcribed.
-/

namespace CasSph

/-- The Python exceptions that the modelled code can raise, as values. -/
inductive PyErr where
  | valueError
  | typeError
  | indexError
  | keyError
  | attributeError
  | notImplementedError
  | nameError
  | unboundLocalError
  | assertionError
  | zeroDivisionError
  | linAlgError
  | noOptionError
  | noSectionError
  | axisError
  | overflowError
  deriving DecidableEq, Repr

/-- Result of a call that may raise. -/
abbrev Res (α : Type*) := Except PyErr α

/-- A Python `while cond: body` loop, run for at most `fuel` evaluations of the condition.
`none` means "still running" (or that the body itself is still running). -/
noncomputable def whileLoop {σ : Type*} (cond : σ → Prop) [DecidablePred cond]
    (body : σ → Option σ) : ℕ → σ → Option σ
  | 0, _ => none
  | n + 1, s => if cond s then (body s).bind (whileLoop cond body n) else some s

end CasSph
