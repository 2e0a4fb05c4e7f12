import Verif.Model.Balance

/-!
# `balance` in floating-point arithmetic

The function of `CasimirRio/matrix_balancing.pyx` once more, now with rounded operations.  The exponent range is
not limited (no overflow or underflow); the constant `1e-320` is a parameter `tiny`, as it is not exactly
representable itself.
-/

namespace CasSph

open scoped Classical

/-- Arithmetic on a set `fl` of representable numbers. -/
structure FlArith where
  fl : ℝ → Prop
  /-- bound of the relative errors -/
  u : ℝ
  add : ℝ → ℝ → ℝ
  mul : ℝ → ℝ → ℝ
  div : ℝ → ℝ → ℝ
  /-- `x**2` -/
  sq : ℝ → ℝ
  /-- `x**0.5` -/
  sqrt : ℝ → ℝ

namespace FlArith

variable (A : FlArith) {n : ℕ}

/-- matrix_balancing.pyx:21-23, `c` accumulated in the order of the loop. -/
noncomputable def colSq (M : Matrix (Fin n) (Fin n) ℝ) (i : Fin n) : ℝ :=
  (List.finRange n).foldl (fun c j => if j = i then c else A.add c (A.sq |M j i|)) 0

/-- matrix_balancing.pyx:21-24, `r`. -/
noncomputable def rowSq (M : Matrix (Fin n) (Fin n) ℝ) (i : Fin n) : ℝ :=
  (List.finRange n).foldl (fun r j => if j = i then r else A.add r (A.sq |M i j|)) 0

/-- matrix_balancing.pyx:30-33. -/
noncomputable def growLoop (fuel : ℕ) (s : FCR) : Option FCR :=
  whileLoop (fun s => s.c < A.div s.r 2) (fun s => some ⟨A.mul s.f 2, A.mul s.c 2, A.div s.r 2⟩) fuel s

/-- matrix_balancing.pyx:34-37. -/
noncomputable def shrinkLoop (fuel : ℕ) (s : FCR) : Option FCR :=
  whileLoop (fun s => s.c ≥ A.mul s.r 2) (fun s => some ⟨A.div s.f 2, A.div s.c 2, A.mul s.r 2⟩) fuel s

/-- matrix_balancing.pyx:40-41. -/
noncomputable def scaleIndex (M : Matrix (Fin n) (Fin n) ℝ) (i : Fin n) (f : ℝ) : Matrix (Fin n) (Fin n) ℝ :=
  let M₁ : Matrix (Fin n) (Fin n) ℝ := fun j k => if k = i then A.mul (M j k) f else M j k
  fun j k => if j = i then A.div (M₁ j k) f else M₁ j k

/-- matrix_balancing.pyx:20-41. -/
noncomputable def balanceIndex (tiny : ℝ) (fuel : ℕ) (conv : ℝ) (s : Matrix (Fin n) (Fin n) ℝ × Bool) (i : Fin n) :
    Option (Matrix (Fin n) (Fin n) ℝ × Bool) :=
  let M := s.1
  let c := A.colSq M i
  let r := A.rowSq M i
  if |r| ≤ tiny ∨ |c| ≤ tiny then some s
  else
    (A.growLoop fuel ⟨1, A.sqrt c, A.sqrt r⟩).bind fun s₁ =>
    (A.shrinkLoop fuel s₁).bind fun s₂ =>
      if A.add (A.sq s₂.c) (A.sq s₂.r) < A.mul conv (A.add c r) then some (A.scaleIndex M i s₂.f, false)
      else some s

/-- matrix_balancing.pyx:18-41. -/
noncomputable def balanceSweep (tiny : ℝ) (fuel : ℕ) (conv : ℝ) (M : Matrix (Fin n) (Fin n) ℝ) :
    Option (Matrix (Fin n) (Fin n) ℝ × Bool) :=
  (List.finRange n).foldlM (A.balanceIndex tiny fuel conv) (M, true)

/-- matrix_balancing.pyx:7-42 `balance(matrix, conv)` in the arithmetic `A`. -/
noncomputable def balance (tiny : ℝ) (fuel : ℕ) (conv : ℝ) (M : Matrix (Fin n) (Fin n) ℝ) : Option (Matrix (Fin n) (Fin n) ℝ) :=
  (whileLoop (fun s : Matrix (Fin n) (Fin n) ℝ × Bool => s.2 = false)
    (fun s => A.balanceSweep tiny fuel conv s.1) fuel (M, false)).map Prod.fst

end FlArith

end CasSph
