import Mathlib.Data.Matrix.Basic
import Mathlib.Logic.Equiv.Fin.Basic
import Verif.Model.FloatBalance
import Verif.Model.FloatBessel

/-! # `np.linalg.slogdet` in rounded arithmetic (geometry.py:756-757, 768-770, 791-794) -/

namespace CasSph

/-- Choice of the pivot row of the first column. -/
abbrev Pivoting := ∀ n : ℕ, Matrix (Fin (n + 1)) (Fin (n + 1)) ℝ → Fin (n + 1)

namespace FlFun

variable (A : FlFun) {n : ℕ}

/-- geometry.py:756-757, 768-769, 792 `eins - M`, entry by entry. -/
noncomputable def oneMinus (M : Matrix (Fin n) (Fin n) ℝ) : Matrix (Fin n) (Fin n) ℝ :=
  fun i j => A.sub (if i = j then 1 else 0) (M i j)

/-- One step of the elimination behind `np.linalg.slogdet` (geometry.py:757, 770, 794; LAPACK `getrf`): rows `0` and `p` are exchanged, the first
column is multiplied by the reciprocal of the pivot, and the products are subtracted.  Simplification: the products are subtracted one after the
other, without blocking and without fused operations. -/
noncomputable def elim (a : Matrix (Fin (n + 1)) (Fin (n + 1)) ℝ) (p : Fin (n + 1)) : Matrix (Fin n) (Fin n) ℝ :=
  fun i j => A.sub (a (Equiv.swap 0 p i.succ) j.succ) (A.mul (A.mul (A.div 1 (a p 0)) (a (Equiv.swap 0 p i.succ) 0)) (a p j.succ))

/-- The diagonal of the upper triangular factor (geometry.py:757, 770, 794). -/
noncomputable def pivots (piv : Pivoting) : ∀ n : ℕ, Matrix (Fin n) (Fin n) ℝ → List ℝ
  | 0, _ => []
  | n + 1, a => a (piv n a) 0 :: pivots piv n (A.elim a (piv n a))

/-- `np.linalg.slogdet(a)[1]` (geometry.py:757, 770, 794): sum of the logarithms of the moduli of the pivots in their order; `none` is `-inf`. -/
noncomputable def slogdet (piv : Pivoting) (a : Matrix (Fin n) (Fin n) ℝ) : Option ℝ :=
  open Classical in if 0 ∈ A.pivots piv n a then none else some ((A.pivots piv n a).foldl (fun s d => A.add s (A.log |d|)) 0)

/-- geometry.py:783-794 `balanced_slogdet` for one matrix (also geometry.py:756-757 and the parts of 768-770): `1 - M`, `balance` in the arithmetic
`F`, `slogdet`.  The outer `Option` is the loop fuel of `balance`. -/
noncomputable def balancedSlogdet (F : FlArith) (tiny : ℝ) (piv : Pivoting) (fuel : ℕ) (conv : ℝ) (M : Matrix (Fin n) (Fin n) ℝ) : Option (Option ℝ) :=
  (F.balance tiny fuel conv (A.oneMinus M)).map (A.slogdet piv)

/-- geometry.py:761-770 `sln_det_blockdiagonal(P, Q)`: the logarithm of a product for one multipole, else the sum of two determinants, `Q` first.
The inner `none` stands for every value that is no real number. -/
noncomputable def slnDetBlockdiagonal (F : FlArith) (tiny : ℝ) (piv : Pivoting) (fuel : ℕ) (conv : ℝ) :
    ∀ n : ℕ, Matrix (Fin n) (Fin n) ℝ → Matrix (Fin n) (Fin n) ℝ → Option (Option ℝ)
  | 1, P, Q =>
    let p := A.mul (A.sub 1 (P 0 0)) (A.sub 1 (Q 0 0))
    open Classical in some (if 0 < p then some (A.log p) else none)
  | _, P, Q =>
    (A.balancedSlogdet F tiny piv fuel conv Q).bind fun b =>
    (A.balancedSlogdet F tiny piv fuel conv P).map fun a => b.bind fun y => a.map fun x => A.add y x

end FlFun

end CasSph
