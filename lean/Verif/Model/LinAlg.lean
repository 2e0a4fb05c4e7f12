import Verif.Model.Balance
import Mathlib.LinearAlgebra.Matrix.NonsingularInverse
import Mathlib.LinearAlgebra.Matrix.Trace
import Mathlib.Analysis.SpecialFunctions.Log.Basic
import Mathlib.Data.EReal.Basic

/-!
# Model of the linear algebra helpers of `CasimirRio/geometry.py` (lines 669-845)

Arrays carry their shape, so that the shape checks of the code are part of the model.
-/

namespace CasSph

open scoped Classical

/-- A numpy array: a shape and an entry for each index list (entries outside the shape are
irrelevant).  Models numpy, no line of `/repo`. -/
structure NdArr where
  shape : List ℕ
  val : List ℕ → ℝ

/-- Three-dimensional array from an entry function. -/
def NdArr.mk3 (d0 d1 d2 : ℕ) (v : ℕ → ℕ → ℕ → ℝ) : NdArr where
  shape := [d0, d1, d2]
  val := fun l => match l with
    | [i, a, b] => v i a b
    | _ => 0

/-- `A[i, 0:n, 0:m]` as a matrix. -/
def NdArr.slice (A : NdArr) (n m i : ℕ) : Matrix (Fin n) (Fin m) ℝ :=
  fun a b => A.val [i, a.1, b.1]

/-- `A[:, r:r+h, c:c+w]` of a three-dimensional array with `d0` slices (numpy slicing). -/
def NdArr.sub3 (A : NdArr) (d0 r h c w : ℕ) : NdArr :=
  NdArr.mk3 d0 h w fun i a b => A.val [i, r + a, c + b]

/-- `np.append(A, B, axis=2)`: numpy requires equal other axes. -/
def npAppend2 (A B : NdArr) : Res NdArr :=
  match A.shape, B.shape with
  | [d0, d1, d2], [e0, e1, e2] =>
    if d0 = e0 ∧ d1 = e1 then
      .ok (NdArr.mk3 d0 d1 (d2 + e2) fun i a b =>
        if b < d2 then A.val [i, a, b] else B.val [i, a, b - d2])
    else .error .valueError
  | _, _ => .error .axisError

/-- `np.append(A, B, axis=1)`. -/
def npAppend1 (A B : NdArr) : Res NdArr :=
  match A.shape, B.shape with
  | [d0, d1, d2], [e0, e1, e2] =>
    if d0 = e0 ∧ d2 = e2 then
      .ok (NdArr.mk3 d0 (d1 + e1) d2 fun i a b =>
        if a < d1 then A.val [i, a, b] else B.val [i, a - d1, b])
    else .error .valueError
  | _, _ => .error .axisError

/-- geometry.py:669-679 `dot_3d_matrices`.  The error message of the shape check applies `%` with two
arguments to a string without conversion specifiers, so a `TypeError` leaves the function.
Simplification: einsum's broadcasting of axes of length one is not modelled (ValueError instead). -/
noncomputable def dot3d (A B : NdArr) : Res NdArr :=
  match A.shape, B.shape with
  | [d0, d1, d2], [e0, e1, e2] =>
    if d0 = e0 ∧ d2 = e1 then
      .ok (NdArr.mk3 d0 d1 e2 fun i a c => ∑ b : Fin d2, A.val [i, a, b.1] * B.val [i, b.1, c])
    else .error .valueError
  | _, _ => .error .typeError

/-- geometry.py:682-698 `inv_3d_matrix`.  `np.linalg.inv` raises `LinAlgError` for non-square and for
(exactly) singular matrices.  The message of the shape check applies `%` to the shape tuple itself,
which succeeds (ValueError) only for tuples of length one and is a `TypeError` otherwise. -/
noncomputable def inv3d (A : NdArr) : Res NdArr :=
  match A.shape with
  | [d0, d1, d2] =>
    if d0 = 0 then .ok A
    else if d1 ≠ d2 then .error .linAlgError
    else if ∃ i < d0, (A.slice d1 d1 i).det = 0 then .error .linAlgError
    else .ok (NdArr.mk3 d0 d1 d1 fun i a b =>
      if h : a < d1 ∧ b < d1 then (A.slice d1 d1 i)⁻¹ ⟨a, h.1⟩ ⟨b, h.2⟩ else 0)
  | [_] => .error .valueError
  | _ => .error .typeError

/-- Entrywise `A - B` for arrays of equal three-dimensional shape (numpy; used at geometry.py:729). -/
def npSub3 (A B : NdArr) : Res NdArr :=
  match A.shape with
  | [d0, d1, d2] => if B.shape = A.shape then
      .ok (NdArr.mk3 d0 d1 d2 fun i a b => A.val [i, a, b] - B.val [i, a, b])
    else .error .valueError
  | _ => .error .valueError

/-- Entrywise `A + B` (geometry.py:733). -/
def npAdd3 (A B : NdArr) : Res NdArr :=
  match A.shape with
  | [d0, d1, d2] => if B.shape = A.shape then
      .ok (NdArr.mk3 d0 d1 d2 fun i a b => A.val [i, a, b] + B.val [i, a, b])
    else .error .valueError
  | _ => .error .valueError

/-- Entrywise `-A` (geometry.py:734-735). -/
def npNeg (A : NdArr) : NdArr := ⟨A.shape, fun l => -A.val l⟩

/-- geometry.py:701-737 `inv_3d_blockmatrix`. -/
noncomputable def invBlock3d (A : NdArr) : Res NdArr :=
  match A.shape with
  | [d0, d1, d2] =>
    if d1 % 2 ≠ 0 ∨ d1 ≠ d2 then .error .valueError
    else do
      let n := d1 / 2
      let A11 := A.sub3 d0 0 n 0 n
      let A12 := A.sub3 d0 0 n n n
      let A21 := A.sub3 d0 n n 0 n
      let A22 := A.sub3 d0 n n n n
      let iA11 ← inv3d A11
      let schur ← npSub3 A22 (← dot3d (← dot3d A21 iA11) A12)
      let ischur ← inv3d schur
      let fak1 ← dot3d A21 iA11
      let fak2 ← dot3d iA11 A12
      let i11 ← npAdd3 iA11 (← dot3d (← dot3d fak2 ischur) fak1)
      let i12 := npNeg (← dot3d fak2 ischur)
      let i21 := npNeg (← dot3d ischur fak1)
      npAppend1 (← npAppend2 i11 i12) (← npAppend2 i21 ischur)
  | _ => .error .valueError

/-- geometry.py:832-845 `matrix_append([A,B,C,D])`. -/
def matrixAppend (A B C D : NdArr) : Res NdArr :=
  if A.shape = B.shape ∧ B.shape = C.shape ∧ C.shape = D.shape then do
    let z1 ← npAppend2 A B
    let z2 ← npAppend2 C D
    npAppend1 z1 z2
  else .error .assertionError

/-- `np.linalg.slogdet(M)[1]` for one square matrix: `ln|det M|`, and `-inf` for a singular one. -/
noncomputable def slogdet1 {n : ℕ} (M : Matrix (Fin n) (Fin n) ℝ) : EReal :=
  if M.det = 0 then ⊥ else (Real.log |M.det| : ℝ)

/-- `np.linalg.slogdet(balance(1 - M, conv))[1]` for one matrix, with loop fuel. -/
noncomputable def slogdetBalanced {n : ℕ} (fuel : ℕ) (conv : ℝ) (M : Matrix (Fin n) (Fin n) ℝ) :
    Option EReal :=
  (balance fuel conv (1 - M)).map slogdet1

/-- geometry.py:740-758 `sln_det_3d`.  The outer `Option` is the loop fuel of `balance`. -/
noncomputable def slnDet3d (fuel : ℕ) (conv : ℝ) (A B C D : NdArr) : Option (Res (List EReal)) :=
  if ¬ (A.shape = B.shape ∧ B.shape = C.shape ∧ C.shape = D.shape) then some (.error .valueError)
  else match matrixAppend A B C D with
    | .error e => some (.error e)
    | .ok M =>
      match M.shape with
      | [d0, d1, d2] =>
        if d1 ≠ d2 then some (.error .valueError)
        else ((List.range d0).mapM fun i => slogdetBalanced fuel conv (M.slice d1 d1 i)).map .ok
      | _ => some (.error .axisError)

/-- geometry.py:783-794 `balanced_slogdet`.  With no slices numpy's `slogdet` receives a
one-dimensional array and raises `LinAlgError`. -/
noncomputable def balancedSlogdet (fuel : ℕ) (conv : ℝ) (A : NdArr) : Option (Res (List EReal)) :=
  match A.shape with
  | [d0, d1, d2] =>
    if d1 ≠ d2 then some (.error .assertionError)
    else if d0 = 0 then some (.error .linAlgError)
    else ((List.range d0).mapM fun i => slogdetBalanced fuel conv (A.slice d1 d1 i)).map .ok
  | _ => some (.error .assertionError)

/-- `np.log` of a scalar: `none` stands for NaN, `⊥` for `-inf`. -/
noncomputable def npLog (x : ℝ) : Option EReal :=
  if x < 0 then none else if x = 0 then some ⊥ else some (Real.log x : ℝ)

/-- geometry.py:761-770 `sln_det_blockdiagonal(A, B, conv)` for square arguments.
Outer `Option`: loop fuel.  Inner `Option`: NaN. -/
noncomputable def slnDetBlockdiagonal {n m : ℕ} (fuel : ℕ) (conv : ℝ)
    (A : Matrix (Fin n) (Fin n) ℝ) (B : Matrix (Fin m) (Fin m) ℝ) :
    Option (Res (Option EReal)) :=
  if n ≠ m then some (.error .valueError)
  else if h : n = 1 ∧ m = 1 then
    some (.ok (npLog ((1 - A ⟨0, by omega⟩ ⟨0, by omega⟩) * (1 - B ⟨0, by omega⟩ ⟨0, by omega⟩))))
  else
    (slogdetBalanced fuel conv B).bind fun b =>
    (slogdetBalanced fuel conv A).map fun a => .ok (some (b + a))

/-- geometry.py:772-781 `trace_dot_3d`.  Simplification: a last axis of length one, which numpy would
broadcast against the identity, is treated like every other non-square shape (ValueError). -/
noncomputable def traceDot3d (m1 m2 : NdArr) : Res (List ℝ) :=
  match m1.shape with
  | [d0, d1, d2] =>
    if d1 ≠ d2 then .error .valueError
    else do
      let inv ← invBlock3d (NdArr.mk3 d0 d1 d1 fun i a b =>
        (if a = b then 1 else 0) - m1.val [i, a, b])
      if m2.shape = [d0, d1, d1] then
        .ok ((List.range d0).map fun i =>
          ∑ j : Fin d1, ∑ k : Fin d1, inv.val [i, j.1, k.1] * m2.val [i, k.1, j.1])
      else .error .valueError
  | _ => .error .valueError

end CasSph
