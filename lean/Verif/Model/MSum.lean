import Verif.Model.Blocks
import Mathlib.LinearAlgebra.Matrix.Trace

/-!
# Model of the sums over the magnetic quantum number, `CasimirRio/geometry.py` lines 458-604

The contribution of one subspace `m` (block matrices and logarithm of the determinant, or the trace
expansion) is a parameter: `L m` is the array over the wavenumbers or the exception raised.
Contributions are finite real numbers here; `-inf` (an exactly singular `1-M`) is not modelled.
-/

namespace CasSph

open scoped Classical

/-- `np.abs(v)`. -/
def npAbs {n : ℕ} (v : Fin n → ℝ) : Fin n → ℝ := fun i => |v i|

/-- The loop `for m in range(1, lmax+1)` shared by geometry.py:466-472, 506-515 and 551-558: `todo`
iterations are left, the next subspace is `m`, `S` is the running sum.  `pre S` is the early return
before the next subspace is evaluated, `post S S'` the one after. -/
noncomputable def mLoop {n : ℕ} (pre : (Fin n → ℝ) → Prop) (post : (Fin n → ℝ) → (Fin n → ℝ) → Prop)
    (L : ℕ → Res (Fin n → ℝ)) : ℕ → ℕ → (Fin n → ℝ) → Res (Fin n → ℝ)
  | 0, _, S => .ok S
  | todo + 1, m, S =>
    if pre S then .ok S
    else do
      let l ← L m
      let S' : Fin n → ℝ := fun i => S i + 2 * l i
      if post S S' then .ok S' else mLoop pre post L todo (m + 1) S'

/-- geometry.py:463-473 `mSumme_k0`.  `vorher/lnDet` with a vanishing new value is `inf` or `nan`, both
of which compare as not smaller. -/
noncomputable def mSummeK0 (lmax : ℕ) (precision : ℝ) (L : ℕ → Res (Fin 1 → ℝ)) : Res (Fin 1 → ℝ) := do
  let S ← L 0
  mLoop (fun _ => False)
    (fun old new => new 0 ≠ 0 ∧ |(|old 0 / new 0|) - 1| < precision / 10) L lmax 1 S

/-- geometry.py:491-516 `mSumme` for wavenumbers without a leading zero.  (`argmax` of an empty array is
a ValueError, but then `matsubaras[0]` has already raised; here the conditions are simply false.) -/
noncomputable def mSummeNonzero {n : ℕ} (lmax : ℕ) (precision : ℝ) (L : ℕ → Res (Fin n → ℝ)) :
    Res (Fin n → ℝ) := do
  let S ← L 0
  mLoop (fun old => ∃ r, npArgmax (npAbs old) = some r ∧ old r = 0)
    (fun old new => ∃ r, npArgmax (npAbs old) = some r ∧ |(|new r / old r|) - 1| < precision / 10)
    L lmax 1 S

/-- geometry.py:491-516 `mSumme(matsubaras)` with the zero-frequency branch: a leading zero is evaluated
by `mSumme_k0` and prepended to the sum over the remaining wavenumbers, if there are any.
`L0` are the zero-frequency contributions, `L ks m` those at the wavenumbers `ks`. -/
noncomputable def mSumme (lmax : ℕ) (precision : ℝ) (L0 : ℕ → Res (Fin 1 → ℝ))
    (L : (ks : List ℝ) → ℕ → Res (Fin ks.length → ℝ)) : List ℝ → Res (List ℝ)
  | [] => .error .indexError
  | k :: rest =>
    if k = 0 then do
      let z ← mSummeK0 lmax precision L0
      match rest with
      | [] => .ok [z 0]
      | _ :: _ => do
        let r ← mSumme lmax precision L0 L rest
        .ok (z 0 :: r)
    else do
      let v ← mSummeNonzero lmax precision (L (k :: rest))
      .ok (List.ofFn v)

/-- geometry.py:547-559 `mSum_roundtrips`; `T m` are the values of `arbitrary_roundtrips`.  A vanishing
previous value gives `inf` or `nan`, which do not compare as smaller. -/
noncomputable def mSumRoundtrips {n : ℕ} (lmax : ℕ) (precision : ℝ) (T : ℕ → Res (Fin n → ℝ)) :
    Res (Fin n → ℝ) := do
  let S ← T 0
  mLoop (fun _ => False)
    (fun old new => ∃ r, npArgmax (npAbs new) = some r ∧ old r ≠ 0 ∧ |new r / old r| < precision)
    T lmax 1 S

/-- The float values that `abs(to_add/traceSum)` can take: a number, `inf` (x/0) or `nan` (0/0). -/
inductive AbsQuot where
  | num (x : ℝ)
  | inf
  | nan

/-- `abs(x/y)` in numpy. -/
noncomputable def absQuot (x y : ℝ) : AbsQuot :=
  if y ≠ 0 then .num |x / y| else if x ≠ 0 then .inf else .nan

/-- Float comparison `a > b`. -/
noncomputable def AbsQuot.gt : AbsQuot → AbsQuot → Bool
  | .num x, .num y => decide (x > y)
  | .inf, .num _ => true
  | _, _ => false

/-- The Python builtin `max` of a non-empty array: keeps the first element and replaces it by every
later one that compares greater. -/
noncomputable def pyMax (a : AbsQuot) : List AbsQuot → AbsQuot
  | [] => a
  | b :: l => pyMax (if b.gt a then b else a) l

/-- State of the automatic loop geometry.py:571-577: current power of the matrices, running sum, order
`n` of the next term, and `relchange`. -/
structure RTState (d N : ℕ) where
  pw : Fin d → Matrix (Fin N) (Fin N) ℝ
  sum : Fin d → ℝ
  n : ℕ
  rel : AbsQuot

/-- geometry.py:573-577, one pass of the loop body (`max` of an empty array: the caller excludes it). -/
noncomputable def rtStep {d N : ℕ} (M : Fin (d + 1) → Matrix (Fin N) (Fin N) ℝ)
    (s : RTState (d + 1) N) : RTState (d + 1) N :=
  let pw := fun i => M i * s.pw i
  let add : Fin (d + 1) → ℝ := fun i => (pw i).trace / s.n
  let sum := fun i => s.sum i + add i
  { pw := pw, sum := sum, n := s.n + 1,
    rel := pyMax (absQuot (add 0) (sum 0)) (List.ofFn fun i : Fin d => absQuot (add i.succ) (sum i.succ)) }

/-- geometry.py:561-580 `arbitrary_roundtrips(M, "automatic", m)` for at least one wavenumber: returned
array and the number stored in `roundTrip_dct[m]`; `none` if the loop is still running. -/
noncomputable def roundtripsAuto {d N : ℕ} (precision : ℝ)
    (M : Fin (d + 1) → Matrix (Fin N) (Fin N) ℝ) (fuel : ℕ) : Option ((Fin (d + 1) → ℝ) × ℕ) :=
  (whileLoop (fun s : RTState (d + 1) N => s.rel.gt (.num precision) = true) (fun s => some (rtStep M s))
    fuel { pw := M, sum := fun i => (M i).trace / 1, n := 2, rel := .num 1 }).map
    fun s => (fun i => -s.sum i, s.n)

/-- geometry.py:565-567, loop of the fixed order: `todo` passes left, next order `n`. -/
noncomputable def rtFixedGo {d N : ℕ} (M : Fin d → Matrix (Fin N) (Fin N) ℝ) :
    ℕ → ℕ → (Fin d → Matrix (Fin N) (Fin N) ℝ) → (Fin d → ℝ) → (Fin d → ℝ)
  | 0, _, _, S => S
  | todo + 1, n, P, S =>
    rtFixedGo M todo (n + 1) (fun i => M i * P i) (fun i => S i + (P i).trace / n)

/-- geometry.py:561-580 `arbitrary_roundtrips(M, order, m)` for an integer order: returned array and the
number stored in `roundTrip_dct[m]` (the loop variable, unbound if the loop body never ran). -/
noncomputable def roundtripsFixed {d N : ℕ} (M : Fin d → Matrix (Fin N) (Fin N) ℝ) (order : ℤ) :
    Res ((Fin d → ℝ) × ℤ) :=
  if order < 1 then .error .unboundLocalError
  else .ok (fun i => -(rtFixedGo M order.toNat 1 M (fun _ => 0) i), order)

end CasSph
