import Verif.Model.Py
import Mathlib.Analysis.SpecialFunctions.Log.Basic
import Mathlib.Analysis.Real.Pi.Bounds

/-!
# Model of CasimirRio/bessel_sk.py

Arrays `x` are lists of reals, two-dimensional arrays lists of rows (one row per element of `x`).
Simplifications: double precision numbers are real numbers; the logarithm of a non-positive number
(NaN in numpy) is the total function `Real.log`, so theorems assume positive arguments.
-/

namespace CasSph

open Classical

/-- The argument `lmax` of `lnknu`/`lniknu`: an `int`/`np.int64`, or an object of any other type
(`bessel_sk.py:13-14`, `62-63`). -/
inductive LArg where
  | int (n : ℤ)
  | other

/-- bessel_sk.py:16-26, the entry `lnk[i, l]` for the element `x` (all operations are elementwise in `x`). -/
noncomputable def lnk1 (x : ℝ) : ℕ → ℝ
  | 0 => Real.log (Real.pi * 0.5) - Real.log x - x
  | 1 => Real.log (Real.pi * 0.5) - 2 * Real.log x - x + Real.log (x + 1)
  | l + 2 => lnk1 x (l + 1) + Real.log (Real.exp (lnk1 x l - lnk1 x (l + 1)) + (2 * ((l + 2 : ℕ) : ℝ) - 1) / x)

/-- bessel_sk.py:9-27 `lnknu`.  `np.empty` rejects a negative dimension (ValueError); for `lmax = -1` the
assignment to column 0 is an IndexError. -/
noncomputable def lnknu (xs : List ℝ) : LArg → Res (List (List ℝ))
  | .other => .error .typeError
  | .int n =>
    if n < -1 then .error .valueError
    else if n = -1 then .error .indexError
    else .ok (xs.map fun x => (List.range (n.toNat + 1)).map (lnk1 x))

/-- bessel_sk.py:29-40 `fraction`, for one row.  (The empty row cannot occur; numpy would raise.) -/
noncomputable def fraction : List ℝ → ℝ
  | [] => 0
  | [a] => a
  | a :: b :: t => a + 1 / fraction (b :: t)

/-- bessel_sk.py:48-50: number of terms, chosen by the last element of the array. -/
noncomputable def fnuTerms (xlast : ℝ) : ℕ := if xlast > 100 then 140 else 80

/-- bessel_sk.py:51-54 for one element `x` and `N` terms: `an = 2*(nu+n)/x`, `n = 1..N`. -/
noncomputable def fnu1 (N : ℕ) (x nu : ℝ) : ℝ :=
  fraction ((List.range' 1 N).map fun n : ℕ => 2 * (nu + n) / x)

/-- bessel_sk.py:42-54 `fnu`; `x[-1]` of an empty array is an IndexError. -/
noncomputable def fnu (xs : List ℝ) (nu : ℝ) : Res (List ℝ) :=
  match xs.getLast? with
  | none => .error .indexError
  | some xl => .ok (xs.map fun x => fnu1 (fnuTerms xl) x nu)

/-- bessel_sk.py:133-139 `i_fraction`. -/
noncomputable def iFraction (xs : List ℝ) (nus : List ℝ) : Res (List (List ℝ)) :=
  nus.mapM (fnu xs)

/-- bessel_sk.py:70 -/
noncomputable def i0smLong (x : ℝ) : ℝ := x ^ 2 / 6 - x ^ 4 / 180 + x ^ 6 / 2835
/-- bessel_sk.py:71, 78 -/
noncomputable def i0lg (x : ℝ) : ℝ := -Real.log (2 * x) + Real.log (1 - Real.exp (-2 * x)) + x
/-- bessel_sk.py:72 -/
noncomputable def i1smLong (x : ℝ) : ℝ := -Real.log 3 + Real.log x + 0.1 * x ^ 2 - x ^ 4 / 700
/-- bessel_sk.py:73, 79 -/
noncomputable def i1lg (x : ℝ) : ℝ :=
  -Real.log (2 * x) - Real.log x + x + Real.log (Real.exp (-2 * x) * (x + 1) + x - 1)
/-- bessel_sk.py:82 -/
noncomputable def i0smShort (x : ℝ) : ℝ := x ^ 2 / 6 - x ^ 4 / 180
/-- bessel_sk.py:83 -/
noncomputable def i1smShort (x : ℝ) : ℝ := -Real.log 3 + Real.log x + 0.1 * x ^ 2

/-- bessel_sk.py:65-84: the columns `i0`, `i1`.  The boolean masks select the small and the large
arguments; the results are concatenated, small ones first (not scattered back). -/
noncomputable def i01 (xs : List ℝ) : List ℝ × List ℝ :=
  let xsm := xs.filter (fun x => decide (x < 1e-3))
  let xlg := xs.filter (fun x => decide (x ≥ 1e-3))
  if xsm.length ≠ 0 ∧ xlg.length ≠ 0 then
    (xsm.map i0smLong ++ xlg.map i0lg, xsm.map i1smLong ++ xlg.map i1lg)
  else if xlg.length = 0 then (xsm.map i0smShort, xsm.map i1smShort)
  else (xlg.map i0lg, xlg.map i1lg)

/-- bessel_sk.py:94-96, order `l ≥ 2`, `N` terms of the continued fraction. -/
noncomputable def iHigh (N : ℕ) (x : ℝ) (l : ℕ) : ℝ :=
  Real.log (Real.pi / (2 * x ^ 2)) - lnk1 x (l + 1) -
    Real.log (Real.exp (lnk1 x l - lnk1 x (l + 1)) / fnu1 N x (l + 0.5) + 1)

/-- One row of `lni`: orders 0 and 1 from the columns `i0, i1`, the others from the Wronskian. -/
noncomputable def lniRow (N n : ℕ) (x a b : ℝ) : List ℝ :=
  (List.range (n + 1)).map fun l => match l with
    | 0 => a
    | 1 => b
    | l + 2 => iHigh N x (l + 2)

/-- bessel_sk.py:58-97 `lniknu`: the pair `(lni, lnk)`.  For `lmax ≥ 2` an empty array is an IndexError
(from `fnu`). -/
noncomputable def lniknu (xs : List ℝ) (lmax : LArg) : Res (List (List ℝ) × List (List ℝ)) :=
  match lmax with
  | .other => .error .typeError
  | .int n =>
    if n < -1 then .error .valueError
    else if n = -1 then .error .indexError
    else
      match lnknu xs (.int (n + 1)) with
      | .error e => .error e
      | .ok lnk =>
        let i := i01 xs
        if n ≤ 1 then
          .ok (xs.zipWith (fun x ab => lniRow 0 n.toNat x ab.1 ab.2) (i.1.zip i.2),
            lnk.map fun r => r.take (n.toNat + 1))
        else
          match xs.getLast? with
          | none => .error .indexError
          | some xl =>
            .ok (xs.zipWith (fun x ab => lniRow (fnuTerms xl) n.toNat x ab.1 ab.2) (i.1.zip i.2),
              lnk.map List.dropLast)

/-- numpy slice `r[:, a::]`, for one row; a negative start counts from the end. -/
def pyFrom {α : Type} (a : ℤ) (r : List α) : List α :=
  if 0 ≤ a then r.drop a.toNat else r.drop (r.length + a).toNat

/-- bessel_sk.py:101-115 `mie_bessels` for an integer `lmax`. -/
noncomputable def mieBessels (kr : List ℝ) (lmin lmax : ℤ) : Res (List (List ℝ) × List (List ℝ)) :=
  if lmin > lmax then .error .valueError
  else match lniknu kr (.int lmax) with
    | .error e => .error e
    | .ok (li, lk) => .ok (li.map (pyFrom lmin), lk.map (pyFrom lmin))

/-- bessel_sk.py:118-131 `trans_bessels`. -/
noncomputable def transBessels (kr : List ℝ) (lmax : LArg) (extFlag : ℤ) : Res (List (List ℝ)) :=
  if extFlag ≠ 0 then lnknu kr lmax
  else match lniknu kr lmax with
    | .error e => .error e
    | .ok (li, _) => .ok li

end CasSph
