import Verif.Model.Bessel

/-!
# Model of `CasimirRio/bessel_sk.py` in rounded arithmetic

Every operation is a function that may return any number close to the exact result; how close, is a hypothesis of the
theorems (`Spec.FlFun.Laws`).  The order of the operations is that of the code.  Simplifications: no overflow, no underflow;
the integers `2*l-1`, `l+0.5` and `n` are exact (they are for orders below 2^52); the negation is exact.  As in
Model/Bessel, the arrays are treated element by element and `Nmax` is an argument.
-/

namespace CasSph

/-- The operations that bessel_sk.py applies to its arrays, as computed. -/
structure FlFun where
  /-- `np.pi` -/
  pi : ℝ
  add : ℝ → ℝ → ℝ
  sub : ℝ → ℝ → ℝ
  mul : ℝ → ℝ → ℝ
  div : ℝ → ℝ → ℝ
  /-- the literal `0.1` -/
  tenth : ℝ
  /-- `x**2`, `x**4`, `x**6` -/
  pow : ℝ → ℕ → ℝ
  /-- `np.log` -/
  log : ℝ → ℝ
  /-- `np.exp` -/
  exp : ℝ → ℝ

namespace FlFun

variable (A : FlFun)

/-- bessel_sk.py:16. -/
noncomputable def lnPih : ℝ := A.log (A.mul A.pi 0.5)

/-- bessel_sk.py:16-26, the computed entry `lnk[i, l]` for the element `x`. -/
noncomputable def lnk (x : ℝ) : ℕ → ℝ
  | 0 => A.sub (A.sub A.lnPih (A.log x)) x
  | 1 => A.add (A.sub (A.sub A.lnPih (A.mul 2 (A.log x))) x) (A.log (A.add x 1))
  | l + 2 => A.add (lnk x (l + 1))
      (A.log (A.add (A.exp (A.sub (lnk x l) (lnk x (l + 1)))) (A.div (2 * ((l + 2 : ℕ) : ℝ) - 1) x)))

/-- bessel_sk.py:29-40 `fraction`, for one row. -/
noncomputable def fraction : List ℝ → ℝ
  | [] => 0
  | [a] => a
  | a :: b :: t => A.add a (A.div 1 (fraction (b :: t)))

/-- bessel_sk.py:51-54, `N` terms of the continued fraction. -/
noncomputable def fnu (N : ℕ) (x nu : ℝ) : ℝ :=
  A.fraction ((List.range' 1 N).map fun n : ℕ => A.div (A.mul 2 (A.add nu n)) x)

/-- bessel_sk.py:71, 78. -/
noncomputable def i0lg (x : ℝ) : ℝ :=
  A.add (A.add (-A.log (A.mul 2 x)) (A.log (A.sub 1 (A.exp (A.mul (-2) x))))) x

/-- bessel_sk.py:73, 79. -/
noncomputable def i1lg (x : ℝ) : ℝ :=
  A.add (A.add (A.sub (-A.log (A.mul 2 x)) (A.log x)) x)
    (A.log (A.sub (A.add (A.mul (A.exp (A.mul (-2) x)) (A.add x 1)) x) 1))

/-- bessel_sk.py:93-96, order `l ≥ 2`. -/
noncomputable def iHigh (N : ℕ) (x : ℝ) (l : ℕ) : ℝ :=
  A.sub (A.sub (A.log (A.div A.pi (A.mul 2 (A.pow x 2)))) (A.lnk x (l + 1)))
    (A.log (A.add (A.div (A.exp (A.sub (A.lnk x l) (A.lnk x (l + 1)))) (A.fnu N x (l + 0.5))) 1))

/-- bessel_sk.py:70. -/
noncomputable def i0smLong (x : ℝ) : ℝ :=
  A.add (A.sub (A.div (A.pow x 2) 6) (A.div (A.pow x 4) 180)) (A.div (A.pow x 6) 2835)

/-- bessel_sk.py:72. -/
noncomputable def i1smLong (x : ℝ) : ℝ :=
  A.sub (A.add (A.add (-A.log 3) (A.log x)) (A.mul A.tenth (A.pow x 2))) (A.div (A.pow x 4) 700)

/-- bessel_sk.py:82. -/
noncomputable def i0smShort (x : ℝ) : ℝ := A.sub (A.div (A.pow x 2) 6) (A.div (A.pow x 4) 180)

/-- bessel_sk.py:83. -/
noncomputable def i1smShort (x : ℝ) : ℝ := A.add (A.add (-A.log 3) (A.log x)) (A.mul A.tenth (A.pow x 2))

open Classical in
/-- bessel_sk.py:65-84, the columns `i0`, `i1` (compare `CasSph.i01`). -/
noncomputable def i01 (xs : List ℝ) : List ℝ × List ℝ :=
  let xsm := xs.filter (fun x => decide (x < 1e-3))
  let xlg := xs.filter (fun x => decide (x ≥ 1e-3))
  if xsm.length ≠ 0 ∧ xlg.length ≠ 0 then
    (xsm.map A.i0smLong ++ xlg.map A.i0lg, xsm.map A.i1smLong ++ xlg.map A.i1lg)
  else if xlg.length = 0 then (xsm.map A.i0smShort, xsm.map A.i1smShort)
  else (xlg.map A.i0lg, xlg.map A.i1lg)

/-- One row of `lni` (compare `CasSph.lniRow`). -/
noncomputable def lniRow (N n : ℕ) (x a b : ℝ) : List ℝ :=
  (List.range (n + 1)).map fun l => match l with
    | 0 => a
    | 1 => b
    | l + 2 => A.iHigh N x (l + 2)

/-- bessel_sk.py:9-27 `lnknu` for an integer `lmax ≥ 0`. -/
noncomputable def lnknu (xs : List ℝ) (n : ℕ) : List (List ℝ) :=
  xs.map fun x => (List.range (n + 1)).map (A.lnk x)

/-- bessel_sk.py:58-97 `lniknu` for an integer `lmax ≥ 0`; an empty array is an IndexError for `lmax ≥ 2`. -/
noncomputable def lniknu (xs : List ℝ) (n : ℕ) : Res (List (List ℝ) × List (List ℝ)) :=
  let i := A.i01 xs
  if n ≤ 1 then
    .ok (xs.zipWith (fun x ab => A.lniRow 0 n x ab.1 ab.2) (i.1.zip i.2), (A.lnknu xs (n + 1)).map fun r => r.take (n + 1))
  else
    match xs.getLast? with
    | none => .error .indexError
    | some xl =>
      .ok (xs.zipWith (fun x ab => A.lniRow (fnuTerms xl) n x ab.1 ab.2) (i.1.zip i.2),
        (A.lnknu xs (n + 1)).map List.dropLast)

end FlFun

end CasSph
