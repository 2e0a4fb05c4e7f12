import Verif.Model.Py
import Mathlib.Analysis.SpecialFunctions.Exp
import Mathlib.Analysis.SpecialFunctions.Log.Basic
import Mathlib.LinearAlgebra.Matrix.Defs
import Mathlib.Data.List.MinMax

/-!
# Model of scaling and block assembly, `CasimirRio/geometry.py`

One wavenumber at a time (the code treats axis 0 as a spectator).  `n` is the number of `l` values
of sphere A (`lmax - lmin + 1`), `p` the number of intermediate `l` values (`lssmax - lmin + 1`).
-/

namespace CasSph

open scoped Classical

/-- `v.argmax()` of a one-dimensional array: first index of a maximal element; `none` (numpy:
ValueError) for an empty array. -/
noncomputable def npArgmax {n : ℕ} (v : Fin n → ℝ) : Option (Fin n) := (List.finRange n).argmax v

/-- geometry.py:796-817 `single_k_scale`, the slope `a` of the added matrix `K = a * (l1 - l2)`;
here for more than one row.  `order` is the position of the maximum of the upper right corner. -/
noncomputable def scaleSlope {n p : ℕ} (X : Fin (n + 2) → Fin (n + 2) → Fin p → ℝ) : Res ℝ :=
  match npArgmax (X 0 (Fin.last (n + 1))) with
  | none => .error .valueError
  | some order =>
    let A := X 0 0 order
    let B := X 0 (Fin.last (n + 1)) order
    let C := X (Fin.last (n + 1)) 0 order
    let fak : ℝ := 1 / ((n : ℝ) + 1)
    let a := |A - max B C| * fak
    .ok (if C > B then -a else a)

/-- geometry.py:796-817 `single_k_scale(M)` for an `n × n × p` tensor: unchanged for `n = 1`,
IndexError for `n = 0` (`M[0,-1,:]`), otherwise `K + M` with `K = ±a (l1 - l2)`. -/
noncomputable def singleKScale : {n p : ℕ} → (Fin n → Fin n → Fin p → ℝ) →
    Res (Fin n → Fin n → Fin p → ℝ)
  | 0, _, _ => .error .indexError
  | 1, _, X => .ok X
  | _ + 2, _, X => do
    let a ← scaleSlope X
    .ok fun l1 l2 s => a * ((l1.1 + 1 : ℝ) - (l2.1 + 1)) + X l1 l2 s

/-- geometry.py:820-830 `dynamic_scaling`, one slice of axis 0. -/
noncomputable def dynamicScaling {n p : ℕ} (X : Fin n → Fin n → Fin p → ℝ) :
    Res (Fin n → Fin n → Fin p → ℝ) :=
  (singleKScale X).map fun Y l1 l2 s => Real.exp (Y l1 l2 s)

/-- The Mie and translation coefficients entering `blockmatrices` at one wavenumber, as returned by
`roundTrip_elements` (geometry.py:84-169): scaled amplitudes and logarithmic scales. -/
structure RTElems (n p : ℕ) where
  aTE : Fin n → ℝ
  aTM : Fin n → ℝ
  a2 : Fin n → ℝ
  bTE : Fin p → ℝ
  bTM : Fin p → ℝ
  b2 : Fin p → ℝ
  V0 : Fin n → Fin p → ℝ
  V1 : Fin n → Fin p → ℝ
  V2 : Fin n → Fin p → ℝ
  V3 : Fin n → Fin p → ℝ
  V4 : Fin n → Fin p → ℝ

variable {n p : ℕ}

/-- geometry.py:301 `log_skalierung = a2+b2+V4+V4t`. -/
def RTElems.logSkal (e : RTElems n p) : Fin n → Fin n → Fin p → ℝ :=
  fun l1 l2 s => e.a2 l1 + e.b2 s + e.V4 l1 s + e.V4 l2 s

/-- geometry.py:314-315, summand of `mEE` without `skal` (force factors are 1 for forceFlag = 0). -/
def RTElems.cEE (e : RTElems n p) (l1 l2 : Fin n) (s : Fin p) : ℝ :=
  e.aTE l1 * (e.V0 l1 s * e.bTE s * e.V1 l2 s + e.V2 l1 s * e.bTM s * e.V3 l2 s)

/-- geometry.py:316-317, summand of `mEM`. -/
def RTElems.cEM (e : RTElems n p) (l1 l2 : Fin n) (s : Fin p) : ℝ :=
  e.aTE l1 * (e.V0 l1 s * e.bTE s * e.V3 l2 s + e.V2 l1 s * e.bTM s * e.V1 l2 s)

/-- geometry.py:318-319, summand of `mME`. -/
def RTElems.cME (e : RTElems n p) (l1 l2 : Fin n) (s : Fin p) : ℝ :=
  e.aTM l1 * (e.V2 l1 s * e.bTE s * e.V1 l2 s + e.V0 l1 s * e.bTM s * e.V3 l2 s)

/-- geometry.py:320-321, summand of `mMM`. -/
def RTElems.cMM (e : RTElems n p) (l1 l2 : Fin n) (s : Fin p) : ℝ :=
  e.aTM l1 * (e.V2 l1 s * e.bTE s * e.V3 l2 s + e.V0 l1 s * e.bTM s * e.V1 l2 s)

/-- Sum over the intermediate angular momentum (`.sum(axis=3)`). -/
def sumSs (skal c : Fin n → Fin n → Fin p → ℝ) : Matrix (Fin n) (Fin n) ℝ :=
  fun l1 l2 => ∑ s, skal l1 l2 s * c l1 l2 s

/-- The four polarisation blocks `[mEE, mEM, mME, mMM]`. -/
structure Blocks (n : ℕ) where
  EE : Matrix (Fin n) (Fin n) ℝ
  EM : Matrix (Fin n) (Fin n) ℝ
  ME : Matrix (Fin n) (Fin n) ℝ
  MM : Matrix (Fin n) (Fin n) ℝ

/-- geometry.py:282-331 `blockmatrices` for one non-zero wavenumber and forceFlag = 0. -/
noncomputable def blockmatrices (e : RTElems n p) : Res (Blocks n) := do
  let skal ← dynamicScaling e.logSkal
  .ok { EE := sumSs skal e.cEE, EM := sumSs skal e.cEM,
        ME := sumSs skal e.cME, MM := sumSs skal e.cMM }

/-- geometry.py:333-389 `blockmatrices_channels`, one non-zero wavenumber, forceFlag = 0:
`[mEE1, mEE2, mMM1, mMM2, mEM1, mEM2, mME1, mME2]`. -/
noncomputable def blockmatricesChannels (e : RTElems n p) :
    Res (List (Matrix (Fin n) (Fin n) ℝ)) := do
  let skal ← dynamicScaling e.logSkal
  .ok [sumSs skal (fun l1 l2 s => e.aTE l1 * (e.V0 l1 s * e.bTE s * e.V1 l2 s)),
    sumSs skal (fun l1 l2 s => e.aTE l1 * (e.V2 l1 s * e.bTM s * e.V3 l2 s)),
    sumSs skal (fun l1 l2 s => e.aTM l1 * (e.V2 l1 s * e.bTE s * e.V3 l2 s)),
    sumSs skal (fun l1 l2 s => e.aTM l1 * (e.V0 l1 s * e.bTM s * e.V1 l2 s)),
    sumSs skal (fun l1 l2 s => e.aTE l1 * (e.V0 l1 s * e.bTE s * e.V3 l2 s)),
    sumSs skal (fun l1 l2 s => e.aTE l1 * (e.V2 l1 s * e.bTM s * e.V1 l2 s)),
    sumSs skal (fun l1 l2 s => e.aTM l1 * (e.V2 l1 s * e.bTE s * e.V1 l2 s)),
    sumSs skal (fun l1 l2 s => e.aTM l1 * (e.V0 l1 s * e.bTM s * e.V3 l2 s))]

/-- `np.sign`. -/
noncomputable def npSign (x : ℝ) : ℝ := if x < 0 then -1 else if x = 0 then 0 else 1

/-- geometry.py:421-424 etc., one block of `blockmatrices_debug`:
`(sign(c) * dynamic_scaling(log_skal + ln|c|)).sum(-1)` for non-vanishing summands `c`
(for `c = 0` numpy's logarithm is `-inf`; not modelled). -/
noncomputable def debugBlock (X c : Fin n → Fin n → Fin p → ℝ) : Res (Matrix (Fin n) (Fin n) ℝ) := do
  let skal ← dynamicScaling fun l1 l2 s => X l1 l2 s + Real.log |c l1 l2 s|
  .ok (sumSs skal fun l1 l2 s => npSign (c l1 l2 s))

/-- geometry.py:391-456 `blockmatrices_debug` for one non-zero wavenumber. -/
noncomputable def blockmatricesDebug (e : RTElems n p) : Res (Blocks n) := do
  let EE ← debugBlock e.logSkal e.cEE
  let EM ← debugBlock e.logSkal e.cEM
  let ME ← debugBlock e.logSkal e.cME
  let MM ← debugBlock e.logSkal e.cMM
  .ok { EE := EE, EM := EM, ME := ME, MM := MM }

/-- Coefficients entering the zero-frequency matrices (geometry.py:171-220): signed amplitudes of TE
and TM scattering at the two spheres with common logarithmic magnitudes, and the sign and logarithm
of the translation coefficient.  `lmin` is the first angular momentum. -/
structure K0Elems (n p : ℕ) where
  lmin : ℕ
  aTE : Fin n → ℝ
  aTM : Fin n → ℝ
  aLn : Fin n → ℝ
  bTE : Fin p → ℝ
  bTM : Fin p → ℝ
  bLn : Fin p → ℝ
  vSgn : Fin n → Fin p → ℝ
  vLn : Fin n → Fin p → ℝ

/-- geometry.py:273-279, the magnitudes in `blockmatrices_k0_ext`: `single_k_scale` is applied if there is more than one row; it is
the identity for one row.  Without rows (`m > lmax`) nothing is indexed and the array is empty. -/
noncomputable def k0Mag : {n p : ℕ} → (Fin n → Fin n → Fin p → ℝ) → Res (Fin n → Fin n → Fin p → ℝ)
  | 0, _, _ => .ok fun i => i.elim0
  | _ + 1, _, X => dynamicScaling X

/-- geometry.py:253-280 `blockmatrices_k0_ext`.  `lss` is a float array, so `(-1)**(lss-l2)` is a sign
also for `lss < l2`; it is written with an integer exponent here.  (`np.float` is assumed to exist,
i.e. numpy < 1.24.) -/
noncomputable def blockmatricesK0Ext (r1 r2 L : ℝ) (e : K0Elems n p) :
    Res (Matrix (Fin n) (Fin n) ℝ × Matrix (Fin n) (Fin n) ℝ) := do
  let l1f : Fin n → ℝ := fun a => (e.lmin + a.1 : ℝ)
  let lsf : Fin p → ℝ := fun s => (e.lmin + s.1 : ℝ)
  let sgn : Fin n → Fin p → ℝ := fun b s => (-1 : ℝ) ^ (((e.lmin + s.1 : ℕ) : ℤ) - ((e.lmin + b.1 : ℕ) : ℤ))
  let dist : Fin n → Fin n → Fin p → ℝ := fun a b s =>
    (l1f a + l1f b + 1) * Real.log (r1 / L) + (2 * lsf s + 1) * Real.log (r2 / L)
  let TM : Fin n → Fin n → Fin p → ℝ := fun a b s =>
    sgn b s * e.vSgn a s * e.vSgn b s * e.aTM a * e.bTM s
  let TE : Fin n → Fin n → Fin p → ℝ := fun a b s =>
    sgn b s * e.vSgn a s * e.vSgn b s * e.aTE a * e.bTE s
  let ln : Fin n → Fin n → Fin p → ℝ := fun a b s =>
    e.aLn a + e.bLn s + e.vLn a s + e.vLn b s + dist a b s
  let mag ← k0Mag ln
  .ok (sumSs mag TE, sumSs mag TM)

/-- geometry.py:222-251 `blockmatrices_k0_int`.  `np.float(lss-l1)` (the builtin `float`) is applied to
an integer array of shape `(n, 1, p)`, which is a TypeError unless the array has exactly one element.
Entries violating `lss >= l1 and lss >= l2` are zeroed after the scaling. -/
noncomputable def blockmatricesK0Int (r1 r2 L : ℝ) (e : K0Elems n p) :
    Res (Matrix (Fin n) (Fin n) ℝ × Matrix (Fin n) (Fin n) ℝ) := do
  if n * p ≠ 1 then .error .typeError
  else
    let l1f : Fin n → ℝ := fun a => (e.lmin + a.1 : ℝ)
    let lsf : Fin p → ℝ := fun s => (e.lmin + s.1 : ℝ)
    let sgn : Fin n → Fin p → ℝ := fun a s =>
      (-1 : ℝ) ^ (((e.lmin + s.1 : ℕ) : ℤ) - ((e.lmin + a.1 : ℕ) : ℤ))
    let dist : Fin n → Fin n → Fin p → ℝ := fun a b s =>
      Real.log (r1 / r2) + l1f a * Real.log (r1 / L) + 2 * lsf s * Real.log (L / r2) +
        l1f b * Real.log (r1 / L)
    let TM : Fin n → Fin n → Fin p → ℝ := fun a b s =>
      sgn a s * e.vSgn a s * e.vSgn b s * e.aTM a * e.bTM s
    let TE : Fin n → Fin n → Fin p → ℝ := fun a b s =>
      sgn a s * e.vSgn a s * e.vSgn b s * e.aTE a * e.bTE s
    let ln : Fin n → Fin n → Fin p → ℝ := fun a b s =>
      e.aLn a + e.bLn s + e.vLn b s + e.vLn a s + dist a b s
    let mag ← dynamicScaling ln
    let magC : Fin n → Fin n → Fin p → ℝ := fun a b s =>
      if a.1 ≤ s.1 ∧ b.1 ≤ s.1 then mag a b s else 0
    .ok (sumSs magC TE, sumSs magC TM)

end CasSph
