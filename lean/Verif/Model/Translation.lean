import Verif.Model.Gaunt
import Verif.Model.Blocks
import Verif.Model.Bessel

/-!
# Model of CasimirRio/translation.py

One wavenumber at a time (axis 0 is a spectator).  `nL` stands for `k*L*sqrt(epsilon(k))` and
`bes` for the row of `self.bessels` belonging to that wavenumber, i.e. of
`trans_bessels(nL, lmax+lssmax+1, ext_flag)`.  `ext_flag` is a Boolean (the documented values 0 and 1).
-/

namespace CasSph

/-- `np.arange(a, b, 2)` for natural numbers. -/
def arange2 (a b : ℕ) : List ℕ := (List.range ((b - a + 1) / 2)).map fun i : ℕ => a + 2 * i

/-- translation.py:181-182, the array `lpp`. -/
def lppArr (l1 l2 : ℕ) : List ℕ := arange2 ((l1 : ℤ) - l2).natAbs (l1 + l2 + 1)

/-- translation.py:67-84 `get_scaled_bessels`: `exp(bessels[lpp] - norm)` and `norm`; the norm is the last
entry outside and the first one inside.  An index beyond the table (or an empty `lpp`) is an IndexError. -/
noncomputable def scaledBessels (ext : Bool) (bes : List ℝ) (lpp : List ℕ) : Res (List ℝ × ℝ) := do
  let sphB ← lpp.mapM (cget bes)
  let norm ← cget sphB (if ext then sphB.length - 1 else 0)
  .ok (sphB.map fun b => Real.exp (b - norm), norm)

/-- translation.py:86-113 `trans_k0_int`, one entry: sign and logarithm.  `lg`/`ls` are the larger and the
smaller of `l1, l2`. -/
noncomputable def transK0Int (m : ℤ) (l1 l2 : ℕ) : ℝ × ℝ :=
  let lg : ℝ := if l2 > l1 then l2 else l1
  let ls : ℝ := if l2 > l1 then l1 else l2
  let lfac : ℝ → ℝ := fun x => lgam (x + 1)
  let ln2dbl : ℝ → ℝ := fun x => lgam (2 * x + 1) - x * Real.log 2 - lgam (x + 1)
  let ln1 := 0.5 * (lfac (lg + m) + lfac (lg - m) + Real.log (2 * lg + 1) + Real.log (2 * ls + 1) +
    Real.log (ls * (lg + 1)) - lfac (ls + m) - lfac (ls - m) - Real.log (lg * (ls + 1)))
  let ln2 := lfac (2 * (lg - ls) + 1) + lfac (2 * ls) + lfac lg - ln2dbl (lg - ls + 1) - lfac (2 * lg + 1) -
    2 * lfac (lg - ls) - lfac ls
  (1, ln1 + ln2)

/-- translation.py:116-132 `trans_k0_ext`, one entry: sign and logarithm. -/
noncomputable def transK0Ext (m : ℤ) (l1 l2 : ℕ) : ℝ × ℝ :=
  let a : ℝ := l1
  let b : ℝ := l2
  let lfac : ℝ → ℝ := fun x => lgam (x + 1)
  let ln2dbl : ℝ → ℝ := fun x => lgam (2 * x + 1) - x * Real.log 2 - lgam (x + 1)
  let z1 := 0.5 * (Real.log (2 * a + 1) + Real.log (2 * b + 1) - (Real.log (a * (a + 1)) + Real.log (b * (b + 1)))) +
    Real.log (2 * a + 2 * b + 1) + Real.log a + Real.log b
  let z2 := 2 * lfac (a + b) + lfac (2 * b) + lfac (2 * a) + ln2dbl (a + b)
  let n := 0.5 * (lfac (a - m) + lfac (b - m) + lfac (a + m) + lfac (b + m)) + lfac (2 * a + 2 * b + 1) +
    lfac a + lfac b
  ((-1) ^ m, z1 + z2 - n)

/-- The five numbers returned by `get_vl1l2` for one wavenumber. -/
structure VCoef where
  EEab : ℝ
  EEba : ℝ
  EMab : ℝ
  EMba : ℝ
  sk : ℝ

/-- translation.py:188-194, factor of the entry `lpp` of `common_ab` that multiplies `sphB * gaunt`. -/
noncomputable def commonFac (ext : Bool) (m : ℤ) (l1 l2 : ℕ) (lpp : ℕ) : ℝ :=
  let e : ℤ := if ext then 1 else 0
  let l1p : ℝ := l1 * (l1 + 1)
  let l2p : ℝ := l2 * (l2 + 1)
  (-1) ^ ((lpp : ℤ) - ((lpp : ℤ) - 1) * e) * (-1) ^ m * Real.sqrt Real.pi *
    Real.sqrt ((2 * lpp + 1) / (l1p * l2p)) * (2 / Real.pi) ^ e

/-- translation.py:172-200 `get_vl1l2(l1, l2)`.  Arrays of different length are a ValueError
(numpy's broadcasting of length-one arrays does not matter here: both arrays have `min(l1,l2)+1` entries). -/
noncomputable def getVl1l2 (ext : Bool) (m : ℤ) (nL : ℝ) (bes : List ℝ) (l1 l2 : ℕ) : Res VCoef := do
  let lpp := lppArr l1 l2
  let g ← gaunt l1 l2 m
  let sb ← scaledBessels ext bes lpp
  if g.length ≠ lpp.length then .error .valueError
  else
    let sphBgnt := List.zipWith (· * ·) sb.1 g
    let q : List (ℕ × ℝ) := List.zipWith (fun p s => (p, s * commonFac ext m l1 l2 p)) lpp sphBgnt
    let l1p : ℝ := l1 * (l1 + 1)
    let l2p : ℝ := l2 * (l2 + 1)
    let vEE : ℕ × ℝ → ℝ := fun c => (l1p + l2p - c.1 * (c.1 + 1)) * c.2
    let vEM : ℕ × ℝ → ℝ := fun c => 2 * m * nL * c.2
    .ok { EEab := (q.map vEE).sum
          EEba := (q.map fun c => vEE c * (-1) ^ c.1).sum
          EMab := (q.map vEM).sum
          EMba := (q.map fun c => -vEM c * (-1) ^ c.1).sum
          sk := sb.2 }

/-- Filling an array entry by entry; the first exception ends the loop. -/
def finM {α : Type} : {n : ℕ} → (Fin n → Res α) → Res (Fin n → α)
  | 0, _ => .ok Fin.elim0
  | _ + 1, f => do
    let a ← f 0
    let r ← finM fun i => f i.succ
    .ok (Fin.cons a r)

/-- translation.py:40 `self.lmin = max(1, m)`. -/
def transLmin (m : ℤ) : ℕ := (max 1 m).toNat

/-- translation.py:134-169 `trans_ab` for one non-zero wavenumber: rows `l1 = lmin..lmax`, columns
`l2 = lmin..lssmax`. -/
noncomputable def transAb (lmax lssmax : ℕ) (m : ℤ) (ext : Bool) (nL : ℝ) (bes : List ℝ) :
    Res (Fin (lmax + 1 - transLmin m) → Fin (lssmax + 1 - transLmin m) → VCoef) :=
  finM fun i => finM fun j => getVl1l2 ext m nL bes (transLmin m + i.1) (transLmin m + j.1)

/-- translation.py:36-57: a truthy `forceFlag` makes the constructor read the attribute `get_vl1l2_force`,
which the class does not define; it fails after the Bessel functions have been computed.  For one
wavenumber `k ≠ 0` and a medium with square root of permittivity `n`. -/
noncomputable def transInit (lmax lssmax : ℕ) (ext : Bool) (nL : ℝ) (forceFlag : Bool) : Res (List ℝ) :=
  match transBessels [nL] (.int (lmax + lssmax + 1)) (if ext then 1 else 0) with
  | .error e => .error e
  | .ok rows => if forceFlag then .error .attributeError else .ok (rows.headD [])

/-- Mie coefficients of one sphere at one wavenumber by angular momentum: the entries `l ≥ 1` of the three
arrays returned by `scattering.mie` etc. -/
structure MieCoef where
  TE : ℕ → ℝ
  TM : ℕ → ℝ
  ln : ℕ → ℝ

/-- geometry.py:91-169 `roundTrip_elements(m, k)` for one wavenumber and forceFlag = 0: the Mie coefficients from
`lmin` on together with the output of `trans_ab`.  (The caching of the Mie coefficients, and the defect
that a first call with m > 1 returns them from l = 1 on, are the subject of `Model/Geometry`.) -/
noncomputable def roundTripElements (lmax lssmax : ℕ) (m : ℤ) (ext : Bool) (nL : ℝ) (bes : List ℝ) (a b : MieCoef) :
    Res (RTElems (lmax + 1 - transLmin m) (lssmax + 1 - transLmin m)) := do
  let V ← transAb lmax lssmax m ext nL bes
  .ok { aTE := fun i => a.TE (transLmin m + i.1)
        aTM := fun i => a.TM (transLmin m + i.1)
        a2 := fun i => a.ln (transLmin m + i.1)
        bTE := fun j => b.TE (transLmin m + j.1)
        bTM := fun j => b.TM (transLmin m + j.1)
        b2 := fun j => b.ln (transLmin m + j.1)
        V0 := fun i j => (V i j).EEab
        V1 := fun i j => (V i j).EEba
        V2 := fun i j => (V i j).EMab
        V3 := fun i j => (V i j).EMba
        V4 := fun i j => (V i j).sk }

/-- `roundTrip_elements` followed by `blockmatrices` (geometry.py:91-169, 282-331), one non-zero wavenumber. -/
noncomputable def blockmatricesAt (lmax lssmax : ℕ) (m : ℤ) (ext : Bool) (nL : ℝ) (bes : List ℝ) (a b : MieCoef) :
    Res (Blocks (lmax + 1 - transLmin m)) := do
  let e ← roundTripElements lmax lssmax m ext nL bes a b
  blockmatrices e

/-- geometry.py:171-220 `roundTrip_elements_k0(m, [0])` followed by geometry.py:253-280 `blockmatrices_k0_ext`: the
zero-frequency Mie coefficients `a, b` from `lmin` on together with `trans_k0_ext`.  (The cache of the Mie coefficients
is the subject of `Model/Geometry`.) -/
noncomputable def blockmatricesK0At (lmax lssmax : ℕ) (m : ℤ) (r1 r2 L : ℝ) (a b : MieCoef) :
    Res (Matrix (Fin (lmax + 1 - transLmin m)) (Fin (lmax + 1 - transLmin m)) ℝ ×
      Matrix (Fin (lmax + 1 - transLmin m)) (Fin (lmax + 1 - transLmin m)) ℝ) :=
  blockmatricesK0Ext (n := lmax + 1 - transLmin m) (p := lssmax + 1 - transLmin m) r1 r2 L
    { lmin := transLmin m
      aTE := fun i => a.TE (transLmin m + i.1)
      aTM := fun i => a.TM (transLmin m + i.1)
      aLn := fun i => a.ln (transLmin m + i.1)
      bTE := fun j => b.TE (transLmin m + j.1)
      bTM := fun j => b.TM (transLmin m + j.1)
      bLn := fun j => b.ln (transLmin m + j.1)
      vSgn := fun i j => (transK0Ext m (transLmin m + i.1) (transLmin m + j.1)).1
      vLn := fun i j => (transK0Ext m (transLmin m + i.1) (transLmin m + j.1)).2 }

end CasSph
