import Verif.Model.FloatSum

/-!
# Model of the zero-frequency contribution in rounded arithmetic

`mie_k0` (scattering.py), `trans_k0_ext` (translation.py), `blockmatrices_k0_ext` and `mSumme_k0` (geometry.py) for two
separate spheres.  As in Model/FloatBessel every operation may return any number close to the exact result; the order of the operations is that
of the code.  Simplifications: no overflow, no underflow; integers, signs and products with signs are exact; permittivity and
permeability are given (as the numbers returned by `epsilon` and `mu`); the logarithms of the determinants are parameters.
-/

namespace CasSph

open scoped Classical

/-- The operations of Model/FloatMie and `scipy.special.gammaln`. -/
structure FlZero extends FlMie where
  lgam : ℝ → ℝ

namespace FlZero

variable (A : FlZero) {n p : ℕ}

/-- helper_functions.py:10-15 `ln_2dbl`. -/
noncomputable def ln2dbl (x : ℝ) : ℝ := A.sub (A.sub (A.lgam (2 * x + 1)) (A.mul x (A.log 2))) (A.lgam (x + 1))

/-- helper_functions.py:17-21 `lfac`. -/
noncomputable def lfac (x : ℝ) : ℝ := A.lgam (x + 1)

/-- translation.py:116-132 `trans_k0_ext`, one entry: sign and logarithm. -/
noncomputable def transK0Ext (m : ℤ) (l1 l2 : ℕ) : ℝ × ℝ :=
  let a : ℝ := l1
  let b : ℝ := l2
  let z1 := A.add (A.add (A.add (A.mul 0.5 (A.sub (A.add (A.log (2 * a + 1)) (A.log (2 * b + 1)))
    (A.add (A.log (a * (a + 1))) (A.log (b * (b + 1)))))) (A.log (2 * a + 2 * b + 1))) (A.log a)) (A.log b)
  let z2 := A.add (A.add (A.add (A.mul 2 (A.lfac (a + b))) (A.lfac (2 * b))) (A.lfac (2 * a))) (A.ln2dbl (a + b))
  let n := A.add (A.add (A.add (A.mul 0.5 (A.add (A.add (A.add (A.lfac (a - m)) (A.lfac (b - m))) (A.lfac (a + m))) (A.lfac (b + m))))
    (A.lfac (2 * a + 2 * b + 1))) (A.lfac a)) (A.lfac b)
  ((-1) ^ m, A.sub (A.add z1 z2) n)

/-- scattering.py:28-86 `mie_k0(lmin, lmax, R)` for one `l`.  `frac w nu` stands for the computed `bessel_sk.i_fraction(w, nu)` (line 68). -/
noncomputable def mieK0 (frac : ℝ → ℝ → ℝ) (mat1 mat2 : Material) (l : ℕ) (R : ℝ) : Res Mie := do
  let muMd ← mat2.mu 0
  if ¬ mat2.sigmaFinite then .error .notImplementedError
  else
    let diel2 ← mat2.dielectric
    if ¬ diel2 then .error .notImplementedError
    else
      let epsMd ← mat2.epsilon 0
      let nMd := A.sqrt (A.mul epsMd muMd)
      let lnc := A.sub (-A.log (2 * l + 1)) (A.mul 2 (A.ln2dbl l))
      let sgn : ℝ := (-1) ^ l
      let bTM ← A.quot (l + 1) l
      match mat1.cls with
      | .pec => .ok ⟨sgn * 1, -sgn * bTM, lnc⟩
      | _ =>
        let muSp ← mat1.mu 0
        let wPR := match mat1.firstWp with
          | .ok w => A.div (A.mul w R) 2.998e14
          | .error _ => 0
        if ¬ mat1.sigmaFinite then
          let ft := A.add (-l) (A.mul wPR (frac wPR (l - 0.5)))
          let bTE ← A.quot (A.sub (A.mul muMd ft) (A.mul muSp (l + 1))) (A.add (A.mul muSp l) (A.mul muMd ft))
          .ok ⟨sgn * bTE, -sgn * bTM, lnc⟩
        else
          let bTE ← A.quot (A.mul (-(l + 1)) (A.sub muSp muMd)) (A.add (A.mul l (A.add muSp muMd)) muMd)
          let diel1 ← mat1.dielectric
          if diel1 then
            let epsSp ← mat1.epsilon 0
            let n0 := A.sqrt (A.mul muSp epsSp)
            let q ← A.quot (A.sub (A.mul muMd (A.pow n0 2)) (A.mul muSp (A.pow nMd 2)))
              (A.add (A.mul (A.mul l muMd) (A.pow n0 2)) (A.mul (A.mul (l + 1) muSp) (A.pow nMd 2)))
            .ok ⟨sgn * bTE, -sgn * A.mul (l + 1) q, lnc⟩
          else .ok ⟨sgn * bTE, -sgn * bTM, lnc⟩

/-- geometry.py:200-202, 207-208 `scattering(mat, mat3).mie_k0(1, n, r)`. -/
noncomputable def mieTableK0 (frac : ℝ → ℝ → ℝ) (mat md : Material) (n : ℕ) (r : ℝ) : Res MieCoef := do
  let c ← finM fun i : Fin n => A.mieK0 frac mat md (i.1 + 1) r
  .ok (tableOf c)

/-- geometry.py:266 `(l1+l2+1)*np.log(r1/L)+(2*lss+1)*np.log(r2/L)`. -/
noncomputable def distance (r1 r2 L : ℝ) (l1 l2 ls : ℕ) : ℝ :=
  A.add (A.mul (l1 + l2 + 1) (A.log (A.div r1 L))) (A.mul (2 * ls + 1) (A.log (A.div r2 L)))

/-- geometry.py:273-279, see `CasSph.k0Mag`. -/
noncomputable def k0Mag : {n p : ℕ} → (Fin n → Fin n → Fin p → ℝ) → Res (Fin n → Fin n → Fin p → ℝ)
  | 0, _, _ => .ok fun i => i.elim0
  | _ + 1, _, X => A.dynamicScaling X

/-- geometry.py:253-280 `blockmatrices_k0_ext`; `sum` is the summation over the last axis. -/
noncomputable def blockmatricesK0Ext (sum : (p : ℕ) → (Fin p → ℝ) → ℝ) (r1 r2 L : ℝ) (e : K0Elems n p) :
    Res (Matrix (Fin n) (Fin n) ℝ × Matrix (Fin n) (Fin n) ℝ) := do
  let sgn : Fin n → Fin p → ℝ := fun b s => (-1 : ℝ) ^ (((e.lmin + s.1 : ℕ) : ℤ) - ((e.lmin + b.1 : ℕ) : ℤ))
  let TM : Fin n → Fin n → Fin p → ℝ := fun a b s => A.mul (sgn b s * e.vSgn a s * e.vSgn b s * e.aTM a) (e.bTM s)
  let TE : Fin n → Fin n → Fin p → ℝ := fun a b s => A.mul (sgn b s * e.vSgn a s * e.vSgn b s * e.aTE a) (e.bTE s)
  let ln : Fin n → Fin n → Fin p → ℝ := fun a b s =>
    A.add (A.add (A.add (A.add (e.aLn a) (e.bLn s)) (e.vLn a s)) (e.vLn b s)) (A.distance r1 r2 L (e.lmin + a.1) (e.lmin + b.1) (e.lmin + s.1))
  let mag ← A.k0Mag ln
  .ok (fun i j => sum p fun s => A.mul (TE i j s) (mag i j s), fun i j => sum p fun s => A.mul (TM i j s) (mag i j s))

/-- geometry.py:171-220, 253-280: `roundTrip_elements_k0` followed by `blockmatrices_k0_ext`, see `CasSph.blockmatricesK0At`. -/
noncomputable def blockmatricesK0At (sum : (p : ℕ) → (Fin p → ℝ) → ℝ) (lmax lssmax : ℕ) (m : ℤ) (r1 r2 L : ℝ) (a b : MieCoef) :
    Res (Matrix (Fin (lmax + 1 - transLmin m)) (Fin (lmax + 1 - transLmin m)) ℝ ×
      Matrix (Fin (lmax + 1 - transLmin m)) (Fin (lmax + 1 - transLmin m)) ℝ) :=
  A.blockmatricesK0Ext (n := lmax + 1 - transLmin m) (p := lssmax + 1 - transLmin m) sum r1 r2 L
    { lmin := transLmin m
      aTE := fun i => a.TE (transLmin m + i.1)
      aTM := fun i => a.TM (transLmin m + i.1)
      aLn := fun i => a.ln (transLmin m + i.1)
      bTE := fun j => b.TE (transLmin m + j.1)
      bTM := fun j => b.TM (transLmin m + j.1)
      bLn := fun j => b.ln (transLmin m + j.1)
      vSgn := fun i j => (A.transK0Ext m (transLmin m + i.1) (transLmin m + j.1)).1
      vLn := fun i j => (A.transK0Ext m (transLmin m + i.1) (transLmin m + j.1)).2 }

/-- geometry.py:458-461 `single_m_k0(m)`: `ld n TE TM` is the computed `sln_det_blockdiagonal(TE, TM)`. -/
noncomputable def singleMK0 (sum : (p : ℕ) → (Fin p → ℝ) → ℝ) (ld : (n : ℕ) → Matrix (Fin n) (Fin n) ℝ → Matrix (Fin n) (Fin n) ℝ → ℝ)
    (lmax lssmax : ℕ) (m : ℤ) (r1 r2 L : ℝ) (a b : MieCoef) : Res ℝ := do
  let T ← A.blockmatricesK0At sum lmax lssmax m r1 r2 L a b
  .ok (ld _ T.1 T.2)

/-- geometry.py:463-473 `mSumme_k0()` for two separate homogeneous spheres. -/
noncomputable def pairK0 (sum : (p : ℕ) → (Fin p → ℝ) → ℝ) (ld : (n : ℕ) → Matrix (Fin n) (Fin n) ℝ → Matrix (Fin n) (Fin n) ℝ → ℝ)
    (frac : ℝ → ℝ → ℝ) (P : PairIn) : Res ℝ := do
  let a ← A.mieTableK0 frac P.mat1 P.mat3 P.lmax P.r1
  let b ← A.mieTableK0 frac P.mat2 P.mat3 P.lssmax P.r2
  let r ← A.toFlFun.mSummeK0 P.lmax P.precision fun m => do
    let x ← A.singleMK0 sum ld P.lmax P.lssmax m P.r1 P.r2 P.L a b
    .ok fun _ => x
  .ok (r 0)

/-- What `finiteT` sees of the pair of spheres. -/
noncomputable def pairGeo (sum : (p : ℕ) → (Fin p → ℝ) → ℝ) (ld : (n : ℕ) → Blocks n → ℝ)
    (ld0 : (n : ℕ) → Matrix (Fin n) (Fin n) ℝ → Matrix (Fin n) (Fin n) ℝ → ℝ) (frac : ℝ → ℝ → ℝ) (T : BesTable) (P : PairIn)
    (V : ℝ → (m : ℕ) → Fin (P.lmax + 1 - transLmin m) → Fin (P.lssmax + 1 - transLmin m) → VCoef) : Geo where
  trace := false
  blocks0 := fun _ => .ok ()
  vals := A.pairVals sum ld T P V
  k0 := A.pairK0 sum ld0 frac P

end FlZero

end CasSph
