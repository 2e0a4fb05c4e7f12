import Verif.Model.FloatPair
import Verif.Model.Thermo
import Verif.Model.MSum

/-!
# Model of the sums over `m` and over the Matsubara wavenumbers in rounded arithmetic

As in Model/FloatBessel: every operation is a function that may return any number close to the exact result.  The integers
and the literals `0.5` and `1e-10` are exact, as are comparisons and `np.abs`; `np.sum` adds up in some order (`sum`).  The logarithms of the
determinants are parameters.
-/

namespace CasSph

open scoped Classical

namespace FlFun

variable (A : FlFun)

/-- The loop of geometry.py:466-472, 506-515, as in `CasSph.mLoop`, with a computed `lnDet += 2*…`. -/
noncomputable def mLoop {n : ℕ} (pre : (Fin n → ℝ) → Prop) (post : (Fin n → ℝ) → (Fin n → ℝ) → Prop)
    (L : ℕ → Res (Fin n → ℝ)) : ℕ → ℕ → (Fin n → ℝ) → Res (Fin n → ℝ)
  | 0, _, S => .ok S
  | todo + 1, m, S =>
    if pre S then .ok S
    else do
      let l ← L m
      let S' : Fin n → ℝ := fun i => A.add (S i) (A.mul 2 (l i))
      if post S S' then .ok S' else mLoop pre post L todo (m + 1) S'

/-- geometry.py:463-473 `mSumme_k0`; `L m` are the computed values of `sln_det_blockdiagonal`. -/
noncomputable def mSummeK0 (lmax : ℕ) (precision : ℝ) (L : ℕ → Res (Fin 1 → ℝ)) : Res (Fin 1 → ℝ) := do
  let S ← L 0
  A.mLoop (fun _ => False)
    (fun old new => new 0 ≠ 0 ∧ |A.sub |A.div (old 0) (new 0)| 1| < A.div precision 10) L lmax 1 S

/-- geometry.py:501-516 `mSumme` without zero wavenumber; `L m` are the computed values of `balanced_slogdet`. -/
noncomputable def mSummeNonzero {n : ℕ} (lmax : ℕ) (precision : ℝ) (L : ℕ → Res (Fin n → ℝ)) :
    Res (Fin n → ℝ) := do
  let S ← L 0
  A.mLoop (fun old => ∃ r, npArgmax (npAbs old) = some r ∧ old r = 0)
    (fun old new => ∃ r, npArgmax (npAbs old) = some r ∧ |A.sub |A.div (new r) (old r)| 1| < A.div precision 10)
    L lmax 1 S

/-- thermodynamics.py:147-165 `F_alle`, see `CasSph.fAlle`, with a computed product `0.5*…`. -/
noncomputable def fAlle (g : Geo) (analyticN0 : Bool) : List ℝ → Proc FT (List ℝ)
  | [] => Proc.raise .indexError
  | k :: rest => fun s =>
    if k = 0 then
      if s.forceFlag = false ∧ analyticN0 = true then
        (Proc.bind g.mSummeK0 fun z =>
          if rest = [] then Proc.pure [A.mul 0.5 z]
          else Proc.bind (g.mSumme rest) fun r => Proc.pure (A.mul 0.5 z :: r)) s
      else
        (Proc.bind (g.mSumme [1e-10]) fun z =>
          Proc.bind (g.mSumme rest) fun r => Proc.pure (z.map (A.mul 0.5) ++ r)) s
    else if s.forceFlag then g.mSumTraceDot (k :: rest) s
    else g.mSumme (k :: rest) s

/-- thermodynamics.py:117-129 `get_f_matsubaras(nmin, schrittweite=50)` with computed wavenumbers `deltaT*x`. -/
noncomputable def getFMatsubaras (p : FTParams) (nmin : ℤ) : Proc FT (List ℝ) :=
  if p.nprocs.isZero then
    Proc.bind (slicewiseEval (fun ns => A.fAlle p.geo p.analyticN0 (ns.map fun n : ℤ => A.mul p.deltaT (n : ℝ)))
      nmin p.nmax 50) fun r s => (allSome r, s)
  else Proc.raise .nameError

/-- The elements of `f[::i]`. -/
def strideList (f : List ℝ) (i : ℕ) : List ℝ := (List.range ((f.length + i - 1) / i)).map fun j => f.getD (j * i) 0

/-- thermodynamics.py:79-82: `Ts * [f[::i].sum() for i in range(1, maxstep+1)]` with `Ts = deltaT*[1, …, maxstep]`. -/
noncomputable def thermoSums (sum : (p : ℕ) → (Fin p → ℝ) → ℝ) (deltaT : ℝ) (maxstep : ℤ) (f : List ℝ) : List ℝ :=
  (List.range maxstep.toNat).map fun i : ℕ =>
    A.mul (A.mul deltaT ((i + 1 : ℕ) : ℝ)) (sum (strideList f (i + 1)).length (strideList f (i + 1)).get)

/-- thermodynamics.py:77-78. -/
noncomputable def ensureF (p : FTParams) : Proc FT (List ℝ) := fun s =>
  match s.fMats with
  | some f => (.ok f, s)
  | none => match A.getFMatsubaras p 0 s with
    | (.error e, s') => (.error e, s')
    | (.ok f, s') => (.ok f, { s' with fMats := some f })

/-- thermodynamics.py:73-82 `free_energy`. -/
noncomputable def freeEnergy (sum : (p : ℕ) → (Fin p → ℝ) → ℝ) (p : FTParams) : Proc FT (List ℝ) :=
  Proc.bind (A.ensureF p) fun f => Proc.pure (A.thermoSums sum p.deltaT p.maxstep f)

end FlFun

/-- geometry.py:510-512, one contribution: `ld` is the computed `balanced_slogdet` of a round-trip matrix, `V k m` are the translation
coefficients. -/
noncomputable def FlMie.logDet (A : FlMie) (sum : (p : ℕ) → (Fin p → ℝ) → ℝ) (ld : (n : ℕ) → Blocks n → ℝ) (T : BesTable) (P : PairIn)
    (V : ℝ → (m : ℕ) → Fin (P.lmax + 1 - transLmin m) → Fin (P.lssmax + 1 - transLmin m) → VCoef) (k : ℝ) (m : ℕ) : Res ℝ := do
  let B ← A.blocksAt sum T P k m (V k m)
  .ok (ld _ B)

/-- geometry.py:501-516 `mSumme(matsubaras)` without zero wavenumber for two separate homogeneous spheres.  (Of several exceptions
another one may be raised.) -/
noncomputable def FlMie.pairVals (A : FlMie) (sum : (p : ℕ) → (Fin p → ℝ) → ℝ) (ld : (n : ℕ) → Blocks n → ℝ) (T : BesTable) (P : PairIn)
    (V : ℝ → (m : ℕ) → Fin (P.lmax + 1 - transLmin m) → Fin (P.lssmax + 1 - transLmin m) → VCoef) (ks : List ℝ) : Res (List ℝ) := do
  let r ← A.toFlFun.mSummeNonzero P.lmax P.precision fun m => finM fun i : Fin ks.length => A.logDet sum ld T P V (ks.get i) m
  .ok (List.ofFn r)

/-- What `finiteT` sees of the pair of spheres; the zero-frequency value `z` is given. -/
noncomputable def FlMie.pairGeo (A : FlMie) (sum : (p : ℕ) → (Fin p → ℝ) → ℝ) (ld : (n : ℕ) → Blocks n → ℝ) (T : BesTable) (P : PairIn)
    (V : ℝ → (m : ℕ) → Fin (P.lmax + 1 - transLmin m) → Fin (P.lssmax + 1 - transLmin m) → VCoef) (z : ℝ) : Geo where
  trace := false
  blocks0 := fun _ => .ok ()
  vals := A.pairVals sum ld T P V
  k0 := .ok z

end CasSph
