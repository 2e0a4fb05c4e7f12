import Verif.Model.FiniteSum
import Verif.Model.Pair
import Verif.Model.Geometry

/-! # Model of the single round-trip approximation and of the remaining methods of `finiteT`

`CasimirRio/geometry.py` lines 519-545 and `CasimirRio/thermodynamics.py` lines 131-145, 167-203.  The name `xrange` exists in
Python 2 only; whether it exists is the parameter `xr`. -/

namespace CasSph

open scoped Classical

/-- What `mSum_oneRoundtrip` uses of `A, B, C, D = self.blockmatrices(m, matsubaras)`: the size `A.shape[1]` and
`np.trace(A[i] + D[i])` for each wavenumber. -/
structure TraceIn (d : ℕ) where
  size : ℕ
  tr : Fin d → ℝ

/-- The argument `mmax` of `mSum_oneRoundtrip`. -/
inductive MMaxArg where
  | automatic
  | num (n : ℤ)

/-- geometry.py:526-530: the bound on `m`.  `precision` is positive (otherwise `np.log` is not a number).  An explicit `mmax`
above `lmax` is an AssertionError. -/
noncomputable def mmaxOf (lmax : ℕ) (precision : ℝ) : MMaxArg → Res ℤ
  | .automatic => .ok (pyRound (Real.log precision / Real.log 0.5))
  | .num n => if n ≤ lmax then .ok n else .error .assertionError

/-- geometry.py:531-545, the loop `for m in range(1, lmax+1)` of `mSum_oneRoundtrip`: `todo` passes left, next `m`, running sum.
A subspace of size one ends the loop, as does `m >= mmax`. -/
noncomputable def oneLoop {d : ℕ} (mmax : ℤ) (B : ℕ → Res (TraceIn d)) : ℕ → ℕ → (Fin d → ℝ) → Res (Fin d → ℝ)
  | 0, _, S => .ok S
  | todo + 1, m, S => do
    let b ← B m
    let S' : Fin d → ℝ := fun i => S i + 2 * b.tr i
    if b.size = 1 then .ok S'
    else if mmax ≤ m then .ok S'
    else oneLoop mmax B todo (m + 1) S'

/-- geometry.py:519-545 `mSum_oneRoundtrip(matsubaras, mmax)`.  Without `xrange` the list comprehension of lines 524-525 is a
NameError, raised after `blockmatrices(0, matsubaras)`. -/
noncomputable def mSumOneRoundtrip {d : ℕ} (xr : Bool) (lmax : ℕ) (precision : ℝ) (mmax : MMaxArg) (B : ℕ → Res (TraceIn d)) :
    Res (Fin d → ℝ) := do
  let b ← B 0
  if xr then do
    let mm ← mmaxOf lmax precision mmax
    oneLoop mm B lmax 1 b.tr
  else .error .nameError

/-- The traces of `blockmatrices(m, matsubaras)` for two separate spheres and wavenumbers without a zero. -/
noncomputable def tracesAt {d : ℕ} (lmax lssmax : ℕ) (m : ℕ) (w : Fin d → WaveIn) : Res (TraceIn d) :=
  if d = 0 then .error .indexError
  else do
    let B ← finM fun i => blockmatricesAt lmax lssmax m true (w i).nL (w i).bes (w i).a (w i).b
    .ok ⟨lmax + 1 - transLmin m, fun i => (B i).EE.trace + (B i).MM.trace⟩

/-! ## The class `oneRoundtrip` -/

deriving instance DecidableEq for FTCall

/-- thermodynamics.py:186-203 `oneRoundtrip.F_alle(matsubaras)`; `one ks` is the result of `geometry.mSum_oneRoundtrip(ks)`.
`mSum_trace_dot_oneRoundtrip` exists nowhere. -/
noncomputable def fAlleOne (g : Geo) (one : List ℝ → Res (List ℝ)) : List ℝ → Proc FT (List ℝ)
  | [] => Proc.raise .indexError
  | k :: rest => fun s =>
    if k = 0 then
      if s.forceFlag = false then
        (Proc.bind (fun s => (one [1e-10], s)) fun z =>
          Proc.bind (fun s => (one rest, s)) fun r => Proc.pure (z.map (0.5 * ·) ++ r)) s
      else (.error .attributeError, s)
    else if s.forceFlag then g.mSumTraceDot (k :: rest) s
    else (one (k :: rest), s)

/-- thermodynamics.py:117-129 `get_f_matsubaras(nmin)` of a `oneRoundtrip` object (its constructor uses `nprocs = 0`). -/
noncomputable def getFMatsubarasOne (p : FTParams) (one : List ℝ → Res (List ℝ)) (nmin : ℤ) : Proc FT (List ℝ) :=
  Proc.bind (slicewiseEval (fun ns => fAlleOne p.geo one (ns.map fun n : ℤ => p.deltaT * (n : ℝ))) nmin p.nmax 50)
    fun r s => (allSome r, s)

/-- thermodynamics.py:77-78. -/
noncomputable def ensureFOne (p : FTParams) (one : List ℝ → Res (List ℝ)) : Proc FT (List ℝ) := fun s =>
  match s.fMats with
  | some f => (.ok f, s)
  | none => match getFMatsubarasOne p one 0 s with
    | (.error e, s') => (.error e, s')
    | (.ok f, s') => (.ok f, { s' with fMats := some f })

/-- The public calls of a `oneRoundtrip` object, inherited from `finiteT` (thermodynamics.py:73-103). -/
noncomputable def FTCall.procOne (p : FTParams) (one : List ℝ → Res (List ℝ)) : FTCall → Proc FT (List ℝ)
  | .freeEnergy => Proc.bind (ensureFOne p one) fun f => Proc.pure (thermoSums p.deltaT p.maxstep f)
  | .entropy => Proc.bind (ensureFOne p one) fun _ => Proc.bind (ensureFOne p one) fun f s =>
      ((npGradient (thermoSums p.deltaT p.maxstep f) p.deltaT).map fun l => l.map (- ·), s)
  | .force => fun s0 =>
    let s : FT := { s0 with forceFlag := true }
    match s.forceMats with
    | some f => (.ok (thermoSums p.deltaT p.maxstep f), s)
    | none => match getFMatsubarasOne p one 0 s with
      | (.error e, s') => (.error e, s')
      | (.ok f, s') => (.ok (thermoSums p.deltaT p.maxstep f), { s' with forceMats := some f })

/-- The object after a sequence of calls. -/
noncomputable def afterCallsOne (p : FTParams) (one : List ℝ → Res (List ℝ)) : List FTCall → FT → FT
  | [], s => s
  | c :: cs, s => afterCallsOne p one cs (c.procOne p one s).2

/-! ## `l_konvergenz` and `F_tempcorr` -/

/-- An argument of a geometry method: an array or a single float. -/
inductive KArg where
  | arr (ks : List ℝ)
  | float (x : ℝ)

/-- geometry.py:491-496, 547-549: `mSumme` and `mSum_roundtrips` begin with `matsubaras[0]` (directly or in `blockmatrices`,
geometry.py:292): a float is not subscriptable. -/
noncomputable def mSummeArg (f : List ℝ → Res (List ℝ)) : KArg → Res (List ℝ)
  | .arr ks => f ks
  | .float _ => .error .typeError

/-- thermodynamics.py:137-144, the loop of `F_tempcorr`: `I w` is the result of `quad` with the weight `cos(w x)`, `n` the loop
counter, `F` the sum and `rel` the last relative change.  All numbers are Python floats: a vanishing divisor raises. -/
noncomputable def tempcorrLoop (I : ℝ → Res ℝ) (beta : ℝ) : ℕ → ℕ → ℝ → ℝ → ℝ → Option (Res ℝ)
  | 0, _, _, _, _ => none
  | fuel + 1, n, w, F, rel =>
    if rel > 1e-6 then
      match I w with
      | .error e => some (.error e)
      | .ok df =>
        let F' := F + df / Real.pi
        if Real.pi * F' = 0 then some (.error .zeroDivisionError)
        else tempcorrLoop I beta fuel (n + 1) ((n + 1 : ℕ) * beta) F' |df / (Real.pi * F')|
    else some (.ok F)

/-- thermodynamics.py:131-145 `F_tempcorr`; `f` is `mSumme` of the geometry, `quad g w` scipy's routine for an integrand that may
raise, `deltaT` not zero. -/
noncomputable def fTempcorr (quad : (ℝ → Res (List ℝ)) → ℝ → Res ℝ) (f : List ℝ → Res (List ℝ)) (deltaT : ℝ) (fuel : ℕ) :
    Option (Res ℝ) :=
  tempcorrLoop (quad fun x => mSummeArg f (.float x)) (1 / deltaT) fuel 1 1 0 1

/-- thermodynamics.py:167-180 `l_konvergenz`: two geometries are built, with `lssmax` in the place of `l_offset`; then the
method `F_zero_T`, which exists nowhere, is an AttributeError. -/
noncomputable def lKonvergenz (r1 r2 L : ℝ) (lssmax1 lssmax2 lmax1 lmax2 : AutoInt) : Res (ℝ × ℝ) := do
  let _ ← sphereInit r1 r2 L lmax1 lssmax1 .automatic 1e-4 0 .lndet
  let _ ← sphereInit r1 r2 L lmax2 lssmax2 .automatic 1e-4 0 .lndet
  .error .attributeError

end CasSph
