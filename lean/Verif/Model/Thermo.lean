import Verif.Model.Py
import Mathlib.Algebra.BigOperators.Fin
import Mathlib.Analysis.SpecialFunctions.Exp
import Mathlib.Algebra.Order.Round
import Mathlib.Order.Interval.Finset.Nat
import Mathlib.Data.List.Range

/-!
# Model of `CasimirRio/thermodynamics.py`

Calls that may change an object and raise are functions from the object state to a pair
(result, new state): Python keeps the state changes made before an exception.
-/

namespace CasSph

open scoped Classical

/-- A Python procedure on an object of type `σ`. -/
abbrev Proc (σ α : Type) := σ → Res α × σ

/-- Sequencing of procedures: an exception ends the procedure, keeping the state. -/
def Proc.bind {σ α β : Type} (p : Proc σ α) (f : α → Proc σ β) : Proc σ β := fun s =>
  match p s with
  | (.error e, s') => (.error e, s')
  | (.ok a, s') => f a s'

/-- A procedure that returns a value. -/
def Proc.pure {σ α : Type} (a : α) : Proc σ α := fun s => (.ok a, s)

/-- A procedure that raises. -/
def Proc.raise {σ α : Type} (e : PyErr) : Proc σ α := fun s => (.error e, s)

/-! ## `slicewise_eval` -/

/-- `result[start:start+len] = vals` for a slice inside the array: numpy accepts a right-hand side of the
same length or of length one (broadcast), otherwise ValueError. -/
def assignSlice (result : List (Option ℝ)) (start len : ℕ) (vals : List ℝ) : Res (List (Option ℝ)) :=
  if vals.length = len then
    .ok (result.take start ++ vals.map some ++ result.drop (start + len))
  else match vals with
    | [x] => .ok (result.take start ++ List.replicate len (some x) ++ result.drop (start + len))
    | _ => .error .valueError

/-- `np.arange(a, b+1)` for integers. -/
def arange (a b : ℤ) : List ℤ := (List.range (b + 1 - a).toNat).map fun i : ℕ => a + (i : ℤ)

/-- thermodynamics.py:222-225, the loop of `slicewise_eval`; `none` entries of the result are
uninitialised memory. `noffset = -nmin₀`. -/
def sliceLoop {σ : Type} (func : List ℤ → Proc σ (List ℝ)) (noffset nmax stepsize : ℤ)
    (hs : 0 < stepsize) (nmin : ℤ) (result : List (Option ℝ)) : Proc σ (List (Option ℝ)) :=
  if h : nmin ≤ nmax then
    let nmaxSl := min (nmin + stepsize - 1) nmax
    Proc.bind (func (arange nmin nmaxSl)) fun vals => fun s =>
      match assignSlice result (noffset + nmin).toNat (nmaxSl + 1 - nmin).toNat vals with
      | .error e => (.error e, s)
      | .ok r => sliceLoop func noffset nmax stepsize hs (nmaxSl + 1) r s
  else Proc.pure result
termination_by (nmax + 1 - nmin).toNat
decreasing_by omega

/-- thermodynamics.py:206-226 `slicewise_eval(func, nmin, nmax, stepsize)` for integer arguments:
`np.empty` raises ValueError for a negative length. -/
def slicewiseEval {σ : Type} (func : List ℤ → Proc σ (List ℝ)) (nmin nmax stepsize : ℤ) :
    Proc σ (List (Option ℝ)) :=
  if hs : 0 < stepsize then
    if nmax - nmin + 1 < 0 then Proc.raise .valueError
    else sliceLoop func (-nmin) nmax stepsize hs nmin (List.replicate (nmax - nmin + 1).toNat none)
  else Proc.raise .valueError

/-! ## The class `finiteT` -/

/-- What `finiteT` sees of a geometry (geometry.py): `trace` is `evaluation == "trace"`, `vals ks` the
result of the m-sum at the wavenumbers `ks` when the force flag of the geometry is not set, `blocks0 ks`
tells whether the block matrices of `m = 0` can be evaluated there, `k0` is the result of `mSumme_k0`. -/
structure Geo where
  trace : Bool
  blocks0 : List ℝ → Res Unit
  vals : List ℝ → Res (List ℝ)
  k0 : Res ℝ

/-- State of a `finiteT` object: cached Matsubara terms for the free energy and the force,
`self.forceFlag`, and `self.geometry.forceFlag`. -/
structure FT where
  fMats : Option (List ℝ)
  forceMats : Option (List ℝ)
  forceFlag : Bool
  geoFlag : Bool

/-- A freshly constructed object (thermodynamics.py:62-70) on a geometry with forceFlag = 0. -/
def FT.fresh : FT := ⟨none, none, false, false⟩

/-- `self.geometry.mSumme(ks)`: in trace mode `supermatrix` (geometry.py:582-591) first resets the force
flag of the geometry; in lndet mode a set flag makes `translation` raise AttributeError (C23); an empty
array is an IndexError (`matsubaras[0]`).  With the flag set, an exception of the Mie coefficients, which are computed before, would be the one
raised; this is not distinguished here. -/
noncomputable def Geo.mSumme (g : Geo) (ks : List ℝ) : Proc FT (List ℝ) := fun s =>
  let s' : FT := if g.trace then { s with geoFlag := false } else s
  if ks = [] then (.error .indexError, s')
  else if s'.geoFlag then (.error .attributeError, s')
  else (g.vals ks, s')

/-- `self.geometry.mSumme_k0()`: with the force flag set the zero-frequency elements raise
NotImplementedError (geometry.py:186-188, 213-215), unless the Mie coefficients computed before raise another exception, which is not
distinguished here. -/
def Geo.mSummeK0 (g : Geo) : Proc FT ℝ := fun s =>
  if s.geoFlag then (.error .notImplementedError, s) else (g.k0, s)

/-- `self.geometry.mSum_trace_dot(ks)` (geometry.py:593-604): the second `supermatrix` call sets the
force flag and then raises AttributeError in `translation.__init__` (C23).  An exception of the first
call (flag 0) is returned as such. -/
def Geo.mSumTraceDot (g : Geo) (ks : List ℝ) : Proc FT (List ℝ) := fun s =>
  match g.blocks0 ks with
  | .error e => (.error e, { s with geoFlag := false })
  | .ok _ => (.error .attributeError, { s with geoFlag := true })

/-- thermodynamics.py:147-165 `F_alle`. -/
noncomputable def fAlle (g : Geo) (analyticN0 : Bool) : List ℝ → Proc FT (List ℝ)
  | [] => Proc.raise .indexError
  | k :: rest => fun s =>
    if k = 0 then
      if s.forceFlag = false ∧ analyticN0 = true then
        (Proc.bind g.mSummeK0 fun z =>
          if rest = [] then Proc.pure [0.5 * z]
          else Proc.bind (g.mSumme rest) fun r => Proc.pure (0.5 * z :: r)) s
      else
        (Proc.bind (g.mSumme [1e-10]) fun z =>
          Proc.bind (g.mSumme rest) fun r => Proc.pure (z.map (0.5 * ·) ++ r)) s
    else if s.forceFlag then g.mSumTraceDot (k :: rest) s
    else g.mSumme (k :: rest) s

/-- The argument `nprocs` of thermodynamics.py:26: an `int` or some other number. -/
inductive NProcs where
  | int (n : ℤ)
  | float (x : ℝ)

/-- `nprocs == 0` (thermodynamics.py:123). -/
def NProcs.isZero : NProcs → Prop
  | .int n => n = 0
  | .float x => x = 0

/-- Constructor arguments of `finiteT` that stay fixed (thermodynamics.py:26-71). -/
structure FTParams where
  deltaT : ℝ
  nmax : ℤ
  maxstep : ℤ
  analyticN0 : Bool
  nprocs : NProcs
  geo : Geo

/-- All entries of an array are initialised. -/
def allSome : List (Option ℝ) → Res (List ℝ)
  | [] => .ok []
  | none :: _ => .error .valueError
  | some x :: l => match allSome l with
    | .error e => .error e
    | .ok r => .ok (x :: r)

/-- thermodynamics.py:117-129 `get_f_matsubaras(nmin, schrittweite=50)`.  For `nprocs != 0` the name
`multiproc_slicewise_eval` does not exist.  (`allSome` never fails: C26.) -/
noncomputable def getFMatsubaras (p : FTParams) (nmin : ℤ) : Proc FT (List ℝ) :=
  if p.nprocs.isZero then
    Proc.bind (slicewiseEval (fun ns => fAlle p.geo p.analyticN0 (ns.map fun n : ℤ => p.deltaT * (n : ℝ)))
      nmin p.nmax 50) fun r s => (allSome r, s)
  else Proc.raise .nameError

/-- `f[::i].sum()`. -/
def strideSum (f : List ℝ) (i : ℕ) : ℝ :=
  ∑ j ∈ Finset.range f.length, if i ∣ j then f.getD j 0 else 0

/-- thermodynamics.py:79-82: `Ts * [f[::i].sum() for i in range(1, maxstep+1)]`. -/
noncomputable def thermoSums (deltaT : ℝ) (maxstep : ℤ) (f : List ℝ) : List ℝ :=
  (List.range maxstep.toNat).map fun i : ℕ => deltaT * ((i + 1 : ℕ) : ℝ) * strideSum f (i + 1)

/-- thermodynamics.py:77-78, 100-101: fill the cache of the free energy if it is empty. -/
noncomputable def ensureF (p : FTParams) : Proc FT (List ℝ) := fun s =>
  match s.fMats with
  | some f => (.ok f, s)
  | none => match getFMatsubaras p 0 s with
    | (.error e, s') => (.error e, s')
    | (.ok f, s') => (.ok f, { s' with fMats := some f })

/-- thermodynamics.py:73-82 `free_energy`. -/
noncomputable def freeEnergy (p : FTParams) : Proc FT (List ℝ) :=
  Proc.bind (ensureF p) fun f => Proc.pure (thermoSums p.deltaT p.maxstep f)

/-- thermodynamics.py:84-94 `force`. -/
noncomputable def force (p : FTParams) : Proc FT (List ℝ) := fun s0 =>
  let s : FT := { s0 with forceFlag := true }
  match s.forceMats with
  | some f => (.ok (thermoSums p.deltaT p.maxstep f), s)
  | none => match getFMatsubaras p 0 s with
    | (.error e, s') => (.error e, s')
    | (.ok f, s') => (.ok (thermoSums p.deltaT p.maxstep f), { s' with forceMats := some f })

/-- `np.gradient(f, h)` for a one-dimensional array: centred differences inside, one-sided at the ends;
ValueError for fewer than two points. -/
noncomputable def npGradient (f : List ℝ) (h : ℝ) : Res (List ℝ) :=
  if f.length < 2 then .error .valueError
  else .ok ((List.range f.length).map fun i : ℕ =>
    if i = 0 then (f.getD 1 0 - f.getD 0 0) / h
    else if i + 1 = f.length then (f.getD i 0 - f.getD (i - 1) 0) / h
    else (f.getD (i + 1) 0 - f.getD (i - 1) 0) / (2 * h))

/-- thermodynamics.py:96-103 `entropy`. -/
noncomputable def entropy (p : FTParams) : Proc FT (List ℝ) :=
  Proc.bind (ensureF p) fun _ => Proc.bind (freeEnergy p) fun F s =>
    ((npGradient F p.deltaT).map fun l => l.map (- ·), s)

/-- The public calls on a `finiteT` object (thermodynamics.py:73-103). -/
inductive FTCall where
  | freeEnergy
  | entropy
  | force

/-- The procedure of a call. -/
noncomputable def FTCall.proc (p : FTParams) : FTCall → Proc FT (List ℝ)
  | .freeEnergy => CasSph.freeEnergy p
  | .entropy => CasSph.entropy p
  | .force => CasSph.force p

/-- The object after a sequence of calls (an exception is caught by the caller). -/
noncomputable def afterCalls (p : FTParams) : List FTCall → FT → FT
  | [], s => s
  | c :: cs, s => afterCalls p cs (c.proc p s).2

/-! ## Constructor -/

/-- Python `round` of a float: to the nearest integer, ties to even. -/
noncomputable def pyRound (x : ℝ) : ℤ :=
  if Int.fract x < 1 / 2 then ⌊x⌋
  else if 1 / 2 < Int.fract x then ⌊x⌋ + 1
  else if Even ⌊x⌋ then ⌊x⌋ else ⌊x⌋ + 1

/-- Python `int(x)` of a float: truncation towards zero. -/
noncomputable def pyInt (x : ℝ) : ℤ := if 0 ≤ x then ⌊x⌋ else ⌈x⌉

/-- The argument `nmax`: a number or the string "automatic". -/
inductive NMax where
  | num (n : ℤ)
  | automatic

/-- thermodynamics.py:39-61, the automatic `nmax` for outer radii `r1, r2`, distance `L` and `lmax`.  Python numbers divided by zero
raise: line 53 for a vanishing radius, line 54 for touching spheres, line 59 for `lmax = 0` or `deltaT = 0`; after line 54 `c` is a numpy number, and its division by zero
gives `inf`, which `int` rejects. -/
noncomputable def autoNmax (r1 r2 Lgeo deltaT lmax : ℝ) : Res ℤ :=
  let rs := min r1 r2
  let rg := max r1 r2
  let L := if rs + rg > Lgeo then rg - rs - Lgeo else Lgeo - rs - rg
  let c : ℝ := if L / rs ≤ 0.5 then 0.1 + 2.21 * Real.exp (-rs / L) else 0.4
  let LT := L * deltaT
  let offset : ℝ := if LT ≥ 7 then 1 else 5
  let e := Real.exp (-2 * LT)
  if rs = 0 ∨ L = 0 ∨ lmax = 0 then .error .zeroDivisionError
  else if deltaT = 0 then .error (if L / rs ≤ 0.5 then .overflowError else .zeroDivisionError)
  else .ok (max (pyInt (c * lmax / LT * (e * (L + rs) / rs + 1 + LT / lmax) + offset)) 1)

/-- Result of the constructor (the attributes used later). -/
structure FTInit where
  nmax : ℤ
  analyticN0 : Bool
  maxstep : ℤ
  nprocs : NProcs

/-- thermodynamics.py:26-71 `finiteT.__init__`: `not type(nprocs) == int and nprocs >= 0` parses as
`(not type(nprocs) == int) and (nprocs >= 0)`; line 71 divides by `deltaT`. `matList` says whether one of the materials is a list,
`isGeo` whether `geom` is an instance of the geometry classes. -/
noncomputable def finiteTInit (deltaT : ℝ) (nmax : NMax) (Tmax : ℝ) (r1 r2 L lmax : ℝ) (matList isGeo : Bool)
    (analyticN0 : Bool) (nprocs : NProcs) : Res FTInit :=
  let bad : Bool := match nprocs with
    | .int _ => false
    | .float x => decide (0 ≤ x)
  if bad then .error .valueError
  else
    let a : Bool := if matList then false else analyticN0
    let n : Res ℤ := match nmax with
      | .num n => .ok n
      | .automatic => autoNmax r1 r2 L deltaT lmax
    match n with
    | .error e => .error e
    | .ok n =>
      if isGeo then
        if deltaT = 0 then .error .zeroDivisionError else .ok ⟨n, a, pyRound (Tmax / deltaT), nprocs⟩
      else .error .typeError

end CasSph
