import Verif.Model.Thermo
import Mathlib.Analysis.SpecialFunctions.Log.Base

/-!
# Model of the object state of `SphereSphere`, `CasimirRio/geometry.py`

The numbers produced by the scattering and translation code are parameters here: `mieA ks l` stands for the
triple (TE, TM, scale) of sphere A at angular momentum `l` for the wavenumbers `ks`, `V m ks` for the
result of `translation(..., m, ..., ks, ext_flag, 0).trans_ab()`.  What is modelled is which of them a
call returns, depending on the calls made before.
-/

namespace CasSph

open scoped Classical

/-- What stays fixed in a `SphereSphere` object (geometry.py:43-82). -/
structure GeoPar (α β τ : Type) where
  lmax : ℕ
  lssmax : ℕ
  /-- sphere A at non-zero wavenumbers (`scattering(...).mie` or `mie_stratified`), or the exception -/
  mieA : List ℝ → Res (ℕ → α)
  mieB : List ℝ → Res (ℕ → β)
  /-- at zero frequency -/
  mieA0 : Res (ℕ → α)
  mieB0 : Res (ℕ → β)
  V : ℤ → List ℝ → Res τ
  /-- one of the materials is a list -/
  stratified : Bool

/-- The attributes of the object that calls change: `K` with `MieA`, `MieB`, the zero-frequency caches
`MieA_k0`, `MieB_k0` (`none` if not yet both set: then both are recomputed), and `forceFlag`. -/
structure GObj (α β : Type) where
  K : Option (List ℝ)
  mieA : List α
  mieB : List β
  k0 : Option (List α × List β)
  forceFlag : Bool

variable {α β τ : Type}

/-- A new object (geometry.py:51, 57); `MieA`, `MieB` do not exist yet. -/
def GObj.fresh : GObj α β := ⟨none, [], [], none, false⟩

/-- Coefficients `l = lmin, …, lmax`. -/
def coeffs {γ : Type} (f : ℕ → γ) (lmin lmax : ℕ) : List γ := (List.range' lmin (lmax + 1 - lmin)).map f

/-- `lmin = max(1, m)` (geometry.py:91, 180). -/
def lminOf (m : ℤ) : ℕ := (max 1 m).toNat

/-- `translation(...).trans_ab()` called with flag 0 and, if the force flag of the object is set, once more
with that flag, which raises AttributeError (translation.py:55-57: there is no `get_vl1l2_force`). -/
def transCalls (P : GeoPar α β τ) (m : ℤ) (ks : List ℝ) : Proc (GObj α β) τ := fun s =>
  match P.V m ks with
  | .error e => (.error e, s)
  | .ok v => if s.forceFlag then (.error .attributeError, s) else (.ok v, s)

/-- geometry.py:84-169 `roundTrip_elements(m, k)`.  If the wavenumbers are the cached ones the stored
coefficients are returned from `lmin` on; otherwise those of `l = 1, 2, …` are computed, stored and
returned completely (line 169: `return [mieA, mieB, V]`).  An exception between the two assignments
leaves `MieA` changed and `K` unchanged. -/
noncomputable def rtElements (P : GeoPar α β τ) (m : ℤ) (ks : List ℝ) :
    Proc (GObj α β) (List α × List β × τ) := fun s =>
  if s.K = some ks then
    Proc.bind (transCalls P m ks) (fun v => Proc.pure
      (s.mieA.drop (lminOf m - 1), s.mieB.drop (lminOf m - 1), v)) s
  else
    match P.mieA ks with
    | .error e => (.error e, s)
    | .ok a =>
      let s1 : GObj α β := { s with mieA := coeffs a 1 P.lmax }
      match P.mieB ks with
      | .error e => (.error e, s1)
      | .ok b =>
        let s2 : GObj α β := { s1 with mieB := coeffs b 1 P.lssmax, K := some ks }
        Proc.bind (transCalls P m ks) (fun v => Proc.pure (s2.mieA, s2.mieB, v)) s2

/-- geometry.py:171-220 `roundTrip_elements_k0(m, np.array([0]))`.  The force flag raises
NotImplementedError after the caches are filled; stratified spheres raise it before.  (Line 196 `except AttributeError` is meant for a missing
cache; `trans_ab` at zero frequency raises no AttributeError that it could hide.) -/
def rtElementsK0 (P : GeoPar α β τ) (m : ℤ) : Proc (GObj α β) (List α × List β × τ) := fun s =>
  match s.k0 with
  | some (a, b) =>
    match P.V m [0] with
    | .error e => (.error e, s)
    | .ok v =>
      if s.forceFlag then (.error .notImplementedError, s)
      else (.ok (a.drop (lminOf m - 1), b.drop (lminOf m - 1), v), s)
  | none =>
    if P.stratified then (.error .notImplementedError, s)
    else match P.mieA0 with
      | .error e => (.error e, s)
      | .ok a => match P.mieB0 with
        | .error e => (.error e, s)
        | .ok b =>
          let A := coeffs a (lminOf m) P.lmax
          let B := coeffs b (lminOf m) P.lssmax
          let s1 : GObj α β := { s with k0 := some (A, B) }
          match P.V m [0] with
          | .error e => (.error e, s1)
          | .ok v => if s.forceFlag then (.error .notImplementedError, s1) else (.ok (A, B, v), s1)

/-- Elements used by `blockmatrices(m, matsubaras)` (geometry.py:282-331): a leading zero is split off and
evaluated with the zero-frequency elements, after the others.  An empty array is an IndexError. -/
noncomputable def blockElements (P : GeoPar α β τ) (m : ℤ) : List ℝ →
    Proc (GObj α β) ((List α × List β × τ) × Option (List α × List β × τ))
  | [] => Proc.raise .indexError
  | k :: rest =>
    if k = 0 then
      Proc.bind (rtElements P m rest) fun e => Proc.bind (rtElementsK0 P m) fun e0 => Proc.pure (e, some e0)
    else Proc.bind (rtElements P m (k :: rest)) fun e => Proc.pure (e, none)

/-- geometry.py:582-591 `supermatrix(m, matsubaras, forceFlag)`: sets the force flag of the object first. -/
noncomputable def superElements (P : GeoPar α β τ) (m : ℤ) (ks : List ℝ) (flag : Bool) :
    Proc (GObj α β) ((List α × List β × τ) × Option (List α × List β × τ)) := fun s =>
  blockElements P m ks { s with forceFlag := flag }

/-- geometry.py:593-604 `mSum_trace_dot`, up to the second `supermatrix` call (which never returns). -/
noncomputable def traceDot (P : GeoPar α β τ) (ks : List ℝ) : Proc (GObj α β) Unit :=
  Proc.bind (superElements P 0 ks false) fun _ => Proc.bind (superElements P 0 ks true) fun _ => Proc.pure ()

/-- The calls on a geometry object. -/
inductive GCall where
  | elements (m : ℤ) (ks : List ℝ)
  | elementsK0 (m : ℤ)
  | blocks (m : ℤ) (ks : List ℝ)
  | super (m : ℤ) (ks : List ℝ) (flag : Bool)
  | traceDot (ks : List ℝ)

/-- The object after a call (exceptions are caught by the caller). -/
noncomputable def GCall.state (P : GeoPar α β τ) (c : GCall) (s : GObj α β) : GObj α β :=
  match c with
  | .elements m ks => (rtElements P m ks s).2
  | .elementsK0 m => (rtElementsK0 P m s).2
  | .blocks m ks => (blockElements P m ks s).2
  | .super m ks flag => (superElements P m ks flag s).2
  | .traceDot ks => (CasSph.traceDot P ks s).2

/-- The object after a sequence of calls. -/
noncomputable def afterG (P : GeoPar α β τ) : List GCall → GObj α β → GObj α β
  | [], s => s
  | c :: cs, s => afterG P cs (c.state P s)

/-- The evaluation of one subspace in an m-loop: `blockmatrices` (`mSumme`, geometry.py:502, 510) or
`supermatrix` with a flag (`mSum_roundtrips`, geometry.py:549, 553). -/
noncomputable def loopCall (P : GeoPar α β τ) (flag : Option Bool) (m : ℤ) (ks : List ℝ) :
    Proc (GObj α β) ((List α × List β × τ) × Option (List α × List β × τ)) :=
  match flag with
  | none => blockElements P m ks
  | some f => superElements P m ks f

/-- The elements evaluated by the m-loops of `mSumme` (geometry.py:502-515, `flag = none`) and
`mSum_roundtrips` (geometry.py:547-558, `flag = some false`): `blockmatrices` for `m = m0, …, m0 + n - 1`.
How many are evaluated depends on the numbers. -/
noncomputable def mLoopElements (P : GeoPar α β τ) (flag : Option Bool) (ks : List ℝ) : ℕ → ℕ →
    Proc (GObj α β) (List (List α × List β × τ))
  | 0, _ => Proc.pure []
  | n + 1, m =>
    Proc.bind (loopCall P flag m ks) fun e =>
        Proc.bind (mLoopElements P flag ks n (m + 1)) fun es => Proc.pure (e.1 :: es)

/-- The elements evaluated by `mSumme_k0` (geometry.py:463-473) for `m = m0, …, m0 + n - 1`. -/
def mLoopElementsK0 (P : GeoPar α β τ) : ℕ → ℕ → Proc (GObj α β) (List (List α × List β × τ))
  | 0, _ => Proc.pure []
  | n + 1, m =>
    Proc.bind (rtElementsK0 P m) fun e => Proc.bind (mLoopElementsK0 P n (m + 1)) fun es => Proc.pure (e :: es)

/-! ## Shapes in `single_m` -/

/-- numpy broadcasting of one axis. -/
def bdim (a b : ℕ) : Res ℕ :=
  if a = b then .ok a else if a = 1 then .ok b else if b = 1 then .ok a else .error .valueError

/-- Shape of the block matrices of one wavenumber (geometry.py:296-321) when the Mie coefficients have
`a` and `b` entries and the translation matrices `n × p`: `log_skalierung` has shape
`(bdim a n, n, bdim b p)`; `single_k_scale` returns it unchanged for `n = 1`, needs an element in every
axis otherwise (IndexError, ValueError of `argmax`). -/
def blockShape (a b n p : ℕ) : Res (ℕ × ℕ) := do
  let rows ← bdim a n
  let inner ← bdim b p
  if n = 1 then .ok (rows, 1)
  else if n = 0 ∨ rows = 0 then .error .indexError
  else if inner = 0 then .error .valueError
  else .ok (rows, n)

/-- geometry.py:475-489 `single_m(m, k)` for non-zero wavenumbers, shapes only: dimension of the matrix whose
determinant is taken.  The translation matrices have `lmax-lmin+1` rows and `lssmax-lmin+1` columns
(translation.py:147-150); `balanced_slogdet` asserts a square matrix (`2 rows` by `2 cols`). -/
noncomputable def singleMDim (P : GeoPar α β τ) (m : ℤ) (ks : List ℝ) : Proc (GObj α β) ℕ :=
  Proc.bind (rtElements P m ks) fun e s =>
    match blockShape e.1.length e.2.1.length (P.lmax + 1 - lminOf m) (P.lssmax + 1 - lminOf m) with
    | .error err => (.error err, s)
    | .ok (r, c) => if 2 * r = 2 * c then (.ok (2 * r), s) else (.error .assertionError, s)

/-! ## Constructors -/

/-- geometry.py:848-860 `get_lmax` for positive radii.  `surf_to_surf` may be negative (overlapping
spheres); `surf_to_surf = 0` divides a Python float by zero.  `np.log10` of zero is `-inf`, of a negative number `nan`, and
`int` of the infinite or undefined result raises. -/
noncomputable def getLmax (r1 r2 L precision : ℝ) (lOffset : ℤ) : Res ℤ :=
  let rs := min r1 r2
  let rl := max r1 r2
  let d := |rl - L| - rs
  if d / rs ≥ 30 then .ok 1
  else if d = 0 then .error .zeroDivisionError
  else if precision = 0 then .error .overflowError
  else if precision < 0 then .error .valueError
  else
    let eta := -(Real.logb 10 precision) * 0.33 + 3
    .ok (max (pyInt (Real.exp eta * (rs / d) / 13) + lOffset) 1)

/-- An integer argument that may be the string "automatic". -/
inductive AutoInt where
  | num (n : ℤ)
  | automatic

/-- The argument `evaluation`. -/
inductive Evaluation where
  | lndet
  | trace
  | other

/-- The attributes set by the constructor that matter later. -/
structure GeoInit where
  lmax : ℤ
  lssmax : ℤ
  lOffset : AutoInt
  extFlag : Bool
  forceFlag : ℤ
  trace : Bool

/-- geometry.py:54, 73-74: `lmax` as given, or from `get_lmax` with `l_offset`.  A string there is a TypeError in the last line
of `get_lmax`, after everything else was computed, and does not matter for spheres so far apart that line 857 is reached. -/
noncomputable def lmaxArg (r1 r2 L precision : ℝ) (lOffset : AutoInt) : AutoInt → Res ℤ
  | .num n => .ok n
  | .automatic => match lOffset with
    | .num o => getLmax r1 r2 L precision o
    | .automatic => match getLmax r1 r2 L precision 0 with
      | .error e => .error e
      | .ok _ => if (|max r1 r2 - L| - min r1 r2) / min r1 r2 ≥ 30 then .ok 1 else .error .typeError

/-- geometry.py:55, 75-76: `lssmax` as given, or `int(max(r1,r2)/min(r1,r2)*lmax)`. -/
noncomputable def lssmaxArg (r1 r2 : ℝ) (lmax : ℤ) : AutoInt → ℤ
  | .num n => n
  | .automatic => pyInt (max r1 r2 / min r1 r2 * lmax)

/-- geometry.py:64-68, the argument `evaluation`: `some true` for "trace". -/
def evalArg : Evaluation → Option Bool
  | .lndet => some false
  | .trace => some true
  | .other => none

/-- geometry.py:43-82 `SphereSphere.__init__` for (outer) radii `r1, r2`.  `l_offset` is used only for an
automatic `lmax`. -/
noncomputable def sphereInit (r1 r2 L : ℝ) (lmax lOffset lssmax : AutoInt) (precision : ℝ) (forceFlag : ℤ)
    (ev : Evaluation) : Res GeoInit :=
  match evalArg ev with
  | none => .error .valueError
  | some trace =>
    match lmaxArg r1 r2 L precision lOffset lmax with
    | .error e => .error e
    | .ok lm =>
      .ok { lmax := lm, lssmax := lssmaxArg r1 r2 lm lssmax, lOffset := lOffset,
            extFlag := decide (L > r1 + r2), forceFlag := forceFlag, trace := trace }

/-- geometry.py:607-613 `CoatedSphereSphere.__init__`: the positional call
`SphereSphere.__init__(self, r1_a, r2_a, L, mat1_coat, mat2_coat, matMd, lmax, lssmax, forceFlag)` binds
`l_offset = lssmax` and `lssmax = forceFlag`; the defaults `precision = 1e-4`, `forceFlag = 0`,
`evaluation = "lndet"` are used. -/
noncomputable def coatedInit (r1a r2a L : ℝ) (lmax lssmax : AutoInt) (forceFlag : ℤ) : Res GeoInit :=
  sphereInit r1a r2a L lmax lssmax (.num forceFlag) 1e-4 0 .lndet

/-- geometry.py:625-666 `CoatedSphereSphere.roundTrip_elements`: `mie_coated(k, lmax, ri, ra)` lacks one
argument (scattering.py:342 `mie_coated(self, k, lmin, lmax, ri, ra)`), a TypeError raised before anything
is stored.  If the wavenumbers were cached, the coefficients would be returned. -/
noncomputable def coatedElements (P : GeoPar α β τ) (m : ℤ) (ks : List ℝ) :
    Proc (GObj α β) (List α × List β × τ) := fun s =>
  if s.K = some ks then
    Proc.bind (transCalls P m ks) (fun v => Proc.pure
      (s.mieA.drop (lminOf m - 1), s.mieB.drop (lminOf m - 1), v)) s
  else (.error .typeError, s)

/-- A sequence of calls of `roundTrip_elements` on a coated object. -/
noncomputable def afterCoated (P : GeoPar α β τ) : List (ℤ × List ℝ) → GObj α β → GObj α β
  | [], s => s
  | (m, ks) :: cs, s => afterCoated P cs (coatedElements P m ks s).2

end CasSph
