import Verif.Model.Materials
import Verif.Model.Helpers
import Verif.Model.Bessel

/-!
# Model of CasimirRio/scattering.py

All formulas are elementwise in the wavenumber `k` and the angular momentum `l`; the core functions below are
therefore given for one pair `(k, l)`, and the array functions (`mieArr` etc.) collect them.  Doubles are
reals, a division by zero is the error value `zeroDivisionError`.  Only `1 ≤ lmin ≤ lmax` is modelled (this
is what `geometry.py` passes).
-/

namespace CasSph

open Classical

/-- The entries of the arrays returned by `mie_bessels` that enter for one argument and one `l`:
`iv[:, 0:-1]`, `iv[:, 1:]`, `kv[:, 0:-1]`, `kv[:, 1:]` (logarithms of `i_{l-1}, i_l, k_{l-1}, k_l`). -/
structure Bes where
  i0 : ℝ
  i1 : ℝ
  k0 : ℝ
  k1 : ℝ

/-- permittivity and permeability at one wavenumber -/
structure Medium where
  eps : ℝ
  mu : ℝ

/-- `epsilon(k), mu(k)` -/
noncomputable def Material.medium (M : Material) (k : ℝ) : Res Medium := do
  let e ← M.epsilon k
  let m ← M.mu k
  .ok ⟨e, m⟩

/-- `n = np.sqrt(eps*mu)` -/
noncomputable def Medium.n (a : Medium) : ℝ := Real.sqrt (a.eps * a.mu)

/-- One entry of the returned array: TE, TM and the logarithm of the scaling factor. -/
structure Mie where
  TE : ℝ
  TM : ℝ
  ln : ℝ

/-- scattering.py:127-128, `id = -l + kr*n*exp(iv[l-1]-iv[l])` with `x = kr*n`. -/
noncomputable def idT (l : ℕ) (x : ℝ) (B : Bes) : ℝ := -l + x * Real.exp (B.i0 - B.i1)

/-- scattering.py:129, `kd = -l - kr*n*exp(kv[l-1]-kv[l])` with `x = kr*n`. -/
noncomputable def kdT (l : ℕ) (x : ℝ) (B : Bes) : ℝ := -l - x * Real.exp (B.k0 - B.k1)

/-- scattering.py:123-143, `mie` for one `(k, l)`: interior `a`, exterior `b`. -/
noncomputable def mieCore (l : ℕ) (kr : ℝ) (a b : Medium) (Bi Be : Bes) : Res Mie := do
  let idi := idT l (kr * a.n) Bi
  let ide := idT l (kr * b.n) Be
  let kde := kdT l (kr * b.n) Be
  let prefak := (-1) ^ l * Real.pi * 0.5
  let te ← cdiv (b.mu * idi - a.mu * ide) (b.mu * idi - a.mu * kde)
  let tm ← cdiv (b.eps * idi - a.eps * ide) (b.eps * idi - a.eps * kde)
  .ok ⟨te * prefak, tm * prefak, Be.i1 - Be.k1⟩

/-- scattering.py:178-197, `mie_internal` for one `(k, l)`. -/
noncomputable def mieIntCore (l : ℕ) (kr : ℝ) (a b : Medium) (Bi Be : Bes) : Res Mie := do
  let idi := idT l (kr * a.n) Bi
  let kdi := kdT l (kr * a.n) Bi
  let kde := kdT l (kr * b.n) Be
  let prefak := (-1) ^ l * 2 / Real.pi
  let te ← cdiv (b.mu * kdi - a.mu * kde) (b.mu * idi - a.mu * kde)
  let tm ← cdiv (b.eps * kdi - a.eps * kde) (b.eps * idi - a.eps * kde)
  .ok ⟨te * prefak, tm * prefak, Bi.k1 - Bi.i1⟩

/-- scattering.py:268-280, `miePEC` for one `(k, l)`; `kr*n` is written `n*k*r` there. -/
noncomputable def miePECCore (l : ℕ) (kr : ℝ) (b : Medium) (Be : Bes) : Res Mie := do
  let prefak := (-1) ^ l * Real.pi * 0.5
  let tm ← cdiv (prefak * idT l (kr * b.n) Be) (kdT l (kr * b.n) Be)
  .ok ⟨prefak, tm, Be.i1 - Be.k1⟩

/-- scattering.py:289-301, `miePEC_internal` for one `(k, l)`. -/
noncomputable def miePECIntCore (l : ℕ) (kr : ℝ) (a : Medium) (Bi : Bes) : Res Mie := do
  let prefak := (-1) ^ l * 2 / Real.pi
  let q ← cdiv (kdT l (kr * a.n) Bi) (idT l (kr * a.n) Bi)
  .ok ⟨prefak, prefak * q, Bi.k1 - Bi.i1⟩

/-- Bessel entries by angular momentum and argument. -/
abbrev BesTable := ℕ → ℝ → Bes

/-- scattering.py:13-26, 89-143, 261-280: `scattering(mat1, mat2).mie` for one `(k, l)`; the tables `Ti`, `Te` are
those of the two calls of `mie_bessels` (arguments inside and outside). -/
noncomputable def mie (Ti Te : BesTable) (mat1 mat2 : Material) (l : ℕ) (k r : ℝ) : Res Mie :=
  match mat1.cls with
  | .pec => do
    let b ← mat2.medium k
    miePECCore l (k * r) b (Te l (k * r * b.n))
  | _ => do
    let a ← mat1.medium k
    let b ← mat2.medium k
    mieCore l (k * r) a b (Ti l (k * r * a.n)) (Te l (k * r * b.n))

/-- scattering.py:13-26, 145-198, 282-301: `scattering(mat1, mat2).mie_internal` for one `(k, l)`. -/
noncomputable def mieInternal (Ti Te : BesTable) (mat1 mat2 : Material) (l : ℕ) (k r : ℝ) : Res Mie :=
  match mat2.cls with
  | .pec => do
    let a ← mat1.medium k
    miePECIntCore l (k * r) a (Ti l (k * r * a.n))
  | _ => do
    let b ← mat2.medium k
    let a ← mat1.medium k
    mieIntCore l (k * r) a b (Ti l (k * r * a.n)) (Te l (k * r * b.n))

/-- `iv[:, 0:-1], iv[:, 1:], kv[:, 0:-1], kv[:, 1:]` for one row. -/
def besCols (iv kv : List ℝ) : List Bes :=
  (((iv.dropLast.zip iv.tail).zip (kv.dropLast.zip kv.tail)).map fun p : (ℝ × ℝ) × (ℝ × ℝ) =>
    ⟨p.1.1, p.1.2, p.2.1, p.2.2⟩)

/-- the call `bessel_sk.mie_bessels(xs, lmin-1, lmax)`, with the entries arranged by row and `l` -/
noncomputable def besRows (xs : List ℝ) (lmin lmax : ℕ) : Res (List (List Bes)) := do
  let t ← mieBessels xs ((lmin : ℤ) - 1) lmax
  .ok ((t.1.zip t.2).map fun p : List ℝ × List ℝ => besCols p.1 p.2)

/-- scattering.py:89-143 `mie(k, lmin, lmax, r)` on arrays, two non-PEC materials: one row per wavenumber, one column
per `l`. -/
noncomputable def mieArr (mat1 mat2 : Material) (ks : List ℝ) (lmin lmax : ℕ) (r : ℝ) : Res (List (List Mie)) := do
  let as ← ks.mapM mat1.medium
  let bs ← ks.mapM mat2.medium
  let te ← besRows (ks.zipWith (fun k (b : Medium) => k * r * b.n) bs) lmin lmax
  let ti ← besRows (ks.zipWith (fun k (a : Medium) => k * r * a.n) as) lmin lmax
  ((ks.zip (as.zip bs)).zip (ti.zip te)).mapM fun p : (ℝ × Medium × Medium) × List Bes × List Bes =>
    ((List.range' lmin (lmax + 1 - lmin)).zip (p.2.1.zip p.2.2)).mapM fun q : ℕ × Bes × Bes =>
      mieCore q.1 (p.1.1 * r) p.1.2.1 p.1.2.2 q.2.1 q.2.2

/-- scattering.py:28-86 `mie_k0(lmin, lmax, R)` for one `l`.  `frac w nu` stands for
`bessel_sk.i_fraction(w, nu)` (line 68). -/
noncomputable def mieK0 (frac : ℝ → ℝ → ℝ) (mat1 mat2 : Material) (l : ℕ) (R : ℝ) : Res Mie := do
  let muMd ← mat2.mu 0
  if ¬ mat2.sigmaFinite then .error .notImplementedError
  else
    let diel2 ← mat2.dielectric
    if ¬ diel2 then .error .notImplementedError
    else
      let epsMd ← mat2.epsilon 0
      let nMd := Real.sqrt (epsMd * muMd)
      let lnc := -Real.log (2 * l + 1) - 2 * ln2dbl l
      let sgn : ℝ := (-1) ^ l
      let bTM ← cdiv (l + 1) l
      match mat1.cls with
      | .pec => .ok ⟨sgn * 1, -sgn * bTM, lnc⟩
      | _ =>
        let muSp ← mat1.mu 0
        let wPR := match mat1.firstWp with
          | .ok w => w * R / 2.998e14
          | .error _ => 0
        if ¬ mat1.sigmaFinite then
          let ft := -l + wPR * frac wPR (l - 0.5)
          let bTE ← cdiv (muMd * ft - muSp * (l + 1)) (muSp * l + muMd * ft)
          .ok ⟨sgn * bTE, -sgn * bTM, lnc⟩
        else
          let bTE ← cdiv (-(l + 1) * (muSp - muMd)) (l * (muSp + muMd) + muMd)
          let diel1 ← mat1.dielectric
          if diel1 then
            let epsSp ← mat1.epsilon 0
            let n0 := Real.sqrt (muSp * epsSp)
            let q ← cdiv (muMd * n0 ^ 2 - muSp * nMd ^ 2) (l * muMd * n0 ^ 2 + (l + 1) * muSp * nMd ^ 2)
            .ok ⟨sgn * bTE, -sgn * ((l + 1) * q), lnc⟩
          else .ok ⟨sgn * bTE, -sgn * bTM, lnc⟩

/-- scattering.py:201-259 `mie_internal_k0(lmin, lmax, R)` for one `l`.  `lnK x l` stands for the entry `l` of
`bessel_sk.lnknu(x, lmax)` (line 240).  That table always starts at order zero; for `lmin > 1` the shapes in
line 241 or in the final `append` do not fit (ValueError). -/
noncomputable def mieInternalK0 (lnK : ℝ → ℕ → ℝ) (mat1 mat2 : Material) (lmin l : ℕ) (R : ℝ) : Res Mie := do
  let muI ← mat1.mu 0
  let muE ← mat2.mu 0
  if ¬ mat1.sigmaFinite then .error .notImplementedError
  else
    let diel1 ← mat1.dielectric
    if ¬ diel1 then .error .notImplementedError
    else
      let epsI0 ← mat1.epsilon 0
      let lnc := Real.log (2 * l + 1) + 2 * ln2dbl l
      let sgn : ℝ := (-1) ^ l
      let bTM : ℝ := l / (l + 1)
      match mat2.cls with
      | .pec => .ok ⟨sgn * 1, -sgn * bTM, lnc⟩
      | _ =>
        let wPR := match mat2.firstWp with
          | .ok w => w * R / 2.998e14
          | .error _ => 0
        if ¬ mat2.sigmaFinite then
          if lmin ≠ 1 then .error .valueError
          else
            let kr := Real.exp (lnK wPR (l - 1) - lnK wPR l) * wPR / (2 * l - 1)
            let kf := -l - wPR * kr
            let bTE ← cdiv (-(muE * l + muI * kf)) ((l + 1) * muE - muI * kf)
            .ok ⟨sgn * bTE, -sgn * bTM, lnc⟩
        else
          let bTE ← cdiv ((-muE + muI) * l) (l * (muI + muE) + muE)
          let diel2 ← mat2.dielectric
          if diel2 then
            let epsE ← mat2.epsilon 0
            let epsI ← mat1.epsilon 0
            let q ← cdiv (l * (epsE - epsI)) ((l + 1) * epsE + epsI * l)
            .ok ⟨sgn * bTE, -sgn * q, lnc⟩
          else .ok ⟨sgn * bTE, -sgn * bTM, lnc⟩

/-- scattering.py:303-321 `fresnel(kperp, kn)`, given the responses of plate and medium. -/
noncomputable def fresnelCore (P M : Medium) (kperp kn : ℝ) : Res (ℝ × ℝ) := do
  let sqrtM := Real.sqrt (kperp ^ 2 + (kn * M.n) ^ 2)
  let sqrtP := Real.sqrt (kperp ^ 2 + (kn * P.n) ^ 2)
  let te ← cdiv (P.mu * sqrtM - M.mu * sqrtP) (P.mu * sqrtM + M.mu * sqrtP)
  let tm ← cdiv (P.eps * sqrtM - M.eps * sqrtP) (P.eps * sqrtM + M.eps * sqrtP)
  .ok (te, tm)

/-- scattering.py:13-26, 303-329: `scattering(mat1, mat2).fresnel`. -/
noncomputable def fresnel (mat1 mat2 : Material) (kperp kn : ℝ) : Res (ℝ × ℝ) :=
  match mat1.cls with
  | .pec => .ok (-1, 1)
  | _ => do
    let P ← mat1.medium kn
    let M ← mat2.medium kn
    fresnelCore P M kperp kn

/-- scattering.py:370-391 (and stratified_sphere_scattering.py:95-110): `mie_coated` for one `(k, l)`, coating `a`,
medium `b`, and the coefficients `q` of the core in the coating material. -/
noncomputable def coatedCore (l : ℕ) (kra : ℝ) (a b : Medium) (Bi Be : Bes) (q : Mie) : Res Mie := do
  let sign : ℝ := (-1) ^ l
  let pih := Real.pi / 2
  let pihI := 1 / pih
  let exp1 := Real.exp (Bi.k1 - Bi.i1 + q.ln)
  let idi := idT l (kra * a.n) Bi
  let ide := idT l (kra * b.n) Be
  let kdi := kdT l (kra * a.n) Bi
  let kde := kdT l (kra * b.n) Be
  let z := (kdi * b.mu - ide * a.mu) * pihI * sign * exp1 * q.TE - (idi * b.mu - ide * a.mu)
  let n := (kdi * b.mu - kde * a.mu) * pihI * sign * exp1 * q.TE - (idi * b.mu - kde * a.mu)
  let te ← cdiv (sign * pih * z) n
  let z' := (kdi * b.eps - ide * a.eps) * pihI * sign * exp1 * q.TM - (idi * b.eps - ide * a.eps)
  let n' := (kdi * b.eps - kde * a.eps) * pihI * sign * exp1 * q.TM - (idi * b.eps - kde * a.eps)
  let tm ← cdiv (sign * pih * z') n'
  .ok ⟨te, tm, Be.i1 - Be.k1⟩

/-- scattering.py:332-394 `coated_miescattering(mat1, mat2, mat3).mie_coated(k, lmin, lmax, ri, ra)` for one
`(k, l)`.  All `mie_bessels` calls use the same table here. -/
noncomputable def mieCoated (T : BesTable) (mat1 mat2 mat3 : Material) (l : ℕ) (k ri ra : ℝ) : Res Mie := do
  let q ← mie T T mat1 mat2 l k ri
  let a ← mat2.medium k
  let b ← mat3.medium k
  coatedCore l (k * ra) a b (T l (k * ra * a.n)) (T l (k * ra * b.n)) q

end CasSph
