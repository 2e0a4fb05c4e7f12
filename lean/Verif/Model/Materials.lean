import Verif.Model.Gaunt

/-!
# Model of CasimirRio/materials.py and CasimirRio/materials_converter.py

Doubles are reals.  `k` is one entry of the numpy array the methods are applied to (all operations are
elementwise).  A division by zero, which numpy turns into inf or nan, is the error value
`zeroDivisionError`.
-/

namespace CasSph

open Classical

/-- One tuple `(w_Pl, w_R, gamma)` of `e_properties` (materials.py:107). -/
structure Osc where
  wP : ℝ
  wR : ℝ
  gamma : ℝ

/-- The three classes of materials (materials.py:35-41, 101-165, 168-234). -/
inductive MatClass where
  | pec
  | smith
  | lorentz
  deriving DecidableEq

/-- An instance of `PerfectConductor`, `LorentzSmithMaterial` or `LorentzMaterial`: class, `e_properties`,
`b_properties` (`none` is the empty tuple).  A `PerfectConductor` has no properties; the fields are
ignored then. -/
structure Material where
  cls : MatClass
  e : List Osc
  b : Option (ℝ × ℝ)

/-- materials.py:13-14, `Material.omega_norm`. -/
noncomputable def omegaNorm : ℝ := 2.998e8 / 1e-6

/-- materials.py:43-62, `is_sigma_finite`: `min` of an empty list raises `ValueError`, which is caught. -/
noncomputable def isSigmaFinite (e : List Osc) : Bool :=
  match ((e.filter fun p => decide (p.wR = 0 ∧ ¬ p.wP = 0)).map Osc.gamma).min? with
  | none => true
  | some g => decide (¬ g = 0)

/-- materials.py:64-81, `is_dielectric`. -/
noncomputable def isDielectric : List Osc → Bool
  | [] => true
  | p :: ps => if ¬ p.wP = 0 ∧ p.wR = 0 then false else isDielectric ps

/-- materials.py:83-99, `is_magnetic`; the second `none` is Python's `None`, returned implicitly. -/
noncomputable def isMagnetic : Option (ℝ × ℝ) → Option Bool
  | none => some false
  | some (mu0, _) => if ¬ mu0 = 0 then some true else none

namespace Material

/-- materials.py:37, 119 and 186, the attribute `is_sigma_finite`. -/
noncomputable def sigmaFinite (M : Material) : Bool :=
  match M.cls with
  | .pec => false
  | _ => isSigmaFinite M.e

/-- The attribute `is_dielectric`; `PerfectConductor` does not define it. -/
noncomputable def dielectric (M : Material) : Res Bool :=
  match M.cls with
  | .pec => .error .attributeError
  | _ => .ok (isDielectric M.e)

/-- materials.py:210-213, one pass of the loop in `LorentzMaterial.epsilon`. -/
noncomputable def lorentzTerm (k : ℝ) (p : Osc) : Res ℝ :=
  cdiv ((p.wP / omegaNorm) ^ 2) ((p.wR / omegaNorm) ^ 2 + k ^ 2 + p.gamma / omegaNorm * k)

/-- materials.py:141-144, the loop body of `LorentzSmithMaterial.epsilon`. -/
noncomputable def smithTerm (k : ℝ) (p : Osc) : Res ℝ := do
  let a ← cdiv ((p.wP / omegaNorm) ^ 2) (k ^ 2 + p.gamma / omegaNorm * k)
  let c ← cdiv (0.49 * (p.gamma / omegaNorm)) (k + p.gamma / omegaNorm)
  .ok (a * (1 - c))

/-- materials.py:16-23, 124-145 and 191-214, `epsilon`; `PerfectConductor` inherits the base method,
which raises. -/
noncomputable def epsilon (M : Material) (k : ℝ) : Res ℝ :=
  match M.cls with
  | .pec => .error .notImplementedError
  | .smith =>
    if M.e.length = 1 then M.e.foldlM (fun acc p => do let t ← smithTerm k p; .ok (acc + t)) 1
    else .error .assertionError
  | .lorentz => M.e.foldlM (fun acc p => do let t ← lorentzTerm k p; .ok (acc + t)) 1

/-- materials.py:40-41, 147-165 and 216-234, `mu` (array argument). -/
noncomputable def mu (M : Material) (k : ℝ) : Res ℝ :=
  match M.cls with
  | .pec => .ok 1
  | _ =>
    match M.b with
    | none => .ok 1
    | some (mu0, w) => do
      let t ← cdiv k (w / omegaNorm)
      let u ← cdiv (mu0 - 1) (1 + t)
      .ok (1 + u)

/-- `e_properties[0][0]`, as read by scattering.py:64 and 236. -/
def firstWp (M : Material) : Res ℝ :=
  match M.cls with
  | .pec => .error .attributeError
  | _ =>
    match M.e with
    | [] => .error .indexError
    | p :: _ => .ok p.wP

end Material

/-- materials.py:35-41, a `PerfectConductor` instance. -/
def perfectConductor : Material := ⟨.pec, [], none⟩

/-! ## The catalogue (materials.py:236-372) -/

/-- materials.py:236 -/
noncomputable def eGold : List Osc := [⟨1.37e16, 0, 5.77e13⟩]
/-- materials.py:237 -/
noncomputable def eGoldBimonte : List Osc := [⟨1.37e16, 0, 5.32e13⟩]
/-- materials.py:238 -/
noncomputable def eSilver : List Osc := [⟨1.46e16, 0, 3.46e13⟩]
/-- materials.py:239 -/
noncomputable def eSilverplasma : List Osc := [⟨1.46e16, 0, 0⟩]
/-- materials.py:241 -/
noncomputable def eGoldplasma : List Osc := [⟨1.37e16, 0, 0⟩]
/-- materials.py:243 -/
noncomputable def eGoldplasmawp1 : List Osc := [⟨1.37e16, 0, 0⟩]
/-- materials.py:244 -/
noncomputable def eGoldplasmawp01 : List Osc := [⟨1.37e15, 0, 0⟩]
/-- materials.py:245 -/
noncomputable def eGoldplasmawp10 : List Osc := [⟨1.37e17, 0, 0⟩]
/-- materials.py:247 -/
noncomputable def eMercury : List Osc := [⟨5.4e15, 0, 2.5e14⟩]
/-- materials.py:248 -/
noncomputable def eMercuryplasma : List Osc := [⟨5.4e15, 0, 0⟩]
/-- materials.py:249 -/
noncomputable def eMercurySmith : List Osc := [⟨1.98e16, 0, 1.647e15⟩]
/-- materials.py:250 -/
noncomputable def eMercurySmithplasma : List Osc := [⟨1.98e16, 0, 0⟩]
/-- materials.py:251 -/
noncomputable def eSiC : List Osc := [⟨7e14, 0, 1.5e14⟩]
/-- materials.py:252 -/
noncomputable def eSiCplasma : List Osc := [⟨7e14, 0, 0⟩]
/-- materials.py:254 -/
noncomputable def eWater : List Osc := [⟨4.16e13, 3.48e13, 0⟩, ⟨4.16e12, 1.33e12, 0⟩, ⟨1.10e13, 7.49e12, 0⟩, ⟨1.14e14, 1.56e14, 0⟩, ⟨9.00e15, 1.44e16, 0⟩, ⟨1.63e16, 3.18e16, 0⟩, ⟨1.48e16, 4.01e16, 0⟩]
/-- materials.py:261 -/
noncomputable def eArtificial : List Osc := [⟨1e18, 0, 0⟩]
/-- materials.py:262 and the `extend` below it -/
noncomputable def eModWater : List Osc := [⟨8e11, 1e11, 0⟩] ++ eWater
/-- materials.py:264 -/
noncomputable def eEthanol : List Osc := [⟨Real.sqrt 23.84 * 6.6e14, 6.6e14, 0.1e13⟩, ⟨Real.sqrt 0.852 * 1.14e16, 1.14e16, 0.1e13⟩]
/-- materials.py:266 -/
noncomputable def eAlternEth : List Osc := [⟨2.41e12, 2.46e12, 0⟩, ⟨8.35e12, 6.56e12, 0⟩, ⟨6.37e13, 1.70e14, 0⟩, ⟨3.70e15, 1.04e16, 0⟩, ⟨1.49e16, 2.31e16, 0⟩, ⟨1.17e16, 2.37e16, 0⟩, ⟨1.77e16, 6.65e16, 0⟩]
/-- materials.py:273 -/
noncomputable def ePtfe : List Osc := [⟨4.40e10, 4.56e11, 0⟩, ⟨1.56e12, 1.15e13, 0⟩, ⟨3.15e13, 8.46e13, 0⟩, ⟨6.41e13, 1.91e14, 0⟩, ⟨4.50e15, 1.02e16, 0⟩, ⟨1.87e16, 2.83e16, 0⟩, ⟨2.08e16, 6.40e16, 0⟩, ⟨2.32e16, 1.18e17, 0⟩]
/-- materials.py:281 -/
noncomputable def eBromobenzene : List Osc := [⟨1.78e12, 7.63e12, 0⟩, ⟨6.37e12, 4.69e13, 0⟩, ⟨3.68e13, 1.69e14, 0⟩, ⟨7.48e15, 1.03e16, 0⟩, ⟨1.62e16, 2.02e16, 0⟩, ⟨1.79e16, 3.65e16, 0⟩, ⟨1.46e16, 1.52e17, 0⟩]
/-- materials.py:288 -/
noncomputable def eAltern2Ps : List Osc := [⟨3.17e13, 1.79e14, 0⟩, ⟨1.48e11, 1.37e12, 0⟩, ⟨2.66e12, 1.81e13, 0⟩, ⟨2.27e14, 2.37e15, 0⟩, ⟨5.03e15, 9.30e15, 0⟩, ⟨1.24e16, 1.53e16, 0⟩, ⟨1.98e16, 3.07e16, 0⟩, ⟨1.52e16, 1.04e17, 0⟩]
/-- materials.py:296 -/
noncomputable def eAltern1Ps : List Osc := [⟨1.67e11, 1.52e12, 0⟩, ⟨2.97e12, 2.01e13, 0⟩, ⟨7.89e14, 5.89e15, 0⟩, ⟨3.48e13, 1.99e14, 0⟩, ⟨5.01e15, 9.10e15, 0⟩, ⟨1.22e16, 1.55e16, 0⟩, ⟨1.63e16, 2.86e16, 0⟩, ⟨1.42e16, 7.82e16, 0⟩]
/-- materials.py:304 -/
noncomputable def ePolystyrene : List Osc := [⟨0.2 * 5.54e14, 5.54e14, 0⟩, ⟨1.56 * 1.35e16, 1.35e16, 0⟩]
/-- materials.py:306 -/
noncomputable def eSilicon : List Osc := [⟨5.53e13, 6.24e13, 0⟩, ⟨7.67e13, 1.70e14, 0⟩, ⟨1.10e14, 1.70e14, 0⟩, ⟨1.06e14, 1.69e14, 0⟩, ⟨4.93e15, 2.20e16, 0⟩, ⟨2.34e16, 2.58e16, 0⟩, ⟨5.76e15, 1.24e16, 0⟩, ⟨3.26e16, 1.39e17, 0⟩]

/-- materials.py:317-372, all predefined Lorentz and Lorentz-Smith materials by name. -/
noncomputable def catalogue : List (String × Material) := [
  ("Gold", ⟨.lorentz, eGold, none⟩),
  ("Gold_Bimonte", ⟨.lorentz, eGoldBimonte, none⟩),
  ("Gold_plasma", ⟨.lorentz, eGoldplasma, none⟩),
  ("Gold_plasma_wp1", ⟨.lorentz, eGoldplasmawp1, none⟩),
  ("Gold_plasma_wp01", ⟨.lorentz, eGoldplasmawp01, none⟩),
  ("Gold_plasma_wp10", ⟨.lorentz, eGoldplasmawp10, none⟩),
  ("Gold_magnetic", ⟨.lorentz, eGold, some (4, 1e9)⟩),
  ("Silver", ⟨.lorentz, eSilver, none⟩),
  ("Silver_plasma", ⟨.lorentz, eSilverplasma, none⟩),
  ("SiC", ⟨.lorentz, eSiC, none⟩),
  ("SiC_plasma", ⟨.lorentz, eSiCplasma, none⟩),
  ("Mercury", ⟨.lorentz, eMercury, none⟩),
  ("Mercury_plasma", ⟨.lorentz, eMercuryplasma, none⟩),
  ("MercurySmith", ⟨.smith, eMercurySmith, none⟩),
  ("MercurySmith_plasma", ⟨.lorentz, eMercurySmithplasma, none⟩),
  ("Water", ⟨.lorentz, eWater, none⟩),
  ("modifiedWater", ⟨.lorentz, eModWater, none⟩),
  ("Ethanol", ⟨.lorentz, eEthanol, none⟩),
  ("AlternEth", ⟨.lorentz, eAlternEth, none⟩),
  ("Altern1Ps", ⟨.lorentz, eAltern1Ps, none⟩),
  ("Altern2Ps", ⟨.lorentz, eAltern2Ps, none⟩),
  ("Polystyrene", ⟨.lorentz, ePolystyrene, none⟩),
  ("Bromobenzene", ⟨.lorentz, eBromobenzene, none⟩),
  ("Ptfe", ⟨.lorentz, ePtfe, none⟩),
  ("Vacuum", ⟨.lorentz, [], none⟩),
  ("Artificial", ⟨.lorentz, eArtificial, none⟩),
  ("Silicon", ⟨.lorentz, eSilicon, none⟩)]

/-! ## materials_converter.py -/

/-- materials_converter.py:10-12, `eV/hbar`. -/
noncomputable def omegaEV : ℝ := 1.60218e-19 / 1.05457e-34

/-- The heap of inner lists `[strength, energy]`: address ↦ contents. -/
abbrev PairHeap := ℕ → ℝ × ℝ

/-- materials_converter.py:14-16, loop body: both assignments go through the address shared by `params`
and its shallow copy. -/
noncomputable def transformStep (h : PairHeap) (a : ℕ) : PairHeap :=
  let h1 := Function.update h a (Real.sqrt ((h a).1 * ((h a).2 * omegaEV) ^ 2), (h a).2)
  Function.update h1 a ((h1 a).1, (h1 a).2 * omegaEV)

/-- materials_converter.py:5-17, `transform`: `params` is a list of addresses of inner lists; the result is
the returned list (a copy with the same addresses) and the heap afterwards. -/
noncomputable def transform (h : PairHeap) (params : List ℕ) : List ℕ × PairHeap :=
  (params, params.foldl transformStep h)

end CasSph
