# Formal model of CasimirRio (UmrathSt/CasSphSph) in Lean 4

## Layout

* `lean/Verif/Model/*.lean`  – the model: one definition per Python/Cython function, each with
  a comment citing file and lines of `/repo` and naming its simplifications.
* `lean/Verif/Spec/*.lean`   – small independent specifications (Bessel functions as series, matrix
  facts, PDE-free reference formulas) that do not mention the model.
* `lean/Verif/Lemmas/*.lean` – auxiliary lemmas.
* `lean/Verif/Props/*.lean`  – the property theorems `Cxx_…`, each followed by an `example` that shows
  a concrete non-trivial case meeting its hypotheses.
* `properties.jsonl`, `MANIFEST.json` – generated by `tools/props.py`, `tools/manifest.py`.
* `seeded/LOG.jsonl` – mutation testing log.

## Trusted base

* Lean's kernel, and the axioms `propext`, `Classical.choice`, `Quot.sound` (every theorem depends on a
  subset of these; no other axioms, no `sorry`, no `native_decide`/`bv_decide`).
* The faithfulness of the hand-written model to the Python text, in particular:
  * IEEE doubles are idealised as real numbers: no rounding, overflow or NaN. Where the code relies
    on a non-real float value (log of a negative number, division by zero) the model either returns
    an explicit error/bottom value or the theorem carries the hypothesis that excludes it.
  * numpy semantics used (slicing, broadcasting of length-1 axes, `np.append`, `argmax`, `gradient`,
    `slogdet`, `linalg.inv`, in-place operators) are transcribed by hand at the places they are used.
  * Python exceptions are values of an inductive type `PyErr`; a function that may raise returns `Res α`.
  * `while` loops are fuel-indexed iterations returning `none` when out of fuel. Termination
    theorems say that some fuel suffices; partial-correctness theorems quantify over all fuel.
  * scipy's `quad`, `gammaln`, `interp1d` and polynomial tables are parameters or exact mathematics,
    as stated at the definition.

  * `np.float` exists (numpy < 1.24), as the code requires.

## What is modelled

| code | model |
|---|---|
| matrix_balancing.pyx `balance` | `Model/Balance` complete, over the reals; `Model/FloatBalance` the same function with rounded operations (no overflow, no underflow; the constant 1e-320 is a parameter) |
| geometry.py linear algebra helpers | `Model/LinAlg` complete |
| geometry.py `blockmatrices`, scaling | `Model/Blocks`, single k (the code maps over k) |
| geometry.py `single_k_scale`, `dynamic_scaling`, `blockmatrices` with rounded operations | `Model/FloatBlocks` (no overflow, no underflow; any order of the sums; forceFlag = 0), `Model/FloatPair` with Mie coefficients computed by `Model/FloatMie`, the translation coefficients given |
| geometry.py `mSumme`, `mSumme_k0`, thermodynamics.py `free_energy` with rounded operations | `Model/FloatSum` (the sums and the stop rules; the logarithms of the determinants are parameters) |
| thermodynamics.py `entropy` (`np.gradient`) with rounded operations | `Model/FloatEntropy` |
| scattering.py `mie_k0`, translation.py `trans_k0_ext`, geometry.py `blockmatrices_k0_ext` with rounded operations | `Model/FloatZero` (gammaln, permittivities and the logarithms of the determinants are parameters; the branch of an infinite conductivity, which uses `i_fraction`, is modelled but not covered by C131) |
| geometry.py m-sums, round trips | `Model/MSum`, contributions of subspaces as parameters; `Model/StaticSum` the zero-frequency contribution itself, `Model/FiniteSum` the contribution of non-zero wavenumbers |
| what `finiteT` gets from a geometry of two homogeneous separate spheres | `Model/Pair`: Mie tables, translation, determinants and m-sums put together; the cache of Mie coefficients is left out, as the m-sums begin with m = 0; a balancing loop that does not end or a value that is not finite is outside this model, and C100 shows that it does not occur |
| the same for spheres given by lists of materials and radii | `Model/StratPair`, `Model/StratZero` |
| the same for a sphere inside a cavity | `Model/Cavity` |
| geometry.py caches, constructor, Coated class | `Model/Geometry` |
| thermodynamics.py | `Model/Thermo`, geometry as parameter |
| thermodynamics.py class `oneRoundtrip`, `F_tempcorr`, `l_konvergenz`; geometry.py `mSum_oneRoundtrip` | `Model/OneRoundtrip`; whether the name `xrange` exists (Python 2) is a parameter, scipy's `quad` with weight is a parameter |
| thermodynamics.py `e0` | `Model/ZeroTemp`: the value, not the error estimate; quadrature as parameter (`Quad`), non-negative wavenumbers; the array with one element returned by `mSumme` is taken as a number |
| bessel_sk.py | `Model/Bessel` complete, over the reals; `Model/FloatBessel` `lnknu` and `lniknu` with rounded operations (no overflow, no underflow, small integers exact) |
| scattering.py, stratified_sphere_scattering.py | `Model/Scattering`, `Model/Stratified`, one k and l at a time; `Model/FloatMie` `mie`, `mie_internal`, `miePEC`, `miePEC_internal` for one `(k, l)` with rounded operations (given permittivities); `Model/FloatPFA` `fresnel` and the round trips of PFA.py with rounded operations |
| translation.py, cython_gaunt.pyx | `Model/Translation`, `Model/Gaunt`; `Model/FloatTrans` `get_vl1l2` with rounded operations (Gaunt coefficients and Bessel functions given; integers and signs exact), `Model/FloatGaunt` `gaunt` with rounded operations (integer expressions exact); `Model/FloatTransArr` `trans_ab` with everything it is computed from in rounded arithmetic |
| materials.py, materials_converter.py | `Model/Materials` |
| PFA.py, raw_PFA.py | `Model/PFA`, quadrature as parameter (`Quad`); theorems on values assume it exact on integrable functions (`Quad.Exact`, satisfied by the Lebesgue integral) |
| worker.py | `Model/Worker`, everything outside the script itself as parameter (`Env`) |
| helper_functions.py, data_inter_extrapolation.py | `Model/Helpers`, `Model/DataInterp` (interp1d for increasing data, curve_fit as parameter) |
| textbox_get_example.py | `Model/Textbox`: texts, labels, coordinates and colours; `float` as parameter |

Not modelled: floating-point rounding (except in `balance`, C110, in bessel_sk.py, C122, in the Mie coefficients, C123, in scaling and assembly, C127, in the sums, C130, at zero frequency, C131, for plates, C142, in `slogdet`, C144, in the translation coefficients, C145, C147 and C149, in `gaunt`, C146, and in `entropy`, C150), overflow and underflow, printing, wall-clock timing, multiprocessing execution (only the
fact that it cannot be reached), Tk itself, the example configuration, the setup scripts.

## Plan per property

| id | model | proof |
|---|---|---|
| C01 | balance as fuelled loop on matrices | loop invariant: result = D⁻¹MD, D powers of two; det/trace/charpoly by similarity |
| C02 | same | inner loops by Archimedean argument; outer by decrease of the off-diagonal norm by a fixed amount per non-final sweep |
| C03 | same | last sweep changes nothing; exit conditions of inner loops give ratio bound |
| C04 | same | invariant: the swap matrix is a fixed point and the flag is never set |
| C05 | matrix_append, slogdet with −∞ for det 0 | C01 + reindexing of block matrices |
| C06 | branch on size | determinant of block-diagonal matrix |
| C07 | Schur complement inverse with error values | block-matrix algebra |
| C08 | same | counterexample (swap matrix) + partial from C07 |
| C09 | trace_dot_3d | Jacobi's formula |
| C10 | scaling tensor | diagonal similarity |
| C11 | blockmatrices | block factorisation + C10 |
| C12 | translation coefficients in m | signature similarity diag(1,−1) |
| C13, C14, C19 | m-loops as recursion with early stop | induction on the loop |
| C15 | same | counterexample + partial under sign preservation |
| C16, C18 | trace loops | induction |
| C17 | spec: log det | eigenvalues over ℂ and the logarithm series |
| C20–C22 | object state = Mie caches | induction over histories; counterexamples |
| C23–C25 | finiteT object as state machine | induction over histories; counterexamples |
| C26 | slice loop by well-founded recursion | induction on remaining length |
| C27–C30 | stride sums, np.gradient | list induction |
| C31–C34 | constructors | real inequalities, case analysis |
| C35 | recurrence | induction to closed form |
| C36, C37 | sinh/cosh | real analysis |
| C38, C39 | continued fraction, Wronskian | series spec of i_l, recurrences, bracketing by induction |
| C40 | batch level model of lniknu | counterexamples + partial |
| C41 | slicing | list lemmas |
| C42, C43 | Mie formulas at one (k,l) | signs of i_{l-1}/i_l, k_{l-1}/k_l |
| C44–C46 | k → 0 limits | asymptotics of i_l, k_l from series; counterexamples |
| C47, C48 | coated recursion | algebra + Wronskian; induction on layers |
| C49 | list heap | counterexample + partial |
| C50 | Fresnel | algebra |
| C51, C52 | gaunt recursion with arrays as functions | induction; divisors as integer polynomials |
| C53, C54 | translation coefficients | parity of lpp; monotonicity of Bessel functions in order |
| C55 | zero-frequency exterior | closed form of the top Gaunt coefficient + asymptotics |
| C56–C60 | materials | list induction, real inequalities |
| C61–C64 | PFA | real analysis; counterexamples |
| C65, C66 | file system / config as functions; `Complete` (what is written in a complete configuration) | case analysis; counterexample; tracing each option to the argument |
| C67–C69 | helpers | induction, ring |
| C70–C73 | Blocks | linearity of the sums; counterexample; C10 and powers of r1/L; size check |
| C74 | LinAlg | slice-wise matrix algebra |
| C75, C76 | Geometry | state of the Mie caches; shapes of the broadcast product; exception inside the update |
| C79, C80 | scattering, exact Bessel functions | reference problem in `Spec/Scattering` (radial functions, continuity conditions); monotonicity of `(x i_l)'`, `(x k_l)'` |
| C81 | stratified recursion | invariant: `u` and `(x u)'` are non-negative at every interface; induction on the shells |
| C82 | constructor | case analysis |
| C83 | scattering, exact Bessel functions | Turán inequality, monotonicity of `(x i_l)'/(x^2 i_l)` |
| C77 | Gaunt recursion | differential equation of the product of Legendre functions |
| C78 | zero-frequency interior | closed form of the lowest Gaunt coefficient (from C77) + asymptotics of the table of i_l |
| C84 | PFA | signs of the Fresnel coefficients |
| C85–C87 | PFA with exact quadrature | reference in `Spec/PFA` (polylogarithms); series expansion, exchange of sum and integral, zeta(4); monotonicity in the distance |
| C88, C89 | PFA, raw_PFA | rewriting |
| C90 | helpers | linear interpolation of collinear data; five-point formula |
| C91 | blocks, Mie and translation coefficients at k > 0 and k = 0 | conjugation by powers of k, C44, C55, C72; counterexample in the dipole approximation |
| C92–C94 | zero-frequency blocks, Mie coefficients, m-sum | symmetrisation to `1 ∓ K Kᵀ`; Schur test with the binomial array `C(a+b,a) x^(a+1/2) y^(b+1/2)`; rank-one updates for the monotonicity; dominated convergence for the sum over m |
| C95 | translation coefficients | reference in `Spec/TransIntegral`; Laplace representation of k_l (`Lemmas/Laplace`), Gaunt expansion of products of Legendre functions continued to t > 1 (`Lemmas/LegendreOut`, `Lemmas/TransPol`) |
| C96 – C98 | contribution of one m at a non-zero wavenumber | the round-trip matrix is similar to ±(Gram matrix of an array) whose entries are integrals over evanescent waves (`Lemmas/FiniteContr`, `Lemmas/FiniteGram`, `Lemmas/GramSign`); size of the Mie coefficients in `Lemmas/MieSize`; Mie coefficients with exact Bessel functions |
| C99 | m-sums at non-zero wavenumbers | model `Model/FiniteSum`; the values of `single_m` are inputs of the loop models of `Model/MSum` |
| C100 | `free_energy` from materials and geometry | model `Model/Pair` put into `Model/Thermo`; non-magnetic materials; `frac` (Bessel fraction of plasma spheres at zero frequency) is a parameter that covered materials do not use |
| C101 | `mSumOneRoundtrip` | loop invariant on the partial sums; sign and size from C99 |
| C102 | `procOne`, `afterCallsOne` | invariant: caches stay empty; induction on the history |
| C103 | `fTempcorr`, `lKonvergenz` | unfolding; `quad` any routine with `PassesErrors` |
| C104 | `e0` | continuity of the determinants in k (`Lemmas/WaveCont`), measurability of the early terminated m-sum (`Lemmas/PairValue`), bound `exp(-x)/√(1 - exp(-2x))` with an elementary integral (`Lemmas/SharpBound`) |
| C105 | `e0`, `freeEnergy` | Riemann sums of a dominated continuous function (`Lemmas/Riemann`) |
| C106 | as C100, C104 | one non-vanishing entry of the Gram array makes the determinant strict (`C96_strict`) |
| C107 | as C100, C104 | the determinants are `det(1 - A Aᵀ)` of one rectangular array (`lnDetV_kern`, `k0V`); exchanging the spheres transposes it (`Lemmas/PairGram`, `Lemmas/PairGramK0`) |
| C108 | as C100, C104 | entrywise comparison of the arrays: the kernel falls by `exp(-k (L'-L))`, its static limit by `(L/L')³`; comparison of `-ln det(1 - G)` by the series over traces (`HSContr.compare`) |
| C109 | as C100, `catalogue` | in vacuum every permittivity is at least one (`epsV_ge`), hence the contrasts of C100 and C106 are equal; the catalogue by cases |
| C110 | `FlArith.balance`: `balance` over an arithmetic with `Laws` (scaling by powers of two exact, relative error u otherwise) | loops and scaling coincide with the exact ones on representable numbers; bounds of the sums by induction; each rescaling lowers the off-diagonal weight by a fixed amount |
| C111 | as C100, C104; `PairIn.cut` | the matrices for smaller cut-offs are minors, their Gram kernels partial sums: monotonicity and limit of `-ln det(1 - G)` from the series over traces (`HSContr.mono`, `.limit`); Tannery over `m`, dominated convergence over the frequency |
| C112 | `retrieveInput`, `clicks` | cases over the three texts; `Shows`: the ovals as sets of points compared with the discs of the spheres |
| C113 | as C100, C104; `Stronger`, `PairIn.metal`, `PairIn.radii` | the reflection coefficients are quotients of solutions of the radial equation, whose derivative with respect to the radius is a sum of squares (`refl_deriv`); static ones as limits; `-ln det(1 - G)` is monotone in non-negative kernels, `det(1 + K K^T)` in the factors of rows and columns (`gram_neg_scale`) |
| C114 | as C100, C104; `PairIn.at`, `DipoleOf`, `Spec/Dipole` | first order of `ln det(1 - σ H Hᵀ)` (`logdet_limit`); limits of the reflection coefficients at small frequencies over k³ (`amp_limit`, from C79), only l = 1 survives; the sum over `m` may stop anywhere from m = 1 on (`PartSum`); domination by perfect conductors at a fixed distance (`part_dominated`), dominated convergence over the frequencies; closed forms by geometric sums and Gamma integrals (`Lemmas/DipoleSum`) |
| C115 | as C100, C104; `scaleMat`, `scalePair` (`Spec/Scaling`), `scaleFT` | every function depends on products of wavenumbers and lengths and on ratios of frequencies only (rewriting, errors included); the slices of `free_energy` by induction; change of variable in `e0`; `C115_needs_analytic_n0` by the decay at large wavenumbers |
| C116 | as C100; `highBound` | bound of each frequency by `sharpExp` (`part_bound`, wherever the sum over `m` stops), geometric sum over the frequencies; entropy through the centred differences of C29 |
| C117 | as C111; `Fits`, `PairIn.mirrorsOf`, `truncBound` | the rows of the kernel beyond the cut-off are those of a larger perfectly conducting sphere times a power of the ratio of the radii (`pecR_power`, `amp_inflate`), so the traces of all powers of the truncated product change by at most this power times those of the larger pair (`trunc_trace`, `trunc_both`); the series of `ln det` sums them up to the interaction of the larger pair, which C100 and C104 bound |
| C118 | `Quad.Exact`; `Spec.mirrorPressure` | differentiation under the integral sign with a bound by the mirrors (`chan_deriv`, `pres_bound`); geometric series and integral of each term (`presM_integral`); locally constant number of frequencies |
| C119 | `Coating`, `BallOK`, `BallPairOK`; `Ball.Dense`, `Ball.Dilute` | induction over the layers: the coefficients of every inner ball lie between those of nothing and of a perfect conductor, growing steeply enough (`StratAmp`, `LayerSign`); a kernel multiplied by factors of modulus at most one changes traces of powers by no more than the kernel itself, so `ln det` and its change with the cut-offs are dominated by perfect conductors (`Dominated`); then C100, C111 and C117 |
| C120 | `CavOK`, `DenseSign`, `HasContrast`; `cavBound`, `cavRatio`. The Bessel functions `i_l` of the translation are taken from the same exact table as those of the Mie coefficients (`transRow`); C36-C39 treat `lniknu` | shifts of regular waves solve a linear differential equation in the distance (`tI_deriv`); the energy of a wave at the wall of the cavity does not grow under a shift towards the wall (`energy_rate`, `shift_energy`), so the kernel of the round trip is a contraction (`kernC_contr`); signs and sizes of the coefficients of the wall against perfect conductors of the same or the other polarisation (`wall_ref`, `ball_ref`) |
| C121 | `CavOK`, `PairIn.Same`, `PairIn.Opposite`; `cavFree` | C120 at the wavenumbers of each slice and at the stand-in `1e-10` (its bound stays finite for `k → 0`), geometric series over the frequencies, dominated convergence for `nmax → ∞`; the exception of `blockmatrices_k0_int` (C73) handed through `mSumme_k0`, `F_alle` and `free_energy` |
| C122 | `RelErr` (relative error of every operation), `sphK`, `sphI` | model `Model/FloatBessel`; `a + log(exp(b-a)+q)` is non-expansive for the maximum of the differences of `a` and `b`, so each step only adds its own rounding; sums of positive numbers and continued fractions are treated by the differences of logarithms (`Near`) |
| C123 | `RelErrM`, `TableErr`, `FromLniknu` (`Spec/FlMie`); `mieCore` etc. with the exact logarithms as reference | `id` and `-kd` are computed with a small relative error (`Near`; `id_l + l` is at most a few times `id_l`, and `id`, `kd` change little with the argument); numerator and denominator have absolute errors relative to the denominator, since `id <= 2 (-kd)`; the loss of sign by an arithmetic that rounds `exp` up or down (`stepFun`) |
| C124 | as C104, C121; `Quad.Exact`, `cavZero`; model `Model/CavityZero` (`geoAt`: `mSumme` as integrand) | continuity of the Mie coefficients of `mie_internal` and of the entries in the wavenumber (`CavOK.rtCav_contAt`), so the determinants are continuous and the values measurable wherever the sum over `m` stops; bound `cavExp`, dominated convergence of Riemann sums |
| C125 | as C111, C121, C124; `PairIn.cut` | `-ln det(1 - σ H Hᵀ)` is monotone in the sections of the infinite array (`GramGood.down`, `.up`); Tannery's theorem for the sum over `m`, dominated convergence for `e0` |
| C126 | `CoefErr`, `WaveErr`, `EntryErr`, `shrink`, `gain` (`Spec/Perturb`) | the round-trip matrix is similar to a product `A Bᵀ` whose entrywise moduli are bounded by a symmetric contraction of norm at most `theta` (`kern_contr_ratio`); the trace norm of the change is at most `delta` times that of the matrix, and `-ln det(1 - σ G Gᵀ)` is comparable to the trace (`HSContr.perturb_rel`, `.trace_le_log`) |
| C127 | `SumOf`, `ElemErr`, `LogSize`, `asmErr` (`Spec/FlBlocks`); `BesselErr`, `FromCode`, `TransErr`, `mieErr` (`Spec/FlPair`); `gain`, `shrink` as in C126. Reference: what `single_m` returns in exact arithmetic | each computed entry is, after a diagonal similarity (the scaling of the rows and columns, also where the rounded scaling factors differ), within `asmErr` of the exact one relative to the sum of the moduli of its terms (`Cl`, `entry_cl`, `dynamicScaling_cl`); all terms of one entry have one sign for perfect conductors (`six_signs`), so the sums of moduli are bounded by the matrix of perfect conductors, and the trace-norm estimate of C126 applies (`GapPair.assembly`) |
| C128 | as C121, C124, C125; `CavStronger`, `MoreContrast`, `WallContrast`, `PairIn.Same`, `PairIn.Opposite` | after multiplication of rows and columns by signs the kernel of a cavity is non-negative and increases with the distance of the centres (`tI_sign_mono`, from the power series of the translation coefficients) and with the amplitudes (`ampV_stronger`, `ampW_stronger`: derivative of the reflection amplitudes with respect to radius and logarithmic derivative); `-ln det(1 - H Hᵀ)` is monotone in non-negative kernels (`HSContr.compare`), for repulsion by scaling of rows and columns |
| C129 | `LogConvexAt`, `ConcaveAt` (in `Props/ConvexDist`); `PairIn.at` changes only the distance | `-ln det(1 - H)` of a non-negative kernel is a series of traces of powers, so every relation that is preserved by sums, products, limits and integrals passes from the entries to the energies (`MeanRel.det`, `.int`); for separate spheres the entries are Laplace integrals of `exp(-k L x)` with non-negative weights (`lap_gm`: Hölder), for the cavity power series in the distance with coefficients of one sign (`tI_am`); four-point inequality from concavity (`concave_step`) |
| C130 | `runSum`, `IsSlice` (`Spec/FlSum`), `mSum`, `FirstOr` of C21, `Sums` of C127; `FlSmallChange`, `Alive`, `CodeAt` (beside the theorems). Model: `Model/FloatSum` | calculus of numbers known up to a relative error of a bound and an absolute error (`Ab`), under sums with any brackets (`SumOf.ab`) and in the loop (`runSum_ab`, `flLoop_spec`); the slices of `slicewise_eval` give the terms at the computed wavenumbers (`flMats`); C127 gives kappa at each wavenumber (`ComputedAt.step`) |
| C131 | `RelErrZ`, `zeroSize`, `zeroErr` (`Spec/FlZero`), `Sums`, `gain`, `shrink` as in C127; `DetErr0`, `pairErrZ` beside the theorems. Reference: what `single_m_k0`, `mSumme_k0` and `free_energy` return in exact arithmetic. Model: `Model/FloatZero` | absolute errors of the logarithms in units of `u zeroSize` (`Ae`; `aeMie`, `aeTrans`, `aeDist`: every logarithm of a factorial up to `(2N+2)!` is at most `zeroSize`), so that the scaled terms are within `exp(840 u zeroSize)` of the exact ones up to a diagonal similarity (`flMag`); the contrast factors are ratios of sums of non-negative numbers, at most those of a perfect conductor (`contrast_fl`); the bound by perfect conductors and the trace-norm estimate as in C127 (`HSContr.perturb_conj`, `kernS_dominate`), the sums as in C130 (`pair_energy`) |
| C132 | `MatErr`, `OscErr`, `DataErr`, `dataErr` (`Spec/DataErr`), `gain`, `shrink` of C126; reference: what `single_m`, `mSumme`, `mSumme_k0`, `free_energy`, `e0` return for both sets of data | exact arithmetic as a rounded one with `u = 0` (`exactFl`), so that C127 (`PairOK.coefs`) applies; Mie coefficients are ratios of sums of positive functions growing at most like a power (`Near.growth`, `channel_sens`), the translation coefficients are Laplace integrals of polynomials with non-negative coefficients (`LapGrowth`); zero frequency as the limit `k -> 0` (`pairSum_tendsto`); permittivities by homogeneity (`epsV_scale`) |
| C133 | as C131 and C132 (`dataErr`, `gain`); reference: `freeEnergy` of the exact geometry at the exact wavenumbers | C131 gives the distance to the sum at the computed wavenumbers; these differ from the exact ones by factors within `exp(2u)` (`mul_near`), so C132 (`pairSum_sens`, for the pair and for perfect conductors) bounds the rest |
| C134 | `Denser`, `PairIn.complete` (precision 0), `mSum`, `IsRef` (`Spec/MSum`); reference: what `single_m`, `single_m_k0`, `mSumme`, `mSumme_k0`, `e0`, `free_energy` return with and without early termination | rotation to helicities turns the round-trip matrix into a product of non-negative ones if TM is reflected at least as strongly as TE (`ampV_TE_le_TM`, by `idX_lin_anti`); the helicity translation functions are Laplace integrals of functions of an angle that decrease with `m` (cooperative differential inequalities, `hG_anti`); entrywise comparison of traces of powers (`Dom`, `HSContr.le_of_trace`); static case entrywise (`transK0_m_step`) |
| C135 | as C105 (`pairGeo`, `e0`), `IsNegGradient` (`Spec/Thermo`), `shrink` (`Spec/Perturb`), `sharpExp`; reference: limits of what `entropy` and `free_energy` return | functions with a continuous, bounded derivative on `(0,K)` (`Tame`) are closed under the operations that lead from permittivities to `ln det(1-M)` after rescaling with powers of `k` (`mie_tame`, `vVal_tame`, `rtV_tame`, lower bound of the determinant from the limit at zero); C132 bounds the slope for large `k`; the trapezoidal rule errs by `o(T)` (`trap_limit`, integration by parts and dominated convergence); `analytic_n0=False` (`Props/NernstNum`): the values differ from those of the analytic run by `T (z'-z)/2` (`freeVal_shift`), the gap by the mean value theorem |
| C136 | `Ball.matAt` (material at a distance from the centre), `Ball.Contrast`, `BallPair.SameSide`, `OppositeSide`, `LogConvexAt`; reference: what `mSumme` and `free_energy` return at two or three distances or two cut-offs | explicit amplitudes of a layered sphere (`ballAmp`, `BallOK.value`) that depend neither on the distance nor on the cut-offs (`kernelR`); then the comparisons of C96, C108 and C129 for the kernel; strict signs by comparison with a sphere made of the medium (C137) |
| C137 | `Ball.Below`, `Ball.Weaker`, `AtLeast`, `MatBelow`, `Ball.coat`; reference: what `mie_stratified`, `mSumme`, `free_energy` return for both pairs | both profiles are cut at all interfaces of either; a Wronskian of the two radial solutions keeps its sign across layers and interfaces (`merge_compare`, `ballAmp_mono`); larger amplitudes make the kernel larger (`kern_mono`, `gram_neg_scale`) |
| C138 | `ballAt` (`Model/StratZero`: integrand of `e0`), `Quad.Exact`, `zeroBound`, `SameSide`, `Contrast`, `Weaker`, `LogConvexAt`; reference: what `e0` and `free_energy` return | the layer recursion is continuous in `k` (`BallOK.amp_contAt`), so is every `ln det` (`lnBall_contAt`); the early stop keeps values measurable; domination by perfect conductors (C119) and `sharpExp`; comparisons of C136 and C137 under the integral; `riemann_limit` |
| C139 | `Ball.Dense`, `Ball.Dilute`, `BallPair.SameSide`, `BallPair.complete` (precision 0), `IsRef`; reference: the two coefficients of a sphere, `single_m` for two successive `m`, `mSumme`, `e0`, `free_energy` with precision 0 | variable phase equation: the amplitude as a function of the radius at which the sphere is cut off (`ampNext_hasDerivAt`); where both polarisations have equal amplitudes the TM one grows faster (`phase_key`), so the order of the two persists through all layers (`phase_move`, `phase_run`); small homogeneous cores and perfect conductors start in this order; then `kern_m_step` and the argument of C134 |
| C140 | `gapOutside`, `gapInside` (width of the gap from the heights of the spheres), `radOutside`, `radInside`, `Temp.Nonneg`, `Quad.Exact`; reference: what `planeplaneFreeEnergy`, `spheresphereEnergy` and `spheresphereForce` return | the free energy of plates is measurable in the distance and dominated by that of mirrors (`plateF_meas`, `plateF_abs`); the gap widens with slope `ρ/w(ρ)` where `w` falls (`Widening`), substitution of the gap for `ρ` |
| C141 | `IsWork` (integral over all larger distances of what `spheresphereForce` returns), `effRad` | closed forms for mirrors (C86) with bounds on the effect of the lower limits; the energy is `L/2` times the force (C89), which is the work for `1/L³` and half of it for `1/L²` |
| C142 | `RelErrM` (relative error of every operation), `PlateOf`; reference: what `fresnel`, `roundTrips`, `roundTrip`, `pressureRoundTrips`, `pressureRoundTrip` return in exact arithmetic (`Model/PFA`) | errors of positive quantities as differences of logarithms (`Near`), absolute errors of the differences relative to the sums in the denominators; `flatSub` for the loss of small energies |
| C143 | `IsNegGradient` (C29), `dipoleFree` (C114), `dipoleEntropyExpected` (expected values of `test_entropy`) | partial fractions (Mittag-Leffler series) of the free energy of two dipoles (`dipoleFree_series`), every term with poles `ν²/(ν²+π²n²)`; for electric dipoles every term rises; else the first term falls faster than all others can rise (`dipoleFree_anti`); values at the first two temperatures from bounds on `exp 0.4` (`pec_values`) |
| C144 | `RelErr`, `IsPartial` (pivot of largest modulus), `GrowthLE` (size of the numbers met); reference: `Real.log` of Mathlib's determinant | Schur complement of one step (`schur_det`); its inverse is a part of the inverse, so the row sums do not grow (`schur_rows`); each step is a perturbation of the Schur complement that changes `ln det` by a multiple of `K u ρ` (`near_one_logdet`, determinants bounded by row sums); balance by C110; `flatOne` for the loss of small matrices |
| C145 | `RelErrM`, `Sums` (any order of summation), `transSize` (sum of the moduli of the terms), `transErr`; reference: `getVl1l2` in exact arithmetic | products and sums of quantities with relative errors (`Cl`); Bessel functions from C122; `flatExp` with the expansion of `Y_l^m Y_l'^{-m}` in `Y_p^0` (C77) at `cos θ = 1`, where it vanishes for `m ≥ 1`; the exact coefficient has a sign by C95 |
| C146 | `RelErrZ` (relative errors, `lgamma` included), `gauntMajor` (recursion with moduli), `gauntSize`, `gauntLogSize`; reference: `gaunt` in exact arithmetic | the computed recursion in closed form (`gTopFl`), errors of sums relative to the sums of the moduli (`Cl`), reciprocals of `α_p`, which never vanish (`Cl.inv`); `wideAdd` and the zero of `3m² - l(l+1)` for the missing relative accuracy |
| C147 | `RelErrZ`, `Sums`, `condEE`, `condEM` (sum of moduli over modulus of the sum), `transErrAt`, `lowerSum`; reference: `transAb` in exact arithmetic, `TransErr` of C127 | C145 and C146 with an argument that is wrong by `4u` (`logK_near`); coefficients have signs by C95; at small arguments `k_{p} ≤ x/(2p+1) k_{p+1}` makes the term of highest degree larger than three times all others (`transSize_small`); then C127, and C131 for the free energy (`CodeFull`: hypotheses of C131 with the arrays that `transPair` returns) |
| C148 | `Fits`, `Denser`, `PairIn.complete`, `PairIn.cut`; reference: complete sums with cut-offs as large as one likes and their limits | C134, C111 and C117 for complete sums; uniqueness of limits; C139, C119, C138 for stratified spheres |
| C149 | `Fits`, `PairIn.cut`, `matsTail` (bound on the omitted wavenumbers), `CodeFull`, `Alive`, `DetErr0`, `IsFullLimit` (limit in all orders of growth); reference: `freeEnergy` in exact arithmetic with larger cut-offs and more wavenumbers, and its limit | C117; geometric sum of the bounds of C100 (`sharp_tail`); C133 with the arrays of C147; Cauchy sequences for the limit |
| C150 | `RelErr`, `budget` (bound of C149 with `freeBound`); reference: `entropy` in exact arithmetic with larger cut-offs and more wavenumbers | rounded difference quotient (`quot_err`), C149, C100 |
| C151 | `CavOK`, `CavFits`, `PairIn.cut`, `cavExp`, `cavFree`, `cavZero`; reference: the same functions with larger cut-offs and their limits | rows and columns beyond the cut-offs are those of a larger sphere or a smaller cavity times powers of the ratio of the radii (`pecR_power`, `cavR_power`); attraction: traces of powers as in C117 (`trunc_both`); repulsion: one more row multiplies `det(1 + K Kᵀ)` at most by one plus its square (`det_rank_one_le`, `rep_both`); sums over `m` and wavenumbers as in C120, C121 and C124 |
| C152 | `cavErr`, `cavTail`, `IsCavLimit`; reference: the same functions with larger cut-offs and more wavenumbers and their limit | C151 for the cut-offs, a geometric series of the bounds `cavExp` for the wavenumbers left out (`cavTail_bound`); the limit exists by Cauchy's criterion; a difference quotient of two arrays that differ by at most `beta` (`gradient_close`) |
| C153 | `stopPart`, `cavExp`, `cavFree`, `cavZero`, `PairIn.complete`; reference: the same functions with precision 0 | the sums that `mSumme` returns have a last subspace `M >= 1` (`CavOK.stop`: if the first sum vanishes, so do all), the rest is a geometric series by C120 (`CavOK.stop_err`); signs by C120; integrals and sums over wavenumbers as in C151; then the triangle inequality with C151 and C152 |
