"""Generates /verif/properties.jsonl (single source for the property list)."""
import json
P = []
def p(title, statement, quantifier, why, anchors):
    P.append(dict(id="C%02d" % (len(P)+1), title=title, statement=statement,
                  quantifier=quantifier, why_tests_cant=why, anchors=anchors))

# ---------------------------------------------------------------- balancing / linear algebra
p("balance() only applies a power-of-two diagonal similarity",
  "Whenever balance(matrix, conv) returns, the returned matrix is D^-1 * matrix * D for one diagonal matrix D whose entries are (possibly negative) integer powers of two; hence determinant, trace and characteristic polynomial are exactly those of the argument.",
  "every square real matrix of every size, every conv, every number of sweeps",
  "the number of sweeps and rescalings is data dependent and unbounded; one random 100x100 matrix is tested",
  ["CasimirRio/matrix_balancing.pyx:balance"])
p("balance() always returns for conv < 1",
  "For every conv < 1 (in particular the 0.9 used by the library and the default 0.95) balance(matrix, conv) returns after finitely many iterations of all three of its while loops.",
  "every square real matrix, every conv < 1",
  "termination over an infinite input space; a hanging input cannot be found by sampling",
  ["CasimirRio/matrix_balancing.pyx:balance"])
p("balance() returns a balanced matrix",
  "When balance(matrix, conv) returns with 0 < conv, every index whose off-diagonal row and column norms r, c both exceed the underflow threshold satisfies c^2 + r^2 <= (5/(2 conv)) c r, i.e. row and column norms agree up to a constant factor.",
  "every square matrix on which balance returns, every index, every conv > 0",
  "a post-condition over all matrices and all exits of a data-dependent loop",
  ["CasimirRio/matrix_balancing.pyx:balance"])
p("balance() hangs for conv > 1",
  "The conv parameter is not validated: with any conv > 1 the call balance([[0,1],[1,0]], conv) never returns.",
  "every conv > 1, every number of iterations",
  "non-termination cannot be observed by a finite test",
  ["CasimirRio/matrix_balancing.pyx:balance"])
p("balanced_slogdet and sln_det_3d compute ln|det(1-M)|",
  "balanced_slogdet(M)[i] = ln|det(1 - M[i])| (and -inf when that determinant vanishes) for every slice i, and sln_det_3d(A,B,C,D)[i] is ln|det| of the identity minus the 2n x 2n block matrix [[A_i,B_i],[C_i,D_i]]; unequal shapes are rejected with ValueError.",
  "every stack of square matrices of every size and every conv < 1",
  "equality for all matrices; tests use three 2x2 examples",
  ["CasimirRio/geometry.py:balanced_slogdet", "CasimirRio/geometry.py:sln_det_3d", "CasimirRio/geometry.py:matrix_append"])
p("sln_det_blockdiagonal adds the two polarisation determinants",
  "For n x n inputs, n >= 2, sln_det_blockdiagonal(A,B) = ln|det(1-A)| + ln|det(1-B)| = ln|det(1 - diag(A,B))|; for 1 x 1 inputs it is ln((1-A)(1-B)), which agrees when (1-A)(1-B) >= 0 and is NaN otherwise.",
  "every pair of equally sized square real matrices",
  "the size-1 special case and the general case must agree for all entries",
  ["CasimirRio/geometry.py:sln_det_blockdiagonal"])
p("inv_3d_blockmatrix returns the inverse or raises",
  "If inv_3d_blockmatrix(matrix) returns, each slice of the result is a two-sided inverse of the corresponding slice. Odd or non-square slices raise ValueError. It raises LinAlgError exactly when some slice has a singular leading block A11 or a singular Schur complement.",
  "every stack of square matrices of every even size; every shape for the error branches",
  "algebraic identity over all matrices; the test inverts one random 4x4 stack",
  ["CasimirRio/geometry.py:inv_3d_blockmatrix", "CasimirRio/geometry.py:inv_3d_matrix", "CasimirRio/geometry.py:dot_3d_matrices"])
p("Every invertible matrix is inverted by inv_3d_blockmatrix",
  "inv_3d_blockmatrix inverts every stack of invertible matrices of even size. (Violated by the code: an invertible matrix whose leading block is singular raises LinAlgError; it holds when every leading block is invertible.)",
  "every stack of invertible even-sized matrices",
  "random test matrices have invertible leading blocks with probability one",
  ["CasimirRio/geometry.py:inv_3d_blockmatrix"])
p("trace_dot_3d computes tr((1-m1)^-1 m2), the derivative of -ln det",
  "trace_dot_3d(m1,m2)[i] = tr((1-m1_i)^-1 m2_i), and if m1 depends on a parameter with derivative m2 this is minus the derivative of ln|det(1-m1_i)| with respect to that parameter.",
  "every pair of stacks for which it returns, every differentiable family of matrices",
  "analytic identity over all matrix families",
  ["CasimirRio/geometry.py:trace_dot_3d"])
p("Dynamic scaling leaves every round-trip determinant and trace unchanged",
  "Multiplying each term of the l-sum of a round-trip matrix by exp(single_k_scale(X)) instead of exp(X) changes the matrix by a diagonal similarity only: determinant of 1-M, and trace of every power, are unchanged, whatever the log-scale tensor X, the sign/amplitude tensor and the sizes are; the same diagonal works for all four polarisation blocks.",
  "every log-scale tensor of every size, every amplitude tensor",
  "invariance over all tensors; tests compare two integer tensors",
  ["CasimirRio/geometry.py:single_k_scale", "CasimirRio/geometry.py:dynamic_scaling"])
p("blockmatrices() is the product of scattering and translation operators",
  "The block matrix assembled from blockmatrices(m, k) has, at each k, the same determinant of 1-M and the same traces of powers as the operator product R1 * T12 * R2 * T21 of the (unscaled) Mie and translation coefficients of the four polarisation channels.",
  "every lmax, lssmax, m, k and every value of the Mie and translation coefficients",
  "identity over all sizes and coefficient values",
  ["CasimirRio/geometry.py:SphereSphere.blockmatrices", "CasimirRio/geometry.py:matrix_append", "CasimirRio/geometry.py:dynamic_scaling"])
p("Positive and negative m contribute equally",
  "The round-trip determinant det(1-M) for -m equals that for m, so that counting every m >= 1 twice (as mSumme, mSumme_k0 and mSum_roundtrips do) is the full sum over -lmax..lmax.",
  "every m, lmax, lssmax, wavenumber, distance, medium and all Mie coefficients",
  "the code never evaluates negative m, so no test compares them",
  ["CasimirRio/geometry.py:SphereSphere.mSumme", "CasimirRio/translation.py:translation.get_vl1l2"])
# ---------------------------------------------------------------- m sums
p("mSumme is a truncated, doubled m-sum with a first-stop rule",
  "mSumme(k) returns L_0 + 2*(L_1+...+L_M) elementwise with M <= lmax, where L_m is the log-determinant of subspace m and M is the first m at which the reference element changes relatively by less than precision/10 or the sum vanishes identically (M = lmax if there is none; M = 0 if L_0 vanishes identically).",
  "every sequence of subspace contributions, every lmax, precision and number of wavenumbers",
  "all possible convergence histories",
  ["CasimirRio/geometry.py:SphereSphere.mSumme"])
p("mSumme_k0 is a truncated, doubled m-sum with a first-stop rule",
  "mSumme_k0() returns L_0 + 2*(L_1+...+L_M), M <= lmax being the first m whose relative change |abs(old/new)-1| is below precision/10, or lmax.",
  "every sequence of subspace contributions, every lmax and precision",
  "all possible convergence histories",
  ["CasimirRio/geometry.py:SphereSphere.mSumme_k0"])
p("mSumme stops only when the last term is small",
  "When mSumme stops early at M, the last added term 2*L_M is smaller in magnitude than precision/10 times the previous sum, at the reference element. (Violated by the code when a term flips the sign of the running sum; it holds whenever the running sum keeps its sign.)",
  "every sequence of subspace contributions",
  "requires reasoning about all convergence histories; needs sign-changing contributions to fail",
  ["CasimirRio/geometry.py:SphereSphere.mSumme"])
p("Round-trip expansion of fixed order",
  "arbitrary_roundtrips(M, n, m) with an integer n >= 1 returns -(tr M + tr M^2/2 + ... + tr M^n/n) for each slice and records n; n = 0 raises UnboundLocalError.",
  "every stack of matrices, every order n",
  "induction over the order",
  ["CasimirRio/geometry.py:SphereSphere.arbitrary_roundtrips"])
p("The trace evaluation converges to the determinant evaluation",
  "If all eigenvalues of every round-trip matrix lie inside the unit disc (e.g. if its norm is below one), the fixed-order round-trip expansion converges, as the order grows, to ln|det(1-M)|, the value of the lndet evaluation.",
  "every matrix of norm < 1, limit of all orders",
  "a limit statement",
  ["CasimirRio/geometry.py:SphereSphere.arbitrary_roundtrips", "CasimirRio/geometry.py:balanced_slogdet"])
p("Automatic round-trip order: stopping rule and recorded order",
  "With order='automatic' a returned value is a partial sum -(tr M + ... + tr M^N/N) whose last term is, relative to the sum, at most `precision` in every slice, N is the first such order >= 2, and the number stored for the job log is N+1. (Violated by the code when the sum and its last term both vanish in the first slice: the NaN of 0/0 stops the loop for all slices; it holds otherwise.) The loop terminates for eigenvalues inside the unit disc and non-zero ln|det(1-M)|.",
  "every stack of matrices, precision and number of iterations",
  "data dependent unbounded loop",
  ["CasimirRio/geometry.py:SphereSphere.arbitrary_roundtrips"])
p("m-sum of the trace evaluation",
  "mSum_roundtrips(k) returns t_0 + 2*(t_1+...+t_M); as long as no running sum shrinks below `precision` times its predecessor it adds all subspaces up to lmax (M = lmax).",
  "every sequence of subspace contributions, every lmax and precision",
  "all convergence histories",
  ["CasimirRio/geometry.py:SphereSphere.mSum_roundtrips"])
# ---------------------------------------------------------------- caches / history
p("Round-trip elements do not depend on call history",
  "roundTrip_elements(m,k) returns the same coefficients whatever calls preceded it on the same unmodified object. (Violated by the code for m >= 2 when the wavenumbers are not the cached ones: the Mie coefficients are then returned from l=1 instead of l=m. It holds for m <= 1, and for every m when the preceding call used the same k.)",
  "every history of calls, every m, k, lmax, lssmax",
  "all histories; the library's own m-loops always start at m=0",
  ["CasimirRio/geometry.py:SphereSphere.roundTrip_elements"])
p("mSumme is history independent",
  "mSumme(k) evaluates, at every m, exactly the Mie coefficients l = max(1,m)..lmax of both spheres for the given k, whatever roundTrip_elements / blockmatrices calls were made before on the object.",
  "every history of calls, every k, lmax, lssmax",
  "all histories",
  ["CasimirRio/geometry.py:SphereSphere.mSumme", "CasimirRio/geometry.py:SphereSphere.roundTrip_elements"])
p("Zero-frequency elements: correct from a fresh object, poisoned by a first call with m >= 2",
  "On a fresh object mSumme_k0 uses for every m the Mie coefficients l = max(1,m)..lmax; but if the first zero-frequency call on the object was single_m_k0(m) with 2 <= m, every later zero-frequency call uses coefficients of shifted l.",
  "every lmax, lssmax, every history of zero-frequency calls",
  "all histories",
  ["CasimirRio/geometry.py:SphereSphere.roundTrip_elements_k0", "CasimirRio/geometry.py:SphereSphere.mSumme_k0", "CasimirRio/geometry.py:SphereSphere.single_m_k0"])
p("Force evaluation never produces a force",
  "translation(..., forceFlag != 0) always raises AttributeError; consequently mSum_trace_dot always raises, and finiteT.force() raises AttributeError whenever nmax >= 50 and otherwise returns T times the stride sums of free-energy (mSumme) terms.",
  "every geometry, nmax, deltaT, Tmax and every call history",
  "all configurations; no test calls force()",
  ["CasimirRio/translation.py:translation.__init__", "CasimirRio/geometry.py:SphereSphere.mSum_trace_dot", "CasimirRio/geometry.py:SphereSphere.supermatrix", "CasimirRio/thermodynamics.py:finiteT.force", "CasimirRio/thermodynamics.py:finiteT.F_alle"])
p("free_energy and entropy are repeatable",
  "In any sequence of free_energy() and entropy() calls on one finiteT object, all free_energy() calls return the same array and all entropy() calls return the same array, equal to what a fresh object returns.",
  "every sequence of calls",
  "all histories",
  ["CasimirRio/thermodynamics.py:finiteT.free_energy", "CasimirRio/thermodynamics.py:finiteT.entropy"])
p("free_energy is unaffected by earlier force() calls",
  "free_energy() returns the same array whether or not force() was called before on the object. (Violated by the code: force() leaves its flag set, so a later first free_energy() call evaluates the zero-frequency term differently or raises; it holds when free_energy was evaluated before force.)",
  "every sequence of free_energy / entropy / force calls",
  "all histories",
  ["CasimirRio/thermodynamics.py:finiteT.force", "CasimirRio/thermodynamics.py:finiteT.free_energy"])
# ---------------------------------------------------------------- thermodynamics
p("slicewise_eval equals direct evaluation",
  "slicewise_eval(func, nmin, nmax, stepsize) with an elementwise func returns [func(nmin),...,func(nmax)] for every stepsize >= 1; stepsize <= 0 raises ValueError; every entry of the result is initialised.",
  "every function, every integer nmin, nmax, stepsize",
  "all slice boundaries",
  ["CasimirRio/thermodynamics.py:slicewise_eval"])
p("free_energy is the Matsubara sum at each temperature of the grid",
  "free_energy()[i-1] = T_i * (f(0) + f(T_i) + f(2 T_i) + ... ) over all multiples n*T_i <= nmax*deltaT, T_i = i*deltaT, i = 1..round(Tmax/deltaT), with f(0) already weighted by one half.",
  "every nmax, deltaT, Tmax and every geometry",
  "all strides and lengths",
  ["CasimirRio/thermodynamics.py:finiteT.free_energy", "CasimirRio/thermodynamics.py:finiteT.get_f_matsubaras"])
p("Coarse and fine temperature grids agree",
  "The free energy at T = i*deltaT read from a grid with spacing deltaT and cut-off nmax equals the first grid point of a calculation with spacing i*deltaT and cut-off floor(nmax/i), for the same per-frequency contributions.",
  "every i, nmax, deltaT",
  "all strides",
  ["CasimirRio/thermodynamics.py:finiteT.free_energy"])
p("Entropy is minus the centred difference of the free energy",
  "entropy()[i] = -(F[i+1]-F[i-1])/(2 deltaT) inside and one-sided differences at both ends; it is exact for free energies linear in T, and raises ValueError when the grid has fewer than two temperatures.",
  "every grid length and every free-energy array",
  "all lengths",
  ["CasimirRio/thermodynamics.py:finiteT.entropy"])
p("F_alle weights the zero frequency by one half and keeps the others",
  "F_alle on wavenumbers [0,k1,...] returns [1/2 * zero-frequency value, mSumme(k1,...)...] and on non-zero first wavenumber returns mSumme unchanged; with analytic_n0 disabled, F_alle([0]) raises IndexError, so nmax = 0 cannot be evaluated.",
  "every wavenumber list and geometry",
  "all lengths and flag combinations",
  ["CasimirRio/thermodynamics.py:finiteT.F_alle"])
p("finiteT constructor: automatic nmax and validation",
  "With nmax='automatic' the resulting nmax is >= 1; analytic_n0 is disabled when either material is a list; a non-integer nprocs >= 0 raises ValueError but a negative integer nprocs is accepted; any nprocs != 0 makes every evaluation raise NameError. deltaT = 0 raises ZeroDivisionError; with an automatic nmax touching spheres, a vanishing radius or lmax = 0 raise ZeroDivisionError, and deltaT = 0 raises OverflowError for spheres closer than half the smaller radius. The number of temperatures is Tmax/deltaT rounded to the nearest integer, to the even one half-way.",
  "all constructor arguments",
  "all argument combinations",
  ["CasimirRio/thermodynamics.py:finiteT.__init__", "CasimirRio/thermodynamics.py:finiteT.get_f_matsubaras"])
# ---------------------------------------------------------------- geometry constructor
p("get_lmax: at least one, symmetric, monotone",
  "get_lmax(r1,r2,L,precision,l_offset) >= 1, is symmetric in the radii, does not decrease when the precision parameter is lowered (spheres that neither touch nor overlap) and, for spheres outside each other, does not increase with the distance; touching spheres raise ZeroDivisionError, and unless the spheres touch or are 30 smaller radii or more apart a zero precision raises OverflowError and a negative one ValueError; in all other cases a number is returned.",
  "all positive radii, all separations, all precisions",
  "inequalities over the reals with truncation to integers",
  ["CasimirRio/geometry.py:get_lmax"])
p("Automatic lssmax never truncates below lmax",
  "With lssmax='automatic', lssmax >= lmax for every pair of positive radii and lmax >= 0, and it is symmetric in the radii; ext_flag is 1 exactly when L > r1 + r2 (outer radii), and evaluation other than 'lndet'/'trace' raises ValueError.",
  "all radii, lmax, L",
  "real arithmetic with truncation",
  ["CasimirRio/geometry.py:SphereSphere.__init__"])
p("CoatedSphereSphere cannot be evaluated",
  "CoatedSphereSphere(..., lmax, lssmax, forceFlag) stores l_offset = lssmax and lssmax = forceFlag instead of the given values (with lmax and lssmax both 'automatic' the constructor raises TypeError, unless the spheres touch or are 30 smaller radii or more apart), and every evaluation of its round-trip elements on a not yet cached k raises TypeError (the zero-frequency elements are inherited and know the coats only).",
  "all constructor arguments and all k, m",
  "all argument values",
  ["CasimirRio/geometry.py:CoatedSphereSphere"])
# ---------------------------------------------------------------- bessel
p("lnknu is the exact logarithm of the modified spherical Bessel function k_l",
  "exp(lnknu(x,lmax)[i,l]) = (pi/2) e^-x/x * sum_j (l+j)!/(j!(l-j)!(2x)^j) for every order l <= lmax and every x > 0; a non-integer lmax raises TypeError.",
  "all orders, all positive arguments",
  "all orders and arguments",
  ["CasimirRio/bessel_sk.py:lnknu"])
p("lniknu orders 0 and 1 are exact for arguments >= 1e-3",
  "For x >= 1e-3, exp(lniknu)[0] = sinh(x)/x and exp(lniknu)[1] = (x cosh x - sinh x)/x^2, the arguments of all logarithms involved being positive.",
  "all x >= 1e-3",
  "real-analysis identity for all x",
  ["CasimirRio/bessel_sk.py:lniknu"])
p("lniknu small-argument branch is accurate",
  "For 0 < x < 1e-3 (small arguments first) the series used for orders 0 and 1 differ from ln(sinh(x)/x) and ln((x cosh x - sinh x)/x^2) by at most x^6/2000 and x^4/600; when larger arguments are present too, by at most x^8/500 and x^6/500.",
  "all x in (0, 1e-3)",
  "error bound on an interval",
  ["CasimirRio/bessel_sk.py:lniknu"])
p("The truncated continued fraction brackets the true Bessel ratio",
  "fnu(x, l+1/2), with its even number N (80 or 140) of terms, is strictly above i_l(x)/i_{l+1}(x), by at most 1/(a_2^2 ... a_N^2 a_{N+1}) with the partial denominators a_n = (2l+1+2n)/x; truncations with an odd number of terms are strictly below; only the empty array raises (IndexError).",
  "all orders l, all x > 0",
  "inequality for all arguments",
  ["CasimirRio/bessel_sk.py:fnu", "CasimirRio/bessel_sk.py:fraction"])
p("lniknu orders >= 2 are exact up to the continued-fraction error",
  "For l >= 2, exp(lniknu[l]) * (k_{l+1} + k_l/f) = pi/(2x^2), f being the value of fnu, where i_l satisfies the same equation with the exact ratio f_true; lniknu therefore overestimates i_l, by a relative error of at most (f-f_true)/f_true.",
  "all orders l >= 2, all x > 0",
  "all orders and arguments",
  ["CasimirRio/bessel_sk.py:lniknu"])
p("lniknu is elementwise",
  "The value returned by lniknu for one argument does not depend on the other arguments of the array nor on their order. (Violated by the code: an array in which an argument >= 1e-3 precedes one < 1e-3 gets its order-0 and order-1 values permuted, and purely small arrays use shorter series; it holds for arrays with all x >= 1e-3 on one side of 100, there for orders 0 and 1 without the latter condition, and for orders 0 and 1 of mixed arrays with small arguments first.)",
  "all argument arrays",
  "all batches and orders of elements",
  ["CasimirRio/bessel_sk.py:lniknu"])
p("mie_bessels / trans_bessels select the requested orders",
  "mie_bessels(x,lmin,lmax) returns for both functions exactly the orders lmin..lmax and raises ValueError when lmin > lmax; trans_bessels returns k for ext_flag != 0 and i for ext_flag = 0, orders 0..lmax.",
  "all lmin, lmax, x",
  "all index ranges",
  ["CasimirRio/bessel_sk.py:mie_bessels", "CasimirRio/bessel_sk.py:trans_bessels"])
# ---------------------------------------------------------------- scattering
p("Mie coefficients are always well defined",
  "For positive k, r and positive permittivities and permeabilities the denominators of mie, mie_internal, miePEC and miePEC_internal never vanish (with exact Bessel functions), for every l >= 1.",
  "all k, r, eps, mu > 0 and all l >= 1",
  "absence of zeros over a continuum",
  ["CasimirRio/scattering.py:scattering.mie", "CasimirRio/scattering.py:scattering.mie_internal", "CasimirRio/scattering.py:scattering.miePEC", "CasimirRio/scattering.py:scattering.miePEC_internal"])
p("No contrast, no scattering",
  "If sphere and medium have the same permittivity and permeability at k, both Mie coefficients (external and internal) vanish for every l.",
  "all k, r, l, materials",
  "all materials and orders",
  ["CasimirRio/scattering.py:scattering.mie", "CasimirRio/scattering.py:scattering.mie_internal"])
p("mie_k0 is the low-frequency limit of mie (dielectrics, Drude metals, perfect conductors)",
  "As k -> 0, mie(k)/(n_md R k)^(2l+1), unscaled, converges to mie_k0 for TE and TM and every l >= 1: for dielectric spheres, Drude and Drude-Smith metals and perfect conductors in a dielectric medium, magnetic or not, with exact Bessel functions as well as with the tables computed by the code.",
  "all l >= 1, R > 0, all dielectric/Drude/perfect conductor parameters",
  "a limit for all parameters",
  ["CasimirRio/scattering.py:scattering.mie_k0", "CasimirRio/scattering.py:scattering.mie", "CasimirRio/scattering.py:scattering.miePEC"])
p("mie_k0 is the low-frequency limit of mie for plasma spheres",
  "For a plasma-model sphere (infinite conductivity) mie_k0 equals the k -> 0 limit of the unscaled mie(k)/(n_md R k)^(2l+1) when the continued fraction is exact. (Violated by the code for magnetic plasmas, for every mu(0) != 1: the factor sqrt(mu) is missing in the argument; and for materials whose plasma oscillator is not the first of the list; it holds for mu = 1 and the plasma oscillator listed first.)",
  "all l >= 1, R, plasma frequencies, permeabilities",
  "a limit for all parameters",
  ["CasimirRio/scattering.py:scattering.mie_k0"])
p("mie_internal_k0 is the low-frequency limit of mie_internal",
  "As k -> 0, the unscaled mie_internal(k) times (n_i R k)^(2l+1) converges to mie_internal_k0. (Violated by the code for a plasma exterior: an extra factor w/(2l-1) enters, so for non-magnetic plasmas the value is the limit only if w R/c = 2l-1, and lmin > 1 raises; it holds for dielectric, Drude and perfectly conducting exteriors.)",
  "all l >= 1, R, material parameters",
  "a limit for all parameters",
  ["CasimirRio/scattering.py:scattering.mie_internal_k0", "CasimirRio/scattering.py:scattering.mie_internal", "CasimirRio/scattering.py:scattering.miePEC_internal"])
p("Coating consistency",
  "A coated sphere whose coating is made of the core material scatters like a solid sphere of the outer radius, and one whose coating is made of the medium scatters (unscaled) like the bare core, for both polarisations and all l.",
  "all k, radii, l, materials",
  "all materials and orders; tests use three k",
  ["CasimirRio/scattering.py:coated_miescattering.mie_coated", "CasimirRio/stratified_sphere_scattering.py:StratifiedMieScattering.mie_coated"])
p("Stratified spheres: redundant shells do not matter",
  "mie_stratified of a sphere all of whose layers are the same material equals mie of the solid sphere of the outermost radius in the medium; a trailing run of shells made of the medium is dropped and mie_stratified equals that of the shortened sphere; the recursion always terminates.",
  "all numbers of layers, all radii and materials",
  "induction over the number of layers",
  ["CasimirRio/stratified_sphere_scattering.py:StratifiedMieScattering.mie_stratified"])
p("mie_stratified does not modify the caller's lists",
  "Calling mie_stratified leaves the material and radius lists passed by the caller unchanged. (Violated by the code: shells equal to the medium are popped from the caller's own lists; it holds when the last two materials differ or only two materials are given.)",
  "all lists",
  "aliasing over all inputs",
  ["CasimirRio/stratified_sphere_scattering.py:StratifiedMieScattering.__init__", "CasimirRio/stratified_sphere_scattering.py:StratifiedMieScattering.mie_stratified"])
p("Fresnel coefficients: bounded, antisymmetric, zero without contrast",
  "For positive eps, mu and wavenumbers both Fresnel coefficients lie strictly between -1 and 1, change sign when the two media are exchanged, vanish for identical media, and TM -> 1, TE -> -1 (the PEC values) as eps of the plate grows.",
  "all eps, mu, k_perp, k_n",
  "inequalities and limits for all parameters",
  ["CasimirRio/scattering.py:scattering.fresnel", "CasimirRio/scattering.py:scattering.fresnelPEC"])
# ---------------------------------------------------------------- translation
p("Gaunt coefficients: shape, zeros, no division by zero",
  "gaunt(l,lp,m) returns min(l,lp)+1 numbers, all zero when |m| > min(l,lp); for l,lp >= 1 no divisor of its recursion vanishes and no array index leaves its bounds.",
  "all l, lp >= 1 and all m",
  "index and divisor safety with bounds checks compiled out",
  ["CasimirRio/cython_gaunt.pyx:gaunt"])
p("Gaunt coefficients are symmetric",
  "gaunt(l,lp,m) = gaunt(lp,l,m) = gaunt(l,lp,-m).",
  "all l, lp, m",
  "for all orders",
  ["CasimirRio/cython_gaunt.pyx:gaunt"])
p("Translation coefficients: parity, reciprocity, polarisation mixing",
  "get_vl1l2: the back-translation is (-1)^(l1+l2) times the forward one for polarisation conserving coefficients and minus that for mixing ones; the coefficients are symmetric in l1,l2; mixing vanishes for m = 0 and is odd in m while the conserving one is even.",
  "all l1, l2, m, k, L, medium, interior and exterior",
  "for all orders",
  ["CasimirRio/translation.py:translation.get_vl1l2"])
p("Translation scaling is overflow free and reversible",
  "get_scaled_bessels returns values in (0,1] whose product with exp(returned scale) is the Bessel function itself, the scale being that of the largest of the Bessel functions used (lpp = l1+l2 outside, |l1-l2| inside). (Violated by the code for the interior geometry at large arguments, where the truncated continued fraction makes higher orders larger than lower ones, e.g. x = 10^6; reversibility always holds, and the interior bound holds for the exact functions.)",
  "all l1, l2, x > 0",
  "monotonicity in the order for all arguments",
  ["CasimirRio/translation.py:translation.get_scaled_bessels"])
p("Zero-frequency exterior translation is the limit of the finite-frequency one",
  "As k -> 0, (kL n)^(l1+l2+1) times the unscaled exterior vEE coefficient converges to sign*exp(ln) returned by trans_k0_ext, for every l1,l2 >= max(1,|m|).",
  "all l1, l2, m",
  "limit for all orders; only l1=l2=1 is tested",
  ["CasimirRio/translation.py:translation.trans_k0_ext", "CasimirRio/translation.py:translation.get_vl1l2", "CasimirRio/cython_gaunt.pyx:gaunt"])
# ---------------------------------------------------------------- materials
p("Permittivity of Lorentz materials: at least one, decreasing",
  "LorentzMaterial.epsilon(k) >= 1 for k > 0, is non-increasing in k and tends to 1, for non-negative oscillator parameters; if all resonance frequencies are positive it is also finite and continuous at k = 0 with the static value 1 + sum wP^2/wR^2 (the flag is_dielectric alone does not suffice: an oscillator with wP = wR = 0 passes it and gives 0/0).",
  "all oscillator lists, all k",
  "inequalities over all parameters",
  ["CasimirRio/materials.py:LorentzMaterial.epsilon"])
p("Permeability and Smith-Drude permittivity bounds",
  "mu(k) lies between 1 and mu(0), is 1 without magnetic parameters and tends monotonically to 1; LorentzSmithMaterial.epsilon(k) >= 1 and requires exactly one oscillator (AssertionError otherwise).",
  "all parameters and k",
  "inequalities over all parameters",
  ["CasimirRio/materials.py:LorentzMaterial.mu", "CasimirRio/materials.py:LorentzSmithMaterial.epsilon"])
p("Material classification flags",
  "For non-negative damping, is_sigma_finite is False exactly when some oscillator has wP != 0, wR = 0, gamma = 0; is_dielectric is True exactly when no oscillator has wP != 0 and wR = 0; hence dielectric implies finite conductivity. These are the attributes of all instances except perfect conductors, which have is_sigma_finite = False and no attribute is_dielectric. is_magnetic is False without magnetic properties, True for a static permeability other than zero and None for zero.",
  "all oscillator lists",
  "all lists",
  ["CasimirRio/materials.py:is_sigma_finite", "CasimirRio/materials.py:is_dielectric", "CasimirRio/materials.py:is_magnetic"])
p("Catalogue of predefined materials",
  "Every predefined material has non-negative parameters; the ones named *_plasma and Artificial have infinite conductivity, Gold, Gold_Bimonte, Gold_magnetic, Silver, SiC, Mercury, MercurySmith are conductors with finite conductivity, and all others are dielectrics that are accepted as intervening medium by the zero-frequency code.",
  "every entry of the catalogue",
  "finite table lifted to all uses",
  ["CasimirRio/materials.py:Gold", "CasimirRio/materials.py:Water", "CasimirRio/materials.py:Silicon"])
p("Oscillator strength conversion",
  "materials_converter.transform turns (strength, energy) into (wP, w1) with (wP/w1)^2 equal to the strength, and overwrites the caller's inner lists with the result, provided the inner lists are distinct objects (a list occurring twice is converted twice).",
  "all lists of non-negative strengths and positive energies",
  "aliasing and algebra over all lists",
  ["CasimirRio/materials_converter.py:transform"])
# ---------------------------------------------------------------- PFA
p("PFA round trip is well defined, additive and attractive for equal plates",
  "For positive eps, mu, wavenumbers and distance, roundTrip equals the sum of the two roundTrips channels, all logarithm arguments are positive, and for identical plates (including two perfect conductors) both channels are non-positive and their sum negative unless the plates have the medium's permittivity and permeability.",
  "all parameters",
  "for all parameters",
  ["CasimirRio/PFA.py:SphereSpherePFA.roundTrip", "CasimirRio/PFA.py:SphereSpherePFA.roundTrips"])
p("PFA pressure is minus the distance derivative of the free energy",
  "pressureRoundTrip = -d/dL roundTrip. (Violated by the code: it is one half of that, exactly, for all parameters.)",
  "all parameters",
  "derivative identity",
  ["CasimirRio/PFA.py:SphereSpherePFA.pressureRoundTrip", "CasimirRio/PFA.py:SphereSpherePFA.pressureRoundTrips"])
p("PFA surface distance",
  "For rho <= min(r1,r2): outside (d > r1+r2) distance is >= d-r1-r2 with equality at rho = 0 and is increasing in rho; inside (r1 < r2, d < r2-r1) distance at rho=0 is r2-d-r1; for rho larger than a radius the call raises ValueError, so spheresphereEnergy with r1 > r2 samples a domain error.",
  "all radii, d, rho",
  "inequalities for all parameters",
  ["CasimirRio/PFA.py:SphereSpherePFA.distance", "CasimirRio/PFA.py:SphereSpherePFA.spheresphereEnergy"])
p("n0_shielding removes the zero-frequency term",
  "Passing n0_shielding=True removes exactly the n = 0 contribution. (Violated by the code: spheresphereForce ignores it for every input and planeplane_e0 too; it holds for planeplaneFreeEnergy at finite T, planeplanePressure, the high-temperature limit and get_f_matsubaras, which returns the contributions of TE and TM with the first one halved, or zero with the flag.)",
  "all parameters",
  "all parameters",
  ["CasimirRio/PFA.py:SphereSpherePFA.planeplaneFreeEnergy", "CasimirRio/PFA.py:SphereSpherePFA.spheresphereForce", "CasimirRio/PFA.py:SphereSpherePFA.planeplanePressure"])
# ---------------------------------------------------------------- worker / helpers
p("worker never overwrites an existing result",
  "save_result leaves every file that existed before untouched. (Violated by the code: if both <out> and <out>1 exist, <out>1 is overwritten; it holds if <out>1 does not exist.)",
  "all file systems and file names, every crash point between the writes",
  "all initial file systems",
  ["CasimirRio/worker.py:save_result"])
p("worker configuration handling",
  "analytic_n0 from the config file is ignored (always True unless a radius is a list); a missing l_offset defaults to 0 when lmax is an integer but aborts with NoOptionError when lmax is automatic; a third command-line argument overrides d; argument counts other than two or three abort with ValueError; although analytic_n0 is ignored a missing option aborts; a precision that is not a number (the documented \"automatic\" included) aborts with UnboundLocalError; a missing configuration file shows up as NoSectionError. A missing evaluation means lndet, and lmax, lssmax and nmax that are no integers are passed on as text. With a complete configuration each option is passed to the argument it belongs to (Tmin as the temperature step), and the file written is the description of the job followed by the quantity asked for.",
  "all configurations and argument lists",
  "all configurations",
  ["CasimirRio/worker.py:return_geometry", "CasimirRio/worker.py:do_calculation"])
p("Logarithmic double factorial",
  "ln_2dbl(n) is the logarithm of (2n-1)!! = 1*3*5*...*(2n-1), and lfac(n) that of n!, for every natural n.",
  "all n",
  "all n",
  ["CasimirRio/helper_functions.py:ln_2dbl", "CasimirRio/helper_functions.py:lfac"])
p("num_derivative is exact for low-degree polynomials",
  "num_derivative (without interpolation) on an equidistant grid of at least three points returns an array of the input length which is exact for quartic polynomials at interior points, for quadratics at the second and last but one and for linear functions at the ends; on any grid a first step that is not positive raises ValueError and fewer than two abscissae or three values raise IndexError.",
  "all grids, lengths and polynomials",
  "all lengths and polynomials",
  ["CasimirRio/helper_functions.py:num_derivative"])
p("get_drude_data partitions a sorted frequency grid",
  "For a strictly increasing omega grid of length >= 2 with at least one point above xdata[0] and one below xdata[-1], get_drude_data returns one value per frequency in order, interpolating linearly exactly the points strictly inside the data range and using 1 + wp^2/(omega (omega + gamma)) with the fitted wp and gamma elsewhere; otherwise IndexError. A single frequency ignores the data (wp = 1.4e16/3e14, gamma = 5.3e13/3e14). For descending grids the values can be wrong and in reverse order.",
  "all grids",
  "all grids",
  ["CasimirRio/data_inter_extrapolation.py:data_interp_extrap.get_drude_data", "CasimirRio/data_inter_extrapolation.py:data_interp_extrap.interpolate"])

p("Channel decomposition adds up to the round-trip blocks",
  "The eight matrices of blockmatrices_channels (direct and polarisation-mixing channel of each block) add up pairwise to the four matrices of blockmatrices, and both calls fail on the same inputs.",
  "all scattering and translation coefficients, all truncations",
  "identity over real parameter families and all sizes",
  ["CasimirRio/geometry.py:SphereSphere.blockmatrices_channels", "CasimirRio/geometry.py:SphereSphere.blockmatrices"])
p("The debug variant represents the same operator",
  "The four matrices returned by blockmatrices_debug give the same det(1-M) as those of blockmatrices. (Violated by the code: every block chooses its own scaling, so the blocks no longer belong to one similarity; it holds for a single l, and each block on its own is similar to the unscaled one.)",
  "all non-vanishing coefficients, all truncations",
  "the scaling depends on the data; equality of determinants for all inputs",
  ["CasimirRio/geometry.py:SphereSphere.blockmatrices_debug"])
p("Zero-frequency matrices of separate spheres are the static round-trip operator",
  "The two matrices of the zero-frequency evaluation for L > r1+r2 have the same det(1-M) and traces of powers as a(l1) r1^(2 l1+1) v(l1,s) L^-(l1+s+1) b(s) r2^(2s+1) (-1)^(s+l2) v(l2,s) L^-(s+l2+1) summed over s, for TE and TM separately. Without multipoles (m > lmax) both are empty and nothing is raised.",
  "all positive radii and distances, all coefficients, all truncations",
  "identity of determinants over real parameter families and all sizes",
  ["CasimirRio/geometry.py:SphereSphere.blockmatrices_k0_ext", "CasimirRio/geometry.py:single_k_scale"])
p("Zero-frequency evaluation inside a cavity",
  "For a sphere inside a cavity the zero-frequency matrices cannot be computed: every call with more than one l or l'' raises TypeError; with exactly one of each the entries are a(l) b(l) v^2 (r1/r2)^(2l+1), independent of L, and for lmax = lssmax = 1 single_m_k0 returns ln(1 - TE) + ln(1 - TM) with these entries if both are below one.",
  "all coefficients, radii, distances and truncations",
  "all inputs fail, all sizes",
  ["CasimirRio/geometry.py:SphereSphere.blockmatrices_k0_int"])
p("Stack product and stack inverse",
  "dot_3d_matrices is the slice-wise matrix product; inv_3d_matrix returns the slice-wise two-sided inverse exactly for stacks of invertible square matrices and raises LinAlgError otherwise; inputs that are not three-dimensional are rejected by a TypeError (ValueError only for one-dimensional input of inv_3d_matrix).",
  "all stacks, all sizes",
  "all shapes and entries",
  ["CasimirRio/geometry.py:dot_3d_matrices", "CasimirRio/geometry.py:inv_3d_matrix"])

p("single_m needs a warm cache",
  "single_m(m,k) for 2 <= m <= lmax raises ValueError or AssertionError on an object on which k is not the cached wavenumber array (in particular on a fresh object), because coefficients from l=1 meet matrices from l=m; once k is cached it works for every m from 1 to min(lmax, lssmax).",
  "all objects, wavenumbers, m and truncations",
  "all parameters and cache states",
  ["CasimirRio/geometry.py:SphereSphere.single_m", "CasimirRio/geometry.py:SphereSphere.roundTrip_elements"])
p("An exception between the two spheres leaves an inconsistent cache",
  "If the coefficients of sphere B raise after those of sphere A were computed for new wavenumbers k2, a later call with the previously cached k1 silently combines sphere-A coefficients of k2 with sphere-B coefficients of k1.",
  "all objects, wavenumbers and exceptions",
  "needs an exception at one specific point, all parameters",
  ["CasimirRio/geometry.py:SphereSphere.roundTrip_elements"])

p("gaunt computes the integrals of products of three spherical harmonics",
  "gaunt(l, lp, m)[i] is the integral over the sphere of Y_l^m Y_lp^{-m} Y_p^0 with p = |l - lp| + 2i, the integrals for all other p vanish, and the returned numbers are therefore the coefficients of the expansion of the product Y_l^m Y_lp^{-m} in the Y_p^0.",
  "all l, lp, all integers m",
  "all angular momenta; an integral identity",
  ["CasimirRio/cython_gaunt.pyx:gaunt"])
p("Zero-frequency interior translation coefficients are limits",
  "As k -> 0, (-1)^|l1-l2| x^-|l1-l2| times the unscaled polarisation-conserving coefficient of get_vl1l2 inside a cavity (with the Bessel table the code computes) converges to sign*exp(ln) of trans_k0_int; for l1 = l2 that is one.",
  "all l1, l2, m and distances",
  "limit statement for all orders",
  ["CasimirRio/translation.py:translation.trans_k0_int", "CasimirRio/translation.py:translation.get_vl1l2"])
p("Mie coefficients solve the boundary value problem",
  "Restored to their unscaled values, the TE and TM coefficients of mie are (-1)^l pi/2 times the amplitude of the outgoing wave in the only field that is regular inside the sphere, has a unit regular wave outside and satisfies the continuity conditions at the surface (for a perfect conductor: vanishing tangential field); those of mie_internal are (-1)^l 2/pi times the amplitude of the regular wave excited in the cavity by a unit outgoing wave.",
  "all materials with non-negative parameters, radii, k > 0, l >= 1",
  "existence and uniqueness of the solution of a differential boundary value problem",
  ["CasimirRio/scattering.py:scattering.mie", "CasimirRio/scattering.py:scattering.mie_internal", "CasimirRio/scattering.py:scattering.miePEC", "CasimirRio/scattering.py:scattering.miePEC_internal"])
p("Perfect conductors scatter most strongly",
  "With the sign (-1)^l taken out, TE and TM coefficients of any penetrable sphere lie strictly between the TM coefficient (negative) and the TE coefficient (positive) of a perfectly conducting sphere of the same radius in the same medium; the same holds for cavities and (not strictly) for stratified spheres of any composition.",
  "all materials with non-negative parameters, radii, shells, k > 0, l >= 1",
  "strict inequalities over real parameter families and lists of shells",
  ["CasimirRio/scattering.py:scattering.mie", "CasimirRio/scattering.py:scattering.miePEC", "CasimirRio/scattering.py:scattering.mie_internal", "CasimirRio/stratified_sphere_scattering.py:StratifiedMieScattering.mie_stratified"])
p("Stratified spheres: the recursion over the shells is exact and never divides by zero",
  "For a core (penetrable or perfectly conducting) and any number of penetrable shells with non-decreasing positive radii mie_stratified succeeds, and its unscaled coefficients are (-1)^l pi/2 times the outgoing amplitude of the only field that is regular in the core (or vanishes on the conductor) and continuous in the required sense at every interface.",
  "all lists of materials with non-negative parameters and of ordered radii, k > 0, l >= 1",
  "lists of arbitrary length; no denominator of the recursion may vanish for real parameters",
  ["CasimirRio/stratified_sphere_scattering.py:StratifiedMieScattering.mie_stratified", "CasimirRio/stratified_sphere_scattering.py:StratifiedMieScattering.mie_coated"])
p("Construction of stratified spheres",
  "StratifiedMieScattering accepts two lists exactly if there are at least two materials and one radius less than materials, and raises TypeError for all other lists; arguments that are not both lists are accepted silently and every later call of mie_stratified raises AttributeError.",
  "all lists and other objects",
  "all lengths",
  ["CasimirRio/stratified_sphere_scattering.py:StratifiedMieScattering.__init__"])
p("Signs of the Mie coefficients",
  "With the sign (-1)^l taken out, a sphere with larger permittivity than the medium and the same permeability has a positive TE and a negative TM coefficient, one with smaller permittivity the opposite signs; for magnetic contrast at equal permittivity the roles of TE and TM are exchanged.",
  "all materials with non-negative parameters, radii, k > 0, l >= 1",
  "inequalities between ratios of Bessel functions for all real arguments and all orders",
  ["CasimirRio/scattering.py:scattering.mie"])

p("Lifshitz sign rule",
  "For plates and medium of equal permeability at the frequency considered, both roundTrips channels are positive (repulsion) if the medium's permittivity lies strictly between those of the plates and negative (attraction) if it is smaller or larger than both.",
  "all materials with non-negative parameters, wavenumbers and distances",
  "inequalities for all real parameters",
  ["CasimirRio/PFA.py:SphereSpherePFA.roundTrip", "CasimirRio/PFA.py:SphereSpherePFA.roundTrips"])
p("Perfect mirrors: closed form and upper bound for every Matsubara frequency",
  "With exact integration over the parallel wavenumber, the contribution of a frequency to the plane-plane free energy exists for all physical plates and media, is for perfect mirrors -(kappa Li2(exp(-2 kappa L))/(2L) + Li3(exp(-2 kappa L))/(4L^2))/pi with kappa = sqrt(eps mu) k, and has for all other plates at most this magnitude.",
  "all materials with non-negative parameters, frequencies and distances",
  "improper integrals and polylogarithms for all real parameters",
  ["CasimirRio/PFA.py:SphereSpherePFA.planeplaneFreeEnergy"])
p("Casimir's results for perfect mirrors in vacuum",
  "With exact integration planeplane_e0 gives -pi^3/(360 L^3) up to an error of at most 1e-20 zeta(3)/(4 pi L^2) from the lower cut-off, and planeplaneFreeEnergyHT gives -zeta(3)/(8 pi L^2) up to at most 1e-20 pi/(24 L); at finite temperature the free energy is the Matsubara sum of the closed form.",
  "all distances and temperatures",
  "improper double integral with error bound for all distances",
  ["CasimirRio/PFA.py:SphereSpherePFA.planeplane_e0", "CasimirRio/PFA.py:SphereSpherePFA.planeplaneFreeEnergyHT", "CasimirRio/PFA.py:SphereSpherePFA.planeplaneFreeEnergy"])
p("Plane-plane free energy: existence, bound, attraction",
  "With exact integration the free energy at every positive temperature exists for all physical plates and is bounded in magnitude by that of perfect mirrors in the same medium; for equal plates it is non-positive (negative without shielding if the plates differ from the medium at 1e-10) and non-decreasing in the distance although fewer frequencies are summed at larger distance.",
  "all materials with non-negative parameters, temperatures and distances",
  "inequalities for all real parameters and any number of Matsubara terms",
  ["CasimirRio/PFA.py:SphereSpherePFA.planeplaneFreeEnergy"])
p("Force between spheres in proximity approximation",
  "spheresphereForce is 2 pi r1 r2/(r1+r2) (outside) or 2 pi r1 r2/(r2-r1) (sphere r1 in a cavity r2) times the plane-plane free energy at the distance of the surfaces on the axis; equal radii at d < r1+r2 raise ZeroDivisionError.",
  "all radii, distances, temperatures and materials, any integrator",
  "all real parameters",
  ["CasimirRio/PFA.py:SphereSpherePFA.spheresphereForce", "CasimirRio/PFA.py:SphereSpherePFA.__init__"])
p("raw_PFA agrees with PFA up to the cut-off",
  "raw_PFA's plane-plane free energy is the same Matsubara sum as that of PFA.py, cut off at wavenumber 100/L instead of 20/L; at zero temperature both agree; its force between spheres is 2 pi r1 r2/(r1+r2) (inside: 2 pi r1 r2/(r2-r1)) times the free energy of plates; its sphere-sphere energy is L/2 times its force; get_f_matsubaras returns the sums of TE and TM contributions, the first one not halved (zero with n0_shielding), and overwrites a leading zero in the caller's array by 1e-20 and changes nothing else.",
  "all materials, temperatures, radii and distances",
  "all parameters and any number of terms",
  ["CasimirRio/raw_PFA.py:SphereSpherePFA.planeplaneFreeEnergy", "CasimirRio/raw_PFA.py:SphereSpherePFA.spheresphereEnergy", "CasimirRio/raw_PFA.py:SphereSpherePFA.get_f_matsubaras"])

p("num_derivative with interpolation",
  "With interpolate=True on an equidistant grid of at least two positive points and a multiplier of at least two, num_derivative returns one value per grid point for every f; for power laws c x^r the log-log interpolation is exact, so the result is the difference formula for the true function with the step divided by the multiplier, exact at all inner points for r = 0, ..., 4.",
  "all grids, multipliers, power laws",
  "all lengths, exponents and multipliers",
  ["CasimirRio/helper_functions.py:num_derivative"])

p("Continuity of the determinant at zero frequency",
  "Two separate spheres (perfect conductors, dielectrics or conductors) in a dielectric medium of static permeability 1: for every m >= 0 and all cut-offs, det(1 - M_m(k)) of the matrix assembled by blockmatrices converges for k -> 0+ to det(1 - M_TE) det(1 - M_TM) of the matrices assembled by blockmatrices_k0_ext, and so do the logarithms if these do not vanish. In a magnetic medium this fails (shown for two perfectly conducting spheres in dipole approximation, static permeability at most 4 and not 1), because translation.py evaluates the coefficients at k L sqrt(eps) and scattering.py at k R sqrt(eps mu).",
  "all materials of these kinds, radii, distances, m and cut-offs",
  "limit of a determinant of arbitrary size for all parameters",
  ["CasimirRio/geometry.py:SphereSphere.blockmatrices", "CasimirRio/geometry.py:SphereSphere.blockmatrices_k0_ext", "CasimirRio/translation.py:translation.get_vl1l2", "CasimirRio/translation.py:translation.trans_k0_ext", "CasimirRio/scattering.py:scattering.mie", "CasimirRio/scattering.py:scattering.mie_k0"])

p("Sign and size of the zero-frequency contribution",
  "Two separate spheres (perfect conductors, dielectrics or conductors, possibly magnetic) in a dielectric medium: for every m >= 0 and all cut-offs the determinants det(1 - M_TE) and det(1 - M_TM) assembled by blockmatrices_k0_ext from mie_k0 and trans_k0_ext are positive, their logarithms are bounded by (r1/(L-r2))^max(1,m) r1 r2 (L-r1)(L-r2)/(L(L-r1-r2))^2, and each is non-positive if both spheres differ from the medium in the same direction (static permittivity for TM, permeability for TE) and non-negative if in opposite directions; equal materials always attract.",
  "all materials of these kinds, radii, distances, m and cut-offs",
  "inequality for determinants of arbitrary size and all real parameters",
  ["CasimirRio/geometry.py:SphereSphere.blockmatrices_k0_ext", "CasimirRio/translation.py:translation.trans_k0_ext", "CasimirRio/scattering.py:scattering.mie_k0"])
p("Monotonicity and convergence of the zero-frequency contribution in the cut-offs",
  "For the spheres of the previous property, raising lmax or lssmax makes an attractive contribution of a subspace m more attractive and a repulsive one more repulsive; for every m the contribution converges when both cut-offs tend to infinity, and so does the complete sum over m <= lmax (with any lssmax >= lmax), to a limit bounded by a function of the geometry.",
  "all materials of these kinds, radii, distances, m and cut-offs",
  "limit over unboundedly growing matrices",
  ["CasimirRio/geometry.py:SphereSphere.blockmatrices_k0_ext", "CasimirRio/geometry.py:SphereSphere.mSumme_k0"])
p("mSumme_k0 is well defined for two separate spheres",
  "For every pair of separate spheres of these kinds, all cut-offs 1 <= lmax <= lssmax and every precision: single_m_k0, called on an object without cached zero-frequency coefficients for m <= 1 first (C22), gives a finite number for every m <= lmax (no exception, NaN or -inf), mSumme_k0 returns the sum over m <= M for some M <= lmax, the dropped subspaces contribute at most a geometric tail, and for equal materials the result is non-positive and not below the complete sum.",
  "all materials of these kinds, radii, distances, precisions and cut-offs",
  "all real parameters and matrix sizes",
  ["CasimirRio/geometry.py:SphereSphere.single_m_k0", "CasimirRio/geometry.py:SphereSphere.mSumme_k0", "CasimirRio/geometry.py:sln_det_blockdiagonal"])

p("Translation coefficients as integrals over evanescent plane waves",
  "For two separate spheres the four translation coefficients returned by get_vl1l2, unscaled, are integrals over t from 1 to infinity of exp(-x t) times the angular functions pi, tau of the associated Legendre functions continued to t > 1 (polarisation conserving: pi pi + tau tau, mixing: pi tau + tau pi); the signs for both directions are fixed, the conserving coefficient never vanishes for l1, l2 >= m, and from argument x to y >= x the moduli decrease at least by exp(-(y-x)).",
  "all l1, l2 within the cut-offs, all m, all x > 0",
  "identity with an improper integral for all multipole orders",
  ["CasimirRio/translation.py:translation.get_vl1l2", "CasimirRio/translation.py:translation.trans_ab"])

p("Sign and size of the contribution of a non-zero frequency",
  "Two separate spheres, each a perfect conductor or of the permeability of the medium, at any non-zero wavenumber (Mie coefficients with exact Bessel functions): for every m >= 0 and all cut-offs the determinant of 1 minus the round-trip matrix assembled by blockmatrices is positive and its logarithm is bounded by a function of the geometry times exp(-d) with the optical gap d; it is non-positive if both spheres are denser than the medium or both less dense (perfect conductors count as dense), and non-negative otherwise; the trace of the j-fold round trip has the sign (+-1)^j accordingly and decays like exp(-2 j d).",
  "all materials of these kinds, wavenumbers, radii, distances, m and cut-offs",
  "inequality for determinants of arbitrary size and all real parameters",
  ["CasimirRio/geometry.py:SphereSphere.blockmatrices", "CasimirRio/translation.py:translation.get_vl1l2", "CasimirRio/scattering.py:scattering.mie"])
p("Truncated round-trip expansions of separate spheres",
  "For the spheres of the previous property the supermatrix exists, and arbitrary_roundtrips of order n returns ln det(1 - M) for every wavenumber up to C exp(-2 n d)/(n + 1) with a constant independent of materials and cut-offs; for attractive pairs the returned value lies between ln det(1 - M) and zero.",
  "all materials of these kinds, wavenumbers, radii, distances, m, cut-offs and orders",
  "error bound for matrices of arbitrary size and all orders",
  ["CasimirRio/geometry.py:SphereSphere.arbitrary_roundtrips", "CasimirRio/geometry.py:SphereSphere.supermatrix", "CasimirRio/geometry.py:SphereSphere.blockmatrices"])
p("Monotonicity and convergence in the cut-offs at non-zero frequencies",
  "For these spheres raising lmax or lssmax makes an attractive contribution of a subspace m more attractive and a repulsive one more repulsive; for every m the contribution converges when both cut-offs tend to infinity.",
  "all materials of these kinds, wavenumbers, radii, distances, m and cut-offs",
  "limit over unboundedly growing matrices",
  ["CasimirRio/geometry.py:SphereSphere.blockmatrices", "CasimirRio/geometry.py:SphereSphere.single_m"])
p("single_m, mSumme and mSum_roundtrips are well defined for separate spheres",
  "For these spheres, any non-zero wavenumbers, cut-offs 1 <= lmax <= lssmax and every precision: single_m, called like in mSumme (the wavenumbers are cached before m >= 2 is evaluated, C75), gives finite numbers for all m <= lmax (no exception, NaN or -inf), mSumme returns the sum over m <= M for some M <= lmax, the dropped subspaces contribute at most a geometric tail, the result has the sign of the pair and is bounded independently of the materials and cut-offs, and the complete sum converges for lmax to infinity; for attractive pairs mSum_roundtrips of order n with a precision of at most one never stops early and returns a value between the complete ln det sum and zero with error at most C exp(-2 n d)/(n + 1).",
  "all materials of these kinds, wavenumbers, radii, distances, precisions, orders and cut-offs",
  "all real parameters and matrix sizes",
  ["CasimirRio/geometry.py:SphereSphere.single_m", "CasimirRio/geometry.py:SphereSphere.mSumme", "CasimirRio/geometry.py:SphereSphere.mSum_roundtrips", "CasimirRio/geometry.py:balanced_slogdet"])
p("The free energy of two separate spheres, end to end",
  "For two separate spheres, each a perfect conductor, a dielectric or a conductor without magnetism, in a non-magnetic dielectric (exact Bessel functions, cut-offs 1 <= lmax <= lssmax, any precision): free_energy on a new finiteT object with default arguments, also with nmax = automatic and with the automatic lmax and lssmax of the SphereSphere constructor (for a positive precision), returns one number for each temperature deltaT, ..., maxstep*deltaT without exception; each is bounded by a function of temperature, radii and distance alone; it is non-positive if at every frequency both spheres are denser than the medium or both less dense, in particular for equal materials, and non-negative if one is denser and the other less dense; at every temperature it converges for nmax to infinity.",
  "all materials of these kinds, radii, distances, temperatures, numbers of frequencies, precisions and cut-offs",
  "all real parameters, matrix sizes and lengths of the Matsubara sum",
  ["CasimirRio/thermodynamics.py:finiteT.free_energy", "CasimirRio/thermodynamics.py:finiteT.F_alle", "CasimirRio/geometry.py:SphereSphere.mSumme", "CasimirRio/geometry.py:SphereSphere.mSumme_k0", "CasimirRio/scattering.py:scattering.mie", "CasimirRio/scattering.py:scattering.mie_k0"])
p("mSum_oneRoundtrip returns the trace with the wrong sign, or a NameError",
  "mSum_oneRoundtrip is documented to approximate ln det(1 - M). In Python 3 it raises for every geometry: NameError (xrange) whenever the block matrices of m = 0 can be evaluated. In Python 2 it returns Tr M(0) + 2 sum of Tr M(m) for m up to min(lmax, max(1, mmax)); an explicit mmax above lmax is an AssertionError, and the automatic one is log2(1/precision) rounded (2^-mmax and the precision differ at most by the factor sqrt 2). For two separate spheres that attract each other and mmax = lmax the result is exactly minus that of mSum_roundtrips of order one, hence non-negative, while ln det(1 - M) is non-positive and deviates from minus the result by at most C exp(-2 d)/2.",
  "all geometries, numbers of wavenumbers, mmax; for the sign all materials, wavenumbers, radii, distances and cut-offs of C96",
  "statement on all geometries and histories; sign for matrices of all sizes",
  ["CasimirRio/geometry.py:SphereSphere.mSum_oneRoundtrip", "CasimirRio/geometry.py:SphereSphere.mSum_roundtrips"])
p("A oneRoundtrip object never returns a result in Python 3",
  "After any sequence of calls of free_energy, entropy and force on an object of the class oneRoundtrip every further call raises: force always AttributeError (mSum_trace_dot_oneRoundtrip exists nowhere), free_energy and entropy the exception of mSum_oneRoundtrip (NameError by C101), or AttributeError once force was called before.",
  "all sequences of calls, geometries, numbers of frequencies and temperatures",
  "all call histories",
  ["CasimirRio/thermodynamics.py:oneRoundtrip.F_alle", "CasimirRio/thermodynamics.py:finiteT.free_energy", "CasimirRio/thermodynamics.py:finiteT.force"])
p("F_tempcorr and l_konvergenz never return",
  "F_tempcorr passes a float to mSumme, which subscripts its argument: for every geometry and every quadrature routine that passes on an exception of its integrand it raises TypeError. l_konvergenz never returns: it raises the exception of a constructor, or AttributeError as there is no method F_zero_T; the latter always for numbers lmax1 and lmax2.",
  "all geometries, quadrature routines and arguments",
  "all quadrature routines and arguments",
  ["CasimirRio/thermodynamics.py:finiteT.F_tempcorr", "CasimirRio/thermodynamics.py:finiteT.l_konvergenz"])

p("The energy at zero temperature is a convergent integral with known sign and bound",
  "For two separate spheres as in C100 and an integrator that is exact on integrable functions: mSumme of single wavenumbers is integrable on (0, infinity), e0(a, b) returns its integral for 0 <= a <= b, b = inf and b = None (then up to nmax*deltaT) without exception; its modulus is bounded by C arcsin(exp(-a d))/d, at most C pi/(2 d), with the gap d and C depending on radii and distance only; it is non-positive if both spheres are denser or both less dense than the medium, non-negative if one is denser and the other less dense; e0(a, inf) = e0(a, b) + e0(b, inf), so a finite upper bound b changes the result by at most C arcsin(exp(-b d))/d.",
  "all materials of these kinds, radii, distances, precisions, cut-offs and integration bounds",
  "improper integral over all wavenumbers, all real parameters",
  ["CasimirRio/thermodynamics.py:finiteT.e0", "CasimirRio/geometry.py:SphereSphere.mSumme"])
p("free_energy tends to e0 for low temperatures",
  "For two separate spheres as in C100 and a precision <= 0 (complete sums over m): for every sequence of objects with deltaT to 0 and nmax*deltaT to infinity the i-th entry of free_energy, for each fixed i, converges to e0(0, inf) computed with an exact integrator, although the zero-frequency term is halved and treated separately.",
  "all materials of these kinds, radii, distances, cut-offs, sequences of temperature steps and frequency numbers",
  "limit over infinitely many runs with unboundedly many frequencies",
  ["CasimirRio/thermodynamics.py:finiteT.free_energy", "CasimirRio/thermodynamics.py:finiteT.e0", "CasimirRio/thermodynamics.py:finiteT.get_f_matsubaras"])
p("Strict signs of energies, and no energy without contrast",
  "For two separate spheres as in C100: at a wavenumber at which one of the spheres has the permittivity of the medium mSumme returns exactly zero; where both differ from the medium (perfect conductors always do) the value is strictly negative for equally directed contrasts and strictly positive for opposite ones, whatever the precision. Hence so are the free energies at all temperatures whose first frequency is not cut off, and e0 over any interval, if the contrast exists at all wavenumbers.",
  "all materials of these kinds, wavenumbers, radii, distances, precisions, cut-offs and temperatures",
  "strict inequality for determinants of all sizes and all real parameters",
  ["CasimirRio/geometry.py:SphereSphere.mSumme", "CasimirRio/thermodynamics.py:finiteT.free_energy", "CasimirRio/thermodynamics.py:finiteT.e0"])

p("Exchanging the two spheres changes nothing",
  "For two separate spheres as in C100 and lmax = lssmax: exchanging the materials and radii of the spheres changes neither mSumme for any wavenumbers, nor mSumme_k0, nor free_energy at any temperature, nor e0 (exact integrator), whatever the precision.",
  "all materials of these kinds, wavenumbers, radii, distances, precisions, cut-offs and temperatures",
  "identity of determinants of all sizes for all real parameters",
  ["CasimirRio/geometry.py:SphereSphere.mSumme", "CasimirRio/geometry.py:SphereSphere.mSumme_k0", "CasimirRio/geometry.py:SphereSphere.blockmatrices", "CasimirRio/thermodynamics.py:finiteT.free_energy", "CasimirRio/thermodynamics.py:finiteT.e0"])
p("The interaction of equal contrasts weakens with the distance",
  "For two separate spheres as in C100 that are both denser or both less dense than the medium and a precision <= 0 (complete sums over m), at fixed cut-offs: moving the centres from distance L to L' >= L multiplies every value of mSumme by a factor of at most exp(-2 k (L' - L)) and mSumme_k0 by one of at most (L/L')^6; all values stay non-positive. Hence free_energy at every temperature T and e0 increase with the distance, |free_energy| falling at least by the larger one of (L/L')^6 and exp(-2 T (L' - L)); strictly if L' > L and both spheres differ from the medium.",
  "all materials of these kinds, wavenumbers, radii, pairs of distances, cut-offs and temperatures",
  "inequality for determinants of all sizes and all real parameters",
  ["CasimirRio/geometry.py:SphereSphere.mSumme", "CasimirRio/geometry.py:SphereSphere.mSumme_k0", "CasimirRio/thermodynamics.py:finiteT.free_energy", "CasimirRio/thermodynamics.py:finiteT.e0"])

p("In vacuum all spheres attract each other",
  "Two separate spheres in vacuum, each a perfect conductor or a non-magnetic dielectric or conductor of finite conductivity, of any two materials: free_energy returns non-positive numbers at all temperatures, strictly negative ones where the first frequency is not cut off, unless a sphere consists of vacuum; likewise e0 with an exact integrator. For any two predefined non-magnetic materials of finite conductivity and any predefined dielectric as medium free_energy returns; it is non-positive for equal materials and, with medium Vacuum, negative for all materials but Vacuum.",
  "all pairs of materials, radii, distances, precisions, cut-offs and temperatures",
  "all real parameters, matrix sizes and lengths of the Matsubara sum",
  ["CasimirRio/thermodynamics.py:finiteT.free_energy", "CasimirRio/thermodynamics.py:finiteT.e0", "CasimirRio/materials.py:LorentzMaterial.epsilon"])

p("Balancing is exact in floating-point arithmetic",
  "Run with rounded operations (any precision and rounding mode, no overflow or underflow), balance(M, conv) still returns an exact power-of-two diagonal similarity of M with representable entries, so with exactly the same determinant, trace and characteristic polynomial. It returns whenever conv (1+u)^(n+3) < (1-u)^(n+5) with the relative rounding error u, and then row and column norms obey conv (1-u)^(n+3) (c^2 + r^2) <= 5/2 (1+u)^(n+5) c r where they are above the threshold. In double precision this covers all matrices of up to 10^13 rows and conv <= 0.99, with c^2 + r^2 <= 1.01*5/(2 conv) c r. Without rounding the model is that of C01-C05.",
  "all matrices of representable entries, all sizes, all rounding modes",
  "rounding errors of sums of any length, termination for all inputs",
  ["CasimirRio/matrix_balancing.pyx:balance"])

p("Larger cut-offs strengthen the interaction, and the results converge",
  "For two separate spheres as in C100 and a precision <= 0 (complete sums over m): raising lmax and lssmax (with lmax <= lssmax) makes every value of mSumme, mSumme_k0, free_energy and e0 more negative if both spheres are denser or both less dense than the medium, and more positive for opposite contrasts. For all contrasts free_energy at every temperature and e0 converge when lmax tends to infinity, to a limit that does not depend on the sequence of cut-offs; the limit obeys the bounds of C100 and C104, and for equal (opposite) contrasts every value at finite cut-offs is above (below) it.",
  "all materials of these kinds, wavenumbers, radii, distances, pairs and sequences of cut-offs, and temperatures",
  "limit of determinants of unbounded size, all real parameters",
  ["CasimirRio/geometry.py:SphereSphere.mSumme", "CasimirRio/geometry.py:SphereSphere.mSumme_k0", "CasimirRio/thermodynamics.py:finiteT.free_energy", "CasimirRio/thermodynamics.py:finiteT.e0"])

p("The input window: labels, exceptions and the picture",
  "Each click on the button of textbox_get_example adds one status label to the window, also after an exception; labels are never removed. The label names an invalid distance, else an invalid second radius, else it reads 'worked' - also if the first radius is invalid, where the callback then ends with UnboundLocalError. The picture changes if and only if all three texts are numbers and the larger radius is not zero; otherwise UnboundLocalError or ZeroDivisionError. For positive radii the picture is the true-to-scale cross-section of the two spheres, the smaller one left, so the circles overlap exactly if the spheres do; exchanging the radii changes nothing, and the picture is always that of the last click that returned.",
  "all texts, all interpretations of texts as numbers, all sequences of clicks",
  "all real radii and distances, unbounded sequences of clicks",
  ["CasimirRio/textbox_get_example.py:retrieve_input"])

p("Larger or more contrasting spheres interact more strongly; perfect conductors most",
  "For two separate spheres as in C100, a precision <= 0 (complete sums over m), fixed centres, medium and cut-offs: enlarge the spheres, or replace their materials by ones whose permittivity differs at every frequency from that of the medium at least as much on the same side, or by perfect conductors. If the new spheres have equal contrast, every value of mSumme, mSumme_k0, free_energy and e0 is afterwards at most minus the absolute value of the old one, whatever the old contrasts; if the contrasts are opposite before and after, the repulsion grows. In particular the interaction of any two spheres is in absolute value at most the attraction of perfectly conducting spheres of the same size.",
  "all materials of these kinds, wavenumbers, radii, distances, cut-offs and temperatures",
  "inequality for determinants of all sizes, monotonicity of quotients of Bessel functions of all orders",
  ["CasimirRio/geometry.py:SphereSphere.mSumme", "CasimirRio/geometry.py:SphereSphere.mSumme_k0", "CasimirRio/scattering.py:scattering.mie", "CasimirRio/thermodynamics.py:finiteT.free_energy", "CasimirRio/thermodynamics.py:finiteT.e0"])

p("At large distances the code gives the interaction of two dipoles",
  "For two separate spheres as in C100, with the static polarisabilities (per cubed radius) 1 and -1/2 of a perfect conductor, 1 and 0 of a conductor, (e-e3)/(e+2 e3) and 0 of a dielectric, any cut-offs >= 1 and any precision: as the distance L grows, L^6 times every value of mSumme at the wavenumbers x/L tends to -(r1 r2)^3 exp(-2y)[s(4(1+y)^2 + 2(1+y+y^2)^2) - 2 u (y(1+y))^2], y = x sqrt(e3), s and u the sums of the products of polarisabilities of equal and of different kind; L^6 mSumme_k0 tends to -6 (r1 r2)^3 s; L^7 e0(0, inf) to -(r1 r2)^3 (23 s - 7 u)/(2 sqrt(e3)); at a fixed temperature T, L^6 free_energy tends to -3 T (r1 r2)^3 s. For perfect conductors in vacuum, at T = nu/L, the ratio of free_energy and the expression expected by tests/test_functional.py DipoleLimit tends to 1.",
  "all materials of these kinds, wavenumbers, radii, cut-offs, precisions and temperatures",
  "limit in the distance, determinants of all sizes, infinite sum over frequencies",
  ["CasimirRio/geometry.py:SphereSphere.mSumme", "CasimirRio/geometry.py:SphereSphere.mSumme_k0", "CasimirRio/thermodynamics.py:finiteT.free_energy", "CasimirRio/thermodynamics.py:finiteT.e0", "CasimirRio/tests/test_functional.py:DipoleLimit"])

p("The results do not depend on the unit of length",
  "Multiply radii and distance by c > 0 and divide all frequencies of the materials (plasma, resonance, relaxation frequencies and that of the permeability) by c. Then epsilon and mu at the wavenumbers k/c, mSumme at the wavenumbers k/c and mSumme_k0 are unchanged (the same exceptions included; any Bessel routines, materials and geometry); with all temperatures divided by c free_energy is divided by c and entropy is unchanged, in every state of the finiteT object before force is called; e0 (physical separate spheres, exact integrator) is divided by c; get_lmax and the automatic parameters of finiteT.__init__ are unchanged. For perfect conductors in vacuum only ratios of lengths matter. This needs analytic_n0 = True: otherwise the wavenumber 1e-10 that replaces zero makes free_energy depend on the unit for all spheres as in C108 with contrast.",
  "all materials, radii, distances, wavenumbers, temperatures, states of the object and scale factors",
  "identity for all real parameters and scale factors",
  ["CasimirRio/geometry.py:SphereSphere.mSumme", "CasimirRio/geometry.py:SphereSphere.mSumme_k0", "CasimirRio/geometry.py:get_lmax", "CasimirRio/thermodynamics.py:finiteT.free_energy", "CasimirRio/thermodynamics.py:finiteT.entropy", "CasimirRio/thermodynamics.py:finiteT.e0", "CasimirRio/thermodynamics.py:finiteT.__init__", "CasimirRio/materials.py:LorentzMaterial.epsilon", "CasimirRio/materials.py:LorentzSmithMaterial.epsilon"])

p("At high temperatures only the zero frequency counts",
  "For two separate spheres as in C100, any precision, cut-offs and number of frequencies: at every temperature T of the list |free_energy - T/2 mSumme_k0| is at most a bound that contains radii and distance only and is at most 2 C T exp(-T d) for T d >= 1, d the distance of the surfaces; the difference is non-positive for equal contrasts and non-negative for opposite ones. The entropy between the first and the last temperature differs from -1/2 mSumme_k0 by at most the sum of these bounds at the neighbouring temperatures divided by their difference. For growing temperature steps free_energy - T/2 mSumme_k0 tends to zero.",
  "all materials of these kinds, radii, distances, precisions, cut-offs, temperature steps and frequency numbers",
  "all real parameters, matrix sizes and lengths of the Matsubara sum",
  ["CasimirRio/thermodynamics.py:finiteT.free_energy", "CasimirRio/thermodynamics.py:finiteT.entropy", "CasimirRio/geometry.py:SphereSphere.mSumme_k0"])

p("The error of finite cut-offs falls geometrically",
  "For two separate spheres as in C100 and a precision <= 0 (complete sums over m): let R1 >= r1 and R2 >= r2 with R1 + r2 < L and r1 + R2 < L. Raising lmax and lssmax (lmax <= lssmax) arbitrarily changes no value of mSumme, mSumme_k0, free_energy and e0 by more than (r1/R1)^(2 lmax+1) B(R1, r2, L) + (r2/R2)^(2 lssmax+1) B(r1, R2, L), B the bound of C100 or C104, and the limit of C111 is no farther away. With R - r half the distance d of the surfaces: the error of free_energy is at most exp(-(2 lmax+1) d/(2 r1+d)) B(r1 + d/2, r2, L) + exp(-(2 lssmax+1) d/(2 r2+d)) B(r1, r2 + d/2, L). For the cut-off of get_lmax (d < 30 times the smaller radius) the exponential is at most exp(-2/13 exp(3 - 0.33 log10(precision)) rmin/(2 r+d)).",
  "all materials of these kinds, wavenumbers, radii, distances, cut-offs and temperatures",
  "error bound for determinants of unbounded size, all real parameters",
  ["CasimirRio/geometry.py:SphereSphere.mSumme", "CasimirRio/geometry.py:SphereSphere.mSumme_k0", "CasimirRio/geometry.py:get_lmax", "CasimirRio/thermodynamics.py:finiteT.free_energy", "CasimirRio/thermodynamics.py:finiteT.e0"])

p("The pressure between plane plates with exact integration",
  "With an exact integrator and all physical plates in a penetrable medium: the contribution of every frequency to planeplanePressure exists, and minus twice of it is the derivative by the distance of that frequency's contribution to the free energy (for whole integrals, not only integrands); for perfect mirrors it has a closed form with polylogarithms. planeplanePressure of PFA.py is the Matsubara sum of these contributions up to the wavenumber 20/L, that of raw_PFA.py the same sum up to 100/L. While 20/(T L) is no integer, the derivative of planeplaneFreeEnergy is minus twice planeplanePressure, up to the different stand-ins 1e-10 and 1e-20 for the zero frequency. The magnitude is at most that of perfect mirrors, plates of the same material attract each other, and zero temperature raises ZeroDivisionError.",
  "all plates, media, temperatures, distances, both values of n0_shielding",
  "An identity between derivatives of improper integrals for all materials; a test can compare finite differences of numerical integrals at a few points, within an error that hides terms left out.",
  ["CasimirRio/PFA.py:SphereSpherePFA.planeplanePressure", "CasimirRio/raw_PFA.py:SphereSpherePFA.planeplanePressure", "CasimirRio/PFA.py:SphereSpherePFA.planeplaneFreeEnergy", "CasimirRio/PFA.py:SphereSpherePFA.pressureRoundTrip"])


p("Stratified spheres: existence, signs and bounds of the interaction",
  "SphereSphere accepts lists of materials and radii (core, shells, medium). For two separate spheres, homogeneous or given by such lists (ordered radii, non-magnetic physical materials, only the core a perfect conductor, the last material the medium): the Mie coefficients exist for every degree and are at most those of a perfectly conducting sphere of the outer radius, with the same sign if all layers are optically denser than the medium and the opposite sign if all are thinner. single_m (called as in C99), mSumme and free_energy (numerical zero frequency, nmax >= 1) return one finite number for every entry, for any precision; its magnitude is at most that of two perfectly conducting spheres of the outer radii and at most an explicit bound that contains only the outer radii and the distance and decreases exponentially with wavenumber times gap; two spheres of layers on the same side of the medium attract, on opposite sides repel. Raising the cut-offs changes the sum over m by no more than for perfect conductors, hence geometrically little, and limits for infinite cut-offs and infinitely many frequencies exist. The constructor computes cut-offs from the outer radii; an empty list of radii raises IndexError. Lists [a, medium], [r] give the results of the homogeneous sphere. mSumme_k0 raises NotImplementedError for lists, so that finiteT ignores analytic_n0 = True; with nmax = 0 free_energy raises IndexError.",
  "all numbers of layers, materials, radii, distances, wavenumbers, cut-offs, precisions and temperatures",
  "bound and sign of determinants of all sizes built from a recursion over arbitrarily many layers, all real parameters",
  ["CasimirRio/geometry.py:SphereSphere.__init__", "CasimirRio/geometry.py:SphereSphere.roundTrip_elements", "CasimirRio/geometry.py:SphereSphere.roundTrip_elements_k0", "CasimirRio/geometry.py:SphereSphere.mSumme", "CasimirRio/stratified_sphere_scattering.py:StratifiedMieScattering.mie_stratified", "CasimirRio/thermodynamics.py:finiteT.__init__", "CasimirRio/thermodynamics.py:finiteT.free_energy"])


p("A sphere inside a cavity at non-zero wavenumbers",
  "SphereSphere with r1 + L < r2 describes a sphere inside a spherical cavity (mat2 the surrounding material, mat3 the filling). For non-magnetic physical materials (sphere and wall perfect conductors, dielectrics or conductors), L > 0 and lmax <= lssmax: at every positive wavenumber all Mie coefficients, including those of mie_internal, and the matrices of every m <= lmax exist; det(1 - M) is positive; its logarithm is at most 6 exp(-k d)/((1 - q)(1 - min(exp(-k d), q))) q^(m-1) with the gap d = r2 - L - r1 and q = r1/(r2 - L); it is negative if sphere and wall are both denser or both less dense than the filling and positive if only one of them is denser, and vanishes for no m if neither of them equals the filling. Its modulus grows with both cut-offs, and the complete sum over m converges for lmax -> infinity. single_m (called as in C99) returns these numbers, mSumme one sum over m <= M <= lmax for every wavenumber, at most 3 times the above bound over 1 - q, with the same sign and a geometrically small distance from the complete sum. For L > r1 + r2 the result is that of two separate spheres.",
  "all materials of these kinds, radii, distances, wavenumbers, cut-offs and precisions",
  "sign and size of determinants of all sizes for all real parameters; numerically the matrices of a cavity contain products of very large and very small numbers",
  ["CasimirRio/geometry.py:SphereSphere.__init__", "CasimirRio/geometry.py:SphereSphere.roundTrip_elements", "CasimirRio/geometry.py:SphereSphere.blockmatrices", "CasimirRio/geometry.py:SphereSphere.single_m", "CasimirRio/geometry.py:SphereSphere.mSumme", "CasimirRio/scattering.py:scattering.mie_internal", "CasimirRio/bessel_sk.py:trans_bessels", "CasimirRio/translation.py:translation.get_vl1l2"])


p("Free energy of a sphere inside a cavity",
  "SphereSphere accepts every sphere inside a cavity as in C120 with automatic (or positive) lmax and automatic lssmax and then meets the hypotheses of C120, and finiteT accepts the object; an automatic nmax is at least one. With analytic_n0=False and nmax >= 1 (the calculation at the end of thermodynamics.py) free_energy returns one number for every temperature T of the grid, of modulus at most 9 T coth(T d/2)/(1 - q)^3 with d and q as in C120; it is non-positive if at all frequencies sphere and wall are both denser or both less dense than the filling, non-negative if always exactly one of them is denser; and it converges if nmax grows. With nmax = 0 it raises IndexError. With the default analytic_n0=True mSumme_k0 and free_energy raise TypeError for every nmax >= 0, unless lmax = lssmax = 1. In that case (and for a precision <= 0) mSumme_k0 returns three times ln(1 - TE) + ln(1 - TM) with the static dipole terms TE and TM, the products of the coefficients of mie_k0 and mie_internal_k0 with (r1/r2)^3 (if both are below one), for two perfect conductors 6 ln(1 - (r1/r2)^3), whatever the distance of the centres. For separate spheres the values are those of C100.",
  "all materials of these kinds, radii, distances, cut-offs, precisions, numbers of frequencies and temperatures",
  "existence, sign and size of sums of logarithms of determinants of all sizes, all real parameters",
  ["CasimirRio/geometry.py:SphereSphere.__init__", "CasimirRio/geometry.py:SphereSphere.roundTrip_elements_k0", "CasimirRio/geometry.py:SphereSphere.blockmatrices_k0_int", "CasimirRio/geometry.py:SphereSphere.mSumme", "CasimirRio/geometry.py:SphereSphere.mSumme_k0", "CasimirRio/thermodynamics.py:finiteT.__init__", "CasimirRio/thermodynamics.py:finiteT.free_energy", "CasimirRio/scattering.py:scattering.mie_internal_k0"])


p("Rounding errors of the Bessel functions",
  "If every operation (+, -, *, /, powers, log, exp, the constants pi and 0.1) has a relative error of at most u <= 1/100, without overflow or underflow: the entry of order l that lnknu(x, lmax) returns, and that of the second array of lniknu, differs from log k_l(x) by at most 8 (l+1) u (4 + 2|log x| + x + l log(1 + 2l/x)), for every array of positive arguments, as long as 32 (l+1) u <= 1, so errors of the recursion are not amplified. For arguments of at least 1e-3 order 0 of lniknu differs from log i_0 by at most 2u(4 + 2|log x| + x) + 3u/x and order 1 from log i_1 by at most 8u(4 + 2|log x| + x) + 45u(1 + 1/x^3); below 1e-3 (small arguments first in the array) the errors of rounding are 2 u x^2 and 4u(4 + 2|log x| + x), next to those of the truncated series. Orders from 2 on differ by at most 30(l+2)u(4 + 2|log x| + x + (l+1) log(1 + 2(l+1)/x)) + 420u and the truncation of the continued fraction. The term u/x^3 of order 1 is real: an arithmetic in which only exp is inexact moves the result by more than u/(6x^3). In double precision (u = 2^-52, arguments in [1e-3, 1000], orders up to 1000) the bounds are 3e-8 for k, 2e-12, 2e-5 and 2e-7 for orders 0, 1 and from 2 on of i.",
  "all arithmetics with relative errors of at most u, all arrays, arguments, orders",
  "all roundings of all operations at all arguments; a test sees one arithmetic at a few arguments and needs a more precise reference",
  ["CasimirRio/bessel_sk.py:lnknu", "CasimirRio/bessel_sk.py:lniknu", "CasimirRio/bessel_sk.py:fnu", "CasimirRio/bessel_sk.py:fraction"])


p("Rounding errors of the Mie coefficients",
  "If every operation (square root included) has a relative error of at most u <= 1/100, without overflow or underflow, and the logarithms of the Bessel functions used by mie and mie_internal are right up to delta (at the computed arguments): with eta = 5 delta + 3 u Lambda + 15 u <= 1/100, Lambda a bound of log(1 + (2l+1)/x) for the arguments x, both functions return coefficients that differ from the exact ones by at most 10 eta in absolute terms (no denominator vanishes), for all positive permittivities and permeabilities, and the exponent of the scaling factor by at most 3 delta + 9u(l+1+x) and its own rounding; a computed coefficient has the right sign where the exact one exceeds this. For perfect conductors (miePEC, miePEC_internal) the TM coefficient has a relative error of at most 3 eta, the TE coefficient an error of at most 9u. In double precision with the logarithms that lniknu returns the error is at most 1e-7 for arguments between 0.1 and 10 and l <= 100. A relative bound does not hold for penetrable spheres: for 4 (k r)^2 <= (2l+3)(4l+2) u (in double precision k r = 1e-8) an arithmetic of relative error u, even with exact Bessel functions, returns a TE coefficient of the wrong sign for a sphere of permittivity 4 in vacuum.",
  "all arithmetics with relative errors of at most u, all l, wavenumbers, radii, permittivities and permeabilities",
  "all roundings of all operations for all parameters; a test sees one arithmetic at a few arguments",
  ["CasimirRio/scattering.py:scattering.mie", "CasimirRio/scattering.py:scattering.mie_internal", "CasimirRio/scattering.py:scattering.miePEC", "CasimirRio/scattering.py:scattering.miePEC_internal", "CasimirRio/bessel_sk.py:mie_bessels"])

p("Energy at zero temperature of a sphere inside a cavity",
  "For a sphere inside a cavity as in C120, e0 with an exact integrator and non-negative lower bound returns the integral of the values of mSumme at single wavenumbers (an integrable function), for an infinite, a finite and the automatic upper bound. Its modulus is at most 18 exp(-a d)/(d (1 - q)^3) with the lower bound a and d and q as in C120; the integral splits at every wavenumber b, and the part above b is at most this bound at b. It is non-positive if at all frequencies sphere and wall are both denser or both less dense than the filling, non-negative if always exactly one of them is denser; at each wavenumber at which the filling differs from both the integrand has this sign strictly, where it equals one of them the integrand vanishes, and if it differs from both everywhere the energy over a non-empty range is not zero. For a precision <= 0 and analytic_n0=False free_energy converges to this energy if the temperature tends to zero and nmax*deltaT to infinity. For separate spheres the integrand is that of C104.",
  "all materials of these kinds, radii, distances, cut-offs, precisions and bounds of the integral, all sequences of temperature grids",
  "integrals over a half-line of logarithms of determinants and their limits, all real parameters",
  ["CasimirRio/thermodynamics.py:finiteT.e0", "CasimirRio/thermodynamics.py:finiteT.free_energy", "CasimirRio/geometry.py:SphereSphere.mSumme", "CasimirRio/scattering.py:scattering.mie_internal"])

p("Cut-offs for a sphere inside a cavity",
  "For a sphere inside a cavity as in C120 and a precision <= 0 (complete sums over m): raising lmax and lssmax (with lmax <= lssmax) makes every value of mSumme, of free_energy with analytic_n0=False and of e0 more negative if sphere and wall are both denser or both less dense than the filling, and more positive if exactly one of them is denser. For all contrasts free_energy at every temperature and e0 converge when lmax tends to infinity, to a limit that does not depend on the sequence of cut-offs; the limit obeys the bounds of C121 and C124, and every value at finite cut-offs is above (below) it.",
  "all materials of these kinds, wavenumbers, radii, distances, pairs and sequences of cut-offs, and temperatures",
  "limit of determinants of unbounded size, all real parameters",
  ["CasimirRio/geometry.py:SphereSphere.mSumme", "CasimirRio/thermodynamics.py:finiteT.free_energy", "CasimirRio/thermodynamics.py:finiteT.e0"])


p("Sensitivity of the energies to errors of the Mie coefficients",
  "For two separate spheres as in C100 with radii r1, r2 and gap d put theta = r1 r2/((r1+d/2)(r2+d/2)) (below 1), and gain(kappa) = kappa/(1 - (1+kappa) theta). If each entry of the round-trip matrix has a relative error of at most delta and (1+delta) theta < 1, then det(1 - M) stays positive and its logarithm has a relative error of at most gain(delta) (twice that for spheres of opposite contrast), for matrices of every size. If the Mie coefficients given to blockmatrices (each amplitude times its scaling factor) have relative errors of at most delta and (1+delta)^2 theta < 1, single_m (called as in C99) still returns a finite number for every m, with a relative error of at most gain((1+delta)^2 - 1), or twice that for opposite contrasts; if 2 gain((1+delta)^2 - 1) < 1, so does mSumme with complete sums over m at every wavenumber, and free_energy at every temperature (for analytic_n0=True if the zero-frequency term has such an error too; contrasts of one sign at all frequencies). So errors are amplified by at most 1/(1-theta) at leading order, for every cut-off. For homogeneous, coated or stratified spheres of radii r1, r2 and errors of the coefficients of at most delta times those of perfectly conducting spheres, the value of single_m changes by at most gain((1+delta)^2 - 1) times its value for perfectly conducting spheres.",
  "all materials of these kinds, radii, distances, cut-offs, wavenumbers, temperatures and all errors of this size",
  "all perturbations of all matrix entries at once, for matrices of unbounded size",
  ["CasimirRio/geometry.py:SphereSphere.blockmatrices", "CasimirRio/geometry.py:dynamic_scaling", "CasimirRio/geometry.py:SphereSphere.single_m", "CasimirRio/geometry.py:SphereSphere.mSumme", "CasimirRio/thermodynamics.py:finiteT.free_energy"])


p("Rounding errors of scaling, assembly and of the whole round-trip matrix",
  "If every operation has a relative error of at most u <= 1/100 (no overflow, no underflow), blockmatrices, with dynamic_scaling in rounded arithmetic and the sums over axis 3 in any order and with any brackets, returns for two separate spheres as in C100 and every m a matrix M with det(1 - M) > 0 whose logarithm differs from the exact value x of single_m (called as in C99) by at most 2 gain(kappa) |x|, and by gain(kappa) |x| for equal contrast; here kappa = (1+delta)^2 (1+eps)^2 exp(40 u Z) (1+u)^(p+7) - 1 with the relative errors delta and eps of the given Mie and translation coefficients, a bound Z of the logarithms of their scaling factors and the number p of summands, and gain and theta are those of C126 (with (1+kappa) theta < 1). For homogeneous, coated or stratified spheres and errors of the Mie coefficients of delta times those of perfect conductors the error is at most gain(kappa) times the value for perfectly conducting spheres of the outer radii. For homogeneous spheres the latter also holds with the Mie coefficients computed in rounded arithmetic from Bessel functions with errors delta0: then delta = (1 + 10 eta) exp(2(3 delta0 + 9 u (lssmax+1+X)) + 2 u Z) - 1 with eta as in C123 and X a bound of the arguments in the medium. In double precision with the logarithms that lniknu returns, arguments between 0.1 and 10, lssmax <= 100, logarithms of the scaling factors of the translation coefficients of at most 1e4 in size, theta <= 0.9 and relative errors of the translation coefficients of at most 1e-7 the error is at most 4e-6 times the value of perfect conductors.",
  "all arithmetics with relative errors of at most u, all orders of the summations, all materials of these kinds, radii, distances, cut-offs, m and wavenumbers",
  "all roundings and all orders of summation for matrices of unbounded size; a test sees one arithmetic, one order and a few parameters",
  ["CasimirRio/geometry.py:SphereSphere.blockmatrices", "CasimirRio/geometry.py:dynamic_scaling", "CasimirRio/geometry.py:single_k_scale", "CasimirRio/geometry.py:SphereSphere.roundTrip_elements", "CasimirRio/scattering.py:scattering.mie", "CasimirRio/scattering.py:scattering.miePEC"])


p("A sphere inside a cavity: contrast, radii and distance of the centres",
  "For a sphere inside a cavity as in C120 and a precision <= 0 (complete sums over m) let the sphere become larger, the cavity narrower, the distance of the centres larger, or the permittivity of sphere or wall move further away from that of the filling on its side (perfect conductors count as denser than every dielectric; a perfectly conducting sphere also replaces a less dense one), with the same filling and the same cut-offs, such that the new arrangement is again as in C120. If sphere and wall of the new arrangement are at every wavenumber both denser or both less dense than the filling, every value of mSumme, of free_energy with analytic_n0=False (every temperature) and of e0 is at least as negative as the modulus of the old value, whatever the contrasts of the old arrangement. If in both arrangements exactly one of sphere and wall is denser and the distance of the centres is unchanged, the values are non-negative and do not decrease. Hence, if the wall is not less dense than the filling, no material of the sphere gives a larger modulus than a perfectly conducting sphere and wall, and for equal contrast the energy of a sphere does not increase as it moves away from the centre of the cavity, as it becomes larger or as the cavity becomes narrower.",
  "all pairs of arrangements of these kinds, all materials, radii, distances, cut-offs, wavenumbers and temperatures",
  "comparison of determinants of unbounded size for all pairs of parameters",
  ["CasimirRio/geometry.py:SphereSphere.mSumme", "CasimirRio/scattering.py:scattering.mie_internal", "CasimirRio/scattering.py:scattering.miePEC_internal", "CasimirRio/thermodynamics.py:finiteT.free_energy", "CasimirRio/thermodynamics.py:finiteT.e0"])


p("Dependence on the distance: log-convexity and concavity",
  "For two separate spheres as in C100 with equal contrast at every frequency (EqualContrast: both denser or both less dense than the medium; at zero frequency the same for permittivity and permeability) and a precision <= 0 (complete sums over m), let w be the value at the distance t L + (1-t) L' of the centres and x, y the values at L <= L', with the same cut-offs and 0 < t < 1. Then all three are non-positive, |w| <= |x|^t |y|^(1-t), hence t x + (1-t) y <= w, for every value of mSumme and mSumme_k0, for free_energy with analytic_n0=True at every temperature and for e0: the modulus of the energy is a log-convex function of the distance. So the attraction becomes weaker with the distance: for d >= 0 free_energy(L'+d) - free_energy(L') <= free_energy(L+d) - free_energy(L). For a sphere inside a cavity as in C120 with equal contrast free_energy with analytic_n0=False and nmax >= 1 at every temperature and e0 are non-positive, decreasing and concave functions of the distance of the centres, so the attraction becomes stronger as the sphere approaches the wall.",
  "all materials of these kinds, radii, pairs of distances, weights, cut-offs, wavenumbers and temperatures",
  "an inequality between determinants of unbounded size at three real distances; a test sees a few distances",
  ["CasimirRio/geometry.py:SphereSphere.mSumme", "CasimirRio/geometry.py:SphereSphere.mSumme_k0", "CasimirRio/thermodynamics.py:finiteT.free_energy", "CasimirRio/thermodynamics.py:finiteT.e0", "CasimirRio/translation.py:translation.trans_ab"])


p("Rounding errors of the sums over m and over the Matsubara wavenumbers",
  "Let every operation have a relative error of at most u (no overflow, no underflow). If the computed contributions of m = 0, ..., lmax differ from v(m) by at most kappa y(m) + eta with |v(m)| <= y(m), mSumme returns (at each wavenumber) the running sum up to the first M at which the computed sums vanish at all wavenumbers or the computed relative change of the reference wavenumber is below precision/10, and up to lmax if there is none; it differs from v(0) + 2 (v(1) + ... + v(M)) by at most ((1+kappa)(1+u)^(M+1) - 1)(y(0) + 2 (y(1) + ... + y(M))) + (2M+1) eta (1+u)^(M+1). For a precision <= 0 it stops before lmax only if the computed sums vanish. mSumme_k0 obeys the same bound and for a precision <= 0 adds all m. free_energy with analytic_n0=True on a serial setup, with the terms of a geometry known up to kappa y(n) + eta at the computed wavenumbers deltaT*n and np.sum in any order, returns for every i <= maxstep a number that differs from i deltaT (f(0)/2 + f(i) + f(2i) + ...) by at most ((1+kappa)(1+u)^(J+4) - 1) times i deltaT (y(0)/2 + y(i) + ...) and eta-terms, J the number of wavenumbers. Together with C127: for two separate homogeneous spheres and a precision <= 0, with determinants known up to eta, free_energy in rounded arithmetic differs from the exact sum over the values of mSumme at the computed wavenumbers by at most (1+pairErr)(1+u)^(lmax+J+5) - 1 times the same sum for perfectly conducting spheres, plus eta-terms, as long as in each slice the computed sums do not all vanish (which follows if the exact values exceed their error bounds). In double precision with lniknu, lssmax <= 100, at most 10^6 wavenumbers and the other conditions of C127 the error is at most 4.1e-6 times the value for perfectly conducting spheres, plus 1.1 T (J+1/2) (2 lmax+1) eta.",
  "all arithmetics with relative errors of at most u, all orders of the summation over wavenumbers, all numbers of terms, temperatures, materials of these kinds, radii, distances and cut-offs",
  "all roundings of sums of any length, including those of the stop rule; a test sees one arithmetic and a few parameters",
  ["CasimirRio/geometry.py:SphereSphere.mSumme", "CasimirRio/geometry.py:SphereSphere.mSumme_k0", "CasimirRio/thermodynamics.py:finiteT.free_energy", "CasimirRio/thermodynamics.py:finiteT.get_f_matsubaras", "CasimirRio/thermodynamics.py:finiteT.F_alle"])


p("Rounding errors of the zero-frequency contribution",
  "Let every operation, the square root, the logarithm, the exponential and gammaln at positive integers have a relative error of at most u (no overflow, no underflow), and let the sum over l'' be taken in any order. For two separate homogeneous spheres as in C100 (perfect conductors, metals with a Drude term, dielectrics in a dielectric medium, with given permittivities and permeabilities) let mie_k0, trans_k0_ext, ln_2dbl, lfac, the powers of radii and distance, dynamic_scaling and blockmatrices_k0_ext be computed with such operations in the order of the code. With zeroErr = exp(900 u (2N+2)(ln(2N+2) + 1 + ln(L/r1) + ln(L/r2))) - 1, N = lmax + lssmax, and shrink as in C126, (1 + zeroErr) shrink < 1: for every m the computed matrices have det(1-TE) > 0 and det(1-TM) > 0, and the sum of the logarithms differs from what single_m_k0 (called as in C94) returns in exact arithmetic by at most zeroErr/(1 - (1+zeroErr) shrink) times the modulus of the value for perfectly conducting spheres. With determinants known up to eta and a precision <= 0 mSumme_k0 differs from its exact value by at most ((1 + that ratio)(1+u)^(lmax+1) - 1) times the modulus of the value for perfect conductors, plus (2 lmax+1) eta (1+u)^(lmax+1), and free_energy with analytic_n0=True obeys the bound of C130 with no assumption on the zero-frequency value. In double precision with lssmax <= 100, L at most 1e40 radii and shrink <= 0.9 both are within 4.1e-6 times the value for perfect conductors (free_energy under the other conditions of C130), plus eta-terms.",
  "all arithmetics with relative errors of at most u, all orders of the sums over l'', all materials of these kinds, radii, distances, cut-offs, m and temperatures",
  "all roundings for matrices of unbounded size, with logarithms of factorials that cancel; a test sees one arithmetic and a few parameters",
  ["CasimirRio/geometry.py:SphereSphere.blockmatrices_k0_ext", "CasimirRio/geometry.py:SphereSphere.mSumme_k0", "CasimirRio/scattering.py:scattering.mie_k0", "CasimirRio/translation.py:translation.trans_k0_ext", "CasimirRio/helper_functions.py:ln_2dbl", "CasimirRio/helper_functions.py:lfac", "CasimirRio/thermodynamics.py:finiteT.free_energy"])


p("Sensitivity of the energies to all data",
  "Let two separate homogeneous spheres as in C100 with a precision <= 0 (complete sums over m) be given twice, with the same cut-offs (a perfect conductor stays one, and nothing else becomes one), and let the logarithms of both radii, of the distance of the centres and of the wavenumber differ by at most w <= 1/800 and those of the permittivities of spheres and medium by at most 2w. With kappa = exp(w (120 + 26 (lssmax + 1 + X))) - 1, X a bound of k L sqrt(eps_medium), and gain, theta as in C126, (1+kappa) theta < 1, the values differ by at most gain(kappa) times the modulus of the value for perfectly conducting spheres with the old radii and distance in the old medium: for single_m (called as in C99) for each m, for mSumme, for e0 with a finite range of integration (both data at the same wavenumbers) and, with X = 0, for mSumme_k0. The entries of free_energy with analytic_n0=True, when the temperature step changes as well by a factor within exp(+-w) and the other data satisfy this at all pairs of wavenumbers in that ratio, differ by at most (1 + gain(kappa)) exp(w) - 1 times the modulus of the entry for perfect conductors, X a bound over the wavenumbers used. The permittivities are within the required bounds for w = 2v if plasma frequency, resonance frequency and damping of every oscillator (Lorentz or Smith-Drude class) and the wavenumber change by factors within exp(+-v), and for w = v if only the wavenumber changes.",
  "all pairs of arrangements of this kind, all materials, radii, distances, cut-offs, wavenumbers and temperatures",
  "a Lipschitz bound for determinants of unbounded size in all parameters at once; tests compare a few pairs of parameters",
  ["CasimirRio/geometry.py:SphereSphere.mSumme", "CasimirRio/geometry.py:SphereSphere.mSumme_k0", "CasimirRio/geometry.py:SphereSphere.blockmatrices", "CasimirRio/scattering.py:scattering.mie", "CasimirRio/translation.py:translation.trans_ab", "CasimirRio/materials.py:LorentzMaterial.epsilon", "CasimirRio/materials.py:LorentzSmithMaterial.epsilon", "CasimirRio/thermodynamics.py:finiteT.free_energy", "CasimirRio/thermodynamics.py:finiteT.e0"])


p("free_energy in rounded and in exact arithmetic",
  "Let free_energy with analytic_n0=True on a serial setup be computed for two separate homogeneous spheres as in C131, with relative errors of at most u <= 1/1600 of every operation, including the products deltaT*n, at whose rounded values Mie coefficients, translation coefficients and determinants are known as in C130 and C131, a precision <= 0, and in each slice of wavenumbers one at which the computed sums do not vanish. Then for every i < maxstep the entry differs from the entry of free_energy in exact arithmetic (at the exact wavenumbers deltaT*n) by at most (1+kappa)(1+u)^(lmax+J+5)(1+g) - 1 times the modulus of the exact entry for perfectly conducting spheres, plus eta-terms; kappa is the larger of the errors of C130 and C131, J the number of wavenumbers of the entry and g = gain(exp(2u(120 + 26(lssmax+1+Y))) - 1), with the gain of C126 and Y a bound of deltaT n L sqrt(eps_medium), the argument of gain times theta below 1 as there. In double precision with lniknu, lssmax <= 100, nmax <= 10^6, Y = 10^6, theta <= 0.9, L at most 1e40 radii and the other conditions of C130 the difference is at most 4.3e-6 times the entry for perfect conductors, plus 1.1 T (J+1/2)(2 lmax+1) eta.",
  "all arithmetics with relative errors of at most u, all orders of the summations, all materials of these kinds, radii, distances, cut-offs, temperatures and numbers of wavenumbers",
  "all roundings of the whole computation for sums and matrices of unbounded size; a test sees one arithmetic and has no exact reference",
  ["CasimirRio/thermodynamics.py:finiteT.free_energy", "CasimirRio/thermodynamics.py:finiteT.get_f_matsubaras", "CasimirRio/geometry.py:SphereSphere.mSumme", "CasimirRio/geometry.py:SphereSphere.mSumme_k0"])


p("Contributions fall with m; cost of the early termination of the sums over m",
  "For two separate homogeneous spheres as in C100, both at least as dense as the medium at a wavenumber k > 0 or perfect conductors (every sphere in vacuum is), what single_m (called as in C99) returns is non-positive for all m <= lmax, and from m = 1 on each contribution is at most as large in magnitude as that of the preceding m. At zero frequency the same holds for single_m_k0 (called as in C94) with equal contrast, including the step from m = 0 to m = 1. Hence mSumme (with a precision >= 0, over wavenumbers at which this holds) and mSumme_k0 return non-positive values, never below those of the complete sum (precision 0) and in magnitude at least the lmax-th part of them; for mSumme_k0, for mSumme of a single wavenumber, and at one at least of the wavenumbers of mSumme of a list, the complete sum differs by at most (lmax-1)*precision/10 times the returned value. Therefore e0 over any interval changes by at most (lmax-1)*precision/10 of its value when the sums are made complete, and every entry of free_energy with analytic_n0=True is non-positive and at least the lmax-th part of the entry with complete sums. In general, if contributions are non-positive and do not fall from m = 1 on and mSumme stops at M because of a small change, the error at the reference wavenumber is at most (lmax-M)*precision/10 of the returned value and everywhere the returned value is at least M/lmax of the complete one.",
  "all materials of these kinds, radii, distances, wavenumbers, cut-offs, precisions >= 0, intervals of integration and temperatures",
  "that a small last step implies a small remainder is true only if the contributions fall with m; a test sees a few arrangements and no proof that the next contribution is not larger",
  ["CasimirRio/geometry.py:SphereSphere.mSumme", "CasimirRio/geometry.py:SphereSphere.mSumme_k0", "CasimirRio/geometry.py:SphereSphere.single_m", "CasimirRio/geometry.py:SphereSphere.single_m_k0", "CasimirRio/scattering.py:scattering.mie", "CasimirRio/translation.py:translation.trans_ab", "CasimirRio/thermodynamics.py:finiteT.e0", "CasimirRio/thermodynamics.py:finiteT.free_energy"])


p("The entropy vanishes at low temperatures",
  "For two separate homogeneous spheres as in C100 (perfect conductors, metals with a Drude term, dielectrics in a dielectric medium) and a precision <= 0 (complete sums over m) let free_energy and entropy be called with analytic_n0=True on serial setups whose temperature steps deltaT tend to zero. If nmax*deltaT tends to infinity, every entry of the list that entropy returns (first, inner and last ones, at a fixed position) tends to zero, for Drude metals as well. If moreover exp(-nmax*deltaT*(L-r1-r2))/deltaT tends to zero, the entry of free_energy at the temperature T = (i+1) deltaT differs from e0 with an infinite range of integration (exact integrator) by less than any multiple of T in the limit: (free_energy - e0)/T tends to zero. Both rest on this: what mSumme returns for a single wavenumber k is a continuously differentiable function f of k > 0 with k |f'(k)| <= (120 + 26 (lssmax + 1 + k L sqrt(eps_medium)))/(1 - theta) times the modulus of the value for perfectly conducting spheres, theta as in C126, and f' is bounded down to k = 0 and falls off as exp(-k(L-r1-r2)) for large k. With analytic_n0=False (and nmax >= 1) the static value z of f is replaced by z' = f(1e-10): then every entry of entropy tends to (z - z')/2 and (free_energy - e0)/T to (z' - z)/2 instead, and |z' - z| is at most 1e-10 times any bound of |f'| on (0, 1e-10].",
  "all materials of these kinds, radii, distances, cut-offs, sequences of temperature steps and numbers of wavenumbers, and all positions in the list",
  "a limit; a wrong weight of the zero-frequency term shows only at temperatures at which differences of the free energy are lost in rounding errors, and that the terms near zero frequency are smooth for Drude metals cannot be seen from values",
  ["CasimirRio/thermodynamics.py:finiteT.entropy", "CasimirRio/thermodynamics.py:finiteT.free_energy", "CasimirRio/thermodynamics.py:finiteT.e0", "CasimirRio/geometry.py:SphereSphere.mSumme", "CasimirRio/geometry.py:SphereSphere.mSumme_k0", "CasimirRio/scattering.py:scattering.mie", "CasimirRio/translation.py:translation.trans_ab", "CasimirRio/materials.py:LorentzMaterial.epsilon"])


p("Stratified spheres: distance and cut-offs",
  "For two separate spheres, homogeneous or given by lists, as in C119, with a precision <= 0, and at wavenumbers at which each sphere lies on one side of the medium (all its layers perfect conductors or at least as dense as the medium, or none of them denser): mSumme returns the complete sum over m = 0, ..., lmax; its value is negative (spheres on the same side) or positive (on opposite sides) if each sphere differs somewhere inside from the medium, and zero if one of them does not. For spheres on the same side, raising the distance of the centres from L to L' multiplies the modulus of the value at k by at most exp(-2k(L'-L)) and makes the value larger (strictly, if both spheres differ from the medium); the modulus at the distance tL + (1-t)L' is at most |value at L|^t |value at L'|^(1-t); raising the cut-offs makes the value smaller or leaves it. If the spheres are on the same side at all wavenumbers, every entry of free_energy with analytic_n0=False and nmax >= 1 is non-positive, grows with the distance (strictly, if both spheres differ from the medium at k = 1e-10 or at the first Matsubara wavenumber of the entry, with nmax large enough), is log-convex in the distance in the same sense and does not grow when the cut-offs are raised.",
  "all numbers of layers, materials, radii, pairs of distances, weights, cut-offs, wavenumbers and temperatures",
  "comparison of determinants of unbounded size built from a recursion over arbitrarily many layers, at pairs and triples of real distances",
  ["CasimirRio/geometry.py:SphereSphere.mSumme", "CasimirRio/geometry.py:SphereSphere.roundTrip_elements", "CasimirRio/stratified_sphere_scattering.py:StratifiedMieScattering.mie_stratified", "CasimirRio/translation.py:translation.trans_ab", "CasimirRio/thermodynamics.py:finiteT.free_energy"])


p("Stratified spheres: more contrast, stronger interaction",
  "Let each of two spheres as in C119 (homogeneous or given by lists) be replaced by one with other layers, such that both the old and the new sphere lie on the same side of the medium (as in C136) and that at every distance from the centre the permittivity of the new sphere is at least as far away from that of the medium as that of the old one (a perfect conductor is denser than everything); the numbers of layers and the radii may differ, the new spheres must still be separate. Then every unscaled Mie coefficient of the new sphere has the sign of the old one and at least its modulus, and with a precision <= 0 the same holds for every value of mSumme, and for every entry of free_energy with analytic_n0=False and nmax >= 1 if the new spheres are on the same side (then the attraction is at least as strong), or on opposite sides (then the repulsion is), at all wavenumbers. In particular: a further shell whose permittivity lies on the side of the sphere makes the interaction stronger, and the free energy of spheres made of layers denser than the medium lies between those of homogeneous spheres of the same outer radii made of materials that are less dense than all layers (but not less dense than the medium) and of materials that are denser than all of them.",
  "all pairs of layered spheres of this kind with any numbers of layers, all materials, radii, distances, cut-offs, wavenumbers and temperatures",
  "a comparison of two recursions over layers with different numbers of layers and different radii, and of determinants of unbounded size; a test sees a few profiles",
  ["CasimirRio/stratified_sphere_scattering.py:StratifiedMieScattering.mie_stratified", "CasimirRio/stratified_sphere_scattering.py:StratifiedMieScattering.mie_coated", "CasimirRio/geometry.py:SphereSphere.mSumme", "CasimirRio/thermodynamics.py:finiteT.free_energy"])


p("Stratified spheres at zero temperature",
  "For two separate spheres, homogeneous or given by lists, as in C119, and an exact integrator, e0 returns the integral of what mSumme returns for single wavenumbers, from a lower limit >= 0 up to a finite number, to infinity, or (upper bound None) to nmax*deltaT; the integral up to infinity exists, and splits at any wavenumber with a remainder that is exponentially small in (wavenumber) times (gap). Its modulus is at most that of the energy of two perfectly conducting spheres of the outer radii with complete sums, for any precision; it is <= 0 (>= 0) if the spheres are on the same side (on opposite sides) of the medium at all wavenumbers, and < 0 (> 0) over a non-empty range if moreover both differ from the medium at all wavenumbers. With complete sums (precision <= 0) and spheres on the same side the energy grows with the distance (strictly, if both differ from the medium), is log-convex in it, and does not grow when cut-offs are raised; on either side the change with the cut-offs is at most that of the energy of perfect conductors. Replacing the spheres by ones with at least as much contrast at every distance from the centres (C137) makes attraction or repulsion at least as strong. Entries of free_energy with analytic_n0=False converge to this energy when the temperature steps go to zero and nmax*deltaT goes to infinity. At the wavenumber zero itself the integrand raises NotImplementedError if one of the spheres is given by a list; without lists the integrand is that of C104.",
  "all numbers of layers, materials, radii, distances, cut-offs, precisions (where not restricted), ranges of integration, and sequences of temperature steps",
  "an improper integral over all wavenumbers of determinants of unbounded size, and a limit of sums; quadrature on finitely many nodes shows neither existence nor the comparisons",
  ["CasimirRio/thermodynamics.py:finiteT.e0", "CasimirRio/thermodynamics.py:finiteT.free_energy", "CasimirRio/geometry.py:SphereSphere.mSumme", "CasimirRio/geometry.py:SphereSphere.mSumme_k0", "CasimirRio/stratified_sphere_scattering.py:StratifiedMieScattering.mie_stratified"])


p("Stratified spheres: TM against TE, fall with m, cost of the early termination",
  "For one sphere as in C119 (homogeneous or given by lists) whose layers are all at least as dense as the medium or a perfectly conducting core, or none of them denser than the medium, at a wavenumber k > 0: of the two Mie coefficients that mie or mie_stratified return for any degree l, TE and TM, the TM one has at least the modulus of the TE one, and they do not have the same sign. For two such separate spheres on the same side of the medium what single_m (called as in C99) returns is non-positive for all m <= lmax, and from m = 1 on each contribution is at most as large in magnitude as that of the preceding m. Hence mSumme (with a precision >= 0, over wavenumbers at which this holds) returns non-positive values, never below those of the complete sum (precision 0) and in magnitude at least the lmax-th part of them; at one at least of the wavenumbers of the list (so for a single wavenumber at that one) the complete sum differs by at most (lmax-1)*precision/10 times the returned value. Therefore e0 over any interval changes by at most (lmax-1)*precision/10 of its value, and every entry of free_energy with analytic_n0=False and nmax >= 1 is non-positive and at least the lmax-th part of that with complete sums. This covers homogeneous spheres thinner than the medium, which C134 does not.",
  "all numbers of layers, materials, radii, distances, wavenumbers, degrees, cut-offs, precisions >= 0, intervals of integration and temperatures",
  "that a small last step implies a small remainder is true only if the contributions fall with m, which here depends on a recursion over arbitrarily many layers for both polarisations; a test sees a few profiles and no proof that the next contribution is not larger",
  ["CasimirRio/stratified_sphere_scattering.py:StratifiedMieScattering.mie_stratified", "CasimirRio/scattering.py:scattering.mie", "CasimirRio/geometry.py:SphereSphere.mSumme", "CasimirRio/geometry.py:SphereSphere.single_m", "CasimirRio/translation.py:translation.trans_ab", "CasimirRio/thermodynamics.py:finiteT.e0", "CasimirRio/thermodynamics.py:finiteT.free_energy"])


p("Energy of two spheres in the proximity approximation",
  "For physical materials, an exact integrator, a temperature >= 0 or infinite, and radii r1 <= r2 with d > r1 + r2 (spheres next to each other) or r1 < r2 with d < r2 - r1 (sphere in a cavity), PFA.spheresphereEnergy returns the integral of 2 pi rho times the free energy of plates at the local width of the gap, for rho from 0 to r1 (with the n0_shielding flag passed on). Its modulus is at most that for perfect mirrors of the same shape in the same medium. In vacuum it is at most pi^4/360 r1 r2/(r1+r2)/(d-r1-r2)^2 at zero temperature (in a cavity pi^4/360 r1 r2/(r2-r1)/(r2-r1-d)^2), and zeta(3)/4 r1 r2/(r1+r2)/(d-r1-r2) in the high-temperature limit. For two spheres of the same material: the energy is <= 0, does not fall when the distance of the centres grows (in a cavity: does not rise when the displacement grows), lies between pi r1^2 times the free energies of plates at the smallest and the largest width of the gap, and energy and spheresphereForce belong together: the work of the force from d to d + r1 + r2 - sqrt(r2^2-r1^2) is a lower bound of the energy without flag, and for every 0 < rho < r1 the work from d to the distance at which the gap on the axis is as wide as it was at rho, times s1 s2 (r1+r2)/((s1+s2) r1 r2) with s_i = sqrt(ri^2-rho^2), is an upper bound; inside the same holds with the free energies of plates and r1 r2/(r2-r1).",
  "all physical materials of both spheres and the medium, all radii, distances, temperatures and both values of the flag",
  "an integral over all widths of the gap of an integral or sum over all frequencies; existence, sign and monotonicity for all materials cannot be sampled, and the bracket by the work of the force is between two different methods",
  ["CasimirRio/PFA.py:SphereSpherePFA.spheresphereEnergy", "CasimirRio/PFA.py:SphereSpherePFA.spheresphereForce", "CasimirRio/PFA.py:SphereSpherePFA.distance", "CasimirRio/PFA.py:SphereSpherePFA.planeplaneFreeEnergy"])


p("raw_PFA: the energy of two spheres is the work of the force",
  "raw_PFA.spheresphereEnergy at the distance L should be the work of raw_PFA.spheresphereForce on the way from L to infinity (the integral of the force over all larger distances). The code violates this: for perfect mirrors in vacuum in the high-temperature limit the energy is negative and in modulus at most 10/17 of the work, for all radii and all distances up to 10^6, next to each other and one in the other, because the prefactor L/2 is right only for free energies falling as 1/L^3. Proved instead: at zero temperature, for perfect mirrors in vacuum, energy and work differ by at most 1e-20 R zeta(3)/(2L), R = r1 r2/(r1+r2) or r1 r2/(r2-r1). Also: in the high-temperature limit the lower limit 1e-10 of the wavenumbers in raw_PFA changes the free energy of plates of any materials by at most 1e-10/(4 pi L) against PFA.py.",
  "all radii, distances up to 10^6 (refutation) or all distances (zero temperature)",
  "an improper integral of one method compared with another method at all distances; the tests never compare the two",
  ["CasimirRio/raw_PFA.py:SphereSpherePFA.spheresphereEnergy", "CasimirRio/raw_PFA.py:SphereSpherePFA.spheresphereForce", "CasimirRio/raw_PFA.py:SphereSpherePFA.planeplaneFreeEnergyHT", "CasimirRio/raw_PFA.py:SphereSpherePFA.planeplane_e0"])

p("Rounding of Fresnel coefficients and of round trips between plates",
  "Let every arithmetic operation, square root, exponential and logarithm have a relative error of at most u <= 1/1000 (u = 2^-52 for doubles), without overflow and underflow. Then both Fresnel coefficients are within 16u of those in exact arithmetic, also where numerator and denominator cancel. With k the wavenumber in the medium, x = 2 k L and 1000 u (1+x) <= 1 - exp(-x), roundTrips and roundTrip raise nothing and are off by at most u (2 + 50(1+x)/(exp(x)-1)) and u (4 + 100(1+x)/(exp(x)-1)); pressureRoundTrips and pressureRoundTrip are off by at most 100 or 210 times u (1+x) k exp(x)/(exp(x)-1)^2, that is by a small part of the value for perfect reflectors however large the distance is. There is no such relative accuracy for the energy: for every u there is an arithmetic with relative errors of at most u in which roundTrips and roundTrip between perfect reflectors are exactly 0 as soon as exp(-x) <= u/2, although they are negative (log(1-x) instead of log1p).",
  "all arithmetics with relative errors u, all plates including perfect reflectors, all media, wavenumbers and distances with 1000 u (1+x) <= 1 - exp(-x)",
  "every rounding of every operation is covered; a test sees one machine, and small values are not resolved by absolute tolerances",
  ["CasimirRio/scattering.py:scattering.fresnel", "CasimirRio/scattering.py:scattering.fresnelPEC", "CasimirRio/PFA.py:SphereSpherePFA.roundTrips", "CasimirRio/PFA.py:SphereSpherePFA.roundTrip", "CasimirRio/PFA.py:SphereSpherePFA.pressureRoundTrips", "CasimirRio/PFA.py:SphereSpherePFA.pressureRoundTrip"])


p("Entropy of two spheres at large distances: limit and sign",
  "For two separate spheres as in C114, a grid of temperatures with the step tau/L, at least two temperatures and a growing number nmax of frequencies (serial, analytic zero frequency): L^6 times every entry of entropy() tends to the difference quotient (one-sided at the ends, central between) of g(T L) = (r1 r2)^3 D(sqrt(e3) T L)/sqrt(e3), where -g is the limit of L^7 free_energy in C114. If neither sphere is a perfect conductor, g rises with the temperature times the product of the static polarisabilities: every entry has the sign of that product from some distance on, whatever tau. If both are perfect conductors, every entry whose temperatures obey 6/5 <= sqrt(e3) T L <= 3 is negative from some distance on; if one is, an entry with 9/5 <= sqrt(e3) T L <= 23/10 has the sign opposite to the polarisability of the other sphere. For the spheres and the grid of tests/test_functional.py (step 0.4/L, 100 temperatures) entries 3, 4 and 5 become negative; for gold (Drude) all 100 become positive. What test_entropy (marked expectedFailure) expects is exactly the negative temperature derivative of what test_free_energy expects; the comparison nevertheless fails from some distance on, since with the step 0.4/L the difference quotient at the first temperature is more than twice the derivative.",
  "all materials of these kinds, radii, grids with step tau/L and at least two temperatures; the ranges of temperature given",
  "limit in the distance; negative entropy is a known effect of geometry and of the magnetic response of perfect conductors, and the only test of entropy compares a difference quotient with a derivative at one distance and is marked as an expected failure",
  ["CasimirRio/thermodynamics.py:finiteT.entropy", "CasimirRio/thermodynamics.py:finiteT.free_energy", "CasimirRio/geometry.py:SphereSphere.mSumme", "CasimirRio/tests/test_functional.py:DipoleLimit"])


p("Rounding errors of the logarithms of determinants",
  "In every arithmetic whose operations, logarithms included, have relative errors of at most u: Gaussian elimination with partial pivoting, as behind np.linalg.slogdet (multipliers from the reciprocal of the pivot, logarithms of the moduli of the pivots added in their order), never meets a zero pivot and returns ln det a up to 24 n^3 K u rho + ((1+u)^(n+1) - 1) n Lambda, provided the rows of the inverse of a have absolute sums of at most K, the numbers met in the elimination are at most rho, 24 n^2 K u rho <= 1 and ln rho, ln 2K <= Lambda. With partial pivoting rho = 2.1^n max|a| always suffices. balanced_slogdet adds the rounding of 1 - M, at most 2 n^2 K0 u mu, and nothing from balance, which changes only exponents; its answer for the block matrices of the round trips is therefore the determinant with the error that C130 takes as given. sln_det_blockdiagonal adds the errors of its two determinants and u times the result; for one multipole, where it takes the logarithm of a product, the error is at most 4 u + u times the modulus of the result. If the moduli in every row of M add up to theta < 1 and 100 n^2 2.1^n u <= 1 - theta, the error is at most 110 n^3 2.1^n u/(1-theta) + ((1+u)^(n+1) - 1) n (n + 3 - ln(1-theta)). The error is not relative to the result: for every u there is such an arithmetic in which the answer is 0 for all matrices with entries of at most u/2 divided by 1 + n u/2, although ln det(1 - M) is negative for M = x 1, x > 0 (ln det(1 - M) is not computed from traces or with log1p).",
  "all dimensions, all matrices, all arithmetics with relative errors u, all choices of the pivots with the largest modulus",
  "the statement concerns all matrices and all roundings; tests compare with the same slogdet or with values of 6 digits",
  ["CasimirRio/geometry.py:balanced_slogdet", "CasimirRio/geometry.py:sln_det_3d", "CasimirRio/geometry.py:sln_det_blockdiagonal", "CasimirRio/geometry.py:SphereSphere.single_m", "CasimirRio/geometry.py:SphereSphere.mSumme"])


p("Rounding errors of the translation coefficients",
  "In every arithmetic whose operations have relative errors of at most u: if the logarithms of the Bessel functions differ from the exact ones by at most delta and span at most W, the Gaunt coefficients g_i by at most gamma G_i with |g_i| <= G_i, and the argument by at most nu relatively, then get_vl1l2 raises nothing and each of its four coefficients, multiplied by the exponential of its scale, differs from the exact one by at most (1+gamma)(1+nu) exp(delta + u W)(1+u)^(n+18) - 1, n = min(l1,l2), times the sum of the moduli of the terms of the coefficient (G_i in place of g_i), in exterior and interior geometry, whatever the order of summation. In the exterior case, with the Bessel functions of lnknu in the same arithmetic and N = l1+l2, 32(N+1)u <= 1, delta may be taken as 8(N+1)u(4 + 2|ln x| + x + N ln(1+2N/x)) and W as 2 delta + N ln(1+2N/x). The error is not relative to the coefficient: for every u there is such an arithmetic in which, with exact Bessel functions and Gaunt coefficients, the computed mixing coefficient vanishes for all m >= 1 and x >= 4(l1+l2)^2/u, although the exact one never does (the Gaunt coefficients with the weights sqrt(2p+1) add up to zero, so that the leading terms cancel).",
  "all multipoles, orders m, arguments, arithmetics with relative errors u and orders of summation",
  "the statement concerns all roundings and all multipoles; tests compare single coefficients with values from the same formula",
  ["CasimirRio/translation.py:translation.get_vl1l2", "CasimirRio/translation.py:translation.get_scaled_bessels", "CasimirRio/bessel_sk.py:trans_bessels"])


p("Rounding errors of the Gaunt coefficients",
  "In every arithmetic whose operations, lgamma at positive integers included, have relative errors of at most u, gaunt(l, lp, m) raises nothing and its entry i differs from the exact one by at most exp(((1+u)^10 - 1) S)(1+u)^(10 n + 5) - 1, n = min(l,lp), times G_i. Here S is the sum of the moduli of the logarithms that make up the top coefficient, at most 22 N ln(2N) + ln(2N+1) + 3/2 for N = l+lp and |m| <= n, and G_i is the value that the recursion gives for entry i if all its terms are taken with their moduli, starting from the exact top coefficient; |entry i| <= G_i. For the two coefficients of highest degree G_i is their modulus, so that their relative errors are small, and those of all coefficients if l or lp is 1. In general the errors are not relative: the entry p = 2 of gaunt(3, 3, 2) is zero, and for every u > 0 there is such an arithmetic in which the computed entry is not. With lnknu and gaunt computed in the same arithmetic, the translation coefficients of two separate spheres obey the bound of C145 with these errors.",
  "all l, lp, m, all arithmetics with relative errors u <= 1/100",
  "all roundings and all multipoles; tests compare a few coefficients with tabulated values",
  ["CasimirRio/cython_gaunt.pyx:gaunt", "CasimirRio/translation.py:translation.get_vl1l2"])


p("Relative errors of the computed translation coefficients",
  "Two separate spheres, every arithmetic whose operations (lgamma at positive integers included) have relative errors of at most u <= 1/(32 (N+1)), N = l1+l2. With the argument k L sqrt(epsilon), the Bessel functions of lnknu and the Gaunt coefficients computed in this arithmetic, every coefficient that trans_ab computes for l1, l2 >= max(1,m) has, scale included, a relative error of at most err times kappa. Here err is explicit and of the order u, and kappa, the sum of the moduli of the terms (Gaunt coefficients by their recursion with moduli) divided by the modulus of the exact coefficient, is finite: no exact coefficient vanishes, except the mixing ones for m = 0, which are computed as zero. kappa <= 2 as soon as 3 x^2 times an explicit sum over the lower terms is at most 2 l1 l2 (2N-1)(2N-3) (mixing coefficients: (2N-1)(2N-3)), x the exact argument. Hence the assumption of C127 on the translation coefficients holds with the largest err kappa: det(1-M) > 0 for the matrices computed from these arrays, and ln det(1-M) has the error given there, in double precision at most 4e-6 times the value of perfectly conducting spheres if err kappa <= 1e-7. If this holds at all computed Matsubara wavenumbers, then under the other conditions of C130 and C131 (precision <= 0, lssmax <= 100, at most 10^6 wavenumbers, shrink <= 0.9, L at most 1e40 radii, computed sums that do not all vanish) the free energies that free_energy returns with analytic_n0=True on a serial setup, every step in doubles except the determinants (errors eta in their logarithms), differ from the exact sums over the computed wavenumbers by at most 4.1e-6 times those of perfectly conducting spheres plus 1.1 T (J+1/2)(2 lmax+1) eta, J the number of wavenumbers.",
  "all materials, radii, distances, wavenumbers, multipoles, orders m, arithmetics with relative errors u and orders of summation",
  "all roundings and all multipoles; tests compare single coefficients with values from the same formula, and energies to a few digits",
  ["CasimirRio/translation.py:translation.trans_ab", "CasimirRio/translation.py:translation.get_vl1l2", "CasimirRio/cython_gaunt.pyx:gaunt", "CasimirRio/bessel_sk.py:trans_bessels", "CasimirRio/geometry.py:SphereSphere.roundTrip_elements"])


p("Early termination and finite cut-offs together",
  "Two separate homogeneous spheres as in C100 with equal contrast, both at least as dense as the medium or perfect conductors at all wavenumbers used (all spheres in vacuum), precision >= 0, and R1, R2 as in C117. What mSumme([k]) and mSumme_k0 return is non-positive and never below the value with complete sums over m and larger cut-offs, and differs from it by at most (lmax-1)*precision/10 times the returned value plus the bound of C117 on the error of the cut-offs; e0 obeys the same with respect to its limit of infinite cut-offs with complete sums. Every entry of free_energy (analytic_n0=True, serial setup) is non-positive, not below its limit of infinite cut-offs with complete sums, and the magnitude of the limit is at most lmax times that of the entry plus the bound of C117. For stratified spheres as in C119, both on the same side of the medium, mSumme([k]) and e0 obey the same bounds against complete sums with larger cut-offs, r1 and r2 being the outer radii.",
  "all materials of the kind described, radii, distances, cut-offs, precisions >= 0, wavenumbers and temperatures",
  "the statement compares with the limit of infinite cut-offs and with complete sums, which no test can compute",
  ["CasimirRio/geometry.py:SphereSphere.mSumme", "CasimirRio/geometry.py:SphereSphere.mSumme_k0", "CasimirRio/thermodynamics.py:finiteT.e0", "CasimirRio/thermodynamics.py:finiteT.free_energy"])


p("The computed free energy against larger cut-offs and more Matsubara terms",
  "Two separate spheres, precision <= 0, analytic_n0=True on a serial setup, R1 >= r1 and R2 >= r2 such that R1+r2 and r1+R2 are less than L (as in C117). In exact arithmetic no entry of free_energy (temperature T) changes by more than the bound of C117 plus T freeC(r1,r2,L) s(k d)/(1 - exp(-T d)), s(t) = exp(-t)/sqrt(1 - exp(-2t)), d = L-r1-r2, if the cut-offs lmax, lssmax and the number nmax of wavenumbers are replaced by any larger ones; k = T (J+1) is the first wavenumber that is left out, J = floor(nmax/(i+1)) for entry i. The last term tends to zero for k -> infinity. Hence every entry has a limit when lmax, lssmax and nmax grow beyond all bounds in whatever order, and is no farther away from it than this sum. In double precision (every step of the computation rounded except the determinants, whose logarithms have errors of at most eta) the entries that free_energy returns differ from those of exact arithmetic with any larger cut-offs and any larger nmax by at most 4.3e-6 times the magnitude of the value for perfectly conducting spheres, 1.1 T (J+1/2)(2 lmax+1) eta, the bound of C117 and the same last term, added up. They differ from the limit by at most the same sum with the bound freeBound of C100 in place of the value for perfectly conducting spheres. Conditions of the second part: those of C133 and C147, i.e. lssmax <= 100, nmax <= 10^6, shrink <= 0.9, L at most 1e40 radii, k L sqrt(epsilon) <= 1e6, computed sums that do not all vanish, and err kappa <= 1e-7 for the computed translation coefficients.",
  "all materials, radii, distances, temperatures, cut-offs and numbers of wavenumbers as described, and all larger ones",
  "the statement compares with arbitrarily many multipoles and wavenumbers in exact arithmetic, which no test can compute",
  ["CasimirRio/thermodynamics.py:finiteT.free_energy", "CasimirRio/geometry.py:SphereSphere.mSumme", "CasimirRio/geometry.py:SphereSphere.mSumme_k0", "CasimirRio/translation.py:translation.trans_ab"])


p("The computed entropy against larger cut-offs and more Matsubara terms",
  "In every arithmetic whose operations have relative errors of at most u <= 1/100: if the free energies handed to np.gradient, at least two, are wrong by at most beta and the exact ones are at most X in modulus, every element of the rounded difference quotient (one-sided at the ends, central between, step h) differs from the exact one by at most 2 (beta + 4 u (beta + X))/h. Hence, two separate spheres under the conditions of the second part of C149 and at least two temperatures: entropy() on a new object, every step in double precision except the determinants, returns maxstep numbers that differ from those of exact arithmetic on the same grid of temperatures with any larger cut-offs lmax, lssmax and any larger nmax by at most 2 (beta + 4 u (beta + X))/deltaT, u = 2^-52. Here beta is a bound on the error budget of C149 at all temperatures of the grid (the energy of perfectly conducting spheres in it replaced by the bound freeBound of C100), X one on freeBound. The same bound holds against minus the exact difference quotients of the limits of the free energy in C149.",
  "all materials, radii, distances, grids of temperatures, cut-offs and numbers of wavenumbers as described, and all larger ones",
  "the statement compares with arbitrarily many multipoles and wavenumbers in exact arithmetic; the only test of entropy is marked as an expected failure",
  ["CasimirRio/thermodynamics.py:finiteT.entropy", "CasimirRio/thermodynamics.py:finiteT.free_energy", "CasimirRio/geometry.py:SphereSphere.mSumme"])


p("Error of finite cut-offs for a sphere inside a cavity",
  "A sphere inside a cavity as in C120 (all materials, whether attracted or repelled by the wall), precision <= 0, and R1 >= r1, R2 <= r2 such that L + R1 < r2 and L + r1 < R2: a larger sphere and a smaller cavity that would still fit. If lmax and lssmax are replaced by any larger ones (lmax <= lssmax), no value of mSumme at a wavenumber k > 0 changes by more than (r1/R1)^(2 lmax+1) B(R1,r2,k) + (R2/r2)^(2 lssmax+1) B(r1,R2,k), where B(a,b,k) = 18 exp(-k (b-L-a))/(1 - a/(b-L))^3 bounds the value for the radii a and b; no entry of free_energy (analytic_n0=False, serial setup, nmax >= 1) changes by more than the same with the bound of C121, 9 T coth(T d/2)/(1-q)^3 for the changed radii, in the place of B; and no value of e0 by more than the same with 18 exp(-k0 d)/(d (1-q)^3), k0 the lower end of the integral. free_energy and e0 are within these bounds of their limits of infinite cut-offs (C125). If half of the smallest distance d of sphere and wall is given to the one or the other, the two factors in the bound for free_energy are at most exp(-(2 lmax+1) d/(2 r1+d)) and exp(-(2 lssmax+1) d/(2 r2)).",
  "all materials as in C120, radii, distances, wavenumbers, temperatures, cut-offs and all larger cut-offs",
  "the statement compares with arbitrarily large cut-offs and with the limit, which no test can compute; no test treats a cavity",
  ["CasimirRio/geometry.py:SphereSphere.mSumme", "CasimirRio/thermodynamics.py:finiteT.free_energy", "CasimirRio/thermodynamics.py:finiteT.e0"])


p("A sphere inside a cavity: free energy and entropy against larger cut-offs and more Matsubara terms",
  "A sphere inside a cavity as in C120, precision <= 0, analytic_n0=False on a serial setup, nmax >= 1, R1 and R2 as in C151, d = r2-L-r1 the smallest distance of sphere and wall, q = r1/(r2-L). If lmax, lssmax and nmax are replaced by any larger ones, no entry i of free_energy (temperature T = (i+1) deltaT) changes by more than the bound of C151 plus 18 T exp(-k d)/((1-q)^3 (1 - exp(-T d))), k = T (J+1) the first wavenumber that is left out, J = floor(nmax/(i+1)). Hence every entry has a limit when lmax, lssmax and nmax grow beyond all bounds in whatever order, and every finite choice is no farther away from it than this sum; the limit obeys the bound and has the sign of C121. If beta bounds the sum at all temperatures of the grid, at least two, no entry of entropy() on a new object changes by more than 2 beta/deltaT, and none is farther away from minus the difference quotient of the limits.",
  "all materials as in C120, radii, distances, temperature grids, cut-offs, numbers of wavenumbers and all larger ones",
  "the statement compares with arbitrarily large cut-offs and numbers of wavenumbers and with the limit, which no test can compute; no test treats a cavity",
  ["CasimirRio/thermodynamics.py:finiteT.free_energy", "CasimirRio/thermodynamics.py:finiteT.entropy", "CasimirRio/geometry.py:SphereSphere.mSumme"])


p("Early termination of the sums over m for a sphere inside a cavity",
  "A sphere inside a cavity as in C120 (all materials, whether attracted or repelled by the wall), every precision, q = r1/(r2-L). mSumme returns for a nonempty array of positive wavenumbers the sums over m = 0..M with one M between 1 and lmax for all of them, and M = lmax or the criterion of C13 holds at M; they differ from the complete sums (precision 0) by at most (2/3) q^M, hence (2/3) q, times the bound of C120 summed over m, 18 exp(-k d)/(1-q)^3, d = r2-L-r1, and lie between zero and the complete sums (at or above them for the same sign of the contrasts of sphere and wall with the medium, at or below for opposite signs). No value of e0 and no entry of free_energy (analytic_n0=False, serial setup, nmax >= 1) differs from the one with complete sums by more than (2/3) q times the bound of C121 (18 exp(-k0 d)/(d (1-q)^3) for e0, k0 the lower end of the integral; 9 T coth(T d/2)/(1-q)^3 for free_energy), and for contrasts of the same sign, or of opposite signs, at all wavenumbers both lie between zero and the value with complete sums. Together with C151 and C152: e0 with any precision differs from the value with complete sums and any larger cut-offs by at most the sum of this bound and that of C151, and free_energy from that with complete sums and any larger cut-offs and numbers of wavenumbers by at most the sum of this bound and that of C152. The same sum bounds the distance of every entry of free_energy from the limit of C152 (complete sums, all multipoles and wavenumbers); if beta bounds it at all temperatures of the grid, at least two, no entry of entropy() on a new object is farther than 2 beta/deltaT away from minus the difference quotient of these limits.",
  "all materials as in C120, radii, distances, wavenumbers, temperatures, precisions, cut-offs and all larger ones",
  "the criterion compares the last change only, so no finite set of runs shows that what is left out is small; no test treats a cavity",
  ["CasimirRio/geometry.py:SphereSphere.mSumme", "CasimirRio/thermodynamics.py:finiteT.e0", "CasimirRio/thermodynamics.py:finiteT.free_energy", "CasimirRio/thermodynamics.py:finiteT.entropy"])


if __name__ == "__main__":
    with open("/verif/properties.jsonl", "w") as f:
        for q in P: f.write(json.dumps(q) + "\n")
    for q in P: print(q["id"], q["title"])
