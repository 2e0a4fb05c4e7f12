"""Mutants: edits of model definitions as realistic bugs would make them, with the claims they falsify."""
MUTANTS = []


def mu(name, file, defn, old, new, claims, bug):
    MUTANTS.append(dict(name=name, file="Model/" + file, defn=defn, old=old, new=new, claims=claims.split(), bug=bug))


F = "Balance.lean"
mu("bal1", F, "growLoop", "⟨s.f * 2, s.c * 2, s.r / 2⟩", "⟨s.f * 2, s.c * 2, s.r⟩", "C03", "row norm not updated in the growing loop")
mu("bal2", F, "scaleIndex", "if j = i then M₁ j k / f else M₁ j k", "M₁ j k", "C01", "row division forgotten")
mu("bal3", F, "scaleIndex", "if j = i then M₁ j k / f else M₁ j k", "if j = i then M j k / f else M₁ j k", "C01", "row division reads the unscaled matrix: the diagonal entry changes")
mu("bal4", F, "balanceIndex", "some (scaleIndex M i s₂.f, false)", "some (scaleIndex M i s₂.f, true)", "C03", "converged flag not cleared")
mu("bal5", F, "balanceIndex", "if |r| ≤ balanceTiny ∨ |c| ≤ balanceTiny", "if |r| ≤ balanceTiny ∧ |c| ≤ balanceTiny", "C02", "only indices with both norms zero are skipped: endless loop for a zero column")
mu("bal6", F, "balanceIndex", "s₂.c ^ 2 + s₂.r ^ 2 < conv * (c + r)", "s₂.c ^ 2 + s₂.r ^ 2 > conv * (c + r)", "C02 C03", "convergence test reversed")
mu("bal7", F, "shrinkLoop", "fun s => s.c ≥ s.r * 2", "fun s => s.c ≥ s.r * 4", "C03", "wrong threshold in the shrinking loop")
mu("bal8", F, "colSq", "∑ j, if j = i then 0 else |M j i| ^ 2", "∑ j, |M j i| ^ 2", "C03", "diagonal not excluded from the column norm")
mu("bal9", F, "balanceIndex", "conv * (c + r)", "(c + r)", "C04", "parameter conv ignored: no hang for conv > 1")
mu("bal10", F, "growLoop", "⟨s.f * 2, s.c * 2, s.r / 2⟩", "⟨s.f * 3, s.c * 3, s.r / 3⟩", "C01", "radix three instead of two")

F = "LinAlg.lean"
mu("lin1", F, "invBlock3d", "let i12 := npNeg (← dot3d fak2 ischur)", "let i12 := (← dot3d fak2 ischur)", "C07 C09", "sign of the upper right block")
mu("lin2", F, "traceDot3d", "inv.val [i, j.1, k.1] * m2.val [i, k.1, j.1]", "inv.val [i, j.1, k.1] * m2.val [i, j.1, k.1]", "C09", "indices of the trace not crossed")
mu("lin3", F, "slnDetBlockdiagonal", "(1 - B ⟨0, by omega⟩ ⟨0, by omega⟩))", "(1 + B ⟨0, by omega⟩ ⟨0, by omega⟩))", "C06", "sign in the 1x1 case")
mu("lin4", F, "dot3d", "A.val [i, a, b.1] * B.val [i, b.1, c]", "A.val [i, a, b.1] * B.val [i, c, b.1]", "C74", "second factor transposed")
mu("lin5", F, "slogdetBalanced", "(balance fuel conv (1 - M))", "(balance fuel conv M)", "C05 C06", "identity not subtracted")
mu("lin6", F, "matrixAppend", "let z1 ← npAppend2 A B\n    let z2 ← npAppend2 C D", "let z1 ← npAppend2 A C\n    let z2 ← npAppend2 B D", "C05", "off-diagonal blocks exchanged")
mu("lin7", F, "invBlock3d", "let schur ← npSub3 A22 (← dot3d (← dot3d A21 iA11) A12)", "let schur ← npAdd3 A22 (← dot3d (← dot3d A21 iA11) A12)", "C07 C08", "Schur complement with the wrong sign")
mu("lin8", F, "inv3d", "else if ∃ i < d0, (A.slice d1 d1 i).det = 0 then .error .linAlgError", "", "C07 C74", "singular matrices not rejected")
mu("lin9", F, "slnDetBlockdiagonal", ".ok (some (b + a))", ".ok (some (b + b))", "C06", "second determinant used twice")
mu("lin10", F, "slnDet3d", "if d1 ≠ d2 then some (.error .valueError)\n        else ((List.range d0)", "if d1 ≠ d2 then some (.error .valueError)\n        else ((List.range (d0 - 1))", "C05", "last slice forgotten")
mu("lin11", F, "slogdet1", "if M.det = 0 then ⊥ else (Real.log |M.det| : ℝ)", "(Real.log |M.det| : ℝ)", "C05", "no -inf for singular matrices")

F = "Blocks.lean"
mu("blk1", F, "singleKScale", "a * ((l1.1 + 1 : ℝ) - (l2.1 + 1)) + X l1 l2 s", "a * ((l1.1 + 1 : ℝ) + (l2.1 + 1)) + X l1 l2 s", "C10 C11", "K symmetric instead of antisymmetric: no similarity")
mu("blk2", F, "RTElems.cEM", "e.V0 l1 s * e.bTE s * e.V3 l2 s + e.V2 l1 s * e.bTM s * e.V1 l2 s", "e.V0 l1 s * e.bTE s * e.V1 l2 s + e.V2 l1 s * e.bTM s * e.V1 l2 s", "C11 C70", "V1 for V3 in the mixing block")
mu("blk3", F, "RTElems.logSkal", "e.a2 l1 + e.b2 s + e.V4 l1 s + e.V4 l2 s", "e.a2 l1 + e.b2 s + e.V4 l1 s + e.V4 l1 s", "C11", "scale of the back translation at the wrong l")
mu("blk4", F, "RTElems.cME", "e.aTM l1 * (e.V2 l1 s * e.bTE s * e.V1 l2 s +", "e.aTE l1 * (e.V2 l1 s * e.bTE s * e.V1 l2 s +", "C11 C70", "TE coefficient in an M row")
mu("blk5", F, "blockmatricesChannels", "sumSs skal (fun l1 l2 s => e.aTE l1 * (e.V2 l1 s * e.bTM s * e.V3 l2 s))", "sumSs skal (fun l1 l2 s => e.aTE l1 * (e.V2 l1 s * e.bTE s * e.V3 l2 s))", "C70", "wrong polarisation of sphere B in one channel")
mu("blk6", F, "blockmatricesK0Ext", "(2 * lsf s + 1) * Real.log (r2 / L)", "(2 * lsf s) * Real.log (r2 / L)", "C72", "power of r2/L off by one")
mu("blk7", F, "blockmatricesK0Ext", "sgn b s * e.vSgn a s * e.vSgn b s * e.aTE a * e.bTE s", "sgn b s * e.vSgn a s * e.vSgn b s * e.aTE a * e.bTM s", "C72", "TM coefficient in the TE matrix")
mu("blk8", F, "blockmatricesK0Int", "if n * p ≠ 1 then .error .typeError", "if n * p = 0 then .error .typeError", "C73", "conversion of arrays accepted")
mu("blk9", F, "debugBlock", "Real.log |c l1 l2 s|", "Real.log |c l2 l1 s|", "C71", "amplitude transposed in the debug variant")
mu("blk10", F, "singleKScale", "| 1, _, X => .ok X", "| 1, _, X => .ok fun l1 l2 s => X l1 l2 s - X 0 0 s", "C10 C11", "single row is normalised instead of left alone")
mu("blk11", F, "blockmatrices", "EM := sumSs skal e.cEM,\n        ME := sumSs skal e.cME", "EM := sumSs skal e.cME,\n        ME := sumSs skal e.cEM", "C11", "mixing blocks exchanged")

F = "MSum.lean"
mu("ms1", F, "mLoop", "S i + 2 * l i", "S i + l i", "C13 C14 C19", "negative m forgotten")
mu("ms2", F, "mLoop", "if post S S' then .ok S' else", "if post S S' then .ok S else", "C13", "last term dropped when stopping")
mu("ms3", F, "mSummeNonzero", "|(|new r / old r|) - 1| < precision / 10", "|(|new r / old r|) - 1| < precision", "C13 C15", "precision not divided by ten")
mu("ms4", F, "mSummeK0", "|(|old 0 / new 0|) - 1| < precision / 10", "|(|old 0 / new 0|) - 1| > precision / 10", "C14", "stopping test reversed")
mu("ms5", F, "rtFixedGo", "(P i).trace / n)", "(P i).trace)", "C16 C17", "division by the order forgotten")
mu("ms6", F, "rtFixedGo", "rtFixedGo M todo (n + 1) (fun i => M i * P i)", "rtFixedGo M todo (n + 1) (fun i => P i * P i)", "C16 C17", "squaring instead of multiplying")
mu("ms7", F, "roundtripsAuto", "fun s => (fun i => -s.sum i, s.n)", "fun s => (fun i => -s.sum i, s.n - 1)", "C18", "recorded order corrected by one")
mu("ms8", F, "rtStep", "rel := pyMax (absQuot (add 0) (sum 0)) (List.ofFn fun i : Fin d => absQuot (add i.succ) (sum i.succ))", "rel := absQuot (add 0) (sum 0)", "C18", "only the first slice is tested")
mu("ms9", F, "mSumRoundtrips", "|new r / old r| < precision", "|(|new r / old r|) - 1| < precision", "C19", "relative change tested (as was intended): sum stops early")
mu("ms10", F, "mSumme", ".ok (z 0 :: r)", ".ok r", "C13", "zero-frequency value not prepended")
mu("ms11", F, "mLoop", "mLoop pre post L todo (m + 1) S'", "mLoop pre post L todo (m + 2) S'", "C13 C14", "every second m skipped")
mu("ms12", F, "mSummeNonzero", "precision / 10)\n    L lmax 1 S", "precision / 10)\n    L (lmax - 1) 1 S", "C13", "range(1, lmax) instead of range(1, lmax+1)")
mu("ms13", F, "roundtripsFixed", "if order < 1 then .error .unboundLocalError", "if order < 0 then .error .unboundLocalError", "C16", "order zero accepted")

F = "Geometry.lean"
mu("geo1", F, "rtElements", "mieB := coeffs b 1 P.lssmax, K := some ks }", "mieB := coeffs b 1 P.lssmax }", "C20 C21", "cache key not stored")
mu("geo2", F, "rtElements", "(fun v => Proc.pure (s2.mieA, s2.mieB, v)) s2", "(fun v => Proc.pure (s2.mieA.drop (lminOf m - 1), s2.mieB.drop (lminOf m - 1), v)) s2", "C20 C75", "first call slices correctly (defect repaired)")
mu("geo3", F, "rtElements", "(s.mieA.drop (lminOf m - 1), s.mieB.drop (lminOf m - 1), v)) s\n  else\n    match", "(s.mieA.drop (lminOf m), s.mieB.drop (lminOf m - 1), v)) s\n  else\n    match", "C20 C21", "slice of sphere A off by one")
mu("geo4", F, "superElements", "blockElements P m ks { s with forceFlag := flag }", "blockElements P m ks s", "C23", "force flag not set by supermatrix")
mu("geo5", F, "getLmax", ".ok (max (pyInt (Real.exp eta * (rs / d) / 13) + lOffset) 1)", ".ok (pyInt (Real.exp eta * (rs / d) / 13) + lOffset)", "C32", "lower bound one forgotten")
mu("geo6", F, "getLmax", "let rs := min r1 r2\n  let rl := max r1 r2", "let rs := r1\n  let rl := r2", "C32", "radii not ordered")
mu("geo7", F, "coatedInit", "sphereInit r1a r2a L lmax lssmax (.num forceFlag) 1e-4 0 .lndet", "sphereInit r1a r2a L lmax (.num 0) lssmax 1e-4 forceFlag .lndet", "C34", "arguments in the right order (defect repaired)")
mu("geo8", F, "lssmaxArg", "pyInt (max r1 r2 / min r1 r2 * lmax)", "pyInt (r1 / r2 * lmax)", "C33", "ratio of radii not ordered")
mu("geo9", F, "sphereInit", "extFlag := decide (L > r1 + r2)", "extFlag := decide (L ≥ r1 + r2)", "C33", "touching spheres counted as external")
mu("geo10", F, "rtElementsK0", "let A := coeffs a (lminOf m) P.lmax\n          let B := coeffs b (lminOf m) P.lssmax", "let A := coeffs a 1 P.lmax\n          let B := coeffs b 1 P.lssmax", "C22", "zero-frequency cache from l = 1 on")
mu("geo11", F, "transCalls", "if s.forceFlag then (.error .attributeError, s) else (.ok v, s)", "(.ok v, s)", "C23", "force translation exists")
mu("geo12", F, "rtElements", "match P.mieB ks with\n      | .error e => (.error e, s1)", "match P.mieB ks with\n      | .error e => (.error e, s)", "C76", "cache of sphere A restored after an exception")
mu("geo13", F, "coatedElements", "else (.error .typeError, s)", "else (.error .valueError, s)", "C34", "other exception")
mu("geo14", F, "lminOf", "(max 1 m).toNat", "(max 0 m).toNat", "C20 C22", "monopole included for m = 0")
mu("geo15", F, "singleMDim", "(P.lmax + 1 - lminOf m) (P.lssmax + 1 - lminOf m)", "P.lmax P.lssmax", "C75", "translation matrices always from l = 1")

F = "Thermo.lean"
mu("th1", F, "sliceLoop", "sliceLoop func noffset nmax stepsize hs (nmaxSl + 1) r s", "sliceLoop func noffset nmax stepsize hs (nmaxSl + 2) r s", "C26", "one point lost between two slices")
mu("th2", F, "sliceLoop", "min (nmin + stepsize - 1) nmax", "min (nmin + stepsize) nmax", "C26", "slices one longer (the result of the function must not change)")
mu("th3", F, "strideSum", "if i ∣ j then", "if i ∣ (j + 1) then", "C27 C28", "stride sum starts at the wrong index")
mu("th4", F, "ensureF", "(.ok f, { s' with fMats := some f })", "(.ok (f.map (2 * ·)), { s' with fMats := some f })", "C24 C27", "first call returns something else than the cache")
mu("th5", F, "fAlle", "Proc.bind (g.mSumme rest) fun r => Proc.pure (0.5 * z :: r)", "Proc.bind (g.mSumme rest) fun r => Proc.pure (z :: r)", "C30", "half weight of the zero frequency forgotten")
mu("th6", F, "npGradient", "(f.getD (i + 1) 0 - f.getD (i - 1) 0) / (2 * h)", "(f.getD (i + 1) 0 - f.getD (i - 1) 0) / h", "C29", "factor two in the centred difference")
mu("th7", F, "force", "let s : FT := { s0 with forceFlag := true }", "let s : FT := s0", "C23 C25", "force flag not set")
mu("th8", F, "entropy", "fun l => l.map (- ·)", "fun l => l", "C29", "sign of the entropy")
mu("th9", F, "autoNmax", "max (pyInt (c * lmax / LT * (e * (L + rs) / rs + 1 + LT / lmax) + offset)) 1", "pyInt (c * lmax / LT * (e * (L + rs) / rs + 1 + LT / lmax) + offset)", "C31", "lower bound of nmax")
mu("th10", F, "finiteTInit", "| .int _ => false", "| .int n => decide (n < 0)", "C31", "negative integers rejected (defect repaired)")
mu("th11", F, "thermoSums", "deltaT * ((i + 1 : ℕ) : ℝ) * strideSum f (i + 1)", "deltaT * (i : ℝ) * strideSum f (i + 1)", "C27", "temperatures start at zero")
mu("th12", F, "finiteTInit", "pyRound (Tmax / deltaT)", "pyInt (Tmax / deltaT)", "C27", "number of temperatures truncated")
mu("th13", F, "getFMatsubaras", "p.deltaT * (n : ℝ)", "p.deltaT * ((n : ℝ) + 1)", "C27 C30", "wavenumbers shifted by one")
mu("th14", F, "force", "(.ok (thermoSums p.deltaT p.maxstep f), { s' with forceMats := some f })", "(.ok (thermoSums p.deltaT p.maxstep f), { s' with fMats := some f })", "C25", "force terms stored in the free-energy cache")
mu("th15", F, "finiteTInit", "if matList then false else analyticN0", "analyticN0", "C31", "analytic zero frequency for stratified spheres")
mu("th16", F, "slicewiseEval", "if hs : 0 < stepsize then\n    if nmax - nmin + 1 < 0", "if hs : 0 < stepsize then\n    if nmax - nmin < 0", "C26", "empty range rejected")

F = "Bessel.lean"
mu("be1", F, "lnk1", "(2 * ((l + 2 : ℕ) : ℝ) - 1) / x", "(2 * ((l + 2 : ℕ) : ℝ) + 1) / x", "C35 C39", "coefficient of the recurrence")
mu("be2", F, "i01", "(xsm.map i0smLong ++ xlg.map i0lg, xsm.map i1smLong ++ xlg.map i1lg)", "(xs.map (fun x => if x < 1e-3 then i0smLong x else i0lg x), xs.map (fun x => if x < 1e-3 then i1smLong x else i1lg x))", "C40", "results scattered back (defect repaired)")
mu("be3", F, "fnu1", "2 * (nu + n) / x", "(nu + n) / x", "C38", "factor two in the continued fraction")
mu("be4", F, "iHigh", "Real.log (Real.pi / (2 * x ^ 2)) - lnk1 x (l + 1)", "Real.log (Real.pi / (2 * x ^ 2)) - lnk1 x l", "C39", "wrong order in the Wronskian")
mu("be5", F, "i0lg", "-Real.log (2 * x) + Real.log (1 - Real.exp (-2 * x)) + x", "-Real.log (2 * x) + Real.log (1 + Real.exp (-2 * x)) + x", "C36", "cosh instead of sinh")
mu("be6", F, "i1lg", "(Real.exp (-2 * x) * (x + 1) + x - 1)", "(Real.exp (-2 * x) * (x - 1) + x - 1)", "C36", "sign in i1")
mu("be7", F, "transBessels", "if extFlag ≠ 0 then lnknu", "if extFlag = 0 then lnknu", "C41", "i and k exchanged")
mu("be8", F, "pyFrom", "if 0 ≤ a then r.drop a.toNat", "if 0 ≤ a then r.drop (a.toNat + 1)", "C41", "orders shifted by one")
mu("be9", F, "fnuTerms", "if xlast > 100 then 140 else 80", "if xlast > 100 then 140 else 81", "C38", "odd number of terms")
mu("be10", F, "i0smLong", "x ^ 6 / 2835", "x ^ 6 / 2385", "C37", "digits transposed in a series coefficient")
mu("be11", F, "i1smShort", "-Real.log 3 + Real.log x + 0.1 * x ^ 2\n", "-Real.log 3 + Real.log x + 0.01 * x ^ 2\n", "C37", "series coefficient")
mu("be12", F, "mieBessels", "if lmin > lmax then .error .valueError", "if lmin ≥ lmax then .error .valueError", "C41", "single order rejected")
mu("be13", F, "i01", "if xsm.length ≠ 0 ∧ xlg.length ≠ 0 then", "if xsm.length ≠ 0 then", "C37", "long series also for purely small arrays (the error bound still holds; the short-series statement does not)")

F = "Scattering.lean"
mu("sc1", F, "idT", "-l + x * Real.exp (B.i0 - B.i1)", "l + x * Real.exp (B.i0 - B.i1)", "C79", "sign of l in the logarithmic derivative")
mu("sc2", F, "mieCore", "cdiv (b.mu * idi - a.mu * ide) (b.mu * idi - a.mu * kde)", "cdiv (a.mu * idi - b.mu * ide) (a.mu * idi - b.mu * kde)", "C79 C83", "permeabilities exchanged")
mu("sc3", F, "mieCore", ".ok ⟨te * prefak, tm * prefak, Be.i1 - Be.k1⟩", ".ok ⟨tm * prefak, te * prefak, Be.i1 - Be.k1⟩", "C79 C83 C44", "TE and TM exchanged")
mu("sc4", F, "miePECCore", ".ok ⟨prefak, tm, Be.i1 - Be.k1⟩", ".ok ⟨-prefak, tm, Be.i1 - Be.k1⟩", "C79 C80 C44", "sign of the TE coefficient of a perfect conductor")
mu("sc5", F, "mieK0", "cdiv (-(l + 1) * (muSp - muMd)) (l * (muSp + muMd) + muMd)", "cdiv (-(l + 1) * (muMd - muSp)) (l * (muSp + muMd) + muMd)", "C44", "sign of the magnetic contrast")
mu("sc6", F, "mieInternalK0", "cdiv (l * (epsE - epsI)) ((l + 1) * epsE + epsI * l)", "cdiv (l * (epsE - epsI)) (l * epsE + epsI * (l + 1))", "C46", "l and l+1 exchanged")
mu("sc7", F, "coatedCore", "let exp1 := Real.exp (Bi.k1 - Bi.i1 + q.ln)", "let exp1 := Real.exp (Bi.i1 - Bi.k1 + q.ln)", "C47 C81", "sign of the rescaling")
mu("sc8", F, "fresnelCore", "cdiv (P.eps * sqrtM - M.eps * sqrtP) (P.eps * sqrtM + M.eps * sqrtP)", "cdiv (P.eps * sqrtP - M.eps * sqrtM) (P.eps * sqrtM + M.eps * sqrtP)", "C50", "square roots exchanged in the numerator")
mu("sc9", F, "fresnel", "| .pec => .ok (-1, 1)", "| .pec => .ok (1, -1)", "C50", "perfect mirror coefficients exchanged")
mu("sc10", F, "mieIntCore", "cdiv (b.mu * kdi - a.mu * kde) (b.mu * idi - a.mu * kde)", "cdiv (b.mu * kdi - a.mu * kde) (b.mu * idi + a.mu * kde)", "C42 C79", "sign in the denominator")
mu("sc11", F, "mieK0", "let lnc := -Real.log (2 * l + 1) - 2 * ln2dbl l", "let lnc := -Real.log (2 * l + 1) - ln2dbl l", "C44", "double factorial not squared")
mu("sc12", F, "mieK0", "if ¬ mat2.sigmaFinite then .error .notImplementedError\n  else\n    let diel2", "if mat2.sigmaFinite then .error .notImplementedError\n  else\n    let diel2", "C44 C59", "test of the medium reversed")
mu("sc13", F, "mieK0", "let ft := -l + wPR * frac wPR (l - 0.5)", "let ft := -l + wPR * frac wPR (l + 0.5)", "C45", "order of the continued fraction")
mu("sc14", F, "mieInternalK0", "let lnc := Real.log (2 * l + 1) + 2 * ln2dbl l", "let lnc := -(Real.log (2 * l + 1) + 2 * ln2dbl l)", "C46", "sign of the scale")
mu("sc15", F, "Medium.n", "Real.sqrt (a.eps * a.mu)", "Real.sqrt a.eps", "C79", "permeability missing in the refractive index")
mu("sc16", F, "mieIntCore", ".ok ⟨te * prefak, tm * prefak, Bi.k1 - Bi.i1⟩", ".ok ⟨te * prefak, tm * prefak, Bi.i1 - Bi.k1⟩", "C79 C46", "sign of the scale of the cavity coefficients")
mu("sc17", F, "mieArr", "((List.range' lmin (lmax + 1 - lmin)).zip", "((List.range' (lmin - 1) (lmax + 1 - lmin)).zip", "C42", "columns labelled with l-1")
mu("sc18", F, "besRows", "mieBessels xs ((lmin : ℤ) - 1) lmax", "mieBessels xs (lmin : ℤ) lmax", "C42", "table starts one order too high")

F = "Stratified.lean"
mu("st1", F, "stratRedundant", "decide (3 ≤ mats.length)", "decide (2 ≤ mats.length)", "C48 C49", "last shell removed from a two-material sphere")
mu("st2", F, "stratLoop", "let ra ← pyGet s.rs i\n", "let ra ← pyGet s.rs (i - 1)\n", "C81 C48", "inner radius used")
mu("st3", F, "stratInit", "if (rs.length : ℤ) = (mats.length : ℤ) - 1 then", "if (rs.length : ℤ) ≤ (mats.length : ℤ) - 1 then", "C82", "too few radii accepted")
mu("st4", F, "mieStratified", "⟨s.mats.dropLast, s.rs.dropLast⟩", "⟨s.mats.dropLast, s.rs⟩", "C48", "radius not popped")
mu("st5", F, "mieStratified", "stratLoop T H s l k (s.rs.length - 1) 1 q", "stratLoop T H s l k (s.rs.length - 2) 1 q", "C81", "outermost interface forgotten")
mu("st6", F, "stratLoop", "let b ← pyGet s.mats (i + 1)", "let b ← pyGet s.mats i", "C81", "material of the wrong shell outside")
mu("st7", F, "stratScript", "| .ok none => some (.error .attributeError, none)", "| .ok none => some (.error .typeError, none)", "C82", "other exception")

F = "Gaunt.lean"
mu("ga1", F, "gauntStep", "(4 * (m : ℝ) * m + x1 + x2) * g1 - x3 * g2", "(4 * (m : ℝ) * m + x1 + x2) * g1 + x3 * g2", "C77", "sign in the recursion")
mu("ga2", F, "gauntLnMax", "0.5 * (Real.log (2 * l + 1)", "(Real.log (2 * l + 1)", "C55", "square root forgotten")
mu("ga3", F, "gaunt", "if m.natAbs > min l lp", "if m.natAbs ≥ min l lp", "C55 C77", "m = min(l,lp) treated as zero")
mu("ga4", F, "gauntAlphas", "(List.range (l + lp - lppmin))", "(List.range (l + lp - lppmin - 1))", "C51", "array of alphas one too short")
mu("ga5", F, "gauntStep", "(4 * (m : ℝ) * m + x1 + x2)", "(4 * (m : ℝ) + x1 + x2)", "C52", "m not squared")
mu("ga6", F, "gaunt", "let lppmin := ((l : ℤ) - lp).natAbs\n  let gauntdim", "let lppmin := l - lp\n  let gauntdim", "C51 C52", "absolute value forgotten")
mu("ga7", F, "gauntLnMax", "lgam (l + m + 1) - lgam (lp - m + 1))", "lgam (l + m + 1) + lgam (lp - m + 1))", "C52", "sign in the normalisation")
mu("ga8", F, "gauntStart", "(l : ℝ) * lp - (m : ℝ) ^ 2 * (2 * ((l + lp : ℕ) : ℝ) - 1)", "(l : ℝ) * lp + (m : ℝ) ^ 2 * (2 * ((l + lp : ℕ) : ℝ) - 1)", "C77", "sign in the second coefficient")

F = "Translation.lean"
mu("tr1", F, "getVl1l2", "-vEM c * (-1) ^ c.1", "vEM c * (-1) ^ c.1", "C53", "sign of the mixing back translation")
mu("tr2", F, "commonFac", "(-1) ^ ((lpp : ℤ) - ((lpp : ℤ) - 1) * e) * (-1) ^ m", "(-1) ^ ((lpp : ℤ) - ((lpp : ℤ) - 1) * e)", "C55", "phase (-1)^m forgotten")
mu("tr3", F, "scaledBessels", "if ext then sphB.length - 1 else 0", "if ext then 0 else sphB.length - 1", "C54", "scaling with the smallest function")
mu("tr4", F, "transK0Ext", "Real.log (2 * a + 2 * b + 1) + Real.log a + Real.log b", "Real.log (2 * a + 2 * b + 1) + Real.log a", "C55", "factor l2 forgotten")
mu("tr5", F, "getVl1l2", "(l1p + l2p - c.1 * (c.1 + 1)) * c.2", "(l1p - l2p - c.1 * (c.1 + 1)) * c.2", "C53 C55", "sign of l2(l2+1)")
mu("tr6", F, "getVl1l2", "2 * m * nL * c.2", "2 * m ^ 2 * nL * c.2", "C53 C12", "mixing even in m")
mu("tr7", F, "transLmin", "(max 1 m).toNat", "1", "C12", "matrices always from l = 1")
mu("tr8", F, "roundTripElements", "V1 := fun i j => (V i j).EEba", "V1 := fun i j => (V i j).EEab", "C91 C96", "forward coefficient for the way back")
mu("tr9", F, "transK0Ext", "((-1) ^ m, z1 + z2 - n)", "(1, z1 + z2 - n)", "C55", "sign forgotten")
mu("tr10", F, "transInit", "if forceFlag then .error .attributeError else", "", "C23", "force translation constructed")
mu("tr11", F, "commonFac", "Real.sqrt ((2 * lpp + 1) / (l1p * l2p))", "Real.sqrt ((2 * lpp + 1) / (l1p * l1p))", "C53 C55", "normalisation with l1 twice")

F = "Materials.lean"
mu("ma1", F, "Material.lorentzTerm", "(p.wR / omegaNorm) ^ 2 + k ^ 2 + p.gamma / omegaNorm * k", "(p.wR / omegaNorm) ^ 2 - k ^ 2 + p.gamma / omegaNorm * k", "C56", "real instead of imaginary frequencies")
mu("ma2", F, "Material.epsilon", "let t ← lorentzTerm k p; .ok (acc + t)) 1", "let t ← lorentzTerm k p; .ok (acc + t)) 0", "C56", "vacuum contribution forgotten")
mu("ma3", F, "isSigmaFinite", "decide (p.wR = 0 ∧ ¬ p.wP = 0)", "decide (p.wR = 0)", "C58", "oscillators of zero strength counted")
mu("ma4", F, "isDielectric", "if ¬ p.wP = 0 ∧ p.wR = 0 then false", "if p.wR = 0 then false", "C58", "oscillators of zero strength counted")
mu("ma5", F, "Material.mu", "let u ← cdiv (mu0 - 1) (1 + t)", "let u ← cdiv (mu0 - 1) (1 - t)", "C57", "sign in the Debye term")
mu("ma6", F, "Material.smithTerm", ".ok (a * (1 - c))", ".ok (a * (1 - 3 * c))", "C57", "Smith parameter beyond -1: permittivity below one")
mu("ma7", F, "catalogue", '("Silver", ⟨.lorentz, eSilver, none⟩)', '("Silver", ⟨.lorentz, eSilverplasma, none⟩)', "C59", "wrong parameter set")
mu("ma8", F, "transformStep", "Function.update h1 a ((h1 a).1, (h1 a).2 * omegaEV)", "h1", "C60", "resonance frequency not converted")
mu("ma9", F, "transform", "(params, params.foldl transformStep h)", "(params, h)", "C60", "deep copy: caller's lists unchanged and values lost")
mu("ma10", F, "Material.epsilon", "if M.e.length = 1 then", "if M.e.length ≤ 1 then", "C57", "assertion weakened")
mu("ma11", F, "eWater", "⟨4.16e13, 3.48e13, 0⟩", "⟨4.16e13, 0, 0⟩", "C59", "resonance frequency missing: water a conductor")

F = "PFA.lean"
mu("pf1", F, "PFA.factors", "⟨k, r1.1 * r2.1 * Real.exp (-2 * k * L), r1.2 * r2.2 * Real.exp (-2 * k * L)⟩", "⟨k, r1.1 * r2.1 * Real.exp (-k * L), r1.2 * r2.2 * Real.exp (-k * L)⟩", "C62 C85 C86", "single path instead of a round trip in the exponent")
mu("pf2", F, "PFA.weightZero", "(if shield then 0 else 0.5 * x) :: xs", "(if shield then 0 else x) :: xs", "C64 C86", "half weight forgotten")
mu("pf3", F, "PFA.matsubaras", "((i : ℝ) + 1) * T", "(i : ℝ) * T", "C86", "Matsubara index off by one")
mu("pf4", F, "PFA.distance", ".ok (d - r1 * s1 - r2 * s2)", ".ok (d - r1 * s1 + r2 * s2)", "C63 C88", "sign of the second sphere")
mu("pf5", F, "PFA.sphereForce", "p.freeEnergy q T L false", "p.freeEnergy q T L _shield", "C64", "flag handed on (defect repaired)")
mu("pf6", F, "PFA.integral", "p.roundTrip kperp kn L; .ok (kperp / (2 * Real.pi) * r)) 0", "p.roundTrip kperp kn L; .ok (kperp / (Real.pi) * r)) 0", "C85 C86", "factor two in the measure")
mu("pf7", F, "PFA.freeEnergyHT", "let te := 0.5 * te\n", "", "C86", "half weight of TE forgotten")
mu("pf8", F, "PFA.pressureRoundTrip", "let a ← cdiv (-f.k * f.te) (1 - f.te)\n  let b ← cdiv (-f.k * f.tm) (1 - f.tm)\n  .ok (a + b)", "let a ← cdiv (-2 * f.k * f.te) (1 - f.te)\n  let b ← cdiv (-2 * f.k * f.tm) (1 - f.tm)\n  .ok (a + b)", "C62", "factor two present (defect repaired)")
mu("pf9", F, "PFA.roundTrip", "mathLog ((1 - f.te) * (1 - f.tm))", "mathLog ((1 - f.te) * (1 + f.tm))", "C61", "sign of the TM channel")
mu("pf10", F, "PFA.freeEnergy", "matsubaras 1e-10 20 T L", "matsubaras 1e-10 100 T L", "C89 C86", "cut-off of the other file")
mu("pf11", F, "PFA.sphereForce", "max r1 r2 - min r1 r2 else r1 + r2", "r1 - r2 else r1 + r2", "C88", "radii not ordered")
mu("pf12", F, "PFA.rawSphereEnergy", "let c ← cdiv (L * Real.pi * r1 * r2) (r1 + r2)", "let c ← cdiv (2 * L * Real.pi * r1 * r2) (r1 + r2)", "C89", "factor two")
mu("pf13", F, "PFA.rawGetFMatsubaras", "if m0 = 0 then 1e-20 else m0", "1e-20", "C89", "first entry always overwritten")
mu("pf14", F, "PFA.factors", "r1.1 * r2.1 * Real.exp (-2 * k * L), r1.2", "r1.1 * r1.1 * Real.exp (-2 * k * L), r1.2", "C84", "first plate used twice")
mu("pf15", F, "PFA.freeEnergy", "let fs ← weightZero shield (fs.map (T * ·))\n      .ok fs.sum", "let fs ← weightZero shield fs\n      .ok fs.sum", "C86 C87", "temperature factor forgotten")
mu("pf16", F, "PFA.sphereEnergy", ".ok (2 * Real.pi * rho * f)) 0 r1", ".ok (2 * Real.pi * rho * f)) 0 (min r1 r2)", "C63", "integration up to the smaller radius (defect repaired)")

F = "Worker.lean"
mu("wo1", F, "target", 'if (fs out).isSome then out ++ "1" else out', "out", "C65", "existing file not detected")
mu("wo2", F, "Env.distance", "match args[3]? with", "match args[4]? with", "C66", "third argument ignored")
mu("wo3", F, "analyticN0", ".ok (!(r1.isList || r2.isList))", ".ok (!(r1.isList && r2.isList))", "C66", "only both lists switch it off")
mu("wo4", F, "Env.lOffset", "| .error .noOptionError => .ok 0", "| .error .noOptionError => .ok 1", "C66", "other default")
mu("wo5", F, "saveResult", '| .error e => ([fs.write f ""], .error e)', "| .error e => ([], .error e)", "C65", "file opened after job_infos")
mu("wo6", F, "Env.run", "| [_, input, out] | [_, input, out, _] =>", "| [_, input, out, _] =>", "C66", "two arguments rejected")
mu("wo7", F, "Env.lmax", 'let _ ← c.get "geometry" "l_offset"\n', "", "C66", "missing l_offset tolerated for automatic lmax")
mu("wo8", F, "Env.precision", "| none => .error .unboundLocalError", "| none => .ok 0", "C66", "invalid precision accepted")
mu("wo9", F, "saveResult", "(writing fs f (c ++ t), .ok ())", "(writing fs f t, .ok ())", "C65", "comment lost")

F = "Helpers.lean"
mu("he1", F, "ln2dbl", "- x * Real.log 2 - lgam (x + 1)", "- x * Real.log 2 + lgam (x + 1)", "C67", "sign")
mu("he2", F, "differences", "(-g (i + 2) + 8 * g (i + 1) - 8 * g (i - 1) + g (i - 2)) / (12 * h)", "(-g (i + 2) + 8 * g (i + 1) - 8 * g (i - 1) + g (i - 2)) / (10 * h)", "C68 C90", "denominator")
mu("he3", F, "differences", "(-g (i + 2) + 8 * g (i + 1) - 8 * g (i - 1) + g (i - 2))", "(g (i + 2) + 8 * g (i + 1) - 8 * g (i - 1) - g (i - 2))", "C68", "signs of the outer points")
mu("he4", F, "numDerivative", "if ¬ h > 0 then .error .valueError", "if h = 0 then .error .valueError", "C68", "decreasing x accepted")
mu("he5", F, "differences", "if f.length < 3 then", "if f.length < 2 then", "C68", "two points accepted")
mu("he6", F, "lfac", "lfac (x : ℝ) : ℝ := lgam (x + 1)", "lfac (x : ℝ) : ℝ := lgam x", "C67", "Gamma(n) instead of n!")

F = "DataInterp.lean"
mu("da1", F, "DataIE.interpolate", "first (xs.filter fun x => x > x0.1)", "first (xs.filter fun x => x ≥ x0.1)", "C69", "data end included")
mu("da2", F, "DataIE.getDrudeData", ".ok (d1 ++ d2 ++ d3)", ".ok (d2 ++ d1 ++ d3)", "C69", "parts joined in the wrong order")
mu("da3", F, "DataIE.getDrudeData", "w.filter fun x => x < xl", "w.filter fun x => x ≤ xl", "C69", "boundary point counted twice")
mu("da4", F, "linInterp", "if p ≤ x1 ∨ rest = [] then y0 +", "if p ≤ x1 ∨ rest = [] then y1 +", "C69 C90", "wrong base point")
mu("da5", F, "everyNth", "l.getD (i * m) 0", "l.getD (i * m + 1) 0", "C90", "offset in the stride")
mu("da6", F, "numDerivativeInterp", "let h := h / m\n", "", "C90", "step not divided")

F = "Translation.lean"
mu("tr12", F, "transK0Int", "2 * lfac (lg - ls) - lfac ls", "lfac (lg - ls) - lfac ls", "C78", "factorial not squared")
mu("tr13", F, "transK0Int", "if l2 > l1 then l2 else l1", "if l2 > l1 then l1 else l2", "C78", "smaller l in the place of the larger one")
mu("tr14", F, "getVl1l2", "-vEM c * (-1) ^ c.1", "vEM c * (-1) ^ c.1", "C95 C96", "sign of the mixing back translation")
mu("tr15", F, "getVl1l2", "vEE c * (-1) ^ c.1", "vEE c", "C91 C96", "parity of the back translation forgotten")
mu("tr16", F, "commonFac", "* (2 / Real.pi) ^ e", "* (2 / Real.pi) ^ (2 * e)", "C55 C95", "factor 2/pi twice")
mu("tr17", F, "getVl1l2", "2 * m * nL * c.2", "m * nL * c.2", "C95 C96", "factor two of the mixing term")
mu("tr18", F, "transK0Ext", "2 * lfac (a + b) + lfac (2 * b)", "lfac (a + b) + lfac (2 * b)", "C55 C91", "factorial not squared")
mu("tr19", F, "blockmatricesK0At", "aTE := fun i => a.TE (transLmin m + i.1)\n      aTM", "aTE := fun i => a.TE (1 + i.1)\n      aTM", "C91 C92", "zero-frequency coefficients not shifted to lmin")
mu("tr20", F, "roundTripElements", "b2 := fun j => b.ln (transLmin m + j.1)", "b2 := fun j => a.ln (transLmin m + j.1)", "C91 C96", "scale of the first sphere for the second")
mu("tr21", F, "getVl1l2", "(l1p + l2p - c.1 * (c.1 + 1)) * c.2", "(l1p + l2p + c.1 * (c.1 + 1)) * c.2", "C55 C95", "sign of l''(l''+1)")

F = "Blocks.lean"
mu("blk12", F, "blockmatricesK0Ext", "fun b s => (-1 : ℝ) ^ (((e.lmin + s.1 : ℕ) : ℤ) - ((e.lmin + b.1 : ℕ) : ℤ))", "fun _ _ => 1", "C72 C91 C92", "parity of the static back translation forgotten")
mu("blk13", F, "blockmatricesK0Ext", "(l1f a + l1f b + 1) * Real.log (r1 / L)", "(l1f a + l1f b) * Real.log (r1 / L)", "C72 C91", "power of r1/L off by one")
mu("blk14", F, "RTElems.cEM", "e.V0 l1 s * e.bTE s * e.V3 l2 s + e.V2 l1 s * e.bTM s * e.V1 l2 s", "e.V0 l1 s * e.bTE s * e.V3 l2 s - e.V2 l1 s * e.bTM s * e.V1 l2 s", "C96", "sign in the mixing block")
mu("blk15", F, "blockmatricesK0Ext", "e.aLn a + e.bLn s + e.vLn a s + e.vLn b s + dist a b s", "e.aLn a + e.bLn s + e.vLn a s + dist a b s", "C72 C91 C92", "magnitude of the back translation forgotten")

F = "StaticSum.lean"
mu("ss1", F, "singleMK0", "slnDetBlockdiagonal fuel 0.9 TE TM", "slnDetBlockdiagonal fuel 0.9 TE TE", "C94", "TE block used twice")
mu("ss2", F, "singleMK0", "slnDetBlockdiagonal fuel 0.9 TE TM", "slnDetBlockdiagonal fuel 2 TE TM", "C94", "balancing threshold above one")

F = "FiniteSum.lean"
mu("fs1", F, "superMatrix", "(blockArr Bs (·.ME)) (blockArr Bs (·.MM))", "(blockArr Bs (·.ME)) (blockArr Bs (·.EE))", "C99", "EE block in the place of MM")
mu("fs2", F, "superMatrix", "(blockArr Bs (·.EM)) (blockArr Bs (·.ME))", "(blockArr Bs (·.ME)) (blockArr Bs (·.EM))", "C99", "mixing blocks exchanged")
mu("fs3", F, "superMatrix", "m ext w.nL w.bes w.a w.b", "m ext w.nL w.bes w.b w.a", "C99", "spheres exchanged")
mu("fs4", F, "superMatrix", "m ext w.nL w.bes w.a w.b", "m (!ext) w.nL w.bes w.a w.b", "C99", "interior translation for separate spheres")
mu("fs5", F, "blockArr", "match Bs[i]? with", "match Bs[0]? with", "C99", "first wavenumber used for all")

F = "Scattering.lean"
mu("sc19", F, "mieCore", "let prefak := (-1) ^ l * Real.pi * 0.5\n  let te", "let prefak := Real.pi * 0.5\n  let te", "C79 C83 C96", "alternating sign forgotten")
mu("sc20", F, "mieCore", "cdiv (b.eps * idi - a.eps * ide) (b.eps * idi - a.eps * kde)", "cdiv (a.eps * idi - b.eps * ide) (a.eps * idi - b.eps * kde)", "C79 C83 C96", "permittivities exchanged")
mu("sc21", F, "miePECCore", "(-1) ^ l * Real.pi * 0.5\n  let tm", "(-1) ^ l * Real.pi\n  let tm", "C79 C80 C96", "factor one half forgotten")
mu("sc22", F, "mieK0", "| .pec => .ok ⟨sgn * 1, -sgn * bTM, lnc⟩\n      | _ =>\n        let muSp", "| .pec => .ok ⟨sgn * 1, sgn * bTM, lnc⟩\n      | _ =>\n        let muSp", "C44 C91", "sign of the static TM coefficient of a perfect conductor")
mu("sc23", F, "mieK0", ".ok ⟨sgn * bTE, -sgn * ((l + 1) * q), lnc⟩", ".ok ⟨sgn * bTE, -sgn * (l * q), lnc⟩", "C44 C91", "l instead of l+1")
mu("sc24", F, "mieK0", "(l * muMd * n0 ^ 2 + (l + 1) * muSp * nMd ^ 2)", "((l + 1) * muMd * n0 ^ 2 + l * muSp * nMd ^ 2)", "C44 C91", "l and l+1 exchanged in the denominator")

F = "Pair.lean"
mu("pa1", F, "waveIn", "mieTable T P.mat2 P.mat3 P.lssmax k P.r2", "mieTable T P.mat2 P.mat3 P.lssmax k P.r1", "C107 C113", "radius of the first sphere used for the second")
mu("pa2", F, "waveIn", "mieTable T P.mat2 P.mat3 P.lssmax k P.r2", "mieTable T P.mat1 P.mat3 P.lssmax k P.r2", "C106 C107", "material of the first sphere used for the second")
mu("pa3", F, "mieTable", "mie T T mat md (i.1 + 1) k r", "mie T T mat md (i.1 + 2) k r", "C100", "coefficients shifted by one order")
mu("pa4", F, "waveIn", ".ok ⟨k * P.L * Real.sqrt e, rows.headD [], a, b⟩", ".ok ⟨k * P.L, rows.headD [], a, b⟩", "C100 C108", "refractive index of the medium missing in the translation")
mu("pa5", F, "mieTableK0", "mieK0 frac mat md (i.1 + 1) r", "mieK0 frac md mat (i.1 + 1) r", "C107 C109 C113", "sphere and medium exchanged at zero frequency")
mu("pa6", F, "pairK0", "mieTableK0 frac P.mat2 P.mat3 P.lssmax P.r2", "mieTableK0 frac P.mat2 P.mat3 P.lssmax P.r1", "C107 C113", "radius of the first sphere used for the second at zero frequency")
mu("pa7", F, "pairK0", "mSummeK0 P.lmax P.precision fun m => .ok fun _ => h.choose m", "mSummeK0 P.lmax P.precision fun m => .ok fun _ => -h.choose m", "C100 C108 C113", "sign of the zero-frequency term")
mu("pa8", F, "pairVals", "mSummeNonzero P.lmax P.precision fun m => .ok (h.choose m)", "mSummeNonzero P.lmax P.precision fun m => .ok (h.choose 0)", "C111", "m = 0 used for every m")
mu("pa9", F, "pairGeo", "vals := pairVals T P\n", "vals := fun ks => (pairVals T P ks).map (fun l => l.map (- ·))\n", "C100 C106 C108", "sign of the non-zero frequencies")
mu("pa10", F, "waveIn", "P.mat3.epsilon k", "P.mat1.epsilon k", "C100 C107", "permittivity of a sphere in the place of that of the medium")

F = "ZeroTemp.lean"
mu("zt1", F, "e0", "| .none => q.fin f a (nmax * deltaT)", "| .none => q.fin f a nmax", "C104", "upper bound is the number of frequencies")
mu("zt2", F, "e0", "| .inf => q.inf f a", "| .inf => q.inf f 0", "C104", "lower bound ignored")
mu("zt3", F, "e0", "| .num b => q.fin f a b", "| .num b => q.fin f b a", "C104 C106", "bounds exchanged")
mu("zt4", F, "pairAt", "let vs ← pairVals T P [x]", "let vs ← pairVals T P [2 * x]", "C104 C105", "frequency doubled")
mu("zt5", F, "pairAt", ".ok (vs.headD 0)", ".ok (0.5 * vs.headD 0)", "C104 C105", "factor one half")

F = "OneRoundtrip.lean"
mu("or1", F, "oneLoop", "S i + 2 * b.tr i", "S i + b.tr i", "C101", "m and -m not both counted")
mu("or2", F, "oneLoop", "if b.size = 1 then .ok S'", "if b.size = 1 then .ok S", "C101", "last subspace dropped")
mu("or3", F, "oneLoop", "else if mmax ≤ m then .ok S'", "else if mmax < m then .ok S'", "C101", "one m too many")
mu("or4", F, "mmaxOf", "if n ≤ lmax then .ok n else", "if n < lmax then .ok n else", "C101", "mmax = lmax rejected")
mu("or5", F, "mSumOneRoundtrip", "else .error .nameError", "else .ok b.tr", "C101", "no NameError without xrange")
mu("or6", F, "tracesAt", "(B i).EE.trace + (B i).MM.trace", "(B i).EE.trace - (B i).MM.trace", "C101", "sign of the MM trace")
mu("or7", F, "tracesAt", "⟨lmax + 1 - transLmin m, fun", "⟨lmax - transLmin m, fun", "C101", "size off by one")
mu("or8", F, "fAlleOne", "else (.error .attributeError, s)", "else (one rest, s)", "C102", "missing method silently replaced")
mu("or9", F, "mSummeArg", "| .float _ => .error .typeError", "| .float x => f [x]", "C103", "float accepted")
mu("or10", F, "lKonvergenz", "  .error .attributeError", "  .ok (0, 0)", "C103", "missing method silently replaced")
mu("or11", F, "oneLoop", "else oneLoop mmax B todo (m + 1) S'", "else oneLoop mmax B todo (m + 2) S'", "C101", "every second m skipped")
mu("or12", F, "fAlleOne", "(Proc.bind (fun s => (one [1e-10], s)) fun z =>", "(Proc.bind (fun s => (.ok [0], s)) fun z =>", "C102", "zero frequency skipped")
mu("or13", F, "FTCall.procOne", "let s : FT := { s0 with forceFlag := true }", "let s : FT := s0", "C102", "force flag not set")

F = "FloatBalance.lean"
mu("fb1", F, "growLoop", "some ⟨A.mul s.f 2, A.mul s.c 2, A.div s.r 2⟩", "some ⟨A.mul s.f 3, A.mul s.c 2, A.div s.r 2⟩", "C110", "radix three in the scaling factor")
mu("fb2", F, "scaleIndex", "if j = i then A.div (M₁ j k) f else M₁ j k", "if j = i then A.mul (M₁ j k) f else M₁ j k", "C110", "row multiplied instead of divided")
mu("fb3", F, "scaleIndex", "fun j k => if j = i then A.div (M₁ j k) f else M₁ j k", "M₁", "C110", "row not scaled")
mu("fb4", F, "balanceIndex", "some (A.scaleIndex M i s₂.f, false)", "some (A.scaleIndex M i s₂.f, true)", "C110", "flag not reset: ends after one sweep")
mu("fb5", F, "balanceIndex", "if |r| ≤ tiny ∨ |c| ≤ tiny then some s", "if |r| ≤ tiny ∧ |c| ≤ tiny then some s", "C110", "zero rows not skipped")
mu("fb6", F, "balanceIndex", "< A.mul conv (A.add c r) then", "> A.mul conv (A.add c r) then", "C110", "comparison reversed")
mu("fb7", F, "balanceIndex", "< A.mul conv (A.add c r) then", "< A.add c r then", "C110", "conv ignored")
mu("fb8", F, "shrinkLoop", "some ⟨A.div s.f 2, A.div s.c 2, A.mul s.r 2⟩", "some ⟨A.div s.f 2, A.div s.c 2, s.r⟩", "C110", "row norm not updated")
mu("fb9", F, "colSq", "if j = i then c else A.add c (A.sq |M j i|)", "A.add c (A.sq |M j i|)", "C110", "diagonal included in the column norm")
mu("fb10", F, "shrinkLoop", "s.c ≥ A.mul s.r 2", "s.c ≥ s.r", "C110", "loops undo each other")
mu("fb11", F, "rowSq", "A.add r (A.sq |M i j|)", "A.add r |M i j|", "C110", "row entries not squared")

F = "Textbox.lean"
mu("tb1", F, "statusText", 'let s := if (float c.r2).isNone', 'let s := if (float c.r1).isNone', "C112", "first radius tested instead of the second")
mu("tb2", F, "statusText", 'if (float c.d).isNone then "invalid variable: distance" else s', 'if (float c.d).isNone ∧ s = "worked" then "invalid variable: distance" else s', "C112", "distance named last")
mu("tb3", F, "redraw", "let rG := max radius1 radius2", "let rG := radius2", "C112", "second radius taken as the larger one")
mu("tb4", F, "redraw", "let dn := distance / rG * norm", "let dn := distance / rS * norm", "C112", "distance scaled by the smaller radius")
mu("tb5", F, "redraw", "xoff + r1n + dn + r2n, cy - r2n⟩", "xoff + dn + r2n, cy - r2n⟩", "C112", "second oval not round")
mu("tb6", F, "retrieveInput", "| .error e => (.error e, w1)", "| .error e => (.error e, w)", "C112", "no label after an exception")
mu("tb7", F, "retrieveInput", "labels := w.labels ++ [statusText float c]", "labels := [statusText float c]", "C112", "label replaced")
mu("tb8", F, "redraw", "if rG = 0 then .error .zeroDivisionError", "if rS = 0 then .error .zeroDivisionError", "C112", "smaller radius tested")
mu("tb9", F, "redraw", "let cy := c.height / 2", "let cy := c.height / 3", "C112", "spheres not in the middle")
mu("tb10", F, "redraw", "xoff + r1n + dn - r2n, cy + r2n,", "xoff + dn - r2n, cy + r2n,", "C112", "distance not measured between the centres")

F = "Scattering.lean"
mu("dp1", F, "miePECCore", "let prefak := (-1) ^ l * Real.pi * 0.5\n  let tm", "let prefak := (-1) ^ l * Real.pi\n  let tm", "C114", "factor one half forgotten")
mu("dp2", F, "mieK0", "let bTM ← cdiv (l + 1) l\n      match mat1.cls with\n      | .pec => .ok ⟨sgn * 1, -sgn * bTM, lnc⟩", "let bTM ← cdiv l (l + 1)\n      match mat1.cls with\n      | .pec => .ok ⟨sgn * 1, -sgn * bTM, lnc⟩", "C114", "fraction inverted")
mu("dp3", F, "mieK0", "(l * muMd * n0 ^ 2 + (l + 1) * muSp * nMd ^ 2)", "((l + 1) * muMd * n0 ^ 2 + l * muSp * nMd ^ 2)", "C114 C113", "orders exchanged in the static electric coefficient")
mu("dp4", F, "mieCore", "let tm ← cdiv (b.eps * idi - a.eps * ide) (b.eps * idi - a.eps * kde)", "let tm ← cdiv (b.eps * idi - a.eps * ide) (a.eps * idi - b.eps * kde)", "C114 C113", "permittivities exchanged in the denominator")
F = "Thermo.lean"
mu("dp5", F, "fAlle", "Proc.bind (g.mSumme rest) fun r => Proc.pure (0.5 * z :: r)) s\n      else", "Proc.bind (g.mSumme rest) fun r => Proc.pure (z :: r)) s\n      else", "C114", "zero frequency with full weight")
F = "MSum.lean"
mu("dp6", F, "mLoop", "fun i => S i + 2 * l i", "fun i => S i + l i", "C114", "factor two of the subspaces m and -m forgotten")
mu("dp7", F, "mSummeNonzero", "|(|new r / old r|) - 1| < precision / 10)\n    L lmax 1 S", "|(|new r / old r|) - 1| < precision / 10)\n    L lmax 2 S", "C114", "m = 1 skipped")
F = "Translation.lean"
mu("dp8", F, "transK0Ext", "let z2 := 2 * lfac (a + b)", "let z2 := lfac (a + b)", "C114", "square of a factorial forgotten")
F = "Pair.lean"
mu("dp9", F, "waveIn", ".ok ⟨k * P.L * Real.sqrt e, rows.headD [], a, b⟩", ".ok ⟨k * (P.L - P.r1 - P.r2) * Real.sqrt e, rows.headD [], a, b⟩", "C114 C108", "distance of the surfaces in the place of that of the centres")
F = "ZeroTemp.lean"
mu("dp10", F, "pairAt", ".ok (vs.headD 0)", ".ok (2 * vs.headD 0)", "C114", "factor two")

F = "Materials.lean"
mu("sl1", F, "lorentzTerm", "((p.wR / omegaNorm) ^ 2 + k ^ 2 + p.gamma / omegaNorm * k)", "((p.wR / omegaNorm) ^ 2 + k ^ 2 + p.gamma / omegaNorm)", "C115", "wavenumber forgotten in the damping term")
mu("sl2", F, "mu", "let u ← cdiv (mu0 - 1) (1 + t)", "let u ← cdiv (mu0 - 1) (1 + k)", "C115", "relaxation frequency of the permeability ignored")
F = "Scattering.lean"
mu("sl3", F, "mieK0", "| .ok w => w * R / 2.998e14\n          | .error _ => 0\n        if ¬ mat1.sigmaFinite", "| .ok w => w / 2.998e14\n          | .error _ => 0\n        if ¬ mat1.sigmaFinite", "C115", "radius forgotten in the plasma parameter")
F = "Pair.lean"
mu("sl4", F, "waveIn", "let rows ← transBessels [k * P.L * Real.sqrt e]", "let rows ← transBessels [k * Real.sqrt e]", "C115", "distance forgotten in the argument of the Bessel functions")
F = "Blocks.lean"
mu("sl5", F, "blockmatricesK0Ext", "(l1f a + l1f b + 1) * Real.log (r1 / L) + (2 * lsf s + 1) * Real.log (r2 / L)\n  let TM", "(l1f a + l1f b + 1) * Real.log (r1 / L) + (2 * lsf s + 1) * Real.log r2\n  let TM", "C115", "second radius not divided by the distance")
F = "Geometry.lean"
mu("sl6", F, "getLmax", "if d / rs ≥ 30 then", "if d ≥ 30 then", "C115", "distance not divided by the radius")
F = "Thermo.lean"
mu("sl7", F, "autoNmax", "if LT ≥ 7 then 1 else 5", "if L ≥ 7 then 1 else 5", "C115", "temperature forgotten in a test")
mu("sl8", F, "thermoSums", "deltaT * ((i + 1 : ℕ) : ℝ) * strideSum f (i + 1)", "((i + 1 : ℕ) : ℝ) * strideSum f (i + 1)", "C115", "temperature step forgotten")
mu("sl9", F, "npGradient", "else (f.getD (i + 1) 0 - f.getD (i - 1) 0) / (2 * h))", "else (f.getD (i + 1) 0 - f.getD (i - 1) 0) / 2)", "C115", "step forgotten in the gradient")
mu("sl10", F, "fAlle", "    if k = 0 then\n", "    if k < 1e-3 then\n", "C115", "zero frequency recognised with a tolerance")
mu("ht1", F, "fAlle", "if rest = [] then Proc.pure [0.5 * z]\n", "if rest = [] then Proc.pure [z]\n", "C116", "zero frequency with full weight when it is alone")
mu("ht2", F, "strideSum", "if i ∣ j then f.getD j 0 else 0", "if i ∣ j + 1 then f.getD j 0 else 0", "C116", "stride begins at the wrong frequency")
mu("ht3", F, "npGradient", "else (f.getD (i + 1) 0 - f.getD (i - 1) 0) / (2 * h))", "else (f.getD (i + 1) 0 - f.getD (i - 1) 0) / h)", "C116", "factor two forgotten in the centred difference")
mu("ht4", F, "entropy", "((npGradient F p.deltaT).map fun l => l.map (- ·), s)", "(npGradient F p.deltaT, s)", "C116", "sign of the entropy")
F = "Geometry.lean"
mu("tn1", F, "getLmax", ".ok (max (pyInt (Real.exp eta * (rs / d) / 13) + lOffset) 1)", ".ok (max (pyInt (Real.exp eta * (d / rs) / 13) + lOffset) 1)", "C117", "cut-off falls with the ratio of radius and distance")
mu("tn2", F, "getLmax", "let eta := -(Real.logb 10 precision) * 0.33 + 3", "let eta := (Real.logb 10 precision) * 0.33 + 3", "C117", "sign of the logarithm of the precision")
mu("tn3", F, "getLmax", "let d := |rl - L| - rs", "let d := L - rs", "C117", "distance measured from the centre of the larger sphere")
F = "Pair.lean"
mu("tn4", F, "waveIn", ".ok ⟨k * P.L * Real.sqrt e, rows.headD [], a, b⟩", ".ok ⟨k * P.r1 * Real.sqrt e, rows.headD [], a, b⟩", "C117", "radius in the place of the distance")
F = "Geometry.lean"
mu("tn5", F, "getLmax", "else if precision = 0 then .error .overflowError\n", "", "C32", "zero precision taken for a number")
mu("tn6", F, "getLmax", "else if precision < 0 then .error .valueError\n", "else if precision < 0 then .ok 1\n", "C32", "negative precision accepted")
mu("tn7", F, "lmaxArg", "then .ok 1 else .error .typeError", "then .ok 1 else .ok 2", "C34", "string accepted as offset")
F = "Thermo.lean"
mu("tn8", F, "autoNmax", "if rs = 0 ∨ L = 0 ∨ lmax = 0 then .error .zeroDivisionError\n", "if rs = 0 ∨ L = 0 then .error .zeroDivisionError\n", "C31", "division by lmax = 0 overlooked")
mu("tn9", F, "autoNmax", "(if L / rs ≤ 0.5 then .overflowError else .zeroDivisionError)", "(if L / rs ≤ 0.5 then .zeroDivisionError else .zeroDivisionError)", "C31", "numpy number taken for a Python number")
mu("tn10", F, "finiteTInit", "if deltaT = 0 then .error .zeroDivisionError else .ok ⟨n, a, pyRound (Tmax / deltaT), nprocs⟩", ".ok ⟨n, a, pyRound (Tmax / deltaT), nprocs⟩", "C31", "zero temperature step accepted")

F = "PFA.lean"
mu("pr1", F, "pressure", "let ms ← matsubaras 1e-20 20 T L\n  let fs ← ms.mapM (p.pressureIntegral q L)", "let ms ← matsubaras 1e-20 100 T L\n  let fs ← ms.mapM (p.pressureIntegral q L)", "C118", "cut-off of raw_PFA.py")
mu("pr2", F, "pressureRoundTrip", "let b ← cdiv (-f.k * f.tm) (1 - f.tm)\n  .ok (a + b)", "let b ← cdiv (-f.k * f.tm) (1 + f.tm)\n  .ok (a + b)", "C118", "sign in the denominator of TM")
mu("pr3", F, "pressureRoundTrip", "let a ← cdiv (-f.k * f.te) (1 - f.te)\n  let b ← cdiv (-f.k * f.tm) (1 - f.tm)\n  .ok (a + b)", "let a ← cdiv (-kperp * f.te) (1 - f.te)\n  let b ← cdiv (-kperp * f.tm) (1 - f.tm)\n  .ok (a + b)", "C118", "transverse wavenumber in the place of the normal one")
mu("pr4", F, "rawPressure", "let ms ← matsubaras 1e-20 100 T L", "let ms ← matsubaras 1e-20 20 T L", "C118", "cut-off of PFA.py")
mu("pr5", F, "rawPressure", "let tm ← ms.mapM (p.rawPressureTM q L)", "let tm ← ms.mapM (p.rawPressureTE q L)", "C118", "TE counted twice")
mu("pr6", F, "rawPressure", "  let te ← weightZero shield (te.map (T * ·))\n  let tm ← weightZero shield (tm.map (T * ·))\n  .ok (te.sum + tm.sum)\n\n/-- raw_PFA.py:161", "  let te ← weightZero shield (te.map (T * ·))\n  let tm := tm.map (T * ·)\n  .ok (te.sum + tm.sum)\n\n/-- raw_PFA.py:161", "C118", "zero frequency of TM with full weight")
mu("pr7", F, "pressureIntegral", "let r ← p.pressureRoundTrip kperp kn L; .ok (kperp / (2 * Real.pi) * r)) 0", "let r ← p.pressureRoundTrip kperp kn L; .ok (kperp / Real.pi * r)) 0", "C118", "factor two")
mu("pr8", F, "pressureIntegral", "let r ← p.pressureRoundTrip kperp kn L; .ok (kperp / (2 * Real.pi) * r)) 0", "let r ← p.pressureRoundTrip kperp kn L; .ok (kperp / (2 * Real.pi) * r)) 1", "C118", "integral does not begin at zero")
mu("pr9", F, "matsubaras", "fun i : ℕ => ((i : ℝ) + 1) * T)", "fun i : ℕ => (i : ℝ) * T)", "C118", "Matsubara frequencies shifted by one")

F = "StratPair.lean"
mu("sp1", F, "Ball.radius", "match s.rs.getLast? with", "match s.rs.head? with", "C119", "radius of the core in the place of the outer radius")
mu("sp2", F, "stratTable", "match mieStratified T H (i.1 + 1) k (s.mats.length + 1) s with", "match mieStratified T H i.1 k (s.mats.length + 1) s with", "C119", "degrees begin at zero")
mu("sp3", F, "ballTable", "  | .strat s => stratTable T H s n k", "  | .strat s => match s.mats, s.rs with\n    | m :: _, r :: _ => mieTable T (H m) (H mat3) n k r\n    | _, _ => .error .indexError", "C119", "shells ignored")
mu("sp4", F, "ballWave", "let b ← ballTable T P.H P.mat3 P.lssmax k P.ball2", "let b ← ballTable T P.H P.mat3 P.lmax k P.ball2", "C119", "coefficients of the second sphere up to lmax only")
mu("sp5", F, "ballWave", "let b ← ballTable T P.H P.mat3 P.lssmax k P.ball2", "let b ← ballTable T P.H P.mat3 P.lssmax k P.ball1", "C119", "first sphere in the place of the second")
mu("sp6", F, "ballK0", "| _, _ => .error .notImplementedError", "| _, _ => .ok 0", "C119", "zero frequency of lists dropped silently")
mu("sp7", F, "ballFiniteT", "(P.ball1.isList || P.ball2.isList) true analyticN0", "P.ball1.isList true analyticN0", "C119", "list as second material overlooked")
mu("sp8", F, "ballFiniteT", "let r2 ← P.ball2.radius\n  let i", "let r2 ← P.ball1.radius\n  let i", "C119", "radius of the first sphere twice")
mu("sp9", F, "ballInit", "let r1 ← b1.radius\n    let r2 ← b2.radius", "let r1 ← b2.radius\n    let r2 ← b2.radius", "C119", "radius of the second sphere twice")
mu("sp10", F, "valsOf", "mSummeNonzero lmax precision fun m => .ok (h.choose m)", "mSummeNonzero (lmax + 1) precision fun m => .ok (h.choose m)", "C119", "sum over m goes beyond lmax")
mu("sp11", F, "ballGeo", "vals := ballVals T P", "vals := fun ks => (ballVals T P ks).map fun vs => vs.map (2 * ·)", "C119", "factor two")
F = "Stratified.lean"
mu("sp12", F, "stratLoop", "let b ← pyGet s.mats (i + 1)\n    let q' ← stratCoated T (H a) (H b) l k ra q", "let b ← pyGet s.mats (i + 1)\n    let q' ← stratCoated T (H b) (H a) l k ra q", "C119", "inner and outer material exchanged")
mu("sp13", F, "stratLoop", "    let q' ← stratCoated T (H a) (H b) l k ra q\n    stratLoop T H s l k n (i + 1) q'", "    let _ ← stratCoated T (H a) (H b) l k ra q\n    stratLoop T H s l k n (i + 1) q", "C119", "coefficients of the shell not handed on")
mu("sp14", F, "stratInner", "let r ← pyGet s.rs 0", "let r ← pyGet s.rs (s.rs.length - 1)", "C119", "outer radius for the core")

F = "StratPair.lean"
mu("sd1", F, "ballWave", "let rows ← transBessels [k * P.L * Real.sqrt e]", "let rows ← transBessels [k * P.L]", "C119 C136", "translation at the wavenumber of the vacuum")
mu("sd2", F, "valsOf", "let r ← mSummeNonzero lmax precision fun m", "let r ← mSummeNonzero lmax (max precision 1e-3) fun m", "C119 C136", "sums over m always stopped early")
F = "Stratified.lean"
mu("sd3", F, "stratLoop", "let ra ← pyGet s.rs i\n", "let ra ← pyGet s.rs (i - 1)\n", "C137", "inner in the place of the outer radius of a shell")
mu("sd4", F, "stratCoated", "(T l (k * ra * b.n)) q", "(T l (k * ra)) q", "C137", "Bessel functions at the wavenumber of the vacuum")

F = "Cavity.lean"
mu("cv1", F, "PairIn.ext", "decide (P.L > P.r1 + P.r2)", "decide (P.L + P.r1 > P.r2)", "C120", "cavity recognised by the wrong comparison")
mu("cv2", F, "mieTableInt", "mieInternal T T md mat (i.1 + 1) k r", "mie T T mat md (i.1 + 1) k r", "C120", "mie in the place of mie_internal")
mu("cv3", F, "mieTableInt", "mieInternal T T md mat (i.1 + 1) k r", "mieInternal T T mat md (i.1 + 1) k r", "C120", "wall and filling exchanged")
mu("cv4", F, "mieTableInt", "mieInternal T T md mat (i.1 + 1) k r", "mieInternal T T md mat i.1 k r", "C120", "degrees begin at zero")
mu("cv5", F, "transRow", "fun l => (T l x).i1)", "fun l => (T l x).k1)", "C120", "K instead of I inside the cavity")
mu("cv6", F, "transRow", "fun l => (T l x).i1)", "fun l => (T l x).i0)", "C120", "orders shifted by one")
mu("cv7", F, "geoWave", "let a ← mieTable T P.mat1 P.mat3 P.lmax k P.r1", "let a ← mieTable T P.mat1 P.mat3 P.lmax k P.r2", "C120", "radius of the cavity for the sphere")
mu("cv8", F, "geoWave", "mieTableInt T P.mat3 P.mat2 P.lssmax k P.r2", "mieTableInt T P.mat3 P.mat2 P.lmax k P.r2", "C120", "coefficients of the wall up to lmax only")
mu("cv9", F, "geoWave", "mieTableInt T P.mat3 P.mat2 P.lssmax k P.r2", "mieTableInt T P.mat3 P.mat1 P.lssmax k P.r2", "C120", "material of the sphere for the wall")
mu("cv10", F, "geoWave", ".ok ⟨k * P.L * Real.sqrt e, bes, a, b⟩", ".ok ⟨k * P.L * e, bes, a, b⟩", "C120", "permittivity in the place of the index in the mixing term")
mu("cv11", F, "geoWave", "transRow T P.ext (k * P.L * Real.sqrt e) (P.lmax + P.lssmax + 1)", "transRow T P.ext (k * P.L * Real.sqrt e) (P.lmax + 1)", "C120", "too few Bessel functions")
mu("cv12", F, "geoWave", "transRow T P.ext (k * P.L * Real.sqrt e) (P.lmax + P.lssmax + 1)", "transRow T P.ext (k * P.L) (P.lmax + P.lssmax + 1)", "C120", "wavenumber in vacuum for the translation")
mu("cv13", F, "geoVals", "(geoWave T P) ks P.ext", "(geoWave T P) ks", "C120", "translation of separate spheres inside the cavity")
mu("cv14", F, "geoVals", "valsOf P.lmax P.lssmax P.precision", "valsOf P.lssmax P.lssmax P.precision", "C120", "lssmax for lmax")
F = "Scattering.lean"
mu("cv15", F, "mieIntCore", "let kdi := kdT l (kr * a.n) Bi", "let kdi := kdT l (kr * b.n) Bi", "C120", "argument of the wall material")
F = "Translation.lean"
mu("cv16", F, "commonFac", "let e : ℤ := if ext then 1 else 0", "let e : ℤ := 1", "C120", "sign factor of separate spheres")

F = "Cavity.lean"
mu("cf1", F, "geoK0", "let b ← mieTableIntK0 lnK P.mat3 P.mat2 P.lssmax P.r2", "let b ← mieTableIntK0 lnK P.mat2 P.mat3 P.lssmax P.r2", "C121", "wall and filling exchanged")
mu("cf2", F, "geoK0", "    let _ ← blockmatricesK0IntAt P.lmax P.lssmax 0 P.r1 P.r2 P.L a b\n", "", "C121", "exception of the matrices swallowed")
mu("cf3", F, "geoK0", "if P.ext then pairK0 frac P else do", "if true then pairK0 frac P else do", "C121", "cavity treated as separate spheres")
mu("cf4", F, "geoGeo", "vals := geoVals T P", "vals := pairVals T P", "C121", "cavity treated as separate spheres at non-zero frequencies")
mu("cf5", F, "geoGeo", "vals := geoVals T P", "vals := fun ks => (geoVals T P ks).map fun v => v.map (- ·)", "C121", "sign")
mu("cf6", F, "geoFiniteT", "P.r1 P.r2 P.L P.lmax false true analyticN0 nprocs", "P.r1 P.r2 (P.r2 - P.r1) P.lmax false true analyticN0 nprocs", "C121", "distance of the touching sphere")
mu("cf7", F, "geoFiniteT", "P.r1 P.r2 P.L P.lmax false true analyticN0 nprocs", "P.r1 P.r2 P.L P.lmax true true analyticN0 nprocs", "C121", "materials taken for lists")
mu("cf8", F, "sphereSphere", "g.lmax.toNat, g.lssmax.toNat, precision⟩", "g.lssmax.toNat, g.lmax.toNat, precision⟩", "C121", "cut-offs exchanged")
F = "Thermo.lean"
mu("cf9", F, "autoNmax", "then rg - rs - Lgeo else", "then rs + rg - Lgeo else", "C121", "wrong distance of sphere and wall")
mu("cf10", F, "fAlle", "(Proc.bind (g.mSumme [1e-10]) fun z =>", "(Proc.bind (g.mSumme [0]) fun z =>", "C121", "zero frequency without stand-in")
mu("nn1", F, "fAlle", "(Proc.bind (g.mSumme [1e-10]) fun z =>", "(Proc.bind (g.mSumme [1e-9]) fun z =>", "C135 C121", "larger stand-in for frequency zero")
mu("cf11", F, "fAlle", "Proc.pure (z.map (0.5 * ·) ++ r)) s", "Proc.pure (z.map (-0.5 * ·) ++ r)) s", "C121", "sign of the zero frequency")
F = "Geometry.lean"
mu("cf12", F, "getLmax", "let d := |rl - L| - rs", "let d := rl - L", "C121", "distance of the centre from the wall")

F = "FloatBessel.lean"
mu("fq1", F, "FlFun.lnk", "(A.sub (lnk x l) (lnk x (l + 1)))", "(A.sub (lnk x (l + 1)) (lnk x l))", "C122", "difference of the wrong sign")
mu("fq2", F, "FlFun.lnk", "(A.div (2 * ((l + 2 : ℕ) : ℝ) - 1) x)", "(A.div (2 * ((l + 2 : ℕ) : ℝ) + 1) x)", "C122", "order shifted in the recursion")
mu("fq3", F, "FlFun.lnk", "A.sub (A.sub A.lnPih (A.mul 2 (A.log x))) x", "A.sub (A.sub A.lnPih (A.log x)) x", "C122", "factor 2 left out")
mu("fq4", F, "FlFun.lnPih", "A.mul A.pi 0.5", "A.mul 3.14 0.5", "C122", "inaccurate pi")
mu("fq5", F, "FlFun.lnk", "(A.log (A.add (A.exp (A.sub", "(A.log (A.sub (A.exp (A.sub", "C122", "sign of the recursion")
mu("fq6", F, "FlFun.fnu", "List.range' 1 N", "List.range' 0 N", "C122", "continued fraction begins one term early")
mu("fq7", F, "FlFun.fraction", "A.add a (A.div 1 (fraction (b :: t)))", "A.sub a (A.div 1 (fraction (b :: t)))", "C122", "sign in the continued fraction")
mu("fq8", F, "FlFun.i1lg", "(A.add (A.mul (A.exp (A.mul (-2) x)) (A.add x 1)) x) 1))", "(A.add (A.mul (A.exp (A.mul (-2) x)) (A.add x 1)) x) 2))", "C122", "wrong constant in order 1")
mu("fq9", F, "FlFun.i0lg", "A.sub 1 (A.exp (A.mul (-2) x))", "A.sub 1 (A.exp (A.mul (-1) x))", "C122", "exponent of order 0")
mu("fq10", F, "FlFun.iHigh", "(A.lnk x (l + 1)))\n    (A.log", "(A.lnk x l))\n    (A.log", "C122", "wrong order in the Wronskian")
mu("fq11", F, "FlFun.iHigh", "(A.fnu N x (l + 0.5))", "(A.fnu N x l)", "C122", "integer instead of half-integer order")
mu("fq12", F, "FlFun.i1smShort", "ℝ := A.add (A.add (-A.log 3) (A.log x)) (A.mul A.tenth (A.pow x 2))", "ℝ := A.add (A.add (-A.log 3) (A.log x)) (A.mul 0.2 (A.pow x 2))", "C122", "coefficient of the series")
mu("fq13", F, "FlFun.lniknu", "(A.lnknu xs (n + 1)).map List.dropLast)", "A.lnknu xs (n + 1) |>.map List.tail)", "C122", "wrong orders returned")
mu("fq14", F, "FlFun.i01", "(xsm.map A.i0smLong ++ xlg.map A.i0lg,", "(xlg.map A.i0lg ++ xsm.map A.i0smLong,", "C122", "large arguments first")
mu("fq15", F, "FlFun.lnPih", "A.log (A.mul A.pi 0.5)", "A.log (A.pow (A.mul A.pi 0.5) 1 + 1e-6)", "C122", "constant off by 1e-6")

F = "FloatMie.lean"
mu("fm1", F, "FlMie.arg", "A.mul (A.mul k r) (A.n a)", "A.div (A.mul k r) (A.n a)", "C123", "divided by the refractive index")
mu("fm2", F, "FlMie.n", "A.sqrt (A.mul a.eps a.mu)", "A.sqrt a.eps", "C123", "permeability left out of the refractive index")
mu("fm3", F, "FlMie.idF", "A.add (-l) (A.mul x (A.exp (A.sub B.i0 B.i1)))", "A.add (-l) (A.mul x (A.exp (A.sub B.i1 B.i0)))", "C123", "inverse ratio of Bessel functions")
mu("fm4", F, "FlMie.kdF", "A.sub (-l) (A.mul x (A.exp (A.sub B.k0 B.k1)))", "A.add (-l) (A.mul x (A.exp (A.sub B.k0 B.k1)))", "C123", "sign of the derivative of k")
mu("fm5", F, "FlMie.prefak", "A.mul (A.mul ((-1) ^ l) A.pi) 0.5", "A.mul A.pi 0.5", "C123", "alternating sign left out")
mu("fm6", F, "FlMie.prefakInt", "A.div ((-1) ^ l * 2) A.pi", "A.div ((-1) ^ l) (A.mul 2 A.pi)", "C123", "inverse factor")
mu("fm7", F, "FlMie.mie", "A.quot (A.sub (A.mul b.mu idi) (A.mul a.mu ide)) (A.sub (A.mul b.mu idi) (A.mul a.mu kde))\n  let tm ← A.quot (A.sub (A.mul b.eps idi) (A.mul a.eps ide))", "A.quot (A.sub (A.mul b.mu idi) (A.mul a.mu ide)) (A.sub (A.mul a.mu idi) (A.mul b.mu kde))\n  let tm ← A.quot (A.sub (A.mul b.eps idi) (A.mul a.eps ide))", "C123", "permeabilities exchanged in the denominator")
mu("fm8", F, "FlMie.mie", "(A.sub (A.mul b.eps idi) (A.mul a.eps ide)) (A.sub (A.mul b.eps idi) (A.mul a.eps kde))", "(A.sub (A.mul b.eps idi) (A.mul a.eps ide)) (A.add (A.mul b.eps idi) (A.mul a.eps kde))", "C123", "sign in the denominator")
mu("fm9", F, "FlMie.mie", "A.sub (T l xe).i1 (T l xe).k1⟩", "A.sub (T l xi).i1 (T l xi).k1⟩", "C123", "scaling factor of the interior")
mu("fm10", F, "FlMie.mieInternal", "A.sub (T l xi).k1 (T l xi).i1⟩", "A.sub (T l xi).i1 (T l xi).k1⟩", "C123", "sign of the scaling exponent")
mu("fm11", F, "FlMie.mieInternal", "(A.sub (A.mul b.eps kdi) (A.mul a.eps kde))", "(A.sub (A.mul a.eps kdi) (A.mul b.eps kde))", "C123", "permittivities exchanged in the numerator")
mu("fm12", F, "FlMie.miePEC", "A.quot (A.mul (A.prefak l) (A.idF l x (T l x))) (A.kdF l x (T l x))", "A.quot (A.mul (A.prefak l) (A.kdF l x (T l x))) (A.idF l x (T l x))", "C123", "inverse TM coefficient")
mu("fm13", F, "FlMie.miePECInternal", "⟨A.mul (A.prefakInt l) 1, A.mul (A.prefakInt l) q,", "⟨A.mul (A.prefak l) 1, A.mul (A.prefak l) q,", "C123", "prefactor of the exterior problem")
mu("fm14", F, "FlMie.argPEC", "A.mul (A.mul (A.n a) k) r", "A.mul k r", "C123", "refractive index left out")

F = "CavityZero.lean"
mu("cz1", F, "geoAt", "if x = 0 then geoK0 frac lnK P else do", "if x ≤ 1 then geoK0 frac lnK P else do", "C124 C125", "zero-frequency term used for small wavenumbers")
mu("cz2", F, "geoAt", "geoVals T P [x]", "geoVals T P [x, 2 * x]", "C124", "value of two wavenumbers asked for")
mu("cz3", F, "geoAt", ".ok (vs.headD 0)", ".ok (-(vs.headD 0))", "C124 C125", "sign of the integrand")
mu("cz4", F, "geoAt", ".ok (vs.headD 0)", ".ok (2 * vs.headD 0)", "C124", "factor two in the integrand")
F = "ZeroTemp.lean"
mu("cz5", F, "e0", "| .none => q.fin f a (nmax * deltaT)", "| .none => q.inf f a", "C124 C104", "None taken for infinity")
mu("cz6", F, "e0", "| .inf => q.inf f a", "| .inf => q.inf f 0", "C124 C104", "lower bound ignored")
F = "Cavity.lean"
mu("cz7", F, "geoWave", "mieTableInt T P.mat3 P.mat2 P.lssmax k P.r2 else", "mieTableInt T P.mat3 P.mat2 P.lmax k P.r2 else", "C125", "coefficients of the wall only up to lmax")

F = "Blocks.lean"
mu("pt1", F, "RTElems.logSkal", "e.a2 l1 + e.b2 s + e.V4 l1 s + e.V4 l2 s", "e.a2 l1 + e.b2 s + e.V4 l1 s", "C126", "scaling of the second translation left out")
mu("pt2", F, "RTElems.logSkal", "e.a2 l1 + e.b2 s + e.V4 l1 s + e.V4 l2 s", "2 * e.a2 l1 + e.b2 s + e.V4 l1 s + e.V4 l2 s", "C126", "scaling of the Mie coefficients of sphere 1 used twice")
mu("pt3", F, "RTElems.cEM", "e.aTE l1 * (e.V0 l1 s * e.bTE s * e.V3 l2 s + e.V2 l1 s * e.bTM s * e.V1 l2 s)\n\n/-- geometry.py:318", "e.aTE l1 ^ 2 * (e.V0 l1 s * e.bTE s * e.V3 l2 s + e.V2 l1 s * e.bTM s * e.V1 l2 s)\n\n/-- geometry.py:318", "C126", "Mie coefficient used twice in a mixed block")

# definitions without a mutant so far
F = "Balance.lean"
mu("u1", F, "rowSq", "if j = i then 0 else |M i j| ^ 2", "|M i j| ^ 2", "C03", "diagonal element included in the row norm")
mu("u2", F, "balanceSweep", "(M, true)", "(M, false)", "C02", "flag never set: the outer loop does not end")
mu("u3", F, "balance", "s.2 = false", "s.2 = true", "C03", "outer loop never entered")
F = "Bessel.lean"
mu("u4", F, "lnknu", "(List.range (n.toNat + 1)).map (lnk1 x)", "(List.range n.toNat).map (lnk1 x)", "C35", "last order missing")
mu("u5", F, "fraction", "a + 1 / fraction (b :: t)", "a - 1 / fraction (b :: t)", "C38", "sign in the continued fraction")
mu("u6", F, "lniRow", "| 1 => b", "| 1 => a", "C36", "order 0 returned for order 1")
mu("u7", F, "lniknu", "lnk.map List.dropLast)", "lnk.map List.tail)", "C122", "first instead of last order of k dropped")
F = "Blocks.lean"
mu("u9", F, "RTElems.cEE", "e.aTE l1 * (e.V0 l1 s * e.bTE s * e.V1 l2 s + e.V2 l1 s * e.bTM s * e.V3 l2 s)", "e.aTE l1 * (e.V0 l1 s * e.bTE s * e.V1 l2 s - e.V2 l1 s * e.bTM s * e.V3 l2 s)", "C11", "sign of the mixing term")
mu("u10", F, "RTElems.cMM", "e.aTM l1 * (e.V2 l1 s * e.bTE s * e.V3 l2 s + e.V0 l1 s * e.bTM s * e.V1 l2 s)", "e.aTM l1 * (e.V2 l1 s * e.bTE s * e.V3 l2 s + e.V0 l1 s * e.bTM s * e.V0 l2 s)", "C11", "outgoing coefficient used twice")
mu("u11", F, "sumSs", "∑ s, skal l1 l2 s * c l1 l2 s", "∑ s, skal l2 l1 s * c l1 l2 s", "C10 C11", "scaling factors transposed")
mu("u13", F, "blockmatricesDebug", "let ME ← debugBlock e.logSkal e.cME", "let ME ← debugBlock e.logSkal e.cEM", "C71", "wrong block in the debug variant")
F = "Cavity.lean"
mu("u14", F, "mieTableIntK0", "mieInternalK0 lnK md mat 1 (i.1 + 1) r", "mieInternalK0 lnK mat md 1 (i.1 + 1) r", "C121", "materials exchanged at zero frequency")
mu("u15", F, "singleMK0Int", "slnDetBlockdiagonal fuel 0.9 TE TM", "slnDetBlockdiagonal fuel 0.9 TE TE", "C121", "TM block ignored")
F = "DataInterp.lean"
mu("u16", F, "interpCall", "p < a.1 ∨ b.1 < p", "p < a.1", "C90 C69", "upper end of the data not checked")
mu("u17", F, "epsDrude", "1 + wp ^ 2 / (w * g + w ^ 2)", "1 + wp / (w * g + w ^ 2)", "C69", "plasma frequency not squared")
mu("u18", F, "linspace", "a + j * ((b - a) / n)", "a + j * ((b - a) / (n + 1))", "C90", "step of the grid")
F = "Gaunt.lean"
mu("u19", F, "gauntNorm", "2 * ((lppmin : ℝ) + 2 * idx) + 1", "2 * ((lppmin : ℝ) + idx) + 1", "C77 C52", "normalisation with the wrong l''")
F = "Geometry.lean"
mu("u20", F, "coeffs", "(List.range' lmin (lmax + 1 - lmin)).map f", "(List.range' lmin (lmax - lmin)).map f", "C20", "last order missing")
mu("u21", F, "blockElements", "Proc.bind (rtElements P m rest) fun e => Proc.bind (rtElementsK0 P m)", "Proc.bind (rtElements P m (k :: rest)) fun e => Proc.bind (rtElementsK0 P m)", "C20 C21", "zero wavenumber not split off")
mu("u22", F, "traceDot", "Proc.bind (superElements P 0 ks false) fun _ => Proc.bind (superElements P 0 ks true)", "Proc.bind (superElements P 0 ks false) fun _ => Proc.bind (superElements P 0 ks false)", "C23", "force flag not set")
mu("u23", F, "bdim", "if a = 1 then .ok b else if b = 1 then .ok a else .error .valueError", "if a = 1 then .ok b else .error .valueError", "C75", "no broadcasting of the second array")
mu("u24", F, "evalArg", "| .trace => some true", "| .trace => some false", "C33", "trace evaluation not recognised")
F = "LinAlg.lean"
mu("u25", F, "npAppend2", "B.val [i, a, b - d2]", "B.val [i, a, b]", "C05", "second block read at the wrong place")
mu("u26", F, "npAppend1", "B.val [i, a - d1, b]", "B.val [i, a, b]", "C05", "second block read at the wrong place")
mu("u27", F, "npAdd3", "A.val [i, a, b] + B.val [i, a, b]", "A.val [i, a, b] - B.val [i, a, b]", "C08", "difference instead of sum")
mu("u28", F, "npNeg", "fun l => -A.val l", "fun l => A.val l", "C08", "sign of the off-diagonal blocks of the inverse")
mu("u29", F, "balancedSlogdet", "slogdetBalanced fuel conv (A.slice d1 d1 i)", "slogdetBalanced fuel conv (A.slice d1 d1 0)", "C05", "first slice used for all")
mu("u30", F, "npLog", "if x < 0 then none else if x = 0 then some ⊥", "if x = 0 then some ⊥", "C06", "logarithm of a negative number (log of the modulus)")
F = "MSum.lean"
mu("u31", F, "absQuot", ".num |x / y|", ".num (x / y)", "C18", "modulus missing in the stop rule")
mu("u32", F, "pyMax", "if b.gt a then b else a", "if b.gt a then a else b", "C18", "minimum instead of maximum")
F = "Materials.lean"
mu("u34", F, "isMagnetic", "| none => some false", "| none => some true", "C58", "non-magnetic material reported as magnetic")
mu("u35", F, "sigmaFinite", "| .pec => false", "| .pec => true", "C58", "perfect conductor with finite conductivity")
mu("u36", F, "firstWp", "| p :: _ => .ok p.wP", "| p :: _ => .ok p.gamma", "C45", "damping instead of the plasma frequency")
F = "OneRoundtrip.lean"
mu("u38", F, "tempcorrLoop", "if rel > 1e-6 then", "if rel < 1e-6 then", "C103", "loop condition reversed: returns at once")
F = "PFA.lean"
mu("u39", F, "roundTrips", "let a ← mathLog (1 - f.te)", "let a ← mathLog (1 + f.te)", "C61", "sign of the TE round trip")
mu("u40", F, "pressureRoundTrips", "let b ← cdiv (-f.k * f.tm) (1 - f.tm)\n  .ok (a, b)", "let b ← cdiv (f.k * f.tm) (1 - f.tm)\n  .ok (a, b)", "C62", "sign of the TM pressure")
mu("u41", F, "integralTE", ".ok (kperp / (2 * Real.pi) * r.1)) a\n\n/-- PFA.py:71-73", ".ok (kperp / Real.pi * r.1)) a\n\n/-- PFA.py:71-73", "C86", "factor two in the measure")
mu("u42", F, "e0", "q.inf (fun kn => p.integral q L kn) 1e-20", "q.inf (fun kn => p.integral q L kn) 1", "C86", "lower limit of the frequency integral")
mu("u43", F, "getFMatsubaras", "let tm ← weightZero shield tm\n  .ok (te, tm)", "let tm ← weightZero shield te\n  .ok (te, tm)", "C64", "TE values used for TM")
mu("u44", F, "rawE0", "integralTM q 0 L kn) 1e-20\n  .ok (te + tm)", "integralTM q 0 L kn) 1e-20\n  .ok (te - tm)", "C89", "difference of the polarisations")
mu("u45", F, "rawFreeEnergy", "let tm ← weightZero shield (tm.map (T * ·))\n    .ok (te.sum + tm.sum)", "let tm ← weightZero shield tm\n    .ok (te.sum + tm.sum)", "C89", "temperature missing for TM")
mu("u46", F, "rawPressureTM", "let r ← p.pressureRoundTrips kperp kn L; .ok (kperp / (2 * Real.pi) * r.2)", "let r ← p.pressureRoundTrips kperp kn L; .ok (kperp / (2 * Real.pi) * r.1)", "C118", "TE pressure used for TM")
mu("u47", F, "rawPlane", "if T = 0 then p.rawE0 q L shield else", "if T = 0 then p.rawFreeEnergy q 1 L shield else", "C89", "temperature one for zero temperature")
mu("u48", F, "rawSphereForce", "(2 * Real.pi * (r1 * r2)) (r2 - r1)", "(2 * Real.pi * (r1 * r2)) (r2 + r1)", "C89", "interior geometry treated as exterior")
F = "Pair.lean"
mu("u49", F, "tableOf", "(c ⟨l - 1, h⟩).TM else 0", "(c ⟨l - 1, h⟩).TE else 0", "C100 C119", "TE coefficients used for TM")
F = "Scattering.lean"
mu("u50", F, "kdT", "-l - x * Real.exp (B.k0 - B.k1)", "-l + x * Real.exp (B.k0 - B.k1)", "C79 C83", "sign in the derivative of k_l")
mu("u51", F, "miePECIntCore", ".ok ⟨prefak, prefak * q, Bi.k1 - Bi.i1⟩", ".ok ⟨prefak, prefak * q, Bi.i1 - Bi.k1⟩", "C79", "exponent with the wrong sign")
mu("u52", F, "besCols", "kv.dropLast.zip kv.tail", "kv.tail.zip kv.dropLast", "C42", "orders of k exchanged")
mu("u53", F, "mieCoated", "let q ← mie T T mat1 mat2 l k ri", "let q ← mie T T mat1 mat2 l k ra", "C47", "outer radius used for the core")
F = "Stratified.lean"
mu("u54", F, "stratCoated", "coatedCore l (k * ra) a b (T l (k * ra * a.n)) (T l (k * ra * b.n)) q", "coatedCore l (k * ra) b a (T l (k * ra * b.n)) (T l (k * ra * a.n)) q", "C81", "media of the interface exchanged")
F = "Textbox.lean"
mu("u55", F, "clicks", "(retrieveInput float c w).2) w", "w) w", "C112", "clicks without effect")
F = "Thermo.lean"
mu("u56", F, "assignSlice", "result.take start ++ vals.map some ++ result.drop (start + len)", "result.take start ++ vals.map some ++ result.drop (start + len + 1)", "C26", "one element lost per slice")
mu("u57", F, "Geo.mSummeK0", "if s.geoFlag then (.error .notImplementedError, s) else (g.k0, s)", "if s.geoFlag then (.error .notImplementedError, s) else (g.k0, { s with geoFlag := true })", "C24 C27", "zero-frequency evaluation sets the force flag")
mu("u58", F, "freeEnergy", "Proc.pure (thermoSums p.deltaT p.maxstep f)", "Proc.pure (thermoSums p.deltaT p.maxstep f).tail", "C27 C28", "first temperature missing")
mu("u60", F, "pyRound", "if Int.fract x < 1 / 2 then ⌊x⌋", "if Int.fract x ≤ 1 / 2 then ⌊x⌋", "C31 C101", "ties rounded down")
F = "Translation.lean"
mu("u61", F, "arange2", "fun i : ℕ => a + 2 * i", "fun i : ℕ => a + i", "C53 C95", "step one instead of two")
mu("u62", F, "lppArr", "(l1 + l2 + 1)", "(l1 + l2)", "C95 C53", "last l'' missing")
mu("u63", F, "transAb", "getVl1l2 ext m nL bes (transLmin m + i.1) (transLmin m + j.1)", "getVl1l2 ext m nL bes (transLmin m + j.1) (transLmin m + i.1)", "C96", "l1 and l2 exchanged")
F = "Worker.lean"
mu("u64", F, "Env.radius", "| none => .error .typeError", "| none => .error .valueError", "C66", "wrong exception for a bad radius")
mu("u65", F, "Env.textInt", "| none => .ok (.text s)", "| none => .error .valueError", "C66", "text option rejected")
mu("u66", F, "evaluationOpt", ".ok \"lndet\"", ".ok \"trace\"", "C66", "wrong default for evaluation")
mu("u67", F, "Env.geomArgs", "let r2 ← E.radius c \"rb\"", "let r2 ← E.radius c \"ra\"", "C66", "radius of the first sphere used for both")
mu("u68", F, "Env.calculate", "let Tmax ← E.getFloat c \"thermodynamics\" \"tmax\"", "let Tmax ← E.getFloat c \"thermodynamics\" \"tmin\"", "C66", "tmin used for tmax")
mu("u69", F, "FS.write", "if p = path then some content else fs p", "some content", "C65", "all files overwritten")
# u70 (a missing file already raises in readConfig) cannot be observed: NoSectionError follows in any case
mu("u71", F, "finalState", "t.1.getLastD fs", "fs", "C65", "final state is the initial one")
F = "FloatSum.lean"
mu("fls1", F, "FlFun.mLoop", "A.add (S i) (A.mul 2 (l i))", "A.add (S i) (l i)", "C130", "factor two of negative m missing")
mu("fls2", F, "FlFun.mLoop", "if pre S then .ok S\n", "if pre S then .ok 0\n", "C130", "zero returned at the first test")
mu("fls3", F, "FlFun.mSummeK0", "A.div (old 0) (new 0)| 1| < A.div precision 10) L lmax 1 S", "A.div (old 0) (new 0)| 1| < A.div precision 10) L lmax 0 S", "C130", "m = 0 counted three times")
mu("fls4", F, "FlFun.mSummeNonzero", "|A.sub |A.div (new r) (old r)| 1| < A.div precision 10", "|A.sub |A.div (new r) (old r)| 1| < A.div precision 100", "C130", "smaller tolerance")
mu("fls5", F, "FlFun.mSummeNonzero", "|A.sub |A.div (new r) (old r)| 1|", "A.sub |A.div (new r) (old r)| 1", "C130", "modulus of the change missing")
mu("fs6", F, "FlFun.fAlle", "Proc.pure (A.mul 0.5 z :: r)", "Proc.pure (z :: r)", "C130", "weight one half missing")
mu("fs7", F, "FlFun.getFMatsubaras", "A.mul p.deltaT (n : ℝ)", "A.add p.deltaT (n : ℝ)", "C130", "sum instead of product for the wavenumbers")
mu("fs8", F, "FlFun.strideList", "f.getD (j * i) 0", "f.getD j 0", "C130", "stride ignored")
mu("fs9", F, "FlFun.thermoSums", "A.mul (A.mul deltaT ((i + 1 : ℕ) : ℝ))", "A.mul (A.mul deltaT (i : ℝ))", "C130", "temperatures begin with zero")
mu("fs10", F, "FlFun.strideList", "(f.length + i - 1) / i", "f.length / i", "C130", "last term missing")
mu("fs11", F, "FlMie.pairVals", "A.logDet sum ld T P V (ks.get i) m", "A.logDet sum ld T P V (ks.get i) 0", "C130", "m = 0 for all m")
mu("fs12", F, "FlMie.pairGeo", "vals := A.pairVals sum ld T P V", "vals := fun ks => A.pairVals sum ld T P V ks.reverse", "C130", "order of the wavenumbers reversed")
F = "FloatZero.lean"
mu("fz1", F, "FlZero.ln2dbl", "A.mul x (A.log 2)", "A.mul x (A.log 3)", "C131", "wrong base in the double factorial")
mu("fz2", F, "FlZero.ln2dbl", "A.lgam (2 * x + 1)", "A.lgam (2 * x)", "C131", "argument of gammaln too small")
mu("fz3", F, "FlZero.transK0Ext", "A.sub (A.add z1 z2) n", "A.add (A.add z1 z2) n", "C131", "logarithm of the denominator added")
mu("fz4", F, "FlZero.transK0Ext", "(A.lfac (2 * a))) (A.ln2dbl (a + b))", "(A.lfac (2 * a))) (A.ln2dbl a)", "C131", "wrong double factorial")
mu("fz5", F, "FlZero.transK0Ext", "(A.lfac (a + m))", "(A.lfac (a - m))", "C131", "sign of m in one factorial")
mu("fz6", F, "FlZero.mieK0", ".ok ⟨sgn * 1, -sgn * bTM, lnc⟩", ".ok ⟨sgn * 1, -sgn * 1, lnc⟩", "C131", "electric amplitude of perfect conductors without (l+1)/l")
mu("fz7", F, "FlZero.mieK0", "A.sub (-A.log (2 * l + 1)) (A.mul 2 (A.ln2dbl l))", "A.sub (-A.log (2 * l + 1)) (A.ln2dbl l)", "C131", "factor two of the logarithm missing")
mu("fz8", F, "FlZero.mieK0", "A.sub (A.mul muMd (A.pow n0 2)) (A.mul muSp (A.pow nMd 2))", "A.sub (A.mul muMd n0) (A.mul muSp nMd)", "C131", "refractive indices not squared")
mu("fz9", F, "FlZero.mieK0", "A.mul (l + 1) q, lnc", "A.mul l q, lnc", "C131", "factor l instead of l+1")
mu("fz10", F, "FlZero.mieK0", "A.add (A.mul l (A.add muSp muMd)) muMd", "A.add (A.mul l (A.add muSp muMd)) muSp", "C131", "permeability of the sphere in the denominator")
mu("fz11", F, "FlZero.distance", "A.mul (l1 + l2 + 1)", "A.mul (l1 + l2)", "C131", "power of the first radius too small")
mu("fz12", F, "FlZero.distance", "A.log (A.div r2 L)", "A.log (A.div r1 L)", "C131", "radius of the first sphere used twice")
mu("fz13", F, "FlZero.blockmatricesK0Ext", "A.mul (TM i j s) (mag i j s)", "A.mul (TE i j s) (mag i j s)", "C131", "TE block returned twice")
mu("fz14", F, "FlZero.blockmatricesK0Ext", "(e.vLn a s)) (e.vLn b s)", "(e.vLn a s)) (e.vLn a s)", "C131", "logarithm of the way back from the wrong column")
mu("fz15", F, "FlZero.blockmatricesK0At", "bTM := fun j => b.TM (transLmin m + j.1)", "bTM := fun j => a.TM (transLmin m + j.1)", "C131", "coefficients of the first sphere used for both")
mu("fz16", F, "FlZero.pairK0", "A.mieTableK0 frac P.mat2 P.mat3 P.lssmax P.r2", "A.mieTableK0 frac P.mat1 P.mat3 P.lssmax P.r2", "C131", "material of the first sphere used for both")
mu("fz17", F, "FlZero.pairGeo", "k0 := A.pairK0 sum ld0 frac P", "k0 := A.pairK0 sum ld0 frac P >>= fun z => .ok (A.mul 0.5 z)", "C131", "zero-frequency term halved twice")
F = "Cavity.lean"
mu("md2", F, "geoWave", "let a ← mieTable T P.mat1 P.mat3 P.lmax k P.r1", "let a ← mieTable T P.mat1 P.mat3 P.lmax k (P.r2 / 2)", "C128", "half of the radius of the cavity as radius of the sphere")
mu("md3", F, "transRow", "fun l => (T l x).i1)", "fun l => -(T l x).i1)", "C128 C129", "sign of the logarithms inside the cavity")
F = "Scattering.lean"
mu("md4", F, "mieIntCore", ".ok ⟨te * prefak, tm * prefak, Bi.k1 - Bi.i1⟩", ".ok ⟨te * prefak, tm * prefak, Be.k1 - Be.i1⟩", "C128", "scaling factor at the argument of the wall")
F = "Cavity.lean"
mu("md5", F, "geoGeo", "vals := geoVals T P", "vals := fun ks => (geoVals T P ks).map fun v => v.map (1 / ·)", "C128 C129", "inverse value")
F = "Pair.lean"
mu("md6", F, "waveIn", "transBessels [k * P.L * Real.sqrt e]", "transBessels [(k * P.L) ^ 2 * Real.sqrt e]", "C129 C132", "squared distance in the Bessel functions")
mu("md7", F, "pairK0", "    .ok (r 0)\n", "    .ok (if P.r1 < 1 then r 0 else 2 * r 0)\n", "C132", "special case for small spheres")
F = "Materials.lean"
mu("md8", F, "lorentzTerm", "(p.wR / omegaNorm) ^ 2 + k ^ 2", "(p.wR / omegaNorm) ^ 2 - k ^ 2", "C132", "formula for real frequencies")
mu("md9", F, "smithTerm", "cdiv (0.49 *", "cdiv (4.9 *", "C132", "wrong constant in the Smith-Drude formula, such that terms cancel")
mu("md10", F, "epsilon", "do let t ← lorentzTerm k p; .ok (acc + t)) 1", "do let t ← lorentzTerm k p; .ok (if k < 1 then acc + t else acc)) 1", "C132", "oscillators ignored for large wavenumbers")
F = "FloatSum.lean"
mu("md11", F, "getFMatsubaras", "A.mul p.deltaT (n : ℝ)", "A.mul p.deltaT (A.add n 1e-3)", "C133 C131", "wavenumbers shifted")
mu("md12", F, "thermoSums", "A.mul deltaT ((i + 1 : ℕ) : ℝ)", "A.mul deltaT (i : ℝ)", "C133", "temperatures from zero on")
mu("md13", F, "strideList", "f.getD (j * i) 0", "f.getD (j * i + 1) 0", "C133", "slice begins with the second element")
F = "FloatZero.lean"
mu("md14", F, "FlZero.pairGeo", "k0 := A.pairK0 sum ld0 frac P", "k0 := .ok 0", "C133", "zero-frequency term forgotten")
F = "Thermo.lean"
mu("ne1", F, "fAlle", "Proc.bind (g.mSumme rest) fun r => Proc.pure (0.5 * z :: r)) s", "Proc.bind (g.mSumme rest) fun r => Proc.pure (0.45 * z :: r)) s", "C135 C105", "slightly wrong weight of the zero frequency: the energy still has the right limit, the entropy has not")
mu("ne2", F, "npGradient", "if i = 0 then (f.getD 1 0 - f.getD 0 0) / h", "if i = 0 then (f.getD 1 0) / h", "C135", "first difference against zero")
mu("ne3", F, "npGradient", "(f.getD i 0 - f.getD (i - 1) 0) / h", "(f.getD i 0 - f.getD (i - 1) 0) / h ^ 2", "C135", "step squared at the last temperature")
mu("ne4", F, "thermoSums", "deltaT * ((i + 1 : ℕ) : ℝ) * strideSum f (i + 1)", "deltaT * ((i + 1 : ℕ) : ℝ) * strideSum f (i + 2)", "C135", "stride of the next temperature")
mu("ne5", F, "getFMatsubaras", "p.deltaT * (n : ℝ)", "p.deltaT * (n : ℝ) / 2", "C135 C105", "half of the wavenumbers")
F = "Materials.lean"
mu("ne6", F, "lorentzTerm", "(p.wR / omegaNorm) ^ 2 + k ^ 2 + p.gamma / omegaNorm * k", "(p.wR / omegaNorm) ^ 2 + k ^ 2 + p.gamma / omegaNorm * Real.sqrt k", "C135", "square root of the wavenumber in the damping: values near zero no longer smooth")
F = "MSum.lean"
mu("mo1", F, "mSummeK0", "|(|old 0 / new 0|) - 1| < precision / 10", "|(|old 0 / new 0|) - 1| < precision * 10", "C134", "tolerance a hundred times larger")
mu("mo2", F, "mSummeNonzero", "|(|new r / old r|) - 1| < precision / 10", "|(|new r / old r|) - 1| < precision", "C134", "tolerance ten times larger")
mu("mo3", F, "mSummeNonzero", "    L lmax 1 S\n\n/-- geometry.py:491-516 `mSumme(matsubaras)`", "    L (lmax - 1) 1 S\n\n/-- geometry.py:491-516 `mSumme(matsubaras)`", "C134", "last m left out")
F = "StratZero.lean"
mu("sz1", F, "ballAt", "let vs ← ballVals T P [x]\n", "let vs ← ballVals T { P with lssmax := P.lmax } [x]\n", "C138", "first cut-off used for the intermediate sum")
mu("sz2", F, "ballAt", "if x = 0 then ballK0 frac P else do", "if x = 0 then .ok 0 else do", "C138", "no error at zero")
mu("sz3", F, "ballAt", ".ok (vs.headD 0)", ".ok (2 * vs.headD 0)", "C138", "factor two in the integrand")
mu("sz4", F, "ballAt", "let vs ← ballVals T P [x]\n", "let vs ← ballVals T P [x / 2]\n", "C138", "half of the wavenumber")
F = "StratPair.lean"
mu("tmx1", F, "stratTable", "    .ok (tableOf c)", "    .ok (tableOf fun i => ⟨(c i).TM, (c i).TE, (c i).ln⟩)", "C139", "TE and TM of a stratified sphere exchanged")
mu("tmx2", F, "stratTable", "    .ok (tableOf c)", "    .ok (tableOf fun i => ⟨(c i).TE, (c i).TE, (c i).ln⟩)", "C139", "TE coefficient returned for both polarisations")
F = "Worker.lean"
mu("wk1", F, "Env.geomArgs", 'let s2 ← c.get "materials" "matb"\n  let mat2', 'let s2 ← c.get "materials" "mata"\n  let mat2', "C66", "first material used for both spheres")
mu("wk2", F, "Env.geomArgs", "⟨r1, r2, L, mat1, mat2, mat3, lmax, lOffset, lssmax, precision, evaluation⟩", "⟨r2, r1, L, mat1, mat2, mat3, lmax, lOffset, lssmax, precision, evaluation⟩", "C66", "radii exchanged")
mu("wk3", F, "Env.calculate", "E.finiteT dT nmax Tmax g a", "E.finiteT Tmax nmax dT g a", "C66", "lowest and highest temperature exchanged")
mu("wk4", F, "Env.geomArgs", "mat1, mat2, mat3, lmax, lOffset", "mat1, mat3, mat2, lmax, lOffset", "C66", "material of the second sphere and of the medium exchanged")
mu("wk5", F, "Env.job", 'let s3 ← c.get "materials" "matmd"\n  let q', 'let s3 ← c.get "materials" "matb"\n  let q', "C66", "wrong medium in the description of the job")
mu("wk6", F, "saveResult", "(writing fs f (c ++ t), .ok ())", "(writing fs f (t ++ c), .ok ())", "C66 C65", "description after the numbers")
F = "PFA.lean"
mu("pfr1", F, "rawSphereForce", "let c ← if ext then .ok c else cdiv (2 * Real.pi * (r1 * r2)) (r2 - r1)", "let c ← if ext then .ok c else cdiv (2 * Real.pi * (r1 * r2)) (r1 - r2)", "C89", "sign of the curvature inside")
mu("pfr2", F, "rawGetFMatsubaras", "if shield then 0 :: fs.tail else fs", "if shield then fs.tail else fs", "C89", "first entry dropped instead of set to zero")
mu("pfr3", F, "weightZero", "0.5 * x", "x", "C64", "zero frequency not halved")
F = "OneRoundtrip.lean"
mu("pfr4", F, "mmaxOf", "pyRound (Real.log precision / Real.log 0.5)", "pyRound (Real.log precision / Real.log 0.1)", "C101", "decimal logarithm")
F = "Materials.lean"
mu("pfr5", F, "dielectric", "| .pec => .error .attributeError\n  | _ => .ok (isDielectric M.e)", "| .pec => .ok false\n  | _ => .ok (isDielectric M.e)", "C58", "perfect conductor with the attribute")
mu("pfr6", F, "isMagnetic", "if ¬ mu0 = 0 then some true else none", "if ¬ mu0 = 1 then some true else none", "C58", "compared with the vacuum value")
F = "PFA.lean"
mu("pse1", F, "sphereEnergy", ".ok (2 * Real.pi * rho * f)) 0 r1", ".ok (2 * Real.pi * f)) 0 r1", "C140", "weight of the ring without its radius")
mu("pse2", F, "sphereEnergy", ".ok (2 * Real.pi * rho * f)) 0 r1", ".ok (2 * Real.pi * rho * f)) 0 r2", "C140", "integration up to the radius of the other sphere")
mu("pse3", F, "sphereEnergy", "let f ← p.freeEnergy q T L shield\n    .ok (2 * Real.pi * rho * f)", "let f ← p.freeEnergy q T L false\n    .ok (2 * Real.pi * rho * f)", "C140", "flag not passed on")
mu("pse4", F, "distance", ".ok (d - r1 * s1 - r2 * s2)", ".ok (d - r1 * s1 - r2)", "C140 C63", "curvature of the second sphere ignored")
mu("pse5", F, "distance", ".ok (r2 * s2 - d - r1 * s1)", ".ok (r2 * s2 + d - r1 * s1)", "C140 C63", "gap on the far side")
mu("pse6", F, "sphereForce", "let c ← cdiv (2 * Real.pi * r1 * r2) nenner", "let c ← cdiv (Real.pi * r1 * r2) nenner", "C140 C88", "factor two")
mu("pse7", F, "rawSphereEnergy", "let c ← cdiv (L * Real.pi * r1 * r2) (r1 + r2)", "let c ← cdiv (2 * L * Real.pi * r1 * r2) (r1 + r2)", "C141 C89", "prefactor right for the high-temperature limit only")
mu("pse8", F, "rawPlane", "| .inf => p.freeEnergyHT q 1e-10 L shield", "| .inf => p.freeEnergyHT q 1e-10 1 shield", "C141", "unit distance in the high-temperature limit")
mu("pse9", F, "freeEnergyHT", "if shield then .ok (0 + 0) else .ok (te + tm)", "if shield then .ok (0 + 0) else .ok (2 * te)", "C140 C141", "TM modes replaced by TE modes")
F = "Thermo.lean"
mu("aud1", F, "autoNmax", "if rs = 0 ∨ L = 0 ∨ lmax = 0 then", "if L = 0 ∨ lmax = 0 then", "C31", "division by a vanishing radius overlooked")
F = "Blocks.lean"
mu("aud2", F, "k0Mag", "  | 0, _, _ => .ok fun i => i.elim0", "  | 0, _, _ => .error .indexError", "C72", "scaling of an empty block")
mu("aud3", F, "k0Mag", "  | _ + 1, _, X => dynamicScaling X", "  | _ + 1, _, X => .ok fun i j s => Real.exp (X i j s - 1)", "C72", "no scaling, wrong factor")
F = "FloatPFA.lean"
mu("fpf1", F, "root", "A.sqrt (A.add (A.pow kperp 2) (A.pow (A.mul kn (A.n a)) 2))", "A.sqrt (A.add (A.pow kperp 2) (A.mul kn (A.n a)))", "C142", "square forgotten")
mu("fpf2", F, "fresnelCore", "A.quot (A.sub (A.mul P.eps sqrtM) (A.mul M.eps sqrtP))", "A.quot (A.sub (A.mul P.eps sqrtP) (A.mul M.eps sqrtM))", "C142", "wavenumbers exchanged in the TM coefficient")
mu("fpf3", F, "fresnel", "  | none, _, _, _ => .ok (-1, 1)", "  | none, _, _, _ => .ok (1, -1)", "C142", "polarisations of the perfect reflector exchanged")
mu("fpf4", F, "factors", "A.exp (A.mul (A.mul (-2) k) L)", "A.exp (A.mul (A.mul (-1) k) L)", "C142", "single pass instead of a round trip")
mu("fpf5", F, "factors", "(A.mul nMd2 (A.pow kn 2))", "(A.mul nMd2 kn)", "C142", "frequency not squared")
mu("fpf6", F, "roundTrip", "A.mathLog (A.mul (A.sub 1 f.te) (A.sub 1 f.tm))", "A.mathLog (A.mul (A.sub 1 f.te) (A.add 1 f.tm))", "C142", "sign of the TM factor")
mu("fpf7", F, "pressureRoundTrips", "let b ← A.quot (A.mul (-f.k) f.tm) (A.sub 1 f.tm)\n  .ok (a, b)", "let b ← A.quot (A.mul (-f.k) f.tm) (A.sub 1 f.te)\n  .ok (a, b)", "C142", "denominator of the other polarisation")
mu("fpf8", F, "pressureRoundTrip", ".ok (A.add a b)", ".ok (A.sub a b)", "C142", "difference of the polarisations")

F = "Thermo.lean"
mu("es1", F, "npGradient", "if i = 0 then (f.getD 1 0 - f.getD 0 0) / h", "if i = 0 then (f.getD 2 0 - f.getD 0 0) / (2 * h)", "C143 C29", "first difference over two steps")
mu("es2", F, "entropy", "((npGradient F p.deltaT).map fun l => l.map (- ·), s)", "((npGradient F (p.deltaT * p.nmax)).map fun l => l.map (- ·), s)", "C143", "number of frequencies in the step")
F = "FloatDet.lean"
mu("fdt1", F, "oneMinus", "A.sub (if i = j then 1 else 0) (M i j)", "A.add (if i = j then 1 else 0) (M i j)", "C144", "1 + M instead of 1 - M")
mu("fdt2", F, "oneMinus", "A.sub (if i = j then 1 else 0) (M i j)", "A.sub 1 (M i j)", "C144", "matrix of ones instead of the unit matrix")
mu("fdt3", F, "elim", "A.sub (a (Equiv.swap 0 p i.succ) j.succ)", "A.sub (a i.succ j.succ)", "C144", "rows not exchanged")
mu("fdt4", F, "elim", "(A.mul (A.mul (A.div 1 (a p 0)) (a (Equiv.swap 0 p i.succ) 0)) (a p j.succ))", "(A.mul (A.mul (a p 0) (a (Equiv.swap 0 p i.succ) 0)) (a p j.succ))", "C144", "pivot instead of its reciprocal")
mu("fdt5", F, "elim", "(a p j.succ))", "(a 0 j.succ))", "C144", "wrong pivot row")
mu("fdt6", F, "pivots", "a (piv n a) 0 :: pivots piv n (A.elim a (piv n a))", "a 0 0 :: pivots piv n (A.elim a (piv n a))", "C144", "diagonal before the exchange")
mu("fdt7", F, "slogdet", "A.add s (A.log |d|)", "A.add s (A.log d)", "C144", "logarithms of negative pivots (python: NaN)")
mu("fdt8", F, "slogdet", "A.add s (A.log |d|)) 0", "A.mul s (A.log |d|)) 1", "C144", "product of the logarithms")
mu("fdt9", F, "balancedSlogdet", "(F.balance tiny fuel conv (A.oneMinus M)).map (A.slogdet piv)", "(F.balance tiny fuel conv M).map fun B => A.slogdet piv (A.oneMinus B)", "C144", "M balanced instead of 1 - M")
mu("fdt10", F, "balancedSlogdet", "(F.balance tiny fuel conv (A.oneMinus M)).map (A.slogdet piv)", "(F.balance tiny fuel conv (A.oneMinus M)).map fun B => A.slogdet piv (A.oneMinus B)", "C144", "subtracted from 1 twice")
mu("fdt11", F, "slnDetBlockdiagonal", "fun x => A.add y x", "fun x => A.sub y x", "C144", "difference of the two determinants")
mu("fdt12", F, "slnDetBlockdiagonal", "A.mul (A.sub 1 (P 0 0)) (A.sub 1 (Q 0 0))", "A.sub 1 (A.mul (P 0 0) (Q 0 0))", "C144", "1 - AB instead of (1-A)(1-B)")
F = "FloatTrans.lean"
mu("ftr1", F, "common", "((lpp : ℤ) - ((lpp : ℤ) - 1) * e)", "((lpp : ℤ) * e)", "C145", "sign alternates with p in the exterior case")
mu("ftr2", F, "common", "(A.sqrt A.pi)", "A.pi", "C145", "pi instead of its root")
mu("ftr3", F, "common", "(A.sqrt (A.div (2 * lpp + 1) (l1 * (l1 + 1) * (l2 * (l2 + 1)))))", "(A.div (2 * lpp + 1) (A.sqrt (l1 * (l1 + 1) * (l2 * (l2 + 1)))))", "C145", "root of the denominator only")
mu("ftr4", F, "common", "(A.pow (A.div 2 A.pi) (if ext then 1 else 0))", "(A.pow (A.div 2 A.pi) (if ext then 0 else 1))", "C145", "factor 2/pi in the interior case")
mu("ftr5", F, "getVl1l2", "(if ext then sphB.length - 1 else 0)", "(if ext then 0 else sphB.length - 1)", "C145", "scale from the smallest Bessel function")
mu("ftr6", F, "getVl1l2", "(A.exp (A.sub (sphB.getD i 0) norm))", "(A.exp (A.sub norm (sphB.getD i 0)))", "C145", "reciprocal of the scaled Bessel function")
mu("ftr7", F, "getVl1l2", "(l1p + l2p - lpp.getD i 0 * (lpp.getD i 0 + 1))", "(l1p + l2p + lpp.getD i 0 * (lpp.getD i 0 + 1))", "C145", "sign in the weight")
mu("ftr8", F, "getVl1l2", "A.mul (A.mul (2 * m) nL) (q i)", "A.mul (A.mul (2 * m) (A.sqrt nL)) (q i)", "C145", "root of the argument")
mu("ftr9", F, "getVl1l2", "A.mul (-vEM i) ((-1) ^ lpp.getD i 0)", "A.mul (vEM i) ((-1) ^ lpp.getD i 0)", "C145", "sign of the reverse mixing coefficient")
mu("ftr10", F, "getVl1l2", "A.mul (vEE i) ((-1) ^ lpp.getD i 0)", "vEE i", "C145", "reverse translation without signs")
mu("ftr11", F, "getVl1l2", "if g.length ≠ lpp.length then .error .valueError", "if g.length = lpp.length then .error .valueError", "C145", "length check inverted")
F = "FloatGaunt.lean"
mu("fga1", F, "gauntAlphas", "A.quot (A.mul (p * p - a2) (p * p - b2)) (4 * p * p - 1)", "A.quot (A.mul (p * p - a2) (p * p - b2)) (4 * p * p + 1)", "C146", "sign in the denominator of alpha")
mu("fga2", F, "gauntAlphas", "let a2 : ℝ := (l + lp + 1) ^ 2", "let a2 : ℝ := (l + lp) ^ 2", "C146", "l+lp instead of l+lp+1")
mu("fga3", F, "gauntLnMax", "(A.mul 2 (A.lgam ((l + lp) + 1)))", "(A.lgam ((l + lp) + 1))", "C146", "factor 2 missing")
mu("fga4", F, "gauntLnMax", "let h := A.mul 0.5 (A.sub (A.sub (A.add (A.lgam (l - m + 1))", "let h := A.mul 0.5 (A.sub (A.sub (A.add (A.lgam (l + m + 1))", "C146", "sign of m")
mu("fga5", F, "gauntLnMax", "(A.log (A.mul 4 A.pi))", "(A.log A.pi)", "C146", "ln pi instead of ln 4 pi")
mu("fga6", F, "gauntStep", "A.quot (A.sub (A.mul", "A.quot (A.add (A.mul", "C146", "sign of the second term")
mu("fga7", F, "gauntStep", "(A.mul x3 g2)) x0", "(A.mul x3 g1)) x0", "C146", "wrong predecessor")
mu("fga8", F, "gauntStep", "(4 * (m : ℝ) * m)", "(4 * (m : ℝ))", "C146", "m not squared")
mu("fga9", F, "gauntStart", ".ok [A.mul amax q, amax]", ".ok [amax, A.mul amax q]", "C146", "order of the first two coefficients")
mu("fga10", F, "gauntStart", "((l : ℝ) * lp - (m : ℝ) ^ 2 * (2 * ((l + lp : ℕ) : ℝ) - 1))", "((l : ℝ) * lp + (m : ℝ) ^ 2 * (2 * ((l + lp : ℕ) : ℝ) - 1))", "C146", "sign in the second coefficient")
mu("fga11", F, "gauntNorm", "(A.sqrt (2 * ((lppmin : ℝ) + 2 * idx) + 1))", "(A.sqrt (2 * ((lppmin : ℝ) + idx) + 1))", "C146", "index instead of the degree in the normalisation")
mu("fga12", F, "gaunt", "if m.natAbs > min l lp then", "if m.natAbs ≥ min l lp then", "C146", "highest order lost")
F = "FloatTransArr.lean"
mu("fta1", F, "transArg", "A.mul (A.mul k L) (A.sqrt e)", "A.mul (A.mul k L) e", "C147", "square root of the permittivity missing")
mu("fta2", F, "transArg", "A.mul (A.mul k L) (A.sqrt e)", "A.mul k (A.sqrt e)", "C147", "distance missing in the argument")
mu("fta3", F, "transAb", "let g ← A.gaunt (transLmin m + i.1) (transLmin m + j.1) m", "let g ← A.gaunt (transLmin m + i.1) (transLmin m + j.1) (m + 1)", "C147", "Gaunt coefficients of the next order")
mu("fta4", F, "transAb", "A.getVl1l2 sum true m nL bes g (transLmin m + i.1) (transLmin m + j.1)", "A.getVl1l2 sum true m nL bes g (transLmin m + j.1) (transLmin m + i.1)", "C147", "rows and columns exchanged")
mu("fta5", F, "transAb", "A.getVl1l2 sum true m nL", "A.getVl1l2 sum false m nL", "C147", "coefficients for the interior")
mu("fta6", F, "transAb", "let g ← A.gaunt (transLmin m + i.1)", "let g ← A.gaunt (1 + i.1)", "C147", "Gaunt coefficients counted from l = 1")
mu("fta7", F, "transPair", "(A.lnknu [x] (P.lmax + P.lssmax + 1))", "(A.lnknu [x] (P.lmax + P.lmax))", "C147", "Bessel functions up to 2 lmax only")
mu("fta8", F, "transPair", "A.transAb sum P.lmax P.lssmax m x (", "A.transAb sum P.lmax P.lssmax m k (", "C147", "wavenumber instead of the argument in the mixing coefficients")
mu("fta9", F, "transPair", "(A.lnknu [x]", "(A.lnknu [k * P.L]", "C147", "Bessel functions for the vacuum")
F = "MSum.lean"
mu("te1", F, "mSummeK0", "|(|old 0 / new 0|) - 1| < precision / 10", "|(|old 0 / new 0|) - 1| < precision", "C148", "tolerance ten times larger at zero frequency")
mu("te2", F, "mSummeNonzero", "|(|new r / old r|) - 1| < precision / 10", "|(|new r / old r|) - 1| < precision * 10", "C148", "tolerance a hundred times larger")
mu("te3", F, "mLoop", "S i + 2 * l i", "S i + l i", "C148", "negative m not counted")
F = "Thermo.lean"
mu("bu1", F, "thermoSums", "deltaT * ((i + 1 : ℕ) : ℝ) * strideSum f (i + 1)", "deltaT * ((i + 1 : ℕ) : ℝ) ^ 2 * strideSum f (i + 1)", "C149", "temperature index squared")
mu("bu2", F, "getFMatsubaras", "p.deltaT * (n : ℝ)", "p.deltaT * (n : ℝ) / (1 + n)", "C149", "wavenumbers that do not grow, so that the omitted terms do not decay")
F = "FloatSum.lean"
mu("bu3", F, "FlFun.fAlle", "Proc.pure (A.mul 0.5 z :: r)", "Proc.pure (A.mul 0.49 z :: r)", "C149", "weight of the zero frequency slightly wrong")
F = "FloatTransArr.lean"
mu("bu4", F, "transArg", "A.mul (A.mul k L) (A.sqrt e)", "A.mul (A.mul k (A.add L 1e-3)) (A.sqrt e)", "C149 C147", "distance slightly too large")
F = "Cavity.lean"
mu("ct1", F, "geoWave", "let a ← mieTable T P.mat1 P.mat3 P.lmax k P.r1", "let a ← mieTable T P.mat1 P.mat3 P.lmax k (P.r1 * (1 + 1 / P.lmax))", "C151", "radius that depends on the cut-off")
mu("ct2", F, "geoWave", "mieTableInt T P.mat3 P.mat2 P.lssmax k P.r2 else", "mieTableInt T P.mat3 P.mat2 (P.lssmax / 2) k P.r2 else", "C151", "only half of the coefficients of the wall")
mu("ct3", F, "geoWave", ".ok ⟨k * P.L * Real.sqrt e, bes, a, b⟩", ".ok ⟨k * P.L * Real.sqrt e + P.lmax, bes, a, b⟩", "C151", "argument of the mixing coefficients that grows with the cut-off")
mu("ct4", F, "geoVals", "valsOf P.lmax P.lssmax P.precision", "valsOf P.lmax P.lssmax (P.precision + 1 / 10)", "C151", "early termination although the precision is zero")
F = "Thermo.lean"
mu("cb1", F, "thermoSums", "deltaT * ((i + 1 : ℕ) : ℝ) * strideSum f (i + 1)", "deltaT * ((i + 1 : ℕ) : ℝ) * (strideSum f (i + 1) / f.length)", "C152", "mean instead of the sum over the Matsubara terms")
mu("cb2", F, "getFMatsubaras", "p.deltaT * (n : ℝ)", "p.deltaT * (n : ℝ) / p.nmax", "C152", "wavenumbers divided by their number")
F = "Cavity.lean"
mu("cs1", F, "geoVals", "valsOf P.lmax P.lssmax P.precision", "valsOf (P.lmax - 1) P.lssmax P.precision", "C153", "last subspace never reached")
F = "FloatEntropy.lean"
mu("een1", F, "FlFun.npGradient", "(A.mul 2 h))", "h)", "C150", "factor two of the central difference missing")
mu("een2", F, "FlFun.npGradient", "A.div (A.sub (f.getD 1 0) (f.getD 0 0)) h", "A.div (A.sub (f.getD 0 0) (f.getD 1 0)) h", "C150", "sign of the first difference")
mu("een3", F, "FlFun.npGradient", "A.div (A.sub (f.getD i 0) (f.getD (i - 1) 0)) h", "A.div (A.sub (f.getD i 0) (f.getD (i - 1) 0)) (A.mul 2 h)", "C150", "central difference formula at the last temperature")
mu("een4", F, "FlFun.entropy", "(A.npGradient F p.deltaT).map fun l => l.map (- ·)", "(A.npGradient F p.deltaT).map fun l => l", "C150", "minus sign forgotten")
mu("een5", F, "FlFun.npGradient", "A.div (A.sub (f.getD (i + 1) 0)", "A.div (A.add (f.getD (i + 1) 0)", "C150", "sum instead of difference")
