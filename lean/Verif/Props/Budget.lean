import Verif.Props.FloatFree
import Verif.Props.FloatTransArr
import Verif.Props.Truncation

/-! # C149: the computed free energy against larger cut-offs and more Matsubara terms in exact arithmetic -/

namespace CasSph

open Spec

variable {P : PairIn} {frac : ℝ → ℝ → ℝ} {R1 R2 : ℝ} {a b : ℕ}

/-- Bound on the Matsubara terms from the wavenumber `k` on, `T` being the distance of the wavenumbers. -/
noncomputable def matsTail (r1 r2 L T k : ℝ) : ℝ := T * (freeC r1 r2 L * (sharpExp (k * (L - (r1 + r2))) / (1 - Real.exp (-(T * (L - (r1 + r2)))))))

theorem sharpExp_shift {x y : ℝ} (hx : 0 < x) (hy : 0 ≤ y) : sharpExp (x + y) ≤ sharpExp x * Real.exp (-y) := by
  unfold sharpExp
  have e1 : Real.exp (-(2 * x)) < 1 := by rw [Real.exp_lt_one_iff]; linarith
  have e2 : Real.exp (-(2 * (x + y))) ≤ Real.exp (-(2 * x)) := Real.exp_le_exp.mpr (by linarith)
  have s : Real.sqrt (1 - Real.exp (-(2 * x))) ≤ Real.sqrt (1 - Real.exp (-(2 * (x + y)))) := Real.sqrt_le_sqrt (by linarith)
  have s0 : 0 < Real.sqrt (1 - Real.exp (-(2 * x))) := Real.sqrt_pos.mpr (by linarith)
  rw [show -(x + y) = -x + -y by ring, Real.exp_add, div_mul_eq_mul_div]
  exact div_le_div_of_nonneg_left (by positivity) s0 s

theorem sharp_tail {t : ℝ} (ht : 0 < t) (J n : ℕ) : ∑ j ∈ Finset.range n, sharpExp (((J + j : ℕ) + 1) * t) ≤ sharpExp ((J + 1) * t) / (1 - Real.exp (-t)) := by
  have q1 : Real.exp (-t) < 1 := by rw [Real.exp_lt_one_iff]; linarith
  have q0 := Real.exp_pos (-t)
  have term : ∀ j ∈ Finset.range n, sharpExp (((J + j : ℕ) + 1) * t) ≤ sharpExp ((J + 1) * t) * Real.exp (-t) ^ j := fun j _ => by
    have := sharpExp_shift (x := ((J : ℝ) + 1) * t) (y := j * t) (by positivity) (by positivity)
    rw [show ((J + j : ℕ) + 1) * t = ((J : ℝ) + 1) * t + j * t by push_cast; ring, ← Real.exp_nat_mul]
    rwa [← mul_neg] at this
  refine (Finset.sum_le_sum term).trans ?_
  rw [← Finset.mul_sum, div_eq_mul_inv]
  refine mul_le_mul_of_nonneg_left ?_ (sharpExp_nonneg _)
  rw [geom_sum_eq q1.ne, ← one_div, ← neg_div_neg_eq, neg_sub, neg_sub]
  exact div_le_div_of_nonneg_right (by have := pow_pos q0 n; linarith) (by linarith)

theorem pair_tail (h : PairOK P) {t : ℝ} (ht : 0 < t) (i J n : ℕ) :
    |((i + 1 : ℕ) : ℝ) * t * ∑ j ∈ Finset.range n, pairSum P (t * ((J + j + 1) * (i + 1) : ℕ))| ≤ matsTail P.r1 P.r2 P.L ((i + 1) * t) ((i + 1) * t * ((J : ℝ) + 1)) := by
  have hd : 0 < P.L - (P.r1 + P.r2) := sub_pos.mpr h.sep
  have T0 : 0 < ((i : ℝ) + 1) * t := by positivity
  have t0 : 0 < ((i : ℝ) + 1) * t * (P.L - (P.r1 + P.r2)) := by positivity
  have C0 := freeC_pos h.h1 h.h2 h.sep
  have e0 : ((i + 1 : ℕ) : ℝ) * t = ((i : ℝ) + 1) * t := by push_cast; ring
  rw [e0, abs_mul, abs_of_pos T0]
  unfold matsTail
  refine mul_le_mul_of_nonneg_left ?_ T0.le
  have s1 : |∑ j ∈ Finset.range n, pairSum P (t * ((J + j + 1) * (i + 1) : ℕ))| ≤
      ∑ j ∈ Finset.range n, freeC P.r1 P.r2 P.L * sharpExp (((J + j : ℕ) + 1) * (((i : ℝ) + 1) * t * (P.L - (P.r1 + P.r2)))) := by
    refine (Finset.abs_sum_le_sum_abs _ _).trans (Finset.sum_le_sum fun j _ => ?_)
    have q := (part_bound h (k := t * ((J + j + 1) * (i + 1) : ℕ)) (by positivity) (pairSum_part P h.hl _)).1
    have e : t * ((J + j + 1) * (i + 1) : ℕ) * (P.L - (P.r1 + P.r2)) = ((J + j : ℕ) + 1) * (((i : ℝ) + 1) * t * (P.L - (P.r1 + P.r2))) := by push_cast; ring
    rwa [e] at q
  refine s1.trans ?_
  rw [← Finset.mul_sum]
  refine mul_le_mul_of_nonneg_left ?_ C0.le
  have e : ((i : ℝ) + 1) * t * ((J : ℝ) + 1) * (P.L - (P.r1 + P.r2)) = ((J : ℝ) + 1) * (((i : ℝ) + 1) * t * (P.L - (P.r1 + P.r2))) := by ring
  rw [e]
  exact sharp_tail t0 J n

/-- The bound on the omitted wavenumbers becomes as small as one likes. -/
theorem matsTail_tendsto {r1 r2 L : ℝ} (T : ℝ) (h : r1 + r2 < L) : Filter.Tendsto (matsTail r1 r2 L T) Filter.atTop (nhds 0) := by
  have hd : 0 < L - (r1 + r2) := sub_pos.mpr h
  have s : Filter.Tendsto sharpExp Filter.atTop (nhds 0) := by
    have e1 : Filter.Tendsto (fun t : ℝ => Real.exp (-t)) Filter.atTop (nhds 0) := Real.tendsto_exp_neg_atTop_nhds_zero
    have e2 : Filter.Tendsto (fun t : ℝ => Real.exp (-(2 * t))) Filter.atTop (nhds 0) := e1.comp (Filter.tendsto_id.const_mul_atTop two_pos)
    have e3 : Filter.Tendsto (fun t : ℝ => Real.sqrt (1 - Real.exp (-(2 * t)))) Filter.atTop (nhds 1) := by
      have := (e2.const_sub 1).sqrt
      rwa [sub_zero, Real.sqrt_one] at this
    have := e1.div e3 one_ne_zero
    rwa [zero_div] at this
  have := (((s.comp (Filter.tendsto_id.atTop_mul_const hd)).div_const (1 - Real.exp (-(T * (L - (r1 + r2)))))).const_mul (freeC r1 r2 L)).const_mul T
  rw [zero_div, mul_zero, mul_zero] at this
  exact this

/-- **C149, exact arithmetic.** Larger cut-offs and more Matsubara terms change no entry of `free_energy` by more than the bound of C117 plus `matsTail`. -/
theorem C149_exact {p p' : FTParams} (h : PairOK P) (hprec : P.precision ≤ 0) (hR : Fits P R1 R2) (ha : P.lmax ≤ a) (hb : P.lssmax ≤ b) (hab : a ≤ b)
    (hg : p.geo = pairGeo exactBes frac P) (hp : p.nprocs.isZero) (han : p.analyticN0 = true) (hT : 0 < p.deltaT) {N N' : ℕ} (hN : p.nmax = N) (hNN : N ≤ N')
    (hp' : p' = { p with nmax := N', geo := pairGeo exactBes frac (P.cut a b) }) :
    ∃ F F' : List ℝ, (freeEnergy p FT.fresh).1 = .ok F ∧ (freeEnergy p' FT.fresh).1 = .ok F' ∧ F.length = p.maxstep.toNat ∧ F'.length = p.maxstep.toNat ∧
      ∀ (i : ℕ) (x y : ℝ), F[i]? = some x → F'[i]? = some y →
        |y - x| ≤ (P.r1 / R1) ^ (2 * P.lmax + 1) * freeBound R1 P.r2 P.L ((i + 1) * p.deltaT) +
          (P.r2 / R2) ^ (2 * P.lssmax + 1) * freeBound P.r1 R2 P.L ((i + 1) * p.deltaT) +
          matsTail P.r1 P.r2 P.L ((i + 1) * p.deltaT) ((i + 1) * p.deltaT * ((N / (i + 1) : ℕ) + 1)) := by
  subst hp'
  obtain ⟨G, F', g1, g2, gl, fl, gb⟩ := C117_free_energy (frac := frac) (p := { p with nmax := N' }) (p' := { p with nmax := N', geo := pairGeo exactBes frac (P.cut a b) })
    h hprec hR ha hb hab hg rfl hp han hT (Int.natCast_nonneg N')
  obtain ⟨z, hz, -⟩ := C100_mSumme_k0 h frac
  obtain ⟨F, f1, fl', fv⟩ := free_sum h hprec hz hg hp han hT (by omega)
  obtain ⟨G', g1', -, gv⟩ := free_sum (p := { p with nmax := N' }) h hprec hz hg hp han hT (Int.natCast_nonneg N')
  rw [g1] at g1'
  injection g1' with g1'
  subst g1'
  refine ⟨F, F', f1, g2, fl', fl, fun i x y hx hy => ?_⟩
  have hi : i < G.length := by
    rw [gl, ← fl']
    exact (List.getElem?_eq_some_iff.mp hx).1
  obtain ⟨g, hgi⟩ : ∃ g, G[i]? = some g := ⟨_, List.getElem?_eq_getElem hi⟩
  have c1 := gb i g y hgi hy
  have ex := fv i x hx
  have eg := gv i g hgi
  simp only [hN, Int.toNat_natCast] at ex eg
  have hd : 0 < P.L - (P.r1 + P.r2) := sub_pos.mpr h.sep
  have T0 : 0 < ((i : ℝ) + 1) * p.deltaT := by positivity
  have t0 : 0 < ((i : ℝ) + 1) * p.deltaT * (P.L - (P.r1 + P.r2)) := by positivity
  have c2 : |g - x| ≤ matsTail P.r1 P.r2 P.L ((i + 1) * p.deltaT) ((i + 1) * p.deltaT * ((N / (i + 1) : ℕ) + 1)) := by
    obtain ⟨n, hn⟩ := Nat.exists_eq_add_of_le (Nat.div_le_div_right (c := i + 1) hNN)
    rw [hn, Finset.sum_range_add] at eg
    obtain ⟨J, eJ⟩ : ∃ J, J = N / (i + 1) := ⟨_, rfl⟩
    rw [← eJ] at ex eg ⊢
    have e : g - x = (i + 1 : ℕ) * p.deltaT * ∑ j ∈ Finset.range n, pairSum P (p.deltaT * ((J + j + 1) * (i + 1) : ℕ)) := by
      rw [ex, eg]
      ring
    rw [e]
    exact pair_tail h hT i J n
  have := abs_sub_le y g x
  have c1 : |y - g| ≤ (P.r1 / R1) ^ (2 * P.lmax + 1) * freeBound R1 P.r2 P.L ((i + 1) * p.deltaT) +
          (P.r2 / R2) ^ (2 * P.lssmax + 1) * freeBound P.r1 R2 P.L ((i + 1) * p.deltaT) := c1
  linarith

/-- **C149, double precision.** The free energy that the code computes with `N` Matsubara wavenumbers and the cut-offs `lmax`, `lssmax`, against that of exact arithmetic with
larger cut-offs and more wavenumbers: errors of rounding, of the logarithms of determinants, of the cut-offs and of the truncated Matsubara sum. -/
theorem C149_double {A : FlZero} (h : PairOK P) (hprec : P.precision ≤ 0) (hR : Fits P R1 R2) (ha : P.lmax ≤ a) (hb : P.lssmax ≤ b) (hab : a ≤ b)
    (hA : RelErrZ A (2 ^ (-52 : ℤ))) {sum : (p : ℕ) → (Fin p → ℝ) → ℝ} (hS : Sums A.toFlFun sum)
    (hl : P.lssmax ≤ 100) {η : ℝ} (hη0 : 0 ≤ η) (hθ : shrink P.r1 P.r2 P.L ≤ 0.9) (h1 : P.L ≤ 1e40 * P.r1) (h2 : P.L ≤ 1e40 * P.r2) {ld : (n : ℕ) → Blocks n → ℝ}
    {ld0 : (n : ℕ) → Matrix (Fin n) (Fin n) ℝ → Matrix (Fin n) (Fin n) ℝ → ℝ} {frac' : ℝ → ℝ → ℝ} {T : BesTable}
    {V : ℝ → (m : ℕ) → Fin (P.lmax + 1 - transLmin m) → Fin (P.lssmax + 1 - transLmin m) → VCoef}
    {p : FTParams} (hg : p.geo = A.pairGeo sum ld ld0 frac' T P V) (hp : p.nprocs.isZero) (han : p.analyticN0 = true) (hT : 0 < p.deltaT) {N N' : ℕ} (hN : p.nmax = N)
    (hN6 : N ≤ 1000000) (hNN : N ≤ N') (hd : DetErr0 A sum ld0 frac' P η) (hc : ∀ n : ℕ, 1 ≤ n → n ≤ N → CodeFull A sum ld T P V η (A.mul p.deltaT n))
    (hal : ∀ lo hi, IsSlice N lo hi → ∃ n : ℕ, lo ≤ n ∧ n ≤ hi ∧ Alive A.toFlMie sum ld T P V (A.mul p.deltaT n))
    (hY : ∀ n : ℕ, 1 ≤ n → n ≤ N → ∀ e, P.mat3.epsilon (p.deltaT * n) = .ok e → p.deltaT * n * P.L * Real.sqrt e ≤ 1e6) (frac : ℝ → ℝ → ℝ) :
    ∃ F F' Gm : List ℝ, (A.toFlFun.freeEnergy sum p FT.fresh).1 = .ok F ∧
      (freeEnergy { p with nmax := N', geo := pairGeo exactBes frac (P.cut a b) } FT.fresh).1 = .ok F' ∧
      (freeEnergy { p with geo := pairGeo exactBes frac P.metal } FT.fresh).1 = .ok Gm ∧ F.length = p.maxstep.toNat ∧ F'.length = p.maxstep.toNat ∧ Gm.length = p.maxstep.toNat ∧
      ∀ (i : ℕ) (v x y : ℝ), F[i]? = some v → F'[i]? = some x → Gm[i]? = some y → y ≤ 0 ∧
        |v - x| ≤ 4.3e-6 * -y + 1.1 * ((i + 1 : ℕ) * p.deltaT * ((N / (i + 1) : ℕ) + 1 / 2) * ((2 * P.lmax + 1 : ℕ) * η)) +
          ((P.r1 / R1) ^ (2 * P.lmax + 1) * freeBound R1 P.r2 P.L ((i + 1) * p.deltaT) +
            (P.r2 / R2) ^ (2 * P.lssmax + 1) * freeBound P.r1 R2 P.L ((i + 1) * p.deltaT)) +
          matsTail P.r1 P.r2 P.L ((i + 1) * p.deltaT) ((i + 1) * p.deltaT * ((N / (i + 1) : ℕ) + 1)) := by
  obtain ⟨F, G, Gm, r1, r2, r3, r4, r5, r6, r7⟩ := C133_double h hprec hA hS hl hη0 hθ h1 h2 hg hp han hT hN hN6 hd
    (fun n a b => (hc n a b).code h (hA.toRelErr.mul_pos' hT (by exact_mod_cast a)) hA hS hl) hal hY frac
  obtain ⟨G', F', g1, g2, -, g3, g4⟩ := C149_exact (frac := frac) (p := { p with geo := pairGeo exactBes frac P }) h hprec hR ha hb hab rfl hp han hT hN hNN rfl
  rw [r2] at g1
  injection g1 with g1
  subst g1
  refine ⟨F, F', Gm, r1, g2, r3, r4, g3, r6, fun i v x y hv hx hy => ?_⟩
  have hi : i < G.length := by
    rw [r5, ← r4]
    exact (List.getElem?_eq_some_iff.mp hv).1
  obtain ⟨w, hw⟩ : ∃ w, G[i]? = some w := ⟨_, List.getElem?_eq_getElem hi⟩
  obtain ⟨q1, q2⟩ := r7 i v w y hv hw hy
  have q3 : |x - w| ≤ (P.r1 / R1) ^ (2 * P.lmax + 1) * freeBound R1 P.r2 P.L ((i + 1) * p.deltaT) +
            (P.r2 / R2) ^ (2 * P.lssmax + 1) * freeBound P.r1 R2 P.L ((i + 1) * p.deltaT) +
          matsTail P.r1 P.r2 P.L ((i + 1) * p.deltaT) ((i + 1) * p.deltaT * ((N / (i + 1) : ℕ) + 1)) := g4 i w x hw hx
  refine ⟨by linarith [(abs_nonneg w).trans q1], ?_⟩
  have := abs_sub_le v w x
  rw [abs_sub_comm w x] at this
  linarith

/-! ## Examples -/

/-- Gold spheres, 20 multipoles and 40 wavenumbers against any larger numbers. -/
example {a b N' : ℕ} (ha : 20 ≤ a) (hab : a ≤ b) (hN : 40 ≤ N') : ∃ x y : ℝ,
    (freeEnergy ⟨0.01, 40, 1, true, .int 0, pairGeo exactBes frac goldPair⟩ FT.fresh).1 = .ok [x] ∧
    (freeEnergy ⟨0.01, N', 1, true, .int 0, pairGeo exactBes frac (goldPair.cut a b)⟩ FT.fresh).1 = .ok [y] ∧
    |y - x| ≤ (goldPair.r1 / 1.5) ^ 41 * freeBound 1.5 goldPair.r2 goldPair.L 0.01 + (goldPair.r2 / 4.5) ^ 41 * freeBound goldPair.r1 4.5 goldPair.L 0.01 +
      matsTail goldPair.r1 goldPair.r2 goldPair.L 0.01 0.41 := by
  obtain ⟨F, F', f1, f2, l1, l2, f3⟩ := C149_exact (P := goldPair) (frac := frac) (R1 := 1.5) (R2 := 4.5) (a := a) (b := b) (N := 40) (N' := N')
    (p := ⟨0.01, 40, 1, true, .int 0, pairGeo exactBes frac goldPair⟩)
    goldPair_ok le_rfl gold_fits ha (ha.trans hab) hab rfl rfl rfl (by norm_num) rfl hN rfl
  obtain ⟨x, rfl⟩ := List.length_eq_one_iff.mp (show F.length = 1 from l1)
  obtain ⟨y, rfl⟩ := List.length_eq_one_iff.mp (show F'.length = 1 from l2)
  refine ⟨x, y, f1, f2, (f3 0 x y rfl rfl).trans (le_of_eq ?_)⟩
  have e4 : goldPair.lmax = 20 := rfl
  have e5 : goldPair.lssmax = 20 := rfl
  simp only [e4, e5]
  norm_num

theorem dipoles_fit : Fits mirrorDipoles 0.3 0.3 := by
  refine ⟨?_, ?_, ?_, ?_⟩ <;> norm_num [mirrorDipoles]

/-- `mirrorDipoles` in doubles with dipoles and one wavenumber only, against exact arithmetic with any larger cut-offs and any number of wavenumbers. -/
example (frac frac' : ℝ → ℝ → ℝ) {a b N' : ℕ} (ha : 1 ≤ a) (hb : 1 ≤ b) (hab : a ≤ b) (hN : 1 ≤ N') : ∃ v x y : ℝ,
    ((roundZero (roundDown 53)).toFlFun.freeEnergy (foldSum (roundMie (roundDown 53)).toFlFun) ⟨1, 1, 1, true, .int 0,
      (roundZero (roundDown 53)).pairGeo (foldSum (roundMie (roundDown 53)).toFlFun) (fun _ B => Real.log (1 - B.full).det)
      (fun _ TE TM => Real.log (1 - TE).det + Real.log (1 - TM).det) frac'
      (lniknuTable (roundMie (roundDown 53)).toFlFun) mirrorDipoles dipoleTrans⟩ FT.fresh).1 = .ok [v] ∧
    (freeEnergy ⟨1, N', 1, true, .int 0, pairGeo exactBes frac (mirrorDipoles.cut a b)⟩ FT.fresh).1 = .ok [x] ∧
    (freeEnergy ⟨1, 1, 1, true, .int 0, pairGeo exactBes frac mirrorDipoles⟩ FT.fresh).1 = .ok [y] ∧ y ≤ 0 ∧
    |v - x| ≤ 4.3e-6 * -y + ((2 / 3) ^ 3 * freeBound 0.3 0.2 0.6 1 + (2 / 3) ^ 3 * freeBound 0.2 0.3 0.6 1) + matsTail 0.2 0.2 0.6 1 2 := by
  have h := mirrorDipoles_ok
  have hA := roundDown_relErrZ
  have u52 : (2 : ℝ) ^ (-52 : ℤ) = 1 / 4503599627370496 := by norm_num
  have rng : ∀ n : ℕ, 1 ≤ n → n ≤ 1 → 0.9 ≤ (roundMie (roundDown 53)).mul 1 n ∧ (roundMie (roundDown 53)).mul 1 n ≤ 1.1 := by
    intro n n1 n2
    obtain rfl : n = 1 := by omega
    have := abs_le.mp (roundDown_relErrM.mul 1 ((1 : ℕ) : ℝ))
    rw [one_mul, Nat.cast_one, abs_one, u52] at this
    rw [Nat.cast_one]
    constructor <;> linarith
  obtain ⟨F, F', Gm, r1, r2, r3, l1, l2, l3, r4⟩ := C149_double (A := roundZero (roundDown 53)) (P := mirrorDipoles) (η := 0) (frac' := frac') (N' := N')
    (ld0 := fun _ TE TM => Real.log (1 - TE).det + Real.log (1 - TM).det) h le_rfl dipoles_fit ha hb hab hA (foldSum_sums _) (by norm_num [mirrorDipoles]) le_rfl
    (by norm_num [mirrorDipoles, shrink]) (by norm_num [mirrorDipoles]) (by norm_num [mirrorDipoles])
    (p := ⟨1, 1, 1, true, .int 0, (roundZero (roundDown 53)).pairGeo (foldSum (roundMie (roundDown 53)).toFlFun) (fun _ B => Real.log (1 - B.full).det)
      (fun _ TE TM => Real.log (1 - TE).det + Real.log (1 - TM).det) frac'
      (lniknuTable (roundMie (roundDown 53)).toFlFun) mirrorDipoles dipoleTrans⟩) rfl rfl rfl one_pos (N := 1) rfl (by norm_num) hN
    (fun _ _ _ _ _ _ TE TM _ _ _ => by rw [sub_self, abs_zero])
    (fun n n1 n2 => dipole_code (rng n n1 n2).1 (rng n n1 n2).2)
    (fun lo hi hsl => ⟨lo, le_rfl, hsl.2.1, by
      obtain ⟨s1, s2, q, -, s3⟩ := hsl
      exact dipole_alive (rng lo s1 (by omega)).1 (rng lo s1 (by omega)).2⟩)
    (fun n n1 n2 e he => by
      obtain rfl : n = 1 := by omega
      have e1 : e = 1 := by
        have : mirrorDipoles.mat3.epsilon (1 * ((1 : ℕ) : ℝ)) = .ok 1 := rfl
        exact (Except.ok.inj (this.symm.trans he)).symm
      have L : mirrorDipoles.L = 0.6 := rfl
      rw [e1, L, Real.sqrt_one]
      norm_num) frac
  obtain ⟨v, rfl⟩ := List.length_eq_one_iff.mp (show F.length = 1 from l1)
  obtain ⟨x, rfl⟩ := List.length_eq_one_iff.mp (show F'.length = 1 from l2)
  obtain ⟨y, rfl⟩ := List.length_eq_one_iff.mp (show Gm.length = 1 from l3)
  obtain ⟨q1, q2⟩ := r4 0 v x y rfl rfl rfl
  refine ⟨v, x, y, r1, r2, r3, q1, q2.trans (le_of_eq ?_)⟩
  have e1 : mirrorDipoles.r1 = 0.2 := rfl
  have e2 : mirrorDipoles.r2 = 0.2 := rfl
  have e3 : mirrorDipoles.L = 0.6 := rfl
  have e4 : mirrorDipoles.lmax = 1 := rfl
  have e5 : mirrorDipoles.lssmax = 1 := rfl
  rw [e1, e2, e3, e4, e5]
  norm_num

end CasSph
