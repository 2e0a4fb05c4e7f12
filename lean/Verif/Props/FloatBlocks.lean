import Verif.Lemmas.FloatPair

/-! # C127: the round-trip matrix in rounded arithmetic -/

namespace CasSph

open Spec

/-! ## Scaling and assembly -/

/-- **C127, assembly.** Two homogeneous spheres, any `m`, any order of the summations: if Mie and translation coefficients have relative errors
of at most `δ` and `ε`, `blockmatrices` in rounded arithmetic returns a matrix with `det(1 - M) > 0`, and `ln det(1 - M)` has at most the relative error
`2 gain κ θ` compared to what `single_m` returns in exact arithmetic; half of this for equal contrast. -/
theorem C127_assembly {P : PairIn} (h : PairOK P) {k : ℝ} (hk : 0 < k) {F : FlFun} {u : ℝ} (hF : RelErr F u) {sum : (p : ℕ) → (Fin p → ℝ) → ℝ}
    (hS : Sums F sum) {δ ε Z : ℝ} (hδ : 0 ≤ δ) (hε : 0 ≤ ε) {w : WaveIn} (hw : waveIn exactBes P k = .ok w) {m : ℕ} (hm : m ≤ P.lmax)
    {e e' : RTElems (P.lmax + 1 - transLmin m) (P.lssmax + 1 - transLmin m)}
    (h1 : roundTripElements P.lmax P.lssmax m true w.nL w.bes w.a w.b = .ok e) (he : ElemErr δ ε e' e e) (hZ : LogSize Z e')
    (hs : (1 + asmErr u Z δ ε (P.lssmax + 1 - transLmin m)) * shrink P.r1 P.r2 P.L < 1) :
    ∃ (B' : Blocks (P.lmax + 1 - transLmin m)) (x : ℝ), F.blockmatrices sum e' = .ok B' ∧
      (∃ N, ∀ fuel, N < fuel → singleM fuel 0.9 P.lmax P.lssmax m [w] = some (.ok [(x : EReal)])) ∧ 0 < (1 - B'.full).det ∧
      |Real.log (1 - B'.full).det - x| ≤ 2 * gain (asmErr u Z δ ε (P.lssmax + 1 - transLmin m)) (shrink P.r1 P.r2 P.L) * |x| ∧
      ((∃ σ, DenseSign P.mat1 P.mat3 k σ ∧ DenseSign P.mat2 P.mat3 k σ) →
        |Real.log (1 - B'.full).det - x| ≤ gain (asmErr u Z δ ε (P.lssmax + 1 - transLmin m)) (shrink P.r1 P.r2 P.L) * |x|) := by
  obtain ⟨B', q1, q2, q3, q4⟩ := h.assembly hk hF hS hδ hε hw hm h1 he hZ hs
  obtain ⟨w1, hw1, hv⟩ := pair_singleM h hk
  rw [hw] at hw1
  injection hw1 with hw1
  subst hw1
  exact ⟨B', lnDetV P m k, q1, hv m hm, q2, q3, q4⟩

/-- **C127, assembly for stratified spheres.** Two homogeneous or stratified spheres: if the errors of the Mie coefficients are at most `δ` times the
coefficients of perfect conductors of the outer radii, the error of `ln det(1 - M)` is at most `gain κ θ` times the value `y` of the perfect
conductors. -/
theorem C127_stratified {P : BallPair} {R1 R2 : ℝ} (h : BallPairOK P R1 R2) {k : ℝ} (hk : 0 < k) {F : FlFun} {u : ℝ} (hF : RelErr F u)
    {sum : (p : ℕ) → (Fin p → ℝ) → ℝ} (hS : Sums F sum) {δ ε Z : ℝ} (hδ : 0 ≤ δ) (hε : 0 ≤ ε) {w w0 : WaveIn} (hw : ballWave exactBes P k = .ok w)
    (hw0 : waveIn exactBes (P.metal R1 R2) k = .ok w0) {m : ℕ} (hm : m ≤ P.lmax) {e e0 e' : RTElems (P.lmax + 1 - transLmin m) (P.lssmax + 1 - transLmin m)}
    (h1 : roundTripElements P.lmax P.lssmax m true w.nL w.bes w.a w.b = .ok e) (h2 : roundTripElements P.lmax P.lssmax m true w0.nL w0.bes w0.a w0.b = .ok e0)
    (he : ElemErr δ ε e' e e0) (hZ : LogSize Z e') (hs : (1 + asmErr u Z δ ε (P.lssmax + 1 - transLmin m)) * shrink R1 R2 P.L < 1) :
    ∃ (B' : Blocks (P.lmax + 1 - transLmin m)) (x y : ℝ), F.blockmatrices sum e' = .ok B' ∧
      (∃ N, ∀ fuel, N < fuel → singleM fuel 0.9 P.lmax P.lssmax m [w] = some (.ok [(x : EReal)]) ∧
        singleM fuel 0.9 P.lmax P.lssmax m [w0] = some (.ok [(y : EReal)])) ∧ 0 < (1 - B'.full).det ∧
      |Real.log (1 - B'.full).det - x| ≤ gain (asmErr u Z δ ε (P.lssmax + 1 - transLmin m)) (shrink R1 R2 P.L) * |y| := by
  obtain ⟨B', q1, q2, q3⟩ := h.assembly hk hF hS hδ hε hw hw0 hm h1 h2 he hZ hs
  obtain ⟨⟨w1, hw1, hv⟩, -, -, -⟩ := h.facts hk
  rw [hw] at hw1
  injection hw1 with hw1
  subst hw1
  obtain ⟨B, hB, hpB, eB⟩ := hv m hm
  obtain ⟨w2, hw2, hv2⟩ := pair_singleM h.metal hk
  rw [hw0] at hw2
  injection hw2 with hw2
  subst hw2
  obtain ⟨N2, q4⟩ := hv2 m hm
  obtain ⟨N1, q5⟩ := singleM_value (d := 1) (by omega) (w := fun _ => w) (B := fun _ => B) (fun _ => hB) (fun _ => hpB) (conv := 0.9) (by norm_num)
  refine ⟨B', lnBall P m k, lnDetV (P.metal R1 R2) m k, q1, ⟨max N1 N2, fun fuel hf => ⟨?_, q4 fuel (by omega)⟩⟩, q2, ?_⟩
  · rw [eB]; simpa using q5 fuel (by omega)
  · rw [abs_of_nonpos (h.metal_nonpos hk m hm)]; exact q3

/-! ## Computed Mie coefficients -/

theorem PairOK.metal_le {P : PairIn} (h : PairOK P) {k : ℝ} (hk : 0 < k) {m : ℕ} (hm : m ≤ P.lmax) : lnDetV P.metal m k ≤ 0 := by
  obtain ⟨σ, e⟩ := dense_total pec_sphere h.m3 hk
  exact ((lnDetV_val h.metal (m := m) (by have := h.hl; show max 1 m ≤ P.lmax; omega) hk).2 σ σ e e).1 rfl

/-- **C127, rounded Mie coefficients.** Two homogeneous spheres: Mie coefficients computed in rounded arithmetic from Bessel functions with errors
`δ`, translation coefficients with relative errors `ε`, scaling and assembly in rounded arithmetic.  Then `det(1 - M) > 0`, and the error of
`ln det(1 - M)` is at most `gain κ θ` times the value `y` of perfectly conducting spheres. -/
theorem C127_rounded {P : PairIn} (h : PairOK P) {k : ℝ} (hk : 0 < k) {A : FlMie} {u : ℝ} (hA : RelErrM A u) {sum : (p : ℕ) → (Fin p → ℝ) → ℝ}
    (hS : Sums A.toFlFun sum) {T : BesTable} {δ Λ X ε Z : ℝ} (hη : 5 * δ + 3 * u * Λ + 15 * u ≤ 1 / 100) (hε : 0 ≤ ε)
    (h1 : BesselErr A T P.mat1 P.mat3 P.lmax k P.r1 δ Λ X) (h2 : BesselErr A T P.mat2 P.mat3 P.lssmax k P.r2 δ Λ X)
    {w w0 : WaveIn} (hw : waveIn exactBes P k = .ok w) (hw0 : waveIn exactBes P.metal k = .ok w0) {m : ℕ} (hm : m ≤ P.lmax)
    {V V' : Fin (P.lmax + 1 - transLmin m) → Fin (P.lssmax + 1 - transLmin m) → VCoef}
    (hV : transAb P.lmax P.lssmax m true w.nL w.bes = .ok V) (hVe : TransErr ε V' V)
    (z1 : ∀ c, A.mieTable T P.mat1 P.mat3 P.lmax k P.r1 = .ok c → ∀ l, 1 ≤ l → l ≤ P.lmax → |c.ln l| ≤ Z)
    (z2 : ∀ c, A.mieTable T P.mat2 P.mat3 P.lssmax k P.r2 = .ok c → ∀ l, 1 ≤ l → l ≤ P.lssmax → |c.ln l| ≤ Z) (z3 : ∀ i s, |(V' i s).sk| ≤ Z)
    (hs : (1 + asmErr u Z (mieErr u δ Λ X Z P.lssmax) ε (P.lssmax + 1 - transLmin m)) * shrink P.r1 P.r2 P.L < 1) :
    ∃ (B' : Blocks (P.lmax + 1 - transLmin m)) (x y : ℝ), A.blocksAt sum T P k m V' = .ok B' ∧
      (∃ N, ∀ fuel, N < fuel → singleM fuel 0.9 P.lmax P.lssmax m [w] = some (.ok [(x : EReal)]) ∧
        singleM fuel 0.9 P.lmax P.lssmax m [w0] = some (.ok [(y : EReal)])) ∧ 0 < (1 - B'.full).det ∧
      |Real.log (1 - B'.full).det - x| ≤
        gain (asmErr u Z (mieErr u δ Λ X Z P.lssmax) ε (P.lssmax + 1 - transLmin m)) (shrink P.r1 P.r2 P.L) * |y| := by
  obtain ⟨c1, hc1⟩ := flTable_ok hA h.m1 h.m3 hk h.h1 h1 hη
  obtain ⟨c2, hc2⟩ := flTable_ok hA h.m2 h.m3 hk h.h2 h2 hη
  obtain ⟨B', q1, q2, q3⟩ := h.rounded hk hA hS hη hε h1 h2 hw hm hV hVe hc1 hc2 (z1 c1 hc1) (z2 c2 hc2) z3 hs
  obtain ⟨w1, hw1, hv⟩ := pair_singleM h hk
  rw [hw] at hw1
  injection hw1 with hw1
  subst hw1
  obtain ⟨w2, hw2, hv2⟩ := pair_singleM h.metal hk
  rw [hw0] at hw2
  injection hw2 with hw2
  subst hw2
  obtain ⟨N1, q4⟩ := hv m hm
  obtain ⟨N2, q5⟩ := hv2 m hm
  refine ⟨B', lnDetV P m k, lnDetV P.metal m k, q1, ⟨max N1 N2, fun fuel hf => ⟨q4 fuel (by omega), q5 fuel (by omega)⟩⟩, q2, ?_⟩
  rw [abs_of_nonpos (h.metal_le hk hm)]
  exact q3

/-- **C127 in double precision**, with the logarithms of the Bessel functions that `lniknu` returns: for arguments between 0.1 and 10, `l` up to 100,
`shrink ≤ 0.9` and relative errors of the translation coefficients of at most 1e-7, the error of `ln det(1 - M)` is at most 4e-6 times the value of
perfectly conducting spheres. -/
theorem C127_double {P : PairIn} (h : PairOK P) {k : ℝ} (hk : 0 < k) {A : FlMie} (hA : RelErrM A (2 ^ (-52 : ℤ))) {sum : (p : ℕ) → (Fin p → ℝ) → ℝ}
    (hS : Sums A.toFlFun sum) {T : BesTable} (hl : P.lssmax ≤ 100) (h1 : FromCode A T P.mat1 P.mat3 P.lmax k P.r1)
    (h2 : FromCode A T P.mat2 P.mat3 P.lssmax k P.r2) (hθ : shrink P.r1 P.r2 P.L ≤ 0.9)
    {w w0 : WaveIn} (hw : waveIn exactBes P k = .ok w) (hw0 : waveIn exactBes P.metal k = .ok w0) {m : ℕ} (hm : m ≤ P.lmax)
    {V V' : Fin (P.lmax + 1 - transLmin m) → Fin (P.lssmax + 1 - transLmin m) → VCoef}
    (hV : transAb P.lmax P.lssmax m true w.nL w.bes = .ok V) {ε : ℝ} (hε0 : 0 ≤ ε) (hε : ε ≤ 1e-7) (hVe : TransErr ε V' V) (z3 : ∀ i s, |(V' i s).sk| ≤ 1e4) :
    ∃ (B' : Blocks (P.lmax + 1 - transLmin m)) (x y : ℝ), A.blocksAt sum T P k m V' = .ok B' ∧
      (∃ N, ∀ fuel, N < fuel → singleM fuel 0.9 P.lmax P.lssmax m [w] = some (.ok [(x : EReal)]) ∧
        singleM fuel 0.9 P.lmax P.lssmax m [w0] = some (.ok [(y : EReal)])) ∧ 0 < (1 - B'.full).det ∧
      |Real.log (1 - B'.full).det - x| ≤ 4e-6 * |y| := by
  have u52 : (2 : ℝ) ^ (-52 : ℤ) = 1 / 4503599627370496 := by norm_num
  have l1 := h.hl
  have l2 := h.hls
  have b1 := h1.besselErr hA h.m1 h.m3 hk h.h1 l1 (by omega)
  have b2 := h2.besselErr hA h.m2 h.m3 hk h.h2 (by omega) hl
  have d0 := mieErr_nonneg hA.u0 (δ := 1e-9) (Λ := 9) (X := 11) (Z := 1e4) (by norm_num) (by norm_num) (by norm_num) (by norm_num) P.lssmax
  have d1 := mieErr_double hl
  have k0 := asmErr_nonneg hA.u0 (Z := 1e4) (by norm_num) d0 hε0 (P.lssmax + 1 - transLmin (m : ℤ))
  have k1 := asmErr_double d0 d1 hε0 hε (p := P.lssmax + 1 - transLmin (m : ℤ)) (by
    have : 1 ≤ transLmin (m : ℤ) := by unfold transLmin; omega
    omega)
  have s0 := (shrink_mem h.h1 h.h2 h.sep).1.le
  obtain ⟨g1, g2⟩ := gain_double k0 k1 s0 hθ
  obtain ⟨B', x, y, q1, q2, q3, q4⟩ := C127_rounded h hk hA hS (by rw [u52]; norm_num) hε0 b1 b2 hw hw0 hm hV hVe
    (fun c hc l hl1 hl2 => (h1.ln_le hA h.m1 h.m3 hk h.h1 l1 (by omega) hc hl1 hl2).trans (by norm_num))
    (fun c hc l hl1 hl2 => (h2.ln_le hA h.m2 h.m3 hk h.h2 (by omega) hl hc hl1 hl2).trans (by norm_num)) z3 g1
  exact ⟨B', x, y, q1, q2, q3, q4.trans (mul_le_mul_of_nonneg_right g2 (abs_nonneg _))⟩

/-! ## Examples -/

/-- Summation from left to right. -/
noncomputable def foldSum (A : FlFun) (p : ℕ) (f : Fin p → ℝ) : ℝ :=
  match List.ofFn f with
  | [] => 0
  | x :: xs => xs.foldl A.add x

theorem foldSum_sums (A : FlFun) : Sums A (foldSum A) := by
  have key : ∀ (xs l : List ℝ) (s : ℝ), l ≠ [] → SumOf A l s → SumOf A (l ++ xs) (xs.foldl A.add s) := by
    intro xs
    induction xs with
    | nil => intro l s _ h; simpa using h
    | cons x xs ih =>
      intro l s hl h
      have := ih (l ++ [x]) (A.add s x) (by simp) (.add h (.one x) hl (by simp))
      simpa using this
  intro p f
  unfold foldSum
  cases e : List.ofFn f with
  | nil => exact .nil
  | cons x xs => exact key xs [x] x (by simp) (.one x)

/-- The factors with the scaling factors multiplied, the translation coefficients too large by the factor `1 + 1e-8`. -/
noncomputable def offV {n p : ℕ} (V : Fin n → Fin p → VCoef) (i : Fin n) (s : Fin p) : VCoef :=
  ⟨(1 + 1e-8) * ((V i s).EEab * Real.exp (V i s).sk), (1 + 1e-8) * ((V i s).EEba * Real.exp (V i s).sk),
    (1 + 1e-8) * ((V i s).EMab * Real.exp (V i s).sk), (1 + 1e-8) * ((V i s).EMba * Real.exp (V i s).sk), 0⟩

theorem offV_err {n p : ℕ} (V : Fin n → Fin p → VCoef) : TransErr 1e-8 (offV V) V := by
  have key : ∀ x : ℝ, |(1 + 1e-8) * x * Real.exp 0 - x| ≤ 1e-8 * |x| := by
    intro x
    rw [Real.exp_zero, show (1 + 1e-8) * x * 1 - x = 1e-8 * x by ring, abs_mul, abs_of_pos (by norm_num)]
  exact fun i s => ⟨key _, key _, key _, key _⟩

theorem PairOK.trans {P : PairIn} (h : PairOK P) {k : ℝ} (hk : 0 < k) {w : WaveIn} (hw : waveIn exactBes P k = .ok w) (m : ℕ) :
    ∃ V, transAb P.lmax P.lssmax m true w.nL w.bes = .ok V := by
  obtain ⟨a, b, S⟩ := h.pair hk
  obtain ⟨w1, hw1, -, e2, -⟩ := waveIn_ok' S
  rw [hw] at hw1
  injection hw1 with hw1
  subst hw1
  rw [trans_row_ext] at e2
  injection e2 with e2
  injection e2 with e2
  exact ⟨_, transAb_ok _ _ _ true w.nL (by rw [← e2, List.length_map, List.length_range]; omega)⟩

theorem roundDown_relErrM : RelErrM (roundMie (Spec.roundDown 53)) (2 ^ (-52 : ℤ)) :=
  roundMie_relErr (by positivity) (by norm_num) roundDown_double.err

theorem near_box {x y u a b : ℝ} (hu : 4 * u ≤ 1 / 100) (h : Near (4 * u) x y) (h1 : a ≤ y) (h2 : y ≤ b) : 0.9 * a ≤ x ∧ x ≤ 1.1 * b := by
  have e := h.abs_sub (hu.trans (by norm_num))
  have y0 := h.b0
  obtain ⟨e1, e2⟩ := _root_.abs_le.mp e
  constructor <;> nlinarith

theorem gold_medium_one : ∃ a, (Material.mk .lorentz eGold none).medium 1 = .ok ⟨a, 1⟩ ∧ 1600 ≤ a ∧ a ≤ 1936 := by
  refine ⟨1 + (1.37e16 / omegaNorm) ^ 2 / ((0 / omegaNorm) ^ 2 + 1 ^ 2 + 5.77e13 / omegaNorm * 1), ?_, ?_, ?_⟩
  · have : ¬ ((0 / omegaNorm) ^ 2 + 1 ^ 2 + 5.77e13 / omegaNorm * 1 : ℝ) = 0 := by unfold omegaNorm; norm_num
    simp only [Material.medium, Material.epsilon, Material.mu, eGold, List.foldlM, Material.lorentzTerm, cdiv, if_neg this]
    rfl
  · unfold omegaNorm; norm_num
  · unfold omegaNorm; norm_num

/-- Doubles rounded towards minus infinity, sums from left to right, `lniknu` for the Bessel functions: a perfectly conducting sphere and a gold sphere of
radius 0.2 in vacuum at the distance 0.6 and `k = 1`, for every `m`. -/
example (m : ℕ) (hm : m ≤ 20) : ∃ (w w0 : WaveIn) (V : Fin (20 + 1 - transLmin m) → Fin (25 + 1 - transLmin m) → VCoef) (B' : Blocks (20 + 1 - transLmin m)) (x y : ℝ),
    waveIn exactBes ⟨⟨.pec, [], none⟩, ⟨.lorentz, eGold, none⟩, ⟨.lorentz, [], none⟩, 0.2, 0.2, 0.6, 20, 25, 0⟩ 1 = .ok w ∧
    waveIn exactBes ⟨⟨.pec, [], none⟩, ⟨.pec, [], none⟩, ⟨.lorentz, [], none⟩, 0.2, 0.2, 0.6, 20, 25, 0⟩ 1 = .ok w0 ∧
    transAb 20 25 m true w.nL w.bes = .ok V ∧
    (roundMie (Spec.roundDown 53)).blocksAt (foldSum (roundMie (Spec.roundDown 53)).toFlFun) (lniknuTable (roundMie (Spec.roundDown 53)).toFlFun)
      ⟨⟨.pec, [], none⟩, ⟨.lorentz, eGold, none⟩, ⟨.lorentz, [], none⟩, 0.2, 0.2, 0.6, 20, 25, 0⟩ 1 m (offV V) = .ok B' ∧
    (∃ N, ∀ fuel, N < fuel → singleM fuel 0.9 20 25 m [w] = some (.ok [(x : EReal)]) ∧ singleM fuel 0.9 20 25 m [w0] = some (.ok [(y : EReal)])) ∧
    |Real.log (1 - B'.full).det - x| ≤ 4e-6 * |y| := by
  have h : PairOK ⟨⟨.pec, [], none⟩, ⟨.lorentz, eGold, none⟩, ⟨.lorentz, [], none⟩, 0.2, 0.2, 0.6, 20, 25, 0⟩ :=
    ⟨pec_sphere, gold_sphere, vacuumM_ok, by norm_num, by norm_num, by norm_num, by norm_num, by norm_num⟩
  have hA := roundDown_relErrM
  have hu : 4 * (2 : ℝ) ^ (-52 : ℤ) ≤ 1 / 100 := by norm_num
  have n1 : Medium.n ⟨1, 1⟩ = 1 := by unfold Medium.n; simp
  have vm : (Material.mk .lorentz [] none).medium 1 = .ok ⟨1, 1⟩ := rfl
  have p1 : Medium.Pos ⟨1, 1⟩ := by constructor <;> norm_num
  obtain ⟨a, ha, a1, a2⟩ := gold_medium_one
  have pa : Medium.Pos ⟨a, 1⟩ := ⟨by simp only; linarith, by norm_num⟩
  have na1 : 40 ≤ Medium.n ⟨a, 1⟩ := by
    unfold Medium.n
    refine Real.le_sqrt_of_sq_le ?_
    simp only; linarith
  have na2 : Medium.n ⟨a, 1⟩ ≤ 44 := by
    unfold Medium.n
    rw [Real.sqrt_le_left (by norm_num)]
    simp only; linarith
  have h1 : FromCode (roundMie (Spec.roundDown 53)) (lniknuTable (roundMie (Spec.roundDown 53)).toFlFun) ⟨.pec, [], none⟩ ⟨.lorentz, [], none⟩ 20 1 0.2 := by
    refine ⟨fun _ b hb l hl1 hl2 => ?_, fun hc => absurd rfl hc⟩
    rw [vm] at hb
    injection hb with hb
    subst hb
    obtain ⟨q1, q2⟩ := near_box hu (hA.argPEC_near one_pos (r := 0.2) (by norm_num) p1) (a := 0.2) (b := 0.2) (by rw [n1]; norm_num) (by rw [n1]; norm_num)
    exact lniknuTable_from _ (by omega) (le_trans (by norm_num) q1) (q2.trans (by norm_num))
  have h2 : FromCode (roundMie (Spec.roundDown 53)) (lniknuTable (roundMie (Spec.roundDown 53)).toFlFun) ⟨.lorentz, eGold, none⟩ ⟨.lorentz, [], none⟩ 25 1 0.2 := by
    refine ⟨fun hc => absurd hc (by simp), fun _ c b hc hb l hl1 hl2 => ?_⟩
    rw [vm] at hb
    injection hb with hb
    subst hb
    rw [ha] at hc
    injection hc with hc
    subst hc
    obtain ⟨q1, q2⟩ := near_box hu (hA.arg_near one_pos (r := 0.2) (by norm_num) pa) (a := 8) (b := 8.8) (by linarith) (by linarith)
    obtain ⟨q3, q4⟩ := near_box hu (hA.arg_near one_pos (r := 0.2) (by norm_num) p1) (a := 0.2) (b := 0.2) (by rw [n1]; norm_num) (by rw [n1]; norm_num)
    exact ⟨lniknuTable_from _ (by omega) (le_trans (by norm_num) q1) (q2.trans (by norm_num)), lniknuTable_from _ (by omega) (le_trans (by norm_num) q3) (q4.trans (by norm_num))⟩
  obtain ⟨w, hw, -⟩ := pair_singleM h one_pos
  obtain ⟨w0, hw0, -⟩ := pair_singleM h.metal one_pos
  obtain ⟨V, hV⟩ := h.trans one_pos hw m
  obtain ⟨B', x, y, q1, q2, -, q3⟩ := C127_double h one_pos hA (foldSum_sums _) (by norm_num) h1 h2 (by unfold shrink; norm_num) hw hw0 hm hV (by norm_num) (by norm_num)
    (offV_err V) fun i s => by show |(0 : ℝ)| ≤ 1e4; norm_num
  exact ⟨w, w0, V, B', x, y, hw, hw0, hV, q1, q2, q3⟩

/-- The factors with the scaling factors multiplied. -/
noncomputable def foldLogs {n p : ℕ} (e : RTElems n p) : RTElems n p where
  aTE := fun i => e.aTE i * Real.exp (e.a2 i)
  aTM := fun i => e.aTM i * Real.exp (e.a2 i)
  a2 := fun _ => 0
  bTE := fun j => e.bTE j * Real.exp (e.b2 j)
  bTM := fun j => e.bTM j * Real.exp (e.b2 j)
  b2 := fun _ => 0
  V0 := fun i j => e.V0 i j * Real.exp (e.V4 i j)
  V1 := fun i j => e.V1 i j * Real.exp (e.V4 i j)
  V2 := fun i j => e.V2 i j * Real.exp (e.V4 i j)
  V3 := fun i j => e.V3 i j * Real.exp (e.V4 i j)
  V4 := fun _ _ => 0

theorem foldLogs_err {n p : ℕ} (e e0 : RTElems n p) : ElemErr 0 0 (foldLogs e) e e0 ∧ LogSize 0 (foldLogs e) := by
  refine ⟨⟨?_, ?_, ?_, ?_, ?_, ?_, ?_, ?_⟩, ⟨?_, ?_, ?_⟩⟩ <;> intros <;> simp [foldLogs]

/-- The coated ball and the perfectly conducting one of C119, doubles rounded towards minus infinity, exact Mie and translation coefficients: the errors
of scaling and assembly. -/
example {k : ℝ} (hk : 0 < k) {m : ℕ} (hm : m ≤ 20) : ∃ (w : WaveIn) (e : RTElems (20 + 1 - transLmin m) (25 + 1 - transLmin m)) (B' : Blocks (20 + 1 - transLmin m)) (x y : ℝ),
    ballWave exactBes wetPair k = .ok w ∧ roundTripElements 20 25 m true w.nL w.bes w.a w.b = .ok e ∧
    (roundFun (Spec.roundDown 53)).blockmatrices (foldSum (roundFun (Spec.roundDown 53))) (foldLogs e) = .ok B' ∧
    (∃ N, ∀ fuel, N < fuel → singleM fuel 0.9 20 25 m [w] = some (.ok [(x : EReal)])) ∧ |Real.log (1 - B'.full).det - x| ≤ 1e-13 * |y| := by
  have h := wetPair_ok
  obtain ⟨⟨w, hw, hv⟩, -⟩ := h.facts hk
  obtain ⟨w0, hw0, -⟩ := pair_singleM h.metal hk
  obtain ⟨B, hB, -⟩ := hv m hm
  obtain ⟨e, he⟩ : ∃ e, roundTripElements 20 25 m true w.nL w.bes w.a w.b = .ok e := by
    cases q : roundTripElements 20 25 m true w.nL w.bes w.a w.b with
    | ok e => exact ⟨e, rfl⟩
    | error x =>
      have q' : roundTripElements wetPair.lmax wetPair.lssmax m true w.nL w.bes w.a w.b = .error x := q
      unfold blockmatricesAt at hB
      rw [q'] at hB
      cases hB
  obtain ⟨V, hV⟩ := h.metal.trans hk hw0 m
  have he0 := elems_exact hV w0.a w0.b
  have es : shrink (3 / 2) 4 wetPair.L = 96 / 119 := by unfold shrink wetPair; norm_num
  have p0 : wetPair.lssmax + 1 - transLmin (m : ℤ) ≤ 25 := by
    have : 1 ≤ transLmin (m : ℤ) := by unfold transLmin; omega
    have : wetPair.lssmax = 25 := rfl
    omega
  have k0 := asmErr_nonneg (u := 2 ^ (-52 : ℤ)) (by norm_num) (Z := 0) le_rfl (δ := 0) le_rfl (ε := 0) le_rfl (wetPair.lssmax + 1 - transLmin (m : ℤ))
  have k1 : asmErr (2 ^ (-52 : ℤ)) 0 0 0 (wetPair.lssmax + 1 - transLmin (m : ℤ)) ≤ 1e-14 := by
    unfold asmErr
    have := pow_le_pow_right₀ (show (1 : ℝ) ≤ 1 + 2 ^ (-52 : ℤ) by norm_num) (Nat.add_le_add_right p0 7)
    have b : ((1 : ℝ) + 2 ^ (-52 : ℤ)) ^ (25 + 7) ≤ 1 + 1e-14 := by norm_num
    simp only [add_zero, one_pow, mul_zero, Real.exp_zero, mul_one, one_mul]
    exact sub_le_iff_le_add'.mpr (this.trans b)
  have hs : (1 + asmErr (2 ^ (-52 : ℤ)) 0 0 0 (wetPair.lssmax + 1 - transLmin (m : ℤ))) * (96 / 119) ≤ 0.81 := by norm_num at *; linarith
  obtain ⟨B', x, y, q1, ⟨N, q2⟩, -, q3⟩ := C127_stratified h hk (roundFun_relErr (by positivity) (by norm_num) roundDown_double.err) (foldSum_sums _) le_rfl le_rfl hw hw0 hm he he0
    (foldLogs_err _ _).1 (foldLogs_err _ e).2 (by rw [es]; exact hs.trans_lt (by norm_num))
  refine ⟨w, e, B', x, y, hw, he, q1, ⟨N, fun fuel hf => (q2 fuel hf).1⟩, q3.trans (mul_le_mul_of_nonneg_right ?_ (abs_nonneg _))⟩
  rw [es]
  unfold gain
  rw [div_le_iff₀ (by norm_num at *; linarith)]
  norm_num at *
  linarith

end CasSph
