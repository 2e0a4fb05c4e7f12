import Verif.Props.FloatSum

/-! # C130: free energies of two spheres in rounded arithmetic -/

namespace CasSph

open Spec

/-- What is known of the numbers computed at the wavenumber `k`: errors of the Bessel functions (`δ`, `Λ`, `X`), of the translation coefficients (`ε`), moduli of
the logarithms of scaling factors (`Z`), errors of the logarithms of the determinants of the matrices computed (`η`). -/
structure ComputedAt (A : FlMie) (sum : (p : ℕ) → (Fin p → ℝ) → ℝ) (ld : (n : ℕ) → Blocks n → ℝ) (T : BesTable) (P : PairIn)
    (V : ℝ → (m : ℕ) → Fin (P.lmax + 1 - transLmin m) → Fin (P.lssmax + 1 - transLmin m) → VCoef) (δ Λ X ε Z η k : ℝ) : Prop where
  bes1 : BesselErr A T P.mat1 P.mat3 P.lmax k P.r1 δ Λ X
  bes2 : BesselErr A T P.mat2 P.mat3 P.lssmax k P.r2 δ Λ X
  trans : ∀ w, waveIn exactBes P k = .ok w → ∀ m ≤ P.lmax, ∀ V0, transAb P.lmax P.lssmax m true w.nL w.bes = .ok V0 → TransErr ε (V k m) V0
  size1 : ∀ c, A.mieTable T P.mat1 P.mat3 P.lmax k P.r1 = .ok c → ∀ l, 1 ≤ l → l ≤ P.lmax → |c.ln l| ≤ Z
  size2 : ∀ c, A.mieTable T P.mat2 P.mat3 P.lssmax k P.r2 = .ok c → ∀ l, 1 ≤ l → l ≤ P.lssmax → |c.ln l| ≤ Z
  size3 : ∀ m ≤ P.lmax, ∀ i s, |(V k m i s).sk| ≤ Z
  det : ∀ m ≤ P.lmax, ∀ B, A.blocksAt sum T P k m (V k m) = .ok B → 0 < (1 - B.full).det → |ld _ B - Real.log (1 - B.full).det| ≤ η

theorem asmErr_mono {u Z δ ε : ℝ} (hu : 0 ≤ u) (hδ : 0 ≤ δ) (hε : 0 ≤ ε) {a b : ℕ} (h : a ≤ b) : asmErr u Z δ ε a ≤ asmErr u Z δ ε b := by
  unfold asmErr
  have := pow_le_pow_right₀ (show 1 ≤ 1 + u by linarith) (show a + 7 ≤ b + 7 by omega)
  have h0 : 0 ≤ (1 + δ) ^ 2 * (1 + ε) ^ 2 * Real.exp (40 * u * Z) := by positivity
  linarith [mul_le_mul_of_nonneg_left this h0]

theorem gain_mono {κ κ' θ : ℝ} (h0 : 0 ≤ κ) (h : κ ≤ κ') (hθ : 0 ≤ θ) (hs : (1 + κ') * θ < 1) : gain κ θ ≤ gain κ' θ := by
  unfold gain
  have : (1 + κ) * θ ≤ (1 + κ') * θ := mul_le_mul_of_nonneg_right (by linarith) hθ
  exact div_le_div₀ (h0.trans h) h (by linarith) (by linarith)

theorem PairOK.abs_metal {P : PairIn} (h : PairOK P) {k : ℝ} (hk : 0 < k) {m : ℕ} (hm : m ≤ P.lmax) : |lnDetV P m k| ≤ -lnDetV P.metal m k := by
  obtain ⟨σa, ea⟩ := dense_total h.m1 h.m3 hk
  obtain ⟨σb, eb⟩ := dense_total h.m2 h.m3 hk
  obtain ⟨σ, e⟩ := dense_total pec_sphere h.m3 hk
  exact (lnDetV_stronger h h.metal (.metal P) (m := m) (by have := h.hl; omega) hk ea eb e e).2.2 (by rcases e.sign with rfl | rfl <;> norm_num)

/-- Bound of the errors of `ln det(1 - M)` relative to the value of perfect conductors (C127). -/
noncomputable def pairErr (P : PairIn) (u δ Λ X ε Z : ℝ) : ℝ := gain (asmErr u Z (mieErr u δ Λ X Z P.lssmax) ε P.lssmax) (shrink P.r1 P.r2 P.L)

variable {A : FlMie} {u : ℝ} {sum : (p : ℕ) → (Fin p → ℝ) → ℝ} {ld : (n : ℕ) → Blocks n → ℝ} {T : BesTable} {P : PairIn}
  {V : ℝ → (m : ℕ) → Fin (P.lmax + 1 - transLmin m) → Fin (P.lssmax + 1 - transLmin m) → VCoef} {δ Λ X ε Z η k : ℝ}

/-- The computed number, if there is one. -/
noncomputable def okVal (r : Res ℝ) : ℝ := match r with
  | .ok x => x
  | .error _ => 0

/-- One contribution. -/
theorem ComputedAt.step (h : PairOK P) (hA : RelErrM A u) (hS : Sums A.toFlFun sum) (hη : 5 * δ + 3 * u * Λ + 15 * u ≤ 1 / 100) (hε : 0 ≤ ε) (hk : 0 < k)
    (hs : (1 + asmErr u Z (mieErr u δ Λ X Z P.lssmax) ε P.lssmax) * shrink P.r1 P.r2 P.L < 1) (c : ComputedAt A sum ld T P V δ Λ X ε Z η k) {m : ℕ} (hm : m ≤ P.lmax) :
    ∃ x, A.logDet sum ld T P V k m = .ok x ∧ |x - lnDetV P m k| ≤ pairErr P u δ Λ X ε Z * -lnDetV P.metal m k + η := by
  obtain ⟨c1, hc1⟩ := flTable_ok hA h.m1 h.m3 hk h.h1 c.bes1 hη
  obtain ⟨c2, hc2⟩ := flTable_ok hA h.m2 h.m3 hk h.h2 c.bes2 hη
  obtain ⟨w, hw, -⟩ := pair_singleM h hk
  obtain ⟨V0, hV0⟩ := h.trans hk hw m
  obtain ⟨hδ, hΛ, hX⟩ := besselErr_nonneg h.m3 hA hk h.h1 c.bes1 (l := 1) le_rfl h.hl h.m1
  have hz : 0 ≤ Z := (abs_nonneg _).trans (c.size1 c1 hc1 1 le_rfl h.hl)
  have hD := mieErr_nonneg hA.u0 hδ hΛ hX hz P.lssmax
  have s0 := (shrink_mem h.h1 h.h2 h.sep).1.le
  have p0 : P.lssmax + 1 - transLmin (m : ℤ) ≤ P.lssmax := by
    have : 1 ≤ transLmin (m : ℤ) := by unfold transLmin; omega
    omega
  have k1 := asmErr_mono (Z := Z) hA.u0 hD hε p0
  have k0 := asmErr_nonneg hA.u0 hz hD hε (P.lssmax + 1 - transLmin (m : ℤ))
  obtain ⟨B, q1, q2, q3⟩ := h.rounded hk hA hS hη hε c.bes1 c.bes2 hw hm hV0 (c.trans w hw m hm V0 hV0) hc1 hc2 (c.size1 c1 hc1) (c.size2 c2 hc2) (c.size3 m hm)
    ((mul_le_mul_of_nonneg_right (by linarith) s0).trans_lt hs)
  refine ⟨ld _ B, by unfold FlMie.logDet; rw [q1, ok_bind], ?_⟩
  have d := c.det m hm B q1 q2
  have g := mul_le_mul_of_nonneg_right (gain_mono k0 k1 s0 hs) (show 0 ≤ -lnDetV P.metal m k by linarith [h.metal_le hk hm])
  have := abs_add_le (ld _ B - Real.log (1 - B.full).det) (Real.log (1 - B.full).det - lnDetV P m k)
  rw [sub_add_sub_cancel] at this
  unfold pairErr
  linarith

/-- No running sum over `m` computed at `k` vanishes. -/
def Alive (A : FlMie) (sum : (p : ℕ) → (Fin p → ℝ) → ℝ) (ld : (n : ℕ) → Blocks n → ℝ) (T : BesTable) (P : PairIn)
    (V : ℝ → (m : ℕ) → Fin (P.lmax + 1 - transLmin m) → Fin (P.lssmax + 1 - transLmin m) → VCoef) (k : ℝ) : Prop :=
  ∀ l : ℕ → ℝ, (∀ m ≤ P.lmax, A.logDet sum ld T P V k m = .ok (l m)) → ∀ M < P.lmax, runSum A.toFlFun l M ≠ 0

theorem runSum_congr {A : FlFun} {l l' : ℕ → ℝ} {M : ℕ} (h : ∀ m ≤ M, l m = l' m) : runSum A l M = runSum A l' M := by
  induction M with
  | zero => exact h 0 le_rfl
  | succ M ih => rw [runSum_succ, runSum_succ, ih fun m hm => h m (by omega), h _ le_rfl]

/-- Complete sums over `m`. -/
theorem flVals_complete (hA : RelErrM A u) (hp : P.precision ≤ 0) {ks : List ℝ} (hok : ∀ k ∈ ks, ∀ m ≤ P.lmax, ∃ x, A.logDet sum ld T P V k m = .ok x)
    (hal : ∃ k ∈ ks, Alive A sum ld T P V k) :
    A.pairVals sum ld T P V ks = .ok (ks.map fun k => runSum A.toFlFun (fun m => okVal (A.logDet sum ld T P V k m)) P.lmax) := by
  obtain ⟨k0, hk0, al⟩ := hal
  obtain ⟨i0, hi0⟩ := List.get_of_mem hk0
  have e : ∀ m ≤ P.lmax, ∀ i : Fin ks.length, A.logDet sum ld T P V (ks.get i) m = .ok (okVal (A.logDet sum ld T P V (ks.get i) m)) := fun m hm i => by
    obtain ⟨x, hx⟩ := hok _ (List.get_mem _ i) m hm
    rw [hx]; rfl
  unfold FlMie.pairVals
  rw [C130_complete hA.toRelErr (by have := i0.2; omega) hp (v' := fun m (i : Fin ks.length) => okVal (A.logDet sum ld T P V (ks.get i) m))
    (fun m hm => finM_ok (e m hm)) (fun M hM => ⟨i0, ?_⟩), ok_bind]
  · congr 1
    exact List.ofFn_getElem_eq_map ks fun k => runSum A.toFlFun (fun m => okVal (A.logDet sum ld T P V k m)) P.lmax
  · rw [hi0]
    refine al _ (fun m hm => ?_) M hM
    have := e m hm i0
    rwa [hi0] at this

/-- The bound of `C130_mSumme` at one wavenumber, for all `M`. -/
theorem ComputedAt.run (h : PairOK P) (hA : RelErrM A u) (hS : Sums A.toFlFun sum) (hη : 5 * δ + 3 * u * Λ + 15 * u ≤ 1 / 100) (hε : 0 ≤ ε) (hη0 : 0 ≤ η) (hk : 0 < k)
    (hs : (1 + asmErr u Z (mieErr u δ Λ X Z P.lssmax) ε P.lssmax) * shrink P.r1 P.r2 P.L < 1) (c : ComputedAt A sum ld T P V δ Λ X ε Z η k) (κ0 : 0 ≤ pairErr P u δ Λ X ε Z)
    {l : ℕ → ℝ} (hl : ∀ m ≤ P.lmax, A.logDet sum ld T P V k m = .ok (l m)) {M : ℕ} (hM : M ≤ P.lmax) :
    |runSum A.toFlFun l M - (lnDetV P 0 k + 2 * ∑ m ∈ Finset.Icc 1 M, lnDetV P m k)| ≤
      ((1 + pairErr P u δ Λ X ε Z) * (1 + u) ^ (M + 1) - 1) * -(lnDetV P.metal 0 k + 2 * ∑ m ∈ Finset.Icc 1 M, lnDetV P.metal m k) +
        (2 * M + 1 : ℕ) * η * (1 + u) ^ (M + 1) := by
  have := (runSum_ab hA.toRelErr (l' := l) (l := fun m => lnDetV P m k) (y := fun m => -lnDetV P.metal m k) κ0 hη0 M (fun m hm => ?_)
    fun m hm => h.abs_metal hk (hm.trans hM)).2.2.2
  · rw [Finset.sum_neg_distrib, show -lnDetV P.metal 0 k + 2 * -∑ m ∈ Finset.Icc 1 M, lnDetV P.metal m k =
      -(lnDetV P.metal 0 k + 2 * ∑ m ∈ Finset.Icc 1 M, lnDetV P.metal m k) by ring] at this
    exact this
  · obtain ⟨x, q1, q2⟩ := c.step h hA hS hη hε hk hs (hm.trans hM)
    rw [hl m (hm.trans hM)] at q1
    injection q1 with q1
    rw [q1]
    exact q2

theorem pairErr_nonneg (h : PairOK P) (hA : RelErrM A u) (hη : 5 * δ + 3 * u * Λ + 15 * u ≤ 1 / 100) (hε : 0 ≤ ε) (hk : 0 < k)
    (hs : (1 + asmErr u Z (mieErr u δ Λ X Z P.lssmax) ε P.lssmax) * shrink P.r1 P.r2 P.L < 1) (c : ComputedAt A sum ld T P V δ Λ X ε Z η k) :
    0 ≤ pairErr P u δ Λ X ε Z := by
  obtain ⟨c1, hc1⟩ := flTable_ok hA h.m1 h.m3 hk h.h1 c.bes1 hη
  obtain ⟨hδ, hΛ, hX⟩ := besselErr_nonneg h.m3 hA hk h.h1 c.bes1 (l := 1) le_rfl h.hl h.m1
  have hz : 0 ≤ Z := (abs_nonneg _).trans (c.size1 c1 hc1 1 le_rfl h.hl)
  exact gain_nonneg (asmErr_nonneg hA.u0 hz (mieErr_nonneg hA.u0 hδ hΛ hX hz P.lssmax) hε _) hs

/-- `C130_pair` with any bound `κ` of the relative errors. -/
theorem pair_energy (h : PairOK P) (hprec : P.precision ≤ 0) (hA : RelErrM A u) (hS : Sums A.toFlFun sum) (hη : 5 * δ + 3 * u * Λ + 15 * u ≤ 1 / 100) (hε : 0 ≤ ε)
    (hη0 : 0 ≤ η) (hs : (1 + asmErr u Z (mieErr u δ Λ X Z P.lssmax) ε P.lssmax) * shrink P.r1 P.r2 P.L < 1) (κ0 : 0 ≤ pairErr P u δ Λ X ε Z) {κ : ℝ}
    (hκ : pairErr P u δ Λ X ε Z ≤ κ)
    {p : FTParams} {z' z zm : ℝ} (hg : p.geo = A.pairGeo sum ld T P V z') (hp : p.nprocs.isZero) (ha : p.analyticN0 = true) (hT : 0 < p.deltaT) {N : ℕ} (hN : p.nmax = N)
    {frac : ℝ → ℝ → ℝ} (hz : pairK0 frac P = .ok z) (hzm : pairK0 frac P.metal = .ok zm)
    (he : |z' - z| ≤ ((1 + κ) * (1 + u) ^ (P.lmax + 1) - 1) * -zm + (2 * P.lmax + 1 : ℕ) * η * (1 + u) ^ (P.lmax + 1))
    (hc : ∀ n : ℕ, 1 ≤ n → n ≤ N → ComputedAt A sum ld T P V δ Λ X ε Z η (A.mul p.deltaT n))
    (hal : ∀ lo hi, IsSlice N lo hi → ∃ n : ℕ, lo ≤ n ∧ n ≤ hi ∧ Alive A sum ld T P V (A.mul p.deltaT n)) :
    ∃ (x y : ℕ → ℝ) (F : List ℝ), (∀ n : ℕ, 1 ≤ n → pairVals exactBes P [A.mul p.deltaT n] = .ok [x n] ∧ pairVals exactBes P.metal [A.mul p.deltaT n] = .ok [y n]) ∧
      (A.freeEnergy sum p FT.fresh).1 = .ok F ∧ F.length = p.maxstep.toNat ∧ ∀ (i : ℕ) (v : ℝ), F[i]? = some v →
        |v - (i + 1 : ℕ) * p.deltaT * (0.5 * z + ∑ j ∈ Finset.range (N / (i + 1)), x ((j + 1) * (i + 1)))| ≤
          ((1 + κ) * (1 + u) ^ (P.lmax + 1 + (N / (i + 1) + 4)) - 1) *
            -((i + 1 : ℕ) * p.deltaT * (0.5 * zm + ∑ j ∈ Finset.range (N / (i + 1)), y ((j + 1) * (i + 1)))) +
          (i + 1 : ℕ) * p.deltaT * ((N / (i + 1) : ℕ) + 1 / 2) * ((2 * P.lmax + 1 : ℕ) * η) * (1 + u) ^ (P.lmax + 1 + (N / (i + 1) + 4)) := by
  have hu := hA.u0
  have kp : ∀ n : ℕ, 1 ≤ n → 0 < A.mul p.deltaT n := fun n hn => hA.toRelErr.mul_pos' hT (by exact_mod_cast hn)
  have u1 : 1 ≤ (1 + u) ^ (P.lmax + 1) := one_le_pow₀ (by linarith)
  obtain ⟨η1, hη1⟩ : ∃ e, e = (2 * P.lmax + 1 : ℕ) * η * (1 + u) ^ (P.lmax + 1) := ⟨_, rfl⟩
  have η10 : 0 ≤ η1 := by rw [hη1]; positivity
  have κ1 : 0 ≤ (1 + κ) * (1 + u) ^ (P.lmax + 1) - 1 := by
    have := one_le_mul_of_one_le_of_one_le (show 1 ≤ 1 + κ by linarith) u1
    linarith
  have hmem : ∀ lo hi : ℕ, ∀ k ∈ (arange lo hi).map (fun n : ℤ => A.mul p.deltaT n), ∃ n : ℕ, lo ≤ n ∧ n ≤ hi ∧ k = A.mul p.deltaT n := by
    intro lo hi k hk
    obtain ⟨n, hn, rfl⟩ := List.mem_map.mp hk
    unfold arange at hn
    obtain ⟨i, hi', rfl⟩ := List.mem_map.mp hn
    rw [List.mem_range] at hi'
    exact ⟨lo + i, by omega, by omega, by push_cast; rfl⟩
  obtain ⟨z2, zm2, e1, e2, e3, -⟩ := C113_mSumme_k0 h h.metal (.metal P) hprec hprec frac
  rw [hz] at e1
  rw [hzm] at e2
  injection e1 with e1
  injection e2 with e2
  subst e1 e2
  have one : ∀ {Q : PairIn}, PairOK Q → Q.precision ≤ 0 → ∀ n : ℕ, 1 ≤ n → pairVals exactBes Q [A.mul p.deltaT n] = .ok [pairSum Q (A.mul p.deltaT n)] :=
    fun hQ hq n hn => pairVals_sum hQ hq (List.cons_ne_nil _ _) fun k hk => by rw [List.mem_singleton.mp hk]; exact kp n hn
  have step := fun n (h1 : 1 ≤ n) (h2 : n ≤ N) m (hm : m ≤ P.lmax) => (hc n h1 h2).step h hA hS hη hε (kp n h1) hs hm
  have hv : ∀ lo hi, IsSlice N lo hi → p.geo.vals ((arange lo hi).map fun n : ℤ => A.mul p.deltaT n) =
      .ok ((arange lo hi).map fun n : ℤ => runSum A.toFlFun (fun m => okVal (A.logDet sum ld T P V (A.mul p.deltaT (n.toNat : ℕ)) m)) P.lmax) := by
    intro lo hi hsl
    obtain ⟨n, n1, n2, al⟩ := hal lo hi hsl
    rw [hg]
    show A.pairVals sum ld T P V _ = _
    have hhi : hi ≤ N := by obtain ⟨-, -, q, -, h⟩ := hsl; omega
    rw [flVals_complete hA hprec (fun k hk m hm => ?_) ⟨A.mul p.deltaT n, ?_, al⟩, List.map_map]
    · congr 1
      refine List.map_congr_left fun j hj => ?_
      unfold arange at hj
      obtain ⟨i, hi', rfl⟩ := List.mem_map.mp hj
      simp only [Function.comp]
      rw [show ((lo : ℤ) + (i : ℤ)).toNat = lo + i by omega]
      push_cast
      rfl
    · refine List.mem_map.mpr ⟨n, ?_, rfl⟩
      unfold arange
      exact List.mem_map.mpr ⟨n - lo, List.mem_range.mpr (by omega), by omega⟩
    · obtain ⟨j, j1, j2, rfl⟩ := hmem lo hi k hk
      obtain ⟨x, hx, -⟩ := step j (hsl.1.trans j1) (j2.trans hhi) m hm
      exact ⟨x, hx⟩
  have f1 : ∀ n : ℕ, 1 ≤ n → n ≤ N → |runSum A.toFlFun (fun m => okVal (A.logDet sum ld T P V (A.mul p.deltaT n) m)) P.lmax - pairSum P (A.mul p.deltaT n)| ≤
      ((1 + κ) * (1 + u) ^ (P.lmax + 1) - 1) * -pairSum P.metal (A.mul p.deltaT n) + η1 := by
    intro n h1 h2
    have := (hc n h1 h2).run h hA hS hη hε hη0 (kp n h1) hs κ0 (l := fun m => okVal (A.logDet sum ld T P V (A.mul p.deltaT n) m)) (fun m hm => by
      obtain ⟨x, hx, -⟩ := step n h1 h2 m hm
      rw [hx]; rfl) le_rfl
    rw [← hη1] at this
    have y0 : 0 ≤ -pairSum P.metal (A.mul p.deltaT n) :=
      (abs_nonneg _).trans ((pairSum_stronger_contrast h h.metal (.metal P) (kp n h1)).1 (equalContrast_same pec_sphere h.m3))
    refine this.trans (add_le_add (mul_le_mul_of_nonneg_right (sub_le_sub_right (mul_le_mul_of_nonneg_right (by linarith) (by linarith)) 1) y0) le_rfl)
  have f2 : ∀ n : ℕ, 1 ≤ n → n ≤ N → |pairSum P (A.mul p.deltaT n)| ≤ -pairSum P.metal (A.mul p.deltaT n) := fun n h1 _ =>
    (pairSum_stronger_contrast h h.metal (.metal P) (kp n h1)).1 (equalContrast_same pec_sphere h.m3)
  obtain ⟨F, hF, hl, hb⟩ := C130_free_energy hA.toRelErr hS p hp ha hT hN (by rw [hg]; rfl) hv κ1 η10 η10 (by rw [hη1]; exact he)
    (e3 (equalContrast_same pec_sphere h.m3)) f1 f2
  refine ⟨fun n => pairSum P (A.mul p.deltaT n), fun n => pairSum P.metal (A.mul p.deltaT n), F, fun n hn => ⟨one h hprec n hn, one h.metal hprec n hn⟩, hF, hl,
    fun i v hv => (hb i v hv).trans_eq ?_⟩
  rw [hη1, Finset.sum_neg_distrib, pow_add]
  ring

/-- **C130, two spheres.** Two homogeneous spheres, complete sums (`precision ≤ 0`), everything computed as in C127 at the computed Matsubara wavenumbers, the
logarithms of the determinants with errors of at most `η`; in every slice there is a wavenumber at which no computed running sum over `m` vanishes.  `x n` and
`y n` are the exact values of `mSumme` at the computed wavenumbers, for the spheres and for perfectly conducting ones, `z` and `zm` those of `mSumme_k0`.  Then every entry
of `free_energy` in rounded arithmetic differs from `T (z/2 + x (i+1) + …)` by at most `(1+κ) (1+u)^(lmax+1+J+4) - 1` times the energy of the perfect
conductors, `-T (zm/2 + y (i+1) + …)`, plus `T (J + 1/2) (2 lmax + 1) η (1+u)^(lmax+1+J+4)`. -/
theorem C130_pair (h : PairOK P) (hprec : P.precision ≤ 0) (hA : RelErrM A u) (hS : Sums A.toFlFun sum) (hη : 5 * δ + 3 * u * Λ + 15 * u ≤ 1 / 100) (hε : 0 ≤ ε)
    (hη0 : 0 ≤ η) (hs : (1 + asmErr u Z (mieErr u δ Λ X Z P.lssmax) ε P.lssmax) * shrink P.r1 P.r2 P.L < 1) (κ0 : 0 ≤ pairErr P u δ Λ X ε Z)
    {p : FTParams} {z' z zm : ℝ} (hg : p.geo = A.pairGeo sum ld T P V z') (hp : p.nprocs.isZero) (ha : p.analyticN0 = true) (hT : 0 < p.deltaT) {N : ℕ} (hN : p.nmax = N)
    {frac : ℝ → ℝ → ℝ} (hz : pairK0 frac P = .ok z) (hzm : pairK0 frac P.metal = .ok zm)
    (he : |z' - z| ≤ ((1 + pairErr P u δ Λ X ε Z) * (1 + u) ^ (P.lmax + 1) - 1) * -zm + (2 * P.lmax + 1 : ℕ) * η * (1 + u) ^ (P.lmax + 1))
    (hc : ∀ n : ℕ, 1 ≤ n → n ≤ N → ComputedAt A sum ld T P V δ Λ X ε Z η (A.mul p.deltaT n))
    (hal : ∀ lo hi, IsSlice N lo hi → ∃ n : ℕ, lo ≤ n ∧ n ≤ hi ∧ Alive A sum ld T P V (A.mul p.deltaT n)) :
    ∃ (x y : ℕ → ℝ) (F : List ℝ), (∀ n : ℕ, 1 ≤ n → pairVals exactBes P [A.mul p.deltaT n] = .ok [x n] ∧ pairVals exactBes P.metal [A.mul p.deltaT n] = .ok [y n]) ∧
      (A.freeEnergy sum p FT.fresh).1 = .ok F ∧ F.length = p.maxstep.toNat ∧ ∀ (i : ℕ) (v : ℝ), F[i]? = some v →
        |v - (i + 1 : ℕ) * p.deltaT * (0.5 * z + ∑ j ∈ Finset.range (N / (i + 1)), x ((j + 1) * (i + 1)))| ≤
          ((1 + pairErr P u δ Λ X ε Z) * (1 + u) ^ (P.lmax + 1 + (N / (i + 1) + 4)) - 1) *
            -((i + 1 : ℕ) * p.deltaT * (0.5 * zm + ∑ j ∈ Finset.range (N / (i + 1)), y ((j + 1) * (i + 1)))) +
          (i + 1 : ℕ) * p.deltaT * ((N / (i + 1) : ℕ) + 1 / 2) * ((2 * P.lmax + 1 : ℕ) * η) * (1 + u) ^ (P.lmax + 1 + (N / (i + 1) + 4)) :=
  pair_energy h hprec hA hS hη hε hη0 hs κ0 le_rfl hg hp ha hT hN hz hzm he hc hal

/-- **C130, non-vanishing sums.** If at some wavenumber the bound of the error is smaller than the exact sum for every `M < lmax`, no computed running sum
vanishes there. -/
theorem C130_alive (h : PairOK P) (hA : RelErrM A u) (hS : Sums A.toFlFun sum) (hη : 5 * δ + 3 * u * Λ + 15 * u ≤ 1 / 100) (hε : 0 ≤ ε) (hη0 : 0 ≤ η) (hk : 0 < k)
    (hs : (1 + asmErr u Z (mieErr u δ Λ X Z P.lssmax) ε P.lssmax) * shrink P.r1 P.r2 P.L < 1) (c : ComputedAt A sum ld T P V δ Λ X ε Z η k)
    (hb : ∀ M < P.lmax, ((1 + pairErr P u δ Λ X ε Z) * (1 + u) ^ (M + 1) - 1) * -(lnDetV P.metal 0 k + 2 * ∑ m ∈ Finset.Icc 1 M, lnDetV P.metal m k) +
      (2 * M + 1 : ℕ) * η * (1 + u) ^ (M + 1) < |lnDetV P 0 k + 2 * ∑ m ∈ Finset.Icc 1 M, lnDetV P m k|) :
    Alive A sum ld T P V k := by
  intro l hl M hM h0
  have := (c.run h hA hS hη hε hη0 hk hs (pairErr_nonneg h hA hη hε hk hs c) hl hM.le).trans_lt (hb M hM)
  rw [h0, zero_sub, abs_neg] at this
  exact lt_irrefl _ this

/-! ## Double precision -/

/-- The numbers computed at the wavenumber `k` in double precision: the logarithms of the Bessel functions are those of `lniknu`, the translation coefficients have
relative errors of at most 1e-7 and logarithms of at most 1e4, the logarithms of the determinants have errors of at most `η`. -/
structure CodeAt (A : FlMie) (sum : (p : ℕ) → (Fin p → ℝ) → ℝ) (ld : (n : ℕ) → Blocks n → ℝ) (T : BesTable) (P : PairIn)
    (V : ℝ → (m : ℕ) → Fin (P.lmax + 1 - transLmin m) → Fin (P.lssmax + 1 - transLmin m) → VCoef) (η k : ℝ) : Prop where
  code1 : FromCode A T P.mat1 P.mat3 P.lmax k P.r1
  code2 : FromCode A T P.mat2 P.mat3 P.lssmax k P.r2
  trans : ∀ w, waveIn exactBes P k = .ok w → ∀ m ≤ P.lmax, ∀ V0, transAb P.lmax P.lssmax m true w.nL w.bes = .ok V0 → TransErr 1e-7 (V k m) V0
  size : ∀ m ≤ P.lmax, ∀ i s, |(V k m i s).sk| ≤ 1e4
  det : ∀ m ≤ P.lmax, ∀ B, A.blocksAt sum T P k m (V k m) = .ok B → 0 < (1 - B.full).det → |ld _ B - Real.log (1 - B.full).det| ≤ η

theorem CodeAt.computed (h : PairOK P) (hA : RelErrM A (2 ^ (-52 : ℤ))) (hl : P.lssmax ≤ 100) (hk : 0 < k) (c : CodeAt A sum ld T P V η k) :
    ComputedAt A sum ld T P V 1e-9 9 11 1e-7 1e4 η k := by
  have l1 := h.hl
  have l2 := h.hls
  exact ⟨c.code1.besselErr hA h.m1 h.m3 hk h.h1 l1 (by omega), c.code2.besselErr hA h.m2 h.m3 hk h.h2 (by omega) hl, c.trans,
    fun _ hc _ hl1 hl2 => (c.code1.ln_le hA h.m1 h.m3 hk h.h1 l1 (by omega) hc hl1 hl2).trans (by norm_num),
    fun _ hc _ hl1 hl2 => (c.code2.ln_le hA h.m2 h.m3 hk h.h2 (by omega) hl hc hl1 hl2).trans (by norm_num), c.size, c.det⟩

theorem pair_double (h : PairOK P) (hl : P.lssmax ≤ 100) (hθ : shrink P.r1 P.r2 P.L ≤ 0.9) :
    (1 + asmErr (2 ^ (-52 : ℤ)) 1e4 (mieErr (2 ^ (-52 : ℤ)) 1e-9 9 11 1e4 P.lssmax) 1e-7 P.lssmax) * shrink P.r1 P.r2 P.L < 1 ∧
    0 ≤ pairErr P (2 ^ (-52 : ℤ)) 1e-9 9 11 1e-7 1e4 ∧ pairErr P (2 ^ (-52 : ℤ)) 1e-9 9 11 1e-7 1e4 ≤ 4e-6 := by
  have u0 : (0 : ℝ) ≤ 2 ^ (-52 : ℤ) := by positivity
  have d0 := mieErr_nonneg u0 (δ := 1e-9) (Λ := 9) (X := 11) (Z := 1e4) (by norm_num) (by norm_num) (by norm_num) (by norm_num) P.lssmax
  have d1 := mieErr_double hl
  have k0 := asmErr_nonneg u0 (Z := 1e4) (by norm_num) d0 (ε := 1e-7) (by norm_num) P.lssmax
  have k1 := asmErr_double d0 d1 (ε := 1e-7) (by norm_num) le_rfl hl
  have s0 := (shrink_mem h.h1 h.h2 h.sep).1.le
  obtain ⟨g1, g2⟩ := gain_double k0 k1 s0 hθ
  exact ⟨g1, gain_nonneg k0 g1, g2⟩

theorem double_pow {n : ℕ} (hn : n ≤ 2000000) : (1 + (2 : ℝ) ^ (-52 : ℤ)) ^ n ≤ 1 + 1e-9 := by
  have u52 : (2 : ℝ) ^ (-52 : ℤ) = 1 / 4503599627370496 := by norm_num
  have hn' : (n : ℝ) ≤ 2000000 := by exact_mod_cast hn
  have e : (1 + (2 : ℝ) ^ (-52 : ℤ)) ^ n ≤ Real.exp (n * 2 ^ (-52 : ℤ)) := by
    rw [Real.exp_nat_mul]
    exact pow_le_pow_left₀ (by positivity) (by rw [add_comm]; exact Real.add_one_le_exp _) n
  have t0 : 0 ≤ (n : ℝ) * 2 ^ (-52 : ℤ) := by positivity
  have t1 : (n : ℝ) * 2 ^ (-52 : ℤ) ≤ 4.5e-10 := by rw [u52]; linarith
  refine e.trans ?_
  generalize (n : ℝ) * 2 ^ (-52 : ℤ) = t at t0 t1 ⊢
  have q := Real.abs_exp_sub_one_sub_id_le (x := t) (by rw [abs_of_nonneg t0]; linarith)
  have q1 := (abs_le.mp q).2
  have : t ^ 2 ≤ 4.5e-10 * 4.5e-10 := by rw [sq]; exact mul_le_mul t1 t1 t0 (by norm_num)
  linarith

theorem metal_energy_nonneg (h : PairOK P) (hprec : P.precision ≤ 0) {frac : ℝ → ℝ → ℝ} {zm : ℝ} (hzm : pairK0 frac P.metal = .ok zm) {κ : ℕ → ℝ} {y : ℕ → ℝ}
    (hy : ∀ n : ℕ, 1 ≤ n → pairVals exactBes P.metal [κ n] = .ok [y n]) (kp : ∀ n : ℕ, 1 ≤ n → 0 < κ n) {t : ℝ} (ht : 0 < t) (N i : ℕ) :
    0 ≤ -((i + 1 : ℕ) * t * (0.5 * zm + ∑ j ∈ Finset.range (N / (i + 1)), y ((j + 1) * (i + 1)))) := by
  obtain ⟨z2, zm2, -, e2, e3, -⟩ := C113_mSumme_k0 h h.metal (.metal P) hprec hprec frac
  rw [hzm] at e2
  injection e2 with e2
  subst e2
  have zm0 : 0 ≤ -zm := (abs_nonneg _).trans (e3 (equalContrast_same pec_sphere h.m3))
  have yn : ∀ n : ℕ, 1 ≤ n → y n ≤ 0 := by
    intro n hn
    have e := hy n hn
    rw [pairVals_sum h.metal hprec (List.cons_ne_nil _ _) (fun k hk => by rw [List.mem_singleton.mp hk]; exact kp n hn)] at e
    injection e with e
    rw [List.map_singleton] at e
    injection e with e
    have := (pairSum_stronger_contrast h h.metal (.metal P) (kp n hn)).1 (equalContrast_same pec_sphere h.m3)
    rw [← e]
    linarith [abs_nonneg (pairSum P (κ n))]
  rw [← mul_neg]
  refine mul_nonneg (by positivity) ?_
  have := Finset.sum_nonpos fun j (_ : j ∈ Finset.range (N / (i + 1))) => yn ((j + 1) * (i + 1)) (Nat.one_le_iff_ne_zero.mpr (by positivity))
  linarith

/-- **C130 in double precision.** For `l` up to 100, arguments of the Bessel functions between 0.1 and 10, `shrink ≤ 0.9`, up to a million Matsubara
wavenumbers, relative errors of the translation coefficients of at most 1e-7 and errors of the logarithms of the determinants of at most `η`: every entry of `free_energy` differs
from the exact sum over the computed wavenumbers by at most 4.1e-6 times the energy of perfect conductors plus `1.1 T (J + 1/2) (2 lmax + 1) η`. -/
theorem C130_double (h : PairOK P) (hprec : P.precision ≤ 0) (hA : RelErrM A (2 ^ (-52 : ℤ))) (hS : Sums A.toFlFun sum) (hl : P.lssmax ≤ 100) (hη0 : 0 ≤ η)
    (hθ : shrink P.r1 P.r2 P.L ≤ 0.9)
    {p : FTParams} {z' z zm : ℝ} (hg : p.geo = A.pairGeo sum ld T P V z') (hp : p.nprocs.isZero) (ha : p.analyticN0 = true) (hT : 0 < p.deltaT) {N : ℕ} (hN : p.nmax = N)
    (hN' : N ≤ 1000000) {frac : ℝ → ℝ → ℝ} (hz : pairK0 frac P = .ok z) (hzm : pairK0 frac P.metal = .ok zm)
    (he : |z' - z| ≤ (2 * P.lmax + 1 : ℕ) * η) (hc : ∀ n : ℕ, 1 ≤ n → n ≤ N → CodeAt A sum ld T P V η (A.mul p.deltaT n))
    (hal : ∀ lo hi, IsSlice N lo hi → ∃ n : ℕ, lo ≤ n ∧ n ≤ hi ∧ Alive A sum ld T P V (A.mul p.deltaT n)) :
    ∃ (x y : ℕ → ℝ) (F : List ℝ), (∀ n : ℕ, 1 ≤ n → pairVals exactBes P [A.mul p.deltaT n] = .ok [x n] ∧ pairVals exactBes P.metal [A.mul p.deltaT n] = .ok [y n]) ∧
      (A.freeEnergy sum p FT.fresh).1 = .ok F ∧ F.length = p.maxstep.toNat ∧ ∀ (i : ℕ) (v : ℝ), F[i]? = some v →
        |v - (i + 1 : ℕ) * p.deltaT * (0.5 * z + ∑ j ∈ Finset.range (N / (i + 1)), x ((j + 1) * (i + 1)))| ≤
          4.1e-6 * -((i + 1 : ℕ) * p.deltaT * (0.5 * zm + ∑ j ∈ Finset.range (N / (i + 1)), y ((j + 1) * (i + 1)))) +
          1.1 * ((i + 1 : ℕ) * p.deltaT * ((N / (i + 1) : ℕ) + 1 / 2) * ((2 * P.lmax + 1 : ℕ) * η)) := by
  obtain ⟨g1, g2, g3⟩ := pair_double h hl hθ
  have u0 : (0 : ℝ) ≤ 2 ^ (-52 : ℤ) := by positivity
  have l2 := h.hls
  have kp : ∀ n : ℕ, 1 ≤ n → 0 < A.mul p.deltaT n := fun n hn => hA.toRelErr.mul_pos' hT (by exact_mod_cast hn)
  obtain ⟨z2, zm2, e1, e2, e3, -⟩ := C113_mSumme_k0 h h.metal (.metal P) hprec hprec frac
  rw [hz] at e1
  rw [hzm] at e2
  injection e1 with e1
  injection e2 with e2
  subst e1 e2
  have zm0 : 0 ≤ -zm := (abs_nonneg _).trans (e3 (equalContrast_same pec_sphere h.m3))
  have q1 : 1 ≤ (1 + (2 : ℝ) ^ (-52 : ℤ)) ^ (P.lmax + 1) := one_le_pow₀ (by linarith)
  have he' : |z' - z| ≤ ((1 + pairErr P (2 ^ (-52 : ℤ)) 1e-9 9 11 1e-7 1e4) * (1 + (2 : ℝ) ^ (-52 : ℤ)) ^ (P.lmax + 1) - 1) * -zm +
      (2 * P.lmax + 1 : ℕ) * η * (1 + (2 : ℝ) ^ (-52 : ℤ)) ^ (P.lmax + 1) := by
    have a1 := one_le_mul_of_one_le_of_one_le (show 1 ≤ 1 + pairErr P (2 ^ (-52 : ℤ)) 1e-9 9 11 1e-7 1e4 by linarith) q1
    have a2 := mul_nonneg (sub_nonneg.mpr a1) zm0
    have a3 := le_mul_of_one_le_right (show 0 ≤ ((2 * P.lmax + 1 : ℕ) : ℝ) * η by positivity) q1
    exact he.trans (a3.trans (le_add_of_nonneg_left a2))
  obtain ⟨x, y, F, r1, r2, r3, r4⟩ := C130_pair h hprec hA hS (by norm_num) (by norm_num) hη0 g1 g2 hg hp ha hT hN hz hzm he'
    (fun n h1 h2 => (hc n h1 h2).computed h hA hl (kp n h1)) hal
  refine ⟨x, y, F, r1, r2, r3, fun i v hv => (r4 i v hv).trans ?_⟩
  have J1 : N / (i + 1) ≤ N := Nat.div_le_self _ _
  have b := double_pow (n := P.lmax + 1 + (N / (i + 1) + 4)) (by omega)
  have b1 : 1 ≤ (1 + (2 : ℝ) ^ (-52 : ℤ)) ^ (P.lmax + 1 + (N / (i + 1) + 4)) := one_le_pow₀ (by linarith)
  generalize (1 + (2 : ℝ) ^ (-52 : ℤ)) ^ (P.lmax + 1 + (N / (i + 1) + 4)) = W at b b1 ⊢
  have E0 := metal_energy_nonneg h hprec hzm (fun n hn => (r1 n hn).2) kp hT N i
  refine add_le_add (mul_le_mul_of_nonneg_right ?_ E0) ?_
  · have := mul_le_mul (show 1 + pairErr P (2 ^ (-52 : ℤ)) 1e-9 9 11 1e-7 1e4 ≤ 1 + 4e-6 by linarith) b (by linarith) (by norm_num)
    refine (sub_le_sub_right this 1).trans ?_
    norm_num
  · rw [mul_comm]
    exact mul_le_mul_of_nonneg_right (b.trans (by norm_num)) (by positivity)

/-! ## Example -/

/-- Two perfectly conducting spheres of radius 0.2 at the distance 0.6 in vacuum. -/
def mirrorPair : PairIn := ⟨⟨.pec, [], none⟩, ⟨.pec, [], none⟩, ⟨.lorentz, [], none⟩, 0.2, 0.2, 0.6, 20, 25, 0⟩

theorem mirrorPair_ok : PairOK mirrorPair := by
  refine ⟨pec_sphere, pec_sphere, vacuumM_ok, ?_, ?_, ?_, ?_, ?_⟩ <;> norm_num [mirrorPair]

open scoped Classical in
/-- Translation coefficients that are too large by the factor `1 + 1e-8`. -/
noncomputable def offTrans (P : PairIn) (k : ℝ) (m : ℕ) : Fin (P.lmax + 1 - transLmin m) → Fin (P.lssmax + 1 - transLmin m) → VCoef :=
  if h : ∃ V0 w, waveIn exactBes P k = .ok w ∧ transAb P.lmax P.lssmax m true w.nL w.bes = .ok V0 then offV h.choose else fun _ _ => ⟨0, 0, 0, 0, 0⟩

theorem mirror_code {k : ℝ} (h1 : 0.9 ≤ k) (h2 : k ≤ 41) :
    CodeAt (roundMie (Spec.roundDown 53)) (foldSum (roundMie (Spec.roundDown 53)).toFlFun) (fun _ B => Real.log (1 - B.full).det)
      (lniknuTable (roundMie (Spec.roundDown 53)).toFlFun) mirrorPair (offTrans mirrorPair) 0 k := by
  have hA := roundDown_relErrM
  have hu : 4 * (2 : ℝ) ^ (-52 : ℤ) ≤ 1 / 100 := by norm_num
  have n1 : Medium.n ⟨1, 1⟩ = 1 := by unfold Medium.n; simp
  have vm : (Material.mk .lorentz [] none).medium k = .ok ⟨1, 1⟩ := rfl
  have p1 : Medium.Pos ⟨1, 1⟩ := by constructor <;> norm_num
  have key : ∀ n, n ≤ 25 → FromCode (roundMie (Spec.roundDown 53)) (lniknuTable (roundMie (Spec.roundDown 53)).toFlFun) ⟨.pec, [], none⟩ ⟨.lorentz, [], none⟩ n k 0.2 := by
    intro n hn
    refine ⟨fun _ b hb l hl1 hl2 => ?_, fun hc => absurd rfl hc⟩
    rw [vm] at hb
    injection hb with hb
    subst hb
    obtain ⟨q1, q2⟩ := near_box hu (hA.argPEC_near (show 0 < k by linarith) (r := 0.2) (by norm_num) p1) (a := 0.18) (b := 8.2) (by rw [n1]; linarith) (by rw [n1]; linarith)
    exact lniknuTable_from _ (by omega) (le_trans (by norm_num) q1) (q2.trans (by norm_num))
  have ov : ∀ w, waveIn exactBes mirrorPair k = .ok w → ∀ m : ℕ, ∀ V0, transAb mirrorPair.lmax mirrorPair.lssmax m true w.nL w.bes = .ok V0 → offTrans mirrorPair k m = offV V0 := by
    intro w hw m V0 hV0
    have h : ∃ V0 w, waveIn exactBes mirrorPair k = .ok w ∧ transAb mirrorPair.lmax mirrorPair.lssmax m true w.nL w.bes = .ok V0 := ⟨V0, w, hw, hV0⟩
    unfold offTrans
    rw [dif_pos h]
    obtain ⟨w', hw', hc⟩ := h.choose_spec
    rw [hw] at hw'
    injection hw' with hw'
    subst hw'
    rw [hV0] at hc
    injection hc with hc
    rw [← hc]
  refine ⟨key 20 (by norm_num), key 25 le_rfl, fun w hw m _ V0 hV0 => ?_, fun m _ i s => ?_, fun m _ B _ _ => ?_⟩
  · rw [ov w hw m V0 hV0]
    intro i s
    obtain ⟨q1, q2, q3, q4⟩ := offV_err V0 i s
    have mono : ∀ x : ℝ, 1e-8 * |x| ≤ 1e-7 * |x| := fun x => mul_le_mul_of_nonneg_right (by norm_num) (abs_nonneg x)
    exact ⟨q1.trans (mono _), q2.trans (mono _), q3.trans (mono _), q4.trans (mono _)⟩
  · unfold offTrans
    split
    · show |(0 : ℝ)| ≤ 1e4; norm_num
    · show |(0 : ℝ)| ≤ 1e4; norm_num
  · rw [sub_self, abs_zero]

theorem mirror_alive {k : ℝ} (h1 : 0.9 ≤ k) (h2 : k ≤ 41) :
    Alive (roundMie (Spec.roundDown 53)) (foldSum (roundMie (Spec.roundDown 53)).toFlFun) (fun _ B => Real.log (1 - B.full).det)
      (lniknuTable (roundMie (Spec.roundDown 53)).toFlFun) mirrorPair (offTrans mirrorPair) k := by
  have hk : 0 < k := by linarith
  have h := mirrorPair_ok
  obtain ⟨g1, g2, g3⟩ := pair_double h (by norm_num [mirrorPair]) (by norm_num [mirrorPair, shrink])
  have hA := roundDown_relErrM
  have u0 := hA.u0
  refine C130_alive h hA (foldSum_sums _) (by norm_num) (by norm_num) le_rfl hk g1 ((mirror_code h1 h2).computed h hA (by norm_num [mirrorPair]) hk) fun M hM => ?_
  have hM' : M < 20 := hM
  have em : mirrorPair.metal = mirrorPair := rfl
  rw [em, mul_zero, zero_mul, add_zero]
  obtain ⟨σ, e⟩ := dense_total (pec_sphere) h.m3 hk
  have s0 : lnDetV mirrorPair 0 k < 0 := (lnDetV_strict h (m := 0) (by norm_num [mirrorPair]) hk (.inl rfl) (.inl rfl) e e).1 rfl
  have sm : ∑ m ∈ Finset.Icc 1 M, lnDetV mirrorPair m k ≤ 0 := Finset.sum_nonpos fun m hm => by
    have := h.metal_le hk (m := m) (by have := (Finset.mem_Icc.mp hm).2; show m ≤ 20; omega)
    rwa [em] at this
  rw [abs_of_neg (by linarith)]
  refine mul_lt_of_lt_one_left (by linarith) ?_
  have b := double_pow (n := M + 1) (by omega)
  have := mul_le_mul (show 1 + pairErr mirrorPair (2 ^ (-52 : ℤ)) 1e-9 9 11 1e-7 1e4 ≤ 1 + 4e-6 by linarith) b (by positivity) (by norm_num)
  refine (sub_le_sub_right this 1).trans_lt ?_
  norm_num

/-- Doubles rounded towards minus infinity, sums from left to right, `lniknu` for the Bessel functions, translation coefficients too large by 1e-8: 40 Matsubara wavenumbers
`1, 2, …` and temperatures 1 to 5. -/
example (frac : ℝ → ℝ → ℝ) : ∃ (z : ℝ) (x : ℕ → ℝ) (F : List ℝ), pairK0 frac mirrorPair = .ok z ∧
    (∀ n : ℕ, 1 ≤ n → pairVals exactBes mirrorPair [(roundMie (Spec.roundDown 53)).mul 1 n] = .ok [x n]) ∧
    ((roundMie (Spec.roundDown 53)).toFlFun.freeEnergy (foldSum (roundMie (Spec.roundDown 53)).toFlFun) ⟨1, 40, 5, true, .int 0,
      (roundMie (Spec.roundDown 53)).pairGeo (foldSum (roundMie (Spec.roundDown 53)).toFlFun) (fun _ B => Real.log (1 - B.full).det)
      (lniknuTable (roundMie (Spec.roundDown 53)).toFlFun) mirrorPair (offTrans mirrorPair) z⟩ FT.fresh).1 = .ok F ∧ F.length = 5 ∧
    ∀ (i : ℕ) (v : ℝ), F[i]? = some v →
      |v - (i + 1 : ℕ) * 1 * (0.5 * z + ∑ j ∈ Finset.range (40 / (i + 1)), x ((j + 1) * (i + 1)))| ≤
        4.1e-6 * -((i + 1 : ℕ) * 1 * (0.5 * z + ∑ j ∈ Finset.range (40 / (i + 1)), x ((j + 1) * (i + 1)))) := by
  have h := mirrorPair_ok
  have hA := roundDown_relErrM
  have u52 : (2 : ℝ) ^ (-52 : ℤ) = 1 / 4503599627370496 := by norm_num
  obtain ⟨z, -, hz, -⟩ := C113_mSumme_k0 h h.metal (.metal _) le_rfl le_rfl frac
  have rng : ∀ n : ℕ, 1 ≤ n → n ≤ 40 → 0.9 ≤ (roundMie (Spec.roundDown 53)).mul 1 n ∧ (roundMie (Spec.roundDown 53)).mul 1 n ≤ 41 := by
    intro n n1 n2
    have n1' : (1 : ℝ) ≤ n := by exact_mod_cast n1
    have n2' : (n : ℝ) ≤ 40 := by exact_mod_cast n2
    have := abs_le.mp (hA.mul 1 n)
    rw [one_mul, abs_of_pos (by linarith), u52] at this
    constructor <;> linarith
  obtain ⟨x, y, F, r1, r2, r3, r4⟩ := C130_double (P := mirrorPair) (η := 0) h le_rfl hA (foldSum_sums _) (by norm_num [mirrorPair]) le_rfl (by norm_num [mirrorPair, shrink])
    (p := ⟨1, 40, 5, true, .int 0, (roundMie (Spec.roundDown 53)).pairGeo (foldSum (roundMie (Spec.roundDown 53)).toFlFun) (fun _ B => Real.log (1 - B.full).det)
      (lniknuTable (roundMie (Spec.roundDown 53)).toFlFun) mirrorPair (offTrans mirrorPair) z⟩) rfl rfl rfl one_pos (N := 40) rfl (by norm_num) hz hz (by simp)
    (fun n n1 n2 => mirror_code (rng n n1 n2).1 (rng n n1 n2).2)
    (fun lo hi hsl => ⟨lo, le_rfl, hsl.2.1, by
      obtain ⟨s1, s2, q, -, s3⟩ := hsl
      exact mirror_alive (rng lo s1 (by omega)).1 (rng lo s1 (by omega)).2⟩)
  have exy : ∀ n : ℕ, 1 ≤ n → y n = x n := fun n hn => by
    obtain ⟨a, b⟩ := r1 n hn
    have em : mirrorPair.metal = mirrorPair := rfl
    rw [em, a] at b
    injection b with b
    injection b with b
    exact b.symm
  refine ⟨z, x, F, hz, fun n hn => (r1 n hn).1, r2, r3, fun i v hv => ?_⟩
  have := r4 i v hv
  rw [Finset.sum_congr rfl fun j _ => exy ((j + 1) * (i + 1)) (Nat.one_le_iff_ne_zero.mpr (by positivity)), mul_zero, mul_zero, mul_zero, add_zero] at this
  exact this

end CasSph
