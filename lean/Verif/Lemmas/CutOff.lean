import Verif.Lemmas.PairGramK0

/-! # Dependence of the contributions of a pair of spheres on the cut-offs -/

namespace CasSph

open Spec Filter Topology Matrix

/-- The same pair with other cut-offs. -/
def PairIn.cut (P : PairIn) (lmax lssmax : ℕ) : PairIn := { P with lmax := lmax, lssmax := lssmax }

theorem PairOK.cut {P : PairIn} (h : PairOK P) {a b : ℕ} (ha : 1 ≤ a) (hb : a ≤ b) : PairOK (P.cut a b) :=
  ⟨h.m1, h.m2, h.m3, h.h1, h.h2, h.sep, ha, hb⟩

theorem cut_self (P : PairIn) : P.cut P.lmax P.lssmax = P := rfl

/-- Limit of sums over `m ≤ lmax` for growing `lmax`. -/
theorem sum_tannery {ι : Type*} {F : Filter ι} {lm : ι → ℕ} (hlm : Tendsto lm F atTop) {f : ι → ℕ → ℝ} {u : ℕ → ℝ} {C q : ℝ} (q0 : 0 ≤ q) (q1 : q < 1)
    (hb : ∀ i m, m ≤ lm i → |f i m| ≤ C * q ^ (m - 1)) (hu : ∀ m, Tendsto (fun i => f i m) F (𝓝 (u m))) :
    Tendsto (fun i => f i 0 + 2 * ∑ m ∈ Finset.Icc 1 (lm i), f i m) F (𝓝 (u 0 + 2 * ∑' m, u (m + 1))) := by
  refine (hu 0).add (Tendsto.const_mul 2 ?_)
  have e : ∀ i, ∑ m ∈ Finset.Icc 1 (lm i), f i m = ∑' m, if m + 1 ≤ lm i then f i (m + 1) else 0 := by
    intro i
    rw [tsum_eq_sum (s := Finset.range (lm i)) (fun m hm => by rw [Finset.mem_range, not_lt] at hm; rw [if_neg (by omega)])]
    rw [Finset.range_eq_Ico, Finset.sum_Ico_add' (fun m => if m ≤ lm i then f i m else 0) 0 (lm i) 1]
    have e' : Finset.Ico (0 + 1) (lm i + 1) = Finset.Icc 1 (lm i) := by ext x; simp
    rw [e']
    refine Finset.sum_congr rfl fun m hm => ?_
    rw [if_pos (Finset.mem_Icc.mp hm).2]
  simp only [e]
  rcases F.eq_or_neBot with rfl | hF
  · exact tendsto_bot
  have C0 : 0 ≤ C := by
    obtain ⟨i⟩ := hF.nonempty
    have := (abs_nonneg _).trans (hb i 0 (by omega))
    simpa using this
  refine tendsto_tsum_of_dominated_convergence (bound := fun m => C * q ^ m) ((summable_geometric_of_lt_one q0 q1).mul_left C) (fun m => ?_)
    (.of_forall fun i m => ?_)
  · refine (hu (m + 1)).congr' ?_
    filter_upwards [hlm.eventually_ge_atTop (m + 1)] with i hi
    rw [if_pos hi]
  · rw [Real.norm_eq_abs]
    split_ifs with h
    · exact hb i (m + 1) h
    · rw [abs_zero]; positivity

/-! ## Non-zero wavenumbers -/

theorem lnDetV_geom {P : PairIn} (h : PairOK P) {k : ℝ} (hk : 0 < k) : ∃ C q, 0 ≤ q ∧ q < 1 ∧ ∀ a b, 1 ≤ a → a ≤ b → ∀ m ≤ a,
    |lnDetV (P.cut a b) m k| ≤ C * q ^ (m - 1) := by
  obtain ⟨a, b, S⟩ := h.pair hk
  obtain ⟨q0, q1, -, hq⟩ := S.geometric
  have x1 : Real.exp (-(2 * optGap ⟨P.mat3.epsV k, 1⟩ P.r1 P.r2 P.L k)) < 1 := by
    rw [Real.exp_lt_one_iff]; linarith [S.gap_pos]
  refine ⟨pairTrace ⟨P.mat3.epsV k, 1⟩ P.r1 P.r2 P.L k 0 /
      Real.sqrt (1 - Real.exp (-(2 * optGap ⟨P.mat3.epsV k, 1⟩ P.r1 P.r2 P.L k))), pairRatio ⟨P.mat3.epsV k, 1⟩ P.r1 P.r2 P.L, q0.le, q1,
    fun a b ha hb m hm => ?_⟩
  refine (lnDetV_val (h.cut ha hb) (m := m) (by simp only [PairIn.cut]; omega) hk).1.trans (le_of_eq ?_)
  have := hq m
  unfold pairBound at this
  rw [div_mul_eq_mul_div] at this
  have := (div_left_inj' (sub_pos.mpr x1).ne').mp this
  simp only [PairIn.cut]
  rw [this, div_mul_eq_mul_div]

/-- One `m`: monotone in the cut-offs, convergent. -/
theorem lnDetV_cut {P : PairIn} (h : PairOK P) (m : ℕ) {k : ℝ} (hk : 0 < k) {σa σb : ℝ} (ea : DenseSign P.mat1 P.mat3 k σa)
    (eb : DenseSign P.mat2 P.mat3 k σb) :
    (∀ a b a' b', max 1 m ≤ a → a ≤ b → a ≤ a' → b ≤ b' → a' ≤ b' →
      (σa = σb → lnDetV (P.cut a' b') m k ≤ lnDetV (P.cut a b) m k) ∧ (σa ≠ σb → lnDetV (P.cut a b) m k ≤ lnDetV (P.cut a' b') m k)) ∧
    ∃ v, ∀ {ι : Type} {F : Filter ι} {lm ls : ι → ℕ}, Tendsto lm F atTop → (∀ i, lm i ≤ ls i) → Tendsto (fun i => lnDetV (P.cut (lm i) (ls i)) m k) F (𝓝 v) := by
  obtain ⟨A, hA⟩ := amp_exists h.m1 h.m3 hk h.h1 ea
  obtain ⟨B, hB⟩ := amp_exists h.m2 h.m3 hk h.h2 eb
  have key : ∀ a b, max 1 m ≤ a → a ≤ b → HSContr (kern m (k * P.L * Real.sqrt (P.mat3.epsV k)) (m - 1) A B)
      (Real.exp (-(2 * optGap ⟨P.mat3.epsV k, 1⟩ P.r1 P.r2 P.L k))) (pairTrace ⟨P.mat3.epsV k, 1⟩ P.r1 P.r2 P.L k m) ∧
      lnDetV (P.cut a b) m k = Real.log (1 - gram (σa * σb) (kern m (k * P.L * Real.sqrt (P.mat3.epsV k)) (m - 1) A B)
        (2 * (a + 1 - transLmin m)) (2 * (b + 1 - transLmin m))).det :=
    fun a b ha hb => lnDetV_kern (h.cut (le_trans (le_max_left _ _) ha) hb) (m := m) ha hk hA hB
  have hs : σa * σb = 1 ∨ σa * σb = -1 := by
    rcases ea.sign with e | e <;> rcases eb.sign with e' | e' <;> rw [e, e'] <;> norm_num
  have h1 : σa = σb → σa * σb = 1 := fun e => ea.one eb e
  have h2 : σa ≠ σb → σa * σb = -1 := fun e => by
    rcases ea.sign with e1 | e1 <;> rcases eb.sign with e2 | e2 <;> rw [e1, e2] at e ⊢ <;> simp at e ⊢
  constructor
  · intro a b a' b' ha hb haa hbb hb'
    obtain ⟨g, e⟩ := key a b ha hb
    obtain ⟨-, e'⟩ := key a' b' (ha.trans haa) hb'
    rw [e, e']
    refine ⟨fun hs => ?_, fun hs => ?_⟩
    · rw [h1 hs]
      exact (g.mono (by omega) (by omega)).1
    · rw [h2 hs]
      exact (g.mono (by omega) (by omega)).2
  · obtain ⟨g, -⟩ := key (max 1 m) (max 1 m) le_rfl le_rfl
    obtain ⟨v, -, hv, -⟩ := g.limit hs
    refine ⟨v, fun {ι F lm ls} hlm hls => ?_⟩
    have hidx : Tendsto (fun i => (2 * (lm i + 1 - transLmin (m : ℤ)), 2 * (ls i + 1 - transLmin (m : ℤ)))) F atTop := by
      rw [← prod_atTop_atTop_eq]
      have t : Tendsto (fun c : ℕ => 2 * (c + 1 - transLmin (m : ℤ))) atTop atTop :=
        tendsto_atTop_atTop.mpr fun b => ⟨b + transLmin (m : ℤ), fun c hc => by omega⟩
      exact (t.comp hlm).prodMk (t.comp (tendsto_atTop_mono hls hlm))
    refine (hv.comp hidx).congr' ?_
    filter_upwards [hlm.eventually_ge_atTop (max 1 m)] with i hi
    obtain ⟨-, e⟩ := key (lm i) (ls i) hi (hls i)
    rw [e]
    rfl

/-- The complete sum over `m` at one wavenumber: monotone in the cut-offs, convergent. -/
theorem pairSum_cut {P : PairIn} (h : PairOK P) {k : ℝ} (hk : 0 < k) {σa σb : ℝ} (ea : DenseSign P.mat1 P.mat3 k σa) (eb : DenseSign P.mat2 P.mat3 k σb) :
    (∀ a b a' b', 1 ≤ a → a ≤ b → a ≤ a' → b ≤ b' → a' ≤ b' →
      (σa = σb → pairSum (P.cut a' b') k ≤ pairSum (P.cut a b) k) ∧ (σa ≠ σb → pairSum (P.cut a b) k ≤ pairSum (P.cut a' b') k)) ∧
    ∃ v, ∀ {ι : Type} {F : Filter ι} {lm ls : ι → ℕ}, Tendsto lm F atTop → (∀ i, 1 ≤ lm i) → (∀ i, lm i ≤ ls i) →
      Tendsto (fun i => pairSum (P.cut (lm i) (ls i)) k) F (𝓝 v) := by
  constructor
  · intro a b a' b' ha hb haa hbb hb'
    have key := fun m (hm : m ≤ a) => (lnDetV_cut h m hk ea eb).1 a b a' b' (by omega) hb haa hbb hb'
    have sg := fun m (hm : m ≤ a') => (lnDetV_val (h.cut (ha.trans haa) hb') (m := m) (by simp only [PairIn.cut]; omega) hk).2 σa σb ea eb
    have hsub : Finset.Icc 1 a ⊆ Finset.Icc 1 a' := Finset.Icc_subset_Icc le_rfl haa
    unfold pairSum
    have el : ∀ c d, (P.cut c d).lmax = c := fun _ _ => rfl
    rw [el, el]
    refine ⟨fun hs => ?_, fun hs => ?_⟩
    · have t0 := (key 0 (by omega)).1 hs
      have t1 := Finset.sum_le_sum fun m (hm : m ∈ Finset.Icc 1 a) => (key m (Finset.mem_Icc.mp hm).2).1 hs
      have t2 := Finset.sum_le_sum_of_subset_of_nonneg (f := fun m => -lnDetV (P.cut a' b') m k) hsub fun m hm _ =>
        neg_nonneg.mpr ((sg m (Finset.mem_Icc.mp hm).2).1 hs)
      rw [Finset.sum_neg_distrib, Finset.sum_neg_distrib] at t2
      linarith
    · have t0 := (key 0 (by omega)).2 hs
      have t1 := Finset.sum_le_sum fun m (hm : m ∈ Finset.Icc 1 a) => (key m (Finset.mem_Icc.mp hm).2).2 hs
      have t2 := Finset.sum_le_sum_of_subset_of_nonneg (f := fun m => lnDetV (P.cut a' b') m k) hsub fun m hm _ =>
        (sg m (Finset.mem_Icc.mp hm).2).2 hs
      linarith
  · choose u hu using fun m => (lnDetV_cut h m hk ea eb).2
    obtain ⟨C, q, q0, q1, hb⟩ := lnDetV_geom h hk
    refine ⟨u 0 + 2 * ∑' m, u (m + 1), fun {ι F lm ls} hlm h1 hls => ?_⟩
    exact sum_tannery (f := fun i m => lnDetV (P.cut (lm i) (ls i)) m k) hlm q0 q1 (fun i m hm => hb (lm i) (ls i) (h1 i) (hls i) m hm)
      fun m => hu m hlm hls

/-! ## Zero frequency -/

theorem k0V_geom {P : PairIn} (h : PairOK P) {frac : ℝ → ℝ → ℝ} {σa σb τa τb : ℝ} {A A' B B' : ℕ → ℝ} (hA : AmpK0 frac P.mat1 P.mat3 P.r1 σa τa A A')
    (hB : AmpK0 frac P.mat2 P.mat3 P.r2 σb τb B B') : ∃ C q, 0 ≤ q ∧ q < 1 ∧ ∀ a b, 1 ≤ a → a ≤ b → ∀ m ≤ a,
      |k0V m P.r1 P.r2 P.L a b (σa * σb) (τa * τb) A A' B B'| ≤ C * q ^ (m - 1) := by
  obtain ⟨a0, b0, S⟩ := staticPair_exists frac h.m1.static h.m2.static h.m3.diel h.m3.phys h.h1 h.h2 h.sep
  obtain ⟨q0, q1, c0, hq⟩ := staticBound_geometric S.h1 S.h2 S.sep
  refine ⟨2 * staticBound P.r1 P.r2 P.L 0, P.r1 / (P.L - P.r2), q0, q1, fun a b ha hb m hm => ?_⟩
  have hlm : transLmin (m : ℤ) = max 1 m := by unfold transLmin; omega
  obtain ⟨⟨TE, TM⟩, h0⟩ : ∃ R, blockmatricesK0At a b m P.r1 P.r2 P.L a0 b0 = .ok R := C72_k0_ext_total (by omega) (by omega) _ _ _ _
  obtain ⟨⟨p1, -⟩, ⟨p2, -⟩⟩ := C92_positive S h0
  obtain ⟨e1, e2⟩ := S.kern hA hB h0
  have e : k0V m P.r1 P.r2 P.L a b (σa * σb) (τa * τb) A A' B B' = staticLn TE TM := by
    unfold k0V staticLn
    rw [abs_of_pos p1, abs_of_pos p2, e1, e2]
  rw [e]
  refine (C92_staticLn S h0).trans ?_
  rw [mul_assoc]
  refine mul_le_mul_of_nonneg_left ((hq m).trans (mul_le_mul_of_nonneg_left ?_ c0)) (by norm_num)
  exact pow_le_pow_of_le_one q0 q1.le (by omega)

theorem k0V_cut (m : ℕ) {r1 r2 L : ℝ} (h1 : 0 < r1) (h2 : 0 < r2) (hs : r1 + r2 < L) {s t : ℝ} (es : s = 1 ∨ s = -1) (et : t = 1 ∨ t = -1) {A A' B B' : ℕ → ℝ}
    (hA : AmpRange A) (hA' : AmpRange A') (hB : AmpRange B) (hB' : AmpRange B') :
    (∀ a b, (s = 1 → t = 1 → k0V m r1 r2 L a b s t A A' B B' ≤ 0) ∧ (s = -1 → t = -1 → 0 ≤ k0V m r1 r2 L a b s t A A' B B')) ∧
    (∀ a b a' b', a ≤ a' → b ≤ b' →
      (s = 1 → t = 1 → k0V m r1 r2 L a' b' s t A A' B B' ≤ k0V m r1 r2 L a b s t A A' B B') ∧
      (s = -1 → t = -1 → k0V m r1 r2 L a b s t A A' B B' ≤ k0V m r1 r2 L a' b' s t A A' B B')) ∧
    ∃ v, ∀ {ι : Type} {F : Filter ι} {lm ls : ι → ℕ}, Tendsto lm F atTop → (∀ i, lm i ≤ ls i) →
      Tendsto (fun i => k0V m r1 r2 L (lm i) (ls i) s t A A' B B') F (𝓝 v) := by
  have hlm : 1 ≤ transLmin (m : ℤ) ∧ m ≤ transLmin (m : ℤ) := by unfold transLmin; omega
  obtain ⟨θ, T, g⟩ := kernS_hs hlm.1 hlm.2 h1 h2 hs hA hB
  obtain ⟨θ', T', g'⟩ := kernS_hs hlm.1 hlm.2 h1 h2 hs hA' hB'
  unfold k0V
  refine ⟨fun a b => ⟨fun e e' => ?_, fun e e' => ?_⟩, fun a b a' b' ha hb => ⟨fun e e' => ?_, fun e e' => ?_⟩, ?_⟩
  · rw [e, e']; exact add_nonpos (g'.sign _ _).1 (g.sign _ _).1
  · rw [e, e']; exact add_nonneg (g'.sign _ _).2 (g.sign _ _).2
  · rw [e, e']; exact add_le_add (g'.mono (by omega) (by omega)).1 (g.mono (by omega) (by omega)).1
  · rw [e, e']; exact add_le_add (g'.mono (by omega) (by omega)).2 (g.mono (by omega) (by omega)).2
  · obtain ⟨v, -, hv, -⟩ := g.limit es
    obtain ⟨v', -, hv', -⟩ := g'.limit et
    refine ⟨v' + v, fun {ι F lm ls} hl hls => ?_⟩
    have hidx : Tendsto (fun i => (lm i + 1 - transLmin (m : ℤ), ls i + 1 - transLmin (m : ℤ))) F atTop := by
      rw [← prod_atTop_atTop_eq]
      have t : Tendsto (fun c : ℕ => c + 1 - transLmin (m : ℤ)) atTop atTop :=
        tendsto_atTop_atTop.mpr fun b => ⟨b + transLmin (m : ℤ), fun c hc => by omega⟩
      exact (t.comp hl).prodMk (t.comp (tendsto_atTop_mono hls hl))
    have e := (hv'.comp hidx).add (hv.comp hidx)
    simp only [Function.comp_def] at e
    exact e

theorem pairK0_rep {P : PairIn} (h : PairOK P) (hprec : P.precision ≤ 0) (frac : ℝ → ℝ → ℝ) {σa σb τa τb : ℝ} (ea : ElectricSign P.mat1 P.mat3 σa)
    (eb : ElectricSign P.mat2 P.mat3 σb) (ga : MagneticSign P.mat1 P.mat3 τa) (gb : MagneticSign P.mat2 P.mat3 τb) : ∃ A A' B B',
    AmpK0 frac P.mat1 P.mat3 P.r1 σa τa A A' ∧ AmpK0 frac P.mat2 P.mat3 P.r2 σb τb B B' ∧
    ∀ a b, 1 ≤ a → a ≤ b → pairK0 frac (P.cut a b) = .ok (k0V 0 P.r1 P.r2 P.L a b (σa * σb) (τa * τb) A A' B B' +
      2 * ∑ m ∈ Finset.Icc 1 a, k0V m P.r1 P.r2 P.L a b (σa * σb) (τa * τb) A A' B B') := by
  obtain ⟨A, A', hA⟩ := ampK0_exists frac h.m1 h.m3 h.h1 ea ga
  obtain ⟨B, B', hB⟩ := ampK0_exists frac h.m2 h.m3 h.h2 eb gb
  refine ⟨A, A', B, B', hA, hB, fun a b ha hb => ?_⟩
  rw [pairK0_kern (h.cut ha hb) (A := A) (A' := A') (B := B) (B' := B') hA hB, mSummeK0_full (by exact hprec), ok_bind]
  rfl

/-- `mSumme_k0` without early termination. -/
theorem pairK0_cut {P : PairIn} (h : PairOK P) (hprec : P.precision ≤ 0) (frac : ℝ → ℝ → ℝ) : ∃ z : ℕ → ℕ → ℝ,
    (∀ a b, 1 ≤ a → a ≤ b → pairK0 frac (P.cut a b) = .ok (z a b)) ∧
    (∀ a b a' b', 1 ≤ a → a ≤ b → a ≤ a' → b ≤ b' → a' ≤ b' →
      (EqualContrast P.mat1 P.mat2 P.mat3 → z a' b' ≤ z a b) ∧ (OppositeContrast P.mat1 P.mat2 P.mat3 → z a b ≤ z a' b')) ∧
    ∃ v, ∀ {ι : Type} {F : Filter ι} {lm ls : ι → ℕ}, Tendsto lm F atTop → (∀ i, 1 ≤ lm i) → (∀ i, lm i ≤ ls i) →
      Tendsto (fun i => z (lm i) (ls i)) F (𝓝 v) := by
  have prod : ∀ {s t : ℝ}, (s = 1 ∨ s = -1) → (t = 1 ∨ t = -1) → s * t = 1 ∨ s * t = -1 := by
    rintro s t (rfl | rfl) (rfl | rfl) <;> norm_num
  obtain ⟨⟨σa, ea⟩, ⟨τa, ga⟩⟩ := sign_total h.m1.static h.m3.diel h.m3.phys
  obtain ⟨⟨σb, eb⟩, ⟨τb, gb⟩⟩ := sign_total h.m2.static h.m3.diel h.m3.phys
  obtain ⟨A, A', B, B', hA, hB, hz⟩ := pairK0_rep h hprec frac ea eb ga gb
  refine ⟨_, hz, fun a b a' b' ha hb haa hbb hb' => ?_, ?_⟩
  · have hsub : Finset.Icc 1 a ⊆ Finset.Icc 1 a' := Finset.Icc_subset_Icc le_rfl haa
    refine ⟨fun hc => ?_, fun hc => ?_⟩
    · obtain ⟨σ, ea, eb⟩ := hc.electric
      obtain ⟨τ, ga, gb⟩ := hc.magnetic
      obtain ⟨X, X', Y, Y', hX, hY, hw⟩ := pairK0_rep h hprec frac ea eb ga gb
      have e1 : σ * σ = 1 := by rcases ea.sign with e | e <;> rw [e] <;> norm_num
      have e2 : τ * τ = 1 := by rcases ga.sign with e | e <;> rw [e] <;> norm_num
      have q1 := hz a b ha hb
      have q2 := hz a' b' (ha.trans haa) hb'
      rw [hw a b ha hb] at q1
      rw [hw a' b' (ha.trans haa) hb'] at q2
      injection q1 with q1
      injection q2 with q2
      rw [← q1, ← q2]
      have key := fun m => k0V_cut m h.h1 h.h2 h.sep (.inl e1) (.inl e2) hX.1 hX.2.1 hY.1 hY.2.1
      have t0 := ((key 0).2.1 a b a' b' haa hbb).1 e1 e2
      have t1 := Finset.sum_le_sum fun m (_ : m ∈ Finset.Icc 1 a) => ((key m).2.1 a b a' b' haa hbb).1 e1 e2
      have t2 := Finset.sum_le_sum_of_subset_of_nonneg (f := fun m => -k0V m P.r1 P.r2 P.L a' b' (σ * σ) (τ * τ) X X' Y Y') hsub fun m _ _ =>
        neg_nonneg.mpr (((key m).1 a' b').1 e1 e2)
      rw [Finset.sum_neg_distrib, Finset.sum_neg_distrib] at t2
      linarith
    · obtain ⟨σ, ea, eb⟩ := hc.electric
      obtain ⟨τ, ga, gb⟩ := hc.magnetic
      obtain ⟨X, X', Y, Y', hX, hY, hw⟩ := pairK0_rep h hprec frac ea eb ga gb
      have e1 : σ * -σ = -1 := by rcases ea.sign with e | e <;> rw [e] <;> norm_num
      have e2 : τ * -τ = -1 := by rcases ga.sign with e | e <;> rw [e] <;> norm_num
      have q1 := hz a b ha hb
      have q2 := hz a' b' (ha.trans haa) hb'
      rw [hw a b ha hb] at q1
      rw [hw a' b' (ha.trans haa) hb'] at q2
      injection q1 with q1
      injection q2 with q2
      rw [← q1, ← q2]
      have key := fun m => k0V_cut m h.h1 h.h2 h.sep (.inr e1) (.inr e2) hX.1 hX.2.1 hY.1 hY.2.1
      have t0 := ((key 0).2.1 a b a' b' haa hbb).2 e1 e2
      have t1 := Finset.sum_le_sum fun m (_ : m ∈ Finset.Icc 1 a) => ((key m).2.1 a b a' b' haa hbb).2 e1 e2
      have t2 := Finset.sum_le_sum_of_subset_of_nonneg (f := fun m => k0V m P.r1 P.r2 P.L a' b' (σ * -σ) (τ * -τ) X X' Y Y') hsub fun m _ _ =>
        ((key m).1 a' b').2 e1 e2
      linarith
  · choose u hu using fun m => (k0V_cut m h.h1 h.h2 h.sep (prod ea.sign eb.sign) (prod ga.sign gb.sign) hA.1 hA.2.1 hB.1 hB.2.1).2.2
    obtain ⟨C, q, q0, q1, hb⟩ := k0V_geom h hA hB
    refine ⟨u 0 + 2 * ∑' m, u (m + 1), fun {ι F lm ls} hlm h1 hls => ?_⟩
    exact sum_tannery (f := fun i m => k0V m P.r1 P.r2 P.L (lm i) (ls i) (σa * σb) (τa * τb) A A' B B') hlm q0 q1
      (fun i m hm => hb (lm i) (ls i) (h1 i) (hls i) m hm) fun m => hu m hlm hls

end CasSph
