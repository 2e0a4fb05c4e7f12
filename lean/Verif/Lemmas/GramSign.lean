import Verif.Lemmas.SchurTest
import Verif.Props.RoundTrips

/-! Determinants and traces of `1 - σ H Hᵀ` for all corners of an infinite contraction `H` with finite Hilbert-Schmidt norm. -/

namespace CasSph

open Spec Filter Topology Matrix

theorem Contr.mono {H : ℕ → ℕ → ℝ} {θ θ' : ℝ} (h : Contr H θ) (hθ : θ ≤ θ') : Contr H θ' := fun n p z =>
  (h n p z).trans (mul_le_mul_of_nonneg_right hθ (Finset.sum_nonneg fun i _ => sq_nonneg _))

/-- An infinite matrix with `‖H‖² ≤ θ < 1` and Hilbert-Schmidt norm at most `√T`. -/
structure HSContr (H : ℕ → ℕ → ℝ) (θ T : ℝ) : Prop where
  nonneg : 0 ≤ θ
  lt : θ < 1
  contr : Contr H θ
  hs : ∀ n p, ∑ i, ∑ s, corner H n p i s ^ 2 ≤ T

/-- `σ H Hᵀ` for one corner. -/
noncomputable def gram (σ : ℝ) (H : ℕ → ℕ → ℝ) (n p : ℕ) : Matrix (Fin n) (Fin n) ℝ :=
  σ • (corner H n p * (corner H n p)ᵀ)

variable {H : ℕ → ℕ → ℝ} {θ T σ : ℝ}

theorem HSContr.T_nonneg (h : HSContr H θ T) : 0 ≤ T := by simpa using h.hs 0 0

theorem HSContr.bounds (h : HSContr H θ T) (hσ : σ = 1 ∨ σ = -1) (n p : ℕ) :
    Real.exp (-(T / (1 - θ))) ≤ (1 - gram σ H n p).det ∧ (1 - gram σ H n p).det ≤ Real.exp (T / (1 - θ)) ∧
    (σ = 1 → (1 - gram σ H n p).det ≤ 1) ∧ (σ = -1 → 1 ≤ (1 - gram σ H n p).det) := by
  have h1 : 0 < 1 - θ := by linarith [h.lt]
  have ht := h.hs n p
  have hT := h.T_nonneg
  set Q := ∑ i, ∑ s, corner H n p i s ^ 2
  have hQb : Q / (1 - θ) ≤ T / (1 - θ) := div_le_div_of_nonneg_right ht h1.le
  have hTT : T ≤ T / (1 - θ) := by rw [le_div_iff₀ h1]; nlinarith [h.nonneg]
  have hb0 : 0 ≤ T / (1 - θ) := hT.trans hTT
  unfold gram
  rcases hσ with e | e
  · subst e
    obtain ⟨q1, q2⟩ := det_one_sub_bounds h.lt (h.contr n p)
    rw [one_smul]
    refine ⟨le_trans (Real.exp_le_exp.mpr ?_) q1, q2.trans (Real.one_le_exp hb0), fun _ => q2, fun h => by norm_num at h⟩
    rw [neg_div]; exact neg_le_neg hQb
  · subst e
    obtain ⟨q1, q2⟩ := det_one_add_bounds (corner H n p)
    rw [neg_smul, one_smul, sub_neg_eq_add]
    exact ⟨le_trans (Real.exp_le_one_iff.mpr (by linarith)) q1, q2.trans (Real.exp_le_exp.mpr (ht.trans hTT)),
      fun h => by norm_num at h, fun _ => q1⟩

theorem HSContr.pos (h : HSContr H θ T) (hσ : σ = 1 ∨ σ = -1) (n p : ℕ) :
    0 < (1 - gram σ H n p).det ∧ |Real.log (1 - gram σ H n p).det| ≤ T / (1 - θ) := by
  obtain ⟨q1, q2, -, -⟩ := h.bounds hσ n p
  have hD := (Real.exp_pos _).trans_le q1
  exact ⟨hD, abs_le.mpr ⟨(Real.le_log_iff_exp_le hD).mpr q1, (Real.log_le_iff_le_exp hD).mpr q2⟩⟩

theorem HSContr.sign (h : HSContr H θ T) (n p : ℕ) :
    Real.log (1 - gram 1 H n p).det ≤ 0 ∧ 0 ≤ Real.log (1 - gram (-1) H n p).det :=
  ⟨Real.log_nonpos (h.pos (.inl rfl) n p).1.le ((h.bounds (.inl rfl) n p).2.2.1 rfl),
    Real.log_nonneg ((h.bounds (.inr rfl) n p).2.2.2 rfl)⟩

theorem HSContr.mono (h : HSContr H θ T) {n n' p p' : ℕ} (hn : n ≤ n') (hp : p ≤ p') :
    Real.log (1 - gram 1 H n' p').det ≤ Real.log (1 - gram 1 H n p).det ∧
    Real.log (1 - gram (-1) H n p).det ≤ Real.log (1 - gram (-1) H n' p').det := by
  refine ⟨Real.log_le_log (h.pos (.inl rfl) _ _).1 ?_, Real.log_le_log (h.pos (.inr rfl) _ _).1 ?_⟩ <;> unfold gram
  · rw [one_smul, one_smul]
    exact det_corner_antitone h.nonneg h.lt h.contr hn hp
  · simp only [neg_smul, one_smul, sub_neg_eq_add]
    exact det_corner_monotone H hn hp

theorem HSContr.limit (h : HSContr H θ T) (hσ : σ = 1 ∨ σ = -1) :
    ∃ v, |v| ≤ T / (1 - θ) ∧ Tendsto (fun c : ℕ × ℕ => Real.log (1 - gram σ H c.1 c.2).det) atTop (𝓝 v) ∧
      (σ = 1 → ∀ c : ℕ × ℕ, v ≤ Real.log (1 - gram σ H c.1 c.2).det) ∧
      (σ = -1 → ∀ c : ℕ × ℕ, Real.log (1 - gram σ H c.1 c.2).det ≤ v) := by
  have hb := fun c : ℕ × ℕ => abs_le.mp (h.pos hσ c.1 c.2).2
  have key : ∃ v, Tendsto (fun c : ℕ × ℕ => Real.log (1 - gram σ H c.1 c.2).det) atTop (𝓝 v) ∧
      (σ = 1 → ∀ c : ℕ × ℕ, v ≤ Real.log (1 - gram σ H c.1 c.2).det) ∧
      (σ = -1 → ∀ c : ℕ × ℕ, Real.log (1 - gram σ H c.1 c.2).det ≤ v) := by
    rcases hσ with e | e
    · have hm : Antitone fun c : ℕ × ℕ => Real.log (1 - gram σ H c.1 c.2).det := by
        intro c c' hcc; subst e; exact (h.mono hcc.1 hcc.2).1
      have hbd : BddBelow (Set.range fun c : ℕ × ℕ => Real.log (1 - gram σ H c.1 c.2).det) :=
        ⟨-(T / (1 - θ)), by rintro _ ⟨c, rfl⟩; exact (hb c).1⟩
      exact ⟨_, tendsto_atTop_ciInf hm hbd, fun _ c => ciInf_le hbd c, fun h => by rw [e] at h; norm_num at h⟩
    · have hm : Monotone fun c : ℕ × ℕ => Real.log (1 - gram σ H c.1 c.2).det := by
        intro c c' hcc; subst e; exact (h.mono hcc.1 hcc.2).2
      have hbd : BddAbove (Set.range fun c : ℕ × ℕ => Real.log (1 - gram σ H c.1 c.2).det) :=
        ⟨T / (1 - θ), by rintro _ ⟨c, rfl⟩; exact (hb c).2⟩
      exact ⟨_, tendsto_atTop_ciSup hm hbd, fun h => by rw [e] at h; norm_num at h, fun _ c => le_ciSup hbd c⟩
  obtain ⟨v, hv, h1, h2⟩ := key
  exact ⟨v, le_of_tendsto hv.abs (Eventually.of_forall fun c => (h.pos hσ c.1 c.2).2), hv, h1, h2⟩

/-! ### traces -/

theorem quad_gram (n p : ℕ) (z : Fin n → ℝ) : z ⬝ᵥ (gram 1 H n p *ᵥ z) = ∑ s, (∑ i, z i * corner H n p i s) ^ 2 := by
  unfold gram; rw [one_smul, quad_mul_transpose]

theorem trace_conj {κ : Type*} [Fintype κ] {n : ℕ} (N : Matrix (Fin n) (Fin n) ℝ) (X : Matrix (Fin n) κ ℝ) :
    (Xᵀ * (N * X)).trace = ∑ c, (fun i => X i c) ⬝ᵥ (N *ᵥ fun i => X i c) := by
  simp only [Matrix.trace, Matrix.diag_apply, Matrix.mul_apply, dotProduct, Matrix.mulVec, Matrix.transpose_apply]

theorem HSContr.conj_le (h : HSContr H θ T) {κ : Type*} [Fintype κ] {n p : ℕ} (X : Matrix (Fin n) κ ℝ) :
    0 ≤ (Xᵀ * (gram 1 H n p * X)).trace ∧ (Xᵀ * (gram 1 H n p * X)).trace ≤ θ * (Xᵀ * X).trace := by
  rw [trace_conj]
  have e : (Xᵀ * X).trace = ∑ c, ∑ i, X i c ^ 2 := by
    simp only [Matrix.trace, Matrix.diag_apply, Matrix.mul_apply, Matrix.transpose_apply, sq]
  rw [e, Finset.mul_sum]
  simp only [quad_gram]
  exact ⟨Finset.sum_nonneg fun c _ => Finset.sum_nonneg fun s _ => sq_nonneg _,
    Finset.sum_le_sum fun c _ => h.contr n p _⟩

theorem gram_symm (n p : ℕ) : (gram 1 H n p)ᵀ = gram 1 H n p := by
  unfold gram
  rw [one_smul, Matrix.transpose_mul, Matrix.transpose_transpose]

/-- Powers of the Gram matrix have non-negative traces which decrease by `θ` at least. -/
theorem HSContr.trace_step (h : HSContr H θ T) (n p j : ℕ) :
    0 ≤ (gram 1 H n p ^ (j + 1)).trace ∧ (1 ≤ j → (gram 1 H n p ^ (j + 1)).trace ≤ θ * (gram 1 H n p ^ j).trace) := by
  set N := gram 1 H n p with hN
  have hsy : ∀ i : ℕ, (N ^ i)ᵀ = N ^ i := fun i => by rw [Matrix.transpose_pow, hN, gram_symm]
  rcases Nat.even_or_odd' j with ⟨i, rfl | rfl⟩
  · have hc := h.conj_le (p := p) (N ^ i)
    rw [hsy, ← hN, ← Matrix.mul_assoc, ← _root_.pow_succ, ← _root_.pow_add, ← _root_.pow_add] at hc
    rw [show i + 1 + i = 2 * i + 1 by ring, show i + i = 2 * i by ring] at hc
    exact ⟨hc.1, fun _ => hc.2⟩
  · have hc := h.conj_le (p := p) (N ^ i * corner H n p)
    have e2 : ((N ^ i * corner H n p)ᵀ * (N ^ i * corner H n p)).trace = (N ^ (2 * i + 1)).trace := by
      rw [Matrix.trace_mul_comm, Matrix.transpose_mul, hsy, ← Matrix.mul_assoc, Matrix.mul_assoc (N ^ i) (corner H n p),
        show corner H n p * (corner H n p)ᵀ = N by rw [hN]; unfold gram; rw [one_smul], ← _root_.pow_succ, ← _root_.pow_add]
      congr 2; ring
    have e1 : ((N ^ i * corner H n p)ᵀ * (N * (N ^ i * corner H n p))).trace = (N ^ (2 * i + 1 + 1)).trace := by
      rw [Matrix.trace_mul_comm, ← Matrix.mul_assoc N, ← _root_.pow_succ', Matrix.transpose_mul, hsy, ← Matrix.mul_assoc,
        Matrix.mul_assoc (N ^ (i + 1)) (corner H n p),
        show corner H n p * (corner H n p)ᵀ = N by rw [hN]; unfold gram; rw [one_smul], ← _root_.pow_succ, ← _root_.pow_add]
      congr 2; ring
    rw [← hN, e1, e2] at hc
    exact ⟨hc.1, fun _ => hc.2⟩

theorem HSContr.trace_le (h : HSContr H θ T) (n p j : ℕ) : (gram 1 H n p ^ (j + 1)).trace ≤ θ ^ j * T := by
  induction j with
  | zero =>
    rw [zero_add, pow_one, pow_zero, one_mul]
    unfold gram
    rw [one_smul, trace_mul_transpose]
    exact h.hs n p
  | succ j ih =>
    refine ((h.trace_step n p (j + 1)).2 (by omega)).trans ?_
    rw [_root_.pow_succ θ, mul_comm (θ ^ j), mul_assoc]
    exact mul_le_mul_of_nonneg_left ih h.nonneg

theorem gram_pow (n p j : ℕ) : gram σ H n p ^ j = σ ^ j • gram 1 H n p ^ j := by
  unfold gram
  rw [one_smul, smul_pow]

theorem HSContr.norm_le (h : HSContr H θ T) (hσ : σ = 1 ∨ σ = -1) {n p : ℕ} (u : Fin n → ℝ) :
    ∑ i, (gram σ H n p *ᵥ u) i ^ 2 ≤ θ ^ 2 * ∑ i, u i ^ 2 := by
  have e : ∀ i, (gram σ H n p *ᵥ u) i ^ 2 = (∑ s, (∑ j, u j * corner H n p j s) * corner (fun a b => H b a) p n s i) ^ 2 := by
    intro i
    have hs : σ ^ 2 = 1 := by rcases hσ with e | e <;> rw [e] <;> norm_num
    have : (gram σ H n p *ᵥ u) i = σ * ∑ s, (∑ j, u j * corner H n p j s) * corner (fun a b => H b a) p n s i := by
      unfold gram
      rw [Matrix.smul_mulVec, Pi.smul_apply, smul_eq_mul, ← Matrix.mulVec_mulVec]
      congr 1
      simp only [Matrix.mulVec, dotProduct, Matrix.transpose_apply]
      refine Finset.sum_congr rfl fun s _ => ?_
      rw [mul_comm]
      exact congrArg₂ _ (Finset.sum_congr rfl fun j _ => mul_comm _ _) rfl
    rw [this, mul_pow, hs, one_mul]
  simp only [e]
  refine (Contr.swap h.nonneg h.contr p n _).trans ?_
  rw [sq, mul_assoc]
  exact mul_le_mul_of_nonneg_left (h.contr n p u) h.nonneg

theorem HSContr.spectrum (h : HSContr H θ T) (hσ : σ = 1 ∨ σ = -1) (n p : ℕ) : SpectrumInDisc (gram σ H n p) := by
  intro z x hx hz
  set N := gram σ H n p with hN
  have hre : ∀ i, (N *ᵥ fun j => (x j).re) i = (z * x i).re := by
    intro i
    have := congrArg Complex.re (congrFun hz i)
    simp only [Matrix.mulVec, dotProduct, Matrix.map_apply, Pi.smul_apply, smul_eq_mul, Complex.re_sum] at this
    rw [← this]
    simp [Matrix.mulVec, dotProduct]
  have him : ∀ i, (N *ᵥ fun j => (x j).im) i = (z * x i).im := by
    intro i
    have := congrArg Complex.im (congrFun hz i)
    simp only [Matrix.mulVec, dotProduct, Matrix.map_apply, Pi.smul_apply, smul_eq_mul, Complex.im_sum] at this
    rw [← this]
    simp [Matrix.mulVec, dotProduct]
  have h1 := h.norm_le hσ (p := p) fun j => (x j).re
  have h2 := h.norm_le hσ (p := p) fun j => (x j).im
  rw [← hN] at h1 h2
  simp only [hre, him] at h1 h2
  have hs : ‖z‖ ^ 2 * ∑ i, ‖x i‖ ^ 2 ≤ θ ^ 2 * ∑ i, ‖x i‖ ^ 2 := by
    have e1 : ∀ w : ℂ, ‖w‖ ^ 2 = w.re ^ 2 + w.im ^ 2 := fun w => by
      rw [← Complex.normSq_eq_norm_sq, Complex.normSq_apply]; ring
    have e2 : ‖z‖ ^ 2 * ∑ i, ‖x i‖ ^ 2 = ∑ i, ((z * x i).re ^ 2 + (z * x i).im ^ 2) := by
      rw [Finset.mul_sum]
      exact Finset.sum_congr rfl fun i _ => by rw [← e1, norm_mul, mul_pow]
    rw [e2]
    simp only [e1, Finset.sum_add_distrib, mul_add]
    linarith
  have hpos : 0 < ∑ i, ‖x i‖ ^ 2 := by
    obtain ⟨i, hi⟩ := Function.ne_iff.mp hx
    refine Finset.sum_pos' (fun i _ => sq_nonneg _) ⟨i, Finset.mem_univ _, ?_⟩
    have : 0 < ‖x i‖ := norm_pos_iff.mpr hi
    positivity
  have h3 : ‖z‖ ^ 2 ≤ θ ^ 2 := le_of_mul_le_mul_right hs hpos
  exact (abs_le_of_sq_le_sq' h3 h.nonneg).2.trans_lt h.lt

/-- Truncated trace series for an attractive pair: decreasing towards the logarithm of the determinant with geometric error. -/
theorem HSContr.truncation (h : HSContr H θ T) (n p k : ℕ) :
    0 ≤ -traceSum (gram 1 H n p) k - Real.log (1 - gram 1 H n p).det ∧
    -traceSum (gram 1 H n p) k - Real.log (1 - gram 1 H n p).det ≤ T * θ ^ k / ((k + 1) * (1 - θ)) := by
  have hlim := traceSum_tendsto (h.spectrum (.inl rfl) n p)
  rw [abs_of_pos (h.pos (.inl rfl) n p).1] at hlim
  have h1 : 0 < 1 - θ := by linarith [h.lt]
  have hT := h.T_nonneg
  have hθ := h.nonneg
  have step : ∀ k, traceSum (gram 1 H n p) (k + 1) = traceSum (gram 1 H n p) k + (gram 1 H n p ^ (k + 1)).trace / ((k + 1 : ℕ) : ℝ) := by
    intro k; unfold traceSum; rw [Finset.sum_Icc_succ_top (by omega)]
  have hmono : Monotone fun k => traceSum (gram 1 H n p) k := by
    refine monotone_nat_of_le_succ fun k => ?_
    rw [step]
    have := div_nonneg (h.trace_step n p k).1 (Nat.cast_nonneg (k + 1) : (0 : ℝ) ≤ ((k + 1 : ℕ) : ℝ))
    linarith
  have hge := hmono.ge_of_tendsto hlim k
  have hle : ∀ j, traceSum (gram 1 H n p) (k + j) ≤ traceSum (gram 1 H n p) k +
      T * θ ^ k / (k + 1) * ((1 - θ ^ j) / (1 - θ)) := by
    intro j
    induction j with
    | zero => simp
    | succ j ih =>
      rw [← add_assoc, step]
      have hb : (gram 1 H n p ^ (k + j + 1)).trace / ((k + j + 1 : ℕ) : ℝ) ≤ T * θ ^ k / (k + 1) * θ ^ j := by
        have e : T * θ ^ k / (k + 1) * θ ^ j = θ ^ (k + j) * T / (k + 1) := by rw [_root_.pow_add]; ring
        rw [e]
        refine div_le_div₀ (by positivity) (h.trace_le n p (k + j)) (by positivity) ?_
        push_cast; linarith [(Nat.cast_nonneg j : (0 : ℝ) ≤ j)]
      have e2 : (1 - θ ^ (j + 1)) / (1 - θ) = (1 - θ ^ j) / (1 - θ) + θ ^ j := by
        rw [_root_.pow_succ]; field_simp; ring
      rw [e2, mul_add]
      linarith
  have hub : -Real.log (1 - gram 1 H n p).det ≤ traceSum (gram 1 H n p) k + T * θ ^ k / ((k + 1) * (1 - θ)) := by
    have hl2 := hlim.comp (tendsto_add_atTop_nat k)
    refine le_of_tendsto hl2 (Eventually.of_forall fun j => ?_)
    simp only [Function.comp]
    rw [add_comm j k]
    refine (hle j).trans ?_
    have : T * θ ^ k / ((k + 1) * (1 - θ)) = T * θ ^ k / (k + 1) * (1 / (1 - θ)) := by field_simp
    rw [this]
    have hh : (1 - θ ^ j) / (1 - θ) ≤ 1 / (1 - θ) := div_le_div_of_nonneg_right (by linarith [pow_nonneg hθ j]) h1.le
    have : 0 ≤ T * θ ^ k / (k + 1) := by positivity
    nlinarith [mul_le_mul_of_nonneg_left hh this]
  constructor <;> linarith

/-- The same error bound for both signs. -/
theorem HSContr.truncation_abs (h : HSContr H θ T) (hσ : σ = 1 ∨ σ = -1) (n p k : ℕ) :
    |-traceSum (gram σ H n p) k - Real.log (1 - gram σ H n p).det| ≤ T * θ ^ k / ((k + 1) * (1 - θ)) := by
  have hlim := traceSum_tendsto (h.spectrum hσ n p)
  rw [abs_of_pos (h.pos hσ n p).1] at hlim
  have h1 : 0 < 1 - θ := by linarith [h.lt]
  have hT := h.T_nonneg
  have hθ := h.nonneg
  have hσa : ∀ j : ℕ, |σ ^ j| = 1 := by
    intro j; rw [abs_pow]; rcases hσ with e | e <;> rw [e] <;> simp
  have hle : ∀ j, |traceSum (gram σ H n p) (k + j) - traceSum (gram σ H n p) k| ≤
      T * θ ^ k / (k + 1) * ((1 - θ ^ j) / (1 - θ)) := by
    intro j
    induction j with
    | zero => simp
    | succ j ih =>
      have step : traceSum (gram σ H n p) (k + (j + 1)) = traceSum (gram σ H n p) (k + j) +
          (gram σ H n p ^ (k + j + 1)).trace / ((k + j + 1 : ℕ) : ℝ) := by
        unfold traceSum; rw [← add_assoc, Finset.sum_Icc_succ_top (by omega)]
      have hb : |(gram σ H n p ^ (k + j + 1)).trace / ((k + j + 1 : ℕ) : ℝ)| ≤ T * θ ^ k / (k + 1) * θ ^ j := by
        have e : T * θ ^ k / (k + 1) * θ ^ j = θ ^ (k + j) * T / (k + 1) := by rw [_root_.pow_add]; ring
        rw [e, gram_pow, Matrix.trace_smul, smul_eq_mul, abs_div, abs_mul, hσa, one_mul, abs_of_nonneg (h.trace_step n p _).1,
          Nat.abs_cast]
        refine div_le_div₀ (by positivity) (h.trace_le n p (k + j)) (by positivity) ?_
        push_cast; linarith [(Nat.cast_nonneg j : (0 : ℝ) ≤ j)]
      have e2 : (1 - θ ^ (j + 1)) / (1 - θ) = (1 - θ ^ j) / (1 - θ) + θ ^ j := by
        rw [_root_.pow_succ]; field_simp; ring
      rw [e2, mul_add, step, add_sub_right_comm]
      exact (abs_add_le _ _).trans (add_le_add ih hb)
  have hl2 := ((hlim.comp (tendsto_add_atTop_nat k)).sub_const (traceSum (gram σ H n p) k)).abs
  have e : |-traceSum (gram σ H n p) k - Real.log (1 - gram σ H n p).det| =
      |-Real.log (1 - gram σ H n p).det - traceSum (gram σ H n p) k| := by
    congr 1; ring
  rw [e]
  refine le_of_tendsto hl2 (Eventually.of_forall fun j => ?_)
  simp only [Function.comp]
  rw [add_comm j k]
  refine (hle j).trans ?_
  have : T * θ ^ k / ((k + 1) * (1 - θ)) = T * θ ^ k / (k + 1) * (1 / (1 - θ)) := by field_simp
  rw [this]
  have hh : (1 - θ ^ j) / (1 - θ) ≤ 1 / (1 - θ) := div_le_div_of_nonneg_right (by linarith [pow_nonneg hθ j]) h1.le
  exact mul_le_mul_of_nonneg_left hh (by positivity)

end CasSph
