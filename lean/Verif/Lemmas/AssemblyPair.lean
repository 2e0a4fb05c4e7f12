import Verif.Lemmas.FloatBlocks
import Verif.Lemmas.PerturbPair
import Verif.Props.NegM

/-! The computed round-trip matrix of two spheres: errors relative to the matrix of perfect conductors. -/

namespace CasSph

open Spec Matrix

variable {n p : ℕ}

/-- The operator product for given elements. -/
noncomputable def RTElems.op (e : RTElems n p) : Matrix (Fin n ⊕ Fin n) (Fin n ⊕ Fin n) ℝ :=
  roundTrip (fun l => e.aTE l * Real.exp (e.a2 l)) (fun l => e.aTM l * Real.exp (e.a2 l))
    (fun s => e.bTE s * Real.exp (e.b2 s)) (fun s => e.bTM s * Real.exp (e.b2 s))
    (of fun l s => e.V0 l s * Real.exp (e.V4 l s)) (of fun l s => e.V2 l s * Real.exp (e.V4 l s))
    (of fun l s => e.V1 l s * Real.exp (e.V4 l s)) (of fun l s => e.V3 l s * Real.exp (e.V4 l s))

/-- The same with absolute values of Mie coefficients `e0` and translation coefficients `e`. -/
noncomputable def RTElems.absOp (e e0 : RTElems n p) : Matrix (Fin n ⊕ Fin n) (Fin n ⊕ Fin n) ℝ :=
  roundTrip (fun l => |e0.aTE l * Real.exp (e0.a2 l)|) (fun l => |e0.aTM l * Real.exp (e0.a2 l)|)
    (fun s => |e0.bTE s * Real.exp (e0.b2 s)|) (fun s => |e0.bTM s * Real.exp (e0.b2 s)|)
    (of fun l s => |e.V0 l s * Real.exp (e.V4 l s)|) (of fun l s => |e.V2 l s * Real.exp (e.V4 l s)|)
    (of fun l s => |e.V1 l s * Real.exp (e.V4 l s)|) (of fun l s => |e.V3 l s * Real.exp (e.V4 l s)|)

/-- The Mie coefficients are not larger than those of `e0`. -/
structure MieLe (e e0 : RTElems n p) : Prop where
  aTE : ∀ i, |e.aTE i * Real.exp (e.a2 i)| ≤ |e0.aTE i * Real.exp (e0.a2 i)|
  aTM : ∀ i, |e.aTM i * Real.exp (e.a2 i)| ≤ |e0.aTM i * Real.exp (e0.a2 i)|
  bTE : ∀ s, |e.bTE s * Real.exp (e.b2 s)| ≤ |e0.bTE s * Real.exp (e0.b2 s)|
  bTM : ∀ s, |e.bTM s * Real.exp (e.b2 s)| ≤ |e0.bTM s * Real.exp (e0.b2 s)|

/-- The computed matrix, up to conjugation by a diagonal matrix. -/
theorem flBlocks_cl {A : FlFun} {u : ℝ} (hA : RelErr A u) {sum : (p : ℕ) → (Fin p → ℝ) → ℝ} (hS : Sums A sum) (hn : 0 < n) (hp : 0 < p) {δ ε Z : ℝ}
    (hδ : 0 ≤ δ) (hε : 0 ≤ ε) {e' e e0 : RTElems n p} (he : ElemErr δ ε e' e e0) (hm : MieLe e e0) (hZ : LogSize Z e') :
    ∃ (B' : Blocks n) (d : Fin n ⊕ Fin n → ℝ), A.blockmatrices sum e' = .ok B' ∧ (∀ i, 0 < d i) ∧
      ∀ i j, Cl (1 + asmErr u Z δ ε p) (RTElems.absOp e e0 i j) (B'.full i j / (d i * (d j)⁻¹)) (e.op i j) := by
  obtain ⟨skal, a, hs, hcl⟩ := dynamicScaling_cl hA hn hp hZ
  have hz : 0 ≤ Z := (abs_nonneg _).trans (hZ.a2 ⟨0, hn⟩)
  have hu := hA.u0
  have hW : 1 ≤ Real.exp (40 * u * Z) * (1 + u) := one_le_mul_of_one_le_of_one_le (Real.one_le_exp (by positivity)) (by linarith)
  have c0 : ∀ {δ x' x X : ℝ}, 0 ≤ δ → |x| ≤ X → |x' - x| ≤ δ * X → Cl (1 + δ) X x' x := fun h1 h2 h3 => ⟨by linarith, h2, by rwa [add_sub_cancel_left]⟩
  have w : (1 + δ) ^ 2 * (1 + ε) ^ 2 * (Real.exp (40 * u * Z) * (1 + u)) * (1 + u) ^ (p + 6) = 1 + asmErr u Z δ ε p := by
    unfold asmErr; ring
  have hs' : ∀ i j s, Cl (Real.exp (40 * u * Z) * (1 + u))
      (Real.exp (a * ((i.1 : ℝ) - j.1)) * (Real.exp (e'.a2 i) * Real.exp (e'.b2 s) * Real.exp (e'.V4 i s) * Real.exp (e'.V4 j s))) (skal i j s)
      (Real.exp (a * ((i.1 : ℝ) - j.1)) * (Real.exp (e'.a2 i) * Real.exp (e'.b2 s) * Real.exp (e'.V4 i s) * Real.exp (e'.V4 j s))) := by
    intro i j s
    have := hcl i j s
    unfold RTElems.logSkal at this
    rwa [Real.exp_add, Real.exp_add, Real.exp_add] at this
  have hd : ∀ i j : Fin n, Real.exp (a * ((i.1 : ℝ) - j.1)) = Real.exp (a * i.1) * (Real.exp (a * j.1))⁻¹ := by
    intro i j
    rw [← Real.exp_neg, ← Real.exp_add]; congr 1; ring
  refine ⟨_, Sum.elim (fun l => Real.exp (a * l.1)) fun l => Real.exp (a * l.1), by unfold FlFun.blockmatrices; rw [hs]; rfl,
    fun i => by rcases i with i | i <;> exact Real.exp_pos _, ?_⟩
  rintro (i | i) (j | j) <;> unfold RTElems.absOp RTElems.op Blocks.full <;> rw [roundTrip_blocks, roundTrip_blocks] <;>
    simp only [fromBlocks_apply₁₁, fromBlocks_apply₁₂, fromBlocks_apply₂₁, fromBlocks_apply₂₂, of_apply, Sum.elim_inl, Sum.elim_inr, ← hd, ← w]
  · exact entry_cl hA hS (Real.exp_pos _) (Real.exp_pos _) hδ hε hW (fun _ => Real.exp_pos _) (fun _ => Real.exp_pos _) (fun _ => Real.exp_pos _) (hs' i j)
      (c0 hδ (hm.aTE i) (he.aTE i)) (fun s => c0 hε le_rfl (he.V0 i s)) (fun s => c0 hδ (hm.bTE s) (he.bTE s)) (fun s => c0 hε le_rfl (he.V1 j s))
      (fun s => c0 hε le_rfl (he.V2 i s)) (fun s => c0 hδ (hm.bTM s) (he.bTM s)) (fun s => c0 hε le_rfl (he.V3 j s))
  · exact entry_cl hA hS (Real.exp_pos _) (Real.exp_pos _) hδ hε hW (fun _ => Real.exp_pos _) (fun _ => Real.exp_pos _) (fun _ => Real.exp_pos _) (hs' i j)
      (c0 hδ (hm.aTE i) (he.aTE i)) (fun s => c0 hε le_rfl (he.V0 i s)) (fun s => c0 hδ (hm.bTE s) (he.bTE s)) (fun s => c0 hε le_rfl (he.V3 j s))
      (fun s => c0 hε le_rfl (he.V2 i s)) (fun s => c0 hδ (hm.bTM s) (he.bTM s)) (fun s => c0 hε le_rfl (he.V1 j s))
  · exact entry_cl hA hS (Real.exp_pos _) (Real.exp_pos _) hδ hε hW (fun _ => Real.exp_pos _) (fun _ => Real.exp_pos _) (fun _ => Real.exp_pos _) (hs' i j)
      (c0 hδ (hm.aTM i) (he.aTM i)) (fun s => c0 hε le_rfl (he.V2 i s)) (fun s => c0 hδ (hm.bTE s) (he.bTE s)) (fun s => c0 hε le_rfl (he.V1 j s))
      (fun s => c0 hε le_rfl (he.V0 i s)) (fun s => c0 hδ (hm.bTM s) (he.bTM s)) (fun s => c0 hε le_rfl (he.V3 j s))
  · exact entry_cl hA hS (Real.exp_pos _) (Real.exp_pos _) hδ hε hW (fun _ => Real.exp_pos _) (fun _ => Real.exp_pos _) (fun _ => Real.exp_pos _) (hs' i j)
      (c0 hδ (hm.aTM i) (he.aTM i)) (fun s => c0 hε le_rfl (he.V2 i s)) (fun s => c0 hδ (hm.bTE s) (he.bTE s)) (fun s => c0 hε le_rfl (he.V3 j s))
      (fun s => c0 hε le_rfl (he.V0 i s)) (fun s => c0 hδ (hm.bTM s) (he.bTM s)) (fun s => c0 hε le_rfl (he.V1 j s))

/-- Matrices dominated by one with a diagonal factor. -/
theorem Fac.dominated {ι : Type*} [Fintype ι] [DecidableEq ι] {M M' M0 G0 : Matrix ι ι ℝ} {δ : ℝ} (h : Fac M0 G0) (hG : ∀ i j, G0 i j = G0 j i)
    (hM : ∀ i j, |M i j| ≤ |M0 i j|) (hM' : ∀ i j, |M' i j - M i j| ≤ δ * |M0 i j|) :
    ∃ G G', Fac M G ∧ Fac M' G' ∧ (∀ i j, |G i j| ≤ |G0 i j|) ∧ ∀ i j, |G' i j - G i j| ≤ δ * |G0 i j| := by
  obtain ⟨D, X, rfl, rfl⟩ := h
  simp only [diagonal_mul, mul_diagonal] at hM hM' hG
  have z : ∀ i j, D i = 0 → M i j = 0 ∧ M' i j = 0 := by
    intro i j h0
    have h1 := hM i j
    have h2 := hM' i j
    rw [h0, zero_mul, abs_zero] at h1 h2
    have e := abs_nonpos_iff.mp h1
    rw [mul_zero, e, sub_zero] at h2
    exact ⟨e, abs_nonpos_iff.mp h2⟩
  refine ⟨(of fun i j => if D i = 0 then 0 else M i j / D i) * diagonal D, (of fun i j => if D i = 0 then 0 else M' i j / D i) * diagonal D,
    ⟨D, _, ?_, rfl⟩, ⟨D, _, ?_, rfl⟩, ?_, ?_⟩
  · ext i j
    rw [diagonal_mul, of_apply]
    split_ifs with h0
    · rw [(z i j h0).1, mul_zero]
    · field_simp
  · ext i j
    rw [diagonal_mul, of_apply]
    split_ifs with h0
    · rw [(z i j h0).2, mul_zero]
    · field_simp
  · intro i j
    rw [mul_diagonal, mul_diagonal, of_apply]
    split_ifs with h0
    · rw [zero_mul, abs_zero]; positivity
    · have e : M i j / D i * D j = M i j * (D j / D i) := by field_simp
      have e2 : X i j * D j = D i * X i j * (D j / D i) := by field_simp
      rw [e, e2, abs_mul, abs_mul _ (D j / D i)]
      exact mul_le_mul_of_nonneg_right (hM i j) (abs_nonneg _)
  · intro i j
    rw [mul_diagonal, mul_diagonal, mul_diagonal, of_apply, of_apply]
    split_ifs with h0
    · have := hG i j
      rw [h0, mul_zero] at this
      rw [this]; simp
    · have e : M' i j / D i * D j - M i j / D i * D j = (M' i j - M i j) * (D j / D i) := by field_simp
      have e2 : X i j * D j = D i * X i j * (D j / D i) := by field_simp
      rw [e, e2, abs_mul, abs_mul _ (D j / D i), ← mul_assoc]
      exact mul_le_mul_of_nonneg_right (hM' i j) (abs_nonneg _)

theorem six_signs {si ε ss sj : ℝ} (h1 : si * si = 1) (h2 : ε * ε = 1) (h3 : ss * ss = 1) (h4 : sj * sj = 1) (a f b g : ℝ) :
    si * (si * a * (ε * f) * (ss * b) * (sj * ss * (ε * g))) * sj = a * f * b * g := by
  have : si * (si * a * (ε * f) * (ss * b) * (sj * ss * (ε * g))) * sj = (si * si) * (ε * ε) * (ss * ss) * (sj * sj) * (a * f * b * g) := by ring
  rw [this, h1, h2, h3, h4]; ring

/-- The operator of absolute values and the Gram matrix. -/
theorem absOp_fac {m c0 : ℕ} {x : ℝ} (hx : 0 < x) {A B : Bool → ℕ → ℝ} (hA : ∀ P c, 0 ≤ A P c) (hB : ∀ P c, 0 ≤ B P c)
    {aE aM : Fin n → ℝ} {bE bM : Fin p → ℝ} {fE fX gE gX : Matrix (Fin n) (Fin p) ℝ}
    (haE : ∀ i, aE i = A false (c0 + i.1)) (haM : ∀ i, aM i = A true (c0 + i.1)) (hbE : ∀ s, bE s = B false (c0 + s.1)) (hbM : ∀ s, bM s = B true (c0 + s.1))
    (hfE : ∀ i s, fE i s = fab m x false false (c0 + i.1) (c0 + s.1)) (hfX : ∀ i s, fX i s = fab m x false true (c0 + i.1) (c0 + s.1))
    (hgE : ∀ i s, gE i s = fab m x false false (c0 + i.1) (c0 + s.1)) (hgX : ∀ i s, gX i s = fab m x false true (c0 + i.1) (c0 + s.1)) :
    Fac (roundTrip aE aM bE bM fE fX gE gX) ((gram 1 (kern m x c0 A B) (2 * n) (2 * p)).submatrix (ilv n) (ilv n)) := by
  have sg : ∀ a : ℕ, ((-1 : ℝ) ^ a) * (-1) ^ a = 1 := fun a => by rw [← mul_pow]; simp
  have iv : ∀ a : ℕ, ((-1 : ℝ) ^ a)⁻¹ = (-1) ^ a := fun a => by rw [← inv_pow]; norm_num
  have h := roundTrip_mix (m := m) (c0 := c0) (x := x) (α := fun _ _ => 1) (β := fun _ _ => 1) hA hB
    (aE := fun i : Fin n => (-1) ^ (c0 + 1 + i.1) * A false (c0 + i.1)) (aM := fun i : Fin n => -((-1) ^ (c0 + 1 + i.1) * A true (c0 + i.1)))
    (bE := fun i : Fin p => (-1) ^ (c0 + 1 + i.1) * B false (c0 + i.1)) (bM := fun i : Fin p => -((-1) ^ (c0 + 1 + i.1) * B true (c0 + i.1)))
    (fE := of fun i s => (-1) ^ m * fab m x false false (c0 + i.1) (c0 + s.1)) (fX := of fun i s => -((-1) ^ m * fab m x false true (c0 + i.1) (c0 + s.1)))
    (gE := of fun i s => (-1) ^ (c0 + 1 + i.1 + (c0 + 1 + s.1)) * ((-1) ^ m * fab m x false false (c0 + i.1) (c0 + s.1)))
    (gX := of fun i s => -((-1) ^ (c0 + 1 + i.1 + (c0 + 1 + s.1)) * -((-1) ^ m * fab m x false true (c0 + i.1) (c0 + s.1))))
    (fun i => by ring) (fun i => by ring) (fun i => by ring) (fun i => by ring) (fun i s => rfl) (fun i s => rfl) (fun i s => rfl) (fun i s => rfl)
  have e : mixed (pick (fun _ _ => 1) c0) (pick (fun _ _ => 1) c0) (kern m x c0 A B) (2 * n) (2 * p) = gram 1 (kern m x c0 A B) (2 * n) (2 * p) := by
    have := mixed_const 1 1 (kern m x c0 A B) (2 * n) (2 * p)
    rw [mul_one] at this
    exact this
  rw [e] at h
  refine h.of_diag (Sum.elim (fun i => (-1) ^ (c0 + 1 + i.1)) fun i => (-1) ^ (c0 + 1 + i.1)) (fun i => by rcases i with i | i <;> exact pow_ne_zero _ (by norm_num)) ?_
  intro i j
  rw [roundTrip_blocks, roundTrip_blocks]
  rcases i with i | i <;> rcases j with j | j <;>
    simp only [fromBlocks_apply₁₁, fromBlocks_apply₁₂, fromBlocks_apply₂₁, fromBlocks_apply₂₂, of_apply, Sum.elim_inl, Sum.elim_inr, iv, Finset.mul_sum, Finset.sum_mul] <;>
    refine Finset.sum_congr rfl fun s _ => ?_ <;>
    simp only [haE, haM, hbE, hbM, hfE, hfX, hgE, hgX, pow_add (-1 : ℝ) (c0 + 1 + j.1) (c0 + 1 + s.1), neg_mul, mul_neg, neg_neg, mul_add, add_mul] <;>
    rw [six_signs (sg _) (sg _) (sg _) (sg _), six_signs (sg _) (sg _) (sg _) (sg _)]

theorem asmErr_nonneg {u Z δ ε : ℝ} (hu : 0 ≤ u) (hZ : 0 ≤ Z) (hδ : 0 ≤ δ) (hε : 0 ≤ ε) (p : ℕ) : 0 ≤ asmErr u Z δ ε p := by
  unfold asmErr
  have h1 : 1 ≤ (1 + δ) ^ 2 := one_le_pow₀ (by linarith)
  have h2 : 1 ≤ (1 + ε) ^ 2 := one_le_pow₀ (by linarith)
  have h3 : 1 ≤ Real.exp (40 * u * Z) := Real.one_le_exp (by positivity)
  have h4 : 1 ≤ (1 + u) ^ (p + 7) := one_le_pow₀ (by linarith)
  have := one_le_mul_of_one_le_of_one_le (one_le_mul_of_one_le_of_one_le (one_le_mul_of_one_le_of_one_le h1 h2) h3) h4
  linarith

theorem Scatters.abs_le {c : MieCoef} {α A : Bool → ℕ → ℝ} {ρ : ℝ} (h : Scatters c α ρ A) (hα : ∀ P i, |α P i| ≤ 1) (i : ℕ) :
    |teOf c (i + 1)| ≤ A false i ∧ |tmOf c (i + 1)| ≤ A true i := by
  obtain ⟨h1, h2, h3⟩ := h i
  have ab : ∀ n : ℕ, |(-1 : ℝ) ^ n| = 1 := fun n => by rw [abs_pow]; norm_num
  unfold teOf tmOf
  rw [h2, h3, abs_neg, abs_mul, abs_mul, abs_mul, abs_mul, ab, abs_of_nonneg (h1 false).1, abs_of_nonneg (h1 true).1, mul_one, mul_one]
  exact ⟨mul_le_of_le_one_left (h1 false).1 (hα _ _), mul_le_of_le_one_left (h1 true).1 (hα _ _)⟩

/-- The computed round-trip matrix of one `m`. -/
theorem GapPair.assembly {md : Material} {r1 r2 L k : ℝ} {med : Medium} {ca cb : MieCoef} (S : GapPair md r1 r2 L k med) {lmax lssmax : ℕ} {F : FlFun} {u : ℝ} (hF : RelErr F u)
    {sum : (p : ℕ) → (Fin p → ℝ) → ℝ} (hS : Sums F sum) {δ ε Z : ℝ} (hδ : 0 ≤ δ) (hε : 0 ≤ ε) {α β A B0 : Bool → ℕ → ℝ}
    (hA : Scatters ca α (k * r1 * med.n) A) (hB : Scatters cb β (k * r2 * med.n) B0) (hα : ∀ P i, |α P i| ≤ 1) (hβ : ∀ P i, |β P i| ≤ 1)
    {w w0 : WaveIn} (hnL : w.nL = k * L * Real.sqrt med.eps) (hbes : transBessels [w.nL] (.int (lmax + lssmax + 1 : ℕ)) 1 = .ok [w.bes])
    (ga : AgreeTo lmax w.a ca) (gb : AgreeTo lssmax w.b cb)
    (h0a : ∀ i, i + 1 ≤ lmax → |teOf w0.a (i + 1)| = A false i ∧ |tmOf w0.a (i + 1)| = A true i)
    (h0b : ∀ i, i + 1 ≤ lssmax → |teOf w0.b (i + 1)| = B0 false i ∧ |tmOf w0.b (i + 1)| = B0 true i)
    {m : ℕ} (hm1 : max 1 m ≤ lmax) (hm2 : max 1 m ≤ lssmax) {e e0 e' : RTElems (lmax + 1 - transLmin m) (lssmax + 1 - transLmin m)}
    (h1 : roundTripElements lmax lssmax m true w.nL w.bes w.a w.b = .ok e) (h2 : roundTripElements lmax lssmax m true w.nL w.bes w0.a w0.b = .ok e0)
    (he : ElemErr δ ε e' e e0) (hZ : LogSize Z e')
    (hs : (1 + asmErr u Z δ ε (lssmax + 1 - transLmin m)) * shrink (r1 * Real.sqrt med.mu) (r2 * Real.sqrt med.mu) L < 1) :
    ∃ B B' : Blocks (lmax + 1 - transLmin m), blockmatricesAt lmax lssmax m true w.nL w.bes w.a w.b = .ok B ∧ F.blockmatrices sum e' = .ok B' ∧
      0 < (1 - B'.full).det ∧ 0 < (1 - B.full).det ∧ |Real.log (1 - B'.full).det - Real.log (1 - B.full).det| ≤
        gain (asmErr u Z δ ε (lssmax + 1 - transLmin m)) (shrink (r1 * Real.sqrt med.mu) (r2 * Real.sqrt med.mu) L) *
          (gram 1 (kern m (k * L * Real.sqrt med.eps) (m - 1) A B0) (2 * (lmax + 1 - transLmin m)) (2 * (lssmax + 1 - transLmin m))).trace := by
  have hsm := Real.sqrt_pos.mpr S.med_pos.2
  have hL : 0 < L := by have := S.sep; have := S.h1; have := S.h2; nlinarith [mul_pos (add_pos S.h1 S.h2) hsm]
  have hx : 0 < k * L * Real.sqrt med.eps := mul_pos (mul_pos S.hk hL) (Real.sqrt_pos.mpr S.med_pos.1)
  rw [← hnL] at hx
  have hlm : transLmin (m : ℤ) = max 1 m := by unfold transLmin; omega
  have hn : 0 < lmax + 1 - transLmin (m : ℤ) := by omega
  have hp : 0 < lssmax + 1 - transLmin (m : ℤ) := by omega
  have hb := hbes
  rw [trans_row_ext] at hb
  injection hb with hb
  injection hb with hb
  have hlen : w.bes.length = lmax + lssmax + 2 := by simp [← hb]
  have hget : ∀ p ≤ lmax + lssmax, w.bes.getD p 0 = lnk1 w.nL p := by
    intro p hp
    rw [List.getD_eq_getElem?_getD, ← hb, List.getElem?_map, List.getElem?_range (by omega)]; rfl
  have hi : ∀ i : Fin (lmax + 1 - transLmin (m : ℤ)), transLmin (m : ℤ) + i.1 = m - 1 + i.1 + 1 ∧ m - 1 + i.1 + 1 ≤ lmax := by
    intro i; have := i.2; omega
  have hj : ∀ s : Fin (lssmax + 1 - transLmin (m : ℤ)), transLmin (m : ℤ) + s.1 = m - 1 + s.1 + 1 ∧ m - 1 + s.1 + 1 ≤ lssmax := by
    intro i; have := i.2; omega
  have hz : 0 ≤ Z := (abs_nonneg _).trans (hZ.a2 ⟨0, hn⟩)
  obtain ⟨B, hBl⟩ := blockmatricesAt_ok hm1 hm2 w.nL w.a w.b
  rw [hb] at hBl
  have hBe : blockmatrices e = .ok B := by
    have := hBl
    unfold blockmatricesAt at this
    rwa [h1, ok_bind] at this
  rw [roundTripElements_ok _ _ _ _ _ _ _ (by omega)] at h1 h2
  injection h1 with h1
  injection h2 with h2
  have ab : ∀ n : ℕ, |(-1 : ℝ) ^ n| = 1 := fun n => by rw [abs_pow]; norm_num
  have hmie : MieLe e e0 := by
    subst h1 h2
    constructor
    · intro i
      show |teOf w.a (transLmin m + i.1)| ≤ |teOf w0.a (transLmin m + i.1)|
      rw [(hi i).1, (h0a _ (hi i).2).1, (teOf_congr ga (by omega) (hi i).2).1]
      exact (hA.abs_le hα _).1
    · intro i
      show |tmOf w.a (transLmin m + i.1)| ≤ |tmOf w0.a (transLmin m + i.1)|
      rw [(hi i).1, (h0a _ (hi i).2).2, (teOf_congr ga (by omega) (hi i).2).2]
      exact (hA.abs_le hα _).2
    · intro i
      show |teOf w.b (transLmin m + i.1)| ≤ |teOf w0.b (transLmin m + i.1)|
      rw [(hj i).1, (h0b _ (hj i).2).1, (teOf_congr gb (by omega) (hj i).2).1]
      exact (hB.abs_le hβ _).1
    · intro i
      show |tmOf w.b (transLmin m + i.1)| ≤ |tmOf w0.b (transLmin m + i.1)|
      rw [(hj i).1, (h0b _ (hj i).2).2, (teOf_congr gb (by omega) (hj i).2).2]
      exact (hB.abs_le hβ _).2
  obtain ⟨B', d, q1, q2, q3⟩ := flBlocks_cl hF hS hn hp hδ hε he hmie hZ
  have hEE : ∀ i s, e.V0 i s * Real.exp (e.V4 i s) = (-1) ^ m * fab m w.nL false false (m - 1 + i.1) (m - 1 + s.1) := by
    intro i s
    subst h1
    have := (hi i).2; have := (hj s).2
    show (vVal true m w.nL w.bes (transLmin m + i.1) (transLmin m + s.1)).EEab * Real.exp (vVal true m w.nL w.bes (transLmin m + i.1) (transLmin m + s.1)).sk = _
    rw [(hi i).1, (hj s).1, vVal_EE_lap hx (by omega) (by omega) m fun p hp => hget p (by omega)]
    simp [fab]
  have hEM : ∀ i s, e.V2 i s * Real.exp (e.V4 i s) = -((-1) ^ m * fab m w.nL false true (m - 1 + i.1) (m - 1 + s.1)) := by
    intro i s
    subst h1
    have := (hi i).2; have := (hj s).2
    show (vVal true m w.nL w.bes (transLmin m + i.1) (transLmin m + s.1)).EMab * Real.exp (vVal true m w.nL w.bes (transLmin m + i.1) (transLmin m + s.1)).sk = _
    rw [(hi i).1, (hj s).1, vVal_EM_lap hx (by omega) (by omega) m fun p hp => hget p (by omega)]
    simp [fab]
  have hEE' : ∀ i s, e.V1 i s * Real.exp (e.V4 i s) = (-1) ^ (transLmin (m : ℤ) + i.1 + (transLmin (m : ℤ) + s.1)) * (e.V0 i s * Real.exp (e.V4 i s)) := by
    intro i s
    subst h1
    show (vVal true m w.nL w.bes (transLmin m + i.1) (transLmin m + s.1)).EEba * _ = _
    rw [(vVal_back true m w.nL w.bes _ _).1, mul_assoc]
    rfl
  have hEM' : ∀ i s, e.V3 i s * Real.exp (e.V4 i s) = -((-1) ^ (transLmin (m : ℤ) + i.1 + (transLmin (m : ℤ) + s.1)) * (e.V2 i s * Real.exp (e.V4 i s))) := by
    intro i s
    subst h1
    show (vVal true m w.nL w.bes (transLmin m + i.1) (transLmin m + s.1)).EMba * _ = _
    rw [(vVal_back true m w.nL w.bes _ _).2, neg_mul, mul_assoc]
    rfl
  have f0 := fab_nonneg m hx
  have hfac : Fac (RTElems.absOp e e0) ((gram 1 (kern m w.nL (m - 1) A B0) (2 * (lmax + 1 - transLmin m)) (2 * (lssmax + 1 - transLmin m))).submatrix (ilv _) (ilv _)) := by
    refine absOp_fac hx (fun P c => ((hA c).1 P).1) (fun P c => ((hB c).1 P).1) ?_ ?_ ?_ ?_ ?_ ?_ ?_ ?_
    · intro i; subst h2
      show |teOf w0.a (transLmin m + i.1)| = _
      rw [(hi i).1, (h0a _ (hi i).2).1]
    · intro i; subst h2
      show |tmOf w0.a (transLmin m + i.1)| = _
      rw [(hi i).1, (h0a _ (hi i).2).2]
    · intro i; subst h2
      show |teOf w0.b (transLmin m + i.1)| = _
      rw [(hj i).1, (h0b _ (hj i).2).1]
    · intro i; subst h2
      show |tmOf w0.b (transLmin m + i.1)| = _
      rw [(hj i).1, (h0b _ (hj i).2).2]
    · intro i s
      rw [of_apply, hEE, abs_mul, ab, one_mul, abs_of_nonneg (f0 _ _ _ _)]
    · intro i s
      rw [of_apply, hEM, abs_neg, abs_mul, ab, one_mul, abs_of_nonneg (f0 _ _ _ _)]
    · intro i s
      rw [of_apply, hEE', hEE, abs_mul, abs_mul, ab, ab, one_mul, one_mul, abs_of_nonneg (f0 _ _ _ _)]
    · intro i s
      rw [of_apply, hEM', hEM, abs_neg, abs_mul, abs_neg, abs_mul, ab, ab, one_mul, one_mul, abs_of_nonneg (f0 _ _ _ _)]
  rw [hnL] at hfac
  have h0 := S.kern_nonneg m A B0
  have dne : ∀ i j, d i * (d j)⁻¹ ≠ 0 := fun i j => mul_ne_zero (q2 i).ne' (inv_ne_zero (q2 j).ne')
  have hκ := asmErr_nonneg hF.u0 hz hδ hε (lssmax + 1 - transLmin m)
  obtain ⟨G, G', g1, g2, g3, g4⟩ := hfac.dominated (M := e.op) (M' := of fun i j => B'.full i j / (d i * (d j)⁻¹)) (δ := asmErr u Z δ ε (lssmax + 1 - transLmin m)) (fun i j => by
      simp only [submatrix_apply]
      rw [gram_apply, gram_apply]
      congr 1
      exact Finset.sum_congr rfl fun s _ => mul_comm _ _) (fun i j => (q3 i j).2.1.trans (le_abs_self _)) (fun i j => by
      have := (q3 i j).2.2
      rw [add_sub_cancel_left] at this
      exact this.trans (mul_le_mul_of_nonneg_left (le_abs_self _) hκ))
  obtain ⟨dg, hdg, hBd⟩ := blockmatrices_diag hBe
  have gB : Fac B.full G := g1.of_diag dg hdg hBd
  have gB' : Fac B'.full G' := g2.of_diag d (fun i => (q2 i).ne') fun i j => by
    rw [of_apply, mul_right_comm, mul_div_cancel₀ _ (dne i j)]
  have back : ∀ M : Matrix (Fin (lmax + 1 - transLmin m) ⊕ Fin (lmax + 1 - transLmin m)) (Fin (lmax + 1 - transLmin m) ⊕ Fin (lmax + 1 - transLmin m)) ℝ,
      M = (M.submatrix (ilv (lmax + 1 - transLmin m)).symm (ilv (lmax + 1 - transLmin m)).symm).submatrix (ilv (lmax + 1 - transLmin m)) (ilv (lmax + 1 - transLmin m)) := by
    intro M
    ext i j
    simp
  rw [back G] at gB
  rw [back G'] at gB'
  refine ⟨B, B', hBl, q1, ?_⟩
  rw [(det_reindex gB).1, (det_reindex gB').1]
  have ag := fun i j => abs_gram (.inl rfl) h0 (σ := 1) (n := 2 * (lmax + 1 - transLmin m)) (p := 2 * (lssmax + 1 - transLmin m)) i j
  refine (S.hs_ratio m hA hB).perturb hκ hs (fun i j => ?_) fun i j => ?_
  · have := g3 ((ilv (lmax + 1 - transLmin m)).symm i) ((ilv (lmax + 1 - transLmin m)).symm j)
    simp only [submatrix_apply, Equiv.apply_symm_apply, ag] at this
    exact this
  · have := g4 ((ilv (lmax + 1 - transLmin m)).symm i) ((ilv (lmax + 1 - transLmin m)).symm j)
    simp only [submatrix_apply, Equiv.apply_symm_apply, ag] at this
    exact this

/-- Two homogeneous spheres: relative errors of the coefficients. -/
theorem PairOK.assembly {P : PairIn} (h : PairOK P) {k : ℝ} (hk : 0 < k) {F : FlFun} {u : ℝ} (hF : RelErr F u) {sum : (p : ℕ) → (Fin p → ℝ) → ℝ}
    (hS : Sums F sum) {δ ε Z : ℝ} (hδ : 0 ≤ δ) (hε : 0 ≤ ε) {w : WaveIn} (hw : waveIn exactBes P k = .ok w) {m : ℕ} (hm : m ≤ P.lmax)
    {e e' : RTElems (P.lmax + 1 - transLmin m) (P.lssmax + 1 - transLmin m)}
    (h1 : roundTripElements P.lmax P.lssmax m true w.nL w.bes w.a w.b = .ok e) (he : ElemErr δ ε e' e e) (hZ : LogSize Z e')
    (hs : (1 + asmErr u Z δ ε (P.lssmax + 1 - transLmin m)) * shrink P.r1 P.r2 P.L < 1) :
    ∃ B', F.blockmatrices sum e' = .ok B' ∧ 0 < (1 - B'.full).det ∧
      |Real.log (1 - B'.full).det - lnDetV P m k| ≤ 2 * gain (asmErr u Z δ ε (P.lssmax + 1 - transLmin m)) (shrink P.r1 P.r2 P.L) * |lnDetV P m k| ∧
      ((∃ σ, DenseSign P.mat1 P.mat3 k σ ∧ DenseSign P.mat2 P.mat3 k σ) →
        |Real.log (1 - B'.full).det - lnDetV P m k| ≤ gain (asmErr u Z δ ε (P.lssmax + 1 - transLmin m)) (shrink P.r1 P.r2 P.L) * |lnDetV P m k|) := by
  have hm1 : max 1 m ≤ P.lmax := by have := h.hl; omega
  have hlm : transLmin (m : ℤ) = max 1 m := by unfold transLmin; omega
  have hn : 0 < P.lmax + 1 - transLmin (m : ℤ) := by omega
  have hz : 0 ≤ Z := (abs_nonneg _).trans (hZ.a2 ⟨0, hn⟩)
  obtain ⟨a, b, S⟩ := h.pair hk
  obtain ⟨w1, hw1, e1, e2, g1, g2⟩ := waveIn_ok' S
  rw [hw] at hw1
  injection hw1 with hw1
  subst hw1
  have G : GapPair P.mat3 P.r1 P.r2 P.L k ⟨P.mat3.epsV k, 1⟩ := S.gap
  have hκ := asmErr_nonneg hF.u0 hz hδ hε (P.lssmax + 1 - transLmin m)
  have hg := gain_nonneg hκ hs
  obtain ⟨κ, eκ⟩ : ∃ κ, κ = asmErr u Z δ ε (P.lssmax + 1 - transLmin m) := ⟨_, rfl⟩
  have main : ∀ {σa σb : ℝ}, DenseSign P.mat1 P.mat3 k σa → DenseSign P.mat2 P.mat3 k σb →
      ∃ B', F.blockmatrices sum e' = .ok B' ∧ 0 < (1 - B'.full).det ∧
      |Real.log (1 - B'.full).det - lnDetV P m k| ≤ (if σa = σb then 1 else 2) * gain κ (shrink P.r1 P.r2 P.L) * |lnDetV P m k| := by
    intro σa σb ea eb
    obtain ⟨A, hA⟩ := amp_exists h.m1 h.m3 hk h.h1 ea
    obtain ⟨B0, hB⟩ := amp_exists h.m2 h.m3 hk h.h2 eb
    obtain ⟨hH, hV⟩ := lnDetV_kern h hm1 hk hA hB
    have ra := (hA.reflects S.hmed S.ha).scatters
    have rb := (hB.reflects S.hmed S.hb).scatters
    have ab : ∀ {m md : Material} {σ : ℝ}, DenseSign m md k σ → |σ| = 1 := fun e => by rcases e.sign with h | h <;> rw [h] <;> norm_num
    obtain ⟨B, B', q1, q2, q3, q4, q5⟩ := G.assembly (w := w) (w0 := w) hF hS hδ hε ra rb (fun _ _ => (ab ea).le) (fun _ _ => (ab eb).le) e1 e2 g1 g2
      (ra.abs_table (fun _ _ => ab ea) g1) (rb.abs_table (fun _ _ => ab eb) g2) hm1 (hm1.trans h.hls) h1 h1 he hZ (by simpa using hs)
    refine ⟨B', q2, q3, ?_⟩
    have hB' : BlocksAt P.mat3 P.L k P.lmax P.lssmax m a b B := by
      rw [blockmatricesAt_congr g1 g2] at q1
      exact ⟨_, w.bes, medium_eps S.hmed, e1 ▸ e2, e1 ▸ q1⟩
    have e : lnDetV P m k = Real.log (1 - B.full).det := by
      rw [hV, (det_reindex ((S.array_of m (hA.reflects S.hmed S.ha) (hB.reflects S.hmed S.hb)).2.2 hB')).1]
    rw [Real.sqrt_one, mul_one, mul_one, ← e, ← eκ] at q5
    refine q5.trans ?_
    rw [show ∀ x : ℝ, x * gain κ (shrink P.r1 P.r2 P.L) * |lnDetV P m k| = gain κ (shrink P.r1 P.r2 P.L) * (x * |lnDetV P m k|) from
      fun x => by ring]
    refine mul_le_mul_of_nonneg_left ?_ (eκ ▸ hg)
    have t := hH.trace_le_log (2 * (P.lmax + 1 - transLmin m)) (2 * (P.lssmax + 1 - transLmin m))
    rw [hV]
    split_ifs with hσ
    · have e1 : σa * σb = 1 := by rw [← hσ]; rcases ea.sign with h | h <;> rw [h] <;> norm_num
      rw [e1, one_mul]
      exact t.1.trans (neg_le_abs _)
    · have e1 : σa * σb = -1 := by
        rcases ea.sign with h1 | h1 <;> rcases eb.sign with h2 | h2 <;> rw [h1, h2] at hσ ⊢ <;> first | exact absurd rfl hσ | norm_num
      rw [e1]
      exact t.2.trans (mul_le_mul_of_nonneg_left (le_abs_self _) (by norm_num))
  obtain ⟨σa, ea⟩ := dense_total h.m1 h.m3 hk
  obtain ⟨σb, eb⟩ := dense_total h.m2 h.m3 hk
  obtain ⟨B', q1, q2, q3⟩ := main ea eb
  rw [← eκ] at hg ⊢
  refine ⟨B', q1, q2, q3.trans (mul_le_mul_of_nonneg_right (mul_le_mul_of_nonneg_right (by split_ifs <;> norm_num) hg) (abs_nonneg _)), ?_⟩
  rintro ⟨σ, ea, eb⟩
  obtain ⟨B'', q1', q2', q3'⟩ := main ea eb
  rw [q1] at q1'
  injection q1' with q1'
  subst q1'
  rwa [if_pos rfl, one_mul] at q3'

/-- Two homogeneous or stratified spheres: errors relative to the coefficients of perfect conductors. -/
theorem BallPairOK.assembly {P : BallPair} {R1 R2 : ℝ} (h : BallPairOK P R1 R2) {k : ℝ} (hk : 0 < k) {F : FlFun} {u : ℝ} (hF : RelErr F u)
    {sum : (p : ℕ) → (Fin p → ℝ) → ℝ} (hS : Sums F sum) {δ ε Z : ℝ} (hδ : 0 ≤ δ) (hε : 0 ≤ ε) {w w0 : WaveIn} (hw : ballWave exactBes P k = .ok w)
    (hw0 : waveIn exactBes (P.metal R1 R2) k = .ok w0) {m : ℕ} (hm : m ≤ P.lmax) {e e0 e' : RTElems (P.lmax + 1 - transLmin m) (P.lssmax + 1 - transLmin m)}
    (h1 : roundTripElements P.lmax P.lssmax m true w.nL w.bes w.a w.b = .ok e) (h2 : roundTripElements P.lmax P.lssmax m true w0.nL w0.bes w0.a w0.b = .ok e0)
    (he : ElemErr δ ε e' e e0) (hZ : LogSize Z e') (hs : (1 + asmErr u Z δ ε (P.lssmax + 1 - transLmin m)) * shrink R1 R2 P.L < 1) :
    ∃ B', F.blockmatrices sum e' = .ok B' ∧ 0 < (1 - B'.full).det ∧
      |Real.log (1 - B'.full).det - lnBall P m k| ≤ gain (asmErr u Z δ ε (P.lssmax + 1 - transLmin m)) (shrink R1 R2 P.L) * -lnDetV (P.metal R1 R2) m k := by
  have hm1 : max 1 m ≤ P.lmax := by have := h.hl; omega
  have hlm : transLmin (m : ℤ) = max 1 m := by unfold transLmin; omega
  have hn : 0 < P.lmax + 1 - transLmin (m : ℤ) := by omega
  have hz : 0 ≤ Z := (abs_nonneg _).trans (hZ.a2 ⟨0, hn⟩)
  obtain ⟨ca, ha, ⟨α, hα, sa⟩, -, -⟩ := h.ok1.scatters h.m3 hk
  obtain ⟨cb, hb, ⟨β, hβ, sb⟩, -, -⟩ := h.ok2.scatters h.m3 hk
  obtain ⟨a, b, S⟩ := h.metal.pair hk
  obtain ⟨w1, hw1, z01, z02, z1, z2⟩ := waveIn_ok' S
  rw [hw0] at hw1
  injection hw1 with hw1
  subst hw1
  have hmed : (P.H P.mat3).medium k = .ok ⟨(P.H P.mat3).epsV k, 1⟩ := S.hmed
  have G : GapPair (P.H P.mat3) R1 R2 P.L k ⟨(P.H P.mat3).epsV k, 1⟩ := S.gap
  obtain ⟨t1, e1, g1⟩ := ha P.lmax
  obtain ⟨t2, e2, g2⟩ := hb P.lssmax
  have hwe : w = ⟨k * P.L * Real.sqrt ((P.H P.mat3).epsV k), (List.range (P.lmax + P.lssmax + 1 + 1)).map (lnk1 (k * P.L * Real.sqrt ((P.H P.mat3).epsV k))), t1, t2⟩ := by
    unfold ballWave at hw
    rw [e1, ok_bind, e2, ok_bind, medium_eps hmed, ok_bind, trans_row_ext, ok_bind] at hw
    injection hw with hw
    exact hw.symm
  have n0 : w0.nL = w.nL := by rw [hwe]; exact z01
  have b0 : w0.bes = w.bes := by
    rw [trans_row_ext] at z02
    injection z02 with z02
    injection z02 with z02
    rw [← z02, n0, hwe]
    rfl
  have p1 := amp_pec rfl pec_sphere h.m3 hk h.ok1.pos
  have p2 := amp_pec rfl pec_sphere h.m3 hk h.ok2.pos
  obtain ⟨hH, hV⟩ := lnDetV_kern h.metal (m := m) hm1 hk p1 p2
  have en : ∀ R : ℝ, k * R * (⟨(P.H P.mat3).epsV k, 1⟩ : Medium).n = k * Real.sqrt ((P.H P.mat3).epsV k) * R := fun R => by
    unfold Medium.n; simp only [mul_one]; ring
  have sa' : Scatters ca α (k * R1 * (⟨(P.H P.mat3).epsV k, 1⟩ : Medium).n) fun Q i => pecR Q i (k * Real.sqrt ((P.H P.mat3).epsV k) * R1) := by
    simp only [en] at sa ⊢; exact sa
  have sb' : Scatters cb β (k * R2 * (⟨(P.H P.mat3).epsV k, 1⟩ : Medium).n) fun Q i => pecR Q i (k * Real.sqrt ((P.H P.mat3).epsV k) * R2) := by
    simp only [en] at sb ⊢; exact sb
  have ra := (p1.reflects S.hmed S.ha).scatters
  have rb := (p2.reflects S.hmed S.hb).scatters
  rw [n0, b0] at h2
  obtain ⟨B, B', q1, q2, q3, q4, q5⟩ := G.assembly (lmax := P.lmax) (lssmax := P.lssmax) (w := w) (w0 := w0) hF hS hδ hε sa' sb' hα hβ (by rw [hwe]) (by rw [hwe]; exact trans_row_ext _ _) (by rw [hwe]; exact g1)
    (by rw [hwe]; exact g2) (ra.abs_table (fun _ _ => by norm_num) z1) (rb.abs_table (fun _ _ => by norm_num) z2) hm1 (hm1.trans h.hls) h1 h2 he hZ (by simpa using hs)
  refine ⟨B', q2, q3, ?_⟩
  have el : lnBall P m k = Real.log (1 - B.full).det := by
    unfold lnBall
    rw [hw]
    simp only
    rw [q1]
  rw [el]
  rw [Real.sqrt_one, mul_one, mul_one] at q5
  refine q5.trans (mul_le_mul_of_nonneg_left ?_ (gain_nonneg (asmErr_nonneg hF.u0 hz hδ hε _) hs))
  have t := (hH.trace_le_log (2 * (P.lmax + 1 - transLmin m)) (2 * (P.lssmax + 1 - transLmin m))).1
  rw [hV, one_mul]
  exact t

end CasSph
