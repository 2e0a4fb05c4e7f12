import Verif.Lemmas.StrongerDet
import Verif.Lemmas.CutOff

/-! # Comparison of the zero-frequency contributions of two pairs of spheres -/

namespace CasSph

open Spec Filter Topology Matrix Set

theorem array_stronger {H H' : ℕ → ℕ → ℝ} {u v : ℕ → ℝ} (hu : ∀ s, 0 ≤ u s ∧ u s ≤ 1) (hv : ∀ s, 0 ≤ v s ∧ v s ≤ 1)
    (e : ∀ i s, H i s = u i * H' i s * v s) (h0 : ∀ i s, 0 ≤ H' i s) {θ T θ' T' : ℝ} (g : HSContr H θ T) (g' : HSContr H' θ' T') (n p : ℕ)
    {s s' : ℝ} (hs : s = 1 ∨ s = -1) :
    (s = 1 → s' = 1 → Real.log (1 - gram s' H' n p).det ≤ Real.log (1 - gram s H n p).det) ∧
    (s = -1 → s' = -1 → Real.log (1 - gram s H n p).det ≤ Real.log (1 - gram s' H' n p).det) ∧
    (s' = 1 → |Real.log (1 - gram s H n p).det| ≤ -Real.log (1 - gram s' H' n p).det) := by
  have n1 : ∀ i s, 0 ≤ H i s := fun i s => by rw [e]; exact mul_nonneg (mul_nonneg (hu i).1 (h0 i s)) (hv s).1
  have hle : ∀ i s, H i s ≤ H' i s := fun i s => by
    rw [e]
    calc _ ≤ u i * H' i s := mul_le_of_le_one_right (mul_nonneg (hu i).1 (h0 i s)) (hv s).2
      _ ≤ _ := mul_le_of_le_one_left (h0 i s) (hu i).2
  have key := g'.compare g zero_le_one le_rfl (n := n) (p := p) (fun i _ s _ => n1 i s) (fun i _ s _ => h0 i s) (fun i _ s _ => by rw [one_mul]; exact hle i s)
  rw [one_pow, one_mul] at key
  refine ⟨?_, ?_, ?_⟩
  · rintro rfl rfl; linarith
  · rintro rfl rfl
    refine Real.log_le_log (g.pos (.inr rfl) _ _).1 ?_
    rw [show H = fun i s => u i * H' i s * v s from funext fun i => funext fun s => e i s]
    exact gram_neg_scale _ hu hv _ _
  · rintro rfl
    refine le_trans ?_ key
    rcases hs with rfl | rfl
    · rw [abs_of_nonpos (g.sign _ _).1]
    · rw [abs_of_nonneg (g.sign _ _).2]
      exact g.sign_compare fun i _ s _ => n1 i s

/-- Static amplitudes of two spheres, including the powers of the radii. -/
def AmpLe (r r' : ℝ) (A B : ℕ → ℝ) : Prop := ∀ l, 1 ≤ l → A l * r ^ (2 * l + 1) ≤ B l * r' ^ (2 * l + 1)

theorem k0V_stronger {m : ℕ} {r1 r2 r1' r2' L : ℝ} (h1 : 0 < r1) (h2 : 0 < r2) (hs : r1 + r2 < L) (h1' : 0 < r1') (h2' : 0 < r2') (hs' : r1' + r2' < L)
    (lmax lssmax : ℕ) {A A' B B' X X' Y Y' : ℕ → ℝ} (hA : AmpRange A) (hA' : AmpRange A') (hB : AmpRange B) (hB' : AmpRange B') (hX : AmpRange X)
    (hX' : AmpRange X') (hY : AmpRange Y) (hY' : AmpRange Y') (cA : AmpLe r1 r1' A X) (cA' : AmpLe r1 r1' A' X') (cB : AmpLe r2 r2' B Y)
    (cB' : AmpLe r2 r2' B' Y') {s t s' t' : ℝ} (es : s = 1 ∨ s = -1) (et : t = 1 ∨ t = -1) :
    (s = 1 → t = 1 → s' = 1 → t' = 1 → k0V m r1' r2' L lmax lssmax s' t' X X' Y Y' ≤ k0V m r1 r2 L lmax lssmax s t A A' B B') ∧
    (s = -1 → t = -1 → s' = -1 → t' = -1 → k0V m r1 r2 L lmax lssmax s t A A' B B' ≤ k0V m r1' r2' L lmax lssmax s' t' X X' Y Y') ∧
    (s' = 1 → t' = 1 → |k0V m r1 r2 L lmax lssmax s t A A' B B'| ≤ -k0V m r1' r2' L lmax lssmax s' t' X X' Y Y') := by
  have hL : 0 < L := by linarith
  have hlm : 1 ≤ transLmin (m : ℤ) ∧ m ≤ transLmin (m : ℤ) := by unfold transLmin; omega
  have key : ∀ {A B X Y : ℕ → ℝ}, AmpRange A → AmpRange B → AmpRange X → AmpRange Y → AmpLe r1 r1' A X → AmpLe r2 r2' B Y → ∀ {s s' : ℝ}, (s = 1 ∨ s = -1) →
      (s = 1 → s' = 1 → Real.log (1 - gram s' (kernS m (transLmin m) r1' r2' L X Y) (lmax + 1 - transLmin m) (lssmax + 1 - transLmin m)).det ≤
        Real.log (1 - gram s (kernS m (transLmin m) r1 r2 L A B) (lmax + 1 - transLmin m) (lssmax + 1 - transLmin m)).det) ∧
      (s = -1 → s' = -1 → Real.log (1 - gram s (kernS m (transLmin m) r1 r2 L A B) (lmax + 1 - transLmin m) (lssmax + 1 - transLmin m)).det ≤
        Real.log (1 - gram s' (kernS m (transLmin m) r1' r2' L X Y) (lmax + 1 - transLmin m) (lssmax + 1 - transLmin m)).det) ∧
      (s' = 1 → |Real.log (1 - gram s (kernS m (transLmin m) r1 r2 L A B) (lmax + 1 - transLmin m) (lssmax + 1 - transLmin m)).det| ≤
        -Real.log (1 - gram s' (kernS m (transLmin m) r1' r2' L X Y) (lmax + 1 - transLmin m) (lssmax + 1 - transLmin m)).det) :=
    fun {A B X Y} hA hB hX hY cA cB {s s'} es => by
    obtain ⟨θ, T, g⟩ := kernS_hs hlm.1 hlm.2 h1 h2 hs hA hB
    obtain ⟨θ', T', g'⟩ := kernS_hs hlm.1 hlm.2 h1' h2' hs' hX hY
    refine array_stronger (s' := s') (H := kernS m (transLmin m) r1 r2 L A B) (H' := kernS m (transLmin m) r1' r2' L X Y)
      (u := fun i => Real.sqrt (A (transLmin m + i) * r1 ^ (2 * (transLmin m + i) + 1)) / Real.sqrt (X (transLmin m + i) * r1' ^ (2 * (transLmin m + i) + 1)))
      (v := fun i => Real.sqrt (B (transLmin m + i) * r2 ^ (2 * (transLmin m + i) + 1)) / Real.sqrt (Y (transLmin m + i) * r2' ^ (2 * (transLmin m + i) + 1)))
      (fun i => ?_) (fun i => ?_) (fun i s => ?_) (fun i s => kernS_nonneg _ _ hL _ _ _ _) g g' (lmax + 1 - transLmin m) (lssmax + 1 - transLmin m) es
    · exact (sqrt_ratio (mul_nonneg (hA _ (by omega)).1 (by positivity)) (cA _ (by omega))).2
    · exact (sqrt_ratio (mul_nonneg (hB _ (by omega)).1 (by positivity)) (cB _ (by omega))).2
    · have q1 := (sqrt_ratio (mul_nonneg (hA (transLmin m + i) (by omega)).1 (by positivity)) (cA (transLmin m + i) (by omega))).1
      have q2 := (sqrt_ratio (mul_nonneg (hB (transLmin m + s) (by omega)).1 (by positivity)) (cB (transLmin m + s) (by omega))).1
      have hmul : ∀ {x y a b c d f : ℝ}, x = a * b → y = c * d → x * f * y = a * (b * f * d) * c := by
        rintro x y a b c d f rfl rfl; ring
      exact hmul q1 q2
  obtain ⟨a1, a2, a3⟩ := key hA hB hX hY cA cB (s' := s') es
  obtain ⟨b1, b2, b3⟩ := key hA' hB' hX' hY' cA' cB' (s' := t') et
  unfold k0V
  refine ⟨fun e1 e2 e3 e4 => ?_, fun e1 e2 e3 e4 => ?_, fun e3 e4 => ?_⟩
  · linarith [a1 e1 e3, b1 e2 e4]
  · linarith [a2 e1 e3, b2 e2 e4]
  · refine (abs_add_le _ _).trans ?_
    linarith [a3 e3, b3 e4]

/-- The static amplitudes inherit the order of those at positive wavenumbers. -/
theorem ampK0_stronger {frac : ℝ → ℝ → ℝ} {m m' md : Material} (hs : SphereMat m) (hs' : SphereMat m') (hd : MediumMat md) {r r' : ℝ} (hr : 0 < r)
    (hrr : r ≤ r') (hc : ∀ k, 0 < k → MoreContrast m m' md k) {σ τ σ' τ' : ℝ} {A A' X X' : ℕ → ℝ} (hA : AmpK0 frac m md r σ τ A A')
    (hX : AmpK0 frac m' md r' σ' τ' X X') (es : σ = 1 ∨ σ = -1) (et : τ = 1 ∨ τ = -1) (es' : σ' = 1 ∨ σ' = -1) (et' : τ' = 1 ∨ τ' = -1) :
    AmpLe r r' A X ∧ AmpLe r r' A' X' := by
  have hr' := hr.trans_le hrr
  have key : ∀ l, 1 ≤ l → A l * r ^ (2 * l + 1) ≤ X l * r' ^ (2 * l + 1) ∧ A' l * r ^ (2 * l + 1) ≤ X' l * r' ^ (2 * l + 1) := by
    intro l hl
    obtain ⟨c, k1, e0, mu0, v, q1, q2, q3, q4, q5, q6⟩ := hasStatic_limit hl (C42_exact_table hl) (exactBes_low hl) hs.static hd.diel hd.phys hr frac
    obtain ⟨c', k1', e0', mu0', v', q1', q2', q3', q4', q5', q6'⟩ :=
      hasStatic_limit hl (C42_exact_table hl) (exactBes_low hl) hs'.static hd.diel hd.phys hr' frac
    rw [q1] at q1'; rw [q2] at q2'
    injection q1' with q1'; injection q2' with q2'
    subst q1' q2'
    set n := Real.sqrt (e0 * mu0)
    have hn : 0 < n := Real.sqrt_pos.mpr q3
    obtain ⟨i, rfl⟩ := Nat.exists_eq_add_of_le' hl
    have abs_sign : ∀ {σ x : ℝ}, (σ = 1 ∨ σ = -1) → 0 ≤ x → |-σ * (-1) ^ (i + 1) * x| = x := by
      intro σ x h hx
      rw [abs_mul, abs_mul, abs_neg, abs_pow, abs_neg, abs_one, one_pow, mul_one, abs_of_nonneg hx]
      rcases h with e | e <;> rw [e] <;> norm_num
    have sc : ∀ (x : ℝ) {k : ℝ}, 0 < k → ∀ {r : ℝ}, 0 < r → |x / (n * r * k) ^ (2 * (i + 1) + 1)| * r ^ (2 * (i + 1) + 1) = |x| / (n * k) ^ (2 * (i + 1) + 1) := by
      intro x k hk r hr
      rw [abs_div, abs_of_pos (show 0 < (n * r * k) ^ (2 * (i + 1) + 1) by positivity), mul_pow, mul_pow, mul_pow]
      field_simp
    have hcmp : ∀ k, 0 < k → |(v k).TE * Real.exp (v k).ln| ≤ |(v' k).TE * Real.exp (v' k).ln| ∧ |(v k).TM * Real.exp (v k).ln| ≤ |(v' k).TM * Real.exp (v' k).ln| := by
      intro k hk
      have a := ampV_stronger hs hs' hd hr hrr i hk (hc k hk)
      have f := a false
      have t := a true
      unfold ampV at f t
      rw [mieV_val (q4 k hk), mieV_val (q4' k hk)] at f t
      exact ⟨by simpa using f, by simpa using t⟩
    have val : ∀ {m : Material} {r σ τ : ℝ} {A A' : ℕ → ℝ} {c : Mie}, AmpK0 frac m md r σ τ A A' → mieK0 frac m md (i + 1) r = .ok c → (σ = 1 ∨ σ = -1) →
        (τ = 1 ∨ τ = -1) → |c.TM * Real.exp c.ln| = A (i + 1) ∧ |c.TE * Real.exp c.ln| = A' (i + 1) := by
      rintro m r σ τ A A' c ⟨g1, g2, w, w1, w2⟩ hc e1 e2
      rw [w1 _ hl] at hc
      injection hc with hc
      rw [← hc]
      obtain ⟨w3, w4⟩ := w2 (i + 1) hl
      simp only
      rw [w3, w4, abs_sign e1 (g1 _ hl).1, abs_sign e2 (g2 _ hl).1]
      exact ⟨rfl, rfl⟩
    obtain ⟨v1, v2⟩ := val hA k1 es et
    obtain ⟨v1', v2'⟩ := val hX k1' es' et'
    rw [← v1, ← v2, ← v1', ← v2']
    constructor
    · refine le_of_tendsto_of_tendsto (q6.abs.mul_const _) (q6'.abs.mul_const _) ?_
      filter_upwards [self_mem_nhdsWithin] with k hk
      have hk : 0 < k := hk
      rw [sc _ hk hr, sc _ hk hr']
      exact div_le_div_of_nonneg_right (hcmp k hk).2 (by positivity)
    · refine le_of_tendsto_of_tendsto (q5.abs.mul_const _) (q5'.abs.mul_const _) ?_
      filter_upwards [self_mem_nhdsWithin] with k hk
      have hk : 0 < k := hk
      rw [sc _ hk hr, sc _ hk hr']
      exact div_le_div_of_nonneg_right (hcmp k hk).1 (by positivity)
  exact ⟨fun l hl => (key l hl).1, fun l hl => (key l hl).2⟩

/-- Zero-frequency contribution, complete sum over `m`. -/
theorem pairK0_stronger {P P' : PairIn} (h : PairOK P) (h' : PairOK P') (hs : Stronger P P') (hprec : P.precision ≤ 0) (hprec' : P'.precision ≤ 0)
    (frac : ℝ → ℝ → ℝ) {σa σb τa τb σa' σb' τa' τb' : ℝ} (ea : ElectricSign P.mat1 P.mat3 σa) (eb : ElectricSign P.mat2 P.mat3 σb)
    (ga : MagneticSign P.mat1 P.mat3 τa) (gb : MagneticSign P.mat2 P.mat3 τb) (ea' : ElectricSign P'.mat1 P'.mat3 σa') (eb' : ElectricSign P'.mat2 P'.mat3 σb')
    (ga' : MagneticSign P'.mat1 P'.mat3 τa') (gb' : MagneticSign P'.mat2 P'.mat3 τb') :
    ∃ z z', pairK0 frac P = .ok z ∧ pairK0 frac P' = .ok z' ∧
      (σa * σb = 1 → τa * τb = 1 → σa' * σb' = 1 → τa' * τb' = 1 → z' ≤ z) ∧
      (σa * σb = -1 → τa * τb = -1 → σa' * σb' = -1 → τa' * τb' = -1 → z ≤ z') ∧
      (σa' * σb' = 1 → τa' * τb' = 1 → |z| ≤ -z') := by
  have prod : ∀ {s t : ℝ}, (s = 1 ∨ s = -1) → (t = 1 ∨ t = -1) → s * t = 1 ∨ s * t = -1 := by
    rintro s t (rfl | rfl) (rfl | rfl) <;> norm_num
  obtain ⟨A, A', B, B', hA, hB, hz⟩ := pairK0_rep h hprec frac ea eb ga gb
  obtain ⟨X, X', Y, Y', hX, hY, hw⟩ := pairK0_rep h' hprec' frac ea' eb' ga' gb'
  have q1 := hz _ _ h.hl h.hls
  have q2 := hw _ _ h'.hl h'.hls
  rw [cut_self] at q1 q2
  rw [hs.lmax, hs.lssmax, hs.dist] at q2
  rw [hs.medium] at hX hY
  refine ⟨_, _, q1, q2, ?_⟩
  obtain ⟨cA, cA'⟩ := ampK0_stronger h.m1 h'.m1 h.m3 h.h1 hs.r1 hs.c1 hA hX ea.sign ga.sign ea'.sign ga'.sign
  obtain ⟨cB, cB'⟩ := ampK0_stronger h.m2 h'.m2 h.m3 h.h2 hs.r2 hs.c2 hB hY eb.sign gb.sign eb'.sign gb'.sign
  have key := fun m => k0V_stronger (m := m) h.h1 h.h2 h.sep h'.h1 h'.h2 (hs.dist ▸ h'.sep) P.lmax P.lssmax hA.1 hA.2.1 hB.1 hB.2.1 hX.1 hX.2.1 hY.1 hY.2.1
    cA cA' cB cB' (s' := σa' * σb') (t' := τa' * τb') (prod ea.sign eb.sign) (prod ga.sign gb.sign)
  refine ⟨fun e1 e2 e3 e4 => ?_, fun e1 e2 e3 e4 => ?_, fun e3 e4 => ?_⟩
  · have a := (key 0).1 e1 e2 e3 e4
    have b := Finset.sum_le_sum fun m (_ : m ∈ Finset.Icc 1 P.lmax) => (key m).1 e1 e2 e3 e4
    linarith
  · have a := (key 0).2.1 e1 e2 e3 e4
    have b := Finset.sum_le_sum fun m (_ : m ∈ Finset.Icc 1 P.lmax) => (key m).2.1 e1 e2 e3 e4
    linarith
  · have a := (key 0).2.2 e3 e4
    have b := Finset.sum_le_sum fun m (_ : m ∈ Finset.Icc 1 P.lmax) => (key m).2.2 e3 e4
    have c := Finset.abs_sum_le_sum_abs (fun m => k0V m P.r1 P.r2 P.L P.lmax P.lssmax (σa * σb) (τa * τb) A A' B B') (Finset.Icc 1 P.lmax)
    rw [Finset.sum_neg_distrib] at b
    refine (abs_add_le _ _).trans ?_
    rw [abs_mul, abs_of_pos (two_pos : (0 : ℝ) < 2)]
    linarith

end CasSph
