import Verif.Lemmas.FloatZero

/-! Rounding errors of the zero-frequency determinants of two spheres. -/

namespace CasSph

open Spec Matrix

variable {A : FlZero} {u : ℝ} {sum : (p : ℕ) → (Fin p → ℝ) → ℝ}

theorem FlZero.k0Mag_of_pos {n p : ℕ} (hn : 0 < n) (X : Fin n → Fin n → Fin p → ℝ) : A.k0Mag X = A.dynamicScaling X := by
  cases n with
  | zero => omega
  | succ n => rfl

/-- Logarithm common to all static Mie coefficients. -/
noncomputable def staticLog (l : ℕ) : ℝ := -Real.log (2 * l + 1) - 2 * ln2dbl l

/-- Electric amplitude of a perfect conductor. -/
noncomputable def metalTM (l : ℕ) : ℝ := (l + 1) / l * Real.exp (staticLog l)

/-- Magnetic amplitude of a perfect conductor. -/
noncomputable def metalTE (l : ℕ) : ℝ := 1 * Real.exp (staticLog l)

/-- Static amplitudes of a perfect conductor. -/
theorem metal_amp (frac : ℝ → ℝ → ℝ) {md : Material} (hd : MediumMat md) {r : ℝ} (hr : 0 < r) :
    AmpK0 frac ⟨.pec, [], none⟩ md r 1 (-1) metalTM metalTE := by
  obtain ⟨X, X', a1, a2, c, c1, c2⟩ := ampK0_exists frac pec_sphere hd hr (σ := 1) (τ := -1) (.inl ⟨rfl, .inl rfl⟩) (.inr ⟨rfl, .inl rfl⟩)
  obtain ⟨e0, he, -, -⟩ := dielectric_static hd.diel hd.phys
  have key : ∀ l, 1 ≤ l → c.TE l = (-1) ^ l * 1 ∧ c.TM l = -(-1) ^ l * ((l + 1) / l) ∧ c.ln l = staticLog l := by
    intro l hl
    have h := c1 l hl
    rw [mieK0_start hd.diel hd.phys he hl] at h
    simp only [] at h
    injection h with h
    injection h with h1 h2 h3
    exact ⟨h1.symm, h2.symm, h3.symm⟩
  have s2 : ∀ l : ℕ, (-1 : ℝ) ^ l * (-1) ^ l = 1 := fun l => by rw [← mul_pow]; norm_num
  have eX : ∀ l : ℕ, 1 ≤ l → X l = (l + 1) / l * Real.exp (staticLog l) := by
    intro l hl
    obtain ⟨k1, k2, k3⟩ := key l hl
    have := (c2 l hl).1
    rw [k2, k3] at this
    linear_combination (-(-1 : ℝ) ^ l) * -this + (X l - (l + 1) / l * Real.exp (staticLog l)) * -s2 l
  have eX' : ∀ l : ℕ, 1 ≤ l → X' l = 1 * Real.exp (staticLog l) := by
    intro l hl
    obtain ⟨k1, k2, k3⟩ := key l hl
    have := (c2 l hl).2
    rw [k1, k3] at this
    linear_combination (-(-1 : ℝ) ^ l) * this + (X' l - 1 * Real.exp (staticLog l)) * -s2 l
  unfold AmpK0 AmpRange metalTM metalTE
  refine ⟨fun l hl => ?_, fun l hl => ?_, c, c1, fun l hl => ?_⟩
  · have := a1 l hl; rwa [eX l hl] at this
  · have := a2 l hl; rwa [eX' l hl] at this
  · have := c2 l hl; rwa [eX l hl, eX' l hl] at this

/-- The computed table of static Mie coefficients. -/
theorem flTableK0 (hA : RelErrZ A u) {frac frac' : ℝ → ℝ → ℝ} {m1 md : Material} (h : SphereMat m1) (hd : MediumMat md) {r : ℝ} {a : MieCoef}
    (ha : ∀ l, 1 ≤ l → mieK0 frac m1 md l r = .ok ⟨a.TE l, a.TM l, a.ln l⟩) (n : ℕ) :
    ∃ c, A.mieTableK0 frac' m1 md n r = .ok c ∧ ∀ l : ℕ, 1 ≤ l → l ≤ n → a.ln l = staticLog l ∧ c.ln l = A.sub (-A.log (2 * l + 1)) (A.mul 2 (A.ln2dbl l)) ∧
      Cl (1 + 25 * u) ((l + 1) / l) (c.TM l) (a.TM l) ∧ Cl (1 + 25 * u) 1 (c.TE l) (a.TE l) := by
  have : Nonempty Mie := ⟨⟨0, 0, 0⟩⟩
  have key := fun l (hl : 1 ≤ l) => mieK0_fl hA (frac' := frac') h hd hl (ha l hl)
  choose! c0 q1 q2 q3 q4 using fun l (hl : 1 ≤ l) => (key l hl).2
  refine ⟨tableOf fun i : Fin n => c0 (i.1 + 1), ?_, fun l hl hn => ?_⟩
  · unfold FlZero.mieTableK0
    rw [finM_ok fun i : Fin n => q1 (i.1 + 1) (by omega), ok_bind]
  · obtain ⟨t1, t2, t3⟩ := tableOf_agree (c := fun i : Fin n => c0 (i.1 + 1)) (a := ⟨fun l => (c0 l).TE, fun l => (c0 l).TM, fun l => (c0 l).ln⟩) (fun _ => rfl) l hl hn
    rw [t1, t2, t3]
    exact ⟨(key l hl).1, q2 l hl, q3 l hl, q4 l hl⟩

theorem zeroSize_parts (N : ℕ) {r1 r2 L : ℝ} (h1 : 0 < r1) (h2 : 0 < r2) (hs : r1 + r2 < L) :
    Big (zeroSize N r1 r2 L) N ∧ (2 * N + 2) * (1 + Real.log (L / r1) + Real.log (L / r2)) ≤ zeroSize N r1 r2 L ∧ (2 * N + 2 : ℝ) ≤ zeroSize N r1 r2 L := by
  have p1 : 0 ≤ Real.log (L / r1) := Real.log_nonneg (by rw [le_div_iff₀ h1]; linarith)
  have p2 : 0 ≤ Real.log (L / r2) := Real.log_nonneg (by rw [le_div_iff₀ h2]; linarith)
  have n0 : (0 : ℝ) ≤ N := Nat.cast_nonneg _
  have p3 : 0 ≤ Real.log (2 * N + 2) := Real.log_nonneg (by linarith)
  unfold Big zeroSize
  refine ⟨?_, ?_, ?_⟩
  · exact mul_le_mul_of_nonneg_left (by linarith) (by linarith)
  · exact mul_le_mul_of_nonneg_left (by linarith) (by linarith)
  · exact le_mul_of_one_le_right (by linarith) (by linarith)

theorem zeroErr_bound (hu : 0 ≤ u) {N p : ℕ} (hp : p ≤ N) (hN : 2 ≤ N) {r1 r2 L : ℝ} (h1 : 0 < r1) (h2 : 0 < r2) (hs : r1 + r2 < L) :
    0 ≤ zeroErr u N r1 r2 L ∧
    (1 + 25 * u) * (1 + 25 * u) * (Real.exp (840 * (u * zeroSize N r1 r2 L)) * (1 + u)) * (1 + u) ^ (p + 2) ≤ 1 + zeroErr u N r1 r2 L := by
  obtain ⟨-, -, g⟩ := zeroSize_parts N h1 h2 hs
  obtain ⟨G, hG⟩ : ∃ G, G = zeroSize N r1 r2 L := ⟨_, rfl⟩
  rw [← hG] at g
  have p1 : (p : ℝ) ≤ N := by exact_mod_cast hp
  have n2 : (2 : ℝ) ≤ N := by exact_mod_cast hN
  have G0 : 0 ≤ G := by linarith
  unfold zeroErr
  rw [← hG]
  refine ⟨?_, ?_⟩
  · have := Real.one_le_exp (show 0 ≤ 900 * u * G by positivity)
    linarith
  · have e1 : 1 + 25 * u ≤ Real.exp (25 * u) := by linarith [Real.add_one_le_exp (25 * u)]
    have e2 : (1 + u) ^ (p + 2) ≤ Real.exp ((p + 2 : ℕ) * u) := by
      rw [Real.exp_nat_mul]
      exact pow_le_pow_left₀ (by linarith) (by linarith [Real.add_one_le_exp u]) _
    have e3 : 1 + u ≤ Real.exp u := by linarith [Real.add_one_le_exp u]
    calc _ ≤ Real.exp (25 * u) * Real.exp (25 * u) * (Real.exp (840 * (u * G)) * Real.exp u) * Real.exp ((p + 2 : ℕ) * u) := by gcongr
      _ = Real.exp (u * (53 + p + 840 * G)) := by rw [← Real.exp_add, ← Real.exp_add, ← Real.exp_add, ← Real.exp_add]; congr 1; push_cast; ring
      _ ≤ Real.exp (900 * u * G) := by
        rw [Real.exp_le_exp, mul_comm 900 u, mul_assoc]
        exact mul_le_mul_of_nonneg_left (by linarith) hu
      _ = _ := by ring

/-- **One `m`.** The computed zero-frequency matrices. -/
theorem PairOK.zeroStep {P : PairIn} (h : PairOK P) (hA : RelErrZ A u) (hS : Sums A.toFlFun sum) {frac frac' : ℝ → ℝ → ℝ} {c1 c2 : MieCoef}
    (hc1 : A.mieTableK0 frac' P.mat1 P.mat3 P.lmax P.r1 = .ok c1) (hc2 : A.mieTableK0 frac' P.mat2 P.mat3 P.lssmax P.r2 = .ok c2)
    (hs : (1 + zeroErr u (P.lmax + P.lssmax) P.r1 P.r2 P.L) * shrink P.r1 P.r2 P.L < 1) {m : ℕ} (hm : m ≤ P.lmax)
    {σa σb τa τb : ℝ} {a a' b b' : ℕ → ℝ} (ea : AmpK0 frac P.mat1 P.mat3 P.r1 σa τa a a') (eb : AmpK0 frac P.mat2 P.mat3 P.r2 σb τb b b') :
    ∃ TE TM, A.blockmatricesK0At sum P.lmax P.lssmax m P.r1 P.r2 P.L c1 c2 = .ok (TE, TM) ∧ 0 < (1 - TE).det ∧ 0 < (1 - TM).det ∧
      |Real.log (1 - TE).det + Real.log (1 - TM).det - k0V m P.r1 P.r2 P.L P.lmax P.lssmax (σa * σb) (τa * τb) a a' b b'| ≤
        gain (zeroErr u (P.lmax + P.lssmax) P.r1 P.r2 P.L) (shrink P.r1 P.r2 P.L) * -k0V m P.r1 P.r2 P.L P.lmax P.lssmax 1 1 metalTM metalTE metalTM metalTE := by
  have hu := hA.u0
  have hu1 := hA.u1
  have hl := h.hl
  have hls := h.hls
  have hL : 0 < P.L := by have := h.h1; have := h.h2; have := h.sep; linarith
  obtain ⟨a0, b0, S⟩ := staticPair_exists frac h.m1.static h.m2.static h.m3.diel h.m3.phys h.h1 h.h2 h.sep
  obtain ⟨c1', q1, g1⟩ := flTableK0 hA (frac' := frac') h.m1 h.m3 S.ha P.lmax
  obtain ⟨c2', q2, g2⟩ := flTableK0 hA (frac' := frac') h.m2 h.m3 S.hb P.lssmax
  rw [hc1] at q1
  rw [hc2] at q2
  injection q1 with q1
  injection q2 with q2
  subst q1 q2
  obtain ⟨N, hN⟩ : ∃ N, N = P.lmax + P.lssmax := ⟨_, rfl⟩
  obtain ⟨G, hG⟩ : ∃ G, G = zeroSize N P.r1 P.r2 P.L := ⟨_, rfl⟩
  obtain ⟨z1, z2, z3⟩ := zeroSize_parts N h.h1 h.h2 h.sep
  have G0 : 0 ≤ G := hG ▸ z1.nonneg
  have l1 : 1 ≤ transLmin (m : ℤ) ∧ m ≤ transLmin (m : ℤ) ∧ transLmin (m : ℤ) ≤ P.lmax := by unfold transLmin; omega
  obtain ⟨⟨TE0, TM0⟩, h0⟩ : ∃ R, blockmatricesK0At P.lmax P.lssmax m P.r1 P.r2 P.L a0 b0 = .ok R :=
    C72_k0_ext_total (by omega) (by omega) _ _ _ _
  obtain ⟨k1, k2⟩ := S.kern ea eb h0
  unfold k0V
  rw [← k1, ← k2]
  rw [← hN] at hs ⊢
  clear k1 k2 ea eb
  have bd := zeroErr_bound hu (p := P.lssmax + 1 - transLmin (m : ℤ)) (N := N) (by omega) (by omega) h.h1 h.h2 h.sep
  unfold blockmatricesK0At at h0
  unfold FlZero.blockmatricesK0At
  revert h0 TE0 TM0 bd l1
  generalize transLmin (m : ℤ) = l0
  intro l1 TE0 TM0 h0 bd
  have li : ∀ i : Fin (P.lmax + 1 - l0), 1 ≤ l0 + i.1 ∧ l0 + i.1 ≤ P.lmax := fun i => by have := i.2; omega
  have ls : ∀ i : Fin (P.lssmax + 1 - l0), 1 ≤ l0 + i.1 ∧ l0 + i.1 ≤ P.lssmax := fun i => by have := i.2; omega
  have ae : ∀ (i j : Fin (P.lmax + 1 - l0)) (s : Fin (P.lssmax + 1 - l0)), Ae u G 50 450
      (A.add (A.add (A.add (A.add (c1.ln (l0 + i.1)) (c2.ln (l0 + s.1))) (A.transK0Ext m (l0 + i.1) (l0 + s.1)).2) (A.transK0Ext m (l0 + j.1) (l0 + s.1)).2)
        (A.distance P.r1 P.r2 P.L (l0 + i.1) (l0 + j.1) (l0 + s.1)))
      (a0.ln (l0 + i.1) + b0.ln (l0 + s.1) + (transK0Ext m (l0 + i.1) (l0 + s.1)).2 + (transK0Ext m (l0 + j.1) (l0 + s.1)).2 +
        (((l0 + i.1 : ℝ) + (l0 + j.1 : ℝ) + 1) * Real.log (P.r1 / P.L) + (2 * (l0 + s.1 : ℝ) + 1) * Real.log (P.r2 / P.L))) := by
    intro i j s
    obtain ⟨i1, i2⟩ := li i
    obtain ⟨j1, j2⟩ := li j
    obtain ⟨s1, s2⟩ := ls s
    obtain ⟨x1, x2, -⟩ := g1 _ i1 i2
    obtain ⟨y1, y2, -⟩ := g2 _ s1 s2
    rw [x1, x2, y1, y2]
    rw [← hG] at z1 z2
    have t1 := z1.aeMie hA (l := l0 + i.1) (by omega)
    have t2 := z1.aeMie hA (l := l0 + s.1) (by omega)
    have t3 := z1.aeTrans hA (m := m) (a := l0 + i.1) (b := l0 + s.1) i1 s1 (by omega) (by omega) (by omega)
    have t4 := z1.aeTrans hA (m := m) (a := l0 + j.1) (b := l0 + s.1) j1 s1 (by omega) (by omega) (by omega)
    have t5 := aeDist hA h.h1 h.h2 h.sep (N := N) (a := l0 + i.1) (b := l0 + j.1) (s := l0 + s.1) (by omega) (by omega) z2
    have t := (((t1.add t2 hu hu1 G0 (by norm_num) (by norm_num) (hA.add _ _)).add t3 hu hu1 G0 (by norm_num) (by norm_num) (hA.add _ _)).add t4
      hu hu1 G0 (by norm_num) (by norm_num) (hA.add _ _)).add t5 hu hu1 G0 (by norm_num) (by norm_num) (hA.add _ _)
    have t' := t.mono (β' := 50) (ε' := 450) hu G0 (by norm_num) (by norm_num)
    unfold staticLog
    push_cast at t' ⊢
    exact t'
  obtain ⟨mag, α, hmag, cmag⟩ := flMag hA G0 (by omega) (by omega) ae
  unfold blockmatricesK0Ext at h0
  simp only [k0Mag_of_pos (show 0 < P.lmax + 1 - l0 by omega)] at h0
  obtain ⟨skal, hskal⟩ := C10_scaling_total (by omega) (by omega) (fun (i j : Fin (P.lmax + 1 - l0)) (s : Fin (P.lssmax + 1 - l0)) =>
      a0.ln (l0 + i.1) + b0.ln (l0 + s.1) + (transK0Ext m (l0 + i.1) (l0 + s.1)).2 + (transK0Ext m (l0 + j.1) (l0 + s.1)).2 +
        (((l0 + i.1 : ℝ) + (l0 + j.1 : ℝ) + 1) * Real.log (P.r1 / P.L) + (2 * (l0 + s.1 : ℝ) + 1) * Real.log (P.r2 / P.L)))
  simp only [hskal, ok_bind] at h0
  injection h0 with h0
  injection h0 with hE hM
  have dM := (C10_scaling_one_block hskal fun (i j : Fin (P.lmax + 1 - l0)) (s : Fin (P.lssmax + 1 - l0)) =>
    (-1 : ℝ) ^ (((l0 + s.1 : ℕ) : ℤ) - ((l0 + j.1 : ℕ) : ℤ)) * (transK0Ext m (l0 + i.1) (l0 + s.1)).1 * (transK0Ext m (l0 + j.1) (l0 + s.1)).1 *
      a0.TM (l0 + i.1) * b0.TM (l0 + s.1)).det
  have dE := (C10_scaling_one_block hskal fun (i j : Fin (P.lmax + 1 - l0)) (s : Fin (P.lssmax + 1 - l0)) =>
    (-1 : ℝ) ^ (((l0 + s.1 : ℕ) : ℤ) - ((l0 + j.1 : ℕ) : ℤ)) * (transK0Ext m (l0 + i.1) (l0 + s.1)).1 * (transK0Ext m (l0 + j.1) (l0 + s.1)).1 *
      a0.TE (l0 + i.1) * b0.TE (l0 + s.1)).det
  have hM' : TM0 = of fun i j => ∑ s, skal i j s * ((-1 : ℝ) ^ (((l0 + s.1 : ℕ) : ℤ) - ((l0 + j.1 : ℕ) : ℤ)) * (transK0Ext m (l0 + i.1) (l0 + s.1)).1 *
      (transK0Ext m (l0 + j.1) (l0 + s.1)).1 * a0.TM (l0 + i.1) * b0.TM (l0 + s.1)) := hM.symm
  have hE' : TE0 = of fun i j => ∑ s, skal i j s * ((-1 : ℝ) ^ (((l0 + s.1 : ℕ) : ℤ) - ((l0 + j.1 : ℕ) : ℤ)) * (transK0Ext m (l0 + i.1) (l0 + s.1)).1 *
      (transK0Ext m (l0 + j.1) (l0 + s.1)).1 * a0.TE (l0 + i.1) * b0.TE (l0 + s.1)) := hE.symm
  rw [← hM'] at dM
  rw [← hE'] at dE
  rw [dM, dE]
  clear dM dE hM hE hM' hE' hskal
  unfold FlZero.blockmatricesK0Ext
  simp only [FlZero.k0Mag_of_pos (show 0 < P.lmax + 1 - l0 by omega)]
  rw [hmag, ok_bind]
  refine ⟨_, _, rfl, ?_⟩
  have pol : ∀ {f x y y' z z' : ℕ → ℝ} {k : ℕ → ℝ}, (∀ l, 1 ≤ l → 0 < f l) → AmpRange k → (∀ l, k l = f l * Real.exp (staticLog l)) →
      (∀ l, 1 ≤ l → l ≤ P.lmax → Cl (1 + 25 * u) (f l) (y' l) (y l)) → (∀ l, 1 ≤ l → l ≤ P.lssmax → Cl (1 + 25 * u) (f l) (z' l) (z l)) →
      0 < (1 - of fun (i j : Fin (P.lmax + 1 - l0)) => sum (P.lssmax + 1 - l0) fun s => A.mul (A.mul ((-1 : ℝ) ^ (((l0 + s.1 : ℕ) : ℤ) - ((l0 + j.1 : ℕ) : ℤ)) *
        (A.transK0Ext m (l0 + i.1) (l0 + s.1)).1 * (A.transK0Ext m (l0 + j.1) (l0 + s.1)).1 * y' (l0 + i.1)) (z' (l0 + s.1))) (mag i j s)).det ∧
      |Real.log (1 - of fun (i j : Fin (P.lmax + 1 - l0)) => sum (P.lssmax + 1 - l0) fun s => A.mul (A.mul ((-1 : ℝ) ^ (((l0 + s.1 : ℕ) : ℤ) - ((l0 + j.1 : ℕ) : ℤ)) *
        (A.transK0Ext m (l0 + i.1) (l0 + s.1)).1 * (A.transK0Ext m (l0 + j.1) (l0 + s.1)).1 * y' (l0 + i.1)) (z' (l0 + s.1))) (mag i j s)).det -
        Real.log (1 - of fun (i j : Fin (P.lmax + 1 - l0)) => ∑ s : Fin (P.lssmax + 1 - l0), Real.exp (a0.ln (l0 + i.1) + b0.ln (l0 + s.1) + (transK0Ext m (l0 + i.1) (l0 + s.1)).2 +
          (transK0Ext m (l0 + j.1) (l0 + s.1)).2 +
          (((l0 + i.1 : ℝ) + (l0 + j.1 : ℝ) + 1) * Real.log (P.r1 / P.L) + (2 * (l0 + s.1 : ℝ) + 1) * Real.log (P.r2 / P.L))) *
          ((-1 : ℝ) ^ (((l0 + s.1 : ℕ) : ℤ) - ((l0 + j.1 : ℕ) : ℤ)) * (transK0Ext m (l0 + i.1) (l0 + s.1)).1 *
            (transK0Ext m (l0 + j.1) (l0 + s.1)).1 * y (l0 + i.1) * z (l0 + s.1))).det| ≤
        gain (zeroErr u N P.r1 P.r2 P.L) (shrink P.r1 P.r2 P.L) *
          -Real.log (1 - gram 1 (kernS m l0 P.r1 P.r2 P.L k k) (P.lmax + 1 - l0) (P.lssmax + 1 - l0)).det := by
    intro f x y y' z z' k f0 kr hk cy cz
    have k0 : ∀ l, 1 ≤ l → 0 < k l := fun l hl => by rw [hk]; exact mul_pos (f0 l hl) (Real.exp_pos _)
    obtain ⟨T, g⟩ := kernS_shrink l1.1 l1.2.1 h.h1 h.h2 h.sep kr kr
    have W1 : 1 ≤ Real.exp (840 * (u * G)) * (1 + u) := one_le_mul_of_one_le_of_one_le (Real.one_le_exp (by positivity)) (by linarith)
    obtain ⟨F, hF⟩ : ∃ F : Matrix (Fin (P.lmax + 1 - l0)) (Fin (P.lmax + 1 - l0)) ℝ, F = of fun (i j : Fin (P.lmax + 1 - l0)) => ∑ s : Fin (P.lssmax + 1 - l0),
        Real.exp (a0.ln (l0 + i.1) + b0.ln (l0 + s.1) + (transK0Ext m (l0 + i.1) (l0 + s.1)).2 + (transK0Ext m (l0 + j.1) (l0 + s.1)).2 +
          (((l0 + i.1 : ℝ) + (l0 + j.1 : ℝ) + 1) * Real.log (P.r1 / P.L) + (2 * (l0 + s.1 : ℝ) + 1) * Real.log (P.r2 / P.L))) * (f (l0 + i.1) * f (l0 + s.1)) := ⟨_, rfl⟩
    have h1 : ∀ i j, F i j = Real.sqrt (k (l0 + i.1)) / Real.sqrt (k (l0 + j.1)) * gram 1 (kernS m l0 P.r1 P.r2 P.L k k) (P.lmax + 1 - l0) (P.lssmax + 1 - l0) i j := by
      intro i j
      have := kernS_dominate (n := P.lmax + 1 - l0) (p := P.lssmax + 1 - l0) (m := m) l1.1 h.h1 h.h2 hL k0 k0 (f := f) (g := f) (x := staticLog) (y := staticLog)
        (fun l _ => (hk l).symm) (fun l _ => (hk l).symm) i j
      rw [← this, hF, of_apply]
      refine Finset.sum_congr rfl fun s _ => ?_
      rw [(g1 _ (li i).1 (li i).2).1, (g2 _ (ls s).1 (ls s).2).1]
      push_cast
      rfl
    refine (fun r => ⟨r.1, r.2.2⟩) (g.perturb_conj (p := P.lssmax + 1 - l0) bd.1 hs (α := α) (q := fun i : Fin (P.lmax + 1 - l0) => Real.sqrt (k (l0 + i.1)))
      (fun i => Real.sqrt_pos.mpr (k0 _ (by omega))) h1 ?_)
    intro i j
    have e := zeroEntry hA hS W1 (show 1 ≤ 1 + 25 * u by linarith) (mag := mag i j)
      (sg := fun s => (-1 : ℝ) ^ (((l0 + s.1 : ℕ) : ℤ) - ((l0 + j.1 : ℕ) : ℤ)) * (A.transK0Ext m (l0 + i.1) (l0 + s.1)).1 * (A.transK0Ext m (l0 + j.1) (l0 + s.1)).1)
      (fun s => by
        show |(-1 : ℝ) ^ (((l0 + s.1 : ℕ) : ℤ) - ((l0 + j.1 : ℕ) : ℤ)) * (-1) ^ (m : ℤ) * (-1) ^ (m : ℤ)| = 1
        rw [abs_mul, abs_mul, abs_zpow, abs_zpow, abs_neg, abs_one, _root_.one_zpow, _root_.one_zpow]; norm_num)
      (fun s => cmag i j s) (cy _ (li i).1 (li i).2) (fun s => cz _ (ls s).1 (ls s).2)
    have e' := e.mono (v := 1 + zeroErr u N P.r1 P.r2 P.L) (by rw [hG]; exact bd.2)
    rw [hF, of_apply, of_apply, of_apply, Finset.mul_sum, Finset.mul_sum]
    refine Eq.mp ?_ e'
    congr 1
    · exact Finset.sum_congr rfl fun s _ => by ring
    · exact Finset.sum_congr rfl fun s _ => by rw [mul_assoc]; rfl
  have mr := metal_amp frac h.m3 h.h1
  obtain ⟨p1, p2⟩ := pol (f := fun _ => 1) (x := fun _ => 0) (fun _ _ => one_pos) mr.2.1 (fun _ => rfl) (fun l a b => (g1 l a b).2.2.2) (fun l a b => (g2 l a b).2.2.2)
  obtain ⟨p3, p4⟩ := pol (f := fun l => ((l : ℝ) + 1) / l) (x := fun _ => 0) (fun l hl => by
    have : (0 : ℝ) < l := by exact_mod_cast hl
    positivity) mr.1 (fun _ => rfl) (fun l a b => (g1 l a b).2.2.1) (fun l a b => (g2 l a b).2.2.1)
  refine ⟨p1, p3, ?_⟩
  have add2 : ∀ {a b c d t x y : ℝ}, |a - c| ≤ t * -x → |b - d| ≤ t * -y → |a + b - (c + d)| ≤ t * -(x + y) := by
    intro a b c d t x y q1 q2
    rw [show a + b - (c + d) = (a - c) + (b - d) by ring, neg_add, mul_add]
    exact (abs_add_le _ _).trans (add_le_add q1 q2)
  exact add2 p2 p4

end CasSph
