import Verif.Spec.Perturb
import Verif.Lemmas.Perturb
import Verif.Props.StratPair

/-! Errors of the round-trip matrix of two separate spheres. -/

namespace CasSph

open Spec Filter Topology Matrix

theorem gain_nonneg {κ θ : ℝ} (hκ : 0 ≤ κ) (hs : (1 + κ) * θ < 1) : 0 ≤ gain κ θ := div_nonneg hκ (by linarith)

theorem shrink_mem {r1 r2 L : ℝ} (h1 : 0 < r1) (h2 : 0 < r2) (h : r1 + r2 < L) : 0 < shrink r1 r2 L ∧ shrink r1 r2 L < 1 := by
  have hd : 0 < L - (r1 + r2) := by linarith
  unfold shrink
  refine ⟨by positivity, ?_⟩
  rw [div_lt_one (by positivity)]
  nlinarith [mul_pos h1 hd, mul_pos h2 hd, mul_pos hd hd]

section
variable {md : Material} {r1 r2 L k : ℝ} {med : Medium} {a b a' b' : MieCoef}

theorem GapPair.contr_ratio (S : GapPair md r1 r2 L k med) {m : ℕ} {A B0 : Bool → ℕ → ℝ}
    (hA : ∀ P c, A P c ≤ pecR P c (k * r1 * med.n)) (hB : ∀ P c, B0 P c ≤ pecR P c (k * r2 * med.n)) :
    Contr (kern m (k * L * Real.sqrt med.eps) (m - 1) A B0) (shrink (r1 * Real.sqrt med.mu) (r2 * Real.sqrt med.mu) L) := by
  have hpos := S.med_pos
  have hse := Real.sqrt_pos.mpr hpos.1
  have hsm := Real.sqrt_pos.mpr hpos.2
  have hks : 0 < k * Real.sqrt med.eps := mul_pos S.hk hse
  have hn : med.n = Real.sqrt med.eps * Real.sqrt med.mu := by
    unfold Medium.n; exact Real.sqrt_mul hpos.1.le _
  have p1 : 0 < r1 * Real.sqrt med.mu := mul_pos S.h1 hsm
  have p2 : 0 < r2 * Real.sqrt med.mu := mul_pos S.h2 hsm
  have sep : r1 * Real.sqrt med.mu + r2 * Real.sqrt med.mu < L := by linarith [S.sep]
  have e1 : k * r1 * med.n = k * Real.sqrt med.eps * (r1 * Real.sqrt med.mu) := by rw [hn]; ring
  have e2 : k * r2 * med.n = k * Real.sqrt med.eps * (r2 * Real.sqrt med.mu) := by rw [hn]; ring
  rw [e1] at hA
  rw [e2] at hB
  generalize r1 * Real.sqrt med.mu = ρ1 at *
  generalize r2 * Real.sqrt med.mu = ρ2 at *
  have hd : 0 < L - (ρ1 + ρ2) := by linarith
  have q1 : 0 < ρ1 + (L - (ρ1 + ρ2)) / 2 := by linarith
  have q2 : 0 < ρ2 + (L - (ρ1 + ρ2)) / 2 := by linarith
  have c := kern_contr_ratio (ρ1 := k * Real.sqrt med.eps * (ρ1 + (L - (ρ1 + ρ2)) / 2)) (ρ2 := k * Real.sqrt med.eps * (ρ2 + (L - (ρ1 + ρ2)) / 2))
    (x := k * L * Real.sqrt med.eps) (q1 := ρ1 / (ρ1 + (L - (ρ1 + ρ2)) / 2)) (q2 := ρ2 / (ρ2 + (L - (ρ1 + ρ2)) / 2)) (m := m) (c0 := m - 1) (A := A) (B := B0)
    (mul_pos hks q1) (mul_pos hks q2) (div_pos p1 q1) ((div_le_one q1).mpr (by linarith)) (div_pos p2 q2) ((div_le_one q2).mpr (by linarith))
    (le_of_eq (by ring)) (by omega)
    (fun P c => by
      rw [show ρ1 / (ρ1 + (L - (ρ1 + ρ2)) / 2) * (k * Real.sqrt med.eps * (ρ1 + (L - (ρ1 + ρ2)) / 2)) = k * Real.sqrt med.eps * ρ1 by
        generalize (ρ1 + (L - (ρ1 + ρ2)) / 2) = q at *; field_simp]
      exact hA P c)
    (fun P c => by
      rw [show ρ2 / (ρ2 + (L - (ρ1 + ρ2)) / 2) * (k * Real.sqrt med.eps * (ρ2 + (L - (ρ1 + ρ2)) / 2)) = k * Real.sqrt med.eps * ρ2 by
        generalize (ρ2 + (L - (ρ1 + ρ2)) / 2) = q at *; field_simp]
      exact hB P c)
  rw [div_mul_div_comm] at c
  exact c

theorem GapPair.shrink_mem (S : GapPair md r1 r2 L k med) : 0 < shrink (r1 * Real.sqrt med.mu) (r2 * Real.sqrt med.mu) L ∧
    shrink (r1 * Real.sqrt med.mu) (r2 * Real.sqrt med.mu) L < 1 := by
  have hsm := Real.sqrt_pos.mpr S.med_pos.2
  exact CasSph.shrink_mem (mul_pos S.h1 hsm) (mul_pos S.h2 hsm) (by linarith [S.sep])

/-- The contraction of the kernel with a constant that does not depend on the wavenumber. -/
theorem GapPair.hs_ratio (S : GapPair md r1 r2 L k med) (m : ℕ) {α β A B0 : Bool → ℕ → ℝ}
    (hA : Scatters a α (k * r1 * med.n) A) (hB : Scatters b β (k * r2 * med.n) B0) :
    HSContr (kern m (k * L * Real.sqrt med.eps) (m - 1) A B0) (shrink (r1 * Real.sqrt med.mu) (r2 * Real.sqrt med.mu) L)
      (pairTrace med r1 r2 L k m) :=
  ⟨S.shrink_mem.1.le, S.shrink_mem.2, S.contr_ratio (fun P c => ((hA c).1 P).2) (fun P c => ((hB c).1 P).2), (S.array_mix m hA hB).2.1.hs⟩

theorem GapPair.kern_nonneg (S : GapPair md r1 r2 L k med) (m : ℕ) (A B0 : Bool → ℕ → ℝ) (i s : ℕ) :
    0 ≤ kern m (k * L * Real.sqrt med.eps) (m - 1) A B0 i s := by
  have hsm := Real.sqrt_pos.mpr S.med_pos.2
  have hL : 0 < L := by have := S.sep; have := S.h1; have := S.h2; nlinarith [mul_pos (add_pos S.h1 S.h2) hsm]
  exact CasSph.kern_nonneg (mul_pos (mul_pos S.hk hL) (Real.sqrt_pos.mpr S.med_pos.1)) _ _ _ _ _

/-- Coefficients close to given ones, as factors. -/
theorem Scatters.near {ρ δ : ℝ} {α A : Bool → ℕ → ℝ} (h : Scatters a α ρ A) (hδ : 0 ≤ δ)
    (he : ∀ i, |teOf a' (i + 1) - teOf a (i + 1)| ≤ δ * A false i ∧ |tmOf a' (i + 1) - tmOf a (i + 1)| ≤ δ * A true i) :
    ∃ α', Scatters a' α' ρ A ∧ ∀ P i, |α' P i - α P i| ≤ δ := by
  have sq : ∀ n : ℕ, ((-1 : ℝ) ^ n) * (-1) ^ n = 1 := fun n => by rw [← mul_pow]; norm_num
  have ab : ∀ n : ℕ, |(-1 : ℝ) ^ n| = 1 := fun n => by rw [abs_pow]; norm_num
  have key : ∀ (x' x s A0 α0 : ℝ), 0 ≤ A0 → s * s = 1 → |s| = 1 → x = α0 * s * A0 → |x' - x| ≤ δ * A0 →
      x' = (if A0 = 0 then α0 else s * x' / A0) * s * A0 ∧ |(if A0 = 0 then α0 else s * x' / A0) - α0| ≤ δ := by
    intro x' x s A0 α0 h0 hs hs1 hx hd
    split_ifs with hA
    · rw [hA, mul_zero] at hd hx
      rw [hx, sub_zero] at hd
      have := abs_nonpos_iff.mp hd
      rw [this, hA]
      simp [hδ]
    · have hp : 0 < A0 := lt_of_le_of_ne h0 (Ne.symm hA)
      refine ⟨?_, ?_⟩
      · rw [show s * x' / A0 * s * A0 = (s * s) * x' by field_simp, hs, one_mul]
      · rw [show s * x' / A0 - α0 = s * (x' - x) / A0 by
          rw [hx, mul_sub, show s * (α0 * s * A0) = (s * s) * (α0 * A0) by ring, hs, one_mul]; field_simp, abs_div, abs_mul, hs1, one_mul, abs_of_pos hp,
          div_le_iff₀ hp]
        exact hd
  choose h1 h2 h3 using h
  refine ⟨fun P i => match P with
    | false => if A false i = 0 then α false i else (-1) ^ (i + 1) * teOf a' (i + 1) / A false i
    | true => if A true i = 0 then α true i else -(-1) ^ (i + 1) * tmOf a' (i + 1) / A true i, fun i => ⟨h1 i, ?_, ?_⟩, fun P i => ?_⟩
  · exact (key (teOf a' (i + 1)) (teOf a (i + 1)) ((-1) ^ (i + 1)) (A false i) (α false i) (h1 i false).1 (sq _) (ab _) (h2 i) (he i).1).1
  · have := (key (tmOf a' (i + 1)) (tmOf a (i + 1)) (-(-1) ^ (i + 1)) (A true i) (α true i) (h1 i true).1 (by rw [neg_mul_neg]; exact sq _) (by rw [abs_neg]; exact ab _)
      (by unfold tmOf; rw [h3 i]; ring) (he i).2).1
    show tmOf a' (i + 1) = _
    rw [this]
    ring_nf
  · cases P with
    | false => exact (key (teOf a' (i + 1)) (teOf a (i + 1)) ((-1) ^ (i + 1)) (A false i) (α false i) (h1 i false).1 (sq _) (ab _) (h2 i) (he i).1).2
    | true => exact (key (tmOf a' (i + 1)) (tmOf a (i + 1)) (-(-1) ^ (i + 1)) (A true i) (α true i) (h1 i true).1 (by rw [neg_mul_neg]; exact sq _) (by rw [abs_neg]; exact ab _)
      (by unfold tmOf; rw [h3 i]; ring) (he i).2).2

/-- Errors of the Mie coefficients. -/
theorem GapPair.perturb_mie (S : GapPair md r1 r2 L k med) {m lmax lssmax : ℕ} {δ : ℝ} (hδ : 0 ≤ δ)
    (hs : (1 + δ) ^ 2 * shrink (r1 * Real.sqrt med.mu) (r2 * Real.sqrt med.mu) L < 1) {α β A B0 : Bool → ℕ → ℝ}
    (hA : Scatters a α (k * r1 * med.n) A) (hB : Scatters b β (k * r2 * med.n) B0) (hα : ∀ P i, |α P i| ≤ 1) (hβ : ∀ P i, |β P i| ≤ 1)
    (ha' : ∀ i, |teOf a' (i + 1) - teOf a (i + 1)| ≤ δ * A false i ∧ |tmOf a' (i + 1) - tmOf a (i + 1)| ≤ δ * A true i)
    (hb' : ∀ i, |teOf b' (i + 1) - teOf b (i + 1)| ≤ δ * B0 false i ∧ |tmOf b' (i + 1) - tmOf b (i + 1)| ≤ δ * B0 true i)
    {B B' : Blocks (lmax + 1 - transLmin m)} (hBl : BlocksAt md L k lmax lssmax m a b B) (hBl' : BlocksAt md L k lmax lssmax m a' b' B') :
    0 < (1 - B'.full).det ∧ 0 < (1 - B.full).det ∧ |Real.log (1 - B'.full).det - Real.log (1 - B.full).det| ≤
      gain ((1 + δ) ^ 2 - 1) (shrink (r1 * Real.sqrt med.mu) (r2 * Real.sqrt med.mu) L) *
        (gram 1 (kern m (k * L * Real.sqrt med.eps) (m - 1) A B0) (2 * (lmax + 1 - transLmin m)) (2 * (lssmax + 1 - transLmin m))).trace := by
  obtain ⟨α', sa, na⟩ := hA.near hδ ha'
  obtain ⟨β', sb, nb⟩ := hB.near hδ hb'
  have e := (det_reindex ((S.array_mix m hA hB).2.2 hBl)).1
  have e' := (det_reindex ((S.array_mix m sa sb).2.2 hBl')).1
  rw [e, e']
  have h0 := S.kern_nonneg m A B0
  have hκ : 0 ≤ (1 + δ) ^ 2 - 1 := by nlinarith
  refine (S.hs_ratio m hA hB).perturb hκ (by rwa [add_sub_cancel]) (fun i j => mixed_le h0 (fun i => hα _ _) (fun s => hβ _ _) i j) fun i j =>
    mixed_sub_le hδ h0 (fun i => hα _ _) (fun s => hβ _ _) (fun i => na _ _) (fun s => nb _ _) i j

end

/-- The coefficients `c'` up to `n`, followed by `c`. -/
noncomputable def joinCoef (n : ℕ) (c' c : MieCoef) : MieCoef :=
  ⟨fun l => if l ≤ n then c'.TE l else c.TE l, fun l => if l ≤ n then c'.TM l else c.TM l, fun l => if l ≤ n then c'.ln l else c.ln l⟩

theorem joinCoef_agree (n : ℕ) (c' c : MieCoef) : AgreeTo n c' (joinCoef n c' c) := fun l _ hl => by simp [joinCoef, hl]

theorem teOf_congr {c d : MieCoef} {n l : ℕ} (h : AgreeTo n c d) (h1 : 1 ≤ l) (hl : l ≤ n) : teOf c l = teOf d l ∧ tmOf c l = tmOf d l := by
  obtain ⟨e1, e2, e3⟩ := h l h1 hl
  unfold teOf tmOf
  rw [e1, e2, e3]
  exact ⟨rfl, rfl⟩

theorem CoefErr.join {n : ℕ} {δ : ℝ} {t' t t0 c : MieCoef} {A : Bool → ℕ → ℝ} (h : CoefErr n δ t' t t0) (hδ : 0 ≤ δ) (hA : ∀ P i, 0 ≤ A P i) (ht : AgreeTo n t c)
    (h0 : ∀ i, i + 1 ≤ n → |teOf t0 (i + 1)| = A false i ∧ |tmOf t0 (i + 1)| = A true i) (i : ℕ) :
    |teOf (joinCoef n t' c) (i + 1) - teOf c (i + 1)| ≤ δ * A false i ∧ |tmOf (joinCoef n t' c) (i + 1) - tmOf c (i + 1)| ≤ δ * A true i := by
  by_cases hi : i + 1 ≤ n
  · obtain ⟨e1, e2⟩ := teOf_congr (joinCoef_agree n t' c) (by omega) hi
    obtain ⟨e3, e4⟩ := teOf_congr ht (by omega) hi
    have := h (i + 1) (by omega) hi
    rw [← e1, ← e2, ← e3, ← e4, ← (h0 i hi).1, ← (h0 i hi).2]
    exact this
  · have e : teOf (joinCoef n t' c) (i + 1) = teOf c (i + 1) ∧ tmOf (joinCoef n t' c) (i + 1) = tmOf c (i + 1) := by
      simp [teOf, tmOf, joinCoef, hi]
    rw [e.1, e.2, sub_self, sub_self, abs_zero]
    exact ⟨mul_nonneg hδ (hA _ _), mul_nonneg hδ (hA _ _)⟩

theorem Scatters.abs {c : MieCoef} {α A : Bool → ℕ → ℝ} {ρ : ℝ} (h : Scatters c α ρ A) (hα : ∀ P i, |α P i| = 1) (i : ℕ) :
    |teOf c (i + 1)| = A false i ∧ |tmOf c (i + 1)| = A true i := by
  obtain ⟨h1, h2, h3⟩ := h i
  have ab : ∀ n : ℕ, |(-1 : ℝ) ^ n| = 1 := fun n => by rw [abs_pow]; norm_num
  unfold teOf tmOf
  rw [h2, h3, abs_neg, abs_mul, abs_mul, abs_mul, abs_mul, hα, hα, ab, abs_of_nonneg (h1 false).1, abs_of_nonneg (h1 true).1]
  simp

/-! ## One wavenumber -/

/-- The matrices of one `m` for coefficients with errors. -/
theorem GapPair.wave_perturb {md : Material} {r1 r2 L k : ℝ} {med : Medium} {ca cb : MieCoef} (S : GapPair md r1 r2 L k med) {lmax lssmax : ℕ} {δ : ℝ}
    (hδ : 0 ≤ δ) (hs : (1 + δ) ^ 2 * shrink (r1 * Real.sqrt med.mu) (r2 * Real.sqrt med.mu) L < 1) {α β A B0 : Bool → ℕ → ℝ}
    (hA : Scatters ca α (k * r1 * med.n) A) (hB : Scatters cb β (k * r2 * med.n) B0) (hα : ∀ P i, |α P i| ≤ 1) (hβ : ∀ P i, |β P i| ≤ 1)
    {w w' w0 : WaveIn} (hnL : w.nL = k * L * Real.sqrt med.eps) (hbes : transBessels [w.nL] (.int (lmax + lssmax + 1 : ℕ)) 1 = .ok [w.bes])
    (ga : AgreeTo lmax w.a ca) (gb : AgreeTo lssmax w.b cb) (he : WaveErr lmax lssmax δ w' w w0)
    (h0a : ∀ i, i + 1 ≤ lmax → |teOf w0.a (i + 1)| = A false i ∧ |tmOf w0.a (i + 1)| = A true i)
    (h0b : ∀ i, i + 1 ≤ lssmax → |teOf w0.b (i + 1)| = B0 false i ∧ |tmOf w0.b (i + 1)| = B0 true i)
    {m : ℕ} (hm1 : max 1 m ≤ lmax) (hm2 : max 1 m ≤ lssmax) :
    ∃ B B' : Blocks (lmax + 1 - transLmin m), blockmatricesAt lmax lssmax m true w.nL w.bes w.a w.b = .ok B ∧
      blockmatricesAt lmax lssmax m true w'.nL w'.bes w'.a w'.b = .ok B' ∧
      0 < (1 - B'.full).det ∧ 0 < (1 - B.full).det ∧ |Real.log (1 - B'.full).det - Real.log (1 - B.full).det| ≤
        gain ((1 + δ) ^ 2 - 1) (shrink (r1 * Real.sqrt med.mu) (r2 * Real.sqrt med.mu) L) *
          (gram 1 (kern m (k * L * Real.sqrt med.eps) (m - 1) A B0) (2 * (lmax + 1 - transLmin m)) (2 * (lssmax + 1 - transLmin m))).trace := by
  have hb := hbes
  rw [trans_row_ext] at hb
  injection hb with hb
  injection hb with hb
  have hblk : ∀ {t1 t2 c1 c2 : MieCoef}, AgreeTo lmax t1 c1 → AgreeTo lssmax t2 c2 → ∃ B, blockmatricesAt lmax lssmax m true w.nL w.bes t1 t2 = .ok B ∧
      BlocksAt md L k lmax lssmax m c1 c2 B := by
    intro t1 t2 c1 c2 g1 g2
    rw [blockmatricesAt_congr g1 g2]
    obtain ⟨B, hB⟩ := blockmatricesAt_ok hm1 hm2 w.nL c1 c2
    rw [hb] at hB
    exact ⟨B, hB, med.eps, w.bes, medium_eps S.hmed, hnL ▸ hbes, hnL ▸ hB⟩
  obtain ⟨B, e1, q1⟩ := hblk ga gb
  obtain ⟨B', e2, q2⟩ := hblk (joinCoef_agree lmax w'.a ca) (joinCoef_agree lssmax w'.b cb)
  refine ⟨B, B', e1, by rw [he.nL, he.bes]; exact e2, ?_⟩
  exact S.perturb_mie hδ hs hA hB hα hβ (CoefErr.join he.a hδ (fun P i => ((hA i).1 P).1) ga h0a) (CoefErr.join he.b hδ (fun P i => ((hB i).1 P).1) gb h0b) q1 q2

theorem waveIn_ok' {P : PairIn} {k : ℝ} {med : Medium} {a b : MieCoef} (S : FinitePair P.mat1 P.mat2 P.mat3 P.r1 P.r2 P.L k med a b) :
    ∃ w, waveIn exactBes P k = .ok w ∧ w.nL = k * P.L * Real.sqrt med.eps ∧ transBessels [w.nL] (.int (P.lmax + P.lssmax + 1 : ℕ)) 1 = .ok [w.bes] ∧
      AgreeTo P.lmax w.a a ∧ AgreeTo P.lssmax w.b b := by
  obtain ⟨c1, h1, g1⟩ := mieTable_ok S.ha P.lmax
  obtain ⟨c2, h2, g2⟩ := mieTable_ok S.hb P.lssmax
  refine ⟨⟨k * P.L * Real.sqrt med.eps, (List.range (P.lmax + P.lssmax + 1 + 1)).map (lnk1 (k * P.L * Real.sqrt med.eps)), c1, c2⟩, ?_, rfl,
    trans_row_ext _ _, g1, g2⟩
  unfold waveIn
  rw [h1, ok_bind, h2, ok_bind, medium_eps S.hmed, ok_bind, trans_row_ext, ok_bind]
  rfl

theorem Scatters.abs_table {c t : MieCoef} {α A : Bool → ℕ → ℝ} {ρ : ℝ} {n : ℕ} (h : Scatters c α ρ A) (hα : ∀ P i, |α P i| = 1) (g : AgreeTo n t c) :
    ∀ i, i + 1 ≤ n → |teOf t (i + 1)| = A false i ∧ |tmOf t (i + 1)| = A true i := fun i hi => by
  obtain ⟨e1, e2⟩ := teOf_congr g (by omega) hi
  rw [e1, e2]
  exact h.abs hα i

/-- Two homogeneous spheres: relative errors of the coefficients. -/
theorem PairOK.perturb {P : PairIn} (h : PairOK P) {k : ℝ} (hk : 0 < k) {δ : ℝ} (hδ : 0 ≤ δ) (hs : (1 + δ) ^ 2 * shrink P.r1 P.r2 P.L < 1)
    {w w' : WaveIn} (hw : waveIn exactBes P k = .ok w) (he : WaveErr P.lmax P.lssmax δ w' w w) {m : ℕ} (hm : m ≤ P.lmax) :
    ∃ B', blockmatricesAt P.lmax P.lssmax m true w'.nL w'.bes w'.a w'.b = .ok B' ∧ 0 < (1 - B'.full).det ∧
      |Real.log (1 - B'.full).det - lnDetV P m k| ≤ 2 * gain ((1 + δ) ^ 2 - 1) (shrink P.r1 P.r2 P.L) * |lnDetV P m k| ∧
      ((∃ σ, DenseSign P.mat1 P.mat3 k σ ∧ DenseSign P.mat2 P.mat3 k σ) →
        |Real.log (1 - B'.full).det - lnDetV P m k| ≤ gain ((1 + δ) ^ 2 - 1) (shrink P.r1 P.r2 P.L) * |lnDetV P m k|) := by
  have hm1 : max 1 m ≤ P.lmax := by have := h.hl; omega
  obtain ⟨a, b, S⟩ := h.pair hk
  obtain ⟨w1, hw1, e1, e2, g1, g2⟩ := waveIn_ok' S
  rw [hw] at hw1
  injection hw1 with hw1
  subst hw1
  have G : GapPair P.mat3 P.r1 P.r2 P.L k ⟨P.mat3.epsV k, 1⟩ := S.gap
  have hκ : 0 ≤ (1 + δ) ^ 2 - 1 := by nlinarith
  have hg := gain_nonneg hκ (by rwa [add_sub_cancel])
  have main : ∀ {σa σb : ℝ}, DenseSign P.mat1 P.mat3 k σa → DenseSign P.mat2 P.mat3 k σb →
      ∃ B', blockmatricesAt P.lmax P.lssmax m true w'.nL w'.bes w'.a w'.b = .ok B' ∧ 0 < (1 - B'.full).det ∧
      |Real.log (1 - B'.full).det - lnDetV P m k| ≤ (if σa = σb then 1 else 2) * gain ((1 + δ) ^ 2 - 1) (shrink P.r1 P.r2 P.L) * |lnDetV P m k| := by
    intro σa σb ea eb
    obtain ⟨A, hA⟩ := amp_exists h.m1 h.m3 hk h.h1 ea
    obtain ⟨B0, hB⟩ := amp_exists h.m2 h.m3 hk h.h2 eb
    obtain ⟨hH, hV⟩ := lnDetV_kern h hm1 hk hA hB
    have ra := (hA.reflects S.hmed S.ha).scatters
    have rb := (hB.reflects S.hmed S.hb).scatters
    have ab : ∀ {m md : Material} {σ : ℝ}, DenseSign m md k σ → |σ| = 1 := fun e => by rcases e.sign with h | h <;> rw [h] <;> norm_num
    obtain ⟨B, B', q1, q2, q3, q4, q5⟩ := G.wave_perturb (w := w) (w' := w') (w0 := w) hδ (by simpa using hs) ra rb (fun _ _ => (ab ea).le) (fun _ _ => (ab eb).le) e1 e2 g1 g2 he
      (ra.abs_table (fun _ _ => ab ea) g1) (rb.abs_table (fun _ _ => ab eb) g2) hm1 (hm1.trans h.hls)
    refine ⟨B', q2, q3, ?_⟩
    have hB' : BlocksAt P.mat3 P.L k P.lmax P.lssmax m a b B := by
      rw [blockmatricesAt_congr g1 g2] at q1
      exact ⟨_, w.bes, medium_eps S.hmed, e1 ▸ e2, e1 ▸ q1⟩
    have e : lnDetV P m k = Real.log (1 - B.full).det := by
      rw [hV, (det_reindex ((S.array_of m (hA.reflects S.hmed S.ha) (hB.reflects S.hmed S.hb)).2.2 hB')).1]
    rw [Real.sqrt_one, mul_one, mul_one, ← e] at q5
    refine q5.trans ?_
    rw [show ∀ x : ℝ, x * gain ((1 + δ) ^ 2 - 1) (shrink P.r1 P.r2 P.L) * |lnDetV P m k| = gain ((1 + δ) ^ 2 - 1) (shrink P.r1 P.r2 P.L) * (x * |lnDetV P m k|) from
      fun x => by ring]
    refine mul_le_mul_of_nonneg_left ?_ hg
    have t := hH.trace_le_log (2 * (P.lmax + 1 - transLmin m)) (2 * (P.lssmax + 1 - transLmin m))
    rw [hV]
    split_ifs with hσ
    · have e1 : σa * σb = 1 := by rw [← hσ]; rcases ea.sign with h | h <;> rw [h] <;> norm_num
      rw [e1, one_mul]
      exact t.1.trans (neg_le_abs _)
    · have e1 : σa * σb = -1 := by
        rcases ea.sign with h1 | h1 <;> rcases eb.sign with h2 | h2 <;> rw [h1, h2] at hσ ⊢ <;> first | exact absurd rfl hσ | norm_num
      rw [e1]
      exact t.2.trans (mul_le_mul_of_nonneg_left (le_abs_self _) (by norm_num))
  obtain ⟨σa, ea⟩ := dense_total h.m1 h.m3 hk
  obtain ⟨σb, eb⟩ := dense_total h.m2 h.m3 hk
  obtain ⟨B', q1, q2, q3⟩ := main ea eb
  refine ⟨B', q1, q2, q3.trans (mul_le_mul_of_nonneg_right (mul_le_mul_of_nonneg_right (by split_ifs <;> norm_num) hg) (abs_nonneg _)), ?_⟩
  rintro ⟨σ, ea, eb⟩
  obtain ⟨B'', q1', q2', q3'⟩ := main ea eb
  rw [q1] at q1'
  injection q1' with q1'
  subst q1'
  rwa [if_pos rfl, one_mul] at q3'

/-- Two homogeneous or stratified spheres: errors relative to the coefficients of perfect conductors. -/
theorem BallPairOK.perturb {P : BallPair} {R1 R2 : ℝ} (h : BallPairOK P R1 R2) {k : ℝ} (hk : 0 < k) {δ : ℝ} (hδ : 0 ≤ δ)
    (hs : (1 + δ) ^ 2 * shrink R1 R2 P.L < 1) {w w' w0 : WaveIn} (hw : ballWave exactBes P k = .ok w) (hw0 : waveIn exactBes (P.metal R1 R2) k = .ok w0)
    (he : WaveErr P.lmax P.lssmax δ w' w w0) {m : ℕ} (hm : m ≤ P.lmax) :
    ∃ B', blockmatricesAt P.lmax P.lssmax m true w'.nL w'.bes w'.a w'.b = .ok B' ∧ 0 < (1 - B'.full).det ∧
      |Real.log (1 - B'.full).det - lnBall P m k| ≤ gain ((1 + δ) ^ 2 - 1) (shrink R1 R2 P.L) * -lnDetV (P.metal R1 R2) m k := by
  have hm1 : max 1 m ≤ P.lmax := by have := h.hl; omega
  obtain ⟨ca, ha, ⟨α, hα, sa⟩, -, -⟩ := h.ok1.scatters h.m3 hk
  obtain ⟨cb, hb, ⟨β, hβ, sb⟩, -, -⟩ := h.ok2.scatters h.m3 hk
  obtain ⟨a, b, S⟩ := h.metal.pair hk
  obtain ⟨w1, hw1, -, -, z1, z2⟩ := waveIn_ok' S
  rw [hw0] at hw1
  injection hw1 with hw1
  subst hw1
  have hmed : (P.H P.mat3).medium k = .ok ⟨(P.H P.mat3).epsV k, 1⟩ := S.hmed
  have G : GapPair (P.H P.mat3) R1 R2 P.L k ⟨(P.H P.mat3).epsV k, 1⟩ := S.gap
  obtain ⟨t1, e1, g1⟩ := ha P.lmax
  obtain ⟨t2, e2, g2⟩ := hb P.lssmax
  have hwe : w = ⟨k * P.L * Real.sqrt ((P.H P.mat3).epsV k), (List.range (P.lmax + P.lssmax + 1 + 1)).map (lnk1 (k * P.L * Real.sqrt ((P.H P.mat3).epsV k))), t1, t2⟩ := by
    unfold ballWave at hw
    rw [e1, ok_bind, e2, ok_bind, medium_eps hmed, ok_bind, trans_row_ext, ok_bind] at hw
    injection hw with hw
    exact hw.symm
  have p1 := amp_pec rfl pec_sphere h.m3 hk h.ok1.pos
  have p2 := amp_pec rfl pec_sphere h.m3 hk h.ok2.pos
  obtain ⟨hH, hV⟩ := lnDetV_kern h.metal (m := m) hm1 hk p1 p2
  have en : ∀ R : ℝ, k * R * (⟨(P.H P.mat3).epsV k, 1⟩ : Medium).n = k * Real.sqrt ((P.H P.mat3).epsV k) * R := fun R => by
    unfold Medium.n; simp only [mul_one]; ring
  have sa' : Scatters ca α (k * R1 * (⟨(P.H P.mat3).epsV k, 1⟩ : Medium).n) fun Q i => pecR Q i (k * Real.sqrt ((P.H P.mat3).epsV k) * R1) := by
    simp only [en] at sa ⊢; exact sa
  have sb' : Scatters cb β (k * R2 * (⟨(P.H P.mat3).epsV k, 1⟩ : Medium).n) fun Q i => pecR Q i (k * Real.sqrt ((P.H P.mat3).epsV k) * R2) := by
    simp only [en] at sb ⊢; exact sb
  have ra := (p1.reflects S.hmed S.ha).scatters
  have rb := (p2.reflects S.hmed S.hb).scatters
  obtain ⟨B, B', q1, q2, q3, q4, q5⟩ := G.wave_perturb (w := w) (w' := w') (w0 := w0) hδ (by simpa using hs) sa' sb' hα hβ (by rw [hwe]) (by rw [hwe]; exact trans_row_ext _ _) (by rw [hwe]; exact g1) (by rw [hwe]; exact g2) he
    (ra.abs_table (fun _ _ => by norm_num) z1) (rb.abs_table (fun _ _ => by norm_num) z2) hm1 (hm1.trans h.hls)
  refine ⟨B', q2, q3, ?_⟩
  have el : lnBall P m k = Real.log (1 - B.full).det := by
    unfold lnBall
    rw [hw]
    simp only
    rw [q1]
  rw [el]
  rw [Real.sqrt_one, mul_one, mul_one] at q5
  refine q5.trans (mul_le_mul_of_nonneg_left ?_ (gain_nonneg (by nlinarith) (by rwa [add_sub_cancel])))
  have t := (hH.trace_le_log (2 * (P.lmax + 1 - transLmin m)) (2 * (P.lssmax + 1 - transLmin m))).1
  rw [hV, one_mul]
  exact t

end CasSph
