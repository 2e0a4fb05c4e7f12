import Verif.Lemmas.Sensitivity
import Verif.Props.FloatEnergy
import Verif.Props.StaticSign

/-! # One `m` at one wavenumber when all data of the pair change a little -/

namespace CasSph

open Spec
open Matrix (of submatrix)

theorem waveIn_form {P : PairIn} (h : PairOK P) {k : ℝ} (hk : 0 < k) {w : WaveIn} (hw : waveIn exactBes P k = .ok w) :
    w.nL = k * P.L * Real.sqrt (P.mat3.epsV k) ∧
      w.bes = (List.range (P.lmax + P.lssmax + 1 + 1)).map (lnk1 (k * P.L * Real.sqrt (P.mat3.epsV k))) := by
  obtain ⟨a, b, S⟩ := h.pair hk
  obtain ⟨t1, f1, -⟩ := mieTable_ok S.ha P.lmax
  obtain ⟨t2, f2, -⟩ := mieTable_ok S.hb P.lssmax
  unfold waveIn at hw
  rw [f1, ok_bind, f2, ok_bind, medium_eps S.hmed, ok_bind, trans_row_ext, ok_bind] at hw
  injection hw with hw
  subst hw
  exact ⟨rfl, rfl⟩

theorem lnDetV_blocks_cut {P : PairIn} (h : PairOK P) {k : ℝ} (hk : 0 < k) {w : WaveIn} (hw : waveIn exactBes P k = .ok w) {m lmax lssmax : ℕ} (e1 : P.lmax = lmax)
    (e2 : P.lssmax = lssmax) (hm : m ≤ lmax) {B : Blocks (lmax + 1 - transLmin m)} (hB : blockmatricesAt lmax lssmax m true w.nL w.bes w.a w.b = .ok B) :
    lnDetV P m k = Real.log (1 - B.full).det := by
  subst e1 e2
  exact lnDetV_blocks h hk hw hm hB

theorem asmErr_exact (w S Z : ℝ) (p : ℕ) :
    asmErr 0 Z (Real.exp (w * (60 + 63 / 10 * S)) - 1) (Real.exp (w * (63 / 10 * S)) - 1) p = Real.exp (w * (120 + 252 / 10 * S)) - 1 := by
  unfold asmErr
  rw [add_sub_cancel, add_sub_cancel, ← Real.exp_nat_mul, ← Real.exp_nat_mul, ← Real.exp_add, ← Real.exp_add, add_zero, one_pow, mul_one]
  congr 2
  push_cast
  ring

theorem lnDetV_sens {P P' : PairIn} (h : PairOK P) (h' : PairOK P') {k k' w X : ℝ} (hk : 0 < k) (hk' : 0 < k') (d : DataErr w P' P k' k) (hw : w ≤ 1 / 800)
    (hX : k * P.L * Real.sqrt (P.mat3.epsV k) ≤ X) (hs : (1 + dataErr w X P.lssmax) * shrink P.r1 P.r2 P.L < 1) {m : ℕ} (hm : m ≤ P.lmax) :
    |lnDetV P' m k' - lnDetV P m k| ≤ gain (dataErr w X P.lssmax) (shrink P.r1 P.r2 P.L) * -lnDetV P.metal m k := by
  have L0 : 0 < P.L := by linarith [h.h1, h.h2, h.sep]
  have L0' : 0 < P'.L := by linarith [h'.h1, h'.h2, h'.sep]
  have nk : Near w k' k := ⟨hk', hk, d.wave⟩
  have n1 : Near w P'.r1 P.r1 := ⟨h'.h1, h.h1, d.r1⟩
  have n2 : Near w P'.r2 P.r2 := ⟨h'.h2, h.h2, d.r2⟩
  have nL : Near w P'.L P.L := ⟨L0', L0, d.L⟩
  have w0 : 0 ≤ w := nk.w0
  obtain ⟨W, hW⟩ := h.wave hk
  obtain ⟨W', hW'⟩ := h'.wave hk'
  obtain ⟨W0, hW0⟩ := h.metal.wave hk
  obtain ⟨f1, f2⟩ := waveIn_form h hk hW
  obtain ⟨f1', f2'⟩ := waveIn_form h' hk' hW'
  obtain ⟨ta, tb⟩ := waveIn_tables hW
  obtain ⟨ta', tb'⟩ := waveIn_tables hW'
  obtain ⟨ta0, tb0⟩ := waveIn_tables hW0
  obtain ⟨V, hV⟩ := h.trans hk hW m
  obtain ⟨V', hV'⟩ : ∃ V', transAb P.lmax P.lssmax m true W'.nL W'.bes = .ok V' := by
    have := h'.trans hk' hW' m
    rw [d.lmax, d.lssmax] at this
    exact this
  rw [d.lmax] at ta'
  rw [d.lssmax] at tb'
  rw [d.lmax, d.lssmax] at f2'
  have q : 0 < k * Real.sqrt (P.mat3.epsV k) := mul_pos hk (Real.sqrt_pos.2 (medium_val h.m3.cls h.m3.phys hk).2)
  have X0 : 0 ≤ X := le_trans (by nlinarith) hX
  have hX1 : k * P.r1 * Real.sqrt (P.mat3.epsV k) ≤ X := le_trans (by nlinarith [h.sep, h.h2]) hX
  have hX2 : k * P.r2 * Real.sqrt (P.mat3.epsV k) ≤ X := le_trans (by nlinarith [h.sep, h.h1]) hX
  obtain ⟨δ, hδ⟩ : ∃ δ, δ = Real.exp (w * (60 + 63 / 10 * (P.lssmax + 1 + X))) - 1 := ⟨_, rfl⟩
  obtain ⟨ε, hε⟩ : ∃ ε, ε = Real.exp (w * (63 / 10 * (P.lssmax + 1 + X))) - 1 := ⟨_, rfl⟩
  have δ0 : 0 ≤ δ := by rw [hδ, sub_nonneg]; exact Real.one_le_exp (by positivity)
  have ε0 : 0 ≤ ε := by rw [hε, sub_nonneg]; exact Real.one_le_exp (by positivity)
  have hasm : ∀ Z p, asmErr 0 Z δ ε p ≤ dataErr w X P.lssmax := by
    intro Z p
    rw [hδ, hε, asmErr_exact]
    unfold dataErr
    have : w * (120 + 252 / 10 * (P.lssmax + 1 + X)) ≤ w * (120 + 26 * (P.lssmax + 1 + X)) := by
      refine mul_le_mul_of_nonneg_left ?_ w0
      have : (0 : ℝ) ≤ P.lssmax + 1 + X := by positivity
      linarith
    linarith [Real.exp_le_exp.2 this]
  have hasm0 : ∀ Z p, 0 ≤ asmErr 0 Z δ ε p := by
    intro Z p
    rw [hδ, hε, asmErr_exact, sub_nonneg]
    exact Real.one_le_exp (by positivity)
  have hsh := shrink_mem h.h1 h.h2 h.sep
  obtain ⟨c1, c2, c3⟩ := h.coefs hk exactFl_err exactFl_sums (Z := ∑ l ∈ Finset.range (P.lmax + 1), |W'.a.ln l| + ∑ l ∈ Finset.range (P.lssmax + 1), |W'.b.ln l| + ∑ i, ∑ s, |(V' i s).sk|) δ0 ε0 hW hW0
  have nx : Near (3 * w) W'.nL W.nL := by
    rw [f1, f1']
    exact ((nk.mul nL).mul (d.mat3.near h.m3.cls h.m3.phys h'.m3.phys hk hk').sqrt).mono (by linarith)
  have hVe : TransErr ε V' V := by
    rw [hε]
    rw [f2', ← f1'] at hV'
    rw [f2, ← f1] at hV
    exact trans_sens nx hw (by rw [f1]; exact hX) h.hls hV' hV
  have ca : CoefErr P.lmax δ W'.a W.a W0.a := by
    rw [hδ]
    exact mieTable_sens h.m1 h'.m1 h.m3 h'.m3 nk n1 d.mat1 d.mat3 hw hX1 h.hls ta' ta ta0 c1
  have cb : CoefErr P.lssmax δ W'.b W.b W0.b := by
    rw [hδ]
    exact mieTable_sens h.m2 h'.m2 h.m3 h'.m3 nk n2 d.mat2 d.mat3 hw hX2 le_rfl tb' tb tb0 c2
  have zs : ∀ (f : ℕ → ℝ) (n l : ℕ), l ≤ n → |f l| ≤ ∑ l ∈ Finset.range (n + 1), |f l| := fun f n l hl =>
    Finset.single_le_sum (f := fun l => |f l|) (fun _ _ => abs_nonneg _) (Finset.mem_range.2 (by omega))
  have s1 : 0 ≤ ∑ l ∈ Finset.range (P.lmax + 1), |W'.a.ln l| := Finset.sum_nonneg fun _ _ => abs_nonneg _
  have s2 : 0 ≤ ∑ l ∈ Finset.range (P.lssmax + 1), |W'.b.ln l| := Finset.sum_nonneg fun _ _ => abs_nonneg _
  have s3 : 0 ≤ ∑ i, ∑ s, |(V' i s).sk| := Finset.sum_nonneg fun _ _ => Finset.sum_nonneg fun _ _ => abs_nonneg _
  obtain ⟨B, e1, e2, e3⟩ := c3 hm hV hVe ca cb (fun l _ hl => (zs _ _ l hl).trans (by linarith)) (fun l _ hl => (zs _ _ l hl).trans (by linarith))
    (fun i s => ((Finset.single_le_sum (f := fun s => |(V' i s).sk|) (fun _ _ => abs_nonneg _) (Finset.mem_univ s)).trans
      (Finset.single_le_sum (f := fun i => ∑ s, |(V' i s).sk|) (fun _ _ => Finset.sum_nonneg fun _ _ => abs_nonneg _) (Finset.mem_univ i))).trans (by linarith))
    (lt_of_le_of_lt (mul_le_mul_of_nonneg_right (by linarith [hasm (∑ l ∈ Finset.range (P.lmax + 1), |W'.a.ln l| + ∑ l ∈ Finset.range (P.lssmax + 1), |W'.b.ln l| + ∑ i, ∑ s, |(V' i s).sk|) (P.lssmax + 1 - transLmin m)]) hsh.1.le) hs)
  rw [exactFl_blocks] at e1
  have e4 : blockmatricesAt P.lmax P.lssmax m true W'.nL W'.bes W'.a W'.b = .ok B := by
    unfold blockmatricesAt
    rw [elems_exact hV', ok_bind]
    exact e1
  have e5 : lnDetV P' m k' = Real.log (1 - B.full).det := by
    exact lnDetV_blocks_cut h' hk' hW' d.lmax d.lssmax hm e4
  rw [e5]
  refine e3.trans (mul_le_mul_of_nonneg_right (gain_mono (hasm0 _ _) (hasm _ _) hsh.1.le hs) ?_)
  have := h.abs_metal hk hm
  exact (abs_nonneg _).trans this
end CasSph
