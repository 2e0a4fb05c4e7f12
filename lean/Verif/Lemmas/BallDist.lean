import Verif.Props.StratPair
import Verif.Props.ConvexDist
import Verif.Lemmas.BallAmp

/-! # Two stratified spheres on the same side of the medium: arrays of non-negative numbers -/

namespace CasSph

open Spec Filter Topology Matrix

/-- The same spheres at another distance. -/
def BallPair.at (P : BallPair) (L : ℝ) : BallPair := { P with L := L }

section
variable {P : BallPair} {R1 R2 k : ℝ}

theorem BallPairOK.at (h : BallPairOK P R1 R2) {L : ℝ} (hL : P.L ≤ L) : BallPairOK (P.at L) R1 R2 :=
  ⟨h.ok1, h.ok2, h.m3, h.sep.trans_le hL, h.hl, h.hls⟩

/-- Amplitudes that belong to the spheres and not to the distance or the cut-offs. -/
theorem BallPairOK.kernelR (h : BallPairOK P R1 R2) (hk : 0 < k) {σa σb : ℝ} (ha : P.ball1.OnSide P.H P.mat3 k σa) (hb : P.ball2.OnSide P.H P.mat3 k σb)
    {L : ℝ} (hL : P.L ≤ L) (m : ℕ) :
    (∃ θ T, HSContr (kern m (k * L * Real.sqrt ((P.H P.mat3).epsV k)) (m - 1) (ballR P.H P.mat3 k σa P.ball1) (ballR P.H P.mat3 k σb P.ball2)) θ T) ∧
    (P.ball1.Contrast P.H P.mat3 k → P.ball2.Contrast P.H P.mat3 k →
      0 < kern m (k * L * Real.sqrt ((P.H P.mat3).epsV k)) (m - 1) (ballR P.H P.mat3 k σa P.ball1) (ballR P.H P.mat3 k σb P.ball2) 0 0) ∧
    ∀ a b : ℕ, max 1 m ≤ a → a ≤ b → lnBall ((P.at L).cut a b) m k =
      Real.log (1 - gram (σa * σb) (kern m (k * L * Real.sqrt ((P.H P.mat3).epsV k)) (m - 1) (ballR P.H P.mat3 k σa P.ball1) (ballR P.H P.mat3 k σb P.ball2))
        (2 * (a + 1 - transLmin m)) (2 * (b + 1 - transLmin m))).det := by
  obtain ⟨ca, ta, hA⟩ := h.ok1.reflects h.m3 hk
  obtain ⟨cb, tb, hB⟩ := h.ok2.reflects h.m3 hk
  have hA := hA σa ha
  have hB := hB σb hb
  set med : Medium := ⟨(P.H P.mat3).epsV k, 1⟩ with hmed
  have hm : (P.H P.mat3).medium k = .ok med := by
    have := (medium_val h.m3.cls h.m3.phys hk).1
    rwa [muV_of_none h.m3.mag] at this
  have G : GapPair (P.H P.mat3) R1 R2 L k med := ⟨h.m3.cls, h.m3.phys, hk, h.ok1.pos, h.ok2.pos, hm, by
    rw [hmed]; simpa using h.sep.trans_le hL⟩
  have q := G.array_mix m hA.scatters hB.scatters
  refine ⟨⟨_, _, q.2.1⟩, fun c1 c2 => q.1 ?_ ?_, fun a b hma hab => ?_⟩
  · exact hA.te_ne ha.sign (by unfold transLmin; omega) fun i => ballR_pos h.ok1 h.m3 hk ha c1 false i
  · exact hB.te_ne hb.sign (by unfold transLmin; omega) fun i => ballR_pos h.ok2 h.m3 hk hb c2 false i
  obtain ⟨t1, e1, g1⟩ := ta a
  obtain ⟨t2, e2, g2⟩ := tb b
  have hw : ballWave exactBes ((P.at L).cut a b) k = .ok ⟨k * L * Real.sqrt med.eps,
      (List.range (a + b + 1 + 1)).map (lnk1 (k * L * Real.sqrt med.eps)), t1, t2⟩ := by
    unfold ballWave
    simp only [BallPair.cut, BallPair.at]
    rw [e1, ok_bind, e2, ok_bind, medium_eps hm, ok_bind, trans_row_ext, ok_bind]
    rfl
  obtain ⟨Bl, hBl⟩ := blockmatricesAt_ok hma (hma.trans hab) (k * L * Real.sqrt med.eps) ca cb
  have hBA : BlocksAt (P.H P.mat3) L k a b m ca cb Bl := ⟨med.eps, _, medium_eps hm, trans_row_ext _ _, hBl⟩
  refine lnBall_of (P := P.at L) hw (B := Bl) ?_ ?_
  · simp only
    rw [blockmatricesAt_congr g1 g2]
    exact hBl
  · rw [(det_reindex (q.2.2 hBA)).1]
    have e := mixed_const σa σb (kern m (k * L * Real.sqrt med.eps) (m - 1) (ballR P.H P.mat3 k σa P.ball1) (ballR P.H P.mat3 k σb P.ball2))
      (2 * (a + 1 - transLmin m)) (2 * (b + 1 - transLmin m))
    exact congrArg (fun M => Real.log (1 - M).det) e.symm

theorem BallPair.SameSide.sides (hs : P.SameSide k) : ∃ σ : ℝ, P.ball1.OnSide P.H P.mat3 k σ ∧ P.ball2.OnSide P.H P.mat3 k σ ∧ σ * σ = 1 := by
  rcases hs with ⟨h1, h2⟩ | ⟨h1, h2⟩
  · exact ⟨1, .inl ⟨rfl, h1⟩, .inl ⟨rfl, h2⟩, by norm_num⟩
  · exact ⟨-1, .inr ⟨rfl, h1⟩, .inr ⟨rfl, h2⟩, by norm_num⟩

theorem BallPair.OppositeSide.sides (hs : P.OppositeSide k) : ∃ σa σb : ℝ, P.ball1.OnSide P.H P.mat3 k σa ∧ P.ball2.OnSide P.H P.mat3 k σb ∧ σa * σb = -1 := by
  rcases hs with ⟨h1, h2⟩ | ⟨h1, h2⟩
  · exact ⟨1, -1, .inl ⟨rfl, h1⟩, .inr ⟨rfl, h2⟩, by norm_num⟩
  · exact ⟨-1, 1, .inr ⟨rfl, h1⟩, .inl ⟨rfl, h2⟩, by norm_num⟩

/-- Non-negative amplitudes that belong to the spheres and not to the distance or the cut-offs. -/
theorem BallPairOK.kernel (h : BallPairOK P R1 R2) (hk : 0 < k) (hs : P.SameSide k) : ∃ A B : Bool → ℕ → ℝ,
    (∀ Q i, 0 ≤ A Q i ∧ 0 ≤ B Q i) ∧ ∀ L, P.L ≤ L → ∀ m : ℕ,
      (∃ θ T, HSContr (kern m (k * L * Real.sqrt ((P.H P.mat3).epsV k)) (m - 1) A B) θ T) ∧
      ∀ a b : ℕ, max 1 m ≤ a → a ≤ b → lnBall ((P.at L).cut a b) m k =
        Real.log (1 - gram 1 (kern m (k * L * Real.sqrt ((P.H P.mat3).epsV k)) (m - 1) A B) (2 * (a + 1 - transLmin m)) (2 * (b + 1 - transLmin m))).det := by
  obtain ⟨σ, ha, hb, hσ⟩ := hs.sides
  refine ⟨_, _, fun Q i => ⟨ballR_nonneg h.ok1 h.m3 hk ha Q i, ballR_nonneg h.ok2 h.m3 hk hb Q i⟩, fun L hL m => ?_⟩
  obtain ⟨g1, -, g2⟩ := h.kernelR hk ha hb hL m
  rw [hσ] at g2
  exact ⟨g1, g2⟩

/-- The strict sign of one subspace. -/
theorem lnBall_strict (h : BallPairOK P R1 R2) (hk : 0 < k) (c1 : P.ball1.Contrast P.H P.mat3 k) (c2 : P.ball2.Contrast P.H P.mat3 k) {m : ℕ}
    (hm : m ≤ P.lmax) : (P.SameSide k → lnBall P m k < 0) ∧ (P.OppositeSide k → 0 < lnBall P m k) := by
  have hm' : max 1 m ≤ P.lmax := by have := h.hl; omega
  have hl : transLmin (m : ℤ) = max 1 m := by unfold transLmin; omega
  have hls := h.hls
  have e : ∀ (σ : ℝ) (H : ℕ → ℕ → ℝ), (1 - gram σ H 1 1).det = 1 - σ * (H 0 0) ^ 2 := by
    intro σ H
    rw [Matrix.det_fin_one]
    unfold gram
    simp [Matrix.mul_apply, corner, sq]
  refine ⟨fun hs => ?_, fun hs => ?_⟩
  · obtain ⟨σ, ha, hb, hσ⟩ := hs.sides
    obtain ⟨⟨θ, T, g⟩, g0, g2⟩ := h.kernelR hk ha hb le_rfl m
    have e2 := g2 P.lmax P.lssmax hm' h.hls
    change lnBall P m k = _ at e2
    rw [e2, hσ]
    have h00 := g0 c1 c2
    refine (g.mono (n := 1) (n' := 2 * (P.lmax + 1 - transLmin m)) (p := 1) (p' := 2 * (P.lssmax + 1 - transLmin m)) (by omega) (by omega)).1.trans_lt ?_
    have := (g.pos (σ := 1) (.inl rfl) 1 1).1
    rw [e, one_mul] at this ⊢
    exact Real.log_neg this (by linarith [pow_pos h00 2])
  · obtain ⟨σa, σb, ha, hb, hσ⟩ := hs.sides
    obtain ⟨⟨θ, T, g⟩, g0, g2⟩ := h.kernelR hk ha hb le_rfl m
    have e2 := g2 P.lmax P.lssmax hm' h.hls
    change lnBall P m k = _ at e2
    rw [e2, hσ]
    have h00 := g0 c1 c2
    refine lt_of_lt_of_le ?_ (g.mono (n := 1) (n' := 2 * (P.lmax + 1 - transLmin m)) (p := 1) (p' := 2 * (P.lssmax + 1 - transLmin m)) (by omega) (by omega)).2
    rw [e]
    exact Real.log_pos (by linarith [pow_pos h00 2])

/-- Nothing is left without contrast. -/
theorem lnBall_zero (h : BallPairOK P R1 R2) (hk : 0 < k) (hs : P.SameSide k ∨ P.OppositeSide k)
    (hc : ¬(P.ball1.Contrast P.H P.mat3 k ∧ P.ball2.Contrast P.H P.mat3 k)) {m : ℕ} (hm : m ≤ P.lmax) : lnBall P m k = 0 := by
  have hm' : max 1 m ≤ P.lmax := by have := h.hl; omega
  obtain ⟨σa, σb, ha, hb⟩ : ∃ σa σb : ℝ, P.ball1.OnSide P.H P.mat3 k σa ∧ P.ball2.OnSide P.H P.mat3 k σb := by
    rcases hs with hs | hs
    · obtain ⟨σ, ha, hb, -⟩ := hs.sides; exact ⟨σ, σ, ha, hb⟩
    · obtain ⟨σa, σb, ha, hb, -⟩ := hs.sides; exact ⟨σa, σb, ha, hb⟩
  obtain ⟨-, -, g2⟩ := h.kernelR hk ha hb le_rfl m
  have e2 := g2 P.lmax P.lssmax hm' h.hls
  change lnBall P m k = _ at e2
  rw [e2]
  have hz : kern m (k * P.L * Real.sqrt ((P.H P.mat3).epsV k)) (m - 1) (ballR P.H P.mat3 k σa P.ball1) (ballR P.H P.mat3 k σb P.ball2) = fun _ _ => 0 := by
    funext i s
    unfold kern
    rcases not_and_or.mp hc with hc | hc
    · rw [ballR_zero h.ok1 h.m3 hk hc]; simp
    · rw [ballR_zero h.ok2 h.m3 hk hc]; simp
  rw [hz]
  have : ∀ (n p : ℕ), gram (σa * σb) (fun _ _ => 0) n p = 0 := by
    intro n p
    unfold gram
    ext i j
    simp [Matrix.mul_apply, corner]
  rw [this]
  simp

/-- The complete sums without further assumptions. -/
theorem ballVals_sum (h : BallPairOK P R1 R2) (hp : P.precision ≤ 0) {ks : List ℝ} (hne : ks ≠ []) (hk : ∀ k ∈ ks, 0 < k)
    (hs : ∀ k ∈ ks, P.SameSide k ∨ P.OppositeSide k) : ballVals exactBes P ks = .ok (ks.map (ballSum P)) := by
  by_cases hc : ∃ k ∈ ks, P.ball1.Contrast P.H P.mat3 k ∧ P.ball2.Contrast P.H P.mat3 k
  · obtain ⟨k, hkm, c1, c2⟩ := hc
    refine C119_complete h hp hne hk fun m hm => ⟨k, hkm, ?_⟩
    have hst := fun n (hn : n ≤ P.lmax) => lnBall_strict h (hk k hkm) c1 c2 (m := n) hn
    rcases hs k hkm with hside | hside
    · have := (hst 0 (by omega)).1 hside
      have := Finset.sum_nonpos fun n (hn : n ∈ Finset.Icc 1 m) => ((hst n ((Finset.mem_Icc.mp hn).2.trans hm.le)).1 hside).le
      linarith
    · have := (hst 0 (by omega)).2 hside
      have := Finset.sum_nonneg fun n (hn : n ∈ Finset.Icc 1 m) => ((hst n ((Finset.mem_Icc.mp hn).2.trans hm.le)).2 hside).le
      linarith
  · push Not at hc
    obtain ⟨M, -, hM, e, -⟩ := h.vals hne hk
    rw [e]
    congr 1
    refine List.map_congr_left fun k hkm => ?_
    have hz := fun n (hn : n ≤ P.lmax) => lnBall_zero h (hk k hkm) (hs k hkm) (fun c => hc k hkm c.1 c.2) (m := n) hn
    unfold ballSum
    rw [hz 0 (by omega), Finset.sum_eq_zero fun n hn => hz n ((Finset.mem_Icc.mp hn).2.trans hM), Finset.sum_eq_zero fun n hn => hz n (Finset.mem_Icc.mp hn).2]

/-- One subspace at two distances. -/
theorem lnBall_far (h : BallPairOK P R1 R2) (hk : 0 < k) (hs : P.SameSide k) {L : ℝ} (hL : P.L ≤ L) {m : ℕ} (hm : m ≤ P.lmax) :
    -lnBall (P.at L) m k ≤ Real.exp (-(2 * k * (L - P.L))) * -lnBall P m k := by
  obtain ⟨A, B, -, key⟩ := h.kernel hk hs
  have hm' : max 1 m ≤ P.lmax := by have := h.hl; omega
  obtain ⟨⟨θ, T, g1⟩, e1⟩ := key P.L le_rfl m
  obtain ⟨⟨θ', T', g2⟩, e2⟩ := key L hL m
  have e1 := e1 P.lmax P.lssmax hm' h.hls
  have e2 := e2 P.lmax P.lssmax hm' h.hls
  change lnBall P m k = _ at e1
  change lnBall (P.at L) m k = _ at e2
  rw [e1, e2]
  have hε := h.m3.one_le hk
  have h1 : 1 ≤ Real.sqrt ((P.H P.mat3).epsV k) := Real.one_le_sqrt.mpr hε
  have hL0 : 0 < P.L := by linarith [h.sep, h.ok1.pos, h.ok2.pos]
  have hx : 0 < k * P.L * Real.sqrt ((P.H P.mat3).epsV k) := by positivity
  have hd : 0 ≤ k * (L - P.L) := mul_nonneg hk.le (by linarith)
  have hxy : k * P.L * Real.sqrt ((P.H P.mat3).epsV k) + k * (L - P.L) ≤ k * L * Real.sqrt ((P.H P.mat3).epsV k) := by
    have : k * (L - P.L) * 1 ≤ k * (L - P.L) * Real.sqrt ((P.H P.mat3).epsV k) := mul_le_mul_of_nonneg_left h1 hd
    linarith
  have := g1.compare (H' := kern m (k * L * Real.sqrt ((P.H P.mat3).epsV k)) (m - 1) A B) (c := Real.exp (-(k * (L - P.L)))) g2 (Real.exp_pos _).le
    (Real.exp_le_one_iff.mpr (by linarith)) (n := 2 * (P.lmax + 1 - transLmin m)) (p := 2 * (P.lssmax + 1 - transLmin m))
    (fun i _ s _ => kern_nonneg (by linarith) _ _ _ _ _) (fun i _ s _ => kern_nonneg hx _ _ _ _ _) (fun i _ s _ => by
      refine (kern_decay hx (by linarith) _ _ _ _ _).trans (mul_le_mul_of_nonneg_right (Real.exp_le_exp.mpr ?_) (kern_nonneg hx _ _ _ _ _))
      linarith)
  rw [← Real.exp_nat_mul] at this
  rw [show Real.exp (-(2 * k * (L - P.L))) = Real.exp ((2 : ℕ) * -(k * (L - P.L))) by congr 1; push_cast; ring]
  exact this

/-- One subspace at three distances. -/
theorem lnBall_gm {t : ℝ} (h : BallPairOK P R1 R2) (hk : 0 < k) (hs : P.SameSide k) (h0 : 0 < t) (h1 : t < 1) {L : ℝ} (hL : P.L ≤ L) {m : ℕ}
    (hm : m ≤ P.lmax) : GMRel t (-lnBall P m k) (-lnBall (P.at L) m k) (-lnBall (P.at (t * P.L + (1 - t) * L)) m k) := by
  obtain ⟨A, B, -, key⟩ := h.kernel hk hs
  have hm' : max 1 m ≤ P.lmax := by have := h.hl; omega
  have hLm : P.L ≤ t * P.L + (1 - t) * L := by nlinarith
  obtain ⟨⟨θ, T, g1⟩, e1⟩ := key P.L le_rfl m
  obtain ⟨⟨θ', T', g2⟩, e2⟩ := key L hL m
  obtain ⟨⟨θ'', T'', g3⟩, e3⟩ := key _ hLm m
  have e1 := e1 P.lmax P.lssmax hm' h.hls
  have e2 := e2 P.lmax P.lssmax hm' h.hls
  have e3 := e3 P.lmax P.lssmax hm' h.hls
  change lnBall P m k = _ at e1
  change lnBall (P.at L) m k = _ at e2
  change lnBall (P.at (t * P.L + (1 - t) * L)) m k = _ at e3
  rw [e1, e2, e3]
  have hε := zero_lt_one.trans_le (h.m3.one_le hk)
  have hL0 : 0 < P.L := by linarith [h.sep, h.ok1.pos, h.ok2.pos]
  have hL1 : 0 < L := hL0.trans_le hL
  refine (gmRel_closed h0 h1).det g1 g2 g3 fun i _ s _ => ?_
  have := kern_gm h0 h1 (m := m) (x := k * P.L * Real.sqrt ((P.H P.mat3).epsV k)) (y := k * L * Real.sqrt ((P.H P.mat3).epsV k)) (by positivity)
    (by positivity) (m - 1) A B i s
  rwa [show t * (k * P.L * Real.sqrt ((P.H P.mat3).epsV k)) + (1 - t) * (k * L * Real.sqrt ((P.H P.mat3).epsV k)) =
    k * (t * P.L + (1 - t) * L) * Real.sqrt ((P.H P.mat3).epsV k) by ring] at this

/-- One subspace with other cut-offs. -/
theorem lnBall_cut_le (h : BallPairOK P R1 R2) (hk : 0 < k) (hs : P.SameSide k) {a b : ℕ} (ha : P.lmax ≤ a) (hb : P.lssmax ≤ b) (hab : a ≤ b) {m : ℕ}
    (hm : m ≤ P.lmax) : lnBall (P.cut a b) m k ≤ lnBall P m k := by
  obtain ⟨A, B, -, key⟩ := h.kernel hk hs
  have hm' : max 1 m ≤ P.lmax := by have := h.hl; omega
  obtain ⟨⟨θ, T, g⟩, e⟩ := key P.L le_rfl m
  have e1 := e P.lmax P.lssmax hm' h.hls
  have e2 := e a b (hm'.trans ha) hab
  change lnBall P m k = _ at e1
  change lnBall (P.cut a b) m k = _ at e2
  rw [e1, e2]
  exact (g.mono (by omega) (by omega)).1

end

end CasSph
