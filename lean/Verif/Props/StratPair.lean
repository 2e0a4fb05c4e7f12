import Verif.Lemmas.BallPair
import Verif.Props.Truncation

/-! # C119: two stratified spheres -/

namespace CasSph

open Spec Filter Topology

variable {P : BallPair} {R1 R2 : ℝ} {frac : ℝ → ℝ → ℝ}

/-- Both spheres consist of layers that are optically denser than the medium (perfect conductors included), or both consist of
optically thinner layers. -/
def BallPair.SameSide (P : BallPair) (k : ℝ) : Prop :=
  P.ball1.Dense P.H P.mat3 k ∧ P.ball2.Dense P.H P.mat3 k ∨ P.ball1.Dilute P.H P.mat3 k ∧ P.ball2.Dilute P.H P.mat3 k

/-- One sphere consists of denser layers and the other one of thinner layers. -/
def BallPair.OppositeSide (P : BallPair) (k : ℝ) : Prop :=
  P.ball1.Dense P.H P.mat3 k ∧ P.ball2.Dilute P.H P.mat3 k ∨ P.ball1.Dilute P.H P.mat3 k ∧ P.ball2.Dense P.H P.mat3 k

/-! ## One sphere -/

/-- **C119, coefficients.** The Mie coefficients of a stratified sphere exist for every degree.  Their magnitudes are at most those
of a perfectly conducting sphere of the outer radius; if all layers are denser (thinner) than the medium, they have the same
(opposite) sign. -/
theorem C119_coefficients {H : MatHeap} {md : ℕ} {B : Ball} {R k : ℝ} (h : BallOK H md B R) (hmd : MediumMat (H md)) (hk : 0 < k) (n : ℕ) :
    ∃ t, ballTable exactBes H md n k B = .ok t ∧ ∀ l, 1 ≤ l → l ≤ n → ∃ v, mie exactBes exactBes ⟨.pec, [], none⟩ (H md) l k R = .ok v ∧
      |t.TE l * Real.exp (t.ln l)| ≤ |v.TE * Real.exp v.ln| ∧ |t.TM l * Real.exp (t.ln l)| ≤ |v.TM * Real.exp v.ln| ∧
      (B.Dense H md k → 0 ≤ t.TE l * Real.exp (t.ln l) * (v.TE * Real.exp v.ln) ∧ 0 ≤ t.TM l * Real.exp (t.ln l) * (v.TM * Real.exp v.ln)) ∧
      (B.Dilute H md k → t.TE l * Real.exp (t.ln l) * (v.TE * Real.exp v.ln) ≤ 0 ∧ t.TM l * Real.exp (t.ln l) * (v.TM * Real.exp v.ln) ≤ 0) := by
  obtain ⟨c, hc, ⟨α, hα, hs⟩, hd, hl⟩ := h.scatters hmd hk
  obtain ⟨t, ht, ha⟩ := hc n
  obtain ⟨c', b, h1, h2, h3⟩ := amp_pec rfl pec_sphere hmd hk h.pos
  have hm := (medium_val hmd.cls hmd.phys hk).1
  rw [muV_of_none hmd.mag] at hm
  rw [hm] at h2
  injection h2 with h2
  subst h2
  have en : k * R * (⟨(H md).epsV k, 1⟩ : Medium).n = k * Real.sqrt ((H md).epsV k) * R := by
    unfold Medium.n; simp only [mul_one]; ring
  rw [en] at hs hd hl h3
  refine ⟨t, ht, fun l hl1 hl2 => ⟨_, h1 l hl1, ?_⟩⟩
  obtain ⟨i, rfl⟩ : ∃ i, l = i + 1 := ⟨l - 1, by omega⟩
  obtain ⟨e1, e2, e3⟩ := ha (i + 1) hl1 hl2
  rw [e1, e2, e3]
  obtain ⟨p0, pE, pM⟩ := h3 i
  obtain ⟨s0, sE, sM⟩ := hs i
  simp only at pE pM p0
  rw [pE, pM]
  have sq : ((-1 : ℝ) ^ (i + 1)) * (-1) ^ (i + 1) = 1 := by rw [← mul_pow]; norm_num
  have ab : ∀ Q, |α Q i * (-1) ^ (i + 1) * pecR Q i (k * Real.sqrt ((H md).epsV k) * R)| ≤
      |1 * (-1) ^ (i + 1) * pecR Q i (k * Real.sqrt ((H md).epsV k) * R)| := by
    intro Q
    rw [abs_mul, abs_mul, abs_mul, abs_mul, abs_one]
    exact mul_le_mul_of_nonneg_right (mul_le_mul_of_nonneg_right (hα Q i) (abs_nonneg _)) (abs_nonneg _)
  refine ⟨?_, ?_, fun hD => ?_, fun hD => ?_⟩
  · rw [sE]; exact ab false
  · rw [sM, abs_neg, abs_neg]; exact ab true
  · obtain ⟨A, hA⟩ := hd hD
    obtain ⟨a0, aE, aM⟩ := hA i
    rw [aE, aM]
    constructor
    · have := mul_nonneg (a0 false).1 (p0 false).1
      calc (0 : ℝ) ≤ ((-1) ^ (i + 1) * (-1) ^ (i + 1)) * (A false i * pecR false i (k * Real.sqrt ((H md).epsV k) * R)) := by rw [sq, one_mul]; exact this
        _ = _ := by ring
    · have := mul_nonneg (a0 true).1 (p0 true).1
      calc (0 : ℝ) ≤ ((-1) ^ (i + 1) * (-1) ^ (i + 1)) * (A true i * pecR true i (k * Real.sqrt ((H md).epsV k) * R)) := by rw [sq, one_mul]; exact this
        _ = _ := by ring
  · obtain ⟨A, hA⟩ := hl hD
    obtain ⟨a0, aE, aM⟩ := hA i
    rw [aE, aM]
    constructor
    · have := mul_nonneg (a0 false).1 (p0 false).1
      calc _ = -(((-1) ^ (i + 1) * (-1) ^ (i + 1)) * (A false i * pecR false i (k * Real.sqrt ((H md).epsV k) * R))) := by ring
        _ ≤ (0 : ℝ) := by rw [sq, one_mul]; linarith
    · have := mul_nonneg (a0 true).1 (p0 true).1
      calc _ = -(((-1) ^ (i + 1) * (-1) ^ (i + 1)) * (A true i * pecR true i (k * Real.sqrt ((H md).epsV k) * R))) := by ring
        _ ≤ (0 : ℝ) := by rw [sq, one_mul]; linarith

/-- **C119, one interface.** The lists `[a, b]` and `[r]` give the same coefficients as the homogeneous sphere in the medium `b`, for
all tables of Bessel functions and also if an exception is raised. -/
theorem C119_one_interface (T : BesTable) (H : MatHeap) (a b : ℕ) (r : ℝ) (n : ℕ) (k : ℝ) :
    ballTable T H b n k (.strat ⟨[a, b], [r]⟩) = ballTable T H b n k (.solid a r) := by
  show stratTable T H ⟨[a, b], [r]⟩ n k = mieTable T (H a) (H b) n k r
  unfold stratTable mieTable
  have hinit : stratInit (.list [a, b]) (.list [r]) = .ok (some ⟨[a, b], [r]⟩) := by rw [C82_lists, if_pos (by simp)]
  rw [hinit, ok_bind]
  have e : ∀ i : Fin n, (match mieStratified T H (i.1 + 1) k ([a, b].length + 1) ⟨[a, b], [r]⟩ with
      | some (r, _) => r
      | none => .error .valueError) = mie T T (H a) (H b) (i.1 + 1) k r := by
    intro i
    have := mieStratified_layered T H (i.1 + 1) k 2 a r b []
    simp only [List.map_nil, stratRedundant_nil, Bool.false_eq_true, if_false, layered, List.map_cons] at this
    simp only [List.length_cons, List.length_nil]
    rw [this]
    cases mie T T (H a) (H b) (i.1 + 1) k r with
    | error e => rfl
    | ok q => rfl
  exact congrArg (fun f : Fin n → Res Mie => finM f >>= fun c => (.ok (tableOf c) : Res MieCoef)) (funext e)

/-- **C119, homogeneous spheres.** Without lists everything agrees with the model of C100. -/
theorem C119_homogeneous (T : BesTable) (H : MatHeap) (m1 m2 m3 : ℕ) (r1 r2 L : ℝ) (lmax lssmax : ℕ) (precision : ℝ) :
    ballGeo T frac ⟨H, .solid m1 r1, .solid m2 r2, m3, L, lmax, lssmax, precision⟩ =
      pairGeo T frac ⟨H m1, H m2, H m3, r1, r2, L, lmax, lssmax, precision⟩ := rfl

/-! ## One wavenumber -/

theorem lnBall_of {a b m : ℕ} {k x : ℝ} {w : WaveIn} (hw : ballWave exactBes (P.cut a b) k = .ok w)
    {B : Blocks (a + 1 - transLmin m)} (hB : blockmatricesAt a b m true w.nL w.bes w.a w.b = .ok B)
    (hx : x = Real.log (1 - B.full).det) : lnBall (P.cut a b) m k = x := by
  unfold lnBall
  rw [hw]
  simp only
  have : blockmatricesAt (P.cut a b).lmax (P.cut a b).lssmax m true w.nL w.bes w.a w.b = .ok B := hB
  rw [this, hx]
  rfl

/-- `lnBall` is the value found in `BallPairOK.wave`. -/
theorem BallPairOK.facts (h : BallPairOK P R1 R2) {k : ℝ} (hk : 0 < k) :
    (∃ w, ballWave exactBes P k = .ok w ∧ ∀ m ≤ P.lmax, ∃ B, blockmatricesAt P.lmax P.lssmax m true w.nL w.bes w.a w.b = .ok B ∧
      0 < (1 - B.full).det ∧ lnBall P m k = Real.log (1 - B.full).det) ∧
    (∀ m ≤ P.lmax, |lnBall P m k| ≤ -lnDetV (P.metal R1 R2) m k) ∧
    (∀ {a b : ℕ}, P.lmax ≤ a → P.lssmax ≤ b → a ≤ b → ∀ m ≤ P.lmax,
      |lnBall (P.cut a b) m k - lnBall P m k| ≤ lnDetV (P.metal R1 R2) m k - lnDetV ((P.metal R1 R2).cut a b) m k) ∧
    (∀ m ≤ P.lmax, (P.SameSide k → lnBall P m k ≤ 0) ∧ (P.OppositeSide k → 0 ≤ lnBall P m k)) := by
  obtain ⟨u, h1, h2, h3, h4⟩ := h.wave hk
  have hu : ∀ {m a b : ℕ}, max 1 m ≤ a → a ≤ b → lnBall (P.cut a b) m k = u m a b := by
    intro m a b hma hab
    obtain ⟨w, hw, hB⟩ := h1 (lmax := a) (lssmax := b)
    obtain ⟨B, hB, -, e⟩ := hB m hma (hma.trans hab)
    exact lnBall_of hw hB e
  have hm : ∀ m ≤ P.lmax, max 1 m ≤ P.lmax := fun m hm => by have := h.hl; omega
  have hP : ∀ m ≤ P.lmax, lnBall P m k = u m P.lmax P.lssmax := fun m h' => hu (hm m h') h.hls
  refine ⟨?_, fun m h' => ?_, fun {a b} ha hb hab m h' => ?_, fun m h' => ?_⟩
  · obtain ⟨w, hw, hB⟩ := h1 (lmax := P.lmax) (lssmax := P.lssmax)
    refine ⟨w, hw, fun m h' => ?_⟩
    obtain ⟨B, hB, hp, e⟩ := hB m (hm m h') ((hm m h').trans h.hls)
    exact ⟨B, hB, hp, (hP m h').trans e⟩
  · rw [hP m h']; exact h2 (hm m h') h.hls
  · rw [hP m h', hu ((hm m h').trans ha) hab]; exact h3 (hm m h') h.hls ha hb hab
  · rw [hP m h']; exact h4 (hm m h') h.hls

theorem BallPairOK.metal_nonpos (h : BallPairOK P R1 R2) {k : ℝ} (hk : 0 < k) : ∀ m ≤ P.lmax, lnDetV (P.metal R1 R2) m k ≤ 0 := fun m hm => by
  have := (abs_nonneg _).trans ((h.facts hk).2.1 m hm)
  linarith

/-- Sums over `m` that end anywhere are bounded by the sum for perfect conductors. -/
theorem BallPairOK.part_le (h : BallPairOK P R1 R2) {k : ℝ} (hk : 0 < k) {M : ℕ} (hM : M ≤ P.lmax) :
    |lnBall P 0 k + 2 * ∑ m ∈ Finset.Icc 1 M, lnBall P m k| ≤ -pairSum (P.metal R1 R2) k ∧
    (P.SameSide k → lnBall P 0 k + 2 * ∑ m ∈ Finset.Icc 1 M, lnBall P m k ≤ 0) ∧
    (P.OppositeSide k → 0 ≤ lnBall P 0 k + 2 * ∑ m ∈ Finset.Icc 1 M, lnBall P m k) := by
  obtain ⟨-, hb, -, hs⟩ := h.facts hk
  have hmem : ∀ m ∈ Finset.Icc 1 M, m ≤ P.lmax := fun m hm => (Finset.mem_Icc.mp hm).2.trans hM
  refine ⟨?_, fun hc => ?_, fun hc => ?_⟩
  · have s1 := Finset.abs_sum_le_sum_abs (fun m => lnBall P m k) (Finset.Icc 1 M)
    have s2 := Finset.sum_le_sum fun m (hm : m ∈ Finset.Icc 1 M) => hb m (hmem m hm)
    have s3 : ∑ m ∈ Finset.Icc 1 M, -lnDetV (P.metal R1 R2) m k ≤ ∑ m ∈ Finset.Icc 1 P.lmax, -lnDetV (P.metal R1 R2) m k :=
      Finset.sum_le_sum_of_subset_of_nonneg (Finset.Icc_subset_Icc_right hM) fun m hm _ => by
        have := h.metal_nonpos hk m (Finset.mem_Icc.mp hm).2
        linarith
    have s0 := hb 0 (by omega)
    have t := abs_add_le (lnBall P 0 k) (2 * ∑ m ∈ Finset.Icc 1 M, lnBall P m k)
    rw [abs_mul, abs_of_pos (by norm_num : (0 : ℝ) < 2)] at t
    have e : pairSum (P.metal R1 R2) k = lnDetV (P.metal R1 R2) 0 k + 2 * ∑ m ∈ Finset.Icc 1 P.lmax, lnDetV (P.metal R1 R2) m k := rfl
    rw [e]
    rw [Finset.sum_neg_distrib] at s2
    rw [Finset.sum_neg_distrib, Finset.sum_neg_distrib] at s3
    linarith
  · have := Finset.sum_nonpos fun m (hm : m ∈ Finset.Icc 1 M) => (hs m (hmem m hm)).1 hc
    linarith [(hs 0 (by omega)).1 hc]
  · have := Finset.sum_nonneg fun m (hm : m ∈ Finset.Icc 1 M) => (hs m (hmem m hm)).2 hc
    linarith [(hs 0 (by omega)).2 hc]

theorem BallPairOK.metal_le (h : BallPairOK P R1 R2) {k : ℝ} (hk : 0 < k) :
    -pairSum (P.metal R1 R2) k ≤ freeC R1 R2 P.L * sharpExp (k * (P.L - (R1 + R2))) := by
  rw [← pairVal_sum h.metal le_rfl hk]
  exact (neg_le_abs _).trans (pairVal_val h.metal hk).1

/-- The values of `mSumme` are partial sums over `m`. -/
theorem BallPairOK.vals (h : BallPairOK P R1 R2) {ks : List ℝ} (hne : ks ≠ []) (hk : ∀ k ∈ ks, 0 < k) :
    ∃ M, 0 ≤ M ∧ M ≤ P.lmax ∧ ballVals exactBes P ks = .ok (ks.map fun k => lnBall P 0 k + 2 * ∑ m ∈ Finset.Icc 1 M, lnBall P m k) ∧
      (P.precision ≤ 0 → (∀ m < P.lmax, ∃ k ∈ ks, lnBall P 0 k + 2 * ∑ n ∈ Finset.Icc 1 m, lnBall P n k ≠ 0) → M = P.lmax) := by
  have hd : 0 < ks.length := List.length_pos_iff.mpr hne
  obtain ⟨M, h1, h2, h3, h4⟩ := C13_mSumme hd (lmax := P.lmax) (precision := P.precision)
    (L := fun m => .ok fun i : Fin ks.length => lnBall P m (ks.get i)) (v := fun m i => lnBall P m (ks.get i)) fun _ _ => rfl
  refine ⟨M, by omega, h2, ?_, fun hp hz => ?_⟩
  · unfold ballVals
    rw [valsOf_eq (u := fun m k => lnBall P m k) hne fun k hkm => (h.facts (hk k hkm)).1, h1, ok_bind]
    congr 1
    refine List.ext_getElem (by simp) fun j hj1 hj2 => ?_
    rw [List.getElem_ofFn, List.getElem_map]
    rfl
  · rcases h3 with h3 | h3
    · by_contra hne'
      rcases h3 with h3 | ⟨-, r, -, hr⟩
      · obtain ⟨k, hkm, hn⟩ := hz M (by omega)
        obtain ⟨j, hj, rfl⟩ := List.getElem_of_mem hkm
        exact hn (h3 ⟨j, hj⟩)
      · exact absurd hr (not_lt.mpr ((by linarith : P.precision / 10 ≤ 0).trans (abs_nonneg _)))
    · exact h3

theorem pair_singleM {P : PairIn} (h : PairOK P) {k : ℝ} (hk : 0 < k) : ∃ w, waveIn exactBes P k = .ok w ∧ ∀ m ≤ P.lmax, ∃ N, ∀ fuel, N < fuel →
    singleM fuel 0.9 P.lmax P.lssmax m [w] = some (.ok [(lnDetV P m k : EReal)]) := by
  obtain ⟨a, b, S⟩ := h.pair hk
  obtain ⟨w, w', h1, h2, h3⟩ := waveIn_ok S
  obtain ⟨σa, ea⟩ := dense_total h.m1 h.m3 hk
  obtain ⟨σb, eb⟩ := dense_total h.m2 h.m3 hk
  refine ⟨w, h1, fun m hm => ?_⟩
  obtain ⟨u, ⟨N, hN⟩, hu⟩ := C99_single_m (d := 1) (by omega) (w := fun _ => w') (ks := fun _ => k) (fun _ => h2) (fun _ => ea) (fun _ => eb) (m := m)
    (by have := h.hl; omega) (by have := h.hl; have := h.hls; omega) (conv := 0.9) (by norm_num)
  refine ⟨N, fun fuel hf => ?_⟩
  have e := singleM_congr (d := 1) (w := fun _ => w) (w' := fun _ => w') (lmax := P.lmax) (lssmax := P.lssmax) (m := m) (fuel := fuel) (conv := 0.9) (fun _ => h3)
  simp only [List.ofFn_succ, List.ofFn_zero] at e hN
  rw [e, hN fuel hf]
  obtain ⟨-, B, hB, -, e'⟩ := hu 0
  rw [e']
  unfold lnDetV
  rw [(hB.same_rtV (m := m) h.m3.cls h.m3.phys hk h2.pair.ha h2.pair.hb).det]

/-- **C119, `single_m`.** For every `m` up to the cut-off `single_m` returns `ln det(1 - M)` as one finite number; it is at most the
negative value of two perfectly conducting spheres of the outer radii (`single_m` of `P.metal`), and has the sign given by the layers. -/
theorem C119_single_m (h : BallPairOK P R1 R2) {k : ℝ} (hk : 0 < k) {m : ℕ} (hm : m ≤ P.lmax) :
    ∃ w w' : WaveIn, ∃ x y : ℝ, ballWave exactBes P k = .ok w ∧ waveIn exactBes (P.metal R1 R2) k = .ok w' ∧
      (∃ N, ∀ fuel, N < fuel → singleM fuel 0.9 P.lmax P.lssmax m [w] = some (.ok [(x : EReal)]) ∧
        singleM fuel 0.9 P.lmax P.lssmax m [w'] = some (.ok [(y : EReal)])) ∧
      |x| ≤ -y ∧ (P.SameSide k → x ≤ 0) ∧ (P.OppositeSide k → 0 ≤ x) := by
  obtain ⟨⟨w, hw, hB⟩, hb, -, hs⟩ := h.facts hk
  obtain ⟨B, hB, hp, e⟩ := hB m hm
  obtain ⟨w', hw', hs'⟩ := pair_singleM h.metal hk
  obtain ⟨N2, q2⟩ := hs' m hm
  obtain ⟨N1, q1⟩ := singleM_value (d := 1) (by omega) (w := fun _ => w) (B := fun _ => B) (fun _ => hB) (fun _ => hp) (conv := 0.9) (by norm_num)
  refine ⟨w, w', lnBall P m k, lnDetV (P.metal R1 R2) m k, hw, hw', ⟨max N1 N2, fun fuel hf => ⟨?_, q2 fuel (by omega)⟩⟩, hb m hm, (hs m hm).1, (hs m hm).2⟩
  have := q1 fuel (by omega)
  rw [e]
  simpa using this

/-- **C119, `mSumme`.** It returns one number for every wavenumber, whatever the precision.  The magnitude is at most that of two
perfectly conducting spheres of the outer radii, and decreases exponentially with the wavenumber and the gap between the spheres. -/
theorem C119_mSumme (h : BallPairOK P R1 R2) {ks : List ℝ} (hne : ks ≠ []) (hk : ∀ k ∈ ks, 0 < k) :
    ∃ vs ws, ballVals exactBes P ks = .ok vs ∧ pairVals exactBes (P.metal R1 R2) ks = .ok ws ∧ vs.length = ks.length ∧ ws.length = ks.length ∧
      ∀ (j : ℕ) (k x y : ℝ), ks[j]? = some k → vs[j]? = some x → ws[j]? = some y →
        |x| ≤ -y ∧ |x| ≤ freeC R1 R2 P.L * sharpExp (k * (P.L - (R1 + R2))) ∧ (P.SameSide k → x ≤ 0) ∧ (P.OppositeSide k → 0 ≤ x) := by
  obtain ⟨M, -, hM, e, -⟩ := h.vals hne hk
  refine ⟨_, _, e, pairVals_sum h.metal le_rfl hne hk, by simp, by simp, fun j k x y hj hx hy => ?_⟩
  rw [List.getElem?_map, hj] at hx hy
  injection hx with hx
  injection hy with hy
  subst hx hy
  have hk0 := hk k (List.mem_of_getElem? hj)
  obtain ⟨p1, p2, p3⟩ := h.part_le hk0 hM
  exact ⟨p1, p1.trans (h.metal_le hk0), p2, p3⟩

/-- **C119, complete sums.** If the precision is not positive and no partial sum vanishes at all wavenumbers, `mSumme` returns the
complete sums. -/
theorem C119_complete (h : BallPairOK P R1 R2) (hp : P.precision ≤ 0) {ks : List ℝ} (hne : ks ≠ []) (hk : ∀ k ∈ ks, 0 < k)
    (hz : ∀ m < P.lmax, ∃ k ∈ ks, lnBall P 0 k + 2 * ∑ n ∈ Finset.Icc 1 m, lnBall P n k ≠ 0) :
    ballVals exactBes P ks = .ok (ks.map (ballSum P)) := by
  obtain ⟨M, -, -, e, hM⟩ := h.vals hne hk
  rw [e, hM hp hz]
  rfl

/-! ## Cut-offs -/

theorem ballSum_cut (h : BallPairOK P R1 R2) {k : ℝ} (hk : 0 < k) {a b : ℕ} (ha : P.lmax ≤ a) (hb : P.lssmax ≤ b) (hab : a ≤ b) :
    |ballSum (P.cut a b) k - ballSum P k| ≤ pairSum (P.metal R1 R2) k - pairSum ((P.metal R1 R2).cut a b) k := by
  obtain ⟨-, -, hd, -⟩ := h.facts hk
  have hc := h.cut (h.hl.trans ha) hab
  obtain ⟨-, hb', -, -⟩ := hc.facts hk
  have hsplit : ∀ f : ℕ → ℝ, ∑ m ∈ Finset.Icc 1 a, f m = ∑ m ∈ Finset.Icc 1 P.lmax, f m + ∑ m ∈ Finset.Ioc P.lmax a, f m := by
    intro f
    rw [← Finset.sum_union]
    · congr 1
      ext m
      simp only [Finset.mem_union, Finset.mem_Icc, Finset.mem_Ioc]
      omega
    · rw [Finset.disjoint_left]
      intro m h1 h2
      simp only [Finset.mem_Icc, Finset.mem_Ioc] at h1 h2
      omega
  have e1 : ballSum (P.cut a b) k = lnBall (P.cut a b) 0 k + 2 * ∑ m ∈ Finset.Icc 1 a, lnBall (P.cut a b) m k := rfl
  have e2 : pairSum ((P.metal R1 R2).cut a b) k = lnDetV ((P.metal R1 R2).cut a b) 0 k + 2 * ∑ m ∈ Finset.Icc 1 a, lnDetV ((P.metal R1 R2).cut a b) m k := rfl
  have e3 : ballSum P k = lnBall P 0 k + 2 * ∑ m ∈ Finset.Icc 1 P.lmax, lnBall P m k := rfl
  have e4 : pairSum (P.metal R1 R2) k = lnDetV (P.metal R1 R2) 0 k + 2 * ∑ m ∈ Finset.Icc 1 P.lmax, lnDetV (P.metal R1 R2) m k := rfl
  rw [e1, e2, e3, e4, hsplit, hsplit]
  have s0 := hd ha hb hab 0 (by omega)
  have s1 := (Finset.abs_sum_le_sum_abs (fun m => lnBall (P.cut a b) m k - lnBall P m k) (Finset.Icc 1 P.lmax)).trans
    (Finset.sum_le_sum fun m hm => hd ha hb hab m (Finset.mem_Icc.mp hm).2)
  have s2 := (Finset.abs_sum_le_sum_abs (fun m => lnBall (P.cut a b) m k) (Finset.Ioc P.lmax a)).trans
    (Finset.sum_le_sum fun m hm => hb' m (Finset.mem_Ioc.mp hm).2)
  have e5 : (P.cut a b).metal R1 R2 = (P.metal R1 R2).cut a b := rfl
  rw [e5, Finset.sum_neg_distrib] at s2
  rw [Finset.sum_sub_distrib, Finset.sum_sub_distrib] at s1
  rw [_root_.abs_le] at s0 s1 s2 ⊢
  constructor <;> linarith [s0.1, s0.2, s1.1, s1.2, s2.1, s2.2]

/-- **C119, cut-offs.** Raising the cut-offs arbitrarily changes the sum over `m` by no more than it changes the sum for perfect
conductors of the outer radii, and hence by an amount that decreases geometrically with the cut-offs: `r1'` and `r2'` are any radii
larger than `R1` and `R2` at which the spheres still fit in. -/
theorem C119_cut_off (h : BallPairOK P R1 R2) {k : ℝ} (hk : 0 < k) {a b : ℕ} (ha : P.lmax ≤ a) (hb : P.lssmax ≤ b) (hab : a ≤ b) {r1' r2' : ℝ}
    (h1 : R1 ≤ r1') (h2 : R2 ≤ r2') (s1 : r1' + R2 < P.L) (s2 : R1 + r2' < P.L) :
    |ballSum (P.cut a b) k - ballSum P k| ≤ pairSum (P.metal R1 R2) k - pairSum ((P.metal R1 R2).cut a b) k ∧
    |ballSum (P.cut a b) k - ballSum P k| ≤ (R1 / r1') ^ (2 * P.lmax + 1) * (freeC r1' R2 P.L * sharpExp (k * (P.L - (r1' + R2)))) +
      (R2 / r2') ^ (2 * P.lssmax + 1) * (freeC R1 r2' P.L * sharpExp (k * (P.L - (R1 + r2')))) := by
  have e := ballSum_cut h hk ha hb hab
  refine ⟨e, e.trans ?_⟩
  have t := pairSum_truncBound (P := P.metal R1 R2) (R1 := r1') (R2 := r2') (a := a) (b := b) h.metal ⟨h1, h2, s1, s2⟩ ha hb hab hk
  exact (neg_sub (pairSum ((P.metal R1 R2).cut a b) k) _ ▸ neg_le_abs _).trans t

/-- **C119, infinite cut-offs.** The sums converge if both cut-offs grow. -/
theorem C119_cut_off_limit (h : BallPairOK P R1 R2) {k : ℝ} (hk : 0 < k) {lm ls : ℕ → ℕ} (mlm : Monotone lm) (mls : Monotone ls)
    (hlm : Tendsto lm atTop atTop) (h1 : ∀ i, 1 ≤ lm i) (hle : ∀ i, lm i ≤ ls i) :
    ∃ v, Tendsto (fun i => ballSum (P.cut (lm i) (ls i)) k) atTop (𝓝 v) ∧ |v| ≤ freeC R1 R2 P.L * sharpExp (k * (P.L - (R1 + R2))) ∧
      (P.SameSide k → v ≤ 0) ∧ (P.OppositeSide k → 0 ≤ v) := by
  obtain ⟨y, hy⟩ := pairSum_limit h.metal hk
  have hmet := hy hlm h1 hle
  have hdiff : ∀ i j, i ≤ j → |ballSum (P.cut (lm j) (ls j)) k - ballSum (P.cut (lm i) (ls i)) k| ≤
      pairSum ((P.metal R1 R2).cut (lm i) (ls i)) k - pairSum ((P.metal R1 R2).cut (lm j) (ls j)) k := fun i j hij =>
    ballSum_cut (h.cut (h1 i) (hle i)) hk (mlm hij) (mls hij) (hle j)
  have hC : CauchySeq fun i => ballSum (P.cut (lm i) (ls i)) k := by
    rw [Metric.cauchySeq_iff']
    intro ε hε
    obtain ⟨N, hN⟩ := (Metric.cauchySeq_iff'.mp hmet.cauchySeq) ε hε
    refine ⟨N, fun n hn => ?_⟩
    have := hN n hn
    rw [Real.dist_eq] at this ⊢
    exact (hdiff N n hn).trans_lt ((neg_sub (pairSum ((P.metal R1 R2).cut (lm n) (ls n)) k) _ ▸ neg_le_abs _).trans_lt this)
  obtain ⟨v, hv⟩ := cauchySeq_tendsto_of_complete hC
  have hp := fun i => (h.cut (h1 i) (hle i)).part_le hk (M := lm i) le_rfl
  refine ⟨v, hv, le_of_tendsto hv.abs (.of_forall fun i => (hp i).1.trans ((h.cut (h1 i) (hle i)).metal_le hk)),
    fun hc => le_of_tendsto hv (.of_forall fun i => (hp i).2.1 hc), fun hc => ge_of_tendsto hv (.of_forall fun i => (hp i).2.2 hc)⟩

/-! ## Thermodynamics -/

/-- **C119, zero frequency.** `mSumme_k0` is not implemented for lists. -/
theorem C119_zero_frequency (P : BallPair) (hlist : P.ball1.isList = true ∨ P.ball2.isList = true) : ballK0 frac P = .error .notImplementedError := by
  unfold ballK0
  rcases P with ⟨H, b1, b2, m3, L, lmax, lssmax, pr⟩
  cases b1 <;> cases b2 <;> simp_all [Ball.isList]

/-- **C119, constructor of the geometry.** Cut-offs and flags are computed from the outer radii. -/
theorem C119_init {H : MatHeap} {md : ℕ} {b1 b2 : Ball} (h1 : BallOK H md b1 R1) (h2 : BallOK H md b2 R2) (L : ℝ) (lmax lOffset lssmax : AutoInt)
    (precision : ℝ) (forceFlag : ℤ) (ev : Evaluation) :
    ballInit b1 b2 L lmax lOffset lssmax precision forceFlag ev = sphereInit R1 R2 L lmax lOffset lssmax precision forceFlag ev := by
  unfold ballInit
  rw [h1.radius, h2.radius]
  cases hev : evalArg ev with
  | none => unfold sphereInit; rw [hev]
  | some t => rfl

/-- **C119, empty lists.** A list without radii raises IndexError in the constructor if the evaluation method is known. -/
theorem C119_init_empty (mats : List ℕ) (b : Ball) (L : ℝ) (lmax lOffset lssmax : AutoInt) (precision : ℝ) (forceFlag : ℤ) {ev : Evaluation}
    {t : Bool} (hev : evalArg ev = some t) :
    ballInit (.strat ⟨mats, []⟩) b L lmax lOffset lssmax precision forceFlag ev = .error .indexError := by
  unfold ballInit
  rw [hev]
  rfl

/-- **C119, constructor of `finiteT`.** With a list the argument `analytic_n0` is ignored and the zero frequency is evaluated
numerically; the number of frequencies, if chosen automatically, is at least one. -/
theorem C119_constructor (h : BallPairOK P R1 R2) {deltaT Tmax : ℝ} (hT : deltaT ≠ 0) (nmax : NMax) (analyticN0 : Bool) (n : ℤ) (T : BesTable) :
    ∃ p, ballFiniteT deltaT nmax Tmax P analyticN0 (.int n) T frac = .ok p ∧ p.deltaT = deltaT ∧ p.geo = ballGeo T frac P ∧ p.nprocs = .int n ∧
      p.maxstep = pyRound (Tmax / deltaT) ∧ p.analyticN0 = (analyticN0 && !(P.ball1.isList || P.ball2.isList)) ∧
      (∀ N, nmax = .num N → p.nmax = N) ∧ (nmax = .automatic → 1 ≤ p.nmax) := by
  obtain ⟨o, ho, hn⟩ := C31_int_nprocs deltaT Tmax R1 R2 P.L P.lmax nmax (P.ball1.isList || P.ball2.isList) analyticN0 n hT
    (fun _ => ⟨h.ok1.pos.ne', h.ok2.pos.ne', h.sep, by have := h.hl; positivity⟩)
  obtain ⟨-, g1, g2, g3, g4, -, -⟩ := init_ok ho
  refine ⟨⟨deltaT, o.nmax, o.maxstep, o.analyticN0, o.nprocs, ballGeo T frac P⟩, ?_, rfl, rfl, hn, g4, g3, g1, fun ha => ?_⟩
  · unfold ballFiniteT
    rw [h.ok1.radius, ok_bind, h.ok2.radius, ok_bind, ho, ok_bind]
  · subst ha
    exact C31_auto_nmax _ _ _ _ _ _ _ _ _ _ _ ho

theorem ballGeo_valsOk (h : BallPairOK P R1 R2) : ValsOk (ballGeo exactBes frac P) := fun _ hne hk => by
  obtain ⟨vs, ws, h1, -, h3, -⟩ := C119_mSumme h hne hk
  exact ⟨vs, h1, h3⟩

theorem ballGeo_slice (h : BallPairOK P R1 R2) {deltaT : ℝ} (hT : 0 < deltaT) {N n : ℕ} (hn : 1 ≤ n) (hN : n ≤ N) :
    |sliceVal (ballGeo exactBes frac P) deltaT N n| ≤ -sliceVal (pairGeo exactBes frac (P.metal R1 R2)) deltaT N n ∧
    (P.SameSide (deltaT * n) → sliceVal (ballGeo exactBes frac P) deltaT N n ≤ 0) ∧
    (P.OppositeSide (deltaT * n) → 0 ≤ sliceVal (ballGeo exactBes frac P) deltaT N n) := by
  obtain ⟨k1, k2, k3⟩ := sliceKs_mem hT hn hN
  obtain ⟨vs, ws, h1, h2, h3, h4, h5⟩ := C119_mSumme h k1 k2
  have hi : n - sliceLo n < (sliceKs deltaT N n).length := by
    by_contra hh
    rw [List.getElem?_eq_none (by omega)] at k3
    simp at k3
  obtain ⟨x, hx⟩ : ∃ x, vs[n - sliceLo n]? = some x := ⟨_, List.getElem?_eq_getElem (by omega)⟩
  obtain ⟨y, hy⟩ : ∃ y, ws[n - sliceLo n]? = some y := ⟨_, List.getElem?_eq_getElem (by omega)⟩
  have key := h5 _ _ x y k3 hx hy
  have e1 : sliceVal (ballGeo exactBes frac P) deltaT N n = x := by
    unfold sliceVal ballGeo
    simp only [h1]
    rw [List.getD_eq_getElem?_getD, hx]; rfl
  have e2 : sliceVal (pairGeo exactBes frac (P.metal R1 R2)) deltaT N n = y := by
    unfold sliceVal pairGeo
    simp only [h2]
    rw [List.getD_eq_getElem?_getD, hy]; rfl
  rw [e1, e2]
  exact ⟨key.1, key.2.2⟩

/-- Bound on the free energy at the scaled temperature `T`: it contains the outer radii and the distance only. -/
noncomputable def coatBound (R1 R2 L T : ℝ) : ℝ :=
  T * (0.5 * (freeC R1 R2 L * sharpExp (1e-10 * (L - (R1 + R2)))) +
    freeC R1 R2 L * (Real.exp (-(T * (L - (R1 + R2)))) / ((1 - Real.exp (-(2 * (T * (L - (R1 + R2)))))) * (1 - Real.exp (-(T * (L - (R1 + R2))))))))

/-- **C119, `free_energy`.** With lists (or without analytic treatment of the zero frequency) and at least one frequency the free
energy exists at all temperatures of the grid, is at most that of perfectly conducting spheres of the outer radii, is bounded in
terms of the outer radii and the distance, and has the sign given by the layers. -/
theorem C119_free_energy {p p' : FTParams} (h : BallPairOK P R1 R2) (hg : p.geo = ballGeo exactBes frac P)
    (hp' : p' = { p with geo := pairGeo exactBes frac (P.metal R1 R2) }) (hp : p.nprocs.isZero) (ha : p.analyticN0 = false)
    (hT : 0 < p.deltaT) (hN : 1 ≤ p.nmax) :
    ∃ F G : List ℝ, (freeEnergy p FT.fresh).1 = .ok F ∧ (freeEnergy p' FT.fresh).1 = .ok G ∧ F.length = p.maxstep.toNat ∧ G.length = p.maxstep.toNat ∧
      ∀ (i : ℕ) (x y : ℝ), F[i]? = some x → G[i]? = some y →
        |x| ≤ -y ∧ |x| ≤ coatBound R1 R2 P.L ((i + 1) * p.deltaT) ∧
        ((∀ k, 0 < k → P.SameSide k) → x ≤ 0) ∧ ((∀ k, 0 < k → P.OppositeSide k) → 0 ≤ x) := by
  subst hp'
  obtain ⟨N, hN'⟩ := Int.eq_ofNat_of_zero_le (by omega : 0 ≤ p.nmax)
  have hN1 : 1 ≤ N := by omega
  obtain ⟨vs, ws, z1, z2, z3, z4, z5⟩ := C119_mSumme h (ks := [1e-10]) (by simp) (by norm_num)
  obtain ⟨z, rfl⟩ : ∃ z, vs = [z] := List.length_eq_one_iff.mp z3
  obtain ⟨q, rfl⟩ : ∃ z, ws = [z] := List.length_eq_one_iff.mp z4
  have zz := z5 0 _ z q rfl rfl rfl
  have hqb : -q ≤ freeC R1 R2 P.L * sharpExp (1e-10 * (P.L - (R1 + R2))) := by
    have := pairVals_sum h.metal le_rfl (ks := [1e-10]) (by simp) (by norm_num)
    rw [z2] at this
    simp only [List.map_cons, List.map_nil, Except.ok.injEq, List.cons.injEq, and_true] at this
    rw [this]
    exact h.metal_le (by norm_num)
  obtain ⟨F, hF, hlen, hval⟩ := freeEnergy_slices_num p (z := z) (hg ▸ ballGeo_valsOk h) (by rw [hg]; exact z1) hp ha hT hN1 hN'
  obtain ⟨G, hG, hlenG, hvalG⟩ := freeEnergy_slices_num { p with geo := pairGeo exactBes frac (P.metal R1 R2) } (z := q) (pairGeo_valsOk h.metal) z2 hp ha hT hN1 hN'
  refine ⟨F, G, hF, hG, hlen, hlenG, fun i x y hx hy => ?_⟩
  have hi : i < F.length := by
    by_contra hh
    rw [List.getElem?_eq_none (by omega)] at hx
    cases hx
  have hv := hval (i + 1) (by omega) (by omega)
  have hvG := hvalG (i + 1) (by omega) (by simp only; omega)
  rw [Nat.add_sub_cancel, hx] at hv
  rw [Nat.add_sub_cancel, hy] at hvG
  injection hv with hv
  injection hvG with hvG
  simp only at hvG
  rw [hg] at hv
  have hsl : ∀ j ∈ Finset.range (N / (i + 1)), (j + 1) * (i + 1) ≤ N := fun j hj =>
    (Nat.mul_le_mul_right _ (Finset.mem_range.mp hj)).trans (Nat.div_mul_le_self _ _)
  have hsv := fun j hj => ballGeo_slice (frac := frac) h hT (n := (j + 1) * (i + 1)) (Nat.one_le_iff_ne_zero.mpr (by positivity)) (hsl j hj)
  have hpos : (0 : ℝ) < (i + 1 : ℕ) * p.deltaT := by positivity
  have hxy : |x| ≤ -y := by
    have s := (Finset.abs_sum_le_sum_abs (fun j => sliceVal (ballGeo exactBes frac P) p.deltaT N ((j + 1) * (i + 1))) _).trans
      (Finset.sum_le_sum fun j hj => (hsv j hj).1)
    rw [Finset.sum_neg_distrib] at s
    have t := abs_add_le (0.5 * z) (∑ j ∈ Finset.range (N / (i + 1)), sliceVal (ballGeo exactBes frac P) p.deltaT N ((j + 1) * (i + 1)))
    rw [abs_mul, abs_of_pos (by norm_num : (0 : ℝ) < 0.5)] at t
    rw [hv, hvG, abs_mul, abs_of_pos hpos, ← mul_neg]
    refine mul_le_mul_of_nonneg_left ?_ hpos.le
    linarith [zz.1]
  have hd : 0 < P.L - (R1 + R2) := sub_pos.mpr h.sep
  have hC := freeC_pos h.ok1.pos h.ok2.pos h.sep
  refine ⟨hxy, hxy.trans ?_, fun hc => ?_, fun hc => ?_⟩
  · have hu : 0 < (i + 1 : ℕ) * p.deltaT * (P.L - (R1 + R2)) := mul_pos hpos hd
    have e1 : Real.exp (-((i + 1 : ℕ) * p.deltaT * (P.L - (R1 + R2)))) < 1 := by rw [Real.exp_lt_one_iff]; linarith
    have e2 : Real.exp (-(2 * ((i + 1 : ℕ) * p.deltaT * (P.L - (R1 + R2))))) < 1 := by rw [Real.exp_lt_one_iff]; linarith
    have s := geo_sum_le (n := N / (i + 1)) (f := fun j => sliceVal (pairGeo exactBes frac (P.metal R1 R2)) p.deltaT N ((j + 1) * (i + 1)))
      (mul_nonneg hC.le (div_nonneg (Real.exp_pos _).le (sub_pos.mpr e2).le)) (Real.exp_pos _).le e1
      (fun j hj => pairGeo_geometric h.metal hT (i := i + 1) (by omega) (hsl j (Finset.mem_range.mpr hj)))
    have s' := (neg_le_abs _).trans s
    rw [hvG, ← mul_neg]
    unfold coatBound
    have ecast : ((i : ℝ) + 1) = ((i + 1 : ℕ) : ℝ) := by push_cast; ring
    rw [ecast]
    refine mul_le_mul_of_nonneg_left ?_ hpos.le
    have e3 : freeC R1 R2 P.L * (Real.exp (-((i + 1 : ℕ) * p.deltaT * (P.L - (R1 + R2)))) /
        (1 - Real.exp (-(2 * ((i + 1 : ℕ) * p.deltaT * (P.L - (R1 + R2))))))) / (1 - Real.exp (-((i + 1 : ℕ) * p.deltaT * (P.L - (R1 + R2))))) =
        freeC R1 R2 P.L * (Real.exp (-((i + 1 : ℕ) * p.deltaT * (P.L - (R1 + R2)))) /
        ((1 - Real.exp (-(2 * ((i + 1 : ℕ) * p.deltaT * (P.L - (R1 + R2)))))) * (1 - Real.exp (-((i + 1 : ℕ) * p.deltaT * (P.L - (R1 + R2))))))) := by
      rw [mul_div_assoc, div_div]
    have s'' := s'.trans_eq e3
    linarith
  · rw [hv]
    refine mul_nonpos_of_nonneg_of_nonpos hpos.le ?_
    have := zz.2.2.1 (hc _ (by norm_num))
    have := Finset.sum_nonpos fun j hj => (hsv j hj).2.1 (hc _ (by positivity))
    linarith
  · rw [hv]
    refine mul_nonneg hpos.le ?_
    have := zz.2.2.2 (hc _ (by norm_num))
    have := Finset.sum_nonneg fun j hj => (hsv j hj).2.2 (hc _ (by positivity))
    linarith

/-- **C119, number of frequencies.** The free energy converges if `nmax` grows. -/
theorem C119_nmax_limit {p : FTParams} (h : BallPairOK P R1 R2) (hg : p.geo = ballGeo exactBes frac P) (hp : p.nprocs.isZero) (ha : p.analyticN0 = false)
    (hT : 0 < p.deltaT) {F : ℕ → List ℝ} (hF : ∀ N : ℕ, (freeEnergy { p with nmax := (N + 1 : ℕ) } FT.fresh).1 = .ok (F N)) {i : ℕ}
    (hi : (i : ℤ) < p.maxstep) :
    ∃ v, Tendsto (fun N => (F N).getD i 0) atTop (𝓝 v) ∧ |v| ≤ coatBound R1 R2 P.L ((i + 1) * p.deltaT) ∧
      ((∀ k, 0 < k → P.SameSide k) → v ≤ 0) ∧ ((∀ k, 0 < k → P.OppositeSide k) → 0 ≤ v) := by
  obtain ⟨vs, ws, z1, z2, z3, z4, z5⟩ := C119_mSumme h (ks := [1e-10]) (by simp) (by norm_num)
  obtain ⟨z, rfl⟩ : ∃ z, vs = [z] := List.length_eq_one_iff.mp z3
  have key : ∀ N, ∃ x, (F N)[i]? = some x ∧
      x = (i + 1 : ℕ) * p.deltaT * (0.5 * z + ∑ j ∈ Finset.range ((N + 1) / (i + 1)), sliceVal (ballGeo exactBes frac P) p.deltaT (N + 1) ((j + 1) * (i + 1))) := by
    intro N
    obtain ⟨G, hG, -, hval⟩ := freeEnergy_slices_num { p with nmax := (N + 1 : ℕ) } (z := z) (by simp only; rw [hg]; exact ballGeo_valsOk h)
      (by simp only; rw [hg]; exact z1) hp ha hT (N := N + 1) (by omega) rfl
    rw [hF] at hG
    injection hG with hG
    subst hG
    refine ⟨_, hval (i + 1) (by omega) (by simp only; omega), ?_⟩
    simp only
    rw [hg]
  choose x hx hxv using key
  have hgd : ∀ N, (F N).getD i 0 = x N := fun N => by rw [List.getD_eq_getElem?_getD, hx]; rfl
  have hd : 0 < P.L - (R1 + R2) := sub_pos.mpr h.sep
  have hx0 : 0 < (i + 1 : ℕ) * p.deltaT * (P.L - (R1 + R2)) := by positivity
  obtain ⟨v, hv⟩ := slices_limit (ballGeo exactBes frac P) p.deltaT (i := i + 1) (by omega)
    (b := fun j => freeC R1 R2 P.L * (Real.exp (-((i + 1 : ℕ) * p.deltaT * (P.L - (R1 + R2)))) /
      (1 - Real.exp (-(2 * ((i + 1 : ℕ) * p.deltaT * (P.L - (R1 + R2))))))) *
        Real.exp (-((i + 1 : ℕ) * p.deltaT * (P.L - (R1 + R2)))) ^ j)
    ((summable_geometric_of_lt_one (Real.exp_pos _).le (by rw [Real.exp_lt_one_iff]; linarith)).mul_left _)
    (fun N j hj => ((ballGeo_slice h hT (Nat.one_le_iff_ne_zero.mpr (by positivity)) hj).1.trans (neg_le_abs _)).trans
      (pairGeo_geometric (frac := frac) h.metal hT (by omega) hj))
  have hlim : Tendsto (fun N => (F N).getD i 0) atTop (𝓝 ((i + 1 : ℕ) * p.deltaT * (0.5 * z + v))) := by
    refine (((hv.comp (tendsto_add_atTop_nat 1)).const_add (0.5 * z)).const_mul ((i + 1 : ℕ) * p.deltaT)).congr fun N => ?_
    rw [hgd, hxv]
    rfl
  have hall : ∀ N, |(F N).getD i 0| ≤ coatBound R1 R2 P.L ((i + 1) * p.deltaT) ∧
      ((∀ k, 0 < k → P.SameSide k) → (F N).getD i 0 ≤ 0) ∧ ((∀ k, 0 < k → P.OppositeSide k) → 0 ≤ (F N).getD i 0) := by
    intro N
    obtain ⟨F', G, hF', -, hl, hlG, hval⟩ := C119_free_energy (p := { p with nmax := (N + 1 : ℕ) }) h hg rfl hp ha hT (by simp)
    rw [hF] at hF'
    injection hF' with hF'
    subst hF'
    rw [hgd]
    simp only at hlG
    obtain ⟨y, hy⟩ : ∃ y, G[i]? = some y := ⟨_, List.getElem?_eq_getElem (by omega)⟩
    exact (hval i _ y (hx N) hy).2
  exact ⟨_, hlim, le_of_tendsto hlim.abs (.of_forall fun N => (hall N).1), fun hc => le_of_tendsto hlim (.of_forall fun N => (hall N).2.1 hc),
    fun hc => ge_of_tendsto hlim (.of_forall fun N => (hall N).2.2 hc)⟩

/-- **C119, one frequency.** With `nmax = 0` and a list `free_energy` raises IndexError, although the zero frequency alone could be evaluated. -/
theorem C119_nmax_zero {p : FTParams} (h : BallPairOK P R1 R2) (hg : p.geo = ballGeo exactBes frac P) (hp : p.nprocs.isZero) (ha : p.analyticN0 = false)
    (hN : p.nmax = 0) : (freeEnergy p FT.fresh).1 = .error .indexError := by
  obtain ⟨vs, -, z1, -⟩ := C119_mSumme h (ks := [1e-10]) (by simp) (by norm_num)
  have hv : p.geo.vals [1e-10] = .ok vs := by rw [hg]; exact z1
  have ht : p.geo.trace = false := by rw [hg]; rfl
  have hA : arange 0 (min (0 + 50 - 1) 0) = [0] := by rw [show min ((0 : ℤ) + 50 - 1) 0 = 0 by norm_num]; rfl
  have hf : getFMatsubaras p 0 FT.fresh = (.error .indexError, FT.fresh) := by
    unfold getFMatsubaras slicewiseEval
    rw [if_pos hp, dif_pos (by norm_num), if_neg (by omega)]
    unfold sliceLoop
    rw [hN, dif_pos (by norm_num)]
    simp only [Proc.bind, hA, List.map_cons, List.map_nil, Int.cast_zero, mul_zero, fAlle, ha, Geo.mSumme, ht, hv, FT.fresh]
    simp
  unfold freeEnergy ensureF
  simp only [Proc.bind, FT.fresh] at hf ⊢
  rw [hf]

/-! ## Examples -/

/-- Vacuum (0), gold (1), water (2) and a perfect conductor (3). -/
noncomputable def fourMats : MatHeap
  | 1 => ⟨.lorentz, eGold, none⟩
  | 2 => ⟨.lorentz, eWater, none⟩
  | 3 => ⟨.pec, [], none⟩
  | _ => ⟨.lorentz, [], none⟩

/-- A gold ball of radius 1 with a shell of water up to 3/2, in vacuum. -/
noncomputable def wetGold : StratState := ⟨[1, 2, 0], [1, 3/2]⟩

theorem wetGold_ok : Coating fourMats 0 wetGold (3/2) where
  len := rfl
  pos := by norm_num [wetGold]
  ord := by norm_num [wetGold]
  phys := by
    intro x hx
    simp only [wetGold, List.mem_cons, List.not_mem_nil, or_false] at hx
    rcases hx with rfl | rfl | rfl
    · exact ⟨gold_physical, rfl⟩
    · exact ⟨water_diel.2, rfl⟩
    · exact ⟨vac_diel.2, rfl⟩
  pen := by
    intro x hx
    simp only [wetGold, List.tail_cons, List.mem_cons, List.not_mem_nil, or_false] at hx
    rcases hx with rfl | rfl <;> simp [fourMats]
  last := ⟨0, rfl, rfl⟩
  outer := rfl

/-- The coated ball and a perfectly conducting one of radius 4 at the distance 6. -/
noncomputable def wetPair : BallPair := ⟨fourMats, .strat wetGold, .solid 3 4, 0, 6, 20, 25, 1e-4⟩

theorem wetPair_ok : BallPairOK wetPair (3/2) 4 :=
  ⟨wetGold_ok, ⟨rfl, by norm_num, pec_sphere.phys, rfl⟩, ⟨vac_diel.1, vac_diel.2, rfl⟩, by norm_num [wetPair], by norm_num [wetPair], by norm_num [wetPair]⟩

theorem wetPair_same {k : ℝ} (hk : 0 < k) : wetPair.SameSide k := by
  refine .inl ⟨fun x hx => ?_, fun x hx => ?_⟩
  · have hx : x ∈ ([1, 2, 0] : List ℕ) := hx
    have e : (⟨.lorentz, [], none⟩ : Material).epsV k = 1 := by
      simp [Material.epsV, Material.epsilon]
      rfl
    simp only [List.mem_cons, List.not_mem_nil, or_false] at hx
    rcases hx with rfl | rfl | rfl
    · exact .inr (e.trans_le (one_le_epsV gold_physical hk))
    · exact .inr (e.trans_le (one_le_epsV water_diel.2 hk))
    · exact .inr le_rfl
  · have hx : x ∈ ([3] : List ℕ) := hx
    simp only [List.mem_cons, List.not_mem_nil, or_false] at hx
    subst hx
    exact .inl rfl

/-- They attract each other at all temperatures. -/
example : ∃ F : List ℝ, (freeEnergy ⟨0.01, 500, 200, false, .int 0, ballGeo exactBes frac wetPair⟩ FT.fresh).1 = .ok F ∧ F.length = 200 ∧ ∀ x ∈ F, x ≤ 0 := by
  obtain ⟨F, G, h1, -, h3, h4, h5⟩ := C119_free_energy (p := ⟨0.01, 500, 200, false, .int 0, ballGeo exactBes frac wetPair⟩) wetPair_ok rfl rfl rfl rfl
    (by norm_num) (by norm_num)
  refine ⟨F, h1, h3, fun x hx => ?_⟩
  obtain ⟨i, hi, rfl⟩ := List.getElem_of_mem hx
  have hG : i < G.length := by rw [h4, ← h3]; exact hi
  exact (h5 i _ _ (List.getElem?_eq_getElem hi) (List.getElem?_eq_getElem hG)).2.2.1 fun k hk => wetPair_same hk

/-- `finiteT(0.01, "automatic", 2, geom)` uses the numerical zero frequency for them. -/
example : ∃ p, ballFiniteT 0.01 .automatic 2 wetPair true (.int 0) exactBes frac = .ok p ∧ p.analyticN0 = false ∧ 1 ≤ p.nmax := by
  obtain ⟨p, h1, -, -, -, -, h2, -, h3⟩ := C119_constructor (frac := frac) wetPair_ok (deltaT := 0.01) (Tmax := 2) (by norm_num) .automatic true 0 exactBes
  exact ⟨p, h1, h2, h3 rfl⟩

/-- A bubble in water and a perfectly conducting ball with a shell of gold. -/
noncomputable def bubblePair : BallPair := ⟨fourMats, .strat ⟨[0, 2], [1]⟩, .strat ⟨[3, 1, 2], [2, 3]⟩, 2, 6, 20, 25, 1e-4⟩

theorem bubblePair_ok : BallPairOK bubblePair 1 3 where
  ok1 := by
    refine ⟨rfl, by norm_num, by norm_num, fun x hx => ?_, fun x hx => ?_, ⟨2, rfl, rfl⟩, rfl⟩
    · simp only [List.mem_cons, List.not_mem_nil, or_false] at hx
      rcases hx with rfl | rfl
      · exact ⟨vac_diel.2, rfl⟩
      · exact ⟨water_diel.2, rfl⟩
    · simp only [List.tail_cons, List.mem_cons, List.not_mem_nil, or_false] at hx
      subst hx
      simp [bubblePair, fourMats]
  ok2 := by
    refine ⟨rfl, by norm_num, by norm_num, fun x hx => ?_, fun x hx => ?_, ⟨2, rfl, rfl⟩, rfl⟩
    · simp only [List.mem_cons, List.not_mem_nil, or_false] at hx
      rcases hx with rfl | rfl | rfl
      · exact ⟨pec_sphere.phys, rfl⟩
      · exact ⟨gold_physical, rfl⟩
      · exact ⟨water_diel.2, rfl⟩
    · simp only [List.tail_cons, List.mem_cons, List.not_mem_nil, or_false] at hx
      rcases hx with rfl | rfl <;> simp [bubblePair, fourMats]
  m3 := water_medium
  sep := by norm_num [bubblePair]
  hl := by norm_num [bubblePair]
  hls := by norm_num [bubblePair]

example : ∃ vs, ballVals exactBes bubblePair [1/2, 1] = .ok vs ∧ vs.length = 2 := by
  obtain ⟨vs, -, h1, -, h3, -⟩ := C119_mSumme bubblePair_ok (ks := [1/2, 1]) (by simp) (by norm_num)
  exact ⟨vs, h1, h3⟩

/-- A bubble and a perfectly conducting ball repel each other in water. -/
example {k : ℝ} (hk : 0 < k) : (⟨fourMats, .strat ⟨[0, 2], [1]⟩, .strat ⟨[3, 2], [3]⟩, 2, 6, 20, 25, 1e-4⟩ : BallPair).OppositeSide k := by
  refine .inr ⟨fun x hx => ?_, fun x hx => ?_⟩
  · have hx : x ∈ ([0, 2] : List ℕ) := hx
    simp only [List.mem_cons, List.not_mem_nil, or_false] at hx
    have e : (⟨.lorentz, [], none⟩ : Material).epsV k = 1 := by
      simp [Material.epsV, Material.epsilon]
      rfl
    rcases hx with rfl | rfl
    · exact ⟨by simp [fourMats], e.trans_le (one_le_epsV water_diel.2 hk)⟩
    · exact ⟨by simp [fourMats], le_rfl⟩
  · have hx : x ∈ ([3, 2] : List ℕ) := hx
    simp only [List.mem_cons, List.not_mem_nil, or_false] at hx
    rcases hx with rfl | rfl
    · exact .inl rfl
    · exact .inr le_rfl

end CasSph
