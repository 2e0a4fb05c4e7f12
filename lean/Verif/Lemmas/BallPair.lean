import Verif.Lemmas.StratTable
import Verif.Lemmas.CutOff
import Verif.Lemmas.DipoleBound

/-! # Two stratified spheres at one wavenumber -/

namespace CasSph

open Spec Filter Topology Matrix

/-- `single_m` from the blocks, if `det(1 - M) > 0` for all wavenumbers. -/
theorem singleM_value {ext : Bool} {d lmax lssmax m : ℕ} (hd : 0 < d) {w : Fin d → WaveIn} {B : Fin d → Blocks (lmax + 1 - transLmin m)}
    (hB : ∀ i, blockmatricesAt lmax lssmax m ext (w i).nL (w i).bes (w i).a (w i).b = .ok (B i))
    (hpos : ∀ i, 0 < (1 - (B i).full).det) {conv : ℝ} (hc : conv < 1) :
    ∃ N, ∀ fuel, N < fuel →
      singleM fuel conv lmax lssmax m (List.ofFn w) ext = some (.ok (List.ofFn fun i => ((Real.log (1 - (B i).full).det : ℝ) : EReal))) := by
  obtain ⟨A, hA, hs, hv⟩ := superMatrix_ok hd hB
  obtain ⟨N, hN⟩ := C05_balanced_slogdet hs hd hc
  refine ⟨N, fun fuel hf => ?_⟩
  unfold singleM
  rw [hA]
  simp only
  rw [hN fuel hf]
  congr 2
  refine List.ext_getElem (by simp) fun j h1 h2 => ?_
  simp only [List.getElem_map, List.getElem_range, List.getElem_ofFn]
  have hj : j < d := by simpa using h1
  have e := (det_super (hv ⟨j, hj⟩)).1
  simp only at e
  rw [e]
  unfold lnAbs
  rw [if_neg (hpos _).ne', abs_of_pos (hpos _)]

/-- `mSumme` from the blocks of each wavenumber. -/
theorem valsOf_eq {ext : Bool} {lmax lssmax : ℕ} {precision : ℝ} {wave : ℝ → Res WaveIn} {ks : List ℝ} (hne : ks ≠ []) {u : ℕ → ℝ → ℝ}
    (h : ∀ k ∈ ks, ∃ w, wave k = .ok w ∧ ∀ m : ℕ, m ≤ lmax → ∃ B, blockmatricesAt lmax lssmax m ext w.nL w.bes w.a w.b = .ok B ∧
      0 < (1 - B.full).det ∧ u m k = Real.log (1 - B.full).det) :
    valsOf lmax lssmax precision wave ks ext = (mSummeNonzero lmax precision fun m => .ok fun i : Fin ks.length => u m (ks.get i)) >>=
      fun r => .ok (List.ofFn r) := by
  have hd : 0 < ks.length := List.length_pos_iff.mpr hne
  have hmem : ∀ i : Fin ks.length, ks.get i ∈ ks := fun i => List.get_mem _ _
  choose w h1 h2 using fun i => h _ (hmem i)
  have hws : ks.mapM wave = .ok (List.ofFn w) := by
    conv_lhs => rw [← List.ofFn_get ks]
    rw [List.ofFn_eq_map, List.ofFn_eq_map, List.mapM_map]
    exact mapM_ok fun i _ => h1 i
  have hv : ∀ m ≤ lmax, ∃ N, ∀ fuel, N < fuel →
      singleM fuel 0.9 lmax lssmax m (List.ofFn w) ext = some (.ok (List.ofFn fun i => (u m (ks.get i) : EReal))) := by
    intro m hm
    choose B q1 q2 q3 using fun i => h2 i m hm
    obtain ⟨N, hN⟩ := singleM_value hd q1 q2 (conv := 0.9) (by norm_num)
    exact ⟨N, fun fuel hf => by rw [hN fuel hf]; simp only [q3]⟩
  have hex : ∃ v : ℕ → Fin ks.length → ℝ, ∀ m : ℕ, m ≤ lmax → ∃ N, ∀ fuel, N < fuel →
      singleM fuel 0.9 lmax lssmax m (List.ofFn w) ext = some (.ok (List.ofFn fun i => (v m i : EReal))) :=
    ⟨fun m i => u m (ks.get i), hv⟩
  have hv' : ∀ m ≤ lmax, hex.choose m = fun i => u m (ks.get i) := by
    intro m hm
    obtain ⟨N1, q1⟩ := hex.choose_spec m hm
    obtain ⟨N2, q2⟩ := hv m hm
    have a1 := q1 (max N1 N2 + 1) (by omega)
    have a2 := q2 (max N1 N2 + 1) (by omega)
    rw [a2] at a1
    injection a1 with a1
    injection a1 with a1
    have := List.ofFn_injective a1
    funext i
    exact (EReal.coe_injective (congrFun this i)).symm
  unfold valsOf
  rw [hws, ok_bind]
  rw [dif_pos hex, mSummeNonzero_congr (L' := fun m => .ok fun i : Fin ks.length => u m (ks.get i)) (fun m hm => by rw [hv' m hm])]

theorem pairVals_valsOf (T : BesTable) (P : PairIn) (ks : List ℝ) : pairVals T P ks = valsOf P.lmax P.lssmax P.precision (waveIn T P) ks := rfl

/-! ## The pair -/

/-- Two separate spheres, homogeneous or stratified, with outer radii `R1`, `R2`, and sensible cut-offs. -/
structure BallPairOK (P : BallPair) (R1 R2 : ℝ) : Prop where
  ok1 : BallOK P.H P.mat3 P.ball1 R1
  ok2 : BallOK P.H P.mat3 P.ball2 R2
  m3 : MediumMat (P.H P.mat3)
  sep : R1 + R2 < P.L
  hl : 1 ≤ P.lmax
  hls : P.lmax ≤ P.lssmax

/-- Two perfectly conducting spheres of these radii in the same medium, all subspaces. -/
def BallPair.metal (P : BallPair) (R1 R2 : ℝ) : PairIn :=
  ⟨⟨.pec, [], none⟩, ⟨.pec, [], none⟩, P.H P.mat3, R1, R2, P.L, P.lmax, P.lssmax, 0⟩

/-- The same spheres with other cut-offs. -/
def BallPair.cut (P : BallPair) (lmax lssmax : ℕ) : BallPair := { P with lmax := lmax, lssmax := lssmax }

/-- `ln det(1 - M)` of one `m`. -/
noncomputable def lnBall (P : BallPair) (m : ℕ) (k : ℝ) : ℝ :=
  match ballWave exactBes P k with
  | .ok w => match blockmatricesAt P.lmax P.lssmax m true w.nL w.bes w.a w.b with
    | .ok B => Real.log (1 - B.full).det
    | .error _ => 0
  | .error _ => 0

/-- The complete sum over `m`. -/
noncomputable def ballSum (P : BallPair) (k : ℝ) : ℝ := lnBall P 0 k + 2 * ∑ m ∈ Finset.Icc 1 P.lmax, lnBall P m k

section
variable {P : BallPair} {R1 R2 : ℝ} {k : ℝ}

theorem BallPairOK.metal (h : BallPairOK P R1 R2) : PairOK (P.metal R1 R2) :=
  ⟨pec_sphere, pec_sphere, h.m3, h.ok1.pos, h.ok2.pos, h.sep, h.hl, h.hls⟩

theorem BallPairOK.cut (h : BallPairOK P R1 R2) {a b : ℕ} (ha : 1 ≤ a) (hb : a ≤ b) : BallPairOK (P.cut a b) R1 R2 :=
  ⟨h.ok1, h.ok2, h.m3, h.sep, ha, hb⟩

theorem Reflects.scatters {c : MieCoef} {σ ρ : ℝ} {A : Bool → ℕ → ℝ} (h : Reflects c σ ρ A) : Scatters c (fun _ _ => σ) ρ A := h

/-- Everything about one wavenumber, for all cut-offs. -/
theorem BallPairOK.wave (h : BallPairOK P R1 R2) (hk : 0 < k) : ∃ u : ℕ → ℕ → ℕ → ℝ,
    (∀ {lmax lssmax : ℕ}, ∃ w, ballWave exactBes (P.cut lmax lssmax) k = .ok w ∧
      ∀ m : ℕ, max 1 m ≤ lmax → max 1 m ≤ lssmax → ∃ B, blockmatricesAt lmax lssmax m true w.nL w.bes w.a w.b = .ok B ∧
        0 < (1 - B.full).det ∧ u m lmax lssmax = Real.log (1 - B.full).det) ∧
    (∀ {m a b : ℕ}, max 1 m ≤ a → a ≤ b → |u m a b| ≤ -lnDetV ((P.metal R1 R2).cut a b) m k) ∧
    (∀ {m a b a' b' : ℕ}, max 1 m ≤ a → a ≤ b → a ≤ a' → b ≤ b' → a' ≤ b' →
      |u m a' b' - u m a b| ≤ lnDetV ((P.metal R1 R2).cut a b) m k - lnDetV ((P.metal R1 R2).cut a' b') m k) ∧
    (∀ {m a b : ℕ}, max 1 m ≤ a → a ≤ b →
      ((P.ball1.Dense P.H P.mat3 k ∧ P.ball2.Dense P.H P.mat3 k ∨ P.ball1.Dilute P.H P.mat3 k ∧ P.ball2.Dilute P.H P.mat3 k) → u m a b ≤ 0) ∧
      ((P.ball1.Dense P.H P.mat3 k ∧ P.ball2.Dilute P.H P.mat3 k ∨ P.ball1.Dilute P.H P.mat3 k ∧ P.ball2.Dense P.H P.mat3 k) → 0 ≤ u m a b)) := by
  obtain ⟨ca, ha, ⟨α, hα, sa⟩, da, la⟩ := h.ok1.scatters h.m3 hk
  obtain ⟨cb, hb, ⟨β, hβ, sb⟩, db, lb⟩ := h.ok2.scatters h.m3 hk
  set med : Medium := ⟨(P.H P.mat3).epsV k, 1⟩ with hmed
  have hm : (P.H P.mat3).medium k = .ok med := by
    have := (medium_val h.m3.cls h.m3.phys hk).1
    rwa [muV_of_none h.m3.mag] at this
  have G : GapPair (P.H P.mat3) R1 R2 P.L k med := ⟨h.m3.cls, h.m3.phys, hk, h.ok1.pos, h.ok2.pos, hm, by
    rw [hmed]; simpa using h.sep⟩
  have hx : 0 < k * P.L * Real.sqrt med.eps :=
    mul_pos (mul_pos hk (by linarith [h.sep, h.ok1.pos, h.ok2.pos])) (Real.sqrt_pos.mpr G.med_pos.1)
  set K : ℕ → ℕ → ℕ → ℝ := fun m => kern m (k * P.L * Real.sqrt med.eps) (m - 1) (fun Q i => pecR Q i (k * R1 * med.n))
    (fun Q i => pecR Q i (k * R2 * med.n)) with hK
  have arr := fun m => G.array_mix (a := ca) (b := cb) m sa sb
  have hK0 : ∀ m i s, 0 ≤ K m i s := fun m i s => kern_nonneg hx _ _ _ _ _
  have hp1 : ∀ (α : Bool → ℕ → ℝ), (∀ P i, |α P i| ≤ 1) → ∀ c i, |pick α c i| ≤ 1 := fun α h c i => h _ _
  set u : ℕ → ℕ → ℕ → ℝ := fun m a b => Real.log (1 - mixed (pick α (m - 1)) (pick β (m - 1)) (K m) (2 * (a + 1 - transLmin m))
    (2 * (b + 1 - transLmin m))).det with hu
  have hmetal : ∀ {m a b : ℕ}, max 1 m ≤ a → a ≤ b → lnDetV ((P.metal R1 R2).cut a b) m k =
      Real.log (1 - gram 1 (K m) (2 * (a + 1 - transLmin m)) (2 * (b + 1 - transLmin m))).det := by
    intro m a b hma hab
    have := (lnDetV_kern (h.metal.cut (a := a) (b := b) (by omega) hab) (m := m) hma hk (amp_pec rfl pec_sphere h.m3 hk h.ok1.pos)
      (amp_pec rfl pec_sphere h.m3 hk h.ok2.pos)).2
    rw [this, mul_one, hK]
    have en : ∀ R : ℝ, k * R * med.n = k * Real.sqrt ((P.H P.mat3).epsV k) * R := fun R => by
      rw [hmed]; unfold Medium.n; simp only [mul_one]; ring
    simp only [en]
    rfl
  have hwave : ∀ lmax lssmax : ℕ, ∃ w, ballWave exactBes (P.cut lmax lssmax) k = .ok w ∧
      w.nL = k * P.L * Real.sqrt med.eps ∧ transBessels [w.nL] (.int (lmax + lssmax + 1 : ℕ)) 1 = .ok [w.bes] ∧
      AgreeTo lmax w.a ca ∧ AgreeTo lssmax w.b cb := by
    intro lmax lssmax
    obtain ⟨t1, e1, g1⟩ := ha lmax
    obtain ⟨t2, e2, g2⟩ := hb lssmax
    refine ⟨⟨k * P.L * Real.sqrt med.eps, (List.range (lmax + lssmax + 1 + 1)).map (lnk1 (k * P.L * Real.sqrt med.eps)), t1, t2⟩, ?_, rfl,
      trans_row_ext _ _, g1, g2⟩
    unfold ballWave
    simp only [BallPair.cut]
    rw [e1, ok_bind, e2, ok_bind, medium_eps hm, ok_bind, trans_row_ext, ok_bind]
    rfl
  have hblk : ∀ {m lmax lssmax : ℕ}, max 1 m ≤ lmax → max 1 m ≤ lssmax → ∀ {w : WaveIn}, w.nL = k * P.L * Real.sqrt med.eps →
      transBessels [w.nL] (.int (lmax + lssmax + 1 : ℕ)) 1 = .ok [w.bes] → AgreeTo lmax w.a ca → AgreeTo lssmax w.b cb →
      ∃ B, blockmatricesAt lmax lssmax m true w.nL w.bes w.a w.b = .ok B ∧ BlocksAt (P.H P.mat3) P.L k lmax lssmax m ca cb B := by
    intro m lmax lssmax hm1 hm2 w e1 e2 g1 g2
    have hb := e2
    rw [trans_row_ext] at hb
    injection hb with hb
    injection hb with hb
    rw [blockmatricesAt_congr g1 g2]
    obtain ⟨B, hB⟩ := blockmatricesAt_ok hm1 hm2 w.nL ca cb
    rw [hb] at hB
    exact ⟨B, hB, med.eps, w.bes, medium_eps hm, e1 ▸ e2, e1 ▸ hB⟩
  have hbd := fun m n p => (arr m).2.1.mixed_bound (α := pick α (m - 1)) (β := pick β (m - 1)) (hK0 m) (hp1 α hα _) (hp1 β hβ _) n p
  refine ⟨u, fun {lmax lssmax} => ?_, fun {m a b} hma hab => ?_, fun {m a b a' b'} hma hab ha' hb' hab' => ?_, fun {m a b} hma hab => ?_⟩
  · obtain ⟨w, hw, e1, e2, g1, g2⟩ := hwave lmax lssmax
    refine ⟨w, hw, fun m hm1 hm2 => ?_⟩
    obtain ⟨B, hB, hBA⟩ := hblk hm1 hm2 e1 e2 g1 g2
    have e := (det_reindex ((arr m).2.2 hBA)).1
    refine ⟨B, hB, ?_, ?_⟩
    · rw [e]; exact (hbd m _ _).2.1
    · rw [e, hu]
  · rw [hmetal hma hab]
    exact (hbd m _ _).2.2
  · rw [hmetal hma hab, hmetal (hma.trans ha') hab']
    exact (arr m).2.1.mixed_sub (hK0 m) (hp1 α hα _) (hp1 β hβ _) (by omega) (by omega)
  · have sg : ∀ {σa σb : ℝ} {A B0 : Bool → ℕ → ℝ}, Reflects ca σa (k * R1 * med.n) A → Reflects cb σb (k * R2 * med.n) B0 →
        (σa * σb = 1 → u m a b ≤ 0) ∧ (σa * σb = -1 → 0 ≤ u m a b) := by
      intro σa σb A B0 hA hB0
      obtain ⟨w, hw, e1, e2, g1, g2⟩ := hwave a b
      obtain ⟨B, hB, hBA⟩ := hblk hma (hma.trans hab) e1 e2 g1 g2
      have q := G.array_mix m hA.scatters hB0.scatters
      have e := (det_reindex ((arr m).2.2 hBA)).1
      have e' := (det_reindex (q.2.2 hBA)).1
      have hue : u m a b = Real.log (1 - gram (σa * σb) (kern m (k * P.L * Real.sqrt med.eps) (m - 1) A B0) (2 * (a + 1 - transLmin m))
          (2 * (b + 1 - transLmin m))).det := by
        rw [← mixed_const]
        exact congrArg Real.log (e.symm.trans e')
      rw [hue]
      have s := q.2.1.sign (2 * (a + 1 - transLmin m)) (2 * (b + 1 - transLmin m))
      exact ⟨fun h => by rw [h]; exact s.1, fun h => by rw [h]; exact s.2⟩
    constructor
    · rintro (⟨h1, h2⟩ | ⟨h1, h2⟩)
      · obtain ⟨A, hA⟩ := da h1
        obtain ⟨B, hB⟩ := db h2
        exact (sg hA hB).1 (by norm_num)
      · obtain ⟨A, hA⟩ := la h1
        obtain ⟨B, hB⟩ := lb h2
        exact (sg hA hB).1 (by norm_num)
    · rintro (⟨h1, h2⟩ | ⟨h1, h2⟩)
      · obtain ⟨A, hA⟩ := da h1
        obtain ⟨B, hB⟩ := lb h2
        exact (sg hA hB).2 (by norm_num)
      · obtain ⟨A, hA⟩ := la h1
        obtain ⟨B, hB⟩ := db h2
        exact (sg hA hB).2 (by norm_num)

end

end CasSph
