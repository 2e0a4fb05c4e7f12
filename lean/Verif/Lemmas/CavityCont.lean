import Verif.Props.Cavity
import Mathlib.MeasureTheory.Integral.IntegralEqImproper

/-! # A sphere inside a cavity as a function of the wavenumber -/

namespace CasSph

open Spec Filter Topology Matrix MeasureTheory Set

/-! ## Wall coefficients -/

/-- The coefficients of the wall as a function of the wavenumber. -/
noncomputable def mieIntV (md m : Material) (r : ℝ) (l : ℕ) (k : ℝ) : Mie :=
  match mieInternal exactBes exactBes md m l k r with
  | .ok c => c
  | .error _ => ⟨0, 0, 0⟩

theorem mieIntV_val {m md : Material} {r : ℝ} {l : ℕ} {k : ℝ} {c : Mie} (h : mieInternal exactBes exactBes md m l k r = .ok c) :
    mieIntV md m r l k = c := by
  unfold mieIntV; rw [h]

theorem mieIntV_diel {m md : Material} (hm : m.cls ≠ .pec) (hmd : md.cls ≠ .pec) (hp : m.Physical) (hd : md.Physical) {r : ℝ} (hr : 0 < r) {l : ℕ}
    (hl : 1 ≤ l) {k : ℝ} (hk : 0 < k) : mieIntV md m r l k =
      ⟨(m.muV k * kdX l (argV md r k) - md.muV k * kdX l (argV m r k)) / (m.muV k * idX l (argV md r k) - md.muV k * kdX l (argV m r k)) *
          ((-1) ^ l * 2 / Real.pi),
        (m.epsV k * kdX l (argV md r k) - md.epsV k * kdX l (argV m r k)) / (m.epsV k * idX l (argV md r k) - md.epsV k * kdX l (argV m r k)) *
          ((-1) ^ l * 2 / Real.pi),
        Real.log (sphK l (argV md r k)) - Real.log (sphI l (argV md r k))⟩ := by
  have x1 := argV_pos hm hp hr hk
  have x2 := argV_pos hmd hd hr hk
  have i2 := idT_exact hl x2
  have k1 := kdT_exact (l := l) x1
  have k2 := kdT_exact (l := l) x2
  refine mieIntV_val ?_
  rw [mieInternal_diel hm (medium_val hmd hd hk).1 (medium_val hm hp hk).1]
  rw [mieIntCore_ok ⟨(medium_val hmd hd hk).2, muV_pos hd hk.le⟩ ⟨(medium_val hm hp hk).2, muV_pos hp hk.le⟩]
  · unfold argV at *
    rw [i2, k1, k2]
    rfl
  · unfold argV at *
    rw [i2]; exact idX_pos hl x2
  · unfold argV at *
    rw [k1]; exact kdX_neg hl x1

theorem mieIntV_pec {m md : Material} (hm : m.cls = .pec) (hmd : md.cls ≠ .pec) (hd : md.Physical) {r : ℝ} (hr : 0 < r) {l : ℕ}
    (hl : 1 ≤ l) {k : ℝ} (hk : 0 < k) : mieIntV md m r l k =
      ⟨(-1) ^ l * 2 / Real.pi, (-1) ^ l * 2 / Real.pi * (kdX l (argV md r k) / idX l (argV md r k)),
        Real.log (sphK l (argV md r k)) - Real.log (sphI l (argV md r k))⟩ := by
  have x2 := argV_pos hmd hd hr hk
  have i2 := idT_exact hl x2
  have k2 := kdT_exact (l := l) x2
  refine mieIntV_val ?_
  rw [mieInternal_pec hm (medium_val hmd hd hk).1, miePECIntCore_ok]
  · unfold argV at *
    rw [i2, k2]
    rfl
  · unfold argV at *
    rw [i2]; exact idX_pos hl x2

theorem mieIntV_contAt {m md : Material} (hmd : md.cls ≠ .pec) (hp : m.Physical) (hd : md.Physical) {r : ℝ} (hr : 0 < r) {l : ℕ}
    (hl : 1 ≤ l) {k : ℝ} (hk : 0 < k) :
    ContinuousAt (fun k => (mieIntV md m r l k).TE) k ∧ ContinuousAt (fun k => (mieIntV md m r l k).TM) k ∧
      ContinuousAt (fun k => (mieIntV md m r l k).ln) k := by
  have hev : ∀ᶠ x in 𝓝 k, 0 < x := eventually_gt_nhds hk
  have x2 := argV_pos hmd hd hr hk
  have c2 := argV_contAt hmd hd (r := r) hk
  have hI2 : ContinuousAt (fun k => idX l (argV md r k)) k := ContinuousAt.comp (g := idX l) (f := argV md r) (idX_cont hl x2) c2
  have hK2 : ContinuousAt (fun k => kdX l (argV md r k)) k := ContinuousAt.comp (g := kdX l) (f := argV md r) (kdX_cont l x2) c2
  have hln : ContinuousAt (fun k => Real.log (sphK l (argV md r k)) - Real.log (sphI l (argV md r k))) k := by
    have a1 : ContinuousAt (fun k => sphI l (argV md r k)) k := ContinuousAt.comp (g := sphI l) (f := argV md r) (sphI_contAt l x2) c2
    have a2 : ContinuousAt (fun k => sphK l (argV md r k)) k := ContinuousAt.comp (g := sphK l) (f := argV md r) (sphK_contAt l x2) c2
    exact (a2.log (sphK_pos l x2).ne').sub (a1.log (sphI_pos l x2).ne')
  have cP : ContinuousAt (fun _ : ℝ => (-1 : ℝ) ^ l * 2 / Real.pi) k := continuousAt_const
  have hI := idX_pos hl x2
  by_cases hm : m.cls = .pec
  · have e : ∀ᶠ k in 𝓝 k, mieIntV md m r l k = _ := hev.mono fun x hx => mieIntV_pec hm hmd hd hr hl hx
    refine ⟨cP.congr ?_, (cP.mul (hK2.div hI2 hI.ne')).congr ?_, hln.congr ?_⟩
    · exact e.mono fun x hx => (congrArg Mie.TE hx).symm
    · exact e.mono fun x hx => (congrArg Mie.TM hx).symm
    · exact e.mono fun x hx => (congrArg Mie.ln hx).symm
  · have x1 := argV_pos hm hp hr hk
    have c1 := argV_contAt hm hp (r := r) hk
    have hK1 : ContinuousAt (fun k => kdX l (argV m r k)) k := ContinuousAt.comp (g := kdX l) (f := argV m r) (kdX_cont l x1) c1
    have e : ∀ᶠ k in 𝓝 k, mieIntV md m r l k = _ := hev.mono fun x hx => mieIntV_diel hm hmd hp hd hr hl hx
    have hK := kdX_neg hl x1
    have m1 := muV_contAt hp hk
    have m2 := muV_contAt hd hk
    have e1 := epsV_contAt hm hp hk
    have e2 := epsV_contAt hmd hd hk
    refine ⟨((((m1.mul hK2).sub (m2.mul hK1)).div ((m1.mul hI2).sub (m2.mul hK1))
        (mieDen_pos (muV_pos hd hk.le) (muV_pos hp hk.le) hI hK).ne').mul cP).congr ?_,
      ((((e1.mul hK2).sub (e2.mul hK1)).div ((e1.mul hI2).sub (e2.mul hK1))
        (mieDen_pos (medium_val hmd hd hk).2 (medium_val hm hp hk).2 hI hK).ne').mul cP).congr ?_, hln.congr ?_⟩
    · exact e.mono fun x hx => (congrArg Mie.TE hx).symm
    · exact e.mono fun x hx => (congrArg Mie.TM hx).symm
    · exact e.mono fun x hx => (congrArg Mie.ln hx).symm

/-! ## Translation -/

theorem innerRow_contAt {md : Material} (hmd : md.cls ≠ .pec) (hd : md.Physical) {L k : ℝ} (hL : 0 < L) (hk : 0 < k) (N p : ℕ) :
    ContinuousAt (fun k => (innerRow (nLV md L k) N).getD p 0) k := by
  have e : ∀ k, (innerRow (nLV md L k) N).getD p 0 = if p < N + 1 then Real.log (sphI p (nLV md L k)) else 0 := by
    intro k
    split_ifs with h
    · exact innerRow_get (by omega)
    · unfold innerRow
      rw [List.getD_eq_getElem?_getD, List.getElem?_map, List.getElem?_eq_none (by simpa using h)]; rfl
  simp only [e]
  split_ifs with h
  · have hx := nLV_pos hmd hd hL hk
    have : ContinuousAt (fun k => sphI p (nLV md L k)) k := ContinuousAt.comp (f := nLV md L) (g := sphI p) (sphI_contAt p hx) (nLV_contAt hmd hd L hk)
    exact this.log (sphI_pos p hx).ne'
  · exact continuousAt_const

theorem vVal_contAt_of {ext : Bool} {x : ℝ → ℝ} {bes : ℝ → List ℝ} {k : ℝ} (hx : ContinuousAt x k) (hb : ∀ p, ContinuousAt (fun k => (bes k).getD p 0) k)
    (m : ℤ) (l1 l2 : ℕ) :
    ContinuousAt (fun k => (vVal ext m (x k) (bes k) l1 l2).EEab) k ∧
    ContinuousAt (fun k => (vVal ext m (x k) (bes k) l1 l2).EEba) k ∧
    ContinuousAt (fun k => (vVal ext m (x k) (bes k) l1 l2).EMab) k ∧
    ContinuousAt (fun k => (vVal ext m (x k) (bes k) l1 l2).EMba) k ∧
    ContinuousAt (fun k => (vVal ext m (x k) (bes k) l1 l2).sk) k := by
  have hn : ContinuousAt (fun k => besNorm ext (bes k) l1 l2) k := hb _
  have hc : ∀ i, ContinuousAt (fun k => vCommon ext m (bes k) l1 l2 i) k := by
    intro i
    unfold vCommon
    exact ((Real.continuous_exp.continuousAt.comp ((hb _).sub hn)).mul continuousAt_const).mul continuousAt_const
  unfold vVal
  simp only
  refine ⟨?_, ?_, ?_, ?_, hn⟩
  · exact tendsto_finsetSum _ fun i _ => (continuousAt_const.mul (hc i))
  · exact tendsto_finsetSum _ fun i _ => ((continuousAt_const.mul (hc i)).mul continuousAt_const)
  · exact tendsto_finsetSum _ fun i _ => ((continuousAt_const.mul hx).mul (hc i))
  · exact tendsto_finsetSum _ fun i _ => (((continuousAt_const.mul hx).mul (hc i)).neg.mul continuousAt_const)

/-! ## Round trips -/

/-- Round-trip operator of one `m` as a function of the wavenumber. -/
noncomputable def rtCav (P : PairIn) (m : ℕ) (k : ℝ) : Matrix (Fin (P.lmax + 1 - transLmin m) ⊕ Fin (P.lmax + 1 - transLmin m))
    (Fin (P.lmax + 1 - transLmin m) ⊕ Fin (P.lmax + 1 - transLmin m)) ℝ :=
  let V := fun (i : Fin (P.lmax + 1 - transLmin m)) (s : Fin (P.lssmax + 1 - transLmin m)) =>
    vVal false m (nLV P.mat3 P.L k) (innerRow (nLV P.mat3 P.L k) (P.lmax + P.lssmax + 1)) (transLmin m + i.1) (transLmin m + s.1)
  let A := fun (i : Fin (P.lmax + 1 - transLmin m)) => mieV P.mat1 P.mat3 P.r1 (transLmin m + i.1) k
  let B := fun (s : Fin (P.lssmax + 1 - transLmin m)) => mieIntV P.mat3 P.mat2 P.r2 (transLmin m + s.1) k
  roundTrip (fun i => (A i).TE * Real.exp (A i).ln) (fun i => (A i).TM * Real.exp (A i).ln)
    (fun s => (B s).TE * Real.exp (B s).ln) (fun s => (B s).TM * Real.exp (B s).ln)
    (of fun i s => (V i s).EEab * Real.exp (V i s).sk) (of fun i s => (V i s).EMab * Real.exp (V i s).sk)
    (of fun i s => (V i s).EEba * Real.exp (V i s).sk) (of fun i s => (V i s).EMba * Real.exp (V i s).sk)

section
variable {P : PairIn} {k : ℝ}

theorem CavOK.r2_pos (h : CavOK P) : 0 < P.r2 := by linarith [h.inside, h.h1, h.hL]

theorem CavOK.rtCav_contAt (h : CavOK P) (m : ℕ) (hk : 0 < k) : ContinuousAt (fun k => (1 - rtCav P m k).det) k := by
  have hl : ∀ i : ℕ, 1 ≤ transLmin (m : ℤ) + i := fun i => by unfold transLmin; omega
  have ca := fun i : ℕ => mieV_contAt (m := P.mat1) h.m3.cls h.m1.phys h.m3.phys h.h1 (hl i) hk
  have cb := fun i : ℕ => mieIntV_contAt (m := P.mat2) h.m3.cls h.m2.phys h.m3.phys h.r2_pos (hl i) hk
  have cv := fun i s : ℕ => vVal_contAt_of (ext := false) (nLV_contAt h.m3.cls h.m3.phys P.L hk)
    (innerRow_contAt h.m3.cls h.m3.phys h.hL hk (P.lmax + P.lssmax + 1)) m (transLmin (m : ℤ) + i) (transLmin (m : ℤ) + s)
  have ce : ∀ {f : ℝ → ℝ}, ContinuousAt f k → ContinuousAt (fun k => Real.exp (f k)) k := fun h => Real.continuous_exp.continuousAt.comp h
  refine roundTrip_contAt (fun i => ?_) (fun i => ?_) (fun i => ?_) (fun i => ?_) (fun i s => ?_) (fun i s => ?_) (fun i s => ?_) (fun i s => ?_)
  · exact (ca i.1).1.mul (ce (ca i.1).2.2)
  · exact (ca i.1).2.1.mul (ce (ca i.1).2.2)
  · exact (cb i.1).1.mul (ce (cb i.1).2.2)
  · exact (cb i.1).2.1.mul (ce (cb i.1).2.2)
  · exact (cv i.1 s.1).1.mul (ce (cv i.1 s.1).2.2.2.2)
  · exact (cv i.1 s.1).2.2.1.mul (ce (cv i.1 s.1).2.2.2.2)
  · exact (cv i.1 s.1).2.1.mul (ce (cv i.1 s.1).2.2.2.2)
  · exact (cv i.1 s.1).2.2.2.1.mul (ce (cv i.1 s.1).2.2.2.2)

/-- It is the round-trip matrix assembled by the code. -/
theorem CavOK.same_rtCav (h : CavOK P) (hk : 0 < k) {w : WaveIn} (hw : geoWave exactBes P k = .ok w) {m : ℕ} {B : Blocks (P.lmax + 1 - transLmin m)}
    (hB : blockmatricesAt P.lmax P.lssmax m P.ext w.nL w.bes w.a w.b = .ok B) : (1 - B.full).det = (1 - rtCav P m k).det := by
  have hl : ∀ i : ℕ, 1 ≤ transLmin (m : ℤ) + i := fun i => by unfold transLmin; omega
  obtain ⟨a, ha⟩ := mieCoef_exists h.m1.phys h.m3.phys h.m3.cls hk h.h1
  obtain ⟨b, hb⟩ := wallCoef_exists h.m2.phys h.m3.phys h.m3.cls hk h.r2_pos
  have hmed := (medium_val h.m3.cls h.m3.phys hk).1
  obtain ⟨c1, h1, g1⟩ := mieTable_ok ha P.lmax
  obtain ⟨c2, h2, g2⟩ := mieTableInt_ok hb P.lssmax
  unfold geoWave at hw
  rw [h.ext] at hw hB
  simp only [Bool.false_eq_true, not_false_eq_true, if_true] at hw
  rw [h1, ok_bind, h2, ok_bind, medium_eps hmed, ok_bind, transRow_int, ok_bind] at hw
  injection hw with hw
  subst hw
  simp only at hB
  rw [blockmatricesAt_congr g1 g2] at hB
  unfold blockmatricesAt roundTripElements at hB
  rw [transAb_ok _ _ _ _ _ (by simp [innerRow])] at hB
  simp only [ok_bind] at hB
  have := C11_blockmatrices_operator hB
  have := this.det
  unfold Blocks.full rtCav
  simp only [fun i : ℕ => mieV_val (ha _ (hl i)), fun i : ℕ => mieIntV_val (hb _ (hl i))]
  exact this

theorem CavOK.lnGeo_rt (h : CavOK P) (hk : 0 < k) {m : ℕ} (hm : m ≤ P.lmax) : lnGeo P m k = Real.log (1 - rtCav P m k).det ∧ 0 < (1 - rtCav P m k).det := by
  obtain ⟨w, hw, hB⟩ := C120_positive h hk
  obtain ⟨B, h1, h2, h3, -⟩ := hB m hm
  rw [h3, ← h.same_rtCav hk hw h1]
  exact ⟨rfl, h2⟩

theorem CavOK.lnGeo_contAt (h : CavOK P) (hk : 0 < k) {m : ℕ} (hm : m ≤ P.lmax) : ContinuousAt (lnGeo P m) k := by
  refine ((h.rtCav_contAt m hk).log (h.lnGeo_rt hk hm).2.ne').congr ?_
  filter_upwards [eventually_gt_nhds hk] with x hx
  exact (h.lnGeo_rt hx hm).1.symm

/-! ## One wavenumber -/

/-- Value of `mSumme` at one wavenumber (zero for non-positive ones). -/
noncomputable def cavVal (P : PairIn) (k : ℝ) : ℝ :=
  loop1 P.precision (fun m => if 0 < k then lnGeo P m k else 0) P.lmax 1 (if 0 < k then lnGeo P 0 k else 0)

theorem CavOK.vals_eq (h : CavOK P) {ks : List ℝ} (hne : ks ≠ []) (hk : ∀ k ∈ ks, 0 < k) :
    geoVals exactBes P ks = (mSummeNonzero P.lmax P.precision fun m => .ok fun i : Fin ks.length => lnGeo P m (ks.get i)) >>= fun r => .ok (List.ofFn r) := by
  unfold geoVals
  refine valsOf_eq (u := fun m k => lnGeo P m k) hne fun k hkm => ?_
  obtain ⟨w, hw, hB⟩ := C120_positive h (hk k hkm)
  refine ⟨w, hw, fun m hm => ?_⟩
  obtain ⟨B, h3, h4, h5, -⟩ := hB m hm
  exact ⟨B, h3, h4, h5⟩

theorem CavOK.val_ok (h : CavOK P) (hk : 0 < k) : geoVals exactBes P [k] = .ok [cavVal P k] := by
  rw [h.vals_eq (by simp) (by simpa using hk)]
  have e : ∀ i : Fin [k].length, [k].get i = k := fun i => by
    have : i = (0 : Fin 1) := Subsingleton.elim (α := Fin 1) _ _
    rw [this]; rfl
  simp only [e]
  unfold mSummeNonzero
  rw [ok_bind]
  have := mLoop_one P.precision (fun m => lnGeo P m k) P.lmax 1 (lnGeo P 0 k)
  unfold cavVal
  simp only [if_pos hk]
  erw [this]
  rfl

theorem CavOK.val_measurable (h : CavOK P) : Measurable (cavVal P) := by
  have hu : ∀ m, Measurable fun k => if m ≤ P.lmax then (if 0 < k then lnGeo P m k else 0) else 0 := by
    intro m
    split_ifs with hm
    · have hc : ContinuousOn (lnGeo P m) (Ioi 0) := fun k hk => (h.lnGeo_contAt hk hm).continuousWithinAt
      classical
      have := hc.measurable_piecewise (g := fun _ => (0 : ℝ)) continuousOn_const measurableSet_Ioi
      convert this using 2
      unfold Set.piecewise
      congr
    · exact measurable_const
  have := loop1_measurable P.precision hu P.lmax 1 (hu 0)
  refine (congrArg Measurable ?_).mp this
  funext k
  unfold cavVal
  rw [if_pos (Nat.zero_le _)]
  exact loop1_congr fun m hm => by rw [if_pos hm]

/-- Bound on the value at one wavenumber. -/
noncomputable def cavExp (P : PairIn) (k : ℝ) : ℝ := 18 / (1 - cavRatio P) ^ 3 * Real.exp (-(k * cavGap P))

theorem cavExp_pos (h : CavOK P) (k : ℝ) : 0 < cavExp P k :=
  mul_pos (div_pos (by norm_num) (pow_pos (sub_pos.mpr h.ratio.2) 3)) (Real.exp_pos _)

theorem CavOK.val_sum (h : CavOK P) (hk : 0 < k) : ∃ M ≤ P.lmax, cavVal P k = lnGeo P 0 k + 2 * ∑ m ∈ Finset.Icc 1 M, lnGeo P m k := by
  obtain ⟨M, h1, h2, -⟩ := C120_mSumme h (ks := [k]) (by simp) (by simpa using hk)
  rw [h.val_ok hk] at h2
  injection h2 with h2
  simp only [List.map_cons, List.map_nil, List.cons.injEq, and_true] at h2
  exact ⟨M, h1, h2⟩

theorem CavOK.val_bound (h : CavOK P) (hk : 0 < k) : |cavVal P k| ≤ cavExp P k ∧
    ∀ σa σb, DenseSign P.mat1 P.mat3 k σa → DenseSign P.mat2 P.mat3 k σb → (σa = σb → cavVal P k ≤ 0) ∧ (σa ≠ σb → 0 ≤ cavVal P k) := by
  obtain ⟨M, -, h2, h3⟩ := C120_mSumme h (ks := [k]) (by simp) (by simpa using hk)
  rw [h.val_ok hk] at h2
  injection h2 with h2
  simp only [List.map_cons, List.map_nil, List.cons.injEq, and_true] at h2
  obtain ⟨b1, -, b3⟩ := h3 k (by simp)
  rw [← h2] at b1 b3
  refine ⟨b1.trans ?_, b3⟩
  have := (cavBound_le h hk).1
  have hq : 0 < 1 - cavRatio P := sub_pos.mpr h.ratio.2
  unfold cavExp
  calc 3 * cavBound P k / (1 - cavRatio P) ≤ 3 * (6 * Real.exp (-(k * cavGap P)) / (1 - cavRatio P) ^ 2) / (1 - cavRatio P) := by gcongr
    _ = _ := by field_simp; ring

theorem cavExp_integrable (h : CavOK P) (a : ℝ) : IntegrableOn (cavExp P) (Ioi a) := by
  have hf : cavExp P = fun k => 18 / (1 - cavRatio P) ^ 3 * Real.exp (-cavGap P * k) := by
    funext k
    unfold cavExp
    rw [show -(k * cavGap P) = -cavGap P * k by ring]
  rw [hf]
  exact (integrableOn_exp_mul_Ioi (a := -cavGap P) (by linarith [h.gap_pos]) a).const_mul (18 / (1 - cavRatio P) ^ 3)

theorem cavExp_integral (h : CavOK P) (a : ℝ) : ∫ k in Ioi a, cavExp P k = 18 * Real.exp (-(a * cavGap P)) / (cavGap P * (1 - cavRatio P) ^ 3) := by
  have := integral_exp_mul_Ioi (a := -cavGap P) (by linarith [h.gap_pos]) a
  unfold cavExp
  rw [integral_const_mul]
  simp only [show ∀ k : ℝ, -(k * cavGap P) = -cavGap P * k from fun k => by ring]
  rw [this, neg_div_neg_eq, div_mul_div_comm, mul_comm (cavGap P)]

theorem CavOK.val_integrable (h : CavOK P) : IntegrableOn (cavVal P) (Ioi 0) := by
  refine Integrable.mono' (cavExp_integrable h 0) h.val_measurable.aestronglyMeasurable ?_
  exact (ae_restrict_iff' measurableSet_Ioi).mpr (.of_forall fun k hk => (h.val_bound hk).1)

/-! ## Complete sums -/

/-- The complete sum over `m`. -/
noncomputable def cavSum (P : PairIn) (k : ℝ) : ℝ := lnGeo P 0 k + 2 * ∑ m ∈ Finset.Icc 1 P.lmax, lnGeo P m k

theorem CavOK.sum_contAt (h : CavOK P) (hk : 0 < k) : ContinuousAt (cavSum P) k := by
  unfold cavSum
  refine (h.lnGeo_contAt hk (Nat.zero_le _)).add (continuousAt_const.mul ?_)
  exact tendsto_finsetSum _ fun m hm' => h.lnGeo_contAt hk (Finset.mem_Icc.mp hm').2

theorem mieIntV_none {m md : Material} (h : SphereMat m) (hd : MediumMat md) {r : ℝ} (hr : 0 < r) {l : ℕ} (hl : 1 ≤ l) (hk : 0 < k)
    (hc : ¬ HasContrast m md k) : (mieIntV md m r l k).TE = 0 ∧ (mieIntV md m r l k).TM = 0 := by
  unfold HasContrast at hc
  push Not at hc
  obtain ⟨hm, he⟩ := hc
  rw [mieIntV_diel hm hd.cls h.phys hd.phys hr hl hk, argV_none h.mag, argV_none hd.mag, he, muV_of_none h.mag, muV_of_none hd.mag]
  simp

/-- Without contrast of sphere or wall nothing is contributed. -/
theorem CavOK.lnGeo_zero (h : CavOK P) (hk : 0 < k) (hc : ¬ (HasContrast P.mat1 P.mat3 k ∧ HasContrast P.mat2 P.mat3 k)) {m : ℕ} (hm : m ≤ P.lmax) :
    lnGeo P m k = 0 := by
  have hl : ∀ i : ℕ, 1 ≤ transLmin (m : ℤ) + i := fun i => by unfold transLmin; omega
  have hz : rtCav P m k = 0 := by
    unfold rtCav
    simp only
    rw [roundTrip_blocks]
    rcases not_and_or.mp hc with hc | hc
    · simp only [fun i : ℕ => (mieV_none h.m1 h.m3 h.h1 (hl i) hk hc).1, fun i : ℕ => (mieV_none h.m1 h.m3 h.h1 (hl i) hk hc).2,
        zero_mul, add_zero, Finset.sum_const_zero]
      exact fromBlocks_zero
    · simp only [fun i : ℕ => (mieIntV_none h.m2 h.m3 h.r2_pos (hl i) hk hc).1, fun i : ℕ => (mieIntV_none h.m2 h.m3 h.r2_pos (hl i) hk hc).2,
        zero_mul, mul_zero, add_zero, Finset.sum_const_zero]
      exact fromBlocks_zero
  rw [(h.lnGeo_rt hk hm).1, hz, sub_zero, det_one, Real.log_one]

theorem CavOK.vals_sum (h : CavOK P) (hp : P.precision ≤ 0) {ks : List ℝ} (hne : ks ≠ []) (hk : ∀ k ∈ ks, 0 < k) :
    geoVals exactBes P ks = .ok (ks.map (cavSum P)) := by
  have hd : 0 < ks.length := List.length_pos_iff.mpr hne
  obtain ⟨M, h1, h2, h3, -⟩ := C13_mSumme hd (lmax := P.lmax) (precision := P.precision)
    (L := fun m => .ok fun i : Fin ks.length => lnGeo P m (ks.get i)) (v := fun m i => lnGeo P m (ks.get i)) fun _ _ => rfl
  rw [h.vals_eq hne hk, h1, ok_bind]
  have hfull : ∀ i, mSum (fun m (i : Fin ks.length) => lnGeo P m (ks.get i)) M i = cavSum P (ks.get i) := by
    intro i
    rcases h3 with h3 | rfl
    · rcases h3 with h3 | ⟨-, r, -, hr⟩
      · have hki := hk _ (List.get_mem ks i)
        have hall : ∀ m ≤ P.lmax, lnGeo P m (ks.get i) = 0 := by
          refine fun m hm => h.lnGeo_zero hki (fun hc => ?_) hm
          obtain ⟨σa, ea⟩ := dense_total h.m1 h.m3 hki
          obtain ⟨σb, eb⟩ := dense_total h.m2 h.m3 hki
          have hs := fun (m : ℕ) (hm' : m ≤ P.lmax) => C120_strict h hki hc.1 hc.2 ea eb hm'
          have hz := h3 i
          unfold mSum at hz
          simp only at hz
          by_cases hσ : σa = σb
          · have := (hs 0 (by omega)).1 hσ
            have := Finset.sum_nonpos fun m (hm' : m ∈ Finset.Icc 1 M) => ((hs m ((Finset.mem_Icc.mp hm').2.trans h2)).1 hσ).le
            linarith
          · have := (hs 0 (by omega)).2 hσ
            have := Finset.sum_nonneg fun m (hm' : m ∈ Finset.Icc 1 M) => ((hs m ((Finset.mem_Icc.mp hm').2.trans h2)).2 hσ).le
            linarith
        have e1 : ∀ N ≤ P.lmax, ∑ m ∈ Finset.Icc 1 N, lnGeo P m (ks.get i) = 0 := fun N hN =>
          Finset.sum_eq_zero fun m hm => hall m ((Finset.mem_Icc.mp hm).2.trans hN)
        unfold mSum cavSum
        simp only [e1 M h2, e1 P.lmax le_rfl]
      · exact absurd hr (not_lt.mpr (by have := abs_nonneg (|mSum (fun m (i : Fin ks.length) => lnGeo P m (ks.get i)) M r /
          mSum (fun m (i : Fin ks.length) => lnGeo P m (ks.get i)) (M - 1) r| - 1); linarith))
    · rfl
  congr 1
  refine List.ext_getElem (by simp) fun j hj1 hj2 => ?_
  rw [List.getElem_ofFn, List.getElem_map, hfull]
  rfl

theorem CavOK.val_eq_sum (h : CavOK P) (hp : P.precision ≤ 0) (hk : 0 < k) : cavVal P k = cavSum P k := by
  have h1 := h.val_ok hk
  rw [h.vals_sum hp (by simp) (by simpa using hk)] at h1
  injection h1 with h1
  simpa using h1.symm

end

end CasSph
