import Verif.Props.FreeEnergy

/-! # Continuity in the wavenumber -/

namespace CasSph

open Spec Filter Topology Matrix

theorem list_sum_contAt {α : Type} {f : ℝ → α → ℝ} {k : ℝ} {l : List α} (h : ∀ p ∈ l, ContinuousAt (fun k => f k p) k) :
    ContinuousAt (fun k => (l.map (f k)).sum) k :=
  list_sum_tendsto (F := 𝓝 k) (c := f k) h

theorem lorT_contAt {k : ℝ} (hk : 0 < k) {p : Osc} (hp : p.nonneg) : ContinuousAt (fun k => lorT k p) k := by
  unfold lorT
  refine ContinuousAt.div (f := fun _ => (p.wP / omegaNorm) ^ 2) (g := fun k => (p.wR / omegaNorm) ^ 2 + k ^ 2 + p.gamma / omegaNorm * k)
    continuousAt_const ?_ (lorDen_pos hk hp).ne'
  fun_prop

theorem smith_val {M : Material} (hc : M.cls = .smith) (hp : M.Physical) {p : Osc} (hpe : M.e = [p]) {k : ℝ} (hk : 0 < k) :
    M.epsV k = 1 + (p.wP / omegaNorm) ^ 2 / (k ^ 2 + p.gamma / omegaNorm * k) *
      (1 - 0.49 * (p.gamma / omegaNorm) / (k + p.gamma / omegaNorm)) := by
  have hg : 0 ≤ p.gamma / omegaNorm := div_nonneg (hp.osc p (by simp [hpe])).2 omegaNorm_pos.le
  have h1 : 0 < k ^ 2 + p.gamma / omegaNorm * k := by positivity
  have h2 : 0 < k + p.gamma / omegaNorm := by linarith
  have ht : Material.smithTerm k p = .ok ((p.wP / omegaNorm) ^ 2 / (k ^ 2 + p.gamma / omegaNorm * k) *
      (1 - 0.49 * (p.gamma / omegaNorm) / (k + p.gamma / omegaNorm))) := by
    unfold Material.smithTerm
    rw [cdiv_ok h1.ne', ok_bind, cdiv_ok h2.ne', ok_bind]
  have : M.epsilon k = .ok (1 + (p.wP / omegaNorm) ^ 2 / (k ^ 2 + p.gamma / omegaNorm * k) *
      (1 - 0.49 * (p.gamma / omegaNorm) / (k + p.gamma / omegaNorm))) := by
    unfold Material.epsilon; rw [hc]; simp only; rw [if_pos (hp.one hc), hpe]
    exact foldlM_smith ht
  unfold Material.epsV
  rw [this]

theorem epsV_contAt {M : Material} (hM : M.cls ≠ .pec) (hp : M.Physical) {k : ℝ} (hk : 0 < k) : ContinuousAt M.epsV k := by
  have hev : ∀ᶠ x in 𝓝 k, 0 < x := eventually_gt_nhds hk
  cases hc : M.cls with
  | pec => exact absurd hc hM
  | lorentz =>
    have h : ContinuousAt (fun k => 1 + (M.e.map (lorT k)).sum) k :=
      continuousAt_const.add (list_sum_contAt fun p hpm => lorT_contAt hk (hp.osc p hpm))
    refine h.congr ?_
    filter_upwards [hev] with x hx
    rw [epsV_lorentz hc hp hx]
  | smith =>
    obtain ⟨p, hpe⟩ := List.length_eq_one_iff.1 (hp.one hc)
    have hg : 0 ≤ p.gamma / omegaNorm := div_nonneg (hp.osc p (by simp [hpe])).2 omegaNorm_pos.le
    have h1 : k ^ 2 + p.gamma / omegaNorm * k ≠ 0 := by positivity
    have h2 : k + p.gamma / omegaNorm ≠ 0 := by positivity
    have h : ContinuousAt (fun k => 1 + (p.wP / omegaNorm) ^ 2 / (k ^ 2 + p.gamma / omegaNorm * k) *
        (1 - 0.49 * (p.gamma / omegaNorm) / (k + p.gamma / omegaNorm))) k := by
      refine continuousAt_const.add (ContinuousAt.mul (ContinuousAt.div continuousAt_const (by fun_prop) h1)
        (continuousAt_const.sub (ContinuousAt.div continuousAt_const (by fun_prop) h2)))
    refine h.congr ?_
    filter_upwards [hev] with x hx
    rw [smith_val hc hp hpe hx]

theorem muV_contAt {M : Material} (hp : M.Physical) {k : ℝ} (hk : 0 < k) : ContinuousAt M.muV k := by
  rcases M with ⟨cls, e, b⟩
  have key : ∀ x, b = some x → ContinuousAt (fun k => Spec.debyeMu k x.1 (x.2 / omegaNorm)) k := by
    intro x hx
    have hw : 0 < x.2 / omegaNorm := div_pos (hp.mag x hx).2 omegaNorm_pos
    have ht : 0 < k / (x.2 / omegaNorm) := div_pos hk hw
    unfold Spec.debyeMu
    exact continuousAt_const.add (ContinuousAt.div (f := fun _ => x.1 - 1) (g := fun k => 1 + k / (x.2 / omegaNorm))
      continuousAt_const (by fun_prop) (by positivity))
  unfold Material.muV
  cases cls <;> cases b with
  | none => exact continuousAt_const
  | some x => first | exact continuousAt_const | exact key x rfl

theorem sphI_contAt (l : ℕ) {x : ℝ} (hx : 0 < x) : ContinuousAt (sphI l) x := (sphI_deriv l hx).continuousAt
theorem sphK_contAt (l : ℕ) {x : ℝ} (hx : 0 < x) : ContinuousAt (sphK l) x := (sphK_deriv l hx).continuousAt

/-- argument of the Bessel functions of a sphere -/
noncomputable def argV (M : Material) (r k : ℝ) : ℝ := k * r * (⟨M.epsV k, M.muV k⟩ : Medium).n

theorem argV_pos {M : Material} (hM : M.cls ≠ .pec) (hp : M.Physical) {r k : ℝ} (hr : 0 < r) (hk : 0 < k) : 0 < argV M r k :=
  mul_pos (mul_pos hk hr) (Medium.n_pos ⟨(medium_val hM hp hk).2, muV_pos hp hk.le⟩)

theorem argV_contAt {M : Material} (hM : M.cls ≠ .pec) (hp : M.Physical) {r k : ℝ} (hk : 0 < k) : ContinuousAt (argV M r) k := by
  unfold argV Medium.n
  simp only
  exact (continuousAt_id.mul continuousAt_const).mul ((epsV_contAt hM hp hk).mul (muV_contAt hp hk)).sqrt

/-- The Mie coefficients as a function of the wavenumber. -/
noncomputable def mieV (m md : Material) (r : ℝ) (l : ℕ) (k : ℝ) : Mie :=
  match mie exactBes exactBes m md l k r with
  | .ok c => c
  | .error _ => ⟨0, 0, 0⟩

theorem mieV_val {m md : Material} {r : ℝ} {l : ℕ} {k : ℝ} {c : Mie} (h : mie exactBes exactBes m md l k r = .ok c) : mieV m md r l k = c := by
  unfold mieV; rw [h]

/-- Explicit formulas for the coefficients of a sphere that is not a perfect conductor. -/
theorem mieV_diel {m md : Material} (hm : m.cls ≠ .pec) (hmd : md.cls ≠ .pec) (hp : m.Physical) (hd : md.Physical) {r : ℝ} (hr : 0 < r) {l : ℕ}
    (hl : 1 ≤ l) {k : ℝ} (hk : 0 < k) : mieV m md r l k =
      ⟨(md.muV k * idX l (argV m r k) - m.muV k * idX l (argV md r k)) / (md.muV k * idX l (argV m r k) - m.muV k * kdX l (argV md r k)) *
          ((-1) ^ l * Real.pi * 0.5),
        (md.epsV k * idX l (argV m r k) - m.epsV k * idX l (argV md r k)) / (md.epsV k * idX l (argV m r k) - m.epsV k * kdX l (argV md r k)) *
          ((-1) ^ l * Real.pi * 0.5),
        Real.log (sphI l (argV md r k)) - Real.log (sphK l (argV md r k))⟩ := by
  have x1 := argV_pos hm hp hr hk
  have x2 := argV_pos hmd hd hr hk
  have i1 := idT_exact hl x1
  have i2 := idT_exact hl x2
  have k2 := kdT_exact (l := l) x2
  refine mieV_val ?_
  rw [mie_diel hm (medium_val hm hp hk).1 (medium_val hmd hd hk).1]
  rw [mieCore_ok ⟨(medium_val hm hp hk).2, muV_pos hp hk.le⟩ ⟨(medium_val hmd hd hk).2, muV_pos hd hk.le⟩]
  · unfold argV at *
    rw [i1, i2, k2]
    rfl
  · unfold argV at *
    rw [i1]; have := idX_gt hl x1; have : (0 : ℝ) ≤ l := by positivity
    linarith
  · unfold argV at *
    rw [k2]; exact kdX_neg hl x2

theorem mieV_pec {m md : Material} (hm : m.cls = .pec) (hmd : md.cls ≠ .pec) (hd : md.Physical) {r : ℝ} (hr : 0 < r) {l : ℕ}
    (hl : 1 ≤ l) {k : ℝ} (hk : 0 < k) : mieV m md r l k =
      ⟨(-1) ^ l * Real.pi * 0.5, (-1) ^ l * Real.pi * 0.5 * idX l (argV md r k) / kdX l (argV md r k),
        Real.log (sphI l (argV md r k)) - Real.log (sphK l (argV md r k))⟩ := by
  have x2 := argV_pos hmd hd hr hk
  have i2 := idT_exact hl x2
  have k2 := kdT_exact (l := l) x2
  refine mieV_val ?_
  rw [mie_pec hm (medium_val hmd hd hk).1, miePECCore_ok]
  · unfold argV at *
    rw [i2, k2]
    rfl
  · unfold argV at *
    rw [k2]; exact kdX_neg hl x2

/-- The three entries are continuous. -/
theorem mieV_contAt {m md : Material} (hmd : md.cls ≠ .pec) (hp : m.Physical) (hd : md.Physical) {r : ℝ} (hr : 0 < r) {l : ℕ}
    (hl : 1 ≤ l) {k : ℝ} (hk : 0 < k) :
    ContinuousAt (fun k => (mieV m md r l k).TE) k ∧ ContinuousAt (fun k => (mieV m md r l k).TM) k ∧
      ContinuousAt (fun k => (mieV m md r l k).ln) k := by
  have hev : ∀ᶠ x in 𝓝 k, 0 < x := eventually_gt_nhds hk
  have x2 := argV_pos hmd hd hr hk
  have c2 := argV_contAt hmd hd (r := r) hk
  have hI2 : ContinuousAt (fun k => idX l (argV md r k)) k := ContinuousAt.comp (g := idX l) (f := argV md r) (idX_cont hl x2) c2
  have hK2 : ContinuousAt (fun k => kdX l (argV md r k)) k := ContinuousAt.comp (g := kdX l) (f := argV md r) (kdX_cont l x2) c2
  have hln : ContinuousAt (fun k => Real.log (sphI l (argV md r k)) - Real.log (sphK l (argV md r k))) k := by
    have a1 : ContinuousAt (fun k => sphI l (argV md r k)) k := ContinuousAt.comp (g := sphI l) (f := argV md r) (sphI_contAt l x2) c2
    have a2 : ContinuousAt (fun k => sphK l (argV md r k)) k := ContinuousAt.comp (g := sphK l) (f := argV md r) (sphK_contAt l x2) c2
    exact (a1.log (sphI_pos l x2).ne').sub (a2.log (sphK_pos l x2).ne')
  by_cases hm : m.cls = .pec
  · have e : ∀ᶠ k in 𝓝 k, mieV m md r l k = _ := hev.mono fun x hx => mieV_pec hm hmd hd hr hl hx
    have cP : ContinuousAt (fun _ : ℝ => (-1 : ℝ) ^ l * Real.pi * 0.5) k := continuousAt_const
    refine ⟨cP.congr ?_, ((cP.mul hI2).div hK2 (kdX_neg hl x2).ne).congr ?_, hln.congr ?_⟩
    · exact e.mono fun x hx => (congrArg Mie.TE hx).symm
    · exact e.mono fun x hx => (congrArg Mie.TM hx).symm
    · exact e.mono fun x hx => (congrArg Mie.ln hx).symm
  · have x1 := argV_pos hm hp hr hk
    have c1 := argV_contAt hm hp (r := r) hk
    have hI1 : ContinuousAt (fun k => idX l (argV m r k)) k := ContinuousAt.comp (g := idX l) (f := argV m r) (idX_cont hl x1) c1
    have e : ∀ᶠ k in 𝓝 k, mieV m md r l k = _ := hev.mono fun x hx => mieV_diel hm hmd hp hd hr hl hx
    have hI : 0 < idX l (argV m r k) := by
      have := idX_gt hl x1; have : (0 : ℝ) ≤ l := by positivity
      linarith
    have hK := kdX_neg hl x2
    have m1 := muV_contAt hp hk
    have m2 := muV_contAt hd hk
    have e1 := epsV_contAt hm hp hk
    have e2 := epsV_contAt hmd hd hk
    have cP : ContinuousAt (fun _ : ℝ => (-1 : ℝ) ^ l * Real.pi * 0.5) k := continuousAt_const
    refine ⟨((((m2.mul hI1).sub (m1.mul hI2)).div ((m2.mul hI1).sub (m1.mul hK2))
        (mieDen_pos (muV_pos hp hk.le) (muV_pos hd hk.le) hI hK).ne').mul cP).congr ?_,
      ((((e2.mul hI1).sub (e1.mul hI2)).div ((e2.mul hI1).sub (e1.mul hK2))
        (mieDen_pos (medium_val hm hp hk).2 (medium_val hmd hd hk).2 hI hK).ne').mul cP).congr ?_, hln.congr ?_⟩
    · exact e.mono fun x hx => (congrArg Mie.TE hx).symm
    · exact e.mono fun x hx => (congrArg Mie.TM hx).symm
    · exact e.mono fun x hx => (congrArg Mie.ln hx).symm

/-- argument of the translation coefficients -/
noncomputable def nLV (md : Material) (L k : ℝ) : ℝ := k * L * Real.sqrt (md.epsV k)

theorem nLV_pos {md : Material} (hmd : md.cls ≠ .pec) (hd : md.Physical) {L k : ℝ} (hL : 0 < L) (hk : 0 < k) : 0 < nLV md L k :=
  mul_pos (mul_pos hk hL) (Real.sqrt_pos.mpr (medium_val hmd hd hk).2)

theorem nLV_contAt {md : Material} (hmd : md.cls ≠ .pec) (hd : md.Physical) (L : ℝ) {k : ℝ} (hk : 0 < k) : ContinuousAt (nLV md L) k := by
  unfold nLV
  exact (continuousAt_id.mul continuousAt_const).mul (epsV_contAt hmd hd hk).sqrt

theorem lnk1_contAt (p : ℕ) {x : ℝ} (hx : 0 < x) : ContinuousAt (fun x => lnk1 x p) x := by
  refine ((sphK_contAt p hx).log (sphK_pos p hx).ne').congr ?_
  filter_upwards [eventually_gt_nhds hx] with y hy
  rw [lnk1_eq hy]

/-- the row of Bessel functions -/
noncomputable def besV (md : Material) (L : ℝ) (N : ℕ) (k : ℝ) : List ℝ := (List.range N).map (lnk1 (nLV md L k))

theorem besV_contAt {md : Material} (hmd : md.cls ≠ .pec) (hd : md.Physical) {L k : ℝ} (hL : 0 < L) (hk : 0 < k) (N p : ℕ) :
    ContinuousAt (fun k => (besV md L N k).getD p 0) k := by
  have e : ∀ k, (besV md L N k).getD p 0 = if p < N then lnk1 (nLV md L k) p else 0 := by
    intro k
    unfold besV
    rw [List.getD_eq_getElem?_getD, List.getElem?_map]
    split_ifs with h
    · rw [List.getElem?_range h]; rfl
    · rw [List.getElem?_eq_none (by simpa using h)]; rfl
  simp only [e]
  split_ifs with h
  · exact ContinuousAt.comp (f := nLV md L) (g := fun x => lnk1 x p) (lnk1_contAt p (nLV_pos hmd hd hL hk)) (nLV_contAt hmd hd L hk)
  · exact continuousAt_const

theorem vVal_contAt {md : Material} (hmd : md.cls ≠ .pec) (hd : md.Physical) {L k : ℝ} (hL : 0 < L) (hk : 0 < k) (N : ℕ) (m : ℤ) (l1 l2 : ℕ) :
    ContinuousAt (fun k => (vVal true m (nLV md L k) (besV md L N k) l1 l2).EEab) k ∧
    ContinuousAt (fun k => (vVal true m (nLV md L k) (besV md L N k) l1 l2).EEba) k ∧
    ContinuousAt (fun k => (vVal true m (nLV md L k) (besV md L N k) l1 l2).EMab) k ∧
    ContinuousAt (fun k => (vVal true m (nLV md L k) (besV md L N k) l1 l2).EMba) k ∧
    ContinuousAt (fun k => (vVal true m (nLV md L k) (besV md L N k) l1 l2).sk) k := by
  have hn : ContinuousAt (fun k => besNorm true (besV md L N k) l1 l2) k := besV_contAt hmd hd hL hk N _
  have hc : ∀ i, ContinuousAt (fun k => vCommon true m (besV md L N k) l1 l2 i) k := by
    intro i
    unfold vCommon
    exact ((Real.continuous_exp.continuousAt.comp ((besV_contAt hmd hd hL hk N _).sub hn)).mul continuousAt_const).mul continuousAt_const
  have hx := nLV_contAt hmd hd L hk
  unfold vVal
  simp only
  refine ⟨?_, ?_, ?_, ?_, hn⟩
  · exact tendsto_finsetSum _ fun i _ => (continuousAt_const.mul (hc i))
  · exact tendsto_finsetSum _ fun i _ => ((continuousAt_const.mul (hc i)).mul continuousAt_const)
  · exact tendsto_finsetSum _ fun i _ => ((continuousAt_const.mul hx).mul (hc i))
  · exact tendsto_finsetSum _ fun i _ => (((continuousAt_const.mul hx).mul (hc i)).neg.mul continuousAt_const)

/-- `det(1 - M)` of a continuous round-trip operator is continuous. -/
theorem roundTrip_contAt {n p : ℕ} {k : ℝ} {aE aM : ℝ → Fin n → ℝ} {bE bM : ℝ → Fin p → ℝ} {fE fX gE gX : ℝ → Matrix (Fin n) (Fin p) ℝ}
    (haE : ∀ i, ContinuousAt (fun k => aE k i) k) (haM : ∀ i, ContinuousAt (fun k => aM k i) k)
    (hbE : ∀ i, ContinuousAt (fun k => bE k i) k) (hbM : ∀ i, ContinuousAt (fun k => bM k i) k)
    (hfE : ∀ i s, ContinuousAt (fun k => fE k i s) k) (hfX : ∀ i s, ContinuousAt (fun k => fX k i s) k)
    (hgE : ∀ i s, ContinuousAt (fun k => gE k i s) k) (hgX : ∀ i s, ContinuousAt (fun k => gX k i s) k) :
    ContinuousAt (fun k => (1 - roundTrip (aE k) (aM k) (bE k) (bM k) (fE k) (fX k) (gE k) (gX k)).det) k := by
  have hM : ContinuousAt (fun k => roundTrip (aE k) (aM k) (bE k) (bM k) (fE k) (fX k) (gE k) (gX k)) k := by
    refine tendsto_pi_nhds.mpr fun x => tendsto_pi_nhds.mpr fun y => ?_
    rcases x with i | i <;> rcases y with j | j <;>
      simp only [roundTrip_blocks, fromBlocks_apply₁₁, fromBlocks_apply₁₂, fromBlocks_apply₂₁, fromBlocks_apply₂₂, of_apply] <;>
      refine tendsto_finsetSum _ fun s _ => ?_
    · exact ((((haE i).mul (hfE i s)).mul (hbE s)).mul (hgE j s)).add ((((haE i).mul (hfX i s)).mul (hbM s)).mul (hgX j s))
    · exact ((((haE i).mul (hfE i s)).mul (hbE s)).mul (hgX j s)).add ((((haE i).mul (hfX i s)).mul (hbM s)).mul (hgE j s))
    · exact ((((haM i).mul (hfX i s)).mul (hbE s)).mul (hgE j s)).add ((((haM i).mul (hfE i s)).mul (hbM s)).mul (hgX j s))
    · exact ((((haM i).mul (hfX i s)).mul (hbE s)).mul (hgX j s)).add ((((haM i).mul (hfE i s)).mul (hbM s)).mul (hgE j s))
  have hdet : Continuous fun M : Matrix (Fin n ⊕ Fin n) (Fin n ⊕ Fin n) ℝ => (1 - M).det :=
    (continuous_const.sub continuous_id).matrix_det
  exact ContinuousAt.comp (f := fun k => roundTrip (aE k) (aM k) (bE k) (bM k) (fE k) (fX k) (gE k) (gX k))
    (g := fun M : Matrix (Fin n ⊕ Fin n) (Fin n ⊕ Fin n) ℝ => (1 - M).det) hdet.continuousAt hM

/-- Round-trip operator of one `m` as a function of the wavenumber. -/
noncomputable def rtV (mA mB md : Material) (r1 r2 L : ℝ) (lmax lssmax m : ℕ) (k : ℝ) :
    Matrix (Fin (lmax + 1 - transLmin m) ⊕ Fin (lmax + 1 - transLmin m)) (Fin (lmax + 1 - transLmin m) ⊕ Fin (lmax + 1 - transLmin m)) ℝ :=
  let V := fun (i : Fin (lmax + 1 - transLmin m)) (s : Fin (lssmax + 1 - transLmin m)) =>
    vVal true m (nLV md L k) (besV md L (lmax + lssmax + 1 + 1) k) (transLmin m + i.1) (transLmin m + s.1)
  let A := fun (i : Fin (lmax + 1 - transLmin m)) => mieV mA md r1 (transLmin m + i.1) k
  let B := fun (s : Fin (lssmax + 1 - transLmin m)) => mieV mB md r2 (transLmin m + s.1) k
  roundTrip (fun i => (A i).TE * Real.exp (A i).ln) (fun i => (A i).TM * Real.exp (A i).ln)
    (fun s => (B s).TE * Real.exp (B s).ln) (fun s => (B s).TM * Real.exp (B s).ln)
    (of fun i s => (V i s).EEab * Real.exp (V i s).sk) (of fun i s => (V i s).EMab * Real.exp (V i s).sk)
    (of fun i s => (V i s).EEba * Real.exp (V i s).sk) (of fun i s => (V i s).EMba * Real.exp (V i s).sk)

theorem rtV_contAt {mA mB md : Material} (hmd : md.cls ≠ .pec) (hA : mA.Physical) (hB : mB.Physical) (hd : md.Physical) {r1 r2 L : ℝ}
    (h1 : 0 < r1) (h2 : 0 < r2) (hL : 0 < L) (lmax lssmax m : ℕ) {k : ℝ} (hk : 0 < k) :
    ContinuousAt (fun k => (1 - rtV mA mB md r1 r2 L lmax lssmax m k).det) k := by
  have hl : ∀ i : ℕ, 1 ≤ transLmin (m : ℤ) + i := fun i => by unfold transLmin; omega
  have ca := fun i : ℕ => mieV_contAt (m := mA) hmd hA hd h1 (hl i) hk
  have cb := fun i : ℕ => mieV_contAt (m := mB) hmd hB hd h2 (hl i) hk
  have cv := fun i s : ℕ => vVal_contAt hmd hd hL hk (lmax + lssmax + 1 + 1) m (transLmin (m : ℤ) + i) (transLmin (m : ℤ) + s)
  have ce : ∀ {f : ℝ → ℝ}, ContinuousAt f k → ContinuousAt (fun k => Real.exp (f k)) k := fun h => Real.continuous_exp.continuousAt.comp h
  refine roundTrip_contAt (fun i => ?_) (fun i => ?_) (fun i => ?_) (fun i => ?_) (fun i s => ?_) (fun i s => ?_) (fun i s => ?_) (fun i s => ?_)
  · exact (ca i.1).1.mul (ce (ca i.1).2.2)
  · exact (ca i.1).2.1.mul (ce (ca i.1).2.2)
  · exact (cb i.1).1.mul (ce (cb i.1).2.2)
  · exact (cb i.1).2.1.mul (ce (cb i.1).2.2)
  · exact (cv i.1 s.1).1.mul (ce (cv i.1 s.1).2.2.2.2)
  · exact (cv i.1 s.1).2.2.1.mul (ce (cv i.1 s.1).2.2.2.2)
  · exact (cv i.1 s.1).2.1.mul (ce (cv i.1 s.1).2.2.2.2)
  · exact (cv i.1 s.1).2.2.2.1.mul (ce (cv i.1 s.1).2.2.2.2)

/-- It is the round-trip matrix assembled by the code. -/
theorem BlocksAt.same_rtV {mA mB md : Material} (hmd : md.cls ≠ .pec) (hd : md.Physical) {r1 r2 L k : ℝ} {lmax lssmax m : ℕ} {a b : MieCoef}
    (hk : 0 < k) (ha : ∀ l, 1 ≤ l → mie exactBes exactBes mA md l k r1 = .ok ⟨a.TE l, a.TM l, a.ln l⟩)
    (hb : ∀ l, 1 ≤ l → mie exactBes exactBes mB md l k r2 = .ok ⟨b.TE l, b.TM l, b.ln l⟩) {B : Blocks (lmax + 1 - transLmin m)}
    (h : BlocksAt md L k lmax lssmax m a b B) : SameRoundTrip B.full (rtV mA mB md r1 r2 L lmax lssmax m k) := by
  have hl : ∀ i : ℕ, 1 ≤ transLmin (m : ℤ) + i := fun i => by unfold transLmin; omega
  obtain ⟨e, bes, he, hbes, hblk⟩ := h
  rw [medium_eps (medium_val hmd hd hk).1] at he
  injection he with he
  simp only at he
  subst he
  rw [trans_row_ext] at hbes
  have hbes : bes = besV md L (lmax + lssmax + 1 + 1) k := by
    injection hbes with hb; injection hb with hb; exact hb.symm
  subst hbes
  unfold blockmatricesAt roundTripElements at hblk
  rw [transAb_ok _ _ _ _ _ (by simp [besV])] at hblk
  simp only [ok_bind] at hblk
  have := C11_blockmatrices_operator hblk
  unfold Blocks.full rtV
  simp only [fun i : ℕ => mieV_val (ha _ (hl i)), fun i : ℕ => mieV_val (hb _ (hl i))]
  exact this

end CasSph
