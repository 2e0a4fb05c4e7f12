import Verif.Lemmas.CavityStronger
import Verif.Props.CavityCut
import Verif.Props.Stronger

/-! # C128: a sphere inside a cavity – contrast, radii and distance of the centres -/

namespace CasSph

open Spec Filter Topology MeasureTheory Set

section
variable {P P' : PairIn} {frac : ℝ → ℝ → ℝ} {lnK : ℝ → ℕ → ℝ} {q : Quad} {deltaT : ℝ} {nmax : ℤ}

theorem cavSum_stronger_contrast (h : CavOK P) (h' : CavOK P') (hs : CavStronger P P') (hprec : P.precision ≤ 0) {k : ℝ} (hk : 0 < k) :
    (P'.Same → |cavSum P k| ≤ -cavSum P' k) ∧ (P.Opposite → P'.Opposite → P'.L = P.L → 0 ≤ cavSum P k ∧ cavSum P k ≤ cavSum P' k) := by
  refine ⟨fun hc' => ?_, fun hc hc' hL => ⟨(h.sum_sign hprec hk).2 hc, ?_⟩⟩
  · obtain ⟨σa, ea⟩ := dense_total h.m1 h.m3 hk
    obtain ⟨σb, eb⟩ := dense_total h.m2 h.m3 hk
    obtain ⟨σ, e1, e2⟩ := hc' k hk
    exact (cavSum_stronger h h' hs hk ea eb e1 e2).2 (sign_sq e1.sign).1
  · obtain ⟨σ, e1, e2⟩ := hc k hk
    obtain ⟨σ', e1', e2'⟩ := hc' k hk
    exact (cavSum_stronger h h' hs hk e1 e2 e1' e2').1 (sign_sq e1.sign).2 (sign_sq e1'.sign).2 hL

/-- **C128, `mSumme`.** `P'` is the arrangement `P` with a larger sphere, a smaller cavity, a larger distance of the centres or materials of more contrast.
If sphere and wall of `P'` are both denser or both less dense than the filling then `P'` attracts at least as strongly as `P` attracts or repels; if in both
arrangements exactly one of them is denser and the centres have the same distance then `P'` repels at least as strongly. -/
theorem C128_mSumme (h : CavOK P) (h' : CavOK P') (hs : CavStronger P P') (hprec : P.precision ≤ 0) (hprec' : P'.precision ≤ 0) {ks : List ℝ}
    (hne : ks ≠ []) (hk : ∀ k ∈ ks, 0 < k) :
    ∃ vs ws, geoVals exactBes P ks = .ok vs ∧ geoVals exactBes P' ks = .ok ws ∧ vs.length = ks.length ∧ ws.length = ks.length ∧
      ∀ (j : ℕ) (x y : ℝ), vs[j]? = some x → ws[j]? = some y →
        (P'.Same → |x| ≤ -y) ∧ (P.Opposite → P'.Opposite → P'.L = P.L → 0 ≤ x ∧ x ≤ y) := by
  refine ⟨_, _, h.vals_sum hprec hne hk, h'.vals_sum hprec' hne hk, by simp, by simp, fun j x y hx hy => ?_⟩
  rw [List.getElem?_map, Option.map_eq_some_iff] at hx hy
  obtain ⟨k, hj, rfl⟩ := hx
  obtain ⟨k', hj', rfl⟩ := hy
  rw [hj] at hj'
  injection hj' with e
  subst e
  exact cavSum_stronger_contrast h h' hs hprec (hk k (List.mem_of_getElem? hj))

/-- **C128, `free_energy`.** -/
theorem C128_free_energy {p p' : FTParams} (h : CavOK P) (h' : CavOK P') (hs : CavStronger P P') (hprec : P.precision ≤ 0) (hprec' : P'.precision ≤ 0)
    (hg : p.geo = geoGeo exactBes frac lnK P) (hp' : p' = { p with geo := geoGeo exactBes frac lnK P' }) (hp : p.nprocs.isZero)
    (han : p.analyticN0 = false) (hT : 0 < p.deltaT) (hN : 1 ≤ p.nmax) :
    ∃ F F' : List ℝ, (freeEnergy p FT.fresh).1 = .ok F ∧ (freeEnergy p' FT.fresh).1 = .ok F' ∧ F.length = p.maxstep.toNat ∧ F'.length = p.maxstep.toNat ∧
      ∀ (i : ℕ) (x y : ℝ), F[i]? = some x → F'[i]? = some y →
        (P'.Same → |x| ≤ -y) ∧ (P.Opposite → P'.Opposite → P'.L = P.L → 0 ≤ x ∧ x ≤ y) := by
  obtain ⟨F, hF, hl, hv⟩ := cav_free_values (p := p) h hprec hg hp han hT hN
  subst hp'
  obtain ⟨F', hF', hl', hv'⟩ := cav_free_values (p := { p with geo := geoGeo exactBes frac lnK P' }) h' hprec' rfl hp han hT hN
  refine ⟨F, F', hF, hF', hl, hl', fun i x y hx hy => ?_⟩
  have hi : i < F.length := by
    by_contra hh
    rw [List.getElem?_eq_none (by omega)] at hx
    cases hx
  rw [hv i hi] at hx
  rw [hv' i (by simp only at hl'; omega)] at hy
  injection hx with hx
  injection hy with hy
  simp only at hy
  subst hx hy
  have hpos : (0 : ℝ) < (i + 1 : ℕ) * p.deltaT := by positivity
  have hk : ∀ j : ℕ, 0 < p.deltaT * ((j + 1) * (i + 1) : ℕ) := fun j => by positivity
  have z := cavSum_stronger_contrast h h' hs hprec (k := 1e-10) (by norm_num)
  have key := fun j : ℕ => cavSum_stronger_contrast h h' hs hprec (hk j)
  refine ⟨fun hc' => ?_, fun hc hc' hL => ?_⟩
  · rw [abs_mul, abs_of_pos hpos, ← mul_neg]
    refine mul_le_mul_of_nonneg_left ?_ hpos.le
    have a := z.1 hc'
    have b := Finset.sum_le_sum fun j (_ : j ∈ Finset.range (p.nmax.toNat / (i + 1))) => (key j).1 hc'
    have c := Finset.abs_sum_le_sum_abs (fun j : ℕ => cavSum P (p.deltaT * ((j + 1) * (i + 1) : ℕ))) (Finset.range (p.nmax.toNat / (i + 1)))
    rw [Finset.sum_neg_distrib] at b
    refine (abs_add_le _ _).trans ?_
    rw [abs_mul, abs_of_pos (by norm_num : (0 : ℝ) < 0.5)]
    linarith
  · obtain ⟨a1, a2⟩ := z.2 hc hc' hL
    have b := Finset.sum_le_sum fun j (_ : j ∈ Finset.range (p.nmax.toNat / (i + 1))) => ((key j).2 hc hc' hL).2
    have c := Finset.sum_nonneg fun j (_ : j ∈ Finset.range (p.nmax.toNat / (i + 1))) => ((key j).2 hc hc' hL).1
    exact ⟨mul_nonneg hpos.le (by linarith), mul_le_mul_of_nonneg_left (by linarith) hpos.le⟩

/-- **C128, `e0`.** -/
theorem C128_zero_temperature (h : CavOK P) (h' : CavOK P') (hs : CavStronger P P') (hprec : P.precision ≤ 0) (hprec' : P'.precision ≤ 0)
    (hq : q.Exact) {a : ℝ} (ha : 0 ≤ a) {b : Upper} (hb : ∀ x, b = .num x → a ≤ x) (hb' : b = .none → a ≤ nmax * deltaT) :
    ∃ E E', e0 q (geoAt exactBes frac lnK P) deltaT nmax a b = .ok E ∧ e0 q (geoAt exactBes frac lnK P') deltaT nmax a b = .ok E' ∧
      (P'.Same → |E| ≤ -E') ∧ (P.Opposite → P'.Opposite → P'.L = P.L → 0 ≤ E ∧ E ≤ E') := by
  obtain ⟨s1, s2⟩ := e0Range_sub (deltaT := deltaT) (nmax := nmax) a b
  have hpos : ∀ k ∈ e0Range deltaT nmax a b, 0 < k := fun k hk => ha.trans_lt (s1 hk)
  have i1 := h.val_integrable.mono_set hpos
  have i2 := h'.val_integrable.mono_set hpos
  have hm : ∀ k ∈ e0Range deltaT nmax a b, (P'.Same → |cavVal P k| ≤ -cavVal P' k) ∧
      (P.Opposite → P'.Opposite → P'.L = P.L → 0 ≤ cavVal P k ∧ cavVal P k ≤ cavVal P' k) := fun k hk => by
    rw [h.val_eq_sum hprec (hpos k hk), h'.val_eq_sum hprec' (hpos k hk)]
    exact cavSum_stronger_contrast h h' hs hprec (hpos k hk)
  refine ⟨_, _, cav_e0_value h hq ha hb hb', cav_e0_value h' hq ha hb hb', fun hc' => ?_, fun hc hc' hL => ⟨?_, ?_⟩⟩
  · rw [← integral_neg]
    exact (abs_integral_le_integral_abs).trans (setIntegral_mono_on i1.abs i2.neg s2 fun k hk => (hm k hk).1 hc')
  · exact setIntegral_nonneg s2 fun k hk => ((hm k hk).2 hc hc' hL).1
  · exact setIntegral_mono_on i1 i2 s2 fun k hk => ((hm k hk).2 hc hc' hL).2

/-! ## Perfect conductors -/

theorem CavOK.metal (h : CavOK P) : CavOK P.metal := ⟨pec_sphere, pec_sphere, h.m3, h.h1, h.hL, h.inside, h.hl, h.hls⟩

theorem metal_same (P : PairIn) : P.metal.Same := fun _ _ => ⟨1, .inl ⟨rfl, .inl rfl⟩, .inl ⟨rfl, .inl rfl⟩⟩

/-- The wall is not less dense than the filling. -/
def PairIn.DenseWall (P : PairIn) : Prop := P.mat2.cls = .pec ∨ ∀ k, 0 < k → P.mat3.epsV k ≤ P.mat2.epsV k

theorem CavStronger.metal (hw : P.DenseWall) : CavStronger P P.metal :=
  ⟨rfl, rfl, rfl, le_rfl, le_rfl, le_rfl, fun _ _ => .inl rfl, fun k hk => .inl ⟨rfl, hw.imp id fun h => h k hk⟩⟩

/-- **C128.** If the wall is not less dense than the filling, then for every material of the sphere the free energy is in absolute value at most that of a
perfectly conducting sphere and wall, which attract each other. -/
theorem C128_perfect_conductors {p p' : FTParams} (h : CavOK P) (hw : P.DenseWall) (hprec : P.precision ≤ 0) (hg : p.geo = geoGeo exactBes frac lnK P)
    (hp' : p' = { p with geo := geoGeo exactBes frac lnK P.metal }) (hp : p.nprocs.isZero) (han : p.analyticN0 = false) (hT : 0 < p.deltaT)
    (hN : 1 ≤ p.nmax) :
    ∃ F F' : List ℝ, (freeEnergy p FT.fresh).1 = .ok F ∧ (freeEnergy p' FT.fresh).1 = .ok F' ∧ F.length = p.maxstep.toNat ∧ F'.length = p.maxstep.toNat ∧
      ∀ (i : ℕ) (x y : ℝ), F[i]? = some x → F'[i]? = some y → |x| ≤ -y := by
  obtain ⟨F, F', h1, h2, h3, h4, h5⟩ := C128_free_energy h h.metal (.metal hw) hprec hprec hg hp' hp han hT hN
  exact ⟨F, F', h1, h2, h3, h4, fun i x y hx hy => (h5 i x y hx hy).1 (metal_same P)⟩

/-- **C128.** Likewise at zero temperature. -/
theorem C128_perfect_conductors_zero (h : CavOK P) (hw : P.DenseWall) (hprec : P.precision ≤ 0) (hq : q.Exact) {a : ℝ} (ha : 0 ≤ a) {b : Upper}
    (hb : ∀ x, b = .num x → a ≤ x) (hb' : b = .none → a ≤ nmax * deltaT) :
    ∃ E E', e0 q (geoAt exactBes frac lnK P) deltaT nmax a b = .ok E ∧ e0 q (geoAt exactBes frac lnK P.metal) deltaT nmax a b = .ok E' ∧ |E| ≤ -E' := by
  obtain ⟨E, E', h1, h2, h3, -⟩ := C128_zero_temperature (frac := frac) (lnK := lnK) h h.metal (.metal hw) hprec hprec hq ha hb hb'
  exact ⟨E, E', h1, h2, h3 (metal_same P)⟩

/-! ## Radii and distance of the centres -/

/-- The same materials with other radii and another distance of the centres. -/
def PairIn.place (P : PairIn) (a b L : ℝ) : PairIn := { P with r1 := a, r2 := b, L := L }

theorem CavOK.place (h : CavOK P) {a b L : ℝ} (ha : 0 < a) (hL : 0 < L) (hs : L + a < b) : CavOK (P.place a b L) :=
  ⟨h.m1, h.m2, h.m3, ha, hL, hs, h.hl, h.hls⟩

theorem wallContrast_refl (m md : Material) (k : ℝ) : WallContrast m m md k := by
  by_cases hp : m.cls = .pec
  · exact .inl ⟨hp, .inl hp⟩
  · refine .inr ⟨hp, hp, ?_⟩
    rcases le_total (md.epsV k) (m.epsV k) with h | h
    · exact .inl ⟨h, le_rfl⟩
    · exact .inr ⟨le_rfl, h⟩

theorem CavStronger.place {a b L : ℝ} (ha : P.r1 ≤ a) (hb : b ≤ P.r2) (hL : P.L ≤ L) : CavStronger P (P.place a b L) :=
  ⟨rfl, rfl, rfl, hL, ha, hb, fun _ _ => moreContrast_refl _ _ _, fun _ _ => wallContrast_refl _ _ _⟩

/-- **C128.** A larger sphere, a narrower cavity and a sphere closer to the wall: the attraction of sphere and wall that are both denser or both less dense than the
filling becomes stronger at every temperature; if exactly one of them is denser and the centres keep their distance, the repulsion becomes stronger. -/
theorem C128_place {p p' : FTParams} (h : CavOK P) (hprec : P.precision ≤ 0) {a b L : ℝ} (ha : P.r1 ≤ a) (hb : b ≤ P.r2) (hL : P.L ≤ L) (hab : L + a < b)
    (hg : p.geo = geoGeo exactBes frac lnK P) (hp' : p' = { p with geo := geoGeo exactBes frac lnK (P.place a b L) }) (hp : p.nprocs.isZero)
    (han : p.analyticN0 = false) (hT : 0 < p.deltaT) (hN : 1 ≤ p.nmax) :
    ∃ F F' : List ℝ, (freeEnergy p FT.fresh).1 = .ok F ∧ (freeEnergy p' FT.fresh).1 = .ok F' ∧ F.length = p.maxstep.toNat ∧ F'.length = p.maxstep.toNat ∧
      ∀ (i : ℕ) (x y : ℝ), F[i]? = some x → F'[i]? = some y → (P.Same → y ≤ x ∧ x ≤ 0) ∧ (P.Opposite → L = P.L → 0 ≤ x ∧ x ≤ y) := by
  have h' := h.place (h.h1.trans_le ha) (h.hL.trans_le hL) hab
  obtain ⟨F, F', h1, h2, h3, h4, h5⟩ := C128_free_energy h h' (.place ha hb hL) hprec hprec hg hp' hp han hT hN
  obtain ⟨G, hG, -, hG2⟩ := C121_free_energy (p := p) h hg hp han hT hN
  rw [h1] at hG
  injection hG with hG
  subst hG
  refine ⟨F, F', h1, h2, h3, h4, fun i x y hx hy => ⟨fun hc => ?_, fun hc hLL => (h5 i x y hx hy).2 hc hc hLL⟩⟩
  have hx0 := (hG2 i x hx).2.1 hc
  have := (h5 i x y hx hy).1 hc
  rw [abs_of_nonpos hx0] at this
  exact ⟨by linarith, hx0⟩

/-- **C128.** Likewise at zero temperature. -/
theorem C128_place_zero (h : CavOK P) (hprec : P.precision ≤ 0) {c d L : ℝ} (hc : P.r1 ≤ c) (hd : d ≤ P.r2) (hL : P.L ≤ L) (hcd : L + c < d)
    (hq : q.Exact) {a : ℝ} (ha : 0 ≤ a) {b : Upper} (hb : ∀ x, b = .num x → a ≤ x) (hb' : b = .none → a ≤ nmax * deltaT) :
    ∃ E E', e0 q (geoAt exactBes frac lnK P) deltaT nmax a b = .ok E ∧ e0 q (geoAt exactBes frac lnK (P.place c d L)) deltaT nmax a b = .ok E' ∧
      (P.Same → E' ≤ E ∧ E ≤ 0) ∧ (P.Opposite → L = P.L → 0 ≤ E ∧ E ≤ E') := by
  have h' := h.place (h.h1.trans_le hc) (h.hL.trans_le hL) hcd
  obtain ⟨E, E', h1, h2, h3, h4⟩ := C128_zero_temperature (frac := frac) (lnK := lnK) h h' (.place hc hd hL) hprec hprec hq ha hb hb'
  refine ⟨E, E', h1, h2, fun hs => ?_, fun ho => h4 ho ho⟩
  have hE := cav_e0_value (frac := frac) (lnK := lnK) h hq ha hb hb'
  rw [h1] at hE
  injection hE with hE
  obtain ⟨s1, s2⟩ := e0Range_sub (deltaT := deltaT) (nmax := nmax) a b
  have h0 : E ≤ 0 := by
    rw [hE]
    exact setIntegral_nonpos s2 fun k hk => hs.val h (ha.trans_lt (s1 hk))
  have := h3 hs
  rw [abs_of_nonpos h0] at this
  exact ⟨by linarith, h0⟩

end

/-! ## The hypotheses can be met -/

theorem goldCav_dense : goldCav.DenseWall := .inr fun k hk => by
  have e1 := epsV_lorentz (k := k) (M := ⟨.lorentz, [], none⟩) rfl ⟨by simp, by simp, by simp⟩ hk
  simp only [List.map_nil, List.sum_nil, add_zero] at e1
  show Material.epsV ⟨.lorentz, [], none⟩ k ≤ Material.epsV ⟨.lorentz, eGold, none⟩ k
  rw [e1]
  exact one_le_epsV gold_physical hk

/-- A gold sphere in a cavity in gold is attracted less than a perfectly conducting sphere in a perfectly conducting cavity. -/
example (frac : ℝ → ℝ → ℝ) (lnK : ℝ → ℕ → ℝ) : ∃ F F' : List ℝ, (freeEnergy ⟨0.01, 500, 200, false, .int 0, geoGeo exactBes frac lnK goldCav⟩ FT.fresh).1 = .ok F ∧
    (freeEnergy ⟨0.01, 500, 200, false, .int 0, geoGeo exactBes frac lnK goldCav.metal⟩ FT.fresh).1 = .ok F' ∧ F.length = 200 ∧ F'.length = 200 ∧
    ∀ (i : ℕ) (x y : ℝ), F[i]? = some x → F'[i]? = some y → |x| ≤ -y :=
  C128_perfect_conductors (p := ⟨0.01, 500, 200, false, .int 0, geoGeo exactBes frac lnK goldCav⟩) goldCav_ok goldCav_dense le_rfl rfl rfl rfl rfl
    (by norm_num) (by norm_num)

/-- The same sphere nearer to the wall has a lower energy at zero temperature. -/
example (frac : ℝ → ℝ → ℝ) (lnK : ℝ → ℕ → ℝ) : ∃ E E', e0 exactQuad (geoAt exactBes frac lnK goldCav) 0 0 0 .inf = .ok E ∧
    e0 exactQuad (geoAt exactBes frac lnK (goldCav.place 1 4 2.95)) 0 0 0 .inf = .ok E' ∧ E' ≤ E ∧ E ≤ 0 := by
  obtain ⟨E, E', h1, h2, h3, -⟩ := C128_place_zero (frac := frac) (lnK := lnK) (deltaT := 0) (nmax := 0) goldCav_ok le_rfl (c := 1) (d := 4) (L := 2.95)
    (by norm_num [goldCav]) (by norm_num [goldCav]) (by norm_num [goldCav]) (by norm_num) exactQuad_exact le_rfl (b := .inf) (by simp) (by simp)
  exact ⟨E, E', h1, h2, (h3 goldCav_same).1, (h3 goldCav_same).2⟩

/-- A perfectly conducting sphere in a cavity filled with water, vacuum outside: the wall is the less dense one, and a larger sphere is repelled more strongly. -/
example (frac : ℝ → ℝ → ℝ) (lnK : ℝ → ℕ → ℝ) (P : PairIn) (hP : P = ⟨⟨.pec, [], none⟩, ⟨.lorentz, [], none⟩, ⟨.lorentz, eWater, none⟩, 1, 4, 2, 20, 80, 0⟩) :
    ∃ E E', e0 exactQuad (geoAt exactBes frac lnK P) 0 0 0 .inf = .ok E ∧
    e0 exactQuad (geoAt exactBes frac lnK (P.place 1.5 3.9 2)) 0 0 0 .inf = .ok E' ∧ 0 ≤ E ∧ E ≤ E' := by
  subst hP
  have hok : CavOK ⟨⟨.pec, [], none⟩, ⟨.lorentz, [], none⟩, ⟨.lorentz, eWater, none⟩, 1, 4, 2, 20, 80, 0⟩ := by
    refine ⟨pec_sphere, ⟨.inr (.inl ⟨vac_medium.diel, vac_medium.phys⟩), vac_medium.phys, rfl⟩, water_medium, ?_, ?_, ?_, ?_, ?_⟩ <;> norm_num
  have hop : PairIn.Opposite ⟨⟨.pec, [], none⟩, ⟨.lorentz, [], none⟩, ⟨.lorentz, eWater, none⟩, 1, 4, 2, 20, 80, 0⟩ := fun k hk =>
    ⟨1, .inl ⟨rfl, .inl rfl⟩, .inr ⟨rfl, by simp, vac_medium.phys, _, _, (medium_val (by simp) vac_medium.phys hk).1,
      (medium_val (by simp) water_medium.phys hk).1, rfl, by
        have e1 := epsV_lorentz (k := k) (M := ⟨.lorentz, [], none⟩) rfl ⟨by simp, by simp, by simp⟩ hk
        simp only [List.map_nil, List.sum_nil, add_zero] at e1
        show Material.epsV ⟨.lorentz, [], none⟩ k ≤ Material.epsV ⟨.lorentz, eWater, none⟩ k
        rw [e1]
        exact one_le_epsV water_medium.phys hk⟩⟩
  obtain ⟨E, E', h1, h2, -, h3⟩ := C128_place_zero (frac := frac) (lnK := lnK) (deltaT := 0) (nmax := 0) hok le_rfl (c := 1.5) (d := 3.9) (L := 2)
    (by norm_num) (by norm_num) (by norm_num) (by norm_num) exactQuad_exact le_rfl (b := .inf) (by simp) (by simp)
  exact ⟨E, E', h1, h2, (h3 hop rfl).1, (h3 hop rfl).2⟩

end CasSph
