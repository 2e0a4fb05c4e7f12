import Verif.Props.Distance

/-! # C59: the predefined materials in the scattering code; C109: attraction in vacuum -/

namespace CasSph

theorem catalogue_cls : ∀ x ∈ catalogue, x.2.cls ≠ .pec ∧ (x.2.cls = .smith → x.1 = "MercurySmith" ∧ x.2.e.length = 1) ∧
    (x.2.cls ≠ .smith → x.2.cls = .lorentz) ∧ (x.2.b ≠ none → x.1 = "Gold_magnetic") := by
  unfold catalogue
  simp only [List.forall_mem_cons, List.not_mem_nil, false_imp_iff, implies_true, and_true]
  refine ⟨?_, ?_, ?_, ?_, ?_, ?_, ?_, ?_, ?_, ?_, ?_, ?_, ?_, ?_, ?_, ?_, ?_, ?_, ?_, ?_, ?_, ?_, ?_, ?_, ?_, ?_, ?_⟩
  all_goals simp [eMercurySmith]

theorem catalogue_phys : ∀ x ∈ catalogue, x.2.Physical := fun x hx =>
  ⟨fun p hp => ((C59_catalogue x hx).1 p hp).2, (C59_catalogue x hx).2.1, fun h => ((catalogue_cls x hx).2.1 h).2⟩

theorem catalogue_flags : ∀ x ∈ catalogue, (isDielectric x.2.e = decide (x.1 ∉ plasmaNames ∧ x.1 ∉ drudeNames)) ∧
    isSigmaFinite x.2.e = decide (x.1 ∉ plasmaNames) := by
  intro x hx
  obtain ⟨-, -, h1, h2⟩ := C59_catalogue x hx
  obtain ⟨c1, -, -, -⟩ := catalogue_cls x hx
  constructor
  · unfold Material.dielectric at h2
    cases h : x.2.cls <;> simp_all
  · unfold Material.sigmaFinite at h1
    cases h : x.2.cls <;> simp_all

/-- The predefined dielectrics. -/
theorem catalogue_diel : ∀ x ∈ catalogue, x.1 ∉ plasmaNames → x.1 ∉ drudeNames → x.2.Dielectric := by
  intro x hx h1 h2
  have h := (catalogue_flags x hx).1
  rw [decide_eq_true ⟨h1, h2⟩, C58_dielectric_iff] at h
  refine ⟨(catalogue_cls x hx).2.2.1 fun hs => h2 ?_, fun p hp => ?_⟩
  · rw [((catalogue_cls x hx).2.1 hs).1]
    simp [drudeNames]
  · obtain ⟨w1, w2, -⟩ := (C59_catalogue x hx).1 p hp
    exact lt_of_le_of_ne w2 fun e => h ⟨p, hp, w1.ne', e.symm⟩

/-- The predefined materials of finite conductivity. -/
theorem catalogue_static : ∀ x ∈ catalogue, x.1 ∉ plasmaNames → x.2.HasStatic := by
  intro x hx h1
  by_cases h2 : x.1 ∈ drudeNames
  · obtain ⟨f1, f2⟩ := catalogue_flags x hx
    have hd : ¬ isDielectric x.2.e = true := by rw [f1]; simp [h2]
    have hs : ¬ isSigmaFinite x.2.e = false := by rw [f2]; simp [h1]
    rw [C58_dielectric_iff, not_not] at hd
    rw [C58_sigma_finite_iff _ fun p hp => ((C59_catalogue x hx).1 p hp).2.2] at hs
    refine .inr (.inr ⟨⟨(catalogue_cls x hx).1, hd, fun p hp a b => ?_⟩, catalogue_phys x hx⟩)
    exact lt_of_le_of_ne ((C59_catalogue x hx).1 p hp).2.2 fun e => hs ⟨p, hp, a, b, e.symm⟩
  · exact .inr (.inl ⟨catalogue_diel x hx h1 h2, catalogue_phys x hx⟩)

/-- **C59, zero-frequency code.** `mie_k0` accepts exactly the predefined dielectrics as medium: with them it returns coefficients for every
sphere of a predefined material of finite conductivity and for perfect conductors, with any other medium it raises
`NotImplementedError` for every sphere. -/
theorem C59_medium {frac : ℝ → ℝ → ℝ} {w : String × Material} (hw : w ∈ catalogue) {l : ℕ} (hl : 1 ≤ l) {R : ℝ} (hR : 0 < R) :
    (w.1 ∉ plasmaNames → w.1 ∉ drudeNames → (∀ x ∈ catalogue, x.1 ∉ plasmaNames → ∃ c, mieK0 frac x.2 w.2 l R = .ok c) ∧
      ∃ c, mieK0 frac ⟨.pec, [], none⟩ w.2 l R = .ok c) ∧
    ((w.1 ∈ plasmaNames ∨ w.1 ∈ drudeNames) → ∀ m, mieK0 frac m w.2 l R = .error .notImplementedError) := by
  refine ⟨fun h1 h2 => ?_, fun h m => ?_⟩
  · have key : ∀ M : Material, M.HasStatic → ∃ c, mieK0 frac M w.2 l R = .ok c := fun M hM =>
      (hasStatic_limit hl (C42_code_table hl 1 false) (C44_code_table hl 1 false) hM (catalogue_diel w hw h1 h2) (catalogue_phys w hw) hR frac).imp
        fun _ h => h.1
    exact ⟨fun x hx hx1 => key _ (catalogue_static x hx hx1), key _ (.inl rfl)⟩
  · obtain ⟨-, -, f1, f2⟩ := C59_catalogue w hw
    unfold mieK0
    rw [mu_val (catalogue_phys w hw) le_rfl, ok_bind, f1, f2]
    by_cases h1 : w.1 ∈ plasmaNames
    · simp [h1]
    · have h2 : w.1 ∈ drudeNames := h.resolve_left h1
      simp [h1, h2, ok_bind]

/-! ## C109 -/

/-- Vacuum as intervening medium. -/
noncomputable def vacuum : Material := ⟨.lorentz, [], none⟩

theorem vacuumM_ok : MediumMat vacuum := ⟨vac_diel.1, vac_diel.2, rfl⟩

theorem vacuumM_eps {k : ℝ} (hk : 0 < k) : vacuum.epsV k = 1 := by
  unfold vacuum
  rw [epsV_lorentz rfl vac_diel.2 hk]
  simp

/-- A sphere material that responds to electric fields: a perfect conductor or an oscillator of non-zero strength. -/
def Material.Responds (M : Material) : Prop := M.cls = .pec ∨ ∃ p ∈ M.e, p.wP ≠ 0

theorem epsV_ge {M : Material} (hM : M.cls ≠ .pec) (hp : M.Physical) {k : ℝ} (hk : 0 < k) :
    1 ≤ M.epsV k ∧ (M.Responds → 1 < M.epsV k) := by
  cases hc : M.cls with
  | pec => exact absurd hc hM
  | lorentz =>
    rw [epsV_lorentz hc hp hk]
    have h0 : ∀ x ∈ M.e.map (lorT k), 0 ≤ x := by
      intro x hx
      rw [List.mem_map] at hx
      obtain ⟨p, hpm, rfl⟩ := hx
      exact lorT_nonneg hk (hp.osc p hpm)
    refine ⟨by have := List.sum_nonneg h0; linarith, ?_⟩
    rintro (h | ⟨p, hpm, hw⟩)
    · exact absurd h hM
    · have h1 : 0 < lorT k p := div_pos (by have := omegaNorm_pos.ne'; positivity) (lorDen_pos hk (hp.osc p hpm))
      have := List.single_le_sum h0 _ (List.mem_map_of_mem (f := lorT k) hpm)
      linarith
  | smith =>
    obtain ⟨p, hpe⟩ := List.length_eq_one_iff.1 (hp.one hc)
    have hg : 0 ≤ p.gamma / omegaNorm := div_nonneg (hp.osc p (by simp [hpe])).2 omegaNorm_pos.le
    have h1 : 0 < k ^ 2 + p.gamma / omegaNorm * k := by positivity
    have h2 : 0 < k + p.gamma / omegaNorm := by linarith
    have ht : Material.smithTerm k p = .ok ((p.wP / omegaNorm) ^ 2 / (k ^ 2 + p.gamma / omegaNorm * k) *
        (1 - 0.49 * (p.gamma / omegaNorm) / (k + p.gamma / omegaNorm))) := by
      unfold Material.smithTerm
      rw [cdiv_ok h1.ne', ok_bind, cdiv_ok h2.ne', ok_bind]
    have e : M.epsV k = 1 + (p.wP / omegaNorm) ^ 2 / (k ^ 2 + p.gamma / omegaNorm * k) *
        (1 - 0.49 * (p.gamma / omegaNorm) / (k + p.gamma / omegaNorm)) := by
      have : M.epsilon k = .ok (1 + (p.wP / omegaNorm) ^ 2 / (k ^ 2 + p.gamma / omegaNorm * k) *
          (1 - 0.49 * (p.gamma / omegaNorm) / (k + p.gamma / omegaNorm))) := by
        unfold Material.epsilon
        rw [hc]
        simp only
        rw [if_pos (hp.one hc), hpe]
        exact foldlM_smith ht
      unfold Material.epsV
      rw [this]
    have h3 : 0.49 * (p.gamma / omegaNorm) / (k + p.gamma / omegaNorm) < 1 := by
      rw [div_lt_one h2]; linarith
    rw [e]
    refine ⟨?_, ?_⟩
    · have : 0 ≤ (p.wP / omegaNorm) ^ 2 / (k ^ 2 + p.gamma / omegaNorm * k) *
        (1 - 0.49 * (p.gamma / omegaNorm) / (k + p.gamma / omegaNorm)) := mul_nonneg (by positivity) (by linarith)
      linarith
    · rintro (h | ⟨p', hpm, hw⟩)
      · exact absurd h hM
      · rw [hpe, List.mem_singleton] at hpm
        subst hpm
        have : 0 < (p'.wP / omegaNorm) ^ 2 / (k ^ 2 + p'.gamma / omegaNorm * k) *
          (1 - 0.49 * (p'.gamma / omegaNorm) / (k + p'.gamma / omegaNorm)) :=
          mul_pos (by have := omegaNorm_pos.ne'; positivity) (by linarith)
        linarith

theorem vacuumM_contrast {M : Material} (h : SphereMat M) (hr : M.Responds) {k : ℝ} (hk : 0 < k) : HasContrast M vacuum k := by
  by_cases hp : M.cls = .pec
  · exact .inl hp
  · right
    rw [vacuumM_eps hk]
    exact ((epsV_ge hp h.phys hk).2 hr).ne'

theorem vacuumM_dense {M : Material} (h : SphereMat M) {k : ℝ} (hk : 0 < k) : DenseSign M vacuum k 1 := by
  refine dense_of_le h vacuumM_ok hk ?_
  by_cases hp : M.cls = .pec
  · exact .inl hp
  · right
    rw [vacuumM_eps hk]
    exact (epsV_ge hp h.phys hk).1

theorem vacuumM_electric {M : Material} (h : SphereMat M) : ElectricSign M vacuum 1 := by
  refine .inl ⟨rfl, ?_⟩
  rcases h.static with h' | ⟨h', -⟩ | ⟨h', -⟩
  · exact .inl h'
  · refine .inr (.inr ⟨h', _, _, epsilon_lorentz_zero h'.1 (fun p h => (h'.2 p h).ne'), epsilon_lorentz_zero rfl (by simp [vacuum]), ?_⟩)
    rw [lorentzEps_eq, lorentzEps_eq]
    simp only [vacuum, List.map_nil, List.sum_nil, add_zero]
    have : 0 ≤ (M.e.map (lorT 0)).sum := by
      apply List.sum_nonneg
      intro x hx
      rw [List.mem_map] at hx
      obtain ⟨p, hpm, rfl⟩ := hx
      unfold lorT
      have := sq_nonneg (p.wR / omegaNorm)
      exact div_nonneg (sq_nonneg _) (by nlinarith)
    linarith
  · exact .inr (.inl h')

/-- In vacuum any two spheres have equal contrast. -/
theorem vacuumM_equal {m1 m2 : Material} (h1 : SphereMat m1) (h2 : SphereMat m2) : EqualContrast m1 m2 vacuum := by
  refine ⟨fun k hk => ⟨1, vacuumM_dense h1 hk, vacuumM_dense h2 hk⟩, ⟨1, vacuumM_electric h1, vacuumM_electric h2⟩, -1, ?_, ?_⟩
  · by_cases hp : m1.cls = .pec
    · exact .inr ⟨rfl, .inl hp⟩
    · exact (magnetic_both h1 vacuumM_ok hp).2
  · by_cases hp : m2.cls = .pec
    · exact .inr ⟨rfl, .inl hp⟩
    · exact (magnetic_both h2 vacuumM_ok hp).2

variable {P : PairIn} {frac : ℝ → ℝ → ℝ} {q : Quad} {deltaT : ℝ} {nmax : ℤ}

/-- **C109, `free_energy`.** In vacuum any two spheres attract each other at every temperature. -/
theorem C109_free_energy {p : FTParams} (h : PairOK P) (hv : P.mat3 = vacuum) (hg : p.geo = pairGeo exactBes frac P) (hp : p.nprocs.isZero)
    (ha : p.analyticN0 = true) (hT : 0 < p.deltaT) (hN : 0 ≤ p.nmax) :
    ∃ F : List ℝ, (freeEnergy p FT.fresh).1 = .ok F ∧ F.length = p.maxstep.toNat ∧ ∀ (i : ℕ) (x : ℝ), F[i]? = some x →
      x ≤ 0 ∧ ((i : ℤ) + 1 ≤ p.nmax → P.mat1.Responds → P.mat2.Responds → x < 0) := by
  obtain ⟨F, hF, hl, h1⟩ := C100_free_energy h hg hp ha hT hN
  obtain ⟨F', hF', -, h2⟩ := C106_free_energy h hg hp ha hT hN
  rw [hF] at hF'
  injection hF' with hF'
  subst hF'
  have hc : EqualContrast P.mat1 P.mat2 P.mat3 := hv ▸ vacuumM_equal h.m1 h.m2
  have hpos : ∀ i : ℕ, 0 < ((i : ℝ) + 1) * p.deltaT := fun i => by positivity
  exact ⟨F, hF, hl, fun i x hx => ⟨(h1 i x hx).2.1 hc, fun hi c1 c2 =>
    (h2 i x hx hi (hv ▸ vacuumM_contrast h.m1 c1 (hpos i)) (hv ▸ vacuumM_contrast h.m2 c2 (hpos i))).1 hc⟩⟩

/-- **C109, `e0`.** The same at zero temperature. -/
theorem C109_zero_temperature (h : PairOK P) (hv : P.mat3 = vacuum) (c1 : P.mat1.Responds) (c2 : P.mat2.Responds) (hq : q.Exact) {a : ℝ} (ha : 0 ≤ a)
    {b : Upper} (hb : ∀ x, b = .num x → a < x) (hb' : b = .none → a < nmax * deltaT) :
    ∃ E, e0 q (pairAt exactBes frac P) deltaT nmax a b = .ok E ∧ E < 0 := by
  obtain ⟨E, hE, h1, -⟩ := C106_zero_temperature (frac := frac) h hq (fun k hk => hv ▸ vacuumM_contrast h.m1 c1 hk)
    (fun k hk => hv ▸ vacuumM_contrast h.m2 c2 hk) ha hb hb'
  exact ⟨E, hE, h1 (hv ▸ vacuumM_equal h.m1 h.m2)⟩

/-- The predefined materials with finite conductivity and without magnetism. -/
theorem catalogue_sphere {x : String × Material} (hx : x ∈ catalogue) (h1 : x.1 ∉ plasmaNames) (h2 : x.1 ≠ "Gold_magnetic") : SphereMat x.2 :=
  ⟨catalogue_static x hx h1, catalogue_phys x hx, by
    by_contra h
    exact h2 ((catalogue_cls x hx).2.2.2 h)⟩

theorem catalogue_medium {x : String × Material} (hx : x ∈ catalogue) (h1 : x.1 ∉ plasmaNames) (h2 : x.1 ∉ drudeNames) : MediumMat x.2 :=
  ⟨catalogue_diel x hx h1 h2, catalogue_phys x hx, by
    by_contra h
    rw [(catalogue_cls x hx).2.2.2 h] at h2
    simp [drudeNames] at h2⟩

/-- Every predefined material but `Vacuum` responds. -/
theorem catalogue_responds : ∀ x ∈ catalogue, x.1 ≠ "Vacuum" → x.2.Responds := by
  intro x hx hv
  have key : ∀ x ∈ catalogue, x.1 ≠ "Vacuum" → x.2.e ≠ [] := by
    unfold catalogue
    simp only [List.forall_mem_cons, List.not_mem_nil, false_imp_iff, implies_true, and_true]
    refine ⟨?_, ?_, ?_, ?_, ?_, ?_, ?_, ?_, ?_, ?_, ?_, ?_, ?_, ?_, ?_, ?_, ?_, ?_, ?_, ?_, ?_, ?_, ?_, ?_, ?_, ?_, ?_⟩
    all_goals simp [eGold, eGoldBimonte, eSilver, eSilverplasma, eGoldplasma, eGoldplasmawp1, eGoldplasmawp01,
      eGoldplasmawp10, eMercury, eMercuryplasma, eMercurySmith, eMercurySmithplasma, eSiC, eSiCplasma, eWater,
      eArtificial, eModWater, eEthanol, eAlternEth, ePtfe, eBromobenzene, eAltern2Ps, eAltern1Ps,
      ePolystyrene, eSilicon]
  obtain ⟨p, hp⟩ := List.exists_mem_of_ne_nil _ (key x hx hv)
  exact .inr ⟨p, hp, ((C59_catalogue x hx).1 p hp).1.ne'⟩

/-- **C109, predefined materials.** Spheres of any two predefined non-magnetic materials of finite conductivity in any predefined dielectric:
`free_energy` returns; for equal materials it is non-positive, in vacuum negative unless a "sphere" is vacuum. -/
theorem C109_catalogue {x y w : String × Material} (hx : x ∈ catalogue) (hy : y ∈ catalogue) (hw : w ∈ catalogue) (x1 : x.1 ∉ plasmaNames)
    (x2 : x.1 ≠ "Gold_magnetic") (y1 : y.1 ∉ plasmaNames) (y2 : y.1 ≠ "Gold_magnetic") (w1 : w.1 ∉ plasmaNames) (w2 : w.1 ∉ drudeNames) {r1 r2 L : ℝ}
    (h1 : 0 < r1) (h2 : 0 < r2) (hs : r1 + r2 < L) {lmax lssmax : ℕ} (hl : 1 ≤ lmax) (hls : lmax ≤ lssmax) (precision : ℝ) {p : FTParams}
    (hg : p.geo = pairGeo exactBes frac ⟨x.2, y.2, w.2, r1, r2, L, lmax, lssmax, precision⟩) (hp : p.nprocs.isZero)
    (ha : p.analyticN0 = true) (hT : 0 < p.deltaT) (hN : 0 ≤ p.nmax) :
    ∃ F : List ℝ, (freeEnergy p FT.fresh).1 = .ok F ∧ F.length = p.maxstep.toNat ∧ ∀ (i : ℕ) (f : ℝ), F[i]? = some f →
      (x = y → f ≤ 0) ∧ (x.1 ≠ "Vacuum" → y.1 ≠ "Vacuum" → w.1 = "Vacuum" → (i : ℤ) + 1 ≤ p.nmax → f < 0) := by
  have h : PairOK ⟨x.2, y.2, w.2, r1, r2, L, lmax, lssmax, precision⟩ :=
    ⟨catalogue_sphere hx x1 x2, catalogue_sphere hy y1 y2, catalogue_medium hw w1 w2, h1, h2, hs, hl, hls⟩
  obtain ⟨F, hF, hlen, q1⟩ := C100_free_energy h hg hp ha hT hN
  refine ⟨F, hF, hlen, fun i f hf => ⟨fun e => (q1 i f hf).2.1 ?_, fun vx vy vw hi => ?_⟩⟩
  · subst e
    exact equalContrast_same h.m1 h.m3
  · have ew : w.2 = vacuum := by
      have key : ∀ w ∈ catalogue, w.1 = "Vacuum" → w.2 = vacuum := by
        unfold catalogue
        simp [vacuum]
      exact key w hw vw
    obtain ⟨F', hF', -, q2⟩ := C109_free_energy h ew hg hp ha hT hN
    rw [hF] at hF'
    injection hF' with hF'
    subst hF'
    exact (q2 i f hf).2 hi (catalogue_responds x hx vx) (catalogue_responds y hy vy)

/-- A gold and a polystyrene sphere in vacuum. -/
example : ∃ F : List ℝ, (freeEnergy ⟨0.01, 500, 200, true, .int 0, pairGeo exactBes (fun _ _ => 0)
      ⟨⟨.lorentz, eGold, none⟩, ⟨.lorentz, ePolystyrene, none⟩, vacuum, 1, 4, 6, 20, 25, 1e-4⟩⟩ FT.fresh).1 = .ok F ∧ F.length = 200 ∧
    ∀ (i : ℕ) (x : ℝ), F[i]? = some x → x < 0 := by
  obtain ⟨F, hF, hl, h⟩ := C109_catalogue (frac := fun _ _ => 0) (x := ("Gold", ⟨.lorentz, eGold, none⟩)) (y := ("Polystyrene", ⟨.lorentz, ePolystyrene, none⟩))
    (w := ("Vacuum", vacuum)) (by simp [catalogue]) (by simp [catalogue]) (by simp [catalogue, vacuum]) (by simp [plasmaNames]) (by simp)
    (by simp [plasmaNames]) (by simp) (by simp [plasmaNames]) (by simp [drudeNames]) (r1 := 1) (r2 := 4) (L := 6) (by norm_num) (by norm_num) (by norm_num)
    (lmax := 20) (lssmax := 25) (by norm_num) (by norm_num) 1e-4 (p := ⟨0.01, 500, 200, true, .int 0, _⟩) rfl rfl rfl (by norm_num) (by norm_num)
  refine ⟨F, hF, hl, fun i x hx => (h i x hx).2 (by simp) (by simp) rfl ?_⟩
  have hi : i < 200 := by
    by_contra hh
    rw [List.getElem?_eq_none (by rw [hl]; simpa using hh)] at hx
    simp at hx
  simp only
  omega

end CasSph
