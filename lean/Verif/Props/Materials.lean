import Verif.Lemmas.Materials

/-! # C56–C60: material response functions -/

namespace CasSph

open Filter Topology

/-! ## C56 -/

/-- C56: `LorentzMaterial.epsilon(k)` for `k > 0` is the Lorentz sum, and at least one. -/
theorem C56_eps_ge_one {M : Material} (hM : M.cls = .lorentz) (hp : ∀ p ∈ M.e, 0 ≤ p.wR ∧ 0 ≤ p.gamma)
    {k : ℝ} (hk : 0 < k) :
    ∃ v, M.epsilon k = .ok v ∧
      v = Spec.lorentzEps k (M.e.map fun p => (p.wP / omegaNorm, p.wR / omegaNorm, p.gamma / omegaNorm)) ∧
      1 ≤ v := by
  refine ⟨_, epsilon_lorentz_ok hk hM hp, rfl, ?_⟩
  rw [lorentzEps_eq]
  have : 0 ≤ (M.e.map (lorT k)).sum := by
    apply List.sum_nonneg
    intro x hx
    rw [List.mem_map] at hx
    obtain ⟨p, hpm, rfl⟩ := hx
    exact lorT_nonneg hk (hp p hpm)
  linarith

/-- C56: the permittivity does not increase with `k`. -/
theorem C56_eps_antitone {M : Material} (hM : M.cls = .lorentz) (hp : ∀ p ∈ M.e, 0 ≤ p.wR ∧ 0 ≤ p.gamma)
    {k k' v v' : ℝ} (hk : 0 < k) (hkk : k ≤ k') (hv : M.epsilon k = .ok v) (hv' : M.epsilon k' = .ok v') :
    v' ≤ v := by
  rw [epsilon_lorentz_ok hk hM hp] at hv
  rw [epsilon_lorentz_ok (hk.trans_le hkk) hM hp] at hv'
  cases hv; cases hv'
  rw [lorentzEps_eq, lorentzEps_eq]
  have := list_sum_le (l := M.e) (fun p hpm => lorT_anti hk hkk (hp p hpm))
  linarith

/-- C56: the permittivity tends to one for large `k`. -/
theorem C56_eps_atTop {M : Material} (hM : M.cls = .lorentz) (hp : ∀ p ∈ M.e, 0 ≤ p.wR ∧ 0 ≤ p.gamma)
    (v : ℝ → ℝ) (hv : ∀ k, 0 < k → M.epsilon k = .ok (v k)) : Tendsto v atTop (𝓝 1) := by
  have h : Tendsto (fun k => 1 + (M.e.map (lorT k)).sum) atTop (𝓝 (1 + (M.e.map fun _ => (0 : ℝ)).sum)) :=
    tendsto_const_nhds.add (list_sum_tendsto fun p hpm => lorT_atTop (hp p hpm))
  have h0 : (M.e.map fun _ => (0 : ℝ)).sum = 0 := by simp
  rw [h0, add_zero] at h
  refine h.congr' ?_
  filter_upwards [eventually_gt_atTop 0] with k hk
  have := hv k hk
  rw [epsilon_lorentz_ok hk hM hp] at this
  rw [← Except.ok.inj this, lorentzEps_eq]

/-- C56: if all resonances lie at non-zero frequency, `epsilon(0)` is finite, equals `1 + Σ (wP/wR)²` and is
the limit of `epsilon(k)` for `k → 0`. -/
theorem C56_eps_static {M : Material} (hM : M.cls = .lorentz) (hp : ∀ p ∈ M.e, 0 < p.wR ∧ 0 ≤ p.gamma)
    (v : ℝ → ℝ) (hv : ∀ k, 0 < k → M.epsilon k = .ok (v k)) :
    M.epsilon 0 = .ok (1 + (M.e.map fun p => (p.wP / p.wR) ^ 2).sum) ∧
      Tendsto v (𝓝[>] 0) (𝓝 (1 + (M.e.map fun p => (p.wP / p.wR) ^ 2).sum)) := by
  have e0 : ∀ p ∈ M.e, lorT 0 p = (p.wP / p.wR) ^ 2 := by
    intro p hpm
    have h1 := (hp p hpm).1
    have h2 := omegaNorm_pos
    unfold lorT
    field_simp
    ring
  have e1 : (M.e.map (lorT 0)).sum = (M.e.map fun p => (p.wP / p.wR) ^ 2).sum := by
    rw [List.map_congr_left e0]
  constructor
  · rw [epsilon_lorentz_zero hM (fun p hpm => (hp p hpm).1.ne'), lorentzEps_eq, e1]
  · rw [← e1]
    have h : Tendsto (fun k => 1 + (M.e.map (lorT k)).sum) (𝓝[>] 0) (𝓝 (1 + (M.e.map (lorT 0)).sum)) :=
      tendsto_const_nhds.add
        (list_sum_tendsto fun p hpm => (lorT_cont (hp p hpm).1.ne').mono_left nhdsWithin_le_nhds)
    refine h.congr' ?_
    filter_upwards [self_mem_nhdsWithin] with k hk
    have := hv k hk
    rw [epsilon_lorentz_ok hk hM (fun p hpm => ⟨(hp p hpm).1.le, (hp p hpm).2⟩)] at this
    rw [← Except.ok.inj this, lorentzEps_eq]

/-- C56: the flag `is_dielectric` alone does not make `epsilon(0)` finite: an oscillator of strength zero
at frequency zero leads to 0/0. -/
theorem C56_flag_refuted : isDielectric [⟨0, 0, 1⟩] = true ∧
    (Material.mk .lorentz [⟨0, 0, 1⟩] none).epsilon 0 = .error .zeroDivisionError := by
  constructor
  · simp [isDielectric]
  · simp [Material.epsilon, Material.lorentzTerm, cdiv, error_bind]

/-- The hypotheses of C56 are met by an oscillator list with several entries; the value is not trivial. -/
example : (∀ p ∈ [(⟨2e14, 1e14, 0⟩ : Osc), ⟨3e14, 1e14, 5⟩], 0 < p.wR ∧ 0 ≤ p.gamma) ∧
    (1 + ([(⟨2e14, 1e14, 0⟩ : Osc), ⟨3e14, 1e14, 5⟩].map fun p => (p.wP / p.wR) ^ 2).sum : ℝ) = 14 := by
  constructor
  · intro p hp
    simp only [List.mem_cons, List.not_mem_nil, or_false] at hp
    rcases hp with rfl | rfl <;> norm_num
  · norm_num

/-! ## C57 -/

/-- C57: without magnetic parameters, and for a perfect conductor, `mu(k) = 1`. -/
theorem C57_mu_nonmagnetic (M : Material) (h : M.cls = .pec ∨ M.b = none) (k : ℝ) : M.mu k = .ok 1 := by
  rcases M with ⟨cls, e, b⟩
  rcases h with h | h <;> simp only at h <;> subst h
  · rfl
  · cases cls <;> rfl

/-- C57: with magnetic parameters `(µ₀, w)`, `w > 0`: `mu(0) = µ₀`, `mu(k)` lies between `1` and `µ₀` and
its distance to one does not increase. -/
theorem C57_mu_between {M : Material} (hM : M.cls ≠ .pec) {mu0 w : ℝ} (hb : M.b = some (mu0, w)) (hw : 0 < w) :
    M.mu 0 = .ok mu0 ∧
    (∀ k, 0 ≤ k → ∃ v, M.mu k = .ok v ∧ v = Spec.debyeMu k mu0 (w / omegaNorm) ∧
      min 1 mu0 ≤ v ∧ v ≤ max 1 mu0) ∧
    ∀ k k' v v', 0 ≤ k → k ≤ k' → M.mu k = .ok v → M.mu k' = .ok v' → |v' - 1| ≤ |v - 1| := by
  have hwn : 0 < w / omegaNorm := div_pos hw omegaNorm_pos
  have key : ∀ k, 0 ≤ k → M.mu k = .ok (Spec.debyeMu k mu0 (w / omegaNorm)) := by
    intro k hk
    rw [mu_ok hk (by intro x hx; rw [hb] at hx; cases hx; exact hw)]
    rcases M with ⟨cls, e, b⟩
    simp only at hb hM
    subst hb
    cases cls <;> first | exact absurd rfl hM | rfl
  refine ⟨?_, ?_, ?_⟩
  · rw [key 0 le_rfl]; simp [Spec.debyeMu]
  · intro k hk
    refine ⟨_, key k hk, rfl, ?_⟩
    unfold Spec.debyeMu
    have h1 : 0 ≤ k / (w / omegaNorm) := div_nonneg hk hwn.le
    set t := k / (w / omegaNorm)
    have h2 : 0 < 1 + t := by linarith
    rcases le_total 1 mu0 with h | h
    · rw [min_eq_left h, max_eq_right h]
      have a1 : 0 ≤ (mu0 - 1) / (1 + t) := div_nonneg (by linarith) h2.le
      have a2 : (mu0 - 1) / (1 + t) ≤ mu0 - 1 := div_le_self (by linarith) (by linarith)
      constructor <;> linarith
    · rw [min_eq_right h, max_eq_left h]
      have a1 : 0 ≤ (1 - mu0) / (1 + t) := div_nonneg (by linarith) h2.le
      have a2 : (1 - mu0) / (1 + t) ≤ 1 - mu0 := div_le_self (by linarith) (by linarith)
      have a3 : (mu0 - 1) / (1 + t) = -((1 - mu0) / (1 + t)) := by rw [← neg_div]; ring_nf
      constructor <;> linarith
  · intro k k' v v' hk hkk hv hv'
    rw [key k hk] at hv
    rw [key k' (hk.trans hkk)] at hv'
    cases hv; cases hv'
    unfold Spec.debyeMu
    have h1 : 0 ≤ k / (w / omegaNorm) := div_nonneg hk hwn.le
    have h2 : k / (w / omegaNorm) ≤ k' / (w / omegaNorm) := by gcongr
    rw [add_sub_cancel_left, add_sub_cancel_left, abs_div, abs_div,
      abs_of_pos (show 0 < 1 + k / (w / omegaNorm) by linarith),
      abs_of_pos (show 0 < 1 + k' / (w / omegaNorm) by linarith)]
    gcongr

/-- C57: the permeability tends to one for large `k`. -/
theorem C57_mu_atTop {M : Material} (hb : ∀ x, M.b = some x → 0 < x.2) (v : ℝ → ℝ)
    (hv : ∀ k, 0 < k → M.mu k = .ok (v k)) : Tendsto v atTop (𝓝 1) := by
  have key : ∀ x : ℝ × ℝ, 0 < x.2 →
      Tendsto (fun k => Spec.debyeMu k x.1 (x.2 / omegaNorm)) atTop (𝓝 1) := by
    intro x hx
    have hwn : 0 < x.2 / omegaNorm := div_pos hx omegaNorm_pos
    unfold Spec.debyeMu
    have : Tendsto (fun k : ℝ => (x.1 - 1) / (1 + k / (x.2 / omegaNorm))) atTop (𝓝 0) := by
      apply Tendsto.div_atTop tendsto_const_nhds
      apply tendsto_atTop_add_const_left
      exact tendsto_id.atTop_div_const hwn
    simpa using tendsto_const_nhds.add this
  have heq : ∀ᶠ k in atTop, (match M.cls, M.b with
      | .pec, _ => 1
      | _, none => 1
      | _, some x => Spec.debyeMu k x.1 (x.2 / omegaNorm)) = v k := by
    filter_upwards [eventually_gt_atTop 0] with k hk
    have := hv k hk
    rw [mu_ok hk.le hb] at this
    exact Except.ok.inj this
  refine Tendsto.congr' heq ?_
  rcases M with ⟨cls, e, b⟩
  cases cls <;> cases b with
  | none => exact tendsto_const_nhds
  | some x => first | exact tendsto_const_nhds | exact key x (hb x rfl)

/-- C57: `LorentzSmithMaterial.epsilon` demands exactly one oscillator, and is then Smith's permittivity,
which is at least one. -/
theorem C57_smith {M : Material} (hM : M.cls = .smith) {k : ℝ} (hk : 0 < k) :
    (M.e.length ≠ 1 → M.epsilon k = .error .assertionError) ∧
    ∀ p : Osc, M.e = [p] → 0 ≤ p.gamma → ∃ v, M.epsilon k = .ok v ∧
      v = Spec.smithEps k (p.wP / omegaNorm) (p.gamma / omegaNorm) ∧ 1 ≤ v := by
  constructor
  · intro h; unfold Material.epsilon; rw [hM]; simp [h]
  · intro p hp hg
    have hgn : 0 ≤ p.gamma / omegaNorm := div_nonneg hg omegaNorm_pos.le
    refine ⟨Spec.smithEps k (p.wP / omegaNorm) (p.gamma / omegaNorm), ?_, rfl, ?_⟩
    · unfold Material.epsilon; rw [hM]
      simp only [hp, List.length_singleton, if_true, List.foldlM_cons, List.foldlM_nil]
      unfold Material.smithTerm
      set g := p.gamma / omegaNorm
      have h1 : 0 < k ^ 2 + g * k := by positivity
      have h2 : 0 < k + g := by linarith
      rw [cdiv_ok h1.ne', ok_bind, cdiv_ok h2.ne', ok_bind]
      simp only [ok_bind]
      unfold Spec.smithEps
      rw [show k ^ 2 + g * k = k * (k + g) by ring]
      rfl
    · unfold Spec.smithEps
      set g := p.gamma / omegaNorm
      have h2 : 0 < k + g := by linarith
      have h3 : 0.49 * g / (k + g) ≤ 1 := by rw [div_le_one h2]; linarith
      have : 0 ≤ (p.wP / omegaNorm) ^ 2 / (k * (k + g)) * (1 - 0.49 * g / (k + g)) :=
        mul_nonneg (by positivity) (by linarith)
      linarith

/-- A magnetic material with `µ(0) = 4`, as in C57. -/
example : (Material.mk .lorentz [] (some (4, 1e9))).mu 0 = .ok 4 :=
  (C57_mu_between (M := Material.mk .lorentz [] (some (4, 1e9))) (by simp) rfl (by norm_num)).1

/-! ## C58 -/

/-- C58: `is_dielectric` is `True` exactly if there is no oscillator at frequency zero. -/
theorem C58_dielectric_iff (e : List Osc) :
    isDielectric e = true ↔ ¬ ∃ p ∈ e, p.wP ≠ 0 ∧ p.wR = 0 := by
  induction e with
  | nil => simp [isDielectric]
  | cons p e ih =>
    unfold isDielectric
    by_cases h : ¬ p.wP = 0 ∧ p.wR = 0
    · rw [if_pos h]
      simp only [Bool.false_eq_true, false_iff, not_not]
      exact ⟨p, by simp, h.1, h.2⟩
    · rw [if_neg h, ih]
      simp only [List.mem_cons, exists_eq_or_imp, not_or]
      constructor
      · intro h'; exact ⟨h, h'⟩
      · intro h'; exact h'.2

/-- C58: for non-negative dampings `is_sigma_finite` is `False` exactly if there is an undamped oscillator at
frequency zero. -/
theorem C58_sigma_finite_iff (e : List Osc) (hg : ∀ p ∈ e, 0 ≤ p.gamma) :
    isSigmaFinite e = false ↔ ∃ p ∈ e, p.wP ≠ 0 ∧ p.wR = 0 ∧ p.gamma = 0 := by
  unfold isSigmaFinite
  set L := (e.filter fun p => decide (p.wR = 0 ∧ ¬ p.wP = 0)).map Osc.gamma with hL
  have hmem : ∀ x, x ∈ L ↔ ∃ p ∈ e, p.wR = 0 ∧ p.wP ≠ 0 ∧ p.gamma = x := by
    intro x; rw [hL]; simp [List.mem_map, List.mem_filter, and_assoc]
  cases h : L.min? with
  | none =>
    simp only [Bool.true_eq_false, false_iff]
    rintro ⟨p, hp, h1, h2, h3⟩
    have : (0 : ℝ) ∈ L := (hmem 0).2 ⟨p, hp, h2, h1, h3⟩
    rw [List.min?_eq_none_iff] at h
    rw [h] at this; simp at this
  | some g =>
    have hgm : g ∈ L := List.min?_mem h
    simp only [decide_eq_false_iff_not, not_not]
    constructor
    · rintro rfl
      obtain ⟨p, hp, h1, h2, h3⟩ := (hmem 0).1 hgm
      exact ⟨p, hp, h2, h1, h3⟩
    · rintro ⟨p, hp, h1, h2, h3⟩
      have h0 : (0 : ℝ) ∈ L := (hmem 0).2 ⟨p, hp, h2, h1, h3⟩
      have hle : g ≤ 0 := ((List.le_min?_iff h).1 le_rfl) 0 h0
      obtain ⟨q, hq, _, _, h6⟩ := (hmem g).1 hgm
      have := hg q hq
      linarith

/-- C58: a dielectric has a finite conductivity. -/
theorem C58_dielectric_sigma (e : List Osc) (h : isDielectric e = true) : isSigmaFinite e = true := by
  rw [C58_dielectric_iff] at h
  unfold isSigmaFinite
  have : e.filter (fun p => decide (p.wR = 0 ∧ ¬ p.wP = 0)) = [] := by
    rw [List.filter_eq_nil_iff]
    intro p hp h'
    simp only [decide_eq_true_eq] at h'
    exact h ⟨p, hp, h'.2, h'.1⟩
  rw [this]; rfl

/-- C58: the three classes of responses are all inhabited. -/
example : isDielectric [⟨1, 1, 0⟩] = true ∧ isSigmaFinite [⟨1, 0, 0⟩] = false ∧
    (isSigmaFinite [⟨1, 0, 2⟩] = true ∧ isDielectric [⟨1, 0, 2⟩] = false) := by
  refine ⟨by simp [isDielectric], by simp [isSigmaFinite], by simp [isSigmaFinite], by simp [isDielectric]⟩

/-! ## C59 -/

/-- names of the predefined materials with infinite conductivity -/
def plasmaNames : List String :=
  ["Gold_plasma", "Gold_plasma_wp1", "Gold_plasma_wp01", "Gold_plasma_wp10", "Silver_plasma", "SiC_plasma",
    "Mercury_plasma", "MercurySmith_plasma", "Artificial"]

/-- names of the predefined conductors of finite conductivity -/
def drudeNames : List String :=
  ["Gold", "Gold_Bimonte", "Gold_magnetic", "Silver", "SiC", "Mercury", "MercurySmith"]

/-- C59: every predefined material has non-negative parameters (positive ones where it matters), and exactly
the materials of the two lists above are non-dielectric, with infinite and finite conductivity. -/
theorem C59_catalogue : ∀ x ∈ catalogue,
    (∀ p ∈ x.2.e, 0 < p.wP ∧ 0 ≤ p.wR ∧ 0 ≤ p.gamma) ∧
    (∀ b, x.2.b = some b → 0 < b.1 ∧ 0 < b.2) ∧
    x.2.sigmaFinite = decide (x.1 ∉ plasmaNames) ∧
    x.2.dielectric = .ok (decide (x.1 ∉ plasmaNames ∧ x.1 ∉ drudeNames)) := by
  have hs1 : (0 : ℝ) < Real.sqrt 23.84 := Real.sqrt_pos.2 (by norm_num)
  have hs2 : (0 : ℝ) < Real.sqrt 0.852 := Real.sqrt_pos.2 (by norm_num)
  unfold catalogue
  simp only [List.forall_mem_cons, List.not_mem_nil, false_imp_iff, implies_true, and_true]
  refine ⟨?_, ?_, ?_, ?_, ?_, ?_, ?_, ?_, ?_, ?_, ?_, ?_, ?_, ?_, ?_, ?_, ?_, ?_, ?_, ?_, ?_, ?_, ?_, ?_, ?_, ?_, ?_⟩
  all_goals
    simp only [eGold, eGoldBimonte, eSilver, eSilverplasma, eGoldplasma, eGoldplasmawp1, eGoldplasmawp01,
      eGoldplasmawp10, eMercury, eMercuryplasma, eMercurySmith, eMercurySmithplasma, eSiC, eSiCplasma, eWater,
      eArtificial, eModWater, eEthanol, eAlternEth, ePtfe, eBromobenzene, eAltern2Ps, eAltern1Ps,
      ePolystyrene, eSilicon, List.cons_append, List.nil_append, List.forall_mem_cons, List.not_mem_nil,
      false_imp_iff, implies_true, and_true, Material.sigmaFinite, Material.dielectric]
    refine ⟨?_, ?_, ?_, ?_⟩
    · norm_num [hs1, hs2]
    · intro b hb
      simp only [Option.some.injEq, reduceCtorEq] at hb
      try (subst hb; norm_num)
    · norm_num [isSigmaFinite, plasmaNames, List.min?, hs1.ne', hs2.ne'] <;> simp
    · norm_num [isDielectric, plasmaNames, drudeNames, hs1.ne', hs2.ne'] <;> simp

/-! ## C60 -/

theorem transformStep_self (h : PairHeap) (a : ℕ) :
    transformStep h a a = (Real.sqrt ((h a).1 * ((h a).2 * omegaEV) ^ 2), (h a).2 * omegaEV) := by
  simp [transformStep]

theorem transformStep_other (h : PairHeap) {a b : ℕ} (hab : b ≠ a) : transformStep h a b = h b := by
  simp [transformStep, Function.update_of_ne hab]

theorem transform_notMem (l : List ℕ) : ∀ (h : PairHeap) (b : ℕ), b ∉ l → l.foldl transformStep h b = h b := by
  induction l with
  | nil => intro h b _; rfl
  | cons a l ih =>
    intro h b hb
    rw [List.foldl_cons, ih _ _ (fun h' => hb (by simp [h'])),
      transformStep_other h (fun h' => hb (by simp [h']))]

theorem transform_mem (l : List ℕ) : ∀ (h : PairHeap) (b : ℕ), l.Nodup → b ∈ l →
    l.foldl transformStep h b = (Real.sqrt ((h b).1 * ((h b).2 * omegaEV) ^ 2), (h b).2 * omegaEV) := by
  induction l with
  | nil => intro h b _ hb; simp at hb
  | cons a l ih =>
    intro h b hn hb
    rw [List.nodup_cons] at hn
    rw [List.foldl_cons]
    by_cases hba : b = a
    · subst hba
      rw [transform_notMem l _ _ hn.1, transformStep_self]
    · rw [ih _ _ hn.2 (by simpa [hba] using hb), transformStep_other h hba]

/-- C60: for pairwise distinct inner lists `transform` returns the conversion of every entry, with
`(wP/w1)²` equal to the strength and `w1` the energy times `eV/hbar`; the result lives in the caller's own
inner lists (the returned addresses are the caller's), and no other list is touched. -/
theorem C60_transform (h : PairHeap) (params : List ℕ) (hn : params.Nodup)
    (hpos : ∀ a ∈ params, 0 ≤ (h a).1 ∧ 0 < (h a).2) :
    (transform h params).1 = params ∧
    (∀ a ∈ params, (((transform h params).2 a).1 / ((transform h params).2 a).2) ^ 2 = (h a).1 ∧
      ((transform h params).2 a).2 = (h a).2 * (1.60218e-19 / 1.05457e-34) ∧
      0 ≤ ((transform h params).2 a).1) ∧
    ∀ a, a ∉ params → (transform h params).2 a = h a := by
  refine ⟨rfl, ?_, fun a ha => transform_notMem _ _ _ ha⟩
  intro a ha
  obtain ⟨h1, h2⟩ := hpos a ha
  unfold transform
  simp only
  rw [transform_mem _ _ _ hn ha]
  have hw : (0 : ℝ) < omegaEV := by unfold omegaEV; norm_num
  refine ⟨?_, rfl, Real.sqrt_nonneg _⟩
  simp only
  rw [div_pow, Real.sq_sqrt (by positivity)]
  have : ((h a).2 * omegaEV) ^ 2 ≠ 0 := by positivity
  rw [mul_div_cancel_right₀ _ this]

/-- C60: an inner list that occurs twice is converted twice: its energy is then multiplied by `(eV/hbar)²`. -/
theorem C60_shared_refuted (h : PairHeap) (a : ℕ) (hp : 0 < (h a).2) :
    ((transform h [a, a]).2 a).2 = (h a).2 * omegaEV ^ 2 ∧
    ((transform h [a, a]).2 a).2 ≠ (h a).2 * omegaEV := by
  have e : ((transform h [a, a]).2 a).2 = (h a).2 * omegaEV ^ 2 := by
    unfold transform
    simp only [List.foldl_cons, List.foldl_nil, transformStep_self]
    ring
  refine ⟨e, ?_⟩
  rw [e]
  have hw : (1 : ℝ) < omegaEV := by unfold omegaEV; norm_num
  have : (h a).2 * omegaEV < (h a).2 * omegaEV ^ 2 := by
    apply mul_lt_mul_of_pos_left _ hp
    nlinarith
  exact this.ne'

/-- The hypotheses of C60 are met by a list of two entries. -/
example : ([0, 1] : List ℕ).Nodup ∧ ∀ a ∈ [0, 1], 0 ≤ ((fun n : ℕ => ((n : ℝ) + 1, (n : ℝ) + 2)) a).1 ∧
    0 < ((fun n : ℕ => ((n : ℝ) + 1, (n : ℝ) + 2)) a).2 := by
  refine ⟨by decide, fun a _ => ⟨by positivity, by positivity⟩⟩

end CasSph
