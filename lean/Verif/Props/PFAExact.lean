import Verif.Lemmas.PFAExact
import Verif.Props.PFA

/-! # C64, C85-C89: free energies of plates and spheres -/

namespace CasSph

open MeasureTheory Set Filter Topology Spec PFA

/-! ## Matsubara sums -/

theorem pyInt_toNat {x : ℝ} (hx : 0 ≤ x) : (pyInt x).toNat = ⌊x⌋₊ := by
  unfold pyInt; rw [if_pos hx]; rfl

theorem sum_range_succ (φ : ℝ → ℝ) (T : ℝ) (N : ℕ) :
    ((List.range N).map fun i : ℕ => φ (((i : ℝ) + 1) * T)).sum = ∑ n ∈ Finset.Icc 1 N, φ (n * T) := by
  induction N with
  | zero => simp
  | succ N ih =>
    rw [List.range_succ, List.map_append, List.sum_append, ih, Finset.sum_Icc_succ_top (by omega)]
    simp

/-- the frequencies for positive temperature and distance -/
theorem matsubaras_val {z c T L : ℝ} (hc : 0 < c) (hT : 0 < T) (hL : 0 < L) :
    matsubaras z c T L = .ok (z :: (List.range ⌊c / L / T⌋₊).map fun i : ℕ => ((i : ℝ) + 1) * T) := by
  unfold matsubaras
  have h : 0 < T * L := mul_pos hT hL
  rw [cdiv_ok h.ne', ok_bind, pyInt_toNat (div_nonneg hc.le h.le), div_div, mul_comm L T]

theorem mats_pos {z c T L : ℝ} (hz : 0 < z) (hT : 0 < T) {x : ℝ}
    (hx : x ∈ z :: (List.range ⌊c / L / T⌋₊).map fun i : ℕ => ((i : ℝ) + 1) * T) : 0 < x := by
  rcases List.mem_cons.1 hx with rfl | hx
  · exact hz
  · obtain ⟨i, -, rfl⟩ := List.mem_map.1 hx
    positivity

/-- the sum as computed from the contributions of the frequencies -/
theorem weighted_sum (φ : ℝ → ℝ) (T z Λ : ℝ) (s : Bool) :
    (do let fs ← weightZero s (((z :: (List.range ⌊Λ / T⌋₊).map fun i : ℕ => ((i : ℝ) + 1) * T).map φ).map (T * ·))
        (.ok fs.sum : Res ℝ)) =
      .ok (matsubaraSum (if s then 0 else φ z / 2) φ T Λ) := by
  simp only [List.map_cons, weightZero, ok_bind, List.sum_cons]
  congr 1
  unfold matsubaraSum
  rw [← sum_range_succ, mul_add, ← List.sum_map_mul_left]
  simp only [List.map_map]
  congr 1
  cases s <;> simp
  ring

/-! ## C64 -/

/-- C64: at finite temperature `planeplaneFreeEnergy` is the Matsubara sum up to the wavenumber `20/L`, whatever the
integrator returns for the individual frequencies; `n0_shielding` removes exactly the (halved) zero-frequency term. -/
theorem C64_freeEnergy {q : Quad} {p : PFA} {T L : ℝ} (hT : 0 < T) (hL : 0 < L) {φ : ℝ → ℝ}
    (hφ : ∀ κ, 0 < κ → p.integral q L κ = .ok (φ κ)) (s : Bool) :
    p.freeEnergy q (.fin T) L s = .ok (matsubaraSum (if s then 0 else φ 1e-10 / 2) φ T (20 / L)) := by
  unfold PFA.freeEnergy
  simp only
  rw [if_neg hT.ne', matsubaras_val (by norm_num) hT hL, ok_bind,
    mapM_ok (g := φ) (fun κ hκ => hφ κ (mats_pos (by norm_num) hT hκ)), ok_bind, weighted_sum]

/-- C64: the same for the pressure. -/
theorem C64_pressure {q : Quad} {p : PFA} {T L : ℝ} (hT : 0 < T) (hL : 0 < L) {φ : ℝ → ℝ}
    (hφ : ∀ κ, 0 < κ → p.pressureIntegral q L κ = .ok (φ κ)) (s : Bool) :
    p.pressure q T L s = .ok (matsubaraSum (if s then 0 else φ 1e-20 / 2) φ T (20 / L)) := by
  unfold PFA.pressure
  rw [matsubaras_val (by norm_num) hT hL, ok_bind,
    mapM_ok (g := φ) (fun κ hκ => hφ κ (mats_pos (by norm_num) hT hκ)), ok_bind, weighted_sum]

/-- C64: in the high-temperature limit there is no other term. -/
theorem C64_highT {q : Quad} {p : PFA} {L te tm : ℝ} (h1 : p.integralTE q 0 L 1e-20 = .ok te)
    (h2 : p.integralTM q 0 L 1e-20 = .ok tm) :
    p.freeEnergy q .inf L true = .ok 0 ∧ p.freeEnergy q .inf L false = .ok ((te + tm) / 2) := by
  unfold PFA.freeEnergy freeEnergyHT
  simp only
  rw [h1, ok_bind, h2, ok_bind]
  constructor
  · simp
  · simp only [Bool.false_eq_true, if_false, ok_bind]; congr 1; ring

/-- C64 is violated: `spheresphereForce` and `planeplane_e0` do not depend on the flag at all. -/
theorem C64_ignored (q : Quad) (p : PFA) (r1 r2 : ℝ) (T : Temp) (d L : ℝ) (s s' : Bool) :
    p.sphereForce q r1 r2 T d s = p.sphereForce q r1 r2 T d s' ∧ p.e0 q L s = p.e0 q L s' := ⟨rfl, rfl⟩

/-- The force is `2 π r1 r2 / (r1 + r2)` (outside) times a plane-plane energy. -/
def ForceShields (q : Quad) (p : PFA) (r1 r2 : ℝ) (T : Temp) (d : ℝ) (s : Bool) : Prop :=
  ∀ f, p.freeEnergy q T (d - r1 - r2) s = .ok f →
    p.sphereForce q r1 r2 T d s = .ok (2 * Real.pi * (r1 * r2 / (r1 + r2)) * f)

/-- C88: force outside, without shielding. -/
theorem C88_force_outside {q : Quad} {p : PFA} {r1 r2 d : ℝ} {T : Temp} (h1 : 0 < r1) (h2 : 0 < r2) (hd : r1 + r2 < d) :
    ForceShields q p r1 r2 T d false := by
  intro f hf
  unfold sphereForce
  simp only
  rw [if_neg (not_lt.2 hd.le), cdiv_ok (by linarith), ok_bind, (C63_axis h1 h2).1 hd, ok_bind, hf, ok_bind]
  congr 1
  ring

/-- C88: force inside (a sphere of radius `r1` in a cavity of radius `r2`). -/
theorem C88_force_inside {q : Quad} {p : PFA} {r1 r2 d : ℝ} {T : Temp} {s : Bool} {f : ℝ} (h1 : 0 < r1) (h2 : r1 < r2)
    (hd : d < r2 - r1) (hf : p.freeEnergy q T (r2 - d - r1) false = .ok f) :
    p.sphereForce q r1 r2 T d s = .ok (2 * Real.pi * (r1 * r2 / (r2 - r1)) * f) := by
  unfold sphereForce
  simp only
  rw [if_pos (by linarith), max_eq_right h2.le, min_eq_left h2.le, cdiv_ok (by linarith), ok_bind,
    (C63_axis h1 (h1.trans h2)).2 (by linarith), ok_bind, hf, ok_bind]
  congr 1
  ring

/-- C88: equal radii and `d < r1 + r2` divide by zero. -/
theorem C88_equal_radii (q : Quad) (p : PFA) (r d : ℝ) (T : Temp) (s : Bool) (hd : d < r + r) :
    p.sphereForce q r r T d s = .error .zeroDivisionError := by
  unfold sphereForce cdiv
  simp only
  rw [if_pos hd, max_self, min_self, sub_self, if_pos rfl, error_bind]

/-! ## Perfect mirrors -/

/-- perfect mirrors in a medium -/
def mirrors (md : Material) : PFA := ⟨perfectConductor, perfectConductor, md⟩

theorem mirrors_Ok {md : Material} (hc : md.cls ≠ .pec) (hp : md.Physical) : (mirrors md).Ok := ⟨pec_ok, pec_ok, hp, hc⟩

theorem mirrors_int {md : Material} (hc : md.cls ≠ .pec) (hp : md.Physical) {L kn : ℝ} (hk : 0 < kn) (hL : 0 < L) :
    (mirrors md).IntTE L kn = -(mirrorInt (kap0 md kn) L / (2 * Real.pi)) ∧
    (mirrors md).IntTM L kn = -(mirrorInt (kap0 md kn) L / (2 * Real.pi)) := by
  have hm := mirror_integral (kap0_pos hc hp hk) hL
  have key : -(mirrorInt (kap0 md kn) L / (2 * Real.pi)) = ∫ k in Ioi (0:ℝ), k / (2 * Real.pi) *
      Real.log (1 - Real.exp (-2 * Real.sqrt (k ^ 2 + kap0 md kn ^ 2) * L)) := by
    unfold mirrorInt
    rw [← hm]
    have : ∀ k : ℝ, k / (2 * Real.pi) * Real.log (1 - Real.exp (-2 * Real.sqrt (k ^ 2 + kap0 md kn ^ 2) * L)) =
        -(1 / (2 * Real.pi)) * (k * -Real.log (1 - Real.exp (-2 * Real.sqrt (k ^ 2 + kap0 md kn ^ 2) * L))) := by
      intro k; ring
    simp_rw [this]
    rw [integral_const_mul]
    ring
  rw [key]
  constructor
  · refine setIntegral_congr_fun measurableSet_Ioi fun k _ => ?_
    simp only [logTE, PFA.te, reflTE, mirrors, perfectConductor, if_true, kapV_eq hc hp hk]
    norm_num
  · refine setIntegral_congr_fun measurableSet_Ioi fun k _ => ?_
    simp only [logTM, PFA.tm, reflTM, mirrors, perfectConductor, if_true, kapV_eq hc hp hk]
    norm_num

theorem kap0_medium {md : Material} {kn e m : ℝ} (hp : md.Physical) (hk : 0 < kn) (h : md.medium kn = .ok ⟨e, m⟩) :
    kap0 md kn = Real.sqrt (e * m) * kn := by
  have v := (medium_val (medium_ne_pec h) hp hk).1
  rw [h] at v
  have v := Except.ok.inj v
  injection v with v1 v2
  unfold kap0
  rw [← v1, ← v2]

theorem mirrorInt_pos {κ L : ℝ} (hκ : 0 < κ) (hL : 0 < L) : 0 < mirrorInt κ L := by
  have h := mirror_series hκ hL
  have := le_hasSum h 0 (fun n _ => by positivity)
  refine lt_of_lt_of_le ?_ this
  positivity

theorem mirrorTerm_neg {κ L : ℝ} (hκ : 0 < κ) (hL : 0 < L) : mirrorTerm κ L < 0 := by
  rw [mirrorTerm_eq]
  have := div_pos (mirrorInt_pos hκ hL) Real.pi_pos
  linarith

/-- C85: with exact integration over the parallel wavenumber, perfect mirrors give the closed form with polylogarithms
at every frequency. -/
theorem C85_mirrors {q : Quad} (hq : q.Exact) {md : Material} (hp : md.Physical) {kn e m L : ℝ} (hk : 0 < kn)
    (hL : 0 < L) (h : md.medium kn = .ok ⟨e, m⟩) :
    (mirrors md).integral q L kn = .ok (mirrorTerm (Real.sqrt (e * m) * kn) L) := by
  have hc := medium_ne_pec h
  rw [integral_val hq (mirrors_Ok hc hp) hk hL, (mirrors_int hc hp hk hL).1, (mirrors_int hc hp hk hL).2,
    ← kap0_medium hp hk h, mirrorTerm_eq]
  congr 1
  have := Real.pi_pos
  field_simp
  ring

/-- C85: the contribution of every frequency exists for all physical plates and is at most that of perfect mirrors in
the same medium. -/
theorem C85_bound {q : Quad} (hq : q.Exact) {p : PFA} (h : p.Ok) {kn L : ℝ} (hk : 0 < kn) (hL : 0 < L) :
    ∃ v w, p.integral q L kn = .ok v ∧ (mirrors p.matMd).integral q L kn = .ok w ∧ w < 0 ∧ |v| ≤ -w := by
  have hc := h.pen
  have hp := h.hmd
  refine ⟨_, _, integral_val hq h hk hL, integral_val hq (mirrors_Ok hc hp) hk hL, ?_, ?_⟩
  · rw [(mirrors_int hc hp hk hL).1, (mirrors_int hc hp hk hL).2]
    have := mirrorInt_pos (kap0_pos hc hp hk) hL
    have := Real.pi_pos
    have : 0 < mirrorInt (kap0 p.matMd kn) L / (2 * Real.pi) := by positivity
    linarith
  · rw [(mirrors_int hc hp hk hL).1, (mirrors_int hc hp hk hL).2]
    have h1 := (intTE_ok h hk hL).2
    have h2 := (intTM_ok h hk hL).2
    have := abs_add_le (p.IntTE L kn) (p.IntTM L kn)
    linarith

theorem matsubaraSum_le {f0 g0 : ℝ} {φ ψ : ℝ → ℝ} {T Λ : ℝ} (hT : 0 < T) (h0 : f0 ≤ g0) (h : ∀ κ, 0 < κ → φ κ ≤ ψ κ) :
    matsubaraSum f0 φ T Λ ≤ matsubaraSum g0 ψ T Λ := by
  unfold matsubaraSum
  refine mul_le_mul_of_nonneg_left (add_le_add h0 (Finset.sum_le_sum fun n hn => h _ ?_)) hT.le
  have : 1 ≤ n := (Finset.mem_Icc.1 hn).1
  have : (0:ℝ) < n := by exact_mod_cast this
  positivity

theorem matsubaraSum_neg (f0 : ℝ) (φ : ℝ → ℝ) (T Λ : ℝ) :
    matsubaraSum (-f0) (fun κ => -φ κ) T Λ = -matsubaraSum f0 φ T Λ := by
  unfold matsubaraSum; rw [Finset.sum_neg_distrib]; ring

/-- C87: at every positive temperature the free energy exists for all physical plates, and its magnitude is at most that
of perfect mirrors in the same medium. -/
theorem C87_bound {q : Quad} (hq : q.Exact) {p : PFA} (h : p.Ok) {T L : ℝ} (hT : 0 < T) (hL : 0 < L) (s : Bool) :
    ∃ F M, p.freeEnergy q (.fin T) L s = .ok F ∧ (mirrors p.matMd).freeEnergy q (.fin T) L s = .ok M ∧ |F| ≤ -M := by
  set φ : ℝ → ℝ := fun κ => p.IntTE L κ + p.IntTM L κ with hφ
  set ψ : ℝ → ℝ := fun κ => (mirrors p.matMd).IntTE L κ + (mirrors p.matMd).IntTM L κ with hψ
  have hb : ∀ κ, 0 < κ → |φ κ| ≤ -ψ κ := by
    intro κ hκ
    obtain ⟨v, w, hv, hw, -, hle⟩ := C85_bound hq h hκ hL
    rw [integral_val hq h hκ hL] at hv
    rw [integral_val hq (mirrors_Ok h.pen h.hmd) hκ hL] at hw
    rw [hφ, hψ]
    simp only
    rw [Except.ok.inj hv, Except.ok.inj hw]
    exact hle
  refine ⟨_, _, C64_freeEnergy hT hL (fun κ hκ => integral_val hq h hκ hL) s,
    C64_freeEnergy hT hL (fun κ hκ => integral_val hq (mirrors_Ok h.pen h.hmd) hκ hL) s, ?_⟩
  rw [abs_le, neg_neg, ← matsubaraSum_neg]
  have h10 : (0:ℝ) < 1e-10 := by norm_num
  have b10 := abs_le.1 (hb _ h10)
  constructor
  · refine matsubaraSum_le hT ?_ fun κ hκ => ?_
    · split
      · exact le_rfl
      · have := b10.1; rw [hφ, hψ] at this; simp only at this; linarith
    · have := (abs_le.1 (hb κ hκ)).1; rw [hφ, hψ] at this; simp only at this; linarith
  · refine matsubaraSum_le hT ?_ fun κ hκ => ?_
    · split
      · simp
      · have := b10.2; rw [hφ, hψ] at this; simp only at this; linarith
    · have := (abs_le.1 (hb κ hκ)).2; rw [hφ, hψ] at this; simp only at this; linarith

/-! ## C86: Casimir's results -/

theorem vacuum_medium (k : ℝ) : (Material.mk .lorentz [] none).medium k = .ok ⟨1, 1⟩ := rfl

theorem vacuum_kap0 {k : ℝ} (hk : 0 < k) : kap0 ⟨.lorentz, [], none⟩ k = k := by
  rw [kap0_medium vacuum_ok hk (vacuum_medium k)]; simp

/-- C86: at positive temperature perfect mirrors in vacuum give the Matsubara sum of the closed form. -/
theorem C86_finiteT {q : Quad} (hq : q.Exact) {T L : ℝ} (hT : 0 < T) (hL : 0 < L) (s : Bool) :
    (mirrors ⟨.lorentz, [], none⟩).freeEnergy q (.fin T) L s =
      .ok (matsubaraSum (if s then 0 else mirrorTerm 1e-10 L / 2) (fun κ => mirrorTerm κ L) T (20 / L)) := by
  refine C64_freeEnergy (φ := fun κ => mirrorTerm κ L) hT hL ?_ s
  intro κ hκ
  rw [C85_mirrors hq vacuum_ok hκ hL (vacuum_medium κ)]
  simp

/-- C86: at zero temperature the energy per area of perfect mirrors in vacuum is Casimir's `-π³/(360 L³)` (in units of
`ħc/2π`, that is `-π² ħc/(720 L³)`), up to the effect of the lower frequency cut-off `1e-20`. -/
theorem C86_zeroT {q : Quad} (hq : q.Exact) {L : ℝ} (hL : 0 < L) (s : Bool) :
    ∃ E, (mirrors ⟨.lorentz, [], none⟩).freeEnergy q (.fin 0) L s = .ok E ∧
      -(Real.pi ^ 3 / (360 * L ^ 3)) ≤ E ∧
      E ≤ -(Real.pi ^ 3 / (360 * L ^ 3)) + 1e-20 / (4 * Real.pi * L ^ 2) * li 3 1 := by
  have hv : (Material.mk .lorentz [] none).cls ≠ .pec := by simp
  have hO := mirrors_Ok hv vacuum_ok
  have ha : (0:ℝ) < 1e-20 := by norm_num
  obtain ⟨i1, i2⟩ := int_integrable hO hL ha.le
  have hpi := Real.pi_pos
  have e : (mirrors ⟨.lorentz, [], none⟩).freeEnergy q (.fin 0) L s = .ok (∫ κ in Ioi (1e-20:ℝ),
      ((mirrors ⟨.lorentz, [], none⟩).IntTE L κ + (mirrors ⟨.lorentz, [], none⟩).IntTM L κ)) := by
    unfold PFA.freeEnergy PFA.e0
    simp only [if_true]
    exact hq.inf _ _ _ (fun κ hκ => integral_val hq hO (ha.trans hκ) hL) (i1.add i2)
  have e2 : ∫ κ in Ioi (1e-20:ℝ), ((mirrors ⟨.lorentz, [], none⟩).IntTE L κ + (mirrors ⟨.lorentz, [], none⟩).IntTM L κ) =
      -(1 / Real.pi) * ∫ κ in Ioi (1e-20:ℝ), (κ / (2 * L) * li 2 (Real.exp (-2 * κ * L)) +
        li 3 (Real.exp (-2 * κ * L)) / (4 * L ^ 2)) := by
    rw [← integral_const_mul]
    refine setIntegral_congr_fun measurableSet_Ioi fun κ hκ => ?_
    have hk : 0 < κ := ha.trans hκ
    rw [(mirrors_int hv vacuum_ok hk hL).1, (mirrors_int hv vacuum_ok hk hL).2, vacuum_kap0 hk]
    unfold mirrorInt
    field_simp
    ring
  refine ⟨_, e, ?_⟩
  rw [e2]
  have hb := mirror_total_bounds ha hL
  simp only at hb
  generalize ∫ κ in Ioi (1e-20:ℝ), (κ / (2 * L) * li 2 (Real.exp (-2 * κ * L)) +
        li 3 (Real.exp (-2 * κ * L)) / (4 * L ^ 2)) = I at hb ⊢
  have e3 : Real.pi ^ 3 / (360 * L ^ 3) = 1 / Real.pi * (Real.pi ^ 4 / (360 * L ^ 3)) := by field_simp
  have e4 : 1e-20 / (4 * Real.pi * L ^ 2) * li 3 1 = 1 / Real.pi * (1e-20 / (4 * L ^ 2) * li 3 1) := by field_simp
  rw [e3, e4]
  have hp : 0 < 1 / Real.pi := by positivity
  constructor
  · have := mul_le_mul_of_nonneg_left hb.1 hp.le; linarith
  · have := mul_le_mul_of_nonneg_left hb.2 hp.le
    rw [mul_sub] at this
    linarith

/-- C86: in the high-temperature limit the free energy (divided by `T`) is `-ζ(3)/(8 π L²)`, up to the effect of the
frequency `1e-20` used in place of zero. -/
theorem C86_highT {q : Quad} (hq : q.Exact) {L : ℝ} (hL : 0 < L) :
    ∃ F, (mirrors ⟨.lorentz, [], none⟩).freeEnergy q .inf L false = .ok F ∧
      -(li 3 1 / (8 * Real.pi * L ^ 2)) ≤ F ∧ F ≤ -(li 3 1 / (8 * Real.pi * L ^ 2)) + 1e-20 * Real.pi / (24 * L) := by
  have hv : (Material.mk .lorentz [] none).cls ≠ .pec := by simp
  have hO := mirrors_Ok hv vacuum_ok
  have ha : (0:ℝ) < 1e-20 := by norm_num
  have hpi := Real.pi_pos
  refine ⟨_, (C64_highT (integralTE_val hq hO ha hL) (integralTM_val hq hO ha hL)).2, ?_⟩
  rw [(mirrors_int hv vacuum_ok ha hL).1, (mirrors_int hv vacuum_ok ha hL).2, vacuum_kap0 ha]
  have hb := mirror_small ha hL
  simp only at hb
  change mirrorInt 1e-20 L ≤ _ ∧ _ ≤ mirrorInt 1e-20 L at hb
  generalize mirrorInt 1e-20 L = I at hb ⊢
  have e3 : li 3 1 / (8 * Real.pi * L ^ 2) = 1 / (2 * Real.pi) * (li 3 1 / (4 * L ^ 2)) := by field_simp; ring
  have e4 : 1e-20 * Real.pi / (24 * L) = 1 / (2 * Real.pi) * (1e-20 * Real.pi ^ 2 / (12 * L)) := by field_simp; norm_num
  have e5 : (-(I / (2 * Real.pi)) + -(I / (2 * Real.pi))) / 2 = -(1 / (2 * Real.pi) * I) := by ring
  rw [e3, e4, e5]
  have hp : 0 < 1 / (2 * Real.pi) := by positivity
  constructor
  · have := mul_le_mul_of_nonneg_left hb.1 hp.le; linarith
  · have := mul_le_mul_of_nonneg_left hb.2 hp.le
    rw [mul_sub] at this
    linarith

/-- An exact integrator exists; the hypotheses are met. -/
example : ∃ E, (mirrors ⟨.lorentz, [], none⟩).freeEnergy exactQuad (.fin 0) 1 false = .ok E ∧
    -(Real.pi ^ 3 / 360) ≤ E := by
  obtain ⟨E, h, h', -⟩ := C86_zeroT exactQuad_exact one_pos false
  exact ⟨E, h, by simpa using h'⟩

/-- C64 is violated: for perfect mirrors the force with the flag set is not the one with the zero-frequency term
removed. -/
theorem C64_refuted : ¬ ForceShields exactQuad (mirrors ⟨.lorentz, [], none⟩) 1 1 (.fin 1) 3 true := by
  intro h
  have e1 : (3:ℝ) - 1 - 1 = 1 := by norm_num
  have hs := C86_finiteT exactQuad_exact (T := 1) (L := 1) one_pos one_pos true
  have hf := C86_finiteT exactQuad_exact (T := 1) (L := 1) one_pos one_pos false
  have h1 := h _ (by rw [e1]; exact hs)
  have h2 := C88_force_outside (q := exactQuad) (p := mirrors ⟨.lorentz, [], none⟩) (r1 := 1) (r2 := 1) (d := 3)
    (T := .fin 1) one_pos one_pos (by norm_num) _ (by rw [e1]; exact hf)
  have h3 : (mirrors ⟨.lorentz, [], none⟩).sphereForce exactQuad 1 1 (.fin 1) 3 true =
    (mirrors ⟨.lorentz, [], none⟩).sphereForce exactQuad 1 1 (.fin 1) 3 false := rfl
  rw [h3, h2] at h1
  have h4 := Except.ok.inj h1
  have hpi := Real.pi_pos
  have h5 := mul_left_cancel₀ (by positivity) h4
  unfold matsubaraSum at h5
  have := mirrorTerm_neg (κ := 1e-10) (L := 1) (by norm_num) one_pos
  simp only [if_true, Bool.false_eq_true, if_false, one_mul] at h5
  linarith

/-- C64, what remains: finite-temperature free energy, pressure and high-temperature limit obey the flag. -/
theorem C64_partial {q : Quad} {p : PFA} {T L : ℝ} (hT : 0 < T) (hL : 0 < L) {φ ψ : ℝ → ℝ} {te tm : ℝ}
    (hφ : ∀ κ, 0 < κ → p.integral q L κ = .ok (φ κ)) (hψ : ∀ κ, 0 < κ → p.pressureIntegral q L κ = .ok (ψ κ))
    (h1 : p.integralTE q 0 L 1e-20 = .ok te) (h2 : p.integralTM q 0 L 1e-20 = .ok tm) :
    (∃ a b, p.freeEnergy q (.fin T) L true = .ok a ∧ p.freeEnergy q (.fin T) L false = .ok b ∧
      a = b - T * (φ 1e-10 / 2)) ∧
    (∃ a b, p.pressure q T L true = .ok a ∧ p.pressure q T L false = .ok b ∧ a = b - T * (ψ 1e-20 / 2)) ∧
    (∃ a b, p.freeEnergy q .inf L true = .ok a ∧ p.freeEnergy q .inf L false = .ok b ∧ a = b - (te + tm) / 2) := by
  refine ⟨⟨_, _, C64_freeEnergy hT hL hφ true, C64_freeEnergy hT hL hφ false, ?_⟩,
    ⟨_, _, C64_pressure hT hL hψ true, C64_pressure hT hL hψ false, ?_⟩,
    ⟨_, _, (C64_highT h1 h2).1, (C64_highT h1 h2).2, ?_⟩⟩
  · unfold matsubaraSum; simp only [if_true, Bool.false_eq_true, if_false]; ring
  · unfold matsubaraSum; simp only [if_true, Bool.false_eq_true, if_false]; ring
  · ring

/-! ## C87: equal plates -/

theorem log_sq_mono {r k L L' : ℝ} (hr : |r| ≤ 1) (hk : 0 < k) (hL : 0 < L) (h : L ≤ L') :
    Real.log (1 - r * r * Real.exp (-2 * k * L)) ≤ Real.log (1 - r * r * Real.exp (-2 * k * L')) := by
  have hr2 : |r * r| ≤ 1 := by rw [abs_mul]; exact mul_le_one₀ hr (abs_nonneg _) hr
  apply Real.log_le_log
  · refine one_sub_pos hr2 (Real.exp_pos _) ?_
    rw [Real.exp_lt_one_iff]; have := mul_pos hk hL; linarith
  · have : Real.exp (-2 * k * L') ≤ Real.exp (-2 * k * L) := by
      apply Real.exp_le_exp.2; nlinarith
    have := mul_le_mul_of_nonneg_left this (mul_self_nonneg r)
    linarith

variable {m md : Material}

theorem equal_nonpos (h : PFA.Ok ⟨m, m, md⟩) {L kn : ℝ} (hk : 0 < kn) (hL : 0 < L) :
    PFA.IntTE ⟨m, m, md⟩ L kn + PFA.IntTM ⟨m, m, md⟩ L kn ≤ 0 := by
  have h1 : PFA.IntTE ⟨m, m, md⟩ L kn ≤ 0 := by
    refine setIntegral_nonpos measurableSet_Ioi fun k hk' => ?_
    have hk' : 0 < k := hk'
    exact mul_nonpos_of_nonneg_of_nonpos (by have := Real.pi_pos; positivity)
      (log_chan_sq (reflTE_abs h.h1 h.pen h.hmd hk) (Real.exp_pos _) (exp_lt h hk hL)).1
  have h2 : PFA.IntTM ⟨m, m, md⟩ L kn ≤ 0 := by
    refine setIntegral_nonpos measurableSet_Ioi fun k hk' => ?_
    have hk' : 0 < k := hk'
    exact mul_nonpos_of_nonneg_of_nonpos (by have := Real.pi_pos; positivity)
      (log_chan_sq (reflTM_abs h.h1 h.pen h.hmd hk) (Real.exp_pos _) (exp_lt h hk hL)).1
  linarith

theorem equal_mono (h : PFA.Ok ⟨m, m, md⟩) {L L' kn : ℝ} (hk : 0 < kn) (hL : 0 < L) (hLL : L ≤ L') :
    PFA.IntTE ⟨m, m, md⟩ L kn + PFA.IntTM ⟨m, m, md⟩ L kn ≤
      PFA.IntTE ⟨m, m, md⟩ L' kn + PFA.IntTM ⟨m, m, md⟩ L' kn := by
  have hL' := hL.trans_le hLL
  have h1 : PFA.IntTE ⟨m, m, md⟩ L kn ≤ PFA.IntTE ⟨m, m, md⟩ L' kn := by
    refine setIntegral_mono_on (intTE_ok h hk hL).1 (intTE_ok h hk hL').1 measurableSet_Ioi fun k hk' => ?_
    have hk' : 0 < k := hk'
    refine mul_le_mul_of_nonneg_left ?_ (by have := Real.pi_pos; positivity)
    exact log_sq_mono (reflTE_abs h.h1 h.pen h.hmd hk) (kapV_pos h.pen h.hmd hk) hL hLL
  have h2 : PFA.IntTM ⟨m, m, md⟩ L kn ≤ PFA.IntTM ⟨m, m, md⟩ L' kn := by
    refine setIntegral_mono_on (intTM_ok h hk hL).1 (intTM_ok h hk hL').1 measurableSet_Ioi fun k hk' => ?_
    have hk' : 0 < k := hk'
    refine mul_le_mul_of_nonneg_left ?_ (by have := Real.pi_pos; positivity)
    exact log_sq_mono (reflTM_abs h.h1 h.pen h.hmd hk) (kapV_pos h.pen h.hmd hk) hL hLL
  linarith

/-- the contribution of a frequency is negative if the plates differ from the medium there -/
theorem equal_neg (h : PFA.Ok ⟨m, m, md⟩) {L kn : ℝ} (hk : 0 < kn) (hL : 0 < L) (hne : m.medium kn ≠ md.medium kn) :
    PFA.IntTE ⟨m, m, md⟩ L kn + PFA.IntTM ⟨m, m, md⟩ L kn < 0 := by
  have i1 := (intTE_ok h hk hL).1
  have i2 := (intTM_ok h hk hL).1
  have e : PFA.IntTE ⟨m, m, md⟩ L kn + PFA.IntTM ⟨m, m, md⟩ L kn =
      ∫ k in Ioi (0:ℝ), (k / (2 * Real.pi) * PFA.logTE ⟨m, m, md⟩ L kn k + k / (2 * Real.pi) * PFA.logTM ⟨m, m, md⟩ L kn k) :=
    (integral_add i1 i2).symm
  have hneg : ∀ k, 0 < k → k / (2 * Real.pi) * PFA.logTE ⟨m, m, md⟩ L kn k + k / (2 * Real.pi) *
      PFA.logTM ⟨m, m, md⟩ L kn k < 0 := by
    intro k hk'
    obtain ⟨te, tm, h1, h2, h3, -, h4⟩ := C61_attractive h (kperp := k) hk hL
    rw [roundTrips_val h hk hL] at h1
    have h1 := Except.ok.inj h1
    have t1 : PFA.logTE ⟨m, m, md⟩ L kn k = te := congrArg Prod.fst h1
    have t2 : PFA.logTM ⟨m, m, md⟩ L kn k = tm := congrArg Prod.snd h1
    rw [t1, t2, ← mul_add]
    have : te + tm ≠ 0 := fun h => hne ((h4 hk'.ne').1 h)
    have : te + tm < 0 := lt_of_le_of_ne (by linarith) this
    exact mul_neg_of_pos_of_neg (by have := Real.pi_pos; positivity) this
  rw [e]
  have hi := (i1.add i2).neg
  have hpos : 0 < ∫ k in Ioi (0:ℝ), -(k / (2 * Real.pi) * PFA.logTE ⟨m, m, md⟩ L kn k + k / (2 * Real.pi) *
      PFA.logTM ⟨m, m, md⟩ L kn k) := by
    rw [setIntegral_pos_iff_support_of_nonneg_ae]
    · have hsub : Ioi (0:ℝ) ⊆ Function.support (fun k => -(k / (2 * Real.pi) * PFA.logTE ⟨m, m, md⟩ L kn k +
          k / (2 * Real.pi) * PFA.logTM ⟨m, m, md⟩ L kn k)) ∩ Ioi 0 := by
        intro k hk'
        refine ⟨?_, hk'⟩
        rw [Function.mem_support]
        have := hneg k hk'
        linarith
      refine lt_of_lt_of_le ?_ (measure_mono hsub)
      simp
    · filter_upwards [ae_restrict_mem measurableSet_Ioi] with k hk'
      have := hneg k hk'
      simp only [Pi.zero_apply]
      linarith
    · exact hi
  rw [integral_neg] at hpos
  linarith

/-- C87: equal plates attract: the free energy is never positive, and negative if the plates differ from the medium at
the frequency used for the zeroth term. -/
theorem C87_equal_negative {q : Quad} (hq : q.Exact) (h : PFA.Ok ⟨m, m, md⟩) {T L : ℝ} (hT : 0 < T) (hL : 0 < L)
    (s : Bool) : ∃ F, PFA.freeEnergy q ⟨m, m, md⟩ (.fin T) L s = .ok F ∧ F ≤ 0 ∧
      (s = false → m.medium 1e-10 ≠ md.medium 1e-10 → F < 0) := by
  refine ⟨_, C64_freeEnergy hT hL (fun κ hκ => integral_val hq h hκ hL) s, ?_, ?_⟩
  · have := matsubaraSum_le (Λ := 20 / L) hT (f0 := if s then 0 else
      (PFA.IntTE ⟨m, m, md⟩ L 1e-10 + PFA.IntTM ⟨m, m, md⟩ L 1e-10) / 2) (g0 := 0)
      (φ := fun κ => PFA.IntTE ⟨m, m, md⟩ L κ + PFA.IntTM ⟨m, m, md⟩ L κ) (ψ := fun _ => 0)
      (by
        split
        · exact le_rfl
        · have := equal_nonpos h (kn := 1e-10) (by norm_num) hL; linarith)
      (fun κ hκ => equal_nonpos h hκ hL)
    refine this.trans (le_of_eq ?_)
    unfold matsubaraSum; simp
  · rintro rfl hne
    have h0 := equal_neg h (kn := 1e-10) (by norm_num) hL hne
    have := matsubaraSum_le (Λ := 20 / L) hT (f0 := (PFA.IntTE ⟨m, m, md⟩ L 1e-10 + PFA.IntTM ⟨m, m, md⟩ L 1e-10) / 2)
      (φ := fun κ => PFA.IntTE ⟨m, m, md⟩ L κ + PFA.IntTM ⟨m, m, md⟩ L κ) (ψ := fun _ => 0) le_rfl
      (fun κ hκ => equal_nonpos h hκ hL)
    simp only [Bool.false_eq_true, if_false]
    refine lt_of_le_of_lt this ?_
    unfold matsubaraSum
    simp only [Finset.sum_const_zero, add_zero]
    exact mul_neg_of_pos_of_neg hT (by linarith)

/-- C87: for equal plates the free energy does not decrease with the distance (although the number of terms does). -/
theorem C87_equal_mono {q : Quad} (hq : q.Exact) (h : PFA.Ok ⟨m, m, md⟩) {T L L' : ℝ} (hT : 0 < T) (hL : 0 < L)
    (hLL : L ≤ L') (s : Bool) : ∃ F F', PFA.freeEnergy q ⟨m, m, md⟩ (.fin T) L s = .ok F ∧
      PFA.freeEnergy q ⟨m, m, md⟩ (.fin T) L' s = .ok F' ∧ F ≤ F' := by
  have hL' := hL.trans_le hLL
  refine ⟨_, _, C64_freeEnergy hT hL (fun κ hκ => integral_val hq h hκ hL) s,
    C64_freeEnergy hT hL' (fun κ hκ => integral_val hq h hκ hL') s, ?_⟩
  have h1 := matsubaraSum_le (Λ := 20 / L) hT (f0 := if s then 0 else
      (PFA.IntTE ⟨m, m, md⟩ L 1e-10 + PFA.IntTM ⟨m, m, md⟩ L 1e-10) / 2)
      (g0 := if s then 0 else (PFA.IntTE ⟨m, m, md⟩ L' 1e-10 + PFA.IntTM ⟨m, m, md⟩ L' 1e-10) / 2)
      (φ := fun κ => PFA.IntTE ⟨m, m, md⟩ L κ + PFA.IntTM ⟨m, m, md⟩ L κ)
      (ψ := fun κ => PFA.IntTE ⟨m, m, md⟩ L' κ + PFA.IntTM ⟨m, m, md⟩ L' κ)
      (by
        split
        · exact le_rfl
        · have := equal_mono h (kn := 1e-10) (by norm_num) hL hLL; linarith)
      (fun κ hκ => equal_mono h hκ hL hLL)
  refine h1.trans ?_
  unfold matsubaraSum
  refine mul_le_mul_of_nonneg_left ?_ hT.le
  apply add_le_add le_rfl
  have hsub : Finset.Icc 1 ⌊20 / L' / T⌋₊ ⊆ Finset.Icc 1 ⌊20 / L / T⌋₊ := by
    apply Finset.Icc_subset_Icc le_rfl
    apply Nat.floor_le_floor
    gcongr
  rw [← Finset.sum_sdiff hsub]
  have : ∑ n ∈ Finset.Icc 1 ⌊20 / L / T⌋₊ \ Finset.Icc 1 ⌊20 / L' / T⌋₊,
      (PFA.IntTE ⟨m, m, md⟩ L' (n * T) + PFA.IntTM ⟨m, m, md⟩ L' (n * T)) ≤ 0 := by
    apply Finset.sum_nonpos
    intro n hn
    have h1 : 1 ≤ n := (Finset.mem_Icc.1 (Finset.mem_sdiff.1 hn).1).1
    have : (0:ℝ) < n := by exact_mod_cast h1
    exact equal_nonpos h (by positivity) hL'
  linarith

/-- The hypotheses of C87 are met by gold plates in vacuum. -/
example : ∃ F, PFA.freeEnergy exactQuad ⟨⟨.lorentz, eGold, none⟩, ⟨.lorentz, eGold, none⟩, ⟨.lorentz, [], none⟩⟩
    (.fin 1) 1 false = .ok F ∧ F < 0 := by
  have hg : (Material.mk .lorentz eGold none).Physical := ⟨by norm_num [eGold], by simp, by simp⟩
  obtain ⟨F, h, -, h'⟩ := C87_equal_negative exactQuad_exact (m := ⟨.lorentz, eGold, none⟩) (md := ⟨.lorentz, [], none⟩)
    ⟨hg, hg, vacuum_ok, by simp⟩ (T := 1) (L := 1) one_pos one_pos false
  refine ⟨F, h, h' rfl ?_⟩
  rw [(medium_val (by simp) hg (by norm_num)).1, vacuum_medium]
  intro he
  have he := Except.ok.inj he
  injection he with he _
  rw [epsV_lorentz rfl hg (by norm_num)] at he
  have hn := omegaNorm_pos
  simp only [eGold, List.map_cons, List.map_nil, List.sum_cons, List.sum_nil, add_zero, lorT] at he
  have : 0 < (1.37e16 / omegaNorm) ^ 2 / ((0 / omegaNorm) ^ 2 + (1e-10:ℝ) ^ 2 + 5.77e13 / omegaNorm * 1e-10) := by positivity
  linarith

/-! ## C89: raw_PFA.py -/

/-- C89: `raw_PFA.planeplaneFreeEnergy` differs from `PFA.planeplaneFreeEnergy` only in the cut-off (`100/L` instead of
`20/L`). -/
theorem C89_raw {q : Quad} (hq : q.Exact) {p : PFA} (h : p.Ok) {T L : ℝ} (hT : 0 < T) (hL : 0 < L) (s : Bool) :
    ∃ φ : ℝ → ℝ, (∀ κ, 0 < κ → p.integral q L κ = .ok (φ κ)) ∧
      p.freeEnergy q (.fin T) L s = .ok (matsubaraSum (if s then 0 else φ 1e-10 / 2) φ T (20 / L)) ∧
      p.rawFreeEnergy q T L s = .ok (matsubaraSum (if s then 0 else φ 1e-10 / 2) φ T (100 / L)) := by
  refine ⟨_, fun κ hκ => integral_val hq h hκ hL, C64_freeEnergy hT hL (fun κ hκ => integral_val hq h hκ hL) s, ?_⟩
  unfold rawFreeEnergy
  rw [if_neg hT.ne', matsubaras_val (by norm_num) hT hL, ok_bind,
    mapM_ok (fun κ hκ => integralTE_val hq h (mats_pos (by norm_num) hT hκ) hL), ok_bind,
    mapM_ok (fun κ hκ => integralTM_val hq h (mats_pos (by norm_num) hT hκ) hL), ok_bind]
  simp only [List.map_cons, weightZero, ok_bind, List.sum_cons]
  congr 1
  unfold matsubaraSum
  rw [← sum_range_succ (fun κ => p.IntTE L κ + p.IntTM L κ), mul_add, ← List.sum_map_mul_left]
  simp only [List.map_map]
  have e : ∀ l : List ℕ, ∀ f g : ℕ → ℝ, (l.map f).sum + (l.map g).sum = (l.map fun i => f i + g i).sum := by
    intro l f g
    induction l with
    | nil => simp
    | cons a l ih => simp only [List.map_cons, List.sum_cons]; rw [← ih]; ring
  have e2 : ∀ a b c d : ℝ, a + b + (c + d) = (a + c) + (b + d) := by intros; ring
  rw [e2, e]
  congr 1
  · cases s <;> simp
    ring
  · congr 1
    apply List.map_congr_left
    intro i _
    simp only [Function.comp]
    ring

/-- C89: in raw_PFA.py the sphere-sphere energy is half the distance times the force. -/
theorem C89_energy_force {q : Quad} {p : PFA} {r1 r2 L f : ℝ} {T : Temp} {s ext : Bool}
    (h : p.rawSphereForce q r1 r2 T L s ext = .ok f) : p.rawSphereEnergy q r1 r2 T L s ext = .ok (L / 2 * f) := by
  unfold rawSphereForce at h
  unfold rawSphereEnergy
  by_cases h0 : r1 + r2 = 0
  · unfold cdiv at h; rw [if_pos h0, error_bind] at h; cases h
  rw [cdiv_ok h0, ok_bind] at h ⊢
  cases ext with
  | true =>
    simp only [if_true, ok_bind] at h ⊢
    cases hp : p.rawPlane q T L s with
    | error e => rw [hp, error_bind] at h; cases h
    | ok v =>
      rw [hp, ok_bind] at h
      rw [ok_bind, ← Except.ok.inj h]
      congr 1; ring
  | false =>
    simp only [Bool.false_eq_true, if_false] at h ⊢
    by_cases h1 : r2 - r1 = 0
    · unfold cdiv at h; rw [if_pos h1, error_bind] at h; cases h
    rw [cdiv_ok h1, ok_bind] at h ⊢
    cases hp : p.rawPlane q T L s with
    | error e => rw [hp, error_bind] at h; cases h
    | ok v =>
      rw [hp, ok_bind] at h
      rw [ok_bind, ← Except.ok.inj h]
      congr 1; ring

/-- C89: `raw_PFA.get_f_matsubaras` changes the caller's array exactly if it starts with zero. -/
theorem C89_mutation {q : Quad} {p : PFA} {L : ℝ} {ms fs ms' : List ℝ} {s : Bool}
    (h : p.rawGetFMatsubaras q L ms s = .ok (fs, ms')) : (ms' = ms ↔ ∀ m ∈ ms.head?, m ≠ 0) ∧
      (ms.head? = some 0 → ms'.head? = some 1e-20 ∧ ms'.tail = ms.tail) := by
  cases ms with
  | nil => cases h
  | cons m0 rest =>
    unfold rawGetFMatsubaras at h
    simp only at h
    cases h1 : ((if m0 = 0 then 1e-20 else m0) :: rest).mapM (p.integralTE q 0 L) with
    | error e => rw [h1, error_bind] at h; cases h
    | ok te =>
      rw [h1, ok_bind] at h
      cases h2 : ((if m0 = 0 then 1e-20 else m0) :: rest).mapM (p.integralTM q 0 L) with
      | error e => rw [h2, error_bind] at h; cases h
      | ok tm =>
        rw [h2, ok_bind] at h
        have := congrArg Prod.snd (Except.ok.inj h)
        simp only at this
        subst this
        by_cases h0 : m0 = 0
        · subst h0; norm_num
        · simp [h0]

end CasSph
