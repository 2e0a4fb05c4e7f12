import Verif.Lemmas.PFAPressure
import Verif.Props.PFAExact

/-! # C118: the pressure between plane plates -/

namespace CasSph

open MeasureTheory Set Filter Topology Spec PFA

/-- C118: with exact integration the contribution of every frequency to `planeplanePressure` exists for all physical
plates; minus twice that contribution is the derivative by the distance of the frequency's contribution to the free
energy. -/
theorem C118_derivative {q : Quad} (hq : q.Exact) {p : PFA} (h : p.Ok) {kn L : ℝ} (hk : 0 < kn) (hL : 0 < L) (φ : ℝ → ℝ)
    (hφ : ∀ x, 0 < x → p.integral q x kn = .ok (φ x)) :
    ∃ P, p.pressureIntegral q L kn = .ok P ∧ HasDerivAt φ (-(2 * P)) L := by
  refine ⟨_, pressureIntegral_val hq h hk hL, ?_⟩
  have hd := (presTE_ok h hk hL).2.2.add (presTM_ok h hk hL).2.2
  have he : (fun x => p.IntTE x kn + p.IntTM x kn) =ᶠ[𝓝 L] φ := by
    filter_upwards [lt_mem_nhds hL] with x hx
    exact Except.ok.inj ((integral_val hq h hk hx).symm.trans (hφ x hx))
  refine (hd.congr_of_eventuallyEq he.symm).congr_deriv ?_
  ring

/-- C118: `planeplanePressure` of PFA.py is the Matsubara sum of these contributions up to the wavenumber `20/L`, that of
raw_PFA.py the same sum up to `100/L`. -/
theorem C118_value {q : Quad} (hq : q.Exact) {p : PFA} (h : p.Ok) {T L : ℝ} (hT : 0 < T) (hL : 0 < L) (s : Bool) :
    ∃ φ : ℝ → ℝ, (∀ κ, 0 < κ → p.pressureIntegral q L κ = .ok (φ κ)) ∧
      p.pressure q T L s = .ok (matsubaraSum (if s then 0 else φ 1e-20 / 2) φ T (20 / L)) ∧
      p.rawPressure q T L s = .ok (matsubaraSum (if s then 0 else φ 1e-20 / 2) φ T (100 / L)) := by
  refine ⟨_, fun κ hκ => pressureIntegral_val hq h hκ hL,
    C64_pressure hT hL (fun κ hκ => pressureIntegral_val hq h hκ hL) s, ?_⟩
  unfold rawPressure
  rw [matsubaras_val (by norm_num) hT hL, ok_bind,
    mapM_ok (fun κ hκ => rawPressureTE_val hq h (mats_pos (by norm_num) hT hκ) hL), ok_bind,
    mapM_ok (fun κ hκ => rawPressureTM_val hq h (mats_pos (by norm_num) hT hκ) hL), ok_bind]
  simp only [List.map_cons, weightZero, ok_bind, List.sum_cons]
  congr 1
  unfold matsubaraSum
  rw [← sum_range_succ (fun κ => p.PresTE L κ + p.PresTM L κ), mul_add, ← List.sum_map_mul_left]
  simp only [List.map_map]
  have e : ∀ l : List ℕ, ∀ f g : ℕ → ℝ, (l.map f).sum + (l.map g).sum = (l.map fun i => f i + g i).sum := by
    intro l f g
    induction l with
    | nil => simp
    | cons a l ih => simp only [List.map_cons, List.sum_cons]; rw [← ih]; ring
  have e2 : ∀ a b c d : ℝ, a + b + (c + d) = (a + c) + (b + d) := by intros; ring
  rw [e2, e]
  congr 1
  · cases s <;> simp
    ring
  · congr 1
    apply List.map_congr_left
    intro i _
    simp only [Function.comp]
    ring

/-- C118: as long as the number of frequencies does not change (`20/(T L)` is no integer), the derivative of
`planeplaneFreeEnergy` by the distance is minus twice `planeplanePressure`, up to the different stand-ins `1e-10` and
`1e-20` for the zero frequency. -/
theorem C118_total {q : Quad} (hq : q.Exact) {p : PFA} (h : p.Ok) {T L : ℝ} (hT : 0 < T) (hL : 0 < L)
    (hn : ∀ n : ℕ, 20 / L / T ≠ n) (s : Bool) (F : ℝ → ℝ) (hF : ∀ x, 0 < x → p.freeEnergy q (.fin T) x s = .ok (F x)) :
    ∃ P a b, p.pressure q T L s = .ok P ∧ p.pressureIntegral q L 1e-20 = .ok a ∧ p.pressureIntegral q L 1e-10 = .ok b ∧
      HasDerivAt F (-(2 * P) + if s then 0 else T * (a - b)) L := by
  refine ⟨_, _, _, C64_pressure hT hL (fun κ hκ => pressureIntegral_val hq h hκ hL) s,
    pressureIntegral_val hq h (by norm_num) hL, pressureIntegral_val hq h (by norm_num) hL, ?_⟩
  set N := ⌊20 / L / T⌋₊ with hN
  have hd : ∀ κ, 0 < κ → HasDerivAt (fun x => p.IntTE x κ + p.IntTM x κ) (-(2 * (p.PresTE L κ + p.PresTM L κ))) L := by
    intro κ hκ
    exact ((presTE_ok h hκ hL).2.2.add (presTM_ok h hκ hL).2.2).congr_deriv (by ring)
  have hG : HasDerivAt (fun x => T * ((if s then 0 else (p.IntTE x 1e-10 + p.IntTM x 1e-10) / 2) +
      ∑ n ∈ Finset.Icc 1 N, (p.IntTE x (n * T) + p.IntTM x (n * T))))
      (T * ((if s then 0 else -(p.PresTE L 1e-10 + p.PresTM L 1e-10)) +
      ∑ n ∈ Finset.Icc 1 N, -(2 * (p.PresTE L (n * T) + p.PresTM L (n * T))))) L := by
    refine HasDerivAt.const_mul T (HasDerivAt.add ?_ ?_)
    · cases s
      · refine ((hd 1e-10 (by norm_num)).div_const 2).congr_deriv ?_
        simp only [Bool.false_eq_true, if_false]
        ring
      · simpa using hasDerivAt_const L (0:ℝ)
    · refine HasDerivAt.fun_sum fun n hn => hd _ ?_
      have : 1 ≤ n := (Finset.mem_Icc.1 hn).1
      have : (0:ℝ) < n := by exact_mod_cast this
      positivity
  have hev : ∀ᶠ x in 𝓝 L, ⌊20 / x / T⌋₊ = N := by
    have hc : ContinuousAt (fun x : ℝ => 20 / x / T) L :=
      ((continuousAt_const.div continuousAt_id hL.ne').div_const T)
    have h0 : 0 ≤ 20 / L / T := by positivity
    have h1 : (N : ℝ) < 20 / L / T := lt_of_le_of_ne (Nat.floor_le h0) (hn N).symm
    have h2 : 20 / L / T < N + 1 := Nat.lt_floor_add_one _
    filter_upwards [hc.eventually (lt_mem_nhds h1), hc.eventually (gt_mem_nhds h2), lt_mem_nhds hL] with x a b c
    rw [Nat.floor_eq_iff (by positivity)]
    exact ⟨a.le, b⟩
  have he : F =ᶠ[𝓝 L] fun x => T * ((if s then 0 else (p.IntTE x 1e-10 + p.IntTM x 1e-10) / 2) +
      ∑ n ∈ Finset.Icc 1 N, (p.IntTE x (n * T) + p.IntTM x (n * T))) := by
    filter_upwards [hev, lt_mem_nhds hL] with x hx hx0
    have := Except.ok.inj ((hF x hx0).symm.trans
      (C64_freeEnergy hT hx0 (fun κ hκ => integral_val hq h hκ hx0) s))
    rw [this]
    unfold matsubaraSum
    rw [hx]
  refine (hG.congr_of_eventuallyEq he).congr_deriv ?_
  unfold matsubaraSum
  rw [← hN, Finset.sum_neg_distrib, ← Finset.mul_sum]
  cases s
  · simp only [Bool.false_eq_true, if_false]; ring
  · simp only [if_true]; ring

theorem mirrors_pres {md : Material} (hc : md.cls ≠ .pec) (hp : md.Physical) {L kn : ℝ} (hk : 0 < kn) (hL : 0 < L) :
    (mirrors md).PresTE L kn = -(presInt (kap0 md kn) L / (2 * Real.pi)) ∧
    (mirrors md).PresTM L kn = -(presInt (kap0 md kn) L / (2 * Real.pi)) := by
  have hm := presM_integral (kap0_pos hc hp hk) hL
  have key : -(presInt (kap0 md kn) L / (2 * Real.pi)) = ∫ k in Ioi (0:ℝ), k / (2 * Real.pi) *
      chanP 1 (Real.sqrt (k ^ 2 + kap0 md kn ^ 2)) L := by
    rw [← hm]
    have : ∀ k : ℝ, k / (2 * Real.pi) * chanP 1 (Real.sqrt (k ^ 2 + kap0 md kn ^ 2)) L =
        -(1 / (2 * Real.pi)) * (k * presM (kap0 md kn) L k) := by
      intro k; rw [chanP_mirror]; unfold presM; ring
    simp_rw [this]
    rw [integral_const_mul]
    ring
  rw [key]
  constructor
  · refine setIntegral_congr_fun measurableSet_Ioi fun k _ => ?_
    simp only [PFA.te, reflTE, mirrors, perfectConductor, if_true]
    norm_num
  · refine setIntegral_congr_fun measurableSet_Ioi fun k _ => ?_
    simp only [PFA.tm, reflTM, mirrors, perfectConductor, if_true]
    norm_num

/-- C118: for perfect mirrors the contribution of every frequency has a closed form. -/
theorem C118_mirrors {q : Quad} (hq : q.Exact) {md : Material} (hp : md.Physical) {kn e m L : ℝ} (hk : 0 < kn)
    (hL : 0 < L) (h : md.medium kn = .ok ⟨e, m⟩) :
    (mirrors md).pressureIntegral q L kn = .ok (mirrorPressure (Real.sqrt (e * m) * kn) L) := by
  have hc := medium_ne_pec h
  rw [pressureIntegral_val hq (mirrors_Ok hc hp) hk hL, (mirrors_pres hc hp hk hL).1, (mirrors_pres hc hp hk hL).2,
    ← kap0_medium hp hk h, mirrorPressure_eq]
  congr 1
  have := Real.pi_pos
  field_simp
  ring

/-- C118: the reference value for the pressure of mirrors is minus half of the derivative of the one for the energy. -/
theorem C118_reference {κ L : ℝ} (hκ : 0 < κ) (hL : 0 < L) :
    HasDerivAt (mirrorTerm κ) (-(2 * mirrorPressure κ L)) L ∧ mirrorPressure κ L < 0 := by
  constructor
  · obtain ⟨P, hP, hd⟩ := C118_derivative exactQuad_exact (mirrors_Ok (md := ⟨.lorentz, [], none⟩) (by simp) vacuum_ok)
      hκ hL (mirrorTerm κ) (fun x hx => by
        rw [C85_mirrors exactQuad_exact vacuum_ok hκ hx (vacuum_medium κ)]; simp)
    rw [C118_mirrors exactQuad_exact vacuum_ok hκ hL (vacuum_medium κ)] at hP
    have hP := Except.ok.inj hP
    simp only [mul_one, Real.sqrt_one, one_mul] at hP
    rw [hP]
    exact hd
  · rw [mirrorPressure_eq]
    have := div_pos (presInt_pos hκ hL) Real.pi_pos
    linarith

theorem pres_abs {p : PFA} (h : p.Ok) {kn L : ℝ} (hk : 0 < kn) (hL : 0 < L) :
    |p.PresTE L kn + p.PresTM L kn| ≤ -((mirrors p.matMd).PresTE L kn + (mirrors p.matMd).PresTM L kn) := by
  rw [(mirrors_pres h.pen h.hmd hk hL).1, (mirrors_pres h.pen h.hmd hk hL).2]
  have h1 := (presTE_ok h hk hL).2.1
  have h2 := (presTM_ok h hk hL).2.1
  have := abs_add_le (p.PresTE L kn) (p.PresTM L kn)
  linarith

theorem sum_abs {φ ψ : ℝ → ℝ} {T Λ z : ℝ} (hT : 0 < T) (hz : 0 < z) (hb : ∀ κ, 0 < κ → |φ κ| ≤ -ψ κ) (s : Bool) :
    |matsubaraSum (if s then 0 else φ z / 2) φ T Λ| ≤ -matsubaraSum (if s then 0 else ψ z / 2) ψ T Λ := by
  rw [abs_le, neg_neg, ← matsubaraSum_neg]
  have b10 := abs_le.1 (hb _ hz)
  constructor
  · refine matsubaraSum_le hT ?_ fun κ hκ => ?_
    · split
      · exact le_rfl
      · linarith [b10.1]
    · linarith [(abs_le.1 (hb κ hκ)).1]
  · refine matsubaraSum_le hT ?_ fun κ hκ => ?_
    · split
      · simp
      · linarith [b10.2]
    · exact (abs_le.1 (hb κ hκ)).2

/-- C118: the pressure exists for all physical plates, and its magnitude is at most that between perfect mirrors in the
same medium (both files). -/
theorem C118_bound {q : Quad} (hq : q.Exact) {p : PFA} (h : p.Ok) {T L : ℝ} (hT : 0 < T) (hL : 0 < L) (s : Bool) :
    (∃ P M, p.pressure q T L s = .ok P ∧ (mirrors p.matMd).pressure q T L s = .ok M ∧ |P| ≤ -M) ∧
    (∃ P M, p.rawPressure q T L s = .ok P ∧ (mirrors p.matMd).rawPressure q T L s = .ok M ∧ |P| ≤ -M) := by
  obtain ⟨φ, hφ, h1, h2⟩ := C118_value hq h hT hL s
  obtain ⟨ψ, hψ, h3, h4⟩ := C118_value hq (mirrors_Ok h.pen h.hmd) hT hL s
  have hb : ∀ κ, 0 < κ → |φ κ| ≤ -ψ κ := by
    intro κ hκ
    rw [← Except.ok.inj ((pressureIntegral_val hq h hκ hL).symm.trans (hφ κ hκ)),
      ← Except.ok.inj ((pressureIntegral_val hq (mirrors_Ok h.pen h.hmd) hκ hL).symm.trans (hψ κ hκ))]
    exact pres_abs h hκ hL
  exact ⟨⟨_, _, h1, h3, sum_abs hT (by norm_num) hb s⟩, ⟨_, _, h2, h4, sum_abs hT (by norm_num) hb s⟩⟩

theorem chanP_nonpos {r s L : ℝ} (h0 : 0 ≤ r) (hr : |r| ≤ 1) (hs : 0 < s) (hL : 0 < L) : chanP r s L ≤ 0 := by
  have h1 := one_sub_pos hr (Real.exp_pos (-2 * s * L)) (exp_mul_lt hL hs)
  unfold chanP
  rw [neg_mul, neg_div]
  have : 0 ≤ s * (r * Real.exp (-2 * s * L)) / (1 - r * Real.exp (-2 * s * L)) := by positivity
  linarith

/-- C118: plates of the same material attract each other, and adding more frequencies (raw_PFA.py) makes the attraction
no smaller. -/
theorem C118_attractive {q : Quad} (hq : q.Exact) {p : PFA} (h : p.Ok) (heq : p.mat1 = p.mat2) {T L : ℝ} (hT : 0 < T)
    (hL : 0 < L) (s : Bool) :
    ∃ P R, p.pressure q T L s = .ok P ∧ p.rawPressure q T L s = .ok R ∧ R ≤ P ∧ P ≤ 0 := by
  obtain ⟨φ, hφ, h1, h2⟩ := C118_value hq h hT hL s
  have hn : ∀ κ, 0 < κ → φ κ ≤ 0 := by
    intro κ hκ
    rw [← Except.ok.inj ((pressureIntegral_val hq h hκ hL).symm.trans (hφ κ hκ))]
    have hs : ∀ k : ℝ, 0 < Real.sqrt (k ^ 2 + kap0 p.matMd κ ^ 2) := fun k =>
      Real.sqrt_pos.2 (by have := kap0_pos h.pen h.hmd hκ; positivity)
    have a : p.PresTE L κ ≤ 0 := by
      refine setIntegral_nonpos measurableSet_Ioi fun k hk => ?_
      have hk : 0 < k := hk
      refine mul_nonpos_of_nonneg_of_nonpos (by have := Real.pi_pos; positivity) (chanP_nonpos ?_ (te_abs h hκ) (hs k) hL)
      unfold PFA.te; rw [heq]; exact mul_self_nonneg _
    have b : p.PresTM L κ ≤ 0 := by
      refine setIntegral_nonpos measurableSet_Ioi fun k hk => ?_
      have hk : 0 < k := hk
      refine mul_nonpos_of_nonneg_of_nonpos (by have := Real.pi_pos; positivity) (chanP_nonpos ?_ (tm_abs h hκ) (hs k) hL)
      unfold PFA.tm; rw [heq]; exact mul_self_nonneg _
    linarith
  refine ⟨_, _, h1, h2, ?_, ?_⟩
  · unfold matsubaraSum
    refine mul_le_mul_of_nonneg_left (add_le_add le_rfl ?_) hT.le
    have hsub : Finset.Icc 1 ⌊20 / L / T⌋₊ ⊆ Finset.Icc 1 ⌊100 / L / T⌋₊ := by
      apply Finset.Icc_subset_Icc le_rfl
      apply Nat.floor_le_floor
      gcongr
      norm_num
    rw [← Finset.sum_sdiff hsub]
    have : ∑ n ∈ Finset.Icc 1 ⌊100 / L / T⌋₊ \ Finset.Icc 1 ⌊20 / L / T⌋₊, φ (n * T) ≤ 0 := by
      refine Finset.sum_nonpos fun n hm => hn _ ?_
      have : 1 ≤ n := (Finset.mem_Icc.1 (Finset.mem_sdiff.1 hm).1).1
      have : (0:ℝ) < n := by exact_mod_cast this
      positivity
    linarith
  · have h0 : matsubaraSum (if s then 0 else φ 1e-20 / 2) φ T (20 / L) ≤ matsubaraSum 0 (fun _ => 0) T (20 / L) := by
      refine matsubaraSum_le hT ?_ hn
      have := hn 1e-20 (by norm_num)
      split <;> linarith
    refine h0.trans (le_of_eq ?_)
    unfold matsubaraSum
    simp

/-- C118: unlike the free energy, the pressure has no branch for zero temperature: the number of frequencies is a
division by zero. -/
theorem C118_zeroT (q : Quad) (p : PFA) (L : ℝ) (s : Bool) :
    p.pressure q 0 L s = .error .zeroDivisionError ∧ p.rawPressure q 0 L s = .error .zeroDivisionError := by
  unfold PFA.pressure PFA.rawPressure matsubaras cdiv
  simp only [zero_mul, if_true, error_bind, and_self]

/-- Perfect mirrors in vacuum at distance 3 and temperature 1 meet the hypotheses of all parts. -/
example : ∃ P R, (mirrors ⟨.lorentz, [], none⟩).pressure exactQuad 1 3 false = .ok P ∧
    (mirrors ⟨.lorentz, [], none⟩).rawPressure exactQuad 1 3 false = .ok R ∧ R ≤ P ∧ P ≤ 0 :=
  C118_attractive exactQuad_exact (mirrors_Ok (by simp) vacuum_ok) rfl one_pos (by norm_num) false

example : ∀ n : ℕ, (20:ℝ) / 3 / 1 ≠ n := by
  intro n h
  have h : (20:ℝ) = 3 * n := by rw [← h]; norm_num
  have : (20:ℕ) = 3 * n := by exact_mod_cast h
  omega

end CasSph
