import Verif.Props.Thermo
import Verif.Props.Materials
import Verif.Props.OneRoundtrip

/-! # Further theorems for C31, C58 and C101: attributes of the materials, rounding of numbers of terms -/

namespace CasSph

/-! ## C58 -/

/-- C58: the attributes of the instances.  A perfect conductor has no finite conductivity and no attribute `is_dielectric`; the
attributes of the other two classes are those of the list of oscillators. -/
theorem C58_attributes (M : Material) :
    (M.cls = .pec → M.sigmaFinite = false ∧ M.dielectric = .error .attributeError) ∧
    (M.cls ≠ .pec → (∀ p ∈ M.e, 0 ≤ p.gamma) →
      (M.sigmaFinite = false ↔ ∃ p ∈ M.e, p.wP ≠ 0 ∧ p.wR = 0 ∧ p.gamma = 0) ∧
      (M.dielectric = .ok true ↔ ¬ ∃ p ∈ M.e, p.wP ≠ 0 ∧ p.wR = 0) ∧ ∃ b, M.dielectric = .ok b) := by
  obtain ⟨cls, e, b⟩ := M
  refine ⟨fun h => ?_, fun h hg => ?_⟩
  · dsimp only at h
    subst h
    exact ⟨rfl, rfl⟩
  · have h1 := C58_sigma_finite_iff e hg
    have h2 := C58_dielectric_iff e
    dsimp only at h ⊢
    cases cls with
    | pec => exact (h rfl).elim
    | lorentz | smith =>
      refine ⟨h1, ?_, ⟨_, rfl⟩⟩
      rw [← h2]
      simp only [Material.dielectric, Except.ok.injEq]

/-- C58: `is_magnetic` is `False` without magnetic properties, `True` for a static permeability other than zero and neither for
the static permeability zero. -/
theorem C58_magnetic (mu0 wM : ℝ) : isMagnetic none = some false ∧ (mu0 ≠ 0 → isMagnetic (some (mu0, wM)) = some true) ∧
    isMagnetic (some (0, wM)) = none := by
  refine ⟨rfl, fun h => ?_, ?_⟩
  · simp [isMagnetic, h]
  · simp [isMagnetic]

example : (Material.mk .lorentz [⟨1, 0, 2⟩] none).cls ≠ .pec ∧ ∀ p ∈ (Material.mk .lorentz [⟨1, 0, 2⟩] none).e, 0 ≤ p.gamma := by
  simp

/-! ## Python's `round` -/

/-- The nearest integer, the even one if there are two. -/
structure Spec.Rounded (n : ℤ) (x : ℝ) : Prop where
  near : |(n : ℝ) - x| ≤ 1 / 2
  even : |(n : ℝ) - x| = 1 / 2 → Even n

/-- There is only one such number. -/
theorem Spec.Rounded.unique {m n : ℤ} {x : ℝ} (hm : Spec.Rounded m x) (hn : Spec.Rounded n x) : m = n := by
  have h1 := abs_le.1 hm.near
  have h2 := abs_le.1 hn.near
  have a1 : (m : ℝ) - n ≤ 1 := by linarith [h1.2, h2.1]
  have a2 : (n : ℝ) - m ≤ 1 := by linarith [h1.1, h2.2]
  have b1 : m - n ≤ 1 := by exact_mod_cast a1
  have b2 : n - m ≤ 1 := by exact_mod_cast a2
  by_contra hne
  have key : ∀ {m n : ℤ}, Spec.Rounded m x → Spec.Rounded n x → m = n + 1 → False := by
    intro m n hm hn h
    have h1 := abs_le.1 hm.near
    have h2 := abs_le.1 hn.near
    have hc : (m : ℝ) = n + 1 := by rw [h]; push_cast; rfl
    have e1 : (m : ℝ) - x = 1 / 2 := by linarith [h1.2, h2.1]
    have e2 : (n : ℝ) - x = -(1 / 2) := by linarith [h1.2, h2.1]
    have f1 := hm.even (by rw [e1]; norm_num)
    have f2 := hn.even (by rw [e2]; norm_num)
    rw [h] at f1
    rw [Int.even_iff] at f1 f2
    omega
  rcases lt_trichotomy m n with h | h | h
  · exact key hn hm (by omega)
  · exact hne h
  · exact key hm hn (by omega)

theorem pyRound_spec (x : ℝ) : Spec.Rounded (pyRound x) x := by
  have e := Int.floor_add_fract x
  have h0 := Int.fract_nonneg x
  have h1 := Int.fract_lt_one x
  unfold pyRound
  split_ifs with c1 c2 c3
  · refine ⟨by rw [abs_le]; constructor <;> linarith, fun h => ?_⟩
    rw [abs_of_nonpos (by linarith)] at h
    linarith
  · refine ⟨by rw [abs_le]; push_cast; constructor <;> linarith, fun h => ?_⟩
    push_cast at h
    rw [abs_of_nonneg (by linarith)] at h
    linarith
  · exact ⟨by rw [abs_le]; constructor <;> linarith, fun _ => c3⟩
  · refine ⟨by rw [abs_le]; push_cast; constructor <;> linarith, fun _ => ?_⟩
    rw [Int.not_even_iff_odd] at c3
    exact c3.add_one

/-- C31: the number of temperatures is `Tmax/deltaT` rounded to the nearest integer, to the even one in the middle. -/
theorem C31_maxstep (deltaT Tmax r1 r2 L lmax : ℝ) (nmax : NMax) (matList isGeo a : Bool) (np : NProcs)
    (o : FTInit) (h : finiteTInit deltaT nmax Tmax r1 r2 L lmax matList isGeo a np = .ok o) :
    ∀ n : ℤ, o.maxstep = n ↔ Spec.Rounded n (Tmax / deltaT) := by
  intro n
  rw [(init_ok h).2.2.2.2.1]
  exact ⟨fun h => h ▸ pyRound_spec _, fun h => (pyRound_spec _).unique h⟩

/-- `5/2` is rounded to 2 and `7/2` to 4. -/
example : pyRound (5 / 2) = 2 ∧ pyRound (7 / 2) = 4 :=
  ⟨(pyRound_spec _).unique ⟨by norm_num [abs_le], fun _ => by decide⟩,
    (pyRound_spec _).unique ⟨by norm_num [abs_le], fun _ => by decide⟩⟩

/-! ## C101 -/

/-- C101: the automatic `mmax` is the integer closest to the binary logarithm of `1/precision`: `2^(-mmax)` and the precision differ
at most by the factor `√2`. -/
theorem C101_automatic (lmax : ℕ) {precision : ℝ} (hp : 0 < precision) :
    ∃ mm : ℤ, mmaxOf lmax precision .automatic = .ok mm ∧ Spec.Rounded mm (-Real.logb 2 precision) ∧
      precision / Real.sqrt 2 ≤ (2 : ℝ) ^ (-mm) ∧ (2 : ℝ) ^ (-mm) ≤ precision * Real.sqrt 2 := by
  have e : Real.log precision / Real.log 0.5 = -Real.logb 2 precision := by
    rw [Real.logb, show (0.5 : ℝ) = 2⁻¹ by norm_num, Real.log_inv, div_neg]
  have h := pyRound_spec (Real.log precision / Real.log 0.5)
  rw [e] at h
  refine ⟨_, rfl, by rw [e]; exact h, ?_⟩
  rw [e]
  generalize pyRound (-Real.logb 2 precision) = mm at h
  have hn := abs_le.1 h.near
  have e1 : (2 : ℝ) ^ (-mm) = (2 : ℝ) ^ (-(mm : ℝ)) := by rw [← Real.rpow_intCast]; push_cast; rfl
  have e2 : precision = (2 : ℝ) ^ Real.logb 2 precision := (Real.rpow_logb (by norm_num) (by norm_num) hp).symm
  have e3 : Real.sqrt 2 = (2 : ℝ) ^ (1 / 2 : ℝ) := Real.sqrt_eq_rpow 2
  rw [e1, e3]
  constructor
  · conv_lhs => rw [e2]
    rw [← Real.rpow_sub (by norm_num)]
    exact Real.rpow_le_rpow_of_exponent_le (by norm_num) (by linarith [hn.1, hn.2])
  · conv_rhs => rw [e2]
    rw [← Real.rpow_add (by norm_num)]
    exact Real.rpow_le_rpow_of_exponent_le (by norm_num) (by linarith [hn.1, hn.2])

/-- Precision `1/8`: three. -/
example : Spec.Rounded 3 (-Real.logb 2 (1 / 8)) := by
  have : Real.logb 2 (1 / 8) = -3 := by
    rw [show (1 / 8 : ℝ) = 2 ^ (-3 : ℝ) by rw [Real.rpow_neg (by norm_num)]; norm_num, Real.logb_rpow (by norm_num) (by norm_num)]
  rw [this]
  exact ⟨by norm_num, fun h => by norm_num at h⟩

end CasSph
