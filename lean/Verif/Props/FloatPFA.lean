import Verif.Lemmas.FloatPFA
import Verif.Spec.FlPFA
import Verif.Props.FloatMie
import Verif.Props.PFAExact
import Mathlib.Analysis.Complex.ExponentialBounds

/-! # C142: rounding of Fresnel coefficients and of the round trips between plates -/

namespace CasSph

open Spec

variable {A : FlMie} {u : ℝ}

/-- **C142.** The computed Fresnel coefficients are within `16 u` of those in exact arithmetic. -/
theorem C142_fresnel (hA : RelErrM A u) (hu : u ≤ 1 / 1000) {P M : Medium} (hP : P.Pos) (hM : M.Pos) (kperp : ℝ) {kn : ℝ}
    (hk : 0 < kn) : ∃ te tm te' tm', fresnelCore P M kperp kn = .ok (te, tm) ∧ A.fresnelCore P M kperp kn = .ok (te', tm') ∧
      |te' - te| ≤ 16 * u ∧ |tm' - tm| ≤ 16 * u := by
  obtain ⟨te, tm, te', tm', h1, h2, -, -, h3, h4⟩ := fresnelCore_err hA hu hP hM kperp hk
  exact ⟨te, tm, te', tm', h1, h2, h3, h4⟩

theorem fresnel_err (hA : RelErrM A u) (hu : u ≤ 1 / 1000) {m md : Material} (hm : m.Physical) (hc : md.cls ≠ .pec)
    (hmd : md.Physical) (kperp : ℝ) {kn : ℝ} (hk : 0 < kn) {o : Option Medium} (ho : PlateOf m kn o) {M : Medium}
    (hM : md.medium kn = .ok M) :
    ∃ r', A.fresnel o M kperp kn = .ok r' ∧ |r'.1 - reflTE m md kperp kn| ≤ 16 * u ∧ |r'.2 - reflTM m md kperp kn| ≤ 16 * u := by
  have u0 := hA.u0
  have hv := fresnel_val hm hc hmd (kperp := kperp) hk
  cases o with
  | none =>
    have ho : m.cls = .pec := ho
    refine ⟨_, rfl, ?_, ?_⟩
    · unfold reflTE; rw [if_pos ho]; simpa using u0
    · unfold reflTM; rw [if_pos ho]; simpa using u0
  | some P =>
    obtain ⟨h1, h2⟩ : m.cls ≠ .pec ∧ m.medium kn = .ok P := ho
    have e1 := medium_val h1 hm hk
    have e2 := medium_val hc hmd hk
    have hP : P = ⟨m.epsV kn, m.muV kn⟩ := by
      have := h2.symm.trans e1.1; injection this
    have hM' : M = ⟨md.epsV kn, md.muV kn⟩ := by
      have := hM.symm.trans e2.1; injection this
    have pP : P.Pos := by rw [hP]; exact ⟨e1.2, muV_pos hm hk.le⟩
    have pM : M.Pos := by rw [hM']; exact ⟨e2.2, muV_pos hmd hk.le⟩
    obtain ⟨te, tm, te', tm', g1, g2, -, -, g3, g4⟩ := fresnelCore_err hA hu pP pM kperp hk
    have : fresnel m md kperp kn = fresnelCore P M kperp kn := by
      unfold fresnel
      cases hcl : m.cls with
      | pec => exact absurd hcl h1
      | smith => simp only; rw [h2, ok_bind, hM, ok_bind]
      | lorentz => simp only; rw [h2, ok_bind, hM, ok_bind]
    rw [this, g1] at hv
    simp only [Except.ok.injEq, Prod.mk.injEq] at hv
    exact ⟨(te', tm'), g2, by rw [← hv.1]; exact g3, by rw [← hv.2]; exact g4⟩

namespace PFA

variable {p : PFA} {kperp kn L : ℝ} {P1 P2 : Option Medium} {M : Medium}

/-- What the theorems below assume of the calculation: `k` is the wavenumber in the medium. -/
structure Rounded (A : FlMie) (u : ℝ) (p : PFA) (P1 P2 : Option Medium) (M : Medium) (kperp kn L k : ℝ) : Prop where
  err : RelErrM A u
  ok : p.Ok
  kn0 : 0 < kn
  L0 : 0 < L
  plate1 : PlateOf p.mat1 kn P1
  plate2 : PlateOf p.mat2 kn P2
  med : p.matMd.medium kn = .ok M
  wave : k = Real.sqrt (kperp ^ 2 + M.eps * M.mu * kn ^ 2)
  small : 1000 * (u * (1 + 2 * k * L)) ≤ 1 - Real.exp (-2 * k * L)

variable {k : ℝ}

theorem Rounded.k_eq (h : Rounded A u p P1 P2 M kperp kn L k) : k = kapV p.matMd kperp kn := by
  have e2 := medium_val h.ok.pen h.ok.hmd h.kn0
  have hM' : M = ⟨p.matMd.epsV kn, p.matMd.muV kn⟩ := by
    have := h.med.symm.trans e2.1; injection this
  rw [h.wave, hM']; rfl

theorem Rounded.k_pos (h : Rounded A u p P1 P2 M kperp kn L k) : 0 < k := by
  rw [h.k_eq]; exact kapV_pos h.ok.pen h.ok.hmd h.kn0

theorem Rounded.e_lt (h : Rounded A u p P1 P2 M kperp kn L k) : Real.exp (-2 * k * L) < 1 := by
  rw [h.k_eq]; exact exp_lt h.ok h.kn0 h.L0

theorem Rounded.u_le (h : Rounded A u p P1 P2 M kperp kn L k) : u ≤ u * (1 + 2 * k * L) := by
  have := mul_nonneg h.err.u0 (mul_pos h.k_pos h.L0).le
  linarith

theorem Rounded.u_small (h : Rounded A u p P1 P2 M kperp kn L k) : u ≤ 1 / 1000 := by
  have := h.u_le; have := h.small; have := Real.exp_pos (-2 * k * L)
  linarith

theorem Rounded.factors (h : Rounded A u p P1 P2 M kperp kn L k) : ∃ f, A.factors P1 P2 M kperp kn L = .ok f ∧
    Near (3 * (100 / 99 * u)) f.k k ∧
    |f.te - p.te kperp kn * Real.exp (-2 * k * L)| ≤ 41 * (u * (1 + 2 * k * L)) * Real.exp (-2 * k * L) ∧
    |f.tm - p.tm kperp kn * Real.exp (-2 * k * L)| ≤ 41 * (u * (1 + 2 * k * L)) * Real.exp (-2 * k * L) := by
  have hu := h.u_small
  have u0 := h.err.u0
  have hR := h.err.toRelErr
  obtain ⟨r1, e1, d1, d1'⟩ := fresnel_err h.err hu h.ok.h1 h.ok.pen h.ok.hmd kperp h.kn0 h.plate1 h.med
  obtain ⟨r2, e2, d2, d2'⟩ := fresnel_err h.err hu h.ok.h2 h.ok.pen h.ok.hmd kperp h.kn0 h.plate2 h.med
  have em := medium_val h.ok.pen h.ok.hmd h.kn0
  have hM' : M = ⟨p.matMd.epsV kn, p.matMd.muV kn⟩ := by
    have := h.med.symm.trans em.1; injection this
  have pe : 0 < M.eps := by rw [hM']; exact em.2
  have pm : 0 < M.mu := by rw [hM']; exact muV_pos h.ok.hmd h.kn0.le
  have n0 := hR.mul_near (hR.mul_near (Near.refl pe) (Near.refl pm)) (hR.near (pow_pos h.kn0 2) (hR.pow kn 2))
  have n1 := add_sq_near hR kperp n0 (by linarith)
  have n2 := flSqrt_near h.err n1
  rw [← h.wave] at n2
  have n3 := n2.mono (w' := 3 * (100 / 99 * u)) (by linarith)
  have sm : 1000 * (u * (1 + 2 * k * L)) ≤ 1 := by have := h.small; have := Real.exp_pos (-2 * k * L); linarith
  have hE := roundExp_err hR hu n3 h.L0 sm
  refine ⟨⟨A.sqrt (A.add (A.pow kperp 2) (A.mul (A.mul M.eps M.mu) (A.pow kn 2))), _, _⟩, ?_, n3,
    factor_err hR hu (reflTE_abs h.ok.h1 h.ok.pen h.ok.hmd h.kn0) (reflTE_abs h.ok.h2 h.ok.pen h.ok.hmd h.kn0) d1 d2 h.u_le sm
      (Real.exp_pos _) hE,
    factor_err hR hu (reflTM_abs h.ok.h1 h.ok.pen h.ok.hmd h.kn0) (reflTM_abs h.ok.h2 h.ok.pen h.ok.hmd h.kn0) d1' d2' h.u_le sm
      (Real.exp_pos _) hE⟩
  unfold FlMie.factors FlMie.mathSqrt
  rw [e1, ok_bind, e2, ok_bind]
  simp only
  rw [if_neg (not_lt.2 n1.a0.le), ok_bind]

theorem Rounded.te_abs (h : Rounded A u p P1 P2 M kperp kn L k) :
    |p.te kperp kn * Real.exp (-2 * k * L)| ≤ Real.exp (-2 * k * L) := by
  rw [abs_mul, abs_of_pos (Real.exp_pos _)]
  exact mul_le_of_le_one_left (Real.exp_pos _).le (PFA.te_abs h.ok h.kn0)

theorem Rounded.tm_abs (h : Rounded A u p P1 P2 M kperp kn L k) :
    |p.tm kperp kn * Real.exp (-2 * k * L)| ≤ Real.exp (-2 * k * L) := by
  rw [abs_mul, abs_of_pos (Real.exp_pos _)]
  exact mul_le_of_le_one_left (Real.exp_pos _).le (PFA.tm_abs h.ok h.kn0)

theorem Rounded.ratio (h : Rounded A u p P1 P2 M kperp kn L k) :
    Real.exp (-2 * k * L) / (1 - Real.exp (-2 * k * L)) = 1 / (Real.exp (2 * k * L) - 1) := by
  have := mul_pos h.k_pos h.L0
  have e := plate_ratio_exp (t := 2 * k * L) (by linarith)
  rw [← e]; ring_nf

/-- One logarithm. -/
theorem Rounded.log_err (h : Rounded A u p P1 P2 M kperp kn L k) {x x' : ℝ} (hx : |x| ≤ Real.exp (-2 * k * L))
    (dx : |x' - x| ≤ 41 * (u * (1 + 2 * k * L)) * Real.exp (-2 * k * L)) :
    ∃ a, A.mathLog (A.sub 1 x') = .ok a ∧
      |a - Real.log (1 - x)| ≤ u * (2 + 50 * (1 + 2 * k * L) / (Real.exp (2 * k * L) - 1)) := by
  have hR := h.err.toRelErr
  have u0 := hR.u0
  have hn := oneSub_near hR hx (Real.exp_pos _) h.e_lt (u0.trans h.u_le) h.small dx
  have hl := hR.log_err hn
  have ha := log_oneSub_abs hx h.e_lt
  refine ⟨_, by unfold FlMie.mathLog; rw [if_pos hn.a0], hl.trans ?_⟩
  rw [h.ratio] at ha ⊢
  have := h.u_le
  have q0 : 0 ≤ 1 / (Real.exp (2 * k * L) - 1) := (abs_nonneg _).trans ha
  have e : u * (2 + 50 * (1 + 2 * k * L) / (Real.exp (2 * k * L) - 1)) =
      u * 2 + 50 * (u * (1 + 2 * k * L)) * (1 / (Real.exp (2 * k * L) - 1)) := by ring
  rw [e]
  generalize 1 / (Real.exp (2 * k * L) - 1) = q at *
  generalize u * (1 + 2 * k * L) = η at *
  have t1 : u * |Real.log (1 - x)| ≤ η * q := mul_le_mul this ha (abs_nonneg _) (u0.trans this)
  have : 0 ≤ η * q := mul_nonneg (u0.trans this) q0
  linarith

/-- **C142.** `roundTrips`: nothing is raised, and both logarithms have an absolute error of a few `u`. -/
theorem C142_roundTrips (h : Rounded A u p P1 P2 M kperp kn L k) : ∃ a b a' b', p.roundTrips kperp kn L = .ok (a, b) ∧
    A.roundTrips P1 P2 M kperp kn L = .ok (a', b') ∧
    |a' - a| ≤ u * (2 + 50 * (1 + 2 * k * L) / (Real.exp (2 * k * L) - 1)) ∧
    |b' - b| ≤ u * (2 + 50 * (1 + 2 * k * L) / (Real.exp (2 * k * L) - 1)) := by
  obtain ⟨f, hf, -, h1, h2⟩ := h.factors
  obtain ⟨a', ea, da⟩ := h.log_err h.te_abs h1
  obtain ⟨b', eb, db⟩ := h.log_err h.tm_abs h2
  have hv := roundTrips_val h.ok h.kn0 h.L0 (kperp := kperp)
  rw [← h.k_eq] at hv
  refine ⟨_, _, a', b', hv, ?_, da, db⟩
  unfold FlMie.roundTrips
  rw [hf, ok_bind, ea, ok_bind, eb, ok_bind]

/-- **C142.** `roundTrip`. -/
theorem C142_roundTrip (h : Rounded A u p P1 P2 M kperp kn L k) : ∃ a a', p.roundTrip kperp kn L = .ok a ∧
    A.roundTrip P1 P2 M kperp kn L = .ok a' ∧
    |a' - a| ≤ u * (4 + 100 * (1 + 2 * k * L) / (Real.exp (2 * k * L) - 1)) := by
  have hR := h.err.toRelErr
  have u0 := hR.u0
  obtain ⟨f, hf, -, h1, h2⟩ := h.factors
  have hv := roundTrip_val h.ok h.kn0 h.L0 (kperp := kperp)
  rw [← h.k_eq] at hv
  have n1 := oneSub_near hR h.te_abs (Real.exp_pos _) h.e_lt (u0.trans h.u_le) h.small h1
  have n2 := oneSub_near hR h.tm_abs (Real.exp_pos _) h.e_lt (u0.trans h.u_le) h.small h2
  have a1 := log_oneSub_abs h.te_abs h.e_lt
  have a2 := log_oneSub_abs h.tm_abs h.e_lt
  have n := hR.mul_near n1 n2
  have hl := hR.log_err n
  rw [Real.log_mul n1.b0.ne' n2.b0.ne'] at hl
  refine ⟨_, _, hv, ?_, hl.trans ?_⟩
  · unfold FlMie.roundTrip FlMie.mathLog
    rw [hf, ok_bind, if_pos n.a0]
  have a3 := (abs_add_le _ _).trans (add_le_add a1 a2)
  rw [h.ratio] at a3 ⊢
  have := h.u_le
  have e : u * (4 + 100 * (1 + 2 * k * L) / (Real.exp (2 * k * L) - 1)) =
      u * 4 + 100 * (u * (1 + 2 * k * L)) * (1 / (Real.exp (2 * k * L) - 1)) := by ring
  rw [e]
  have q0 : 0 ≤ 1 / (Real.exp (2 * k * L) - 1) := by have := (abs_nonneg _).trans a3; linarith
  generalize 1 / (Real.exp (2 * k * L) - 1) = q at *
  generalize u * (1 + 2 * k * L) = η at *
  have t1 := mul_le_mul this a3 (abs_nonneg _) (u0.trans this)
  have : 0 ≤ η * q := mul_nonneg (u0.trans this) q0
  linarith

theorem Rounded.sq (h : Rounded A u p P1 P2 M kperp kn L k) : k * (Real.exp (-2 * k * L) / (1 - Real.exp (-2 * k * L)) ^ 2) =
    k * Real.exp (2 * k * L) / (Real.exp (2 * k * L) - 1) ^ 2 := by
  have h1 : Real.exp (2 * k * L) - 1 ≠ 0 := by
    have := mul_pos h.k_pos h.L0
    have := Real.add_one_lt_exp (x := 2 * k * L) (by nlinarith)
    nlinarith
  have h2 : 1 - Real.exp (-2 * k * L) ≠ 0 := by have := h.e_lt; linarith
  have e : Real.exp (-2 * k * L) * Real.exp (2 * k * L) = 1 := by rw [← Real.exp_add]; ring_nf; simp
  rw [mul_div_assoc]
  congr 1
  rw [div_eq_div_iff (by positivity) (by positivity)]
  linear_combination (Real.exp (2 * k * L) - Real.exp (-2 * k * L)) * e

/-- **C142.** `pressureRoundTrips`: the errors are a few `u`, relative to the value for perfect reflectors. -/
theorem C142_pressureRoundTrips (h : Rounded A u p P1 P2 M kperp kn L k) : ∃ a b a' b',
    p.pressureRoundTrips kperp kn L = .ok (a, b) ∧ A.pressureRoundTrips P1 P2 M kperp kn L = .ok (a', b') ∧
    |a' - a| ≤ 100 * (u * (1 + 2 * k * L)) * (k * Real.exp (2 * k * L) / (Real.exp (2 * k * L) - 1) ^ 2) ∧
    |b' - b| ≤ 100 * (u * (1 + 2 * k * L)) * (k * Real.exp (2 * k * L) / (Real.exp (2 * k * L) - 1) ^ 2) := by
  have hR := h.err.toRelErr
  obtain ⟨f, hf, hk, h1, h2⟩ := h.factors
  have t1 := press_err hR hk h.te_abs (Real.exp_pos _) h.e_lt h.u_le h.small h1
  have t2 := press_err hR hk h.tm_abs (Real.exp_pos _) h.e_lt h.u_le h.small h2
  have hv := pressureRoundTrips_val h.ok h.kn0 h.L0 (kperp := kperp)
  rw [← h.k_eq] at hv
  refine ⟨_, _, A.div (A.mul (-f.k) f.te) (A.sub 1 f.te), A.div (A.mul (-f.k) f.tm) (A.sub 1 f.tm), hv, ?_, ?_, ?_⟩
  · unfold FlMie.pressureRoundTrips
    rw [hf, ok_bind, t1.1, ok_bind, t2.1, ok_bind]
  · rw [← h.sq]; exact t1.2.trans (by rw [mul_assoc])
  · rw [← h.sq]; exact t2.2.trans (by rw [mul_assoc])

/-- **C142.** `pressureRoundTrip`. -/
theorem C142_pressureRoundTrip (h : Rounded A u p P1 P2 M kperp kn L k) : ∃ a a',
    p.pressureRoundTrip kperp kn L = .ok a ∧ A.pressureRoundTrip P1 P2 M kperp kn L = .ok a' ∧
    |a' - a| ≤ 210 * (u * (1 + 2 * k * L)) * (k * Real.exp (2 * k * L) / (Real.exp (2 * k * L) - 1) ^ 2) := by
  have hR := h.err.toRelErr
  have u0 := hR.u0
  obtain ⟨f, hf, hk, h1, h2⟩ := h.factors
  have t1 := press_err hR hk h.te_abs (Real.exp_pos _) h.e_lt h.u_le h.small h1
  have t2 := press_err hR hk h.tm_abs (Real.exp_pos _) h.e_lt h.u_le h.small h2
  have hv := pressureRoundTrip_val h.ok h.kn0 h.L0 (kperp := kperp)
  rw [← h.k_eq] at hv
  have s0 : 0 < 1 - Real.exp (-2 * k * L) := by have := h.e_lt; linarith
  have k0 := h.k_pos
  have E0 := Real.exp_pos (-2 * k * L)
  have b : ∀ x : ℝ, |x| ≤ Real.exp (-2 * k * L) →
      |-k * x / (1 - x)| ≤ k * (Real.exp (-2 * k * L) / (1 - Real.exp (-2 * k * L)) ^ 2) := by
    intro x hx
    have hx2 := (abs_le.1 hx).2
    have d0 : 0 < 1 - x := by linarith
    rw [abs_div, abs_mul, abs_neg, abs_of_pos k0, abs_of_pos d0, mul_div_assoc]
    refine mul_le_mul_of_nonneg_left ?_ k0.le
    refine (div_le_div₀ E0.le hx s0 (by linarith)).trans ?_
    rw [div_le_div_iff₀ s0 (by positivity)]
    nlinarith [mul_pos E0 s0, mul_pos (mul_pos E0 s0) E0]
  have hm := (abs_add_le _ _).trans (add_le_add (b _ h.te_abs) (b _ h.tm_abs))
  have ha := hR.add_abs t1.2 t2.2 hm
  refine ⟨_, _, hv, ?_, ha.trans ?_⟩
  · unfold FlMie.pressureRoundTrip
    rw [hf, ok_bind, t1.1, ok_bind, t2.1, ok_bind]
  rw [← h.sq]
  have e : 100 * (u * (1 + 2 * k * L)) * k * (Real.exp (-2 * k * L) / (1 - Real.exp (-2 * k * L)) ^ 2) =
    100 * (u * (1 + 2 * k * L)) * (k * (Real.exp (-2 * k * L) / (1 - Real.exp (-2 * k * L)) ^ 2)) := by ring
  rw [e]
  have B0 : 0 ≤ k * (Real.exp (-2 * k * L) / (1 - Real.exp (-2 * k * L)) ^ 2) := by positivity
  have sm := h.small
  have ul := h.u_le
  generalize k * (Real.exp (-2 * k * L) / (1 - Real.exp (-2 * k * L)) ^ 2) = B at *
  generalize u * (1 + 2 * k * L) = η at *
  have : u * (B + B + 100 * η * B + 100 * η * B) ≤ η * (3 * B) := by
    have η0 := u0.trans ul
    refine mul_le_mul ul ?_ (by positivity) η0
    nlinarith
  have : 0 ≤ η * B := mul_nonneg (u0.trans ul) B0
  linarith

end PFA

/-! ## The energy loses its leading digits at large distances -/

/-- Exact operations, but `1 - b` is rounded to 1 for positive `b ≤ u/2`, as rounding to nearest does. -/
noncomputable def flatSub (u : ℝ) : FlMie where
  pi := Real.pi
  add := (· + ·)
  sub := fun a b => open Classical in if a = 1 ∧ 0 < b ∧ b ≤ u / 2 then 1 else a - b
  mul := (· * ·)
  div := (· / ·)
  tenth := 1 / 10
  pow := (· ^ ·)
  log := Real.log
  exp := Real.exp
  sqrt := Real.sqrt

theorem flatSub_err {u : ℝ} (h0 : 0 ≤ u) (h1 : u ≤ 1 / 100) : RelErrM (flatSub u) u where
  u0 := h0
  u1 := h1
  pi := by simp only [flatSub, sub_self, abs_zero]; have := Real.pi_pos; positivity
  tenth := by simp only [flatSub, sub_self, abs_zero]; positivity
  add := fun a b => by simp only [flatSub, sub_self, abs_zero]; positivity
  mul := fun a b => by simp only [flatSub, sub_self, abs_zero]; positivity
  div := fun a b _ => by simp only [flatSub, sub_self, abs_zero]; positivity
  pow := fun a n => by simp only [flatSub, sub_self, abs_zero]; positivity
  log := fun a _ => by simp only [flatSub, sub_self, abs_zero]; positivity
  exp := fun a => by simp only [flatSub, sub_self, abs_zero]; positivity
  sqrt := fun a _ => by simp only [flatSub, sub_self, abs_zero]; positivity
  sub := fun a b => by
    simp only [flatSub]
    split
    · rename_i h
      obtain ⟨rfl, hb, hb'⟩ := h
      rw [show (1 : ℝ) - (1 - b) = b by ring, abs_of_pos hb, abs_of_pos (by linarith)]
      nlinarith
    · rw [sub_self, abs_zero]; positivity

/-- **C142.** No relative accuracy of the energy: for every `u` there is an arithmetic with relative errors of at most `u` in
which the round trips between perfect reflectors vanish as soon as `exp (-2 k L) ≤ u/2`, although they are negative. -/
theorem C142_energy_lost {u : ℝ} (h0 : 0 < u) (h1 : u ≤ 1 / 100) : ∃ A, RelErrM A u ∧
    ∀ (md : Material) (M : Medium) (kperp kn L : ℝ), md.cls ≠ .pec → md.Physical → 0 < kn → 0 < L → md.medium kn = .ok M →
      Real.exp (-2 * Real.sqrt (kperp ^ 2 + M.eps * M.mu * kn ^ 2) * L) ≤ u / 2 →
      A.roundTrips none none M kperp kn L = .ok (0, 0) ∧ A.roundTrip none none M kperp kn L = .ok 0 ∧
      (∃ a b, (PFA.mk perfectConductor perfectConductor md).roundTrips kperp kn L = .ok (a, b) ∧ a < 0 ∧ b < 0) ∧
      ∃ a, (PFA.mk perfectConductor perfectConductor md).roundTrip kperp kn L = .ok a ∧ a < 0 := by
  refine ⟨flatSub u, flatSub_err h0.le h1, fun md M kperp kn L hc hp hk hL hM he => ?_⟩
  have em := medium_val hc hp hk
  have hM' : M = ⟨md.epsV kn, md.muV kn⟩ := by
    have := hM.symm.trans em.1; injection this
  have pe : 0 < M.eps := by rw [hM']; exact em.2
  have pm : 0 < M.mu := by rw [hM']; exact muV_pos hp hk.le
  have hf : (flatSub u).factors none none M kperp kn L =
      .ok ⟨Real.sqrt (kperp ^ 2 + M.eps * M.mu * kn ^ 2), Real.exp (-2 * Real.sqrt (kperp ^ 2 + M.eps * M.mu * kn ^ 2) * L),
        Real.exp (-2 * Real.sqrt (kperp ^ 2 + M.eps * M.mu * kn ^ 2) * L)⟩ := by
    unfold FlMie.factors FlMie.mathSqrt FlMie.fresnel flatSub
    simp only [ok_bind]
    rw [if_neg (not_lt.2 (by positivity)), ok_bind]
    norm_num
  have hs : (flatSub u).sub 1 (Real.exp (-2 * Real.sqrt (kperp ^ 2 + M.eps * M.mu * kn ^ 2) * L)) = 1 := by
    simp only [flatSub]
    rw [if_pos ⟨trivial, Real.exp_pos _, he⟩]
  have hl : (flatSub u).mathLog 1 = .ok 0 := by
    unfold FlMie.mathLog
    rw [if_pos one_pos]
    simp [flatSub]
  have hmul : (flatSub u).mul 1 1 = 1 := by simp [flatSub]
  have hok : (PFA.mk perfectConductor perfectConductor md).Ok := mirrors_Ok hc hp
  have hE := PFA.exp_lt hok hk hL (kperp := kperp)
  have hneg : ∀ r : ℝ, r = 1 → Real.log (1 - r * Real.exp (-2 * kapV md kperp kn * L)) < 0 := by
    rintro r rfl
    have := Real.exp_pos (-2 * kapV md kperp kn * L)
    have h2 : Real.exp (-2 * kapV md kperp kn * L) < 1 := hE
    exact Real.log_neg (by linarith) (by linarith)
  have tee : (PFA.mk perfectConductor perfectConductor md).te kperp kn = 1 := by
    simp [PFA.te, reflTE, perfectConductor]
  have tme : (PFA.mk perfectConductor perfectConductor md).tm kperp kn = 1 := by
    simp [PFA.tm, reflTM, perfectConductor]
  refine ⟨?_, ?_, ⟨_, _, PFA.roundTrips_val hok hk hL, hneg _ tee, hneg _ tme⟩,
    ⟨_, PFA.roundTrip_val hok hk hL, add_neg (hneg _ tee) (hneg _ tme)⟩⟩
  · unfold FlMie.roundTrips
    rw [hf, ok_bind]
    simp only
    rw [hs, hl, ok_bind]
    rfl
  · unfold FlMie.roundTrip
    rw [hf, ok_bind]
    simp only
    rw [hs, hmul, hl]

/-! ## Doubles -/

/-- A perfect reflector and a gold plate in vacuum, 0.5 apart, in doubles. -/
example : ∃ P2, PFA.Rounded (roundMie (Spec.roundDown 53)) (2 ^ (-52 : ℤ))
    ⟨perfectConductor, ⟨.lorentz, eGold, none⟩, ⟨.lorentz, [], none⟩⟩ none (some P2) ⟨1, 1⟩ 0 1 (1 / 2) 1 := by
  have hg : (Material.mk .lorentz eGold none).Physical := ⟨by norm_num [eGold], by simp, by simp⟩
  have e := (medium_val (by simp) hg (k := 1) (by norm_num)).1
  refine ⟨_, ⟨roundMie_relErr (by positivity) (by norm_num) roundDown_double.err, ⟨pec_ok, hg, vacuum_ok, by simp⟩, by norm_num,
    by norm_num, rfl, ⟨by simp, e⟩, vacuum_medium 1, by norm_num, ?_⟩⟩
  have h1 : Real.exp (-2 * 1 * (1 / 2)) ≤ 1 / 2 := by
    rw [show (-2 : ℝ) * 1 * (1 / 2) = -1 by norm_num]
    have := Real.exp_neg_one_lt_d9
    linarith
  have h2 : 1000 * ((2 : ℝ) ^ (-52 : ℤ) * (1 + 2 * 1 * (1 / 2))) ≤ 1 / 2 := by norm_num
  linarith

/-- Perfect reflectors in vacuum with `k L = 40`: the condition of `C142_energy_lost` for doubles. -/
example : (Material.mk .lorentz [] none).medium 1 = .ok ⟨1, 1⟩ ∧
    Real.exp (-2 * Real.sqrt (0 ^ 2 + 1 * 1 * 1 ^ 2) * 40) ≤ (2 : ℝ) ^ (-52 : ℤ) / 2 := by
  refine ⟨vacuum_medium 1, ?_⟩
  have e : (-2 : ℝ) * Real.sqrt (0 ^ 2 + 1 * 1 * 1 ^ 2) * 40 = ((80 : ℕ) : ℝ) * -1 := by norm_num
  rw [e, Real.exp_nat_mul]
  have h : Real.exp (-1) ≤ 1 / 2 := by have := Real.exp_neg_one_lt_d9; linarith
  calc Real.exp (-1) ^ 80 ≤ (1 / 2) ^ 80 := pow_le_pow_left₀ (Real.exp_pos _).le h 80
    _ ≤ (2 : ℝ) ^ (-52 : ℤ) / 2 := by norm_num

end CasSph
