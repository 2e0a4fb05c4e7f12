import Verif.Lemmas.BallCont
import Verif.Props.StratStronger
import Verif.Props.CavityZero
import Verif.Model.StratZero

/-! # C138: energy at zero temperature of stratified spheres -/

namespace CasSph

open Spec Filter Topology MeasureTheory Set

variable {P : BallPair} {R1 R2 R1' R2' k L t deltaT : ℝ} {B1 B2 : Ball} {frac : ℝ → ℝ → ℝ} {q : Quad} {nmax : ℤ}

theorem ballAt_ok (h : BallPairOK P R1 R2) (hk : 0 < k) : ballAt exactBes frac P k = .ok (ballVal P k) := by
  unfold ballAt
  rw [if_neg hk.ne', h.val_ok hk]
  rfl

theorem ball_e0_value (h : BallPairOK P R1 R2) (hq : q.Exact) {a : ℝ} (ha : 0 ≤ a) {b : Upper} (hb : ∀ x, b = .num x → a ≤ x)
    (hb' : b = .none → a ≤ nmax * deltaT) : e0 q (ballAt exactBes frac P) deltaT nmax a b = .ok (∫ k in e0Range deltaT nmax a b, ballVal P k) := by
  have hi := h.val_integrable
  have hfin : ∀ b, a ≤ b → q.fin (ballAt exactBes frac P) a b = .ok (∫ k in Ioo a b, ballVal P k) := fun b hab =>
    hq.fin _ _ a b hab (fun k hk _ => ballAt_ok h (ha.trans_lt hk)) (hi.mono_set fun k hk => ha.trans_lt hk.1)
  cases b with
  | num b => exact hfin b (hb b rfl)
  | inf => exact hq.inf _ _ a (fun k hk => ballAt_ok h (ha.trans_lt hk)) (hi.mono_set (Ioi_subset_Ioi ha))
  | none => exact hfin _ (hb' rfl)

theorem pair_e0_value {P : PairIn} (h : PairOK P) (hq : q.Exact) {a : ℝ} (ha : 0 ≤ a) {b : Upper} (hb : ∀ x, b = .num x → a ≤ x)
    (hb' : b = .none → a ≤ nmax * deltaT) : e0 q (pairAt exactBes frac P) deltaT nmax a b = .ok (∫ k in e0Range deltaT nmax a b, pairVal P k) := by
  rw [e0_value h hq ha hb hb']
  cases b <;> rfl

theorem e0Range_volume {a : ℝ} {b : Upper} (hb : ∀ x, b = .num x → a < x) (hb' : b = .none → a < nmax * deltaT) : 0 < volume (e0Range deltaT nmax a b) := by
  have hvol : ∀ b, a < b → 0 < volume (Ioo a b) := fun b hab => by rw [Real.volume_Ioo]; exact ENNReal.ofReal_pos.mpr (by linarith)
  cases b with
  | num b => exact hvol _ (hb b rfl)
  | inf =>
    show 0 < volume (Ioi a)
    rw [Real.volume_Ioi]; exact ENNReal.zero_lt_top
  | none => exact hvol _ (hb' rfl)

/-! ## Value and size -/

/-- **C138, integral.** With an exact integrator `e0` returns the integral of the values of `mSumme` at single wavenumbers, which depend continuously on
the wavenumber if the sums are complete, and are integrable up to infinity. -/
theorem C138_integral (h : BallPairOK P R1 R2) (hq : q.Exact) :
    ∃ f : ℝ → ℝ, (∀ k, 0 < k → ballVals exactBes P [k] = .ok [f k]) ∧ IntegrableOn f (Ioi 0) ∧
      (P.precision ≤ 0 → (∀ k, 0 < k → P.SameSide k ∨ P.OppositeSide k) → ContinuousOn f (Ioi 0)) ∧
      (∀ a, 0 ≤ a → e0 q (ballAt exactBes frac P) deltaT nmax a .inf = .ok (∫ k in Ioi a, f k)) ∧
      (∀ a b, 0 ≤ a → a ≤ b → e0 q (ballAt exactBes frac P) deltaT nmax a (.num b) = .ok (∫ k in Ioo a b, f k)) ∧
      (∀ a, 0 ≤ a → a ≤ nmax * deltaT →
        e0 q (ballAt exactBes frac P) deltaT nmax a .none = .ok (∫ k in Ioo a (nmax * deltaT), f k)) := by
  refine ⟨ballVal P, fun k hk => h.val_ok hk, h.val_integrable, fun hp hs => ?_,
    fun a ha => ball_e0_value h hq ha (b := .inf) (by simp) (by simp),
    fun a b ha hab => ball_e0_value h hq ha (b := .num b) (fun x hx => by cases hx; exact hab) (by simp),
    fun a ha hab => ball_e0_value h hq ha (b := .none) (by simp) (fun _ => hab)⟩
  have hc : ContinuousOn (ballSum P) (Ioi 0) := fun k hk => (h.sum_contAt hk).continuousWithinAt
  exact hc.congr fun k hk => h.val_sum hp hk (hs k hk)

/-- **C138, size and sign.** The energy is at most that of two perfectly conducting spheres of the outer radii (with complete sums), and bounded by a
function of radii, distance and lower limit that decreases exponentially. -/
theorem C138_energy (h : BallPairOK P R1 R2) (hq : q.Exact) {a : ℝ} (ha : 0 ≤ a) {b : Upper} (hb : ∀ x, b = .num x → a ≤ x)
    (hb' : b = .none → a ≤ nmax * deltaT) :
    ∃ E E', e0 q (ballAt exactBes frac P) deltaT nmax a b = .ok E ∧ e0 q (pairAt exactBes frac (P.metal R1 R2)) deltaT nmax a b = .ok E' ∧
      |E| ≤ -E' ∧ |E| ≤ zeroBound R1 R2 P.L a ∧
      ((∀ k, 0 < k → P.SameSide k) → E ≤ 0) ∧ ((∀ k, 0 < k → P.OppositeSide k) → 0 ≤ E) := by
  obtain ⟨s1, s2⟩ := e0Range_sub (deltaT := deltaT) (nmax := nmax) a b
  have s0 : e0Range deltaT nmax a b ⊆ Ioi 0 := s1.trans (Ioi_subset_Ioi ha)
  have hle : |∫ k in e0Range deltaT nmax a b, ballVal P k| ≤ -∫ k in e0Range deltaT nmax a b, pairVal (P.metal R1 R2) k := by
    rw [← integral_neg]
    refine norm_integral_le_of_norm_le (f := ballVal P) ((pairVal_integrable h.metal).mono_set s0).neg ((ae_restrict_iff' s2).mpr (.of_forall fun k hk => ?_))
    rw [pairVal_sum h.metal le_rfl (s0 hk)]
    exact (h.val_bound (s0 hk)).1
  refine ⟨_, _, ball_e0_value h hq ha hb hb', pair_e0_value h.metal hq ha hb hb', hle, ?_, fun hs => ?_, fun hs => ?_⟩
  · exact hle.trans ((neg_le_abs _).trans (pairVal_tail h.metal ha s1 s2))
  · exact setIntegral_nonpos s2 fun k hk => (h.val_bound (s0 hk)).2.2.1 (hs k (s0 hk))
  · exact setIntegral_nonneg s2 fun k hk => (h.val_bound (s0 hk)).2.2.2 (hs k (s0 hk))

/-- **C138, cut-off.** The energy splits at any wavenumber, and the part above a finite upper bound is exponentially small. -/
theorem C138_cutoff (h : BallPairOK P R1 R2) (hq : q.Exact) {a b : ℝ} (ha : 0 ≤ a) (hab : a ≤ b) :
    ∃ E F G, e0 q (ballAt exactBes frac P) deltaT nmax a .inf = .ok E ∧ e0 q (ballAt exactBes frac P) deltaT nmax a (.num b) = .ok F ∧
      e0 q (ballAt exactBes frac P) deltaT nmax b .inf = .ok G ∧ E = F + G ∧ |E - F| ≤ zeroBound R1 R2 P.L b := by
  have hi := h.val_integrable
  obtain ⟨G, -, hG, -, -, hGb, -⟩ := C138_energy (frac := frac) (deltaT := deltaT) (nmax := nmax) h hq (ha.trans hab) (b := .inf) (by simp) (by simp)
  have e := hG
  rw [ball_e0_value h hq (ha.trans hab) (b := .inf) (by simp) (by simp)] at e
  injection e with e
  have hsum : ∫ k in Ioi a, ballVal P k = (∫ k in Ioo a b, ballVal P k) + G := by
    rw [← e]
    show _ = _ + ∫ k in Ioi b, ballVal P k
    rw [← integral_Ioc_eq_integral_Ioo, ← Ioc_union_Ioi_eq_Ioi hab, setIntegral_union (Ioc_disjoint_Ioi le_rfl) measurableSet_Ioi]
    · exact hi.mono_set fun k hk => ha.trans_lt hk.1
    · exact hi.mono_set (Ioi_subset_Ioi (ha.trans hab))
  refine ⟨_, _, G, ball_e0_value h hq ha (b := .inf) (by simp) (by simp), ball_e0_value h hq ha (b := .num b) (fun x hx => by cases hx; exact hab) (by simp), hG,
    hsum, ?_⟩
  show |(∫ k in Ioi a, ballVal P k) - ∫ k in Ioo a b, ballVal P k| ≤ _
  rw [hsum, add_sub_cancel_left]
  exact hGb

/-- **C138, strict sign.** If both spheres differ from the medium at all wavenumbers, the energy over a non-empty range is not zero. -/
theorem C138_strict (h : BallPairOK P R1 R2) (hq : q.Exact) (c1 : ∀ k, 0 < k → P.ball1.Contrast P.H P.mat3 k)
    (c2 : ∀ k, 0 < k → P.ball2.Contrast P.H P.mat3 k) {a : ℝ} (ha : 0 ≤ a) {b : Upper} (hb : ∀ x, b = .num x → a < x)
    (hb' : b = .none → a < nmax * deltaT) :
    ∃ E, e0 q (ballAt exactBes frac P) deltaT nmax a b = .ok E ∧ ((∀ k, 0 < k → P.SameSide k) → E < 0) ∧ ((∀ k, 0 < k → P.OppositeSide k) → 0 < E) := by
  obtain ⟨s1, s2⟩ := e0Range_sub (deltaT := deltaT) (nmax := nmax) a b
  have s0 : e0Range deltaT nmax a b ⊆ Ioi 0 := s1.trans (Ioi_subset_Ioi ha)
  have hv := e0Range_volume hb hb'
  have his := h.val_integrable.mono_set s0
  have hst := fun k (hk : k ∈ e0Range deltaT nmax a b) => h.val_strict (s0 hk) (c1 k (s0 hk)) (c2 k (s0 hk))
  refine ⟨_, ball_e0_value h hq ha (fun x hx => (hb x hx).le) (fun e => (hb' e).le), fun hs => ?_, fun hs => ?_⟩
  · have hst : ∀ k ∈ e0Range deltaT nmax a b, 0 < -ballVal P k := fun k hk => neg_pos.mpr ((hst k hk).1 (hs k (s0 hk)))
    have := (setIntegral_pos_iff_support_of_nonneg_ae (f := fun k => -ballVal P k)
      ((ae_restrict_iff' s2).mpr (.of_forall fun k hk => (hst k hk).le)) his.neg).mpr
      (hv.trans_le (measure_mono fun k hk => ⟨(hst k hk).ne', hk⟩))
    rw [integral_neg] at this
    linarith
  · have hst : ∀ k ∈ e0Range deltaT nmax a b, 0 < ballVal P k := fun k hk => (hst k hk).2 (hs k (s0 hk))
    exact (setIntegral_pos_iff_support_of_nonneg_ae
      ((ae_restrict_iff' s2).mpr (.of_forall fun k hk => (hst k hk).le)) his).mpr
      (hv.trans_le (measure_mono fun k hk => ⟨(hst k hk).ne', hk⟩))

/-- **C138, homogeneous spheres.** Without lists the integrand is the one of C104. -/
theorem C138_homogeneous (T : BesTable) (H : MatHeap) (m1 m2 m3 : ℕ) (r1 r2 L : ℝ) (lmax lssmax : ℕ) (precision x : ℝ) :
    ballAt T frac ⟨H, .solid m1 r1, .solid m2 r2, m3, L, lmax, lssmax, precision⟩ x =
      pairAt T frac ⟨H m1, H m2, H m3, r1, r2, L, lmax, lssmax, precision⟩ x := rfl

/-- **C138, zero wavenumber.** With a list of materials the integrand raises NotImplementedError at zero; `quad` does not evaluate it at the ends of the range. -/
theorem C138_zero (T : BesTable) (hlist : P.ball1.isList = true ∨ P.ball2.isList = true) : ballAt T frac P 0 = .error .notImplementedError := by
  unfold ballAt
  rw [if_pos rfl, C119_zero_frequency P hlist]

/-! ## Comparisons -/

/-- Comparison of two integrals over complete sums. -/
theorem ball_compare {P P' : BallPair} (h : BallPairOK P R1 R2) (h' : BallPairOK P' R1' R2') (hprec : P.precision ≤ 0) (hprec' : P'.precision ≤ 0)
    (hs : ∀ k, 0 < k → P.SameSide k ∨ P.OppositeSide k) (hs' : ∀ k, 0 < k → P'.SameSide k ∨ P'.OppositeSide k)
    (hle : ∀ k, 0 < k → ballSum P k ≤ ballSum P' k) {s : Set ℝ} (hs0 : s ⊆ Ioi 0) (hm : MeasurableSet s) :
    ∫ k in s, ballVal P k ≤ ∫ k in s, ballVal P' k ∧
    ((∀ k, 0 < k → ballSum P k < ballSum P' k) → 0 < volume s → ∫ k in s, ballVal P k < ∫ k in s, ballVal P' k) := by
  have i1 := h.val_integrable.mono_set hs0
  have i2 := h'.val_integrable.mono_set hs0
  have e1 := fun k (hk : k ∈ s) => h.val_sum hprec (hs0 hk) (hs k (hs0 hk))
  have e2 := fun k (hk : k ∈ s) => h'.val_sum hprec' (hs0 hk) (hs' k (hs0 hk))
  refine ⟨setIntegral_mono_on i1 i2 hm fun k hk => ?_, fun hst hv => ?_⟩
  · rw [e1 k hk, e2 k hk]
    exact hle k (hs0 hk)
  · have hpos : ∀ k ∈ s, 0 < ballVal P' k - ballVal P k := fun k hk => by
      rw [e1 k hk, e2 k hk]
      linarith [hst k (hs0 hk)]
    have := (setIntegral_pos_iff_support_of_nonneg_ae (f := fun k => ballVal P' k - ballVal P k)
      ((ae_restrict_iff' hm).mpr (.of_forall fun k hk => (hpos k hk).le)) (i2.sub i1)).mpr
      (hv.trans_le (measure_mono fun k hk => ⟨(hpos k hk).ne', hk⟩))
    rw [integral_sub i2 i1] at this
    linarith

/-- **C138, distance.** The energy of spheres on the same side of the medium grows with the distance. -/
theorem C138_distance (h : BallPairOK P R1 R2) (hprec : P.precision ≤ 0) (hL : P.L ≤ L) (hs : ∀ k, 0 < k → P.SameSide k)
    (hq : q.Exact) {a : ℝ} (ha : 0 ≤ a) {b : Upper} (hb : ∀ x, b = .num x → a ≤ x) (hb' : b = .none → a ≤ nmax * deltaT) :
    ∃ E E', e0 q (ballAt exactBes frac P) deltaT nmax a b = .ok E ∧ e0 q (ballAt exactBes frac (P.at L)) deltaT nmax a b = .ok E' ∧ E ≤ E' ∧ E' ≤ 0 ∧
      (P.L < L → (∀ k, 0 < k → P.ball1.Contrast P.H P.mat3 k ∧ P.ball2.Contrast P.H P.mat3 k) → (∀ x, b = .num x → a < x) →
        (b = .none → a < nmax * deltaT) → E < E') := by
  obtain ⟨s1, s2⟩ := e0Range_sub (deltaT := deltaT) (nmax := nmax) a b
  have s0 : e0Range deltaT nmax a b ⊆ Ioi 0 := s1.trans (Ioi_subset_Ioi ha)
  have hle : ∀ k, 0 < k → ballSum P k ≤ ballSum (P.at L) k := fun k hk => by
    have h1 := ballSum_far h hk (hs k hk) hL
    have h2 := (ballSum_sign h hk).1 (hs k hk)
    have h3 : Real.exp (-(2 * k * (L - P.L))) ≤ 1 := by
      rw [Real.exp_le_one_iff]
      have := mul_nonneg hk.le (sub_nonneg.mpr hL)
      linarith
    nlinarith
  obtain ⟨c1, c2⟩ := ball_compare h (h.at hL) hprec hprec (fun k hk => .inl (hs k hk)) (fun k hk => .inl (hs k hk)) hle s0 s2
  refine ⟨_, _, ball_e0_value h hq ha hb hb', ball_e0_value (h.at hL) hq ha hb hb', c1,
    setIntegral_nonpos s2 fun k hk => ((h.at hL).val_bound (s0 hk)).2.2.1 (hs k (s0 hk)), fun hlt hcon hb1 hb2 => c2 (fun k hk => ?_) (e0Range_volume hb1 hb2)⟩
  have h1 := ballSum_far h hk (hs k hk) hL
  have h2 := (ballSum_strict h hk (hcon k hk).1 (hcon k hk).2).1 (hs k hk)
  have h3 : Real.exp (-(2 * k * (L - P.L))) < 1 := by
    rw [Real.exp_lt_one_iff]
    have := mul_pos hk (sub_pos.mpr hlt)
    linarith
  nlinarith

/-- **C138, three distances.** The energy is log-convex in the distance. -/
theorem C138_convex (h : BallPairOK P R1 R2) (hprec : P.precision ≤ 0) (h0 : 0 < t) (h1 : t < 1) (hL : P.L ≤ L) (hs : ∀ k, 0 < k → P.SameSide k)
    (hq : q.Exact) {a : ℝ} (ha : 0 ≤ a) {b : Upper} (hb : ∀ x, b = .num x → a ≤ x) (hb' : b = .none → a ≤ nmax * deltaT) :
    ∃ E E' E'', e0 q (ballAt exactBes frac P) deltaT nmax a b = .ok E ∧ e0 q (ballAt exactBes frac (P.at L)) deltaT nmax a b = .ok E' ∧
      e0 q (ballAt exactBes frac (P.at (t * P.L + (1 - t) * L))) deltaT nmax a b = .ok E'' ∧ Spec.LogConvexAt t E E' E'' := by
  have m1 : P.L ≤ t * P.L + (1 - t) * L := by nlinarith
  obtain ⟨s1, s2⟩ := e0Range_sub (deltaT := deltaT) (nmax := nmax) a b
  have s0 : e0Range deltaT nmax a b ⊆ Ioi 0 := s1.trans (Ioi_subset_Ioi ha)
  refine ⟨_, _, _, ball_e0_value h hq ha hb hb', ball_e0_value (h.at hL) hq ha hb hb', ball_e0_value (h.at m1) hq ha hb hb', GMRel.logConvex h0.le h1.le ?_⟩
  rw [← integral_neg, ← integral_neg, ← integral_neg]
  refine (gmRel_closed h0 h1).int s2 (h.val_integrable.mono_set s0).neg ((h.at hL).val_integrable.mono_set s0).neg
    ((h.at m1).val_integrable.mono_set s0).neg fun k hk => ?_
  have hsk := hs k (s0 hk)
  rw [h.val_sum hprec (s0 hk) (.inl hsk), (h.at hL).val_sum hprec (s0 hk) (.inl hsk), (h.at m1).val_sum hprec (s0 hk) (.inl hsk)]
  exact ballSum_gm h (s0 hk) hsk h0 h1 hL

/-- **C138, profiles.** More contrast at every distance from the centres makes the attraction (repulsion) at zero temperature stronger. -/
theorem C138_profiles (h : BallPairOK P R1 R2) (h' : BallPairOK (P.balls B1 B2) R1' R2') (hprec : P.precision ≤ 0) (hw : P.Weaker B1 B2)
    (hq : q.Exact) {a : ℝ} (ha : 0 ≤ a) {b : Upper} (hb : ∀ x, b = .num x → a ≤ x) (hb' : b = .none → a ≤ nmax * deltaT) :
    ∃ E E', e0 q (ballAt exactBes frac P) deltaT nmax a b = .ok E ∧ e0 q (ballAt exactBes frac (P.balls B1 B2)) deltaT nmax a b = .ok E' ∧
      ((∀ k, 0 < k → (P.balls B1 B2).SameSide k) → E' ≤ E ∧ E ≤ 0) ∧ ((∀ k, 0 < k → (P.balls B1 B2).OppositeSide k) → 0 ≤ E ∧ E ≤ E') := by
  obtain ⟨s1, s2⟩ := e0Range_sub (deltaT := deltaT) (nmax := nmax) a b
  have s0 : e0Range deltaT nmax a b ⊆ Ioi 0 := s1.trans (Ioi_subset_Ioi ha)
  have hw' := fun k (hk : 0 < k) => ballSum_weaker h h' hw hk
  have hv := fun k (hk : 0 < k) => h.val_sum hprec hk (hw' k hk).1
  refine ⟨_, _, ball_e0_value h hq ha hb hb', ball_e0_value h' hq ha hb hb', fun hs => ?_, fun hs => ?_⟩
  · have hle : ∀ k, 0 < k → ballSum (P.balls B1 B2) k ≤ ballSum P k ∧ ballSum P k ≤ 0 := fun k hk => by
      have h1 := (ballSum_sign h' hk).1 (hs k hk)
      rcases (hw' k hk).2.2 with e | ⟨e1, e2⟩
      · exact e
      · exact ⟨h1.trans e1, e2.trans h1⟩
    refine ⟨(ball_compare h' h hprec hprec (fun k hk => (hw' k hk).2.1) (fun k hk => (hw' k hk).1) (fun k hk => (hle k hk).1) s0 s2).1,
      setIntegral_nonpos s2 fun k hk => ?_⟩
    rw [hv k (s0 hk)]
    exact (hle k (s0 hk)).2
  · have hle : ∀ k, 0 < k → 0 ≤ ballSum P k ∧ ballSum P k ≤ ballSum (P.balls B1 B2) k := fun k hk => by
      have h1 := (ballSum_sign h' hk).2 (hs k hk)
      rcases (hw' k hk).2.2 with ⟨e1, e2⟩ | e
      · exact ⟨h1.trans e1, e2.trans h1⟩
      · exact e
    refine ⟨setIntegral_nonneg s2 fun k hk => ?_,
      (ball_compare h h' hprec hprec (fun k hk => (hw' k hk).1) (fun k hk => (hw' k hk).2.1) (fun k hk => (hle k hk).2) s0 s2).1⟩
    rw [hv k (s0 hk)]
    exact (hle k (s0 hk)).1

/-- **C138, cut-offs.** Larger cut-offs lower the energy of spheres on the same side of the medium. -/
theorem C138_cut_offs (h : BallPairOK P R1 R2) (hprec : P.precision ≤ 0) {c d : ℕ} (hc : P.lmax ≤ c) (hd : P.lssmax ≤ d) (hcd : c ≤ d)
    (hs : ∀ k, 0 < k → P.SameSide k)
    (hq : q.Exact) {a : ℝ} (ha : 0 ≤ a) {b : Upper} (hb : ∀ x, b = .num x → a ≤ x) (hb' : b = .none → a ≤ nmax * deltaT) :
    ∃ E E', e0 q (ballAt exactBes frac P) deltaT nmax a b = .ok E ∧ e0 q (ballAt exactBes frac (P.cut c d)) deltaT nmax a b = .ok E' ∧ E' ≤ E ∧ E ≤ 0 := by
  obtain ⟨s1, s2⟩ := e0Range_sub (deltaT := deltaT) (nmax := nmax) a b
  have s0 : e0Range deltaT nmax a b ⊆ Ioi 0 := s1.trans (Ioi_subset_Ioi ha)
  have h' : BallPairOK (P.cut c d) R1 R2 := h.cut (h.hl.trans hc) hcd
  exact ⟨_, _, ball_e0_value h hq ha hb hb', ball_e0_value h' hq ha hb hb',
    (ball_compare h' h hprec hprec (fun k hk => .inl (hs k hk)) (fun k hk => .inl (hs k hk)) (fun k hk => ballSum_cut_le h hk (hs k hk) hc hd hcd) s0 s2).1,
    setIntegral_nonpos s2 fun k hk => (h.val_bound (s0 hk)).2.2.1 (hs k (s0 hk))⟩

/-- **C138, truncation.** On either side of the medium, raising the cut-offs changes the energy by no more than it changes the energy of perfect
conductors of the outer radii. -/
theorem C138_truncation (h : BallPairOK P R1 R2) (hprec : P.precision ≤ 0) {c d : ℕ} (hc : P.lmax ≤ c) (hd : P.lssmax ≤ d) (hcd : c ≤ d)
    (hs : ∀ k, 0 < k → P.SameSide k ∨ P.OppositeSide k)
    (hq : q.Exact) {a : ℝ} (ha : 0 ≤ a) {b : Upper} (hb : ∀ x, b = .num x → a ≤ x) (hb' : b = .none → a ≤ nmax * deltaT) :
    ∃ E E' M M', e0 q (ballAt exactBes frac P) deltaT nmax a b = .ok E ∧ e0 q (ballAt exactBes frac (P.cut c d)) deltaT nmax a b = .ok E' ∧
      e0 q (pairAt exactBes frac (P.metal R1 R2)) deltaT nmax a b = .ok M ∧
      e0 q (pairAt exactBes frac ((P.metal R1 R2).cut c d)) deltaT nmax a b = .ok M' ∧ |E' - E| ≤ M - M' := by
  obtain ⟨s1, s2⟩ := e0Range_sub (deltaT := deltaT) (nmax := nmax) a b
  have s0 : e0Range deltaT nmax a b ⊆ Ioi 0 := s1.trans (Ioi_subset_Ioi ha)
  have h' : BallPairOK (P.cut c d) R1 R2 := h.cut (h.hl.trans hc) hcd
  have i1 := h.val_integrable.mono_set s0
  have i2 := h'.val_integrable.mono_set s0
  have j1 := (pairVal_integrable h.metal).mono_set s0
  have hm' : PairOK ((P.metal R1 R2).cut c d) := h'.metal
  have j2 := (pairVal_integrable hm').mono_set s0
  refine ⟨_, _, _, _, ball_e0_value h hq ha hb hb', ball_e0_value h' hq ha hb hb', pair_e0_value h.metal hq ha hb hb', pair_e0_value hm' hq ha hb hb', ?_⟩
  rw [← integral_sub i2 i1, ← integral_sub j1 j2]
  refine norm_integral_le_of_norm_le (f := fun k => ballVal (P.cut c d) k - ballVal P k) (j1.sub j2)
    ((ae_restrict_iff' s2).mpr (.of_forall fun k hk => ?_))
  rw [h.val_sum hprec (s0 hk) (hs k (s0 hk)), h'.val_sum hprec (s0 hk) (hs k (s0 hk)), pairVal_sum h.metal le_rfl (s0 hk), pairVal_sum hm' le_rfl (s0 hk)]
  exact ballSum_cut h (s0 hk) hc hd hcd

/-! ## Low temperatures -/

/-- **C138, low temperatures.** If the sums over `m` are complete, the free energy at `i` times the temperature step, computed with the numerical zero
frequency, steps that go to zero and `nmax*deltaT` that goes to infinity, converges to `e0`. -/
theorem C138_low_temperature (h : BallPairOK P R1 R2) (hq : q.Exact) (hprec : P.precision ≤ 0) (hs : ∀ k, 0 < k → P.SameSide k ∨ P.OppositeSide k)
    {p : ℕ → FTParams} (hg : ∀ j, (p j).geo = ballGeo exactBes frac P) (hp : ∀ j, (p j).nprocs.isZero) (ha : ∀ j, (p j).analyticN0 = false)
    (hT : ∀ j, 0 < (p j).deltaT) (hT0 : Tendsto (fun j => (p j).deltaT) atTop (𝓝 0)) (hN : ∀ j, 1 ≤ (p j).nmax)
    (hNT : Tendsto (fun j => (p j).nmax * (p j).deltaT) atTop atTop) {i : ℕ} (hi : ∀ j, (i : ℤ) < (p j).maxstep) :
    ∃ (F : ℕ → List ℝ) (E : ℝ), (∀ j, (freeEnergy (p j) FT.fresh).1 = .ok (F j) ∧ (F j).length = (p j).maxstep.toNat) ∧
      e0 q (ballAt exactBes frac P) deltaT nmax 0 .inf = .ok E ∧ Tendsto (fun j => (F j).getD i 0) atTop (𝓝 E) := by
  have hd : 0 < P.L - (R1 + R2) := sub_pos.mpr h.sep
  have hC := freeC_pos h.ok1.pos h.ok2.pos h.sep
  have hi0 : (0 : ℝ) < (i + 1 : ℕ) := by positivity
  choose F hF hlen hv using fun j => ball_free_sum (p := p j) (frac := frac) h hprec hs (hg j) (hp j) (ha j) (hT j) (hN j)
  obtain ⟨z, hz⟩ : ∃ z, z = ballSum P 1e-10 := ⟨_, rfl⟩
  have hval : ∀ j, (F j).getD i 0 = (i + 1 : ℕ) * (p j).deltaT * (0.5 * z) + (i + 1 : ℕ) * (p j).deltaT *
      ∑ n ∈ Finset.range ((p j).nmax.toNat / (i + 1)), ballSum P ((n + 1) * ((i + 1 : ℕ) * (p j).deltaT)) := by
    intro j
    have hlt : i < (F j).length := by have := hi j; rw [hlen j]; omega
    have e : (F j)[i]? = some ((F j).getD i 0) := by rw [List.getD_eq_getElem?_getD, List.getElem?_eq_getElem hlt]; rfl
    rw [hv j i _ e, mul_add, hz]
    congr 2
    refine Finset.sum_congr rfl fun n hn => ?_
    congr 1
    push_cast
    ring
  refine ⟨F, ∫ k in Ioi (0 : ℝ), ballVal P k, fun j => ⟨hF j, hlen j⟩, ball_e0_value h hq le_rfl (b := .inf) (by simp) (by simp), ?_⟩
  have hsum : ∫ k in Ioi (0 : ℝ), ballVal P k = ∫ k in Ioi (0 : ℝ), ballSum P k :=
    setIntegral_congr_fun measurableSet_Ioi fun k hk => h.val_sum hprec hk (hs k hk)
  have hT' : Tendsto (fun j => (i + 1 : ℕ) * (p j).deltaT) atTop (𝓝 0) := by simpa using hT0.const_mul ((i + 1 : ℕ) : ℝ)
  have hlim := riemann_limit (f := ballSum P) (g := fun k => freeC R1 R2 P.L * sharpExp (k * (P.L - (R1 + R2))))
    (fun k hk => h.sum_contAt hk)
    (fun k k' hk hkk => mul_le_mul_of_nonneg_left (sharpExp_anti (by positivity) (mul_le_mul_of_nonneg_right hkk hd.le)) hC.le)
    ((sharpExp_integrable hd).const_mul _) (fun k hk => by rw [← h.val_sum hprec hk (hs k hk)]; exact (h.val_bound hk).2.1)
    (T := fun j => (i + 1 : ℕ) * (p j).deltaT) (N := fun j => (p j).nmax.toNat / (i + 1)) (fun j => mul_pos hi0 (hT j)) hT' ?_
  · rw [hsum]
    have := (hT'.mul_const (0.5 * z)).add hlim
    rw [zero_mul, zero_add] at this
    exact this.congr fun j => (hval j).symm
  · have h1 : Tendsto (fun j => (p j).nmax * (p j).deltaT - (i + 1 : ℕ) * (p j).deltaT) atTop atTop := by
      simpa [sub_eq_add_neg] using hNT.atTop_add hT'.neg
    refine tendsto_atTop_mono (fun j => ?_) h1
    have e : ((p j).nmax : ℝ) = ((p j).nmax.toNat : ℝ) := by
      have := Int.toNat_of_nonneg (by have := hN j; omega : 0 ≤ (p j).nmax)
      exact_mod_cast this.symm
    have h2 : (p j).nmax.toNat ≤ (p j).nmax.toNat / (i + 1) * (i + 1) + (i + 1) := by
      have := Nat.div_add_mod (p j).nmax.toNat (i + 1)
      have := Nat.mod_lt (p j).nmax.toNat (by omega : 0 < i + 1)
      rw [mul_comm (_ / _)]
      omega
    have h3 : ((p j).nmax.toNat : ℝ) ≤ ((p j).nmax.toNat / (i + 1) : ℕ) * ((i + 1 : ℕ) : ℝ) + (i + 1 : ℕ) := by exact_mod_cast h2
    rw [e, ← sub_mul, ← mul_assoc]
    exact mul_le_mul_of_nonneg_right (by linarith) (hT j).le

/-! ## Examples -/

/-- The coated gold ball and the conductor attract each other at zero temperature, more than the bare gold ball does, and less at a larger distance. -/
example : ∃ E E' E'', e0 exactQuad (ballAt exactBes frac wetFull) 0.01 500 0 .inf = .ok E ∧ e0 exactQuad (ballAt exactBes frac dryFull) 0.01 500 0 .inf = .ok E' ∧
    e0 exactQuad (ballAt exactBes frac (wetFull.at 7)) 0.01 500 0 .inf = .ok E'' ∧ E < 0 ∧ E ≤ E' ∧ E < E'' ∧ E'' ≤ 0 := by
  have hsame : ∀ k, 0 < k → wetFull.SameSide k := fun k hk => wetFull_same hk
  obtain ⟨E, h1, h2, -⟩ := C138_strict (frac := frac) (deltaT := 0.01) (nmax := 500) wetFull_ok exactQuad_exact (fun k hk => (wetFull_contrast hk).1)
    (fun k hk => (wetFull_contrast hk).2) le_rfl (b := .inf) (by simp) (by simp)
  obtain ⟨E', F, h3, h4, h5, -⟩ := C138_profiles (frac := frac) (deltaT := 0.01) (nmax := 500) (P := dryFull) (B1 := .strat wetGold) (B2 := .solid 3 4)
    dryFull_ok wetFull_ok le_rfl dryFull_weaker exactQuad_exact le_rfl (b := .inf) (by simp) (by simp)
  obtain ⟨G, E'', h6, h7, h8, h9, h10⟩ := C138_distance (frac := frac) (deltaT := 0.01) (nmax := 500) (L := 7) wetFull_ok le_rfl (by norm_num [wetFull, wetPair])
    hsame exactQuad_exact le_rfl (b := .inf) (by simp) (by simp)
  have h4 : e0 exactQuad (ballAt exactBes frac wetFull) 0.01 500 0 .inf = .ok F := h4
  rw [h1] at h4 h6
  injection h4 with h4
  injection h6 with h6
  subst h4 h6
  exact ⟨E, E', E'', h1, h3, h7, h2 hsame, (h5 hsame).1,
    h10 (by norm_num [wetFull, wetPair]) (fun k hk => wetFull_contrast hk) (by simp) (by simp), h9⟩

/-- Steps `1/(j+1)` and `nmax = (j+1)²` for the coated ball. -/
noncomputable def coldWet (frac : ℝ → ℝ → ℝ) (j : ℕ) : FTParams :=
  ⟨1 / ((j : ℝ) + 1), ((j + 1) ^ 2 : ℕ), 7, false, .int 0, ballGeo exactBes frac wetFull⟩

/-- The hypotheses of the low-temperature limit hold for it. -/
example : ∃ (F : ℕ → List ℝ) (E : ℝ), (∀ j, (freeEnergy (coldWet frac j) FT.fresh).1 = .ok (F j) ∧ (F j).length = 7) ∧
    Tendsto (fun j => (F j).getD 3 0) atTop (𝓝 E) := by
  obtain ⟨F, E, h1, -, h2⟩ := C138_low_temperature (frac := frac) (deltaT := 0) (nmax := 0) (p := coldWet frac) (i := 3) wetFull_ok exactQuad_exact le_rfl
    (fun k hk => .inl (wetFull_same hk)) (fun _ => rfl) (fun _ => rfl) (fun _ => rfl) (fun j => by unfold coldWet; positivity)
    tendsto_one_div_add_atTop_nhds_zero_nat (fun j => by
      unfold coldWet
      simp only
      exact_mod_cast Nat.one_le_iff_ne_zero.mpr (by positivity))
    (by
      refine ((tendsto_natCast_atTop_atTop (R := ℝ)).atTop_add (tendsto_const_nhds (x := (1 : ℝ)))).congr fun j => ?_
      unfold coldWet
      push_cast
      field_simp)
    (fun _ => by unfold coldWet; norm_num)
  exact ⟨F, E, h1, h2⟩

end CasSph
