import Verif.Model.Scattering
import Verif.Props.Bessel

/-! # Bessel tables: exact functions and the entries computed by the code -/

namespace CasSph

open Spec Filter Topology Nat

/-- Entries with the exact Bessel functions. -/
noncomputable def exactBes : BesTable := fun l x =>
  ⟨Real.log (sphI (l - 1) x), Real.log (sphI l x), Real.log (sphK (l - 1) x), Real.log (sphK l x)⟩

/-- `lni[., l]` as computed by the code for an array in which small arguments come first: `N` terms of the continued
fraction, `mixed` if the array contains small and large arguments. -/
noncomputable def codeI (N : ℕ) (mixed : Bool) (x : ℝ) (l : ℕ) : ℝ := ordI N (ord0 mixed) (ord1 mixed) x l

/-- Entries as computed by `mie_bessels`. -/
noncomputable def codeBes (N : ℕ) (mixed : Bool) : BesTable := fun l x =>
  ⟨codeI N mixed x (l - 1), codeI N mixed x l, lnk1 x (l - 1), lnk1 x l⟩

/-- The condition that keeps every denominator of the Mie coefficients away from zero. -/
def BesOK (T : BesTable) (l : ℕ) (x : ℝ) : Prop := (l : ℝ) < x * Real.exp ((T l x).i0 - (T l x).i1)

theorem idT_pos {T : BesTable} {l : ℕ} {x : ℝ} (h : BesOK T l x) : 0 < idT l x (T l x) := by
  unfold BesOK at h; unfold idT; linarith

theorem kdT_neg {l : ℕ} (hl : 1 ≤ l) {x : ℝ} (hx : 0 < x) (B : Bes) : kdT l x B < 0 := by
  unfold kdT
  have h1 : (1 : ℝ) ≤ l := by exact_mod_cast hl
  have := Real.exp_pos (B.k0 - B.k1)
  have : 0 < x * Real.exp (B.k0 - B.k1) := by positivity
  linarith

theorem sphI_ratio_gt (l : ℕ) {x : ℝ} (hx : 0 < x) : (2 * l + 3 : ℝ) < x * (sphI l x / sphI (l + 1) x) := by
  have h := sphI_rec' l x
  have h1 := sphI_pos (l + 1) hx
  have h2 := sphI_pos (l + 2) hx
  rw [← mul_div_assoc, lt_div_iff₀ h1]
  nlinarith

theorem exactBes_i {l : ℕ} (hl : 1 ≤ l) {x : ℝ} (hx : 0 < x) :
    Real.exp ((exactBes l x).i0 - (exactBes l x).i1) = sphI (l - 1) x / sphI l x := by
  unfold exactBes
  simp only
  rw [Real.exp_sub, Real.exp_log (sphI_pos _ hx), Real.exp_log (sphI_pos _ hx)]

theorem exactBes_k {l : ℕ} {x : ℝ} (hx : 0 < x) :
    Real.exp ((exactBes l x).k0 - (exactBes l x).k1) = sphK (l - 1) x / sphK l x := by
  unfold exactBes
  simp only
  rw [Real.exp_sub, Real.exp_log (sphK_pos _ hx), Real.exp_log (sphK_pos _ hx)]

theorem exactBes_ok {l : ℕ} (hl : 1 ≤ l) {x : ℝ} (hx : 0 < x) : BesOK exactBes l x := by
  unfold BesOK
  rw [exactBes_i hl hx]
  obtain ⟨l, rfl⟩ := Nat.exists_eq_add_of_le' hl
  have := sphI_ratio_gt l hx
  simp only [Nat.add_sub_cancel]
  push_cast
  have : (0 : ℝ) ≤ l := Nat.cast_nonneg l
  linarith

/-! ## code tables -/

theorem codeI_low {x : ℝ} (hx : 0 < x) (N : ℕ) (b : Bool) {j : ℕ} (hj : j ≤ 1) :
    |codeI N b x j - Real.log (sphI j x)| ≤ x ^ 4 / 600 ∧
    |codeI N b x j - Real.log (sphI j x)| ≤ 1 / 1000 := by
  by_cases h : x < 1e-3
  · have hx2 := sq_small hx h
    have hx0 : (0 : ℝ) ≤ x ^ 2 := by positivity
    have h4 : x ^ 4 / 600 ≤ 1 / 1000 := by
      have : x ^ 4 = x ^ 2 * x ^ 2 := by ring
      rw [this]; norm_num at hx2 ⊢; nlinarith
    have hx1 : x ^ 2 ≤ 1 := hx2.trans (by norm_num)
    have h6 : x ^ 6 ≤ x ^ 4 := by
      have : x ^ 6 = x ^ 4 * x ^ 2 := by ring
      rw [this]; exact mul_le_of_le_one_right (by positivity) hx1
    have h8 : x ^ 8 ≤ x ^ 4 := by
      have : x ^ 8 = x ^ 6 * x ^ 2 := by ring
      rw [this]; exact (mul_le_of_le_one_right (by positivity) hx1).trans h6
    have p4 : (0 : ℝ) ≤ x ^ 4 := by positivity
    suffices hh : |codeI N b x j - Real.log (sphI j x)| ≤ x ^ 4 / 600 from ⟨hh, hh.trans h4⟩
    rcases (by omega : j = 0 ∨ j = 1) with rfl | rfl
    · have := i0_small hx h
      have h8' : x ^ 8 / 500 ≤ x ^ 4 / 600 := by
        have : x ^ 8 = x ^ 4 * (x ^ 2 * x ^ 2) := by ring
        rw [this]
        have : x ^ 2 * x ^ 2 ≤ 1 / 2 := by norm_num at hx2 ⊢; nlinarith
        nlinarith
      unfold codeI ordI ord0
      rw [if_pos h]
      cases b
      · exact this.2.trans (by linarith)
      · exact this.1.trans h8'
    · have := i1_small hx h
      have h6' : x ^ 6 / 500 ≤ x ^ 4 / 600 := by
        have : x ^ 6 = x ^ 4 * x ^ 2 := by ring
        rw [this]
        have : x ^ 2 ≤ 1 / 2 := by norm_num at hx2 ⊢; linarith
        nlinarith
      unfold codeI ordI ord1
      rw [if_pos h]
      cases b
      · exact this.2
      · exact this.1.trans h6'
  · have : codeI N b x j = Real.log (sphI j x) := by
      rcases (by omega : j = 0 ∨ j = 1) with rfl | rfl
      · unfold codeI ordI ord0; rw [if_neg h]; exact (i0lg_eq hx).2
      · unfold codeI ordI ord1; rw [if_neg h]; exact (i1lg_eq hx).2
    rw [this, sub_self, abs_zero]
    exact ⟨by positivity, by norm_num⟩

theorem exp_iHigh {x : ℝ} (hx : 0 < x) (M l : ℕ) :
    ∃ f, sphI l x / sphI (l + 1) x < f ∧ Real.exp (iHigh (2 * (M + 1)) x l) =
      Real.pi / (2 * x ^ 2) / (sphK (l + 1) x + sphK l x / f) := by
  have hb := (fnu1_bounds l hx M).1
  refine ⟨_, hb, ?_⟩
  set f := fnu1 (2 * (M + 1)) x (l + 0.5) with hf
  have hi1 := sphI_pos l hx
  have hi2 := sphI_pos (l + 1) hx
  have hk1 := sphK_pos l hx
  have hk2 := sphK_pos (l + 1) hx
  have hf0 : 0 < f := (div_pos hi1 hi2).trans hb
  have hpi := Real.pi_pos
  unfold iHigh
  rw [← hf, Real.exp_sub, Real.exp_sub, Real.exp_log (by positivity), exp_lnk1 hx, Real.exp_sub, exp_lnk1 hx,
    exp_lnk1 hx, Real.exp_log (by positivity)]
  field_simp
  ring

/-- Orders at least two: the computed value lies between `i_l` and `W/k_{l+1}`, and is more than `W/(2 k_{l+1})`. -/
theorem codeI_high {x : ℝ} (hx : 0 < x) (M : ℕ) (b : Bool) {l : ℕ} (hl : 2 ≤ l) :
    sphI l x ≤ Real.exp (codeI (2 * (M + 1)) b x l) ∧
    Real.exp (codeI (2 * (M + 1)) b x l) < Real.pi / (2 * x ^ 2) / sphK (l + 1) x ∧
    Real.pi / (2 * x ^ 2) / (2 * sphK (l + 1) x) < Real.exp (codeI (2 * (M + 1)) b x l) := by
  obtain ⟨f, hf, he⟩ := exp_iHigh hx M l
  have hc : codeI (2 * (M + 1)) b x l = iHigh (2 * (M + 1)) x l := by
    obtain ⟨l, rfl⟩ := Nat.exists_eq_add_of_le' hl
    rfl
  rw [hc, he]
  have hi1 := sphI_pos l hx
  have hi2 := sphI_pos (l + 1) hx
  have hk1 := sphK_pos l hx
  have hk2 := sphK_pos (l + 1) hx
  have hT : 0 < sphI l x / sphI (l + 1) x := div_pos hi1 hi2
  have hf0 : 0 < f := hT.trans hf
  have hpi := Real.pi_pos
  have hW : 0 < Real.pi / (2 * x ^ 2) := by positivity
  have hkf : 0 < sphK l x / f := by positivity
  refine ⟨?_, ?_, ?_⟩
  · rw [le_div_iff₀ (by positivity), ← wronskian l hx.ne', mul_add]
    have : sphI l x * (sphK l x / f) ≤ sphI (l + 1) x * sphK l x := by
      rw [div_lt_iff₀ hi2] at hf
      rw [← mul_div_assoc, div_le_iff₀ hf0]
      nlinarith
    linarith
  · exact div_lt_div_of_pos_left hW hk2 (by linarith)
  · apply div_lt_div_of_pos_left hW (by positivity)
    have h1 : 1 < f := lt_trans (by rw [one_lt_div hi2]; exact sphI_succ_lt l hx) hf
    have : sphK l x / f < sphK (l + 1) x :=
      (div_lt_self hk1 h1).trans (sphK_lt_succ l hx)
    linarith

theorem exp_near {a b : ℝ} (h : |a - b| ≤ 1 / 1000) : Real.exp b * (999 / 1000) ≤ Real.exp a ∧
    Real.exp a * (999 / 1000) ≤ Real.exp b := by
  rw [abs_le] at h
  have key : ∀ u v : ℝ, -(1 / 1000) ≤ u - v → Real.exp v * (999 / 1000) ≤ Real.exp u := by
    intro u v huv
    have e : Real.exp u = Real.exp v * Real.exp (u - v) := by rw [← Real.exp_add]; ring_nf
    rw [e]
    refine mul_le_mul_of_nonneg_left ?_ (Real.exp_pos v).le
    have := Real.add_one_le_exp (u - v)
    linarith
  exact ⟨key a b h.1, key b a (by linarith [h.2])⟩

theorem codeBes_ok {l : ℕ} (hl : 1 ≤ l) {x : ℝ} (hx : 0 < x) (M : ℕ) (b : Bool) :
    BesOK (codeBes (2 * (M + 1)) b) l x := by
  unfold BesOK codeBes
  simp only
  rw [Real.exp_sub]
  rcases (by omega : l = 1 ∨ l = 2 ∨ 3 ≤ l) with rfl | rfl | h3
  · have h0 := (exp_near (codeI_low hx (2 * (M + 1)) b (j := 0) (by omega)).2).1
    have h1 := (exp_near (codeI_low hx (2 * (M + 1)) b (j := 1) (by omega)).2).2
    rw [Real.exp_log (sphI_pos _ hx)] at h0 h1
    have hr := sphI_ratio_gt 0 hx
    simp only [Nat.cast_zero, Nat.cast_one, Nat.sub_self] at *
    rw [← mul_div_assoc, lt_div_iff₀ (sphI_pos 1 hx)] at hr
    rw [← mul_div_assoc, lt_div_iff₀ (Real.exp_pos _)]
    have := sphI_pos 1 hx
    nlinarith
  · have h1 := (exp_near (codeI_low hx (2 * (M + 1)) b (j := 1) (by omega)).2).1
    rw [Real.exp_log (sphI_pos _ hx)] at h1
    have h2 := (codeI_high hx M b (l := 2) le_rfl).2.1
    have hw := wronskian 1 hx.ne'
    have hk := sphK_rec 1 hx.ne'
    have k1 := sphK_pos 1 hx
    have k2 := sphK_pos 2 hx
    have k3 := sphK_pos 3 hx
    have i1 := sphI_pos 1 hx
    have i2 := sphI_pos 2 hx
    have hi := sphI_succ_lt 1 hx
    have hkk := sphK_lt_succ 1 hx
    simp only [Nat.reduceAdd, Nat.add_one_sub_one] at *
    rw [← mul_div_assoc, lt_div_iff₀ (Real.exp_pos _)]
    rw [lt_div_iff₀ k3, ← hw] at h2
    have hxk : x * sphK 3 x = x * sphK 1 x + 5 * sphK 2 x := by rw [hk]; field_simp; push_cast; ring
    have : 2 * (Real.exp (codeI (2 * (M + 1)) b x 2) * sphK 3 x) < x * Real.exp (codeI (2 * (M + 1)) b x 1) * sphK 3 x := by
      have e : x * Real.exp (codeI (2 * (M + 1)) b x 1) * sphK 3 x =
          Real.exp (codeI (2 * (M + 1)) b x 1) * (x * sphK 1 x + 5 * sphK 2 x) := by rw [← hxk]; ring
      rw [e]
      have hik : sphI 2 x * sphK 1 x ≤ sphI 1 x * sphK 2 x := by nlinarith
      have : 0 < sphI 1 x * sphK 2 x := by positivity
      have : 0 < Real.exp (codeI (2 * (M + 1)) b x 1) * (x * sphK 1 x) := by positivity
      have : sphI 1 x * (999 / 1000) * (5 * sphK 2 x) ≤ Real.exp (codeI (2 * (M + 1)) b x 1) * (5 * sphK 2 x) := by gcongr
      nlinarith
    have h' : (2 * Real.exp (codeI (2 * (M + 1)) b x 2)) * sphK 3 x < x * Real.exp (codeI (2 * (M + 1)) b x 1) * sphK 3 x := by
      linarith
    have := lt_of_mul_lt_mul_right h' k3.le
    push_cast; exact this
  · obtain ⟨l, rfl⟩ := Nat.exists_eq_add_of_le' h3
    have hA := (codeI_high hx M b (l := l + 2) (by omega)).2.2
    have hB := (codeI_high hx M b (l := l + 3) (by omega)).2.1
    have hk := sphK_rec (l + 2) hx.ne'
    have k2 := sphK_pos (l + 2) hx
    have k3 := sphK_pos (l + 3) hx
    have k4 := sphK_pos (l + 4) hx
    have hpi := Real.pi_pos
    simp only [show l + 2 + 1 = l + 3 by omega, show l + 3 + 1 = l + 4 by omega,
      show l + 3 - 1 = l + 2 by omega] at *
    rw [← mul_div_assoc, lt_div_iff₀ (Real.exp_pos _)]
    set W := Real.pi / (2 * x ^ 2) with hW
    have hW0 : 0 < W := by positivity
    rw [lt_div_iff₀ k4] at hB
    rw [div_lt_iff₀ (by positivity)] at hA
    have hxk : x * sphK (l + 4) x = x * sphK (l + 2) x + (2 * l + 7) * sphK (l + 3) x := by
      rw [hk]; push_cast; field_simp; ring
    have hl0 : (0 : ℝ) ≤ l := Nat.cast_nonneg l
    set E2 := Real.exp (codeI (2 * (M + 1)) b x (l + 2))
    set E3 := Real.exp (codeI (2 * (M + 1)) b x (l + 3))
    have hE2 : 0 < E2 := Real.exp_pos _
    have hE3 : 0 < E3 := Real.exp_pos _
    have : ((l + 3 : ℕ) : ℝ) * E3 * sphK (l + 4) x < x * E2 * sphK (l + 4) x := by
      have e : x * E2 * sphK (l + 4) x = E2 * (x * sphK (l + 2) x + (2 * l + 7) * sphK (l + 3) x) := by
        rw [← hxk]; ring
      rw [e]
      push_cast
      have : 0 < E2 * (x * sphK (l + 2) x) := by positivity
      have : ((l : ℝ) + 3) * (E3 * sphK (l + 4) x) < (l + 3) * W := by gcongr
      nlinarith
    exact lt_of_mul_lt_mul_right this k4.le

/-! ## behaviour at small arguments -/

/-- What the Mie coefficients need to know about the table at small arguments. -/
structure LowFreq (T : BesTable) (l : ℕ) : Prop where
  idlim : Tendsto (fun x => x * Real.exp ((T l x).i0 - (T l x).i1)) (𝓝[>] 0) (𝓝 (2 * l + 1))
  kdlim : Tendsto (fun x => x * Real.exp ((T l x).k0 - (T l x).k1)) (𝓝[>] 0) (𝓝 0)
  scale : Tendsto (fun x => Real.exp ((T l x).i1 - (T l x).k1) / x ^ (2 * l + 1)) (𝓝[>] 0)
    (𝓝 (2 / Real.pi / (((2 * l + 1)‼ : ℝ) * ((2 * l - 1)‼ : ℝ))))

theorem dfac_odd (l : ℕ) (hl : 1 ≤ l) : ((2 * l + 1)‼ : ℝ) = (2 * l + 1) * ((2 * l - 1)‼ : ℝ) := by
  have : 2 * l + 1 = 2 * l - 1 + 2 := by omega
  rw [this, Nat.doubleFactorial_add_two]
  push_cast
  rw [Nat.cast_sub (by omega)]
  push_cast; ring

theorem lowFreq_of {T : BesTable} {l : ℕ} (hl : 1 ≤ l) (u : ℝ → ℕ → ℝ)
    (hi : ∀ x, 0 < x → (T l x).i0 = u x (l - 1) ∧ (T l x).i1 = u x l)
    (hk : ∀ x, 0 < x → (T l x).k0 = Real.log (sphK (l - 1) x) ∧ (T l x).k1 = Real.log (sphK l x))
    (hu : ∀ j, Tendsto (fun x => Real.exp (u x j) / x ^ j) (𝓝[>] 0) (𝓝 (1 / ((2 * j + 1)‼ : ℝ)))) :
    LowFreq T l := by
  obtain ⟨l, rfl⟩ := Nat.exists_eq_add_of_le' hl
  have d0 := (dfac_pos (2 * l + 1)).ne'
  have d1 := (dfac_pos (2 * (l + 1) + 1)).ne'
  have hd := dfac_odd (l + 1) (by omega)
  rw [show 2 * (l + 1) - 1 = 2 * l + 1 by omega] at hd
  have hpi := Real.pi_pos
  simp only [Nat.add_sub_cancel] at hi hk
  have kt := sphK_tendsto (l + 1)
  rw [show 2 * (l + 1) - 1 = 2 * l + 1 by omega] at kt
  refine ⟨?_, ?_, ?_⟩
  · have h := (hu l).div (hu (l + 1)) (by positivity)
    have e : 1 / ((2 * l + 1)‼ : ℝ) / (1 / ((2 * (l + 1) + 1)‼ : ℝ)) = 2 * ((l + 1 : ℕ) : ℝ) + 1 := by
      rw [hd]; field_simp
    rw [e] at h
    refine h.congr' ?_
    filter_upwards [self_mem_nhdsWithin] with x hx
    have hx : 0 < x := hx
    simp only [Pi.div_apply]
    rw [(hi x hx).1, (hi x hx).2, Real.exp_sub, pow_succ]
    have := Real.exp_pos (u x (l + 1))
    field_simp
  · have h1 := (sphK_tendsto l).div kt (by positivity)
    have h2 : Tendsto (fun x : ℝ => x ^ 2) (𝓝[>] 0) (𝓝 0) := by
      have : Continuous (fun x : ℝ => x ^ 2) := by fun_prop
      have := this.tendsto 0
      simp only [ne_eq, OfNat.ofNat_ne_zero, not_false_eq_true, zero_pow] at this
      exact this.mono_left nhdsWithin_le_nhds
    have h := h2.mul h1
    rw [zero_mul] at h
    refine h.congr' ?_
    filter_upwards [self_mem_nhdsWithin] with x hx
    have hx : 0 < x := hx
    simp only [Pi.div_apply]
    rw [(hk x hx).1, (hk x hx).2, Real.exp_sub, Real.exp_log (sphK_pos _ hx), Real.exp_log (sphK_pos _ hx)]
    have := sphK_pos (l + 1) hx
    field_simp
    ring
  · have h := (hu (l + 1)).div kt (by positivity)
    rw [show 2 * (l + 1) - 1 = 2 * l + 1 by omega]
    have e : 1 / ((2 * (l + 1) + 1)‼ : ℝ) / (Real.pi / 2 * ((2 * l + 1)‼ : ℝ)) =
        2 / Real.pi / (((2 * (l + 1) + 1)‼ : ℝ) * ((2 * l + 1)‼ : ℝ)) := by field_simp
    rw [e] at h
    refine h.congr' ?_
    filter_upwards [self_mem_nhdsWithin] with x hx
    have hx : 0 < x := hx
    simp only [Pi.div_apply]
    rw [(hi x hx).2, (hk x hx).2, Real.exp_sub, Real.exp_log (sphK_pos _ hx)]
    have := sphK_pos (l + 1) hx
    field_simp
    ring

theorem exactBes_low {l : ℕ} (hl : 1 ≤ l) : LowFreq exactBes l := by
  refine lowFreq_of hl (fun x j => Real.log (sphI j x)) (fun x _ => ⟨rfl, rfl⟩) (fun x _ => ⟨rfl, rfl⟩) ?_
  intro j
  refine (sphI_tendsto j).congr' ?_
  filter_upwards [self_mem_nhdsWithin] with x hx
  rw [Real.exp_log (sphI_pos j hx)]

/-- The table of `i_j` computed by the code behaves as `x^j/(2j+1)!!` for small arguments. -/
theorem codeI_tendsto (M : ℕ) (b : Bool) (j : ℕ) :
    Tendsto (fun x => Real.exp (codeI (2 * (M + 1)) b x j) / x ^ j) (𝓝[>] 0) (𝓝 (1 / ((2 * j + 1)‼ : ℝ))) := by
  by_cases hj : j ≤ 1
  · have hd : Tendsto (fun x => codeI (2 * (M + 1)) b x j - Real.log (sphI j x)) (𝓝[>] 0) (𝓝 0) := by
      have hz : Tendsto (fun x : ℝ => x ^ 4 / 600) (𝓝[>] 0) (𝓝 0) := by
        have : Continuous (fun x : ℝ => x ^ 4 / 600) := by fun_prop
        have := this.tendsto 0
        norm_num at this
        exact this.mono_left nhdsWithin_le_nhds
      refine squeeze_zero_norm' ?_ hz
      filter_upwards [self_mem_nhdsWithin] with x hx
      exact (codeI_low hx (2 * (M + 1)) b hj).1
    have h := (sphI_tendsto j).mul ((Real.continuous_exp.tendsto 0).comp hd)
    rw [Real.exp_zero, mul_one] at h
    refine h.congr' ?_
    filter_upwards [self_mem_nhdsWithin] with x hx
    simp only [Function.comp]
    rw [Real.exp_sub, Real.exp_log (sphI_pos j hx)]
    have := sphI_pos j hx
    field_simp
  · have hj2 : 2 ≤ j := by omega
    have hpi := Real.pi_pos
    have hup : Tendsto (fun x => Real.pi / (2 * x ^ 2) / sphK (j + 1) x / x ^ j) (𝓝[>] 0)
        (𝓝 (1 / ((2 * j + 1)‼ : ℝ))) := by
      have kt := sphK_tendsto (j + 1)
      rw [show 2 * (j + 1) - 1 = 2 * j + 1 by omega] at kt
      have d1 := (dfac_pos (2 * j + 1)).ne'
      have h := (tendsto_const_nhds (x := Real.pi / 2)).div kt (by positivity)
      have e : Real.pi / 2 / (Real.pi / 2 * ((2 * j + 1)‼ : ℝ)) = 1 / ((2 * j + 1)‼ : ℝ) := by field_simp
      rw [e] at h
      refine h.congr' ?_
      filter_upwards [self_mem_nhdsWithin] with x hx
      have hx : 0 < x := hx
      have := sphK_pos (j + 1) hx
      simp only [Pi.div_apply]
      field_simp
      ring
    refine tendsto_of_tendsto_of_tendsto_of_le_of_le' (sphI_tendsto j) hup ?_ ?_
    · filter_upwards [self_mem_nhdsWithin] with x hx
      have hx : 0 < x := hx
      have := (codeI_high hx M b hj2).1
      gcongr
    · filter_upwards [self_mem_nhdsWithin] with x hx
      have hx : 0 < x := hx
      have := (codeI_high hx M b hj2).2.1.le
      gcongr

theorem codeBes_low {l : ℕ} (hl : 1 ≤ l) (M : ℕ) (b : Bool) : LowFreq (codeBes (2 * (M + 1)) b) l := by
  refine lowFreq_of hl (codeI (2 * (M + 1)) b) (fun x _ => ⟨rfl, rfl⟩)
    (fun x hx => ⟨lnk1_eq hx _, lnk1_eq hx _⟩) (codeI_tendsto M b)

end CasSph
