import Verif.Lemmas.CavityTrunc
import Verif.Props.CavityCut
import Verif.Props.Truncation

/-! # C151: the error made by finite cut-offs `lmax` and `lssmax` for a sphere inside a cavity falls geometrically -/

namespace CasSph

open Spec Filter Topology MeasureTheory Set

variable {P : PairIn} {frac : ℝ → ℝ → ℝ} {lnK : ℝ → ℕ → ℝ} {R1 R2 : ℝ} {a b : ℕ}

theorem CavFits.q1 (hR : CavFits P R1 R2) (h : CavOK P) (n : ℕ) : 0 ≤ (P.r1 / R1) ^ n := pow_nonneg (div_pos h.h1 (h.h1.trans_le hR.r1)).le n
theorem CavFits.q2 (hR : CavFits P R1 R2) (h : CavOK P) (n : ℕ) : 0 ≤ (R2 / P.r2) ^ n := pow_nonneg (div_pos (hR.pos2 h) h.r2_pos).le n

/-- **C151, `mSumme`.** Raising the cut-offs arbitrarily changes no value by more than the bound, for all materials. -/
theorem C151_mSumme (h : CavOK P) (hprec : P.precision ≤ 0) (hR : CavFits P R1 R2) (ha : P.lmax ≤ a) (hb : P.lssmax ≤ b) (hab : a ≤ b) {ks : List ℝ}
    (hne : ks ≠ []) (hk : ∀ k ∈ ks, 0 < k) :
    ∃ vs ws, geoVals exactBes P ks = .ok vs ∧ geoVals exactBes (P.cut a b) ks = .ok ws ∧ vs.length = ks.length ∧ ws.length = ks.length ∧
      ∀ (j : ℕ) (k x y : ℝ), ks[j]? = some k → vs[j]? = some x → ws[j]? = some y →
        |y - x| ≤ (P.r1 / R1) ^ (2 * P.lmax + 1) * (18 / (1 - R1 / (P.r2 - P.L)) ^ 3 * Real.exp (-(k * (P.r2 - P.L - R1)))) +
          (R2 / P.r2) ^ (2 * P.lssmax + 1) * (18 / (1 - P.r1 / (R2 - P.L)) ^ 3 * Real.exp (-(k * (R2 - P.L - P.r1)))) := by
  have hc := h.cut (h.hl.trans ha) hab
  refine ⟨_, _, h.vals_sum hprec hne hk, hc.vals_sum hprec hne hk, by simp, by simp, fun j k x y hj hx hy => ?_⟩
  rw [List.getElem?_map, hj] at hx hy
  injection hx with hx
  injection hy with hy
  rw [← hx, ← hy]
  exact h.sum_trunc hR (hk k (List.mem_of_getElem? hj)) ha hb hab

/-- The bounds of one Matsubara sum add up to that of C121. -/
theorem cavExp_free (h : CavOK P) {T : ℝ} (hT : 0 < T) (n : ℕ) :
    T * (0.5 * cavExp P 1e-10 + ∑ j ∈ Finset.range n, cavExp P (T * (j + 1))) ≤ cavFree P T := by
  have hd := h.gap_pos
  have hq : 0 < (1 - cavRatio P) ^ 3 := pow_pos (sub_pos.mpr h.ratio.2) 3
  have hC : 0 < 18 / (1 - cavRatio P) ^ 3 := by positivity
  have e1 : Real.exp (-(T * cavGap P)) < 1 := by rw [Real.exp_lt_one_iff]; have := mul_pos hT hd; linarith
  have e2 := Real.exp_pos (-(T * cavGap P))
  have z : cavExp P 1e-10 ≤ 18 / (1 - cavRatio P) ^ 3 := by
    unfold cavExp
    refine mul_le_of_le_one_right hC.le ?_
    rw [Real.exp_le_one_iff]
    linarith
  have s : ∑ j ∈ Finset.range n, cavExp P (T * (j + 1)) ≤ 18 / (1 - cavRatio P) ^ 3 * (Real.exp (-(T * cavGap P)) / (1 - Real.exp (-(T * cavGap P)))) := by
    have e : ∀ j : ℕ, cavExp P (T * (j + 1)) = 18 / (1 - cavRatio P) ^ 3 * (Real.exp (-(T * cavGap P)) * Real.exp (-(T * cavGap P)) ^ j) := by
      intro j
      unfold cavExp
      rw [← Real.exp_nat_mul, ← Real.exp_add]
      congr 2
      ring
    simp only [e]
    rw [← Finset.mul_sum, ← Finset.mul_sum, div_eq_mul_inv]
    refine mul_le_mul_of_nonneg_left (mul_le_mul_of_nonneg_left ?_ e2.le) hC.le
    rw [← tsum_geometric_of_lt_one e2.le e1]
    exact (summable_geometric_of_lt_one e2.le e1).sum_le_tsum _ fun _ _ => by positivity
  unfold cavFree
  refine mul_le_mul_of_nonneg_left ?_ hT.le
  norm_num at z ⊢
  linarith

/-- **C151, `free_energy`.** -/
theorem C151_free_energy {p p' : FTParams} (h : CavOK P) (hprec : P.precision ≤ 0) (hR : CavFits P R1 R2) (ha : P.lmax ≤ a) (hb : P.lssmax ≤ b) (hab : a ≤ b)
    (hg : p.geo = geoGeo exactBes frac lnK P) (hp' : p' = { p with geo := geoGeo exactBes frac lnK (P.cut a b) }) (hp : p.nprocs.isZero)
    (han : p.analyticN0 = false) (hT : 0 < p.deltaT) (hN : 1 ≤ p.nmax) :
    ∃ F F' : List ℝ, (freeEnergy p FT.fresh).1 = .ok F ∧ (freeEnergy p' FT.fresh).1 = .ok F' ∧ F.length = p.maxstep.toNat ∧ F'.length = p.maxstep.toNat ∧
      ∀ (i : ℕ) (x y : ℝ), F[i]? = some x → F'[i]? = some y →
        |y - x| ≤ (P.r1 / R1) ^ (2 * P.lmax + 1) * cavFree { P with r1 := R1 } ((i + 1) * p.deltaT) +
          (R2 / P.r2) ^ (2 * P.lssmax + 1) * cavFree { P with r2 := R2 } ((i + 1) * p.deltaT) := by
  obtain ⟨F, hF, hl, hv, -⟩ := cavFreeAt_val (frac := frac) (lnK := lnK) (p := p) h hprec hp han hT hN h.hl h.hls
  obtain ⟨F', hF', hl', hv', -⟩ := cavFreeAt_val (frac := frac) (lnK := lnK) (p := p) h hprec hp han hT hN (h.hl.trans ha) hab
  rw [cut_self, ← hg] at hF
  rw [← hp'] at hF'
  refine ⟨F, F', hF, hF', hl, hl', fun i x y hx hy => ?_⟩
  have hi : i < F.length := by
    by_contra hh
    rw [List.getElem?_eq_none (by omega)] at hx
    cases hx
  rw [hv i hi] at hx
  rw [hv' i (by omega)] at hy
  injection hx with hx
  injection hy with hy
  subst hx hy
  have hpos : (0 : ℝ) < ((i : ℝ) + 1) * p.deltaT := by positivity
  have ecast : ((i + 1 : ℕ) : ℝ) = (i : ℝ) + 1 := by push_cast; ring
  have t := fun (k : ℝ) (hk : 0 < k) => h.sum_trunc hR hk ha hb hab
  have ek : ∀ j : ℕ, p.deltaT * ((j + 1) * (i + 1) : ℕ) = ((i : ℝ) + 1) * p.deltaT * ((j : ℝ) + 1) := fun j => by push_cast; ring
  have s := Finset.sum_le_sum fun j (_ : j ∈ Finset.range (p.nmax.toNat / (i + 1))) => t (((i : ℝ) + 1) * p.deltaT * ((j : ℝ) + 1)) (by positivity)
  have s' := Finset.abs_sum_le_sum_abs (fun j : ℕ => cavSum (P.cut a b) (((i : ℝ) + 1) * p.deltaT * ((j : ℝ) + 1)) - cavSum P (((i : ℝ) + 1) * p.deltaT * ((j : ℝ) + 1)))
    (Finset.range (p.nmax.toNat / (i + 1)))
  rw [Finset.sum_sub_distrib] at s'
  have z := t 1e-10 (by norm_num)
  have b1 := mul_le_mul_of_nonneg_left (cavExp_free (hR.ok1 h) hpos (p.nmax.toNat / (i + 1))) (hR.q1 h (2 * P.lmax + 1))
  have b2 := mul_le_mul_of_nonneg_left (cavExp_free (hR.ok2 h) hpos (p.nmax.toNat / (i + 1))) (hR.q2 h (2 * P.lssmax + 1))
  unfold cavTrunc at s z
  rw [Finset.sum_add_distrib, ← Finset.mul_sum, ← Finset.mul_sum] at s
  unfold cavFreeAt
  simp only [ek, ecast, cut_self]
  rw [← mul_sub, abs_mul, abs_of_pos hpos, add_sub_add_comm, ← mul_sub]
  have inner : |0.5 * (cavSum (P.cut a b) 1e-10 - cavSum P 1e-10) + (∑ j ∈ Finset.range (p.nmax.toNat / (i + 1)), cavSum (P.cut a b) (((i : ℝ) + 1) * p.deltaT * ((j : ℝ) + 1)) -
        ∑ j ∈ Finset.range (p.nmax.toNat / (i + 1)), cavSum P (((i : ℝ) + 1) * p.deltaT * ((j : ℝ) + 1)))| ≤
      (P.r1 / R1) ^ (2 * P.lmax + 1) * (0.5 * cavExp { P with r1 := R1 } 1e-10 +
        ∑ j ∈ Finset.range (p.nmax.toNat / (i + 1)), cavExp { P with r1 := R1 } (((i : ℝ) + 1) * p.deltaT * ((j : ℝ) + 1))) +
      (R2 / P.r2) ^ (2 * P.lssmax + 1) * (0.5 * cavExp { P with r2 := R2 } 1e-10 +
        ∑ j ∈ Finset.range (p.nmax.toNat / (i + 1)), cavExp { P with r2 := R2 } (((i : ℝ) + 1) * p.deltaT * ((j : ℝ) + 1))) := by
    refine (abs_add_le _ _).trans ?_
    rw [abs_mul, abs_of_pos (by norm_num : (0 : ℝ) < 0.5)]
    linarith
  refine (mul_le_mul_of_nonneg_left inner hpos.le).trans ((le_of_eq ?_).trans (add_le_add b1 b2))
  ring

/-- **C151, `free_energy` against its limit.** The limit for infinite cut-offs exists (C125), and every computed value is within the bound of it. -/
theorem C151_free_energy_limit {p : FTParams} (h : CavOK P) (hprec : P.precision ≤ 0) (hR : CavFits P R1 R2) (hg : p.geo = geoGeo exactBes frac lnK P)
    (hp : p.nprocs.isZero) (han : p.analyticN0 = false) (hT : 0 < p.deltaT) (hN : 1 ≤ p.nmax) {i : ℕ} (hi : (i : ℤ) < p.maxstep) :
    ∃ v, (∀ lm ls : ℕ → ℕ, Tendsto lm atTop atTop → (∀ n, 1 ≤ lm n) → (∀ n, lm n ≤ ls n) → ∀ F : ℕ → List ℝ,
        (∀ n, (freeEnergy { p with geo := geoGeo exactBes frac lnK (P.cut (lm n) (ls n)) } FT.fresh).1 = .ok (F n)) →
        Tendsto (fun n => (F n).getD i 0) atTop (𝓝 v)) ∧
      ∃ F x, (freeEnergy p FT.fresh).1 = .ok F ∧ F[i]? = some x ∧
        |v - x| ≤ (P.r1 / R1) ^ (2 * P.lmax + 1) * cavFree { P with r1 := R1 } ((i + 1) * p.deltaT) +
          (R2 / P.r2) ^ (2 * P.lssmax + 1) * cavFree { P with r2 := R2 } ((i + 1) * p.deltaT) := by
  obtain ⟨v, -, hv, -⟩ := C125_free_energy_limit (frac := frac) (lnK := lnK) h hprec hp han hT hN hi
  refine ⟨v, hv, ?_⟩
  have key := fun n => C151_free_energy (frac := frac) (lnK := lnK) (p := p) (a := P.lmax + n) (b := P.lssmax + n) h hprec hR (by omega) (by omega)
    (by have := h.hls; omega) hg rfl hp han hT hN
  choose F F' hF hF' hl hl' hb using key
  have hF0 : ∀ n, F n = F 0 := fun n => by
    have e := hF n
    rw [hF 0] at e
    injection e with e
    exact e.symm
  have t := hv (fun n => P.lmax + n) (fun n => P.lssmax + n) (tendsto_atTop_mono (fun n => Nat.le_add_left n _) tendsto_id)
    (fun n => by have := h.hl; omega) (fun n => by have := h.hls; omega) F' hF'
  obtain ⟨x, hx⟩ : ∃ x, (F 0)[i]? = some x := ⟨_, List.getElem?_eq_getElem (by rw [hl]; omega)⟩
  refine ⟨F 0, x, hF 0, hx, le_of_tendsto (t.sub_const x).abs (.of_forall fun n => ?_)⟩
  obtain ⟨y, hy⟩ : ∃ y, (F' n)[i]? = some y := ⟨_, List.getElem?_eq_getElem (by rw [hl']; omega)⟩
  rw [List.getD_eq_getElem?_getD, hy]
  exact hb n i x y (by rw [hF0 n]; exact hx) hy

/-- **C151, `e0`.** -/
theorem C151_zero_temperature {q : Quad} {deltaT : ℝ} {nmax : ℤ} (h : CavOK P) (hprec : P.precision ≤ 0) (hR : CavFits P R1 R2) (ha : P.lmax ≤ a)
    (hb : P.lssmax ≤ b) (hab : a ≤ b) (hq : q.Exact) {k0 : ℝ} (hk0 : 0 ≤ k0) {k1 : Upper} (hk1 : ∀ x, k1 = .num x → k0 ≤ x)
    (hk1' : k1 = .none → k0 ≤ nmax * deltaT) :
    ∃ E E', e0 q (geoAt exactBes frac lnK P) deltaT nmax k0 k1 = .ok E ∧ e0 q (geoAt exactBes frac lnK (P.cut a b)) deltaT nmax k0 k1 = .ok E' ∧
      |E' - E| ≤ (P.r1 / R1) ^ (2 * P.lmax + 1) * cavZero { P with r1 := R1 } k0 + (R2 / P.r2) ^ (2 * P.lssmax + 1) * cavZero { P with r2 := R2 } k0 := by
  have hc := h.cut (h.hl.trans ha) hab
  obtain ⟨s1, s2⟩ := e0Range_sub (deltaT := deltaT) (nmax := nmax) k0 k1
  have hpos : ∀ k ∈ e0Range deltaT nmax k0 k1, 0 < k := fun k hk => hk0.trans_lt (s1 hk)
  have i0 := h.val_integrable.mono_set hpos
  have i1 := hc.val_integrable.mono_set hpos
  refine ⟨_, _, cav_e0_value h hq hk0 hk1 hk1', cav_e0_value hc hq hk0 hk1 hk1', ?_⟩
  have n1 : IntegrableOn (fun k => (P.r1 / R1) ^ (2 * P.lmax + 1) * cavExp { P with r1 := R1 } k) (Ioi k0) volume := (cavExp_integrable (hR.ok1 h) k0).const_mul _
  have n2 : IntegrableOn (fun k => (R2 / P.r2) ^ (2 * P.lssmax + 1) * cavExp { P with r2 := R2 } k) (Ioi k0) volume := (cavExp_integrable (hR.ok2 h) k0).const_mul _
  have i2 : IntegrableOn (cavTrunc P R1 R2) (Ioi k0) volume := n1.add n2
  rw [← integral_sub i1 i0]
  calc |∫ k in e0Range deltaT nmax k0 k1, cavVal (P.cut a b) k - cavVal P k| ≤ ∫ k in e0Range deltaT nmax k0 k1, cavTrunc P R1 R2 k := by
        refine norm_integral_le_of_norm_le (f := fun k => cavVal (P.cut a b) k - cavVal P k) (i2.mono_set s1) ((ae_restrict_iff' s2).mpr (.of_forall fun k hk => ?_))
        rw [h.val_eq_sum hprec (hpos k hk), hc.val_eq_sum hprec (hpos k hk)]
        exact h.sum_trunc hR (hpos k hk) ha hb hab
    _ ≤ ∫ k in Ioi k0, cavTrunc P R1 R2 k := by
        refine setIntegral_mono_set i2 (.of_forall fun k => ?_) (LE.le.eventuallyLE s1)
        exact add_nonneg (mul_nonneg (hR.q1 h _) (cavExp_pos (hR.ok1 h) k).le) (mul_nonneg (hR.q2 h _) (cavExp_pos (hR.ok2 h) k).le)
    _ = _ := by
        unfold cavTrunc cavZero
        rw [integral_add n1 n2, integral_const_mul, integral_const_mul, cavExp_integral (hR.ok1 h), cavExp_integral (hR.ok2 h)]

/-- **C151, `e0` against its limit.** -/
theorem C151_zero_temperature_limit {q : Quad} {deltaT : ℝ} {nmax : ℤ} (h : CavOK P) (hprec : P.precision ≤ 0) (hR : CavFits P R1 R2) (hq : q.Exact) {k0 : ℝ}
    (hk0 : 0 ≤ k0) {k1 : Upper} (hk1 : ∀ x, k1 = .num x → k0 ≤ x) (hk1' : k1 = .none → k0 ≤ nmax * deltaT) :
    ∃ v, (∀ lm ls : ℕ → ℕ, Tendsto lm atTop atTop → (∀ n, 1 ≤ lm n) → (∀ n, lm n ≤ ls n) → ∀ E : ℕ → ℝ,
        (∀ n, e0 q (geoAt exactBes frac lnK (P.cut (lm n) (ls n))) deltaT nmax k0 k1 = .ok (E n)) → Tendsto E atTop (𝓝 v)) ∧
      ∃ E, e0 q (geoAt exactBes frac lnK P) deltaT nmax k0 k1 = .ok E ∧
        |v - E| ≤ (P.r1 / R1) ^ (2 * P.lmax + 1) * cavZero { P with r1 := R1 } k0 + (R2 / P.r2) ^ (2 * P.lssmax + 1) * cavZero { P with r2 := R2 } k0 := by
  obtain ⟨v, -, hv, -⟩ := C125_zero_temperature_limit (frac := frac) (lnK := lnK) h hprec hq hk0 hk1 hk1'
  refine ⟨v, hv, ?_⟩
  have key := fun n => C151_zero_temperature (frac := frac) (lnK := lnK) (a := P.lmax + n) (b := P.lssmax + n) h hprec hR (by omega) (by omega)
    (by have := h.hls; omega) hq hk0 hk1 hk1'
  choose E E' hE hE' hb using key
  have hE0 : ∀ n, E n = E 0 := fun n => by
    have e := hE n
    rw [hE 0] at e
    injection e with e
    exact e.symm
  have t := hv (fun n => P.lmax + n) (fun n => P.lssmax + n) (tendsto_atTop_mono (fun n => Nat.le_add_left n _) tendsto_id)
    (fun n => by have := h.hl; omega) (fun n => by have := h.hls; omega) E' hE'
  refine ⟨E 0, hE 0, le_of_tendsto (t.sub_const (E 0)).abs (.of_forall fun n => ?_)⟩
  have := hb n
  rwa [hE0 n] at this

/-! ## How many multipoles are needed -/

/-- Half of the gap may be given to the sphere or to the wall. -/
theorem cavFits_half (h : CavOK P) : CavFits P (P.r1 + cavGap P / 2) (P.r2 - cavGap P / 2) := by
  have := h.gap_pos
  have e : cavGap P = P.r2 - P.L - P.r1 := rfl
  exact ⟨by linarith, by linarith, by linarith, by linarith⟩

theorem wall_exp {r d : ℝ} (hr : 0 < r) (hd : d ≤ 2 * r) (n : ℕ) : ((r - d / 2) / r) ^ n ≤ Real.exp (-(n * (d / (2 * r)))) := by
  have e : (r - d / 2) / r = 1 - d / (2 * r) := by field_simp
  have h0 : 0 ≤ (r - d / 2) / r := div_nonneg (by linarith) hr.le
  have h1 : (r - d / 2) / r ≤ Real.exp (-(d / (2 * r))) := by
    rw [e]
    have := Real.add_one_le_exp (-(d / (2 * r)))
    linarith
  calc _ ≤ Real.exp (-(d / (2 * r))) ^ n := pow_le_pow_left₀ h0 h1 n
    _ = _ := by rw [← Real.exp_nat_mul]; congr 1; ring

theorem cavFree_nonneg (h : CavOK P) {T : ℝ} (hT : 0 < T) : 0 ≤ cavFree P T := by
  refine le_trans ?_ (cavExp_free h hT 0)
  have := cavExp_pos h 1e-10
  simp only [Finset.range_zero, Finset.sum_empty]
  positivity

/-- **C151, number of multipoles.** With the smallest distance `d` between sphere and wall, the error falls like `exp(-(2 lmax + 1) d/(2 r1 + d))` and
`exp(-(2 lssmax + 1) d/(2 r2))`: the cut-offs have to grow like `r1/d` and `r2/d`. -/
theorem C151_rate {p : FTParams} (h : CavOK P) (hprec : P.precision ≤ 0) (hg : p.geo = geoGeo exactBes frac lnK P)
    (hp : p.nprocs.isZero) (han : p.analyticN0 = false) (hT : 0 < p.deltaT) (hN : 1 ≤ p.nmax) {i : ℕ} (hi : (i : ℤ) < p.maxstep) {d : ℝ}
    (hd : d = P.r2 - P.L - P.r1) :
    ∃ v, (∀ lm ls : ℕ → ℕ, Tendsto lm atTop atTop → (∀ n, 1 ≤ lm n) → (∀ n, lm n ≤ ls n) → ∀ F : ℕ → List ℝ,
        (∀ n, (freeEnergy { p with geo := geoGeo exactBes frac lnK (P.cut (lm n) (ls n)) } FT.fresh).1 = .ok (F n)) →
        Tendsto (fun n => (F n).getD i 0) atTop (𝓝 v)) ∧
      ∃ F x, (freeEnergy p FT.fresh).1 = .ok F ∧ F[i]? = some x ∧
        |v - x| ≤ Real.exp (-((2 * P.lmax + 1 : ℕ) * (d / (2 * P.r1 + d)))) * cavFree { P with r1 := P.r1 + d / 2 } ((i + 1) * p.deltaT) +
          Real.exp (-((2 * P.lssmax + 1 : ℕ) * (d / (2 * P.r2)))) * cavFree { P with r2 := P.r2 - d / 2 } ((i + 1) * p.deltaT) := by
  obtain rfl : d = cavGap P := hd
  have hR := cavFits_half h
  have hd := h.gap_pos
  have hd2 : cavGap P ≤ 2 * P.r2 := by
    have e : cavGap P = P.r2 - P.L - P.r1 := rfl
    linarith [h.hL, h.h1, h.r2_pos]
  obtain ⟨v, hv, F, x, hF, hx, hb⟩ := C151_free_energy_limit (frac := frac) (lnK := lnK) h hprec hR hg hp han hT hN hi
  refine ⟨v, hv, F, x, hF, hx, hb.trans (add_le_add (mul_le_mul_of_nonneg_right (ratio_exp h.h1 hd _) ?_) (mul_le_mul_of_nonneg_right (wall_exp h.r2_pos hd2 _) ?_))⟩
  · exact cavFree_nonneg (hR.ok1 h) (by positivity)
  · exact cavFree_nonneg (hR.ok2 h) (by positivity)

/-! ## Examples -/

theorem goldCav_fits : CavFits goldCav 1.05 3.95 := by
  constructor <;> norm_num [goldCav]

/-- A gold sphere of the radius 1 in a cavity of the radius 4 in gold, smallest distance 0.1, `lmax = 20`, `lssmax = 80`: at each of 200 temperatures the free energy
with `lmax = lssmax = 1000` differs from the computed one at most by the given fractions of the bounds. -/
example (frac : ℝ → ℝ → ℝ) (lnK : ℝ → ℕ → ℝ) : ∃ F F' : List ℝ, (freeEnergy ⟨0.01, 500, 200, false, .int 0, geoGeo exactBes frac lnK goldCav⟩ FT.fresh).1 = .ok F ∧
    (freeEnergy ⟨0.01, 500, 200, false, .int 0, geoGeo exactBes frac lnK (goldCav.cut 1000 1000)⟩ FT.fresh).1 = .ok F' ∧ F.length = 200 ∧ F'.length = 200 ∧
    ∀ (i : ℕ) (x y : ℝ), F[i]? = some x → F'[i]? = some y →
      |y - x| ≤ (20 / 21) ^ 41 * cavFree { goldCav with r1 := 1.05 } ((i + 1) * 0.01) + (79 / 80) ^ 161 * cavFree { goldCav with r2 := 3.95 } ((i + 1) * 0.01) := by
  obtain ⟨F, F', h1, h2, h3, h4, h5⟩ := C151_free_energy (p := ⟨0.01, 500, 200, false, .int 0, geoGeo exactBes frac lnK goldCav⟩) goldCav_ok le_rfl
    goldCav_fits (a := 1000) (b := 1000) (by norm_num [goldCav]) (by norm_num [goldCav]) le_rfl rfl rfl rfl rfl (by norm_num) (by norm_num)
  refine ⟨F, F', h1, h2, h3, h4, fun i x y hx hy => (h5 i x y hx hy).trans (le_of_eq ?_)⟩
  have e1 : goldCav.r1 / 1.05 = 20 / 21 := by norm_num [goldCav]
  have e2 : 3.95 / goldCav.r2 = 79 / 80 := by norm_num [goldCav]
  rw [e1, e2]
  rfl

/-- Its energy at zero temperature, against the limit of infinite cut-offs. -/
example (frac : ℝ → ℝ → ℝ) (lnK : ℝ → ℕ → ℝ) : ∃ v E, (∀ V : ℕ → ℝ, (∀ n, e0 exactQuad (geoAt exactBes frac lnK (goldCav.cut (n + 1) (n + 1))) 0 0 0 .inf = .ok (V n)) →
      Tendsto V atTop (𝓝 v)) ∧ e0 exactQuad (geoAt exactBes frac lnK goldCav) 0 0 0 .inf = .ok E ∧
    |v - E| ≤ (20 / 21) ^ 41 * cavZero { goldCav with r1 := 1.05 } 0 + (79 / 80) ^ 161 * cavZero { goldCav with r2 := 3.95 } 0 := by
  obtain ⟨v, hv, E, hE, hb⟩ := C151_zero_temperature_limit (frac := frac) (lnK := lnK) (deltaT := 0) (nmax := 0) goldCav_ok le_rfl goldCav_fits exactQuad_exact le_rfl
    (k1 := .inf) (by simp) (by simp)
  refine ⟨v, E, fun V hV => hv _ _ (tendsto_add_atTop_nat 1) (fun n => by omega) (fun n => le_rfl) V hV, hE, hb.trans (le_of_eq ?_)⟩
  have e1 : goldCav.r1 / 1.05 = 20 / 21 := by norm_num [goldCav]
  have e2 : 3.95 / goldCav.r2 = 79 / 80 := by norm_num [goldCav]
  rw [e1, e2]
  rfl

/-- A perfectly conducting sphere in a cavity filled with water, vacuum outside (repulsion): the energy at zero temperature with `lmax = lssmax = 1000` instead of
`lmax = 20`, `lssmax = 80`. -/
example (frac : ℝ → ℝ → ℝ) (lnK : ℝ → ℕ → ℝ) (P : PairIn) (hP : P = ⟨⟨.pec, [], none⟩, ⟨.lorentz, [], none⟩, ⟨.lorentz, eWater, none⟩, 1, 4, 2, 20, 80, 0⟩) :
    ∃ E E', e0 exactQuad (geoAt exactBes frac lnK P) 0 0 0 .inf = .ok E ∧ e0 exactQuad (geoAt exactBes frac lnK (P.cut 1000 1000)) 0 0 0 .inf = .ok E' ∧
      |E' - E| ≤ (2 / 3) ^ 41 * (18 / (0.5 * (1 / 4) ^ 3)) + (7 / 8) ^ 161 * (18 / (0.5 * (1 / 3) ^ 3)) := by
  subst hP
  have hok : CavOK ⟨⟨.pec, [], none⟩, ⟨.lorentz, [], none⟩, ⟨.lorentz, eWater, none⟩, 1, 4, 2, 20, 80, 0⟩ := by
    refine ⟨pec_sphere, ⟨.inr (.inl ⟨vac_medium.diel, vac_medium.phys⟩), vac_medium.phys, rfl⟩, water_medium, ?_, ?_, ?_, ?_, ?_⟩ <;> norm_num
  obtain ⟨E, E', h1, h2, h3⟩ := C151_zero_temperature (frac := frac) (lnK := lnK) (deltaT := 0) (nmax := 0) hok le_rfl (R1 := 1.5) (R2 := 3.5)
    (by constructor <;> norm_num) (a := 1000) (b := 1000) (by norm_num) (by norm_num) le_rfl exactQuad_exact le_rfl (k1 := .inf) (by simp) (by simp)
  refine ⟨E, E', h1, h2, h3.trans (le_of_eq ?_)⟩
  unfold cavZero cavGap cavRatio
  norm_num

end CasSph
