import Verif.Lemmas.ConvexDist
import Verif.Props.CavityStronger

/-! # C129: the energy as a function of the distance is log-convex (two spheres) and concave (also in a cavity) -/

namespace CasSph

open Spec Filter Topology MeasureTheory Set

/-- `w` lies between zero and the geometric, hence also the arithmetic mean of `x` and `y` with the weights `t` and `1 - t`; all numbers are non-positive. -/
structure Spec.LogConvexAt (t x y w : ℝ) : Prop where
  first : x ≤ 0
  second : y ≤ 0
  mid : w ≤ 0
  geometric : |w| ≤ |x| ^ t * |y| ^ (1 - t)
  arithmetic : t * x + (1 - t) * y ≤ w

theorem GMRel.logConvex {t x y w : ℝ} (h0 : 0 ≤ t) (h1 : t ≤ 1) (h : GMRel t (-x) (-y) (-w)) : Spec.LogConvexAt t x y w := by
  obtain ⟨a, b, c, d⟩ := h
  refine ⟨by linarith, by linarith, by linarith, ?_, ?_⟩
  · rw [abs_of_nonpos (by linarith), abs_of_nonpos (by linarith), abs_of_nonpos (by linarith)]
    exact d
  · have := gm_le_am h0 h1 a b
    linarith

/-- The free energy of one temperature from the terms of the sum. -/
theorem neg_free_rel {R : ℝ → ℝ → ℝ → Prop} (hR : MeanRel R) {c : ℝ} (hc : 0 ≤ c) {x y w : ℝ} {n : ℕ} {f g h : ℕ → ℝ} (hz : R (-x) (-y) (-w))
    (hf : ∀ j, R (-f j) (-g j) (-h j)) :
    R (-(c * (0.5 * x + ∑ j ∈ Finset.range n, f j))) (-(c * (0.5 * y + ∑ j ∈ Finset.range n, g j))) (-(c * (0.5 * w + ∑ j ∈ Finset.range n, h j))) := by
  have e : ∀ (x : ℝ) (f : ℕ → ℝ), -(c * (0.5 * x + ∑ j ∈ Finset.range n, f j)) = c * (0.5 * -x + ∑ j ∈ Finset.range n, -f j) := fun x f => by
    rw [Finset.sum_neg_distrib]; ring
  rw [e, e, e]
  exact hR.scale hc (hR.add (hR.scale (by norm_num) hz) (hR.sum _ fun j _ => hf j))

section
variable {P : PairIn} {frac : ℝ → ℝ → ℝ} {lnK : ℝ → ℕ → ℝ} {q : Quad} {deltaT : ℝ} {nmax : ℤ} {t L : ℝ}

theorem mix_le (h0 : 0 ≤ t) (h1 : t ≤ 1) (hL : P.L ≤ L) : P.L ≤ t * P.L + (1 - t) * L ∧ t * P.L + (1 - t) * L ≤ L := ⟨by nlinarith, by nlinarith⟩

/-! ## Two separate spheres -/

/-- **C129, `mSumme`.** -/
theorem C129_mSumme (h : PairOK P) (hprec : P.precision ≤ 0) (h0 : 0 < t) (h1 : t < 1) (hL : P.L ≤ L) (hc : EqualContrast P.mat1 P.mat2 P.mat3) {ks : List ℝ}
    (hne : ks ≠ []) (hk : ∀ k ∈ ks, 0 < k) :
    ∃ vs us ws, pairVals exactBes P ks = .ok vs ∧ pairVals exactBes (P.at L) ks = .ok us ∧ pairVals exactBes (P.at (t * P.L + (1 - t) * L)) ks = .ok ws ∧
      vs.length = ks.length ∧ us.length = ks.length ∧ ws.length = ks.length ∧
      ∀ (j : ℕ) (x y w : ℝ), vs[j]? = some x → us[j]? = some y → ws[j]? = some w → Spec.LogConvexAt t x y w := by
  obtain ⟨m1, -⟩ := mix_le h0.le h1.le hL
  refine ⟨_, _, _, pairVals_sum h hprec hne hk, pairVals_sum (h.at hL) hprec hne hk, pairVals_sum (h.at m1) hprec hne hk, by simp, by simp, by simp,
    fun j x y w hx hy hw => ?_⟩
  rw [List.getElem?_map, Option.map_eq_some_iff] at hx hy hw
  obtain ⟨k, hj, rfl⟩ := hx
  obtain ⟨k', hj', rfl⟩ := hy
  obtain ⟨k'', hj'', rfl⟩ := hw
  rw [hj] at hj' hj''
  injection hj' with e
  injection hj'' with e'
  subst e e'
  have hk0 := hk k (List.mem_of_getElem? hj)
  obtain ⟨σ, ea, eb⟩ := hc.finite k hk0
  exact (pairSum_gm h h0 h1 hL hk0 ea eb).logConvex h0.le h1.le

theorem pairK0_gm (h : PairOK P) (hprec : P.precision ≤ 0) (h0 : 0 < t) (h1 : t < 1) (hL : P.L ≤ L) (hc : EqualContrast P.mat1 P.mat2 P.mat3) :
    ∃ x y w, pairK0 frac P = .ok x ∧ pairK0 frac (P.at L) = .ok y ∧ pairK0 frac (P.at (t * P.L + (1 - t) * L)) = .ok w ∧ GMRel t (-x) (-y) (-w) := by
  obtain ⟨m1, -⟩ := mix_le h0.le h1.le hL
  obtain ⟨σ, ea, eb⟩ := hc.electric
  obtain ⟨τ, ga, gb⟩ := hc.magnetic
  obtain ⟨A, A', hA⟩ := ampK0_exists frac h.m1 h.m3 h.h1 ea ga
  obtain ⟨B, B', hB⟩ := ampK0_exists frac h.m2 h.m3 h.h2 eb gb
  have e1 := pairK0_kern h hA hB
  have e2 := pairK0_kern (h.at hL) hA hB
  have e3 := pairK0_kern (h.at m1) hA hB
  rw [sign_sq_one ea.sign, sign_sq_one ga.sign, mSummeK0_full hprec, ok_bind] at e1
  rw [sign_sq_one ea.sign, sign_sq_one ga.sign, mSummeK0_full (by exact hprec), ok_bind] at e2 e3
  refine ⟨_, _, _, e1, e2, e3, ?_⟩
  simp only [PairIn.at]
  exact neg_sum_rel (gmRel_closed h0 h1) (f := fun m => k0V m P.r1 P.r2 P.L P.lmax P.lssmax 1 1 A A' B B')
    (g := fun m => k0V m P.r1 P.r2 L P.lmax P.lssmax 1 1 A A' B B') (h := fun m => k0V m P.r1 P.r2 (t * P.L + (1 - t) * L) P.lmax P.lssmax 1 1 A A' B B')
    fun m _ => k0V_gm h0 h1 h.h1 h.h2 h.sep (h.sep.trans_le hL) P.lmax P.lssmax hA.1 hA.2.1 hB.1 hB.2.1

/-- **C129, `mSumme_k0`.** -/
theorem C129_mSumme_k0 (h : PairOK P) (hprec : P.precision ≤ 0) (h0 : 0 < t) (h1 : t < 1) (hL : P.L ≤ L) (hc : EqualContrast P.mat1 P.mat2 P.mat3) :
    ∃ x y w, pairK0 frac P = .ok x ∧ pairK0 frac (P.at L) = .ok y ∧ pairK0 frac (P.at (t * P.L + (1 - t) * L)) = .ok w ∧ Spec.LogConvexAt t x y w := by
  obtain ⟨x, y, w, e1, e2, e3, e4⟩ := pairK0_gm (frac := frac) h hprec h0 h1 hL hc
  exact ⟨x, y, w, e1, e2, e3, e4.logConvex h0.le h1.le⟩

/-- **C129, `free_energy`.** The modulus of the free energy of two spheres of equal contrast is at every temperature a log-convex function of the distance: at an
intermediate distance it is at most the weighted geometric mean of its values at the two ends. -/
theorem C129_free_energy {p : FTParams} (h : PairOK P) (hprec : P.precision ≤ 0) (h0 : 0 < t) (h1 : t < 1) (hL : P.L ≤ L)
    (hc : EqualContrast P.mat1 P.mat2 P.mat3) (hp : p.nprocs.isZero) (han : p.analyticN0 = true) (hT : 0 < p.deltaT) (hN : 0 ≤ p.nmax) :
    ∃ F F' F'' : List ℝ, (freeEnergy { p with geo := pairGeo exactBes frac P } FT.fresh).1 = .ok F ∧
      (freeEnergy { p with geo := pairGeo exactBes frac (P.at L) } FT.fresh).1 = .ok F' ∧
      (freeEnergy { p with geo := pairGeo exactBes frac (P.at (t * P.L + (1 - t) * L)) } FT.fresh).1 = .ok F'' ∧
      F.length = p.maxstep.toNat ∧ F'.length = p.maxstep.toNat ∧ F''.length = p.maxstep.toNat ∧
      ∀ (i : ℕ) (x y w : ℝ), F[i]? = some x → F'[i]? = some y → F''[i]? = some w → Spec.LogConvexAt t x y w := by
  obtain ⟨m1, -⟩ := mix_le h0.le h1.le hL
  obtain ⟨z, z', z'', e1, e2, e3, hz⟩ := pairK0_gm (frac := frac) h hprec h0 h1 hL hc
  obtain ⟨F, hF, hl, hv⟩ := free_sum (p := { p with geo := pairGeo exactBes frac P }) h hprec e1 rfl hp han hT hN
  obtain ⟨F', hF', hl', hv'⟩ := free_sum (p := { p with geo := pairGeo exactBes frac (P.at L) }) (h.at hL) hprec e2 rfl hp han hT hN
  obtain ⟨F'', hF'', hl'', hv''⟩ := free_sum (p := { p with geo := pairGeo exactBes frac (P.at (t * P.L + (1 - t) * L)) }) (h.at m1) hprec e3 rfl hp han hT hN
  refine ⟨F, F', F'', hF, hF', hF'', hl, hl', hl'', fun i x y w hx hy hw => GMRel.logConvex h0.le h1.le ?_⟩
  rw [hv i x hx, hv' i y hy, hv'' i w hw]
  refine neg_free_rel (gmRel_closed h0 h1) (by positivity) hz fun j => ?_
  have hk : 0 < p.deltaT * ((j + 1) * (i + 1) : ℕ) := by positivity
  obtain ⟨σ, ea, eb⟩ := hc.finite _ hk
  exact pairSum_gm h h0 h1 hL hk ea eb

/-- **C129, `e0`.** -/
theorem C129_zero_temperature (h : PairOK P) (hprec : P.precision ≤ 0) (h0 : 0 < t) (h1 : t < 1) (hL : P.L ≤ L) (hc : EqualContrast P.mat1 P.mat2 P.mat3)
    (hq : q.Exact) {a : ℝ} (ha : 0 ≤ a) {b : Upper} (hb : ∀ x, b = .num x → a ≤ x) (hb' : b = .none → a ≤ nmax * deltaT) :
    ∃ E E' E'', e0 q (pairAt exactBes frac P) deltaT nmax a b = .ok E ∧ e0 q (pairAt exactBes frac (P.at L)) deltaT nmax a b = .ok E' ∧
      e0 q (pairAt exactBes frac (P.at (t * P.L + (1 - t) * L))) deltaT nmax a b = .ok E'' ∧ Spec.LogConvexAt t E E' E'' := by
  obtain ⟨m1, -⟩ := mix_le h0.le h1.le hL
  obtain ⟨s1, s2⟩ := e0_set (nmax := nmax) (deltaT := deltaT) ha b
  refine ⟨_, _, _, e0_value h hq ha hb hb', e0_value (h.at hL) hq ha hb hb', e0_value (h.at m1) hq ha hb hb', GMRel.logConvex h0.le h1.le ?_⟩
  rw [← integral_neg, ← integral_neg, ← integral_neg]
  refine (gmRel_closed h0 h1).int s2 ((pairVal_integrable h).mono_set s1).neg ((pairVal_integrable (h.at hL)).mono_set s1).neg
    ((pairVal_integrable (h.at m1)).mono_set s1).neg fun k hk => ?_
  obtain ⟨σ, ea, eb⟩ := hc.finite k (s1 hk)
  rw [pairVal_sum h hprec (s1 hk), pairVal_sum (h.at hL) hprec (s1 hk), pairVal_sum (h.at m1) hprec (s1 hk)]
  exact pairSum_gm h h0 h1 hL (s1 hk) ea eb

/-! ## A sphere inside a cavity -/

/-- `w` is at least the arithmetic mean of `x` and `y` with the weights `t` and `1 - t`, and `y ≤ x ≤ 0`, `w ≤ 0`. -/
structure Spec.ConcaveAt (t x y w : ℝ) : Prop where
  first : x ≤ 0
  second : y ≤ x
  mid : w ≤ 0
  arithmetic : t * x + (1 - t) * y ≤ w

theorem AMRel.concave {t x y w : ℝ} (h : AMRel t (-x) (-y) (-w)) : Spec.ConcaveAt t x y w := by
  obtain ⟨a, b, c, d⟩ := h
  exact ⟨by linarith, by linarith, by linarith, by linarith⟩

/-- **C129, `free_energy` in a cavity.** The free energy of sphere and wall of equal contrast is at every temperature a concave and decreasing function of the
distance of the centres. -/
theorem C129_cavity_free_energy {p : FTParams} (h : CavOK P) (hprec : P.precision ≤ 0) (h0 : 0 ≤ t) (h1 : t ≤ 1) (hL : P.L ≤ L) (hLs : L + P.r1 < P.r2)
    (hc : P.Same) (hp : p.nprocs.isZero) (han : p.analyticN0 = false) (hT : 0 < p.deltaT) (hN : 1 ≤ p.nmax) :
    ∃ F F' F'' : List ℝ, (freeEnergy { p with geo := geoGeo exactBes frac lnK P } FT.fresh).1 = .ok F ∧
      (freeEnergy { p with geo := geoGeo exactBes frac lnK (P.at L) } FT.fresh).1 = .ok F' ∧
      (freeEnergy { p with geo := geoGeo exactBes frac lnK (P.at (t * P.L + (1 - t) * L)) } FT.fresh).1 = .ok F'' ∧
      F.length = p.maxstep.toNat ∧ F'.length = p.maxstep.toNat ∧ F''.length = p.maxstep.toNat ∧
      ∀ (i : ℕ) (x y w : ℝ), F[i]? = some x → F'[i]? = some y → F''[i]? = some w → Spec.ConcaveAt t x y w := by
  obtain ⟨m1, m2⟩ := mix_le h0 h1 hL
  have g1 := h.at (h.hL.trans_le hL) hLs
  have g2 := h.at (h.hL.trans_le m1) (by linarith)
  have val : ∀ {Q : PairIn}, CavOK Q → Q.precision ≤ 0 → ∃ F : List ℝ, (freeEnergy { p with geo := geoGeo exactBes frac lnK Q } FT.fresh).1 = .ok F ∧
      F.length = p.maxstep.toNat ∧ ∀ (i : ℕ) (x : ℝ), F[i]? = some x →
        x = (i + 1 : ℕ) * p.deltaT * (0.5 * cavSum Q 1e-10 + ∑ j ∈ Finset.range (p.nmax.toNat / (i + 1)), cavSum Q (p.deltaT * ((j + 1) * (i + 1) : ℕ))) := by
    intro Q hQ hQp
    obtain ⟨F, hF, hl, hv⟩ := cav_free_values (p := { p with geo := geoGeo exactBes frac lnK Q }) hQ hQp rfl hp han hT hN
    refine ⟨F, hF, hl, fun i x hx => ?_⟩
    have hi : i < F.length := by
      by_contra hh
      rw [List.getElem?_eq_none (by omega)] at hx
      cases hx
    rw [hv i hi] at hx
    injection hx with hx
    exact hx.symm
  obtain ⟨F, hF, hl, hv⟩ := val h hprec
  obtain ⟨F', hF', hl', hv'⟩ := val g1 hprec
  obtain ⟨F'', hF'', hl'', hv''⟩ := val g2 hprec
  have key : ∀ k, 0 < k → AMRel t (-cavSum P k) (-cavSum (P.at L) k) (-cavSum (P.at (t * P.L + (1 - t) * L)) k) := fun k hk => by
    obtain ⟨σ, ea, eb⟩ := hc k hk
    exact cavSum_am h h0 h1 hL hLs hk ea eb
  refine ⟨F, F', F'', hF, hF', hF'', hl, hl', hl'', fun i x y w hx hy hw => AMRel.concave ?_⟩
  rw [hv i x hx, hv' i y hy, hv'' i w hw]
  exact neg_free_rel (amRel_closed h0 h1) (by positivity) (key _ (by norm_num)) fun j => key _ (by positivity)

/-- **C129, `e0` in a cavity.** -/
theorem C129_cavity_zero_temperature (h : CavOK P) (hprec : P.precision ≤ 0) (h0 : 0 ≤ t) (h1 : t ≤ 1) (hL : P.L ≤ L) (hLs : L + P.r1 < P.r2)
    (hc : P.Same) (hq : q.Exact) {a : ℝ} (ha : 0 ≤ a) {b : Upper} (hb : ∀ x, b = .num x → a ≤ x) (hb' : b = .none → a ≤ nmax * deltaT) :
    ∃ E E' E'', e0 q (geoAt exactBes frac lnK P) deltaT nmax a b = .ok E ∧ e0 q (geoAt exactBes frac lnK (P.at L)) deltaT nmax a b = .ok E' ∧
      e0 q (geoAt exactBes frac lnK (P.at (t * P.L + (1 - t) * L))) deltaT nmax a b = .ok E'' ∧ Spec.ConcaveAt t E E' E'' := by
  obtain ⟨m1, m2⟩ := mix_le h0 h1 hL
  have g1 := h.at (h.hL.trans_le hL) hLs
  have g2 := h.at (h.hL.trans_le m1) (by linarith)
  obtain ⟨s1, s2⟩ := e0Range_sub (deltaT := deltaT) (nmax := nmax) a b
  have hpos : ∀ k ∈ e0Range deltaT nmax a b, 0 < k := fun k hk => ha.trans_lt (s1 hk)
  refine ⟨_, _, _, cav_e0_value h hq ha hb hb', cav_e0_value g1 hq ha hb hb', cav_e0_value g2 hq ha hb hb', AMRel.concave ?_⟩
  rw [← integral_neg, ← integral_neg, ← integral_neg]
  refine (amRel_closed h0 h1).int s2 (h.val_integrable.mono_set hpos).neg (g1.val_integrable.mono_set hpos).neg (g2.val_integrable.mono_set hpos).neg fun k hk => ?_
  obtain ⟨σ, ea, eb⟩ := hc k (hpos k hk)
  rw [h.val_eq_sum hprec (hpos k hk), g1.val_eq_sum hprec (hpos k hk), g2.val_eq_sum hprec (hpos k hk)]
  exact cavSum_am h h0 h1 hL hLs (hpos k hk) ea eb

/-! ## Equal steps -/

/-- Four values of a concave function. -/
theorem concave_step {E : ℝ → ℝ → Prop} (uniq : ∀ {x a b}, E x a → E x b → a = b) {a c d : ℝ} (hd : 0 ≤ d) (hac : a ≤ c)
    (hE : ∀ t, 0 < t → t < 1 → ∃ x y w, E a x ∧ E (c + d) y ∧ E (t * a + (1 - t) * (c + d)) w ∧ t * x + (1 - t) * y ≤ w) {x1 x2 y1 y2 : ℝ}
    (h1 : E a x1) (h2 : E (a + d) x2) (h3 : E c y1) (h4 : E (c + d) y2) : y2 - y1 ≤ x2 - x1 := by
  rcases hd.eq_or_lt with rfl | hd
  · rw [add_zero] at h2 h4
    rw [uniq h1 h2, uniq h3 h4]
    simp
  rcases hac.eq_or_lt with rfl | hac
  · rw [uniq h1 h3, uniq h2 h4]
  have hD : 0 < c + d - a := by linarith
  have e : d / (c + d - a) + (c - a) / (c + d - a) = 1 := by rw [← add_div, div_eq_one_iff_eq hD.ne']; ring
  have p1 : 0 < d / (c + d - a) := div_pos hd hD
  have p2 : 0 < (c - a) / (c + d - a) := div_pos (by linarith) hD
  have key : ∀ s t : ℝ, 0 < s → 0 < t → s + t = 1 → ∀ w, E (s * a + t * (c + d)) w → s * x1 + t * y2 ≤ w := by
    intro s t hs ht hst w hw
    have et : t = 1 - s := by linarith
    subst et
    obtain ⟨x, y, w', q1, q2, q3, q4⟩ := hE s hs (by linarith)
    rw [uniq h1 q1, uniq h4 q2, uniq hw q3]
    exact q4
  have k1 := key _ _ p2 p1 (by linarith) x2 (by
    rw [show (c - a) / (c + d - a) * a + d / (c + d - a) * (c + d) = a + d by field_simp; ring]; exact h2)
  have k2 := key _ _ p1 p2 e y1 (by
    rw [show d / (c + d - a) * a + (c - a) / (c + d - a) * (c + d) = c by field_simp; ring]; exact h3)
  generalize d / (c + d - a) = s at *
  generalize (c - a) / (c + d - a) = r at *
  have : (s + r) * (x1 + y2) ≤ x2 + y1 := by linarith
  rw [e, one_mul] at this
  linarith

/-- **C129.** The attraction of two spheres becomes weaker with the distance: a step of the length `d` changes the free energy at the larger distance by at most
as much as at the smaller one. -/
theorem C129_step {p : FTParams} (h : PairOK P) (hprec : P.precision ≤ 0) {d : ℝ} (hd : 0 ≤ d) (hL : P.L ≤ L)
    (hc : EqualContrast P.mat1 P.mat2 P.mat3) (hp : p.nprocs.isZero) (han : p.analyticN0 = true) (hT : 0 < p.deltaT) (hN : 0 ≤ p.nmax)
    {F F' G G' : List ℝ} (hF : (freeEnergy { p with geo := pairGeo exactBes frac (P.at P.L) } FT.fresh).1 = .ok F)
    (hF' : (freeEnergy { p with geo := pairGeo exactBes frac (P.at (P.L + d)) } FT.fresh).1 = .ok F')
    (hG : (freeEnergy { p with geo := pairGeo exactBes frac (P.at L) } FT.fresh).1 = .ok G)
    (hG' : (freeEnergy { p with geo := pairGeo exactBes frac (P.at (L + d)) } FT.fresh).1 = .ok G') :
    ∀ (i : ℕ) (x x' y y' : ℝ), F[i]? = some x → F'[i]? = some x' → G[i]? = some y → G'[i]? = some y' → y' - y ≤ x' - x := by
  intro i x x' y y' hx hx' hy hy'
  refine concave_step (E := fun L x => ∃ F : List ℝ, (freeEnergy { p with geo := pairGeo exactBes frac (P.at L) } FT.fresh).1 = .ok F ∧ F[i]? = some x)
    ?_ hd hL (fun t h0 h1 => ?_) ⟨F, hF, hx⟩ ⟨F', hF', hx'⟩ ⟨G, hG, hy⟩ ⟨G', hG', hy'⟩
  · rintro L a b ⟨F, h1, h2⟩ ⟨F', h1', h2'⟩
    rw [h1] at h1'
    injection h1' with e
    subst e
    rw [h2] at h2'
    injection h2'
  · obtain ⟨A, B, C, hA, hB, hC, lA, lB, lC, hv⟩ := C129_free_energy (p := p) (frac := frac) (L := L + d) h hprec h0 h1 (by linarith) hc hp han hT hN
    have hA' : (freeEnergy { p with geo := pairGeo exactBes frac (P.at P.L) } FT.fresh).1 = .ok A := hA
    have lF : F.length = p.maxstep.toNat := by
      rw [hA'] at hF
      injection hF with e
      rw [← e]
      exact lA
    have hi : i < p.maxstep.toNat := by
      by_contra hh
      rw [List.getElem?_eq_none (by omega)] at hx
      cases hx
    refine ⟨A[i]'(by omega), B[i]'(by omega), C[i]'(by omega), ⟨A, hA', List.getElem?_eq_getElem _⟩, ⟨B, hB, List.getElem?_eq_getElem _⟩,
      ⟨C, hC, List.getElem?_eq_getElem _⟩, (hv i _ _ _ (List.getElem?_eq_getElem _) (List.getElem?_eq_getElem _) (List.getElem?_eq_getElem _)).arithmetic⟩

/-- **C129.** In a cavity with equal contrast the attraction becomes stronger as the sphere approaches the wall. -/
theorem C129_cavity_step {p : FTParams} (h : CavOK P) (hprec : P.precision ≤ 0) {d : ℝ} (hd : 0 ≤ d) (hL : P.L ≤ L) (hLs : L + d + P.r1 < P.r2)
    (hc : P.Same) (hp : p.nprocs.isZero) (han : p.analyticN0 = false) (hT : 0 < p.deltaT) (hN : 1 ≤ p.nmax)
    {F F' G G' : List ℝ} (hF : (freeEnergy { p with geo := geoGeo exactBes frac lnK (P.at P.L) } FT.fresh).1 = .ok F)
    (hF' : (freeEnergy { p with geo := geoGeo exactBes frac lnK (P.at (P.L + d)) } FT.fresh).1 = .ok F')
    (hG : (freeEnergy { p with geo := geoGeo exactBes frac lnK (P.at L) } FT.fresh).1 = .ok G)
    (hG' : (freeEnergy { p with geo := geoGeo exactBes frac lnK (P.at (L + d)) } FT.fresh).1 = .ok G') :
    ∀ (i : ℕ) (x x' y y' : ℝ), F[i]? = some x → F'[i]? = some x' → G[i]? = some y → G'[i]? = some y' → y' - y ≤ x' - x ∧ x' ≤ x := by
  intro i x x' y y' hx hx' hy hy'
  have key : ∀ L', P.L ≤ L' → L' + P.r1 < P.r2 → ∀ t, 0 ≤ t → t ≤ 1 → ∃ x y w,
      (∃ F : List ℝ, (freeEnergy { p with geo := geoGeo exactBes frac lnK (P.at P.L) } FT.fresh).1 = .ok F ∧ F[i]? = some x) ∧
      (∃ F : List ℝ, (freeEnergy { p with geo := geoGeo exactBes frac lnK (P.at L') } FT.fresh).1 = .ok F ∧ F[i]? = some y) ∧
      (∃ F : List ℝ, (freeEnergy { p with geo := geoGeo exactBes frac lnK (P.at (t * P.L + (1 - t) * L')) } FT.fresh).1 = .ok F ∧ F[i]? = some w) ∧
      Spec.ConcaveAt t x y w := by
    intro L' hL' hLs' t h0 h1
    obtain ⟨A, B, C, hA, hB, hC, lA, lB, lC, hv⟩ := C129_cavity_free_energy (p := p) (frac := frac) (lnK := lnK) h hprec h0 h1 hL' hLs' hc hp han hT hN
    have hA' : (freeEnergy { p with geo := geoGeo exactBes frac lnK (P.at P.L) } FT.fresh).1 = .ok A := hA
    have lF : F.length = p.maxstep.toNat := by
      rw [hA'] at hF
      injection hF with e
      rw [← e]
      exact lA
    have hi : i < p.maxstep.toNat := by
      by_contra hh
      rw [List.getElem?_eq_none (by omega)] at hx
      cases hx
    exact ⟨A[i]'(by omega), B[i]'(by omega), C[i]'(by omega), ⟨A, hA', List.getElem?_eq_getElem _⟩, ⟨B, hB, List.getElem?_eq_getElem _⟩,
      ⟨C, hC, List.getElem?_eq_getElem _⟩, hv i _ _ _ (List.getElem?_eq_getElem _) (List.getElem?_eq_getElem _) (List.getElem?_eq_getElem _)⟩
  have uniq : ∀ {L a b}, (∃ F : List ℝ, (freeEnergy { p with geo := geoGeo exactBes frac lnK (P.at L) } FT.fresh).1 = .ok F ∧ F[i]? = some a) →
      (∃ F : List ℝ, (freeEnergy { p with geo := geoGeo exactBes frac lnK (P.at L) } FT.fresh).1 = .ok F ∧ F[i]? = some b) → a = b := by
    rintro L a b ⟨F, h1, h2⟩ ⟨F', h1', h2'⟩
    rw [h1] at h1'
    injection h1' with e
    subst e
    rw [h2] at h2'
    injection h2'
  refine ⟨concave_step (E := fun L x => ∃ F : List ℝ, (freeEnergy { p with geo := geoGeo exactBes frac lnK (P.at L) } FT.fresh).1 = .ok F ∧ F[i]? = some x)
    uniq hd hL (fun t h0 h1 => ?_) ⟨F, hF, hx⟩ ⟨F', hF', hx'⟩ ⟨G, hG, hy⟩ ⟨G', hG', hy'⟩, ?_⟩
  · obtain ⟨x, y, w, q1, q2, q3, q4⟩ := key (L + d) (by linarith) hLs t h0.le h1.le
    exact ⟨x, y, w, q1, q2, q3, q4.arithmetic⟩
  · obtain ⟨x₀, y₀, w, q1, q2, q3, q4⟩ := key (P.L + d) (by linarith) (by linarith) 0 le_rfl zero_le_one
    rw [uniq ⟨F, hF, hx⟩ q1, uniq ⟨F', hF', hx'⟩ q2]
    exact q4.second

end

/-! ## The hypotheses can be met -/

/-- Gold spheres at the distances 6, 7 and 13/2: the energy at the middle is at most the geometric mean. -/
example : ∃ E E' E'' : ℝ, e0 exactQuad (pairAt exactBes (fun _ _ => 0) goldPair) 0 0 0 .inf = .ok E ∧
    e0 exactQuad (pairAt exactBes (fun _ _ => 0) (goldPair.at 7)) 0 0 0 .inf = .ok E' ∧
    e0 exactQuad (pairAt exactBes (fun _ _ => 0) (goldPair.at (13 / 2))) 0 0 0 .inf = .ok E'' ∧
    |E''| ≤ |E| ^ (1 / 2 : ℝ) * |E'| ^ (1 / 2 : ℝ) := by
  obtain ⟨E, E', E'', h1, h2, h3, h4⟩ := C129_zero_temperature (frac := fun _ _ => 0) (deltaT := 0) (nmax := 0) goldPair_ok le_rfl (t := 1 / 2) (L := 7)
    (by norm_num) (by norm_num) (by norm_num [goldPair]) (equalContrast_same goldPair_ok.m1 goldPair_ok.m3) exactQuad_exact le_rfl (b := .inf) (by simp) (by simp)
  rw [show 1 / 2 * goldPair.L + (1 - 1 / 2) * 7 = 13 / 2 by norm_num [goldPair]] at h3
  have := h4.geometric
  norm_num at this
  exact ⟨E, E', E'', h1, h2, h3, by norm_num; exact this⟩

/-- The free energies at all 200 temperatures exist and obey the inequality. -/
example : ∃ F F' F'' : List ℝ, (freeEnergy ⟨0.01, 500, 200, true, .int 0, pairGeo exactBes (fun _ _ => 0) goldPair⟩ FT.fresh).1 = .ok F ∧
    (freeEnergy ⟨0.01, 500, 200, true, .int 0, pairGeo exactBes (fun _ _ => 0) (goldPair.at 7)⟩ FT.fresh).1 = .ok F' ∧
    (freeEnergy ⟨0.01, 500, 200, true, .int 0, pairGeo exactBes (fun _ _ => 0) (goldPair.at (1 / 4 * goldPair.L + (1 - 1 / 4) * 7))⟩ FT.fresh).1 = .ok F'' ∧
    F.length = 200 ∧ F'.length = 200 ∧ F''.length = 200 ∧
    ∀ (i : ℕ) (x y w : ℝ), F[i]? = some x → F'[i]? = some y → F''[i]? = some w → Spec.LogConvexAt (1 / 4) x y w :=
  C129_free_energy (p := ⟨0.01, 500, 200, true, .int 0, pairGeo exactBes (fun _ _ => 0) goldPair⟩) goldPair_ok le_rfl (by norm_num) (by norm_num)
    (by norm_num [goldPair]) (equalContrast_same goldPair_ok.m1 goldPair_ok.m3) rfl rfl (by norm_num) (by norm_num)

/-- A gold sphere in a cavity in gold, at three distances from its centre. -/
example (frac : ℝ → ℝ → ℝ) (lnK : ℝ → ℕ → ℝ) : ∃ E E' E'', e0 exactQuad (geoAt exactBes frac lnK goldCav) 0 0 0 .inf = .ok E ∧
    e0 exactQuad (geoAt exactBes frac lnK (goldCav.at 2.95)) 0 0 0 .inf = .ok E' ∧
    e0 exactQuad (geoAt exactBes frac lnK (goldCav.at (1 / 2 * goldCav.L + (1 - 1 / 2) * 2.95))) 0 0 0 .inf = .ok E'' ∧ Spec.ConcaveAt (1 / 2) E E' E'' :=
  C129_cavity_zero_temperature (deltaT := 0) (nmax := 0) goldCav_ok le_rfl (by norm_num) (by norm_num) (by norm_num [goldCav]) (by norm_num [goldCav])
    goldCav_same exactQuad_exact le_rfl (b := .inf) (by simp) (by simp)

end CasSph
