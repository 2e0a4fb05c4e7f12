import Verif.Lemmas.DipoleSeries
import Verif.Lemmas.DipoleEntropy
import Verif.Props.Dipole
import Verif.Props.Thermo

/-! # C143: the sign of the entropy of two spheres far apart -/

namespace CasSph

open Spec Filter Topology

variable {P : PairIn} {frac : ℝ → ℝ → ℝ} {aE aM bE bM e3 : ℝ}

/-- The three cases of `IsNegGradient` in one formula. -/
theorem negGradient_entry {F S : List ℝ} {h : ℝ} {M : ℕ} (hg : IsNegGradient F S h) (hl : F.length = M) (hM : 2 ≤ M) {i : ℕ} (hi : i < M) :
    S.getD i 0 = -((F.getD (min (i + 2) M - 1) 0 - F.getD (max i 1 - 1) 0) / (((min (i + 2) M : ℕ) - (max i 1 : ℕ) : ℝ) * h)) := by
  have hS : S.length = M := hg.length.trans hl
  have get : ∀ {T : List ℝ} {k : ℕ}, k < T.length → T[k]? = some (T.getD k 0) := fun {T k} hk => by
    rw [List.getD_eq_getElem?_getD, List.getElem?_eq_getElem hk, Option.getD_some]
  rcases Nat.eq_zero_or_pos i with rfl | h0
  · have e1 : min (0 + 2) M = 2 := by omega
    have e2 : max 0 1 = 1 := by omega
    rw [e1, e2, hg.first _ _ _ (get (by omega)) (get (T := F) (k := 0) (by omega)) (get (T := F) (k := 1) (by omega))]
    norm_num
  · obtain ⟨i, rfl⟩ := Nat.exists_eq_add_of_le' h0
    have e2 : max (i + 1) 1 = i + 1 := by omega
    rcases Nat.lt_or_ge (i + 2) M with hlt | hge
    · have e1 : min (i + 1 + 2) M = i + 3 := by omega
      rw [e1, e2, hg.inner i _ _ _ (get (by omega)) (get (T := F) (k := i) (by omega)) (get (T := F) (k := i + 2) (by omega))]
      push_cast
      norm_num
    · have e1 : min (i + 1 + 2) M = i + 2 := by omega
      rw [e1, e2, hg.last i _ _ _ (by omega) (get (by omega)) (get (T := F) (k := i) (by omega)) (get (T := F) (k := i + 1) (by omega))]
      push_cast
      norm_num

/-- **C143, limit.** The temperatures of the grid are multiples of `τ/L`.  As the distance grows, `L⁶` times every entry of the entropy tends to the
difference quotient of the free energy of two dipoles. -/
theorem C143_limit {p : ℝ → FTParams} (h : PairOK P) (ha : DipoleOf P.mat1 P.mat3 aE aM) (hb : DipoleOf P.mat2 P.mat3 bE bM)
    (h3 : P.mat3.epsilon 0 = .ok e3) (hg : ∀ L, P.L ≤ L → (p L).geo = pairGeo exactBes frac (P.at L)) (hp : ∀ L, (p L).nprocs.isZero)
    (han : ∀ L, (p L).analyticN0 = true) {M : ℕ} (hM : 2 ≤ M) (hmx : ∀ L, (p L).maxstep = M) {τ : ℝ} (hτ : 0 < τ)
    (hT : ∀ L, P.L ≤ L → (p L).deltaT * L = τ) (hN : Tendsto (fun L => (p L).nmax) atTop atTop) :
    ∃ S : ℝ → List ℝ, (∀ L, P.L ≤ L → 0 ≤ (p L).nmax → (entropy (p L) FT.fresh).1 = .ok (S L) ∧ (S L).length = M) ∧
      ∀ i < M, Tendsto (fun L => L ^ 6 * (S L).getD i 0) atTop
        (𝓝 ((P.r1 * P.r2) ^ 3 * ((dipoleFree (aE * bE + aM * bM) (aE * bM + aM * bE) (Real.sqrt e3 * ((min (i + 2) M : ℕ) * τ)) -
          dipoleFree (aE * bE + aM * bM) (aE * bM + aM * bE) (Real.sqrt e3 * ((max i 1 : ℕ) * τ))) / Real.sqrt e3) /
          (((min (i + 2) M : ℕ) - (max i 1 : ℕ)) * τ))) := by
  have hML : ∀ L, (p L).maxstep.toNat = M := fun L => by rw [hmx, Int.toNat_natCast]
  have free : ∀ j : ℕ, j < M → ∃ F : ℝ → List ℝ, (∀ L, P.L ≤ L → 0 ≤ (p L).nmax → (freeEnergy (p L) FT.fresh).1 = .ok (F L) ∧ (F L).length = (p L).maxstep.toNat) ∧
      Tendsto (fun L => L ^ 7 * (F L).getD j 0) atTop
        (𝓝 (-((P.r1 * P.r2) ^ 3 * dipoleFree (aE * bE + aM * bM) (aE * bM + aM * bE) (Real.sqrt e3 * ((j + 1 : ℕ) * τ)) / Real.sqrt e3))) :=
    fun j hj => C114_free_energy h ha hb h3 hg hp han (i := j) (fun L => by rw [hML]; exact hj) (ν := (j + 1 : ℕ) * τ) (by positivity)
      (fun L hL => by rw [← hT L hL]; ring) hN
  obtain ⟨F, hF, -⟩ := free 0 (by omega)
  have lim : ∀ j : ℕ, j < M → Tendsto (fun L => L ^ 7 * (F L).getD j 0) atTop
        (𝓝 (-((P.r1 * P.r2) ^ 3 * dipoleFree (aE * bE + aM * bM) (aE * bM + aM * bE) (Real.sqrt e3 * ((j + 1 : ℕ) * τ)) / Real.sqrt e3))) := by
    intro j hj
    obtain ⟨G, hG, hlim⟩ := free j hj
    refine hlim.congr' ?_
    filter_upwards [eventually_ge_atTop P.L, hN.eventually_ge_atTop 0] with L hL hN0
    have := (hG L hL hN0).1
    rw [(hF L hL hN0).1] at this
    injection this with this
    rw [this]
  have ex : ∀ L, ∃ S : List ℝ, P.L ≤ L → 0 ≤ (p L).nmax → (entropy (p L) FT.fresh).1 = .ok S ∧ IsNegGradient (F L) S (p L).deltaT := by
    intro L
    by_cases hL : P.L ≤ L ∧ 0 ≤ (p L).nmax
    · obtain ⟨S, hS, hgr⟩ := C29_entropy (p L) FT.fresh (freeEnergy (p L) FT.fresh).2 (F L) (Prod.ext (hF L hL.1 hL.2).1 rfl)
        (by rw [(hF L hL.1 hL.2).2, hML]; omega)
      exact ⟨S, fun _ _ => ⟨by rw [hS], hgr⟩⟩
    · exact ⟨[], fun h1 h2 => absurd ⟨h1, h2⟩ hL⟩
  choose S hS using ex
  refine ⟨S, fun L hL hN0 => ⟨(hS L hL hN0).1, (hS L hL hN0).2.length.trans ((hF L hL hN0).2.trans (hML L))⟩, fun i hi => ?_⟩
  have l1 := lim (min (i + 2) M - 1) (by omega)
  have l2 := lim (max i 1 - 1) (by omega)
  rw [show min (i + 2) M - 1 + 1 = min (i + 2) M by omega] at l1
  rw [show max i 1 - 1 + 1 = max i 1 by omega] at l2
  have hn : (0 : ℝ) < ((min (i + 2) M : ℕ) - (max i 1 : ℕ)) := by
    rw [sub_pos]; exact_mod_cast (by omega : max i 1 < min (i + 2) M)
  have := ((l1.sub l2).div_const ((((min (i + 2) M : ℕ) : ℝ) - ((max i 1 : ℕ) : ℝ)) * τ)).neg
  have e : ∀ c x y k n : ℝ, -((-(c * x / k) - -(c * y / k)) / n) = c * ((x - y) / k) / n := fun c x y k n => by ring
  rw [e] at this
  refine this.congr' ?_
  filter_upwards [eventually_ge_atTop P.L, hN.eventually_ge_atTop 0] with L hL hN0
  have hL0 := h.L_pos.trans_le hL
  rw [negGradient_entry (hS L hL hN0).2 ((hF L hL hN0).2.trans (hML L)) hM hi]
  have hd : (p L).deltaT = τ / L := by rw [← hT L hL]; field_simp
  rw [hd]
  generalize ((min (i + 2) M : ℕ) : ℝ) - ((max i 1 : ℕ) : ℝ) = n at hn
  field_simp

theorem eventually_sign {f : ℝ → ℝ} {c : ℝ} (hl : Tendsto (fun L => L ^ 6 * f L) atTop (𝓝 c)) :
    (0 < c → ∀ᶠ L in atTop, 0 < f L) ∧ (c < 0 → ∀ᶠ L in atTop, f L < 0) := by
  refine ⟨fun hc => ?_, fun hc => ?_⟩
  · filter_upwards [hl.eventually (lt_mem_nhds hc), eventually_gt_atTop 0] with L h1 h2
    exact pos_of_mul_pos_right h1 (by positivity)
  · filter_upwards [hl.eventually (gt_mem_nhds hc), eventually_gt_atTop 0] with L h1 h2
    by_contra hh
    exact absurd h1 (not_lt.mpr (mul_nonneg (by positivity) (not_lt.mp hh)))

/-- **C143, no perfect conductor.** Far apart, the entropy of two dielectrics or Drude metals has the sign of the product of their static polarisabilities, at all temperatures. -/
theorem C143_positive {p : ℝ → FTParams} (h : PairOK P) (ha : DipoleOf P.mat1 P.mat3 aE aM) (hb : DipoleOf P.mat2 P.mat3 bE bM)
    (c1 : P.mat1.cls ≠ .pec) (c2 : P.mat2.cls ≠ .pec)
    (hg : ∀ L, P.L ≤ L → (p L).geo = pairGeo exactBes frac (P.at L)) (hp : ∀ L, (p L).nprocs.isZero)
    (han : ∀ L, (p L).analyticN0 = true) {M : ℕ} (hM : 2 ≤ M) (hmx : ∀ L, (p L).maxstep = M) {τ : ℝ} (hτ : 0 < τ)
    (hT : ∀ L, P.L ≤ L → (p L).deltaT * L = τ) (hN : Tendsto (fun L => (p L).nmax) atTop atTop) :
    ∃ S : ℝ → List ℝ, (∀ L, P.L ≤ L → 0 ≤ (p L).nmax → (entropy (p L) FT.fresh).1 = .ok (S L) ∧ (S L).length = M) ∧
      ∀ i < M, (0 < aE * bE → ∀ᶠ L in atTop, 0 < (S L).getD i 0) ∧ (aE * bE < 0 → ∀ᶠ L in atTop, (S L).getD i 0 < 0) := by
  obtain ⟨e3, h3, -, -⟩ := dielectric_static h.m3.diel h.m3.phys
  obtain ⟨S, hS, hl⟩ := C143_limit h ha hb h3 hg hp han hM hmx hτ hT hN
  have hκ := h.index_pos h3
  have hr : 0 < (P.r1 * P.r2) ^ 3 := pow_pos (mul_pos h.h1 h.h2) 3
  have hm1 : aM = 0 := by rcases ha with ⟨hc, -⟩ | ⟨-, hm, -⟩ | ⟨-, -, hm⟩; exacts [absurd hc c1, hm, hm]
  have hm2 : bM = 0 := by rcases hb with ⟨hc, -⟩ | ⟨-, hm, -⟩ | ⟨-, -, hm⟩; exacts [absurd hc c2, hm, hm]
  refine ⟨S, hS, fun i hi => ?_⟩
  have hlt : max i 1 < min (i + 2) M := by omega
  have hlt' : ((max i 1 : ℕ) : ℝ) < ((min (i + 2) M : ℕ) : ℝ) := by exact_mod_cast hlt
  have h1 : (0 : ℝ) < ((max i 1 : ℕ) : ℝ) := by exact_mod_cast (by omega : 0 < max i 1)
  have mono := dipoleFree_mono (ν := Real.sqrt e3 * ((max i 1 : ℕ) * τ)) (ν' := Real.sqrt e3 * ((min (i + 2) M : ℕ) * τ)) (by positivity)
    (mul_lt_mul_of_pos_left (mul_lt_mul_of_pos_right hlt' hτ) hκ)
  have l := hl i hi
  have es : aE * bE + aM * bM = aE * bE * 1 := by rw [hm1]; ring
  have ex : aE * bM + aM * bE = aE * bE * 0 := by rw [hm1, hm2]; ring
  rw [es, ex, dipoleFree_smul, dipoleFree_smul, ← mul_sub] at l
  have hn : 0 < (((min (i + 2) M : ℕ) : ℝ) - ((max i 1 : ℕ) : ℝ)) * τ := mul_pos (by linarith) hτ
  have hD : 0 < dipoleFree 1 0 (Real.sqrt e3 * ((min (i + 2) M : ℕ) * τ)) - dipoleFree 1 0 (Real.sqrt e3 * ((max i 1 : ℕ) * τ)) := by linarith
  refine ⟨fun hs => (eventually_sign l).1 (by positivity), fun hs => (eventually_sign l).2 ?_⟩
  exact div_neg_of_neg_of_pos (mul_neg_of_pos_of_neg hr (div_neg_of_neg_of_pos (mul_neg_of_neg_of_pos hs hD) hκ)) hn

/-- The first pole between two numbers. -/
theorem pole_bounds {ν lo hi c d : ℝ} (hν : 0 < ν) (hc : 0 < c) (h1 : c ≤ ν) (h2 : ν ≤ d) (hlo : lo * (c ^ 2 + 3.15 ^ 2) ≤ c ^ 2) (hlo1 : lo ≤ 1) (hlo0 : 0 ≤ lo)
    (hhi : d ^ 2 ≤ hi * (d ^ 2 + 3.14 ^ 2)) (hhi1 : hi ≤ 1) (hhi0 : 0 ≤ hi) : lo ≤ pole ν (1 : ℕ) ∧ pole ν (1 : ℕ) ≤ hi := by
  have p1 := Real.pi_gt_d2
  have p2 := Real.pi_lt_d2
  have q1 : (3.14 : ℝ) ^ 2 ≤ Real.pi ^ 2 := by nlinarith
  have q2 : Real.pi ^ 2 ≤ (3.15 : ℝ) ^ 2 := by nlinarith
  have n1 : c ^ 2 ≤ ν ^ 2 := by nlinarith
  have n2 : ν ^ 2 ≤ d ^ 2 := by nlinarith
  unfold pole
  push_cast
  rw [one_pow, mul_one]
  refine ⟨(le_div_iff₀ (by positivity)).mpr ?_, (div_le_iff₀ (by positivity)).mpr ?_⟩
  · nlinarith [mul_nonneg hlo0 (sub_nonneg.mpr q2), mul_nonneg (sub_nonneg.mpr hlo1) (sub_nonneg.mpr n1)]
  · nlinarith [mul_nonneg hhi0 (sub_nonneg.mpr q1), mul_nonneg (sub_nonneg.mpr hhi1) (sub_nonneg.mpr n2)]

/-- The free energy of two perfectly conducting spheres far apart rises between `TL = 6/5` and `TL = 3`. -/
theorem dipoleFree_pec {ν ν' : ℝ} (h1 : 6 / 5 ≤ ν) (h : ν < ν') (h2 : ν' ≤ 3) : dipoleFree (5 / 4) (-1) ν' < dipoleFree (5 / 4) (-1) ν := by
  have hν : 0 < ν := by linarith
  refine dipoleFree_anti (lo := 0.1265) (hi := 0.47725) (by norm_num) (by norm_num) (by norm_num) (by norm_num) (fun u hu hu' => ?_) hν h
    (pole_bounds hν (c := 6 / 5) (by norm_num) h1 h.le (hi := 1) (by norm_num) (by norm_num) (by norm_num) (by nlinarith) le_rfl zero_le_one).1
    (pole_bounds (hν.trans h) (c := ν') (lo := 0) (hν.trans h) le_rfl h2 (by nlinarith) zero_le_one le_rfl (by norm_num) (by norm_num) (by norm_num)).2
  nlinarith [mul_pos (sub_pos.mpr hu) (sub_pos.mpr hu')]

/-- The same for a perfectly conducting sphere and one that is not magnetic. -/
theorem dipoleFree_mixed {ν ν' : ℝ} (h1 : 9 / 5 ≤ ν) (h : ν < ν') (h2 : ν' ≤ 23 / 10) : dipoleFree 1 (-(1 / 2)) ν' < dipoleFree 1 (-(1 / 2)) ν := by
  have hν : 0 < ν := by linarith
  refine dipoleFree_anti (lo := 0.245) (hi := 0.35) (by norm_num) (by norm_num) (by norm_num) (by norm_num) (fun u hu hu' => ?_) hν h
    (pole_bounds hν (c := 9 / 5) (by norm_num) h1 h.le (hi := 1) (by norm_num) (by norm_num) (by norm_num) (by nlinarith) le_rfl zero_le_one).1
    (pole_bounds (hν.trans h) (c := ν') (lo := 0) (hν.trans h) le_rfl h2 (by nlinarith) zero_le_one le_rfl (by norm_num) (by norm_num) (by norm_num)).2
  nlinarith [mul_pos (sub_pos.mpr hu) (sub_pos.mpr hu')]

/-- **C143, two perfect conductors.** Far apart, the entropy is negative if the temperatures of the difference quotient lie between `1.2` and `3`, in units of
the inverse distance over the index of refraction of the medium. -/
theorem C143_perfect_conductors {p : ℝ → FTParams} (h : PairOK P) (c1 : P.mat1.cls = .pec) (c2 : P.mat2.cls = .pec) (h3 : P.mat3.epsilon 0 = .ok e3)
    (hg : ∀ L, P.L ≤ L → (p L).geo = pairGeo exactBes frac (P.at L)) (hp : ∀ L, (p L).nprocs.isZero)
    (han : ∀ L, (p L).analyticN0 = true) {M : ℕ} (hM : 2 ≤ M) (hmx : ∀ L, (p L).maxstep = M) {τ : ℝ} (hτ : 0 < τ)
    (hT : ∀ L, P.L ≤ L → (p L).deltaT * L = τ) (hN : Tendsto (fun L => (p L).nmax) atTop atTop) :
    ∃ S : ℝ → List ℝ, (∀ L, P.L ≤ L → 0 ≤ (p L).nmax → (entropy (p L) FT.fresh).1 = .ok (S L) ∧ (S L).length = M) ∧
      ∀ i < M, 6 / 5 ≤ Real.sqrt e3 * ((max i 1 : ℕ) * τ) → Real.sqrt e3 * ((min (i + 2) M : ℕ) * τ) ≤ 3 → ∀ᶠ L in atTop, (S L).getD i 0 < 0 := by
  obtain ⟨S, hS, hl⟩ := C143_limit h (aE := 1) (aM := -(1 / 2)) (bE := 1) (bM := -(1 / 2)) (.inl ⟨c1, rfl, rfl⟩) (.inl ⟨c2, rfl, rfl⟩) h3 hg hp han hM hmx hτ hT hN
  have hκ := h.index_pos h3
  have hr : 0 < (P.r1 * P.r2) ^ 3 := pow_pos (mul_pos h.h1 h.h2) 3
  refine ⟨S, hS, fun i hi t1 t2 => ?_⟩
  have hlt' : ((max i 1 : ℕ) : ℝ) < ((min (i + 2) M : ℕ) : ℝ) := by exact_mod_cast (by omega : max i 1 < min (i + 2) M)
  have l := hl i hi
  rw [show (1 : ℝ) * 1 + -(1 / 2) * -(1 / 2) = 5 / 4 by norm_num, show (1 : ℝ) * -(1 / 2) + -(1 / 2) * 1 = -1 by norm_num] at l
  have hd := dipoleFree_pec t1 (mul_lt_mul_of_pos_left (mul_lt_mul_of_pos_right hlt' hτ) hκ) t2
  refine (eventually_sign l).2 ?_
  exact div_neg_of_neg_of_pos (mul_neg_of_pos_of_neg hr (div_neg_of_neg_of_pos (by linarith) hκ)) (mul_pos (by linarith) hτ)

/-- **C143, one perfect conductor.** The entropy has the opposite sign of the polarisability of the other sphere if the temperatures lie between `1.8` and `2.3`. -/
theorem C143_one_perfect_conductor {p : ℝ → FTParams} (h : PairOK P) (c1 : P.mat1.cls = .pec) (c2 : P.mat2.cls ≠ .pec) (hb : DipoleOf P.mat2 P.mat3 bE bM)
    (h3 : P.mat3.epsilon 0 = .ok e3)
    (hg : ∀ L, P.L ≤ L → (p L).geo = pairGeo exactBes frac (P.at L)) (hp : ∀ L, (p L).nprocs.isZero)
    (han : ∀ L, (p L).analyticN0 = true) {M : ℕ} (hM : 2 ≤ M) (hmx : ∀ L, (p L).maxstep = M) {τ : ℝ} (hτ : 0 < τ)
    (hT : ∀ L, P.L ≤ L → (p L).deltaT * L = τ) (hN : Tendsto (fun L => (p L).nmax) atTop atTop) :
    ∃ S : ℝ → List ℝ, (∀ L, P.L ≤ L → 0 ≤ (p L).nmax → (entropy (p L) FT.fresh).1 = .ok (S L) ∧ (S L).length = M) ∧
      ∀ i < M, 9 / 5 ≤ Real.sqrt e3 * ((max i 1 : ℕ) * τ) → Real.sqrt e3 * ((min (i + 2) M : ℕ) * τ) ≤ 23 / 10 →
        (0 < bE → ∀ᶠ L in atTop, (S L).getD i 0 < 0) ∧ (bE < 0 → ∀ᶠ L in atTop, 0 < (S L).getD i 0) := by
  obtain ⟨S, hS, hl⟩ := C143_limit h (aE := 1) (aM := -(1 / 2)) (.inl ⟨c1, rfl, rfl⟩) hb h3 hg hp han hM hmx hτ hT hN
  have hκ := h.index_pos h3
  have hr : 0 < (P.r1 * P.r2) ^ 3 := pow_pos (mul_pos h.h1 h.h2) 3
  have hm2 : bM = 0 := by rcases hb with ⟨hc, -⟩ | ⟨-, hm, -⟩ | ⟨-, -, hm⟩; exacts [absurd hc c2, hm, hm]
  refine ⟨S, hS, fun i hi t1 t2 => ?_⟩
  have hlt' : ((max i 1 : ℕ) : ℝ) < ((min (i + 2) M : ℕ) : ℝ) := by exact_mod_cast (by omega : max i 1 < min (i + 2) M)
  have l := hl i hi
  have es : 1 * bE + -(1 / 2) * bM = bE * 1 := by rw [hm2]; ring
  have ex : 1 * bM + -(1 / 2) * bE = bE * -(1 / 2) := by rw [hm2]; ring
  rw [es, ex, dipoleFree_smul, dipoleFree_smul, ← mul_sub] at l
  have hd := dipoleFree_mixed t1 (mul_lt_mul_of_pos_left (mul_lt_mul_of_pos_right hlt' hτ) hκ) t2
  have hn : 0 < (((min (i + 2) M : ℕ) : ℝ) - ((max i 1 : ℕ) : ℝ)) * τ := mul_pos (by linarith) hτ
  refine ⟨fun hs => (eventually_sign l).2 ?_, fun hs => (eventually_sign l).1 ?_⟩
  · exact div_neg_of_neg_of_pos (mul_neg_of_pos_of_neg hr (div_neg_of_neg_of_pos (mul_neg_of_pos_of_neg hs (by linarith)) hκ)) hn
  · exact div_pos (mul_pos hr (div_pos (mul_pos_of_neg_of_neg hs (by linarith)) hκ)) hn

/-- **C143, expected values of the tests.** What `test_entropy` expects is the negative temperature derivative of what `test_free_energy` expects. -/
theorem C143_expected {r1 r2 L T : ℝ} (hL : 0 < L) (hT : 0 < T) :
    HasDerivAt (fun T => dipoleExpected r1 r2 L (T * L)) (-dipoleEntropyExpected r1 r2 L (T * L)) T := by
  have hd := (dipoleFree_hasDerivAt (5 / 4) (-1) (mul_pos hT hL)).comp T ((hasDerivAt_id T).mul_const L)
  have := hd.const_mul (-(r1 * r2 / L ^ 2) ^ 3 / L)
  have e : (fun T => dipoleExpected r1 r2 L (T * L)) = fun T => -(r1 * r2 / L ^ 2) ^ 3 / L * (dipoleFree (5 / 4) (-1) ∘ fun y => id y * L) T := by
    funext T
    simp only [Function.comp, id]
    unfold dipoleExpected dipoleFree
    norm_num
    ring
  rw [e]
  refine this.congr_deriv ?_
  unfold dipoleEntropyExpected
  generalize stmtm0 _ _ _ = a
  generalize stmtm1 _ _ _ = b
  generalize stmte1 _ _ _ = c
  norm_num
  field_simp

/-- **C143, why `test_entropy` fails.** For perfect conductors in vacuum and the step `0.4/L` of tests/test_functional.py the first entry of the entropy is more than
twice what the test expects, from some distance on: the code returns a difference quotient, and the step is too large. -/
theorem C143_test_entropy {p : ℝ → FTParams} (h : PairOK P) (c1 : P.mat1.cls = .pec) (c2 : P.mat2.cls = .pec) (h3 : P.mat3.epsilon 0 = .ok 1)
    (hg : ∀ L, P.L ≤ L → (p L).geo = pairGeo exactBes frac (P.at L)) (hp : ∀ L, (p L).nprocs.isZero)
    (han : ∀ L, (p L).analyticN0 = true) {M : ℕ} (hM : 2 ≤ M) (hmx : ∀ L, (p L).maxstep = M)
    (hT : ∀ L, P.L ≤ L → (p L).deltaT * L = 0.4) (hN : Tendsto (fun L => (p L).nmax) atTop atTop) :
    ∃ S : ℝ → List ℝ, (∀ L, P.L ≤ L → 0 ≤ (p L).nmax → (entropy (p L) FT.fresh).1 = .ok (S L) ∧ (S L).length = M) ∧
      ∀ᶠ L in atTop, 2 < (S L).getD 0 0 / dipoleEntropyExpected P.r1 P.r2 L 0.4 := by
  obtain ⟨S, hS, hl⟩ := C143_limit h (aE := 1) (aM := -(1 / 2)) (bE := 1) (bM := -(1 / 2)) (.inl ⟨c1, rfl, rfl⟩) (.inl ⟨c2, rfl, rfl⟩) h3 hg hp han hM hmx
    (by norm_num) hT hN
  have hr : 0 < (P.r1 * P.r2) ^ 3 := pow_pos (mul_pos h.h1 h.h2) 3
  refine ⟨S, hS, ?_⟩
  have l := hl 0 (by omega)
  rw [show (1 : ℝ) * 1 + -(1 / 2) * -(1 / 2) = 5 / 4 by norm_num, show (1 : ℝ) * -(1 / 2) + -(1 / 2) * 1 = -1 by norm_num, Real.sqrt_one,
    show min (0 + 2) M = 2 by omega, show max 0 1 = 1 by omega] at l
  rw [show ((2 : ℕ) : ℝ) * 0.4 = 0.8 by norm_num, show ((1 : ℕ) : ℝ) * 0.4 = 0.4 by norm_num, one_mul, one_mul, div_one,
    show (((2 : ℕ) : ℝ) - ((1 : ℕ) : ℝ)) * 0.4 = 0.4 by norm_num] at l
  obtain ⟨v1, v2, v3⟩ := pec_values
  have ex : ∀ L : ℝ, 0 < L → dipoleEntropyExpected P.r1 P.r2 L 0.4 = (P.r1 * P.r2) ^ 3 / L ^ 6 *
      ((pecPos (0.4 / Real.sinh 0.4 * Real.cosh 0.4) ((0.4 / Real.sinh 0.4) ^ 2) - pecNeg (0.4 / Real.sinh 0.4 * Real.cosh 0.4) ((0.4 / Real.sinh 0.4) ^ 2)) / 0.4) := by
    intro L hL
    unfold dipoleEntropyExpected stmtm0 stmtm1 stmte1 pecPos pecNeg
    generalize 0.4 / Real.sinh 0.4 = g
    generalize Real.cosh 0.4 = c
    field_simp
    ring
  generalize pecPos (0.4 / Real.sinh 0.4 * Real.cosh 0.4) ((0.4 / Real.sinh 0.4) ^ 2) - pecNeg (0.4 / Real.sinh 0.4 * Real.cosh 0.4) ((0.4 / Real.sinh 0.4) ^ 2) = d at *
  generalize dipoleFree (5 / 4) (-1) 0.8 - dipoleFree (5 / 4) (-1) 0.4 = D at *
  have hlt : (P.r1 * P.r2) ^ 3 * 0.0006 / 0.4 < (P.r1 * P.r2) ^ 3 * D / 0.4 := by
    gcongr
    linarith
  filter_upwards [l.eventually (lt_mem_nhds hlt), eventually_gt_atTop 0] with L h1 h2
  rw [ex L h2, lt_div_iff₀ (by positivity)]
  have e : (2 : ℝ) * ((P.r1 * P.r2) ^ 3 / L ^ 6 * (d / 0.4)) = (2 * (P.r1 * P.r2) ^ 3 * d / 0.4) / L ^ 6 := by ring
  rw [e, div_lt_iff₀ (by positivity), mul_comm _ (L ^ 6)]
  refine lt_of_le_of_lt ?_ h1
  rw [div_le_div_iff_of_pos_right (by norm_num)]
  nlinarith

/-! ## Examples -/

/-- The spheres and the grid of tests/test_functional.py: entries 3, 4 and 5 of the entropy become negative. -/
example : ∃ S : ℝ → List ℝ,
    (∀ L, 40 ≤ L → (entropy ⟨0.4 / L, ⌈L⌉, 100, true, .int 0, pairGeo exactBes (fun _ _ => 0) (testPair.at L)⟩ FT.fresh).1 = .ok (S L)) ∧
    ∀ i, 3 ≤ i → i ≤ 5 → ∀ᶠ L in atTop, (S L).getD i 0 < 0 := by
  obtain ⟨S, h1, h2⟩ := C143_perfect_conductors (M := 100) (τ := 0.4) (e3 := 1)
    (p := fun L => ⟨0.4 / L, ⌈L⌉, 100, true, .int 0, pairGeo exactBes (fun _ _ => 0) (testPair.at L)⟩) testPair_ok rfl rfl vacuum_static (fun _ _ => rfl) (fun _ => rfl)
    (fun _ => rfl) (by norm_num) (fun _ => rfl) (by norm_num) (fun L hL => by have : (40 : ℝ) ≤ L := hL; simp only; field_simp) tendsto_ceil_atTop
  refine ⟨S, fun L hL => (h1 L hL (Int.ceil_nonneg (by linarith))).1, fun i i1 i2 => ?_⟩
  refine h2 i (by omega) ?_ ?_
  · have : (3 : ℝ) ≤ ((max i 1 : ℕ) : ℝ) := by exact_mod_cast (by omega : 3 ≤ max i 1)
    rw [Real.sqrt_one]; linarith
  · have : ((min (i + 2) 100 : ℕ) : ℝ) ≤ 7 := by exact_mod_cast (by omega : min (i + 2) 100 ≤ 7)
    rw [Real.sqrt_one]; linarith

/-- The spheres and the grid of tests/test_functional.py: the comparison of `test_entropy` fails. -/
example : ∃ S : ℝ → List ℝ,
    (∀ L, 40 ≤ L → (entropy ⟨0.4 / L, ⌈L⌉, 100, true, .int 0, pairGeo exactBes (fun _ _ => 0) (testPair.at L)⟩ FT.fresh).1 = .ok (S L)) ∧
    ∀ᶠ L in atTop, 2 < (S L).getD 0 0 / dipoleEntropyExpected 0.9 0.6 L 0.4 := by
  obtain ⟨S, h1, h2⟩ := C143_test_entropy (M := 100)
    (p := fun L => ⟨0.4 / L, ⌈L⌉, 100, true, .int 0, pairGeo exactBes (fun _ _ => 0) (testPair.at L)⟩) testPair_ok rfl rfl vacuum_static (fun _ _ => rfl) (fun _ => rfl)
    (fun _ => rfl) (by norm_num) (fun _ => rfl) (fun L hL => by have : (40 : ℝ) ≤ L := hL; simp only; field_simp) tendsto_ceil_atTop
  exact ⟨S, fun L hL => (h1 L hL (Int.ceil_nonneg (by linarith))).1, h2⟩

/-- Two gold spheres (Drude model): all entries become positive. -/
example : ∃ S : ℝ → List ℝ,
    (∀ L, 6 ≤ L → (entropy ⟨0.4 / L, ⌈L⌉, 100, true, .int 0, pairGeo exactBes (fun _ _ => 0) (goldPair.at L)⟩ FT.fresh).1 = .ok (S L)) ∧
    ∀ i < 100, ∀ᶠ L in atTop, 0 < (S L).getD i 0 := by
  obtain ⟨S, h1, h2⟩ := C143_positive (M := 100) (τ := 0.4)
    (p := fun L => ⟨0.4 / L, ⌈L⌉, 100, true, .int 0, pairGeo exactBes (fun _ _ => 0) (goldPair.at L)⟩) goldPair_ok gold_dipole gold_dipole
    (by simp [goldPair]) (by simp [goldPair]) (fun _ _ => rfl) (fun _ => rfl)
    (fun _ => rfl) (by norm_num) (fun _ => rfl) (by norm_num) (fun L hL => by have : (6 : ℝ) ≤ L := hL; simp only; field_simp) tendsto_ceil_atTop
  exact ⟨S, fun L hL => (h1 L hL (Int.ceil_nonneg (by linarith))).1, fun i hi => (h2 i hi).1 (by norm_num)⟩

/-- A perfect conductor and a gold sphere: with the step `0.1/L` entry 18 (around `TL = 1.9`) becomes negative. -/
example : ∃ S : ℝ → List ℝ,
    (∀ L, 6 ≤ L → (entropy ⟨0.1 / L, ⌈L⌉, 100, true, .int 0, pairGeo exactBes (fun _ _ => 0) (({ goldPair with mat1 := ⟨.pec, [], none⟩ } : PairIn).at L)⟩ FT.fresh).1 =
      .ok (S L)) ∧ ∀ᶠ L in atTop, (S L).getD 18 0 < 0 := by
  obtain ⟨S, h1, h2⟩ := C143_one_perfect_conductor (M := 100) (τ := 0.1) (e3 := 1) (bE := 1) (bM := 0) (P := { goldPair with mat1 := ⟨.pec, [], none⟩ })
    (p := fun L => ⟨0.1 / L, ⌈L⌉, 100, true, .int 0, pairGeo exactBes (fun _ _ => 0) (({ goldPair with mat1 := ⟨.pec, [], none⟩ } : PairIn).at L)⟩)
    ⟨pec_sphere, goldPair_ok.m2, goldPair_ok.m3, goldPair_ok.h1, goldPair_ok.h2, goldPair_ok.sep, goldPair_ok.hl, goldPair_ok.hls⟩ rfl (by simp [goldPair]) gold_dipole
    vacuum_static (fun _ _ => rfl) (fun _ => rfl)
    (fun _ => rfl) (by norm_num) (fun _ => rfl) (by norm_num) (fun L hL => by have : (6 : ℝ) ≤ L := hL; simp only; field_simp) tendsto_ceil_atTop
  exact ⟨S, fun L hL => (h1 L hL (Int.ceil_nonneg (by linarith))).1,
    (h2 18 (by norm_num) (by rw [Real.sqrt_one]; norm_num) (by rw [Real.sqrt_one]; norm_num)).1 one_pos⟩

end CasSph
