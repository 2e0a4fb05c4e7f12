import Verif.Lemmas.Translation
import Verif.Lemmas.Bessel
import Verif.Props.Bessel
import Mathlib.Tactic.Linarith
import Mathlib.Analysis.Complex.ExponentialBounds

/-! # C53, C54: translation coefficients (translation.py) -/

namespace CasSph

open Spec Filter Topology

/-! ## C53 -/

/-- `get_vl1l2` succeeds whenever the Bessel table reaches the order `l1 + l2`. -/
theorem C53_total (ext : Bool) (m : ℤ) (nL : ℝ) {bes : List ℝ} {l1 l2 : ℕ} (h : l1 + l2 < bes.length) :
    ∃ v, getVl1l2 ext m nL bes l1 l2 = .ok v := ⟨_, getVl1l2_ok ext m nL h⟩

/-- **C53.** Translation in the opposite direction: parity `(-1)^(l1+l2)`, with an additional sign for the
polarisation-mixing coefficients. -/
theorem C53_backward {ext : Bool} {m : ℤ} {nL : ℝ} {bes : List ℝ} {l1 l2 : ℕ} (h : l1 + l2 < bes.length)
    {v : VCoef} (hv : getVl1l2 ext m nL bes l1 l2 = .ok v) :
    v.EEba = (-1) ^ (l1 + l2) * v.EEab ∧ v.EMba = -((-1) ^ (l1 + l2) * v.EMab) := by
  rw [getVl1l2_ok ext m nL h] at hv
  cases hv
  exact vVal_back ext m nL bes l1 l2

/-- **C53.** Reciprocity: all five numbers are symmetric in `l1, l2`. -/
theorem C53_symmetric {ext : Bool} {m : ℤ} {nL : ℝ} {bes : List ℝ} {l1 l2 : ℕ} (h : l1 + l2 < bes.length) :
    getVl1l2 ext m nL bes l1 l2 = getVl1l2 ext m nL bes l2 l1 := by
  rw [getVl1l2_ok ext m nL h, getVl1l2_ok ext m nL (by omega), vVal_symm]

/-- **C53.** Under `m → -m` the polarisation-conserving coefficients and the scale are unchanged, the mixing
ones change sign. -/
theorem C53_m_parity {ext : Bool} {m : ℤ} {nL : ℝ} {bes : List ℝ} {l1 l2 : ℕ} (h : l1 + l2 < bes.length)
    {v v' : VCoef} (hv : getVl1l2 ext m nL bes l1 l2 = .ok v) (hv' : getVl1l2 ext (-m) nL bes l1 l2 = .ok v') :
    v'.EEab = v.EEab ∧ v'.EEba = v.EEba ∧ v'.EMab = -v.EMab ∧ v'.EMba = -v.EMba ∧ v'.sk = v.sk := by
  rw [getVl1l2_ok ext _ nL h] at hv hv'
  cases hv
  rw [vVal_neg] at hv'
  cases hv'
  exact ⟨rfl, rfl, rfl, rfl, rfl⟩

/-- **C53.** There is no polarisation mixing for `m = 0`. -/
theorem C53_no_mixing {ext : Bool} {nL : ℝ} {bes : List ℝ} {l1 l2 : ℕ} (h : l1 + l2 < bes.length)
    {v : VCoef} (hv : getVl1l2 ext 0 nL bes l1 l2 = .ok v) : v.EMab = 0 ∧ v.EMba = 0 := by
  rw [getVl1l2_ok ext _ nL h] at hv
  cases hv
  simp [vVal]

/-- **C53.** Multipoles with `l < |m|` do not couple. -/
theorem C53_selection {ext : Bool} {m : ℤ} {nL : ℝ} {bes : List ℝ} {l1 l2 : ℕ} (h : l1 + l2 < bes.length)
    (hm : (min l1 l2 : ℤ) < |m|) {v : VCoef} (hv : getVl1l2 ext m nL bes l1 l2 = .ok v) :
    v.EEab = 0 ∧ v.EEba = 0 ∧ v.EMab = 0 ∧ v.EMba = 0 := by
  rw [Int.abs_eq_natAbs] at hm
  rw [getVl1l2_ok ext _ nL h, vVal_big ext nL bes (by omega)] at hv
  cases hv
  exact ⟨rfl, rfl, rfl, rfl⟩

example : (1 + 2 : ℕ) < [(0 : ℝ), -1, -2, -5].length := by simp

/-! ## C54 -/

/-- **C54.** Multiplying the scaled values with `exp` of the returned scale gives back the Bessel functions. -/
theorem C54_reversible {ext : Bool} {bes : List ℝ} {l1 l2 : ℕ} (h : l1 + l2 < bes.length) :
    ∃ sb s, scaledBessels ext bes (lppArr l1 l2) = .ok (sb, s) ∧ sb.length = min l1 l2 + 1 ∧
      bes[if ext then l1 + l2 else (max l1 l2 - min l1 l2)]? = some s ∧
      ∀ i ≤ min l1 l2, ∃ y b, sb[i]? = some y ∧ bes[max l1 l2 - min l1 l2 + 2 * i]? = some b ∧
        y * Real.exp s = Real.exp b := by
  have hmin : lppMin l1 l2 = max l1 l2 - min l1 l2 := by unfold lppMin; omega
  have hle := lppMin_le l1 l2
  refine ⟨_, _, scaledBessels_ok ext h, by simp, ?_, ?_⟩
  · unfold besNorm
    rw [← hmin, List.getD_eq_getElem?_getD, List.getElem?_eq_getElem]
    · rfl
    · split <;> omega
  · intro i hi
    refine ⟨Real.exp (bes.getD (lppMin l1 l2 + 2 * i) 0 - besNorm ext bes l1 l2), bes.getD (lppMin l1 l2 + 2 * i) 0, ?_, ?_, ?_⟩
    · rw [List.getElem?_map, List.getElem?_range (by omega)]; rfl
    · rw [← hmin, List.getD_eq_getElem?_getD, List.getElem?_eq_getElem (by omega)]; rfl
    · rw [← Real.exp_add]; congr 1; ring

/-- A table of logarithms that is non-decreasing in the order (outside) or non-increasing (inside) leads to scaled
values in `(0, 1]`. -/
theorem scaled_le_one {ext : Bool} {bes : List ℝ} {l1 l2 : ℕ} (h : l1 + l2 < bes.length)
    (hmono : ∀ i j, i ≤ j → j < bes.length → if ext then bes.getD i 0 ≤ bes.getD j 0 else bes.getD j 0 ≤ bes.getD i 0)
    {sb : List ℝ} {s : ℝ} (hs : scaledBessels ext bes (lppArr l1 l2) = .ok (sb, s)) : ∀ y ∈ sb, 0 < y ∧ y ≤ 1 := by
  rw [scaledBessels_ok ext h] at hs
  cases hs
  have hle := lppMin_le l1 l2
  intro y hy
  obtain ⟨i, hi, rfl⟩ := List.mem_map.mp hy
  rw [List.mem_range] at hi
  refine ⟨Real.exp_pos _, ?_⟩
  rw [Real.exp_le_one_iff]
  cases ext
  · have := hmono (lppMin l1 l2) (lppMin l1 l2 + 2 * i) (by omega) (by omega)
    simp [besNorm] at this ⊢; linarith
  · have := hmono (lppMin l1 l2 + 2 * i) (l1 + l2) (by omega) h
    simp [besNorm] at this ⊢; linarith

theorem trans_row_ext (x : ℝ) (n : ℕ) :
    transBessels [x] (.int n) 1 = .ok [(List.range (n + 1)).map (lnk1 x)] := by
  unfold transBessels
  rw [if_pos one_ne_zero, lnknu_ok]
  rfl

/-- **C54.** Exterior geometry: with the table computed by the code, all scaled values lie in `(0, 1]` and are
`k_p(x) / k_{l1+l2}(x)`, `p = |l1-l2|, |l1-l2|+2, …, l1+l2`. -/
theorem C54_exterior {x : ℝ} (hx : 0 < x) {lmax lssmax l1 l2 : ℕ} (h1 : l1 ≤ lmax) (h2 : l2 ≤ lssmax) :
    ∃ bes sb s, transBessels [x] (.int (lmax + lssmax + 1 : ℕ)) 1 = .ok [bes] ∧
      scaledBessels true bes (lppArr l1 l2) = .ok (sb, s) ∧ (∀ y ∈ sb, 0 < y ∧ y ≤ 1) ∧
      Real.exp s = sphK (l1 + l2) x ∧
      ∀ i ≤ min l1 l2, sb[i]? = some (sphK (max l1 l2 - min l1 l2 + 2 * i) x / sphK (l1 + l2) x) := by
  have hmin : lppMin l1 l2 = max l1 l2 - min l1 l2 := by unfold lppMin; omega
  have hle := lppMin_le l1 l2
  set bes := (List.range (lmax + lssmax + 1 + 1)).map (lnk1 x) with hb
  have hlen : bes.length = lmax + lssmax + 2 := by simp [hb]
  have hget : ∀ i, i < bes.length → bes.getD i 0 = lnk1 x i := by
    intro i hi
    rw [hlen] at hi
    rw [List.getD_eq_getElem?_getD, hb, List.getElem?_map, List.getElem?_range (by omega)]; rfl
  have hL : l1 + l2 < bes.length := by omega
  refine ⟨bes, _, _, trans_row_ext x _, scaledBessels_ok true hL, ?_, ?_, ?_⟩
  · refine scaled_le_one (ext := true) hL ?_ (scaledBessels_ok true hL)
    intro i j hij hj
    rw [if_pos rfl, hget i (by omega), hget j hj, lnk1_eq hx, lnk1_eq hx]
    exact Real.log_le_log (sphK_pos i hx) (sphK_mono hij hx)
  · unfold besNorm
    rw [if_pos rfl, hget _ hL, exp_lnk1 hx]
  · intro i hi
    rw [List.getElem?_map, List.getElem?_range (by omega)]
    unfold besNorm
    simp only [if_pos, Option.map_some]
    rw [hget _ hL, hget _ (by omega), Real.exp_sub, exp_lnk1 hx, exp_lnk1 hx, hmin]

example : (0 : ℝ) < 1 ∧ 2 ≤ 3 := by norm_num

/-- **C54**, interior geometry, for a table of the exact functions `ln i_p(x)`: scaled values in `(0, 1]`.  (Missing:
the table computed by the code has orders `≥ 2` only approximately, see `C54_interior_refuted`.) -/
theorem C54_interior_partial {x : ℝ} (hx : 0 < x) {n l1 l2 : ℕ} (h : l1 + l2 ≤ n) :
    ∃ sb s, scaledBessels false ((List.range (n + 1)).map fun l => Real.log (sphI l x)) (lppArr l1 l2) = .ok (sb, s) ∧
      (∀ y ∈ sb, 0 < y ∧ y ≤ 1) ∧ Real.exp s = sphI (max l1 l2 - min l1 l2) x := by
  have hmin : lppMin l1 l2 = max l1 l2 - min l1 l2 := by unfold lppMin; omega
  set bes := (List.range (n + 1)).map fun l => Real.log (sphI l x) with hb
  have hlen : bes.length = n + 1 := by simp [hb]
  have hget : ∀ i, i < bes.length → bes.getD i 0 = Real.log (sphI i x) := by
    intro i hi
    rw [hlen] at hi
    rw [List.getD_eq_getElem?_getD, hb, List.getElem?_map, List.getElem?_range (by omega)]; rfl
  have hL : l1 + l2 < bes.length := by omega
  refine ⟨_, _, scaledBessels_ok false hL, ?_, ?_⟩
  · refine scaled_le_one (ext := false) hL ?_ (scaledBessels_ok false hL)
    intro i j hij hj
    rw [if_neg (by simp), hget i (by omega), hget j hj]
    exact Real.log_le_log (sphI_pos j hx) (sphI_anti hij hx)
  · unfold besNorm
    rw [if_neg (by simp), hget _ (by omega), Real.exp_log (sphI_pos _ hx), hmin]

/-- Upper bound of a continued fraction with an odd number of terms. -/
theorem cfF_odd_le (l : ℕ) {x : ℝ} (hx : 0 < x) (M : ℕ) : ∀ n,
    cfF l x (2 * M + 1) n ≤ ∑ j ∈ Finset.range (M + 1), cfA l x (n + 1 + 2 * j) := by
  induction M with
  | zero => intro n; simp [cfF, fraction]
  | succ M ih =>
    intro n
    have h0 := ih (n + 2)
    have e1 : cfF l x (2 * (M + 1) + 1) n = cfA l x (n + 1) + 1 / cfF l x (2 * M + 2) (n + 1) := by
      rw [show 2 * (M + 1) + 1 = (2 * M + 1) + 2 by omega, cfF_succ]
    have e2 : cfF l x (2 * M + 2) (n + 1) = cfA l x (n + 2) + 1 / cfF l x (2 * M + 1) (n + 2) := cfF_succ _ _ _ _
    have hA := cfA_pos l hx (n + 2)
    have hF : 0 < cfF l x (2 * M + 1) (n + 2) := lt_of_lt_of_le (cfA_pos l hx _) (cfF_ge l hx (2 * M) (n + 2))
    have h3 : 1 / cfF l x (2 * M + 2) (n + 1) ≤ cfF l x (2 * M + 1) (n + 2) := by
      rw [e2, one_div_le (by positivity) hF]
      linarith
    rw [e1, Finset.sum_range_succ']
    have e3 : ∀ j, n + 1 + 2 * (j + 1) = n + 2 + 1 + 2 * j := fun j => by omega
    simp only [e3]
    have : n + 1 + 2 * 0 = n + 1 := by omega
    rw [this]
    linarith

/-- C54 refuted for the interior geometry: with the table of logarithms computed by the code (whose orders `≥ 2` come
from a continued fraction cut after 140 terms) a scaled value exceeds one; here `x = 10^6`, `l1 = l2 = 2`. -/
theorem C54_interior_refuted : ∃ bes sb s y, transBessels [(10 : ℝ) ^ 6] (.int 5) 0 = .ok [bes] ∧
    scaledBessels false bes (lppArr 2 2) = .ok (sb, s) ∧ sb[1]? = some y ∧ 1 < y := by
  set x : ℝ := (10 : ℝ) ^ 6 with hxdef
  have hx : 0 < x := by positivity
  have hx3 : (1e-3 : ℝ) ≤ x := by rw [hxdef]; norm_num
  have a := i01_smallFirst (s := []) (g := [x]) (by simp) (by simpa using hx3)
  simp only [List.nil_append] at a
  have ht := lniknu_maps (xs := [x]) (xl := x) rfl 5 _ _ a
  set bes := (List.range (5 + 1)).map (ordI (fnuTerms x) (ord0 (!([x] : List ℝ).isEmpty)) (ord1 (!([x] : List ℝ).isEmpty)) x) with hb
  have hL : 2 + 2 < bes.length := by simp [hb]
  refine ⟨bes, _, _, Real.exp (bes.getD (lppMin 2 2 + 2 * 1) 0 - besNorm false bes 2 2), ?_, scaledBessels_ok false hL, ?_, ?_⟩
  · unfold transBessels
    rw [if_neg (by simp)]
    erw [ht]
    rfl
  · rw [List.getElem?_map, List.getElem?_range (by simp)]; rfl
  · have hN : fnuTerms x = 140 := by unfold fnuTerms; rw [if_pos (by rw [hxdef]; norm_num)]
    have b2 : bes.getD (lppMin 2 2 + 2 * 1) 0 = iHigh 140 x 2 := by rw [← hN]; rfl
    have b0 : besNorm false bes 2 2 = Real.log (sphI 0 x) := by
      have : besNorm false bes 2 2 = ord0 (!([x] : List ℝ).isEmpty) x := rfl
      rw [this]
      simp only [ord0, if_neg (not_lt.mpr hx3)]
      exact (i0lg_eq hx).2
    rw [b2, b0]
    rw [Real.one_lt_exp_iff]
    have k2 := sphK_pos 2 hx
    have k3 := sphK_pos 3 hx
    -- the continued fraction
    have hf : (35 : ℝ) ≤ fnu1 140 x ((2 : ℕ) + 0.5) := by
      rw [fnu1_eq, cfF_succ]
      have h1 := cfF_odd_le 2 hx 69 (0 + 1)
      have h2 : ∑ j ∈ Finset.range (69 + 1), cfA 2 x (0 + 1 + 1 + 2 * j) ≤ 70 * (400 / x) := by
        have : ∀ j ∈ Finset.range (69 + 1), cfA 2 x (0 + 1 + 1 + 2 * j) ≤ 400 / x := by
          intro j hj
          have hj' : (j : ℝ) ≤ 69 := by
            have := Finset.mem_range.mp hj
            exact_mod_cast (by omega : j ≤ 69)
          unfold cfA
          push_cast
          gcongr
          linarith
        calc _ ≤ ∑ j ∈ Finset.range (69 + 1), 400 / x := Finset.sum_le_sum this
          _ = _ := by simp
      have h3 : 70 * (400 / x) ≤ 1 / 35 := by rw [hxdef]; norm_num
      have h4 : 0 < cfF 2 x (138 + 1) (0 + 1) := lt_of_lt_of_le (cfA_pos 2 hx _) (cfF_ge 2 hx 138 _)
      have h5 : cfF 2 x (138 + 1) (0 + 1) ≤ 1 / 35 := le_trans h1 (le_trans h2 h3)
      have h6 : (35 : ℝ) ≤ 1 / cfF 2 x (138 + 1) (0 + 1) := by
        rw [le_one_div (by norm_num) h4]; exact h5
      exact le_trans h6 (le_add_of_nonneg_left (cfA_pos 2 hx (0 + 1)).le)
    have h5 : (fnu1 140 x ((2 : ℕ) + 0.5)) = fnu1 140 x (2 + 0.5) := by norm_num
    have hhigh : iHigh 140 x 2 = Real.log (Real.pi / (2 * x ^ 2)) - Real.log (sphK 3 x) -
        Real.log (sphK 2 x / sphK 3 x / fnu1 140 x ((2 : ℕ) + 0.5) + 1) := by
      unfold iHigh
      rw [lnk1_eq hx, lnk1_eq hx, Real.exp_sub, Real.exp_log k2, Real.exp_log k3]
    rw [hhigh]
    set f := fnu1 140 x ((2 : ℕ) + 0.5) with hfdef
    have hfpos : 0 < f := by linarith
    have hr : sphK 2 x / sphK 3 x / f + 1 ≤ 36 / 35 := by
      have h7 : sphK 2 x / sphK 3 x ≤ 1 := by
        rw [div_le_one k3]; exact (sphK_lt_succ 2 hx).le
      have h8 : sphK 2 x / sphK 3 x / f ≤ 1 / 35 := div_le_div₀ (by norm_num) h7 (by norm_num) hf
      linarith
    have hr0 : 0 < sphK 2 x / sphK 3 x / f + 1 := by positivity
    have hp := Real.pi_pos
    -- explicit k_3
    have hk3 : sphK 3 x ≤ Real.pi / 2 * Real.exp (-x) / x * (1001 / 1000) := by
      have r1 := sphK_rec 0 hx.ne'
      have r2 := sphK_rec 1 hx.ne'
      rw [sphK_zero, sphK_one hx.ne'] at r1
      rw [sphK_one hx.ne', r1] at r2
      rw [r2]
      have hE := Real.exp_pos (-x)
      have : Real.pi / 2 * Real.exp (-x) * (x + 1) / x ^ 2 + (2 * ((1 : ℕ) : ℝ) + 3) / x *
          (Real.pi / 2 * Real.exp (-x) / x + (2 * ((0 : ℕ) : ℝ) + 3) / x * (Real.pi / 2 * Real.exp (-x) * (x + 1) / x ^ 2)) =
          Real.pi / 2 * Real.exp (-x) / x * (1 + 6 / x + 15 / x ^ 2 + 15 / x ^ 3) := by
        push_cast; field_simp; ring
      rw [this]
      gcongr
      rw [hxdef]; norm_num
    have hi0 : sphI 0 x < Real.exp x / (2 * x) := by
      rw [sphI_zero hx.ne', Real.sinh_eq, div_div, div_lt_div_iff_of_pos_right (by positivity)]
      have := Real.exp_pos (-x)
      linarith
    have hi0p := sphI_pos 0 hx
    rw [← Real.log_div (by positivity) k3.ne', ← Real.log_div (by positivity) hr0.ne',
      ← Real.log_div (by positivity) hi0p.ne']
    apply Real.log_pos
    rw [lt_div_iff₀ hi0p, one_mul, lt_div_iff₀ hr0, lt_div_iff₀ k3]
    have hE := Real.exp_pos x
    calc sphI 0 x * (sphK 2 x / sphK 3 x / f + 1) * sphK 3 x
        ≤ sphI 0 x * (36 / 35) * (Real.pi / 2 * Real.exp (-x) / x * (1001 / 1000)) := by gcongr
      _ ≤ Real.exp x / (2 * x) * (36 / 35) * (Real.pi / 2 * Real.exp (-x) / x * (1001 / 1000)) := by gcongr
      _ = Real.pi / (2 * x ^ 2) * ((36 * 1001) / (70 * 1000)) := by
          rw [Real.exp_neg]; field_simp; norm_num
      _ < Real.pi / (2 * x ^ 2) := by
          have : 0 < Real.pi / (2 * x ^ 2) := by positivity
          linarith [this]

end CasSph
