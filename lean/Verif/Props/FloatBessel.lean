import Verif.Lemmas.FloatBesselI
import Verif.Props.Bessel
import Verif.Props.FloatBalance

/-! # C122: rounding errors of `lnknu` and `lniknu` -/

namespace CasSph

open Spec

namespace FlFun

variable (A : FlFun)

noncomputable def ordI (N : ℕ) (a b : ℝ → ℝ) (x : ℝ) : ℕ → ℝ
  | 0 => a x
  | 1 => b x
  | l + 2 => A.iHigh N x (l + 2)

theorem lniRow_eq (N n : ℕ) (a b : ℝ → ℝ) (x : ℝ) : A.lniRow N n x (a x) (b x) = (List.range (n + 1)).map (A.ordI N a b x) := by
  unfold lniRow
  refine List.map_congr_left ?_
  intro l _
  match l with
  | 0 => rfl
  | 1 => rfl
  | l + 2 => rfl

theorem lniknu_maps {xs : List ℝ} {xl : ℝ} (hl : xs.getLast? = some xl) (n : ℕ) (a b : ℝ → ℝ)
    (h : A.i01 xs = (xs.map a, xs.map b)) :
    A.lniknu xs n = .ok
      (xs.map fun x => (List.range (n + 1)).map (A.ordI (fnuTerms xl) a b x),
       xs.map fun x => (List.range (n + 1)).map (A.lnk x)) := by
  unfold lniknu
  rw [h]
  simp only [zip_maps]
  by_cases hn : n ≤ 1
  · rw [if_pos hn]
    simp only [lnknu, List.map_map]
    congr 2
    · refine List.map_congr_left fun x _ => ?_
      unfold lniRow
      refine List.map_congr_left ?_
      intro l hl
      have : l ≤ 1 := by simp at hl; omega
      interval_cases l <;> rfl
    · refine List.map_congr_left fun x _ => ?_
      simp only [Function.comp_apply]
      rw [← List.map_take, List.take_range]
      simp
  · rw [if_neg hn, hl]
    simp only [lnknu, List.map_map, A.lniRow_eq]
    congr 2
    · refine List.map_congr_left fun x _ => ?_
      simp only [Function.comp_apply]
      rw [← List.map_dropLast, List.range_succ, List.dropLast_concat]

noncomputable def ord0 (mixed : Bool) (x : ℝ) : ℝ :=
  open Classical in if x < 1e-3 then (if mixed then A.i0smLong x else A.i0smShort x) else A.i0lg x

noncomputable def ord1 (mixed : Bool) (x : ℝ) : ℝ :=
  open Classical in if x < 1e-3 then (if mixed then A.i1smLong x else A.i1smShort x) else A.i1lg x

theorem i01_smallFirst {s g : List ℝ} (hs : ∀ x ∈ s, x < 1e-3) (hg : ∀ x ∈ g, 1e-3 ≤ x) :
    A.i01 (s ++ g) = ((s ++ g).map (A.ord0 (!g.isEmpty)), (s ++ g).map (A.ord1 (!g.isEmpty))) := by
  classical
  have f1 : (s ++ g).filter (fun x => decide (x < (1e-3 : ℝ))) = s := by
    rw [List.filter_append, List.filter_eq_self.mpr (by simpa using hs), List.filter_eq_nil_iff.mpr, List.append_nil]
    intro x hx; simpa using hg x hx
  have f2 : (s ++ g).filter (fun x => decide (x ≥ (1e-3 : ℝ))) = g := by
    rw [List.filter_append, (List.filter_eq_self (l := g)).mpr (by simpa using hg), List.filter_eq_nil_iff.mpr, List.nil_append]
    intro x hx; simpa using hs x hx
  unfold i01
  have f1' : (s ++ g).filter (fun x => @decide (x < (1e-3 : ℝ)) (Classical.propDecidable _)) = s := by
    convert f1
  have f2' : (s ++ g).filter (fun x => @decide (x ≥ (1e-3 : ℝ)) (Classical.propDecidable _)) = g := by
    convert f2
  simp only [f1', f2']
  have m0 : ∀ b, s.map (A.ord0 b) = s.map (fun x => if b then A.i0smLong x else A.i0smShort x) := by
    intro b; refine List.map_congr_left fun x hx => ?_; unfold ord0; rw [if_pos (hs x hx)]
  have m1 : ∀ b, s.map (A.ord1 b) = s.map (fun x => if b then A.i1smLong x else A.i1smShort x) := by
    intro b; refine List.map_congr_left fun x hx => ?_; unfold ord1; rw [if_pos (hs x hx)]
  have m2 : ∀ b, g.map (A.ord0 b) = g.map A.i0lg := by
    intro b; refine List.map_congr_left fun x hx => ?_; unfold ord0; rw [if_neg (not_lt.mpr (hg x hx))]
  have m3 : ∀ b, g.map (A.ord1 b) = g.map A.i1lg := by
    intro b; refine List.map_congr_left fun x hx => ?_; unfold ord1; rw [if_neg (not_lt.mpr (hg x hx))]
  simp only [List.map_append, m0, m1, m2, m3]
  cases s with
  | nil => cases g <;> simp
  | cons a s => cases g <;> simp

end FlFun

/-! ## `lnknu` -/

theorem lnk_bound_mono {x : ℝ} (hx : 0 < x) {j l : ℕ} (h : j ≤ l) :
    |lnk1 x j| ≤ bSize x + l * Real.log (1 + 2 * l / x) := by
  refine (lnk1_abs_le hx j).trans ?_
  have h' : (j : ℝ) ≤ l := by exact_mod_cast h
  have h0 : (0 : ℝ) ≤ j := Nat.cast_nonneg j
  have a : Real.log (1 + 2 * j / x) ≤ Real.log (1 + 2 * l / x) := Real.log_le_log (by positivity) (by gcongr)
  have b : 0 ≤ Real.log (1 + 2 * j / x) := Real.log_nonneg (by
    have : 0 ≤ 2 * (j : ℝ) / x := by positivity
    linarith)
  nlinarith

theorem log_term_nonneg {x : ℝ} (hx : 0 < x) (l : ℕ) : 0 ≤ l * Real.log (1 + 2 * l / x) :=
  mul_nonneg (Nat.cast_nonneg l) (Real.log_nonneg (by
    have : 0 ≤ 2 * (l : ℝ) / x := by positivity
    linarith))

theorem lnk_log_err {A : FlFun} {u x : ℝ} (hA : RelErr A u) (hx : 0 < x) (l : ℕ) (hl : 32 * ((l : ℝ) + 1) * u ≤ 1) :
    |A.lnk x l - Real.log (sphK l x)| ≤ 8 * (l + 1) * u * (4 + 2 * |Real.log x| + x + l * Real.log (1 + 2 * l / x)) := by
  rw [← lnk1_eq hx]
  exact hA.lnk_err hx (le_add_of_nonneg_right (log_term_nonneg hx l)) (fun j hj => lnk_bound_mono hx hj) hl l le_rfl

/-- C122: the rounding errors of `lnknu` grow at most linearly with the order (times the size of the logarithms). -/
theorem C122_lnknu (A : FlFun) (u : ℝ) (hA : RelErr A u) (xs : List ℝ) (hx : ∀ x ∈ xs, 0 < x) (n i l : ℕ) (hi : i < xs.length)
    (hl : l ≤ n) (hlu : 32 * ((l : ℝ) + 1) * u ≤ 1) :
    ∃ v, at2 (A.lnknu xs n) i l = some v ∧
      |v - Real.log (sphK l xs[i])| ≤
        8 * (l + 1) * u * (4 + 2 * |Real.log xs[i]| + xs[i] + l * Real.log (1 + 2 * l / xs[i])) :=
  ⟨_, at2_map hi hl, lnk_log_err hA (hx _ (List.getElem_mem hi)) l hlu⟩

/-! ## `lniknu` -/

theorem getLast_some {xs : List ℝ} {i : ℕ} (hi : i < xs.length) : ∃ xl, xs.getLast? = some xl := by
  cases hq : xs.getLast? with
  | none => rw [List.getLast?_eq_none_iff] at hq; rw [hq] at hi; simp at hi
  | some xl => exact ⟨xl, rfl⟩

/-- C122: the second array that `lniknu` returns. -/
theorem C122_second (A : FlFun) (u : ℝ) (hA : RelErr A u) (xs : List ℝ) (hs : SmallFirst xs) (hx : ∀ x ∈ xs, 0 < x)
    (n : ℕ) (li lk : List (List ℝ)) (h : A.lniknu xs n = .ok (li, lk)) (i l : ℕ) (hi : i < xs.length) (hl : l ≤ n)
    (hlu : 32 * ((l : ℝ) + 1) * u ≤ 1) :
    ∃ v, at2 lk i l = some v ∧
      |v - Real.log (sphK l xs[i])| ≤
        8 * (l + 1) * u * (4 + 2 * |Real.log xs[i]| + xs[i] + l * Real.log (1 + 2 * l / xs[i])) := by
  have hpos := hx _ (List.getElem_mem hi)
  obtain ⟨s, g, rfl, hs, hg⟩ := hs
  obtain ⟨xl, hxl⟩ := getLast_some hi
  rw [A.lniknu_maps hxl n _ _ (A.i01_smallFirst hs hg)] at h
  cases h
  exact ⟨_, at2_map hi hl, lnk_log_err hA hpos l hlu⟩

theorem large_hyps {u x : ℝ} (hu : 0 ≤ u) (hx : 0 < x) (h : 1000 * u * (1 + 1 / x ^ 3) ≤ 1) :
    20 * u ≤ x ∧ 100 * u * (1 + x) ≤ wOne x ∧ 5 * u * (1 + x) / wOne x ≤ 45 * u * (1 + 1 / x ^ 3) := by
  have W0 := wOne_pos hx
  have W := one_add_le_wOne hx
  have x3 : 0 < 1 / x ^ 3 := by positivity
  refine ⟨?_, ?_, ?_⟩
  · rcases le_total 1 x with h1 | h1
    · have : 0 ≤ u * (1 / x ^ 3) := by positivity
      nlinarith
    · have h2 : u * (1 / x ^ 3) ≤ 1 / 1000 := by nlinarith
      rw [mul_one_div, div_le_iff₀ (by positivity)] at h2
      have : x ^ 3 ≤ x := by nlinarith [sq_nonneg x]
      linarith
  · have := mul_le_mul_of_nonneg_left W (show 0 ≤ 100 * u by positivity)
    have h2 := mul_le_mul_of_nonneg_right h W0.le
    have : 0 ≤ u * (1 + 1 / x ^ 3) * wOne x := by positivity
    nlinarith
  · rw [div_le_iff₀ W0]
    have := mul_le_mul_of_nonneg_left W (show 0 ≤ 5 * u by positivity)
    linarith

/-- C122: orders 0 and 1 of `lniknu` for arguments of at least 1e-3.  The last term of the error of order 1 is a
cancellation in `exp(-2x)(x+1)+x-1`. -/
theorem C122_orders01_large (A : FlFun) (u : ℝ) (hA : RelErr A u) (xs : List ℝ) (hs : SmallFirst xs) (n : ℕ)
    (li lk : List (List ℝ)) (h : A.lniknu xs n = .ok (li, lk)) (i : ℕ) (hi : i < xs.length) (hxi : 1e-3 ≤ xs[i])
    (h1 : 200 * u * xs[i] ≤ 1) (h2 : 1000 * u * (1 + 1 / xs[i] ^ 3) ≤ 1) :
    (∃ v, at2 li i 0 = some v ∧
      |v - Real.log (sphI 0 xs[i])| ≤ 2 * u * (4 + 2 * |Real.log xs[i]| + xs[i]) + 3 * u / xs[i]) ∧
    (1 ≤ n → ∃ v, at2 li i 1 = some v ∧
      |v - Real.log (sphI 1 xs[i])| ≤ 8 * u * (4 + 2 * |Real.log xs[i]| + xs[i]) + 45 * u * (1 + 1 / xs[i] ^ 3)) := by
  have hpos : 0 < xs[i] := lt_of_lt_of_le (by norm_num) hxi
  obtain ⟨s, g, rfl, hs, hg⟩ := hs
  obtain ⟨xl, hxl⟩ := getLast_some hi
  rw [A.lniknu_maps hxl n _ _ (A.i01_smallFirst hs hg)] at h
  cases h
  obtain ⟨a, b, c⟩ := large_hyps hA.u0 hpos h2
  have hu := mul_nonneg hA.u0 hpos.le
  refine ⟨⟨_, at2_map hi (Nat.zero_le _), ?_⟩, fun hn => ⟨_, at2_map hi hn, ?_⟩⟩
  · rw [FlFun.ordI, FlFun.ord0, if_neg (not_lt.mpr hxi), ← (i0lg_eq hpos).2]
    exact hA.i0lg_err hpos (by linarith) a
  · rw [FlFun.ordI, FlFun.ord1, if_neg (not_lt.mpr hxi), ← (i1lg_eq hpos).2]
    exact (hA.i1lg_err hpos h1 b).trans (add_le_add le_rfl c)

/-- C122: orders 0 and 1 of `lniknu` for arguments below 1e-3 (truncated series): rounding and truncation. -/
theorem C122_orders01_small (A : FlFun) (u : ℝ) (hA : RelErr A u) (xs : List ℝ) (hs : SmallFirst xs) (n : ℕ)
    (li lk : List (List ℝ)) (h : A.lniknu xs n = .ok (li, lk)) (i : ℕ) (hi : i < xs.length) (hpos : 0 < xs[i])
    (hxi : xs[i] < 1e-3) :
    (∃ v, at2 li i 0 = some v ∧ |v - Real.log (sphI 0 xs[i])| ≤ 2 * u * xs[i] ^ 2 + xs[i] ^ 6 / 2000) ∧
    (1 ≤ n → ∃ v, at2 li i 1 = some v ∧
      |v - Real.log (sphI 1 xs[i])| ≤ 4 * u * (4 + 2 * |Real.log xs[i]| + xs[i]) + xs[i] ^ 4 / 600) := by
  obtain ⟨xl, hxl⟩ := getLast_some hi
  have hex := C37_small xs hs 1
  obtain ⟨s, g, rfl, hs, hg⟩ := hs
  obtain ⟨⟨v, hv, ev⟩, hw⟩ := hex _ _ (lniknu_maps hxl 1 _ _ (i01_smallFirst hs hg)) i hi hpos hxi
  obtain ⟨w, hw, ew⟩ := hw le_rfl
  rw [at2_map hi (Nat.zero_le _)] at hv
  rw [at2_map hi le_rfl] at hw
  simp only [Option.some.injEq, ordI] at hv hw
  rw [A.lniknu_maps hxl n _ _ (A.i01_smallFirst hs hg)] at h
  cases h
  rw [← sphI_zero hpos.ne'] at ev
  rw [← sphI_one hpos.ne'] at ew
  refine ⟨⟨_, at2_map hi (Nat.zero_le _), ?_⟩, fun hn => ⟨_, at2_map hi hn, ?_⟩⟩
  · have e : |A.ord0 (!g.isEmpty) (s ++ g)[i] - ord0 (!g.isEmpty) (s ++ g)[i]| ≤ 2 * u * (s ++ g)[i] ^ 2 := by
      rw [FlFun.ord0, ord0, if_pos hxi, if_pos hxi]
      split
      · exact hA.i0smLong_err hpos hxi
      · refine (hA.i0smShort_err hpos hxi).trans ?_
        have := mul_nonneg hA.u0 (sq_nonneg (s ++ g)[i]); linarith
    rw [← hv] at ev
    rw [FlFun.ordI]
    have := abs_add_le (A.ord0 (!g.isEmpty) (s ++ g)[i] - ord0 (!g.isEmpty) (s ++ g)[i])
      (ord0 (!g.isEmpty) (s ++ g)[i] - Real.log (sphI 0 (s ++ g)[i]))
    rw [sub_add_sub_cancel] at this
    linarith
  · have e : |A.ord1 (!g.isEmpty) (s ++ g)[i] - ord1 (!g.isEmpty) (s ++ g)[i]| ≤ 4 * u * bSize (s ++ g)[i] := by
      rw [FlFun.ord1, ord1, if_pos hxi, if_pos hxi]
      split
      · exact hA.i1smLong_err hpos hxi
      · refine (hA.i1smShort_err hpos hxi).trans ?_
        have : 0 ≤ u * bSize (s ++ g)[i] := mul_nonneg hA.u0 (by unfold bSize; positivity)
        linarith
    rw [← hw] at ew
    rw [FlFun.ordI]
    have := abs_add_le (A.ord1 (!g.isEmpty) (s ++ g)[i] - ord1 (!g.isEmpty) (s ++ g)[i])
      (ord1 (!g.isEmpty) (s ++ g)[i] - Real.log (sphI 1 (s ++ g)[i]))
    rw [sub_add_sub_cancel] at this
    unfold bSize at e
    linarith

theorem fnuTerms_or (x : ℝ) : fnuTerms x = 80 ∨ fnuTerms x = 140 := by
  unfold fnuTerms; split_ifs <;> simp

theorem iHigh_log_err {A : FlFun} {u x : ℝ} (hA : RelErr A u) (hx : 0 < x) {l N : ℕ} (hl : 2 ≤ l) (hN : N = 80 ∨ N = 140)
    (hlu : 32 * ((l : ℝ) + 2) * u ≤ 1) :
    |A.iHigh N x l - iHigh N x l| ≤
      30 * (l + 2) * u * (4 + 2 * |Real.log x| + x + (l + 1) * Real.log (1 + 2 * (l + 1) / x)) + 420 * u := by
  have h := hA.iHigh_err hx hl (N := N) (by omega) (le_add_of_nonneg_right (log_term_nonneg hx (l + 1)))
    (fun j hj => lnk_bound_mono hx hj) hlu
  have hN' : (N : ℝ) ≤ 140 := by exact_mod_cast (show N ≤ 140 by omega)
  have := mul_le_mul_of_nonneg_right hN' hA.u0
  unfold bSize at h
  push_cast at h
  linarith

/-- C122: orders from 2 on of `lniknu`: rounding, and the truncation of the continued fraction after `N` terms. -/
theorem C122_orders (A : FlFun) (u : ℝ) (hA : RelErr A u) (xs : List ℝ) (hs : SmallFirst xs) (hx : ∀ x ∈ xs, 0 < x)
    (n : ℕ) (li lk : List (List ℝ)) (h : A.lniknu xs n = .ok (li, lk)) (i l : ℕ) (hi : i < xs.length) (h2 : 2 ≤ l)
    (hl : l ≤ n) (hlu : 32 * ((l : ℝ) + 2) * u ≤ 1) :
    ∃ (v : ℝ) (N : ℕ), (N = 80 ∨ N = 140) ∧ at2 li i l = some v ∧
      |v - Real.log (sphI l xs[i])| ≤
        30 * (l + 2) * u * (4 + 2 * |Real.log xs[i]| + xs[i] + (l + 1) * Real.log (1 + 2 * (l + 1) / xs[i])) + 420 * u +
        1 / ((∏ j ∈ Finset.Icc 2 N, ((2 * (l : ℝ) + 1 + 2 * j) / xs[i]) ^ 2) * ((2 * l + 1 + 2 * (N + 1 : ℕ)) / xs[i])) := by
  have hpos := hx _ (List.getElem_mem hi)
  obtain ⟨xl, hxl⟩ := getLast_some hi
  have h39 := C39_orders xs hx n
  obtain ⟨s, g, rfl, hs, hg⟩ := hs
  rw [lniknu_maps hxl n _ _ (i01_smallFirst hs hg)] at h39
  obtain ⟨fs, f, v, hfs, hf, hv, -, -, h3, h4⟩ := h39 _ _ rfl i l hi h2 hl
  rw [at2_map hi hl] at hv
  obtain ⟨l, rfl⟩ := Nat.exists_eq_add_of_le' h2
  simp only [Option.some.injEq, ordI] at hv
  rw [A.lniknu_maps hxl n _ _ (A.i01_smallFirst hs hg)] at h
  cases h
  refine ⟨_, fnuTerms xl, fnuTerms_or xl, at2_map hi hl, ?_⟩
  have e := iHigh_log_err hA hpos h2 (fnuTerms_or xl) hlu
  -- the fraction
  have hf' : f = fnu1 (fnuTerms xl) (s ++ g)[i] ((l + 2 : ℕ) + 0.5) := by
    unfold fnu at hfs
    rw [hxl] at hfs
    simp only [Except.ok.injEq] at hfs
    rw [← hfs, List.getElem?_map, List.getElem?_eq_getElem hi] at hf
    simpa using hf.symm
  obtain ⟨M, hM, -⟩ := fnuTerms_even xl
  have hb := (fnu1_bounds (l + 2) hpos M).2
  rw [← hM, ← hf'] at hb
  generalize (s ++ g)[i] = x at *
  have i0 := sphI_pos (l + 2) hpos
  have i1 := sphI_pos (l + 2 + 1) hpos
  have T1 : 1 < sphI (l + 2) x / sphI (l + 2 + 1) x := by rw [one_lt_div i1]; exact sphI_succ_lt _ hpos
  have t : |v - Real.log (sphI (l + 2) x)| ≤ f - sphI (l + 2) x / sphI (l + 2 + 1) x := by
    have a := Real.log_lt_log i0 h3
    rw [Real.log_exp] at a
    rw [abs_of_pos (by linarith)]
    have b := Real.log_le_log (Real.exp_pos v) h4
    generalize sphI (l + 2) x / sphI (l + 2 + 1) x = T at *
    have fT : T ≤ f := by
      by_contra hc
      have : (f - T) / T < 0 := div_neg_of_neg_of_pos (by linarith) (by linarith)
      have := lt_of_lt_of_le h3 h4
      nlinarith
    have q0 : 0 ≤ (f - T) / T := div_nonneg (by linarith) (by linarith)
    rw [Real.log_exp, Real.log_mul i0.ne' (by linarith)] at b
    have := Real.log_le_sub_one_of_pos (show 0 < 1 + (f - T) / T by linarith)
    have : (f - T) / T ≤ f - T := by
      rw [div_le_iff₀ (by linarith)]; nlinarith
    linarith
  rw [FlFun.ordI]
  have := abs_add_le (A.iHigh (fnuTerms xl) x (l + 2) - iHigh (fnuTerms xl) x (l + 2)) (v - Real.log (sphI (l + 2) x))
  rw [← hv, sub_add_sub_cancel] at this
  rw [← hv] at t
  linarith

/-! ## The cancellation is real -/

theorem wOne_le_cube {x : ℝ} (hx : 0 ≤ x) (h1 : x ≤ 1 / 2) : wOne x ≤ x ^ 3 := by
  have e := Real.sum_le_exp_of_nonneg (show 0 ≤ 2 * x by linarith) 4
  simp only [Finset.sum_range_succ, Finset.sum_range_zero, Nat.factorial] at e
  norm_num at e
  have p := Real.exp_pos (-2 * x)
  have c : 0 < 1 - x + x ^ 3 := by have : 0 ≤ x ^ 3 := by positivity
                                   linarith
  have k : x + 1 ≤ (1 - x + x ^ 3) * Real.exp (2 * x) := by
    have := mul_le_mul_of_nonneg_left e c.le
    have : 0 ≤ x ^ 3 := by positivity
    have : 0 ≤ x ^ 4 := by positivity
    have : 0 ≤ x ^ 5 := by positivity
    have : 0 ≤ x ^ 6 := by positivity
    nlinarith
  have := mul_le_mul_of_nonneg_left k p.le
  rw [mul_left_comm, ← Real.exp_add, show -2 * x + 2 * x = 0 by ring, Real.exp_zero, mul_one] at this
  unfold wOne
  linarith

/-- Exact operations, except for an exponential that is too large by the factor `1 + u`. -/
noncomputable def expFun (u : ℝ) : FlFun where
  pi := Real.pi
  tenth := 1 / 10
  add := (· + ·)
  sub := (· - ·)
  mul := (· * ·)
  div := (· / ·)
  pow := (· ^ ·)
  log := Real.log
  exp x := (1 + u) * Real.exp x

theorem expFun_relErr {u : ℝ} (h0 : 0 ≤ u) (h1 : u ≤ 1 / 100) : RelErr (expFun u) u where
  u0 := h0
  u1 := h1
  pi := by simp only [expFun, sub_self, abs_zero]; have := Real.pi_pos; positivity
  tenth := by simp only [expFun, sub_self, abs_zero]; positivity
  add a b := by simp only [expFun, sub_self, abs_zero]; positivity
  sub a b := by simp only [expFun, sub_self, abs_zero]; positivity
  mul a b := by simp only [expFun, sub_self, abs_zero]; positivity
  div a b _ := by simp only [expFun, sub_self, abs_zero]; positivity
  pow a b := by simp only [expFun, sub_self, abs_zero]; positivity
  log a _ := by simp only [expFun, sub_self, abs_zero]; positivity
  exp a := by
    simp only [expFun]
    rw [show (1 + u) * Real.exp a - Real.exp a = u * Real.exp a by ring, abs_of_nonneg (by positivity)]

/-- C122: the loss of accuracy of order 1 at small arguments is not an artefact of the bound: rounding only the exponential
moves the result by more than `u/(6x³)`. -/
theorem C122_cancellation (u x : ℝ) (h0 : 0 < u) (h1 : u ≤ 1 / 100) (hx : 1e-3 ≤ x) (hx2 : x ≤ 1 / 2) (hu : u ≤ 3 * x ^ 3) :
    ∃ A, RelErr A u ∧ ∃ li lk v, A.lniknu [x] 1 = .ok (li, lk) ∧ at2 li 0 1 = some v ∧
      u / (6 * x ^ 3) ≤ v - Real.log (sphI 1 x) := by
  have hpos : 0 < x := lt_of_lt_of_le (by norm_num) hx
  have hm := (expFun u).lniknu_maps (xs := [] ++ [x]) rfl 1 _ _ ((expFun u).i01_smallFirst (s := []) (g := [x]) (by simp) (by simpa using hx))
  refine ⟨expFun u, expFun_relErr h0.le h1, _, _, _, hm, at2_map (i := 0) (by simp) le_rfl, ?_⟩
  simp only [List.nil_append, List.getElem_cons_zero]
  rw [FlFun.ordI, FlFun.ord1, if_neg (not_lt.mpr hx), ← (i1lg_eq hpos).2]
  have W0 := wOne_pos hpos
  have W3 := wOne_le_cube hpos.le hx2
  have x3 : 0 < x ^ 3 := by positivity
  have E : 1 / 3 ≤ Real.exp (-2 * x) * (x + 1) := by
    have h2 : Real.exp (-1) ≤ Real.exp (-2 * x) := Real.exp_le_exp.2 (by linarith)
    have h3 : (1 / 3 : ℝ) < Real.exp (-1) := by
      rw [Real.exp_neg, ← one_div]
      exact one_div_lt_one_div_of_lt (Real.exp_pos 1) (by linarith [Real.exp_one_lt_d9])
    nlinarith
  have e : (expFun u).i1lg x - i1lg x = Real.log ((wOne x + u * (Real.exp (-2 * x) * (x + 1))) / wOne x) := by
    rw [Real.log_div (by positivity) W0.ne']
    simp only [FlFun.i1lg, expFun, i1lg]
    rw [show (1 + u) * Real.exp (-2 * x) * (x + 1) + x - 1 = wOne x + u * (Real.exp (-2 * x) * (x + 1)) by unfold wOne; ring,
      show Real.exp (-2 * x) * (x + 1) + x - 1 = wOne x from rfl]
    ring
  rw [e]
  obtain ⟨t, ht⟩ : ∃ t, t = u / (3 * x ^ 3) := ⟨_, rfl⟩
  have t0 : 0 < t := by rw [ht]; positivity
  have t1 : t ≤ 1 := by rw [ht, div_le_one (by positivity)]; exact hu
  have k : 1 + t ≤ (wOne x + u * (Real.exp (-2 * x) * (x + 1))) / wOne x := by
    rw [add_div, div_self W0.ne', ht]
    refine add_le_add le_rfl ?_
    rw [div_le_div_iff₀ (by positivity) W0]
    have := mul_le_mul_of_nonneg_left E h0.le
    have a : u * wOne x ≤ u * x ^ 3 := mul_le_mul_of_nonneg_left W3 h0.le
    nlinarith
  have l1 := Real.log_le_log (by linarith) k
  have l2 := Real.one_sub_inv_le_log_of_pos (show 0 < 1 + t by linarith)
  have l3 : t / 2 ≤ 1 - (1 + t)⁻¹ := by
    have : 1 - (1 + t)⁻¹ = t / (1 + t) := by field_simp; ring
    rw [this]
    exact div_le_div_of_nonneg_left t0.le (by linarith) (by linarith)
  have : u / (6 * x ^ 3) = t / 2 := by rw [ht]; field_simp; ring
  linarith

/-! ## Double precision -/

/-- Operations that round the exact result. -/
noncomputable def roundFun (rnd : ℝ → ℝ) : FlFun where
  pi := rnd Real.pi
  tenth := rnd (1 / 10)
  add a b := rnd (a + b)
  sub a b := rnd (a - b)
  mul a b := rnd (a * b)
  div a b := rnd (a / b)
  pow a n := rnd (a ^ n)
  log a := rnd (Real.log a)
  exp a := rnd (Real.exp a)

theorem roundFun_relErr {rnd : ℝ → ℝ} {u : ℝ} (h0 : 0 ≤ u) (h1 : u ≤ 1 / 100) (h : ∀ x, |rnd x - x| ≤ u * |x|) :
    RelErr (roundFun rnd) u where
  u0 := h0
  u1 := h1
  pi := by have := h Real.pi; rwa [abs_of_pos Real.pi_pos] at this
  tenth := by have := h (1 / 10); rwa [abs_of_pos (by norm_num : (0 : ℝ) < 1 / 10)] at this
  add a b := h _
  sub a b := h _
  mul a b := h _
  div a b _ := h _
  pow a n := h _
  log a _ := h _
  exp a := by have := h (Real.exp a); rwa [abs_of_pos (Real.exp_pos a)] at this

theorem log_range {x : ℝ} (h1 : 1e-3 ≤ x) (h2 : x ≤ 1000) : |Real.log x| ≤ 7 := by
  have hx : 0 < x := lt_of_lt_of_le (by norm_num) h1
  have l : Real.log 1000 ≤ 7 := by
    have a : Real.log 1000 ≤ Real.log (2 ^ 10) := Real.log_le_log (by norm_num) (by norm_num)
    rw [Real.log_pow] at a
    push_cast at a
    linarith [Real.log_two_lt_d9]
  have a := Real.log_le_log hx h2
  have b := Real.log_le_log (by norm_num) h1
  have c : Real.log (1e-3) = -Real.log 1000 := by rw [← Real.log_inv]; norm_num
  rw [abs_le]; constructor <;> linarith

theorem log_term_range {x : ℝ} (h1 : 1e-3 ≤ x) {l : ℝ} (h0 : 0 ≤ l) (hl : l ≤ 1001) : Real.log (1 + 2 * l / x) ≤ 15 := by
  have hx : 0 < x := lt_of_lt_of_le (by norm_num) h1
  have a : 1 + 2 * l / x ≤ 2 ^ 21 := by
    have : 2 * l / x ≤ 2 * 1001 / 1e-3 := by gcongr
    norm_num at this ⊢; linarith
  have b := Real.log_le_log (by positivity) a
  rw [Real.log_pow] at b
  push_cast at b
  linarith [Real.log_two_lt_d9]

theorem double_entry_err (A : FlFun) (hA : RelErr A (2 ^ (-52 : ℤ))) (x : ℝ) (h1 : 1e-3 ≤ x) (h2 : x ≤ 1000) :
    (∀ l ≤ 1000, |A.lnk x l - Real.log (sphK l x)| ≤ 3e-8) ∧
    |A.i0lg x - Real.log (sphI 0 x)| ≤ 2e-12 ∧
    |A.i1lg x - Real.log (sphI 1 x)| ≤ 2e-5 ∧
    (∀ l N, 2 ≤ l → l ≤ 1000 → (N = 80 ∨ N = 140) → |A.iHigh N x l - iHigh N x l| ≤ 2e-7) := by
  have hx : 0 < x := lt_of_lt_of_le (by norm_num) h1
  have hL := log_range h1 h2
  have hL0 := abs_nonneg (Real.log x)
  have ix : 1 / x ≤ 1000 := by rw [div_le_iff₀ hx]; norm_num at h1 ⊢; linarith
  have ix3 : 1 / x ^ 3 ≤ 1000 ^ 3 := by
    rw [← one_div_pow]; gcongr
  have i0 : 0 < 1 / x := by positivity
  have i3 : 0 < 1 / x ^ 3 := by positivity
  have hu : (2 : ℝ) ^ (-52 : ℤ) = 1 / 4503599627370496 := by norm_num
  rw [hu] at hA
  have h1000 : 1000 * (1 / 4503599627370496 : ℝ) * (1 + 1 / x ^ 3) ≤ 1 := by linarith
  obtain ⟨a, b, c⟩ := large_hyps (by norm_num) hx h1000
  refine ⟨?_, ?_, ?_, ?_⟩
  · intro l hl
    have hl' : (l : ℝ) ≤ 1000 := by exact_mod_cast hl
    have l0 : (0 : ℝ) ≤ l := Nat.cast_nonneg l
    refine (lnk_log_err hA hx l (by linarith)).trans ?_
    have t := log_term_range h1 l0 (by linarith)
    have t0 := log_term_nonneg hx l
    have t2 : (l : ℝ) * Real.log (1 + 2 * l / x) ≤ 1000 * 15 := by
      have : (l : ℝ) * Real.log (1 + 2 * l / x) ≤ l * 15 := mul_le_mul_of_nonneg_left t l0
      linarith
    have s : 4 + 2 * |Real.log x| + x + l * Real.log (1 + 2 * l / x) ≤ 16018 := by linarith
    have s0 : 0 ≤ 4 + 2 * |Real.log x| + x + l * Real.log (1 + 2 * l / x) := by linarith
    calc _ ≤ 8 * (1000 + 1) * (1 / 4503599627370496 : ℝ) * 16018 := by gcongr
      _ ≤ _ := by norm_num
  · rw [← (i0lg_eq hx).2]
    refine (hA.i0lg_err hx (by linarith) a).trans ?_
    unfold bSize
    have : 3 * (1 / 4503599627370496 : ℝ) / x = 3 * (1 / 4503599627370496) * (1 / x) := by ring
    rw [this]
    norm_num at ix ⊢
    linarith
  · rw [← (i1lg_eq hx).2]
    refine (hA.i1lg_err hx (by linarith) b).trans ((add_le_add le_rfl c).trans ?_)
    unfold bSize
    norm_num at ix3 ⊢
    linarith
  · intro l N h2l hl hN
    have hl' : (l : ℝ) ≤ 1000 := by exact_mod_cast hl
    have l0 : (0 : ℝ) ≤ l := Nat.cast_nonneg l
    refine (iHigh_log_err hA hx h2l hN (by linarith)).trans ?_
    have t := log_term_range h1 (show (0 : ℝ) ≤ l + 1 by linarith) (by linarith)
    have t0 := log_term_nonneg hx (l + 1)
    push_cast at t0
    have t2 : ((l : ℝ) + 1) * Real.log (1 + 2 * (l + 1) / x) ≤ 1001 * 15 := by
      have : ((l : ℝ) + 1) * Real.log (1 + 2 * (l + 1) / x) ≤ (l + 1) * 15 := mul_le_mul_of_nonneg_left t (by linarith)
      linarith
    have s : 4 + 2 * |Real.log x| + x + (l + 1) * Real.log (1 + 2 * (l + 1) / x) ≤ 16033 := by linarith
    have s0 : 0 ≤ 4 + 2 * |Real.log x| + x + (l + 1) * Real.log (1 + 2 * (l + 1) / x) := by linarith
    calc _ ≤ 30 * (1000 + 2) * (1 / 4503599627370496 : ℝ) * 16033 + 420 * (1 / 4503599627370496) := by gcongr
      _ ≤ _ := by norm_num

/-- C122 in double precision, for arguments between 1e-3 and 1000 and orders up to 1000: the errors of the second array of
`lniknu`, and of orders 0, 1 and from 2 on of the first one (the latter against the same function in exact arithmetic). -/
theorem C122_double (A : FlFun) (hA : RelErr A (2 ^ (-52 : ℤ))) (xs : List ℝ) (hxs : ∀ x ∈ xs, 1e-3 ≤ x ∧ x ≤ 1000)
    (n : ℕ) (hn : n ≤ 1000) (li lk li' lk' : List (List ℝ)) (h : A.lniknu xs n = .ok (li, lk))
    (h' : lniknu xs (.int n) = .ok (li', lk')) (i l : ℕ) (hi : i < xs.length) (hl : l ≤ n) :
    ∃ v w w', at2 lk i l = some v ∧ at2 li i l = some w ∧ at2 li' i l = some w' ∧
      |v - Real.log (sphK l xs[i])| ≤ 3e-8 ∧
      (l = 0 → |w - Real.log (sphI 0 xs[i])| ≤ 2e-12) ∧
      (l = 1 → |w - Real.log (sphI 1 xs[i])| ≤ 2e-5) ∧
      (2 ≤ l → |w - w'| ≤ 2e-7) := by
  obtain ⟨h1, h2⟩ := hxs _ (List.getElem_mem hi)
  obtain ⟨xl, hxl⟩ := getLast_some hi
  have hg : ∀ x ∈ xs, 1e-3 ≤ x := fun x hx => (hxs x hx).1
  rw [A.lniknu_maps hxl n _ _ (A.i01_smallFirst (s := []) (by simp) hg)] at h
  rw [lniknu_maps hxl n _ _ (i01_smallFirst (s := []) (by simp) hg)] at h'
  cases h
  cases h'
  obtain ⟨ek, e0, e1, e2⟩ := double_entry_err A hA xs[i] h1 h2
  refine ⟨_, _, _, at2_map hi hl, at2_map hi hl, at2_map hi hl, ek l (hl.trans hn), ?_, ?_, ?_⟩
  · rintro rfl
    rw [FlFun.ordI, FlFun.ord0, if_neg (not_lt.mpr h1)]; exact e0
  · rintro rfl
    rw [FlFun.ordI, FlFun.ord1, if_neg (not_lt.mpr h1)]; exact e1
  · intro h2
    obtain ⟨l, rfl⟩ := Nat.exists_eq_add_of_le' h2
    exact e2 _ _ h2 (hl.trans hn) (fnuTerms_or xl)

/-- Without rounding the model is the one of Model/Bessel. -/
theorem C122_exact (x : ℝ) (l : ℕ) : (roundFun id).lnk x l = lnk1 x l := by
  induction l using Nat.strong_induction_on with
  | _ l ih =>
    match l with
    | 0 => rfl
    | 1 => rfl
    | l + 2 =>
      rw [FlFun.lnk, lnk1, ih l (by omega), ih (l + 1) (by omega)]
      rfl

/-- Correct rounding towards minus infinity to 53 bits; `lniknu([0.01, 5, 200], 30)`. -/
theorem double_relErr : RelErr (roundFun (Spec.roundDown 53)) (2 ^ (-52 : ℤ)) :=
  roundFun_relErr (by positivity) (by norm_num) roundDown_double.err

example : SmallFirst [(0.01 : ℝ), 5, 200] ∧ (∀ x ∈ [(0.01 : ℝ), 5, 200], 0 < x) ∧
    (∃ li lk, (roundFun (Spec.roundDown 53)).lniknu [(0.01 : ℝ), 5, 200] 30 = .ok (li, lk)) ∧
    32 * ((30 : ℝ) + 2) * 2 ^ (-52 : ℤ) ≤ 1 ∧ 200 * (2 : ℝ) ^ (-52 : ℤ) * 200 ≤ 1 ∧
    1000 * (2 : ℝ) ^ (-52 : ℤ) * (1 + 1 / 0.01 ^ 3) ≤ 1 := by
  refine ⟨⟨[], _, rfl, by simp, ?_⟩, ?_, ?_, by norm_num, by norm_num, by norm_num⟩
  · intro x hx; simp at hx; rcases hx with rfl | rfl | rfl <;> norm_num
  · intro x hx; simp at hx; rcases hx with rfl | rfl | rfl <;> norm_num
  · exact ⟨_, _, (roundFun (Spec.roundDown 53)).lniknu_maps (xs := [] ++ [(0.01 : ℝ), 5, 200]) rfl 30 _ _
      ((roundFun (Spec.roundDown 53)).i01_smallFirst (s := []) (by simp) (by
        intro x hx; simp at hx; rcases hx with rfl | rfl | rfl <;> norm_num))⟩

/-- The cancellation at `x = 1e-3` in double precision: at least `3e-8`. -/
example : (3e-8 : ℝ) ≤ 2 ^ (-52 : ℤ) / (6 * (1e-3) ^ 3) ∧ (2 : ℝ) ^ (-52 : ℤ) ≤ 3 * (1e-3) ^ 3 := by norm_num

end CasSph
