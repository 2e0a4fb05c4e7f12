import Verif.Lemmas.Bessel

/-! # Properties C35–C41: modified spherical Bessel functions -/

namespace CasSph

open Spec Nat

/-! ## Shape of the results -/

theorem at2_map {xs : List ℝ} {f : ℝ → ℕ → ℝ} {n i l : ℕ} (hi : i < xs.length) (hl : l ≤ n) :
    at2 (xs.map fun x => (List.range (n + 1)).map (f x)) i l = some (f xs[i] l) := by
  unfold at2
  rw [List.getElem?_map, List.getElem?_eq_getElem hi]
  simp [List.getElem?_range (show l < n + 1 by omega)]

theorem shape_map (xs : List ℝ) (f : ℝ → ℕ → ℝ) (n : ℕ) :
    Shape (xs.map fun x => (List.range (n + 1)).map (f x)) xs.length (n + 1) := by
  refine ⟨by simp, ?_⟩
  intro r hr
  obtain ⟨x, _, rfl⟩ := List.mem_map.mp hr
  simp

theorem lnknu_ok (xs : List ℝ) (n : ℕ) :
    lnknu xs (.int n) = .ok (xs.map fun x => (List.range (n + 1)).map (lnk1 x)) := by
  simp only [lnknu]
  rw [if_neg (by omega), if_neg (by omega)]
  simp

/-- C35: every entry of `lnknu` is the logarithm of `k_l`. -/
theorem C35_lnknu (xs : List ℝ) (hx : ∀ x ∈ xs, 0 < x) (n : ℕ) :
    ∃ rows, lnknu xs (.int n) = .ok rows ∧ Shape rows xs.length (n + 1) ∧
      ∀ (i l : ℕ) (hi : i < xs.length), l ≤ n → ∃ v, at2 rows i l = some v ∧ Real.exp v = sphK l xs[i] := by
  refine ⟨_, lnknu_ok xs n, shape_map _ _ _, ?_⟩
  intro i l hi hl
  exact ⟨_, at2_map hi hl, exp_lnk1 (hx _ (List.getElem_mem hi)) l⟩

/-- C35: anything but an integer `lmax` is rejected. -/
theorem C35_type (xs : List ℝ) : lnknu xs .other = .error .typeError ∧ lniknu xs .other = .error .typeError :=
  ⟨rfl, rfl⟩

/-- C35: negative `lmax`. -/
theorem C35_negative (xs : List ℝ) (n : ℤ) (hn : n < 0) : ∃ e, lnknu xs (.int n) = .error e ∧ lniknu xs (.int n) = .error e := by
  simp only [lnknu, lniknu]
  by_cases h : n < -1
  · exact ⟨.valueError, by rw [if_pos h], by rw [if_pos h]⟩
  · have : n = -1 := by omega
    subst this
    exact ⟨.indexError, by simp, by simp⟩

example : ∀ x ∈ [(0.001 : ℝ), 3, 50], 0 < x := by
  intro x hx; simp at hx; rcases hx with rfl | rfl | rfl <;> norm_num

/-! ## Structure of `lniknu` -/

theorem zip_maps (xs : List ℝ) (a b : ℝ → ℝ) (f : ℝ → ℝ × ℝ → List ℝ) :
    xs.zipWith f ((xs.map a).zip (xs.map b)) = xs.map fun x => f x (a x, b x) := by
  induction xs with
  | nil => rfl
  | cons x xs ih => simp [ih]

/-- Orders of one row, given the functions used for orders 0 and 1. -/
noncomputable def ordI (N : ℕ) (a b : ℝ → ℝ) (x : ℝ) : ℕ → ℝ
  | 0 => a x
  | 1 => b x
  | l + 2 => iHigh N x (l + 2)

theorem lniRow_eq (N n : ℕ) (a b : ℝ → ℝ) (x : ℝ) : lniRow N n x (a x) (b x) = (List.range (n + 1)).map (ordI N a b x) := by
  unfold lniRow
  refine List.map_congr_left ?_
  intro l _
  match l with
  | 0 => rfl
  | 1 => rfl
  | l + 2 => rfl

theorem take_orders (x : ℝ) (n : ℕ) : ((List.range (n + 2)).map (lnk1 x)).take (n + 1) = (List.range (n + 1)).map (lnk1 x) := by
  rw [← List.map_take, List.take_range]
  simp

theorem dropLast_orders (x : ℝ) (n : ℕ) : ((List.range (n + 2)).map (lnk1 x)).dropLast = (List.range (n + 1)).map (lnk1 x) := by
  rw [← List.map_dropLast, List.range_succ, List.dropLast_concat]

/-- Second component of `lniknu`, first component for all arrays. -/
theorem lniknu_ok {xs : List ℝ} {xl : ℝ} (hl : xs.getLast? = some xl) (n : ℕ) :
    lniknu xs (.int n) = .ok
      (xs.zipWith (fun x ab => lniRow (fnuTerms xl) n x ab.1 ab.2) ((i01 xs).1.zip (i01 xs).2),
       xs.map fun x => (List.range (n + 1)).map (lnk1 x)) := by
  unfold lniknu
  have hc : ((n : ℤ) + 1) = ((n + 1 : ℕ) : ℤ) := by push_cast; ring
  simp only [hc, lnknu_ok]
  rw [if_neg (by omega), if_neg (by omega)]
  by_cases h : (n : ℤ) ≤ 1
  · rw [if_pos h]
    simp only [Int.toNat_natCast, List.map_map]
    congr 2
    · congr 1
      funext x ab
      unfold lniRow
      refine List.map_congr_left ?_
      intro l hl
      have : l ≤ 1 := by simp at hl; omega
      interval_cases l <;> rfl
    · refine List.map_congr_left ?_
      intro x _
      exact take_orders x n
  · rw [if_neg h, hl]
    simp only [Int.toNat_natCast, List.map_map]
    congr 2
    refine List.map_congr_left ?_
    intro x _
    exact dropLast_orders x n

theorem lniknu_maps {xs : List ℝ} {xl : ℝ} (hl : xs.getLast? = some xl) (n : ℕ) (a b : ℝ → ℝ)
    (h : i01 xs = (xs.map a, xs.map b)) :
    lniknu xs (.int n) = .ok
      (xs.map fun x => (List.range (n + 1)).map (ordI (fnuTerms xl) a b x),
       xs.map fun x => (List.range (n + 1)).map (lnk1 x)) := by
  rw [lniknu_ok hl, h, zip_maps]
  simp only [lniRow_eq]

/-- Functions used for orders 0 and 1 when small arguments come first. -/
noncomputable def ord0 (mixed : Bool) (x : ℝ) : ℝ :=
  open Classical in if x < 1e-3 then (if mixed then i0smLong x else i0smShort x) else i0lg x

noncomputable def ord1 (mixed : Bool) (x : ℝ) : ℝ :=
  open Classical in if x < 1e-3 then (if mixed then i1smLong x else i1smShort x) else i1lg x

theorem i01_smallFirst {s g : List ℝ} (hs : ∀ x ∈ s, x < 1e-3) (hg : ∀ x ∈ g, 1e-3 ≤ x) :
    i01 (s ++ g) = ((s ++ g).map (ord0 (!g.isEmpty)), (s ++ g).map (ord1 (!g.isEmpty))) := by
  classical
  have f1 : (s ++ g).filter (fun x => decide (x < (1e-3 : ℝ))) = s := by
    rw [List.filter_append, List.filter_eq_self.mpr (by simpa using hs), List.filter_eq_nil_iff.mpr, List.append_nil]
    intro x hx; simpa using hg x hx
  have f2 : (s ++ g).filter (fun x => decide (x ≥ (1e-3 : ℝ))) = g := by
    rw [List.filter_append, (List.filter_eq_self (l := g)).mpr (by simpa using hg), List.filter_eq_nil_iff.mpr, List.nil_append]
    intro x hx; simpa using hs x hx
  unfold i01
  have f1' : (s ++ g).filter (fun x => @decide (x < (1e-3 : ℝ)) (Classical.propDecidable _)) = s := by
    convert f1
  have f2' : (s ++ g).filter (fun x => @decide (x ≥ (1e-3 : ℝ)) (Classical.propDecidable _)) = g := by
    convert f2
  simp only [f1', f2']
  have m0 : ∀ b, s.map (ord0 b) = s.map (fun x => if b then i0smLong x else i0smShort x) := by
    intro b; refine List.map_congr_left fun x hx => ?_; unfold ord0; rw [if_pos (hs x hx)]
  have m1 : ∀ b, s.map (ord1 b) = s.map (fun x => if b then i1smLong x else i1smShort x) := by
    intro b; refine List.map_congr_left fun x hx => ?_; unfold ord1; rw [if_pos (hs x hx)]
  have m2 : ∀ b, g.map (ord0 b) = g.map i0lg := by
    intro b; refine List.map_congr_left fun x hx => ?_; unfold ord0; rw [if_neg (not_lt.mpr (hg x hx))]
  have m3 : ∀ b, g.map (ord1 b) = g.map i1lg := by
    intro b; refine List.map_congr_left fun x hx => ?_; unfold ord1; rw [if_neg (not_lt.mpr (hg x hx))]
  simp only [List.map_append, m0, m1, m2, m3]
  cases s with
  | nil => cases g <;> simp
  | cons a s => cases g <;> simp

/-! ## C36 -/

/-- C36: orders 0 and 1 are exact for arguments `≥ 1e-3`, and no logarithm of a non-positive number is taken. -/
theorem C36_orders01 (xs : List ℝ) (hs : SmallFirst xs) (n : ℕ) (li lk : List (List ℝ))
    (h : lniknu xs (.int n) = .ok (li, lk)) (i : ℕ) (hi : i < xs.length) (hxi : 1e-3 ≤ xs[i]) :
    (∃ v, at2 li i 0 = some v ∧ Real.exp v = Real.sinh xs[i] / xs[i]) ∧
    (1 ≤ n → ∃ v, at2 li i 1 = some v ∧
      Real.exp v = (xs[i] * Real.cosh xs[i] - Real.sinh xs[i]) / xs[i] ^ 2) ∧
    0 < 1 - Real.exp (-2 * xs[i]) ∧ 0 < Real.exp (-2 * xs[i]) * (xs[i] + 1) + xs[i] - 1 := by
  obtain ⟨s, g, rfl, hs, hg⟩ := hs
  have hpos : 0 < (s ++ g)[i] := lt_of_lt_of_le (by norm_num) hxi
  obtain ⟨xl, hxl⟩ : ∃ xl, (s ++ g).getLast? = some xl := by
    cases hq : (s ++ g).getLast? with
    | none => rw [List.getLast?_eq_none_iff] at hq; rw [hq] at hi; simp at hi
    | some xl => exact ⟨xl, rfl⟩
  rw [lniknu_maps hxl n _ _ (i01_smallFirst hs hg)] at h
  cases h
  refine ⟨⟨_, at2_map hi (Nat.zero_le _), ?_⟩, fun hn => ⟨_, at2_map hi hn, ?_⟩, (i0lg_eq hpos).1, (i1lg_eq hpos).1⟩
  · rw [ordI, ord0, if_neg (not_lt.mpr hxi), (i0lg_eq hpos).2, Real.exp_log (sphI_pos 0 hpos), sphI_zero hpos.ne']
  · rw [ordI, ord1, if_neg (not_lt.mpr hxi), (i1lg_eq hpos).2, Real.exp_log (sphI_pos 1 hpos), sphI_one hpos.ne']

/-- C36: the second result of `lniknu` consists of the logarithms of `k_0 … k_lmax`, for every array. -/
theorem C36_k (xs : List ℝ) (hx : ∀ x ∈ xs, 0 < x) (hne : xs ≠ []) (n : ℕ) :
    ∃ li lk, lniknu xs (.int n) = .ok (li, lk) ∧ Shape lk xs.length (n + 1) ∧
      ∀ (i l : ℕ) (hi : i < xs.length), l ≤ n → ∃ v, at2 lk i l = some v ∧ Real.exp v = sphK l xs[i] := by
  refine ⟨_, _, lniknu_ok (List.getLast?_eq_some_getLast hne) n, shape_map _ _ _, ?_⟩
  intro i l hi hl
  exact ⟨_, at2_map hi hl, exp_lnk1 (hx _ (List.getElem_mem hi)) l⟩

/-! ## C37 -/

theorem pow_small {y : ℝ} (h0 : 0 ≤ y) (h1 : y ≤ 1e-6) (n : ℕ) : 0 ≤ y ^ (n + 1) ∧ y ^ (n + 1) ≤ 1e-6 := by
  refine ⟨by positivity, ?_⟩
  have : y ^ n ≤ 1 := pow_le_one₀ h0 (by norm_num at h1 ⊢; linarith)
  calc y ^ (n + 1) = y ^ n * y := pow_succ y n
    _ ≤ 1 * y := by gcongr
    _ ≤ 1e-6 := by linarith

theorem mono_small {y s : ℝ} (h0 : 0 ≤ y) (h1 : y ≤ 1e-6) (s0 : 0 ≤ s) (s1 : s ≤ 1) (n j : ℕ) :
    0 ≤ y ^ (n + 1) * s ^ j ∧ y ^ (n + 1) * s ^ j ≤ 1 / 1000000 := by
  have h2 := pow_small h0 h1 n
  have h3 : s ^ j ≤ 1 := pow_le_one₀ s0 s1
  have h4 : 0 ≤ s ^ j := by positivity
  refine ⟨mul_nonneg h2.1 h4, ?_⟩
  calc y ^ (n + 1) * s ^ j ≤ y ^ (n + 1) * 1 := mul_le_mul_of_nonneg_left h3 h2.1
    _ ≤ 1 / 1000000 := by have := h2.2; norm_num at this ⊢; linarith

theorem sq_small {x : ℝ} (hx : 0 < x) (hx1 : x < 1e-3) : x ^ 2 ≤ 1e-6 := by
  have := mul_self_le_mul_self hx.le hx1.le
  norm_num at this ⊢; nlinarith

theorem i0_small {x : ℝ} (hx : 0 < x) (hx1 : x < 1e-3) :
    |i0smLong x - Real.log (sphI 0 x)| ≤ x ^ 8 / 500 ∧ |i0smShort x - Real.log (sphI 0 x)| ≤ x ^ 6 / 2000 := by
  obtain ⟨s, s0, s1, hs⟩ := sphI0_small hx hx1
  have hy : (0 : ℝ) ≤ x ^ 2 := by positivity
  have hy1 : x ^ 2 ≤ 1e-6 := sq_small hx hx1
  set u := x ^ 2 / 6 + x ^ 4 / 120 + x ^ 6 / 5040 + s * x ^ 8 with hu
  have hlongx : i0smLong x = x ^ 2 / 6 - (x ^ 2) ^ 2 / 180 + (x ^ 2) ^ 3 / 2835 := by unfold i0smLong; ring
  have hshort : i0smShort x = i0smLong x - (x ^ 2) ^ 3 / 2835 := by unfold i0smLong i0smShort; ring
  have hu2 : u = x ^ 2 / 6 + (x ^ 2) ^ 2 / 120 + (x ^ 2) ^ 3 / 5040 + s * (x ^ 2) ^ 4 := by rw [hu]; ring
  rw [show x ^ 8 = (x ^ 2) ^ 4 by ring, show x ^ 6 = (x ^ 2) ^ 3 by ring, hshort, hs, hlongx]
  clear_value u
  clear hs hu hshort hlongx
  generalize x ^ 2 = y at *
  have s1' : s ≤ 1 := by linarith
  have m := mono_small hy hy1 s0 s1'
  have hw0 : 0 ≤ 1 / 6 + y / 120 + y ^ 2 / 5040 + s * y ^ 3 := by positivity
  have hw1 : 1 / 6 + y / 120 + y ^ 2 / 5040 + s * y ^ 3 ≤ 17 / 100 := by
    have a1 := (m 0 0).2; have a2 := (m 1 0).2; have a3 := (m 2 1).2
    norm_num at a1 a2 a3; linarith
  have hu3 : u = y * (1 / 6 + y / 120 + y ^ 2 / 5040 + s * y ^ 3) := by rw [hu2]; ring
  have u0 : 0 ≤ u := by rw [hu3]; positivity
  have u17 : u ≤ y * (17 / 100) := by rw [hu3]; exact mul_le_mul_of_nonneg_left hw1 hy
  have u1 : u ≤ 1 / 100 := by norm_num at hy1; linarith
  obtain ⟨-, hlog⟩ := log_one_add_bound u0 u1
  have u4 : u ^ 4 ≤ (y * (17 / 100)) ^ 4 := pow_le_pow_left₀ u0 u17 4
  have hy4 : 0 ≤ y ^ 4 := by positivity
  have hpoly : |(y / 6 - y ^ 2 / 180 + y ^ 3 / 2835) - (u - u ^ 2 / 2 + u ^ 3 / 3)| ≤ y ^ 4 * (1 / 5000) := by
    have e : (y / 6 - y ^ 2 / 180 + y ^ 3 / 2835) - (u - u ^ 2 / 2 + u ^ 3 / 3) = y ^ 4 *
        (-11 / 67200 - s - 1 / 64800 * (y ^ 1 * s ^ 0) + 1 / 6 * (y ^ 1 * s ^ 1) - 23 / 31752000 * (y ^ 2 * s ^ 0)
          - 7 / 360 * (y ^ 2 * s ^ 1) - 31 / 1524096000 * (y ^ 3 * s ^ 0) - 13 / 5040 * (y ^ 3 * s ^ 1)
          - 1 / 3048192000 * (y ^ 4 * s ^ 0) - 41 / 302400 * (y ^ 4 * s ^ 1) + 1 / 2 * (y ^ 4 * s ^ 2)
          - 1 / 384072192000 * (y ^ 5 * s ^ 0) - 1 / 302400 * (y ^ 5 * s ^ 1) - 1 / 6 * (y ^ 5 * s ^ 2)
          - 1 / 25401600 * (y ^ 6 * s ^ 1) - 1 / 120 * (y ^ 6 * s ^ 2) - 1 / 5040 * (y ^ 7 * s ^ 2)
          - 1 / 3 * (y ^ 8 * s ^ 3)) := by rw [hu2]; ring
    rw [e, abs_mul, abs_of_nonneg hy4]
    refine mul_le_mul_of_nonneg_left ?_ hy4
    rw [abs_le]
    have a1 := m 0 0; have a2 := m 0 1; have a3 := m 1 0; have a4 := m 1 1; have a5 := m 2 0; have a6 := m 2 1
    have a7 := m 3 0; have a8 := m 3 1; have a9 := m 3 2; have b1 := m 4 0; have b2 := m 4 1; have b3 := m 4 2
    have b4 := m 5 1; have b5 := m 5 2; have b6 := m 6 2; have b7 := m 7 3
    simp only [Nat.zero_add, Nat.reduceAdd] at a1 a2 a3 a4 a5 a6 a7 a8 a9 b1 b2 b3 b4 b5 b6 b7
    constructor <;> linarith [a1.1, a1.2, a2.1, a2.2, a3.1, a3.2, a4.1, a4.2, a5.1, a5.2, a6.1, a6.2, a7.1, a7.2, a8.1,
      a8.2, a9.1, a9.2, b1.1, b1.2, b2.1, b2.2, b3.1, b3.2, b4.1, b4.2, b5.1, b5.2, b6.1, b6.2, b7.1, b7.2]
  have hlong : |(y / 6 - y ^ 2 / 180 + y ^ 3 / 2835) - Real.log (1 + u)| ≤ y ^ 4 / 500 := by
    rw [abs_le] at hpoly hlog ⊢
    constructor <;> nlinarith [hpoly.1, hpoly.2, hlog.1, hlog.2]
  refine ⟨hlong, ?_⟩
  have hy3 : 0 ≤ y ^ 3 := by positivity
  have : y ^ 4 ≤ y ^ 3 * (1 / 1000000) := by
    rw [pow_succ]; exact mul_le_mul_of_nonneg_left (by norm_num at hy1; linarith) hy3
  rw [abs_le] at hlong ⊢
  constructor <;> linarith [hlong.1, hlong.2]

theorem i1_small {x : ℝ} (hx : 0 < x) (hx1 : x < 1e-3) :
    |i1smLong x - Real.log (sphI 1 x)| ≤ x ^ 6 / 500 ∧ |i1smShort x - Real.log (sphI 1 x)| ≤ x ^ 4 / 600 := by
  obtain ⟨s, s0, s1, hs⟩ := sphI1_small hx hx1
  have hy : (0 : ℝ) ≤ x ^ 2 := by positivity
  have hy1 : x ^ 2 ≤ 1e-6 := sq_small hx hx1
  set u := x ^ 2 / 10 + x ^ 4 / 280 + s * x ^ 6 with hu
  have hu0 : 0 ≤ u := by rw [hu]; positivity
  have hlog3 : Real.log (sphI 1 x) = -Real.log 3 + Real.log x + Real.log (1 + u) := by
    rw [hs, Real.log_mul (by positivity) (by positivity), Real.log_div hx.ne' (by norm_num)]; ring
  have hlongx : i1smLong x - Real.log (sphI 1 x) = (x ^ 2 / 10 - (x ^ 2) ^ 2 / 700) - Real.log (1 + u) := by
    rw [hlog3]; unfold i1smLong; ring
  have hshort : i1smShort x - Real.log (sphI 1 x) =
      ((x ^ 2 / 10 - (x ^ 2) ^ 2 / 700) - Real.log (1 + u)) + (x ^ 2) ^ 2 / 700 := by
    rw [hlog3]; unfold i1smShort; ring
  have hu2 : u = x ^ 2 / 10 + (x ^ 2) ^ 2 / 280 + s * (x ^ 2) ^ 3 := by rw [hu]; ring
  rw [show x ^ 6 = (x ^ 2) ^ 3 by ring, show x ^ 4 = (x ^ 2) ^ 2 by ring, hshort, hlongx]
  clear_value u
  clear hs hu hshort hlongx hlog3
  generalize x ^ 2 = y at *
  have s1' : s ≤ 1 := by linarith
  have m := mono_small hy hy1 s0 s1'
  have hw1 : 1 / 10 + y / 280 + s * y ^ 2 ≤ 101 / 1000 := by
    have a1 := (m 0 0).2; have a2 := (m 1 1).2
    norm_num at a1 a2; linarith
  have hu3 : u = y * (1 / 10 + y / 280 + s * y ^ 2) := by rw [hu2]; ring
  have u17 : u ≤ y * (101 / 1000) := by rw [hu3]; exact mul_le_mul_of_nonneg_left hw1 hy
  have u1 : u ≤ 1 / 100 := by norm_num at hy1; linarith
  obtain ⟨hlog, -⟩ := log_one_add_bound hu0 u1
  have u4 : u ^ 3 ≤ (y * (101 / 1000)) ^ 3 := pow_le_pow_left₀ hu0 u17 3
  have hy3 : 0 ≤ y ^ 3 := by positivity
  have hpoly : |(y / 10 - y ^ 2 / 700) - (u - u ^ 2 / 2)| ≤ y ^ 3 * (1 / 2000) := by
    have e : (y / 10 - y ^ 2 / 700) - (u - u ^ 2 / 2) = y ^ 3 *
        (1 / 2800 - s + 1 / 156800 * (y ^ 1 * s ^ 0) + 1 / 10 * (y ^ 1 * s ^ 1) + 1 / 280 * (y ^ 2 * s ^ 1)
          + 1 / 2 * (y ^ 3 * s ^ 2)) := by rw [hu2]; ring
    rw [e, abs_mul, abs_of_nonneg hy3]
    refine mul_le_mul_of_nonneg_left ?_ hy3
    rw [abs_le]
    have a1 := m 0 0; have a2 := m 0 1; have a4 := m 1 1; have a6 := m 2 2
    simp only [Nat.zero_add, Nat.reduceAdd] at a1 a2 a4 a6
    constructor <;> linarith [a1.1, a1.2, a2.1, a2.2, a4.1, a4.2, a6.1, a6.2]
  have hlong : |(y / 10 - y ^ 2 / 700) - Real.log (1 + u)| ≤ y ^ 3 / 500 := by
    rw [abs_le] at hpoly hlog ⊢
    constructor <;> nlinarith [hpoly.1, hpoly.2, hlog.1, hlog.2]
  refine ⟨hlong, ?_⟩
  have hy2 : 0 ≤ y ^ 2 := by positivity
  have : y ^ 3 ≤ y ^ 2 * (1 / 1000000) := by
    rw [pow_succ]; exact mul_le_mul_of_nonneg_left (by norm_num at hy1; linarith) hy2
  rw [abs_le] at hlong ⊢
  constructor <;> linarith [hlong.1, hlong.2]

/-- C37: accuracy of orders 0 and 1 for arguments below 1e-3 (arrays with the small arguments first). -/
theorem C37_small (xs : List ℝ) (hs : SmallFirst xs) (n : ℕ) (li lk : List (List ℝ))
    (h : lniknu xs (.int n) = .ok (li, lk)) (i : ℕ) (hi : i < xs.length) (hpos : 0 < xs[i]) (hxi : xs[i] < 1e-3) :
    (∃ v, at2 li i 0 = some v ∧ |v - Real.log (Real.sinh xs[i] / xs[i])| ≤ xs[i] ^ 6 / 2000) ∧
    (1 ≤ n → ∃ v, at2 li i 1 = some v ∧
      |v - Real.log ((xs[i] * Real.cosh xs[i] - Real.sinh xs[i]) / xs[i] ^ 2)| ≤ xs[i] ^ 4 / 600) := by
  obtain ⟨s, g, rfl, hs, hg⟩ := hs
  obtain ⟨xl, hxl⟩ : ∃ xl, (s ++ g).getLast? = some xl := by
    cases hq : (s ++ g).getLast? with
    | none => rw [List.getLast?_eq_none_iff] at hq; rw [hq] at hi; simp at hi
    | some xl => exact ⟨xl, rfl⟩
  rw [lniknu_maps hxl n _ _ (i01_smallFirst hs hg)] at h
  cases h
  rw [← sphI_zero hpos.ne', ← sphI_one hpos.ne']
  obtain ⟨a1, a2⟩ := i0_small hpos hxi
  obtain ⟨b1, b2⟩ := i1_small hpos hxi
  have hy1 := sq_small hpos hxi
  generalize hx : (s ++ g)[i] = x at *
  norm_num at hy1
  refine ⟨⟨_, at2_map hi (Nat.zero_le _), ?_⟩, fun hn => ⟨_, at2_map hi hn, ?_⟩⟩
  · rw [hx, ordI, ord0, if_pos hxi]
    split_ifs
    · refine a1.trans ?_
      have : 0 ≤ x ^ 6 := by positivity
      rw [show x ^ 8 = x ^ 6 * x ^ 2 by ring]
      nlinarith
    · exact a2
  · rw [hx, ordI, ord1, if_pos hxi]
    split_ifs
    · refine b1.trans ?_
      have : 0 ≤ x ^ 4 := by positivity
      rw [show x ^ 6 = x ^ 4 * x ^ 2 by ring]
      nlinarith
    · exact b2

/-- C37: the longer series used when larger arguments are present too. -/
theorem C37_mixed (s g : List ℝ) (hs : ∀ x ∈ s, x < 1e-3) (hg : ∀ x ∈ g, 1e-3 ≤ x) (hne : g ≠ []) (n : ℕ)
    (li lk : List (List ℝ)) (h : lniknu (s ++ g) (.int n) = .ok (li, lk)) (i : ℕ) (hi : i < (s ++ g).length)
    (hpos : 0 < (s ++ g)[i]) (hxi : (s ++ g)[i] < 1e-3) :
    (∃ v, at2 li i 0 = some v ∧ |v - Real.log (Real.sinh (s ++ g)[i] / (s ++ g)[i])| ≤ (s ++ g)[i] ^ 8 / 500) ∧
    (1 ≤ n → ∃ v, at2 li i 1 = some v ∧
      |v - Real.log (((s ++ g)[i] * Real.cosh (s ++ g)[i] - Real.sinh (s ++ g)[i]) / (s ++ g)[i] ^ 2)| ≤
        (s ++ g)[i] ^ 6 / 500) := by
  obtain ⟨xl, hxl⟩ : ∃ xl, (s ++ g).getLast? = some xl := by
    cases hq : (s ++ g).getLast? with
    | none => rw [List.getLast?_eq_none_iff] at hq; rw [hq] at hi; simp at hi
    | some xl => exact ⟨xl, rfl⟩
  rw [lniknu_maps hxl n _ _ (i01_smallFirst hs hg)] at h
  cases h
  rw [← sphI_zero hpos.ne', ← sphI_one hpos.ne']
  have hg' : (!g.isEmpty) = true := by simpa using hne
  refine ⟨⟨_, at2_map hi (Nat.zero_le _), ?_⟩, fun hn => ⟨_, at2_map hi hn, ?_⟩⟩
  · rw [ordI, ord0, if_pos hxi, hg']
    exact (i0_small hpos hxi).1
  · rw [ordI, ord1, if_pos hxi, hg']
    exact (i1_small hpos hxi).1

example : SmallFirst [0.0001, 0.0005, 0.2, 7] :=
  ⟨[0.0001, 0.0005], [0.2, 7], rfl, by intro x hx; simp at hx; rcases hx with rfl | rfl <;> norm_num,
    by intro x hx; simp at hx; rcases hx with rfl | rfl <;> norm_num⟩

/-! ## C38, C39 -/

theorem fnuTerms_even (x : ℝ) : ∃ M, fnuTerms x = 2 * (M + 1) ∧ (M = 39 ∨ M = 69) := by
  unfold fnuTerms
  split_ifs
  · exact ⟨69, rfl, Or.inr rfl⟩
  · exact ⟨39, rfl, Or.inl rfl⟩

theorem fnu1_bounds (l : ℕ) {x : ℝ} (hx : 0 < x) (M : ℕ) :
    sphI l x / sphI (l + 1) x < fnu1 (2 * (M + 1)) x (l + 0.5) ∧
    fnu1 (2 * (M + 1)) x (l + 0.5) ≤ sphI l x / sphI (l + 1) x +
      1 / ((∏ j ∈ Finset.Icc 2 (2 * (M + 1)), ((2 * l + 1 + 2 * j) / x) ^ 2) * ((2 * l + 1 + 2 * (2 * (M + 1) + 1 : ℕ)) / x)) := by
  have h := cf_error l hx (2 * M + 1) 0
  have e : (-1 : ℝ) ^ (2 * M + 1 + 1) = 1 := by
    rw [show 2 * M + 1 + 1 = 2 * (M + 1) by ring, pow_mul]; norm_num
  rw [e, one_mul, show 2 * M + 1 + 1 = 2 * (M + 1) by ring, ← fnu1_eq, cfT] at h
  simp only [Nat.add_zero, Nat.zero_add] at h
  refine ⟨by linarith [h.1], ?_⟩
  have hp : ∏ j ∈ Finset.range (2 * M + 1), cfA l x (j + 2) ^ 2 =
      ∏ j ∈ Finset.Icc 2 (2 * (M + 1)), ((2 * (l : ℝ) + 1 + 2 * j) / x) ^ 2 := by
    rw [Finset.range_eq_Ico, Finset.prod_Ico_add' (fun j => cfA l x j ^ 2) 0 (2 * M + 1) 2]
    rfl
  rw [hp] at h
  have h2 := h.2
  rw [show 2 * M + 1 + 2 = 2 * (M + 1) + 1 by ring] at h2
  unfold cfA at h2
  linarith

/-- C38: `fnu` overestimates the ratio `i_l/i_{l+1}`, by at most the reciprocal of the product of the squared partial
denominators. -/
theorem C38_fnu (xs : List ℝ) (hx : ∀ x ∈ xs, 0 < x) (l : ℕ) (fs : List ℝ) (h : fnu xs ((l : ℝ) + 0.5) = .ok fs) :
    fs.length = xs.length ∧ ∃ N : ℕ, (N = 80 ∨ N = 140) ∧ ∀ (i : ℕ) (hi : i < xs.length), ∃ f, fs[i]? = some f ∧
      sphI l xs[i] / sphI (l + 1) xs[i] < f ∧
      f ≤ sphI l xs[i] / sphI (l + 1) xs[i] +
        1 / ((∏ j ∈ Finset.Icc 2 N, ((2 * (l : ℝ) + 1 + 2 * j) / xs[i]) ^ 2) * ((2 * l + 1 + 2 * (N + 1 : ℕ)) / xs[i])) := by
  unfold fnu at h
  split at h
  · cases h
  · rename_i xl hxl
    cases h
    obtain ⟨M, hM, hM'⟩ := fnuTerms_even xl
    refine ⟨by simp, fnuTerms xl, ?_, ?_⟩
    · rw [hM]; rcases hM' with rfl | rfl <;> simp
    · intro i hi
      refine ⟨_, by rw [List.getElem?_map, List.getElem?_eq_getElem hi]; rfl, ?_⟩
      rw [hM]
      exact fnu1_bounds l (hx _ (List.getElem_mem hi)) M

/-- C38: truncations with an odd number of terms underestimate the ratio (so the two bracket it). -/
theorem C38_bracket (l M : ℕ) (x : ℝ) (hx : 0 < x) :
    fnu1 (2 * M + 1) x (l + 0.5) < sphI l x / sphI (l + 1) x ∧ sphI l x / sphI (l + 1) x < fnu1 (2 * M + 2) x (l + 0.5) := by
  refine ⟨?_, (fnu1_bounds l hx M).1⟩
  have h := (cf_error l hx (2 * M) 0).1
  rw [pow_succ, pow_mul] at h
  norm_num [cfT, ← fnu1_eq] at h
  norm_num
  linarith

/-- C38: `fnu` raises exactly for the empty array. -/
theorem C38_raises (xs : List ℝ) (nu : ℝ) : (∃ e, fnu xs nu = .error e) ↔ xs = [] := by
  unfold fnu
  cases xs with
  | nil => simp
  | cons a t =>
    rw [List.getLast?_cons]; simp

theorem i01_length (xs : List ℝ) : (i01 xs).1.length = xs.length ∧ (i01 xs).2.length = xs.length := by
  classical
  have h : (xs.filter (fun x => @decide (x < (1e-3 : ℝ)) (Classical.propDecidable _))).length +
      (xs.filter (fun x => @decide (x ≥ (1e-3 : ℝ)) (Classical.propDecidable _))).length = xs.length := by
    induction xs with
    | nil => rfl
    | cons a t ih =>
      simp only [List.filter_cons, List.length_cons]
      by_cases ha : a < 1e-3
      · have h2 : ¬ a ≥ 1e-3 := not_le.mpr ha
        simp only [ha, h2, decide_true, decide_false, if_true, List.length_cons]
        simp only [Bool.false_eq_true, if_false]
        omega
      · have h2 : a ≥ 1e-3 := not_lt.mp ha
        simp only [ha, h2, decide_true, decide_false, if_true, List.length_cons]
        simp only [Bool.false_eq_true, if_false]
        omega
  unfold i01
  simp only
  split_ifs with h1 h2
  · simp only [List.length_append, List.length_map]; exact ⟨h, h⟩
  · simp only [List.length_map]; omega
  · simp only [List.length_map]
    push Not at h1
    have : (xs.filter (fun x => @decide (x < (1e-3 : ℝ)) (Classical.propDecidable _))).length = 0 := by
      by_contra hc; exact h2 (h1 hc)
    omega

theorem lniknu_shape {xs : List ℝ} {n : ℕ} {li lk : List (List ℝ)} (h : lniknu xs (.int n) = .ok (li, lk))
    (hne : xs ≠ []) : Shape li xs.length (n + 1) := by
  rw [lniknu_ok (List.getLast?_eq_some_getLast hne)] at h
  cases h
  have hl := i01_length xs
  refine ⟨by simp [hl.1, hl.2], ?_⟩
  intro r hr
  rw [List.mem_iff_getElem] at hr
  obtain ⟨i, hi, rfl⟩ := hr
  simp [lniRow]

theorem lniknu_high {xs : List ℝ} {xl : ℝ} (hxl : xs.getLast? = some xl) {n : ℕ} {li lk : List (List ℝ)}
    (h : lniknu xs (.int n) = .ok (li, lk)) {i l : ℕ} (hi : i < xs.length) (hl : l + 2 ≤ n) :
    at2 li i (l + 2) = some (iHigh (fnuTerms xl) xs[i] (l + 2)) := by
  rw [lniknu_ok hxl] at h
  cases h
  have hlen := i01_length xs
  unfold at2
  rw [List.getElem?_eq_getElem (by simp [hlen.1, hlen.2, hi])]
  simp [lniRow, List.getElem?_range (show l + 2 < n + 1 by omega)]

/-- C39: order `l ≥ 2` of `lniknu`, for every array: `f` is the value that `fnu` returns for the same array; the
result overestimates `i_l` by a relative error below `(f - f_true)/f_true`, and would be exact for the exact `f`. -/
theorem C39_orders (xs : List ℝ) (hx : ∀ x ∈ xs, 0 < x) (n : ℕ) (li lk : List (List ℝ))
    (h : lniknu xs (.int n) = .ok (li, lk)) (i l : ℕ) (hi : i < xs.length) (h2 : 2 ≤ l) (hl : l ≤ n) :
    ∃ fs f v, fnu xs ((l : ℝ) + 0.5) = .ok fs ∧ fs[i]? = some f ∧ at2 li i l = some v ∧
      Real.exp v * (sphK (l + 1) xs[i] + sphK l xs[i] / f) = Real.pi / (2 * xs[i] ^ 2) ∧
      sphI l xs[i] * (sphK (l + 1) xs[i] + sphK l xs[i] / (sphI l xs[i] / sphI (l + 1) xs[i])) =
        Real.pi / (2 * xs[i] ^ 2) ∧
      sphI l xs[i] < Real.exp v ∧
      Real.exp v ≤ sphI l xs[i] * (1 + (f - sphI l xs[i] / sphI (l + 1) xs[i]) / (sphI l xs[i] / sphI (l + 1) xs[i])) := by
  have hne : xs ≠ [] := by rintro rfl; simp at hi
  have hxl := List.getLast?_eq_some_getLast hne
  obtain ⟨l, rfl⟩ := Nat.exists_eq_add_of_le' h2
  have hpos := hx _ (List.getElem_mem hi)
  refine ⟨xs.map fun x => fnu1 (fnuTerms (xs.getLast hne)) x ((l + 2 : ℕ) + 0.5), _, _, by unfold fnu; rw [hxl],
    by rw [List.getElem?_map, List.getElem?_eq_getElem hi]; rfl, lniknu_high hxl h hi hl, ?_⟩
  obtain ⟨M, hM, -⟩ := fnuTerms_even (xs.getLast hne)
  have hb := (fnu1_bounds (l + 2) hpos M).1
  rw [← hM] at hb
  generalize xs[i] = x at *
  set f := fnu1 (fnuTerms (xs.getLast hne)) x ((l + 2 : ℕ) + 0.5) with hf
  have hi1 := sphI_pos (l + 2) hpos
  have hi2 := sphI_pos (l + 2 + 1) hpos
  have hk1 := sphK_pos (l + 2) hpos
  have hk2 := sphK_pos (l + 2 + 1) hpos
  have hT : 0 < sphI (l + 2) x / sphI (l + 2 + 1) x := div_pos hi1 hi2
  have hf0 : 0 < f := hT.trans hb
  have hpi := Real.pi_pos
  have hv : Real.exp (iHigh (fnuTerms (xs.getLast hne)) x (l + 2)) =
      Real.pi / (2 * x ^ 2) / (sphK (l + 2 + 1) x + sphK (l + 2) x / f) := by
    unfold iHigh
    rw [← hf, Real.exp_sub, Real.exp_sub, Real.exp_log (by positivity), exp_lnk1 hpos, Real.exp_sub, exp_lnk1 hpos,
      exp_lnk1 hpos, Real.exp_log (by positivity)]
    field_simp
    ring
  have hw := wronskian (l + 2) hpos.ne'
  have hw' : sphI (l + 2) x * (sphK (l + 2 + 1) x + sphK (l + 2) x / (sphI (l + 2) x / sphI (l + 2 + 1) x)) =
        Real.pi / (2 * x ^ 2) := by
    rw [← hw]; field_simp
  have hden : 0 < sphK (l + 2 + 1) x + sphK (l + 2) x / f := by positivity
  refine ⟨by rw [hv, div_mul_cancel₀ _ hden.ne'], hw', ?_, ?_⟩
  · rw [hv, lt_div_iff₀ hden, ← hw']
    refine mul_lt_mul_of_pos_left ?_ hi1
    have : sphK (l + 2) x / f < sphK (l + 2) x / (sphI (l + 2) x / sphI (l + 2 + 1) x) :=
      div_lt_div_of_pos_left hk1 hT hb
    linarith
  · generalize sphI (l + 2) x / sphI (l + 2 + 1) x = T at *
    rw [hv, div_le_iff₀ hden, ← hw', mul_assoc]
    refine mul_le_mul_of_nonneg_left ?_ hi1.le
    have e : (1 + (f - T) / T) * (sphK (l + 2 + 1) x + sphK (l + 2) x / f) =
        f / T * sphK (l + 2 + 1) x + sphK (l + 2) x / T := by
      field_simp; ring
    rw [e]
    have : 1 ≤ f / T := by rw [one_le_div hT]; exact hb.le
    nlinarith

/-! ## C40 -/

/-- C40 refuted: the order of the arguments matters. -/
theorem C40_refuted : ∃ (xs : List ℝ) (i l n : ℕ) (hi : i < xs.length) (li lk li' lk' : List (List ℝ)),
    (∀ x ∈ xs, 0 < x) ∧ l ≤ n ∧
    lniknu xs (.int n) = .ok (li, lk) ∧ lniknu [xs[i]] (.int n) = .ok (li', lk') ∧ at2 li i l ≠ at2 li' 0 l := by
  refine ⟨[1, 1 / 2000], 0, 0, 0, by simp, _, _, _, _, ?_, le_rfl, lniknu_ok (xl := 1 / 2000) rfl 0,
    lniknu_ok (xl := 1) rfl 0, ?_⟩
  · intro x hx; simp at hx; rcases hx with rfl | rfl <;> norm_num
  · have h1 : i01 [1, 1 / 2000] = ([i0smLong (1 / 2000), i0lg 1], [i1smLong (1 / 2000), i1lg 1]) := by
      unfold i01; norm_num
    have h2 : i01 [(1 : ℝ)] = ([i0lg 1], [i1lg 1]) := by
      unfold i01; norm_num
    simp only [List.getElem_cons_zero]
    rw [h1, h2]
    simp only [at2, lniRow, List.zip_cons_cons, List.zipWith_cons_cons]
    simp
    intro he
    have e1 := (i0lg_eq (x := 1) one_pos).2
    rw [sphI_zero one_ne_zero] at e1
    rw [← he, div_one] at e1
    -- sinh 1 > 1 + 1/6, so its logarithm exceeds the small-argument series at 1/2000
    have hs : (1 : ℝ) + 1 / 10 < Real.sinh 1 := by
      have h := sum_le_hasSum (Finset.range 2) (fun n _ => by positivity) (Real.hasSum_sinh 1)
      norm_num [Finset.sum_range_succ, Nat.factorial] at h ⊢
      linarith
    have hl : Real.log (Real.sinh 1) ≥ 1 / 11 := by
      have h7 := Real.one_sub_inv_le_log_of_pos (x := Real.sinh 1) (by linarith)
      have h8 : (Real.sinh 1)⁻¹ ≤ 10 / 11 := by
        rw [inv_le_comm₀ (by linarith) (by norm_num)]
        norm_num at hs ⊢; linarith
      linarith
    rw [← e1] at hl
    unfold i0smLong at hl
    norm_num at hl

/-- C40 refuted: for small arguments the series length depends on the other arguments. -/
theorem C40_refuted_series (x : ℝ) (hx : 0 < x) (hx1 : x < 1e-3) (y : ℝ) (hy : 1e-3 ≤ y) :
    ∃ li lk li' lk', lniknu [x, y] (.int 0) = .ok (li, lk) ∧ lniknu [x] (.int 0) = .ok (li', lk') ∧
      at2 li 0 0 ≠ at2 li' 0 0 := by
  have a := i01_smallFirst (s := [x]) (g := [y]) (by simpa using hx1) (by simpa using hy)
  have b := i01_smallFirst (s := [x]) (g := []) (by simpa using hx1) (by simp)
  simp only [List.append_nil] at b
  refine ⟨_, _, _, _, lniknu_maps (xs := [x, y]) (xl := y) rfl 0 _ _ a, lniknu_maps (xs := [x]) (xl := x) rfl 0 _ _ b, ?_⟩
  simp only [at2]
  simp [ordI, ord0, hx1, i0smLong, i0smShort, hx.ne']

theorem getLast?_mem {xs : List ℝ} {xl : ℝ} (h : xs.getLast? = some xl) : xl ∈ xs := List.mem_of_getLast? h

/-- C40, the part that holds: if all arguments are at least 1e-3 and lie on the same side of 100, every order of every
element equals the value for the one-element array.  (Orders 0 and 1 do not need the condition at 100.) -/
theorem C40_elementwise_partial (xs : List ℝ) (n : ℕ) (hx : ∀ x ∈ xs, 1e-3 ≤ x) (i l : ℕ) (hi : i < xs.length) (hl : l ≤ n)
    (hside : l ≤ 1 ∨ (∀ x ∈ xs, x ≤ 100) ∨ (∀ x ∈ xs, 100 < x)) :
    ∃ li lk li' lk' v, lniknu xs (.int n) = .ok (li, lk) ∧ lniknu [xs[i]] (.int n) = .ok (li', lk') ∧
      at2 li i l = some v ∧ at2 li' 0 l = some v := by
  have hne : xs ≠ [] := by rintro rfl; simp at hi
  have hxl := List.getLast?_eq_some_getLast hne
  have hxi := hx _ (List.getElem_mem hi)
  have a := i01_smallFirst (s := []) (g := xs) (by simp) hx
  have b := i01_smallFirst (s := []) (g := [xs[i]]) (by simp) (by simpa using hxi)
  simp only [List.nil_append] at a b
  refine ⟨_, _, _, _, _, lniknu_maps hxl n _ _ a, lniknu_maps (xl := xs[i]) rfl n _ _ b, at2_map hi hl, ?_⟩
  rw [at2_map (xs := [xs[i]]) (by simp) hl]
  congr 1
  simp only [List.getElem_cons_zero]
  have hterms : 2 ≤ l → fnuTerms (xs.getLast hne) = fnuTerms xs[i] := by
    intro h2
    have hm : xs.getLast hne ∈ xs := List.getLast_mem hne
    unfold fnuTerms
    rcases hside with h | h | h
    · omega
    · rw [if_neg (not_lt.mpr (h _ hm)), if_neg (not_lt.mpr (h _ (List.getElem_mem hi)))]
    · rw [if_pos (h _ hm), if_pos (h _ (List.getElem_mem hi))]
  match l with
  | 0 => simp only [ordI, ord0, if_neg (not_lt.mpr hxi)]
  | 1 => simp only [ordI, ord1, if_neg (not_lt.mpr hxi)]
  | l + 2 => simp only [ordI, hterms (by omega)]

/-- C40: mixed arrays with the small arguments first – orders 0 and 1 of an element depend on that element only. -/
theorem C40_mixed_partial (s g s' g' : List ℝ) (n n' : ℕ) (hs : ∀ x ∈ s, x < 1e-3) (hg : ∀ x ∈ g, 1e-3 ≤ x)
    (hs' : ∀ x ∈ s', x < 1e-3) (hg' : ∀ x ∈ g', 1e-3 ≤ x) (hne : g ≠ []) (hne' : g' ≠ []) (i i' l : ℕ)
    (hi : i < (s ++ g).length) (hi' : i' < (s' ++ g').length) (hl : l ≤ 1) (hln : l ≤ n) (hln' : l ≤ n')
    (he : (s ++ g)[i] = (s' ++ g')[i']) :
    ∃ li lk li' lk' v, lniknu (s ++ g) (.int n) = .ok (li, lk) ∧ lniknu (s' ++ g') (.int n') = .ok (li', lk') ∧
      at2 li i l = some v ∧ at2 li' i' l = some v := by
  have e : (!g.isEmpty) = true := by simpa using hne
  have e' : (!g'.isEmpty) = true := by simpa using hne'
  refine ⟨_, _, _, _, _, lniknu_maps (List.getLast?_eq_some_getLast (by simp [hne])) n _ _ (i01_smallFirst hs hg),
    lniknu_maps (List.getLast?_eq_some_getLast (by simp [hne'])) n' _ _ (i01_smallFirst hs' hg'), at2_map hi hln, ?_⟩
  rw [at2_map hi' hln', he, e, e']
  match l with
  | 0 => rfl
  | 1 => rfl
  | l + 2 => omega

example : ∀ x ∈ [(3 : ℝ), 0.5, 99], 1e-3 ≤ x ∧ x ≤ 100 := by
  intro x hx; simp at hx; rcases hx with rfl | rfl | rfl <;> norm_num

/-! ## C41 -/

/-- C41: `mie_bessels` returns exactly the orders `lmin..lmax` of both functions. -/
theorem C41_mie (kr : List ℝ) (hne : kr ≠ []) (lmin lmax : ℕ) (h : lmin ≤ lmax) :
    ∃ li lk li' lk', lniknu kr (.int lmax) = .ok (li, lk) ∧ mieBessels kr lmin lmax = .ok (li', lk') ∧
      Shape li' kr.length (lmax - lmin + 1) ∧ Shape lk' kr.length (lmax - lmin + 1) ∧
      ∀ i j, at2 li' i j = at2 li i (lmin + j) ∧ at2 lk' i j = at2 lk i (lmin + j) := by
  obtain ⟨li, lk, hl⟩ : ∃ li lk, lniknu kr (.int lmax) = .ok (li, lk) :=
    ⟨_, _, lniknu_ok (List.getLast?_eq_some_getLast hne) lmax⟩
  refine ⟨li, lk, li.map (pyFrom lmin), lk.map (pyFrom lmin), hl, ?_, ?_, ?_, ?_⟩
  · unfold mieBessels
    rw [if_neg (by omega), hl]
  · obtain ⟨s1, s2⟩ := lniknu_shape hl hne
    refine ⟨by simp [s1], ?_⟩
    intro r hr
    obtain ⟨q, hq, rfl⟩ := List.mem_map.mp hr
    have := s2 q hq
    simp [pyFrom, this]; omega
  · rw [lniknu_ok (List.getLast?_eq_some_getLast hne)] at hl
    cases hl
    refine ⟨by simp, ?_⟩
    intro r hr
    obtain ⟨q, hq, rfl⟩ := List.mem_map.mp hr
    obtain ⟨x, _, rfl⟩ := List.mem_map.mp hq
    simp [pyFrom]; omega
  · intro i j
    have key : ∀ rows : List (List ℝ), at2 (rows.map (pyFrom lmin)) i j = at2 rows i (lmin + j) := by
      intro rows
      unfold at2
      rw [List.getElem?_map]
      cases rows[i]? <;> simp [pyFrom]
    exact ⟨key _, key _⟩

theorem C41_mie_raises (kr : List ℝ) (lmin lmax : ℤ) (h : lmax < lmin) : mieBessels kr lmin lmax = .error .valueError := by
  unfold mieBessels
  rw [if_pos h]

/-- C41: `trans_bessels` selects `k` for `ext_flag ≠ 0` and `i` for `ext_flag = 0`. -/
theorem C41_trans (kr : List ℝ) (lmax : LArg) (f : ℤ) :
    (f ≠ 0 → transBessels kr lmax f = lnknu kr lmax) ∧
    (f = 0 → transBessels kr lmax f = (lniknu kr lmax).map Prod.fst) := by
  unfold transBessels
  refine ⟨fun h => if_pos h, fun h => ?_⟩
  rw [if_neg (by simp [h])]
  cases lniknu kr lmax <;> rfl

example : (2 : ℕ) ≤ 5 ∧ [(1 : ℝ), 2] ≠ [] := by simp

end CasSph
