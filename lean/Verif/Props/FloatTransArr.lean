import Verif.Lemmas.FloatTransArr
import Verif.Lemmas.SensPair
import Verif.Props.FloatBlocks

/-! # C147: relative errors of the computed translation coefficients -/

namespace CasSph

open Spec

variable {A : FlZero} {u : ℝ}

/-- The logarithms of the Bessel functions, computed for an argument that is slightly wrong. -/
theorem lnk_near_err (hA : RelErrZ A u) {N : ℕ} (hN : 1 ≤ N) {x x' : ℝ} (hx : Near (4 * u) x' x) (hu : 32 * ((N : ℝ) + 1) * u ≤ 1) {p : ℕ} (hp : p ≤ N) :
    |A.lnk x' p - lnk1 x p| ≤ besErr u x N := by
  have u0 := hA.u0
  have x0 := hx.b0
  have x0' := hx.a0
  have N1 : (1 : ℝ) ≤ N := by exact_mod_cast hN
  have pN : (p : ℝ) ≤ N := by exact_mod_cast hp
  have un : u * N ≤ 1 / 32 := by nlinarith
  have u64 : u ≤ 1 / 64 := by nlinarith
  have w20 : 4 * u ≤ 1 / 20 := by linarith [hA.u1]
  have t := log_term_nonneg x0' N
  have e1 := hA.toRelErr.lnk_err x0' (le_add_of_nonneg_right t) (fun j hj => lnk_bound_mono x0' hj) hu p hp
  have e2 := logK_near p hx w20
  rw [← lnk1_eq x0', ← lnk1_eq x0] at e2
  have l1 : |Real.log x'| ≤ |Real.log x| + 4 * u := by
    have := abs_sub_abs_le_abs_sub (Real.log x') (Real.log x)
    linarith [hx.le]
  have l2 : x' ≤ 1.06 * x := by
    have := (abs_le.1 (hx.abs_sub w20)).2
    nlinarith
  have l3 := log_arg_near (c := 2 * (N : ℝ)) (by positivity) hx
  have l3' : (N : ℝ) * Real.log (1 + 2 * N / x') ≤ N * Real.log (1 + 2 * N / x) + 1 / 8 := by nlinarith
  have M : bSize x' + N * Real.log (1 + 2 * N / x') ≤ 4 + 1 / 4 + 2 * |Real.log x| + 1.06 * x + N * Real.log (1 + 2 * N / x) := by
    unfold bSize; linarith
  have M0 : 0 ≤ 4 + 1 / 4 + 2 * |Real.log x| + 1.06 * x + N * Real.log (1 + 2 * N / x) := by
    have := log_term_nonneg x0 N
    have := abs_nonneg (Real.log x)
    linarith
  have e3 : |A.lnk x' p - lnk1 x' p| ≤ 8 * (N + 1) * u * (4 + 1 / 4 + 2 * |Real.log x| + 1.06 * x + N * Real.log (1 + 2 * N / x)) := by
    refine e1.trans ?_
    calc 8 * ((p : ℝ) + 1) * u * (bSize x' + N * Real.log (1 + 2 * N / x')) ≤ 8 * (p + 1) * u * (4 + 1 / 4 + 2 * |Real.log x| + 1.06 * x + N * Real.log (1 + 2 * N / x)) :=
          mul_le_mul_of_nonneg_left M (by positivity)
      _ ≤ _ := mul_le_mul_of_nonneg_right (by gcongr) M0
  have e4 : |lnk1 x' p - lnk1 x p| ≤ 8 * (N + 1) * u * (1 / 2 + 0.53 * x) := by
    refine e2.trans ?_
    have a : ((p : ℝ) + 1 + 21 / 20 * x) * (4 * u) ≤ (N + 1 + 21 / 20 * x) * (4 * u) := by gcongr
    have b : 21 / 20 * x * (4 * u) ≤ (N + 1) * (1.05 * x * (4 * u)) := by
      have : 0 ≤ x * u := by positivity
      nlinarith
    have c : 0 ≤ (N + 1) * (x * u) := by positivity
    nlinarith
  have := abs_sub_le (A.lnk x' p) (lnk1 x' p) (lnk1 x p)
  unfold besErr
  have z : 0 ≤ 8 * ((N : ℝ) + 1) * u := by positivity
  have z2 : 0 ≤ 8 * ((N : ℝ) + 1) * u * (1 / 4 + 0.41 * x) := by positivity
  nlinarith

/-- One entry of the array. -/
theorem trans_elem (hA : RelErrZ A u) {sum : (p : ℕ) → (Fin p → ℝ) → ℝ} (hS : Sums A.toFlFun sum) (m : ℤ) {l1 l2 n : ℕ} (h1 : 1 ≤ l1) (h2 : 1 ≤ l2) (hn : l1 + l2 ≤ n)
    {x x' : ℝ} (hx : Near (4 * u) x' x) (hu : 32 * ((l1 + l2 : ℕ) + 1) * u ≤ 1) :
    ∃ g g' V V', gaunt l1 l2 m = .ok g ∧ A.gaunt l1 l2 m = .ok g' ∧ getVl1l2 true m x ((List.range (n + 1)).map (lnk1 x)) l1 l2 = .ok V ∧
      A.getVl1l2 sum true m x' ((List.range (n + 1)).map (A.lnk x')) g' l1 l2 = .ok V' ∧ |V'.sk - V.sk| ≤ besErr u x (l1 + l2) ∧
      |V'.EEab * Real.exp V'.sk - V.EEab * Real.exp V.sk| ≤ transErrAt u x l1 l2 m *
        transSize true m ((List.range (n + 1)).map (lnk1 x)) (gauntSize l1 l2 m (g.getD (min l1 l2) 0)) l1 l2 (weightEE l1 l2) ∧
      |V'.EEba * Real.exp V'.sk - V.EEba * Real.exp V.sk| ≤ transErrAt u x l1 l2 m *
        transSize true m ((List.range (n + 1)).map (lnk1 x)) (gauntSize l1 l2 m (g.getD (min l1 l2) 0)) l1 l2 (weightEE l1 l2) ∧
      |V'.EMab * Real.exp V'.sk - V.EMab * Real.exp V.sk| ≤ transErrAt u x l1 l2 m *
        transSize true m ((List.range (n + 1)).map (lnk1 x)) (gauntSize l1 l2 m (g.getD (min l1 l2) 0)) l1 l2 (weightEM m x) ∧
      |V'.EMba * Real.exp V'.sk - V.EMba * Real.exp V.sk| ≤ transErrAt u x l1 l2 m *
        transSize true m ((List.range (n + 1)).map (lnk1 x)) (gauntSize l1 l2 m (g.getD (min l1 l2) 0)) l1 l2 (weightEM m x) := by
  have u0 := hA.u0
  have x0 := hx.b0
  have e : ∀ p ≤ l1 + l2, |A.lnk x' p - lnk1 x p| ≤ besErr u x (l1 + l2) := fun p hp => lnk_near_err hA (by omega) hx hu hp
  obtain ⟨g, g', a, b, -, c, d⟩ := C146_gaunt hA l1 l2 m
  have hν : |x' - x| ≤ 5 * u * |x| := by
    have := hx.abs_sub (by linarith [hA.u1])
    rw [abs_of_pos x0]
    nlinarith
  obtain ⟨V, V', q1, q2, q3, q4⟩ := C145_translation hA.toRelErrM hS true m h1 h2 (nL := x) (nL' := x') (ν := 5 * u)
    (bes := (List.range (n + 1)).map (lnk1 x)) (bes' := (List.range (n + 1)).map (A.lnk x')) (δ := besErr u x (l1 + l2))
    (W := 2 * besErr u x (l1 + l2) + (l1 + l2 : ℕ) * Real.log (1 + 2 * (l1 + l2 : ℕ) / x)) (by simp; omega) (by simp; omega)
    (fun p hp => by rw [getD_row _ (hp.trans hn), getD_row _ (hp.trans hn)]; exact e p hp)
    (fun p hp => by
      rw [if_pos rfl, getD_row _ (hp.trans hn), getD_row _ hn]
      obtain ⟨d1, d2⟩ := lnk1_diff x0 hp
      have a1 := abs_le.mp (e p hp)
      have a2 := abs_le.mp (e _ le_rfl)
      rw [abs_le]
      constructor <;> linarith)
    a c (gauntErr_nonneg u0 l1 l2 m) (fun i hi => (d i hi).1) (fun i hi => (d i hi).2) (by linarith) hν
  refine ⟨g, g', V, V', a, b, q1, q2, ?_, q4⟩
  have sk : V.sk = lnk1 x (l1 + l2) := by
    rw [getVl1l2_ok true m x (by simp; omega)] at q1
    cases q1
    show ((List.range (n + 1)).map (lnk1 x)).getD (l1 + l2) 0 = _
    exact getD_row _ hn
  rw [q3, sk, if_pos rfl, getD_row _ hn]
  exact e _ le_rfl

theorem rel_of_size {X v S t : ℝ} (h : X ≤ t * S) (hv : S = 0 ∨ v ≠ 0) : X ≤ t * (S / |v|) * |v| := by
  rcases hv with hv | hv
  · rw [hv] at h ⊢; simpa using h
  · rwa [mul_assoc, div_mul_cancel₀ _ (abs_pos.2 hv).ne']

theorem transSize_zero (m : ℤ) (bes : List ℝ) (G : ℕ → ℝ) (l1 l2 : ℕ) {c : ℕ → ℝ} (hc : ∀ p, c p = 0) : transSize true m bes G l1 l2 c = 0 := by
  unfold transSize; simp [hc]

/-- **C147.** Translation coefficients of two separate spheres from computed Bessel functions and Gaunt coefficients, the argument being rounded as well: no exact coefficient
of the array vanishes, except the mixing ones for `m = 0`, and the relative errors are at most `transErrAt` times the condition numbers. -/
theorem C147_relative (hA : RelErrZ A u) {sum : (p : ℕ) → (Fin p → ℝ) → ℝ} (hS : Sums A.toFlFun sum) {m l1 l2 n : ℕ} (h1 : 1 ≤ l1) (h2 : 1 ≤ l2) (hm1 : m ≤ l1) (hm2 : m ≤ l2)
    (hn : l1 + l2 ≤ n) {x x' : ℝ} (hx : 0 < x) (hx' : 0 < x') (hxx : |Real.log x' - Real.log x| ≤ 4 * u) (hu : 32 * ((l1 + l2 : ℕ) + 1) * u ≤ 1) :
    ∃ g g' bes bes' V V', gaunt l1 l2 m = .ok g ∧ A.gaunt l1 l2 m = .ok g' ∧ transBessels [x] (.int n) 1 = .ok [bes] ∧ A.lnknu [x'] n = [bes'] ∧
      getVl1l2 true m x bes l1 l2 = .ok V ∧ A.getVl1l2 sum true m x' bes' g' l1 l2 = .ok V' ∧ |V'.sk - V.sk| ≤ besErr u x (l1 + l2) ∧
      V.EEab ≠ 0 ∧ (V.EMab = 0 ↔ m = 0) ∧
      |V'.EEab * Real.exp V'.sk - V.EEab * Real.exp V.sk| ≤ transErrAt u x l1 l2 m * condEE m g bes l1 l2 V * |V.EEab * Real.exp V.sk| ∧
      |V'.EEba * Real.exp V'.sk - V.EEba * Real.exp V.sk| ≤ transErrAt u x l1 l2 m * condEE m g bes l1 l2 V * |V.EEba * Real.exp V.sk| ∧
      |V'.EMab * Real.exp V'.sk - V.EMab * Real.exp V.sk| ≤ transErrAt u x l1 l2 m * condEM m x g bes l1 l2 V * |V.EMab * Real.exp V.sk| ∧
      |V'.EMba * Real.exp V'.sk - V.EMba * Real.exp V.sk| ≤ transErrAt u x l1 l2 m * condEM m x g bes l1 l2 V * |V.EMba * Real.exp V.sk| := by
  obtain ⟨g, g', V, V', a, b, q1, q2, q3, q4, q5, q6, q7⟩ := trans_elem hA hS m h1 h2 hn ⟨hx', hx, hxx⟩ hu
  have run : TransAt l1 (n - 1 - l1 + l2) l1 l2 m x V := by
    refine ⟨(List.range (l1 + (n - 1 - l1 + l2) + 1 + 1)).map (lnk1 x), trans_row_ext x _, ?_⟩
    rw [getVl1l2_ok true m x (by simp; omega)] at q1 ⊢
    rw [← q1]
    congr 1
    have hr : ∀ p ≤ l1 + l2, ((List.range (l1 + (n - 1 - l1 + l2) + 1 + 1)).map (lnk1 x)).getD p 0 = ((List.range (n + 1)).map (lnk1 x)).getD p 0 := fun p hp => by
      rw [getD_row _ (by omega), getD_row _ (by omega)]
    have hle := lppMin_le l1 l2
    have hc : ∀ i ∈ Finset.range (min l1 l2 + 1), vCommon true m ((List.range (l1 + (n - 1 - l1 + l2) + 1 + 1)).map (lnk1 x)) l1 l2 i =
        vCommon true m ((List.range (n + 1)).map (lnk1 x)) l1 l2 i := fun i hi => by
      have := Finset.mem_range.1 hi
      unfold vCommon besNorm
      simp only [if_true]
      rw [hr _ (by omega), hr _ le_rfl]
    unfold vVal
    rw [VCoef.mk.injEq]
    refine ⟨Finset.sum_congr rfl fun i hi => by rw [hc i hi], Finset.sum_congr rfl fun i hi => by rw [hc i hi], Finset.sum_congr rfl fun i hi => by rw [hc i hi],
      Finset.sum_congr rfl fun i hi => by rw [hc i hi], ?_⟩
    unfold besNorm
    simp only [if_true]
    exact hr _ le_rfl
  obtain ⟨s1, s2, s3⟩ := C95_sign hx h1 h2 le_rfl (by omega) hm1 hm2 run
  have n1 : V.EEab ≠ 0 := fun h => by rw [h] at s1; simp at s1
  have n2 : m ≠ 0 → V.EMab ≠ 0 := fun h0 h => by have := s2 (by omega); rw [h] at this; simp at this
  have back : |V.EEba * Real.exp V.sk| = |V.EEab * Real.exp V.sk| ∧ |V.EMba * Real.exp V.sk| = |V.EMab * Real.exp V.sk| := by
    rw [getVl1l2_ok true m x (by simp; omega)] at q1
    cases q1
    obtain ⟨b1, b2⟩ := vVal_back true m x ((List.range (n + 1)).map (lnk1 x)) l1 l2
    rw [b1, b2]
    simp [abs_mul]
  refine ⟨g, g', _, _, V, V', a, b, trans_row_ext x n, rfl, q1, q2, q3, n1, ⟨fun h => by by_contra h0; exact n2 h0 h, s3⟩, ?_, ?_, ?_, ?_⟩
  · exact rel_of_size q4 (Or.inr (mul_ne_zero n1 (Real.exp_ne_zero _)))
  · rw [back.1]; exact rel_of_size q5 (Or.inr (mul_ne_zero n1 (Real.exp_ne_zero _)))
  all_goals
    have hz : transSize true m ((List.range (n + 1)).map (lnk1 x)) (gauntSize l1 l2 m (g.getD (min l1 l2) 0)) l1 l2 (weightEM m x) = 0 ∨ V.EMab * Real.exp V.sk ≠ 0 := by
      by_cases h0 : m = 0
      · left; exact transSize_zero _ _ _ _ _ fun p => by simp [weightEM, h0]
      · right; exact mul_ne_zero (n2 h0) (Real.exp_ne_zero _)
  · exact rel_of_size q6 hz
  · rw [back.2]; exact rel_of_size q7 hz

/-! ## Condition numbers at small arguments -/

theorem gauntSize_top (l1 l2 : ℕ) (m : ℤ) (top : ℝ) : gauntSize l1 l2 m top (min l1 l2) = |top| := by
  have hle := lppMin_le l1 l2
  have hc : ((((l1 : ℤ) - l2).natAbs : ℝ) + 2 * (min l1 l2 : ℕ)) = (l1 : ℝ) + l2 := by
    have : ((lppMin l1 l2 + 2 * min l1 l2 : ℕ) : ℝ) = ((l1 + l2 : ℕ) : ℝ) := by rw [hle]
    push_cast at this; push_cast; exact this
  have hs : 0 < Real.sqrt (2 * ((l1 : ℝ) + l2) + 1) := Real.sqrt_pos.2 (by positivity)
  unfold gauntSize
  rw [hc, Nat.sub_self, gauntMajor, mul_one, mul_div_assoc, div_self hs.ne', mul_one]

theorem transSize_small {l1 l2 n : ℕ} (m : ℤ) (h1 : 1 ≤ l1) (h2 : 1 ≤ l2) (hn : l1 + l2 ≤ n) {x : ℝ} (hx : 0 < x) {c : ℕ → ℝ}
    (h : 3 * x ^ 2 * lowerSum m l1 l2 c ≤ |c (l1 + l2)| * ((2 * (l1 + l2) - 1) * (2 * (l1 + l2) - 3))) :
    transSize true m ((List.range (n + 1)).map (lnk1 x)) (gauntSize l1 l2 m (gnt l1 l2 m (min l1 l2))) l1 l2 c ≤
      2 * |∑ i ∈ Finset.range (min l1 l2 + 1), c (lppMin l1 l2 + 2 * i) *
        (Real.exp (((List.range (n + 1)).map (lnk1 x)).getD (lppMin l1 l2 + 2 * i) 0) * gnt l1 l2 m i * commonFac true m l1 l2 (lppMin l1 l2 + 2 * i))| := by
  have hle := lppMin_le l1 l2
  obtain ⟨bes, hb⟩ : ∃ bes : List ℝ, bes = (List.range (n + 1)).map (lnk1 x) := ⟨_, rfl⟩
  rw [← hb]
  have eb : ∀ p ≤ l1 + l2, Real.exp (bes.getD p 0) = sphK p x := fun p hp => by rw [hb, getD_row _ (hp.trans hn), exp_lnk1 hx]
  obtain ⟨top, ht⟩ : ∃ top, top = gnt l1 l2 m (min l1 l2) := ⟨_, rfl⟩
  set D := |top| * Real.sqrt (2 * ((l1 : ℝ) + l2) + 1) * (Real.sqrt Real.pi * (2 / Real.pi) / Real.sqrt (l1 * (l1 + 1) * (l2 * (l2 + 1)))) with hD
  have D0 : 0 ≤ D := by have := Real.pi_pos; positivity
  set f : ℕ → ℝ := fun i => |c (lppMin l1 l2 + 2 * i)| * (Real.exp (bes.getD (lppMin l1 l2 + 2 * i) 0) * gauntSize l1 l2 m top i * |commonFac true m l1 l2 (lppMin l1 l2 + 2 * i)|) with hf
  have fe : ∀ i, f i = D * (|c (lppMin l1 l2 + 2 * i)| * (Real.exp (bes.getD (lppMin l1 l2 + 2 * i) 0) * gauntMajor l1 l2 m (min l1 l2 - i))) := fun i => by
    simp only [hf]
    rw [size_term, hD]
    ring
  have f0 : ∀ i, 0 ≤ f i := fun i => by
    rw [fe]
    have := gauntMajor_nonneg l1 l2 m (min l1 l2 - i)
    positivity
  obtain ⟨N, hN⟩ : ∃ N, l1 + l2 = N + 2 := ⟨l1 + l2 - 2, by omega⟩
  have hNr : (l1 : ℝ) + l2 = N + 2 := by exact_mod_cast hN
  have K := sphK_below2 N hx
  have K0 := sphK_pos (N + 2) hx
  have fn : f (min l1 l2) = D * (|c (l1 + l2)| * sphK (N + 2) x) := by
    rw [fe, hle, eb _ le_rfl, Nat.sub_self, gauntMajor, mul_one, hN]
  have low : ∑ i ∈ Finset.range (min l1 l2), f i ≤ f (min l1 l2) / 3 := by
    have a : ∑ i ∈ Finset.range (min l1 l2), f i ≤ D * (sphK N x * lowerSum m l1 l2 c) := by
      unfold lowerSum
      rw [Finset.mul_sum, Finset.mul_sum]
      refine Finset.sum_le_sum fun i hi => ?_
      have hi := Finset.mem_range.1 hi
      rw [fe]
      refine mul_le_mul_of_nonneg_left ?_ D0
      have hm := gauntMajor_nonneg l1 l2 m (min l1 l2 - i)
      have hk : Real.exp (bes.getD (lppMin l1 l2 + 2 * i) 0) ≤ sphK N x := by
        rw [eb _ (by omega)]; exact sphK_mono (by omega) hx
      show |c (lppMin l1 l2 + 2 * i)| * (Real.exp (bes.getD (lppMin l1 l2 + 2 * i) 0) * gauntMajor l1 l2 m (min l1 l2 - i)) ≤
        sphK N x * (|c (lppMin l1 l2 + 2 * i)| * gauntMajor l1 l2 m (min l1 l2 - i))
      have := mul_le_mul_of_nonneg_right hk (mul_nonneg (abs_nonneg (c (lppMin l1 l2 + 2 * i))) hm)
      linarith
    refine a.trans ?_
    rw [fn, mul_div_assoc]
    refine mul_le_mul_of_nonneg_left ?_ D0
    have l0 : 0 ≤ lowerSum m l1 l2 c := Finset.sum_nonneg fun i _ => mul_nonneg (abs_nonneg _) (gauntMajor_nonneg _ _ _ _)
    rw [hNr] at h
    have q : (0 : ℝ) < (2 * N + 3) * (2 * N + 1) := by positivity
    have h' : 3 * x ^ 2 * lowerSum m l1 l2 c ≤ |c (l1 + l2)| * ((2 * N + 3) * (2 * N + 1)) := by
      rw [show (2 * N + 3) * (2 * N + 1) = (2 * ((N : ℝ) + 2) - 1) * (2 * (N + 2) - 3) by ring]; exact h
    have k1 := mul_le_mul_of_nonneg_right K l0
    have k2 := mul_le_mul_of_nonneg_right h' K0.le
    have : ((2 * N + 3) * (2 * N + 1)) * (3 * (sphK N x * lowerSum m l1 l2 c)) ≤ ((2 * N + 3) * (2 * N + 1)) * (|c (l1 + l2)| * sphK (N + 2) x) := by nlinarith
    have := le_of_mul_le_mul_left this q
    linarith
  have G := fun i (hi : i ≤ min l1 l2) => gnt_le_size l1 l2 m hi
  have := lower_weight f f0 (n := min l1 l2) (S := f (min l1 l2)) (C := ∑ i ∈ Finset.range (min l1 l2 + 1), f i) low rfl
    (t := fun i => c (lppMin l1 l2 + 2 * i) * (Real.exp (bes.getD (lppMin l1 l2 + 2 * i) 0) * gnt l1 l2 m i * commonFac true m l1 l2 (lppMin l1 l2 + 2 * i)))
    (fun i hi => by
      have g := G i hi.le
      rw [← ht] at g
      simp only [hf]
      rw [abs_mul, abs_mul, abs_mul, abs_of_pos (Real.exp_pos _)]
      gcongr)
    (by
      simp only [hf]
      rw [abs_mul, abs_mul, abs_mul, abs_of_pos (Real.exp_pos _), gauntSize_top, ht]) rfl
  rw [← ht]
  exact this

/-- **C147.** Condition numbers at small distances: as soon as the square of the argument is below an explicit bound they are at most 2. -/
theorem C147_small {l1 l2 n : ℕ} (m : ℤ) (h1 : 1 ≤ l1) (h2 : 1 ≤ l2) (hn : l1 + l2 ≤ n) {x : ℝ} (hx : 0 < x) {g bes : List ℝ} {V : VCoef}
    (hg : gaunt l1 l2 m = .ok g) (hb : transBessels [x] (.int n) 1 = .ok [bes]) (hV : getVl1l2 true m x bes l1 l2 = .ok V) :
    (3 * x ^ 2 * lowerSum m l1 l2 (weightEE l1 l2) ≤ 2 * l1 * l2 * ((2 * (l1 + l2) - 1) * (2 * (l1 + l2) - 3)) → condEE m g bes l1 l2 V ≤ 2) ∧
    (3 * x ^ 2 * lowerSum m l1 l2 (fun _ => 1) ≤ (2 * (l1 + l2) - 1) * (2 * (l1 + l2) - 3) → condEM m x g bes l1 l2 V ≤ 2) := by
  rw [trans_row_ext] at hb
  have hbes : bes = (List.range (n + 1)).map (lnk1 x) := by
    injection hb with hb; injection hb with hb; exact hb.symm
  subst hbes
  rw [getVl1l2_ok true m x (by simp; omega)] at hV
  cases hV
  rw [gaunt_ok] at hg
  cases hg
  obtain ⟨f1, f2⟩ := vVal_flat true m x ((List.range (n + 1)).map (lnk1 x)) l1 l2
  refine ⟨fun h => ?_, fun h => ?_⟩
  · unfold condEE
    refine div_le_of_le_mul₀ (abs_nonneg _) (by norm_num) ?_
    rw [f1, getD_row _ le_rfl]
    refine transSize_small m h1 h2 hn hx ?_
    have : |weightEE l1 l2 (l1 + l2)| = 2 * l1 * l2 := by
      unfold weightEE
      rw [show ((l1 : ℝ) * (l1 + 1) + l2 * (l2 + 1) - ((l1 + l2 : ℕ) : ℝ) * (((l1 + l2 : ℕ) : ℝ) + 1)) = -(2 * l1 * l2) by push_cast; ring, abs_neg, abs_of_nonneg (by positivity)]
    rw [this]
    exact h
  · unfold condEM
    refine div_le_of_le_mul₀ (abs_nonneg _) (by norm_num) ?_
    rw [f2, getD_row _ le_rfl]
    refine transSize_small m h1 h2 hn hx ?_
    have : lowerSum m l1 l2 (weightEM m x) = |2 * (m : ℝ) * x| * lowerSum m l1 l2 (fun _ => 1) := by
      unfold lowerSum weightEM
      rw [Finset.mul_sum]
      simp
    rw [this]
    have := mul_le_mul_of_nonneg_left h (abs_nonneg (2 * (m : ℝ) * x))
    simp only [weightEM]
    linarith

/-! ## The arrays, and the round-trip matrix -/

theorem transArg_near (hA : RelErrZ A u) {k L e : ℝ} (hk : 0 < k) (hL : 0 < L) (he : 0 < e) : Near (4 * u) (A.transArg k L e) (k * L * Real.sqrt e) := by
  have hs := Real.sqrt_pos.2 he
  have := hA.toRelErrM.mul_near (hA.toRelErrM.near (mul_pos hk hL) (hA.mul k L)) (hA.toRelErrM.near hs (by rw [abs_of_pos hs]; exact hA.sqrt _ he.le))
  exact this.mono (by linarith [hA.u0])

/-- **C147.** The arrays that `trans_ab` returns for two separate spheres: relative errors of at most `ε`, if `ε` is at least `transErrAt` times the condition numbers. -/
theorem C147_array {P : PairIn} (h : PairOK P) {k : ℝ} (hk : 0 < k) (hA : RelErrZ A u) {sum : (p : ℕ) → (Fin p → ℝ) → ℝ} (hS : Sums A.toFlFun sum)
    (hu : 32 * ((P.lmax + P.lssmax : ℕ) + 1) * u ≤ 1) {w : WaveIn} (hw : waveIn exactBes P k = .ok w) {m : ℕ}
    {V : Fin (P.lmax + 1 - transLmin m) → Fin (P.lssmax + 1 - transLmin m) → VCoef} (hV : transAb P.lmax P.lssmax m true w.nL w.bes = .ok V) {ε : ℝ}
    (hε : ∀ l1 l2 g v, max 1 m ≤ l1 → l1 ≤ P.lmax → max 1 m ≤ l2 → l2 ≤ P.lssmax → gaunt l1 l2 m = .ok g → getVl1l2 true m w.nL w.bes l1 l2 = .ok v →
      transErrAt u w.nL l1 l2 m * condEE m g w.bes l1 l2 v ≤ ε ∧ transErrAt u w.nL l1 l2 m * condEM m w.nL g w.bes l1 l2 v ≤ ε) :
    ∃ V', A.transPair sum P k m = .ok V' ∧ TransErr ε V' V ∧
      ∀ i s, |(V' i s).sk - (V i s).sk| ≤ besErr u w.nL ((transLmin m + i.1) + (transLmin m + s.1)) := by
  obtain ⟨wx, wb⟩ := waveIn_form h hk hw
  obtain ⟨a, b, S⟩ := h.pair hk
  have e0 : P.mat3.epsilon k = .ok (P.mat3.epsV k) := medium_eps S.hmed
  have ep : 0 < P.mat3.epsV k := zero_lt_one.trans_le (h.m3.one_le hk)
  have hL : 0 < P.L := by linarith [h.h1, h.h2, h.sep]
  have nr := transArg_near hA hk hL ep
  rw [← wx] at nr wb
  obtain ⟨x, ex⟩ : ∃ x, x = w.nL := ⟨_, rfl⟩
  obtain ⟨x', ex'⟩ : ∃ x', x' = A.transArg k P.L (P.mat3.epsV k) := ⟨_, rfl⟩
  rw [← ex, ← ex'] at nr
  have u0 := hA.u0
  have tl : 1 ≤ transLmin (m : ℤ) ∧ m ≤ transLmin (m : ℤ) ∧ transLmin (m : ℤ) = max 1 m := by unfold transLmin; omega
  have el : ∀ (i : Fin (P.lmax + 1 - transLmin m)) (s : Fin (P.lssmax + 1 - transLmin m)), ∃ v',
      (do let g ← A.gaunt (transLmin m + i.1) (transLmin m + s.1) m
          A.getVl1l2 sum true m x' ((List.range (P.lmax + P.lssmax + 1 + 1)).map (A.lnk x')) g (transLmin m + i.1) (transLmin m + s.1)) = Except.ok v' ∧
      |v'.EEab * Real.exp v'.sk - (V i s).EEab * Real.exp (V i s).sk| ≤ ε * |(V i s).EEab * Real.exp (V i s).sk| ∧
      |v'.EEba * Real.exp v'.sk - (V i s).EEba * Real.exp (V i s).sk| ≤ ε * |(V i s).EEba * Real.exp (V i s).sk| ∧
      |v'.EMab * Real.exp v'.sk - (V i s).EMab * Real.exp (V i s).sk| ≤ ε * |(V i s).EMab * Real.exp (V i s).sk| ∧
      |v'.EMba * Real.exp v'.sk - (V i s).EMba * Real.exp (V i s).sk| ≤ ε * |(V i s).EMba * Real.exp (V i s).sk| ∧
      |v'.sk - (V i s).sk| ≤ besErr u x ((transLmin m + i.1) + (transLmin m + s.1)) := fun i s => by
    have hi := i.2
    have hs := s.2
    have hc : (((transLmin (m : ℤ) + i.1) + (transLmin (m : ℤ) + s.1) : ℕ) : ℝ) ≤ ((P.lmax + P.lssmax : ℕ) : ℝ) := by exact_mod_cast (by omega)
    have hu' : 32 * (((transLmin (m : ℤ) + i.1) + (transLmin (m : ℤ) + s.1) : ℕ) + 1) * u ≤ 1 :=
      (mul_le_mul_of_nonneg_right (by linarith) u0).trans hu
    obtain ⟨g, g', bes, bes', v, v', q1, q2, q3, q4, q5, q6, q7, -, -, q8, q9, q10, q11⟩ := C147_relative hA hS (m := m) (l1 := transLmin m + i.1) (l2 := transLmin m + s.1)
      (n := P.lmax + P.lssmax + 1) (by omega) (by omega) (by omega) (by omega) (by omega) nr.b0 nr.a0 nr.le hu'
    rw [trans_row_ext] at q3
    have hbes : bes = w.bes := by
      rw [wb, ← ex]
      injection q3 with q3; injection q3 with q3; exact q3.symm
    have hbes' : bes' = (List.range (P.lmax + P.lssmax + 1 + 1)).map (A.lnk x') := by
      have : A.lnknu [x'] (P.lmax + P.lssmax + 1) = [(List.range (P.lmax + P.lssmax + 1 + 1)).map (A.lnk x')] := rfl
      rw [this] at q4
      injection q4 with q4; exact q4.symm
    rw [hbes] at q5 q8 q9 q10 q11
    rw [hbes'] at q6
    have hv : V i s = v := by
      have hlen : P.lmax + P.lssmax < w.bes.length := by rw [wb]; simp
      rw [transAb_ok _ _ _ _ _ hlen] at hV
      rw [ex, getVl1l2_ok true m _ (by omega)] at q5
      injection hV with hV
      injection q5 with q5
      rw [← hV, ← q5]
    obtain ⟨t1, t2⟩ := hε (transLmin m + i.1) (transLmin m + s.1) g v (by omega) (by omega) (by omega) (by omega) q1 (by rw [← ex]; exact q5)
    rw [← ex] at t1 t2
    rw [hv]
    refine ⟨v', by rw [q2, ok_bind]; exact q6, q8.trans ?_, q9.trans ?_, q10.trans ?_, q11.trans ?_, q7⟩ <;> gcongr
  choose V' hV1 hV2 hV3 hV4 hV5 hV6 using el
  refine ⟨V', ?_, fun i s => ⟨hV2 i s, hV3 i s, hV4 i s, hV5 i s⟩, fun i s => by rw [← ex]; exact hV6 i s⟩
  unfold FlZero.transPair
  rw [e0, ok_bind, ← ex']
  exact finM_ok fun i => finM_ok fun s => hV1 i s

theorem array_sk {P : PairIn} (h : PairOK P) {k : ℝ} (hk : 0 < k) {w : WaveIn} (hw : waveIn exactBes P k = .ok w) {m : ℕ} {Z : ℝ}
    {V V' : Fin (P.lmax + 1 - transLmin m) → Fin (P.lssmax + 1 - transLmin m) → VCoef} (hV : transAb P.lmax P.lssmax m true w.nL w.bes = .ok V)
    (q3 : ∀ i s, |(V' i s).sk - (V i s).sk| ≤ besErr u w.nL ((transLmin m + i.1) + (transLmin m + s.1)))
    (z3 : ∀ N ≤ P.lmax + P.lssmax, |Real.log (sphK N w.nL)| + besErr u w.nL N ≤ Z) (i : Fin (P.lmax + 1 - transLmin m)) (s : Fin (P.lssmax + 1 - transLmin m)) :
    |(V' i s).sk| ≤ Z := by
  obtain ⟨wx, wb⟩ := waveIn_form h hk hw
  rw [← wx] at wb
  have ep : 0 < P.mat3.epsV k := zero_lt_one.trans_le (h.m3.one_le hk)
  have hL : 0 < P.L := by linarith [h.h1, h.h2, h.sep]
  have nx : 0 < w.nL := by rw [wx]; exact mul_pos (mul_pos hk hL) (Real.sqrt_pos.2 ep)
  have hlen : P.lmax + P.lssmax < w.bes.length := by rw [wb]; simp
  rw [transAb_ok _ _ _ _ _ hlen] at hV
  injection hV with hV
  have hi := i.2
  have hs := s.2
  have hle : (transLmin m + i.1) + (transLmin m + s.1) ≤ P.lmax + P.lssmax := by omega
  have c := q3 i s
  have e : (V i s).sk = Real.log (sphK ((transLmin m + i.1) + (transLmin m + s.1)) w.nL) := by
    rw [← hV]
    show w.bes.getD ((transLmin m + i.1) + (transLmin m + s.1)) 0 = _
    rw [wb, getD_row _ (by omega), lnk1_eq nx]
  rw [e] at c
  have := abs_sub_abs_le_abs_sub (V' i s).sk (Real.log (sphK ((transLmin m + i.1) + (transLmin m + s.1)) w.nL))
  linarith [z3 _ hle]

theorem PairOK.array {P : PairIn} (h : PairOK P) {k : ℝ} (hk : 0 < k) {w : WaveIn} (hw : waveIn exactBes P k = .ok w) (m : ℕ) :
    ∃ V, transAb P.lmax P.lssmax m true w.nL w.bes = .ok V := by
  obtain ⟨-, wb⟩ := waveIn_form h hk hw
  exact ⟨_, transAb_ok P.lmax P.lssmax m true w.nL (by rw [wb]; simp)⟩

/-- **C147, the round-trip matrix.** C127 with the translation coefficients that the code computes: Mie coefficients from Bessel functions with errors `δ`,
everything else in rounded arithmetic. -/
theorem C147_matrix {P : PairIn} (h : PairOK P) {k : ℝ} (hk : 0 < k) (hA : RelErrZ A u) {sum : (p : ℕ) → (Fin p → ℝ) → ℝ} (hS : Sums A.toFlFun sum)
    (hu : 32 * ((P.lmax + P.lssmax : ℕ) + 1) * u ≤ 1) {T : BesTable} {δ Λ X ε Z : ℝ} (hη : 5 * δ + 3 * u * Λ + 15 * u ≤ 1 / 100) (hε0 : 0 ≤ ε)
    (h1 : BesselErr A.toFlMie T P.mat1 P.mat3 P.lmax k P.r1 δ Λ X) (h2 : BesselErr A.toFlMie T P.mat2 P.mat3 P.lssmax k P.r2 δ Λ X)
    {w w0 : WaveIn} (hw : waveIn exactBes P k = .ok w) (hw0 : waveIn exactBes P.metal k = .ok w0) {m : ℕ} (hm : m ≤ P.lmax)
    (hε : ∀ l1 l2 g v, max 1 m ≤ l1 → l1 ≤ P.lmax → max 1 m ≤ l2 → l2 ≤ P.lssmax → gaunt l1 l2 m = .ok g → getVl1l2 true m w.nL w.bes l1 l2 = .ok v →
      transErrAt u w.nL l1 l2 m * condEE m g w.bes l1 l2 v ≤ ε ∧ transErrAt u w.nL l1 l2 m * condEM m w.nL g w.bes l1 l2 v ≤ ε)
    (z1 : ∀ c, A.toFlMie.mieTable T P.mat1 P.mat3 P.lmax k P.r1 = .ok c → ∀ l, 1 ≤ l → l ≤ P.lmax → |c.ln l| ≤ Z)
    (z2 : ∀ c, A.toFlMie.mieTable T P.mat2 P.mat3 P.lssmax k P.r2 = .ok c → ∀ l, 1 ≤ l → l ≤ P.lssmax → |c.ln l| ≤ Z)
    (z3 : ∀ N ≤ P.lmax + P.lssmax, |Real.log (sphK N w.nL)| + besErr u w.nL N ≤ Z)
    (hs : (1 + asmErr u Z (mieErr u δ Λ X Z P.lssmax) ε (P.lssmax + 1 - transLmin m)) * shrink P.r1 P.r2 P.L < 1) :
    ∃ (V' : Fin (P.lmax + 1 - transLmin m) → Fin (P.lssmax + 1 - transLmin m) → VCoef) (B' : Blocks (P.lmax + 1 - transLmin m)) (x y : ℝ),
      A.transPair sum P k m = .ok V' ∧ A.toFlMie.blocksAt sum T P k m V' = .ok B' ∧
      (∃ N, ∀ fuel, N < fuel → singleM fuel 0.9 P.lmax P.lssmax m [w] = some (.ok [(x : EReal)]) ∧
        singleM fuel 0.9 P.lmax P.lssmax m [w0] = some (.ok [(y : EReal)])) ∧ 0 < (1 - B'.full).det ∧
      |Real.log (1 - B'.full).det - x| ≤
        gain (asmErr u Z (mieErr u δ Λ X Z P.lssmax) ε (P.lssmax + 1 - transLmin m)) (shrink P.r1 P.r2 P.L) * |y| := by
  obtain ⟨V, hV⟩ := h.array hk hw m
  obtain ⟨V', q1, q2, q3⟩ := C147_array h hk hA hS hu hw hV hε
  obtain ⟨B', x, y, r1, r2⟩ := C127_rounded h hk hA.toRelErrM hS hη hε0 h1 h2 hw hw0 hm hV q2 z1 z2 (array_sk h hk hw hV q3 z3) hs
  exact ⟨V', B', x, y, q1, r1, r2⟩

/-- **C147 in double precision**: C127 with the translation coefficients that the code computes, provided that `transErrAt` times the condition numbers
does not exceed 1e-7. -/
theorem C147_double {P : PairIn} (h : PairOK P) {k : ℝ} (hk : 0 < k) (hA : RelErrZ A (2 ^ (-52 : ℤ))) {sum : (p : ℕ) → (Fin p → ℝ) → ℝ} (hS : Sums A.toFlFun sum)
    {T : BesTable} (hl : P.lssmax ≤ 100) (h1 : FromCode A.toFlMie T P.mat1 P.mat3 P.lmax k P.r1) (h2 : FromCode A.toFlMie T P.mat2 P.mat3 P.lssmax k P.r2)
    (hθ : shrink P.r1 P.r2 P.L ≤ 0.9) {w w0 : WaveIn} (hw : waveIn exactBes P k = .ok w) (hw0 : waveIn exactBes P.metal k = .ok w0) {m : ℕ} (hm : m ≤ P.lmax)
    (hε : ∀ l1 l2 g v, max 1 m ≤ l1 → l1 ≤ P.lmax → max 1 m ≤ l2 → l2 ≤ P.lssmax → gaunt l1 l2 m = .ok g → getVl1l2 true m w.nL w.bes l1 l2 = .ok v →
      transErrAt (2 ^ (-52 : ℤ)) w.nL l1 l2 m * condEE m g w.bes l1 l2 v ≤ 1e-7 ∧ transErrAt (2 ^ (-52 : ℤ)) w.nL l1 l2 m * condEM m w.nL g w.bes l1 l2 v ≤ 1e-7)
    (z3 : ∀ N ≤ P.lmax + P.lssmax, |Real.log (sphK N w.nL)| + besErr (2 ^ (-52 : ℤ)) w.nL N ≤ 1e4) :
    ∃ (V' : Fin (P.lmax + 1 - transLmin m) → Fin (P.lssmax + 1 - transLmin m) → VCoef) (B' : Blocks (P.lmax + 1 - transLmin m)) (x y : ℝ),
      A.transPair sum P k m = .ok V' ∧ A.toFlMie.blocksAt sum T P k m V' = .ok B' ∧
      (∃ N, ∀ fuel, N < fuel → singleM fuel 0.9 P.lmax P.lssmax m [w] = some (.ok [(x : EReal)]) ∧
        singleM fuel 0.9 P.lmax P.lssmax m [w0] = some (.ok [(y : EReal)])) ∧ 0 < (1 - B'.full).det ∧
      |Real.log (1 - B'.full).det - x| ≤ 4e-6 * |y| := by
  obtain ⟨V, hV⟩ := h.array hk hw m
  have hu : 32 * ((P.lmax + P.lssmax : ℕ) + 1) * (2 : ℝ) ^ (-52 : ℤ) ≤ 1 := by
    have : ((P.lmax + P.lssmax : ℕ) : ℝ) ≤ 200 := by exact_mod_cast (by have := h.hls; omega)
    have u52 : (2 : ℝ) ^ (-52 : ℤ) = 1 / 4503599627370496 := by norm_num
    rw [u52]
    linarith
  obtain ⟨V', q1, q2, q3⟩ := C147_array h hk hA hS hu hw hV hε
  obtain ⟨B', x, y, r1, r2⟩ := C127_double h hk hA.toRelErrM hS hl h1 h2 hθ hw hw0 hm hV (by norm_num) le_rfl q2 (array_sk h hk hw hV q3 z3)
  exact ⟨V', B', x, y, q1, r1, r2⟩

/-- `trans_ab` raises nothing. -/
theorem C147_total {P : PairIn} (h : PairOK P) {k : ℝ} (hk : 0 < k) (hA : RelErrZ A u) {sum : (p : ℕ) → (Fin p → ℝ) → ℝ} (hS : Sums A.toFlFun sum)
    (hu : 32 * ((P.lmax + P.lssmax : ℕ) + 1) * u ≤ 1) (m : ℕ) : ∃ V', A.transPair sum P k m = .ok V' := by
  obtain ⟨a, b, S⟩ := h.pair hk
  have e0 : P.mat3.epsilon k = .ok (P.mat3.epsV k) := medium_eps S.hmed
  have hL : 0 < P.L := by linarith [h.h1, h.h2, h.sep]
  have nr := transArg_near hA hk hL (zero_lt_one.trans_le (h.m3.one_le hk))
  obtain ⟨x', ex'⟩ : ∃ x', x' = A.transArg k P.L (P.mat3.epsV k) := ⟨_, rfl⟩
  rw [← ex'] at nr
  have tl : 1 ≤ transLmin (m : ℤ) := by unfold transLmin; omega
  have el : ∀ (i : Fin (P.lmax + 1 - transLmin m)) (s : Fin (P.lssmax + 1 - transLmin m)), ∃ v',
      (do let g ← A.gaunt (transLmin m + i.1) (transLmin m + s.1) m
          A.getVl1l2 sum true m x' ((List.range (P.lmax + P.lssmax + 1 + 1)).map (A.lnk x')) g (transLmin m + i.1) (transLmin m + s.1)) = Except.ok v' := fun i s => by
    have hi := i.2
    have hs := s.2
    have hc : (((transLmin (m : ℤ) + i.1) + (transLmin (m : ℤ) + s.1) : ℕ) : ℝ) ≤ ((P.lmax + P.lssmax : ℕ) : ℝ) := by exact_mod_cast (by omega)
    obtain ⟨g, g', v, v', -, q2, -, q4, -⟩ := trans_elem hA hS m (l1 := transLmin m + i.1) (l2 := transLmin m + s.1) (n := P.lmax + P.lssmax + 1) (by omega) (by omega) (by omega) nr
      ((mul_le_mul_of_nonneg_right (by linarith) hA.u0).trans hu)
    exact ⟨v', by rw [q2, ok_bind]; exact q4⟩
  choose V' hV' using el
  refine ⟨V', ?_⟩
  unfold FlZero.transPair
  rw [e0, ok_bind, ← ex']
  exact finM_ok fun i => finM_ok fun s => hV' i s

/-- The numbers computed at the wavenumber `k` in double precision: the logarithms of the Bessel functions are those of `lniknu`, the translation coefficients those of `trans_ab`,
`transErrAt` times their condition numbers is at most 1e-7, and the logarithms of the determinants have errors of at most `η`. -/
structure CodeFull (A : FlZero) (sum : (p : ℕ) → (Fin p → ℝ) → ℝ) (ld : (n : ℕ) → Blocks n → ℝ) (T : BesTable) (P : PairIn)
    (V : ℝ → (m : ℕ) → Fin (P.lmax + 1 - transLmin m) → Fin (P.lssmax + 1 - transLmin m) → VCoef) (η k : ℝ) : Prop where
  code1 : FromCode A.toFlMie T P.mat1 P.mat3 P.lmax k P.r1
  code2 : FromCode A.toFlMie T P.mat2 P.mat3 P.lssmax k P.r2
  trans : ∀ m ≤ P.lmax, A.transPair sum P k m = .ok (V k m)
  cond : ∀ w, waveIn exactBes P k = .ok w → ∀ m ≤ P.lmax, ∀ l1 l2 g v, max 1 m ≤ l1 → l1 ≤ P.lmax → max 1 m ≤ l2 → l2 ≤ P.lssmax → gaunt l1 l2 m = .ok g →
    getVl1l2 true m w.nL w.bes l1 l2 = .ok v →
    transErrAt (2 ^ (-52 : ℤ)) w.nL l1 l2 m * condEE m g w.bes l1 l2 v ≤ 1e-7 ∧ transErrAt (2 ^ (-52 : ℤ)) w.nL l1 l2 m * condEM m w.nL g w.bes l1 l2 v ≤ 1e-7
  log : ∀ w, waveIn exactBes P k = .ok w → ∀ N ≤ P.lmax + P.lssmax, |Real.log (sphK N w.nL)| + besErr (2 ^ (-52 : ℤ)) w.nL N ≤ 1e4
  det : ∀ m ≤ P.lmax, ∀ B, A.toFlMie.blocksAt sum T P k m (V k m) = .ok B → 0 < (1 - B.full).det → |ld _ B - Real.log (1 - B.full).det| ≤ η

theorem CodeFull.code {P : PairIn} (h : PairOK P) {k : ℝ} (hk : 0 < k) (hA : RelErrZ A (2 ^ (-52 : ℤ))) {sum : (p : ℕ) → (Fin p → ℝ) → ℝ} (hS : Sums A.toFlFun sum)
    (hl : P.lssmax ≤ 100) {ld : (n : ℕ) → Blocks n → ℝ} {T : BesTable}
    {V : ℝ → (m : ℕ) → Fin (P.lmax + 1 - transLmin m) → Fin (P.lssmax + 1 - transLmin m) → VCoef} {η : ℝ} (c : CodeFull A sum ld T P V η k) :
    CodeAt A.toFlMie sum ld T P V η k := by
  have hu : 32 * ((P.lmax + P.lssmax : ℕ) + 1) * (2 : ℝ) ^ (-52 : ℤ) ≤ 1 := by
    have : ((P.lmax + P.lssmax : ℕ) : ℝ) ≤ 200 := by exact_mod_cast (by have := h.hls; omega)
    have u52 : (2 : ℝ) ^ (-52 : ℤ) = 1 / 4503599627370496 := by norm_num
    rw [u52]
    linarith
  have key : ∀ w, waveIn exactBes P k = .ok w → ∀ m ≤ P.lmax, ∀ V0, transAb P.lmax P.lssmax m true w.nL w.bes = .ok V0 → TransErr 1e-7 (V k m) V0 ∧
      ∀ i s, |(V k m i s).sk| ≤ 1e4 := fun w hw m hm V0 hV => by
    obtain ⟨V', q1, q2, q3⟩ := C147_array h hk hA hS hu hw hV (c.cond w hw m hm)
    rw [c.trans m hm] at q1
    injection q1 with q1
    rw [q1]
    exact ⟨q2, array_sk h hk hw hV q3 (c.log w hw)⟩
  refine ⟨c.code1, c.code2, fun w hw m hm V0 hV => (key w hw m hm V0 hV).1, fun m hm => ?_, c.det⟩
  obtain ⟨w, hw⟩ := h.wave hk
  obtain ⟨V0, hV⟩ := h.array hk hw m
  exact (key w hw m hm V0 hV).2

/-- **C147, the free energy in double precision**: `C131_double` with the translation coefficients that the code computes. -/
theorem C147_energy {P : PairIn} (h : PairOK P) (hprec : P.precision ≤ 0) (hA : RelErrZ A (2 ^ (-52 : ℤ))) {sum : (p : ℕ) → (Fin p → ℝ) → ℝ} (hS : Sums A.toFlFun sum)
    (hl : P.lssmax ≤ 100) {η : ℝ} (hη0 : 0 ≤ η) (hθ : shrink P.r1 P.r2 P.L ≤ 0.9) (h1 : P.L ≤ 1e40 * P.r1) (h2 : P.L ≤ 1e40 * P.r2) {ld : (n : ℕ) → Blocks n → ℝ}
    {ld0 : (n : ℕ) → Matrix (Fin n) (Fin n) ℝ → Matrix (Fin n) (Fin n) ℝ → ℝ} {frac' : ℝ → ℝ → ℝ} {T : BesTable}
    {V : ℝ → (m : ℕ) → Fin (P.lmax + 1 - transLmin m) → Fin (P.lssmax + 1 - transLmin m) → VCoef}
    {p : FTParams} (hg : p.geo = A.pairGeo sum ld ld0 frac' T P V) (hp : p.nprocs.isZero) (ha : p.analyticN0 = true) (hT : 0 < p.deltaT) {N : ℕ} (hN : p.nmax = N)
    (hN' : N ≤ 1000000) (hd : DetErr0 A sum ld0 frac' P η) (hc : ∀ n : ℕ, 1 ≤ n → n ≤ N → CodeFull A sum ld T P V η (A.mul p.deltaT n))
    (hal : ∀ lo hi, IsSlice N lo hi → ∃ n : ℕ, lo ≤ n ∧ n ≤ hi ∧ Alive A.toFlMie sum ld T P V (A.mul p.deltaT n)) (frac : ℝ → ℝ → ℝ) :
    ∃ (z zm : ℝ) (x y : ℕ → ℝ) (F : List ℝ), pairK0 frac P = .ok z ∧ pairK0 frac P.metal = .ok zm ∧
      (∀ n : ℕ, 1 ≤ n → pairVals exactBes P [A.mul p.deltaT n] = .ok [x n] ∧ pairVals exactBes P.metal [A.mul p.deltaT n] = .ok [y n]) ∧
      (A.toFlFun.freeEnergy sum p FT.fresh).1 = .ok F ∧ F.length = p.maxstep.toNat ∧ ∀ (i : ℕ) (v : ℝ), F[i]? = some v →
        |v - (i + 1 : ℕ) * p.deltaT * (0.5 * z + ∑ j ∈ Finset.range (N / (i + 1)), x ((j + 1) * (i + 1)))| ≤
          4.1e-6 * -((i + 1 : ℕ) * p.deltaT * (0.5 * zm + ∑ j ∈ Finset.range (N / (i + 1)), y ((j + 1) * (i + 1)))) +
          1.1 * ((i + 1 : ℕ) * p.deltaT * ((N / (i + 1) : ℕ) + 1 / 2) * ((2 * P.lmax + 1 : ℕ) * η)) :=
  C131_double h hprec hA hS hl hη0 hθ h1 h2 hg hp ha hT hN hN' hd
    (fun n a b => (hc n a b).code h (hA.toRelErr.mul_pos' hT (by exact_mod_cast a)) hA hS hl) hal frac

/-! ## Examples -/

theorem major_one (m : ℤ) : gauntMajor 1 1 m 1 = |1 - 3 * (m : ℝ) ^ 2| / 2 := by
  simp only [gauntMajor]
  push_cast
  rw [show ((2 : ℝ) * (1 + 1) - 3) * (1 * 1 - (m : ℝ) ^ 2 * (2 * (1 + 1) - 1)) / ((2 * 1 - 1) * (2 * 1 - 1) * (1 + 1)) = (1 - 3 * (m : ℝ) ^ 2) / 2 by ring, abs_div]
  norm_num

theorem dipole_lower {m : ℕ} (hm : m ≤ 1) : lowerSum m 1 1 (weightEE 1 1) ≤ 4 ∧ lowerSum m 1 1 (fun _ => 1) ≤ 1 := by
  have e : gauntMajor 1 1 m 1 ≤ 1 := by
    rw [major_one]
    interval_cases m <;> norm_num
  have e0 := gauntMajor_nonneg 1 1 m 1
  unfold lowerSum
  simp only [Nat.min_self, Finset.sum_range_one]
  constructor
  · have : |weightEE 1 1 (((((1 : ℕ) : ℤ)) - ((1 : ℕ) : ℤ)).natAbs + 2 * 0)| = 4 := by norm_num [weightEE]
    rw [this]
    show 4 * gauntMajor 1 1 m 1 ≤ 4
    linarith
  · rw [abs_one, one_mul]; exact e

theorem dipole_err {m : ℕ} (hm : m ≤ 1) {x : ℝ} (h1 : 0.3 ≤ x) (h2 : x ≤ 0.7) :
    0 ≤ transErrAt (2 ^ (-52 : ℤ)) x 1 1 m ∧ transErrAt (2 ^ (-52 : ℤ)) x 1 1 m ≤ 1e-10 ∧ ∀ N ≤ 2, besErr (2 ^ (-52 : ℤ)) x N ≤ 1e-10 := by
  have x0 : 0 < x := by linarith
  have u52 : (2 : ℝ) ^ (-52 : ℤ) = 1 / 4503599627370496 := by norm_num
  have lx : |Real.log x| ≤ 3 := by
    rw [abs_le]
    have a := Real.one_sub_inv_le_log_of_pos x0
    have b := Real.log_le_sub_one_of_pos x0
    have : x⁻¹ ≤ 4 := by rw [inv_le_comm₀ x0 (by norm_num)]; linarith
    constructor <;> linarith
  have ll : ∀ N : ℕ, N ≤ 2 → 0 ≤ Real.log (1 + 2 * N / x) ∧ Real.log (1 + 2 * N / x) ≤ 16 := fun N hN => by
    have hN' : (N : ℝ) ≤ 2 := by exact_mod_cast hN
    have q0 : 0 ≤ 2 * (N : ℝ) / x := by positivity
    have q1 : 2 * (N : ℝ) / x ≤ 16 := by rw [div_le_iff₀ x0]; linarith
    exact ⟨Real.log_nonneg (by linarith), (Real.log_le_sub_one_of_pos (by linarith)).trans (by linarith)⟩
  have be : ∀ N : ℕ, N ≤ 2 → 0 ≤ besErr (2 ^ (-52 : ℤ)) x N ∧ besErr (2 ^ (-52 : ℤ)) x N ≤ 1e-12 := fun N hN => by
    have hN' : (N : ℝ) ≤ 2 := by exact_mod_cast hN
    have hN0 : (0 : ℝ) ≤ N := Nat.cast_nonneg N
    obtain ⟨c0, c1⟩ := ll N hN
    have s0 : 0 ≤ 5 + 2 * |Real.log x| + 2 * x + N * Real.log (1 + 2 * N / x) := by positivity
    have s1 : 5 + 2 * |Real.log x| + 2 * x + N * Real.log (1 + 2 * N / x) ≤ 50 := by nlinarith
    unfold besErr
    rw [u52]
    refine ⟨by positivity, ?_⟩
    have := mul_le_mul (show 8 * ((N : ℝ) + 1) * (1 / 4503599627370496) ≤ 24 * (1 / 4503599627370496) by linarith) s1 s0 (by norm_num)
    exact this.trans (by norm_num)
  have g0 := gauntErr_nonneg (u := (2 : ℝ) ^ (-52 : ℤ)) (by positivity) 1 1 m
  have g1 : gauntErr (2 ^ (-52 : ℤ)) 1 1 m ≤ 1e-12 := gauntErr_dipole (by simpa using hm)
  obtain ⟨b0, b1⟩ := be 2 le_rfl
  obtain ⟨c0, c1⟩ := ll 2 le_rfl
  have tr : transErrAt (2 ^ (-52 : ℤ)) x 1 1 m = transErr (2 ^ (-52 : ℤ)) (besErr (2 ^ (-52 : ℤ)) x 2) (gauntErr (2 ^ (-52 : ℤ)) 1 1 m) (5 * 2 ^ (-52 : ℤ))
    (2 * besErr (2 ^ (-52 : ℤ)) x 2 + (2 : ℕ) * Real.log (1 + 2 * (2 : ℕ) / x)) 1 := rfl
  rw [tr]
  unfold transErr
  generalize besErr (2 ^ (-52 : ℤ)) x 2 = δ at b0 b1
  generalize gauntErr (2 ^ (-52 : ℤ)) 1 1 m = γ at g0 g1
  generalize Real.log (1 + 2 * (2 : ℕ) / x) = l at c0 c1
  rw [u52]
  have t0 : 0 ≤ δ + 1 / 4503599627370496 * (2 * δ + (2 : ℕ) * l) := by positivity
  have t1 : δ + 1 / 4503599627370496 * (2 * δ + (2 : ℕ) * l) ≤ 2e-12 := by push_cast; linarith
  generalize δ + 1 / 4503599627370496 * (2 * δ + (2 : ℕ) * l) = t at t0 t1
  have e0 : 1 ≤ Real.exp t := Real.one_le_exp t0
  have e1 : Real.exp t ≤ 1 + 4e-12 := by
    have := (abs_le.mp (Real.abs_exp_sub_one_le (x := t) (by rw [abs_of_nonneg t0]; linarith))).2
    rw [abs_of_nonneg t0] at this
    linarith
  have p0 : (1 : ℝ) ≤ (1 + 1 / 4503599627370496) ^ (1 + 18) := one_le_pow₀ (by norm_num)
  have p1 : ((1 : ℝ) + 1 / 4503599627370496) ^ (1 + 18) ≤ 1 + 1e-12 := by norm_num
  generalize ((1 : ℝ) + 1 / 4503599627370496) ^ (1 + 18) = q at p0 p1
  have n0 : (1 : ℝ) ≤ 1 + 5 * (1 / 4503599627370496) := by norm_num
  have n1 : (1 : ℝ) + 5 * (1 / 4503599627370496) ≤ 1 + 1e-12 := by norm_num
  generalize (1 : ℝ) + 5 * (1 / 4503599627370496) = r at n0 n1
  refine ⟨?_, ?_, fun N hN => by
    have := (be N hN).2
    rw [u52] at this
    exact this.trans (by norm_num)⟩
  · have := one_le_mul_of_one_le_of_one_le (one_le_mul_of_one_le_of_one_le (one_le_mul_of_one_le_of_one_le (show 1 ≤ 1 + γ by linarith) n0) e0) p0
    linarith
  · have := mul_le_mul (mul_le_mul (mul_le_mul (show 1 + γ ≤ 1 + 1e-12 by linarith) n1 (by linarith) (by norm_num)) e1 (by linarith) (by norm_num)) p1 (by linarith) (by norm_num)
    refine (sub_le_sub_right this 1).trans ?_
    norm_num

theorem dipole_cond {m : ℕ} (hm : m ≤ 1) {x : ℝ} (hx : 0 < x) (h2 : x ≤ 0.7) {n : ℕ} (hn : 2 ≤ n) {g bes : List ℝ} {V : VCoef} (hg : gaunt 1 1 m = .ok g)
    (hb : transBessels [x] (.int n) 1 = .ok [bes]) (hV : getVl1l2 true m x bes 1 1 = .ok V) : condEE m g bes 1 1 V ≤ 2 ∧ condEM m x g bes 1 1 V ≤ 2 := by
  obtain ⟨a, b⟩ := C147_small m le_rfl le_rfl hn hx hg hb hV
  obtain ⟨l1, l2⟩ := dipole_lower hm
  have x2 : x ^ 2 ≤ 0.49 := by nlinarith
  have x20 : 0 ≤ x ^ 2 := by positivity
  refine ⟨a ?_, b ?_⟩
  · have := mul_le_mul_of_nonneg_left l1 x20
    push_cast
    linarith
  · have := mul_le_mul_of_nonneg_left l2 x20
    push_cast
    linarith

/-- Two mirrors of radius 0.2 at the distance 0.6, dipoles only. -/
def mirrorDipoles : PairIn := ⟨⟨.pec, [], none⟩, ⟨.pec, [], none⟩, ⟨.lorentz, [], none⟩, 0.2, 0.2, 0.6, 1, 1, 0⟩

theorem mirrorDipoles_ok : PairOK mirrorDipoles := by
  refine ⟨pec_sphere, pec_sphere, vacuumM_ok, ?_, ?_, ?_, ?_, ?_⟩ <;> norm_num [mirrorDipoles]

/-- Doubles rounded towards minus infinity, nothing else assumed: Bessel functions, Gaunt, Mie and translation coefficients, matrices as computed for the wavenumber 1. -/
example (m : ℕ) (hm : m ≤ 1) : ∃ (w : WaveIn) (V' : Fin (1 + 1 - transLmin m) → Fin (1 + 1 - transLmin m) → VCoef) (B' : Blocks (1 + 1 - transLmin m)) (x : ℝ),
    waveIn exactBes mirrorDipoles 1 = .ok w ∧ (roundZero (roundDown 53)).transPair (foldSum (roundMie (roundDown 53)).toFlFun) mirrorDipoles 1 m = .ok V' ∧
    (roundMie (roundDown 53)).blocksAt (foldSum (roundMie (roundDown 53)).toFlFun) (lniknuTable (roundMie (roundDown 53)).toFlFun) mirrorDipoles 1 m V' = .ok B' ∧
    (∃ N, ∀ fuel, N < fuel → singleM fuel 0.9 1 1 m [w] = some (.ok [(x : EReal)])) ∧ |Real.log (1 - B'.full).det - x| ≤ 4e-6 * |x| := by
  have h := mirrorDipoles_ok
  have hA := roundDown_relErrM
  have hu : 4 * (2 : ℝ) ^ (-52 : ℤ) ≤ 1 / 100 := by norm_num
  have n1 : Medium.n ⟨1, 1⟩ = 1 := by unfold Medium.n; simp
  have vm : (Material.mk .lorentz [] none).medium 1 = .ok ⟨1, 1⟩ := rfl
  have p1 : Medium.Pos ⟨1, 1⟩ := by constructor <;> norm_num
  have h1 : FromCode (roundMie (roundDown 53)) (lniknuTable (roundMie (roundDown 53)).toFlFun) ⟨.pec, [], none⟩ ⟨.lorentz, [], none⟩ 1 1 0.2 := by
    refine ⟨fun _ b hb l hl1 hl2 => ?_, fun hc => absurd rfl hc⟩
    rw [vm] at hb
    injection hb with hb
    subst hb
    obtain ⟨q1, q2⟩ := near_box hu (hA.argPEC_near one_pos (r := 0.2) (by norm_num) p1) (a := 0.2) (b := 0.2) (by rw [n1]; norm_num) (by rw [n1]; norm_num)
    exact lniknuTable_from _ (by omega) (le_trans (by norm_num) q1) (q2.trans (by norm_num))
  obtain ⟨w, hw⟩ := h.wave one_pos
  have hw0 : waveIn exactBes mirrorDipoles.metal 1 = .ok w := hw
  obtain ⟨wx, wb⟩ := waveIn_form h one_pos hw
  have e1 : mirrorDipoles.mat3.epsV 1 = 1 := by
    have := vm
    have e : mirrorDipoles.mat3.epsilon 1 = .ok 1 := medium_eps vm
    simp [Material.epsV, e]
  have nx : w.nL = 0.6 := by rw [wx, e1]; norm_num [mirrorDipoles]
  rw [← wx] at wb
  obtain ⟨d0, d1, d2⟩ := dipole_err hm (x := w.nL) (by rw [nx]; norm_num) (by rw [nx]; norm_num)
  have row : transBessels [w.nL] (.int (3 : ℕ)) 1 = .ok [w.bes] := by rw [wb]; exact trans_row_ext w.nL 3
  obtain ⟨V', B', x, y, q1, q2, ⟨N, q3⟩, -, q4⟩ := C147_double h one_pos roundDown_relErrZ (foldSum_sums _) (T := lniknuTable (roundMie (roundDown 53)).toFlFun) (by norm_num [mirrorDipoles])
    h1 h1 (by norm_num [mirrorDipoles, shrink]) hw hw0 (m := m) hm
    (fun l1 l2 g v a1 a2 a3 a4 hg hv => by
      have a2 : l1 ≤ 1 := a2
      have a4 : l2 ≤ 1 := a4
      obtain rfl : l1 = 1 := by omega
      obtain rfl : l2 = 1 := by omega
      obtain ⟨c1, c2⟩ := dipole_cond hm (x := w.nL) (by rw [nx]; norm_num) (by rw [nx]; norm_num) (n := 3) (by norm_num) hg row hv
      constructor
      · have := mul_le_mul_of_nonneg_left c1 d0
        refine this.trans ?_
        generalize transErrAt (2 ^ (-52 : ℤ)) w.nL 1 1 m = t at d1
        linarith
      · have := mul_le_mul_of_nonneg_left c2 d0
        refine this.trans ?_
        generalize transErrAt (2 ^ (-52 : ℤ)) w.nL 1 1 m = t at d1
        linarith)
    (fun N hN => by
      have hN : N ≤ 2 := hN
      have a := log_sphK_ten (x := w.nL) (by rw [nx]; norm_num) (by rw [nx]; norm_num) (l := N) (by omega)
      have b := d2 N hN
      generalize besErr (2 ^ (-52 : ℤ)) w.nL N = t at b
      linarith)
  refine ⟨w, V', B', x, hw, q1, q2, ⟨N, fun fuel hf => (q3 fuel hf).1⟩, ?_⟩
  obtain ⟨s1, s2⟩ := q3 (N + 1) (by omega)
  rw [s1] at s2
  simp only [Option.some.injEq, Except.ok.injEq, List.cons.injEq, EReal.coe_eq_coe_iff, and_true] at s2
  rw [← s2] at q4
  exact q4

/-- The translation coefficients of `mirrorDipoles` as computed in doubles rounded towards minus infinity. -/
noncomputable def dipoleTrans (k : ℝ) (m : ℕ) : Fin (mirrorDipoles.lmax + 1 - transLmin m) → Fin (mirrorDipoles.lssmax + 1 - transLmin m) → VCoef :=
  match (roundZero (roundDown 53)).transPair (foldSum (roundMie (roundDown 53)).toFlFun) mirrorDipoles k m with
  | .ok V => V
  | .error _ => fun _ _ => ⟨0, 0, 0, 0, 0⟩

theorem dipole_code {k : ℝ} (h1 : 0.9 ≤ k) (h2 : k ≤ 1.1) :
    CodeFull (roundZero (roundDown 53)) (foldSum (roundMie (roundDown 53)).toFlFun) (fun _ B => Real.log (1 - B.full).det)
      (lniknuTable (roundMie (roundDown 53)).toFlFun) mirrorDipoles dipoleTrans 0 k := by
  have h := mirrorDipoles_ok
  have hA := roundDown_relErrM
  have hk : 0 < k := by linarith
  have hu : 4 * (2 : ℝ) ^ (-52 : ℤ) ≤ 1 / 100 := by norm_num
  have n1 : Medium.n ⟨1, 1⟩ = 1 := by unfold Medium.n; simp
  have vm : (Material.mk .lorentz [] none).medium k = .ok ⟨1, 1⟩ := rfl
  have p1 : Medium.Pos ⟨1, 1⟩ := by constructor <;> norm_num
  have fc : FromCode (roundMie (roundDown 53)) (lniknuTable (roundMie (roundDown 53)).toFlFun) ⟨.pec, [], none⟩ ⟨.lorentz, [], none⟩ 1 k 0.2 := by
    refine ⟨fun _ b hb l hl1 hl2 => ?_, fun hc => absurd rfl hc⟩
    rw [vm] at hb
    injection hb with hb
    subst hb
    obtain ⟨q1, q2⟩ := near_box hu (hA.argPEC_near hk (r := 0.2) (by norm_num) p1) (a := 0.18) (b := 0.22) (by rw [n1]; linarith) (by rw [n1]; linarith)
    exact lniknuTable_from _ (by omega) (le_trans (by norm_num) q1) (q2.trans (by norm_num))
  have nx : ∀ w, waveIn exactBes mirrorDipoles k = .ok w → 0.3 ≤ w.nL ∧ w.nL ≤ 0.7 ∧ transBessels [w.nL] (.int (3 : ℕ)) 1 = .ok [w.bes] := fun w hw => by
    obtain ⟨wx, wb⟩ := waveIn_form h hk hw
    have e : mirrorDipoles.mat3.epsilon k = .ok 1 := medium_eps vm
    have e1 : mirrorDipoles.mat3.epsV k = 1 := by simp [Material.epsV, e]
    have nx : w.nL = k * 0.6 := by rw [wx, e1, Real.sqrt_one, mul_one]; rfl
    rw [← wx] at wb
    exact ⟨by rw [nx]; linarith, by rw [nx]; linarith, by rw [wb]; exact trans_row_ext w.nL 3⟩
  refine ⟨fc, fc, fun m _ => ?_, fun w hw m hm l1 l2 g v a1 a2 a3 a4 hg hv => ?_, fun w hw N hN => ?_, fun _ _ _ _ _ => by rw [sub_self, abs_zero]⟩
  · obtain ⟨V', e⟩ := C147_total h hk roundDown_relErrZ (foldSum_sums _) (by norm_num [mirrorDipoles]) m
    have e : (roundZero (roundDown 53)).transPair (foldSum (roundMie (roundDown 53)).toFlFun) mirrorDipoles k m = .ok V' := e
    unfold dipoleTrans
    rw [e]
  · obtain ⟨y1, y2, row⟩ := nx w hw
    have hm : m ≤ 1 := hm
    obtain ⟨d0, d1, -⟩ := dipole_err hm y1 y2
    have a2 : l1 ≤ 1 := a2
    have a4 : l2 ≤ 1 := a4
    obtain rfl : l1 = 1 := by omega
    obtain rfl : l2 = 1 := by omega
    obtain ⟨c1, c2⟩ := dipole_cond hm (x := w.nL) (by linarith) y2 (n := 3) (by norm_num) hg row hv
    constructor
    · refine (mul_le_mul_of_nonneg_left c1 d0).trans ?_
      generalize transErrAt (2 ^ (-52 : ℤ)) w.nL 1 1 m = t at d1
      linarith
    · refine (mul_le_mul_of_nonneg_left c2 d0).trans ?_
      generalize transErrAt (2 ^ (-52 : ℤ)) w.nL 1 1 m = t at d1
      linarith
  · obtain ⟨y1, y2, -⟩ := nx w hw
    have hN : N ≤ 2 := hN
    have a := log_sphK_ten (x := w.nL) (le_trans (by norm_num) y1) (y2.trans (by norm_num)) (l := N) (by omega)
    have b := (dipole_err (m := 0) (by norm_num) y1 y2).2.2 N hN
    generalize besErr (2 ^ (-52 : ℤ)) w.nL N = t at b
    linarith

theorem dipole_alive {k : ℝ} (h1 : 0.9 ≤ k) (h2 : k ≤ 1.1) :
    Alive (roundMie (roundDown 53)) (foldSum (roundMie (roundDown 53)).toFlFun) (fun _ B => Real.log (1 - B.full).det)
      (lniknuTable (roundMie (roundDown 53)).toFlFun) mirrorDipoles dipoleTrans k := by
  have hk : 0 < k := by linarith
  have h := mirrorDipoles_ok
  obtain ⟨g1, g2, g3⟩ := pair_double h (by norm_num [mirrorDipoles]) (by norm_num [mirrorDipoles, shrink])
  have hA := roundDown_relErrM
  have u0 := hA.u0
  refine C130_alive h hA (foldSum_sums _) (by norm_num) (by norm_num) le_rfl hk g1
    (((dipole_code h1 h2).code h hk roundDown_relErrZ (foldSum_sums _) (by norm_num [mirrorDipoles])).computed h hA (by norm_num [mirrorDipoles]) hk) fun M hM => ?_
  have hM' : M < 1 := hM
  have em : mirrorDipoles.metal = mirrorDipoles := rfl
  rw [em, mul_zero, zero_mul, add_zero]
  obtain ⟨σ, e⟩ := dense_total (pec_sphere) h.m3 hk
  have s0 : lnDetV mirrorDipoles 0 k < 0 := (lnDetV_strict h (m := 0) (by norm_num [mirrorDipoles]) hk (.inl rfl) (.inl rfl) e e).1 rfl
  have sm : ∑ m ∈ Finset.Icc 1 M, lnDetV mirrorDipoles m k ≤ 0 := Finset.sum_nonpos fun m hm => by
    have := h.metal_le hk (m := m) (by have := (Finset.mem_Icc.mp hm).2; show m ≤ 1; omega)
    rwa [em] at this
  rw [abs_of_neg (by linarith)]
  refine mul_lt_of_lt_one_left (by linarith) ?_
  have b := double_pow (n := M + 1) (by omega)
  have := mul_le_mul (show 1 + pairErr mirrorDipoles (2 ^ (-52 : ℤ)) 1e-9 9 11 1e-7 1e4 ≤ 1 + 4e-6 by linarith) b (by positivity) (by norm_num)
  refine (sub_le_sub_right this 1).trans_lt ?_
  norm_num

/-- Doubles rounded towards minus infinity, nothing else assumed: the free energy of `mirrorDipoles` with one Matsubara wavenumber. -/
example (frac frac' : ℝ → ℝ → ℝ) : ∃ (z x v : ℝ), pairK0 frac mirrorDipoles = .ok z ∧ pairVals exactBes mirrorDipoles [(roundZero (roundDown 53)).mul 1 (1 : ℕ)] = .ok [x] ∧
    ((roundZero (roundDown 53)).toFlFun.freeEnergy (foldSum (roundMie (roundDown 53)).toFlFun) ⟨1, 1, 1, true, .int 0,
      (roundZero (roundDown 53)).pairGeo (foldSum (roundMie (roundDown 53)).toFlFun) (fun _ B => Real.log (1 - B.full).det)
      (fun _ TE TM => Real.log (1 - TE).det + Real.log (1 - TM).det) frac'
      (lniknuTable (roundMie (roundDown 53)).toFlFun) mirrorDipoles dipoleTrans⟩ FT.fresh).1 = .ok [v] ∧ |v - (0.5 * z + x)| ≤ 4.1e-6 * -(0.5 * z + x) := by
  have h := mirrorDipoles_ok
  have hA := roundDown_relErrZ
  have u52 : (2 : ℝ) ^ (-52 : ℤ) = 1 / 4503599627370496 := by norm_num
  have rng : ∀ n : ℕ, 1 ≤ n → n ≤ 1 → 0.9 ≤ (roundMie (roundDown 53)).mul 1 n ∧ (roundMie (roundDown 53)).mul 1 n ≤ 1.1 := by
    intro n n1 n2
    obtain rfl : n = 1 := by omega
    have := abs_le.mp (roundDown_relErrM.mul 1 ((1 : ℕ) : ℝ))
    rw [one_mul, Nat.cast_one, abs_one, u52] at this
    rw [Nat.cast_one]
    constructor <;> linarith
  obtain ⟨z, zm, x, y, F, e1, e2, r1, r2, r3, r4⟩ := C147_energy (A := roundZero (roundDown 53)) (P := mirrorDipoles) (η := 0) (frac' := frac')
    (ld0 := fun _ TE TM => Real.log (1 - TE).det + Real.log (1 - TM).det) h le_rfl hA (foldSum_sums _) (by norm_num [mirrorDipoles]) le_rfl (by norm_num [mirrorDipoles, shrink])
    (by norm_num [mirrorDipoles]) (by norm_num [mirrorDipoles])
    (p := ⟨1, 1, 1, true, .int 0, (roundZero (roundDown 53)).pairGeo (foldSum (roundMie (roundDown 53)).toFlFun) (fun _ B => Real.log (1 - B.full).det)
      (fun _ TE TM => Real.log (1 - TE).det + Real.log (1 - TM).det) frac'
      (lniknuTable (roundMie (roundDown 53)).toFlFun) mirrorDipoles dipoleTrans⟩) rfl rfl rfl one_pos (N := 1) rfl (by norm_num)
    (fun _ _ _ _ _ _ TE TM _ _ _ => by rw [sub_self, abs_zero])
    (fun n n1 n2 => dipole_code (rng n n1 n2).1 (rng n n1 n2).2)
    (fun lo hi hsl => ⟨lo, le_rfl, hsl.2.1, by
      obtain ⟨s1, s2, q, -, s3⟩ := hsl
      exact dipole_alive (rng lo s1 (by omega)).1 (rng lo s1 (by omega)).2⟩) frac
  have em : mirrorDipoles.metal = mirrorDipoles := rfl
  obtain ⟨a, b⟩ := r1 1 le_rfl
  rw [em, e1] at e2
  injection e2 with e2
  subst e2
  rw [em, a] at b
  injection b with b
  injection b with b
  obtain ⟨v, rfl⟩ := List.length_eq_one_iff.mp (show F.length = 1 from r3)
  refine ⟨z, x 1, v, e1, a, r2, ?_⟩
  have := r4 0 v rfl
  simp only [zero_add, Nat.div_one, Finset.sum_range_one, mul_one, Nat.cast_one, one_mul, ← b, mul_zero, add_zero] at this
  exact this

end CasSph
