import Verif.Lemmas.CavityEnergy

/-! # Shifting the centre inside a cavity does not increase the energy (independent of the model) -/

namespace CasSph

open Spec Filter Topology

/-- the regular wave with the coefficients `u` seen from a centre at the distance `x` -/
noncomputable def shV (m c0 n : ℕ) (u : Bool → ℕ → ℝ) (P : Bool) (s : ℕ) (x : ℝ) : ℝ :=
  ∑ r ∈ Finset.range n, (tI m x false P (c0 + r + 1) (c0 + s + 1) * u false r + tI m x true P (c0 + r + 1) (c0 + s + 1) * u true r)

theorem shV_deriv {m c0 : ℕ} (hm : m ≤ c0 + 1) (hc : c0 = 0 ∨ c0 + 1 = m) (n : ℕ) (u : Bool → ℕ → ℝ) (P : Bool) (s : ℕ) (x : ℝ) :
    HasDerivAt (shV m c0 n u P s) (-(ts m c0 s * shV m c0 n u P (s + 1) x +
      (if s = 0 then 0 else ts m c0 (s - 1) * shV m c0 n u P (s - 1) x) + us m c0 s * shV m c0 n u (!P) s x)) x := by
  have h := HasDerivAt.fun_sum (u := Finset.range n) (x := x) (A := fun r x => tI m x false P (c0 + r + 1) (c0 + s + 1) * u false r +
    tI m x true P (c0 + r + 1) (c0 + s + 1) * u true r) (fun r _ =>
      ((tI_deriv (m := m) (n := c0 + s) (by omega) x false P (c0 + r + 1)).mul_const (u false r)).add
        ((tI_deriv (m := m) (n := c0 + s) (by omega) x true P (c0 + r + 1)).mul_const (u true r)))
  refine HasDerivAt.congr_deriv (f := shV m c0 n u P s) h ?_
  have h0 : t1 m c0 = 0 := by
    rcases hc with rfl | rfl
    · exact t1_zero m
    · exact t1_top c0
  have e : (if s = 0 then 0 else ts m c0 (s - 1) * shV m c0 n u P (s - 1) x) = ∑ r ∈ Finset.range n,
      t1 m (c0 + s) * (tI m x false P (c0 + r + 1) (c0 + s) * u false r + tI m x true P (c0 + r + 1) (c0 + s) * u true r) := by
    cases s with
    | zero => simp [h0]
    | succ s =>
      rw [if_neg (by omega), Nat.add_sub_cancel, ← Finset.mul_sum]
      rfl
  rw [e]
  unfold shV ts us
  rw [Finset.mul_sum, Finset.mul_sum, ← Finset.sum_add_distrib, ← Finset.sum_add_distrib, ← Finset.sum_neg_distrib]
  refine Finset.sum_congr rfl fun r _ => ?_
  rw [show c0 + (s + 1) + 1 = c0 + s + 2 by ring]
  ring

theorem shV_at_zero {m c0 : ℕ} (hm : m ≤ c0 + 1) (n : ℕ) (u : Bool → ℕ → ℝ) (P : Bool) (s : ℕ) :
    shV m c0 n u P s 0 = if s < n then u P s else 0 := by
  unfold shV
  have h : ∀ r ∈ Finset.range n, tI m 0 false P (c0 + r + 1) (c0 + s + 1) * u false r + tI m 0 true P (c0 + r + 1) (c0 + s + 1) * u true r =
      if r = s then u P s else 0 := by
    intro r _
    rw [tI_at_zero (by omega) (by omega) (by omega) (by omega), tI_at_zero (by omega) (by omega) (by omega) (by omega)]
    by_cases hrs : r = s
    · subst hrs
      cases P <;> simp
    · have : ¬ c0 + r + 1 = c0 + s + 1 := by omega
      simp [hrs]
  rw [Finset.sum_congr rfl h, Finset.sum_ite_eq']
  simp

/-! ## decay -/

theorem sphI_down (l k : ℕ) {Y : ℝ} (hY : 0 < Y) : sphI l Y ≤ (1 + (2 * ((l : ℝ) + k) + 1) / Y) ^ k * sphI (l + k) Y := by
  induction k with
  | zero => simp
  | succ k ih =>
    have hs : sphI (l + k) Y ≤ (1 + (2 * ((l : ℝ) + k) + 3) / Y) * sphI (l + k + 1) Y := by
      have h := sphI_rec (l + k) hY.ne'
      have h2 := (sphI_succ_lt (l + k + 1) hY).le
      push_cast at h
      rw [add_mul, one_mul]
      rw [show l + k + 1 + 1 = l + k + 2 by ring] at h2
      linarith
    have hp := (sphI_pos (l + k + 1) hY).le
    calc sphI l Y ≤ (1 + (2 * ((l : ℝ) + k) + 1) / Y) ^ k * sphI (l + k) Y := ih
      _ ≤ (1 + (2 * ((l : ℝ) + k) + 3) / Y) ^ k * ((1 + (2 * ((l : ℝ) + k) + 3) / Y) * sphI (l + k + 1) Y) := by
          refine mul_le_mul (pow_le_pow_left₀ (by positivity) ?_ k) hs (sphI_pos _ hY).le (by positivity)
          have : (2 * ((l : ℝ) + k) + 1) / Y ≤ (2 * ((l : ℝ) + k) + 3) / Y := by gcongr; norm_num
          linarith
      _ = _ := by
          rw [show l + (k + 1) = l + k + 1 by ring]
          push_cast
          ring

theorem cavB_sq (c : ℕ) {Y : ℝ} (hY : 0 < Y) : cavB false c Y * sphI (c + 1) Y ^ 2 ≤ Real.pi / (2 * Y ^ 2) := by
  have hi := sphI_pos (c + 1) hY
  have e : cavB false c Y * sphI (c + 1) Y ^ 2 = sphI (c + 1) Y * sphK (c + 1) Y := by
    simp only [cavB]
    field_simp
  have hw := wronskian (c + 1) hY.ne'
  have h1 := mul_le_mul_of_nonneg_left (sphK_lt_succ (c + 1) hY).le hi.le
  have h2 := mul_nonneg (sphI_pos (c + 1 + 1) hY).le (sphK_pos (c + 1) hY).le
  rw [e]
  linarith

theorem cavB_tm_le (c : ℕ) {Y : ℝ} (hY : 0 < Y) : cavB true c Y ≤ (1 + Y) * cavB false c Y := by
  have hi := sphI_pos (c + 1) hY
  have hk := sphK_pos (c + 1) hY
  have hd := dI_pos c hY
  simp only [cavB]
  rw [div_le_iff₀ hd]
  have h1 : (c + 2) / Y * sphI (c + 1) Y ≤ dI c Y := by
    unfold dI
    have h := sphI_rec c hY.ne'
    have h2 := (sphI_pos (c + 2) hY).le
    have e : (2 * (c : ℝ) + 3) / Y = (c + 1) / Y + (c + 2) / Y := by ring
    rw [e, add_mul] at h
    linarith
  have h2 : dK c Y ≤ (1 + (c + 1) / Y) * sphK (c + 1) Y := by
    unfold dK
    have := (sphK_lt_succ c hY).le
    rw [add_mul, one_mul]
    linarith
  have h3 : (1 + Y) * (sphK (c + 1) Y / sphI (c + 1) Y) * ((c + 2) / Y * sphI (c + 1) Y) ≤
      (1 + Y) * (sphK (c + 1) Y / sphI (c + 1) Y) * dI c Y := mul_le_mul_of_nonneg_left h1 (by positivity)
  have e : (1 + Y) * (sphK (c + 1) Y / sphI (c + 1) Y) * ((c + 2) / Y * sphI (c + 1) Y) = (1 + Y) * ((c + 2) / Y) * sphK (c + 1) Y := by
    field_simp
  rw [e] at h3
  refine h2.trans (le_trans (mul_le_mul_of_nonneg_right ?_ hk.le) h3)
  have e2 : (1 + Y) * (((c : ℝ) + 2) / Y) = (c + 2) / Y + (c + 2) := by field_simp
  rw [e2]
  have : ((c : ℝ) + 1) / Y ≤ (c + 2) / Y := by gcongr; norm_num
  have : (0 : ℝ) ≤ c := Nat.cast_nonneg c
  linarith

theorem shV_bound {m c0 : ℕ} (hm : m ≤ c0 + 1) (n : ℕ) (u : Bool → ℕ → ℝ) (X : ℝ) : ∃ K : ℝ, 0 ≤ K ∧ ∀ P s x, n ≤ s → 0 < x → x ≤ X →
    |shV m c0 n u P s x| ≤ K * ((c0 : ℝ) + s + 2) ^ 3 * sphI (s - n) x := by
  have hr : ∀ r : ℕ, ∃ K : ℝ, 0 ≤ K ∧ ∀ b : ℕ, c0 + r + 1 ≤ b → m ≤ b → ∀ x, 0 < x → x ≤ X →
      ∀ P Q, |tI m x P Q (c0 + r + 1) b| ≤ K * (b + 1) ^ 3 * sphI (b - (c0 + r + 1)) x := fun r => tI_bound (by omega) X
  choose K hK0 hK using hr
  refine ⟨∑ r ∈ Finset.range n, K r * (|u false r| + |u true r|), Finset.sum_nonneg fun r _ => mul_nonneg (hK0 r) (by positivity), ?_⟩
  intro P s x hs hx hxX
  unfold shV
  refine (Finset.abs_sum_le_sum_abs _ _).trans ?_
  rw [Finset.sum_mul, Finset.sum_mul]
  refine Finset.sum_le_sum fun r hr => ?_
  have hrn := Finset.mem_range.mp hr
  have hb : ∀ Q, |tI m x Q P (c0 + r + 1) (c0 + s + 1)| ≤ K r * ((c0 : ℝ) + s + 2) ^ 3 * sphI (s - n) x := by
    intro Q
    refine (hK r (c0 + s + 1) (by omega) (by omega) x hx hxX Q P).trans ?_
    have e : (((c0 + s + 1 : ℕ) : ℝ) + 1) = (c0 : ℝ) + s + 2 := by push_cast; ring
    rw [e]
    have := hK0 r
    exact mul_le_mul_of_nonneg_left (sphI_anti (by omega) hx) (by positivity)
  refine (abs_add_le _ _).trans ?_
  rw [abs_mul, abs_mul]
  have h1 := mul_le_mul_of_nonneg_right (hb false) (abs_nonneg (u false r))
  have h2 := mul_le_mul_of_nonneg_right (hb true) (abs_nonneg (u true r))
  linarith

theorem ts_le_one {m c0 : ℕ} (hm : m ≤ c0 + 1) (s : ℕ) : ts m c0 s ≤ 1 := by
  have h := t1_sq (m := m) (l := c0 + s + 1) (by omega)
  have h0 := t1_nonneg m (c0 + s + 1)
  unfold ts
  refine (sq_le_one_iff₀ h0).mp ?_
  rw [h, div_le_one (by positivity)]
  push_cast
  have hl0 : (0 : ℝ) ≤ (c0 : ℝ) + s + 1 := by positivity
  generalize ((c0 : ℝ) + s + 1) = l at *
  have hm0 : (0 : ℝ) ≤ (m : ℝ) ^ 2 := by positivity
  have hl : 0 ≤ l * (l + 2) := by positivity
  calc l * (l + 2) * ((l + 1) ^ 2 - (m : ℝ) ^ 2) ≤ l * (l + 2) * (l + 1) ^ 2 := mul_le_mul_of_nonneg_left (by linarith) hl
    _ ≤ (l + 1) ^ 2 * ((2 * l + 1) * (2 * l + 3)) := by
        rw [mul_comm]
        exact mul_le_mul_of_nonneg_left (by nlinarith) (sq_nonneg _)

theorem shV_flow {m c0 : ℕ} (hm : m ≤ c0 + 1) (n : ℕ) (u : Bool → ℕ → ℝ) {y X : ℝ} (hy : 0 < y) (hX : 0 < X) : ∃ (C : ℝ) (d : ℕ), 0 ≤ C ∧
    ∀ p x, n ≤ p → 0 < x → x ≤ X → |2 * ts m c0 p * (cavB false (c0 + p) (y + x) * (shV m c0 n u false p x * shV m c0 n u false (p + 1) x) +
      cavB true (c0 + p) (y + x) * (shV m c0 n u true p x * shV m c0 n u true (p + 1) x))| ≤
        C * (((p : ℝ) + 1) ^ d * (X / (y + X)) ^ (2 * (p - n))) := by
  obtain ⟨K, hK, hV⟩ := shV_bound hm n u X
  obtain ⟨e, he⟩ : ∃ e, e = n + c0 + 1 := ⟨_, rfl⟩
  refine ⟨2 * (K * K * ((c0 : ℝ) + 3) ^ 6 * ((1 + (2 * c0 + 3) / y) ^ e) ^ 2 * (Real.pi / (2 * y ^ 2)) * (2 + y + X)), 6 + 2 * e, by
    have := Real.pi_pos; positivity, ?_⟩
  intro p x hp hx hxX
  set Y := y + x with hYd
  have hY : 0 < Y := by positivity
  set q := X / (y + X) with hq
  have hq0 : 0 < q := by positivity
  have hxY : x / Y ≤ q := by
    rw [hq, div_le_div_iff₀ hY (by positivity)]
    nlinarith
  have hc0 : (0 : ℝ) ≤ c0 := Nat.cast_nonneg c0
  have hp0 : (0 : ℝ) ≤ p := Nat.cast_nonneg p
  -- Bessel function
  have hB : sphI (p - n) x ≤ q ^ (p - n) * (((1 + (2 * c0 + 3) / y) * (p + 1)) ^ e * sphI (c0 + p + 1) Y) := by
    have h1 := sphI_scale (p - n) (q := x / Y) (ρ := Y) (by positivity) (by rw [div_le_one hY]; linarith) hY
    rw [div_mul_cancel₀ x hY.ne'] at h1
    have h2 := sphI_down (p - n) e hY
    rw [show p - n + e = c0 + p + 1 by omega] at h2
    refine h1.trans (mul_le_mul (pow_le_pow_left₀ (by positivity) hxY _) (h2.trans ?_) (sphI_pos _ hY).le (by positivity))
    refine mul_le_mul_of_nonneg_right (pow_le_pow_left₀ (by positivity) ?_ e) (sphI_pos _ hY).le
    have e1 : ((p - n : ℕ) : ℝ) + e = c0 + p + 1 := by
      rw [← Nat.cast_add, show p - n + e = c0 + p + 1 by omega]; push_cast; ring
    rw [e1]
    have e2 : (2 * ((c0 : ℝ) + p + 1) + 1) / Y ≤ (2 * (c0 + p + 1) + 1) / y := by
      gcongr; linarith
    have e3 : (2 * ((c0 : ℝ) + p + 1) + 1) / y ≤ (2 * c0 + 3) / y * (p + 1) := by
      rw [div_mul_eq_mul_div]
      gcongr
      nlinarith
    nlinarith
  have hsp := (sphI_pos (p - n) hx).le
  have hprod : ∀ P, |shV m c0 n u P p x * shV m c0 n u P (p + 1) x| ≤
      K * K * (((c0 : ℝ) + 3) * (p + 1)) ^ 6 * (q ^ (p - n) * (((1 + (2 * c0 + 3) / y) * (p + 1)) ^ e * sphI (c0 + p + 1) Y)) ^ 2 := by
    intro P
    have h1 := hV P p x hp hx hxX
    have h2 := hV P (p + 1) x (by omega) hx hxX
    push_cast at h2
    have a1 : (c0 : ℝ) + p + 2 ≤ (c0 + 3) * (p + 1) := by nlinarith
    have a2 : (c0 : ℝ) + (p + 1) + 2 ≤ (c0 + 3) * (p + 1) := by nlinarith
    have b1 : |shV m c0 n u P p x| ≤ K * (((c0 : ℝ) + 3) * (p + 1)) ^ 3 * sphI (p - n) x :=
      h1.trans (mul_le_mul_of_nonneg_right (mul_le_mul_of_nonneg_left (pow_le_pow_left₀ (by positivity) a1 3) hK) hsp)
    have b2 : |shV m c0 n u P (p + 1) x| ≤ K * (((c0 : ℝ) + 3) * (p + 1)) ^ 3 * sphI (p - n) x :=
      h2.trans (mul_le_mul (mul_le_mul_of_nonneg_left (pow_le_pow_left₀ (by positivity) a2 3) hK) (sphI_anti (by omega) hx)
        (sphI_pos _ hx).le (by positivity))
    rw [abs_mul]
    calc _ ≤ K * (((c0 : ℝ) + 3) * (p + 1)) ^ 3 * sphI (p - n) x * (K * (((c0 : ℝ) + 3) * (p + 1)) ^ 3 * sphI (p - n) x) :=
          mul_le_mul b1 b2 (abs_nonneg _) (by positivity)
      _ = K * K * (((c0 : ℝ) + 3) * (p + 1)) ^ 6 * sphI (p - n) x ^ 2 := by ring
      _ ≤ _ := mul_le_mul_of_nonneg_left (pow_le_pow_left₀ hsp hB 2) (by positivity)
  have hcav := cavB_sq (c0 + p) hY
  have hcav' : cavB false (c0 + p) Y * sphI (c0 + p + 1) Y ^ 2 ≤ Real.pi / (2 * y ^ 2) := by
    refine hcav.trans ?_
    have := Real.pi_pos
    have : y ≤ Y := by linarith
    gcongr
  have cpos := cavB_pos false (c0 + p) hY
  have cposM := cavB_pos true (c0 + p) hY
  have cM := cavB_tm_le (c0 + p) hY
  have hts := ts_le_one hm p
  have hts0 : 0 ≤ ts m c0 p := t1_nonneg _ _
  set R := K * K * (((c0 : ℝ) + 3) * (p + 1)) ^ 6 * (q ^ (p - n) * (((1 + (2 * c0 + 3) / y) * (p + 1)) ^ e * sphI (c0 + p + 1) Y)) ^ 2 with hR
  have hR0 : 0 ≤ R := by positivity
  rw [abs_mul, abs_of_nonneg (by positivity : 0 ≤ 2 * ts m c0 p)]
  have hsum : |cavB false (c0 + p) Y * (shV m c0 n u false p x * shV m c0 n u false (p + 1) x) +
      cavB true (c0 + p) Y * (shV m c0 n u true p x * shV m c0 n u true (p + 1) x)| ≤ (2 + y + X) * (cavB false (c0 + p) Y * R) := by
    refine (abs_add_le _ _).trans ?_
    rw [abs_mul (cavB false _ _), abs_mul (cavB true _ _), abs_of_pos cpos, abs_of_pos cposM]
    have h1 := mul_le_mul_of_nonneg_left (hprod false) cpos.le
    have h2 := mul_le_mul cM (hprod true) (abs_nonneg _) (by positivity)
    have h3 : (1 + Y) * cavB false (c0 + p) Y * R ≤ (1 + (y + X)) * cavB false (c0 + p) Y * R := by
      have : Y ≤ y + X := by linarith
      gcongr
    linarith
  calc _ ≤ 2 * 1 * ((2 + y + X) * (cavB false (c0 + p) Y * R)) := by
        refine mul_le_mul (by linarith) hsum (abs_nonneg _) (by norm_num)
    _ = 2 * (2 + y + X) * (K * K * (((c0 : ℝ) + 3) * (p + 1)) ^ 6 * (q ^ (p - n) * ((1 + (2 * c0 + 3) / y) * (p + 1)) ^ e) ^ 2) *
          (cavB false (c0 + p) Y * sphI (c0 + p + 1) Y ^ 2) := by rw [hR]; ring
    _ ≤ 2 * (2 + y + X) * (K * K * (((c0 : ℝ) + 3) * (p + 1)) ^ 6 * (q ^ (p - n) * ((1 + (2 * c0 + 3) / y) * (p + 1)) ^ e) ^ 2) *
          (Real.pi / (2 * y ^ 2)) := mul_le_mul_of_nonneg_left hcav' (by positivity)
    _ = _ := by
        generalize 1 + (2 * (c0 : ℝ) + 3) / y = z
        generalize (p : ℝ) + 1 = w
        generalize (c0 : ℝ) + 3 = v
        generalize 2 + y + X = t
        rw [pow_add w, pow_mul' w, pow_mul' q]
        simp only [mul_pow]
        ring

/-! ## the inequality -/

noncomputable def shE (m c0 n : ℕ) (u : Bool → ℕ → ℝ) (y : ℝ) (p : ℕ) (x : ℝ) : ℝ :=
  ∑ s ∈ Finset.range (p + 1), (cavB false (c0 + s) (y + x) * shV m c0 n u false s x ^ 2 + cavB true (c0 + s) (y + x) * shV m c0 n u true s x ^ 2)

theorem shE_deriv {m c0 : ℕ} (hm : m ≤ c0 + 1) (hc : c0 = 0 ∨ c0 + 1 = m) (n : ℕ) (u : Bool → ℕ → ℝ) {y x : ℝ} (hy : 0 < y + x) (p : ℕ) :
    ∃ d, HasDerivAt (shE m c0 n u y p) d x ∧ d ≤ -(2 * ts m c0 p * (cavB false (c0 + p) (y + x) *
      (shV m c0 n u false p x * shV m c0 n u false (p + 1) x) + cavB true (c0 + p) (y + x) *
      (shV m c0 n u true p x * shV m c0 n u true (p + 1) x))) := by
  have hb : ∀ {f : ℝ → ℝ} {f'}, HasDerivAt f f' (y + x) → HasDerivAt (fun x => f (y + x)) f' x := by
    intro f f' h
    have := HasDerivAt.comp x h ((hasDerivAt_id x).const_add y)
    rw [mul_one] at this
    exact this
  refine ⟨_, HasDerivAt.fun_sum (u := Finset.range (p + 1)) (x := x) (A := fun s x => cavB false (c0 + s) (y + x) * shV m c0 n u false s x ^ 2 +
      cavB true (c0 + s) (y + x) * shV m c0 n u true s x ^ 2) (fun s _ =>
      ((hb (cavB_deriv_E (c0 + s) hy)).mul ((shV_deriv hm hc n u false s x).pow 2)).add
        ((hb (cavB_deriv_M (c0 + s) hy)).mul ((shV_deriv hm hc n u true s x).pow 2))), ?_⟩
  refine le_trans (le_of_eq ?_) (energy_rate hm hy (fun s => shV m c0 n u false s x) (fun s => shV m c0 n u true s x) p)
  refine Finset.sum_congr rfl fun s _ => ?_
  simp only [Bool.not_false, Bool.not_true, Nat.cast_ofNat, Nat.add_one_sub_one, pow_one, Pi.pow_apply]
  ring

theorem shift_energy {m c0 : ℕ} (hm : m ≤ c0 + 1) (hc : c0 = 0 ∨ c0 + 1 = m) (n p : ℕ) (u : Bool → ℕ → ℝ) {y X : ℝ} (hy : 0 < y) (hX : 0 < X) :
    ∑ s ∈ Finset.range p, (cavB false (c0 + s) (y + X) * shV m c0 n u false s X ^ 2 + cavB true (c0 + s) (y + X) * shV m c0 n u true s X ^ 2) ≤
      ∑ r ∈ Finset.range n, (cavB false (c0 + r) y * u false r ^ 2 + cavB true (c0 + r) y * u true r ^ 2) := by
  obtain ⟨C, d, hC, hflow⟩ := shV_flow hm n u hy hX
  set q := X / (y + X) with hq
  have hq0 : 0 < q := by positivity
  have hq1 : q < 1 := by rw [hq, div_lt_one (by positivity)]; linarith
  set S := ∑ r ∈ Finset.range n, (cavB false (c0 + r) y * u false r ^ 2 + cavB true (c0 + r) y * u true r ^ 2) with hS
  have nn0 : ∀ s x, 0 < y + x → 0 ≤ cavB false (c0 + s) (y + x) * shV m c0 n u false s x ^ 2 + cavB true (c0 + s) (y + x) * shV m c0 n u true s x ^ 2 := by
    intro s x h
    have := cavB_pos false (c0 + s) h
    have := cavB_pos true (c0 + s) h
    positivity
  -- start
  have h0 : ∀ k, shE m c0 n u y k 0 ≤ S := by
    intro k
    unfold shE
    have e : ∀ s ∈ Finset.range (k + 1), cavB false (c0 + s) (y + 0) * shV m c0 n u false s 0 ^ 2 + cavB true (c0 + s) (y + 0) * shV m c0 n u true s 0 ^ 2 =
        if s < n then cavB false (c0 + s) y * u false s ^ 2 + cavB true (c0 + s) y * u true s ^ 2 else 0 := by
      intro s _
      rw [shV_at_zero hm, shV_at_zero hm, add_zero]
      split <;> simp
    rw [Finset.sum_congr rfl e, ← Finset.sum_filter, hS]
    refine Finset.sum_le_sum_of_subset_of_nonneg ?_ ?_
    · intro s hs
      exact Finset.mem_range.mpr (Finset.mem_filter.mp hs).2
    · intro s _ _
      have := cavB_pos false (c0 + s) hy
      have := cavB_pos true (c0 + s) hy
      positivity
  have hstep : ∀ k, n ≤ k → shE m c0 n u y k X ≤ S + C * (((k : ℝ) + 1) ^ d * q ^ (2 * (k - n))) * X := by
    intro k hk
    have hmv := Convex.image_sub_le_mul_sub_of_deriv_le (convex_Icc 0 X) (f := shE m c0 n u y k)
      (fun x hx => (Classical.choose_spec (shE_deriv hm hc n u (y := y) (x := x) (by linarith [hx.1]) k)).1.continuousAt.continuousWithinAt)
      (fun x hx => by
        rw [interior_Icc] at hx
        exact (Classical.choose_spec (shE_deriv hm hc n u (y := y) (x := x) (by linarith [hx.1]) k)).1.differentiableAt.differentiableWithinAt)
      (C := C * (((k : ℝ) + 1) ^ d * q ^ (2 * (k - n)))) (fun x hx => by
        rw [interior_Icc] at hx
        obtain ⟨dd, hd1, hd2⟩ := shE_deriv hm hc n u (y := y) (x := x) (by linarith [hx.1]) k
        rw [hd1.deriv]
        exact hd2.trans ((neg_le_abs _).trans (hflow k x hk hx.1 hx.2.le)))
      0 ⟨le_rfl, hX.le⟩ X ⟨hX.le, le_rfl⟩ hX.le
    have := h0 k
    rw [sub_zero] at hmv
    linarith
  have hlim : Tendsto (fun j : ℕ => S + C * (((j + n : ℕ) : ℝ) + 1) ^ d * q ^ (2 * j) * X) atTop (𝓝 S) := by
    have hr : |q ^ 2| < 1 := by rw [abs_of_pos (by positivity)]; exact pow_lt_one₀ hq0.le hq1 two_ne_zero
    have h1 := tendsto_pow_const_mul_const_pow_of_abs_lt_one d hr
    have h2 := ((tendsto_add_atTop_iff_nat 1).mpr h1).const_mul (C * ((n : ℝ) + 1) ^ d * X / q ^ 2)
    rw [mul_zero] at h2
    have h3 : Tendsto (fun j : ℕ => C * (((j + n : ℕ) : ℝ) + 1) ^ d * q ^ (2 * j) * X) atTop (𝓝 0) := by
      refine squeeze_zero (fun j => by positivity) (fun j => ?_) h2
      have a : (((j + n : ℕ) : ℝ) + 1) ≤ (n + 1) * ((j + 1 : ℕ) : ℝ) := by
        have : (0 : ℝ) ≤ (n : ℝ) * j := by positivity
        push_cast
        linarith
      have b := pow_le_pow_left₀ (by positivity) a d
      have e : C * ((n : ℝ) + 1) ^ d * X / q ^ 2 * (((j + 1 : ℕ) : ℝ) ^ d * (q ^ 2) ^ (j + 1)) =
          C * (((n : ℝ) + 1) * ((j + 1 : ℕ) : ℝ)) ^ d * q ^ (2 * j) * X := by
        rw [pow_succ (q ^ 2), mul_pow, pow_mul]
        field_simp
      rw [e]
      gcongr
    simpa using h3.const_add S
  have hfin : ∀ j, p ≤ n + j → ∑ s ∈ Finset.range p, (cavB false (c0 + s) (y + X) * shV m c0 n u false s X ^ 2 + cavB true (c0 + s) (y + X) * shV m c0 n u true s X ^ 2) ≤
      S + C * (((j + n : ℕ) : ℝ) + 1) ^ d * q ^ (2 * j) * X := by
    intro j hj
    have h := hstep (j + n) (by omega)
    rw [Nat.add_sub_cancel] at h
    refine (Finset.sum_le_sum_of_subset_of_nonneg ?_ ?_).trans (h.trans (le_of_eq (by ring)))
    · intro s hs
      exact Finset.mem_range.mpr (by have := Finset.mem_range.mp hs; omega)
    · intro s _ _
      exact nn0 s X (by positivity)
  exact ge_of_tendsto hlim (eventually_atTop.mpr ⟨p, fun j hj => hfin j (by omega)⟩)

end CasSph
