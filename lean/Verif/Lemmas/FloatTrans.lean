import Verif.Spec.FlTrans
import Verif.Spec.FlMie
import Verif.Lemmas.FloatBlocks
import Verif.Lemmas.Translation

/-! # Rounding errors of `get_vl1l2` -/

namespace CasSph

open Spec

namespace Cl

variable {w X x' x : ℝ}

theorem self (x : ℝ) : Cl 1 |x| x x := ⟨le_rfl, le_rfl, by simp⟩

theorem of_rel {u a b : ℝ} (hu : 0 ≤ u) (h : |a - b| ≤ u * |b|) : Cl (1 + u) |b| a b := ⟨by linarith, le_rfl, by rwa [add_sub_cancel_left]⟩

theorem sqrt {a b : ℝ} (hb : 0 < b) (ha : 0 ≤ a) (h : Cl w b a b) : Cl w (Real.sqrt b) (Real.sqrt a) (Real.sqrt b) := by
  have sb := Real.sqrt_pos.2 hb
  refine ⟨h.1, (abs_of_pos sb).le, ?_⟩
  have e : (Real.sqrt a - Real.sqrt b) * (Real.sqrt a + Real.sqrt b) = a - b := by
    have h1 := Real.mul_self_sqrt ha
    have h2 := Real.mul_self_sqrt hb.le
    linear_combination h1 - h2
  have h2 : |Real.sqrt a - Real.sqrt b| * Real.sqrt b ≤ |a - b| := by
    rw [← e, abs_mul, abs_of_pos (show 0 < Real.sqrt a + Real.sqrt b by positivity)]
    exact mul_le_mul_of_nonneg_left (by linarith [Real.sqrt_nonneg a]) (abs_nonneg _)
  have h3 : |Real.sqrt a - Real.sqrt b| * Real.sqrt b ≤ (w - 1) * Real.sqrt b * Real.sqrt b := by
    rw [mul_assoc, Real.mul_self_sqrt hb.le]
    exact h2.trans h.2.2
  exact le_of_mul_le_mul_right h3 sb

end Cl

variable {A : FlMie} {u : ℝ}

theorem near_nonneg {a b : ℝ} (hu : u ≤ 1) (hb : 0 ≤ b) (h : |a - b| ≤ u * |b|) : 0 ≤ a := by
  rw [abs_of_nonneg hb] at h
  have := (abs_le.mp h).1
  nlinarith

theorem sqrtPi_cl (hA : RelErrM A u) : Cl ((1 + u) ^ 2) (Real.sqrt Real.pi) (A.sqrt A.pi) (Real.sqrt Real.pi) := by
  have u0 := hA.u0
  have u1 := hA.u1
  have hp : |A.pi - Real.pi| ≤ u * |Real.pi| := by rw [abs_of_pos Real.pi_pos]; exact hA.pi
  have p0 : 0 ≤ A.pi := near_nonneg (by linarith) Real.pi_pos.le hp
  have c := Cl.of_rel u0 hp
  rw [abs_of_pos Real.pi_pos] at c
  have := (c.sqrt Real.pi_pos p0).fl u0 (z := A.sqrt A.pi) (by rw [abs_of_nonneg (Real.sqrt_nonneg _)]; exact hA.sqrt _ p0)
  rwa [← sq] at this

theorem sqrtQuot_cl (hA : RelErrM A u) {a b : ℝ} (ha : 0 < a) (hb : 0 < b) : Cl ((1 + u) ^ 2) (Real.sqrt (a / b)) (A.sqrt (A.div a b)) (Real.sqrt (a / b)) := by
  have u0 := hA.u0
  have u1 := hA.u1
  have q0 := div_pos ha hb
  have hd := hA.div a b hb.ne'
  have p0 : 0 ≤ A.div a b := near_nonneg (by linarith) q0.le hd
  have c := Cl.of_rel u0 hd
  rw [abs_of_pos q0] at c
  have := (c.sqrt q0 p0).fl u0 (z := A.sqrt (A.div a b)) (by rw [abs_of_nonneg (Real.sqrt_nonneg _)]; exact hA.sqrt _ p0)
  rwa [← sq] at this

theorem twoPi_cl (hA : RelErrM A u) : Cl ((1 + u) ^ 3) (2 / Real.pi) (A.div 2 A.pi) (2 / Real.pi) := by
  have u0 := hA.u0
  have u1 := hA.u1
  have pp := Real.pi_pos
  obtain ⟨h1, h2⟩ := abs_le.mp hA.pi
  have p1 : 99 / 100 * Real.pi ≤ A.pi := by nlinarith
  have p0 : 0 < A.pi := lt_of_lt_of_le (by positivity) p1
  have c : Cl ((1 + u) ^ 2) (2 / Real.pi) (2 / A.pi) (2 / Real.pi) := by
    refine ⟨one_le_pow₀ (by linarith), (abs_of_pos (by positivity)).le, ?_⟩
    rw [show 2 / A.pi - 2 / Real.pi = 2 / Real.pi * ((Real.pi - A.pi) / A.pi) by field_simp, abs_mul, abs_of_pos (show 0 < 2 / Real.pi by positivity), mul_comm]
    refine mul_le_mul_of_nonneg_right ?_ (by positivity)
    rw [abs_div, abs_of_pos p0, div_le_iff₀ p0, abs_sub_comm]
    refine hA.pi.trans ?_
    nlinarith [mul_le_mul_of_nonneg_left p1 u0, mul_nonneg (mul_nonneg u0 u0) p0.le, mul_nonneg u0 pp.le]
  exact (c.fl u0 (hA.div 2 A.pi p0.ne')).mono (le_of_eq (by ring))

theorem commonFac_abs (ext : Bool) (m : ℤ) (l1 l2 p : ℕ) : |commonFac ext m l1 l2 p| =
    Real.sqrt Real.pi * Real.sqrt ((2 * p + 1) / (l1 * (l1 + 1) * (l2 * (l2 + 1)))) * (2 / Real.pi) ^ (if ext then 1 else 0 : ℕ) := by
  have hs : ∀ k : ℤ, |((-1 : ℝ)) ^ k| = 1 := fun k => by rw [abs_zpow, abs_neg, abs_one, one_zpow]
  unfold commonFac
  simp only [abs_mul, hs, one_mul, abs_of_nonneg (Real.sqrt_nonneg _)]
  cases ext
  · simp
  · simp
    left
    positivity

/-- `common_ab` from the entry of `sphB_gnt`. -/
theorem common_cl (hA : RelErrM A u) (ext : Bool) (m : ℤ) {l1 l2 : ℕ} (h1 : 1 ≤ l1) (h2 : 1 ≤ l2) (p : ℕ) {w X s' s : ℝ} (h : Cl w X s' s) :
    Cl (w * (1 + u) ^ 12) (X * |commonFac ext m l1 l2 p|) (A.common ext m l1 l2 p s') (s * commonFac ext m l1 l2 p) := by
  have u0 := hA.u0
  have hs : ∀ k : ℤ, |((-1 : ℝ)) ^ k| = 1 := fun k => by rw [abs_zpow, abs_neg, abs_one, one_zpow]
  have hl1 : (0 : ℝ) < l1 := by exact_mod_cast h1
  have hl2 : (0 : ℝ) < l2 := by exact_mod_cast h2
  have c1 := Cl.self ((-1) ^ ((p : ℤ) - ((p : ℤ) - 1) * (if ext then 1 else 0)) * (-1) ^ m)
  rw [abs_mul, hs, hs, one_mul] at c1
  have c2 := (c1.mul (sqrtPi_cl hA)).fl u0 (hA.mul _ _)
  have c3 := (c2.mul h).fl u0 (hA.mul _ _)
  have c4 := (c3.mul (sqrtQuot_cl hA (a := 2 * p + 1) (b := l1 * (l1 + 1) * (l2 * (l2 + 1))) (by positivity) (by positivity))).fl u0 (hA.mul _ _)
  have c5 : Cl ((1 + u) ^ 4) ((2 / Real.pi) ^ (if ext then 1 else 0 : ℕ)) (A.pow (A.div 2 A.pi) (if ext then 1 else 0)) ((2 / Real.pi) ^ (if ext then 1 else 0 : ℕ)) := by
    cases ext
    · have := Cl.one.fl u0 (z := A.pow (A.div 2 A.pi) 0) (by simpa using hA.pow (A.div 2 A.pi) 0)
      simp only [Bool.false_eq_true, if_false, pow_zero]
      refine this.mono ?_
      rw [one_mul]
      exact le_self_pow₀ (by linarith) (by norm_num)
    · have := (twoPi_cl hA).fl u0 (z := A.pow (A.div 2 A.pi) 1) (by simpa using hA.pow (A.div 2 A.pi) 1)
      simp only [if_true, pow_one]
      exact this.mono (le_of_eq (by ring))
  have c6 := (c4.mul c5).fl u0 (hA.mul _ _)
  refine Eq.mp ?_ c6
  congr 1
  · ring
  · rw [commonFac_abs]; ring
  · unfold commonFac
    cases ext
    · simp; ring
    · simp; ring

/-- A scaled Bessel function times a Gaunt coefficient. -/
theorem sphB_cl (hA : RelErrM A u) {b b' n' g g' G δ γ W : ℝ} (hδ : |b' - b| ≤ δ) (hW : |b' - n'| ≤ W) (hγ : 0 ≤ γ) (hG : |g| ≤ G) (hg : |g' - g| ≤ γ * G) :
    Cl ((1 + γ) * Real.exp (δ + u * W) * (1 + u) ^ 2) (Real.exp (b - n') * G) (A.mul (A.exp (A.sub b' n')) g') (Real.exp (b - n') * g) := by
  have u0 := hA.u0
  have hz : |A.sub b' n' - (b - n')| ≤ δ + u * W := by
    have := abs_add_le (A.sub b' n' - (b' - n')) (b' - b)
    rw [show A.sub b' n' - (b' - n') + (b' - b) = A.sub b' n' - (b - n') by ring] at this
    have := hA.sub b' n'
    have := mul_le_mul_of_nonneg_left hW u0
    linarith
  have c1 := (Cl.expo hz).mul (Cl.self (Real.exp (b - n')))
  rw [← Real.exp_add, sub_add_cancel, one_mul, one_mul, mul_one, abs_of_pos (Real.exp_pos _)] at c1
  have c2 := c1.fl u0 (z := A.exp (A.sub b' n')) (by rw [abs_of_pos (Real.exp_pos _)]; exact hA.exp _)
  have cg : Cl (1 + γ) G g' g := ⟨by linarith, hG, by rwa [add_sub_cancel_left]⟩
  exact ((c2.mul cg).fl u0 (hA.mul _ _)).mono (le_of_eq (by ring))

/-- The value of `get_vl1l2` for tables that are long enough. -/
theorem flGetV_ok (A : FlMie) (sum : (p : ℕ) → (Fin p → ℝ) → ℝ) (ext : Bool) (m : ℤ) (nL : ℝ) {bes g : List ℝ} {l1 l2 : ℕ} (h : l1 + l2 < bes.length)
    (hg : g.length = min l1 l2 + 1) :
    let p : ℕ → ℕ := fun i => lppMin l1 l2 + 2 * i
    let q : ℕ → ℝ := fun i => A.common ext m l1 l2 (p i) (A.mul (A.exp (A.sub (bes.getD (p i) 0) (besNorm ext bes l1 l2))) (g.getD i 0))
    A.getVl1l2 sum ext m nL bes g l1 l2 = .ok
      { EEab := sum (lppArr l1 l2).length fun i => A.mul (weightEE l1 l2 (p i)) (q i)
        EEba := sum (lppArr l1 l2).length fun i => A.mul (A.mul (weightEE l1 l2 (p i)) (q i)) ((-1) ^ p i)
        EMab := sum (lppArr l1 l2).length fun i => A.mul (A.mul (2 * m) nL) (q i)
        EMba := sum (lppArr l1 l2).length fun i => A.mul (-A.mul (A.mul (2 * m) nL) (q i)) ((-1) ^ p i)
        sk := besNorm ext bes l1 l2 } := by
  intro p q
  have hle := lppMin_le l1 l2
  have hlen : (lppArr l1 l2).length = min l1 l2 + 1 := by rw [lppArr_eq]; simp
  have hmap : (lppArr l1 l2).mapM (cget bes) = .ok ((lppArr l1 l2).map fun p => bes.getD p 0) := by
    refine mapM_ok fun p hp => ?_
    rw [lppArr_eq] at hp
    obtain ⟨i, hi, rfl⟩ := List.mem_map.mp hp
    rw [List.mem_range] at hi
    refine cget_ok ?_
    rw [List.getD_eq_getElem?_getD, List.getElem?_eq_getElem (by omega)]; rfl
  have hp : ∀ i, i < (lppArr l1 l2).length → (lppArr l1 l2).getD i 0 = p i := fun i hi => by
    rw [List.getD_eq_getElem?_getD, lppArr_eq, List.getElem?_map, List.getElem?_range (by omega)]; rfl
  have hb : ∀ i, i < (lppArr l1 l2).length → ((lppArr l1 l2).map fun p => bes.getD p 0).getD i 0 = bes.getD (p i) 0 := fun i hi => by
    rw [List.getD_eq_getElem?_getD, List.getElem?_map, lppArr_eq, List.getElem?_map, List.getElem?_range (by omega)]; rfl
  have hn : cget ((lppArr l1 l2).map fun p => bes.getD p 0) (if ext then ((lppArr l1 l2).map fun p => bes.getD p 0).length - 1 else 0) = .ok (besNorm ext bes l1 l2) := by
    refine cget_ok ?_
    rw [List.length_map, hlen, lppArr_eq, List.map_map, List.getElem?_map]
    cases ext
    · rw [List.getElem?_range (by simp)]
      simp [besNorm]
    · rw [List.getElem?_range (by simp)]
      simp [besNorm, hle]
  unfold FlMie.getVl1l2
  simp only [hmap, ok_bind, hn]
  rw [if_neg (by rw [hlen, hg]; simp)]
  congr 2 <;> · congr 1; funext i; simp only [hp _ i.2, hb _ i.2, q, weightEE]

/-- Sum of the computed terms, multiplied by the scale. -/
theorem transSum_cl (hA : RelErrM A u) {sum : (p : ℕ) → (Fin p → ℝ) → ℝ} (hS : Sums A.toFlFun sum) {w : ℝ} {l1 l2 : ℕ} {F f f' : ℕ → ℝ}
    (h : ∀ i ≤ min l1 l2, Cl w (F i) (f' i) (f i)) (n : ℝ) :
    |sum (lppArr l1 l2).length (fun i => f' i) * Real.exp n - (∑ i ∈ Finset.range (min l1 l2 + 1), f i) * Real.exp n| ≤
      (w * (1 + u) ^ (min l1 l2 + 1) - 1) * ∑ i ∈ Finset.range (min l1 l2 + 1), F i * Real.exp n := by
  have hlen : (lppArr l1 l2).length = min l1 l2 + 1 := by rw [lppArr_eq]; simp
  have c := SumOf.cl hA.toRelErr (hS (lppArr l1 l2).length fun i => f' i) (h 0 (Nat.zero_le _)).1 (fun i : Fin (lppArr l1 l2).length => f i) (fun i => F i)
    (List.finRange _) (fun i => f' i) (fun i _ => h i (by have := i.2; omega)) (List.ofFn_eq_map ..)
  rw [List.length_ofFn, ← List.ofFn_eq_map, ← List.ofFn_eq_map, List.sum_ofFn, List.sum_ofFn, Fin.sum_univ_eq_sum_range, Fin.sum_univ_eq_sum_range, hlen] at c
  rw [hlen, ← sub_mul, abs_mul, abs_of_pos (Real.exp_pos n), ← Finset.sum_mul, ← mul_assoc]
  exact mul_le_mul_of_nonneg_right c.2.2 (Real.exp_pos n).le

end CasSph
