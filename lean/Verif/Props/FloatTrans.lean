import Verif.Lemmas.FloatTrans
import Verif.Lemmas.FloatMie
import Verif.Props.FloatBessel
import Verif.Props.TransIntegral
import Verif.Props.GauntIntegral
import Verif.Props.FloatMie

/-! # C145: translation coefficients in rounded arithmetic -/

namespace CasSph

open Spec

variable {A : FlMie} {u : ℝ}

/-- **C145.** `get_vl1l2` with rounded operations: the coefficients, multiplied by their common scale, differ from the exact ones by at most
`transErr` times the sum of the moduli of the terms. -/
theorem C145_translation (hA : RelErrM A u) {sum : (p : ℕ) → (Fin p → ℝ) → ℝ} (hS : Sums A.toFlFun sum) (ext : Bool) (m : ℤ) {l1 l2 : ℕ} (h1 : 1 ≤ l1) (h2 : 1 ≤ l2)
    {nL nL' δ γ ν W : ℝ} {bes bes' g g' : List ℝ} {G : ℕ → ℝ} (hb : l1 + l2 < bes.length) (hb' : l1 + l2 < bes'.length)
    (hδ : ∀ p ≤ l1 + l2, |bes'.getD p 0 - bes.getD p 0| ≤ δ)
    (hW : ∀ p ≤ l1 + l2, |bes'.getD p 0 - bes'.getD (if ext then l1 + l2 else ((l1 : ℤ) - l2).natAbs) 0| ≤ W)
    (hg : gaunt l1 l2 m = .ok g) (hgl : g'.length = g.length) (hγ : 0 ≤ γ) (hG : ∀ i ≤ min l1 l2, |g.getD i 0| ≤ G i)
    (hgg : ∀ i ≤ min l1 l2, |g'.getD i 0 - g.getD i 0| ≤ γ * G i) (hν : 0 ≤ ν) (hn : |nL' - nL| ≤ ν * |nL|) :
    ∃ V V', getVl1l2 ext m nL bes l1 l2 = .ok V ∧ A.getVl1l2 sum ext m nL' bes' g' l1 l2 = .ok V' ∧
      V'.sk = bes'.getD (if ext then l1 + l2 else ((l1 : ℤ) - l2).natAbs) 0 ∧
      |V'.EEab * Real.exp V'.sk - V.EEab * Real.exp V.sk| ≤ transErr u δ γ ν W (min l1 l2) * transSize ext m bes G l1 l2 (weightEE l1 l2) ∧
      |V'.EEba * Real.exp V'.sk - V.EEba * Real.exp V.sk| ≤ transErr u δ γ ν W (min l1 l2) * transSize ext m bes G l1 l2 (weightEE l1 l2) ∧
      |V'.EMab * Real.exp V'.sk - V.EMab * Real.exp V.sk| ≤ transErr u δ γ ν W (min l1 l2) * transSize ext m bes G l1 l2 (weightEM m nL) ∧
      |V'.EMba * Real.exp V'.sk - V.EMba * Real.exp V.sk| ≤ transErr u δ γ ν W (min l1 l2) * transSize ext m bes G l1 l2 (weightEM m nL) := by
  have u0 := hA.u0
  have hle := lppMin_le l1 l2
  rw [gaunt_ok] at hg
  cases hg
  have hgl' : g'.length = min l1 l2 + 1 := by rw [hgl]; simp
  have eg : ∀ i ≤ min l1 l2, ((List.range (min l1 l2 + 1)).map (gnt l1 l2 m)).getD i 0 = gnt l1 l2 m i := fun i hi => by
    rw [List.getD_eq_getElem?_getD, List.getElem?_map, List.getElem?_range (by omega)]; rfl
  refine ⟨_, _, getVl1l2_ok ext m nL hb, flGetV_ok A sum ext m nL' hb' hgl', rfl, ?_⟩
  set n' := besNorm ext bes' l1 l2 with hn'
  set p : ℕ → ℕ := fun i => lppMin l1 l2 + 2 * i with hp
  set q' : ℕ → ℝ := fun i => A.common ext m l1 l2 (p i) (A.mul (A.exp (A.sub (bes'.getD (p i) 0) n')) (g'.getD i 0)) with hq'
  set q : ℕ → ℝ := fun i => Real.exp (bes.getD (p i) 0 - n') * gnt l1 l2 m i * commonFac ext m l1 l2 (p i) with hq
  set Q : ℕ → ℝ := fun i => Real.exp (bes.getD (p i) 0 - n') * G i * |commonFac ext m l1 l2 (p i)| with hQ
  set E := (1 + γ) * Real.exp (δ + u * W) * (1 + u) ^ 14 with hE
  have ple : ∀ i ≤ min l1 l2, p i ≤ l1 + l2 := fun i hi => by simp only [hp]; omega
  have key : ∀ i ≤ min l1 l2, Cl E (Q i) (q' i) (q i) := fun i hi => by
    have c := sphB_cl hA (g := gnt l1 l2 m i) (g' := g'.getD i 0) (G := G i) (hδ _ (ple i hi)) (hW _ (ple i hi)) hγ (by rw [← eg i hi]; exact hG i hi) (by rw [← eg i hi]; exact hgg i hi)
    exact (common_cl hA ext m h1 h2 (p i) c).mono (le_of_eq (by rw [hE]; ring))
  have E1 : 1 ≤ E := (key 0 (Nat.zero_le _)).1
  have kEE : ∀ i ≤ min l1 l2, Cl (E * (1 + u)) (|weightEE l1 l2 (p i)| * Q i) (A.mul (weightEE l1 l2 (p i)) (q' i)) (weightEE l1 l2 (p i) * q i) := fun i hi =>
    (((Cl.self _).mul (key i hi)).fl u0 (hA.mul _ _)).mono (le_of_eq (by ring))
  have kn : Cl ((1 + ν) * (1 + u)) |2 * m * nL| (A.mul (2 * m) nL') (2 * m * nL) := by
    have := ((Cl.self (2 * (m : ℝ))).mul (Cl.of_rel hν hn)).fl u0 (hA.mul (2 * m) nL')
    rw [← abs_mul] at this
    exact this.mono (le_of_eq (by ring))
  have kEM : ∀ i ≤ min l1 l2, Cl ((1 + ν) * E * (1 + u) ^ 2) (|weightEM m nL (p i)| * Q i) (A.mul (A.mul (2 * m) nL') (q' i)) (weightEM m nL (p i) * q i) := fun i hi =>
    ((kn.mul (key i hi)).fl u0 (hA.mul _ _)).mono (le_of_eq (by ring))
  have sgn : ∀ i, Cl 1 1 ((-1 : ℝ) ^ p i) ((-1) ^ p i) := fun i => by
    have := Cl.self ((-1 : ℝ) ^ p i)
    rwa [abs_pow, abs_neg, abs_one, one_pow] at this
  have kEEb : ∀ i ≤ min l1 l2, Cl (E * (1 + u) ^ 2) (|weightEE l1 l2 (p i)| * Q i) (A.mul (A.mul (weightEE l1 l2 (p i)) (q' i)) ((-1) ^ p i)) (weightEE l1 l2 (p i) * q i * (-1) ^ p i) := fun i hi => by
    have := ((kEE i hi).mul (sgn i)).fl u0 (hA.mul _ _)
    rw [mul_one, mul_one] at this
    exact this.mono (le_of_eq (by ring))
  have kEMb : ∀ i ≤ min l1 l2, Cl ((1 + ν) * E * (1 + u) ^ 3) (|weightEM m nL (p i)| * Q i) (A.mul (-A.mul (A.mul (2 * m) nL') (q' i)) ((-1) ^ p i)) (-(weightEM m nL (p i) * q i) * (-1) ^ p i) := fun i hi => by
    have h0 := kEM i hi
    have hneg : Cl ((1 + ν) * E * (1 + u) ^ 2) (|weightEM m nL (p i)| * Q i) (-A.mul (A.mul (2 * m) nL') (q' i)) (-(weightEM m nL (p i) * q i)) :=
      ⟨h0.1, by rw [abs_neg]; exact h0.2.1, by rw [neg_sub_neg, abs_sub_comm]; exact h0.2.2⟩
    have := (hneg.mul (sgn i)).fl u0 (hA.mul _ _)
    rw [mul_one, mul_one] at this
    exact this.mono (le_of_eq (by ring))
  have fin : ∀ {w : ℝ} {c : ℕ → ℝ} {f f' : ℕ → ℝ} {v : ℝ}, (∀ i ≤ min l1 l2, Cl w (|c (p i)| * Q i) (f' i) (f i)) → w ≤ (1 + ν) * E * (1 + u) ^ 3 →
      (∑ i ∈ Finset.range (min l1 l2 + 1), f i) * Real.exp n' = v * Real.exp (besNorm ext bes l1 l2) →
      |sum (lppArr l1 l2).length (fun i => f' i) * Real.exp n' - v * Real.exp (besNorm ext bes l1 l2)| ≤
        transErr u δ γ ν W (min l1 l2) * transSize ext m bes G l1 l2 c := fun {w c f f' v} h hw hv => by
    have := transSum_cl hA hS (l1 := l1) (l2 := l2) h n'
    rw [hv] at this
    refine this.trans ?_
    have es : ∑ i ∈ Finset.range (min l1 l2 + 1), |c (p i)| * Q i * Real.exp n' = transSize ext m bes G l1 l2 c := by
      unfold transSize
      refine Finset.sum_congr rfl fun i _ => ?_
      have : Real.exp (bes.getD (p i) 0 - n') * Real.exp n' = Real.exp (bes.getD (p i) 0) := by rw [← Real.exp_add, sub_add_cancel]
      show _ = |c (p i)| * (Real.exp (bes.getD (p i) 0) * G i * |commonFac ext m l1 l2 (p i)|)
      rw [← this]
      simp only [hQ]
      ring
    rw [es]
    have s0 : 0 ≤ transSize ext m bes G l1 l2 c := by
      rw [← es]
      exact Finset.sum_nonneg fun i hi => mul_nonneg ((h i (by have := Finset.mem_range.mp hi; omega)).nonneg) (Real.exp_pos _).le
    refine mul_le_mul_of_nonneg_right ?_ s0
    unfold transErr
    have p0 : 0 ≤ (1 + u) ^ (min l1 l2 + 1) := by positivity
    have := mul_le_mul_of_nonneg_right hw p0
    have e : (1 + ν) * E * (1 + u) ^ 3 * (1 + u) ^ (min l1 l2 + 1) = (1 + γ) * (1 + ν) * Real.exp (δ + u * W) * (1 + u) ^ (min l1 l2 + 18) := by rw [hE]; ring
    linarith
  have exq : ∀ i, q i * Real.exp n' = vCommon ext m bes l1 l2 i * Real.exp (besNorm ext bes l1 l2) := fun i => by
    have a : Real.exp (bes.getD (p i) 0 - n') * Real.exp n' = Real.exp (bes.getD (p i) 0) := by rw [← Real.exp_add, sub_add_cancel]
    have b : Real.exp (bes.getD (p i) 0 - besNorm ext bes l1 l2) * Real.exp (besNorm ext bes l1 l2) = Real.exp (bes.getD (p i) 0) := by rw [← Real.exp_add, sub_add_cancel]
    unfold vCommon
    show Real.exp (bes.getD (p i) 0 - n') * gnt l1 l2 m i * commonFac ext m l1 l2 (p i) * Real.exp n' =
      Real.exp (bes.getD (p i) 0 - besNorm ext bes l1 l2) * gnt l1 l2 m i * commonFac ext m l1 l2 (p i) * Real.exp (besNorm ext bes l1 l2)
    linear_combination (gnt l1 l2 m i * commonFac ext m l1 l2 (p i)) * (a - b)
  have v1 : 1 ≤ 1 + u := by linarith
  have w1 : E * (1 + u) ≤ (1 + ν) * E * (1 + u) ^ 3 := by
    have : (1 + u) ≤ (1 + u) ^ 3 := le_self_pow₀ v1 (by norm_num)
    have h3 : E ≤ (1 + ν) * E := le_mul_of_one_le_left (by linarith) (by linarith)
    exact mul_le_mul h3 this (by linarith) (by linarith)
  have w2 : E * (1 + u) ^ 2 ≤ (1 + ν) * E * (1 + u) ^ 3 := by
    have : (1 + u) ^ 2 ≤ (1 + u) ^ 3 := pow_le_pow_right₀ v1 (by norm_num)
    have h3 : E ≤ (1 + ν) * E := le_mul_of_one_le_left (by linarith) (by linarith)
    exact mul_le_mul h3 this (by positivity) (by linarith)
  have w3 : (1 + ν) * E * (1 + u) ^ 2 ≤ (1 + ν) * E * (1 + u) ^ 3 :=
    mul_le_mul_of_nonneg_left (pow_le_pow_right₀ v1 (by norm_num)) (by nlinarith)
  refine ⟨fin kEE w1 ?_, fin kEEb w2 ?_, fin kEM w3 ?_, fin kEMb le_rfl ?_⟩
  all_goals
    simp only [vVal, Finset.sum_mul]
    refine Finset.sum_congr rfl fun i _ => ?_
    have := exq i
    simp only [weightEE, weightEM, hp] at this ⊢
  · linear_combination ((l1 * (l1 + 1) + l2 * (l2 + 1) : ℝ) - ((lppMin l1 l2 + 2 * i : ℕ) : ℝ) * (((lppMin l1 l2 + 2 * i : ℕ) : ℝ) + 1)) * this
  · linear_combination ((l1 * (l1 + 1) + l2 * (l2 + 1) : ℝ) - ((lppMin l1 l2 + 2 * i : ℕ) : ℝ) * (((lppMin l1 l2 + 2 * i : ℕ) : ℝ) + 1)) * (-1) ^ (lppMin l1 l2 + 2 * i) * this
  · linear_combination (2 * (m : ℝ) * nL) * this
  · linear_combination -(2 * (m : ℝ) * nL) * (-1) ^ (lppMin l1 l2 + 2 * i) * this

/-! ## With the Bessel functions that the code computes -/

theorem lnk1_diff {x : ℝ} (hx : 0 < x) {p N : ℕ} (h : p ≤ N) : 0 ≤ lnk1 x N - lnk1 x p ∧ lnk1 x N - lnk1 x p ≤ N * Real.log (1 + 2 * N / x) := by
  have step : ∀ j, lnk1 x (j + 1) ≤ lnk1 x j + Real.log (1 + (2 * j + 1) / x) := fun j => by
    rw [lnk1_eq hx, lnk1_eq hx, ← Real.log_mul (sphK_pos j hx).ne' (by positivity)]
    refine Real.log_le_log (sphK_pos _ hx) ?_
    have := sphK_step j hx
    rw [show sphK j x * (1 + (2 * j + 1) / x) = (x + (2 * j + 1)) * sphK j x / x by field_simp, le_div_iff₀ hx]
    linarith
  have L0 : 0 ≤ Real.log (1 + 2 * N / x) := Real.log_nonneg (by have : 0 ≤ 2 * (N : ℝ) / x := by positivity
                                                                linarith)
  refine ⟨?_, ?_⟩
  · rw [lnk1_eq hx, lnk1_eq hx]
    have := Real.log_le_log (sphK_pos p hx) (sphK_mono h hx)
    linarith
  · have up : ∀ j, p + j ≤ N → lnk1 x (p + j) ≤ lnk1 x p + j * Real.log (1 + 2 * N / x) := by
      intro j
      induction j with
      | zero => simp
      | succ j ih =>
        intro hj
        have h1 := ih (by omega)
        have hj' : ((p + j : ℕ) : ℝ) + 1 ≤ N := by exact_mod_cast (show p + j + 1 ≤ N by omega)
        have : Real.log (1 + (2 * ((p + j : ℕ) : ℝ) + 1) / x) ≤ Real.log (1 + 2 * N / x) := by
          apply Real.log_le_log (by positivity)
          have : (2 * ((p + j : ℕ) : ℝ) + 1) / x ≤ 2 * N / x := by gcongr; linarith
          linarith
        have := step (p + j)
        rw [← add_assoc]
        push_cast at *
        linarith
    have := up (N - p) (by omega)
    rw [Nat.add_sub_cancel' h] at this
    have h3 : ((N - p : ℕ) : ℝ) ≤ N := by exact_mod_cast Nat.sub_le N p
    have := mul_le_mul_of_nonneg_right h3 L0
    linarith

theorem getD_row (f : ℕ → ℝ) {p n : ℕ} (h : p ≤ n) : ((List.range (n + 1)).map f).getD p 0 = f p := by
  rw [List.getD_eq_getElem?_getD, List.getElem?_map, List.getElem?_range (by omega)]; rfl

/-- **C145.** The coefficients for two separate spheres, with the Bessel functions of `lnknu` rounded as well. -/
theorem C145_exterior (hA : RelErrM A u) {sum : (p : ℕ) → (Fin p → ℝ) → ℝ} (hS : Sums A.toFlFun sum) (m : ℤ) {l1 l2 n : ℕ} (h1 : 1 ≤ l1) (h2 : 1 ≤ l2) (hn : l1 + l2 ≤ n)
    {x δ γ : ℝ} (hx : 0 < x) (hu : 32 * ((l1 + l2 : ℕ) + 1) * u ≤ 1)
    (hδ : δ = 8 * ((l1 + l2 : ℕ) + 1) * u * (4 + 2 * |Real.log x| + x + (l1 + l2 : ℕ) * Real.log (1 + 2 * (l1 + l2 : ℕ) / x)))
    {g g' : List ℝ} {G : ℕ → ℝ} (hg : gaunt l1 l2 m = .ok g) (hgl : g'.length = g.length) (hγ : 0 ≤ γ) (hG : ∀ i ≤ min l1 l2, |g.getD i 0| ≤ G i)
    (hgg : ∀ i ≤ min l1 l2, |g'.getD i 0 - g.getD i 0| ≤ γ * G i) :
    ∃ bes bes' V V' err, transBessels [x] (.int n) 1 = .ok [bes] ∧ A.lnknu [x] n = [bes'] ∧ getVl1l2 true m x bes l1 l2 = .ok V ∧ A.getVl1l2 sum true m x bes' g' l1 l2 = .ok V' ∧
      err = transErr u δ γ 0 (2 * δ + (l1 + l2 : ℕ) * Real.log (1 + 2 * (l1 + l2 : ℕ) / x)) (min l1 l2) ∧
      |V'.EEab * Real.exp V'.sk - V.EEab * Real.exp V.sk| ≤ err * transSize true m bes G l1 l2 (weightEE l1 l2) ∧
      |V'.EEba * Real.exp V'.sk - V.EEba * Real.exp V.sk| ≤ err * transSize true m bes G l1 l2 (weightEE l1 l2) ∧
      |V'.EMab * Real.exp V'.sk - V.EMab * Real.exp V.sk| ≤ err * transSize true m bes G l1 l2 (weightEM m x) ∧
      |V'.EMba * Real.exp V'.sk - V.EMba * Real.exp V.sk| ≤ err * transSize true m bes G l1 l2 (weightEM m x) := by
  have u0 := hA.u0
  have e : ∀ p ≤ l1 + l2, |A.lnk x p - lnk1 x p| ≤ δ := fun p hp => by
    have t := log_term_nonneg hx (l1 + l2)
    have := hA.toRelErr.lnk_err hx (le_add_of_nonneg_right t) (fun j hj => lnk_bound_mono hx hj) hu p hp
    refine this.trans ?_
    rw [hδ]
    unfold bSize
    have : (p : ℝ) ≤ (l1 + l2 : ℕ) := by exact_mod_cast hp
    gcongr
  obtain ⟨V, V', a, b, -, c⟩ := C145_translation hA hS true m h1 h2 (nL := x) (nL' := x) (ν := 0) (bes := (List.range (n + 1)).map (lnk1 x)) (bes' := (List.range (n + 1)).map (A.lnk x))
    (δ := δ) (W := 2 * δ + (l1 + l2 : ℕ) * Real.log (1 + 2 * (l1 + l2 : ℕ) / x)) (by simp; omega) (by simp; omega)
    (fun p hp => by rw [getD_row _ (hp.trans hn), getD_row _ (hp.trans hn)]; exact e p hp)
    (fun p hp => by
      rw [if_pos rfl, getD_row _ (hp.trans hn), getD_row _ hn]
      obtain ⟨d1, d2⟩ := lnk1_diff hx hp
      have a1 := abs_le.mp (e p hp)
      have a2 := abs_le.mp (e _ le_rfl)
      rw [abs_le]
      constructor <;> linarith)
    hg hgl hγ hG hgg le_rfl (by simp)
  exact ⟨_, _, V, V', _, trans_row_ext x n, rfl, a, b, rfl, c⟩

/-! ## No relative accuracy at large arguments -/

/-- Exact operations, but arguments of `exp` up to `u/2` are taken to be zero. -/
noncomputable def flatExp (u : ℝ) : FlMie where
  pi := Real.pi
  add := (· + ·)
  sub := (· - ·)
  mul := (· * ·)
  div := (· / ·)
  tenth := 1 / 10
  pow := (· ^ ·)
  log := Real.log
  exp := fun a => open Classical in if |a| ≤ u / 2 then 1 else Real.exp a
  sqrt := Real.sqrt

theorem flatExp_err {u : ℝ} (h0 : 0 ≤ u) (h1 : u ≤ 1 / 100) : RelErrM (flatExp u) u where
  u0 := h0
  u1 := h1
  pi := by simp only [flatExp, sub_self, abs_zero]; have := Real.pi_pos; positivity
  tenth := by simp only [flatExp, sub_self, abs_zero]; positivity
  add := fun a b => by simp only [flatExp, sub_self, abs_zero]; positivity
  sub := fun a b => by simp only [flatExp, sub_self, abs_zero]; positivity
  mul := fun a b => by simp only [flatExp, sub_self, abs_zero]; positivity
  div := fun a b _ => by simp only [flatExp, sub_self, abs_zero]; positivity
  pow := fun a n => by simp only [flatExp, sub_self, abs_zero]; positivity
  log := fun a _ => by simp only [flatExp, sub_self, abs_zero]; positivity
  sqrt := fun a _ => by simp only [flatExp, sub_self, abs_zero]; positivity
  exp := fun a => by
    simp only [flatExp]
    split
    · rename_i h
      have e : 1 - Real.exp a = Real.exp a * (Real.exp (-a) - 1) := by rw [mul_sub, ← Real.exp_add, add_neg_cancel, Real.exp_zero, mul_one]
      rw [e, abs_mul, abs_of_pos (Real.exp_pos a), mul_comm]
      refine mul_le_mul_of_nonneg_right ?_ (Real.exp_pos a).le
      have := Real.abs_exp_sub_one_le (x := -a) (by rw [abs_neg]; linarith)
      rw [abs_neg] at this
      linarith
    · rw [sub_self, abs_zero]; positivity

theorem sumOf_exact {A : FlFun} (h : A.add = (· + ·)) {xs : List ℝ} {s : ℝ} (hs : SumOf A xs s) : s = xs.sum := by
  induction hs with
  | nil => rfl
  | one x => simp
  | add _ _ _ _ i1 i2 => rw [h, List.sum_append, ← i1, ← i2]
  | perm hp _ ih => rw [ih, hp.sum_eq]

theorem ylm_zero_one (p : ℕ) : ylm p 0 1 = Real.sqrt (2 * p + 1) / Real.sqrt (4 * Real.pi) := by
  unfold ylm assocLegendre assocPos
  have : (p.factorial : ℝ) ≠ 0 := by exact_mod_cast p.factorial_ne_zero
  have h : Real.sqrt ((2 * p + 1) / (4 * Real.pi)) = Real.sqrt (2 * p + 1) / Real.sqrt (4 * Real.pi) := Real.sqrt_div (by positivity) _
  rw [← h]
  simp [legendre_eval_one, div_self this]

theorem ylm_pos_one (l : ℕ) {m : ℕ} (hm : 1 ≤ m) : ylm l m 1 = 0 := by
  unfold ylm assocLegendre assocPos
  simp [show m ≠ 0 by omega]

/-- The sum of the Gaunt coefficients with the weights of the translation coefficients vanishes. -/
theorem gnt_sum_zero (l1 l2 : ℕ) {m : ℕ} (hm : 1 ≤ m) : ∑ i ∈ Finset.range (min l1 l2 + 1), gnt l1 l2 m i * Real.sqrt (2 * (lppMin l1 l2 + 2 * i : ℕ) + 1) = 0 := by
  have h := ylm_expansion l1 l2 m (x := 1) (by constructor <;> norm_num)
  rw [ylm_pos_one l1 hm, zero_mul] at h
  have q : 0 < Real.sqrt (4 * Real.pi) := Real.sqrt_pos.2 (by positivity)
  have : (∑ i ∈ Finset.range (min l1 l2 + 1), gnt l1 l2 m i * Real.sqrt (2 * (lppMin l1 l2 + 2 * i : ℕ) + 1)) / Real.sqrt (4 * Real.pi) = 0 := by
    rw [h, Finset.sum_div]
    refine Finset.sum_congr rfl fun i _ => ?_
    rw [ylm_zero_one]; ring
  rcases div_eq_zero_iff.mp this with h | h
  · exact h
  · exact absurd h q.ne'

/-- **C145.** No relative accuracy: for every `u` there is an arithmetic with relative errors of at most `u` in which, with exact Bessel functions and Gaunt coefficients, the computed
mixing coefficient is zero from `x = 4 (l1+l2)²/u` on, although the exact one never vanishes. -/
theorem C145_lost {u : ℝ} (h0 : 0 < u) (h1 : u ≤ 1 / 100) : ∃ A, RelErrM A u ∧ ∀ sum, Sums A.toFlFun sum → ∀ (m l1 l2 n : ℕ), 1 ≤ m → m ≤ l1 → m ≤ l2 → l1 + l2 < n →
    ∀ x, 4 * ((l1 + l2 : ℕ) : ℝ) ^ 2 / u ≤ x → ∃ bes g V V', transBessels [x] (.int n) 1 = .ok [bes] ∧ gaunt l1 l2 m = .ok g ∧ getVl1l2 true m x bes l1 l2 = .ok V ∧
      A.getVl1l2 sum true m x bes g l1 l2 = .ok V' ∧ V'.EMab = 0 ∧ (-1) ^ m * V.EMab < 0 := by
  refine ⟨flatExp u, flatExp_err h0.le h1, fun sum hS m l1 l2 n hm hl1 hl2 hn x hx => ?_⟩
  have hle := lppMin_le l1 l2
  have N1 : (1 : ℝ) ≤ (l1 + l2 : ℕ) := by exact_mod_cast (show 1 ≤ l1 + l2 by omega)
  have x0 : 0 < x := lt_of_lt_of_le (by positivity) hx
  have hb : l1 + l2 < ((List.range (n + 1)).map (lnk1 x)).length := by simp; omega
  have hg : ((List.range (min l1 l2 + 1)).map (gnt l1 l2 m)).length = min l1 l2 + 1 := by simp
  have hlen : (lppArr l1 l2).length = min l1 l2 + 1 := by rw [lppArr_eq]; simp
  refine ⟨_, _, _, _, trans_row_ext x n, gaunt_ok l1 l2 m, getVl1l2_ok true m x hb, flGetV_ok (flatExp u) sum true m x hb hg, ?_, ?_⟩
  · simp only
    rw [sumOf_exact rfl (hS _ _), List.sum_ofFn]
    have key : ∀ i ∈ Finset.range (min l1 l2 + 1), (flatExp u).mul ((flatExp u).mul (2 * ((m : ℕ) : ℤ)) x)
        ((flatExp u).common true m l1 l2 (lppMin l1 l2 + 2 * i) ((flatExp u).mul ((flatExp u).exp ((flatExp u).sub (((List.range (n + 1)).map (lnk1 x)).getD (lppMin l1 l2 + 2 * i) 0)
          (besNorm true ((List.range (n + 1)).map (lnk1 x)) l1 l2))) (((List.range (min l1 l2 + 1)).map (gnt l1 l2 m)).getD i 0))) =
        (2 * m * x * ((-1) ^ (1 : ℤ) * (-1) ^ (m : ℤ) * Real.sqrt Real.pi) / Real.sqrt (l1 * (l1 + 1) * (l2 * (l2 + 1))) * (2 / Real.pi)) *
          (gnt l1 l2 m i * Real.sqrt (2 * (lppMin l1 l2 + 2 * i : ℕ) + 1)) := fun i hi => by
      have hi' := Finset.mem_range.mp hi
      have hp : lppMin l1 l2 + 2 * i ≤ l1 + l2 := by omega
      have eE : (flatExp u).exp ((flatExp u).sub (((List.range (n + 1)).map (lnk1 x)).getD (lppMin l1 l2 + 2 * i) 0) (besNorm true ((List.range (n + 1)).map (lnk1 x)) l1 l2)) = 1 := by
        have e2 : besNorm true ((List.range (n + 1)).map (lnk1 x)) l1 l2 = lnk1 x (l1 + l2) := by
          unfold besNorm
          rw [if_pos rfl, getD_row _ (by omega)]
        rw [e2, getD_row _ (by omega)]
        obtain ⟨d1, d2⟩ := lnk1_diff x0 hp
        have d3 : ((l1 + l2 : ℕ) : ℝ) * Real.log (1 + 2 * (l1 + l2 : ℕ) / x) ≤ u / 2 := by
          have l := Real.log_le_sub_one_of_pos (show 0 < 1 + 2 * ((l1 + l2 : ℕ) : ℝ) / x by positivity)
          rw [add_sub_cancel_left] at l
          refine (mul_le_mul_of_nonneg_left l (by positivity)).trans ?_
          rw [div_le_iff₀ h0] at hx
          rw [← mul_div_assoc, div_le_iff₀ x0]
          nlinarith
        simp only [flatExp]
        rw [if_pos]
        rw [abs_le]
        constructor <;> linarith
      rw [eE]
      simp only [flatExp, FlMie.common, if_true]
      rw [getD_row _ (by omega), Real.sqrt_div (by positivity), show ((lppMin l1 l2 + 2 * i : ℕ) : ℤ) - (((lppMin l1 l2 + 2 * i : ℕ) : ℤ) - 1) * 1 = 1 by ring]
      push_cast
      ring
    refine (Fin.sum_univ_eq_sum_range (fun i => (flatExp u).mul ((flatExp u).mul (2 * ((m : ℕ) : ℤ)) x)
        ((flatExp u).common true m l1 l2 (lppMin l1 l2 + 2 * i) ((flatExp u).mul ((flatExp u).exp ((flatExp u).sub (((List.range (n + 1)).map (lnk1 x)).getD (lppMin l1 l2 + 2 * i) 0)
          (besNorm true ((List.range (n + 1)).map (lnk1 x)) l1 l2))) (((List.range (min l1 l2 + 1)).map (gnt l1 l2 m)).getD i 0)))) _).trans ?_
    rw [hlen, Finset.sum_congr rfl key, ← Finset.mul_sum, gnt_sum_zero l1 l2 hm, mul_zero]
  · have hT : TransAt (n - 1 - l2) l2 l1 l2 m x (vVal true m x ((List.range (n + 1)).map (lnk1 x)) l1 l2) :=
      ⟨_, by rw [show n - 1 - l2 + l2 + 1 = n by omega]; exact trans_row_ext x n, getVl1l2_ok true m x hb⟩
    exact (C95_sign x0 (hm.trans hl1) (hm.trans hl2) (by omega) le_rfl hl1 hl2 hT).2.1 hm

/-! ## Examples -/

/-- Double precision, `l1 = l2 = 1`, `m = 1`, `x = 1`, Gaunt coefficients with relative errors of `1e-15`. -/
example {sum : (p : ℕ) → (Fin p → ℝ) → ℝ} (hS : Sums (roundMie (roundDown 53)).toFlFun sum) {g g' : List ℝ} (hg : gaunt 1 1 1 = .ok g) (hgl : g'.length = g.length)
    (hgg : ∀ i ≤ 1, |g'.getD i 0 - g.getD i 0| ≤ 1e-15 * |g.getD i 0|) : ∃ bes bes' V V' err, transBessels [1] (.int 3) 1 = .ok [bes] ∧
      (roundMie (roundDown 53)).lnknu [1] 3 = [bes'] ∧ getVl1l2 true 1 1 bes 1 1 = .ok V ∧ (roundMie (roundDown 53)).getVl1l2 sum true 1 1 bes' g' 1 1 = .ok V' ∧
      |V'.EMab * Real.exp V'.sk - V.EMab * Real.exp V.sk| ≤ err * transSize true 1 bes (fun i => |g.getD i 0|) 1 1 (weightEM 1 1) ∧ err ≤ 1e-12 := by
  have hA : RelErrM (roundMie (roundDown 53)) (2 ^ (-52 : ℤ)) := roundMie_relErr (by positivity) (by norm_num) roundDown_double.err
  obtain ⟨bes, bes', V, V', err, a, b, c, d, e, -, -, f, -⟩ := C145_exterior hA hS 1 (l1 := 1) (l2 := 1) (n := 3) (x := 1) le_rfl le_rfl (by norm_num) one_pos (by norm_num) rfl hg hgl
    (γ := 1e-15) (by norm_num) (G := fun i => |g.getD i 0|) (fun _ _ => le_rfl) hgg
  refine ⟨bes, bes', V, V', err, a, b, c, d, f, ?_⟩
  rw [e]
  unfold transErr
  have l0 : 0 ≤ Real.log (1 + 2 * ((1 + 1 : ℕ) : ℝ) / 1) := Real.log_nonneg (by norm_num)
  have l1 : Real.log (1 + 2 * ((1 + 1 : ℕ) : ℝ) / 1) ≤ 4 := (Real.log_le_sub_one_of_pos (by norm_num)).trans (by norm_num)
  generalize Real.log (1 + 2 * ((1 + 1 : ℕ) : ℝ) / 1) = L at l0 l1
  have u52 : (2 : ℝ) ^ (-52 : ℤ) ≤ 3e-16 := by norm_num
  have u0 : (0 : ℝ) ≤ (2 : ℝ) ^ (-52 : ℤ) := by positivity
  generalize (2 : ℝ) ^ (-52 : ℤ) = u at u52 u0
  have hδ : 24 * u * (5 + 2 * L) ≤ 1e-13 := by nlinarith
  have hδ0 : 0 ≤ 24 * u * (5 + 2 * L) := by positivity
  obtain ⟨t, et⟩ : ∃ t, t = 24 * u * (5 + 2 * L) + u * (2 * (24 * u * (5 + 2 * L)) + 2 * L) := ⟨_, rfl⟩
  have ht : t ≤ 2e-13 := by rw [et]; nlinarith
  have ht0 : 0 ≤ t := by rw [et]; positivity
  have he : Real.exp t ≤ 1 + 4e-13 := by
    have := (abs_le.mp (Real.abs_exp_sub_one_le (x := t) (by rw [abs_of_nonneg ht0]; linarith))).2
    rw [abs_of_nonneg ht0] at this
    linarith
  have hp : (1 + u) ^ (min 1 1 + 18) ≤ 1 + 1e-14 := (pow_le_pow_left₀ (by linarith) (by linarith : 1 + u ≤ 1 + 3e-16) _).trans (by norm_num)
  have : (1 + 1e-15) * Real.exp t * (1 + u) ^ (min 1 1 + 18) ≤ (1 + 1e-15) * (1 + 4e-13) * (1 + 1e-14) := by
    gcongr
  have e2 : 8 * (((1 + 1 : ℕ) : ℝ) + 1) * u * (4 + 2 * |Real.log 1| + 1 + ((1 + 1 : ℕ) : ℝ) * L) = 24 * u * (5 + 2 * L) := by
    rw [Real.log_one, abs_zero]; push_cast; ring
  have e3 : 24 * u * (5 + 2 * L) + u * (2 * (24 * u * (5 + 2 * L)) + ((1 + 1 : ℕ) : ℝ) * L) = t := by rw [et]; push_cast; ring
  rw [e2, e3, add_zero, mul_one]
  norm_num at this ⊢
  linarith

/-- An instance of the loss: `l1 = l2 = m = 1` at `x = 16000`, one thousandth for `u`. -/
example : ∃ A, RelErrM A (1 / 1000) ∧ ∀ sum, Sums A.toFlFun sum → ∃ bes g V V', transBessels [16000] (.int 3) 1 = .ok [bes] ∧ gaunt 1 1 1 = .ok g ∧
    getVl1l2 true 1 16000 bes 1 1 = .ok V ∧ A.getVl1l2 sum true 1 16000 bes g 1 1 = .ok V' ∧ V'.EMab = 0 ∧ 0 < V.EMab := by
  obtain ⟨A, hA, h⟩ := C145_lost (u := 1 / 1000) (by norm_num) (by norm_num)
  refine ⟨A, hA, fun sum hS => ?_⟩
  obtain ⟨bes, g, V, V', a, b, c, d, e, f⟩ := h sum hS 1 1 1 3 le_rfl le_rfl le_rfl (by norm_num) 16000 (by norm_num)
  exact ⟨bes, g, V, V', a, b, c, d, e, by linarith⟩

end CasSph
