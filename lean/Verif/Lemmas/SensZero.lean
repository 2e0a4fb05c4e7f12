import Verif.Lemmas.SensPair
import Verif.Props.FloatZero

/-! # The zero-frequency value as a limit, and small changes of the materials -/

namespace CasSph

open Spec Filter Topology

theorem lnDetV_tendsto {P : PairIn} (h : PairOK P) {frac : ℝ → ℝ → ℝ} {σa σb τa τb : ℝ} {A A' B B' : ℕ → ℝ}
    (hA : AmpK0 frac P.mat1 P.mat3 P.r1 σa τa A A') (hB : AmpK0 frac P.mat2 P.mat3 P.r2 σb τb B B') {m : ℕ} (hm : m ≤ P.lmax) :
    Tendsto (lnDetV P m) (𝓝[>] 0) (𝓝 (k0V m P.r1 P.r2 P.L P.lmax P.lssmax (σa * σb) (τa * τb) A A' B B')) := by
  obtain ⟨a0, b0, S⟩ := staticPair_exists frac h.m1.static h.m2.static h.m3.diel h.m3.phys h.h1 h.h2 h.sep
  have hlm : transLmin (m : ℤ) = max 1 m := by unfold transLmin; omega
  have := h.hl
  have := h.hls
  have hm1 : max 1 m ≤ P.lmax := by omega
  obtain ⟨⟨TE, TM⟩, h0⟩ : ∃ R, blockmatricesK0At P.lmax P.lssmax m P.r1 P.r2 P.L a0 b0 = .ok R :=
    C72_k0_ext_total (by omega) (by omega) _ _ _ _
  obtain ⟨⟨p1, -⟩, ⟨p2, -⟩⟩ := C92_positive S h0
  obtain ⟨e1, e2⟩ := S.kern hA hB h0
  have ex : ∀ k : ℝ, ∃ (a b : MieCoef) (bes : List ℝ) (B : Blocks (P.lmax + 1 - transLmin m)), 0 < k →
      (∀ l, 1 ≤ l → mie exactBes exactBes P.mat1 P.mat3 l k P.r1 = .ok ⟨a.TE l, a.TM l, a.ln l⟩) ∧
      (∀ l, 1 ≤ l → mie exactBes exactBes P.mat2 P.mat3 l k P.r2 = .ok ⟨b.TE l, b.TM l, b.ln l⟩) ∧
      (∃ e, P.mat3.epsilon k = .ok e ∧ transBessels [k * P.L * Real.sqrt e] (.int (P.lmax + P.lssmax + 1 : ℕ)) 1 = .ok [bes] ∧
        blockmatricesAt P.lmax P.lssmax m true (k * P.L * Real.sqrt e) bes a b = .ok B) ∧
      lnDetV P m k = Real.log |(1 - Matrix.fromBlocks B.EE B.EM B.ME B.MM).det| := by
    intro k
    by_cases hk : 0 < k
    · obtain ⟨a, b, S, hB⟩ := h.blocks hk
      obtain ⟨B, ⟨e, bes, q1, q2, q3⟩, -, q4⟩ := hB m hm1
      refine ⟨a, b, bes, B, fun _ => ⟨S.ha, S.hb, ⟨e, q1, q2, q3⟩, ?_⟩⟩
      rw [q4, Real.log_abs]
      rfl
    · exact ⟨⟨fun _ => 0, fun _ => 0, fun _ => 0⟩, ⟨fun _ => 0, fun _ => 0, fun _ => 0⟩, [], ⟨0, 0, 0, 0⟩, fun h => absurd h hk⟩
  choose a b bes Bk q using ex
  have hmu : P.mat3.mu 0 = .ok 1 := by unfold Material.mu; rw [h.m3.mag]; cases P.mat3.cls <;> rfl
  have lim := C92_logarithm_limit (T := exactBes) (fun l hl x hx => exactBes_ok hl hx) (fun l hl => exactBes_low hl) S hmu
    (hk := ⟨fun k hk => (q k hk).1, fun k hk => (q k hk).2.1, fun k hk => (q k hk).2.2.1⟩) h0
  rw [abs_of_pos p1, abs_of_pos p2, e1, e2] at lim
  refine lim.congr' ?_
  filter_upwards [self_mem_nhdsWithin] with k hk
  exact ((q k hk).2.2.2).symm

theorem pairSum_tendsto {P : PairIn} (h : PairOK P) (hprec : P.precision ≤ 0) {frac : ℝ → ℝ → ℝ} {z : ℝ} (hz : pairK0 frac P = .ok z) :
    Tendsto (pairSum P) (𝓝[>] 0) (𝓝 z) := by
  obtain ⟨σa, σb, τa, τb, X, X', Y, Y', e1, e2, -⟩ := h.zeroAmp frac
  have z1 := pairK0_kern h e1 e2
  rw [mSummeK0_full hprec, ok_bind, hz] at z1
  injection z1 with z1
  rw [z1]
  unfold pairSum
  refine (lnDetV_tendsto h e1 e2 (Nat.zero_le _)).add (Tendsto.const_mul 2 (tendsto_finsetSum _ fun m hm => lnDetV_tendsto h e1 e2 (Finset.mem_Icc.1 hm).2))

/-! ## materials -/

theorem lorT_scale {p p' : Osc} {c a k k' : ℝ} (hp : p.nonneg) (hp' : p'.nonneg) (hk : 0 < k) (hk' : 0 < k') (hc : 1 ≤ c) (ha : 1 ≤ a)
    (h1 : p'.wP ^ 2 ≤ c * p.wP ^ 2) (h2 : p.wR ≤ a * p'.wR) (h3 : p.gamma ≤ a * p'.gamma) (h4 : k ≤ a * k') : lorT k' p' ≤ c * a ^ 2 * lorT k p := by
  have d := lorDen_pos hk hp
  have d' := lorDen_pos hk' hp'
  unfold lorT
  rw [mul_div_assoc', div_le_div_iff₀ d' d]
  have o := omegaNorm_pos
  have e1 : (p'.wP / omegaNorm) ^ 2 ≤ c * (p.wP / omegaNorm) ^ 2 := by
    rw [div_pow, div_pow, mul_div_assoc']
    exact div_le_div_of_nonneg_right h1 (by positivity)
  have r0 : 0 ≤ p.wR / omegaNorm := div_nonneg hp.1 o.le
  have g0 : 0 ≤ p.gamma / omegaNorm := div_nonneg hp.2 o.le
  have r2 : p.wR / omegaNorm ≤ a * (p'.wR / omegaNorm) := by
    rw [mul_div_assoc']; exact div_le_div_of_nonneg_right h2 o.le
  have g2 : p.gamma / omegaNorm ≤ a * (p'.gamma / omegaNorm) := by
    rw [mul_div_assoc']; exact div_le_div_of_nonneg_right h3 o.le
  have e2 : (p.wR / omegaNorm) ^ 2 ≤ a ^ 2 * (p'.wR / omegaNorm) ^ 2 := by
    rw [← mul_pow]; exact pow_le_pow_left₀ r0 r2 2
  have e3 : k ^ 2 ≤ a ^ 2 * k' ^ 2 := by
    rw [← mul_pow]; exact pow_le_pow_left₀ hk.le h4 2
  have e4 : p.gamma / omegaNorm * k ≤ a ^ 2 * (p'.gamma / omegaNorm * k') := by
    have := mul_le_mul g2 h4 hk.le (g0.trans g2)
    linarith
  have e5 : (p.wR / omegaNorm) ^ 2 + k ^ 2 + p.gamma / omegaNorm * k ≤ a ^ 2 * ((p'.wR / omegaNorm) ^ 2 + k' ^ 2 + p'.gamma / omegaNorm * k') := by linarith
  have := mul_le_mul e1 e5 d.le (by positivity)
  linarith

theorem smith_scale {c a k k' g g' W W' : ℝ} (hk : 0 < k) (hk' : 0 < k') (hg : 0 ≤ g) (hg' : 0 ≤ g') (hW : 0 ≤ W) (hc : 1 ≤ c) (ha : 1 ≤ a) (h1 : W' ≤ c * W)
    (h3 : g ≤ a * g') (h4 : k ≤ a * k') :
    W' / (k' ^ 2 + g' * k') * (1 - 0.49 * g' / (k' + g')) ≤ c * a ^ 2 * (W / (k ^ 2 + g * k) * (1 - 0.49 * g / (k + g))) := by
  have form : ∀ {κ γ w : ℝ}, 0 < κ → 0 ≤ γ → w / (κ ^ 2 + γ * κ) * (1 - 0.49 * γ / (κ + γ)) = w * (0.51 / (κ * (κ + γ)) + 0.49 / (κ + γ) ^ 2) := by
    intro κ γ w hκ hγ
    have : 0 < κ + γ := by linarith
    rw [show κ ^ 2 + γ * κ = κ * (κ + γ) by ring]
    field_simp
    ring
  rw [form hk hg, form hk' hg']
  have s : 0 < k + g := by linarith
  have s' : 0 < k' + g' := by linarith
  have e0 : k + g ≤ a * (k' + g') := by linarith
  have e1 : 0.51 / (k' * (k' + g')) ≤ a ^ 2 * (0.51 / (k * (k + g))) := by
    rw [mul_div_assoc', div_le_div_iff₀ (by positivity) (by positivity)]
    have := mul_le_mul h4 e0 s.le (by positivity)
    linarith
  have e2 : 0.49 / (k' + g') ^ 2 ≤ a ^ 2 * (0.49 / (k + g) ^ 2) := by
    rw [mul_div_assoc', div_le_div_iff₀ (by positivity) (by positivity)]
    have := pow_le_pow_left₀ s.le e0 2
    rw [mul_pow] at this
    linarith
  have e3 : (0 : ℝ) ≤ 0.51 / (k' * (k' + g')) + 0.49 / (k' + g') ^ 2 := by positivity
  calc _ ≤ c * W * (0.51 / (k' * (k' + g')) + 0.49 / (k' + g') ^ 2) := mul_le_mul_of_nonneg_right h1 e3
    _ ≤ c * W * (a ^ 2 * (0.51 / (k * (k + g))) + a ^ 2 * (0.49 / (k + g) ^ 2)) := mul_le_mul_of_nonneg_left (add_le_add e1 e2) (by positivity)
    _ = _ := by ring

theorem epsV_scale {M M' : Material} (hM : M.Physical) (hM' : M'.Physical) (hcls : M'.cls = M.cls) (hpec : M.cls ≠ .pec) {c a k k' : ℝ} (hk : 0 < k)
    (hk' : 0 < k') (hc : 1 ≤ c) (ha : 1 ≤ a)
    (h : List.Forall₂ (fun p' p : Osc => p'.wP ^ 2 ≤ c * p.wP ^ 2 ∧ p.wR ≤ a * p'.wR ∧ p.gamma ≤ a * p'.gamma) M'.e M.e) (h4 : k ≤ a * k') :
    M'.epsV k' ≤ c * a ^ 2 * M.epsV k := by
  have ca : 1 ≤ c * a ^ 2 := one_le_mul_of_one_le_of_one_le hc (one_le_pow₀ ha)
  cases hm : M.cls with
  | pec => exact absurd hm hpec
  | lorentz =>
    rw [epsV_lorentz (hcls.trans hm) hM' hk', epsV_lorentz hm hM hk, mul_add, mul_one]
    refine add_le_add ca ?_
    have o := hM.osc
    have o' := hM'.osc
    revert h o o'
    generalize M.e = l
    generalize M'.e = l'
    intro h
    induction h with
    | nil => intros; simp
    | cons hq _ ih =>
      intro o o'
      rw [List.map_cons, List.map_cons, List.sum_cons, List.sum_cons, mul_add]
      exact add_le_add (lorT_scale (o _ (by simp)) (o' _ (by simp)) hk hk' hc ha hq.1 hq.2.1 hq.2.2 h4)
        (ih (fun p hp => o p (by simp [hp])) (fun p hp => o' p (by simp [hp])))
  | smith =>
    obtain ⟨p, hp⟩ := List.length_eq_one_iff.1 (hM.one hm)
    obtain ⟨p', hp'⟩ := List.length_eq_one_iff.1 (hM'.one (hcls.trans hm))
    rw [epsV_smith (hcls.trans hm) hM' hp' hk', epsV_smith hm hM hp hk, mul_add, mul_one]
    refine add_le_add ca ?_
    rw [hp, hp'] at h
    obtain ⟨q1, -, q3⟩ := (List.forall₂_cons.1 h).1
    have o := omegaNorm_pos
    have g := (hM.osc p (by simp [hp])).2
    have g' := (hM'.osc p' (by simp [hp'])).2
    refine smith_scale hk hk' (div_nonneg g o.le) (div_nonneg g' o.le) (sq_nonneg _) hc ha ?_ ?_ h4
    · rw [div_pow, div_pow, mul_div_assoc']
      exact div_le_div_of_nonneg_right q1 (by positivity)
    · rw [mul_div_assoc']; exact div_le_div_of_nonneg_right q3 o.le

theorem forall₂_mem {α β : Type} {R S : α → β → Prop} {l : List α} {l' : List β} (h : List.Forall₂ R l l') (hS : ∀ a b, a ∈ l → b ∈ l' → R a b → S a b) :
    List.Forall₂ S l l' := by
  induction h with
  | nil => exact .nil
  | cons r _ ih => exact .cons (hS _ _ (by simp) (by simp) r) (ih fun a b ha hb => hS a b (by simp [ha]) (by simp [hb]))

theorem log_le_of_scale {x y v : ℝ} (hx : 0 < x) (hy : 0 < y) (h : x ≤ Real.exp v * y) : Real.log x - Real.log y ≤ v := by
  have := Real.log_le_log hx h
  rw [Real.log_mul (Real.exp_ne_zero _) hy.ne', Real.log_exp] at this
  linarith

theorem scale_of_log {x y v : ℝ} (hx : 0 < x) (hy : 0 < y) (h : |Real.log x - Real.log y| ≤ v) : x ≤ Real.exp v * y ∧ y ≤ Real.exp v * x := by
  obtain ⟨h1, h2⟩ := abs_le.1 h
  constructor
  · rw [← Real.exp_log hx, ← Real.exp_log hy, ← Real.exp_add]
    exact Real.exp_le_exp.2 (by linarith)
  · rw [← Real.exp_log hx, ← Real.exp_log hy, ← Real.exp_add]
    exact Real.exp_le_exp.2 (by linarith)

end CasSph
