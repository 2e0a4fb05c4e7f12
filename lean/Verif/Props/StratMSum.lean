import Verif.Lemmas.BallTM
import Verif.Props.MSumError
import Verif.Props.StratZero

/-! # Property C139: stratified spheres -- TM waves are reflected more strongly than TE waves, contributions fall with `m`, and the cost of an early termination -/

namespace CasSph

open Spec MeasureTheory Set

variable {P : BallPair} {R1 R2 k : ℝ} {frac : ℝ → ℝ → ℝ}

/-- The same pair with the complete sum over `m`. -/
def BallPair.complete (P : BallPair) : BallPair := { P with precision := 0 }

theorem BallPairOK.complete (h : BallPairOK P R1 R2) : BallPairOK P.complete R1 R2 := ⟨h.ok1, h.ok2, h.m3, h.sep, h.hl, h.hls⟩

theorem ballSum_complete (h : BallPairOK P R1 R2) (hk : 0 < k) : ballSum P.complete k = ballSum P k := by
  have e : ∀ m ≤ P.lmax, lnBall P.complete m k = lnBall P m k := by
    intro m hm
    obtain ⟨⟨w, hw, hB⟩, -⟩ := h.facts hk
    obtain ⟨⟨w', hw', hB'⟩, -⟩ := h.complete.facts hk
    obtain ⟨B, e1, -, e2⟩ := hB m hm
    obtain ⟨B', e1', -, e2'⟩ := hB' m hm
    have hw'' : ballWave exactBes P k = .ok w' := hw'
    rw [hw] at hw''
    injection hw'' with hw''
    subst hw''
    have e1'' : blockmatricesAt P.lmax P.lssmax m true w.nL w.bes w.a w.b = .ok B' := e1'
    rw [e1] at e1''
    injection e1'' with e1''
    rw [e2, e2', e1'']
    rfl
  unfold ballSum
  rw [e 0 (by omega)]
  congr 2
  exact Finset.sum_congr rfl fun m hm => e m (Finset.mem_Icc.mp hm).2

/-! ## One sphere -/

/-- **C139, coefficients.** If all layers are at least as dense as the medium (or the core is a perfect conductor), or none of them is denser, then the TM
coefficient of every degree has at least the magnitude of the TE coefficient and the opposite sign (if they do not vanish). -/
theorem C139_coefficients {H : MatHeap} {md : ℕ} {B : Ball} {R : ℝ} (h : BallOK H md B R) (hmd : MediumMat (H md)) (hk : 0 < k)
    (hs : B.Dense H md k ∨ B.Dilute H md k) {n : ℕ} {t : MieCoef} (ht : ballTable exactBes H md n k B = .ok t) {l : ℕ} (hl : 1 ≤ l) (hln : l ≤ n) :
    |t.TE l| ≤ |t.TM l| ∧ t.TE l * t.TM l ≤ 0 := by
  obtain ⟨σ, hσ⟩ : ∃ σ : ℝ, B.OnSide H md k σ := by
    rcases hs with hs | hs
    · exact ⟨1, .inl ⟨rfl, hs⟩⟩
    · exact ⟨-1, .inr ⟨rfl, hs⟩⟩
  obtain ⟨c, hc, -⟩ := h.reflects hmd hk
  obtain ⟨t', e, ha⟩ := hc n
  rw [ht] at e
  injection e with e
  subst e
  obtain ⟨a1, a2, a3⟩ := ha l hl hln
  rw [a1, a2]
  obtain ⟨v1, v2⟩ := h.value hmd hk hc hl
  obtain ⟨i, rfl⟩ : ∃ i, l = i + 1 := ⟨l - 1, by omega⟩
  have n1 := ballR_nonneg h hmd hk hσ false i
  have n2 := ballR_nonneg h hmd hk hσ true i
  have n3 := ballR_tm h hmd hk hσ i
  unfold ballR at n1 n2 n3
  simp only [sg, cond_false, cond_true] at n1 n2 n3
  have hpi : 0 < Real.pi / 2 := by have := Real.pi_pos; positivity
  have m1 := nonneg_of_mul_nonneg_right n1 hpi
  have m2 := nonneg_of_mul_nonneg_right n2 hpi
  have m3 := le_of_mul_le_mul_left n3 hpi
  have he := Real.exp_pos (c.ln (i + 1))
  have hmag : |c.TE (i + 1)| * Real.exp (c.ln (i + 1)) ≤ |c.TM (i + 1)| * Real.exp (c.ln (i + 1)) := by
    have ea : |Real.exp (c.ln (i + 1))| = Real.exp (c.ln (i + 1)) := abs_of_pos he
    rw [← ea, ← abs_mul, ← abs_mul, v1, v2, abs_mul, abs_mul ((-1) ^ (i + 1) * (Real.pi / 2))]
    refine mul_le_mul_of_nonneg_left ?_ (abs_nonneg _)
    rcases hσ.sign with rfl | rfl
    · rw [abs_of_nonneg (by linarith), abs_of_nonpos (by linarith)]
      linarith
    · rw [abs_of_nonpos (by linarith), abs_of_nonneg (by linarith)]
      linarith
  refine ⟨le_of_mul_le_mul_right hmag he, ?_⟩
  have hp : c.TE (i + 1) * c.TM (i + 1) * (Real.exp (c.ln (i + 1)) * Real.exp (c.ln (i + 1))) =
      ((-1) ^ (i + 1) * (Real.pi / 2)) ^ 2 * (ballAmp H md k false (i + 1) B * ballAmp H md k true (i + 1) B) := by
    have : c.TE (i + 1) * c.TM (i + 1) * (Real.exp (c.ln (i + 1)) * Real.exp (c.ln (i + 1))) =
      (c.TE (i + 1) * Real.exp (c.ln (i + 1))) * (c.TM (i + 1) * Real.exp (c.ln (i + 1))) := by ring
    rw [this, v1, v2]
    ring
  have hneg : ballAmp H md k false (i + 1) B * ballAmp H md k true (i + 1) B ≤ 0 := by
    rcases hσ.sign with rfl | rfl
    · exact mul_nonpos_of_nonneg_of_nonpos (by linarith) (by linarith)
    · exact mul_nonpos_of_nonpos_of_nonneg (by linarith) (by linarith)
  have := mul_nonpos_of_nonneg_of_nonpos (sq_nonneg ((-1 : ℝ) ^ (i + 1) * (Real.pi / 2))) hneg
  rw [← hp] at this
  exact nonpos_of_mul_nonpos_left this (mul_pos he he)

/-! ## Single contributions -/

/-- A contribution of `m ≥ 1` is at least as large as the next one. -/
theorem lnBall_m_step (h : BallPairOK P R1 R2) (hk : 0 < k) (hs : P.SameSide k) {m : ℕ} (hm : 1 ≤ m) (hml : m + 1 ≤ P.lmax) :
    lnBall P m k ≤ lnBall P (m + 1) k := by
  obtain ⟨σ, ha, hb, hσ⟩ := hs.sides
  obtain ⟨j, rfl⟩ : ∃ j, m = j + 1 := ⟨m - 1, by omega⟩
  obtain ⟨⟨θ, T, g⟩, -, e⟩ := h.kernelR hk ha hb le_rfl (j + 1)
  obtain ⟨⟨θ', T', g'⟩, -, e'⟩ := h.kernelR hk ha hb le_rfl (j + 1 + 1)
  have e := e P.lmax P.lssmax (by omega) h.hls
  have e' := e' P.lmax P.lssmax (by omega) h.hls
  change lnBall P (j + 1) k = _ at e
  change lnBall P (j + 1 + 1) k = _ at e'
  rw [e, e', hσ]
  have hx : 0 < k * P.L * Real.sqrt ((P.H P.mat3).epsV k) := by
    have := (medium_val h.m3.cls h.m3.phys hk).2
    have := h.ok1.pos; have := h.ok2.pos; have := h.sep
    have : 0 < P.L := by linarith
    positivity
  have t1 : transLmin ((j + 1 : ℕ) : ℤ) = j + 1 := by unfold transLmin; omega
  have t2 : transLmin ((j + 1 + 1 : ℕ) : ℤ) = j + 2 := by unfold transLmin; omega
  have := kern_m_step hx j (ballR_nonneg h.ok1 h.m3 hk ha) (ballR_tm h.ok1 h.m3 hk ha) (ballR_nonneg h.ok2 h.m3 hk hb) (ballR_tm h.ok2 h.m3 hk hb) g g'
    (P.lmax + 1 - (j + 2)) (P.lssmax + 1 - (j + 2))
  have q1 : P.lmax + 1 - (j + 2) + 1 = P.lmax + 1 - (j + 1) := by omega
  have q2 : P.lssmax + 1 - (j + 2) + 1 = P.lssmax + 1 - (j + 1) := by have := h.hls; omega
  rw [q1, q2] at this
  rw [t1, t2]
  exact neg_le_neg_iff.mp this

/-- **C139, one subspace.** Two homogeneous or stratified spheres whose layers are all denser than the medium, or all thinner: every `m` lowers the sum, and
from `m = 1` on each contribution is at most as large as the one before. -/
theorem C139_single_m (h : BallPairOK P R1 R2) (hk : 0 < k) (hs : P.SameSide k) :
    ∃ w, ballWave exactBes P k = .ok w ∧ ∃ v : ℕ → ℝ, (∀ m : ℕ, m ≤ P.lmax → ∃ N, ∀ fuel, N < fuel →
        singleM fuel 0.9 P.lmax P.lssmax m [w] = some (.ok [(v m : EReal)])) ∧
      (∀ m ≤ P.lmax, v m ≤ 0) ∧ ∀ m, 1 ≤ m → m < P.lmax → v m ≤ v (m + 1) := by
  obtain ⟨⟨w, hw, hB⟩, -, -, hn⟩ := h.facts hk
  refine ⟨w, hw, fun m => lnBall P m k, fun m hm => ?_, fun m hm => (hn m hm).1 hs, fun m h1 h2 => lnBall_m_step h hk hs h1 h2⟩
  obtain ⟨B, hB, hp, e⟩ := hB m hm
  obtain ⟨N1, q1⟩ := singleM_value (d := 1) (by omega) (w := fun _ => w) (B := fun _ => B) (fun _ => hB) (fun _ => hp) (conv := 0.9) (by norm_num)
  refine ⟨N1, fun fuel hf => ?_⟩
  have := q1 fuel hf
  simp only [e]
  simpa using this

/-! ## The early termination -/

/-- What `mSumme` returns for two spheres on the same side of the medium: the sum up to an `M ≥ 1`, the same for all wavenumbers. -/
theorem ballVals_stop (h : BallPairOK P R1 R2) {ks : List ℝ} (hne : ks ≠ []) (hk : ∀ k ∈ ks, 0 < k) (hs : ∀ k ∈ ks, P.SameSide k) :
    ∃ M, 1 ≤ M ∧ M ≤ P.lmax ∧ ballVals exactBes P ks = .ok (ks.map fun k => lnBall P 0 k + 2 * ∑ m ∈ Finset.Icc 1 M, lnBall P m k) ∧
      (M = P.lmax ∨ ((∃ i, lnBall P 0 (ks.get i) ≠ 0) ∧ SmallChange P.precision (fun m (i : Fin ks.length) => lnBall P m (ks.get i)) M)) := by
  have hd : 0 < ks.length := List.length_pos_iff.mpr hne
  obtain ⟨M, g1, g2, g3, -⟩ := C13_mSumme hd (lmax := P.lmax) (precision := P.precision)
    (L := fun m => .ok fun i : Fin ks.length => lnBall P m (ks.get i)) (v := fun m i => lnBall P m (ks.get i)) fun _ _ => rfl
  have fin : ∀ M', (∀ i, mSum (fun m (i : Fin ks.length) => lnBall P m (ks.get i)) M i =
      mSum (fun m (i : Fin ks.length) => lnBall P m (ks.get i)) M' i) →
      ballVals exactBes P ks = .ok (ks.map fun k => lnBall P 0 k + 2 * ∑ m ∈ Finset.Icc 1 M', lnBall P m k) := by
    intro M' hM'
    unfold ballVals
    rw [valsOf_eq (u := fun m k => lnBall P m k) hne fun k hkm => (h.facts (hk k hkm)).1, g1, ok_bind]
    congr 1
    refine List.ext_getElem (by simp) fun j hj1 hj2 => ?_
    rw [List.getElem_ofFn, List.getElem_map, hM']
    rfl
  have zero : ∀ i : Fin ks.length, mSum (fun m (i : Fin ks.length) => lnBall P m (ks.get i)) M i = 0 → ∀ m ≤ P.lmax, lnBall P m (ks.get i) = 0 := by
    intro i hi m hm
    have hki := hk _ (List.get_mem ks i)
    have hsi := hs _ (List.get_mem ks i)
    refine lnBall_zero h hki (.inl hsi) (fun hc => ?_) hm
    have hst := fun m hm' => (lnBall_strict h hki hc.1 hc.2 (m := m) hm').1 hsi
    unfold mSum at hi
    simp only at hi
    have := hst 0 (by omega)
    have := Finset.sum_nonpos fun m (hm' : m ∈ Finset.Icc 1 M) => (hst m ((Finset.mem_Icc.mp hm').2.trans g2)).le
    linarith
  rcases g3 with g3 | rfl
  · by_cases hz : ∀ i, lnBall P 0 (ks.get i) = 0
    · refine ⟨P.lmax, h.hl, le_rfl, fin _ fun i => ?_, .inl rfl⟩
      have hki := hk _ (List.get_mem ks i)
      have hsi := hs _ (List.get_mem ks i)
      have hall : ∀ m ≤ P.lmax, lnBall P m (ks.get i) = 0 := fun m hm => lnBall_zero h hki (.inl hsi) (fun hc =>
        ((lnBall_strict h hki hc.1 hc.2 (m := 0) (by omega)).1 hsi).ne (hz i)) hm
      unfold mSum
      simp only
      rw [Finset.sum_eq_zero fun m hm => hall m ((Finset.mem_Icc.mp hm).2.trans g2), Finset.sum_eq_zero fun m hm => hall m (Finset.mem_Icc.mp hm).2]
    · have hz := not_forall.mp hz
      rcases g3 with g3 | g3
      · obtain ⟨i, hi⟩ := hz
        exact absurd (zero i (g3 i) 0 (by omega)) hi
      · exact ⟨M, g3.1, g2, fin M fun _ => rfl, .inr ⟨hz, g3⟩⟩
  · exact ⟨_, h.hl, le_rfl, fin _ fun _ => rfl, .inl rfl⟩

/-- **C139, two spheres.** Both spheres at least as dense as the medium at all wavenumbers of the list: the returned values and those of the complete sum are
non-positive, the returned ones are at least the `lmax`-th part of the complete ones, and at one wavenumber of the list (the one with the largest value
before the last step) they differ by at most `(lmax - 1)·precision/10` of the returned value. -/
theorem C139_mSumme (h : BallPairOK P R1 R2) (hp : 0 ≤ P.precision) {ks : List ℝ} (hne : ks ≠ []) (hk : ∀ k ∈ ks, 0 < k) (hs : ∀ k ∈ ks, P.SameSide k) :
    ∃ vs ws, ballVals exactBes P ks = .ok vs ∧ ballVals exactBes P.complete ks = .ok ws ∧ vs.length = ks.length ∧ ws.length = ks.length ∧
      (∀ (j : ℕ) (x y : ℝ), vs[j]? = some x → ws[j]? = some y → y ≤ x ∧ x ≤ 0 ∧ |y| ≤ P.lmax * |x|) ∧
      ∃ (j : ℕ) (x y : ℝ), vs[j]? = some x ∧ ws[j]? = some y ∧ |y - x| ≤ (P.lmax - 1) * (P.precision / 10) * |x| := by
  obtain ⟨M, m1, m2, hv, hc⟩ := ballVals_stop h hne hk hs
  have hw : ballVals exactBes P.complete ks = .ok (ks.map (ballSum P)) := by
    rw [ballVals_sum h.complete le_rfl hne hk fun k hkm => .inl (hs k hkm)]
    exact congrArg Except.ok (List.map_congr_left fun k hkm => ballSum_complete h (hk k hkm))
  have hle : (1 : ℝ) ≤ P.lmax := by exact_mod_cast h.hl
  have hM1 : (1 : ℝ) ≤ M := by exact_mod_cast m1
  have hM2 : (M : ℝ) ≤ P.lmax := by exact_mod_cast m2
  have tn : ∀ k ∈ ks, ∀ m ≤ P.lmax, lnBall P m k ≤ 0 := fun k hkm m hml =>
    ((h.facts (hk k hkm)).2.2.2 m hml).1 (hs k hkm)
  have ts : ∀ k ∈ ks, ∀ m, 1 ≤ m → m < P.lmax → lnBall P m k ≤ lnBall P (m + 1) k := fun k hkm m ha hb =>
    lnBall_m_step h (hk k hkm) (hs k hkm) ha hb
  refine ⟨_, _, hv, hw, by simp, by simp, fun j x y hx hy => ?_, ?_⟩
  · rw [List.getElem?_map] at hx hy
    obtain ⟨k, hj, rfl⟩ := Option.map_eq_some_iff.mp hx
    rw [hj] at hy
    injection hy with hy
    have hkm : k ∈ ks := List.mem_of_getElem? hj
    obtain ⟨d1, d2, d3⟩ := mSum_drop (v := fun m (_ : Fin 1) => lnBall P m k) (i := 0) m1 m2 (tn k hkm) (ts k hkm)
    have e : mSum (fun m (_ : Fin 1) => lnBall P m k) P.lmax 0 = y := hy
    rw [e] at d1 d2
    have e' : mSum (fun m (_ : Fin 1) => lnBall P m k) M 0 = lnBall P 0 k + 2 * ∑ m ∈ Finset.Icc 1 M, lnBall P m k := rfl
    rw [e'] at d1 d2 d3
    have hv := tn k hkm M m2
    generalize lnBall P 0 k + 2 * ∑ m ∈ Finset.Icc 1 M, lnBall P m k = x at *
    have hx0 : x ≤ 0 := by nlinarith
    refine ⟨d1, hx0, ?_⟩
    rw [abs_of_nonpos (by linarith), abs_of_nonpos hx0]
    have t0 : 0 ≤ -2 * lnBall P M k := by linarith
    generalize -2 * lnBall P M k = t at *
    nlinarith
  · rcases hc with rfl | ⟨hz, hc⟩
    · obtain ⟨k, hk0⟩ : ∃ k, ks[0]? = some k := by
        cases ks with
        | nil => exact absurd rfl hne
        | cons a t => exact ⟨a, rfl⟩
      refine ⟨0, _, _, by rw [List.getElem?_map, hk0]; rfl, by rw [List.getElem?_map, hk0]; rfl, ?_⟩
      have : ballSum P k - (lnBall P 0 k + 2 * ∑ m ∈ Finset.Icc 1 P.lmax, lnBall P m k) = 0 := sub_self _
      rw [this, abs_zero]
      have : (0 : ℝ) ≤ P.lmax - 1 := by linarith
      positivity
    · obtain ⟨r, -, hr⟩ := (C134_stop m2 (fun m hml i => tn _ (List.get_mem ks i) m hml) (fun m ha hb i => ts _ (List.get_mem ks i) m ha hb) hz hc).1
      refine ⟨r, _, _, by rw [List.getElem?_map, List.getElem?_eq_getElem r.2]; rfl, by rw [List.getElem?_map, List.getElem?_eq_getElem r.2]; rfl, ?_⟩
      refine hr.trans (mul_le_mul_of_nonneg_right (mul_le_mul_of_nonneg_right (by linarith) (by positivity)) (abs_nonneg _))

/-- **C139, one wavenumber.** The relative error of `mSumme([k])` from the early termination is at most `(lmax - 1)·precision/10`. -/
theorem C139_one_wavenumber (h : BallPairOK P R1 R2) (hp : 0 ≤ P.precision) {k : ℝ} (hk : 0 < k) (hs : P.SameSide k) :
    ∃ x y, ballVals exactBes P [k] = .ok [x] ∧ ballVals exactBes P.complete [k] = .ok [y] ∧ y ≤ x ∧ x ≤ 0 ∧
      |y - x| ≤ (P.lmax - 1) * (P.precision / 10) * |x| := by
  obtain ⟨vs, ws, e1, e2, l1, l2, hj, j, x, y, hx, hy, hb⟩ := C139_mSumme h hp (ks := [k]) (by simp) (by simpa using hk) (by simpa using hs)
  obtain ⟨x', rfl⟩ := List.length_eq_one_iff.mp l1
  obtain ⟨y', rfl⟩ := List.length_eq_one_iff.mp l2
  have hj0 : j = 0 := by
    by_contra hh
    rw [List.getElem?_eq_none (by simpa using (by omega : 1 ≤ j))] at hx
    cases hx
  subst hj0
  obtain ⟨b1, b2, -⟩ := hj 0 x y hx hy
  simp only [List.getElem?_cons_zero, Option.some.injEq] at hx hy
  subst hx hy
  exact ⟨_, _, e1, e2, b1, b2, hb⟩

/-- **C139, zero temperature.** `e0` of two spheres at least as dense as the medium: the early termination changes it by at most `(lmax - 1)·precision/10` of the
returned value. -/
theorem C139_zero_temperature {q : Quad} {deltaT : ℝ} {nmax : ℤ} (h : BallPairOK P R1 R2) (hp : 0 ≤ P.precision) (hs : ∀ k, 0 < k → P.SameSide k)
    (hq : q.Exact) {a : ℝ} (ha : 0 ≤ a) {b : Upper} (hb : ∀ x, b = .num x → a ≤ x)
    (hb' : b = .none → a ≤ nmax * deltaT) :
    ∃ E E', e0 q (ballAt exactBes frac P) deltaT nmax a b = .ok E ∧ e0 q (ballAt exactBes frac P.complete) deltaT nmax a b = .ok E' ∧
      E' ≤ E ∧ E ≤ 0 ∧ |E' - E| ≤ (P.lmax - 1) * (P.precision / 10) * |E| := by
  obtain ⟨s1, s2⟩ := e0Range_sub (deltaT := deltaT) (nmax := nmax) a b
  suffices core : ∀ s : Set ℝ, s ⊆ Ioi 0 → MeasurableSet s → (∫ k in s, ballVal P.complete k) ≤ (∫ k in s, ballVal P k) ∧ (∫ k in s, ballVal P k) ≤ 0 ∧
      |(∫ k in s, ballVal P.complete k) - ∫ k in s, ballVal P k| ≤ (P.lmax - 1) * (P.precision / 10) * |∫ k in s, ballVal P k| from
    ⟨_, _, ball_e0_value h hq ha hb hb', ball_e0_value h.complete hq ha hb hb', core _ (s1.trans (Ioi_subset_Ioi ha)) s2⟩
  clear s1 s2
  intro s s1 s2
  have key : ∀ k ∈ s, ballVal P.complete k ≤ ballVal P k ∧ ballVal P k ≤ 0 ∧
      ballVal P k - ballVal P.complete k ≤ (P.lmax - 1) * (P.precision / 10) * -ballVal P k := by
    intro k hks
    have hk := s1 hks
    obtain ⟨x, y, e1, e2, b1, b2, b3⟩ := C139_one_wavenumber h hp hk (hs k hk)
    rw [h.val_ok hk] at e1
    rw [h.complete.val_ok hk] at e2
    injection e1 with e1
    injection e1 with e1
    injection e2 with e2
    injection e2 with e2
    rw [e1, e2]
    rw [abs_of_nonpos (by linarith), abs_of_nonpos b2] at b3
    exact ⟨b1, b2, by linarith⟩
  have i1 := h.val_integrable.mono_set s1
  have i2 := h.complete.val_integrable.mono_set s1
  have l1 : ∫ k in s, ballVal P.complete k ≤ ∫ k in s, ballVal P k := setIntegral_mono_on i2 i1 s2 fun k hk => (key k hk).1
  have l2 : ∫ k in s, ballVal P k ≤ 0 := setIntegral_nonpos s2 fun k hk => (key k hk).2.1
  refine ⟨l1, l2, ?_⟩
  have l3 := setIntegral_mono_on (i1.sub i2) (i1.neg.const_mul ((P.lmax - 1) * (P.precision / 10))) s2 fun k hk => (key k hk).2.2
  simp only [Pi.sub_apply, Pi.neg_apply] at l3
  rw [integral_sub i1 i2, integral_const_mul, integral_neg] at l3
  rw [abs_of_nonpos (by linarith), abs_of_nonpos l2]
  linarith

/-- **C139, free energy.** `free_energy` with the numerical zero frequency (the only one there is for stratified spheres): every entry is non-positive, at least as
large as that with complete sums over `m`, and at least the `lmax`-th part of it in magnitude, whatever the precision. -/
theorem C139_free_energy {p p' : FTParams} (h : BallPairOK P R1 R2) (hpr : 0 ≤ P.precision) (hs : ∀ k, 0 < k → P.SameSide k)
    (hg : p.geo = ballGeo exactBes frac P) (hp' : p' = { p with geo := ballGeo exactBes frac P.complete }) (hp : p.nprocs.isZero) (ha : p.analyticN0 = false)
    (hT : 0 < p.deltaT) (hN : 1 ≤ p.nmax) :
    ∃ F F' : List ℝ, (freeEnergy p FT.fresh).1 = .ok F ∧ (freeEnergy p' FT.fresh).1 = .ok F' ∧ F.length = p.maxstep.toNat ∧ F'.length = p.maxstep.toNat ∧
      ∀ (i : ℕ) (x y : ℝ), F[i]? = some x → F'[i]? = some y → y ≤ x ∧ x ≤ 0 ∧ |y| ≤ P.lmax * |x| := by
  subst hp'
  obtain ⟨N, hN'⟩ := Int.eq_ofNat_of_zero_le (by omega : 0 ≤ p.nmax)
  have hN1 : 1 ≤ N := by omega
  have hk0 : (0 : ℝ) < 1e-10 := by norm_num
  obtain ⟨vs0, ws0, z1, z2, z3, z4, z5, -⟩ := C139_mSumme h hpr (ks := [1e-10]) (by simp) (by simpa using hk0) (by simpa using hs _ hk0)
  obtain ⟨z, rfl⟩ : ∃ z, vs0 = [z] := List.length_eq_one_iff.mp z3
  obtain ⟨z', rfl⟩ : ∃ z, ws0 = [z] := List.length_eq_one_iff.mp z4
  obtain ⟨zb1, zb2, zb3⟩ := z5 0 z z' rfl rfl
  obtain ⟨F, hF, hl, hval⟩ := freeEnergy_slices_num p (z := z) (hg ▸ ballGeo_valsOk h) (by rw [hg]; exact z1) hp ha hT hN1 hN'
  obtain ⟨F', hF', hl', hval'⟩ := freeEnergy_slices_num { p with geo := ballGeo exactBes frac P.complete } (z := z') (ballGeo_valsOk h.complete) z2 hp ha hT hN1 hN'
  refine ⟨F, F', hF, hF', hl, hl', fun i x y hx hy => ?_⟩
  have hi : i < F.length := by
    by_contra hh
    rw [List.getElem?_eq_none (by omega)] at hx
    cases hx
  have hv := hval (i + 1) (by omega) (by omega)
  have hv' := hval' (i + 1) (by omega) (by simp only; omega)
  rw [Nat.add_sub_cancel, hx, hg] at hv
  rw [Nat.add_sub_cancel, hy] at hv'
  injection hv with hx
  injection hv' with hy
  simp only at hy
  have key : ∀ n, 1 ≤ n → n ≤ N → sliceVal (ballGeo exactBes frac P.complete) p.deltaT N n ≤
      sliceVal (ballGeo exactBes frac P) p.deltaT N n ∧ sliceVal (ballGeo exactBes frac P) p.deltaT N n ≤ 0 ∧
      -sliceVal (ballGeo exactBes frac P.complete) p.deltaT N n ≤ P.lmax * -sliceVal (ballGeo exactBes frac P) p.deltaT N n := by
    intro n hn1 hn2
    obtain ⟨k1, k2, k3⟩ := sliceKs_mem hT hn1 hn2
    obtain ⟨vs, ws, e1, e2, l1, l2, hj, -⟩ := C139_mSumme h hpr k1 k2 (fun k hk => hs k (k2 k hk))
    have hlt : n - sliceLo n < (sliceKs p.deltaT N n).length := by
      by_contra hh
      rw [List.getElem?_eq_none (by omega)] at k3
      cases k3
    have hv := List.getElem?_eq_getElem (l := vs) (i := n - sliceLo n) (by omega)
    have hw := List.getElem?_eq_getElem (l := ws) (i := n - sliceLo n) (by omega)
    obtain ⟨b1, b2, b3⟩ := hj _ _ _ hv hw
    unfold sliceVal ballGeo
    simp only
    rw [e1, e2]
    simp only
    rw [List.getD_eq_getElem?_getD, List.getD_eq_getElem?_getD, hv, hw, Option.getD_some, Option.getD_some]
    rw [abs_of_nonpos (by linarith), abs_of_nonpos b2] at b3
    exact ⟨b1, b2, b3⟩
  have hmem : ∀ j ∈ Finset.range (N / (i + 1)), 1 ≤ (j + 1) * (i + 1) ∧ (j + 1) * (i + 1) ≤ N := by
    intro j hj
    have hj := Finset.mem_range.mp hj
    exact ⟨Nat.mul_pos (by omega) (by omega), (Nat.mul_le_mul_right _ (by omega : j + 1 ≤ N / (i + 1))).trans (Nat.div_mul_le_self _ _)⟩
  have s1 := Finset.sum_le_sum fun j hj => (key _ (hmem j hj).1 (hmem j hj).2).1
  have s2 := Finset.sum_nonpos fun j hj => (key _ (hmem j hj).1 (hmem j hj).2).2.1
  have s3 := Finset.sum_le_sum fun j hj => (key _ (hmem j hj).1 (hmem j hj).2).2.2
  rw [← Finset.mul_sum, Finset.sum_neg_distrib, Finset.sum_neg_distrib] at s3
  rw [abs_of_nonpos (by linarith), abs_of_nonpos zb2] at zb3
  have hTi : 0 < ((i + 1 : ℕ) : ℝ) * p.deltaT := by positivity
  generalize ∑ j ∈ Finset.range (N / (i + 1)), sliceVal (ballGeo exactBes frac P) p.deltaT N ((j + 1) * (i + 1)) = s at *
  generalize ∑ j ∈ Finset.range (N / (i + 1)), sliceVal (ballGeo exactBes frac P.complete) p.deltaT N ((j + 1) * (i + 1)) = s' at *
  have c1 : y ≤ x := by rw [hx, hy]; exact mul_le_mul_of_nonneg_left (by linarith) hTi.le
  have c2 : x ≤ 0 := by rw [hx]; exact mul_nonpos_of_nonneg_of_nonpos hTi.le (by linarith)
  refine ⟨c1, c2, ?_⟩
  rw [abs_of_nonpos (c1.trans c2), abs_of_nonpos c2, hx, hy, ← mul_neg, ← mul_neg, mul_left_comm]
  exact mul_le_mul_of_nonneg_left (by linarith) hTi.le

/-! ## Examples -/

/-- A coated gold sphere of radius 3/2 and a sphere of radius 4 at distance 6 with `lmax = 20` and precision `1e-4`: `e0` is accurate to `1.9e-4` with respect to `m`. -/
example : ∃ E E' : ℝ, e0 exactQuad (ballAt exactBes frac wetPair) 0 0 0 .inf = .ok E ∧
    e0 exactQuad (ballAt exactBes frac wetPair.complete) 0 0 0 .inf = .ok E' ∧ E < 0 ∧ |E' - E| ≤ 1.9e-4 * |E| := by
  obtain ⟨E, E', h1, h2, h4, h5, h3⟩ := C139_zero_temperature (P := wetPair) (frac := frac) (deltaT := 0) (nmax := 0) wetPair_ok
    (by norm_num [wetPair]) (fun k hk => wetPair_same hk) exactQuad_exact le_rfl (b := .inf) (by simp) (by simp)
  obtain ⟨F, g1, g2, -⟩ := C138_strict (frac := frac) (deltaT := 0) (nmax := 0) wetPair_ok exactQuad_exact (fun k hk => (wetFull_contrast hk).1)
    (fun k hk => (wetFull_contrast hk).2) le_rfl (b := .inf) (by simp) (by simp)
  rw [h1] at g1
  injection g1 with g1
  refine ⟨E, E', h1, h2, g1 ▸ g2 fun k hk => wetPair_same hk, h3.trans (le_of_eq ?_)⟩
  norm_num [wetPair]

example : ∃ x y : ℝ, ballVals exactBes wetPair [1/2] = .ok [x] ∧ ballVals exactBes wetPair.complete [1/2] = .ok [y] ∧ |y - x| ≤ 1.9e-4 * |x| := by
  obtain ⟨x, y, h1, h2, -, -, h3⟩ := C139_one_wavenumber wetPair_ok (by norm_num [wetPair]) (k := 1/2) (by norm_num) (wetPair_same (by norm_num))
  exact ⟨x, y, h1, h2, h3.trans (le_of_eq (by norm_num [wetPair]))⟩

example : ∃ F F' : List ℝ, (freeEnergy ⟨0.01, 500, 200, false, .int 0, ballGeo exactBes frac wetPair⟩ FT.fresh).1 = .ok F ∧
    (freeEnergy ⟨0.01, 500, 200, false, .int 0, ballGeo exactBes frac wetPair.complete⟩ FT.fresh).1 = .ok F' ∧ F.length = 200 ∧ F'.length = 200 ∧
    ∀ (i : ℕ) (x y : ℝ), F[i]? = some x → F'[i]? = some y → y ≤ x ∧ x ≤ 0 ∧ |y| ≤ (20 : ℕ) * |x| :=
  C139_free_energy wetPair_ok (by norm_num [wetPair]) (fun k hk => wetPair_same hk) rfl rfl rfl rfl (by norm_num) (by norm_num)

/-- The coated sphere alone. -/
example : ∃ t, ballTable exactBes fourMats 0 20 (1/2) (.strat wetGold) = .ok t ∧ ∀ l, 1 ≤ l → l ≤ 20 → |t.TE l| ≤ |t.TM l| ∧ t.TE l * t.TM l ≤ 0 := by
  obtain ⟨c, hc, -⟩ := wetPair_ok.ok1.reflects wetPair_ok.m3 (k := 1/2) (by norm_num)
  obtain ⟨t, ht, -⟩ := hc 20
  refine ⟨t, ht, fun l h1 h2 => C139_coefficients wetPair_ok.ok1 wetPair_ok.m3 (k := 1/2) (by norm_num) ?_ ht h1 h2⟩
  rcases wetPair_same (k := 1/2) (by norm_num) with hs | hs
  · exact .inl hs.1
  · exact .inr hs.1

end CasSph
