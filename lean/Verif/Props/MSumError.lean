import Verif.Lemmas.MStep
import Verif.Props.Distance
import Verif.Lemmas.PFAExact

/-! # Property C134: contributions fall with `m`, and what the early termination of the sum over `m` costs -/

namespace CasSph

open Spec MeasureTheory Set

variable {P : PairIn} {frac : ℝ → ℝ → ℝ}

/-- The same pair with the complete sum over `m`. -/
def PairIn.complete (P : PairIn) : PairIn := { P with precision := 0 }

theorem PairOK.complete (h : PairOK P) : PairOK P.complete := ⟨h.m1, h.m2, h.m3, h.h1, h.h2, h.sep, h.hl, h.hls⟩

/-! ## Single contributions -/

/-- **C134, one subspace, positive wavenumber.** If both spheres are at least as dense as the medium at the wavenumber `k` (or perfect conductors), every `m`
lowers the sum, and from `m = 1` on each contribution is at most as large as the one before. -/
theorem C134_single_m (h : PairOK P) {k : ℝ} (hk : 0 < k) (h1 : Denser P.mat1 P.mat3 k) (h2 : Denser P.mat2 P.mat3 k) :
    ∃ w, waveIn exactBes P k = .ok w ∧ ∃ v : ℕ → ℝ, (∀ m : ℕ, m ≤ P.lmax → ∃ N, ∀ fuel, N < fuel →
        singleM fuel 0.9 P.lmax P.lssmax m [w] = some (.ok [(v m : EReal)])) ∧
      (∀ m ≤ P.lmax, v m ≤ 0) ∧ ∀ m, 1 ≤ m → m < P.lmax → v m ≤ v (m + 1) := by
  obtain ⟨a, b, S⟩ := h.pair hk
  obtain ⟨w, w', e1, e2, e3⟩ := waveIn_ok S
  have ea := h1.sign h.m1 h.m3 hk
  have eb := h2.sign h.m2 h.m3 hk
  have hm : ∀ m ≤ P.lmax, max 1 m ≤ P.lmax := fun m hm => by have := h.hl; omega
  refine ⟨w, e1, fun m => lnDetV P m k, fun m hml => ?_, fun m hml => ((lnDetV_val h (hm m hml) hk).2 1 1 ea eb).1 rfl,
    fun m hm1 hml => lnDetV_m_step h hk h1 h2 hm1 hml⟩
  obtain ⟨u, ⟨N, hN⟩, hu⟩ := C99_single_m (d := 1) (ks := fun _ => k) (w := fun _ => w') (by norm_num) (fun _ => e2) (fun _ => ea) (fun _ => eb) (m := m)
    (hm m hml) ((hm m hml).trans h.hls) (conv := 0.9) (by norm_num)
  refine ⟨N, fun fuel hf => ?_⟩
  have := singleM_congr (d := 1) (w := fun _ => w) (w' := fun _ => w') (fun _ => e3) (fuel := fuel) (conv := 0.9) (m := m)
  rw [hN fuel hf] at this
  obtain ⟨-, B, hB, -, e⟩ := hu 0
  have hv : u 0 = lnDetV P m k := by
    rw [e]
    unfold lnDetV
    rw [(hB.same_rtV (m := m) h.m3.cls h.m3.phys hk e2.pair.ha e2.pair.hb).det]
  simpa [hv] using this

/-- **C134, one subspace, zero frequency.** For equal contrast every `m` lowers the sum, and each contribution is at most as large as the one before. -/
theorem C134_single_m_k0 (h : PairOK P) (hc : EqualContrast P.mat1 P.mat2 P.mat3) :
    ∃ a b, mieTableK0 frac P.mat1 P.mat3 P.lmax P.r1 = .ok a ∧ mieTableK0 frac P.mat2 P.mat3 P.lssmax P.r2 = .ok b ∧
      ∃ v : ℕ → ℝ, (∀ m : ℕ, m ≤ P.lmax → ∃ N, ∀ fuel, N < fuel →
        singleMK0 fuel P.lmax P.lssmax m P.r1 P.r2 P.L a b = some (.ok (some (v m : EReal)))) ∧
      (∀ m ≤ P.lmax, v m ≤ 0) ∧ ∀ m, m < P.lmax → v m ≤ v (m + 1) := by
  obtain ⟨a0, b0, S⟩ := staticPair_exists frac h.m1.static h.m2.static h.m3.diel h.m3.phys h.h1 h.h2 h.sep
  obtain ⟨c1, h1, g1⟩ := mieTableK0_ok S.ha P.lmax
  obtain ⟨c2, h2, g2⟩ := mieTableK0_ok S.hb P.lssmax
  obtain ⟨σ, es1, es2⟩ := hc.electric
  obtain ⟨τ, et1, et2⟩ := hc.magnetic
  obtain ⟨A, A', hA⟩ := ampK0_exists frac h.m1 h.m3 h.h1 es1 et1
  obtain ⟨B, B', hB⟩ := ampK0_exists frac h.m2 h.m3 h.h2 es2 et2
  have hσ : σ * σ = 1 := by rcases es1.sign with e | e <;> rw [e] <;> norm_num
  have hτ : τ * τ = 1 := by rcases et1.sign with e | e <;> rw [e] <;> norm_num
  refine ⟨c1, c2, h1, h2, fun m => k0V m P.r1 P.r2 P.L P.lmax P.lssmax 1 1 A A' B B', fun m hm => ?_,
    fun m _ => (k0V_far h.h1 h.h2 h.sep le_rfl _ _ hA.1 hA.2.1 hB.1 hB.2.1).1,
    fun m hm => k0V_m_step h.h1 h.h2 h.sep hm h.hls hA.1 hA.2.1 hB.1 hB.2.1⟩
  have hlm : transLmin (m : ℤ) = max 1 m := by unfold transLmin; omega
  have := h.hl
  have := h.hls
  obtain ⟨⟨TE, TM⟩, h0⟩ : ∃ R, blockmatricesK0At P.lmax P.lssmax m P.r1 P.r2 P.L a0 b0 = .ok R :=
    C72_k0_ext_total (by omega) (by omega) _ _ _ _
  obtain ⟨⟨p1, -⟩, ⟨p2, -⟩⟩ := C92_positive S h0
  obtain ⟨N, hN⟩ := slnDetBlockdiagonal_pos TE TM p1 p2
  refine ⟨N, fun fuel hf => ?_⟩
  rw [singleMK0_congr g1 g2]
  unfold singleMK0
  rw [h0]
  obtain ⟨e1, e2⟩ := S.kern hA hB h0
  have e : k0V m P.r1 P.r2 P.L P.lmax P.lssmax 1 1 A A' B B' = staticLn TE TM := by
    unfold k0V staticLn
    rw [abs_of_pos p1, abs_of_pos p2, e1, e2, hσ, hτ]
  simp only [e]
  exact hN fuel hf

/-! ## The early termination -/

/-- **C134, `mSumme`.** With non-positive contributions that grow from `m = 1` on: if `mSumme` stops at `1 ≤ M < lmax` because the last step was small, then
the complete sum differs at the reference wavenumber by at most `(lmax - M)·precision/10` of the returned value, and at every wavenumber the returned value
is at least the fraction `M/lmax` of the complete sum. -/
theorem C134_stop {n : ℕ} {v : ℕ → Fin n → ℝ} {precision : ℝ} {M lmax : ℕ} (hM : M ≤ lmax) (hn : ∀ m ≤ lmax, ∀ i, v m i ≤ 0)
    (hs : ∀ m, 1 ≤ m → m < lmax → ∀ i, v m i ≤ v (m + 1) i) (h0 : ∃ i, v 0 i ≠ 0) (hc : SmallChange precision v M) :
    (∃ r, IsRef (mSum v (M - 1)) r ∧ |mSum v lmax r - mSum v M r| ≤ (lmax - M) * (precision / 10) * |mSum v M r|) ∧
    ∀ i, M * |mSum v lmax i| ≤ lmax * |mSum v M i| ∧ mSum v lmax i ≤ mSum v M i ∧ mSum v M i ≤ 0 := by
  have hM1 := hc.1
  have hle : ((M : ℝ)) ≤ lmax := by exact_mod_cast hM
  have d := fun i => mSum_drop hM1 hM (fun m hm => hn m hm i) (fun m h1 h2 => hs m h1 h2 i)
  have np : ∀ m ≤ lmax, ∀ i, mSum v m i ≤ 0 := fun m hm i => by
    unfold mSum
    have := hn 0 (by omega) i
    have := Finset.sum_nonpos fun j (hj : j ∈ Finset.Icc 1 m) => hn j (by have := (Finset.mem_Icc.mp hj).2; omega) i
    linarith
  constructor
  · obtain ⟨r, hr, hlt⟩ := C15_last_term_partial hc (by
      obtain ⟨i, hi⟩ := h0
      refine ⟨i, ?_⟩
      have := lt_of_le_of_ne (hn 0 (by omega) i) hi
      have := Finset.sum_nonpos fun j (hj : j ∈ Finset.Icc 1 (M - 1)) => hn j (by have := (Finset.mem_Icc.mp hj).2; omega) i
      unfold mSum
      linarith) fun i => mul_nonneg_of_nonpos_of_nonpos (np _ hM i) (np _ (by omega) i)
    refine ⟨r, hr, ?_⟩
    obtain ⟨d1, d2, d3⟩ := d r
    have hv := hn M hM r
    have q := np M hM r
    have q' := np (M - 1) (by omega) r
    have e : mSum v M r = mSum v (M - 1) r + 2 * v M r := by
      obtain ⟨j, rfl⟩ : ∃ j, M = j + 1 := ⟨M - 1, by omega⟩
      rw [mSum_succ, Nat.add_sub_cancel]
    rw [abs_of_nonpos (by linarith), abs_of_nonpos q'] at hlt
    rw [abs_of_nonpos (by linarith), abs_of_nonpos q]
    have hp : 0 ≤ precision / 10 := by
      by_contra hh
      nlinarith
    have : -2 * v M r ≤ precision / 10 * -mSum v M r := by nlinarith
    nlinarith
  · intro i
    obtain ⟨d1, d2, d3⟩ := d i
    have q := np M hM i
    rw [abs_of_nonpos (by linarith), abs_of_nonpos q]
    refine ⟨?_, d1, q⟩
    have hM0 : (0 : ℝ) ≤ M := by positivity
    nlinarith

/-- **C134, `mSumme_k0`.** -/
theorem C134_stop_k0 {v : ℕ → ℝ} {precision : ℝ} {M lmax : ℕ} (h1 : 1 ≤ M) (hM : M ≤ lmax) (hn : ∀ m ≤ lmax, v m ≤ 0)
    (hs : ∀ m, 1 ≤ m → m < lmax → v m ≤ v (m + 1)) (h0 : mSum (fun m (_ : Fin 1) => v m) M 0 ≠ 0)
    (hc : |(|mSum (fun m (_ : Fin 1) => v m) (M - 1) 0 / mSum (fun m (_ : Fin 1) => v m) M 0|) - 1| < precision / 10) :
    |mSum (fun m (_ : Fin 1) => v m) lmax 0 - mSum (fun m (_ : Fin 1) => v m) M 0| ≤
      (lmax - M) * (precision / 10) * |mSum (fun m (_ : Fin 1) => v m) M 0| := by
  have hle : ((M : ℝ)) ≤ lmax := by exact_mod_cast hM
  obtain ⟨d1, d2, d3⟩ := mSum_drop (v := fun m (_ : Fin 1) => v m) (i := 0) h1 hM (fun m hm => hn m hm) (fun m h1 h2 => hs m h1 h2)
  have np : ∀ m ≤ lmax, mSum (fun m (_ : Fin 1) => v m) m 0 ≤ 0 := fun m hm => by
    unfold mSum
    have := hn 0 (by omega)
    have := Finset.sum_nonpos fun j (hj : j ∈ Finset.Icc 1 m) => hn j (by have := (Finset.mem_Icc.mp hj).2; omega)
    linarith
  have e : mSum (fun m (_ : Fin 1) => v m) M 0 = mSum (fun m (_ : Fin 1) => v m) (M - 1) 0 + 2 * v M := by
    obtain ⟨j, rfl⟩ : ∃ j, M = j + 1 := ⟨M - 1, by omega⟩
    rw [mSum_succ, Nat.add_sub_cancel]
  have q := lt_of_le_of_ne (np M hM) h0
  have q' := np (M - 1) (by omega)
  have hv := hn M hM
  generalize mSum (fun m (_ : Fin 1) => v m) M 0 = S at *
  generalize mSum (fun m (_ : Fin 1) => v m) (M - 1) 0 = S' at *
  generalize mSum (fun m (_ : Fin 1) => v m) lmax 0 = Sl at *
  rw [abs_of_nonneg (div_nonneg_of_nonpos q' q.le)] at hc
  have hc := (abs_lt.mp hc).1
  have hq : -(precision / 10) * -S < (S' / S - 1) * -S := mul_lt_mul_of_pos_right hc (by linarith)
  have hS : (S' / S - 1) * -S = S - S' := by field_simp; ring
  rw [hS] at hq
  rw [abs_of_nonpos (by linarith), abs_of_nonpos q.le]
  nlinarith

/-! ## Two spheres -/

/-- What `mSumme` returns for two spheres denser than the medium: the sum up to an `M ≥ 1`, the same for all wavenumbers. -/
theorem pairVals_stop (h : PairOK P) {ks : List ℝ} (hne : ks ≠ []) (hk : ∀ k ∈ ks, 0 < k) (h1 : ∀ k ∈ ks, Denser P.mat1 P.mat3 k)
    (h2 : ∀ k ∈ ks, Denser P.mat2 P.mat3 k) :
    ∃ M, 1 ≤ M ∧ M ≤ P.lmax ∧ pairVals exactBes P ks = .ok (ks.map fun k => lnDetV P 0 k + 2 * ∑ m ∈ Finset.Icc 1 M, lnDetV P m k) ∧
      (M = P.lmax ∨ ((∃ i, lnDetV P 0 (ks.get i) ≠ 0) ∧ SmallChange P.precision (fun m (i : Fin ks.length) => lnDetV P m (ks.get i)) M)) := by
  have hd : 0 < ks.length := List.length_pos_iff.mpr hne
  have hm : ∀ m ≤ P.lmax, max 1 m ≤ P.lmax := fun m hm => by have := h.hl; omega
  obtain ⟨M, g1, g2, g3, -⟩ := C13_mSumme hd (lmax := P.lmax) (precision := P.precision)
    (L := fun m => .ok fun i : Fin ks.length => lnDetV P m (ks.get i)) (v := fun m i => lnDetV P m (ks.get i)) fun _ _ => rfl
  have fin : ∀ M', (∀ i, mSum (fun m (i : Fin ks.length) => lnDetV P m (ks.get i)) M i =
      mSum (fun m (i : Fin ks.length) => lnDetV P m (ks.get i)) M' i) →
      pairVals exactBes P ks = .ok (ks.map fun k => lnDetV P 0 k + 2 * ∑ m ∈ Finset.Icc 1 M', lnDetV P m k) := by
    intro M' hM'
    rw [pairVals_eq h hne hk, g1, ok_bind]
    congr 1
    refine List.ext_getElem (by simp) fun j hj1 hj2 => ?_
    rw [List.getElem_ofFn, List.getElem_map, hM']
    rfl
  have zero : ∀ i : Fin ks.length, mSum (fun m (i : Fin ks.length) => lnDetV P m (ks.get i)) M i = 0 → ∀ m, lnDetV P m (ks.get i) = 0 := by
    intro i hi
    have hki := hk _ (List.get_mem ks i)
    refine lnDetV_zero h hki fun hc => ?_
    have ea := (h1 _ (List.get_mem ks i)).sign h.m1 h.m3 hki
    have eb := (h2 _ (List.get_mem ks i)).sign h.m2 h.m3 hki
    have hs := fun m hm' => (lnDetV_strict h (hm m hm') hki hc.1 hc.2 ea eb).1 rfl
    unfold mSum at hi
    simp only at hi
    have := hs 0 (by omega)
    have := Finset.sum_nonpos fun m (hm' : m ∈ Finset.Icc 1 M) => (hs m ((Finset.mem_Icc.mp hm').2.trans g2)).le
    linarith
  rcases g3 with g3 | rfl
  · by_cases hz : ∀ i, lnDetV P 0 (ks.get i) = 0
    · refine ⟨P.lmax, h.hl, le_rfl, fin _ fun i => ?_, .inl rfl⟩
      have hki := hk _ (List.get_mem ks i)
      have ea := (h1 _ (List.get_mem ks i)).sign h.m1 h.m3 hki
      have eb := (h2 _ (List.get_mem ks i)).sign h.m2 h.m3 hki
      have hall : ∀ m, lnDetV P m (ks.get i) = 0 := lnDetV_zero h hki fun hc =>
        ((lnDetV_strict h (hm 0 (by omega)) hki hc.1 hc.2 ea eb).1 rfl).ne (hz i)
      unfold mSum
      simp only [hall, Finset.sum_const_zero]
    · have hz := not_forall.mp hz
      rcases g3 with g3 | g3
      · obtain ⟨i, hi⟩ := hz
        exact absurd (zero i (g3 i) 0) hi
      · exact ⟨M, g3.1, g2, fin M fun _ => rfl, .inr ⟨hz, g3⟩⟩
  · exact ⟨_, h.hl, le_rfl, fin _ fun _ => rfl, .inl rfl⟩

/-- **C134, two spheres.** Both spheres at least as dense as the medium at all wavenumbers of the list: the returned values and those of the complete sum are
non-positive, the returned ones are at least the `lmax`-th part of the complete ones, and at one wavenumber of the list (the one with the largest value
before the last step) they differ by at most `(lmax - 1)·precision/10` of the returned value. -/
theorem C134_mSumme (h : PairOK P) (hp : 0 ≤ P.precision) {ks : List ℝ} (hne : ks ≠ []) (hk : ∀ k ∈ ks, 0 < k) (h1 : ∀ k ∈ ks, Denser P.mat1 P.mat3 k)
    (h2 : ∀ k ∈ ks, Denser P.mat2 P.mat3 k) :
    ∃ vs ws, pairVals exactBes P ks = .ok vs ∧ pairVals exactBes P.complete ks = .ok ws ∧ vs.length = ks.length ∧ ws.length = ks.length ∧
      (∀ (j : ℕ) (x y : ℝ), vs[j]? = some x → ws[j]? = some y → y ≤ x ∧ x ≤ 0 ∧ |y| ≤ P.lmax * |x|) ∧
      ∃ (j : ℕ) (x y : ℝ), vs[j]? = some x ∧ ws[j]? = some y ∧ |y - x| ≤ (P.lmax - 1) * (P.precision / 10) * |x| := by
  obtain ⟨M, m1, m2, hv, hc⟩ := pairVals_stop h hne hk h1 h2
  have hw : pairVals exactBes P.complete ks = .ok (ks.map (pairSum P)) := pairVals_sum h.complete le_rfl hne hk
  have hm : ∀ m ≤ P.lmax, max 1 m ≤ P.lmax := fun m hm => by have := h.hl; omega
  have hle : (1 : ℝ) ≤ P.lmax := by exact_mod_cast h.hl
  have hM1 : (1 : ℝ) ≤ M := by exact_mod_cast m1
  have hM2 : (M : ℝ) ≤ P.lmax := by exact_mod_cast m2
  have tn : ∀ k ∈ ks, ∀ m ≤ P.lmax, lnDetV P m k ≤ 0 := fun k hkm m hml =>
    ((lnDetV_val h (hm m hml) (hk k hkm)).2 1 1 ((h1 k hkm).sign h.m1 h.m3 (hk k hkm)) ((h2 k hkm).sign h.m2 h.m3 (hk k hkm))).1 rfl
  have ts : ∀ k ∈ ks, ∀ m, 1 ≤ m → m < P.lmax → lnDetV P m k ≤ lnDetV P (m + 1) k := fun k hkm m ha hb =>
    lnDetV_m_step h (hk k hkm) (h1 k hkm) (h2 k hkm) ha hb
  refine ⟨_, _, hv, hw, by simp, by simp, fun j x y hx hy => ?_, ?_⟩
  · rw [List.getElem?_map] at hx hy
    obtain ⟨k, hj, rfl⟩ := Option.map_eq_some_iff.mp hx
    rw [hj] at hy
    injection hy with hy
    have hkm : k ∈ ks := List.mem_of_getElem? hj
    obtain ⟨d1, d2, d3⟩ := mSum_drop (v := fun m (_ : Fin 1) => lnDetV P m k) (i := 0) m1 m2 (tn k hkm) (ts k hkm)
    have e : mSum (fun m (_ : Fin 1) => lnDetV P m k) P.lmax 0 = y := hy
    rw [e] at d1 d2
    have e' : mSum (fun m (_ : Fin 1) => lnDetV P m k) M 0 = lnDetV P 0 k + 2 * ∑ m ∈ Finset.Icc 1 M, lnDetV P m k := rfl
    rw [e'] at d1 d2 d3
    have hv := tn k hkm M m2
    generalize lnDetV P 0 k + 2 * ∑ m ∈ Finset.Icc 1 M, lnDetV P m k = x at *
    have hx0 : x ≤ 0 := by nlinarith
    refine ⟨d1, hx0, ?_⟩
    rw [abs_of_nonpos (by linarith), abs_of_nonpos hx0]
    have t0 : 0 ≤ -2 * lnDetV P M k := by linarith
    generalize -2 * lnDetV P M k = t at *
    nlinarith
  · rcases hc with rfl | ⟨hz, hc⟩
    · obtain ⟨k, hk0⟩ : ∃ k, ks[0]? = some k := by
        cases ks with
        | nil => exact absurd rfl hne
        | cons a t => exact ⟨a, rfl⟩
      refine ⟨0, _, _, by rw [List.getElem?_map, hk0]; rfl, by rw [List.getElem?_map, hk0]; rfl, ?_⟩
      have : pairSum P k - (lnDetV P 0 k + 2 * ∑ m ∈ Finset.Icc 1 P.lmax, lnDetV P m k) = 0 := sub_self _
      rw [this, abs_zero]
      have : (0 : ℝ) ≤ P.lmax - 1 := by linarith
      positivity
    · obtain ⟨r, -, hr⟩ := (C134_stop m2 (fun m hml i => tn _ (List.get_mem ks i) m hml) (fun m ha hb i => ts _ (List.get_mem ks i) m ha hb) hz hc).1
      refine ⟨r, _, _, by rw [List.getElem?_map, List.getElem?_eq_getElem r.2]; rfl, by rw [List.getElem?_map, List.getElem?_eq_getElem r.2]; rfl, ?_⟩
      refine hr.trans (mul_le_mul_of_nonneg_right (mul_le_mul_of_nonneg_right (by linarith) (by positivity)) (abs_nonneg _))

/-- **C134, one wavenumber.** The relative error of `mSumme([k])` from the early termination is at most `(lmax - 1)·precision/10`. -/
theorem C134_one_wavenumber (h : PairOK P) (hp : 0 ≤ P.precision) {k : ℝ} (hk : 0 < k) (h1 : Denser P.mat1 P.mat3 k) (h2 : Denser P.mat2 P.mat3 k) :
    ∃ x y, pairVals exactBes P [k] = .ok [x] ∧ pairVals exactBes P.complete [k] = .ok [y] ∧ y ≤ x ∧ x ≤ 0 ∧
      |y - x| ≤ (P.lmax - 1) * (P.precision / 10) * |x| := by
  obtain ⟨vs, ws, e1, e2, l1, l2, hj, j, x, y, hx, hy, hb⟩ := C134_mSumme h hp (ks := [k]) (by simp) (by simpa using hk) (by simpa using h1) (by simpa using h2)
  obtain ⟨x', rfl⟩ := List.length_eq_one_iff.mp l1
  obtain ⟨y', rfl⟩ := List.length_eq_one_iff.mp l2
  have hj0 : j = 0 := by
    by_contra hh
    rw [List.getElem?_eq_none (by simpa using (by omega : 1 ≤ j))] at hx
    cases hx
  subst hj0
  obtain ⟨b1, b2, -⟩ := hj 0 x y hx hy
  simp only [List.getElem?_cons_zero, Option.some.injEq] at hx hy
  subst hx hy
  exact ⟨_, _, e1, e2, b1, b2, hb⟩

/-- **C134, zero frequency.** The same for `mSumme_k0` with equal contrast. -/
theorem C134_mSumme_k0 (h : PairOK P) (hp : 0 ≤ P.precision) (hc : EqualContrast P.mat1 P.mat2 P.mat3) :
    ∃ z y, pairK0 frac P = .ok z ∧ pairK0 frac P.complete = .ok y ∧ y ≤ z ∧ z ≤ 0 ∧ |y - z| ≤ (P.lmax - 1) * (P.precision / 10) * |z| ∧
      |y| ≤ P.lmax * |z| := by
  obtain ⟨σ, es1, es2⟩ := hc.electric
  obtain ⟨τ, et1, et2⟩ := hc.magnetic
  obtain ⟨A, A', hA⟩ := ampK0_exists frac h.m1 h.m3 h.h1 es1 et1
  obtain ⟨B, B', hB⟩ := ampK0_exists frac h.m2 h.m3 h.h2 es2 et2
  have hσ : σ * σ = 1 := by rcases es1.sign with e | e <;> rw [e] <;> norm_num
  have hτ : τ * τ = 1 := by rcases et1.sign with e | e <;> rw [e] <;> norm_num
  have q1 := pairK0_kern h hA hB
  have q2 := pairK0_kern h.complete (frac := frac) hA hB
  simp only [PairIn.complete] at q2
  rw [hσ, hτ] at q1 q2
  rw [mSummeK0_full le_rfl] at q2
  obtain ⟨M, g1, m2, g3, -⟩ := C14_mSumme_k0 (lmax := P.lmax) (precision := P.precision)
    (L := fun m => .ok fun _ => k0V m P.r1 P.r2 P.L P.lmax P.lssmax 1 1 A A' B B')
    (v := fun m _ => k0V m P.r1 P.r2 P.L P.lmax P.lssmax 1 1 A A' B B') fun _ _ => rfl
  rw [g1, ok_bind] at q1
  rw [ok_bind] at q2
  have tn : ∀ m ≤ P.lmax, k0V m P.r1 P.r2 P.L P.lmax P.lssmax 1 1 A A' B B' ≤ 0 := fun m _ =>
    (k0V_far h.h1 h.h2 h.sep le_rfl _ _ hA.1 hA.2.1 hB.1 hB.2.1).1
  have ts : ∀ m, 1 ≤ m → m < P.lmax → k0V m P.r1 P.r2 P.L P.lmax P.lssmax 1 1 A A' B B' ≤ k0V (m + 1) P.r1 P.r2 P.L P.lmax P.lssmax 1 1 A A' B B' :=
    fun m _ hm => k0V_m_step h.h1 h.h2 h.sep hm h.hls hA.1 hA.2.1 hB.1 hB.2.1
  have m1 : 1 ≤ M := by
    rcases g3 with ⟨g, -⟩ | g
    · exact g
    · rw [g]; exact h.hl
  have hle : (1 : ℝ) ≤ P.lmax := by exact_mod_cast h.hl
  have hM1 : (1 : ℝ) ≤ M := by exact_mod_cast m1
  have hM2 : (M : ℝ) ≤ P.lmax := by exact_mod_cast m2
  have herr : |mSum (fun m (_ : Fin 1) => k0V m P.r1 P.r2 P.L P.lmax P.lssmax 1 1 A A' B B') P.lmax 0 -
      mSum (fun m (_ : Fin 1) => k0V m P.r1 P.r2 P.L P.lmax P.lssmax 1 1 A A' B B') M 0| ≤ (P.lmax - M) * (P.precision / 10) *
      |mSum (fun m (_ : Fin 1) => k0V m P.r1 P.r2 P.L P.lmax P.lssmax 1 1 A A' B B') M 0| := by
    rcases g3 with ⟨-, g, g'⟩ | g
    · exact C134_stop_k0 m1 m2 tn ts g g'
    · rw [g, sub_self, abs_zero, sub_self, zero_mul, zero_mul]
  obtain ⟨d1, d2, d3⟩ := mSum_drop (v := fun m (_ : Fin 1) => k0V m P.r1 P.r2 P.L P.lmax P.lssmax 1 1 A A' B B') (i := 0) m1 m2 tn ts
  refine ⟨_, mSum (fun m (_ : Fin 1) => k0V m P.r1 P.r2 P.L P.lmax P.lssmax 1 1 A A' B B') P.lmax 0, q1, q2, d1, ?_⟩
  have hv := tn M m2
  generalize mSum (fun m (_ : Fin 1) => k0V m P.r1 P.r2 P.L P.lmax P.lssmax 1 1 A A' B B') M 0 = x at *
  generalize mSum (fun m (_ : Fin 1) => k0V m P.r1 P.r2 P.L P.lmax P.lssmax 1 1 A A' B B') P.lmax 0 = y at *
  have t0 : 0 ≤ -2 * k0V M P.r1 P.r2 P.L P.lmax P.lssmax 1 1 A A' B B' := by linarith
  generalize -2 * k0V M P.r1 P.r2 P.L P.lmax P.lssmax 1 1 A A' B B' = t at *
  have hx0 : x ≤ 0 := by nlinarith
  refine ⟨hx0, herr.trans (mul_le_mul_of_nonneg_right (mul_le_mul_of_nonneg_right (by linarith) (by positivity)) (abs_nonneg _)), ?_⟩
  rw [abs_of_nonpos (by linarith), abs_of_nonpos hx0]
  nlinarith

/-- **C134, zero temperature.** `e0` of two spheres at least as dense as the medium: the early termination changes it by at most `(lmax - 1)·precision/10` of the
returned value. -/
theorem C134_zero_temperature {q : Quad} {deltaT : ℝ} {nmax : ℤ} (h : PairOK P) (hp : 0 ≤ P.precision) (h1 : ∀ k, 0 < k → Denser P.mat1 P.mat3 k)
    (h2 : ∀ k, 0 < k → Denser P.mat2 P.mat3 k) (hq : q.Exact) {a : ℝ} (ha : 0 ≤ a) {b : Upper} (hb : ∀ x, b = .num x → a ≤ x)
    (hb' : b = .none → a ≤ nmax * deltaT) :
    ∃ E E', e0 q (pairAt exactBes frac P) deltaT nmax a b = .ok E ∧ e0 q (pairAt exactBes frac P.complete) deltaT nmax a b = .ok E' ∧
      E' ≤ E ∧ E ≤ 0 ∧ |E' - E| ≤ (P.lmax - 1) * (P.precision / 10) * |E| := by
  obtain ⟨s1, s2⟩ := e0_set (nmax := nmax) (deltaT := deltaT) ha b
  suffices core : ∀ s : Set ℝ, s ⊆ Ioi 0 → MeasurableSet s → (∫ k in s, pairVal P.complete k) ≤ (∫ k in s, pairVal P k) ∧ (∫ k in s, pairVal P k) ≤ 0 ∧
      |(∫ k in s, pairVal P.complete k) - ∫ k in s, pairVal P k| ≤ (P.lmax - 1) * (P.precision / 10) * |∫ k in s, pairVal P k| from
    ⟨_, _, e0_value h hq ha hb hb', e0_value h.complete hq ha hb hb', core _ s1 s2⟩
  clear s1 s2
  intro s s1 s2
  have key : ∀ k ∈ s, pairVal P.complete k ≤ pairVal P k ∧ pairVal P k ≤ 0 ∧
      pairVal P k - pairVal P.complete k ≤ (P.lmax - 1) * (P.precision / 10) * -pairVal P k := by
    intro k hks
    have hk := s1 hks
    obtain ⟨x, y, e1, e2, b1, b2, b3⟩ := C134_one_wavenumber h hp hk (h1 k hk) (h2 k hk)
    rw [pairVal_ok h hk] at e1
    rw [pairVal_ok h.complete hk] at e2
    injection e1 with e1
    injection e1 with e1
    injection e2 with e2
    injection e2 with e2
    rw [e1, e2]
    rw [abs_of_nonpos (by linarith), abs_of_nonpos b2] at b3
    exact ⟨b1, b2, by linarith⟩
  have i1 := (pairVal_integrable h).mono_set s1
  have i2 := (pairVal_integrable h.complete).mono_set s1
  have l1 : ∫ k in s, pairVal P.complete k ≤ ∫ k in s, pairVal P k := setIntegral_mono_on i2 i1 s2 fun k hk => (key k hk).1
  have l2 : ∫ k in s, pairVal P k ≤ 0 := setIntegral_nonpos s2 fun k hk => (key k hk).2.1
  refine ⟨l1, l2, ?_⟩
  have l3 := setIntegral_mono_on (i1.sub i2) (i1.neg.const_mul ((P.lmax - 1) * (P.precision / 10))) s2 fun k hk => (key k hk).2.2
  simp only [Pi.sub_apply, Pi.neg_apply] at l3
  rw [integral_sub i1 i2, integral_const_mul, integral_neg] at l3
  rw [abs_of_nonpos (by linarith), abs_of_nonpos l2]
  linarith

/-- **C134, free energy.** For two spheres at least as dense as the medium every entry of `free_energy` is non-positive, at least as large as that with complete sums
over `m`, and at least the `lmax`-th part of it in magnitude, whatever the precision. -/
theorem C134_free_energy {p p' : FTParams} (h : PairOK P) (hpr : 0 ≤ P.precision) (hc : EqualContrast P.mat1 P.mat2 P.mat3)
    (h1 : ∀ k, 0 < k → Denser P.mat1 P.mat3 k) (h2 : ∀ k, 0 < k → Denser P.mat2 P.mat3 k) (hg : p.geo = pairGeo exactBes frac P)
    (hp' : p' = { p with geo := pairGeo exactBes frac P.complete }) (hp : p.nprocs.isZero) (ha : p.analyticN0 = true) (hT : 0 < p.deltaT) (hN : 0 ≤ p.nmax) :
    ∃ F F' : List ℝ, (freeEnergy p FT.fresh).1 = .ok F ∧ (freeEnergy p' FT.fresh).1 = .ok F' ∧ F.length = p.maxstep.toNat ∧ F'.length = p.maxstep.toNat ∧
      ∀ (i : ℕ) (x y : ℝ), F[i]? = some x → F'[i]? = some y → y ≤ x ∧ x ≤ 0 ∧ |y| ≤ P.lmax * |x| := by
  subst hp'
  obtain ⟨z, z', hz, hz', zb1, zb2, -, zb3⟩ := C134_mSumme_k0 (frac := frac) h hpr hc
  obtain ⟨F, hF, hl, hval⟩ := free_values h hz hg hp ha hT hN
  obtain ⟨F', hF', hl', hval'⟩ := free_values (p := { p with geo := pairGeo exactBes frac P.complete }) h.complete hz' rfl hp ha hT hN
  refine ⟨F, F', hF, hF', hl, hl', fun i x y hx hy => ?_⟩
  have hi : i < F.length := by
    by_contra hh
    rw [List.getElem?_eq_none (by omega)] at hx
    cases hx
  rw [hval i hi] at hx
  rw [hval' i (by rw [hl']; rw [hl] at hi; exact hi)] at hy
  injection hx with hx
  injection hy with hy
  simp only at hy
  have key : ∀ n, 1 ≤ n → n ≤ p.nmax.toNat → sliceVal (pairGeo exactBes frac P.complete) p.deltaT p.nmax.toNat n ≤
      sliceVal (pairGeo exactBes frac P) p.deltaT p.nmax.toNat n ∧ sliceVal (pairGeo exactBes frac P) p.deltaT p.nmax.toNat n ≤ 0 ∧
      -sliceVal (pairGeo exactBes frac P.complete) p.deltaT p.nmax.toNat n ≤ P.lmax * -sliceVal (pairGeo exactBes frac P) p.deltaT p.nmax.toNat n := by
    intro n hn1 hn2
    obtain ⟨k1, k2, k3⟩ := sliceKs_mem hT hn1 hn2
    obtain ⟨vs, ws, e1, e2, l1, l2, hj, -⟩ := C134_mSumme h hpr k1 k2 (fun k hk => h1 k (k2 k hk)) (fun k hk => h2 k (k2 k hk))
    have hlt : n - sliceLo n < (sliceKs p.deltaT p.nmax.toNat n).length := by
      by_contra hh
      rw [List.getElem?_eq_none (by omega)] at k3
      cases k3
    have hv := List.getElem?_eq_getElem (l := vs) (i := n - sliceLo n) (by omega)
    have hw := List.getElem?_eq_getElem (l := ws) (i := n - sliceLo n) (by omega)
    obtain ⟨b1, b2, b3⟩ := hj _ _ _ hv hw
    unfold sliceVal pairGeo
    simp only
    rw [e1, e2]
    simp only
    rw [List.getD_eq_getElem?_getD, List.getD_eq_getElem?_getD, hv, hw, Option.getD_some, Option.getD_some]
    rw [abs_of_nonpos (by linarith), abs_of_nonpos b2] at b3
    exact ⟨b1, b2, b3⟩
  have hmem : ∀ j ∈ Finset.range (p.nmax.toNat / (i + 1)), 1 ≤ (j + 1) * (i + 1) ∧ (j + 1) * (i + 1) ≤ p.nmax.toNat := by
    intro j hj
    have hj := Finset.mem_range.mp hj
    exact ⟨Nat.mul_pos (by omega) (by omega), (Nat.mul_le_mul_right _ (by omega : j + 1 ≤ p.nmax.toNat / (i + 1))).trans (Nat.div_mul_le_self _ _)⟩
  have s1 := Finset.sum_le_sum fun j hj => (key _ (hmem j hj).1 (hmem j hj).2).1
  have s2 := Finset.sum_nonpos fun j hj => (key _ (hmem j hj).1 (hmem j hj).2).2.1
  have s3 := Finset.sum_le_sum fun j hj => (key _ (hmem j hj).1 (hmem j hj).2).2.2
  rw [← Finset.mul_sum, Finset.sum_neg_distrib, Finset.sum_neg_distrib] at s3
  rw [abs_of_nonpos (by linarith), abs_of_nonpos zb2] at zb3
  have hTi : 0 < ((i + 1 : ℕ) : ℝ) * p.deltaT := by positivity
  generalize ∑ j ∈ Finset.range (p.nmax.toNat / (i + 1)), sliceVal (pairGeo exactBes frac P) p.deltaT p.nmax.toNat ((j + 1) * (i + 1)) = s at *
  generalize ∑ j ∈ Finset.range (p.nmax.toNat / (i + 1)), sliceVal (pairGeo exactBes frac P.complete) p.deltaT p.nmax.toNat ((j + 1) * (i + 1)) = s' at *
  have c1 : y ≤ x := by rw [← hx, ← hy]; exact mul_le_mul_of_nonneg_left (by linarith) hTi.le
  have c2 : x ≤ 0 := by rw [← hx]; exact mul_nonpos_of_nonneg_of_nonpos hTi.le (by linarith)
  refine ⟨c1, c2, ?_⟩
  rw [abs_of_nonpos (c1.trans c2), abs_of_nonpos c2, ← hx, ← hy, ← mul_neg, ← mul_neg, mul_left_comm]
  exact mul_le_mul_of_nonneg_left (by linarith) hTi.le

/-- **C134.** In vacuum all spheres are at least as dense as the medium. -/
theorem C134_vacuum {m md : Material} (h : SphereMat m) (hd : MediumMat md) (he : md.e = []) {k : ℝ} (hk : 0 < k) : Denser m md k := by
  by_cases hp : m.cls = .pec
  · exact .inl hp
  · refine .inr ⟨hp, ?_⟩
    rw [epsV_lorentz hd.diel.1 hd.phys hk, he]
    simpa using epsV_ge_one hp h.phys hk

/-! ## Examples -/

/-- Two gold spheres in vacuum with the default precision. -/
noncomputable def goldPair4 : PairIn := { goldPair with precision := 1e-4 }

theorem goldPair4_ok : PairOK goldPair4 := ⟨goldPair_ok.m1, goldPair_ok.m2, goldPair_ok.m3, goldPair_ok.h1, goldPair_ok.h2, goldPair_ok.sep, goldPair_ok.hl, goldPair_ok.hls⟩

theorem goldPair4_dense {k : ℝ} (hk : 0 < k) : Denser goldPair4.mat1 goldPair4.mat3 k := C134_vacuum goldPair4_ok.m1 goldPair4_ok.m3 rfl hk

/-- Gold spheres of radii 1 and 4 at distance 6, with `lmax = 20` and the default precision: `e0` is accurate to `1.9e-4` with respect to `m`. -/
example : ∃ E E' : ℝ, e0 exactQuad (pairAt exactBes (fun _ _ => 0) goldPair4) 0 0 0 .inf = .ok E ∧
    e0 exactQuad (pairAt exactBes (fun _ _ => 0) goldPair4.complete) 0 0 0 .inf = .ok E' ∧ |E' - E| ≤ 1.9e-4 * |E| := by
  obtain ⟨E, E', h1, h2, -, -, h3⟩ := C134_zero_temperature (P := goldPair4) (frac := fun _ _ => 0) (deltaT := 0) (nmax := 0) goldPair4_ok
    (by norm_num [goldPair4]) (fun k hk => goldPair4_dense hk) (fun k hk => goldPair4_dense hk) exactQuad_exact le_rfl (b := .inf) (by simp) (by simp)
  refine ⟨E, E', h1, h2, h3.trans (le_of_eq ?_)⟩
  norm_num [goldPair4, goldPair]

example : ∃ x y : ℝ, pairVals exactBes goldPair4 [1/2] = .ok [x] ∧ pairVals exactBes goldPair4.complete [1/2] = .ok [y] ∧ x < 0 ∧ |y - x| ≤ 1.9e-4 * |x| := by
  obtain ⟨x, y, h1, h2, -, -, h3⟩ := C134_one_wavenumber goldPair4_ok (by norm_num [goldPair4]) (k := 1/2) (by norm_num) (goldPair4_dense (by norm_num))
    (goldPair4_dense (by norm_num))
  obtain ⟨vs, e, -, hv⟩ := C106_mSumme goldPair4_ok (ks := [1/2]) (by simp) (by norm_num)
  rw [h1] at e
  injection e with e
  refine ⟨x, y, h1, h2, ?_, h3.trans (le_of_eq ?_)⟩
  · exact ((hv 0 (1/2) x rfl (by rw [← e]; rfl)).1 (gold_contrast (by norm_num)) (gold_contrast (by norm_num))).1
      (equalContrast_same goldPair4_ok.m1 goldPair4_ok.m3)
  · norm_num [goldPair4, goldPair]

example : ∃ z y : ℝ, pairK0 (fun _ _ => 0) goldPair4 = .ok z ∧ pairK0 (fun _ _ => 0) goldPair4.complete = .ok y ∧ |y - z| ≤ 1.9e-4 * |z| := by
  obtain ⟨z, y, h1, h2, -, -, h3, -⟩ := C134_mSumme_k0 (frac := fun _ _ => 0) goldPair4_ok (by norm_num [goldPair4]) (equalContrast_same goldPair4_ok.m1 goldPair4_ok.m3)
  refine ⟨z, y, h1, h2, h3.trans (le_of_eq ?_)⟩
  norm_num [goldPair4, goldPair]

example : ∃ F F' : List ℝ, (freeEnergy ⟨0.01, 500, 200, true, .int 0, pairGeo exactBes (fun _ _ => 0) goldPair4⟩ FT.fresh).1 = .ok F ∧
    (freeEnergy ⟨0.01, 500, 200, true, .int 0, pairGeo exactBes (fun _ _ => 0) goldPair4.complete⟩ FT.fresh).1 = .ok F' ∧ F.length = 200 ∧ F'.length = 200 ∧
    ∀ (i : ℕ) (x y : ℝ), F[i]? = some x → F'[i]? = some y → y ≤ x ∧ x ≤ 0 ∧ |y| ≤ (20 : ℕ) * |x| :=
  C134_free_energy goldPair4_ok (by norm_num [goldPair4]) (equalContrast_same goldPair4_ok.m1 goldPair4_ok.m3) (fun k hk => goldPair4_dense hk)
    (fun k hk => goldPair4_dense hk) rfl rfl rfl rfl (by norm_num) (by norm_num)

/-- A stop after the first step. -/
example : ∃ r, IsRef (mSum (fun m (_ : Fin 1) => if m = 0 then (-1 : ℝ) else if m ≤ 2 then -1 / 1000 else 0) (1 - 1)) r ∧
    |mSum (fun m (_ : Fin 1) => if m = 0 then (-1 : ℝ) else if m ≤ 2 then -1 / 1000 else 0) 3 r -
      mSum (fun m (_ : Fin 1) => if m = 0 then (-1 : ℝ) else if m ≤ 2 then -1 / 1000 else 0) 1 r| ≤ ((3 : ℕ) - (1 : ℕ)) * (1 / 10 / 10) *
      |mSum (fun m (_ : Fin 1) => if m = 0 then (-1 : ℝ) else if m ≤ 2 then -1 / 1000 else 0) 1 r| :=
  (C134_stop (lmax := 3) (M := 1) (precision := 1 / 10) (by norm_num) (fun m _ _ => by split_ifs <;> norm_num)
    (fun m h _ _ => by split_ifs <;> first | omega | contradiction | norm_num) ⟨0, by norm_num⟩
    ⟨le_rfl, 0, ⟨fun i => by rw [Subsingleton.elim i 0], fun i hi => absurd hi (Fin.not_lt_zero i)⟩, by norm_num [mSum, abs_lt]⟩).1

end CasSph
