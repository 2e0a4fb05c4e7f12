import Verif.Props.Nernst

/-! # C135 with the zero frequency replaced by 1e-10 -/

namespace CasSph

open Spec Filter Topology MeasureTheory Set
open scoped Classical

variable {P : PairIn} {frac : ℝ → ℝ → ℝ} {q : Quad} {deltaT : ℝ} {nmax : ℤ}

theorem freeVal_shift (z z' : ℝ) (c : ℕ) (d : ℝ) (n : ℕ) : freeVal P z' c d n = freeVal P z c d n + c * d * ((z' - z) / 2) := by
  unfold freeVal; ring

theorem pair_vals_num (h : PairOK P) (hprec : P.precision ≤ 0) : pairVals exactBes P [1e-10] = .ok [pairSum P 1e-10] :=
  pairVals_sum h hprec (by simp) (by norm_num)

/-- Values of the free energy, `analytic_n0=False`. -/
theorem freeEnergy_val_num (h : PairOK P) (hprec : P.precision ≤ 0) {p : FTParams} (hg : p.geo = pairGeo exactBes frac P)
    (hp : p.nprocs.isZero) (ha : p.analyticN0 = false) (hT : 0 < p.deltaT) (hN : 1 ≤ p.nmax) :
    ∃ F : List ℝ, (freeEnergy p FT.fresh).1 = .ok F ∧ F.length = p.maxstep.toNat ∧
      ∀ i : ℕ, (i : ℤ) < p.maxstep → F[i]? = some (freeVal P (pairSum P 1e-10) (i + 1) p.deltaT p.nmax.toNat) := by
  obtain ⟨F, hF, hl, hval⟩ := freeEnergy_slices_num p (z := pairSum P 1e-10) (by rw [hg]; exact pairGeo_valsOk h)
    (by rw [hg]; exact pair_vals_num h hprec) hp ha hT (N := p.nmax.toNat) (by omega) (Int.toNat_of_nonneg (by omega)).symm
  refine ⟨F, hF, hl, fun i hi => ?_⟩
  have := hval (i + 1) (by omega) (by push_cast; omega)
  rw [Nat.add_sub_cancel] at this
  rw [this, mul_add, hg]
  unfold freeVal
  congr 3
  refine Finset.sum_congr rfl fun n hn => ?_
  rw [sliceVal_sum h hprec hT (Nat.one_le_iff_ne_zero.mpr (by positivity))
    ((Nat.mul_le_mul_right _ (Finset.mem_range.mp hn)).trans (Nat.div_mul_le_self _ _))]
  congr 1
  push_cast
  ring

/-- **C135, numerical zero frequency, rate.** With `analytic_n0=False` the free energy at low temperatures is `e0` plus half of the temperature times
the difference between the value at 1e-10 and the static one. -/
theorem C135_numeric_rate (h : PairOK P) (hq : q.Exact) (hprec : P.precision ≤ 0) {p : ℕ → FTParams} (hg : ∀ j, (p j).geo = pairGeo exactBes frac P)
    (hp : ∀ j, (p j).nprocs.isZero) (ha : ∀ j, (p j).analyticN0 = false) (hT : ∀ j, 0 < (p j).deltaT) (hT0 : Tendsto (fun j => (p j).deltaT) atTop (𝓝 0))
    (hN : ∀ j, 1 ≤ (p j).nmax)
    (hNT : Tendsto (fun j => Real.exp (-((p j).nmax * (p j).deltaT * (P.L - (P.r1 + P.r2)))) / (p j).deltaT) atTop (𝓝 0)) {i : ℕ}
    (hi : ∀ j, (i : ℤ) < (p j).maxstep) {F : ℕ → List ℝ} (hF : ∀ j, (freeEnergy (p j) FT.fresh).1 = .ok (F j)) :
    ∃ E z z', e0 q (pairAt exactBes frac P) deltaT nmax 0 .inf = .ok E ∧ pairK0 frac P = .ok z ∧ pairVals exactBes P [1e-10] = .ok [z'] ∧
      Tendsto (fun j => ((F j).getD i 0 - E) / ((i + 1) * (p j).deltaT)) atTop (𝓝 ((z' - z) / 2)) := by
  obtain ⟨z, hz, -⟩ := C100_mSumme_k0 h frac
  choose G hG hl hval using fun j => freeEnergy_val h hprec hz (p := { p j with analyticN0 := true }) (hg j) (hp j) rfl (hT j) ((zero_le_one).trans (hN j))
  obtain ⟨E, hE, lim⟩ := C135_rate (deltaT := deltaT) (nmax := nmax) h hq hprec (p := fun j => { p j with analyticN0 := true }) hg hp (fun _ => rfl) hT hT0
    (fun j => zero_le_one.trans (hN j)) hNT hi hG
  refine ⟨E, z, _, hE, hz, pair_vals_num h hprec, ?_⟩
  have := lim.add_const ((pairSum P 1e-10 - z) / 2)
  rw [zero_add] at this
  refine this.congr fun j => ?_
  obtain ⟨H, hH, -, hv⟩ := freeEnergy_val_num h hprec (hg j) (hp j) (ha j) (hT j) (hN j)
  rw [hF j] at hH
  injection hH with hH
  rw [List.getD_eq_getElem?_getD, hval j i (hi j), Option.getD_some, List.getD_eq_getElem?_getD, hH, hv i (hi j), Option.getD_some,
    freeVal_shift z (pairSum P 1e-10)]
  have := hT j
  push_cast
  field_simp
  ring

/-- **C135, numerical zero frequency, entropy.** With `analytic_n0=False` the entropy at low temperatures tends to half of the difference between the
static value and the value at 1e-10. -/
theorem C135_numeric_entropy (h : PairOK P) (hprec : P.precision ≤ 0) {p : ℕ → FTParams} (hg : ∀ j, (p j).geo = pairGeo exactBes frac P)
    (hp : ∀ j, (p j).nprocs.isZero) (ha : ∀ j, (p j).analyticN0 = false) (hT : ∀ j, 0 < (p j).deltaT) (hT0 : Tendsto (fun j => (p j).deltaT) atTop (𝓝 0))
    (hN : ∀ j, 1 ≤ (p j).nmax) (hNT : Tendsto (fun j => (p j).nmax * (p j).deltaT) atTop atTop) (hm : ∀ j, 2 ≤ (p j).maxstep) :
    ∃ z z', pairK0 frac P = .ok z ∧ pairVals exactBes P [1e-10] = .ok [z'] ∧
    ∃ S : ℕ → List ℝ, (∀ j, (entropy (p j) FT.fresh).1 = .ok (S j) ∧ (S j).length = (p j).maxstep.toNat) ∧
      ∀ i : ℕ, (∀ j, (i : ℤ) < (p j).maxstep) → Tendsto (fun j => (S j).getD i 0) atTop (𝓝 ((z - z') / 2)) := by
  obtain ⟨z, hz, -⟩ := C100_mSumme_k0 h frac
  choose G hG hGl hGval using fun j => freeEnergy_val h hprec hz (p := { p j with analyticN0 := true }) (hg j) (hp j) rfl (hT j) ((zero_le_one).trans (hN j))
  choose F hF hl hval using fun j => freeEnergy_val_num h hprec (hg j) (hp j) (ha j) (hT j) (hN j)
  choose S hS hgr using fun j => C29_entropy (p j) FT.fresh (freeEnergy (p j) FT.fresh).2 (F j) (Prod.ext (hF j) rfl) (by rw [hl]; have := hm j; omega)
  choose S' hS' hgr' using fun j => C29_entropy { p j with analyticN0 := true } FT.fresh (freeEnergy { p j with analyticN0 := true } FT.fresh).2 (G j)
    (Prod.ext (hG j) rfl) (by rw [hGl]; have := hm j; simp only; omega)
  obtain ⟨S'', h1, h2⟩ := C135_entropy h hprec (p := fun j => { p j with analyticN0 := true }) hg hp (fun _ => rfl) hT hT0
    (fun j => zero_le_one.trans (hN j)) hNT hm
  have e : ∀ j, S'' j = S' j := fun j => by
    have := (h1 j).1
    rw [hS' j] at this
    injection this with this
    exact this.symm
  refine ⟨z, _, hz, pair_vals_num h hprec, S, fun j => ⟨by rw [hS], (hgr j).length.trans (hl j)⟩, fun i hi => ?_⟩
  have := (h2 i hi).add_const ((z - pairSum P 1e-10) / 2)
  rw [zero_add] at this
  refine this.congr fun j => ?_
  rw [e j]
  have hTj := hT j
  have hij := hi j
  have hmj := hm j
  have len : (S j).length = (p j).maxstep.toNat := (hgr j).length.trans (hl j)
  have len' : (S' j).length = (p j).maxstep.toNat := (hgr' j).length.trans (hGl j)
  have hs : (S j)[i]? = some (S j)[i] := List.getElem?_eq_getElem (by omega)
  have hs' : (S' j)[i]? = some (S' j)[i] := List.getElem?_eq_getElem (by omega)
  rw [List.getD_eq_getElem?_getD, hs', Option.getD_some, List.getD_eq_getElem?_getD, hs, Option.getD_some]
  have sh := fun c => freeVal_shift (P := P) z (pairSum P 1e-10) c (p j).deltaT (p j).nmax.toNat
  rcases Nat.eq_zero_or_pos i with rfl | hi0
  · rw [(hgr j).first _ _ _ hs (hval j 0 (by omega)) (hval j 1 (by omega)),
      (hgr' j).first _ _ _ hs' (hGval j 0 (by simp only; omega)) (hGval j 1 (by simp only; omega)), sh, sh]
    push_cast
    field_simp
    ring
  · obtain ⟨i, rfl⟩ := Nat.exists_eq_add_of_le' hi0
    rcases Nat.lt_or_ge (i + 2) (p j).maxstep.toNat with hlt | hge
    · rw [(hgr j).inner i _ _ _ hs (hval j i (by omega)) (hval j (i + 2) (by omega)),
        (hgr' j).inner i _ _ _ hs' (hGval j i (by simp only; omega)) (hGval j (i + 2) (by simp only; omega)), sh, sh]
      push_cast
      field_simp
      ring
    · rw [(hgr j).last i _ _ _ (by rw [hl]; omega) hs (hval j i (by omega)) (hval j (i + 1) (by omega)),
        (hgr' j).last i _ _ _ (by rw [hGl]; simp only; omega) hs' (hGval j i (by simp only; omega)) (hGval j (i + 1) (by simp only; omega)), sh, sh]
      push_cast
      field_simp
      ring

/-- **C135, numerical zero frequency, size.** The value at 1e-10 differs from the static one by at most 1e-10 times the largest slope in between. -/
theorem C135_numeric_gap (h : PairOK P) (hprec : P.precision ≤ 0) {z z' A : ℝ} (hz : pairK0 frac P = .ok z) (hz' : pairVals exactBes P [1e-10] = .ok [z'])
    {f : ℝ → ℝ} (hf : ∀ k, 0 < k → pairVals exactBes P [k] = .ok [f k]) (hA : ∀ k, 0 < k → k ≤ 1e-10 → |deriv f k| ≤ A) : |z' - z| ≤ 1e-10 * A := by
  have hfs : ∀ k, 0 < k → f k = pairSum P k := fun k hk => by
    have := (hf k hk).symm.trans (pairVals_sum h hprec (by simp) (by simpa using hk))
    simpa using this
  have e' : z' = pairSum P 1e-10 := by
    have := hz'.symm.trans (pair_vals_num h hprec)
    simpa using this
  have hder : ∀ k, 0 < k → k ≤ 1e-10 → |deriv (pairSum P) k| ≤ A := fun k hk hk1 => by
    have : deriv f k = deriv (pairSum P) k :=
      Filter.EventuallyEq.deriv_eq (by filter_upwards [lt_mem_nhds hk] with x hx; exact hfs x hx)
    rw [← this]; exact hA k hk hk1
  have A0 : 0 ≤ A := (abs_nonneg _).trans (hder 1e-10 (by norm_num) le_rfl)
  have hlim := (pairSum_tendsto h hprec hz).const_sub z'
  refine le_of_tendsto hlim.abs ?_
  filter_upwards [Ioo_mem_nhdsGT (show (0 : ℝ) < 1e-10 by norm_num)] with k hk
  have := Convex.norm_image_sub_le_of_norm_deriv_le (f := pairSum P) (s := Icc k 1e-10) (C := A)
    (fun x hx => (pairSum_deriv h (hk.1.trans_le hx.1)).1.differentiableAt)
    (fun x hx => hder x (hk.1.trans_le hx.1) hx.2) (convex_Icc k 1e-10) (left_mem_Icc.2 hk.2.le) (right_mem_Icc.2 hk.2.le)
  rw [Real.norm_eq_abs, Real.norm_eq_abs, ← e', abs_of_nonneg (show (0 : ℝ) ≤ 1e-10 - k by linarith [hk.2])] at this
  refine this.trans ?_
  rw [mul_comm]
  exact mul_le_mul_of_nonneg_right (by linarith [hk.1]) A0

/-! ## Example -/

/-- Two gold spheres (Drude model), with `analytic_n0=False`. -/
example : ∃ z z', pairK0 (fun _ _ => 0) goldPair = .ok z ∧ pairVals exactBes goldPair [1e-10] = .ok [z'] ∧
    ∃ S : ℕ → List ℝ, (∀ j, (entropy { coldGold j with analyticN0 := false } FT.fresh).1 = .ok (S j) ∧ (S j).length = 3) ∧
    ∀ i < 3, Tendsto (fun j => (S j).getD i 0) atTop (𝓝 ((z - z') / 2)) := by
  obtain ⟨z, z', hz, hz', S, h1, h2⟩ := C135_numeric_entropy (p := fun j => { coldGold j with analyticN0 := false }) goldPair_ok (by simp [goldPair])
    (fun j => rfl) (fun j => rfl) (fun j => rfl)
    (fun j => by unfold coldGold; positivity) tendsto_one_div_add_atTop_nhds_zero_nat (fun j => by unfold coldGold; simp only; have : 1 ≤ (j + 1 : ℕ) ^ 2 := Nat.one_le_pow _ _ (by omega); exact_mod_cast this)
    (by simp only [coldGold_grid]; exact tendsto_atTop_add_const_right _ _ tendsto_natCast_atTop_atTop) (fun j => by unfold coldGold; norm_num)
  exact ⟨z, z', hz, hz', S, h1, fun i hi => h2 i fun j => by unfold coldGold; simp only; omega⟩

end CasSph
