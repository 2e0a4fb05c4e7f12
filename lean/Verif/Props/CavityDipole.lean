import Verif.Props.CavityFree
import Verif.Props.TransLimitInt
import Verif.Props.CavityStronger

/-! # C73, C121: the zero-frequency contribution of a sphere inside a cavity for `lmax = lssmax = 1` -/

namespace CasSph

open Spec


theorem blockmatricesK0Int_dipole {r1 r2 L : ℝ} (h1 : 0 < r1) (h2 : 0 < r2) (hL : 0 < L) (a b : MieCoef) {m : ℕ} (hm : m ≤ 1) :
    ∃ (h : 1 + 1 - transLmin (m : ℤ) = 1) (TE TM : Matrix (Fin (1 + 1 - transLmin (m : ℤ))) (Fin (1 + 1 - transLmin (m : ℤ))) ℝ),
      blockmatricesK0IntAt 1 1 m r1 r2 L a b = .ok (TE, TM) ∧
      TE ⟨0, by omega⟩ ⟨0, by omega⟩ = a.TE 1 * Real.exp (a.ln 1) * (b.TE 1 * Real.exp (b.ln 1)) * (r1 / r2) ^ 3 ∧
      TM ⟨0, by omega⟩ ⟨0, by omega⟩ = a.TM 1 * Real.exp (a.ln 1) * (b.TM 1 * Real.exp (b.ln 1)) * (r1 / r2) ^ 3 := by
  have key : ∀ m : ℤ, |m| ≤ ((1 : ℕ) : ℤ) → (transK0Int m 1 1).1 * Real.exp (transK0Int m 1 1).2 = 1 := fun m hm => C78_diagonal le_rfl hm
  interval_cases m
  all_goals
    refine ⟨rfl, ?_⟩
    obtain ⟨TE, TM, e1, e2, e3⟩ := C73_k0_int_one h1 h2 hL (⟨1, fun i => a.TE (1 + i.1), fun i => a.TM (1 + i.1), fun i => a.ln (1 + i.1),
        fun j => b.TE (1 + j.1), fun j => b.TM (1 + j.1), fun j => b.ln (1 + j.1), fun i j => (transK0Int _ (1 + i.1) (1 + j.1)).1,
        fun i j => (transK0Int _ (1 + i.1) (1 + j.1)).2⟩ : K0Elems 1 1)
    refine ⟨TE, TM, e1, ?_, ?_⟩
  · refine e2.trans ?_
    simp only [Fin.val_zero, add_zero]
    rw [key _ (by simp)]
    ring
  · refine e3.trans ?_
    simp only [Fin.val_zero, add_zero]
    rw [key _ (by simp)]
    ring
  · refine e2.trans ?_
    simp only [Fin.val_zero, add_zero]
    rw [key _ (by simp)]
    ring
  · refine e3.trans ?_
    simp only [Fin.val_zero, add_zero]
    rw [key _ (by simp)]
    ring

theorem slnDet_one {n : ℕ} (hn : n = 1) (TE TM : Matrix (Fin n) (Fin n) ℝ) (hE : TE ⟨0, by omega⟩ ⟨0, by omega⟩ < 1) (hM : TM ⟨0, by omega⟩ ⟨0, by omega⟩ < 1)
    (fuel : ℕ) : slnDetBlockdiagonal fuel 0.9 TE TM = some (.ok (some ((Real.log (1 - TE ⟨0, by omega⟩ ⟨0, by omega⟩) +
      Real.log (1 - TM ⟨0, by omega⟩ ⟨0, by omega⟩) : ℝ) : EReal))) := by
  subst hn
  have hE' : 0 < 1 - TE 0 0 := by have : TE 0 0 < 1 := hE; linarith
  have hM' : 0 < 1 - TM 0 0 := by have : TM 0 0 < 1 := hM; linarith
  rw [(C06_blockdiagonal_one TE TM 0.9 fuel).1 (mul_pos hE' hM').le]
  have hdet : ∀ X : Matrix (Fin 1) (Fin 1) ℝ, (1 - X).det = 1 - X 0 0 := fun X => by simp
  rw [hdet, hdet, lnAbs, lnAbs, if_neg hE'.ne', if_neg hM'.ne', abs_of_pos hE', abs_of_pos hM', ← EReal.coe_add]
  rfl

/-- **C73, `single_m_k0`.** With one `l` and one `l''` the result is `ln(1 - TE) + ln(1 - TM)` with the static dipole terms. -/
theorem C73_single_m_k0 {r1 r2 L : ℝ} (h1 : 0 < r1) (h2 : 0 < r2) (hL : 0 < L) (a b : MieCoef) {m : ℕ} (hm : m ≤ 1)
    (hE : a.TE 1 * Real.exp (a.ln 1) * (b.TE 1 * Real.exp (b.ln 1)) * (r1 / r2) ^ 3 < 1)
    (hM : a.TM 1 * Real.exp (a.ln 1) * (b.TM 1 * Real.exp (b.ln 1)) * (r1 / r2) ^ 3 < 1) (fuel : ℕ) :
    singleMK0Int fuel 1 1 m r1 r2 L a b = some (.ok (some ((
      Real.log (1 - a.TE 1 * Real.exp (a.ln 1) * (b.TE 1 * Real.exp (b.ln 1)) * (r1 / r2) ^ 3) +
      Real.log (1 - a.TM 1 * Real.exp (a.ln 1) * (b.TM 1 * Real.exp (b.ln 1)) * (r1 / r2) ^ 3) : ℝ) : EReal))) := by
  obtain ⟨hn, TE, TM, e1, e2, e3⟩ := blockmatricesK0Int_dipole h1 h2 hL a b hm
  unfold singleMK0Int
  rw [e1]
  rw [← e2] at hE ⊢
  rw [← e3] at hM ⊢
  exact slnDet_one hn TE TM hE hM fuel

/-- **C121, zero frequency for `lmax = lssmax = 1`.** `mSumme_k0` is three times `ln(1 - TE) + ln(1 - TM)`, where `TE`, `TM` are the products of
the coefficients of `mie_k0` and `mie_internal_k0` with `(r1/r2)^3`: the value does not depend on the distance of the centres. -/
theorem C121_k0_dipole {frac : ℝ → ℝ → ℝ} {lnK : ℝ → ℕ → ℝ} {P : PairIn} (h : CavOK P) (hprec : P.precision ≤ 0) (hl : P.lmax = 1) (hs : P.lssmax = 1)
    {a b : Mie} (ha : mieK0 frac P.mat1 P.mat3 1 P.r1 = .ok a) (hb : mieInternalK0 lnK P.mat3 P.mat2 1 1 P.r2 = .ok b)
    (hE : a.TE * Real.exp a.ln * (b.TE * Real.exp b.ln) * (P.r1 / P.r2) ^ 3 < 1)
    (hM : a.TM * Real.exp a.ln * (b.TM * Real.exp b.ln) * (P.r1 / P.r2) ^ 3 < 1) :
    geoK0 frac lnK P = .ok (3 * (Real.log (1 - a.TE * Real.exp a.ln * (b.TE * Real.exp b.ln) * (P.r1 / P.r2) ^ 3) +
      Real.log (1 - a.TM * Real.exp a.ln * (b.TM * Real.exp b.ln) * (P.r1 / P.r2) ^ 3))) := by
  have h2 : 0 < P.r2 := by linarith [h.h1, h.hL, h.inside]
  have t1 : mieTableK0 frac P.mat1 P.mat3 P.lmax P.r1 = .ok (tableOf fun _ : Fin 1 => a) := by
    rw [hl]
    unfold mieTableK0
    rw [finM_ok (g := fun _ => a) fun i => by rw [Fin.fin_one_eq_zero i]; exact ha, ok_bind]
  have t2 : mieTableIntK0 lnK P.mat3 P.mat2 P.lssmax P.r2 = .ok (tableOf fun _ : Fin 1 => b) := by
    rw [hs]
    unfold mieTableIntK0
    rw [finM_ok (g := fun _ => b) fun i => by rw [Fin.fin_one_eq_zero i]; exact hb, ok_bind]
  obtain ⟨-, TE, TM, e1, -, -⟩ := blockmatricesK0Int_dipole h.h1 h2 h.hL (tableOf fun _ : Fin 1 => a) (tableOf fun _ : Fin 1 => b) (m := 0) (by norm_num)
  unfold geoK0
  rw [h.ext, if_neg (by simp), t1, ok_bind, t2, ok_bind, hl, hs]
  obtain ⟨X, e1⟩ : ∃ X, blockmatricesK0IntAt 1 1 0 P.r1 P.r2 P.L (tableOf fun _ : Fin 1 => a) (tableOf fun _ : Fin 1 => b) = .ok X := ⟨_, e1⟩
  rw [e1, ok_bind]
  have val : ∀ m : ℕ, m ≤ 1 → ∀ fuel, singleMK0Int fuel 1 1 m P.r1 P.r2 P.L (tableOf fun _ : Fin 1 => a) (tableOf fun _ : Fin 1 => b) = some (.ok (some ((
      Real.log (1 - a.TE * Real.exp a.ln * (b.TE * Real.exp b.ln) * (P.r1 / P.r2) ^ 3) +
      Real.log (1 - a.TM * Real.exp a.ln * (b.TM * Real.exp b.ln) * (P.r1 / P.r2) ^ 3) : ℝ) : EReal))) := fun m hm fuel =>
    C73_single_m_k0 h.h1 h2 h.hL (tableOf fun _ : Fin 1 => a) (tableOf fun _ : Fin 1 => b) hm hE hM fuel
  have ex : ∃ v : ℕ → ℝ, ∀ m : ℕ, m ≤ 1 → ∃ N, ∀ fuel, N < fuel →
      singleMK0Int fuel 1 1 m P.r1 P.r2 P.L (tableOf fun _ : Fin 1 => a) (tableOf fun _ : Fin 1 => b) = some (.ok (some (v m : EReal))) :=
    ⟨fun _ => _, fun m hm => ⟨0, fun fuel _ => val m hm fuel⟩⟩
  rw [dif_pos ex, mSummeK0_full hprec, ok_bind]
  have hv : ∀ m : ℕ, m ≤ 1 → ex.choose m = Real.log (1 - a.TE * Real.exp a.ln * (b.TE * Real.exp b.ln) * (P.r1 / P.r2) ^ 3) +
      Real.log (1 - a.TM * Real.exp a.ln * (b.TM * Real.exp b.ln) * (P.r1 / P.r2) ^ 3) := by
    intro m hm
    obtain ⟨N, hN⟩ := ex.choose_spec m hm
    have := hN (N + 1) (by omega)
    rw [val m hm] at this
    exact (EReal.coe_eq_coe_iff.mp (Option.some.inj (Except.ok.inj (Option.some.inj this)))).symm
  rw [Finset.Icc_self, Finset.sum_singleton, hv 0 (by norm_num), hv 1 le_rfl]
  congr 1
  ring

/-- **C121.** Two perfect conductors: `6 ln(1 - (r1/r2)^3)`. -/
theorem C121_k0_dipole_pec {frac : ℝ → ℝ → ℝ} {lnK : ℝ → ℕ → ℝ} {P : PairIn} (h : CavOK P) (hprec : P.precision ≤ 0) (hl : P.lmax = 1) (hs : P.lssmax = 1)
    (c1 : P.mat1.cls = .pec) (c2 : P.mat2.cls = .pec) : geoK0 frac lnK P = .ok (6 * Real.log (1 - (P.r1 / P.r2) ^ 3)) := by
  obtain ⟨e0, he, -, -⟩ := dielectric_static h.m3.diel h.m3.phys
  have h2 : 0 < P.r2 := by linarith [h.h1, h.hL, h.inside]
  have hq : (P.r1 / P.r2) ^ 3 < 1 := pow_lt_one₀ (div_nonneg h.h1.le h2.le) ((div_lt_one h2).mpr (by linarith [h.hL, h.inside])) (by norm_num)
  have ea : mieK0 frac P.mat1 P.mat3 1 P.r1 = .ok ⟨-1, 2, -Real.log 3 - 2 * ln2dbl ((1 : ℕ) : ℝ)⟩ := by
    rw [mieK0_start h.m3.diel h.m3.phys he le_rfl, c1]
    simp only [Nat.cast_one]
    norm_num
  have eb : mieInternalK0 lnK P.mat3 P.mat2 1 1 P.r2 = .ok ⟨-1, 1 / 2, Real.log 3 + 2 * ln2dbl ((1 : ℕ) : ℝ)⟩ := by
    rw [mieInternalK0_start h.m3.diel h.m3.phys h.m2.phys he, c2]
    simp only [Nat.cast_one]
    norm_num
  have ex : ∀ x y z : ℝ, x * Real.exp (-Real.log 3 - 2 * ln2dbl ((1 : ℕ) : ℝ)) * (y * Real.exp (Real.log 3 + 2 * ln2dbl ((1 : ℕ) : ℝ))) * z = x * y * z := by
    intro x y z
    have : Real.exp (-Real.log 3 - 2 * ln2dbl ((1 : ℕ) : ℝ)) * Real.exp (Real.log 3 + 2 * ln2dbl ((1 : ℕ) : ℝ)) = 1 := by
      rw [← Real.exp_add, Real.exp_eq_one_iff]
      ring
    linear_combination (x * y * z) * this
  rw [C121_k0_dipole h hprec hl hs ea eb (by simp only; rw [ex]; linarith) (by simp only; rw [ex]; linarith)]
  simp only
  rw [ex, ex]
  congr 1
  norm_num
  ring

/-- A perfectly conducting sphere of radius 1 in a cavity of radius 2. -/
example (frac : ℝ → ℝ → ℝ) (lnK : ℝ → ℕ → ℝ) :
    geoK0 frac lnK ⟨⟨.pec, [], none⟩, ⟨.pec, [], none⟩, ⟨.lorentz, [], none⟩, 1, 2, 1 / 2, 1, 1, 0⟩ = .ok (6 * Real.log (7 / 8)) := by
  rw [C121_k0_dipole_pec (P := ⟨⟨.pec, [], none⟩, ⟨.pec, [], none⟩, ⟨.lorentz, [], none⟩, 1, 2, 1 / 2, 1, 1, 0⟩)
    ⟨pec_sphere, pec_sphere, vac_medium, by norm_num, by norm_num, by norm_num, le_rfl, le_rfl⟩ le_rfl rfl rfl rfl rfl]
  norm_num

end CasSph
