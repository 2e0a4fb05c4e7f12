import Verif.Lemmas.Thermo
import Mathlib.Analysis.Normed.Group.Tannery
import Mathlib.Analysis.SpecificLimits.Basic

/-! # `get_f_matsubaras` for geometries whose values depend on the slice they are computed in -/

namespace CasSph

open Filter Topology

/-- First and last index of the wavenumbers evaluated together with the `n`-th one by `mSumme` (slices of 50, without the zero). -/
def sliceLo (n : ℕ) : ℕ := max (50 * (n / 50)) 1

def sliceHi (N n : ℕ) : ℕ := min (50 * (n / 50) + 49) N

/-- The wavenumbers evaluated together with the `n`-th one. -/
noncomputable def sliceKs (deltaT : ℝ) (N n : ℕ) : List ℝ :=
  (arange (sliceLo n) (sliceHi N n)).map fun j : ℤ => deltaT * (j : ℝ)

/-- The value of the `n`-th wavenumber in its slice. -/
noncomputable def sliceVal (g : Geo) (deltaT : ℝ) (N n : ℕ) : ℝ :=
  match g.vals (sliceKs deltaT N n) with
  | .ok vs => vs.getD (n - sliceLo n) 0
  | .error _ => 0

theorem arange_getElem? {a b : ℤ} {i : ℕ} (h : a + i ≤ b) : (arange a b)[i]? = some (a + i) := by
  unfold arange
  rw [List.getElem?_map, List.getElem?_range (by omega)]
  rfl

theorem sliceKs_mem {deltaT : ℝ} (hT : 0 < deltaT) {N n : ℕ} (hn : 1 ≤ n) (hN : n ≤ N) :
    sliceKs deltaT N n ≠ [] ∧ (∀ k ∈ sliceKs deltaT N n, 0 < k) ∧
    (sliceKs deltaT N n)[n - sliceLo n]? = some (deltaT * n) := by
  have h1 : sliceLo n ≤ n := by unfold sliceLo; omega
  have h2 : n ≤ sliceHi N n := by unfold sliceHi; omega
  have h3 : 1 ≤ sliceLo n := by unfold sliceLo; omega
  refine ⟨arange_map_ne_nil (by omega) _, fun k hk => ?_, ?_⟩
  · unfold sliceKs at hk
    rw [List.mem_map] at hk
    obtain ⟨j, hj, rfl⟩ := hk
    unfold arange at hj
    rw [List.mem_map] at hj
    obtain ⟨i, -, rfl⟩ := hj
    have : (0 : ℝ) < ((sliceLo n : ℤ) + (i : ℤ) : ℤ) := by exact_mod_cast (by omega : (0 : ℤ) < (sliceLo n : ℤ) + (i : ℤ))
    positivity
  · unfold sliceKs
    rw [List.getElem?_map, arange_getElem? (by omega), Option.map_some]
    congr 2
    have : ((sliceLo n : ℤ) + ((n - sliceLo n : ℕ) : ℤ)) = (n : ℤ) := by omega
    rw [this]; norm_cast

/-- The value does not depend on `nmax` once the slice is complete. -/
theorem sliceVal_const (g : Geo) (deltaT : ℝ) {N n : ℕ} (h : n + 49 ≤ N) : sliceVal g deltaT N n = sliceVal g deltaT (n + 49) n := by
  have : sliceHi N n = sliceHi (n + 49) n := by unfold sliceHi; omega
  unfold sliceVal sliceKs
  rw [this]

/-- A geometry that returns one number for every wavenumber. -/
def ValsOk (g : Geo) : Prop := ∀ ks : List ℝ, ks ≠ [] → (∀ k ∈ ks, 0 < k) → ∃ vs, g.vals ks = .ok vs ∧ vs.length = ks.length

noncomputable def sliceTerm (g : Geo) (z deltaT : ℝ) (N : ℕ) (n : ℤ) : ℝ :=
  if n = 0 then 0.5 * z else sliceVal g deltaT N n.toNat

theorem slice_list {g : Geo} (hg : ValsOk g) {deltaT : ℝ} (hT : 0 < deltaT) {z : ℝ} {N : ℕ} {lo hi : ℕ} (h1 : 1 ≤ lo) (h2 : lo ≤ hi) (h3 : hi ≤ N)
    (hlo : ∀ n, lo ≤ n → n ≤ hi → sliceLo n = lo ∧ sliceHi N n = hi) :
    g.vals ((arange lo hi).map fun j : ℤ => deltaT * (j : ℝ)) = .ok ((arange lo hi).map (sliceTerm g z deltaT N)) := by
  have e : sliceKs deltaT N lo = (arange lo hi).map fun j : ℤ => deltaT * (j : ℝ) := by
    unfold sliceKs; rw [(hlo lo le_rfl h2).1, (hlo lo le_rfl h2).2]
  obtain ⟨m1, m2, -⟩ := sliceKs_mem hT h1 (h2.trans h3)
  obtain ⟨vs, hvs, hlen⟩ := hg _ m1 m2
  rw [e] at hvs hlen
  rw [hvs]
  congr 1
  refine List.ext_getElem? fun i => ?_
  rw [List.length_map, arange_length] at hlen
  by_cases hi' : lo + i ≤ hi
  · rw [List.getElem?_map, arange_getElem? (by omega), Option.map_some]
    unfold sliceTerm
    rw [if_neg (by omega)]
    have hn : ((lo : ℤ) + i).toNat = lo + i := by omega
    obtain ⟨q1, q2⟩ := hlo (lo + i) (by omega) hi'
    unfold sliceVal sliceKs
    rw [hn, q1, q2, hvs]
    simp only
    rw [show lo + i - lo = i by omega, List.getD_eq_getElem?_getD, List.getElem?_eq_getElem (by omega)]
    rfl
  · rw [List.getElem?_eq_none (by omega), List.getElem?_eq_none (by rw [List.length_map, arange_length]; omega)]

theorem fAlle_slice {g : Geo} (hg : ValsOk g) {z : ℝ} (hz : g.k0 = .ok z) {deltaT : ℝ} (hT : 0 < deltaT) {N : ℕ} {a : ℤ} (h0 : 0 ≤ a) (hN : a ≤ N)
    (hd : (50 : ℤ) ∣ a - 0) {s : FT} (f1 : s.forceFlag = false) (f2 : s.geoFlag = false) :
    fAlle g true ((arange a (min (a + 50 - 1) N)).map fun n : ℤ => deltaT * (n : ℝ)) s =
      (.ok ((arange a (min (a + 50 - 1) N)).map (sliceTerm g z deltaT N)), s) := by
  obtain ⟨q, hq⟩ := hd
  have hs : { s with geoFlag := false } = s := by cases s; simp_all
  by_cases ha : a = 0
  · subst ha
    rw [arange_cons (by omega), List.map_cons, List.map_cons]
    simp only [Int.cast_zero, mul_zero, zero_add]
    have hz0 : sliceTerm g z deltaT N 0 = 0.5 * z := by simp [sliceTerm]
    rw [hz0]
    simp only [fAlle]
    rw [if_pos trivial, if_pos ⟨f1, trivial⟩, bind_ok (a := z) (s' := s) (by simp [Geo.mSummeK0, f2, hz])]
    by_cases hN0 : N = 0
    · subst hN0
      rw [arange_empty (by omega)]
      simp [Proc.pure]
    · have e : min ((50 : ℤ) - 1) N = ((min 49 N : ℕ) : ℤ) := by omega
      rw [e]
      have hv := slice_list hg hT (z := z) (N := N) (lo := 1) (hi := min 49 N) le_rfl (by omega) (by omega)
        (fun n h1 h2 => by unfold sliceLo sliceHi; omega)
      simp only [Nat.cast_one] at hv
      rw [if_neg (arange_map_ne_nil (by omega) _),
        bind_ok (mSumme_ok g (arange_map_ne_nil (by omega) _) (.inr f2) |>.trans (by rw [hv])), hs]
      rfl
  · have e : min (a + 50 - 1) (N : ℤ) = ((min (a.toNat + 49) N : ℕ) : ℤ) := by omega
    have e' : a = ((a.toNat : ℕ) : ℤ) := by omega
    rw [e]
    have hv := slice_list hg hT (z := z) (N := N) (lo := a.toNat) (hi := min (a.toNat + 49) N) (by omega) (by omega) (by omega)
      (fun n h1 h2 => by unfold sliceLo sliceHi; omega)
    rw [← e'] at hv
    rw [arange_cons (a := a) (by omega), List.map_cons] at hv ⊢
    simp only [fAlle]
    rw [if_neg (by have : (a : ℝ) ≠ 0 := by exact_mod_cast ha
                   positivity), f1, if_neg (by simp), mSumme_ok g (by simp) (.inr f2), hv, hs]

/-- Without `analytic_n0` the zero frequency is replaced by the wavenumber `1e-10`. -/
theorem fAlle_slice_num {g : Geo} (hg : ValsOk g) {z : ℝ} (hz : g.vals [1e-10] = .ok [z]) {deltaT : ℝ} (hT : 0 < deltaT) {N : ℕ} (hN1 : 1 ≤ N)
    {a : ℤ} (h0 : 0 ≤ a) (hN : a ≤ N) (hd : (50 : ℤ) ∣ a - 0) {s : FT} (f1 : s.forceFlag = false) (f2 : s.geoFlag = false) :
    fAlle g false ((arange a (min (a + 50 - 1) N)).map fun n : ℤ => deltaT * (n : ℝ)) s =
      (.ok ((arange a (min (a + 50 - 1) N)).map (sliceTerm g z deltaT N)), s) := by
  obtain ⟨q, hq⟩ := hd
  have hs : { s with geoFlag := false } = s := by cases s; simp_all
  by_cases ha : a = 0
  · subst ha
    rw [arange_cons (by omega), List.map_cons, List.map_cons]
    simp only [Int.cast_zero, mul_zero, zero_add]
    have hz0 : sliceTerm g z deltaT N 0 = 0.5 * z := by simp [sliceTerm]
    rw [hz0]
    simp only [fAlle]
    rw [if_pos trivial, if_neg (by simp), bind_ok (a := [z]) (s' := s) ((mSumme_ok g (by simp) (.inr f2)).trans (by rw [hz, hs]))]
    have e : min ((50 : ℤ) - 1) N = ((min 49 N : ℕ) : ℤ) := by omega
    rw [e]
    have hv := slice_list hg hT (z := z) (N := N) (lo := 1) (hi := min 49 N) le_rfl (by omega) (by omega)
      (fun n h1 h2 => by unfold sliceLo sliceHi; omega)
    simp only [Nat.cast_one] at hv
    rw [bind_ok (mSumme_ok g (arange_map_ne_nil (by omega) _) (.inr f2) |>.trans (by rw [hv])), hs]
    rfl
  · have e : min (a + 50 - 1) (N : ℤ) = ((min (a.toNat + 49) N : ℕ) : ℤ) := by omega
    have e' : a = ((a.toNat : ℕ) : ℤ) := by omega
    rw [e]
    have hv := slice_list hg hT (z := z) (N := N) (lo := a.toNat) (hi := min (a.toNat + 49) N) (by omega) (by omega) (by omega)
      (fun n h1 h2 => by unfold sliceLo sliceHi; omega)
    rw [← e'] at hv
    rw [arange_cons (a := a) (by omega), List.map_cons] at hv ⊢
    simp only [fAlle]
    rw [if_neg (by have : (a : ℝ) ≠ 0 := by exact_mod_cast ha
                   positivity), f1, if_neg (by simp), mSumme_ok g (by simp) (.inr f2), hv, hs]

/-- The free energy from the values of the slices. -/
theorem freeEnergy_of_mats (p : FTParams) {z : ℝ} {N : ℕ}
    (hF : getFMatsubaras p 0 FT.fresh = (.ok ((arange 0 N).map (sliceTerm p.geo z p.deltaT N)), FT.fresh)) :
    ∃ F : List ℝ, (freeEnergy p FT.fresh).1 = .ok F ∧ F.length = p.maxstep.toNat ∧
      ∀ i : ℕ, 1 ≤ i → (i : ℤ) ≤ p.maxstep →
        F[i - 1]? = some (i * p.deltaT * (0.5 * z + ∑ j ∈ Finset.range (N / i), sliceVal p.geo p.deltaT N ((j + 1) * i))) := by
  refine ⟨thermoSums p.deltaT p.maxstep ((arange 0 N).map (sliceTerm p.geo z p.deltaT N)), ?_, by simp [thermoSums], fun i h1 h2 => ?_⟩
  · unfold freeEnergy ensureF
    simp only [Proc.bind, FT.fresh] at hF ⊢
    rw [hF]
    rfl
  · unfold thermoSums
    rw [List.getElem?_map, List.getElem?_range (by omega)]
    simp only [Option.map_some, Nat.sub_add_cancel h1]
    rw [strideSum_eq (N := N) h1 (by rw [List.length_map, arange_length]; omega), mul_comm p.deltaT, Finset.sum_range_succ']
    congr 2
    rw [add_comm]
    have hget : ∀ n ≤ N, ((arange 0 (N : ℤ)).map (sliceTerm p.geo z p.deltaT N)).getD n 0 = sliceTerm p.geo z p.deltaT N n := by
      intro n hn
      rw [List.getD_eq_getElem?_getD, List.getElem?_map, arange_getElem? (by omega)]
      simp
    congr 1
    · rw [zero_mul, hget 0 (by omega)]; simp [sliceTerm]
    · refine Finset.sum_congr rfl fun j hj => ?_
      rw [Finset.mem_range] at hj
      have : (j + 1) * i ≤ N := (Nat.mul_le_mul_right i hj).trans (Nat.div_mul_le_self N i)
      rw [hget _ this]
      unfold sliceTerm
      have h0 : 0 < (j + 1) * i := by positivity
      rw [if_neg (by exact_mod_cast h0.ne'), Int.toNat_natCast]

/-- The free energy of any geometry that returns one number per wavenumber. -/
theorem freeEnergy_slices (p : FTParams) (hg : ValsOk p.geo) {z : ℝ} (hz : p.geo.k0 = .ok z) (hp : p.nprocs.isZero)
    (ha : p.analyticN0 = true) (hT : 0 < p.deltaT) {N : ℕ} (hN : p.nmax = N) :
    ∃ F : List ℝ, (freeEnergy p FT.fresh).1 = .ok F ∧ F.length = p.maxstep.toNat ∧
      ∀ i : ℕ, 1 ≤ i → (i : ℤ) ≤ p.maxstep →
        F[i - 1]? = some (i * p.deltaT * (0.5 * z + ∑ j ∈ Finset.range (N / i), sliceVal p.geo p.deltaT N ((j + 1) * i))) := by
  have hF : getFMatsubaras p 0 FT.fresh = (.ok ((arange 0 N).map (sliceTerm p.geo z p.deltaT N)), FT.fresh) := by
    unfold getFMatsubaras
    rw [if_pos hp, hN, ha]
    rw [bind_ok (slicewiseEval_elementwise (f := sliceTerm p.geo z p.deltaT N) (by norm_num) (by omega) FT.fresh
      (fun a h0 h1 hd => fAlle_slice hg hz hT h0 h1 hd rfl rfl))]
    rw [allSome_map]
  exact freeEnergy_of_mats p hF

/-- The same without `analytic_n0`. -/
theorem freeEnergy_slices_num (p : FTParams) (hg : ValsOk p.geo) {z : ℝ} (hz : p.geo.vals [1e-10] = .ok [z]) (hp : p.nprocs.isZero)
    (ha : p.analyticN0 = false) (hT : 0 < p.deltaT) {N : ℕ} (hN1 : 1 ≤ N) (hN : p.nmax = N) :
    ∃ F : List ℝ, (freeEnergy p FT.fresh).1 = .ok F ∧ F.length = p.maxstep.toNat ∧
      ∀ i : ℕ, 1 ≤ i → (i : ℤ) ≤ p.maxstep →
        F[i - 1]? = some (i * p.deltaT * (0.5 * z + ∑ j ∈ Finset.range (N / i), sliceVal p.geo p.deltaT N ((j + 1) * i))) := by
  have hF : getFMatsubaras p 0 FT.fresh = (.ok ((arange 0 N).map (sliceTerm p.geo z p.deltaT N)), FT.fresh) := by
    unfold getFMatsubaras
    rw [if_pos hp, hN, ha]
    rw [bind_ok (slicewiseEval_elementwise (f := sliceTerm p.geo z p.deltaT N) (by norm_num) (by omega) FT.fresh
      (fun a h0 h1 hd => fAlle_slice_num hg hz hT hN1 h0 h1 hd rfl rfl))]
    rw [allSome_map]
  exact freeEnergy_of_mats p hF

/-- Sums over the Matsubara frequencies converge for `nmax → ∞` if the values are bounded by a summable sequence. -/
theorem slices_limit (g : Geo) (deltaT : ℝ) {i : ℕ} (hi : 1 ≤ i) {b : ℕ → ℝ} (hb : Summable b)
    (hv : ∀ N j, (j + 1) * i ≤ N → |sliceVal g deltaT N ((j + 1) * i)| ≤ b j) :
    ∃ v, Tendsto (fun N : ℕ => ∑ j ∈ Finset.range (N / i), sliceVal g deltaT N ((j + 1) * i)) atTop (𝓝 v) := by
  have hb0 : ∀ j, 0 ≤ b j := fun j => (abs_nonneg _).trans (hv ((j + 1) * i) j le_rfl)
  have main := tendsto_tsum_of_dominated_convergence (𝓕 := atTop) (bound := b)
    (f := fun N j => if (j + 1) * i ≤ N then sliceVal g deltaT N ((j + 1) * i) else 0)
    (g := fun j => sliceVal g deltaT ((j + 1) * i + 49) ((j + 1) * i)) hb ?_ ?_
  · refine ⟨_, main.congr fun N => ?_⟩
    have hlt : ∀ j, j < N / i ↔ (j + 1) * i ≤ N := by
      intro j
      rw [← Nat.add_one_le_iff, Nat.le_div_iff_mul_le (by omega)]
    rw [tsum_eq_sum (s := Finset.range (N / i)) ?_]
    · refine Finset.sum_congr rfl fun j hj => ?_
      rw [Finset.mem_range, hlt] at hj
      rw [if_pos hj]
    · intro j hj
      rw [Finset.mem_range, hlt] at hj
      rw [if_neg hj]
  · intro j
    refine tendsto_const_nhds.congr' ?_
    filter_upwards [eventually_ge_atTop ((j + 1) * i + 49)] with N hN
    rw [if_pos (by omega), sliceVal_const g deltaT hN]
  · filter_upwards with N j
    split_ifs with h
    · exact hv N j h
    · rw [norm_zero]; exact hb0 j

end CasSph
