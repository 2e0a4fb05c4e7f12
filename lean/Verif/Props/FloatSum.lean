import Verif.Lemmas.FloatSum
import Verif.Props.FloatBlocks
import Verif.Props.MSum

/-! # C130: the sums over `m` and over the Matsubara wavenumbers in rounded arithmetic -/

namespace CasSph

open Spec
open scoped Classical

variable {A : FlFun} {u : ℝ}

/-! ## `mSumme` -/

/-- The computed relative change of the reference element when subspace `m` is added is below the computed `precision/10`. -/
def FlSmallChange (A : FlFun) {n : ℕ} (precision : ℝ) (v : ℕ → Fin n → ℝ) (m : ℕ) : Prop :=
  1 ≤ m ∧ ∃ r, IsRef (fun i => runSum A (v · i) (m - 1)) r ∧
    |A.sub |A.div (runSum A (v · r) m) (runSum A (v · r) (m - 1))| 1| < A.div precision 10

/-- **C130, `mSumme`.** The computed contributions `v' 0, …, v' lmax` differ from `v m` by at most `κ y m + η`, where `|v m| ≤ y m`.  Then `mSumme` in rounded
arithmetic returns the running sum up to some `M`, the first one at which the computed sums vanish at all wavenumbers or the computed relative change
is below `precision/10`, and `lmax` if there is none.  It differs from `v 0 + 2 (v 1 + … + v M)` by at most
`((1+κ) (1+u)^(M+1) - 1) (y 0 + 2 (y 1 + … + y M)) + (2M+1) η (1+u)^(M+1)`. -/
theorem C130_mSumme (hA : RelErr A u) {n : ℕ} (hn : 0 < n) {lmax : ℕ} {precision : ℝ} {L : ℕ → Res (Fin n → ℝ)} {v' v y : ℕ → Fin n → ℝ} {κ η : ℝ}
    (hκ : 0 ≤ κ) (hη : 0 ≤ η) (hL : ∀ m ≤ lmax, L m = .ok (v' m)) (h1 : ∀ m ≤ lmax, ∀ i, |v' m i - v m i| ≤ κ * y m i + η)
    (h2 : ∀ m ≤ lmax, ∀ i, |v m i| ≤ y m i) :
    ∃ M, A.mSummeNonzero lmax precision L = .ok (fun i => runSum A (v' · i) M) ∧
      FirstOr (fun m => (∀ i, runSum A (v' · i) m = 0) ∨ FlSmallChange A precision v' m) lmax M ∧
      ∀ i, |runSum A (v' · i) M - mSum v M i| ≤ ((1 + κ) * (1 + u) ^ (M + 1) - 1) * mSum y M i + (2 * M + 1 : ℕ) * η * (1 + u) ^ (M + 1) := by
  unfold FlFun.mSummeNonzero
  rw [hL 0 (by omega), ok_bind]
  obtain ⟨M, -, e2, e3, e4, e5⟩ := flLoop_spec (A := A) (n := n)
    (pre := fun old => ∃ r, npArgmax (npAbs old) = some r ∧ old r = 0)
    (post := fun old new => ∃ r, npArgmax (npAbs old) = some r ∧ |A.sub |A.div (new r) (old r)| 1| < A.div precision 10) (L := L) (v := v') lmax 0
    (fun j _ hj => hL j (by omega))
  refine ⟨M, e3, ⟨by omega, ?_, fun m hm => ?_⟩, fun i => ?_⟩
  · rcases e4 with h | h | ⟨h, r, hr, hlt⟩
    · exact .inr (by omega)
    · exact .inl (.inl ((zero_iff_ref hn _).1 h))
    · exact .inl (.inr ⟨by omega, r, npArgmax_isRef.1 hr, hlt⟩)
  · obtain ⟨ha, hb⟩ := e5 m (by omega) hm
    rintro (h | ⟨h, r, hr, hlt⟩)
    · exact ha ((zero_iff_ref hn _).2 h)
    · exact hb (by omega) ⟨r, npArgmax_isRef.2 hr, hlt⟩
  · exact (runSum_ab hA (l' := (v' · i)) (l := (v · i)) (y := (y · i)) hκ hη M (fun m hm => h1 m (by omega) i) fun m hm => h2 m (by omega) i).2.2.2

/-- **C130, complete sums.** For `precision ≤ 0` all `m` up to `lmax` are added, unless the computed sums vanish at all wavenumbers. -/
theorem C130_complete (hA : RelErr A u) {n : ℕ} (hn : 0 < n) {lmax : ℕ} {precision : ℝ} (hp : precision ≤ 0) {L : ℕ → Res (Fin n → ℝ)} {v' : ℕ → Fin n → ℝ}
    (hL : ∀ m ≤ lmax, L m = .ok (v' m)) (h0 : ∀ M < lmax, ∃ i, runSum A (v' · i) M ≠ 0) :
    A.mSummeNonzero lmax precision L = .ok (fun i => runSum A (v' · i) lmax) := by
  obtain ⟨M, e1, ⟨e2, e3, -⟩, -⟩ := C130_mSumme hA hn (precision := precision) (v := v') (y := fun m i => |v' m i|) le_rfl le_rfl hL (fun m _ i => by simp)
    fun m _ i => le_rfl
  rw [e1]
  rcases eq_or_lt_of_le e2 with h | h
  · rw [h]
  · rcases e3 with (h' | ⟨-, r, -, h'⟩) | h'
    · obtain ⟨i, hi⟩ := h0 M h
      exact absurd (h' i) hi
    · exact absurd (h'.trans_le (hA.div_nonpos hp)) (not_lt.mpr (abs_nonneg _))
    · rw [h']

/-- **C130, `mSumme_k0`.** Likewise for the zero frequency; there is no early return for a vanishing sum. -/
theorem C130_mSumme_k0 (hA : RelErr A u) {lmax : ℕ} {precision : ℝ} {L : ℕ → Res (Fin 1 → ℝ)} {v' v y : ℕ → ℝ} {κ η : ℝ}
    (hκ : 0 ≤ κ) (hη : 0 ≤ η) (hL : ∀ m ≤ lmax, L m = .ok fun _ => v' m) (h1 : ∀ m ≤ lmax, |v' m - v m| ≤ κ * y m + η) (h2 : ∀ m ≤ lmax, |v m| ≤ y m) :
    ∃ M ≤ lmax, A.mSummeK0 lmax precision L = .ok (fun _ => runSum A v' M) ∧
      |runSum A v' M - (v 0 + 2 * ∑ m ∈ Finset.Icc 1 M, v m)| ≤
        ((1 + κ) * (1 + u) ^ (M + 1) - 1) * (y 0 + 2 * ∑ m ∈ Finset.Icc 1 M, y m) + (2 * M + 1 : ℕ) * η * (1 + u) ^ (M + 1) ∧
      (precision ≤ 0 → M = lmax) := by
  unfold FlFun.mSummeK0
  rw [hL 0 (by omega), ok_bind]
  obtain ⟨M, -, e2, e3, e4, -⟩ := flLoop_spec (A := A) (n := 1) (pre := fun _ => False)
    (post := fun old new => new 0 ≠ 0 ∧ |A.sub |A.div (old 0) (new 0)| 1| < A.div precision 10) (L := L) (v := fun m _ => v' m) lmax 0
    (fun j _ hj => hL j (by omega))
  refine ⟨M, by omega, e3, (runSum_ab hA hκ hη M (fun m hm => h1 m (by omega)) fun m hm => h2 m (by omega)).2.2.2, fun hp => ?_⟩
  rcases e4 with h | h | ⟨-, -, h⟩
  · omega
  · exact absurd h id
  · exact absurd (h.trans_le (hA.div_nonpos hp)) (not_lt.mpr (abs_nonneg _))

/-! ## `free_energy` -/

/-- **C130, `free_energy`.** Any geometry: `z'` and `f' n` are the values of `mSumme_k0` and, at the computed Matsubara wavenumbers, of `mSumme`, as computed; they
differ from `z` and `f n` by at most `κ Z + η0` and `κ y n + η`, where `|z| ≤ Z` and `|f n| ≤ y n`.  Then every entry of `free_energy` in rounded arithmetic, with
`T = (i+1) deltaT` and `J = nmax / (i+1)`, differs from `T (z/2 + f (i+1) + … + f (J (i+1)))` by at most
`((1+κ) (1+u)^(J+4) - 1) T (Z/2 + y (i+1) + …) + T (η0/2 + J η) (1+u)^(J+4)`, whatever the order of the summations. -/
theorem C130_free_energy (hA : RelErr A u) {sum : (p : ℕ) → (Fin p → ℝ) → ℝ} (hS : Sums A sum) (p : FTParams) (hp : p.nprocs.isZero)
    (ha : p.analyticN0 = true) (hT : 0 < p.deltaT) {N : ℕ} (hN : p.nmax = N) {z' z Z κ η0 η : ℝ} {f' f y : ℕ → ℝ} (hz : p.geo.k0 = .ok z')
    (hv : ∀ lo hi, IsSlice N lo hi → p.geo.vals ((arange lo hi).map fun n : ℤ => A.mul p.deltaT n) = .ok ((arange lo hi).map fun n : ℤ => f' n.toNat))
    (hκ : 0 ≤ κ) (hη0 : 0 ≤ η0) (hη : 0 ≤ η) (z1 : |z' - z| ≤ κ * Z + η0) (z2 : |z| ≤ Z) (f1 : ∀ n, 1 ≤ n → n ≤ N → |f' n - f n| ≤ κ * y n + η)
    (f2 : ∀ n, 1 ≤ n → n ≤ N → |f n| ≤ y n) :
    ∃ F : List ℝ, (A.freeEnergy sum p FT.fresh).1 = .ok F ∧ F.length = p.maxstep.toNat ∧ ∀ (i : ℕ) (x : ℝ), F[i]? = some x →
      |x - (i + 1 : ℕ) * p.deltaT * (0.5 * z + ∑ j ∈ Finset.range (N / (i + 1)), f ((j + 1) * (i + 1)))| ≤
        ((1 + κ) * (1 + u) ^ (N / (i + 1) + 4) - 1) * ((i + 1 : ℕ) * p.deltaT * (0.5 * Z + ∑ j ∈ Finset.range (N / (i + 1)), y ((j + 1) * (i + 1)))) +
        (i + 1 : ℕ) * p.deltaT * (0.5 * η0 + (N / (i + 1) : ℕ) * η) * (1 + u) ^ (N / (i + 1) + 4) := by
  have hu := hA.u0
  refine ⟨A.thermoSums sum p.deltaT p.maxstep ((arange 0 N).map fun n : ℤ => if n = 0 then A.mul 0.5 z' else f' n.toNat), ?_, by simp [FlFun.thermoSums], fun i x hx => ?_⟩
  · have := flMats hA p hp ha hT hN hz hv
    unfold FlFun.freeEnergy FlFun.ensureF
    simp only [Proc.bind, FT.fresh] at this ⊢
    rw [this]
    rfl
  · unfold FlFun.thermoSums at hx
    rw [List.getElem?_map, Option.map_eq_some_iff] at hx
    obtain ⟨i', hi', rfl⟩ := hx
    obtain ⟨_, hi⟩ := List.getElem?_eq_some_iff.mp hi'
    rw [List.getElem_range] at hi
    subst hi
    rw [strideList_eq (by omega)]
    obtain ⟨J, hJ⟩ : ∃ J, J = N / (i + 1) := ⟨_, rfl⟩
    rw [← hJ]
    obtain ⟨g, hg⟩ : ∃ g : ℕ → ℝ, g = fun j => if ((j * (i + 1) : ℕ) : ℤ) = 0 then A.mul 0.5 z' else f' ((j * (i + 1) : ℕ) : ℤ).toNat := ⟨_, rfl⟩
    rw [show (List.range (J + 1)).map (fun j : ℕ => if ((j * (i + 1) : ℕ) : ℤ) = 0 then A.mul 0.5 z' else f' ((j * (i + 1) : ℕ) : ℤ).toNat) = (List.range (J + 1)).map g by rw [hg]]
    have hsum := hS ((List.range (J + 1)).map g).length ((List.range (J + 1)).map g).get
    rw [List.ofFn_get] at hsum
    generalize sum ((List.range (J + 1)).map g).length ((List.range (J + 1)).map g).get = S at hsum ⊢
    have ab := SumOf.ab hA hsum (w := (1 + κ) * (1 + u)) (one_le_mul_of_one_le_of_one_le (by linarith) (by linarith))
      (fun j => if j = 0 then 0.5 * z else f (j * (i + 1))) (fun j => if j = 0 then 0.5 * Z else y (j * (i + 1)))
      (fun j => (if j = 0 then 0.5 * η0 else η) * (1 + u)) (List.range (J + 1)) g (fun j hj => by
        rw [List.mem_range] at hj
        rcases Nat.eq_zero_or_pos j with rfl | h
        · have := (Ab.smul (c := 0.5) (show Ab (1 + κ) Z η0 z' z from ⟨by linarith, hη0, z2, by rwa [add_sub_cancel_left]⟩) (by norm_num)).fl hu (hA.mul 0.5 z')
          simpa [hg] using this
        · have n0 : 0 < j * (i + 1) := by positivity
          have n1 : j * (i + 1) ≤ N := (Nat.mul_le_mul_right _ (Nat.lt_succ_iff.mp hj)).trans (hJ ▸ Nat.div_mul_le_self N (i + 1))
          have := (show Ab (1 + κ) (y (j * (i + 1))) η (f' (j * (i + 1))) (f (j * (i + 1))) from
            ⟨by linarith, hη, f2 _ n0 n1, by have := f1 _ n0 n1; rwa [add_sub_cancel_left]⟩)
          simp only [hg, if_neg h.ne', if_neg (show ¬ ((j * (i + 1) : ℕ) : ℤ) = 0 by exact_mod_cast n0.ne'), Int.toNat_natCast]
          exact this.mono (le_mul_of_one_le_right (by linarith) (by linarith)) (le_mul_of_one_le_right hη (by linarith))) rfl
    rw [List.length_map, List.length_range] at ab
    have T0 : 0 < ((i + 1 : ℕ) : ℝ) * p.deltaT := by positivity
    have key : ∀ (c : ℝ) (q : ℕ → ℝ), ((List.range (J + 1)).map fun j => if j = 0 then c else q (j * (i + 1))).sum = c + ∑ j ∈ Finset.range J, q ((j + 1) * (i + 1)) := by
      intro c q
      rw [← List.sum_toFinset _ List.nodup_range, List.toFinset_range, Finset.sum_range_succ', if_pos rfl, add_comm]
      simp
    rw [key, key, List.sum_map_mul_right, show ((List.range (J + 1)).map fun j => if j = 0 then 0.5 * η0 else η).sum = 0.5 * η0 + ∑ j ∈ Finset.range J, η from key _ (fun _ => η),
      Finset.sum_const, Finset.card_range, nsmul_eq_mul] at ab
    have c1 := ab.smul T0.le
    have hm : |A.mul p.deltaT ((i + 1 : ℕ) : ℝ) * S -
        (i + 1 : ℕ) * p.deltaT * S| ≤
        u * |(i + 1 : ℕ) * p.deltaT * S| := by
      rw [← sub_mul, abs_mul, abs_mul ((i + 1 : ℕ) * p.deltaT), ← mul_assoc]
      refine mul_le_mul_of_nonneg_right ?_ (abs_nonneg _)
      have := hA.mul p.deltaT ((i + 1 : ℕ) : ℝ)
      rwa [mul_comm p.deltaT ((i + 1 : ℕ) : ℝ)] at this
    have := ((c1.fl hu hm).fl hu (hA.mul _ _)).2.2.2
    refine this.trans_eq ?_
    ring

/-! ## Examples -/

/-- Contributions `-0.1^m` and `-0.2^m` at two wavenumbers, known to 1e-9, added up to `m = 5` with `precision = 1e-3` in doubles rounded towards minus infinity. -/
example : ∃ M ≤ 5, (roundMie (Spec.roundDown 53)).toFlFun.mSummeNonzero 5 1e-3 (fun m => .ok fun i : Fin 2 => -(1 + 1e-9) * (0.1 * (i + 1 : ℕ)) ^ m) =
      .ok (fun i => runSum (roundMie (Spec.roundDown 53)).toFlFun (fun m => -(1 + 1e-9) * (0.1 * (i + 1 : ℕ)) ^ m) M) ∧
    ∀ i : Fin 2, |runSum (roundMie (Spec.roundDown 53)).toFlFun (fun m => -(1 + 1e-9) * (0.1 * (i + 1 : ℕ)) ^ m) M - mSum (fun m i => -(0.1 * (i + 1 : ℕ)) ^ m) M i| ≤
      ((1 + 1e-9) * (1 + (2 : ℝ) ^ (-52 : ℤ)) ^ (M + 1) - 1) * mSum (fun m (i : Fin 2) => (0.1 * (i + 1 : ℕ)) ^ m) M i + (2 * M + 1 : ℕ) * 0 * (1 + (2 : ℝ) ^ (-52 : ℤ)) ^ (M + 1) := by
  obtain ⟨M, e1, ⟨e2, -, -⟩, e3⟩ := C130_mSumme (roundDown_relErrM.toRelErr) (n := 2) (lmax := 5) (precision := 1e-3) (by norm_num)
    (L := fun m => .ok fun i : Fin 2 => -(1 + 1e-9) * (0.1 * (i + 1 : ℕ)) ^ m) (v' := fun m i => -(1 + 1e-9) * (0.1 * (i + 1 : ℕ)) ^ m)
    (v := fun m i => -(0.1 * (i + 1 : ℕ)) ^ m) (y := fun m i => (0.1 * (i + 1 : ℕ)) ^ m) (κ := 1e-9) (η := 0) (by norm_num) le_rfl (fun _ _ => rfl) (fun m _ i => by
      have : 0 ≤ (0.1 * ((i + 1 : ℕ) : ℝ)) ^ m := by positivity
      rw [show -(1 + 1e-9) * (0.1 * ((i + 1 : ℕ) : ℝ)) ^ m - -(0.1 * ((i + 1 : ℕ) : ℝ)) ^ m = -(1e-9 * (0.1 * ((i + 1 : ℕ) : ℝ)) ^ m) by ring, abs_neg, abs_of_nonneg (by positivity), add_zero])
    (fun m _ i => by rw [abs_neg, abs_of_nonneg (by positivity)])
  exact ⟨M, e2, e1, e3⟩

/-- The same contributions with `precision = 0`: all `m` are added. -/
example : (roundMie (Spec.roundDown 53)).toFlFun.mSummeNonzero 5 0 (fun m => .ok fun i : Fin 2 => -(0.5 * (i + 1 : ℕ)) ^ m) =
    .ok (fun i => runSum (roundMie (Spec.roundDown 53)).toFlFun (fun m => -(0.5 * (i + 1 : ℕ)) ^ m) 5) := by
  have hA := roundDown_relErrM.toRelErr
  refine C130_complete hA (by norm_num) le_rfl (v' := fun m i => -(0.5 * (i + 1 : ℕ)) ^ m) (fun _ _ => rfl) fun M hM => ⟨0, fun h0 => ?_⟩
  have := (runSum_ab hA (l' := fun m => -(0.5 * ((0 + 1 : ℕ) : ℝ)) ^ m) (l := fun m => -(0.5 * ((0 + 1 : ℕ) : ℝ)) ^ m) (y := fun m => (0.5 * ((0 + 1 : ℕ) : ℝ)) ^ m) (κ := 0) (η := 0) le_rfl le_rfl M
    (fun m _ => by simp) fun m _ => by rw [abs_neg, abs_of_nonneg (by positivity)]).2.2.2
  have h0' : runSum (roundMie (Spec.roundDown 53)).toFlFun (fun m => -(0.5 * ((0 + 1 : ℕ) : ℝ)) ^ m) M = 0 := h0
  rw [h0'] at this
  interval_cases M <;> norm_num [Finset.sum_Icc_succ_top] at this

/-- `mSumme_k0`: contributions `-0.1^m` in doubles. -/
example : ∃ M ≤ 5, (roundMie (Spec.roundDown 53)).toFlFun.mSummeK0 5 1e-3 (fun m => .ok fun _ => -(0.1 : ℝ) ^ m) =
      .ok (fun _ => runSum (roundMie (Spec.roundDown 53)).toFlFun (fun m => -(0.1 : ℝ) ^ m) M) ∧
    |runSum (roundMie (Spec.roundDown 53)).toFlFun (fun m => -(0.1 : ℝ) ^ m) M - (-(0.1 : ℝ) ^ 0 + 2 * ∑ m ∈ Finset.Icc 1 M, -(0.1 : ℝ) ^ m)| ≤
      ((1 + 0) * (1 + (2 : ℝ) ^ (-52 : ℤ)) ^ (M + 1) - 1) * ((0.1 : ℝ) ^ 0 + 2 * ∑ m ∈ Finset.Icc 1 M, (0.1 : ℝ) ^ m) + (2 * M + 1 : ℕ) * 0 * (1 + (2 : ℝ) ^ (-52 : ℤ)) ^ (M + 1) := by
  obtain ⟨M, e1, e2, e3, -⟩ := C130_mSumme_k0 (roundDown_relErrM.toRelErr) (lmax := 5) (precision := 1e-3) (L := fun m => .ok fun _ => -(0.1 : ℝ) ^ m)
    (v' := fun m => -(0.1 : ℝ) ^ m) (v := fun m => -(0.1 : ℝ) ^ m) (y := fun m => (0.1 : ℝ) ^ m) (κ := 0) (η := 0) le_rfl le_rfl (fun _ _ => rfl) (fun m _ => by simp)
    (fun m _ => by rw [abs_neg, abs_of_nonneg (by positivity)])
  exact ⟨M, e1, e2, e3⟩

/-- Terms `-1/(1+n)^2` of 100 Matsubara wavenumbers at 3 temperatures. -/
example : ∃ F : List ℝ, ((roundMie (Spec.roundDown 53)).toFlFun.freeEnergy (foldSum (roundMie (Spec.roundDown 53)).toFlFun)
      ⟨0.1, 100, 3, true, .int 0, ⟨false, fun _ => .ok (), fun ks => .ok (ks.map fun k => -1 / (1 + k) ^ 2), .ok (-1)⟩⟩ FT.fresh).1 = .ok F ∧ F.length = 3 := by
  have hA := roundDown_relErrM.toRelErr
  obtain ⟨F, h1, h2, -⟩ := C130_free_energy hA (foldSum_sums _)
    ⟨0.1, 100, 3, true, .int 0, ⟨false, fun _ => .ok (), fun ks => .ok (ks.map fun k => -1 / (1 + k) ^ 2), .ok (-1)⟩⟩ rfl rfl (by norm_num) (N := 100) rfl (z' := -1) (z := -1) (Z := 1)
    (κ := 0) (η0 := 0) (η := 0)
    (f' := fun n => -1 / (1 + (roundMie (Spec.roundDown 53)).mul 0.1 n) ^ 2) (f := fun n => -1 / (1 + (roundMie (Spec.roundDown 53)).mul 0.1 n) ^ 2)
    (y := fun n => |-1 / (1 + (roundMie (Spec.roundDown 53)).mul 0.1 n) ^ 2|) rfl (fun lo hi h => by
      show Except.ok _ = Except.ok _
      rw [List.map_map]
      congr 1
      refine List.map_congr_left fun n hn => ?_
      have : 0 ≤ n := by unfold arange at hn; rw [List.mem_map] at hn; obtain ⟨a, -, rfl⟩ := hn; positivity
      simp only [Function.comp]
      lift n to ℕ using this
      rfl) le_rfl le_rfl le_rfl (by norm_num) (by norm_num) (fun n _ _ => by simp) fun n _ _ => le_rfl
  exact ⟨F, h1, h2⟩

end CasSph
