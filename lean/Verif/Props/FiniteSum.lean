import Verif.Props.FiniteSign
import Verif.Props.LinAlg
import Verif.Props.MSum
import Verif.Lemmas.GeoSum

/-! # C97, C99: the functions `single_m`, `mSumme`, `arbitrary_roundtrips` for two separate spheres at non-zero wavenumbers -/

namespace CasSph

open Spec Filter Topology Matrix

/-- The inputs `w` belong to the wavenumber `k`, the spheres `mA`, `mB` and the cut-offs. -/
structure WaveAt (mA mB md : Material) (r1 r2 L k : ℝ) (med : Medium) (lmax lssmax : ℕ) (w : WaveIn) : Prop where
  pair : FinitePair mA mB md r1 r2 L k med w.a w.b
  nL : w.nL = k * L * Real.sqrt med.eps
  bes : transBessels [w.nL] (.int (lmax + lssmax + 1 : ℕ)) 1 = .ok [w.bes]

section
variable {mA mB md : Material} {r1 r2 L : ℝ} {lmax lssmax m : ℕ}

theorem WaveAt.blocksAt {k : ℝ} {med : Medium} {w : WaveIn} (h : WaveAt mA mB md r1 r2 L k med lmax lssmax w)
    {B : Blocks (lmax + 1 - transLmin m)} (hB : blockmatricesAt lmax lssmax m true w.nL w.bes w.a w.b = .ok B) :
    BlocksAt md L k lmax lssmax m w.a w.b B := by
  have hn := h.nL
  exact ⟨med.eps, w.bes, medium_eps h.pair.hmed, hn ▸ h.bes, hn ▸ hB⟩

theorem WaveAt.blocks_exist {k : ℝ} {med : Medium} {w : WaveIn} (h : WaveAt mA mB md r1 r2 L k med lmax lssmax w)
    (hm : max 1 m ≤ lmax) (hm' : max 1 m ≤ lssmax) : ∃ B, blockmatricesAt lmax lssmax m true w.nL w.bes w.a w.b = .ok B := by
  have hb := h.bes
  rw [trans_row_ext] at hb
  injection hb with hb
  injection hb with hb
  rw [← hb]
  exact blockmatricesAt_ok hm hm' _ _ _

/-- The appended matrix has the blocks as slices. -/
theorem superMatrix_ok {ext : Bool} {d : ℕ} (hd : 0 < d) {m : ℤ} {w : Fin d → WaveIn} {B : Fin d → Blocks (lmax + 1 - transLmin m)}
    (hB : ∀ i, blockmatricesAt lmax lssmax m ext (w i).nL (w i).bes (w i).a (w i).b = .ok (B i)) :
    ∃ A, superMatrix lmax lssmax m (List.ofFn w) ext = .ok A ∧
      A.shape = [d, lmax + 1 - transLmin m + (lmax + 1 - transLmin m), lmax + 1 - transLmin m + (lmax + 1 - transLmin m)] ∧
      ∀ i : Fin d, (A.slice (lmax + 1 - transLmin m + (lmax + 1 - transLmin m)) (lmax + 1 - transLmin m + (lmax + 1 - transLmin m)) i).submatrix
        finSumFinEquiv finSumFinEquiv = (B i).full := by
  have hmap : (List.ofFn w).mapM (fun w => blockmatricesAt lmax lssmax m ext w.nL w.bes w.a w.b) = .ok (List.ofFn B) := by
    rw [List.ofFn_eq_map, List.ofFn_eq_map, List.mapM_map]
    exact mapM_ok fun i _ => hB i
  have hsl : ∀ (f : Blocks (lmax + 1 - transLmin m) → Matrix (Fin (lmax + 1 - transLmin m)) (Fin (lmax + 1 - transLmin m)) ℝ) (i : Fin d),
      (blockArr (List.ofFn B) f).slice (lmax + 1 - transLmin m) (lmax + 1 - transLmin m) i = f (B i) := by
    intro f i
    ext a b
    simp [blockArr, NdArr.slice, NdArr.mk3, a.2, b.2]
  have hsh : ∀ f : Blocks (lmax + 1 - transLmin m) → Matrix (Fin (lmax + 1 - transLmin m)) (Fin (lmax + 1 - transLmin m)) ℝ,
      (blockArr (List.ofFn B) f).shape = [d, lmax + 1 - transLmin m, lmax + 1 - transLmin m] := by
    intro f; simp [blockArr, NdArr.mk3]
  obtain ⟨A, hA, hAs, hAv⟩ := matrixAppend_ok (hsh (·.EE)) (hsh (·.EM)) (hsh (·.ME)) (hsh (·.MM))
  refine ⟨A, ?_, hAs, fun i => ?_⟩
  · unfold superMatrix
    rw [if_neg (by simp; omega), hmap, ok_bind, hA]
  · rw [matrixAppend_slice i.1 hAv, hsl, hsl, hsl, hsl]
    rfl

/-- The inputs exist for all cut-offs. -/
theorem waveAt_exists {mA mB md : Material} (hA : mA.Physical) (hB : mB.Physical) (hmd : md.cls ≠ .pec) (hd : md.Physical)
    {r1 r2 L k : ℝ} (hk : 0 < k) (h1 : 0 < r1) (h2 : 0 < r2) (hs : (r1 + r2) * Real.sqrt (md.muV k) < L) (lmax lssmax : ℕ) :
    ∃ w, WaveAt mA mB md r1 r2 L k ⟨md.epsV k, md.muV k⟩ lmax lssmax w := by
  obtain ⟨a, b, S⟩ := finitePair_exists hA hB hmd hd hk h1 h2 hs
  exact ⟨⟨k * L * Real.sqrt (md.epsV k), (List.range (lmax + lssmax + 1 + 1)).map (lnk1 _), a, b⟩, S, rfl, trans_row_ext _ _⟩

theorem det_super {n N : ℕ} {A : Matrix (Fin N) (Fin N) ℝ} {F : Matrix (Fin n ⊕ Fin n) (Fin n ⊕ Fin n) ℝ} {e : Fin n ⊕ Fin n ≃ Fin N}
    (h : A.submatrix e e = F) : (1 - A).det = (1 - F).det ∧ ∀ j, (A ^ j).trace = (F ^ j).trace := by
  subst h
  refine ⟨?_, fun j => ?_⟩
  · rw [← Matrix.submatrix_one_equiv e, show (1 : Matrix _ _ ℝ).submatrix e e - A.submatrix e e = (1 - A).submatrix e e from rfl,
      Matrix.det_submatrix_equiv_self]
  · rw [submatrix_pow, trace_submatrix]

variable {d : ℕ} {ks : Fin d → ℝ} {med : Fin d → Medium} {w : Fin d → WaveIn} {σa σb : Fin d → ℝ}

/-- Value of one subspace for one wavenumber: sign and size. -/
structure LnVal (med : Medium) (r1 r2 L k : ℝ) (m : ℕ) (σa σb u : ℝ) : Prop where
  bound : |u| ≤ pairBound med r1 r2 L k m
  attr : σa = σb → u ≤ 0
  rep : σa ≠ σb → 0 ≤ u

/-- **C97, `arbitrary_roundtrips`.** The supermatrix exists, and for every order `n ≥ 1` the function `arbitrary_roundtrips`
returns `ln det(1 - M)` up to `C exp(-2 n δ)/(n + 1)`, from above for attractive pairs. -/
theorem C97_arbitrary_roundtrips (hd : 0 < d) (hw : ∀ i, WaveAt mA mB md r1 r2 L (ks i) (med i) lmax lssmax (w i))
    (ea : ∀ i, DenseSign mA md (ks i) (σa i)) (eb : ∀ i, DenseSign mB md (ks i) (σb i))
    (hm : max 1 m ≤ lmax) (hm' : max 1 m ≤ lssmax) :
    ∃ A N, superMatrix lmax lssmax m (List.ofFn w) = .ok A ∧ A.shape = [d, N, N] ∧
      ∀ n : ℕ, 1 ≤ n → ∃ v, roundtripsFixed (fun i : Fin d => A.slice N N i) n = .ok (v, (n : ℤ)) ∧ ∀ i : Fin d,
        0 < (1 - A.slice N N i).det ∧
        LnVal (med i) r1 r2 L (ks i) m (σa i) (σb i) (Real.log (1 - A.slice N N i).det) ∧
        |v i - Real.log (1 - A.slice N N i).det| ≤
          pairBound (med i) r1 r2 L (ks i) m * Real.exp (-(2 * n * optGap (med i) r1 r2 L (ks i))) / (n + 1) ∧
        (σa i = σb i → Real.log (1 - A.slice N N i).det ≤ v i ∧ v i ≤ 0) := by
  choose B hB using fun i => (hw i).blocks_exist hm hm'
  obtain ⟨A, hA, hs, hv⟩ := superMatrix_ok hd hB
  refine ⟨A, _, hA, hs, fun n hn => ⟨_, C16_fixed_order _ n hn, fun i => ?_⟩⟩
  obtain ⟨h1, h2⟩ := det_super (hv i)
  have hBi := (hw i).blocksAt (hB i)
  unfold traceSum
  simp only [h2]
  rw [h1]
  have p := C96_positive (hw i).pair (ea i) (eb i) hBi
  have s := C96_sign (hw i).pair (ea i) (eb i) hBi
  exact ⟨p.1, ⟨p.2, s.1, s.2⟩, C97_expansion (hw i).pair (ea i) (eb i) hBi n⟩

/-- **C99, `single_m`.** For two separate spheres and any non-zero wavenumbers `single_m` returns a finite number for each of
them (no exception, no NaN, no `-inf`), with the sign and size of C96; it is `ln det(1 - M)` without the absolute value that
`slogdet` takes. -/
theorem C99_single_m (hd : 0 < d) (hw : ∀ i, WaveAt mA mB md r1 r2 L (ks i) (med i) lmax lssmax (w i))
    (ea : ∀ i, DenseSign mA md (ks i) (σa i)) (eb : ∀ i, DenseSign mB md (ks i) (σb i))
    (hm : max 1 m ≤ lmax) (hm' : max 1 m ≤ lssmax) {conv : ℝ} (hc : conv < 1) :
    ∃ u : Fin d → ℝ, (∃ N, ∀ fuel, N < fuel →
        singleM fuel conv lmax lssmax m (List.ofFn w) = some (.ok (List.ofFn fun i => (u i : EReal)))) ∧
      ∀ i, LnVal (med i) r1 r2 L (ks i) m (σa i) (σb i) (u i) ∧
        ∃ B, BlocksAt md L (ks i) lmax lssmax m (w i).a (w i).b B ∧ 0 < (1 - B.full).det ∧ u i = Real.log (1 - B.full).det := by
  choose B hB using fun i => (hw i).blocks_exist hm hm'
  obtain ⟨A, hA, hs, hv⟩ := superMatrix_ok hd hB
  obtain ⟨N, hN⟩ := C05_balanced_slogdet hs hd hc
  refine ⟨fun i => Real.log (1 - (B i).full).det, ⟨N, fun fuel hf => ?_⟩, fun i => ?_⟩
  · unfold singleM
    rw [hA]
    simp only
    rw [hN fuel hf]
    congr 2
    refine List.ext_getElem (by simp) fun j h1 h2 => ?_
    simp only [List.getElem_map, List.getElem_range, List.getElem_ofFn]
    have hj : j < d := by simpa using h1
    have p := C96_positive (hw ⟨j, hj⟩).pair (ea ⟨j, hj⟩) (eb ⟨j, hj⟩) ((hw ⟨j, hj⟩).blocksAt (hB ⟨j, hj⟩))
    have e := (det_super (hv ⟨j, hj⟩)).1
    simp only at e
    rw [e]
    unfold lnAbs
    rw [if_neg p.1.ne', abs_of_pos p.1]
  · have hBi := (hw i).blocksAt (hB i)
    have p := C96_positive (hw i).pair (ea i) (eb i) hBi
    have s := C96_sign (hw i).pair (ea i) (eb i) hBi
    exact ⟨⟨p.2, s.1, s.2⟩, B i, hBi, p.1, rfl⟩

/-- Ratio of the bounds of consecutive subspaces, `r1 r2/((r1 + d/2)(r2 + d/2))` with the gap `d` (radii in units of `1/√μ`). -/
noncomputable def pairRatio (med : Medium) (r1 r2 L : ℝ) : ℝ :=
  gapRatio (r1 * Real.sqrt med.mu) (L - (r1 + r2) * Real.sqrt med.mu) * gapRatio (r2 * Real.sqrt med.mu) (L - (r1 + r2) * Real.sqrt med.mu)

theorem gapRatio_mem {r d : ℝ} (hr : 0 < r) (hd : 0 < d) : 0 < gapRatio r d ∧ gapRatio r d < 1 := by
  unfold gapRatio
  exact ⟨by positivity, by rw [div_lt_one (by positivity)]; linarith⟩

theorem FinitePair.geometric {k : ℝ} {med : Medium} {a b : MieCoef} (S : FinitePair mA mB md r1 r2 L k med a b) :
    0 < pairRatio med r1 r2 L ∧ pairRatio med r1 r2 L < 1 ∧ 0 < pairBound med r1 r2 L k 0 ∧
    ∀ m, pairBound med r1 r2 L k m = pairBound med r1 r2 L k 0 * pairRatio med r1 r2 L ^ (m - 1) := by
  have hsm := Real.sqrt_pos.mpr S.med_pos.2
  have hd : 0 < L - (r1 + r2) * Real.sqrt med.mu := by linarith [S.sep]
  obtain ⟨p1, l1⟩ := gapRatio_mem (mul_pos S.h1 hsm) hd
  obtain ⟨p2, l2⟩ := gapRatio_mem (mul_pos S.h2 hsm) hd
  have hg := S.gap_pos
  have he : 0 < 1 - Real.exp (-(2 * optGap med r1 r2 L k)) := by
    rw [sub_pos, Real.exp_lt_one_iff]; linarith
  refine ⟨mul_pos p1 p2, mul_lt_one_of_nonneg_of_lt_one_left p1.le l1 l2.le, ?_, fun m => ?_⟩
  · unfold pairBound pairTrace
    have := Real.exp_pos (-optGap med r1 r2 L k)
    have h1 := sub_pos.mpr l1
    have h2 := sub_pos.mpr l2
    positivity
  · unfold pairBound pairTrace pairRatio
    simp only [Nat.zero_sub, pow_zero, mul_pow]
    ring

/-- **C99, `mSumme`.** For two separate spheres and any non-zero wavenumbers, every subspace `m ≤ lmax` gives finite numbers,
`mSumme` returns the sum over `m ≤ M` for some `M ≤ lmax`, the dropped terms are bounded geometrically and the result is bounded
by a constant depending on the geometry and the wavenumber only (of the order `exp(-δ)`); attractive pairs give a non-positive
result that underestimates the complete sum, repulsive pairs a non-negative one. -/
theorem C99_mSumme (hd : 0 < d) (hw : ∀ i, WaveAt mA mB md r1 r2 L (ks i) (med i) lmax lssmax (w i))
    (ea : ∀ i, DenseSign mA md (ks i) (σa i)) (eb : ∀ i, DenseSign mB md (ks i) (σb i))
    (hl : 1 ≤ lmax) (hls : lmax ≤ lssmax) {conv : ℝ} (hc : conv < 1) (precision : ℝ) :
    ∃ v : ℕ → Fin d → ℝ, (∀ m : ℕ, m ≤ lmax → ∃ N, ∀ fuel, N < fuel →
        singleM fuel conv lmax lssmax m (List.ofFn w) = some (.ok (List.ofFn fun i => (v m i : EReal)))) ∧
      ∃ M ≤ lmax, mSummeNonzero lmax precision (fun m => .ok (v m)) = .ok (mSum v M) ∧ ∀ i,
        |mSum v M i - mSum v lmax i| ≤
          2 * pairBound (med i) r1 r2 L (ks i) 0 * pairRatio (med i) r1 r2 L ^ M / (1 - pairRatio (med i) r1 r2 L) ∧
        |mSum v M i| ≤ 3 * pairBound (med i) r1 r2 L (ks i) 0 / (1 - pairRatio (med i) r1 r2 L) ∧
        (σa i = σb i → mSum v lmax i ≤ mSum v M i ∧ mSum v M i ≤ 0) ∧
        (σa i ≠ σb i → 0 ≤ mSum v M i ∧ mSum v M i ≤ mSum v lmax i) := by
  have hex : ∀ m : ℕ, ∃ u : Fin d → ℝ, m ≤ lmax → (∃ N, ∀ fuel, N < fuel →
        singleM fuel conv lmax lssmax m (List.ofFn w) = some (.ok (List.ofFn fun i => (u i : EReal)))) ∧
      ∀ i, LnVal (med i) r1 r2 L (ks i) m (σa i) (σb i) (u i) := by
    intro m
    by_cases hm : m ≤ lmax
    · obtain ⟨u, h1, h2⟩ := C99_single_m hd hw ea eb (m := m) (by omega) (by omega) hc
      exact ⟨u, fun _ => ⟨h1, fun i => (h2 i).1⟩⟩
    · exact ⟨0, fun h => absurd h hm⟩
  choose v hv using hex
  obtain ⟨M, hM, hM1, -, -⟩ := C13_mSumme hd (lmax := lmax) (precision := precision) (L := fun m => .ok (v m))
    (v := v) (fun m _ => rfl)
  refine ⟨v, fun m hm => (hv m hm).1, M, hM1, hM, fun i => ?_⟩
  obtain ⟨q0, q1, -, hq⟩ := (hw i).pair.geometric
  have hb : ∀ m ≤ lmax, |v m i| ≤ pairBound (med i) r1 r2 L (ks i) 0 * pairRatio (med i) r1 r2 L ^ (m - 1) := fun m hm => by
    rw [← hq]; exact ((hv m hm).2 i).bound
  obtain ⟨g1, g2⟩ := mSum_geometric hM1 q0.le q1 hb
  exact ⟨g1, g2, fun h => mSum_nonpos hM1 fun m hm => ((hv m hm).2 i).attr h, fun h => mSum_nonneg hM1 fun m hm => ((hv m hm).2 i).rep h⟩

/-- **C99, `mSum_roundtrips`.** For pairs that attract at all wavenumbers the round-trip sum never stops early: it returns the sum
over all `m ≤ lmax` of the round-trip expansions of order `n`; this lies between the complete `ln det` sum and zero and differs
from the former by at most `C exp(-2 n δ)/(n + 1)`. -/
theorem C99_mSum_roundtrips (hd : 0 < d) (hw : ∀ i, WaveAt mA mB md r1 r2 L (ks i) (med i) lmax lssmax (w i))
    (ea : ∀ i, DenseSign mA md (ks i) (σa i)) (eb : ∀ i, DenseSign mB md (ks i) (σb i)) (hσ : ∀ i, σa i = σb i)
    (hl : 1 ≤ lmax) (hls : lmax ≤ lssmax) {precision : ℝ} (hp : precision ≤ 1) {n : ℕ} (hn : 1 ≤ n) :
    ∃ v t : ℕ → Fin d → ℝ, (∀ m : ℕ, m ≤ lmax → ∃ A N, superMatrix lmax lssmax m (List.ofFn w) = .ok A ∧ A.shape = [d, N, N] ∧
        roundtripsFixed (fun i : Fin d => A.slice N N i) n = .ok (t m, (n : ℤ)) ∧
        ∀ i : Fin d, v m i = Real.log (1 - A.slice N N i).det) ∧
      mSumRoundtrips lmax precision (fun m => .ok (t m)) = .ok (mSum t lmax) ∧ ∀ i,
        mSum v lmax i ≤ mSum t lmax i ∧ mSum t lmax i ≤ 0 ∧
        mSum t lmax i - mSum v lmax i ≤ 3 * pairBound (med i) r1 r2 L (ks i) 0 / (1 - pairRatio (med i) r1 r2 L) *
          (Real.exp (-(2 * n * optGap (med i) r1 r2 L (ks i))) / (n + 1)) := by
  have hex : ∀ m : ℕ, ∃ u t : Fin d → ℝ, m ≤ lmax → (∃ A N, superMatrix lmax lssmax m (List.ofFn w) = .ok A ∧ A.shape = [d, N, N] ∧
        roundtripsFixed (fun i : Fin d => A.slice N N i) n = .ok (t, (n : ℤ)) ∧
        ∀ i : Fin d, u i = Real.log (1 - A.slice N N i).det) ∧
      ∀ i, u i ≤ t i ∧ t i ≤ 0 ∧ |t i - u i| ≤
        pairBound (med i) r1 r2 L (ks i) m * Real.exp (-(2 * n * optGap (med i) r1 r2 L (ks i))) / (n + 1) := by
    intro m
    by_cases hm : m ≤ lmax
    · obtain ⟨A, N, h1, h2, h3⟩ := C97_arbitrary_roundtrips hd hw ea eb (m := m) (by omega) (by omega)
      obtain ⟨t, h4, h5⟩ := h3 n hn
      exact ⟨_, t, fun _ => ⟨⟨A, N, h1, h2, h4, fun i => rfl⟩, fun i => ⟨((h5 i).2.2.2 (hσ i)).1, ((h5 i).2.2.2 (hσ i)).2, (h5 i).2.2.1⟩⟩⟩
    · exact ⟨0, 0, fun h => absurd h hm⟩
  choose v t hvt using hex
  refine ⟨v, t, fun m hm => (hvt m hm).1, C19_all_subspaces (fun _ _ => rfl) fun m hm i => ?_, fun i => ?_⟩
  · have h1 := mSum_nonpos (v := t) (i := i) (M := m) (lmax := m + 1) (by omega) fun j hj => ((hvt j (by omega)).2 i).2.1
    have h2 := mSum_nonpos (v := t) (i := i) (M := m + 1) (lmax := m + 1) le_rfl fun j hj => ((hvt j (by omega)).2 i).2.1
    rw [abs_of_nonpos h1.2, abs_of_nonpos h2.2]
    nlinarith [h1.1, h1.2]
  · obtain ⟨q0, q1, -, hq⟩ := (hw i).pair.geometric
    have e : ∀ M, mSum (fun m i => t m i - v m i) M i = mSum t M i - mSum v M i := by
      intro M; unfold mSum; rw [Finset.sum_sub_distrib]; ring
    have h1 := (mSum_nonneg (v := fun m i => t m i - v m i) (i := i) (le_refl lmax) fun m hm => sub_nonneg.mpr ((hvt m hm).2 i).1).1
    have h2 := (mSum_nonpos (v := t) (i := i) (le_refl lmax) fun m hm => ((hvt m hm).2 i).2.1).2
    have h3 := (mSum_geometric (v := fun m i => t m i - v m i) (i := i) (le_refl lmax)
      (C := pairBound (med i) r1 r2 L (ks i) 0 * (Real.exp (-(2 * n * optGap (med i) r1 r2 L (ks i))) / (n + 1))) q0.le q1
      fun m hm => by
        have := ((hvt m hm).2 i).2.2
        rw [hq m] at this
        calc _ ≤ _ := this
          _ = _ := by ring).2
    rw [e] at h1 h3
    refine ⟨by linarith, h2, (le_abs_self _).trans (h3.trans (le_of_eq (by ring)))⟩

/-- **C99, convergence.** At every non-zero wavenumber the complete sum over `m` converges when `lmax → ∞` (with any
`lssmax ≥ lmax`), and the limit is bounded by a constant of the order `exp(-δ)`. -/
theorem C99_sum_converges {k : ℝ} {med : Medium} {a b : MieCoef} {σa σb : ℝ} (S : FinitePair mA mB md r1 r2 L k med a b)
    (ea : DenseSign mA md k σa) (eb : DenseSign mB md k σb) {lss : ℕ → ℕ} (hlss : ∀ l, l ≤ lss l)
    {B : ∀ m lmax _lssmax : ℕ, Blocks (lmax + 1 - transLmin m)}
    (hB : ∀ m lmax lssmax : ℕ, max 1 m ≤ lmax → max 1 m ≤ lssmax → BlocksAt md L k lmax lssmax m a b (B m lmax lssmax)) :
    ∃ v, |v| ≤ 3 * pairBound med r1 r2 L k 0 / (1 - pairRatio med r1 r2 L) ∧
      Tendsto (fun lmax => mSum (fun m (_ : Fin 1) => Real.log (1 - (B m lmax (lss lmax)).full).det) lmax 0) atTop (𝓝 v) := by
  obtain ⟨q0, q1, -, hq⟩ := S.geometric
  have hdiag : Tendsto (fun l : ℕ => (l, lss l)) atTop atTop := by
    rw [← prod_atTop_atTop_eq]
    exact tendsto_id.prodMk (tendsto_atTop_mono hlss tendsto_id)
  have hlim : ∀ m : ℕ, ∃ u, Tendsto (fun l => Real.log (1 - (B m l (lss l)).full).det) atTop (𝓝 u) := by
    intro m
    obtain ⟨u, -, h⟩ := C98_converges S ea eb m (B := B m) (hB m)
    have h' := h.comp hdiag
    simp only [Function.comp_def] at h'
    exact ⟨u, h'⟩
  have hb : ∀ lmax m : ℕ, max 1 m ≤ lmax → |Real.log (1 - (B m lmax (lss lmax)).full).det| ≤
      pairBound med r1 r2 L k 0 * pairRatio med r1 r2 L ^ (m - 1) := by
    intro lmax m hm
    rw [← hq]
    exact (C96_positive S ea eb (hB m lmax (lss lmax) hm (hm.trans (hlss _)))).2
  generalize hf : (fun lmax m : ℕ => Real.log (1 - (B m lmax (lss lmax)).full).det) = f
  have e : ∀ l m : ℕ, Real.log (1 - (B m l (lss l)).full).det = f l m := fun l m => by rw [← hf]
  simp only [e] at hlim hb ⊢
  choose u hu using hlim
  exact mSum_limit q0.le q1 hb hu

end

/-- Two gold spheres in vacuum: for all wavenumbers, radii, distances and cut-offs the inputs exist and `mSumme` returns
non-positive numbers. -/
example {d : ℕ} (hd : 0 < d) {ks : Fin d → ℝ} (hk : ∀ i, 0 < ks i) {r1 r2 L : ℝ} (h1 : 0 < r1) (h2 : 0 < r2) (hs : r1 + r2 < L)
    {lmax lssmax : ℕ} (hl : 1 ≤ lmax) (hls : lmax ≤ lssmax) (precision : ℝ) :
    ∃ (w : Fin d → WaveIn) (v : ℕ → Fin d → ℝ),
      (∀ m : ℕ, m ≤ lmax → ∃ N, ∀ fuel, N < fuel →
        singleM fuel 0.9 lmax lssmax m (List.ofFn w) = some (.ok (List.ofFn fun i => (v m i : EReal)))) ∧
      ∃ M ≤ lmax, mSummeNonzero lmax precision (fun m => .ok (v m)) = .ok (mSum v M) ∧ ∀ i, mSum v M i ≤ 0 := by
  choose w hw using fun i => waveAt_exists gold_physical gold_physical (by simp) vac_diel.2 (hk i) h1 h2
    (by rw [muV_none]; simpa using hs) lmax lssmax
  have e := fun i => dense_vacuum gold_physical (hk i)
  obtain ⟨v, hv, M, hM, h3, h4⟩ := C99_mSumme hd hw e e hl hls (conv := 0.9) (by norm_num) precision
  exact ⟨w, v, hv, M, hM, h3, fun i => ((h4 i).2.2.1 rfl).2⟩

/-- ... and the round-trip sum of order 3 lies between the complete sum and zero. -/
example {d : ℕ} (hd : 0 < d) {ks : Fin d → ℝ} (hk : ∀ i, 0 < ks i) {r1 r2 L : ℝ} (h1 : 0 < r1) (h2 : 0 < r2) (hs : r1 + r2 < L)
    {lmax lssmax : ℕ} (hl : 1 ≤ lmax) (hls : lmax ≤ lssmax) :
    ∃ t : ℕ → Fin d → ℝ, mSumRoundtrips lmax 1e-5 (fun m => .ok (t m)) = .ok (mSum t lmax) ∧ ∀ i, mSum t lmax i ≤ 0 := by
  choose w hw using fun i => waveAt_exists gold_physical gold_physical (by simp) vac_diel.2 (hk i) h1 h2
    (by rw [muV_none]; simpa using hs) lmax lssmax
  have e := fun i => dense_vacuum gold_physical (hk i)
  obtain ⟨v, t, -, h3, h4⟩ := C99_mSum_roundtrips hd hw e e (fun _ => rfl) hl hls (precision := 1e-5) (by norm_num) (n := 3) (by norm_num)
  exact ⟨t, h3, fun i => (h4 i).2.1⟩

end CasSph
