import Verif.Lemmas.SharpBound
import Verif.Lemmas.WaveCont
import Mathlib.MeasureTheory.Constructions.BorelSpace.Basic

/-! # The value of `mSumme` as a function of the wavenumber -/

namespace CasSph

open Spec Filter Topology Matrix MeasureTheory Set
open scoped Classical

/-- `ln det(1 - M)` of one `m` as a function of the wavenumber. -/
noncomputable def lnDetV (P : PairIn) (m : ℕ) (k : ℝ) : ℝ :=
  Real.log (1 - rtV P.mat1 P.mat2 P.mat3 P.r1 P.r2 P.L P.lmax P.lssmax m k).det

theorem PairOK.pair {P : PairIn} (h : PairOK P) {k : ℝ} (hk : 0 < k) :
    ∃ a b, FinitePair P.mat1 P.mat2 P.mat3 P.r1 P.r2 P.L k ⟨P.mat3.epsV k, 1⟩ a b := by
  have := finitePair_exists h.m1.phys h.m2.phys h.m3.cls h.m3.phys hk h.h1 h.h2 (L := P.L)
    (by rw [muV_of_none h.m3.mag, Real.sqrt_one, mul_one]; exact h.sep)
  rwa [muV_of_none h.m3.mag] at this

/-- Everything about one wavenumber: blocks of the round-trip matrix for every `m`. -/
theorem PairOK.blocks {P : PairIn} (h : PairOK P) {k : ℝ} (hk : 0 < k) :
    ∃ a b, FinitePair P.mat1 P.mat2 P.mat3 P.r1 P.r2 P.L k ⟨P.mat3.epsV k, 1⟩ a b ∧
      ∀ m : ℕ, max 1 m ≤ P.lmax → ∃ B, BlocksAt P.mat3 P.L k P.lmax P.lssmax m a b B ∧
        (1 - B.full).det = (1 - rtV P.mat1 P.mat2 P.mat3 P.r1 P.r2 P.L P.lmax P.lssmax m k).det ∧
        lnDetV P m k = Real.log (1 - B.full).det := by
  obtain ⟨a, b, S⟩ := h.pair hk
  have w : WaveAt P.mat1 P.mat2 P.mat3 P.r1 P.r2 P.L k ⟨P.mat3.epsV k, 1⟩ P.lmax P.lssmax
    ⟨k * P.L * Real.sqrt (P.mat3.epsV k), (List.range (P.lmax + P.lssmax + 1 + 1)).map (lnk1 (k * P.L * Real.sqrt (P.mat3.epsV k))), a, b⟩ :=
    ⟨S, rfl, trans_row_ext _ _⟩
  refine ⟨a, b, S, fun m hm => ?_⟩
  obtain ⟨B, hB⟩ := w.blocks_exist hm (hm.trans h.hls)
  have hBA := w.blocksAt hB
  have e := (hBA.same_rtV (m := m) h.m3.cls h.m3.phys hk S.ha S.hb).det
  exact ⟨B, hBA, e, by unfold lnDetV; rw [e]⟩

theorem lnDetV_cont {P : PairIn} (h : PairOK P) {m : ℕ} (hm : max 1 m ≤ P.lmax) {k : ℝ} (hk : 0 < k) : ContinuousAt (lnDetV P m) k := by
  obtain ⟨a, b, S, hB⟩ := h.blocks hk
  obtain ⟨B, hB, e, -⟩ := hB m hm
  obtain ⟨σa, ea⟩ := dense_total h.m1 h.m3 hk
  obtain ⟨σb, eb⟩ := dense_total h.m2 h.m3 hk
  have := (C96_positive S ea eb hB).1
  rw [e] at this
  unfold lnDetV
  exact (rtV_contAt h.m3.cls h.m1.phys h.m2.phys h.m3.phys h.h1 h.h2 (by linarith [h.sep, h.h1, h.h2]) _ _ m hk).log this.ne'

/-- Size and sign of one `m`. -/
theorem lnDetV_val {P : PairIn} (h : PairOK P) {m : ℕ} (hm : max 1 m ≤ P.lmax) {k : ℝ} (hk : 0 < k) :
    |lnDetV P m k| ≤ pairTrace ⟨P.mat3.epsV k, 1⟩ P.r1 P.r2 P.L k m / Real.sqrt (1 - Real.exp (-(2 * optGap ⟨P.mat3.epsV k, 1⟩ P.r1 P.r2 P.L k))) ∧
    ∀ σa σb, DenseSign P.mat1 P.mat3 k σa → DenseSign P.mat2 P.mat3 k σb → (σa = σb → lnDetV P m k ≤ 0) ∧ (σa ≠ σb → 0 ≤ lnDetV P m k) := by
  obtain ⟨a, b, S, hB⟩ := h.blocks hk
  obtain ⟨B, hB, -, e⟩ := hB m hm
  obtain ⟨σa, ea⟩ := dense_total h.m1 h.m3 hk
  obtain ⟨σb, eb⟩ := dense_total h.m2 h.m3 hk
  rw [e]
  exact ⟨lnDet_sharp S ea eb hB, fun σa σb ea eb => C96_sign S ea eb hB⟩

/-- `mSumme` of two separate spheres at positive wavenumbers. -/
theorem pairVals_eq {P : PairIn} (h : PairOK P) {ks : List ℝ} (hne : ks ≠ []) (hk : ∀ k ∈ ks, 0 < k) :
    pairVals exactBes P ks = (mSummeNonzero P.lmax P.precision fun m => .ok fun i : Fin ks.length => lnDetV P m (ks.get i)) >>=
      fun r => .ok (List.ofFn r) := by
  have hd : 0 < ks.length := List.length_pos_iff.mpr hne
  have hmem : ∀ i : Fin ks.length, ks.get i ∈ ks := fun i => List.get_mem _ _
  have hw : ∀ i : Fin ks.length, ∃ w w', waveIn exactBes P (ks.get i) = .ok w ∧
      WaveAt P.mat1 P.mat2 P.mat3 P.r1 P.r2 P.L (ks.get i) ⟨P.mat3.epsV (ks.get i), 1⟩ P.lmax P.lssmax w' ∧ w.nL = w'.nL ∧ w.bes = w'.bes ∧
      AgreeTo P.lmax w.a w'.a ∧ AgreeTo P.lssmax w.b w'.b := by
    intro i
    obtain ⟨a, b, S⟩ := h.pair (hk _ (hmem i))
    exact waveIn_ok S
  choose w w' h1 h2 h3 using hw
  choose σa ea using fun i : Fin ks.length => dense_total h.m1 h.m3 (hk _ (hmem i))
  choose σb eb using fun i : Fin ks.length => dense_total h.m2 h.m3 (hk _ (hmem i))
  have hws : ks.mapM (waveIn exactBes P) = .ok (List.ofFn w) := by
    conv_lhs => rw [← List.ofFn_get ks]
    rw [List.ofFn_eq_map, List.ofFn_eq_map, List.mapM_map]
    exact mapM_ok fun i _ => h1 i
  have hv : ∀ m ≤ P.lmax, ∃ N, ∀ fuel, N < fuel →
      singleM fuel 0.9 P.lmax P.lssmax m (List.ofFn w) = some (.ok (List.ofFn fun i => (lnDetV P m (ks.get i) : EReal))) := by
    intro m hm
    obtain ⟨u, ⟨N, hN⟩, hu⟩ := C99_single_m hd h2 ea eb (m := m) (by have := h.hl; omega) (by have := h.hl; have := h.hls; omega)
      (conv := 0.9) (by norm_num)
    refine ⟨N, fun fuel hf => ?_⟩
    rw [singleM_congr h3, hN fuel hf]
    congr 4
    funext i
    obtain ⟨-, B, hB, -, e⟩ := hu i
    rw [e]
    unfold lnDetV
    rw [(hB.same_rtV (m := m) h.m3.cls h.m3.phys (hk _ (hmem i)) (h2 i).pair.ha (h2 i).pair.hb).det]
  have hex : ∃ v : ℕ → Fin ks.length → ℝ, ∀ m : ℕ, m ≤ P.lmax → ∃ N, ∀ fuel, N < fuel →
      singleM fuel 0.9 P.lmax P.lssmax m (List.ofFn w) = some (.ok (List.ofFn fun i => (v m i : EReal))) :=
    ⟨fun m i => lnDetV P m (ks.get i), hv⟩
  have hv' : ∀ m ≤ P.lmax, hex.choose m = fun i => lnDetV P m (ks.get i) := by
    intro m hm
    obtain ⟨N1, q1⟩ := hex.choose_spec m hm
    obtain ⟨N2, q2⟩ := hv m hm
    have a1 := q1 (max N1 N2 + 1) (by omega)
    have a2 := q2 (max N1 N2 + 1) (by omega)
    rw [a2] at a1
    injection a1 with a1
    injection a1 with a1
    have := List.ofFn_injective a1
    funext i
    exact (EReal.coe_injective (congrFun this i)).symm
  unfold pairVals
  rw [hws, ok_bind]
  rw [dif_pos hex, mSummeNonzero_congr (L' := fun m => .ok fun i : Fin ks.length => lnDetV P m (ks.get i)) (fun m hm => by rw [hv' m hm])]

/-! ## One wavenumber -/

/-- The loop over `m` for a single wavenumber. -/
noncomputable def loop1 (p : ℝ) (u : ℕ → ℝ) : ℕ → ℕ → ℝ → ℝ
  | 0, _, S => S
  | todo + 1, m, S => if S = 0 then S else if |(|(S + 2 * u m) / S|) - 1| < p / 10 then S + 2 * u m else loop1 p u todo (m + 1) (S + 2 * u m)

theorem argmax_single (v : Fin 1 → ℝ) (r : Fin 1) : npArgmax (npAbs v) = some r ↔ r = 0 := by
  rw [npArgmax_isRef]
  constructor
  · intro _; exact Subsingleton.elim _ _
  · rintro rfl
    exact ⟨fun i => by rw [Subsingleton.elim i 0], fun i hi => absurd hi (by omega)⟩

theorem mLoop_one (p : ℝ) (u : ℕ → ℝ) : ∀ (todo m : ℕ) (S : ℝ),
    mLoop (n := 1) (fun old => ∃ r, npArgmax (npAbs old) = some r ∧ old r = 0)
      (fun old new => ∃ r, npArgmax (npAbs old) = some r ∧ |(|new r / old r|) - 1| < p / 10) (fun m => .ok fun _ => u m) todo m (fun _ => S) =
    .ok fun _ => loop1 p u todo m S
  | 0, _, _ => rfl
  | todo + 1, m, S => by
    unfold mLoop loop1
    simp only [argmax_single, exists_eq_left, ok_bind]
    split_ifs
    · rfl
    · rfl
    · have ih := mLoop_one p u todo (m + 1) (S + 2 * u m)
      simp only [argmax_single, exists_eq_left] at ih
      exact ih

theorem loop1_congr_aux {p : ℝ} {u u' : ℕ → ℝ} {lmax : ℕ} (h : ∀ m ≤ lmax, u m = u' m) : ∀ (todo m : ℕ) (S : ℝ), todo + m ≤ lmax + 1 →
    loop1 p u todo m S = loop1 p u' todo m S
  | 0, _, _, _ => rfl
  | todo + 1, m, S, hm => by
    unfold loop1
    rw [h m (by omega), loop1_congr_aux h todo (m + 1) _ (by omega)]

theorem loop1_congr {p : ℝ} {u u' : ℕ → ℝ} {lmax : ℕ} (h : ∀ m ≤ lmax, u m = u' m) {S : ℝ} : loop1 p u lmax 1 S = loop1 p u' lmax 1 S :=
  loop1_congr_aux h _ _ _ (by omega)

/-- The value is one of the partial sums. -/
theorem loop1_mSum (p : ℝ) (u : ℕ → ℝ) (lmax : ℕ) : ∃ M ≤ lmax, loop1 p u lmax 1 (u 0) = mSum (fun m (_ : Fin 1) => u m) M 0 := by
  obtain ⟨M, h1, h2, -⟩ := C13_mSumme (n := 1) (by norm_num) (lmax := lmax) (precision := p) (L := fun m => .ok fun _ => u m)
    (v := fun m _ => u m) fun _ _ => rfl
  refine ⟨M, h2, ?_⟩
  unfold mSummeNonzero at h1
  rw [ok_bind, mLoop_one] at h1
  injection h1 with h1
  exact congrFun h1 0

theorem loop1_measurable (p : ℝ) {u : ℕ → ℝ → ℝ} (hu : ∀ m, Measurable (u m)) : ∀ (todo m : ℕ) {S : ℝ → ℝ}, Measurable S →
    Measurable fun k => loop1 p (fun m => u m k) todo m (S k)
  | 0, _, _, hS => hS
  | todo + 1, m, S, hS => by
    unfold loop1
    have h2 : Measurable fun k => S k + 2 * u m k := hS.add ((hu m).const_mul 2)
    refine Measurable.ite (measurableSet_eq_fun hS measurable_const) hS (Measurable.ite (measurableSet_lt ?_ measurable_const) h2
      (loop1_measurable p hu todo (m + 1) h2))
    have h3 : Measurable fun k => |(S k + 2 * u m k) / S k| := (h2.div hS).norm
    exact (h3.sub_const 1).norm

/-- Value of `mSumme` at one wavenumber (zero for non-positive ones). -/
noncomputable def pairVal (P : PairIn) (k : ℝ) : ℝ :=
  loop1 P.precision (fun m => if 0 < k then lnDetV P m k else 0) P.lmax 1 (if 0 < k then lnDetV P 0 k else 0)

theorem pairVal_ok {P : PairIn} (h : PairOK P) {k : ℝ} (hk : 0 < k) : pairVals exactBes P [k] = .ok [pairVal P k] := by
  rw [pairVals_eq h (by simp) (by simpa using hk)]
  have e : ∀ i : Fin [k].length, [k].get i = k := fun i => by
    have : i = (0 : Fin 1) := Subsingleton.elim (α := Fin 1) _ _
    rw [this]; rfl
  simp only [e]
  unfold mSummeNonzero
  rw [ok_bind]
  have := mLoop_one P.precision (fun m => lnDetV P m k) P.lmax 1 (lnDetV P 0 k)
  unfold pairVal
  simp only [if_pos hk]
  erw [this]
  rfl

theorem pairVal_measurable {P : PairIn} (h : PairOK P) : Measurable (pairVal P) := by
  have hu : ∀ m, Measurable fun k => if m ≤ P.lmax then (if 0 < k then lnDetV P m k else 0) else 0 := by
    intro m
    split_ifs with hm
    · have hc : ContinuousOn (lnDetV P m) (Ioi 0) := fun k hk =>
        (lnDetV_cont h (by have := h.hl; omega) hk).continuousWithinAt
      have := hc.measurable_piecewise (g := fun _ => (0 : ℝ)) continuousOn_const measurableSet_Ioi
      exact this
    · exact measurable_const
  have := loop1_measurable P.precision hu P.lmax 1 (hu 0)
  refine (congrArg Measurable ?_).mp this
  funext k
  unfold pairVal
  rw [if_pos (Nat.zero_le _)]
  exact loop1_congr fun m hm => by rw [if_pos hm]

theorem pairVal_val {P : PairIn} (h : PairOK P) {k : ℝ} (hk : 0 < k) :
    |pairVal P k| ≤ freeC P.r1 P.r2 P.L * sharpExp (k * (P.L - (P.r1 + P.r2))) ∧
    ∀ σa σb, DenseSign P.mat1 P.mat3 k σa → DenseSign P.mat2 P.mat3 k σb → (σa = σb → pairVal P k ≤ 0) ∧ (σa ≠ σb → 0 ≤ pairVal P k) := by
  obtain ⟨M, hM, e⟩ := loop1_mSum P.precision (fun m => lnDetV P m k) P.lmax
  have e' : pairVal P k = mSum (fun m (_ : Fin 1) => lnDetV P m k) M 0 := by
    rw [← e]; unfold pairVal; simp only [if_pos hk]
  have hm : ∀ m ≤ P.lmax, max 1 m ≤ P.lmax := fun m hm => by have := h.hl; omega
  obtain ⟨a, b, S⟩ := h.pair hk
  obtain ⟨q0, q1, -, hq⟩ := S.geometric
  have x1 : Real.exp (-(2 * optGap ⟨P.mat3.epsV k, 1⟩ P.r1 P.r2 P.L k)) < 1 := by
    rw [Real.exp_lt_one_iff]; linarith [S.gap_pos]
  have hb : ∀ m ≤ P.lmax, |lnDetV P m k| ≤ pairTrace ⟨P.mat3.epsV k, 1⟩ P.r1 P.r2 P.L k 0 /
      Real.sqrt (1 - Real.exp (-(2 * optGap ⟨P.mat3.epsV k, 1⟩ P.r1 P.r2 P.L k))) * pairRatio ⟨P.mat3.epsV k, 1⟩ P.r1 P.r2 P.L ^ (m - 1) := by
    intro m hm'
    refine (lnDetV_val h (hm m hm') hk).1.trans (le_of_eq ?_)
    have := hq m
    unfold pairBound at this
    rw [div_mul_eq_mul_div] at this
    have := (div_left_inj' (sub_pos.mpr x1).ne').mp this
    rw [this, div_mul_eq_mul_div]
  rw [e']
  refine ⟨((mSum_geometric (v := fun m (_ : Fin 1) => lnDetV P m k) (i := 0) hM q0.le q1 hb).2).trans
    (pair_le_sharp h.h1 h.h2 h.sep hk (h.m3.one_le hk)), fun σa σb ea eb => ⟨fun hs => ?_, fun hs => ?_⟩⟩
  · exact (mSum_nonpos (v := fun m (_ : Fin 1) => lnDetV P m k) (i := 0) hM fun m hm' => ((lnDetV_val h (hm m hm') hk).2 σa σb ea eb).1 hs).2
  · exact (mSum_nonneg (v := fun m (_ : Fin 1) => lnDetV P m k) (i := 0) hM fun m hm' => ((lnDetV_val h (hm m hm') hk).2 σa σb ea eb).2 hs).1

theorem pairVal_integrable {P : PairIn} (h : PairOK P) : IntegrableOn (pairVal P) (Ioi 0) := by
  have hd : 0 < P.L - (P.r1 + P.r2) := sub_pos.mpr h.sep
  refine Integrable.mono' ((sharpExp_integrable hd).const_mul (freeC P.r1 P.r2 P.L)) (pairVal_measurable h).aestronglyMeasurable ?_
  refine (ae_restrict_iff' measurableSet_Ioi).mpr (.of_forall fun k hk => ?_)
  exact (pairVal_val h hk).1

/-! ## Contrast -/

/-- The sphere can be distinguished from the medium at the wavenumber `k`. -/
def HasContrast (m md : Material) (k : ℝ) : Prop := m.cls = .pec ∨ m.epsV k ≠ md.epsV k

theorem argV_none {m : Material} (h : m.b = none) (r k : ℝ) : argV m r k = k * r * Real.sqrt (m.epsV k) := by
  unfold argV Medium.n
  simp only [muV_of_none h, mul_one]

theorem mieV_TE_ne {m md : Material} (h : SphereMat m) (hd : MediumMat md) {r : ℝ} (hr : 0 < r) {l : ℕ} (hl : 1 ≤ l) {k : ℝ} (hk : 0 < k)
    (hc : HasContrast m md k) : (mieV m md r l k).TE ≠ 0 := by
  have hpre : (-1 : ℝ) ^ l * Real.pi * 0.5 ≠ 0 :=
    mul_ne_zero (mul_ne_zero (pow_ne_zero _ (by norm_num)) Real.pi_pos.ne') (by norm_num)
  by_cases hm : m.cls = .pec
  · rw [mieV_pec hm hd.cls hd.phys hr hl hk]
    exact hpre
  · have hne := hc.resolve_left hm
    have x1 := argV_pos hm h.phys hr hk
    have x2 := argV_pos hd.cls hd.phys hr hk
    have e1 := (medium_val hm h.phys hk).2
    have e2 := (medium_val hd.cls hd.phys hk).2
    have hx : argV m r k ≠ argV md r k := by
      rw [argV_none h.mag, argV_none hd.mag]
      intro e
      have := mul_left_cancel₀ (mul_pos hk hr).ne' e
      exact hne ((Real.sqrt_inj e1.le e2.le).mp this)
    have hI : idX l (argV m r k) ≠ idX l (argV md r k) := by
      rcases lt_or_gt_of_ne hx with e | e
      · exact (idX_strictMono hl x1 e).ne
      · exact (idX_strictMono hl x2 e).ne'
    rw [mieV_diel hm hd.cls h.phys hd.phys hr hl hk]
    simp only [muV_of_none h.mag, muV_of_none hd.mag, one_mul]
    refine mul_ne_zero (div_ne_zero (sub_ne_zero.mpr hI) ?_) hpre
    have := idX_pos hl x1
    have := kdX_neg hl x2
    exact (by linarith : 0 < idX l (argV m r k) - kdX l (argV md r k)).ne'

theorem mieV_none {m md : Material} (h : SphereMat m) (hd : MediumMat md) {r : ℝ} (hr : 0 < r) {l : ℕ} (hl : 1 ≤ l) {k : ℝ} (hk : 0 < k)
    (hc : ¬ HasContrast m md k) : (mieV m md r l k).TE = 0 ∧ (mieV m md r l k).TM = 0 := by
  unfold HasContrast at hc
  push Not at hc
  obtain ⟨hm, he⟩ := hc
  rw [mieV_diel hm hd.cls h.phys hd.phys hr hl hk, argV_none h.mag, argV_none hd.mag, he, muV_of_none h.mag, muV_of_none hd.mag]
  simp

/-- Without contrast of one of the spheres nothing is contributed. -/
theorem lnDetV_zero {P : PairIn} (h : PairOK P) {k : ℝ} (hk : 0 < k) (hc : ¬ (HasContrast P.mat1 P.mat3 k ∧ HasContrast P.mat2 P.mat3 k)) (m : ℕ) :
    lnDetV P m k = 0 := by
  have hl : ∀ i : ℕ, 1 ≤ transLmin (m : ℤ) + i := fun i => by unfold transLmin; omega
  have hz : rtV P.mat1 P.mat2 P.mat3 P.r1 P.r2 P.L P.lmax P.lssmax m k = 0 := by
    unfold rtV
    simp only
    rw [roundTrip_blocks]
    rcases not_and_or.mp hc with hc | hc
    · simp only [fun i : ℕ => (mieV_none h.m1 h.m3 h.h1 (hl i) hk hc).1, fun i : ℕ => (mieV_none h.m1 h.m3 h.h1 (hl i) hk hc).2,
        zero_mul, add_zero, Finset.sum_const_zero]
      exact fromBlocks_zero
    · simp only [fun i : ℕ => (mieV_none h.m2 h.m3 h.h2 (hl i) hk hc).1, fun i : ℕ => (mieV_none h.m2 h.m3 h.h2 (hl i) hk hc).2,
        zero_mul, mul_zero, add_zero, Finset.sum_const_zero]
      exact fromBlocks_zero
  unfold lnDetV
  rw [hz, sub_zero, det_one, Real.log_one]

/-- With contrast of both spheres every `m` contributes. -/
theorem lnDetV_strict {P : PairIn} (h : PairOK P) {m : ℕ} (hm : max 1 m ≤ P.lmax) {k : ℝ} (hk : 0 < k)
    (h1 : HasContrast P.mat1 P.mat3 k) (h2 : HasContrast P.mat2 P.mat3 k) {σa σb : ℝ} (ea : DenseSign P.mat1 P.mat3 k σa)
    (eb : DenseSign P.mat2 P.mat3 k σb) : (σa = σb → lnDetV P m k < 0) ∧ (σa ≠ σb → 0 < lnDetV P m k) := by
  obtain ⟨a, b, S, hB⟩ := h.blocks hk
  obtain ⟨B, hB, -, e⟩ := hB m hm
  have hl : 1 ≤ transLmin (m : ℤ) := by unfold transLmin; omega
  rw [e]
  refine C96_strict S ea eb hB hm (hm.trans h.hls) ?_ ?_
  · have := mieV_TE_ne h.m1 h.m3 h.h1 hl hk h1
    rwa [mieV_val (S.ha _ hl)] at this
  · have := mieV_TE_ne h.m2 h.m3 h.h2 hl hk h2
    rwa [mieV_val (S.hb _ hl)] at this

/-! ## Without early termination -/

/-- The complete sum over `m`. -/
noncomputable def pairSum (P : PairIn) (k : ℝ) : ℝ := lnDetV P 0 k + 2 * ∑ m ∈ Finset.Icc 1 P.lmax, lnDetV P m k

theorem pairSum_cont {P : PairIn} (h : PairOK P) {k : ℝ} (hk : 0 < k) : ContinuousAt (pairSum P) k := by
  have hm : ∀ m ≤ P.lmax, max 1 m ≤ P.lmax := fun m hm => by have := h.hl; omega
  unfold pairSum
  refine (lnDetV_cont h (hm 0 (by omega)) hk).add (continuousAt_const.mul ?_)
  exact tendsto_finsetSum _ fun m hm' => lnDetV_cont h (hm m (Finset.mem_Icc.mp hm').2) hk

theorem pairVals_sum {P : PairIn} (h : PairOK P) (hp : P.precision ≤ 0) {ks : List ℝ} (hne : ks ≠ []) (hk : ∀ k ∈ ks, 0 < k) :
    pairVals exactBes P ks = .ok (ks.map (pairSum P)) := by
  have hd : 0 < ks.length := List.length_pos_iff.mpr hne
  have hm : ∀ m ≤ P.lmax, max 1 m ≤ P.lmax := fun m hm => by have := h.hl; omega
  obtain ⟨M, h1, h2, h3, -⟩ := C13_mSumme hd (lmax := P.lmax) (precision := P.precision)
    (L := fun m => .ok fun i : Fin ks.length => lnDetV P m (ks.get i)) (v := fun m i => lnDetV P m (ks.get i)) fun _ _ => rfl
  rw [pairVals_eq h hne hk, h1, ok_bind]
  have hfull : ∀ i, mSum (fun m (i : Fin ks.length) => lnDetV P m (ks.get i)) M i = pairSum P (ks.get i) := by
    intro i
    rcases h3 with h3 | rfl
    · rcases h3 with h3 | ⟨-, r, -, hr⟩
      · have hki := hk _ (List.get_mem ks i)
        have hall : ∀ m, lnDetV P m (ks.get i) = 0 := by
          refine lnDetV_zero h hki fun hc => ?_
          obtain ⟨σa, ea⟩ := dense_total h.m1 h.m3 hki
          obtain ⟨σb, eb⟩ := dense_total h.m2 h.m3 hki
          have hs := fun m hm' => lnDetV_strict h (hm m hm') hki hc.1 hc.2 ea eb
          have hz := h3 i
          unfold mSum at hz
          simp only at hz
          by_cases hσ : σa = σb
          · have := (hs 0 (by omega)).1 hσ
            have := Finset.sum_nonpos fun m (hm' : m ∈ Finset.Icc 1 M) => ((hs m ((Finset.mem_Icc.mp hm').2.trans h2)).1 hσ).le
            linarith
          · have := (hs 0 (by omega)).2 hσ
            have := Finset.sum_nonneg fun m (hm' : m ∈ Finset.Icc 1 M) => ((hs m ((Finset.mem_Icc.mp hm').2.trans h2)).2 hσ).le
            linarith
        unfold mSum pairSum
        simp only [hall, Finset.sum_const_zero]
      · exact absurd hr (not_lt.mpr (by have := abs_nonneg (|mSum (fun m (i : Fin ks.length) => lnDetV P m (ks.get i)) M r /
          mSum (fun m (i : Fin ks.length) => lnDetV P m (ks.get i)) (M - 1) r| - 1); linarith))
    · rfl
  congr 1
  refine List.ext_getElem (by simp) fun j hj1 hj2 => ?_
  rw [List.getElem_ofFn, List.getElem_map, hfull]
  rfl

theorem pairVal_sum {P : PairIn} (h : PairOK P) (hp : P.precision ≤ 0) {k : ℝ} (hk : 0 < k) : pairVal P k = pairSum P k := by
  have h1 := pairVal_ok h hk
  rw [pairVals_sum h hp (by simp) (by simpa using hk)] at h1
  injection h1 with h1
  simpa using h1.symm

end CasSph
