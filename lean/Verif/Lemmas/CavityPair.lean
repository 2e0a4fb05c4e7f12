import Verif.Lemmas.CavityStrict
import Verif.Lemmas.CavityTrans
import Verif.Lemmas.BallPair
import Verif.Model.Cavity

/-! # A sphere inside a cavity at one wavenumber -/

namespace CasSph

open Spec Filter Topology Matrix

/-! ## Determinants of one array for all cut-offs -/

/-- `ln det(1 - σ H Hᵀ)` exists for all cut-offs, has the sign of `-σ`, is bounded by `U`, and its modulus grows with the cut-offs. -/
structure GramGood (H : ℕ → ℕ → ℝ) (σ U : ℝ) : Prop where
  sgn : σ = 1 ∨ σ = -1
  pos : ∀ n p, 0 < (1 - gram σ H n p).det
  bound : ∀ n p, |Real.log (1 - gram σ H n p).det| ≤ U
  attr : σ = 1 → ∀ n p, Real.log (1 - gram σ H n p).det ≤ 0
  rep : σ = -1 → ∀ n p, 0 ≤ Real.log (1 - gram σ H n p).det
  down : σ = 1 → ∀ {n n' p p' : ℕ}, n ≤ n' → p ≤ p' → Real.log (1 - gram σ H n' p').det ≤ Real.log (1 - gram σ H n p).det
  up : σ = -1 → ∀ {n n' p p' : ℕ}, n ≤ n' → p ≤ p' → Real.log (1 - gram σ H n p).det ≤ Real.log (1 - gram σ H n' p').det

theorem gramGood_attr {H : ℕ → ℕ → ℝ} {θ T U : ℝ} (h : HSContr H θ T) (hU : T / (1 - θ) ≤ U) : GramGood H 1 U where
  sgn := .inl rfl
  pos n p := (h.pos (.inl rfl) n p).1
  bound n p := (h.pos (.inl rfl) n p).2.trans hU
  attr _ n p := (h.sign n p).1
  rep e := by norm_num at e
  down _ _ _ _ _ hn hp := (h.mono hn hp).1
  up e := by norm_num at e

theorem gramGood_rep {H : ℕ → ℕ → ℝ} {U : ℝ} (h : ∀ n p, ∑ i, ∑ s, corner H n p i s ^ 2 ≤ U) : GramGood H (-1) U := by
  have e : ∀ n p, 1 - gram (-1) H n p = 1 + corner H n p * (corner H n p)ᵀ := by
    intro n p
    unfold gram
    rw [neg_smul, one_smul, sub_neg_eq_add]
  have b := fun n p => det_one_add_bounds (corner H n p)
  have hp : ∀ n p, 0 < (1 + corner H n p * (corner H n p)ᵀ).det := fun n p => lt_of_lt_of_le one_pos (b n p).1
  constructor
  · exact .inr rfl
  · intro n p; rw [e]; exact hp n p
  · intro n p
    rw [e, abs_of_nonneg (Real.log_nonneg (b n p).1)]
    exact ((Real.log_le_iff_le_exp (hp n p)).mpr (b n p).2).trans (h n p)
  · intro h; norm_num at h
  · intro _ n p; rw [e]; exact Real.log_nonneg (b n p).1
  · intro h; norm_num at h
  · intro _ n n' p p' hn hpp
    rw [e, e]
    exact Real.log_le_log (hp _ _) (det_corner_monotone H hn hpp)

theorem GramGood.limit {H : ℕ → ℕ → ℝ} {σ U : ℝ} (h : GramGood H σ U) :
    ∃ v, |v| ≤ U ∧ Tendsto (fun c : ℕ × ℕ => Real.log (1 - gram σ H c.1 c.2).det) atTop (𝓝 v) := by
  have hb := fun c : ℕ × ℕ => abs_le.mp (h.bound c.1 c.2)
  have key : ∃ v, Tendsto (fun c : ℕ × ℕ => Real.log (1 - gram σ H c.1 c.2).det) atTop (𝓝 v) := by
    rcases h.sgn with e | e
    · have hm : Antitone fun c : ℕ × ℕ => Real.log (1 - gram σ H c.1 c.2).det := fun c c' hcc => h.down e hcc.1 hcc.2
      exact ⟨_, tendsto_atTop_ciInf hm ⟨-U, by rintro _ ⟨c, rfl⟩; exact (hb c).1⟩⟩
    · have hm : Monotone fun c : ℕ × ℕ => Real.log (1 - gram σ H c.1 c.2).det := fun c c' hcc => h.up e hcc.1 hcc.2
      exact ⟨_, tendsto_atTop_ciSup hm ⟨U, by rintro _ ⟨c, rfl⟩; exact (hb c).2⟩⟩
  obtain ⟨v, hv⟩ := key
  exact ⟨v, le_of_tendsto hv.abs (Eventually.of_forall fun c => h.bound c.1 c.2), hv⟩

theorem GramGood.strict {H : ℕ → ℕ → ℝ} {σ U : ℝ} (h : GramGood H σ U) (h0 : H 0 0 ≠ 0) {n p : ℕ} (hn : 1 ≤ n) (hp : 1 ≤ p) :
    (σ = 1 → Real.log (1 - gram σ H n p).det < 0) ∧ (σ = -1 → 0 < Real.log (1 - gram σ H n p).det) := by
  have e : (1 - gram σ H 1 1).det = 1 - σ * (H 0 0) ^ 2 := by
    rw [Matrix.det_fin_one]
    unfold gram
    simp [Matrix.mul_apply, corner, sq]
  have hsq : 0 < H 0 0 ^ 2 := by positivity
  have hpos := h.pos 1 1
  refine ⟨fun hs => (h.down hs hn hp).trans_lt ?_, fun hs => lt_of_lt_of_le ?_ (h.up hs hn hp)⟩
  · rw [e, hs] at hpos ⊢
    exact Real.log_neg hpos (by linarith)
  · rw [e, hs]
    exact Real.log_pos (by linarith)

/-! ## The wall -/

theorem wallCoef_exists {m md : Material} (hm : m.Physical) (hd : md.Physical) (hmd : md.cls ≠ .pec) {k r : ℝ} (hk : 0 < k) (hr : 0 < r) :
    ∃ a : MieCoef, ∀ l, 1 ≤ l → mieInternal exactBes exactBes md m l k r = .ok ⟨a.TE l, a.TM l, a.ln l⟩ := by
  obtain ⟨a, ha, hap⟩ := medium_pos hmd hd hk
  have hxa : 0 < k * r * a.n := mul_pos (mul_pos hk hr) (a.n_pos hap)
  have : ∀ l, ∃ c : Mie, 1 ≤ l → mieInternal exactBes exactBes md m l k r = .ok c := by
    intro l
    by_cases hl : 1 ≤ l
    · have hid : 0 < idT l (k * r * a.n) (exactBes l (k * r * a.n)) := idT_pos (exactBes_ok hl hxa)
      by_cases hc : m.cls = .pec
      · rw [mieInternal_pec hc ha, miePECIntCore_ok hid]
        exact ⟨_, fun _ => rfl⟩
      · obtain ⟨b, hb, hbp⟩ := medium_pos hc hm hk
        have hxb : 0 < k * r * b.n := mul_pos (mul_pos hk hr) (b.n_pos hbp)
        rw [mieInternal_diel hc ha hb, mieIntCore_ok hap hbp hid (kdT_neg hl hxb _)]
        exact ⟨_, fun _ => rfl⟩
    · exact ⟨⟨0, 0, 0⟩, fun h => absurd h hl⟩
  choose c hc using this
  exact ⟨⟨fun l => (c l).TE, fun l => (c l).TM, fun l => (c l).ln⟩, fun l hl => hc l hl⟩

theorem mieTableInt_ok {T : BesTable} {mat md : Material} {k r : ℝ} {a : MieCoef}
    (ha : ∀ l, 1 ≤ l → mieInternal T T md mat l k r = .ok ⟨a.TE l, a.TM l, a.ln l⟩) (n : ℕ) :
    ∃ c, mieTableInt T md mat n k r = .ok c ∧ AgreeTo n c a := by
  unfold mieTableInt
  rw [finM_ok fun i => ha (i.1 + 1) (by omega), ok_bind]
  exact ⟨_, rfl, tableOf_agree fun i => rfl⟩

/-- Bessel functions of the translation inside the cavity. -/
noncomputable def innerRow (x : ℝ) (n : ℕ) : List ℝ := (List.range (n + 1)).map fun l => Real.log (sphI l x)

theorem transRow_int (x : ℝ) (n : ℕ) : transRow exactBes false x n = .ok (innerRow x n) := rfl

theorem innerRow_get {x : ℝ} {n p : ℕ} (hp : p ≤ n) : (innerRow x n).getD p 0 = Real.log (sphI p x) := by
  rw [List.getD_eq_getElem?_getD, innerRow, List.getElem?_map, List.getElem?_range (by omega)]; rfl

theorem blockmatricesAt_total {lmax lssmax m : ℕ} (hm : max 1 m ≤ lmax) (hm' : max 1 m ≤ lssmax) (ext : Bool) (x : ℝ) {bes : List ℝ}
    (hlen : lmax + lssmax < bes.length) (a b : MieCoef) : ∃ B, blockmatricesAt lmax lssmax m ext x bes a b = .ok B := by
  have hlm : transLmin (m : ℤ) = max 1 m := by unfold transLmin; omega
  have hn : 0 < lmax + 1 - transLmin (m : ℤ) := by omega
  have hpp : 0 < lssmax + 1 - transLmin (m : ℤ) := by omega
  have hV : transAb lmax lssmax m ext x bes = .ok fun i j => vVal ext m x bes (transLmin (m : ℤ) + i.1) (transLmin (m : ℤ) + j.1) := by
    unfold transAb
    refine finM_ok fun i => finM_ok fun j => getVl1l2_ok ext m _ ?_
    have := i.2; have := j.2; omega
  cases hE : roundTripElements lmax lssmax m ext x bes a b with
  | error er => unfold roundTripElements at hE; rw [hV] at hE; cases hE
  | ok E =>
    obtain ⟨Bk, hBk⟩ := C11_blockmatrices_total hn hpp E
    refine ⟨Bk, ?_⟩
    unfold blockmatricesAt
    rw [hE, ok_bind, hBk]

/-- The blocks are the Gram matrix of the kernel. -/
theorem cavity_gram {x : ℝ} (hx : 0 < x) {m lmax lssmax : ℕ} {a b : MieCoef} {σa σb : ℝ} {u v A B0 : Bool → ℕ → ℝ}
    (hA : RefBy a σa u A) (hB : RefBy b σb v B0) {B : Blocks (lmax + 1 - transLmin m)}
    (hblk : blockmatricesAt lmax lssmax m false x (innerRow x (lmax + lssmax + 1)) a b = .ok B) :
    Fac B.full ((gram (σa * σb) (kernC m x (m - 1) A B0) (2 * (lmax + 1 - transLmin m))
          (2 * (lssmax + 1 - transLmin m))).submatrix (ilv _) (ilv _)) := by
  have hlm : transLmin (m : ℤ) = m - 1 + 1 := by unfold transLmin; omega
  have hlen : (innerRow x (lmax + lssmax + 1)).length = lmax + lssmax + 2 := by simp [innerRow]
  have hget : ∀ p ≤ lmax + lssmax, (innerRow x (lmax + lssmax + 1)).getD p 0 = Real.log (sphI p x) := fun p hp => innerRow_get (by omega)
  generalize innerRow x (lmax + lssmax + 1) = bes at *
  have hi : ∀ i : Fin (lmax + 1 - transLmin (m : ℤ)), transLmin (m : ℤ) + i.1 = m - 1 + i.1 + 1 ∧ m - 1 + i.1 + 1 ≤ lmax := by
    intro i; have := i.2; omega
  have hs : ∀ s : Fin (lssmax + 1 - transLmin (m : ℤ)), transLmin (m : ℤ) + s.1 = m - 1 + s.1 + 1 ∧ m - 1 + s.1 + 1 ≤ lssmax := by
    intro i; have := i.2; omega
  rw [← mixed_const]
  unfold blockmatricesAt roundTripElements transAb at hblk
  rw [finM_ok (g := fun (i : Fin (lmax + 1 - transLmin (m : ℤ))) (j : Fin (lssmax + 1 - transLmin (m : ℤ))) =>
    vVal false m x bes (transLmin (m : ℤ) + i.1) (transLmin (m : ℤ) + j.1)) ?_] at hblk
  · simp only [ok_bind] at hblk
    obtain ⟨dg, hdg, hBd⟩ := blockmatrices_diag hblk
    refine Fac.of_diag ?_ dg hdg hBd
    refine roundTrip_mix_of (c0 := m - 1) (ε := 1) (f := tIs m x) (α := fun _ _ => σa) (β := fun _ _ => σb) (by norm_num) (tIs_sym m x)
      (fun P c => ((hA c).1 P).1) (fun P c => ((hB c).1 P).1) ?_ ?_ ?_ ?_ ?_ ?_ ?_ ?_
    · intro i
      simp only
      rw [(hi i).1, (hA (m - 1 + i.1)).2.1, show m - 1 + 1 + i.1 = m - 1 + i.1 + 1 by omega]
    · intro i
      simp only
      rw [(hi i).1, (hA (m - 1 + i.1)).2.2, show m - 1 + 1 + i.1 = m - 1 + i.1 + 1 by omega]
    · intro i
      simp only
      rw [(hs i).1, (hB (m - 1 + i.1)).2.1, show m - 1 + 1 + i.1 = m - 1 + i.1 + 1 by omega]
    · intro i
      simp only
      rw [(hs i).1, (hB (m - 1 + i.1)).2.2, show m - 1 + 1 + i.1 = m - 1 + i.1 + 1 by omega]
    · intro i s
      simp only [of_apply]
      have := (hi i).2; have := (hs s).2
      rw [(hi i).1, (hs s).1, vVal_EE_int hx (by omega) (by omega) m fun p hp => hget p (by omega), one_mul]
      rfl
    · intro i s
      simp only [of_apply]
      have := (hi i).2; have := (hs s).2
      rw [(hi i).1, (hs s).1, vVal_EM_int hx (by omega) (by omega) m fun p hp => hget p (by omega), one_mul]
      rfl
    · intro i s
      simp only [of_apply]
      rw [(hi i).1, (hs s).1, (vVal_back false m x bes _ _).1, show m - 1 + 1 + i.1 + (m - 1 + 1 + s.1) = m - 1 + i.1 + 1 + (m - 1 + s.1 + 1) by omega]
      ring
    · intro i s
      simp only [of_apply]
      rw [(hi i).1, (hs s).1, (vVal_back false m x bes _ _).2, show m - 1 + 1 + i.1 + (m - 1 + 1 + s.1) = m - 1 + i.1 + 1 + (m - 1 + s.1 + 1) by omega]
      ring
  · intro i
    refine finM_ok fun s => getVl1l2_ok false m x ?_
    have := (hi i); have := (hs s); omega

/-! ## The geometry -/

/-- A sphere of radius `r1` inside a cavity of radius `r2`, centres at the distance `L > 0`, and sensible cut-offs.  `mat2` is the material
around the cavity, `mat3` fills it. -/
structure CavOK (P : PairIn) : Prop where
  m1 : SphereMat P.mat1
  m2 : SphereMat P.mat2
  m3 : MediumMat P.mat3
  h1 : 0 < P.r1
  hL : 0 < P.L
  inside : P.L + P.r1 < P.r2
  hl : 1 ≤ P.lmax
  hls : P.lmax ≤ P.lssmax

/-- Smallest distance between sphere and wall. -/
def cavGap (P : PairIn) : ℝ := P.r2 - P.L - P.r1

/-- `r1/(r2 - L)`. -/
noncomputable def cavRatio (P : PairIn) : ℝ := P.r1 / (P.r2 - P.L)

/-- `6 e^{-δ}/((1 - q) (1 - min(e^{-δ}, q)))` with `δ = k d`, the gap `d` and `q = r1/(r2 - L)`; it remains finite for `k → 0`. -/
noncomputable def cavBound (P : PairIn) (k : ℝ) : ℝ :=
  6 * Real.exp (-(k * cavGap P)) / ((1 - cavRatio P) * (1 - min (Real.exp (-(k * cavGap P))) (cavRatio P)))

section
variable {P : PairIn} {k : ℝ}

theorem CavOK.gap_pos (h : CavOK P) : 0 < cavGap P := by unfold cavGap; linarith [h.inside]

theorem CavOK.ratio (h : CavOK P) : 0 < cavRatio P ∧ cavRatio P < 1 := by
  have h1 := h.h1
  have h2 : 0 < P.r2 - P.L := by linarith [h.inside]
  exact ⟨div_pos h1 h2, by unfold cavRatio; rw [div_lt_one h2]; linarith [h.inside]⟩

theorem CavOK.ext (h : CavOK P) : P.ext = false := by
  unfold PairIn.ext
  rw [decide_eq_false_iff_not, not_lt]
  linarith [h.inside, h.h1]

theorem cavBound_pos (h : CavOK P) (k : ℝ) : 0 < cavBound P k := by
  have h1 := h.ratio.2
  have h2 := min_le_right (Real.exp (-(k * cavGap P))) (cavRatio P)
  have := Real.exp_pos (-(k * cavGap P))
  unfold cavBound
  exact div_pos (by linarith) (mul_pos (by linarith) (by linarith))

/-- `cavBound` without the minimum. -/
theorem cavBound_le (h : CavOK P) (hk : 0 < k) : cavBound P k ≤ 6 * Real.exp (-(k * cavGap P)) / (1 - cavRatio P) ^ 2 ∧
    cavBound P k ≤ 6 / (Real.exp (k * cavGap P) - 1) / (1 - cavRatio P) := by
  have h1 := h.ratio.2
  have e0 := Real.exp_pos (-(k * cavGap P))
  have e1 : Real.exp (-(k * cavGap P)) < 1 := by rw [Real.exp_lt_one_iff]; have := mul_pos hk h.gap_pos; linarith
  unfold cavBound
  constructor
  · rw [sq]
    refine div_le_div_of_nonneg_left (by linarith) (mul_pos (by linarith) (by linarith)) (mul_le_mul_of_nonneg_left ?_ (by linarith))
    linarith [min_le_right (Real.exp (-(k * cavGap P))) (cavRatio P)]
  · have e2 : 6 / (Real.exp (k * cavGap P) - 1) / (1 - cavRatio P) =
        6 * Real.exp (-(k * cavGap P)) / ((1 - cavRatio P) * (1 - Real.exp (-(k * cavGap P)))) := by
      have e3 : Real.exp (k * cavGap P) = (Real.exp (-(k * cavGap P)))⁻¹ := by rw [← Real.exp_neg, neg_neg]
      rw [e3]
      generalize Real.exp (-(k * cavGap P)) = E at *
      have : 1 - E ≠ 0 := by linarith
      have : E⁻¹ - 1 = (1 - E) / E := by field_simp
      rw [this]
      field_simp
    rw [e2]
    refine div_le_div_of_nonneg_left (by linarith) (mul_pos (by linarith) (by linarith)) (mul_le_mul_of_nonneg_left ?_ (by linarith))
    linarith [min_le_left (Real.exp (-(k * cavGap P))) (cavRatio P)]

/-- The kernels of a sphere in a cavity and the resulting estimate. -/
theorem kernC_good {m : ℕ} {ρ y x σa σb : ℝ} (hρ : 0 < ρ) (hy : ρ < y) (hx : 0 < x) (sa : σa = 1 ∨ σa = -1) (sb : σb = 1 ∨ σb = -1) {a b : MieCoef}
    {A B : Bool → ℕ → ℝ} (hA : RefBy a σa (fun P i => pecR (xor (flipOf σa) P) i ρ) A)
    (hB : RefBy b σb (fun P i => cavR (xor (flipOf σb) P) i (y + x)) B) :
    GramGood (kernC m x (m - 1) A B) (σa * σb) (3 * (Real.exp (-(y - ρ)) * (2 * (ρ / y) ^ (m - 1) / (1 - ρ / y))) / (1 - min (Real.exp (-(y - ρ))) (ρ / y))) := by
  have hy0 : 0 < y := hρ.trans hy
  have hq : ρ / y < 1 := (div_lt_one hy0).mpr hy
  have hmc : m ≤ (m - 1) + 1 := by omega
  have hc : m - 1 = 0 ∨ m - 1 + 1 = m := by omega
  have he : min (Real.exp (-(y - ρ))) (ρ / y) < 1 := (min_le_right _ _).trans_lt hq
  have he0 : 0 ≤ min (Real.exp (-(y - ρ))) (ρ / y) := le_min (Real.exp_pos _).le (div_pos hρ hy0).le
  have h0 : 0 ≤ Real.exp (-(y - ρ)) * (2 * (ρ / y) ^ (m - 1) / (1 - ρ / y)) := by
    have : 0 < 1 - ρ / y := by linarith
    positivity
  generalize hT : Real.exp (-(y - ρ)) * (2 * (ρ / y) ^ (m - 1) / (1 - ρ / y)) = T at *
  by_cases hs : σa = σb
  · have hp : σa * σb = 1 := by rw [hs]; rcases sb with e | e <;> rw [e] <;> norm_num
    rw [hp]
    have hA' : ∀ P c, A P c ≤ pecR (xor (flipOf σb) P) c ρ := fun P c => by rw [← hs]; exact ((hA c).1 P).2
    have hc := kernC_contr (x := x) hmc hc hρ hy hx (flipOf σb) (fun P c => ((hA c).1 P).1) hA' (fun P c => ((hB c).1 P).1) (fun P c => ((hB c).1 P).2)
    rw [hT] at hc
    exact gramGood_attr hc (div_le_div_of_nonneg_right (by linarith) (by linarith))
  · have hp : σa * σb = -1 := by
      rcases sa with e | e <;> rcases sb with e' | e' <;> rw [e, e'] at hs ⊢ <;> first | exact absurd rfl hs | norm_num
    have hf : flipOf σa = !flipOf σb := by
      rcases sa with e | e <;> rcases sb with e' | e' <;> rw [e, e'] at hs ⊢ <;> first | exact absurd rfl hs | simp [flipOf_one, flipOf_neg]
    rw [hp]
    refine gramGood_rep fun n p => ?_
    have hA' : ∀ P c, A P c ≤ 3 * pecR (xor (flipOf σb) P) c ρ := fun P c => by
      refine ((hA c).1 P).2.trans ?_
      simp only [hf]
      have := pecR_flip (xor (!flipOf σb) P) c hρ
      rwa [show (!(xor (!flipOf σb) P)) = xor (flipOf σb) P by cases flipOf σb <;> cases P <;> rfl] at this
    have hh := kernC_hs (x := x) hmc hc hρ hy hx (flipOf σb) (C := 3) (by norm_num) (fun P c => ((hA c).1 P).1) hA' (fun P c => ((hB c).1 P).1)
      (fun P c => ((hB c).1 P).2) n p
    rw [hT] at hh
    refine hh.trans ?_
    rw [le_div_iff₀ (by linarith)]
    nlinarith

/-- Everything about one wavenumber, for all cut-offs. -/
theorem CavOK.wave (h : CavOK P) (hk : 0 < k) {σa σb : ℝ} (ea : DenseSign P.mat1 P.mat3 k σa) (eb : DenseSign P.mat2 P.mat3 k σb) :
    ∃ H : ℕ → ℕ → ℕ → ℝ, (∀ m, GramGood (H m) (σa * σb) (cavBound P k * cavRatio P ^ (m - 1))) ∧
      (HasContrast P.mat1 P.mat3 k → HasContrast P.mat2 P.mat3 k → ∀ m, H m 0 0 ≠ 0) ∧
      ∀ lmax lssmax : ℕ, ∃ w, geoWave exactBes { P with lmax := lmax, lssmax := lssmax } k = .ok w ∧
        ∀ m : ℕ, max 1 m ≤ lmax → max 1 m ≤ lssmax → ∃ B, blockmatricesAt lmax lssmax m false w.nL w.bes w.a w.b = .ok B ∧
          (1 - B.full).det = (1 - gram (σa * σb) (H m) (2 * (lmax + 1 - transLmin m)) (2 * (lssmax + 1 - transLmin m))).det := by
  have hr2 : 0 < P.r2 := by linarith [h.inside, h.h1, h.hL]
  obtain ⟨a, ha⟩ := mieCoef_exists h.m1.phys h.m3.phys h.m3.cls hk h.h1
  obtain ⟨b, hb⟩ := wallCoef_exists h.m2.phys h.m3.phys h.m3.cls hk hr2
  have hmed := (medium_val h.m3.cls h.m3.phys hk).1
  rw [muV_of_none h.m3.mag] at hmed
  have hε := h.m3.one_le hk
  obtain ⟨A, hA⟩ := ball_ref h.m3.cls h.m3.phys hk h.h1 hmed ea ha
  obtain ⟨B0, hB⟩ := wall_ref h.m3.cls h.m3.phys hk hr2 hmed eb hb
  set ε := P.mat3.epsV k with hεdef
  have hn : (⟨ε, 1⟩ : Medium).n = Real.sqrt ε := by unfold Medium.n; rw [mul_one]
  rw [hn] at hA hB
  have hs1 : 1 ≤ Real.sqrt ε := Real.one_le_sqrt.mpr hε
  have hs0 : 0 < k * Real.sqrt ε := mul_pos hk (by linarith)
  set x := k * P.L * Real.sqrt ε with hx
  have hx0 : 0 < x := by rw [hx]; have := mul_pos hs0 h.hL; linarith
  have hρ0 : 0 < k * P.r1 * Real.sqrt ε := by have := mul_pos hs0 h.h1; linarith
  obtain ⟨y, hy⟩ : ∃ y, y = k * Real.sqrt ε * (P.r2 - P.L) := ⟨_, rfl⟩
  have hyx : k * P.r2 * Real.sqrt ε = y + x := by rw [hx, hy]; ring
  rw [hyx] at hB
  have hgap : y - k * P.r1 * Real.sqrt ε = k * Real.sqrt ε * cavGap P := by rw [hy]; unfold cavGap; ring
  have hg0 := mul_pos hs0 h.gap_pos
  have hq : k * P.r1 * Real.sqrt ε / y = cavRatio P := by
    rw [hy, show k * P.r1 * Real.sqrt ε = k * Real.sqrt ε * P.r1 by ring, mul_div_mul_left _ _ hs0.ne']; rfl
  refine ⟨fun m => kernC m x (m - 1) A B0, fun m => ?_, fun t1 t2 m => ?_, fun lmax lssmax => ?_⟩
  · have hG := kernC_good (m := m) hρ0 (by linarith) hx0 ea.sign eb.sign hA hB
    rw [hgap, hq] at hG
    obtain ⟨q0, q1⟩ := h.ratio
    refine { hG with bound := fun n p => (hG.bound n p).trans ?_ }
    have e3 : Real.exp (-(k * Real.sqrt ε * cavGap P)) ≤ Real.exp (-(k * cavGap P)) := by
      rw [Real.exp_le_exp]
      have : k * cavGap P ≤ k * cavGap P * Real.sqrt ε := le_mul_of_one_le_right (mul_pos hk h.gap_pos).le hs1
      linarith
    have e0 := Real.exp_pos (-(k * Real.sqrt ε * cavGap P))
    unfold cavBound
    generalize Real.exp (-(k * Real.sqrt ε * cavGap P)) = E at *
    generalize Real.exp (-(k * cavGap P)) = G at *
    have hmin : min E (cavRatio P) ≤ min G (cavRatio P) := min_le_min_right _ e3
    have hG1 : min G (cavRatio P) < 1 := (min_le_right _ _).trans_lt q1
    have hEG : E / (1 - min E (cavRatio P)) ≤ G / (1 - min G (cavRatio P)) := div_le_div₀ (by linarith) e3 (by linarith) (by linarith)
    have hC : 0 ≤ 6 * cavRatio P ^ (m - 1) / (1 - cavRatio P) := by
      have : 0 < 1 - cavRatio P := by linarith
      positivity
    calc 3 * (E * (2 * cavRatio P ^ (m - 1) / (1 - cavRatio P))) / (1 - min E (cavRatio P)) =
          6 * cavRatio P ^ (m - 1) / (1 - cavRatio P) * (E / (1 - min E (cavRatio P))) := by ring
      _ ≤ 6 * cavRatio P ^ (m - 1) / (1 - cavRatio P) * (G / (1 - min G (cavRatio P))) := mul_le_mul_of_nonneg_left hEG hC
      _ = _ := by rw [div_mul_div_comm, div_mul_eq_mul_div]; congr 1; ring
  · have t1' := mieV_TE_ne h.m1 h.m3 h.h1 (l := m - 1 + 1) (by omega) hk t1
    rw [mieV_val (ha _ (by omega))] at t1'
    exact kernC_first x (hA.amp_pos t1') (hB.amp_pos (wall_TE_ne h.m2 h.m3 hr2 (by omega) hk t2 (hb _ (by omega))))
  · obtain ⟨c1, h1, g1⟩ := mieTable_ok ha lmax
    obtain ⟨c2, h2, g2⟩ := mieTableInt_ok hb lssmax
    have hext : ({ P with lmax := lmax, lssmax := lssmax } : PairIn).ext = false := h.ext
    refine ⟨⟨x, innerRow x (lmax + lssmax + 1), c1, c2⟩, ?_, fun m hm hm' => ?_⟩
    · unfold geoWave
      rw [hext]
      simp only [Bool.false_eq_true, not_false_eq_true, if_true]
      rw [h1, ok_bind, h2, ok_bind, medium_eps hmed, ok_bind, transRow_int, ok_bind]
    · obtain ⟨B, hB'⟩ := blockmatricesAt_total hm hm' false x (bes := innerRow x (lmax + lssmax + 1)) (by simp [innerRow]) c1 c2
      refine ⟨B, hB', ?_⟩
      rw [blockmatricesAt_congr g1 g2] at hB'
      exact (det_reindex (cavity_gram hx0 hA hB hB')).1

end

end CasSph
