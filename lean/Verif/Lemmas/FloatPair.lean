import Verif.Spec.FlPair
import Verif.Lemmas.AssemblyPair
import Verif.Props.FloatMie
import Verif.Props.Stronger

/-! The round-trip matrix from computed Mie coefficients. -/

namespace CasSph

open Spec

section
variable {A : FlMie} {u : ℝ} {T : BesTable} {mat md : Material} {n l : ℕ} {k r δ Λ X Z : ℝ}

theorem besselErr_nonneg (hb : MediumMat md) (hA : RelErrM A u) (hk : 0 < k) (hr : 0 < r) (h : BesselErr A T mat md n k r δ Λ X) (hl : 1 ≤ l) (hln : l ≤ n)
    (hm : SphereMat mat) : 0 ≤ δ ∧ 0 ≤ Λ ∧ 0 ≤ X := by
  have hmed := (medium_val hb.cls hb.phys hk).1
  have hpos : (⟨md.epsV k, md.muV k⟩ : Medium).Pos := by
    obtain ⟨b, hb', hp⟩ := medium_pos hb.cls hb.phys hk
    rw [hmed] at hb'
    injection hb' with hb'
    rw [hb']; exact hp
  have xb : 0 < k * r * (⟨md.epsV k, md.muV k⟩ : Medium).n := mul_pos (mul_pos hk hr) (Medium.n_pos hpos)
  refine ⟨?_, (log_arg_nonneg xb l).trans ((h.arg _ hmed).2 l hl hln), xb.le.trans (h.arg _ hmed).1⟩
  by_cases hp : mat.cls = .pec
  · exact (abs_nonneg _).trans (h.pec hp _ hmed l hl hln).i0
  · exact (abs_nonneg _).trans (h.diel hp _ _ (medium_val hp hm.phys hk).1 hmed l hl hln).1.i0

/-- One computed coefficient and the exact one. -/
theorem mieOf_near (hA : RelErrM A u) (hm : SphereMat mat) (hb : MediumMat md) (hk : 0 < k) (hr : 0 < r) (h : BesselErr A T mat md n k r δ Λ X)
    (hη : 5 * δ + 3 * u * Λ + 15 * u ≤ 1 / 100) (hl : 1 ≤ l) (hln : l ≤ n) :
    ∃ c e e0 : Mie, A.mieOf T mat md l k r = .ok c ∧ mie exactBes exactBes mat md l k r = .ok e ∧ mie exactBes exactBes ⟨.pec, [], none⟩ md l k r = .ok e0 ∧
      e0.ln = e.ln ∧ 1 ≤ |e0.TE| ∧ 1 ≤ |e0.TM| ∧ |c.TE - e.TE| ≤ 10 * (5 * δ + 3 * u * Λ + 15 * u) ∧
      |c.TM - e.TM| ≤ 10 * (5 * δ + 3 * u * Λ + 15 * u) * max 1 |e.TM| ∧ |c.ln - e.ln| ≤ 3 * δ + 9 * u * (n + 1 + X) + u * |e.ln| := by
  obtain ⟨hδ, hΛ, hX⟩ := besselErr_nonneg hb hA hk hr h hl hln hm
  have hu := hA.u0
  obtain ⟨b, hmed, hpos⟩ := medium_pos hb.cls hb.phys hk
  have xb : 0 < k * r * b.n := mul_pos (mul_pos hk hr) (b.n_pos hpos)
  have e0 : mie exactBes exactBes ⟨.pec, [], none⟩ md l k r = miePECCore l (k * r) b (exactBes l (k * r * b.n)) := by
    unfold mie; simp only; rw [hmed, ok_bind]
  have hp1 := Real.pi_gt_three
  have one : ∀ y : ℝ, 1 ≤ y → 1 ≤ |(-1) ^ l * Real.pi * 0.5| * y := by
    intro y hy
    rw [abs_mul, abs_mul, abs_pow, abs_neg, abs_one, one_pow, abs_of_pos Real.pi_pos, abs_of_pos (by norm_num)]
    nlinarith
  have one' : 1 ≤ |(-1) ^ l * Real.pi * 0.5| := by simpa using one 1 le_rfl
  have tm0 : 1 ≤ |(-1) ^ l * Real.pi * 0.5 * idT l (k * r * b.n) (exactBes l (k * r * b.n)) / kdT l (k * r * b.n) (exactBes l (k * r * b.n))| := by
    rw [idT_exact hl xb, kdT_exact xb, mul_div_assoc, abs_mul]
    refine one _ ?_
    have hk' := kdX_neg hl xb
    rw [abs_div, abs_of_pos (idX_pos hl xb), abs_of_neg hk', le_div_iff₀ (by linarith), one_mul]
    exact kdX_le_idX hl xb
  have lnle : ∀ {c e : ℝ}, |c - e| ≤ 3 * δ + 9 * u * (l + 1 + k * r * b.n) + u * |e| → |c - e| ≤ 3 * δ + 9 * u * (n + 1 + X) + u * |e| := by
    intro c e hc
    refine hc.trans ?_
    have h1 : (l : ℝ) ≤ n := by exact_mod_cast hln
    have h2 := (h.arg b hmed).1
    gcongr
  have hη0 : 0 ≤ 5 * δ + 3 * u * Λ := by positivity
  by_cases hp : mat.cls = .pec
  · obtain ⟨c, e, h1, h2, h3, h4, h5⟩ := C123_pec hA hl hk hr hpos (h.pec hp b hmed l hl hln) ((h.arg b hmed).2 l hl hln) hη
    have em : mie exactBes exactBes mat md l k r = .ok e := by unfold mie; rw [hp]; simp only; rw [hmed, ok_bind]; exact h2
    have ee := h2
    rw [miePECCore_ok (kdT_neg hl xb _)] at ee
    injection ee with ee
    refine ⟨c, e, e, by unfold FlMie.mieOf; rw [hp]; simp only; rw [hmed, ok_bind]; exact h1, em, e0.trans h2, rfl, ?_, ?_, h3.trans (by linarith), ?_, lnle h5⟩
    · rw [← ee]; exact one'
    · rw [← ee]; exact tm0
    · refine h4.trans (mul_le_mul (by linarith) (le_max_right _ _) (abs_nonneg _) (by positivity))
  · obtain ⟨a, ha, hap⟩ := medium_pos hp hm.phys hk
    obtain ⟨t1, t2, t3⟩ := h.diel hp a b ha hmed l hl hln
    obtain ⟨c, e, h1, h2, h3, h4, h5⟩ := C123_mie hA hl hk hr hap hpos t1 t2 t3 ((h.arg b hmed).2 l hl hln) hη
    have xa : 0 < k * r * a.n := mul_pos (mul_pos hk hr) (a.n_pos hap)
    have ee := h2
    rw [mieCore_ok hap hpos (idT_pos (exactBes_ok hl xa)) (kdT_neg hl xb _)] at ee
    injection ee with ee
    have pk : ∀ {α : Type} (x y : α), (match mat.cls with | .pec => x | _ => y) = y := by
      intro α x y
      split
      · next hc => exact absurd hc hp
      · rfl
    refine ⟨c, e, ⟨(-1) ^ l * Real.pi * 0.5, (-1) ^ l * Real.pi * 0.5 * idT l (k * r * b.n) (exactBes l (k * r * b.n)) / kdT l (k * r * b.n) (exactBes l (k * r * b.n)),
      (exactBes l (k * r * b.n)).i1 - (exactBes l (k * r * b.n)).k1⟩, ?_, ?_, e0.trans (miePECCore_ok (kdT_neg hl xb _)), ?_, one', tm0, h3, ?_, lnle h5⟩
    · unfold FlMie.mieOf
      split
      · next hc => exact absurd hc hp
      · rw [ha, ok_bind, hmed, ok_bind]; exact h1
    · unfold mie
      split
      · next hc => exact absurd hc hp
      · rw [ha, ok_bind, hmed, ok_bind]; exact h2
    · rw [← ee]
    · exact h4.trans (le_mul_of_one_le_right (by linarith) (le_max_left _ _))

/-- From amplitude and exponent to the coefficient. -/
theorem coef_err {t t' z z' T0 z0 η τ : ℝ} (hη : 0 ≤ η) (h0 : z0 = z) (h1 : 1 ≤ |T0|) (hle : |t * Real.exp z| ≤ |T0 * Real.exp z0|)
    (ht : |t' - t| ≤ η * max 1 |t|) (hz : |z' - z| ≤ τ) :
    |t' * Real.exp z' - t * Real.exp z| ≤ ((1 + η) * Real.exp τ - 1) * |T0 * Real.exp z0| := by
  subst h0
  have hE := Real.exp_pos z0
  rw [abs_mul, abs_mul, abs_of_pos hE] at hle
  have hle' : |t| ≤ |T0| := le_of_mul_le_mul_right hle hE
  have hτ : 0 ≤ τ := (abs_nonneg _).trans hz
  have e1 : |Real.exp (z' - z0) - 1| ≤ Real.exp τ - 1 := by
    obtain ⟨a, b⟩ := abs_le.mp hz
    have u1 : Real.exp (z' - z0) ≤ Real.exp τ := Real.exp_le_exp.mpr b
    have u2 : Real.exp (-τ) ≤ Real.exp (z' - z0) := Real.exp_le_exp.mpr a
    have u3 : Real.exp (-τ) * Real.exp τ = 1 := by rw [← Real.exp_add]; simp
    have u4 : 1 ≤ Real.exp τ := Real.one_le_exp hτ
    rw [abs_le]
    refine ⟨?_, by linarith⟩
    nlinarith [Real.exp_pos (-τ)]
  have e2 : Real.exp (z' - z0) ≤ Real.exp τ := Real.exp_le_exp.mpr (abs_le.mp hz).2
  have ht' : |t' - t| ≤ η * |T0| := ht.trans (mul_le_mul_of_nonneg_left (max_le h1 hle') hη)
  have id : t' * Real.exp z' - t * Real.exp z0 = ((t' - t) * Real.exp (z' - z0) + t * (Real.exp (z' - z0) - 1)) * Real.exp z0 := by
    have : Real.exp z' = Real.exp (z' - z0) * Real.exp z0 := by rw [← Real.exp_add]; congr 1; ring
    rw [this]; ring
  rw [id, abs_mul, abs_mul, abs_of_pos hE, ← mul_assoc]
  refine mul_le_mul_of_nonneg_right ?_ hE.le
  refine (abs_add_le _ _).trans ?_
  rw [abs_mul, abs_mul, abs_of_pos (Real.exp_pos _)]
  have m1 := mul_le_mul ht' e2 (Real.exp_pos _).le (by positivity)
  have m2 := mul_le_mul hle' e1 (abs_nonneg _) (abs_nonneg _)
  nlinarith

/-- The computed table. -/
theorem mieTable_near (hA : RelErrM A u) (hm : SphereMat mat) (hb : MediumMat md) (hk : 0 < k) (hr : 0 < r) (h : BesselErr A T mat md n k r δ Λ X)
    (hη : 5 * δ + 3 * u * Λ + 15 * u ≤ 1 / 100) {c e e0 : MieCoef} (hc : A.mieTable T mat md n k r = .ok c) (he : mieTable exactBes mat md n k r = .ok e)
    (he0 : mieTable exactBes ⟨.pec, [], none⟩ md n k r = .ok e0) (hZ : ∀ l, 1 ≤ l → l ≤ n → |c.ln l| ≤ Z)
    (hle : ∀ l, 1 ≤ l → l ≤ n → |teOf e l| ≤ |teOf e0 l| ∧ |tmOf e l| ≤ |tmOf e0 l|) : CoefErr n (mieErr u δ Λ X Z n) c e e0 := by
  intro l hl hln
  obtain ⟨hδ, hΛ, hX⟩ := besselErr_nonneg hb hA hk hr h hl hln hm
  have hu := hA.u0
  have hu1 := hA.u1
  choose C E E0 q using fun i : Fin n => mieOf_near hA hm hb hk hr h hη (l := i.1 + 1) (by omega) (by have := i.2; omega)
  have e1 : c = tableOf C := by
    unfold FlMie.mieTable at hc
    rw [finM_ok fun i => (q i).1, ok_bind] at hc
    injection hc with hc; exact hc.symm
  have e2 : e = tableOf E := by
    unfold mieTable at he
    rw [finM_ok fun i => (q i).2.1, ok_bind] at he
    injection he with he; exact he.symm
  have e3 : e0 = tableOf E0 := by
    unfold mieTable at he0
    rw [finM_ok fun i => (q i).2.2.1, ok_bind] at he0
    injection he0 with he0; exact he0.symm
  obtain ⟨-, -, -, q4, q5, q6, q7, q8, q9⟩ := q ⟨l - 1, by omega⟩
  have hlt : l - 1 < n := by omega
  have hz := hZ l hl hln
  obtain ⟨l1, l2⟩ := hle l hl hln
  rw [e1] at hz ⊢
  rw [e2, e3] at l1 l2 ⊢
  simp only [teOf, tmOf, tableOf, dif_pos hlt] at hz l1 l2 ⊢
  have hη0 : 0 ≤ 10 * (5 * δ + 3 * u * Λ + 15 * u) := by positivity
  obtain ⟨t, ht⟩ : ∃ t, t = 3 * δ + 9 * u * (n + 1 + X) := ⟨_, rfl⟩
  have ht0 : 0 ≤ t := by rw [ht]; positivity
  rw [← ht] at q9
  have hτ : |(C ⟨l - 1, hlt⟩).ln - (E ⟨l - 1, hlt⟩).ln| ≤ 2 * (3 * δ + 9 * u * (n + 1 + X)) + 2 * u * Z := by
    rw [← ht]
    have a1 := abs_sub_abs_le_abs_sub (E ⟨l - 1, hlt⟩).ln (C ⟨l - 1, hlt⟩).ln
    rw [abs_sub_comm] at a1
    have z0 := (abs_nonneg _).trans hz
    have a2 : |(E ⟨l - 1, hlt⟩).ln| ≤ 2 * Z + 2 * t := by
      have := abs_nonneg (E ⟨l - 1, hlt⟩).ln
      nlinarith
    refine q9.trans ?_
    have := mul_le_mul_of_nonneg_left a2 hu
    nlinarith
  unfold mieErr
  exact ⟨coef_err hη0 q4 q5 l1 (q7.trans (le_mul_of_one_le_right hη0 (le_max_left _ _))) hτ, coef_err hη0 q4 q6 l2 q8 hτ⟩

/-- The table exists. -/
theorem flTable_ok (hA : RelErrM A u) (hm : SphereMat mat) (hb : MediumMat md) (hk : 0 < k) (hr : 0 < r) (h : BesselErr A T mat md n k r δ Λ X)
    (hη : 5 * δ + 3 * u * Λ + 15 * u ≤ 1 / 100) : ∃ c, A.mieTable T mat md n k r = .ok c := by
  choose C E E0 q using fun i : Fin n => mieOf_near hA hm hb hk hr h hη (l := i.1 + 1) (by omega) (by have := i.2; omega)
  refine ⟨tableOf C, ?_⟩
  unfold FlMie.mieTable
  rw [finM_ok fun i => (q i).1, ok_bind]

end

theorem mieErr_nonneg {u δ Λ X Z : ℝ} (hu : 0 ≤ u) (hδ : 0 ≤ δ) (hΛ : 0 ≤ Λ) (hX : 0 ≤ X) (hZ : 0 ≤ Z) (n : ℕ) : 0 ≤ mieErr u δ Λ X Z n := by
  unfold mieErr
  have h1 : 1 ≤ 1 + 10 * (5 * δ + 3 * u * Λ + 15 * u) := by
    have : 0 ≤ 10 * (5 * δ + 3 * u * Λ + 15 * u) := by positivity
    linarith
  have h2 : 1 ≤ Real.exp (2 * (3 * δ + 9 * u * (n + 1 + X)) + 2 * u * Z) := Real.one_le_exp (by positivity)
  linarith [one_le_mul_of_one_le_of_one_le h1 h2]

theorem mieErr_mono {u δ Λ X Z : ℝ} (hu : 0 ≤ u) (hδ : 0 ≤ δ) (hΛ : 0 ≤ Λ) {n n' : ℕ} (h : n ≤ n') : mieErr u δ Λ X Z n ≤ mieErr u δ Λ X Z n' := by
  unfold mieErr
  have : (n : ℝ) ≤ n' := by exact_mod_cast h
  gcongr

/-- The elements for exact translation coefficients. -/
theorem elems_exact {lmax lssmax m : ℕ} {nL : ℝ} {bes : List ℝ} {V : Fin (lmax + 1 - transLmin m) → Fin (lssmax + 1 - transLmin m) → VCoef}
    (hV : transAb lmax lssmax m true nL bes = .ok V) (a b : MieCoef) : roundTripElements lmax lssmax m true nL bes a b = .ok (elemsOf lmax lssmax m a b V) := by
  unfold roundTripElements
  rw [hV, ok_bind]
  rfl

theorem res_bind_ok {α β : Type} {x : Res α} {f : α → Res β} {b : β} (h : (x >>= f) = .ok b) : ∃ a, x = .ok a ∧ f a = .ok b := by
  cases x with
  | error e => cases h
  | ok a => exact ⟨a, rfl, h⟩

theorem PairOK.wave {P : PairIn} (h : PairOK P) {k : ℝ} (hk : 0 < k) : ∃ w, waveIn exactBes P k = .ok w := by
  obtain ⟨a, b, S⟩ := h.pair hk
  obtain ⟨t1, f1, -⟩ := mieTable_ok S.ha P.lmax
  obtain ⟨t2, f2, -⟩ := mieTable_ok S.hb P.lssmax
  unfold waveIn
  rw [f1, ok_bind, f2, ok_bind, medium_eps S.hmed, ok_bind, trans_row_ext, ok_bind]
  exact ⟨_, rfl⟩

theorem waveIn_tables {T : BesTable} {P : PairIn} {k : ℝ} {w : WaveIn} (hw : waveIn T P k = .ok w) :
    mieTable T P.mat1 P.mat3 P.lmax k P.r1 = .ok w.a ∧ mieTable T P.mat2 P.mat3 P.lssmax k P.r2 = .ok w.b := by
  unfold waveIn at hw
  obtain ⟨a, ha, hw⟩ := res_bind_ok hw
  obtain ⟨b, hb, hw⟩ := res_bind_ok hw
  obtain ⟨e, he, hw⟩ := res_bind_ok hw
  obtain ⟨r, hr, hw⟩ := res_bind_ok hw
  injection hw with hw
  subst hw
  exact ⟨ha, hb⟩

/-- `ln det(1 - M)` of one `m` from the matrix. -/
theorem lnDetV_blocks {P : PairIn} (h : PairOK P) {k : ℝ} (hk : 0 < k) {w : WaveIn} (hw : waveIn exactBes P k = .ok w) {m : ℕ} (hm : m ≤ P.lmax)
    {B : Blocks (P.lmax + 1 - transLmin m)} (hB : blockmatricesAt P.lmax P.lssmax m true w.nL w.bes w.a w.b = .ok B) :
    lnDetV P m k = Real.log (1 - B.full).det := by
  have hm1 : max 1 m ≤ P.lmax := by have := h.hl; omega
  obtain ⟨a, b, S⟩ := h.pair hk
  obtain ⟨t1, f1, g1⟩ := mieTable_ok S.ha P.lmax
  obtain ⟨t2, f2, g2⟩ := mieTable_ok S.hb P.lssmax
  have hwe : w = ⟨k * P.L * Real.sqrt (P.mat3.epsV k), (List.range (P.lmax + P.lssmax + 1 + 1)).map (lnk1 (k * P.L * Real.sqrt (P.mat3.epsV k))), t1, t2⟩ := by
    unfold waveIn at hw
    rw [f1, ok_bind, f2, ok_bind, medium_eps S.hmed, ok_bind, trans_row_ext, ok_bind] at hw
    injection hw with hw
    exact hw.symm
  subst hwe
  simp only at hB
  rw [blockmatricesAt_congr g1 g2] at hB
  have hB' : BlocksAt P.mat3 P.L k P.lmax P.lssmax m a b B := ⟨_, _, medium_eps S.hmed, trans_row_ext _ _, hB⟩
  obtain ⟨σa, ea⟩ := dense_total h.m1 h.m3 hk
  obtain ⟨σb, eb⟩ := dense_total h.m2 h.m3 hk
  obtain ⟨A1, hA1⟩ := amp_exists h.m1 h.m3 hk h.h1 ea
  obtain ⟨B1, hB1⟩ := amp_exists h.m2 h.m3 hk h.h2 eb
  obtain ⟨-, hV1⟩ := lnDetV_kern h hm1 hk hA1 hB1
  rw [hV1, (det_reindex ((S.array_of m (hA1.reflects S.hmed S.ha) (hB1.reflects S.hmed S.hb)).2.2 hB')).1]

/-- Two homogeneous spheres: given Mie coefficients (errors relative to perfect conductors) and translation coefficients.  The coefficients never exceed those of
perfect conductors. -/
theorem PairOK.coefs {P : PairIn} (h : PairOK P) {k : ℝ} (hk : 0 < k) {F : FlFun} {u : ℝ} (hF : RelErr F u) {sum : (p : ℕ) → (Fin p → ℝ) → ℝ}
    (hS : Sums F sum) {δ ε Z : ℝ} (hδ : 0 ≤ δ) (hε : 0 ≤ ε) {w w0 : WaveIn} (hw : waveIn exactBes P k = .ok w) (hw0 : waveIn exactBes P.metal k = .ok w0) :
    (∀ l, 1 ≤ l → l ≤ P.lmax → |teOf w.a l| ≤ |teOf w0.a l| ∧ |tmOf w.a l| ≤ |tmOf w0.a l|) ∧
    (∀ l, 1 ≤ l → l ≤ P.lssmax → |teOf w.b l| ≤ |teOf w0.b l| ∧ |tmOf w.b l| ≤ |tmOf w0.b l|) ∧
    ∀ {m : ℕ}, m ≤ P.lmax → ∀ {V V' : Fin (P.lmax + 1 - transLmin m) → Fin (P.lssmax + 1 - transLmin m) → VCoef},
    transAb P.lmax P.lssmax m true w.nL w.bes = .ok V → TransErr ε V' V → ∀ {c1 c2 : MieCoef}, CoefErr P.lmax δ c1 w.a w0.a → CoefErr P.lssmax δ c2 w.b w0.b →
    (∀ l, 1 ≤ l → l ≤ P.lmax → |c1.ln l| ≤ Z) → (∀ l, 1 ≤ l → l ≤ P.lssmax → |c2.ln l| ≤ Z) → (∀ i s, |(V' i s).sk| ≤ Z) →
    (1 + asmErr u Z δ ε (P.lssmax + 1 - transLmin m)) * shrink P.r1 P.r2 P.L < 1 →
    ∃ B', F.blockmatrices sum (elemsOf P.lmax P.lssmax m c1 c2 V') = .ok B' ∧ 0 < (1 - B'.full).det ∧
      |Real.log (1 - B'.full).det - lnDetV P m k| ≤
        gain (asmErr u Z δ ε (P.lssmax + 1 - transLmin m)) (shrink P.r1 P.r2 P.L) * -lnDetV P.metal m k := by
  obtain ⟨a, b, S⟩ := h.pair hk
  obtain ⟨a0, b0, S0⟩ := h.metal.pair hk
  obtain ⟨t1, f1, g1⟩ := mieTable_ok S.ha P.lmax
  obtain ⟨t2, f2, g2⟩ := mieTable_ok S.hb P.lssmax
  obtain ⟨s1, f3, g3⟩ := mieTable_ok S0.ha P.lmax
  obtain ⟨s2, f4, g4⟩ := mieTable_ok S0.hb P.lssmax
  have G : GapPair P.mat3 P.r1 P.r2 P.L k ⟨P.mat3.epsV k, 1⟩ := S.gap
  have hwe : w = ⟨k * P.L * Real.sqrt (P.mat3.epsV k), (List.range (P.lmax + P.lssmax + 1 + 1)).map (lnk1 (k * P.L * Real.sqrt (P.mat3.epsV k))), t1, t2⟩ := by
    unfold waveIn at hw
    rw [f1, ok_bind, f2, ok_bind, medium_eps S.hmed, ok_bind, trans_row_ext, ok_bind] at hw
    injection hw with hw
    exact hw.symm
  have hwe0 : w0 = ⟨k * P.L * Real.sqrt (P.mat3.epsV k), (List.range (P.lmax + P.lssmax + 1 + 1)).map (lnk1 (k * P.L * Real.sqrt (P.mat3.epsV k))), s1, s2⟩ := by
    have e3 : P.metal.mat3.epsilon k = .ok (P.mat3.epsV k) := medium_eps S.hmed
    unfold waveIn at hw0
    rw [show mieTable exactBes P.metal.mat1 P.metal.mat3 P.metal.lmax k P.metal.r1 = .ok s1 from f3, ok_bind,
      show mieTable exactBes P.metal.mat2 P.metal.mat3 P.metal.lssmax k P.metal.r2 = .ok s2 from f4, ok_bind, e3, ok_bind, trans_row_ext, ok_bind] at hw0
    injection hw0 with hw0
    exact hw0.symm
  have p1 := amp_pec rfl pec_sphere h.m3 hk h.h1
  have p2 := amp_pec rfl pec_sphere h.m3 hk h.h2
  have en : ∀ R : ℝ, k * R * (⟨P.mat3.epsV k, 1⟩ : Medium).n = k * Real.sqrt (P.mat3.epsV k) * R := fun R => by
    unfold Medium.n; simp only [mul_one]; ring
  have ra := (p1.reflects S0.hmed S0.ha).scatters
  have rb := (p2.reflects S0.hmed S0.hb).scatters
  have scat : ∀ {mat : Material} {r : ℝ} {c : MieCoef}, SphereMat mat → 0 < r → (∀ l, 1 ≤ l → mie exactBes exactBes mat P.mat3 l k r = .ok ⟨c.TE l, c.TM l, c.ln l⟩) →
      ∃ α : Bool → ℕ → ℝ, (∀ Q i, |α Q i| ≤ 1) ∧ Scatters c α (k * r * (⟨P.mat3.epsV k, 1⟩ : Medium).n) fun Q i => pecR Q i (k * Real.sqrt (P.mat3.epsV k) * r) := by
    intro mat r c hmat hr hc
    obtain ⟨c', ht, ⟨α, hα, sc⟩, -, -⟩ := BallOK.scatters (H := fun i => if i = 0 then mat else P.mat3) (md := 1) (B := .solid 0 r) (R := r)
      ⟨rfl, hr, hmat.phys, hmat.mag⟩ h.m3 hk
    refine ⟨α, hα, fun i => ?_⟩
    obtain ⟨q1, q2, q3⟩ := sc i
    obtain ⟨t, e1, e2⟩ := ht (i + 1)
    obtain ⟨t', e3, e4⟩ := mieTable_ok hc (i + 1)
    have : ballTable exactBes (fun i => if i = 0 then mat else P.mat3) 1 (i + 1) k (.solid 0 r) = mieTable exactBes mat P.mat3 (i + 1) k r := rfl
    rw [this, e3] at e1
    injection e1 with e1
    subst e1
    obtain ⟨w1, w2, w3⟩ := e2 (i + 1) (by omega) le_rfl
    obtain ⟨v1, v2, v3⟩ := e4 (i + 1) (by omega) le_rfl
    rw [← w1, ← w3, v1, v3] at q2
    rw [← w2, ← w3, v2, v3] at q3
    simp only [one_ne_zero, if_false, en] at q1 q2 q3
    rw [en]
    exact ⟨q1, q2, q3⟩
  obtain ⟨α, hα, sa⟩ := scat h.m1 h.h1 S.ha
  obtain ⟨β, hβ, sb⟩ := scat h.m2 h.h2 S.hb
  have h0a := ra.abs_table (fun _ _ => by norm_num) g3
  have h0b := rb.abs_table (fun _ _ => by norm_num) g4
  have le : ∀ {c t t0 : MieCoef} {α B : Bool → ℕ → ℝ} {ρ : ℝ} {n : ℕ}, Scatters c α ρ B → (∀ Q i, |α Q i| ≤ 1) → AgreeTo n t c →
      (∀ i, i + 1 ≤ n → |teOf t0 (i + 1)| = B false i ∧ |tmOf t0 (i + 1)| = B true i) → ∀ l, 1 ≤ l → l ≤ n → |teOf t l| ≤ |teOf t0 l| ∧ |tmOf t l| ≤ |tmOf t0 l| := by
    intro c t t0 α B ρ n hsc ha hag h0 l hl hln
    obtain ⟨i, rfl⟩ := Nat.exists_eq_add_of_le' hl
    obtain ⟨x1, x2⟩ := teOf_congr hag hl hln
    rw [x1, x2, (h0 i hln).1, (h0 i hln).2]
    exact hsc.abs_le ha i
  have hw' := hw
  subst hwe
  subst hwe0
  refine ⟨le sa hα g1 h0a, le sb hβ g2 h0b, ?_⟩
  intro m hm V V' hV hVe c1 c2 ca cb z1 z2 z3 hs
  have hm1 : max 1 m ≤ P.lmax := by have := h.hl; omega
  have hlm : transLmin (m : ℤ) = max 1 m := by unfold transLmin; omega
  have hz : 0 ≤ Z := (abs_nonneg _).trans (z1 1 le_rfl h.hl)
  have hi : ∀ i : Fin (P.lmax + 1 - transLmin (m : ℤ)), 1 ≤ transLmin (m : ℤ) + i.1 ∧ transLmin (m : ℤ) + i.1 ≤ P.lmax := fun i => by have := i.2; omega
  have hj : ∀ i : Fin (P.lssmax + 1 - transLmin (m : ℤ)), 1 ≤ transLmin (m : ℤ) + i.1 ∧ transLmin (m : ℤ) + i.1 ≤ P.lssmax := fun i => by have := i.2; omega
  have hE : ElemErr δ ε (elemsOf P.lmax P.lssmax m c1 c2 V') (elemsOf P.lmax P.lssmax m t1 t2 V) (elemsOf P.lmax P.lssmax m s1 s2 V) :=
    ⟨fun i => (ca _ (hi i).1 (hi i).2).1, fun i => (ca _ (hi i).1 (hi i).2).2,
      fun i => (cb _ (hj i).1 (hj i).2).1, fun i => (cb _ (hj i).1 (hj i).2).2,
      fun i s => (hVe i s).1, fun i s => (hVe i s).2.1, fun i s => (hVe i s).2.2.1, fun i s => (hVe i s).2.2.2⟩
  have hLog : LogSize Z (elemsOf P.lmax P.lssmax m c1 c2 V') :=
    ⟨fun i => z1 _ (hi i).1 (hi i).2, fun i => z2 _ (hj i).1 (hj i).2, z3⟩
  simp only at hV
  obtain ⟨B, B', q1, q2, q3, q4, q5⟩ := G.assembly (lmax := P.lmax) (lssmax := P.lssmax) (w := ⟨_, _, t1, t2⟩) (w0 := ⟨0, [], s1, s2⟩) hF hS hδ hε sa sb hα hβ rfl (trans_row_ext _ _)
    g1 g2 h0a h0b hm1 (hm1.trans h.hls) (elems_exact hV t1 t2) (elems_exact hV s1 s2) hE hLog (by simpa using hs)
  refine ⟨B', q2, q3, ?_⟩
  obtain ⟨hH, hV0⟩ := lnDetV_kern h.metal (m := m) hm1 hk p1 p2
  rw [lnDetV_blocks h hk hw' hm q1]
  rw [Real.sqrt_one, mul_one, mul_one] at q5
  refine q5.trans (mul_le_mul_of_nonneg_left ?_ (gain_nonneg (asmErr_nonneg hF.u0 hz hδ hε _) hs))
  have t := (hH.trace_le_log (2 * (P.lmax + 1 - transLmin m)) (2 * (P.lssmax + 1 - transLmin m))).1
  rw [hV0, one_mul]
  exact t

/-- Two homogeneous spheres: computed Mie coefficients, given translation coefficients. -/
theorem PairOK.rounded {P : PairIn} (h : PairOK P) {k : ℝ} (hk : 0 < k) {A : FlMie} {u : ℝ} (hA : RelErrM A u) {sum : (p : ℕ) → (Fin p → ℝ) → ℝ}
    (hS : Sums A.toFlFun sum) {T : BesTable} {δ Λ X ε Z : ℝ} (hη : 5 * δ + 3 * u * Λ + 15 * u ≤ 1 / 100) (hε : 0 ≤ ε)
    (h1 : BesselErr A T P.mat1 P.mat3 P.lmax k P.r1 δ Λ X) (h2 : BesselErr A T P.mat2 P.mat3 P.lssmax k P.r2 δ Λ X)
    {w : WaveIn} (hw : waveIn exactBes P k = .ok w) {m : ℕ} (hm : m ≤ P.lmax) {V V' : Fin (P.lmax + 1 - transLmin m) → Fin (P.lssmax + 1 - transLmin m) → VCoef}
    (hV : transAb P.lmax P.lssmax m true w.nL w.bes = .ok V) (hVe : TransErr ε V' V) {c1 c2 : MieCoef} (hc1 : A.mieTable T P.mat1 P.mat3 P.lmax k P.r1 = .ok c1)
    (hc2 : A.mieTable T P.mat2 P.mat3 P.lssmax k P.r2 = .ok c2) (z1 : ∀ l, 1 ≤ l → l ≤ P.lmax → |c1.ln l| ≤ Z) (z2 : ∀ l, 1 ≤ l → l ≤ P.lssmax → |c2.ln l| ≤ Z)
    (z3 : ∀ i s, |(V' i s).sk| ≤ Z)
    (hs : (1 + asmErr u Z (mieErr u δ Λ X Z P.lssmax) ε (P.lssmax + 1 - transLmin m)) * shrink P.r1 P.r2 P.L < 1) :
    ∃ B', A.blocksAt sum T P k m V' = .ok B' ∧ 0 < (1 - B'.full).det ∧
      |Real.log (1 - B'.full).det - lnDetV P m k| ≤
        gain (asmErr u Z (mieErr u δ Λ X Z P.lssmax) ε (P.lssmax + 1 - transLmin m)) (shrink P.r1 P.r2 P.L) * -lnDetV P.metal m k := by
  obtain ⟨hδ, hΛ, hX⟩ := besselErr_nonneg h.m3 hA hk h.h1 h1 (l := 1) le_rfl h.hl h.m1
  have hz : 0 ≤ Z := (abs_nonneg _).trans (z1 1 le_rfl h.hl)
  have hD := mieErr_nonneg hA.u0 hδ hΛ hX hz P.lssmax
  obtain ⟨w0, hw0⟩ := h.metal.wave hk
  obtain ⟨l1, l2, key⟩ := h.coefs hk hA.toRelErr hS hD hε hw hw0 (Z := Z)
  obtain ⟨f1, f2⟩ := waveIn_tables hw
  obtain ⟨f3, f4⟩ := waveIn_tables hw0
  have ca := mieTable_near hA h.m1 h.m3 hk h.h1 h1 hη hc1 f1 f3 z1 l1
  have cb := mieTable_near hA h.m2 h.m3 hk h.h2 h2 hη hc2 f2 f4 z2 l2
  have mono := mieErr_mono (X := X) (Z := Z) hA.u0 hδ hΛ h.hls
  obtain ⟨B', q1, q2, q3⟩ := key hm hV hVe (fun l hl hl' => ⟨(ca l hl hl').1.trans (mul_le_mul_of_nonneg_right mono (abs_nonneg _)),
    (ca l hl hl').2.trans (mul_le_mul_of_nonneg_right mono (abs_nonneg _))⟩) cb z1 z2 z3 hs
  refine ⟨B', ?_, q2, q3⟩
  unfold FlMie.blocksAt
  rw [hc1, ok_bind, hc2, ok_bind]
  exact q1

/-! ## Double precision -/

theorem near_range {x y u : ℝ} (hu : 4 * u ≤ 1 / 20) (h : Near (4 * u) x y) (hx : x ≤ 10) : y ≤ 11 := by
  have e := h.abs_sub hu
  have := h.b0
  have e2 := (_root_.abs_le.mp e).1
  nlinarith

theorem Spec.FromCode.besselErr {A : FlMie} (hA : RelErrM A (2 ^ (-52 : ℤ))) {T : BesTable} {mat md : Material} (hm : SphereMat mat) (hb : MediumMat md) {n : ℕ} {k r : ℝ}
    (hk : 0 < k) (hr : 0 < r) (h1 : 1 ≤ n) (hn : n ≤ 100) (h : FromCode A T mat md n k r) : BesselErr A T mat md n k r 1e-9 9 11 := by
  have hu : 4 * (2 : ℝ) ^ (-52 : ℤ) ≤ 1 / 20 := by norm_num
  obtain ⟨b, hmed, hpos⟩ := medium_pos hb.cls hb.phys hk
  refine ⟨fun hp b' hb' l hl hln => tableErr_double hA.toRelErr hl (h.pec hp b' hb' l hl hln), fun hp a b' ha hb' l hl hln => ?_, fun b' hb' => ?_⟩
  · obtain ⟨t1, t2⟩ := h.diel hp a b' ha hb' l hl hln
    obtain ⟨a', ha', hap⟩ := medium_pos hp hm.phys hk
    rw [ha] at ha'
    injection ha' with ha'
    subst ha'
    exact ⟨tableErr_double hA.toRelErr hl t1, tableErr_double hA.toRelErr hl t2, log_near_ten (hln.trans hn) hu (hA.arg_near hk hr hap) t1.range.1⟩
  · rw [hmed] at hb'
    injection hb' with hb'
    subst hb'
    by_cases hp : mat.cls = .pec
    · have nr := hA.argPEC_near hk hr hpos
      exact ⟨near_range hu nr (h.pec hp b hmed 1 le_rfl h1).range.2, fun l hl hln => log_near_ten (hln.trans hn) hu nr (h.pec hp b hmed l hl hln).range.1⟩
    · have nr := hA.arg_near hk hr hpos
      obtain ⟨a, ha, -⟩ := medium_pos hp hm.phys hk
      exact ⟨near_range hu nr (h.diel hp a b ha hmed 1 le_rfl h1).2.range.2, fun l hl hln => log_near_ten (hln.trans hn) hu nr (h.diel hp a b ha hmed l hl hln).2.range.1⟩

theorem log_sphK_ten {x : ℝ} (h1 : 0.1 ≤ x) (h2 : x ≤ 10) {l : ℕ} (hl : l ≤ 101) : |Real.log (sphK l x)| ≤ 828 := by
  have hx : 0 < x := lt_of_lt_of_le (by norm_num) h1
  have hl' : (l : ℝ) ≤ 101 := by exact_mod_cast hl
  have hl0 : (0 : ℝ) ≤ l := Nat.cast_nonneg l
  have a := lnk1_abs_le hx l
  rw [lnk1_eq hx] at a
  have t := log_ten_term h1 hl0 hl'
  have tn : 0 ≤ Real.log (1 + 2 * l / x) :=
    Real.log_nonneg (by have : 0 ≤ 2 * (l : ℝ) / x := by positivity
                        linarith)
  have t2 : l * Real.log (1 + 2 * l / x) ≤ 101 * 8 := mul_le_mul hl' t tn (by norm_num)
  have hL := log_ten h1 h2
  unfold bSize at a
  linarith

theorem log_sphI_ten {x : ℝ} (h1 : 0.1 ≤ x) (h2 : x ≤ 10) {l : ℕ} (hl : l ≤ 100) : |Real.log (sphI l x)| ≤ 840 := by
  have hx : 0 < x := lt_of_lt_of_le (by norm_num) h1
  have w := wronskian l hx.ne'
  have i0 := sphI_pos l hx
  have i1 := sphI_pos (l + 1) hx
  have k0 := sphK_pos l hx
  have k1 := sphK_pos (l + 1) hx
  have lk := log_sphK_ten h1 h2 (l := l + 1) (by omega)
  have lx := log_ten h1 h2
  have hpi := Real.pi_gt_three
  have hpi4 := Real.pi_le_four
  have c0 : 0 < Real.pi / (2 * x ^ 2) := by positivity
  have up : sphI l x * sphK (l + 1) x ≤ Real.pi / (2 * x ^ 2) := by nlinarith [mul_pos i1 k0]
  have lo : Real.pi / (2 * x ^ 2) ≤ 2 * (sphI l x * sphK (l + 1) x) := by
    have := mul_le_mul (sphI_succ_lt l hx).le (sphK_lt_succ l hx).le k0.le i0.le
    linarith
  have e1 : Real.log (sphI l x * sphK (l + 1) x) = Real.log (sphI l x) + Real.log (sphK (l + 1) x) := Real.log_mul i0.ne' k1.ne'
  have e2 : Real.log (Real.pi / (2 * x ^ 2)) = Real.log (Real.pi / 2) - 2 * Real.log x := by
    rw [show Real.pi / (2 * x ^ 2) = Real.pi / 2 / x ^ 2 by field_simp, Real.log_div (by positivity) (by positivity), Real.log_pow]
    push_cast; ring
  have e3 : Real.log (2 * (sphI l x * sphK (l + 1) x)) = Real.log 2 + Real.log (sphI l x * sphK (l + 1) x) :=
    Real.log_mul (by norm_num) (mul_pos i0 k1).ne'
  have u1 := Real.log_le_log (mul_pos i0 k1) up
  have u2 := Real.log_le_log c0 lo
  have u3 : Real.log (Real.pi / 2) ≤ Real.log 2 := Real.log_le_log (by positivity) (by linarith)
  have u4 : 0 ≤ Real.log (Real.pi / 2) := Real.log_nonneg (by linarith)
  have u5 := Real.log_two_lt_d9
  rw [abs_le] at lk lx ⊢
  constructor <;> linarith [lk.1, lk.2, lx.1, lx.2]

theorem FlMie.mie_ln {A : FlMie} {T : BesTable} {l : ℕ} {k r : ℝ} {a b : Medium} {c : Mie} (h : A.mie T l k r a b = .ok c) :
    c.ln = A.sub (T l (A.arg k r b)).i1 (T l (A.arg k r b)).k1 := by
  unfold FlMie.mie at h
  simp only at h
  cases h1 : A.quot (A.sub (A.mul b.mu (A.idF l (A.arg k r a) (T l (A.arg k r a)))) (A.mul a.mu (A.idF l (A.arg k r b) (T l (A.arg k r b)))))
    (A.sub (A.mul b.mu (A.idF l (A.arg k r a) (T l (A.arg k r a)))) (A.mul a.mu (A.kdF l (A.arg k r b) (T l (A.arg k r b))))) with
  | error e => rw [h1] at h; cases h
  | ok te =>
    rw [h1, ok_bind] at h
    cases h2 : A.quot (A.sub (A.mul b.eps (A.idF l (A.arg k r a) (T l (A.arg k r a)))) (A.mul a.eps (A.idF l (A.arg k r b) (T l (A.arg k r b)))))
      (A.sub (A.mul b.eps (A.idF l (A.arg k r a) (T l (A.arg k r a)))) (A.mul a.eps (A.kdF l (A.arg k r b) (T l (A.arg k r b))))) with
    | error e => rw [h2] at h; cases h
    | ok tm =>
      rw [h2, ok_bind] at h
      injection h with h
      rw [← h]

theorem FlMie.miePEC_ln {A : FlMie} {T : BesTable} {l : ℕ} {k r : ℝ} {b : Medium} {c : Mie} (h : A.miePEC T l k r b = .ok c) :
    c.ln = A.sub (T l (A.argPEC k r b)).i1 (T l (A.argPEC k r b)).k1 := by
  unfold FlMie.miePEC at h
  simp only at h
  cases h1 : A.quot (A.mul (A.prefak l) (A.idF l (A.argPEC k r b) (T l (A.argPEC k r b)))) (A.kdF l (A.argPEC k r b) (T l (A.argPEC k r b))) with
  | error e => rw [h1] at h; cases h
  | ok te =>
    rw [h1, ok_bind] at h
    injection h with h
    rw [← h]

/-- The scaling factors of the computed coefficients. -/
theorem Spec.FromCode.ln_le {A : FlMie} (hA : RelErrM A (2 ^ (-52 : ℤ))) {T : BesTable} {mat md : Material} (hm : SphereMat mat) (hb : MediumMat md) {n : ℕ} {k r : ℝ}
    (hk : 0 < k) (hr : 0 < r) (h1 : 1 ≤ n) (hn : n ≤ 100) (h : FromCode A T mat md n k r) {c : MieCoef} (hc : A.mieTable T mat md n k r = .ok c) {l : ℕ} (hl : 1 ≤ l)
    (hln : l ≤ n) : |c.ln l| ≤ 2000 := by
  have hB := h.besselErr hA hm hb hk hr h1 hn
  have u52 : (2 : ℝ) ^ (-52 : ℤ) = 1 / 4503599627370496 := by norm_num
  choose C E E0 q using fun i : Fin n => mieOf_near hA hm hb hk hr hB (by rw [u52]; norm_num) (l := i.1 + 1) (by omega) (by have := i.2; omega)
  unfold FlMie.mieTable at hc
  rw [finM_ok fun i => (q i).1, ok_bind] at hc
  injection hc with hc
  subst hc
  have hlt : l - 1 < n := by omega
  have hC := (q ⟨l - 1, hlt⟩).1
  simp only [Nat.sub_add_cancel hl] at hC
  simp only [tableOf, dif_pos hlt]
  have key : ∀ x, FromLniknu A.toFlFun T l x → |A.sub (T l x).i1 (T l x).k1| ≤ 2000 := by
    intro x hx
    obtain ⟨x1, x2⟩ := hx.range
    have te := tableErr_double hA.toRelErr hl hx
    have a1 := log_sphI_ten x1 x2 (hln.trans hn)
    have a2 := log_sphK_ten x1 x2 (l := l) (by omega)
    have b1 := te.i1
    have b2 := te.k1
    have s : |(T l x).i1 - (T l x).k1| ≤ 1670 := by
      rw [abs_le] at a1 a2 b1 b2 ⊢
      constructor <;> norm_num at * <;> linarith [a1.1, a1.2, a2.1, a2.2, b1.1, b1.2, b2.1, b2.2]
    have e := hA.sub (T l x).i1 (T l x).k1
    have f := abs_sub_abs_le_abs_sub (A.sub (T l x).i1 (T l x).k1) ((T l x).i1 - (T l x).k1)
    rw [u52] at e
    linarith
  obtain ⟨b, hmed, hpos⟩ := medium_pos hb.cls hb.phys hk
  by_cases hp : mat.cls = .pec
  · unfold FlMie.mieOf at hC
    rw [hp] at hC
    simp only at hC
    rw [hmed, ok_bind] at hC
    rw [FlMie.miePEC_ln hC]
    exact key _ (h.pec hp b hmed l hl hln)
  · obtain ⟨a, ha, -⟩ := medium_pos hp hm.phys hk
    have hC' : A.mie T l k r a b = .ok (C ⟨l - 1, hlt⟩) := by
      unfold FlMie.mieOf at hC
      split at hC
      · next hc => exact absurd hc hp
      · rw [ha, ok_bind, hmed, ok_bind] at hC; exact hC
    rw [FlMie.mie_ln hC']
    exact key _ (h.diel hp a b ha hmed l hl hln).2

theorem exp_small {t s : ℝ} (ht : t ≤ s) (hs : s < 1) : Real.exp t ≤ 1 / (1 - s) := by
  have a := Real.add_one_le_exp (-s)
  have b : Real.exp (-s) * Real.exp s = 1 := by rw [← Real.exp_add]; simp
  have c := Real.exp_pos s
  refine (Real.exp_le_exp.mpr ht).trans ?_
  rw [le_div_iff₀ (by linarith)]
  nlinarith

theorem mieErr_double {n : ℕ} (hn : n ≤ 100) : mieErr (2 ^ (-52 : ℤ)) 1e-9 9 11 1e4 n ≤ 6e-8 := by
  have u52 : (2 : ℝ) ^ (-52 : ℤ) = 1 / 4503599627370496 := by norm_num
  have hn' : (n : ℝ) ≤ 100 := by exact_mod_cast hn
  unfold mieErr
  rw [u52]
  have e : Real.exp (2 * (3 * 1e-9 + 9 * (1 / 4503599627370496) * (n + 1 + 11)) + 2 * (1 / 4503599627370496) * 1e4) ≤ 1 / (1 - 7e-9) := by
    refine exp_small ?_ (by norm_num)
    norm_num
    linarith
  have m := mul_le_mul_of_nonneg_left e (show (0 : ℝ) ≤ 1 + 10 * (5 * 1e-9 + 3 * (1 / 4503599627370496) * 9 + 15 * (1 / 4503599627370496)) by norm_num)
  have : (1 + 10 * (5 * 1e-9 + 3 * (1 / 4503599627370496) * 9 + 15 * (1 / 4503599627370496))) * (1 / (1 - 7e-9)) - 1 ≤ (6e-8 : ℝ) := by norm_num
  linarith

theorem asmErr_double {δ ε : ℝ} (hδ0 : 0 ≤ δ) (hδ : δ ≤ 6e-8) (hε0 : 0 ≤ ε) (hε : ε ≤ 1e-7) {p : ℕ} (hp : p ≤ 100) :
    asmErr (2 ^ (-52 : ℤ)) 1e4 δ ε p ≤ 3.3e-7 := by
  have u52 : (2 : ℝ) ^ (-52 : ℤ) = 1 / 4503599627370496 := by norm_num
  have hp' : (p : ℝ) ≤ 100 := by exact_mod_cast hp
  unfold asmErr
  rw [u52]
  have e1 : (1 + 1 / 4503599627370496 : ℝ) ^ (p + 7) ≤ Real.exp (107 * (1 / 4503599627370496)) := by
    have a := Real.add_one_le_exp (1 / 4503599627370496 : ℝ)
    have b := pow_le_pow_left₀ (by norm_num) a (p + 7)
    rw [← Real.exp_nat_mul] at b
    rw [add_comm]
    refine b.trans (Real.exp_le_exp.mpr ?_)
    push_cast
    linarith
  have e2 : Real.exp (40 * (1 / 4503599627370496) * 1e4) * (1 + 1 / 4503599627370496 : ℝ) ^ (p + 7) ≤ 1 / (1 - 1e-10) := by
    refine (mul_le_mul_of_nonneg_left e1 (Real.exp_pos _).le).trans ?_
    rw [← Real.exp_add]
    exact exp_small (by norm_num) (by norm_num)
  have e3 : (1 + δ) ^ 2 * (1 + ε) ^ 2 ≤ (1 + 6e-8) ^ 2 * (1 + 1e-7) ^ 2 := by gcongr
  have e4 := mul_le_mul e3 e2 (by positivity) (by norm_num)
  rw [← mul_assoc] at e4
  have : ((1 + 6e-8) ^ 2 * (1 + 1e-7) ^ 2 * (1 / (1 - 1e-10)) - 1 : ℝ) ≤ 3.3e-7 := by norm_num
  linarith

theorem gain_double {κ θ : ℝ} (h0 : 0 ≤ κ) (hκ : κ ≤ 3.3e-7) (h1 : 0 ≤ θ) (hθ : θ ≤ 0.9) : (1 + κ) * θ < 1 ∧ gain κ θ ≤ 4e-6 := by
  have a : (1 + κ) * θ ≤ (1 + 3.3e-7) * 0.9 := by gcongr
  refine ⟨a.trans_lt (by norm_num), ?_⟩
  unfold gain
  have b : 1 - (1 + 3.3e-7) * 0.9 ≤ 1 - (1 + κ) * θ := by linarith
  rw [div_le_iff₀ (lt_of_lt_of_le (by norm_num) b)]
  norm_num at *
  linarith

end CasSph
