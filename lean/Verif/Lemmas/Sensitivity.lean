import Verif.Spec.DataErr
import Verif.Lemmas.LapGrowth
import Verif.Lemmas.FloatPair

/-! # Small changes of the parameters of a pair of spheres -/

namespace CasSph

open Spec

/-- Exact operations. -/
noncomputable def exactFl : FlFun := ⟨Real.pi, (· + ·), (· - ·), (· * ·), (· / ·), 1 / 10, (· ^ ·), Real.log, Real.exp⟩

theorem exactFl_err : RelErr exactFl 0 := by
  refine ⟨le_rfl, by norm_num, ?_, ?_, ?_, ?_, ?_, ?_, ?_, ?_, ?_⟩ <;> intros <;> simp [exactFl]

theorem exactFl_sums : Sums exactFl fun _ f => ∑ i, f i := by
  have : ∀ l : List ℝ, SumOf exactFl l l.sum := by
    intro l
    induction l with
    | nil => exact .nil
    | cons x l ih =>
      by_cases hl : l = []
      · subst hl; simpa using SumOf.one (A := exactFl) x
      · have := SumOf.add (SumOf.one x) ih (by simp) hl
        simpa [exactFl] using this
  intro p f
  have h := this (List.ofFn f)
  rwa [List.sum_ofFn] at h

theorem exactFl_blocks {n p : ℕ} (e : RTElems n p) : exactFl.blockmatrices (fun _ f => ∑ i, f i) e = blockmatrices e := by
  have h0 : ∀ {n : ℕ} (X : Fin n → Fin n → Fin p → ℝ), exactFl.singleKScale X = singleKScale X := by
    intro n X
    match n, X with
    | 0, _ => rfl
    | 1, _ => rfl
    | n + 2, X =>
      have e1 : exactFl.singleKScale X = (exactFl.scaleSlope X >>= fun a => .ok fun l1 l2 s =>
        exactFl.add (if a.2 then -exactFl.mul a.1 ((l1.1 + 1 : ℝ) - (l2.1 + 1)) else exactFl.mul a.1 ((l1.1 + 1 : ℝ) - (l2.1 + 1))) (X l1 l2 s)) := rfl
      have e2 : singleKScale X = (scaleSlope X >>= fun a => .ok fun l1 l2 s => a * ((l1.1 + 1 : ℝ) - (l2.1 + 1)) + X l1 l2 s) := rfl
      rw [e1, e2]
      unfold FlFun.scaleSlope scaleSlope
      cases npArgmax (X 0 (Fin.last (n + 1))) with
      | none => rfl
      | some o =>
        simp only
        rw [ok_bind, ok_bind]
        congr 1
        funext i j s
        simp only [exactFl]
        by_cases hc : X (Fin.last (n + 1)) 0 o > X 0 (Fin.last (n + 1)) o
        · simp only [hc, decide_true, if_true]; ring
        · simp only [hc, decide_false, if_false]; simp
  have h1 : ∀ X : Fin n → Fin n → Fin p → ℝ, exactFl.dynamicScaling X = dynamicScaling X := by
    intro X
    unfold FlFun.dynamicScaling dynamicScaling
    rw [h0]
    rfl
  unfold FlFun.blockmatrices blockmatrices
  have h2 : exactFl.logSkal e = e.logSkal := by
    funext i j s
    simp [FlFun.logSkal, RTElems.logSkal, exactFl]
  rw [h1, h2]
  cases dynamicScaling e.logSkal with
  | error er => rfl
  | ok S =>
    rw [ok_bind, ok_bind]
    congr 1
    congr 1 <;> funext i j <;> refine Finset.sum_congr rfl fun s _ => ?_ <;>
      simp only [FlFun.term, exactFl, RTElems.cEE, RTElems.cEM, RTElems.cME, RTElems.cMM] <;> ring

/-- Quotients of the form of the Mie coefficients. -/
theorem channel_sens {η a b c a' b' c' P : ℝ} (hη : η ≤ 1 / 100) (ha : Near η a' a) (hb : Near η b' b) (hc : Near η c' c) (hbc : b ≤ 2 * c)
    (hP : |P| ≤ 8 / 5) : |(a' - b') / (a' + c') * P - (a - b) / (a + c) * P| ≤ 7 * η := by
  have η0 := ha.w0
  have a0 := ha.b0
  have b0 := hb.b0
  have c0 := hc.b0
  have hD := (ha.add hc).abs_sub (by linarith)
  have e1 := ha.abs_sub (by linarith)
  have e2 := hb.abs_sub (by linarith)
  have D0 : 0 < a + c := by linarith
  have D1 : 0 < a' + c' := (ha.add hc).a0
  have hD' : 98 / 100 * (a + c) ≤ a' + c' := by
    have := (abs_le.mp hD).1
    nlinarith
  have n1 : |(a' - b') - (a - b)| ≤ 21 / 10 * η * (a + c) := by
    have := abs_sub (a' - a) (b' - b)
    rw [show a' - a - (b' - b) = (a' - b') - (a - b) by ring] at this
    nlinarith
  have n2 : |a - b| ≤ 2 * (a + c) := by rw [abs_le]; constructor <;> linarith
  have id : (a' - b') / (a' + c') - (a - b) / (a + c) =
      (((a' - b') - (a - b)) * (a + c) - (a - b) * ((a' + c') - (a + c))) / ((a' + c') * (a + c)) := by
    field_simp; ring
  have key : |(a' - b') / (a' + c') - (a - b) / (a + c)| ≤ 43 / 10 * η := by
    rw [id, abs_div, abs_of_pos (mul_pos D1 D0), div_le_iff₀ (mul_pos D1 D0)]
    refine (abs_sub _ _).trans ?_
    rw [abs_mul, abs_mul, abs_of_pos D0]
    have m1 := mul_le_mul_of_nonneg_right n1 D0.le
    have m2 := mul_le_mul n2 hD (abs_nonneg _) (by linarith)
    have m3 := mul_le_mul_of_nonneg_right hD' D0.le
    have m4 := mul_le_mul_of_nonneg_left m3 η0
    have m5 : 0 ≤ η * ((a + c) * (a + c)) := by positivity
    nlinarith
  rw [← sub_mul, abs_mul]
  have := mul_le_mul key hP (abs_nonneg _) (by positivity)
  linarith

section
variable {w : ℝ} {mat mat' md md' : Material} {n l : ℕ} {k k' r r' X : ℝ}

theorem Spec.MatErr.near (h : MatErr w mat' mat k' k) (hm : mat.cls ≠ .pec) (hp : mat.Physical) (hp' : mat'.Physical) (hk : 0 < k) (hk' : 0 < k') :
    Near (2 * w) (mat'.epsV k') (mat.epsV k) := by
  have hm' : mat'.cls ≠ .pec := fun e => hm (h.cls.mp e)
  have v := medium_val hm hp hk
  have v' := medium_val hm' hp' hk'
  exact ⟨v'.2, v.2, h.eps _ _ (medium_eps v'.1) (medium_eps v.1)⟩

/-- One Mie coefficient. -/
theorem mie_sens (hm : SphereMat mat) (hm' : SphereMat mat') (hb : MediumMat md) (hb' : MediumMat md') (hk : Near w k' k) (hr : Near w r' r)
    (h1 : MatErr w mat' mat k' k) (h2 : MatErr w md' md k' k) (hw : w ≤ 1 / 800) (hl : 1 ≤ l) (hln : l ≤ n) (hX : k * r * Real.sqrt (md.epsV k) ≤ X) :
    ∃ c e e0 : Mie, mie exactBes exactBes mat' md' l k' r' = .ok c ∧ mie exactBes exactBes mat md l k r = .ok e ∧ mie exactBes exactBes ⟨.pec, [], none⟩ md l k r = .ok e0 ∧
      e0.ln = e.ln ∧ 1 ≤ |e0.TE| ∧ 1 ≤ |e0.TM| ∧ |c.TE - e.TE| ≤ 60 * w ∧ |c.TM - e.TM| ≤ 60 * w * max 1 |e.TM| ∧ |c.ln - e.ln| ≤ 63 / 10 * w * (n + 1 + X) := by
  have w0 := hk.w0
  have k0 := hk.b0
  have k0' := hk.a0
  have r0 := hr.b0
  have r0' := hr.a0
  have vb := medium_val hb.cls hb.phys k0
  have vb' := medium_val hb'.cls hb'.phys k0'
  rw [muV_of_none hb.mag] at vb
  rw [muV_of_none hb'.mag] at vb'
  have nb := h2.near hb.cls hb.phys hb'.phys k0 k0'
  have hpos : (⟨md.epsV k, 1⟩ : Medium).Pos := ⟨vb.2, one_pos⟩
  have hpos' : (⟨md'.epsV k', 1⟩ : Medium).Pos := ⟨vb'.2, one_pos⟩
  obtain ⟨b, eb⟩ : ∃ b : Medium, b = ⟨md.epsV k, 1⟩ := ⟨_, rfl⟩
  obtain ⟨b', eb'⟩ : ∃ b : Medium, b = ⟨md'.epsV k', 1⟩ := ⟨_, rfl⟩
  have nbn : Near (3 * w) (k' * r' * b'.n) (k * r * b.n) := by
    have := (hk.mul hr).mul nb.sqrt
    rw [eb, eb']
    unfold Medium.n
    simp only [mul_one]
    exact this.mono (by linarith)
  rw [← eb] at vb hpos
  rw [← eb'] at vb' hpos'
  have beps : b.eps = md.epsV k := by rw [eb]
  have beps' : b'.eps = md'.epsV k' := by rw [eb']
  have bmu : b.mu = 1 := by rw [eb]
  have bmu' : b'.mu = 1 := by rw [eb']
  have hXb : k * r * b.n ≤ X := by rw [eb]; unfold Medium.n; simpa using hX
  have xb : 0 < k * r * b.n := nbn.b0
  have xb' : 0 < k' * r' * b'.n := nbn.a0
  have e0 : mie exactBes exactBes ⟨.pec, [], none⟩ md l k r = miePECCore l (k * r) b (exactBes l (k * r * b.n)) := by
    unfold mie; simp only; rw [vb.1, ok_bind]
  have hp1 := Real.pi_gt_three
  have hp2 := Real.pi_lt_d2
  have one : ∀ y : ℝ, 1 ≤ y → 1 ≤ |(-1) ^ l * Real.pi * 0.5| * y := by
    intro y hy
    rw [abs_mul, abs_mul, abs_pow, abs_neg, abs_one, one_pow, abs_of_pos Real.pi_pos, abs_of_pos (by norm_num)]
    nlinarith
  have one' : 1 ≤ |(-1) ^ l * Real.pi * 0.5| := by simpa using one 1 le_rfl
  have two : |(-1) ^ l * Real.pi * 0.5| ≤ 8 / 5 := by
    rw [abs_mul, abs_mul, abs_pow, abs_neg, abs_one, one_pow, abs_of_pos Real.pi_pos, abs_of_pos (by norm_num)]
    linarith
  have tm0 : 1 ≤ |(-1) ^ l * Real.pi * 0.5 * idT l (k * r * b.n) (exactBes l (k * r * b.n)) / kdT l (k * r * b.n) (exactBes l (k * r * b.n))| := by
    rw [idT_exact hl xb, kdT_exact xb, mul_div_assoc, abs_mul]
    refine one _ ?_
    have hk' := kdX_neg hl xb
    rw [abs_div, abs_of_pos (idX_pos hl xb), abs_of_neg hk', le_div_iff₀ (by linarith), one_mul]
    exact kdX_le_idX hl xb
  have hln' : |((exactBes l (k' * r' * b'.n)).i1 - (exactBes l (k' * r' * b'.n)).k1) - ((exactBes l (k * r * b.n)).i1 - (exactBes l (k * r * b.n)).k1)| ≤ 63 / 10 * w * (n + 1 + X) := by
    have i1 := logI_near l nbn (by linarith)
    have i2 := logK_near l nbn (by linarith)
    have hl0 : (l : ℝ) ≤ n := by exact_mod_cast hln
    have := abs_sub (Real.log (sphI l (k' * r' * b'.n)) - Real.log (sphI l (k * r * b.n))) (Real.log (sphK l (k' * r' * b'.n)) - Real.log (sphK l (k * r * b.n)))
    have e : ((exactBes l (k' * r' * b'.n)).i1 - (exactBes l (k' * r' * b'.n)).k1) - ((exactBes l (k * r * b.n)).i1 - (exactBes l (k * r * b.n)).k1) =
        (Real.log (sphI l (k' * r' * b'.n)) - Real.log (sphI l (k * r * b.n))) - (Real.log (sphK l (k' * r' * b'.n)) - Real.log (sphK l (k * r * b.n))) := by
      simp only [exactBes]; ring
    rw [e]
    refine this.trans ((add_le_add i1 i2).trans ?_)
    have q1 := mul_le_mul_of_nonneg_right hl0 w0
    have q2 := mul_le_mul_of_nonneg_right hXb w0
    nlinarith
  have nI := idX_near hl nbn
  have nK := kdX_near hl nbn
  have hIK := idX_le_two_kdX hl xb
  by_cases hp : mat.cls = .pec
  · have hp' := h1.cls.mpr hp
    have em : ∀ {M N : Material} {κ ρ : ℝ} {β : Medium}, M.cls = .pec → N.medium κ = .ok β → mie exactBes exactBes M N l κ ρ = miePECCore l (κ * ρ) β (exactBes l (κ * ρ * β.n)) := by
      intro M N κ ρ β hM hN
      unfold mie; rw [hM]; simp only; rw [hN, ok_bind]
    refine ⟨_, _, _, (em hp' vb'.1).trans (miePECCore_ok (kdT_neg hl xb' _)), (em hp vb.1).trans (miePECCore_ok (kdT_neg hl xb _)), e0.trans (miePECCore_ok (kdT_neg hl xb _)), rfl, one', tm0, ?_, ?_, hln'⟩
    · simp only [sub_self, abs_zero]; positivity
    · simp only
      rw [idT_exact hl xb, kdT_exact xb, idT_exact hl xb', kdT_exact xb']
      have nq := nI.div nK
      have := ((Near.refl (a := Real.pi * 0.5) (by positivity)).mul nq)
      have hs : |(-1 : ℝ) ^ (l + 1)| = 1 := by rw [abs_pow, abs_neg, abs_one, one_pow]
      have sg : ∀ I K : ℝ, (-1 : ℝ) ^ (l + 1) * ((-1) ^ l * Real.pi * 0.5 * I / K) = Real.pi * 0.5 * (I / -K) := by
        intro I K
        have : (-1 : ℝ) ^ l * (-1) ^ l = 1 := by rw [← mul_pow]; simp
        rw [_root_.pow_succ, div_neg]
        linear_combination (-(Real.pi * 0.5 * I / K)) * this
      rw [← sg] at this
      have q := this.abs_sign (by linarith) hs (sg _ _)
      refine q.trans (mul_le_mul (by linarith) (le_max_right _ _) (abs_nonneg _) (by positivity))
  · have hp' : mat'.cls ≠ .pec := fun e => hp (h1.cls.mp e)
    have va := medium_val hp hm.phys k0
    have va' := medium_val hp' hm'.phys k0'
    rw [muV_of_none hm.mag] at va
    rw [muV_of_none hm'.mag] at va'
    have na := h1.near hp hm.phys hm'.phys k0 k0'
    have apos : (⟨mat.epsV k, 1⟩ : Medium).Pos := ⟨va.2, one_pos⟩
    have apos' : (⟨mat'.epsV k', 1⟩ : Medium).Pos := ⟨va'.2, one_pos⟩
    obtain ⟨a, ea⟩ : ∃ b : Medium, b = ⟨mat.epsV k, 1⟩ := ⟨_, rfl⟩
    obtain ⟨a', ea'⟩ : ∃ b : Medium, b = ⟨mat'.epsV k', 1⟩ := ⟨_, rfl⟩
    have nan : Near (3 * w) (k' * r' * a'.n) (k * r * a.n) := by
      have := (hk.mul hr).mul na.sqrt
      rw [ea, ea']
      unfold Medium.n
      simp only [mul_one]
      exact this.mono (by linarith)
    rw [← ea] at va apos
    rw [← ea'] at va' apos'
    have aeps : a.eps = mat.epsV k := by rw [ea]
    have aeps' : a'.eps = mat'.epsV k' := by rw [ea']
    have amu : a.mu = 1 := by rw [ea]
    have amu' : a'.mu = 1 := by rw [ea']
    have xa := nan.b0
    have xa' := nan.a0
    have em : ∀ {M N : Material} {κ ρ : ℝ} {α β : Medium}, M.cls ≠ .pec → M.medium κ = .ok α → N.medium κ = .ok β →
        mie exactBes exactBes M N l κ ρ = mieCore l (κ * ρ) α β (exactBes l (κ * ρ * α.n)) (exactBes l (κ * ρ * β.n)) := by
      intro M N κ ρ α β hM hα hβ
      unfold mie
      split
      · next hc => exact absurd hc hM
      · rw [hα, ok_bind, hβ, ok_bind]
    have nIa := idX_near hl nan
    have nbe := nb
    have nae := na
    rw [← beps, ← beps'] at nbe
    rw [← aeps, ← aeps'] at nae
    refine ⟨_, _, _, (em hp' va'.1 vb'.1).trans (mieCore_ok apos' hpos' (idT_pos (exactBes_ok hl xa')) (kdT_neg hl xb' _)),
      (em hp va.1 vb.1).trans (mieCore_ok apos hpos (idT_pos (exactBes_ok hl xa)) (kdT_neg hl xb _)), e0.trans (miePECCore_ok (kdT_neg hl xb _)), rfl, one', tm0, ?_, ?_, hln'⟩
    · simp only
      rw [idT_exact hl xb, kdT_exact xb, idT_exact hl xb', kdT_exact xb', idT_exact hl xa, idT_exact hl xa', bmu, bmu', amu, amu']
      simp only [one_mul]
      have := channel_sens (η := 8 * w) (by linarith) (nIa.mono (by linarith)) (nI.mono (by linarith)) (nK.mono (by linarith)) hIK two
      rw [← sub_eq_add_neg, ← sub_eq_add_neg] at this
      linarith
    · simp only
      rw [idT_exact hl xb, kdT_exact xb, idT_exact hl xb', kdT_exact xb', idT_exact hl xa, idT_exact hl xa']
      have p1 := nbe.mul nIa
      have p2 := nae.mul nI
      have p3 := nae.mul nK
      have := channel_sens (η := 8 * w) (by linarith) (p1.mono (by linarith)) (p2.mono (by linarith)) (p3.mono (by linarith))
        (by have := mul_le_mul_of_nonneg_left hIK nae.b0.le; linarith) two
      rw [mul_neg, mul_neg, ← sub_eq_add_neg, ← sub_eq_add_neg] at this
      refine this.trans ?_
      have := mul_le_mul_of_nonneg_left (le_max_left (1 : ℝ) |(b.eps * idX l (k * r * a.n) - a.eps * idX l (k * r * b.n)) / (b.eps * idX l (k * r * a.n) - a.eps * kdX l (k * r * b.n)) * ((-1) ^ l * Real.pi * 0.5)|) (by positivity : 0 ≤ 60 * w)
      linarith

/-- The table of the Mie coefficients. -/
theorem mieTable_sens (hm : SphereMat mat) (hm' : SphereMat mat') (hb : MediumMat md) (hb' : MediumMat md') (hk : Near w k' k) (hr : Near w r' r)
    (h1 : MatErr w mat' mat k' k) (h2 : MatErr w md' md k' k) (hw : w ≤ 1 / 800) (hX : k * r * Real.sqrt (md.epsV k) ≤ X) {N : ℕ} (hN : n ≤ N)
    {c e e0 : MieCoef} (hc : mieTable exactBes mat' md' n k' r' = .ok c) (he : mieTable exactBes mat md n k r = .ok e)
    (he0 : mieTable exactBes ⟨.pec, [], none⟩ md n k r = .ok e0) (hle : ∀ l, 1 ≤ l → l ≤ n → |teOf e l| ≤ |teOf e0 l| ∧ |tmOf e l| ≤ |tmOf e0 l|) :
    CoefErr n (Real.exp (w * (60 + 63 / 10 * (N + 1 + X))) - 1) c e e0 := by
  intro l hl hln
  have w0 := hk.w0
  choose C E E0 q using fun i : Fin n => mie_sens (n := n) hm hm' hb hb' hk hr h1 h2 hw (l := i.1 + 1) (by omega) (by have := i.2; omega) hX
  have e1 : c = tableOf C := by
    unfold mieTable at hc
    rw [finM_ok fun i => (q i).1, ok_bind] at hc
    injection hc with hc; exact hc.symm
  have e2 : e = tableOf E := by
    unfold mieTable at he
    rw [finM_ok fun i => (q i).2.1, ok_bind] at he
    injection he with he; exact he.symm
  have e3 : e0 = tableOf E0 := by
    unfold mieTable at he0
    rw [finM_ok fun i => (q i).2.2.1, ok_bind] at he0
    injection he0 with he0; exact he0.symm
  obtain ⟨-, -, -, q4, q5, q6, q7, q8, q9⟩ := q ⟨l - 1, by omega⟩
  have hlt : l - 1 < n := by omega
  obtain ⟨l1, l2⟩ := hle l hl hln
  rw [e1]
  rw [e2, e3] at l1 l2 ⊢
  simp only [teOf, tmOf, tableOf, dif_pos hlt] at l1 l2 ⊢
  have hη0 : 0 ≤ 60 * w := by positivity
  have bd : (1 + 60 * w) * Real.exp (63 / 10 * w * (n + 1 + X)) - 1 ≤ Real.exp (w * (60 + 63 / 10 * (N + 1 + X))) - 1 := by
    have n1 : (n : ℝ) ≤ N := by exact_mod_cast hN
    have a1 : 1 + 60 * w ≤ Real.exp (60 * w) := by linarith [Real.add_one_le_exp (60 * w)]
    have a2 : Real.exp (63 / 10 * w * (n + 1 + X)) ≤ Real.exp (63 / 10 * w * (N + 1 + X)) := by
      refine Real.exp_le_exp.mpr (mul_le_mul_of_nonneg_left (by linarith) (by positivity))
    have a3 := mul_le_mul a1 a2 (Real.exp_pos _).le (Real.exp_pos _).le
    rw [← Real.exp_add] at a3
    have : 60 * w + 63 / 10 * w * (N + 1 + X) = w * (60 + 63 / 10 * (N + 1 + X)) := by ring
    rw [this] at a3
    linarith
  exact ⟨(coef_err hη0 q4 q5 l1 (q7.trans (le_mul_of_one_le_right hη0 (le_max_left _ _))) q9).trans (mul_le_mul_of_nonneg_right bd (abs_nonneg _)),
    (coef_err hη0 q4 q6 l2 q8 q9).trans (mul_le_mul_of_nonneg_right bd (abs_nonneg _))⟩

end

/-- The translation coefficients. -/
theorem trans_sens {w x y X : ℝ} (h : Near (3 * w) x y) (hw : w ≤ 1 / 800) (hX : y ≤ X) {lmax lssmax m : ℕ} (hls : lmax ≤ lssmax)
    {V' V : Fin (lmax + 1 - transLmin m) → Fin (lssmax + 1 - transLmin m) → VCoef}
    (hV' : transAb lmax lssmax m true x ((List.range (lmax + lssmax + 1 + 1)).map (lnk1 x)) = .ok V')
    (hV : transAb lmax lssmax m true y ((List.range (lmax + lssmax + 1 + 1)).map (lnk1 y)) = .ok V) :
    TransErr (Real.exp (w * (63 / 10 * (lssmax + 1 + X))) - 1) V' V := by
  have w0 : 0 ≤ w := by linarith [h.w0]
  rw [transAb_ok _ _ _ true _ (by rw [List.length_map, List.length_range]; omega)] at hV hV'
  injection hV with hV
  injection hV' with hV'
  subst hV hV'
  intro i s
  simp only
  have hi : 1 ≤ transLmin (m : ℤ) + i.1 ∧ m ≤ transLmin (m : ℤ) + i.1 ∧ transLmin (m : ℤ) + i.1 ≤ lmax := by have := i.2; unfold transLmin at *; omega
  have hs : 1 ≤ transLmin (m : ℤ) + s.1 ∧ m ≤ transLmin (m : ℤ) + s.1 ∧ transLmin (m : ℤ) + s.1 ≤ lssmax := by have := s.2; unfold transLmin at *; omega
  generalize transLmin (m : ℤ) + i.1 = a at hi
  generalize transLmin (m : ℤ) + s.1 = b at hs
  obtain ⟨c, rfl⟩ := Nat.exists_eq_add_of_le' hi.1
  obtain ⟨c', rfl⟩ := Nat.exists_eq_add_of_le' hs.1
  have tab : ∀ z : ℝ, ∀ p ≤ c + 1 + (c' + 1), ((List.range (lmax + lssmax + 1 + 1)).map (lnk1 z)).getD p 0 = lnk1 z p := by
    intro z p hp
    have : p < lmax + lssmax + 1 + 1 := by omega
    simp [List.getD, List.getElem?_range this]
  have ex : Real.exp ((c + c' + 3 + 21 / 20 * y) * (3 * w)) - 1 ≤ Real.exp (w * (63 / 10 * (lssmax + 1 + X))) - 1 := by
    have n1 : ((c + 1 : ℕ) : ℝ) ≤ lssmax := by exact_mod_cast hi.2.2.trans hls
    have n2 : ((c' + 1 : ℕ) : ℝ) ≤ lssmax := by exact_mod_cast hs.2.2
    push_cast at n1 n2
    have c0 : (0 : ℝ) ≤ c := Nat.cast_nonneg c
    have y0 := h.b0
    have : Real.exp ((c + c' + 3 + 21 / 20 * y) * (3 * w)) ≤ Real.exp (w * (63 / 10 * (lssmax + 1 + X))) := by
      refine Real.exp_le_exp.mpr ?_
      have : (c + c' + 3 + 21 / 20 * y) * 3 ≤ 63 / 10 * (lssmax + 1 + X) := by linarith
      nlinarith
    linarith
  have ee := fab_rel h (by linarith) true true hi.2.1 hs.2.1
  have eo := fab_rel h (by linarith) true false hi.2.1 hs.2.1
  have f0 := fab_nonneg m h.b0 true true c c'
  have f1 := fab_nonneg m h.b0 true false c c'
  replace ee := ee.trans (mul_le_mul_of_nonneg_right ex f0)
  replace eo := eo.trans (mul_le_mul_of_nonneg_right ex f1)
  obtain ⟨ε, hε⟩ : ∃ ε, ε = Real.exp (w * (63 / 10 * (lssmax + 1 + X))) - 1 := ⟨_, rfl⟩
  rw [← hε] at ee eo ⊢
  have E : ∀ z : ℝ, 0 < z → (vVal true m z ((List.range (lmax + lssmax + 1 + 1)).map (lnk1 z)) (c + 1) (c' + 1)).EEab *
      Real.exp (vVal true m z ((List.range (lmax + lssmax + 1 + 1)).map (lnk1 z)) (c + 1) (c' + 1)).sk = (-1) ^ m * fab m z true true c c' := by
    intro z hz
    rw [vVal_EE_lap hz hi.1 hs.1 m (tab z)]
    unfold fab; rw [if_pos rfl]
  have O : ∀ z : ℝ, 0 < z → (vVal true m z ((List.range (lmax + lssmax + 1 + 1)).map (lnk1 z)) (c + 1) (c' + 1)).EMab *
      Real.exp (vVal true m z ((List.range (lmax + lssmax + 1 + 1)).map (lnk1 z)) (c + 1) (c' + 1)).sk = -((-1) ^ m * fab m z true false c c') := by
    intro z hz
    rw [vVal_EM_lap hz hi.1 hs.1 m (tab z)]
    unfold fab; rw [if_neg (by simp)]
  have sgn : ∀ (σ f g : ℝ), |σ| = 1 → |f - g| ≤ ε * g → 0 ≤ g → |σ * f - σ * g| ≤ ε * |σ * g| := by
    intro σ f g hσ hfg hg
    rw [← mul_sub, abs_mul, abs_mul, hσ, one_mul, one_mul, abs_of_nonneg hg]
    exact hfg
  have s1 : ∀ j : ℕ, |(-1 : ℝ) ^ j| = 1 := fun j => by rw [abs_pow, abs_neg, abs_one, one_pow]
  refine ⟨?_, ?_, ?_, ?_⟩
  · rw [E x h.a0, E y h.b0]
    exact sgn _ _ _ (s1 m) ee f0
  · rw [(vVal_back true m x _ (c + 1) (c' + 1)).1, (vVal_back true m y _ (c + 1) (c' + 1)).1, mul_assoc, mul_assoc, E x h.a0, E y h.b0, ← mul_assoc, ← mul_assoc]
    exact sgn _ _ _ (by rw [abs_mul, s1, s1, one_mul]) ee f0
  · rw [O x h.a0, O y h.b0, ← neg_mul, ← neg_mul]
    exact sgn _ _ _ (by rw [abs_neg, s1]) eo f1
  · rw [(vVal_back true m x _ (c + 1) (c' + 1)).2, (vVal_back true m y _ (c + 1) (c' + 1)).2, neg_mul, neg_mul, mul_assoc, mul_assoc, O x h.a0, O y h.b0, mul_neg, mul_neg,
      neg_neg, neg_neg, ← mul_assoc, ← mul_assoc]
    exact sgn _ _ _ (by rw [abs_mul, s1, s1, one_mul]) eo f1

end CasSph
