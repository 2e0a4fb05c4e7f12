import Verif.Lemmas.FloatZeroLog
import Verif.Lemmas.FloatMie
import Verif.Props.StaticSign
import Verif.Props.FreeEnergy

/-! Rounding errors of the static Mie coefficients. -/

namespace CasSph

open Spec

variable {A : FlZero} {u : ℝ}

theorem Near.abs_sub' {w a b : ℝ} (h : Near w a b) (hw : w ≤ 1 / 10) : |a - b| ≤ 11 / 10 * w * b := by
  have w0 := h.w0
  have e : Real.exp w ≤ 1 + 11 / 10 * w := by
    have := Real.abs_exp_sub_one_sub_id_le (x := w) (by rw [abs_of_nonneg w0]; linarith)
    have := (abs_le.1 this).2
    nlinarith
  have h1 := h.upper
  have h2 := h.symm.upper
  have b0 := h.b0
  have a0 := h.a0
  rw [abs_le]
  constructor
  · have e' : 1 - w ≤ Real.exp (-w) := by linarith [Real.add_one_le_exp (-w)]
    have : Real.exp (-w) * b ≤ a := by
      have := mul_le_mul_of_nonneg_left h2 (Real.exp_pos (-w)).le
      rwa [← mul_assoc, ← Real.exp_add, neg_add_cancel, Real.exp_zero, one_mul] at this
    nlinarith
  · nlinarith

/-- The electric amplitude of a dielectric sphere. -/
theorem contrast_fl (hA : RelErrZ A u) {l : ℕ} (hl : 1 ≤ l) {x y : ℝ} (hx : 0 < x) (hy : 0 < y) :
    ∃ q, A.quot (A.sub (A.mul 1 (A.pow (A.sqrt (A.mul 1 x)) 2)) (A.mul 1 (A.pow (A.sqrt (A.mul y 1)) 2)))
        (A.add (A.mul (A.mul l 1) (A.pow (A.sqrt (A.mul 1 x)) 2)) (A.mul (A.mul (l + 1) 1) (A.pow (A.sqrt (A.mul y 1)) 2))) = .ok q ∧
      Cl (1 + 25 * u) ((l + 1) / l) (A.mul (l + 1) q) ((l + 1) * ((x - y) / (l * x + (l + 1) * y))) := by
  have hu := hA.u0
  have hu1 := hA.u1
  have l1 : (1 : ℝ) ≤ l := by exact_mod_cast hl
  have l0 : (0 : ℝ) < l := by linarith
  have sq : ∀ {z z0 : ℝ}, 0 < z0 → Near (100 / 99 * u) z z0 → Near (4 * (100 / 99 * u)) (A.pow (A.sqrt z) 2) z0 := by
    intro z z0 hz h
    have hs := h.sqrt
    have s := (hA.near hs.a0 (by rw [abs_of_pos hs.a0]; exact hA.sqrt _ h.a0.le)).trans hs
    have p := (hA.near (pow_pos s.a0 2) (hA.pow (A.sqrt z) 2)).trans (by rw [pow_two]; exact s.mul s)
    rw [Real.mul_self_sqrt hz.le] at p
    exact p.mono (by linarith)
  have nx := sq hx (by simpa using hA.near (mul_pos one_pos hx) (hA.mul 1 x))
  have ny := sq hy (by simpa using hA.near (mul_pos hy one_pos) (hA.mul y 1))
  obtain ⟨X, hX⟩ : ∃ X, X = A.pow (A.sqrt (A.mul 1 x)) 2 := ⟨_, rfl⟩
  obtain ⟨Y, hY⟩ : ∃ Y, Y = A.pow (A.sqrt (A.mul y 1)) 2 := ⟨_, rfl⟩
  rw [← hX] at nx ⊢
  rw [← hY] at ny ⊢
  have n1 : Near (5 * (100 / 99 * u)) (A.mul 1 X) x := by
    have := hA.mul_near (Near.refl one_pos) nx
    rw [one_mul] at this
    exact this.mono (by linarith)
  have n2 : Near (5 * (100 / 99 * u)) (A.mul 1 Y) y := by
    have := hA.mul_near (Near.refl one_pos) ny
    rw [one_mul] at this
    exact this.mono (by linarith)
  have n3 : Near (6 * (100 / 99 * u)) (A.mul (A.mul l 1) X) (l * x) := by
    have := hA.mul_near (hA.mul_near (Near.refl l0) (Near.refl one_pos)) nx
    rw [mul_one] at this
    exact this.mono (by linarith)
  have n4 : Near (6 * (100 / 99 * u)) (A.mul (A.mul (l + 1) 1) Y) ((l + 1) * y) := by
    have := hA.mul_near (hA.mul_near (Near.refl (show (0 : ℝ) < l + 1 by linarith)) (Near.refl one_pos)) ny
    rw [mul_one] at this
    exact this.mono (by linarith)
  have nD := hA.add_near n3 n4
  have e1 := n1.abs_sub' (by linarith)
  have e2 := n2.abs_sub' (by linarith)
  have e3 := nD.abs_sub' (by linarith)
  have D'0 := nD.a0
  have D0 := nD.b0
  obtain ⟨D', hD'⟩ : ∃ D', D' = A.add (A.mul (A.mul l 1) X) (A.mul (A.mul (l + 1) 1) Y) := ⟨_, rfl⟩
  obtain ⟨D, hD⟩ : ∃ D, D = l * x + (l + 1) * y := ⟨_, rfl⟩
  rw [← hD', ← hD] at e3
  rw [← hD'] at D'0 ⊢
  rw [← hD] at D0 ⊢
  have s := hA.sub (A.mul 1 X) (A.mul 1 Y)
  obtain ⟨N', hN'⟩ : ∃ N', N' = A.sub (A.mul 1 X) (A.mul 1 Y) := ⟨_, rfl⟩
  rw [← hN'] at s ⊢
  obtain ⟨S, hS⟩ : ∃ S, S = x + y := ⟨_, rfl⟩
  have S0 : 0 < S := by rw [hS]; linarith
  have uS : 0 ≤ u * S := by positivity
  have DS : l * S ≤ D := by rw [hS, hD]; nlinarith
  have d1 : |A.mul 1 X - A.mul 1 Y - (x - y)| ≤ 5.56 * (u * S) := by
    rw [show A.mul 1 X - A.mul 1 Y - (x - y) = (A.mul 1 X - x) - (A.mul 1 Y - y) by ring]
    refine (abs_sub _ _).trans ?_
    have : 11 / 10 * (5 * (100 / 99 * u)) * x + 11 / 10 * (5 * (100 / 99 * u)) * y = 550 / 99 * (u * S) := by rw [hS]; ring
    norm_num at *; linarith
  have d2 : |x - y| ≤ S := by rw [hS, abs_le]; constructor <;> linarith
  have d3 : |A.mul 1 X - A.mul 1 Y| ≤ 1.06 * S := by
    have := abs_add_le (A.mul 1 X - A.mul 1 Y - (x - y)) (x - y)
    rw [sub_add_cancel] at this
    have : u * S ≤ 1 / 100 * S := mul_le_mul_of_nonneg_right hu1 S0.le
    norm_num at *; linarith
  have d4 : |N' - (x - y)| ≤ 6.63 * (u * S) := by
    have := abs_add_le (N' - (A.mul 1 X - A.mul 1 Y)) (A.mul 1 X - A.mul 1 Y - (x - y))
    rw [sub_add_sub_cancel] at this
    have h := mul_le_mul_of_nonneg_left d3 hu
    norm_num at *; linarith
  have d5 : |D' - D| ≤ 7.8 * (u * D) := by
    have : 11 / 10 * (6 * (100 / 99 * u) + 100 / 99 * u) * D = 770 / 99 * (u * D) := by ring
    have uD : 0 ≤ u * D := by positivity
    norm_num at *; linarith
  have d6 : 0.92 * D ≤ D' := by
    have := (abs_le.mp d5).1
    have : u * D ≤ 1 / 100 * D := mul_le_mul_of_nonneg_right hu1 D0.le
    norm_num at *; linarith
  have SD : S / D ≤ 1 / l := by rw [div_le_div_iff₀ D0 l0]; linarith
  have g1 : |N' / D' - (x - y) / D| ≤ 15.7 * (u * (1 / l)) := by
    have e : N' / D' - (x - y) / D = ((N' - (x - y)) * D - (x - y) * (D' - D)) / (D' * D) := by field_simp; ring
    rw [e, abs_div, abs_of_pos (mul_pos D'0 D0)]
    have h1 : |(N' - (x - y)) * D - (x - y) * (D' - D)| ≤ 14.43 * (u * S) * D := by
      refine (abs_sub _ _).trans ?_
      rw [abs_mul, abs_mul, abs_of_pos D0]
      have a1 := mul_le_mul_of_nonneg_right d4 D0.le
      have a2 := mul_le_mul d2 d5 (abs_nonneg _) S0.le
      have a3 : S * (7.8 * (u * D)) = 7.8 * (u * S) * D := by ring
      rw [a3] at a2
      refine (add_le_add a1 a2).trans (le_of_eq ?_)
      ring
    have h2 : 14.43 * (u * S) * D / (D' * D) = 14.43 * (u * S) / D' := by field_simp
    have h3 : 14.43 * (u * S) / D' ≤ 14.43 * (u * S) / (0.92 * D) := div_le_div_of_nonneg_left (by positivity) (by positivity) d6
    have h4 : 14.43 * (u * S) / (0.92 * D) ≤ 15.7 * (u * (S / D)) := by
      rw [show 14.43 * (u * S) / (0.92 * D) = 14.43 / 0.92 * (u * (S / D)) by field_simp]
      exact mul_le_mul_of_nonneg_right (by norm_num) (by positivity)
    refine (div_le_div_of_nonneg_right h1 (by positivity)).trans ?_
    rw [h2]
    exact h3.trans (h4.trans (mul_le_mul_of_nonneg_left (mul_le_mul_of_nonneg_left SD hu) (by norm_num)))
  have g0 : |(x - y) / D| ≤ 1 / l := by
    rw [abs_div, abs_of_pos D0]
    exact (div_le_div_of_nonneg_right d2 D0.le).trans SD
  refine ⟨A.div N' D', by unfold FlMie.quot; rw [if_neg D'0.ne'], ?_⟩
  have c1 : Cl (1 + 15.7 * u) (1 / l) (N' / D') ((x - y) / D) := ⟨by linarith, g0, by rw [add_sub_cancel_left, mul_assoc]; exact g1⟩
  have c2 := c1.fl hu (hA.div N' D' D'0.ne')
  have c3 : Cl 1 ((l : ℝ) + 1) (l + 1) (l + 1) := ⟨le_rfl, by rw [abs_of_pos (by linarith)], by simp⟩
  have c4 := (c3.mul c2).fl hu (hA.mul (l + 1) (A.div N' D'))
  rw [← mul_one_div]
  refine c4.mono ?_
  have q1 : u * u ≤ 1 / 100 * u := mul_le_mul_of_nonneg_right hu1 hu
  have q2 : u * u * u ≤ 1 / 100 * u * u := mul_le_mul_of_nonneg_right q1 hu
  rw [show 1 * ((1 + 15.7 * u) * (1 + u)) * (1 + u) = 1 + 17.7 * u + 32.4 * (u * u) + 15.7 * (u * u * u) by ring]
  norm_num at *
  linarith

/-- The computed static Mie coefficients. -/
theorem mieK0_fl (hA : RelErrZ A u) {frac frac' : ℝ → ℝ → ℝ} {m1 m2 : Material} (h : SphereMat m1) (hd : MediumMat m2) {l : ℕ} (hl : 1 ≤ l) {R : ℝ} {c : Mie}
    (hc : mieK0 frac m1 m2 l R = .ok c) :
    c.ln = -Real.log (2 * l + 1) - 2 * ln2dbl l ∧ ∃ c', A.mieK0 frac' m1 m2 l R = .ok c' ∧ c'.ln = A.sub (-A.log (2 * l + 1)) (A.mul 2 (A.ln2dbl l)) ∧
      Cl (1 + 25 * u) ((l + 1) / l) c'.TM c.TM ∧ Cl (1 + 25 * u) 1 c'.TE c.TE := by
  have hu := hA.u0
  have hu1 := hA.u1
  have l1 : (1 : ℝ) ≤ l := by exact_mod_cast hl
  have l0 : (0 : ℝ) < l := by linarith
  obtain ⟨e0, he, he0, -⟩ := dielectric_static hd.diel hd.phys
  have mu2 := muV_of_none hd.mag 0
  have hm2 := mu_val hd.phys (le_refl (0 : ℝ))
  rw [mu2] at hm2
  rw [mieK0_start hd.diel hd.phys he hl, mu2] at hc
  obtain ⟨w1, w2⟩ := dielectric_flags hd.diel
  obtain ⟨d, hdd⟩ : ∃ d, d = A.div ((l : ℝ) + 1) l := ⟨_, rfl⟩
  have qd : A.quot ((l : ℝ) + 1) l = .ok d := by unfold FlMie.quot; rw [if_neg l0.ne', hdd]
  have sg : ∀ {s w X x' x : ℝ}, |s| = 1 → Cl w X x' x → Cl w X (s * x') (s * x) := by
    intro s w X x' x hs h
    refine ⟨h.1, by rw [abs_mul, hs, one_mul]; exact h.2.1, by rw [← mul_sub, abs_mul, hs, one_mul]; exact h.2.2⟩
  have s1 : |(-1 : ℝ) ^ l| = 1 := by rw [abs_pow, abs_neg, abs_one, one_pow]
  have s2 : |-(-1 : ℝ) ^ l| = 1 := by rw [abs_neg, s1]
  have cd : Cl (1 + 25 * u) ((l + 1) / l) d ((l + 1) / l) := by
    have := Cl.fl (u := u) (w := 1) (X := ((l : ℝ) + 1) / l) (x' := (l + 1) / l) (x := (l + 1) / l) ⟨le_rfl, by rw [abs_of_pos (by positivity)], by simp⟩ hu (hA.div (l + 1) l l0.ne')
    rw [hdd]
    exact this.mono (by linarith)
  have c1 : Cl (1 + 25 * u) 1 1 1 := Cl.one.mono (by linarith)
  have c0 : Cl (1 + 25 * u) 1 0 0 := ⟨by linarith, by simp, by simp; linarith⟩
  -- the magnetic amplitude vanishes
  have b1 : cdiv (-((l : ℝ) + 1) * (1 - 1)) (l * (1 + 1) + 1) = .ok 0 := by rw [cdiv_ok (by positivity), sub_self, mul_zero, zero_div]
  have b2 : A.quot (A.mul (-((l : ℝ) + 1)) (A.sub 1 1)) (A.add (A.mul l (A.add 1 1)) 1) = .ok 0 := by
    have z1 : A.sub 1 1 = 0 := by
      have := hA.sub 1 1
      rw [sub_self, abs_zero, mul_zero, sub_zero] at this
      exact abs_nonpos_iff.mp this
    have n1 := hA.add_near (Near.refl one_pos) (Near.refl (a := (1 : ℝ)) one_pos)
    have n2 := hA.mul_near (Near.refl l0) n1
    have n3 := hA.add_near n2 ((Near.refl one_pos).mono (by linarith))
    have z2 : A.mul (-((l : ℝ) + 1)) 0 = 0 := by
      have := hA.mul (-((l : ℝ) + 1)) 0
      rw [mul_zero, abs_zero, mul_zero, sub_zero] at this
      exact abs_nonpos_iff.mp this
    rw [z1, z2]
    unfold FlMie.quot
    rw [if_neg n3.a0.ne']
    have := hA.div 0 (A.add (A.mul l (A.add 1 1)) 1) n3.a0.ne'
    rw [zero_div, abs_zero, mul_zero, sub_zero] at this
    rw [abs_nonpos_iff.mp this]
  have start : A.mieK0 frac' m1 m2 l R = (do
      match m1.cls with
      | .pec => .ok ⟨(-1) ^ l * 1, -(-1) ^ l * d, A.sub (-A.log (2 * l + 1)) (A.mul 2 (A.ln2dbl l))⟩
      | _ =>
        let muSp ← m1.mu 0
        let wPR := match m1.firstWp with
          | .ok w => A.div (A.mul w R) 2.998e14
          | .error _ => 0
        if ¬ m1.sigmaFinite then
          let ft := A.add (-l) (A.mul wPR (frac' wPR (l - 0.5)))
          let bTE ← A.quot (A.sub (A.mul 1 ft) (A.mul muSp (l + 1))) (A.add (A.mul muSp l) (A.mul 1 ft))
          .ok ⟨(-1) ^ l * bTE, -(-1) ^ l * d, A.sub (-A.log (2 * l + 1)) (A.mul 2 (A.ln2dbl l))⟩
        else
          let bTE ← A.quot (A.mul (-(l + 1)) (A.sub muSp 1)) (A.add (A.mul l (A.add muSp 1)) 1)
          let diel1 ← m1.dielectric
          if diel1 then
            let epsSp ← m1.epsilon 0
            let n0 := A.sqrt (A.mul muSp epsSp)
            let q ← A.quot (A.sub (A.mul 1 (A.pow n0 2)) (A.mul muSp (A.pow (A.sqrt (A.mul e0 1)) 2)))
              (A.add (A.mul (A.mul l 1) (A.pow n0 2)) (A.mul (A.mul (l + 1) muSp) (A.pow (A.sqrt (A.mul e0 1)) 2)))
            .ok ⟨(-1) ^ l * bTE, -(-1) ^ l * A.mul (l + 1) q, A.sub (-A.log (2 * l + 1)) (A.mul 2 (A.ln2dbl l))⟩
          else .ok ⟨(-1) ^ l * bTE, -(-1) ^ l * d, A.sub (-A.log (2 * l + 1)) (A.mul 2 (A.ln2dbl l))⟩ : Res Mie) := by
    unfold FlZero.mieK0
    rw [hm2, ok_bind, w1, w2]
    simp only [ok_bind, not_true_eq_false, if_false]
    rw [he, ok_bind, qd, ok_bind]
    rfl
  rw [start]
  clear start
  rcases h.static with hpec | ⟨hd1, h1⟩ | ⟨hc1, h1⟩
  · rw [hpec] at hc ⊢
    simp only [] at hc ⊢
    injection hc with hc
    subst hc
    exact ⟨rfl, _, rfl, rfl, sg s2 cd, sg s1 c1⟩
  · obtain ⟨e1, he1, he10, -⟩ := dielectric_static hd1 h1
    have mu1 := muV_of_none h.mag 0
    have hm1 := mu_val h1 (le_refl (0 : ℝ))
    rw [mu1] at hm1
    obtain ⟨f1, f2⟩ := dielectric_flags hd1
    obtain ⟨q, hq, cq⟩ := contrast_fl hA hl he10 he0
    rw [hd1.1] at hc ⊢
    simp only [] at hc ⊢
    rw [hm1, ok_bind, f1, f2] at hc ⊢
    simp only [ok_bind, not_true_eq_false, if_false, if_true] at hc ⊢
    rw [he1, b1] at hc
    rw [he1, b2]
    simp only [ok_bind] at hc ⊢
    rw [hq]
    have q1 : Real.sqrt (1 * e1) ^ 2 = e1 := by rw [one_mul]; exact Real.sq_sqrt he10.le
    have q2 : Real.sqrt (e0 * 1) ^ 2 = e0 := by rw [mul_one]; exact Real.sq_sqrt he0.le
    rw [q1, q2, cdiv_ok (by positivity), ok_bind] at hc
    simp only [one_mul, mul_one] at hc
    injection hc with hc
    subst hc
    exact ⟨rfl, _, rfl, rfl, sg s2 cq, sg s1 c0⟩
  · have hne := hc1.cls
    have mu1 := muV_of_none h.mag 0
    have hm1 := mu_val h1 (le_refl (0 : ℝ))
    rw [mu1] at hm1
    obtain ⟨f1, f2⟩ := conductor_flags hc1
    rcases hcl : m1.cls with _ | _ | _ <;> rw [hcl] at hc <;> simp only [] at hc ⊢
    case pec => exact absurd hcl hne
    all_goals
      rw [hm1, ok_bind, f1, f2] at hc ⊢
      simp only [ok_bind, not_true_eq_false, if_false] at hc ⊢
      rw [b1] at hc
      rw [b2]
      simp only [ok_bind, Bool.false_eq_true, if_false] at hc ⊢
      injection hc with hc
      subst hc
      exact ⟨rfl, _, rfl, rfl, sg s2 cd, sg s1 c0⟩

end CasSph
