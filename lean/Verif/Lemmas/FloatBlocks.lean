import Verif.Spec.FlBlocks
import Verif.Lemmas.Blocks
import Mathlib.Analysis.SpecialFunctions.Exp
import Mathlib.Tactic.Linarith
import Mathlib.Tactic.Positivity
import Mathlib.Tactic.FieldSimp
import Mathlib.Tactic.GCongr

/-! Rounding errors of the assembly of the round-trip matrix. -/

namespace CasSph

open Spec

/-- `x` is at most `X`, and `x'` differs from `x` by at most `(w - 1) X`. -/
def Cl (w X x' x : ℝ) : Prop := 1 ≤ w ∧ |x| ≤ X ∧ |x' - x| ≤ (w - 1) * X

namespace Cl

variable {w v X Y x' x y' y u : ℝ}

theorem nonneg (h : Cl w X x' x) : 0 ≤ X := (abs_nonneg _).trans h.2.1

theorem abs_le (h : Cl w X x' x) : |x'| ≤ w * X := by
  have := abs_sub_abs_le_abs_sub x' x
  linarith [h.2.1, h.2.2]

theorem mono (h : Cl w X x' x) (hv : w ≤ v) : Cl v X x' x :=
  ⟨h.1.trans hv, h.2.1, h.2.2.trans (mul_le_mul_of_nonneg_right (by linarith) h.nonneg)⟩

theorem mul (h : Cl w X x' x) (g : Cl v Y y' y) : Cl (w * v) (X * Y) (x' * y') (x * y) := by
  refine ⟨one_le_mul_of_one_le_of_one_le h.1 g.1, ?_, ?_⟩
  · rw [abs_mul]; exact mul_le_mul h.2.1 g.2.1 (abs_nonneg _) h.nonneg
  · rw [show x' * y' - x * y = x' * (y' - y) + (x' - x) * y by ring]
    refine (abs_add_le _ _).trans ?_
    rw [abs_mul, abs_mul]
    have e1 : |x'| * |y' - y| ≤ w * X * ((v - 1) * Y) := mul_le_mul h.abs_le g.2.2 (abs_nonneg _) (mul_nonneg (by linarith [h.1]) h.nonneg)
    have e2 : |x' - x| * |y| ≤ (w - 1) * X * Y := mul_le_mul h.2.2 g.2.1 (abs_nonneg _) (mul_nonneg (by linarith [h.1]) h.nonneg)
    linarith

theorem add (h : Cl w X x' x) (g : Cl w Y y' y) : Cl w (X + Y) (x' + y') (x + y) := by
  refine ⟨h.1, (abs_add_le _ _).trans (add_le_add h.2.1 g.2.1), ?_⟩
  rw [show x' + y' - (x + y) = (x' - x) + (y' - y) by ring, mul_add]
  exact (abs_add_le _ _).trans (add_le_add h.2.2 g.2.2)

theorem fl {z : ℝ} (h : Cl w X x' x) (hu : 0 ≤ u) (hz : |z - x'| ≤ u * |x'|) : Cl (w * (1 + u)) X z x := by
  refine ⟨one_le_mul_of_one_le_of_one_le h.1 (by linarith), h.2.1, ?_⟩
  have e := mul_le_mul_of_nonneg_left h.abs_le hu
  have := abs_add_le (z - x') (x' - x)
  rw [show z - x' + (x' - x) = z - x by ring] at this
  linarith [h.2.2]

theorem one : Cl 1 1 1 1 := ⟨le_rfl, by simp, by simp⟩

theorem expo {θ τ : ℝ} (h : |θ| ≤ τ) : Cl (Real.exp τ) 1 (Real.exp θ) 1 := by
  have h0 : 0 ≤ τ := (abs_nonneg _).trans h
  refine ⟨Real.one_le_exp h0, by simp, ?_⟩
  rw [mul_one, _root_.abs_le]
  have h1 := _root_.abs_le.mp h
  have a := Real.exp_le_exp.mpr h1.2
  have b := Real.exp_le_exp.mpr h1.1
  have c : 2 ≤ Real.exp τ + Real.exp (-τ) := by
    have := Real.add_one_le_exp τ
    have := Real.add_one_le_exp (-τ)
    linarith
  constructor <;> linarith

end Cl

variable {A : FlFun} {u : ℝ}

/-- A computed sum. -/
theorem SumOf.cl (hA : RelErr A u) {xs : List ℝ} {s : ℝ} (h : SumOf A xs s) {w : ℝ} (hw : 1 ≤ w) {ι : Type*} (f F : ι → ℝ) (is : List ι) (f' : ι → ℝ)
    (hf : ∀ i ∈ is, Cl w (F i) (f' i) (f i)) (hxs : xs = is.map f') :
    Cl (w * (1 + u) ^ xs.length) (is.map F).sum s (is.map f).sum := by
  have hu := hA.u0
  induction h generalizing is with
  | nil =>
    obtain rfl : is = [] := by simpa using hxs.symm
    exact ⟨by simpa using hw, by simp, by simp⟩
  | one x =>
    obtain ⟨i, rfl, rfl⟩ : ∃ i, is = [i] ∧ x = f' i := by
      match is, hxs with
      | [i], h => exact ⟨i, rfl, by simpa using h⟩
    have := hf i (by simp)
    simp only [List.map_cons, List.map_nil, List.sum_cons, List.sum_nil, add_zero, List.length_singleton, pow_one]
    exact this.mono (le_mul_of_one_le_right (by linarith) (by linarith))
  | @add xs ys s t h1 h2 hx hy ih1 ih2 =>
    obtain ⟨i1, i2, rfl, e1, e2⟩ := List.map_eq_append_iff.mp hxs.symm
    have c1 := ih1 i1 (fun i hi => hf i (by simp [hi])) e1.symm
    have c2 := ih2 i2 (fun i hi => hf i (by simp [hi])) e2.symm
    have l1 : 1 ≤ xs.length := List.length_pos_iff.mpr hx
    have l2 : 1 ≤ ys.length := List.length_pos_iff.mpr hy
    have p : ∀ {a b : ℕ}, a ≤ b → w * (1 + u) ^ a ≤ w * (1 + u) ^ b := fun h =>
      mul_le_mul_of_nonneg_left (pow_le_pow_right₀ (by linarith) h) (by linarith)
    have d1 := c1.mono (v := w * (1 + u) ^ (xs.length + ys.length - 1)) (p (by omega))
    have d2 := c2.mono (v := w * (1 + u) ^ (xs.length + ys.length - 1)) (p (by omega))
    have := (d1.add d2).fl hu (hA.add s t)
    rw [List.map_append, List.map_append, List.sum_append, List.sum_append, List.length_append]
    rw [mul_assoc, ← _root_.pow_succ, show xs.length + ys.length - 1 + 1 = xs.length + ys.length by omega] at this
    exact this
  | @perm xs ys s hp h ih =>
    obtain ⟨js, hj, e⟩ : ∃ js : List ι, js.Perm is ∧ js.map f' = xs := by
      rw [hxs] at hp
      have : Relation.Comp (fun a b => a = List.map f' b) (fun a b : List ι => a.Perm b) xs is := by
        rw [List.eq_map_comp_perm]; exact hp
      obtain ⟨js, h1, h2⟩ := this
      exact ⟨js, h2, h1.symm⟩
    have := ih js (fun i hi => hf i (hj.mem_iff.mp hi)) e.symm
    rw [(hj.map F).sum_eq, (hj.map f).sum_eq, hp.length_eq] at this
    exact this

/-! ## The scaling -/

variable {n p : ℕ}

/-- The computed sum of the logarithms. -/
theorem logSkal_err (hA : RelErr A u) {Z : ℝ} {e : RTElems n p} (hZ : LogSize Z e) (l1 l2 : Fin n) (s : Fin p) :
    |A.logSkal e l1 l2 s - e.logSkal l1 l2 s| ≤ 10 * u * Z ∧ |A.logSkal e l1 l2 s| ≤ 4.2 * Z := by
  have hu := hA.u0
  have hu1 := hA.u1
  have z1 := hZ.a2 l1
  have z2 := hZ.b2 s
  have z3 := hZ.V4 l1 s
  have z4 := hZ.V4 l2 s
  have hz : 0 ≤ Z := (abs_nonneg _).trans z1
  unfold FlFun.logSkal RTElems.logSkal
  obtain ⟨s1, e1⟩ : ∃ x, x = A.add (e.a2 l1) (e.b2 s) := ⟨_, rfl⟩
  obtain ⟨s2, e2⟩ : ∃ x, x = A.add s1 (e.V4 l1 s) := ⟨_, rfl⟩
  obtain ⟨s3, e3⟩ : ∃ x, x = A.add s2 (e.V4 l2 s) := ⟨_, rfl⟩
  rw [← e1, ← e2, ← e3]
  have q1 := hA.add (e.a2 l1) (e.b2 s)
  have q2 := hA.add s1 (e.V4 l1 s)
  have q3 := hA.add s2 (e.V4 l2 s)
  rw [← e1] at q1
  rw [← e2] at q2
  rw [← e3] at q3
  generalize e.a2 l1 = a at *
  generalize e.b2 s = b at *
  generalize e.V4 l1 s = c at *
  generalize e.V4 l2 s = d at *
  have b1 : |a + b| ≤ 2 * Z := (abs_add_le _ _).trans (by linarith)
  have r1 : |s1 - (a + b)| ≤ 2 * (u * Z) := q1.trans (by nlinarith)
  have uZ : 0 ≤ u * Z := mul_nonneg hu hz
  have uZ1 : u * Z ≤ Z / 100 := by nlinarith
  have b2 : |s1 + c| ≤ 3.02 * Z := by
    have := abs_add_three (s1 - (a + b)) (a + b) c
    rw [show s1 - (a + b) + (a + b) + c = s1 + c by ring] at this
    norm_num at *; linarith
  have r2 : |s2 - (s1 + c)| ≤ 3.02 * (u * Z) := q2.trans (by nlinarith)
  have b3 : |s2 + d| ≤ 4.06 * Z := by
    have := abs_add_three (s2 - (s1 + c)) (s1 + c) d
    rw [show s2 - (s1 + c) + (s1 + c) + d = s2 + d by ring] at this
    norm_num at *; linarith
  have r3 : |s3 - (s2 + d)| ≤ 4.06 * (u * Z) := q3.trans (by nlinarith)
  constructor
  · have := abs_add_three (s3 - (s2 + d)) (s2 - (s1 + c)) (s1 - (a + b))
    rw [show s3 - (s2 + d) + (s2 - (s1 + c)) + (s1 - (a + b)) = s3 - (a + b + c + d) by ring] at this
    norm_num at *; linarith
  · have := abs_add_le (s3 - (s2 + d)) (s2 + d)
    rw [show s3 - (s2 + d) + (s2 + d) = s3 by ring] at this
    have : 4.06 * (u * Z) ≤ 0.05 * Z := by norm_num; linarith
    norm_num at *; linarith

theorem round_abs {z x : ℝ} (hu1 : u ≤ 1 / 100) (h : |z - x| ≤ u * |x|) : |z| ≤ 1.01 * |x| := by
  have h1 := abs_sub_abs_le_abs_sub z x
  have h2 := mul_le_mul_of_nonneg_right hu1 (abs_nonneg x)
  norm_num at h1 h2 ⊢; linarith

theorem flNpArgmax (hp : 0 < p) (v : Fin p → ℝ) : ∃ o, npArgmax v = some o := by
  cases h : npArgmax v with
  | none =>
    unfold npArgmax at h
    rw [List.argmax_eq_none] at h
    exact absurd (List.finRange_eq_nil_iff.1 h) (by omega)
  | some o => exact ⟨o, rfl⟩

/-- The scaled logarithms: a slope times `l1 - l2`, up to rounding. -/
theorem singleKScale_err (hA : RelErr A u) {Z : ℝ} (hn : 0 < n) (hp : 0 < p) {X : Fin n → Fin n → Fin p → ℝ} (hX : ∀ l1 l2 s, |X l1 l2 s| ≤ 4.2 * Z) :
    ∃ Y a, A.singleKScale X = .ok Y ∧ ∀ l1 l2 s, |Y l1 l2 s - (a * ((l1.1 : ℝ) - l2.1) + X l1 l2 s)| ≤ 30 * u * Z := by
  have hu := hA.u0
  have hu1 := hA.u1
  have hz : 0 ≤ Z := by
    have := (abs_nonneg _).trans (hX ⟨0, hn⟩ ⟨0, hn⟩ ⟨0, hp⟩)
    norm_num at this; linarith
  have uZ : 0 ≤ u * Z := mul_nonneg hu hz
  match n, hn, X, hX with
  | 1, _, X, _ =>
    refine ⟨X, 0, rfl, fun l1 l2 s => ?_⟩
    rw [zero_mul, zero_add, sub_self, abs_zero]
    nlinarith
  | n + 2, _, X, hX =>
    obtain ⟨o, ho⟩ := flNpArgmax hp (X 0 (Fin.last (n + 1)))
    obtain ⟨t, ht⟩ : ∃ t, t = X 0 0 o - max (X 0 (Fin.last (n + 1)) o) (X (Fin.last (n + 1)) 0 o) := ⟨_, rfl⟩
    have ht1 : |t| ≤ 8.4 * Z := by
      rw [ht]
      refine (abs_sub _ _).trans ?_
      have h1 := hX 0 0 o
      have h2 : |max (X 0 (Fin.last (n + 1)) o) (X (Fin.last (n + 1)) 0 o)| ≤ 4.2 * Z := by
        rcases max_choice (X 0 (Fin.last (n + 1)) o) (X (Fin.last (n + 1)) 0 o) with h | h <;> rw [h] <;> exact hX _ _ _
      norm_num at *; linarith
    obtain ⟨f, hf⟩ : ∃ f, f = A.div 1 ((n : ℝ) + 1) := ⟨_, rfl⟩
    have n0 : (0 : ℝ) < n + 1 := by positivity
    have hf1 : |f| ≤ 1.01 * (1 / ((n : ℝ) + 1)) := by
      have := round_abs hu1 (hA.div 1 ((n : ℝ) + 1) n0.ne')
      rwa [← hf, abs_of_pos (by positivity : (0 : ℝ) < 1 / ((n : ℝ) + 1))] at this
    have hs1 : |A.sub (X 0 0 o) (max (X 0 (Fin.last (n + 1)) o) (X (Fin.last (n + 1)) 0 o))| ≤ 1.01 * |t| := by
      rw [ht]; exact round_abs hu1 (hA.sub _ _)
    obtain ⟨q, hq⟩ : ∃ q, q = |A.sub (X 0 0 o) (max (X 0 (Fin.last (n + 1)) o) (X (Fin.last (n + 1)) 0 o))| := ⟨_, rfl⟩
    rw [← hq] at hs1
    obtain ⟨r, hr⟩ : ∃ r, r = A.mul q f := ⟨_, rfl⟩
    have q0 : 0 ≤ q := hq ▸ abs_nonneg _
    have hr1 : |r| ≤ 8.7 * Z / ((n : ℝ) + 1) := by
      have h2 := round_abs hu1 (hA.mul q f)
      rw [← hr] at h2
      have h3 : |q * f| ≤ 1.01 * (8.4 * Z) * (1.01 * (1 / ((n : ℝ) + 1))) := by
        rw [abs_mul, abs_of_nonneg q0]
        refine mul_le_mul (hs1.trans ?_) hf1 (abs_nonneg _) (by positivity)
        norm_num at *; linarith
      have h4 : 1.01 * (8.4 * Z) * (1.01 * (1 / ((n : ℝ) + 1))) * 1.01 ≤ 8.7 * Z / ((n : ℝ) + 1) := by
        rw [div_eq_mul_one_div (8.7 * Z)]
        have : 0 ≤ Z * (1 / ((n : ℝ) + 1)) := by positivity
        norm_num at *; linarith
      refine h2.trans (le_trans ?_ h4)
      rw [mul_comm]
      exact mul_le_mul_of_nonneg_right h3 (by norm_num)
    refine ⟨fun l1 l2 s => A.add (if decide (X (Fin.last (n + 1)) 0 o > X 0 (Fin.last (n + 1)) o) = true then
      -(A.mul r ((l1.1 + 1 : ℝ) - (l2.1 + 1))) else A.mul r ((l1.1 + 1 : ℝ) - (l2.1 + 1))) (X l1 l2 s),
      if decide (X (Fin.last (n + 1)) 0 o > X 0 (Fin.last (n + 1)) o) = true then -r else r, ?_, fun l1 l2 s => ?_⟩
    · have : A.scaleSlope X = .ok (r, decide (X (Fin.last (n + 1)) 0 o > X 0 (Fin.last (n + 1)) o)) := by
        unfold FlFun.scaleSlope
        rw [ho, hr, hq, hf]
      show (A.scaleSlope X >>= fun a => _) = _
      rw [this]
      rfl
    · have hd : |((l1.1 + 1 : ℝ) - (l2.1 + 1))| ≤ (n : ℝ) + 1 := by
        have h1 : (l1.1 : ℝ) ≤ n + 1 := by have := l1.2; exact_mod_cast (show l1.1 ≤ n + 1 by omega)
        have h2 : (l2.1 : ℝ) ≤ n + 1 := by have := l2.2; exact_mod_cast (show l2.1 ≤ n + 1 by omega)
        have h3 : (0 : ℝ) ≤ l1.1 := Nat.cast_nonneg _
        have h4 : (0 : ℝ) ≤ l2.1 := Nat.cast_nonneg _
        rw [abs_le]; constructor <;> linarith
      obtain ⟨d, hdd⟩ : ∃ d : ℝ, d = (l1.1 + 1 : ℝ) - (l2.1 + 1) := ⟨_, rfl⟩
      rw [show ((l1.1 : ℝ) - l2.1) = d by rw [hdd]; ring]
      beta_reduce
      rw [← hdd] at hd ⊢
      have hrd : |r * d| ≤ 8.7 * Z := by
        rw [abs_mul]
        calc |r| * |d| ≤ 8.7 * Z / ((n : ℝ) + 1) * ((n : ℝ) + 1) := mul_le_mul hr1 hd (abs_nonneg _) (by positivity)
          _ = _ := by field_simp
      have hm : |A.mul r d - r * d| ≤ 8.7 * (u * Z) := (hA.mul r d).trans (by nlinarith)
      obtain ⟨K, K0, hK, e1, e2, e3⟩ : ∃ K K0, |K - K0| ≤ 8.7 * (u * Z) ∧ |K0| ≤ 8.7 * Z ∧
          K = (if decide (X (Fin.last (n + 1)) 0 o > X 0 (Fin.last (n + 1)) o) = true then -(A.mul r d) else A.mul r d) ∧
          K0 = (if decide (X (Fin.last (n + 1)) 0 o > X 0 (Fin.last (n + 1)) o) = true then -r else r) * d := by
        refine ⟨_, _, ?_, ?_, rfl, rfl⟩ <;> split_ifs
        · rw [show -A.mul r d - -r * d = -(A.mul r d - r * d) by ring, abs_neg]; exact hm
        · exact hm
        · rw [neg_mul, abs_neg]; exact hrd
        · exact hrd
      rw [← e2, ← e3]
      have hx := hX l1 l2 s
      have hadd := hA.add K (X l1 l2 s)
      have uZ1 : u * Z ≤ Z / 100 := by nlinarith
      have hKX : |K + X l1 l2 s| ≤ 13 * Z := by
        have := abs_add_three (K - K0) K0 (X l1 l2 s)
        rw [show K - K0 + K0 + X l1 l2 s = K + X l1 l2 s by ring] at this
        norm_num at *; linarith
      have := abs_add_le (A.add K (X l1 l2 s) - (K + X l1 l2 s)) (K - K0)
      rw [show A.add K (X l1 l2 s) - (K + X l1 l2 s) + (K - K0) = A.add K (X l1 l2 s) - (K0 + X l1 l2 s) by ring] at this
      have h5 : u * |K + X l1 l2 s| ≤ 13 * (u * Z) := by nlinarith
      norm_num at *; linarith

/-- The scaling factors. -/
theorem dynamicScaling_cl (hA : RelErr A u) {Z : ℝ} (hn : 0 < n) (hp : 0 < p) {e : RTElems n p} (hZ : LogSize Z e) :
    ∃ skal a, A.dynamicScaling (A.logSkal e) = .ok skal ∧ ∀ l1 l2 s, Cl (Real.exp (40 * u * Z) * (1 + u))
      (Real.exp (a * ((l1.1 : ℝ) - l2.1)) * Real.exp (e.logSkal l1 l2 s)) (skal l1 l2 s)
      (Real.exp (a * ((l1.1 : ℝ) - l2.1)) * Real.exp (e.logSkal l1 l2 s)) := by
  obtain ⟨Y, a, hY, hb⟩ := singleKScale_err hA hn hp fun l1 l2 s => (logSkal_err hA hZ l1 l2 s).2
  refine ⟨fun l1 l2 s => A.exp (Y l1 l2 s), a, by unfold FlFun.dynamicScaling; rw [hY]; rfl, fun l1 l2 s => ?_⟩
  have h1 := hb l1 l2 s
  have h2 := (logSkal_err hA hZ l1 l2 s).1
  obtain ⟨θ, hθ⟩ : ∃ θ, θ = Y l1 l2 s - (a * ((l1.1 : ℝ) - l2.1) + e.logSkal l1 l2 s) := ⟨_, rfl⟩
  have hθ1 : |θ| ≤ 40 * u * Z := by
    have := abs_add_le (Y l1 l2 s - (a * ((l1.1 : ℝ) - l2.1) + A.logSkal e l1 l2 s)) (A.logSkal e l1 l2 s - e.logSkal l1 l2 s)
    rw [show Y l1 l2 s - (a * ((l1.1 : ℝ) - l2.1) + A.logSkal e l1 l2 s) + (A.logSkal e l1 l2 s - e.logSkal l1 l2 s) = θ by rw [hθ]; ring] at this
    linarith
  obtain ⟨b, hbb⟩ : ∃ b, b = Real.exp (a * ((l1.1 : ℝ) - l2.1)) * Real.exp (e.logSkal l1 l2 s) := ⟨_, rfl⟩
  have b0 : 0 < b := by rw [hbb]; positivity
  rw [← hbb]
  have hy : Real.exp (Y l1 l2 s) = b * Real.exp θ := by
    rw [hbb, ← Real.exp_add, ← Real.exp_add, hθ]; congr 1; ring
  have c : Cl 1 b b b := ⟨le_rfl, (abs_of_pos b0).le, by simp⟩
  have := (c.mul (Cl.expo hθ1)).fl hA.u0 (z := A.exp (Y l1 l2 s)) (by
    rw [← hy, abs_of_pos (Real.exp_pos _)]; exact hA.exp _)
  rw [one_mul, mul_one] at this
  exact this

/-! ## One entry of the matrix -/

theorem fl_fac {z x : ℝ} (hu : 0 ≤ u) (h : |z - x| ≤ u * |x|) : ∃ f, Cl (1 + u) 1 f 1 ∧ z = x * f := by
  by_cases h0 : x = 0
  · rw [h0, abs_zero, mul_zero, sub_zero] at h
    refine ⟨1, ⟨by linarith, by simp, by simpa using hu⟩, ?_⟩
    rw [abs_nonpos_iff.mp h, h0, zero_mul]
  · refine ⟨z / x, ⟨by linarith, by simp, ?_⟩, by field_simp⟩
    rw [show z / x - 1 = (z - x) / x by field_simp, abs_div, div_le_iff₀ (abs_pos.mpr h0)]
    linarith

theorem term_fac (hA : RelErr A u) (sk a v0 b v1 w0 c w1 : ℝ) : ∃ F G H, Cl ((1 + u) ^ 3) 1 F 1 ∧ Cl ((1 + u) ^ 3) 1 G 1 ∧ Cl ((1 + u) ^ 3) 1 H 1 ∧
    A.term sk a v0 b v1 w0 c w1 = sk * a * (v0 * b * v1 * G + w0 * c * w1 * H) * F := by
  have hu := hA.u0
  have cube : ∀ {f g h : ℝ}, Cl (1 + u) 1 f 1 → Cl (1 + u) 1 g 1 → Cl (1 + u) 1 h 1 → Cl ((1 + u) ^ 3) 1 (f * g * h) 1 := by
    intro f g h p q r
    have := (p.mul q).mul r
    simp only [mul_one] at this
    rwa [show (1 + u) ^ 3 = (1 + u) * (1 + u) * (1 + u) by ring]
  obtain ⟨g1, p1, e1⟩ := fl_fac hu (hA.mul v0 b)
  obtain ⟨g2, p2, e2⟩ := fl_fac hu (hA.mul (A.mul v0 b) v1)
  obtain ⟨g3, p3, e3⟩ := fl_fac hu (hA.mul (A.mul (A.mul v0 b) v1) 1)
  obtain ⟨k1, q1, i1⟩ := fl_fac hu (hA.mul w0 c)
  obtain ⟨k2, q2, i2⟩ := fl_fac hu (hA.mul (A.mul w0 c) w1)
  obtain ⟨k3, q3, i3⟩ := fl_fac hu (hA.mul (A.mul (A.mul w0 c) w1) 1)
  obtain ⟨f1, r1, j1⟩ := fl_fac hu (hA.add (A.mul (A.mul (A.mul v0 b) v1) 1) (A.mul (A.mul (A.mul w0 c) w1) 1))
  obtain ⟨f2, r2, j2⟩ := fl_fac hu (hA.mul sk a)
  obtain ⟨f3, r3, j3⟩ := fl_fac hu (hA.mul (A.mul sk a) (A.add (A.mul (A.mul (A.mul v0 b) v1) 1) (A.mul (A.mul (A.mul w0 c) w1) 1)))
  refine ⟨f1 * f2 * f3, g1 * g2 * g3, k1 * k2 * k3, cube r1 r2 r3, cube p1 p2 p3, cube q1 q2 q3, ?_⟩
  unfold FlFun.term
  rw [j3, j2, j1, e3, e2, e1, i3, i2, i1]
  ring

theorem entry_cl (hA : RelErr A u) {sum : (p : ℕ) → (Fin p → ℝ) → ℝ} (hS : Sums A sum) {W δ ε g ea : ℝ} (hg : 0 < g) (hea : 0 < ea) (hδ : 0 ≤ δ) (hε : 0 ≤ ε) (hW : 1 ≤ W)
    {skal eb ei ej : Fin p → ℝ} (heb : ∀ s, 0 < eb s) (hei : ∀ s, 0 < ei s) (hej : ∀ s, 0 < ej s)
    (hs : ∀ s, Cl W (g * (ea * eb s * ei s * ej s)) (skal s) (g * (ea * eb s * ei s * ej s)))
    {a x X : ℝ} {v0 b v1 w0 c w1 x0 xb x1 y0 xc y1 X0 Xb X1 Y0 Xc Y1 : Fin p → ℝ} (ha : Cl (1 + δ) X (a * ea) x)
    (h0 : ∀ s, Cl (1 + ε) (X0 s) (v0 s * ei s) (x0 s)) (hb : ∀ s, Cl (1 + δ) (Xb s) (b s * eb s) (xb s)) (h1 : ∀ s, Cl (1 + ε) (X1 s) (v1 s * ej s) (x1 s))
    (k0 : ∀ s, Cl (1 + ε) (Y0 s) (w0 s * ei s) (y0 s)) (hc : ∀ s, Cl (1 + δ) (Xc s) (c s * eb s) (xc s)) (k1 : ∀ s, Cl (1 + ε) (Y1 s) (w1 s * ej s) (y1 s)) :
    Cl ((1 + δ) ^ 2 * (1 + ε) ^ 2 * W * (1 + u) ^ (p + 6)) (∑ s, (X * X0 s * Xb s * X1 s + X * Y0 s * Xc s * Y1 s))
      (sum p (fun s => A.term (skal s) a (v0 s) (b s) (v1 s) (w0 s) (c s) (w1 s)) / g) (∑ s, (x * x0 s * xb s * x1 s + x * y0 s * xc s * y1 s)) := by
  have hu := hA.u0
  have key : ∀ s, Cl ((1 + δ) ^ 2 * (1 + ε) ^ 2 * W * (1 + u) ^ 6) (g * (X * X0 s * Xb s * X1 s + X * Y0 s * Xc s * Y1 s))
      (A.term (skal s) a (v0 s) (b s) (v1 s) (w0 s) (c s) (w1 s)) (g * (x * x0 s * xb s * x1 s + x * y0 s * xc s * y1 s)) := by
    intro s
    obtain ⟨F, G, H, hF, hG, hH, e⟩ := term_fac hA (skal s) a (v0 s) (b s) (v1 s) (w0 s) (c s) (w1 s)
    have base : 0 < g * (ea * eb s * ei s * ej s) := mul_pos hg (mul_pos (mul_pos (mul_pos hea (heb s)) (hei s)) (hej s))
    obtain ⟨φ, hφ, eφ⟩ : ∃ φ, Cl W 1 φ 1 ∧ skal s = g * (ea * eb s * ei s * ej s) * φ := by
      have hss := hs s
      generalize g * (ea * eb s * ei s * ej s) = t at *
      refine ⟨skal s / t, ⟨hss.1, by simp, ?_⟩, by field_simp⟩
      rw [show skal s / t - 1 = (skal s - t) / t by field_simp, abs_div, abs_of_pos base, div_le_iff₀ base, mul_one]
      exact hss.2.2
    have c1 := ((((h0 s).mul (hb s)).mul (h1 s)).mul hG).add ((((k0 s).mul (hc s)).mul (k1 s)).mul hH)
    have cg : Cl 1 g g g := ⟨le_rfl, (abs_of_pos hg).le, by simp⟩
    have c2 := (((cg.mul ha).mul c1).mul hφ).mul hF
    refine Eq.mp ?_ c2
    congr 1
    · ring
    · ring
    · rw [e, eφ]; ring
    · ring
  have := SumOf.cl hA (hS p fun s => A.term (skal s) a (v0 s) (b s) (v1 s) (w0 s) (c s) (w1 s))
    (w := (1 + δ) ^ 2 * (1 + ε) ^ 2 * W * (1 + u) ^ 6) ?_
    (fun s => g * (x * x0 s * xb s * x1 s + x * y0 s * xc s * y1 s)) (fun s => g * (X * X0 s * Xb s * X1 s + X * Y0 s * Xc s * Y1 s)) (List.finRange p)
    (fun s => A.term (skal s) a (v0 s) (b s) (v1 s) (w0 s) (c s) (w1 s)) (fun s _ => key s) (List.ofFn_eq_map ..)
  · rw [List.length_ofFn, ← List.ofFn_eq_map, ← List.ofFn_eq_map, List.sum_ofFn, List.sum_ofFn, ← Finset.mul_sum, ← Finset.mul_sum] at this
    have ci : Cl 1 (1 / g) (1 / g) (1 / g) := ⟨le_rfl, (abs_of_pos (by positivity)).le, by simp⟩
    refine Eq.mp ?_ (this.mul ci)
    congr 1
    · ring
    · field_simp
    · rw [mul_one_div]
    · field_simp
  · have h1 : 1 ≤ (1 + δ) ^ 2 := one_le_pow₀ (by linarith)
    have h2 : 1 ≤ (1 + ε) ^ 2 := one_le_pow₀ (by linarith)
    have h3 : 1 ≤ (1 + u) ^ 6 := one_le_pow₀ (by linarith)
    exact one_le_mul_of_one_le_of_one_le (one_le_mul_of_one_le_of_one_le (one_le_mul_of_one_le_of_one_le h1 h2) hW) h3

end CasSph
