import Verif.Model.Helpers
import Verif.Model.DataInterp
import Verif.Lemmas.Gaunt
import Verif.Lemmas.LinAlg
import Mathlib.Data.Nat.Factorial.DoubleFactorial
import Mathlib.Algebra.Polynomial.Derivative

/-! # C67-C69, C90: helper functions -/

namespace CasSph

open scoped Classical

/-! ## C67 -/

/-- C67: `ln_2dbl(n)` is the logarithm of `(2n-1)!! = 1·3·5⋯(2n-1)`. -/
theorem C67_ln_2dbl (n : ℕ) : ln2dbl n = Real.log (∏ i ∈ Finset.range n, (2 * (i : ℝ) + 1)) := by
  have key : ((2 * n).factorial : ℝ) = (∏ i ∈ Finset.range n, (2 * (i : ℝ) + 1)) * (2 ^ n * n.factorial) := by
    induction n with
    | zero => simp
    | succ n ih =>
      rw [show 2 * (n + 1) = (2 * n + 1) + 1 by ring, Nat.factorial_succ, Nat.factorial_succ (2 * n),
        Finset.prod_range_succ, Nat.factorial_succ n]
      push_cast
      rw [ih]
      ring
  have h1 : lgam (2 * (n : ℝ) + 1) = Real.log ((2 * n).factorial : ℝ) := by
    rw [← lgam_nat]; push_cast; rfl
  have hp : 0 < ∏ i ∈ Finset.range n, (2 * (i : ℝ) + 1) := Finset.prod_pos fun i _ => by positivity
  have hf : (0:ℝ) < n.factorial := by positivity
  unfold ln2dbl
  rw [h1, lgam_nat, key, Real.log_mul hp.ne' (by positivity), Real.log_mul (by positivity) hf.ne', Real.log_pow]
  ring

/-- C67: the same with Mathlib's double factorial. -/
theorem C67_doubleFactorial (n : ℕ) : ln2dbl (n + 1) = Real.log ((2 * n + 1).doubleFactorial : ℝ) := by
  have := C67_ln_2dbl (n + 1)
  push_cast at this
  rw [this]
  congr 1
  have h := Nat.doubleFactorial_eq_prod_odd n
  rw [h, Finset.prod_range_succ']
  push_cast
  simp

/-- C67: `lfac(n)` is the logarithm of `n!`. -/
theorem C67_lfac (n : ℕ) : lfac n = Real.log (n.factorial : ℝ) := lgam_nat n

example : ln2dbl 3 = Real.log 15 := by
  have := C67_ln_2dbl 3
  norm_num [Finset.prod_range_succ] at this
  exact this

/-! ## C68 -/

theorem diff_ok {f : List ℝ} {h : ℝ} (hf : 3 ≤ f.length) : ∃ d, differences f h = .ok d ∧ d.length = f.length ∧
    (∀ i, 2 ≤ i → i + 2 < f.length → d.getD i 0 =
      (-f.getD (i + 2) 0 + 8 * f.getD (i + 1) 0 - 8 * f.getD (i - 1) 0 + f.getD (i - 2) 0) / (12 * h)) ∧
    (∀ i, (i = 1 ∨ i + 2 = f.length) → d.getD i 0 = (f.getD (i + 1) 0 - f.getD (i - 1) 0) / (2 * h)) ∧
    d.getD 0 0 = (f.getD 1 0 - f.getD 0 0) / h ∧
    d.getD (f.length - 1) 0 = (f.getD (f.length - 1) 0 - f.getD (f.length - 2) 0) / h := by
  unfold differences
  rw [if_neg (by omega)]
  have get : ∀ (n : ℕ) (F : ℕ → ℝ) (i : ℕ), i < n → ((List.range n).map F).getD i 0 = F i := by
    intro n F i hi
    rw [List.getD_eq_getElem?_getD, List.getElem?_map, List.getElem?_range hi]; rfl
  refine ⟨_, rfl, by simp, fun i h1 h2 => ?_, fun i hi => ?_, ?_, ?_⟩
  · rw [get _ _ _ (by omega), if_neg (by omega), if_neg (by omega), if_neg (by omega), if_neg (by omega)]
  · rw [get _ _ _ (by omega)]
    rw [if_neg (by omega), if_neg (by omega)]
    split
    · rename_i h'; rw [← h']
    · rcases hi with rfl | hi
      · rw [if_pos rfl]
      · omega
  · rw [get _ _ _ (by omega), if_neg (by omega), if_pos rfl]
  · rw [get _ _ _ (by omega), if_pos rfl]; congr 1

/-- samples of a function on an equidistant grid -/
noncomputable def samples (F : ℝ → ℝ) (a h : ℝ) (n : ℕ) : List ℝ := (List.range n).map fun i : ℕ => F (a + i * h)

theorem samples_length (F : ℝ → ℝ) (a h : ℝ) (n : ℕ) : (samples F a h n).length = n := by simp [samples]

theorem samples_get {F : ℝ → ℝ} {a h : ℝ} {n i : ℕ} (hi : i < n) : (samples F a h n).getD i 0 = F (a + i * h) := by
  unfold samples
  rw [List.getD_eq_getElem?_getD, List.getElem?_map, List.getElem?_range hi]; rfl

/-- the five point formula is exact for quartics -/
theorem five_exact {P : Polynomial ℝ} (hP : P.natDegree ≤ 4) (x : ℝ) {h : ℝ} (hh : h ≠ 0) :
    (-P.eval (x + 2 * h) + 8 * P.eval (x + h) - 8 * P.eval (x - h) + P.eval (x - 2 * h)) / (12 * h) =
      P.derivative.eval x := by
  rw [Polynomial.eval_eq_sum_range' (n := 5) (by omega), Polynomial.eval_eq_sum_range' (n := 5) (by omega),
    Polynomial.eval_eq_sum_range' (n := 5) (by omega), Polynomial.eval_eq_sum_range' (n := 5) (by omega),
    Polynomial.eval_eq_sum_range' (n := 4) (by have := Polynomial.natDegree_derivative_le P; omega)]
  simp only [Finset.sum_range_succ, Finset.sum_range_zero, Polynomial.coeff_derivative]
  field_simp
  push_cast
  ring

theorem central_exact {P : Polynomial ℝ} (hP : P.natDegree ≤ 2) (x : ℝ) {h : ℝ} (hh : h ≠ 0) :
    (P.eval (x + h) - P.eval (x - h)) / (2 * h) = P.derivative.eval x := by
  rw [Polynomial.eval_eq_sum_range' (n := 3) (by omega), Polynomial.eval_eq_sum_range' (n := 3) (by omega),
    Polynomial.eval_eq_sum_range' (n := 2) (by have := Polynomial.natDegree_derivative_le P; omega)]
  simp only [Finset.sum_range_succ, Finset.sum_range_zero, Polynomial.coeff_derivative]
  field_simp
  push_cast
  ring

theorem forward_exact {P : Polynomial ℝ} (hP : P.natDegree ≤ 1) (x y : ℝ) {h : ℝ} (hh : h ≠ 0) :
    (P.eval (x + h) - P.eval x) / h = P.derivative.eval y := by
  rw [Polynomial.eval_eq_sum_range' (n := 2) (by omega), Polynomial.eval_eq_sum_range' (n := 2) (by omega),
    Polynomial.eval_eq_sum_range' (n := 1) (by have := Polynomial.natDegree_derivative_le P; omega)]
  simp only [Finset.sum_range_succ, Finset.sum_range_zero, Polynomial.coeff_derivative]
  field_simp
  push_cast
  ring

theorem diff_poly (P : Polynomial ℝ) (a : ℝ) {h : ℝ} (hh : h ≠ 0) {n : ℕ} (hn : 3 ≤ n) :
    ∃ d, differences (samples (P.eval ·) a h n) h = .ok d ∧ d.length = n ∧
      (P.natDegree ≤ 4 → ∀ i, 2 ≤ i → i + 2 < n → d.getD i 0 = P.derivative.eval (a + i * h)) ∧
      (P.natDegree ≤ 2 → ∀ i, 1 ≤ i → i + 1 < n → d.getD i 0 = P.derivative.eval (a + i * h)) ∧
      (P.natDegree ≤ 1 → ∀ i, i < n → d.getD i 0 = P.derivative.eval (a + i * h)) := by
  have hl := samples_length (P.eval ·) a h n
  obtain ⟨d, h1, h2, h3, h4, h5, h6⟩ := diff_ok (f := samples (P.eval ·) a h n) (h := h) (by rw [hl]; exact hn)
  rw [hl] at h2 h3 h4 h6
  have g : ∀ i, i < n → (samples (P.eval ·) a h n).getD i 0 = P.eval (a + i * h) := fun i hi => samples_get hi
  have q4 : P.natDegree ≤ 4 → ∀ i, 2 ≤ i → i + 2 < n → d.getD i 0 = P.derivative.eval (a + i * h) := by
    intro hP i i1 i2
    have e1 : a + ((i + 2 : ℕ) : ℝ) * h = a + i * h + 2 * h := by push_cast; ring
    have e2 : a + ((i + 1 : ℕ) : ℝ) * h = a + i * h + h := by push_cast; ring
    have e3 : a + ((i - 1 : ℕ) : ℝ) * h = a + i * h - h := by rw [Nat.cast_sub (by omega)]; push_cast; ring
    have e4 : a + ((i - 2 : ℕ) : ℝ) * h = a + i * h - 2 * h := by rw [Nat.cast_sub (by omega)]; push_cast; ring
    rw [h3 i i1 i2, g _ (by omega), g _ (by omega), g _ (by omega), g _ (by omega), e1, e2, e3, e4, five_exact hP _ hh]
  have q2 : P.natDegree ≤ 2 → ∀ i, 1 ≤ i → i + 1 < n → d.getD i 0 = P.derivative.eval (a + i * h) := by
    intro hP i i1 i2
    by_cases hi : i = 1 ∨ i + 2 = n
    · have e2 : a + ((i + 1 : ℕ) : ℝ) * h = a + i * h + h := by push_cast; ring
      have e3 : a + ((i - 1 : ℕ) : ℝ) * h = a + i * h - h := by rw [Nat.cast_sub (by omega)]; push_cast; ring
      rw [h4 i hi, g _ (by omega), g _ (by omega), e2, e3, central_exact hP _ hh]
    · exact q4 (by omega) i (by omega) (by omega)
  refine ⟨d, h1, h2, q4, q2, fun hP i hi => ?_⟩
  by_cases i0 : i = 0
  · subst i0
    rw [h5, g _ (by omega), g _ (by omega), ← forward_exact hP a _ hh]
    simp
  · by_cases i1 : i = n - 1
    · subst i1
      have e1 : a + ((n - 1 : ℕ) : ℝ) * h = a + (n - 2 : ℕ) * h + h := by
        rw [show n - 1 = n - 2 + 1 by omega]; push_cast; ring
      rw [h6, g _ (by omega), g _ (by omega)]
      conv_lhs => rw [e1]
      rw [forward_exact hP _ _ hh]
    · exact q2 (by omega) i (by omega) (by omega)

/-- C68: on an equidistant grid `num_derivative` returns an array of the same length which is exact for quartic
polynomials from the third to the last but two point, for quadratic ones except at the ends, and for linear functions
everywhere. -/
theorem C68_exact (P : Polynomial ℝ) (a : ℝ) {h : ℝ} (hh : 0 < h) {n : ℕ} (hn : 3 ≤ n) :
    ∃ d, numDerivative (samples (P.eval ·) a h n) (samples id a h n) = .ok d ∧ d.length = n ∧
      (P.natDegree ≤ 4 → ∀ i, 2 ≤ i → i + 2 < n → d.getD i 0 = P.derivative.eval (a + i * h)) ∧
      (P.natDegree ≤ 2 → ∀ i, 1 ≤ i → i + 1 < n → d.getD i 0 = P.derivative.eval (a + i * h)) ∧
      (P.natDegree ≤ 1 → ∀ i, i < n → d.getD i 0 = P.derivative.eval (a + i * h)) := by
  obtain ⟨d, h1, h2⟩ := diff_poly P a hh.ne' hn
  refine ⟨d, ?_, h2⟩
  have c : ∀ i, i < n → cget (samples id a h n) i = .ok (a + i * h) := by
    intro i hi
    apply cget_ok
    unfold samples
    rw [List.getElem?_map, List.getElem?_range hi]; rfl
  unfold numDerivative
  rw [c 1 (by omega), ok_bind, c 0 (by omega), ok_bind]
  have e : a + ((1:ℕ):ℝ) * h - (a + ((0:ℕ):ℝ) * h) = h := by push_cast; ring
  simp only [e]
  rw [if_neg (by simpa using hh), h1]

/-- C68: a first step that is not positive is a ValueError, fewer than three values (or two grid points) an
IndexError. -/
theorem C68_errors (f x : List ℝ) :
    (x.length < 2 → numDerivative f x = .error .indexError) ∧
    (∀ x0 x1 r, x = x0 :: x1 :: r → x1 ≤ x0 → numDerivative f x = .error .valueError) ∧
    (∀ x0 x1 r, x = x0 :: x1 :: r → x0 < x1 → f.length < 3 → numDerivative f x = .error .indexError) := by
  refine ⟨fun h => ?_, fun x0 x1 r h h' => ?_, fun x0 x1 r h h' hf => ?_⟩
  · unfold numDerivative cget
    rw [List.getElem?_eq_none (by omega)]; rfl
  · subst h
    unfold numDerivative
    rw [cget_ok (x := x1) (by simp), ok_bind, cget_ok (x := x0) (by simp), ok_bind]
    simp only
    rw [if_pos (by simpa using h')]
  · subst h
    unfold numDerivative differences
    rw [cget_ok (x := x1) (by simp), ok_bind, cget_ok (x := x0) (by simp), ok_bind]
    simp only
    rw [if_neg (by simpa using h'), if_pos hf]

/-- C68 is sharp: at the second point the cubic `x³` is off by `h²`. -/
theorem C68_sharp (a : ℝ) {h : ℝ} (hh : 0 < h) {n : ℕ} (hn : 3 ≤ n) :
    ∃ d, numDerivative (samples (fun x => x ^ 3) a h n) (samples id a h n) = .ok d ∧
      d.getD 1 0 = 3 * (a + h) ^ 2 + h ^ 2 := by
  have c : ∀ i, i < n → cget (samples id a h n) i = .ok (a + i * h) := by
    intro i hi
    apply cget_ok
    unfold samples
    rw [List.getElem?_map, List.getElem?_range hi]; rfl
  have hl := samples_length (fun x => x ^ 3) a h n
  obtain ⟨d, h1, h2, h3, h4, h5, h6⟩ := diff_ok (f := samples (fun x => x ^ 3) a h n) (h := h) (by rw [hl]; exact hn)
  refine ⟨d, ?_, ?_⟩
  · unfold numDerivative
    rw [c 1 (by omega), ok_bind, c 0 (by omega), ok_bind]
    have e : a + ((1:ℕ):ℝ) * h - (a + ((0:ℕ):ℝ) * h) = h := by push_cast; ring
    simp only [e]
    rw [if_neg (by simpa using hh), h1]
  · rw [h4 1 (Or.inl rfl), samples_get (by omega), samples_get (by omega)]
    push_cast
    have := hh.ne'
    field_simp
    ring

example : ∃ d, numDerivative (samples (fun x => x ^ 3) 0 1 7) (samples id 0 1 7) = .ok d ∧ d.getD 1 0 = 4 := by
  obtain ⟨d, h, h'⟩ := C68_sharp 0 one_pos (n := 7) (by norm_num)
  exact ⟨d, h, by rw [h']; norm_num⟩

/-! ## C69 -/

/-- data with increasing abscissae -/
def Increasing (data : List (ℝ × ℝ)) : Prop := data.Pairwise fun a b => a.1 < b.1

/-- C69: the interpolation of the code is the linear one: on the chord between neighbouring data. -/
theorem C69_chord {data : List (ℝ × ℝ)} (hd : Increasing data) {i : ℕ} {x0 y0 x1 y1 p : ℝ}
    (h0 : data[i]? = some (x0, y0)) (h1 : data[i + 1]? = some (x1, y1)) (hp0 : x0 ≤ p) (hp1 : p ≤ x1) :
    linInterp data p = y0 + (p - x0) * ((y1 - y0) / (x1 - x0)) := by
  induction data generalizing i with
  | nil => simp at h0
  | cons a rest ih =>
    cases rest with
    | nil => simp at h1
    | cons b rest =>
      obtain ⟨xa, ya⟩ := a
      obtain ⟨xb, yb⟩ := b
      unfold linInterp
      cases i with
      | zero =>
        simp only [List.getElem?_cons_zero, zero_add, List.getElem?_cons_succ, Option.some.injEq, Prod.mk.injEq] at h0 h1
        obtain ⟨rfl, rfl⟩ := h0
        obtain ⟨rfl, rfl⟩ := h1
        rw [if_pos (Or.inl hp1)]
      | succ i =>
        rw [List.getElem?_cons_succ] at h0 h1
        have hd' : Increasing ((xb, yb) :: rest) := hd.of_cons
        have key := ih hd' h0 h1
        split
        · rename_i hc
          rcases hc with hc | hc
          · have hx : xb ≤ x0 := by
              cases i with
              | zero => simp at h0; exact h0.1.le
              | succ i =>
                rw [List.getElem?_cons_succ] at h0
                exact ((List.pairwise_cons.1 hd').1 _ (List.mem_of_getElem? h0)).le
            have e : p = xb := by linarith
            have e0 : x0 = xb := by linarith
            cases i with
            | zero =>
              simp only [List.getElem?_cons_zero, Option.some.injEq, Prod.mk.injEq] at h0
              obtain ⟨-, rfl⟩ := h0
              have hab : xa < xb := (List.pairwise_cons.1 hd).1 (xb, yb) (by simp)
              have : xb - xa ≠ 0 := by linarith
              rw [e, e0]
              field_simp
              ring
            | succ i =>
              rw [List.getElem?_cons_succ] at h0
              have := (List.pairwise_cons.1 hd').1 _ (List.mem_of_getElem? h0)
              simp only at this
              linarith
          · subst hc
            simp at h1
        · exact key

/-- C69: at the data points the data are returned. -/
theorem C69_data {data : List (ℝ × ℝ)} (hd : Increasing data) {a : ℝ × ℝ} (ha : a ∈ data) : linInterp data a.1 = a.2 := by
  obtain ⟨i, hi, h⟩ := List.getElem_of_mem ha
  have h0 : data[i]? = some a := by rw [List.getElem?_eq_getElem hi, h]
  by_cases hn : i + 1 < data.length
  · have h1 : data[i + 1]? = some data[i + 1] := List.getElem?_eq_getElem hn
    have hlt : a.1 < data[i + 1].1 := by
      rw [← h]; exact List.pairwise_iff_getElem.1 hd i (i + 1) hi hn (by omega)
    rw [C69_chord hd (x0 := a.1) (y0 := a.2) (x1 := data[i + 1].1) (y1 := data[i + 1].2) h0 h1 le_rfl hlt.le]
    ring
  · cases i with
    | zero =>
      obtain ⟨b, rfl⟩ : ∃ b, data = [b] := by
        apply List.length_eq_one_iff.1; omega
      simp at h0; subst h0; rfl
    | succ i =>
      have h1 : data[i]? = some data[i] := List.getElem?_eq_getElem (by omega)
      have hlt : data[i].1 < a.1 := by
        rw [← h]; exact List.pairwise_iff_getElem.1 hd i (i + 1) (by omega) hi (by omega)
      rw [C69_chord hd (x0 := data[i].1) (y0 := data[i].2) (x1 := a.1) (y1 := a.2) h1 h0 hlt.le le_rfl]
      have : a.1 - data[i].1 ≠ 0 := by linarith
      field_simp
      ring

theorem first_ok {α : Type} {l : List α} {a : α} (h : l.head? = some a) : first l = .ok a := by unfold first; rw [h]
theorem last_ok {α : Type} {l : List α} {a : α} (h : l.getLast? = some a) : last l = .ok a := by unfold last; rw [h]

/-- for a sorted list, consecutive filters give the list back -/
theorem sorted_split {l : List ℝ} (hl : l.Pairwise (· ≤ ·)) {p q : ℝ → Prop} [DecidablePred p] [DecidablePred q]
    (hpq : ∀ x y, x ≤ y → p y → p x) (hqq : ∀ x y, x ≤ y → q x → q y) (hd : ∀ x ∈ l, ¬ (p x ∧ q x)) :
    l = (l.filter fun x => p x) ++ (l.filter fun x => ¬ p x ∧ ¬ q x) ++ (l.filter fun x => q x) := by
  induction l with
  | nil => rfl
  | cons a l ih =>
    have ih := ih hl.of_cons (fun x hx => hd x (List.mem_cons_of_mem _ hx))
    have ha := List.pairwise_cons.1 hl
    by_cases h1 : p a
    · have h2 : ¬ q a := fun h => hd a (by simp) ⟨h1, h⟩
      conv_lhs => rw [ih]
      simp [List.filter_cons, h1, h2]
    · have np : l.filter (fun x => p x) = [] := by
        rw [List.filter_eq_nil_iff]
        intro x hx
        simpa using fun h => h1 (hpq _ _ (ha.1 x hx) h)
      by_cases h2 : q a
      · have aq : ∀ x ∈ l, q x := fun x hx => hqq _ _ (ha.1 x hx) h2
        have nm : l.filter (fun x => ¬ p x ∧ ¬ q x) = [] := by
          rw [List.filter_eq_nil_iff]
          intro x hx
          simp [aq x hx]
        have fq : l.filter (fun x => q x) = l := by
          rw [List.filter_eq_self]
          intro x hx
          simpa using aq x hx
        simp only [List.filter_cons, h1, h2, np, nm, fq]; simp
      · conv_lhs => rw [ih]
        simp [h1, h2, np]

/-- The value intended for a frequency: interpolated inside the range of the data, fitted outside. -/
noncomputable def drudeSpec (data : List (ℝ × ℝ)) (a b : ℝ) (wp g w : ℝ) : ℝ :=
  if a < w ∧ w < b then linInterp data w else 1 + wp ^ 2 / (w * (w + g))

/-- C69: for a sorted grid of at least two frequencies reaching above the lower and below the upper end of the data, one
value per frequency is returned, in order: interpolated strictly inside the range of the data, fitted elsewhere. -/
theorem C69_grid (D : DataIE) (hd : Increasing D.data) {lo hi : ℝ × ℝ} (h0 : D.data.head? = some lo)
    (hN : D.data.getLast? = some hi) (hlh : lo.1 < hi.1) {wp g : ℝ} (hfit : D.fit = .ok (wp, g)) {w : List ℝ}
    (hw : w.Pairwise (· ≤ ·)) (hl : 2 ≤ w.length) (h1 : ∃ x ∈ w, lo.1 < x) (h2 : ∃ x ∈ w, x < hi.1) :
    D.getDrudeData w = .ok (w.map (drudeSpec D.data lo.1 hi.1 wp g)) := by
  -- the smallest frequency above the lower end
  have e1 : ∃ xl, (w.filter fun x => x > lo.1).head? = some xl := by
    obtain ⟨x, hx, hx'⟩ := h1
    have : w.filter (fun x => x > lo.1) ≠ [] := List.ne_nil_of_mem (List.mem_filter.2 ⟨hx, by simpa using hx'⟩)
    exact ⟨_, List.head?_eq_some_head this⟩
  have e2 : ∃ xu, (w.filter fun x => x < hi.1).getLast? = some xu := by
    obtain ⟨x, hx, hx'⟩ := h2
    have : w.filter (fun x => x < hi.1) ≠ [] := List.ne_nil_of_mem (List.mem_filter.2 ⟨hx, by simpa using hx'⟩)
    exact ⟨_, List.getLast?_eq_some_getLast this⟩
  obtain ⟨xl, hxl⟩ := e1
  obtain ⟨xu, hxu⟩ := e2
  have ml := List.mem_filter.1 (List.mem_of_head? hxl)
  have mu := List.mem_filter.1 (List.mem_of_getLast? hxu)
  have hxl1 : lo.1 < xl := by simpa using ml.2
  have hxu1 : xu < hi.1 := by simpa using mu.2
  -- it is minimal
  have minl : ∀ x ∈ w, lo.1 < x → xl ≤ x := by
    intro x hx hx'
    have hs := hw.filter (fun x => decide (x > lo.1))
    obtain ⟨t, ht⟩ := List.head?_eq_some_iff.1 hxl
    have hm : x ∈ w.filter fun x => x > lo.1 := List.mem_filter.2 ⟨hx, by simpa using hx'⟩
    rw [ht] at hs hm
    rcases List.mem_cons.1 hm with rfl | hm
    · exact le_rfl
    · exact (List.pairwise_cons.1 hs).1 _ hm
  have maxu : ∀ x ∈ w, x < hi.1 → x ≤ xu := by
    intro x hx hx'
    have hs := hw.filter (fun x => decide (x < hi.1))
    obtain ⟨t, ht⟩ := List.getLast?_eq_some_iff.1 hxu
    have hm : x ∈ w.filter fun x => x < hi.1 := List.mem_filter.2 ⟨hx, by simpa using hx'⟩
    rw [ht] at hs hm
    rcases List.mem_append.1 hm with hm | hm
    · exact (List.pairwise_append.1 hs).2.2 _ hm _ (by simp)
    · simp at hm; exact hm.le
  have c1 : ∀ x ∈ w, (x < xl ↔ x ≤ lo.1) := fun x hx =>
    ⟨fun h => not_lt.1 fun h' => absurd (minl x hx h') (not_le.2 h), fun h => h.trans_lt hxl1⟩
  have c2 : ∀ x ∈ w, (x > xu ↔ hi.1 ≤ x) := fun x hx =>
    ⟨fun h => not_lt.1 fun h' => absurd (maxu x hx h') (not_le.2 h), fun h => hxu1.trans_le h⟩
  have f1 : w.filter (fun x => x < xl) = w.filter (fun x => x ≤ lo.1) :=
    List.filter_congr fun x hx => by simpa using c1 x hx
  have f3 : w.filter (fun x => x > xu) = w.filter (fun x => hi.1 ≤ x) :=
    List.filter_congr fun x hx => by simpa using c2 x hx
  have f2 : w.filter (fun x => x ≥ xl ∧ x ≤ xu) = w.filter (fun x => ¬ x ≤ lo.1 ∧ ¬ hi.1 ≤ x) :=
    List.filter_congr fun x hx => by
      have a := c1 x hx
      have b := c2 x hx
      simp only [decide_eq_decide]
      rw [← a, ← b]; simp
  have hsplit := sorted_split hw (p := fun x => x ≤ lo.1) (q := fun x => hi.1 ≤ x)
    (fun x y h h' => h.trans h') (fun x y h h' => h'.trans h) (fun x _ h => by linarith [h.1, h.2])
  have hint : interpCall D.data (w.filter fun x => x ≥ xl ∧ x ≤ xu) =
      .ok ((w.filter fun x => ¬ x ≤ lo.1 ∧ ¬ hi.1 ≤ x).map (linInterp D.data)) := by
    unfold interpCall
    rw [first_ok h0, ok_bind, last_ok hN, ok_bind, f2, if_neg]
    rintro ⟨p, hp, hp'⟩
    have := (List.mem_filter.1 hp).2
    simp only [not_le, decide_eq_true_eq] at this
    rcases hp' with h | h <;> linarith [this.1, this.2]
  unfold DataIE.getDrudeData DataIE.interpolate DataIE.fitted
  rw [if_neg (by omega), first_ok h0, ok_bind, first_ok hxl, ok_bind, last_ok hN, ok_bind, last_ok hxu, ok_bind, hint,
    ok_bind, ok_bind, hfit]
  simp only [ok_bind]
  congr 1
  conv_rhs => rw [hsplit]
  rw [List.map_append, List.map_append, f1, f3]
  congr 1
  · congr 1
    · apply List.map_congr_left
      intro x hx
      have : x ≤ lo.1 := by simpa using (List.mem_filter.1 hx).2
      unfold drudeSpec
      rw [if_neg fun h => absurd h.1 (not_lt.2 this), mul_add, add_comm (x * x), ← sq]
      rfl
    · apply List.map_congr_left
      intro x hx
      have := (List.mem_filter.1 hx).2
      simp only [not_le, decide_eq_true_eq] at this
      unfold drudeSpec
      rw [if_pos this]
  · apply List.map_congr_left
    intro x hx
    have : hi.1 ≤ x := by simpa using (List.mem_filter.1 hx).2
    unfold drudeSpec
    rw [if_neg fun h => absurd h.2 (not_lt.2 this), mul_add, add_comm (x * x), ← sq]
    rfl

/-- C69: if all frequencies are at or below the lower end of the data, or all at or above the upper end, an IndexError is
raised (for any order; two or more frequencies, or none). -/
theorem C69_outside (D : DataIE) {lo hi : ℝ × ℝ} (h0 : D.data.head? = some lo) (hN : D.data.getLast? = some hi)
    {w : List ℝ} (hl : w.length ≠ 1) (h : (∀ x ∈ w, x ≤ lo.1) ∨ (∀ x ∈ w, hi.1 ≤ x)) :
    D.getDrudeData w = .error .indexError := by
  unfold DataIE.getDrudeData DataIE.interpolate
  rw [if_neg hl, first_ok h0, ok_bind]
  rcases h with h | h
  · have : w.filter (fun x => x > lo.1) = [] := by
      rw [List.filter_eq_nil_iff]; intro x hx; simpa using h x hx
    rw [this]; rfl
  · have : w.filter (fun x => x < hi.1) = [] := by
      rw [List.filter_eq_nil_iff]; intro x hx; simpa using h x hx
    rw [last_ok hN]
    cases w.filter fun x => x > lo.1 with
    | nil => rfl
    | cons v l => rw [first_ok (a := v) rfl, ok_bind, ok_bind, this]; rfl

/-- C69: a single frequency ignores the data: a Drude model of gold is used. -/
theorem C69_single (D : DataIE) (w : ℝ) :
    D.getDrudeData [w] = .ok [1 + (1.4e16 / 3e14) ^ 2 / (w * (w + 5.3e13 / 3e14))] := by
  rw [mul_add, add_comm (w * w), ← sq]
  rfl

/-- C69 needs the order: for a descending grid inside the data nothing is interpolated and the order is reversed. -/
theorem C69_descending : (⟨[(0, 0), (10, 1)], .ok (1, 0)⟩ : DataIE).getDrudeData [2, 1] = .ok [2, 5 / 4] ∧
    drudeSpec [(0, 0), (10, 1)] 0 10 1 0 2 = 1 / 5 ∧ drudeSpec [(0, 0), (10, 1)] 0 10 1 0 1 = 1 / 10 := by
  refine ⟨?_, ?_, ?_⟩
  · unfold DataIE.getDrudeData DataIE.interpolate DataIE.fitted interpCall first last
    norm_num [List.filter_cons, bind, Except.bind, epsDrude]
  · unfold drudeSpec linInterp; norm_num
  · unfold drudeSpec linInterp; norm_num

/-- The hypotheses of `C69_grid` are met. -/
example : ∃ v, (⟨[(1, 5), (2, 3), (4, 2)], .ok (1, 1)⟩ : DataIE).getDrudeData [0.5, 1.5, 3, 5] = .ok v ∧ v.getD 1 0 = 4 := by
  refine ⟨_, C69_grid ⟨[(1, 5), (2, 3), (4, 2)], .ok (1, 1)⟩ (by simp [Increasing]; norm_num) (lo := (1, 5)) (hi := (4, 2))
    rfl rfl (by norm_num) rfl (by norm_num) (by norm_num) ⟨1.5, by simp, by norm_num⟩ ⟨0.5, by simp, by norm_num⟩, ?_⟩
  simp only [List.map_cons, List.getD_cons_succ, List.getD_cons_zero, drudeSpec, linInterp]
  norm_num

/-! ## C90: num_derivative with interpolation -/

/-- linear interpolation of points on a line gives the line -/
theorem linInterp_line {data : List (ℝ × ℝ)} (hd : Increasing data) (hl : 2 ≤ data.length) {s t : ℝ}
    (h : ∀ a ∈ data, a.2 = s * a.1 + t) (p : ℝ) : linInterp data p = s * p + t := by
  induction data with
  | nil => simp at hl
  | cons a rest ih =>
    cases rest with
    | nil => simp at hl
    | cons b rest =>
      obtain ⟨xa, ya⟩ := a
      obtain ⟨xb, yb⟩ := b
      unfold linInterp
      split
      · have h1 := h (xa, ya) (by simp)
        have h2 := h (xb, yb) (by simp)
        have h3 : xa < xb := (List.pairwise_cons.1 hd).1 (xb, yb) (by simp)
        simp only at h1 h2
        have : xb - xa ≠ 0 := by linarith
        rw [h1, h2]
        field_simp
        ring
      · rename_i hc
        push Not at hc
        refine ih hd.of_cons ?_ fun a ha => h a (List.mem_cons_of_mem _ ha)
        have := List.length_pos_iff.2 hc.2
        simp only [List.length_cons]
        omega

theorem samples_mem {F : ℝ → ℝ} {a h v : ℝ} {n : ℕ} : v ∈ samples F a h n ↔ ∃ i < n, F (a + i * h) = v := by
  simp [samples]

theorem samples_map (F G : ℝ → ℝ) (a h : ℝ) (n : ℕ) : (samples F a h n).map G = samples (fun x => G (F x)) a h n := by
  simp [samples]

theorem samples_last {F : ℝ → ℝ} {a h : ℝ} {n : ℕ} : (samples F a h (n + 1)).getLast? = some (F (a + n * h)) := by
  simp [samples, List.range_succ]

theorem samples_head {F : ℝ → ℝ} {a h : ℝ} {n : ℕ} : (samples F a h (n + 1)).head? = some (F a) := by
  simp [samples, List.range_succ_eq_map]

/-- the fine grid -/
theorem linspace_eq (a h : ℝ) (n m : ℕ) (hn : 0 < n) (hm : 0 < m) :
    linspace a (a + n * h) (n * m) = samples id a (h / m) (n * m + 1) := by
  unfold linspace samples
  apply List.map_congr_left
  intro j _
  have : (n:ℝ) ≠ 0 := by exact_mod_cast hn.ne'
  have : (m:ℝ) ≠ 0 := by exact_mod_cast hm.ne'
  simp only [id]
  push_cast
  field_simp
  ring

theorem grid_pos {a h : ℝ} (ha : 0 < a) (hh : 0 < h) (i : ℕ) : 0 < a + i * h := by positivity

theorem log_data_increasing {a h : ℝ} (ha : 0 < a) (hh : 0 < h) (n : ℕ) (F : ℕ → ℝ) :
    Increasing ((List.range n).map fun i : ℕ => (Real.log (a + i * h), F i)) := by
  unfold Increasing
  rw [List.pairwise_map]
  refine List.pairwise_lt_range.imp fun {i j} hij => ?_
  simp only
  apply Real.log_lt_log (grid_pos ha hh i)
  have : (i:ℝ) < j := by exact_mod_cast hij
  nlinarith

/-- the interpolator on the fine grid -/
theorem interp_fine {a h : ℝ} (ha : 0 < a) (hh : 0 < h) {n m : ℕ} (hn : 0 < n) (hm : 0 < m) (F : ℕ → ℝ) :
    interpCall ((List.range (n + 1)).map fun i : ℕ => (Real.log (a + i * h), F i))
      ((linspace a (a + n * h) (n * m)).map Real.log) =
      .ok (samples (fun x => linInterp ((List.range (n + 1)).map fun i : ℕ => (Real.log (a + i * h), F i)) (Real.log x))
        a (h / m) (n * m + 1)) := by
  have hm' : (0:ℝ) < m := by exact_mod_cast hm
  unfold interpCall
  rw [first_ok (a := (Real.log (a + (0:ℕ) * h), F 0)) (by simp [List.range_succ_eq_map]), ok_bind,
    last_ok (a := (Real.log (a + n * h), F n)) (by simp [List.range_succ]), ok_bind, linspace_eq a h n m hn hm,
    if_neg, samples_map, samples_map]
  · simp only [id]
  · rintro ⟨p, hp, hp'⟩
    rw [samples_map, samples_mem] at hp
    obtain ⟨j, hj, rfl⟩ := hp
    have hj' : (j:ℝ) ≤ n * m := by exact_mod_cast Nat.lt_succ_iff.1 hj
    simp only [id, CharP.cast_eq_zero, zero_mul, add_zero] at hp'
    have h1 : a ≤ a + j * (h / m) := by
      have : 0 ≤ (j:ℝ) * (h / m) := by positivity
      linarith
    have h2 : a + j * (h / m) ≤ a + n * h := by
      have : (j:ℝ) * (h / m) ≤ n * m * (h / m) := mul_le_mul_of_nonneg_right hj' (by positivity)
      have e : (n:ℝ) * m * (h / m) = n * h := by field_simp
      linarith
    rcases hp' with h | h
    · exact absurd (Real.log_le_log ha h1) (not_le.2 h)
    · exact absurd (Real.log_le_log (by linarith) h2) (not_le.2 h)

theorem everyNth_length {l : List ℝ} {n m : ℕ} (hm : 0 < m) (hl : l.length = n * m + 1) : (everyNth l m).length = n + 1 := by
  unfold everyNth
  rw [List.length_map, List.length_range, hl, show n * m + 1 + m - 1 = (n + 1) * m by ring_nf; omega,
    Nat.mul_div_cancel _ hm]

theorem everyNth_get {l : List ℝ} {n m i : ℕ} (hm : 0 < m) (hl : l.length = n * m + 1) (hi : i < n + 1) :
    (everyNth l m).getD i 0 = l.getD (i * m) 0 := by
  have := everyNth_length hm hl
  unfold everyNth at this ⊢
  rw [List.length_map, List.length_range] at this
  rw [this, List.getD_eq_getElem?_getD, List.getElem?_map, List.getElem?_range hi]; rfl

/-- C90: on an equidistant grid of `n + 1 ≥ 2` positive points the result has one entry per point, for every `f`. -/
theorem C90_length {a h : ℝ} (ha : 0 < a) (hh : 0 < h) {n m : ℕ} (hn : 0 < n) (hm : 2 ≤ m) {f : List ℝ}
    (hf : f.length = n + 1) :
    ∃ d, numDerivativeInterp f (samples id a h (n + 1)) m = .ok d ∧ d.length = n + 1 := by
  have c : ∀ i, i < n + 1 → cget (samples id a h (n + 1)) i = .ok (a + i * h) := by
    intro i hi
    apply cget_ok
    unfold samples
    rw [List.getElem?_map, List.getElem?_range hi]; rfl
  have e : a + ((1:ℕ):ℝ) * h - (a + ((0:ℕ):ℝ) * h) = h := by push_cast; ring
  have hl : (samples id a h (n + 1)).length - 1 = n := by rw [samples_length]; omega
  have hzip : ∀ G : ℝ → ℝ, ((samples id a h (n + 1)).map Real.log).zip (f.map G) =
      (List.range (n + 1)).map fun i : ℕ => (Real.log (a + i * h), G (f.getD i 0)) := by
    intro G
    apply List.ext_getElem
    · simp [samples_length, hf]
    · intro i h1 h2
      have hi : i < f.length := by simp at h2; omega
      simp [samples, List.getElem?_eq_getElem hi]
  obtain ⟨f0, fr, rfl⟩ : ∃ f0 fr, f = f0 :: fr := by
    cases f with
    | nil => simp at hf
    | cons a b => exact ⟨a, b, rfl⟩
  have hnm : 2 ≤ n * m := le_trans hm (Nat.le_mul_of_pos_left m hn)
  have fin : ∀ g : List ℝ, g.length = n * m + 1 → ∃ d, (do
      let d ← differences g (h / m)
      (.ok (everyNth d m) : Res (List ℝ))) = .ok d ∧ d.length = n + 1 := by
    intro g hg
    obtain ⟨d, h1, h2, -⟩ := diff_ok (f := g) (h := h / m) (by omega)
    refine ⟨everyNth d m, by rw [h1, ok_bind], everyNth_length (by omega) (h2.trans hg)⟩
  unfold numDerivativeInterp
  rw [c 1 (by omega), ok_bind, c 0 (by omega), ok_bind, last_ok samples_last, ok_bind]
  simp only [e, id]
  rw [if_neg (by simpa using hh), cget_ok (x := f0) (by simp), ok_bind, hl]
  simp only [Nat.cast_zero, zero_mul, add_zero]
  split
  · rw [hzip, interp_fine ha hh hn (by omega), ok_bind, ok_bind]
    exact fin _ (by rw [List.length_map, samples_length])
  · rw [hzip, interp_fine ha hh hn (by omega), ok_bind, ok_bind]
    exact fin _ (by rw [List.length_map, samples_length])

/-- C90: for a power law `f = c x^r` the interpolation is exact: the result is the difference formula for the true
function with the step divided by the multiplier. -/
theorem C90_power {a h c r : ℝ} (ha : 0 < a) (hh : 0 < h) (hc : c ≠ 0) {n m : ℕ} (hn : 0 < n) (hm : 2 ≤ m) :
    numDerivativeInterp (samples (fun x => c * x ^ r) a h (n + 1)) (samples id a h (n + 1)) m = (do
      let d ← differences (samples (fun x => c * x ^ r) a (h / m) (n * m + 1)) (h / m)
      .ok (everyNth d m)) := by
  have cg : ∀ i, i < n + 1 → cget (samples id a h (n + 1)) i = .ok (a + i * h) := by
    intro i hi
    apply cget_ok
    unfold samples
    rw [List.getElem?_map, List.getElem?_range hi]; rfl
  have e : a + ((1:ℕ):ℝ) * h - (a + ((0:ℕ):ℝ) * h) = h := by push_cast; ring
  have hl : (samples id a h (n + 1)).length - 1 = n := by rw [samples_length]; omega
  have sgn : ∀ x, 0 < x → SignType.sign (c * x ^ r) = SignType.sign c := by
    intro x hx
    rw [sign_mul, sign_pos (Real.rpow_pos_of_pos hx r), mul_one]
  have hzip : ((samples id a h (n + 1)).map Real.log).zip ((samples (fun x => c * x ^ r) a h (n + 1)).map
      fun v => Real.log |v|) =
      (List.range (n + 1)).map fun i : ℕ => (Real.log (a + i * h), Real.log |c * (a + i * h) ^ r|) := by
    simp only [samples, List.map_map, List.zip_map']
    rfl
  have hinc := log_data_increasing ha hh (n + 1) (fun i : ℕ => Real.log |c * (a + i * h) ^ r|)
  have hline : ∀ p, linInterp ((List.range (n + 1)).map fun i : ℕ =>
      (Real.log (a + i * h), Real.log |c * (a + i * h) ^ r|)) p = r * p + Real.log |c| := by
    intro p
    refine linInterp_line hinc (by simp; omega) ?_ p
    intro q hq
    obtain ⟨i, -, rfl⟩ := List.mem_map.1 hq
    have hp := grid_pos ha hh i
    simp only
    rw [abs_mul, Real.log_mul (abs_ne_zero.2 hc) (abs_ne_zero.2 (Real.rpow_pos_of_pos hp r).ne'),
      abs_of_pos (Real.rpow_pos_of_pos hp r), Real.log_rpow hp]
    ring
  unfold numDerivativeInterp
  rw [cg 1 (by omega), ok_bind, cg 0 (by omega), ok_bind, last_ok samples_last, ok_bind]
  simp only [e, id]
  have hf0 : cget (samples (fun x => c * x ^ r) a h (n + 1)) 0 = .ok (c * a ^ r) := by
    apply cget_ok
    rw [← List.head?_eq_getElem?]
    exact samples_head
  rw [if_neg (by simpa using hh), hf0, ok_bind, hl]
  simp only [Nat.cast_zero, zero_mul, add_zero]
  rw [if_pos, hzip, interp_fine ha hh hn (by omega), ok_bind, ok_bind, samples_map]
  · congr 2
    unfold samples
    apply List.map_congr_left
    intro j _
    have hp : 0 < a + j * (h / m) := grid_pos ha (by positivity) j
    simp only
    rw [hline, sgn a ha, Real.exp_add, Real.exp_log (abs_pos.2 hc), mul_comm r, ← Real.rpow_def_of_pos hp]
    have := sign_mul_abs c
    linear_combination (a + j * (h / m)) ^ r * this
  · intro v hv
    rw [samples_mem] at hv
    obtain ⟨i, -, rfl⟩ := hv
    rw [sgn a ha, sgn _ (grid_pos ha hh i)]

/-- C90: for monomials up to the fourth power the derivative is exact at all inner points, including the second and the
last but one (where without interpolation only quadratics are exact). -/
theorem C90_exact {a h c : ℝ} (ha : 0 < a) (hh : 0 < h) (hc : c ≠ 0) {n m k : ℕ} (hn : 0 < n) (hm : 2 ≤ m) (hk : k ≤ 4) :
    ∃ d, numDerivativeInterp (samples (fun x => c * x ^ (k:ℝ)) a h (n + 1)) (samples id a h (n + 1)) m = .ok d ∧
      d.length = n + 1 ∧ ∀ i, 0 < i → i < n → d.getD i 0 = c * (k * (a + i * h) ^ (k - 1)) := by
  have hm' : (m:ℝ) ≠ 0 := by exact_mod_cast (by omega : m ≠ 0)
  have hh' : h / m ≠ 0 := div_ne_zero hh.ne' hm'
  have hnm : 2 ≤ n * m := le_trans hm (Nat.le_mul_of_pos_left m hn)
  obtain ⟨d, h1, h2, h3, -⟩ := diff_poly (Polynomial.C c * Polynomial.X ^ k) a hh' (n := n * m + 1) (by omega)
  have hs : samples (fun x => (Polynomial.C c * Polynomial.X ^ k).eval x) a (h / m) (n * m + 1) =
      samples (fun x => c * x ^ (k:ℝ)) a (h / m) (n * m + 1) := by
    congr 1; funext x; simp
  rw [hs] at h1
  refine ⟨everyNth d m, by rw [C90_power ha hh hc hn hm, h1, ok_bind], everyNth_length (by omega) h2, fun i i0 i1 => ?_⟩
  have b1 : m ≤ i * m := Nat.le_mul_of_pos_left m i0
  have b2 : (i + 1) * m ≤ n * m := Nat.mul_le_mul_right m i1
  rw [add_mul, one_mul] at b2
  rw [everyNth_get (by omega) h2 (by omega), h3 ((Polynomial.natDegree_C_mul_X_pow_le _ _).trans hk) _ (by omega) (by omega)]
  rw [show a + ((i * m : ℕ) : ℝ) * (h / m) = a + i * h by push_cast; field_simp]
  rw [Polynomial.derivative_C_mul, Polynomial.derivative_X_pow]
  simp

example : ∃ d, numDerivativeInterp (samples (fun x => 2 * x ^ ((3:ℕ):ℝ)) 1 1 4) (samples id 1 1 4) 10 = .ok d ∧
    d.getD 1 0 = 24 := by
  obtain ⟨d, h, -, h'⟩ := C90_exact (a := 1) (h := 1) (c := 2) one_pos one_pos two_ne_zero (n := 3) (m := 10) (k := 3)
    (by norm_num) (by norm_num) (by norm_num)
  exact ⟨d, h, by rw [h' 1 (by norm_num) (by norm_num)]; norm_num⟩

end CasSph
