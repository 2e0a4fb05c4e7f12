import Verif.Model.FloatMie
import Verif.Spec.FlFun
import Verif.Spec.Bessel

/-! # What is assumed of rounded operations and of the computed Bessel functions -/

namespace CasSph.Spec

/-- Every operation, the square root included, has a relative error of at most `u`. -/
structure RelErrM (A : FlMie) (u : ℝ) : Prop extends RelErr A.toFlFun u where
  sqrt : ∀ a, 0 ≤ a → |A.sqrt a - Real.sqrt a| ≤ u * Real.sqrt a

/-- The entries of the table for `l` at `x` are the logarithms of `i_{l-1}`, `i_l`, `k_{l-1}`, `k_l` up to `δ`. -/
structure TableErr (T : BesTable) (l : ℕ) (x δ : ℝ) : Prop where
  i0 : |(T l x).i0 - Real.log (sphI (l - 1) x)| ≤ δ
  i1 : |(T l x).i1 - Real.log (sphI l x)| ≤ δ
  k0 : |(T l x).k0 - Real.log (sphK (l - 1) x)| ≤ δ
  k1 : |(T l x).k1 - Real.log (sphK l x)| ≤ δ

/-- The entries of the table for `l` at `x` are those that `lniknu` returns for some array, all elements of which lie
between 0.1 and 10. -/
def FromLniknu (A : FlFun) (T : BesTable) (l : ℕ) (x : ℝ) : Prop :=
  ∃ (xs : List ℝ) (n i : ℕ) (li lk : List (List ℝ)) (hi : i < xs.length),
    (∀ y ∈ xs, 0.1 ≤ y ∧ y ≤ 10) ∧ xs[i] = x ∧ l ≤ n ∧ l ≤ 100 ∧ A.lniknu xs n = .ok (li, lk) ∧
    at2 li i (l - 1) = some (T l x).i0 ∧ at2 li i l = some (T l x).i1 ∧
    at2 lk i (l - 1) = some (T l x).k0 ∧ at2 lk i l = some (T l x).k1

theorem FromLniknu.range {A : FlFun} {T : BesTable} {l : ℕ} {x : ℝ} (h : FromLniknu A T l x) : 0.1 ≤ x ∧ x ≤ 10 := by
  obtain ⟨xs, n, i, li, lk, hi, hxs, rfl, -⟩ := h
  exact hxs _ (List.getElem_mem hi)

end CasSph.Spec
