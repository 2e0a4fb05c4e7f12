import Verif.Model.Py
import Mathlib.Logic.Function.Iterate

/-! Generic facts about `whileLoop` with a total body. -/

namespace CasSph

variable {σ : Type*} {cond : σ → Prop} [DecidablePred cond] {f : σ → σ}

theorem whileLoop_total_run (k : ℕ) (s : σ) (h : ∀ i < k, cond (f^[i] s)) (hk : ¬ cond (f^[k] s)) :
    whileLoop cond (fun s => some (f s)) (k + 1) s = some (f^[k] s) := by
  induction k generalizing s with
  | zero => rw [whileLoop]; exact if_neg hk
  | succ k ih =>
    rw [whileLoop, if_pos (show cond s from h 0 (by omega)), Option.bind_some, ih (f s)]
    · rfl
    · exact fun i hi => h (i + 1) (by omega)
    · exact hk

theorem whileLoop_total_inv (fuel : ℕ) (s s' : σ)
    (h : whileLoop cond (fun s => some (f s)) fuel s = some s') :
    ∃ k, s' = f^[k] s ∧ ¬ cond (f^[k] s) ∧ ∀ i < k, cond (f^[i] s) := by
  induction fuel generalizing s with
  | zero => cases h
  | succ fuel ih =>
    rw [whileLoop] at h
    by_cases hc : cond s
    · rw [if_pos hc, Option.bind_some] at h
      obtain ⟨k, h1, h2, h3⟩ := ih (f s) h
      refine ⟨k + 1, h1, h2, fun i hi => ?_⟩
      cases i with
      | zero => exact hc
      | succ i => exact h3 i (by omega)
    · rw [if_neg hc] at h
      cases h
      exact ⟨0, rfl, hc, fun i hi => by omega⟩

end CasSph
