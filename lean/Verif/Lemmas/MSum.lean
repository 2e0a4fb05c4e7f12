import Verif.Model.MSum
import Verif.Spec.MSum
import Verif.Lemmas.LinAlg

namespace CasSph

open scoped Classical
open Spec

variable {n : ℕ}

theorem mSum_zero (L : ℕ → Fin n → ℝ) : mSum L 0 = L 0 := by
  funext i; simp [mSum]

theorem mSum_succ (L : ℕ → Fin n → ℝ) (M : ℕ) (i : Fin n) :
    mSum L (M + 1) i = mSum L M i + 2 * L (M + 1) i := by
  unfold mSum
  rw [Finset.sum_Icc_succ_top (by omega)]; ring

theorem npArgmax_isRef {v : Fin n → ℝ} {r : Fin n} :
    npArgmax (npAbs v) = some r ↔ IsRef v r := by
  unfold npArgmax IsRef npAbs
  rw [List.argmax_eq_some_iff]
  constructor
  · rintro ⟨_, h1, h2⟩
    refine ⟨fun i => h1 i (List.mem_finRange i), fun i hi => ?_⟩
    refine lt_of_le_of_ne (h1 i (List.mem_finRange i)) fun he => ?_
    have := h2 i (List.mem_finRange i) he.ge
    simp only [List.idxOf_finRange] at this
    exact absurd hi (not_lt.2 this)
  · rintro ⟨h1, h2⟩
    refine ⟨List.mem_finRange r, fun i _ => h1 i, fun i _ hi => ?_⟩
    simp only [List.idxOf_finRange]
    by_contra hc
    exact absurd (h2 i (not_le.1 hc)) (not_lt.2 hi)

theorem exists_isRef (hn : 0 < n) (v : Fin n → ℝ) : ∃ r, IsRef v r := by
  cases h : npArgmax (npAbs v) with
  | none =>
    unfold npArgmax at h
    rw [List.argmax_eq_none, List.finRange_eq_nil_iff] at h
    omega
  | some r => exact ⟨r, npArgmax_isRef.1 h⟩

theorem IsRef.unique {v : Fin n → ℝ} {r s : Fin n} (hr : IsRef v r) (hs : IsRef v s) : r = s := by
  rcases lt_trichotomy r s with h | h | h
  · exact absurd (hs.2 r h) (not_lt.2 (hr.1 s))
  · exact h
  · exact absurd (hr.2 s h) (not_lt.2 (hs.1 r))

/-- What the loop returns, when all contributions can be evaluated. -/
theorem mLoop_spec {pre : (Fin n → ℝ) → Prop} {post : (Fin n → ℝ) → (Fin n → ℝ) → Prop}
    {L : ℕ → Res (Fin n → ℝ)} {v : ℕ → Fin n → ℝ} (todo m : ℕ)
    (hL : ∀ j, m < j → j ≤ m + todo → L j = .ok (v j)) :
    ∃ M, m ≤ M ∧ M ≤ m + todo ∧ mLoop pre post L todo (m + 1) (mSum v m) = .ok (mSum v M) ∧
      (M = m + todo ∨ pre (mSum v M) ∨ (m < M ∧ post (mSum v (M - 1)) (mSum v M))) ∧
      ∀ j, m ≤ j → j < M → ¬ pre (mSum v j) ∧ (m < j → ¬ post (mSum v (j - 1)) (mSum v j)) := by
  induction todo generalizing m with
  | zero =>
    exact ⟨m, le_refl _, le_refl _, rfl, .inl rfl, fun j h1 h2 => by omega⟩
  | succ t ih =>
    rw [mLoop]
    by_cases hp : pre (mSum v m)
    · rw [if_pos hp]
      exact ⟨m, le_refl _, by omega, rfl, .inr (.inl hp), fun j h1 h2 => by omega⟩
    · rw [if_neg hp, hL (m + 1) (by omega) (by omega), ok_bind]
      have hS : (fun i => mSum v m i + 2 * v (m + 1) i) = mSum v (m + 1) := by
        funext i; rw [mSum_succ]
      simp only [hS]
      by_cases hq : post (mSum v m) (mSum v (m + 1))
      · rw [if_pos hq]
        refine ⟨m + 1, by omega, by omega, rfl, .inr (.inr ⟨by omega, hq⟩), fun j h1 h2 => ?_⟩
        have : j = m := by omega
        subst this
        exact ⟨hp, fun h => by omega⟩
      · rw [if_neg hq]
        obtain ⟨M, h1, h2, h3, h4, h5⟩ := ih (m + 1) (fun j hj hj' => hL j (by omega) (by omega))
        refine ⟨M, by omega, by omega, h3, ?_, fun j hj hj' => ?_⟩
        · rcases h4 with h | h | ⟨h, h'⟩
          · exact .inl (by omega)
          · exact .inr (.inl h)
          · exact .inr (.inr ⟨by omega, h'⟩)
        · rcases Nat.eq_or_lt_of_le hj with rfl | hlt
          · exact ⟨hp, fun h => by omega⟩
          · refine ⟨(h5 j hlt hj').1, fun _ => ?_⟩
            rcases Nat.eq_or_lt_of_le hlt with he | hlt'
            · rw [← he]; exact hq
            · exact (h5 j hlt hj').2 hlt'

/-- An exception leaving the loop comes from a contribution. -/
theorem mLoop_error {pre : (Fin n → ℝ) → Prop} {post : (Fin n → ℝ) → (Fin n → ℝ) → Prop}
    {L : ℕ → Res (Fin n → ℝ)} (todo m : ℕ) (S : Fin n → ℝ) {e : PyErr}
    (h : mLoop pre post L todo m S = .error e) : ∃ j, m ≤ j ∧ j < m + todo ∧ L j = .error e := by
  induction todo generalizing m S with
  | zero => cases h
  | succ t ih =>
    rw [mLoop] at h
    by_cases hp : pre S
    · rw [if_pos hp] at h; cases h
    · rw [if_neg hp] at h
      cases hl : L m with
      | error e' =>
        rw [hl, error_bind] at h
        cases h
        exact ⟨m, le_refl _, by omega, hl⟩
      | ok l =>
        rw [hl, ok_bind] at h
        dsimp only at h
        split_ifs at h with hq
        obtain ⟨j, h1, h2, h3⟩ := ih (m + 1) _ h
        exact ⟨j, by omega, by omega, h3⟩

end CasSph
