import Verif.Model.Gaunt
import Verif.Lemmas.LinAlg
import Mathlib.Tactic.FieldSimp
import Mathlib.Tactic.LinearCombination

/-! # Auxiliary lemmas for `Model/Gaunt` -/

namespace CasSph

theorem mapM_ok {α β : Type} {f : α → Res β} {g : α → β} {l : List α} (h : ∀ a ∈ l, f a = .ok (g a)) :
    l.mapM f = .ok (l.map g) := by
  induction l with
  | nil => rfl
  | cons a l ih =>
    rw [List.mapM_cons, h a (by simp), ok_bind, ih (fun b hb => h b (by simp [hb])), ok_bind]
    rfl

theorem cdiv_ok {a b : ℝ} (h : b ≠ 0) : cdiv a b = .ok (a / b) := by unfold cdiv; rw [if_neg h]

theorem cget_ok {v : List ℝ} {i : ℕ} {x : ℝ} (h : v[i]? = some x) : cget v i = .ok x := by unfold cget; rw [h]

/-- `|l - l'|` -/
def lppMin (l lp : ℕ) : ℕ := ((l : ℤ) - lp).natAbs

theorem lppMin_comm (l lp : ℕ) : lppMin l lp = lppMin lp l := by unfold lppMin; omega

theorem lppMin_add (l lp : ℕ) : l + lp - lppMin l lp = 2 * min l lp := by unfold lppMin; omega

theorem lppMin_le (l lp : ℕ) : lppMin l lp + 2 * min l lp = l + lp := by unfold lppMin; omega

theorem lppMin_sq (l lp : ℕ) : ((l : ℝ) - lp) ^ 2 = (lppMin l lp : ℝ) ^ 2 := by
  have : ((lppMin l lp : ℤ)) ^ 2 = ((l : ℤ) - lp) ^ 2 := by unfold lppMin; exact Int.natAbs_sq _
  exact_mod_cast this.symm

/-- `α` of Xu (3) as a function of the degree `p`. -/
noncomputable def alphaF (l lp : ℕ) (p : ℝ) : ℝ :=
  (p * p - ((l : ℝ) + lp + 1) ^ 2) * (p * p - ((l : ℝ) - lp) ^ 2) / (4 * p * p - 1)

theorem alphaF_comm (l lp : ℕ) (p : ℝ) : alphaF l lp p = alphaF lp l p := by
  unfold alphaF; congr 1; ring

theorem alphaF_ne {l lp p : ℕ} (h1 : lppMin l lp < p) (h2 : p ≤ l + lp) : alphaF l lp (p : ℝ) ≠ 0 := by
  unfold alphaF
  have hp : (1 : ℝ) ≤ p := by exact_mod_cast (by omega : 1 ≤ p)
  have h2' : (p : ℝ) ≤ (l : ℝ) + lp := by exact_mod_cast h2
  have h1' : (lppMin l lp : ℝ) < p := by exact_mod_cast h1
  have hmin : (0 : ℝ) ≤ lppMin l lp := Nat.cast_nonneg _
  rw [lppMin_sq]
  have e1 : (p : ℝ) * p - ((l : ℝ) + lp + 1) ^ 2 < 0 := by nlinarith
  have e2 : 0 < (p : ℝ) * p - (lppMin l lp : ℝ) ^ 2 := by nlinarith
  have e3 : 0 < 4 * (p : ℝ) * p - 1 := by nlinarith
  exact div_ne_zero (mul_ne_zero e1.ne e2.ne') e3.ne'

theorem gauntAlphas_ok (l lp : ℕ) :
    gauntAlphas l lp = .ok ((List.range (2 * min l lp)).map fun idx : ℕ => alphaF l lp ((idx + lppMin l lp + 1 : ℕ) : ℝ)) := by
  unfold gauntAlphas
  have := lppMin_add l lp
  unfold lppMin at this
  simp only [this]
  refine mapM_ok fun idx _ => ?_
  have hp : (0 : ℝ) ≤ (idx : ℝ) + ((l : ℤ) - lp).natAbs := by positivity
  rw [cdiv_ok (by nlinarith)]
  unfold alphaF lppMin
  push_cast
  rfl

/-- Unnormalised coefficients counted from the top: `gTop j = gaunts[gauntdim-1-j]`. -/
noncomputable def gTop (l lp : ℕ) (m : ℤ) : ℕ → ℝ
  | 0 => Real.exp (gauntLnMax l lp m)
  | 1 => Real.exp (gauntLnMax l lp m) *
      ((2 * ((l + lp : ℕ) : ℝ) - 3) * ((l : ℝ) * lp - (m : ℝ) ^ 2 * (2 * ((l + lp : ℕ) : ℝ) - 1)) /
        ((2 * (l : ℝ) - 1) * (2 * lp - 1) * ((l + lp : ℕ) : ℝ)))
  | j + 2 => ((4 * (m : ℝ) * m + alphaF l lp (l + lp - (2 * j + 2)) + alphaF l lp (l + lp - (2 * j + 1))) * gTop l lp m (j + 1) -
      alphaF l lp (l + lp - 2 * j) * gTop l lp m j) / alphaF l lp (l + lp - (2 * j + 3))

theorem gauntStep_ok {l lp : ℕ} {m : ℤ} {j : ℕ} (hj : j + 2 ≤ min l lp) :
    gauntStep ((List.range (2 * min l lp)).map fun idx : ℕ => alphaF l lp ((idx + lppMin l lp + 1 : ℕ) : ℝ)) m
      ((List.range (j + 2)).reverse.map (gTop l lp m)) (min l lp - (j + 2)) =
      .ok ((List.range (j + 3)).reverse.map (gTop l lp m)) := by
  have hle := lppMin_le l lp
  generalize hd : min l lp = d at *
  obtain ⟨i, rfl⟩ := Nat.exists_eq_add_of_le' hj
  have hi : i + (j + 2) - (j + 2) = i := by omega
  rw [hi]
  have hacc : (List.range (j + 2)).reverse.map (gTop l lp m) =
      gTop l lp m (j + 1) :: gTop l lp m j :: (List.range j).reverse.map (gTop l lp m) := by
    rw [List.range_succ, List.range_succ]; simp
  have hacc3 : (List.range (j + 3)).reverse.map (gTop l lp m) =
      gTop l lp m (j + 2) :: (List.range (j + 2)).reverse.map (gTop l lp m) := by
    rw [List.range_succ]; simp
  have ha : ∀ k, k < 2 * (i + (j + 2)) →
      cget ((List.range (2 * (i + (j + 2)))).map fun idx : ℕ => alphaF l lp ((idx + lppMin l lp + 1 : ℕ) : ℝ)) k =
        .ok (alphaF l lp ((k + lppMin l lp + 1 : ℕ) : ℝ)) := by
    intro k hk
    refine cget_ok ?_
    rw [List.getElem?_map, List.getElem?_range hk]; rfl
  unfold gauntStep
  rw [hacc3, hacc]
  rw [cget_ok (x := gTop l lp m (j + 1)) rfl, ok_bind, cget_ok (x := gTop l lp m j) rfl, ok_bind,
    ha _ (by omega), ok_bind, ha _ (by omega), ok_bind, ha _ (by omega), ok_bind, ha _ (by omega), ok_bind,
    cdiv_ok (alphaF_ne (by omega) (by omega)), ok_bind]
  have c : ((l : ℝ) + lp) = (lppMin l lp : ℝ) + 2 * (i + (j + 2)) := by
    have : ((lppMin l lp + 2 * (i + (j + 2)) : ℕ) : ℝ) = ((l + lp : ℕ) : ℝ) := by rw [hle]
    push_cast at this; linarith
  have e1 : ((2 * i + 1 + lppMin l lp + 1 : ℕ) : ℝ) = l + lp - (2 * j + 2) := by push_cast; rw [c]; ring
  have e2 : ((2 * i + 2 + lppMin l lp + 1 : ℕ) : ℝ) = l + lp - (2 * j + 1) := by push_cast; rw [c]; ring
  have e3 : ((2 * i + 3 + lppMin l lp + 1 : ℕ) : ℝ) = l + lp - 2 * j := by push_cast; rw [c]; ring
  have e0 : ((2 * i + lppMin l lp + 1 : ℕ) : ℝ) = l + lp - (2 * j + 3) := by push_cast; rw [c]; ring
  rw [e0, e1, e2, e3]
  rfl

theorem gauntLoop_ok {l lp : ℕ} {m : ℤ} (n : ℕ) : ∀ j, j + 2 + n = min l lp + 1 →
    (List.range n).reverse.foldlM
      (gauntStep ((List.range (2 * min l lp)).map fun idx : ℕ => alphaF l lp ((idx + lppMin l lp + 1 : ℕ) : ℝ)) m)
      ((List.range (j + 2)).reverse.map (gTop l lp m)) =
      .ok ((List.range (min l lp + 1)).reverse.map (gTop l lp m)) := by
  induction n with
  | zero => intro j hj; rw [← hj]; rfl
  | succ n ih =>
    intro j hj
    rw [List.range_succ (n := n), List.reverse_append, List.reverse_singleton, List.singleton_append, List.foldlM_cons]
    have hn : n = min l lp - (j + 2) := by omega
    have := gauntStep_ok (l := l) (lp := lp) (m := m) (j := j) (by omega)
    rw [← hn] at this
    rw [this, ok_bind]
    exact ih (j + 1) (by omega)

theorem gauntStart_ok (l lp : ℕ) (m : ℤ) :
    gauntStart l lp m (min l lp + 1) = .ok ((List.range (min 1 (min l lp) + 1)).reverse.map (gTop l lp m)) := by
  unfold gauntStart
  by_cases hd : 1 ≤ min l lp
  · rw [if_pos (by omega), cdiv_ok, ok_bind, min_eq_left hd]
    · rfl
    · have h1 : (1 : ℝ) ≤ l := by exact_mod_cast (by omega : 1 ≤ l)
      have h2 : (1 : ℝ) ≤ lp := by exact_mod_cast (by omega : 1 ≤ lp)
      push_cast
      exact mul_ne_zero (mul_ne_zero (by linarith) (by linarith)) (by linarith)
  · rw [if_neg (by omega), show min 1 (min l lp) = 0 by omega]
    rfl

/-- Element `idx` of the result of `gaunt` in the non-trivial case, `p = |l-l'|+2 idx`. -/
noncomputable def gnt (l lp : ℕ) (m : ℤ) (idx : ℕ) : ℝ :=
  if m.natAbs > min l lp then 0
  else gTop l lp m (min l lp - idx) / Real.sqrt (2 * ((lppMin l lp : ℝ) + 2 * idx) + 1)

theorem gaunt_ok (l lp : ℕ) (m : ℤ) :
    gaunt l lp m = .ok ((List.range (min l lp + 1)).map (gnt l lp m)) := by
  unfold gaunt
  have hdim : (l + lp - ((l : ℤ) - lp).natAbs) / 2 + 1 = min l lp + 1 := by
    have := lppMin_add l lp
    unfold lppMin at this
    omega
  simp only [hdim]
  by_cases hm : m.natAbs > min l lp
  · rw [if_pos hm]
    congr 1
    refine (List.eq_replicate_iff.mpr ⟨by simp, fun b hb => ?_⟩).symm
    obtain ⟨i, -, rfl⟩ := List.mem_map.mp hb
    unfold gnt; rw [if_pos hm]
  rw [if_neg hm, gauntAlphas_ok, ok_bind, gauntStart_ok, ok_bind]
  have hl : (List.range (min l lp + 1 - 2)).reverse.foldlM
      (gauntStep ((List.range (2 * min l lp)).map fun idx : ℕ => alphaF l lp ((idx + lppMin l lp + 1 : ℕ) : ℝ)) m)
      ((List.range (min 1 (min l lp) + 1)).reverse.map (gTop l lp m)) =
      .ok ((List.range (min l lp + 1)).reverse.map (gTop l lp m)) := by
    by_cases hd : 1 ≤ min l lp
    · rw [min_eq_left hd]
      exact gauntLoop_ok (min l lp + 1 - 2) 0 (by omega)
    · rw [show min 1 (min l lp) = min l lp by omega, show min l lp + 1 - 2 = 0 by omega]
      rfl
  rw [hl, ok_bind]
  have hz : List.zip ((List.range (min l lp + 1)).reverse.map (gTop l lp m)) (List.range (min l lp + 1)) =
      (List.range (min l lp + 1)).map fun idx => (gTop l lp m (min l lp - idx), idx) := by
    refine List.ext_getElem (by simp) ?_
    intro i h1 h2
    simp
  rw [hz, mapM_ok (g := fun q : ℝ × ℕ => q.1 / Real.sqrt (2 * ((lppMin l lp : ℝ) + 2 * q.2) + 1)), List.map_map]
  · congr 1
    refine List.map_congr_left fun i _ => ?_
    unfold gnt; rw [if_neg hm]; rfl
  · intro q _
    unfold gauntNorm
    rw [cdiv_ok]
    · rfl
    · exact (Real.sqrt_pos.mpr (by positivity)).ne'

theorem gauntLnMax_symm (l lp : ℕ) (m : ℤ) : gauntLnMax l lp m = gauntLnMax lp l m := by
  unfold gauntLnMax
  rw [add_comm (lp : ℝ) (l : ℝ)]
  ring

theorem gauntLnMax_neg (l lp : ℕ) (m : ℤ) : gauntLnMax l lp m = gauntLnMax l lp (-m) := by
  unfold gauntLnMax
  push_cast
  rw [show (l : ℝ) - -(m : ℝ) + 1 = l + m + 1 by ring, show (lp : ℝ) + -(m : ℝ) + 1 = lp - m + 1 by ring,
    show (l : ℝ) + -(m : ℝ) + 1 = l - m + 1 by ring, show (lp : ℝ) - -(m : ℝ) + 1 = lp + m + 1 by ring]
  ring

theorem gTop_symm (l lp : ℕ) (m : ℤ) (j : ℕ) : gTop l lp m j = gTop lp l m j := by
  induction j using Nat.twoStepInduction with
  | zero => unfold gTop; rw [gauntLnMax_symm]
  | one => unfold gTop; rw [gauntLnMax_symm, Nat.add_comm l lp]; congr 1; ring
  | more j ih1 ih2 =>
    unfold gTop
    rw [ih1, ih2]
    simp only [alphaF_comm l lp, add_comm (l : ℝ) (lp : ℝ)]

theorem gTop_neg (l lp : ℕ) (m : ℤ) (j : ℕ) : gTop l lp m j = gTop l lp (-m) j := by
  induction j using Nat.twoStepInduction with
  | zero => unfold gTop; rw [gauntLnMax_neg]
  | one => unfold gTop; rw [gauntLnMax_neg]; push_cast; ring
  | more j ih1 ih2 =>
    unfold gTop
    rw [ih1, ih2]
    push_cast
    ring

theorem gnt_symm (l lp : ℕ) (m : ℤ) (i : ℕ) : gnt l lp m i = gnt lp l m i := by
  unfold gnt
  rw [min_comm, lppMin_comm, gTop_symm]

theorem gnt_neg (l lp : ℕ) (m : ℤ) (i : ℕ) : gnt l lp (-m) i = gnt l lp m i := by
  unfold gnt
  rw [Int.natAbs_neg, gTop_neg l lp m]

theorem gnt_big {l lp : ℕ} {m : ℤ} (h : m.natAbs > min l lp) (i : ℕ) : gnt l lp m i = 0 := by
  unfold gnt; rw [if_pos h]

theorem lgam_nat (n : ℕ) : lgam ((n : ℝ) + 1) = Real.log (n.factorial : ℝ) := by
  unfold lgam
  rw [Real.Gamma_nat_eq_factorial, abs_of_nonneg (by positivity)]

theorem lgam_int {z : ℤ} (hz : 0 ≤ z) : lgam ((z : ℝ) + 1) = Real.log (z.toNat.factorial : ℝ) := by
  rw [← lgam_nat]
  congr 2
  exact_mod_cast (Int.toNat_of_nonneg hz).symm

end CasSph
