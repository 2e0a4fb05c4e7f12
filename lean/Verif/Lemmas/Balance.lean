import Verif.Model.Balance
import Mathlib.LinearAlgebra.Matrix.Charpoly.Basic
import Mathlib.LinearAlgebra.Matrix.NonsingularInverse
import Mathlib.Tactic.Linarith
import Mathlib.Tactic.Positivity
import Mathlib.Tactic.Ring
import Mathlib.Tactic.FieldSimp
import Mathlib.Tactic.NormNum
import Mathlib.Algebra.Order.Archimedean.Basic
import Mathlib.Algebra.BigOperators.Field
import Mathlib.Algebra.Order.Field.Power

namespace CasSph

open scoped Classical

/-! ## generic while-loop lemmas -/

/-- Invariant rule. -/
theorem whileLoop_inv {σ : Type*} {cond : σ → Prop} [DecidablePred cond] {body : σ → Option σ}
    (I : σ → Prop) (hstep : ∀ s t, I s → cond s → body s = some t → I t) :
    ∀ (fuel : ℕ) (s r : σ), I s → whileLoop cond body fuel s = some r → I r ∧ ¬ cond r := by
  intro fuel
  induction fuel with
  | zero => intro s r _ h; simp [whileLoop] at h
  | succ n ih =>
    intro s r hI h
    unfold whileLoop at h
    split_ifs at h with hc
    · cases hb : body s with
      | none => simp [hb] at h
      | some t => rw [hb] at h; exact ih t r (hstep s t hI hc hb) h
    · cases h; exact ⟨hI, hc⟩

/-- More fuel does not change a result. -/
theorem whileLoop_mono {σ : Type*} {cond : σ → Prop} [DecidablePred cond] {body : σ → Option σ} :
    ∀ {fuel fuel' : ℕ} {s r : σ}, fuel ≤ fuel' → whileLoop cond body fuel s = some r →
      whileLoop cond body fuel' s = some r := by
  intro fuel
  induction fuel with
  | zero => intro _ s r _ h; simp [whileLoop] at h
  | succ n ih =>
    intro fuel' s r hle h
    obtain ⟨k, rfl⟩ : ∃ k, fuel' = k + 1 := ⟨fuel' - 1, by omega⟩
    unfold whileLoop at h ⊢
    split_ifs at h ⊢ with hc
    · cases hb : body s with
      | none => simp [hb] at h
      | some t =>
        rw [hb] at h
        exact ih (by omega) h
    · exact h

/-- Termination rule with a natural-number bound decreasing in every iteration. -/
theorem whileLoop_term {σ : Type*} {cond : σ → Prop} [DecidablePred cond] {body : σ → Option σ}
    (I : σ → Prop) (μ : σ → ℕ)
    (hstep : ∀ s, I s → cond s → ∃ t, body s = some t ∧ I t ∧ μ t < μ s) :
    ∀ (fuel : ℕ) (s : σ), I s → μ s < fuel → ∃ r, whileLoop cond body fuel s = some r := by
  intro fuel
  induction fuel with
  | zero => intro s _ h; omega
  | succ n ih =>
    intro s hI hμ
    unfold whileLoop
    split_ifs with hc
    · obtain ⟨t, hb, hIt, hlt⟩ := hstep s hI hc
      rw [hb]
      exact ih t hIt (by omega)
    · exact ⟨s, rfl⟩

/-! ## the inner loops -/

/-- Relation between the start and the current values of the inner loops. -/
structure Reach (c₀ r₀ : ℝ) (s : FCR) : Prop where
  pow : ∃ d : ℤ, s.f = 2 ^ d
  hc : s.c = c₀ * s.f
  hr : s.r = r₀ / s.f

theorem Reach.fpos {c₀ r₀ : ℝ} {s : FCR} (h : Reach c₀ r₀ s) : 0 < s.f := by
  obtain ⟨d, hd⟩ := h.pow; rw [hd]; positivity

theorem Reach.grow {c₀ r₀ : ℝ} {s : FCR} (h : Reach c₀ r₀ s) :
    Reach c₀ r₀ ⟨s.f * 2, s.c * 2, s.r / 2⟩ := by
  have hf := h.fpos
  obtain ⟨d, hd⟩ := h.pow
  refine ⟨⟨d + 1, ?_⟩, ?_, ?_⟩
  · simp only [hd]; rw [zpow_add_one₀ (by norm_num)]
  · simp only [h.hc]; ring
  · simp only [h.hr]; field_simp

theorem Reach.shrink {c₀ r₀ : ℝ} {s : FCR} (h : Reach c₀ r₀ s) :
    Reach c₀ r₀ ⟨s.f / 2, s.c / 2, s.r * 2⟩ := by
  have hf := h.fpos
  obtain ⟨d, hd⟩ := h.pow
  refine ⟨⟨d - 1, ?_⟩, ?_, ?_⟩
  · simp only [hd]; rw [zpow_sub_one₀ (by norm_num)]; rfl
  · simp only [h.hc]; ring
  · simp only [h.hr]; field_simp

theorem growLoop_spec {fuel : ℕ} {c₀ r₀ : ℝ} {s t : FCR} (hs : Reach c₀ r₀ s)
    (h : growLoop fuel s = some t) : Reach c₀ r₀ t ∧ t.r / 2 ≤ t.c := by
  have := whileLoop_inv (Reach c₀ r₀) (fun s t hs _ hb => by
    cases hb; exact hs.grow) fuel s t hs h
  exact ⟨this.1, not_lt.1 this.2⟩

theorem shrinkLoop_spec {fuel : ℕ} {c₀ r₀ : ℝ} {s t : FCR} (hs : Reach c₀ r₀ s)
    (hlow : s.r / 2 ≤ s.c) (h : shrinkLoop fuel s = some t) :
    Reach c₀ r₀ t ∧ t.r / 2 ≤ t.c ∧ t.c < t.r * 2 := by
  have := whileLoop_inv (fun s => Reach c₀ r₀ s ∧ s.r / 2 ≤ s.c) (fun s t hs hc hb => by
    cases hb
    refine ⟨hs.1.shrink, ?_⟩
    simp only
    have : s.c ≥ s.r * 2 := hc
    linarith) fuel s t ⟨hs, hlow⟩ h
  exact ⟨this.1.1, this.1.2, not_le.1 this.2⟩

/-- A bound for the number of steps of either inner loop. -/
theorem exists_pow_bound {a b : ℝ} (ha : 0 < a) : ∃ N : ℕ, b ≤ a * 4 ^ N := by
  obtain ⟨N, hN⟩ := pow_unbounded_of_one_lt (b / a) (by norm_num : (1 : ℝ) < 4)
  exact ⟨N, by rw [div_lt_iff₀ ha] at hN; linarith⟩

theorem growLoop_term_aux : ∀ (N fuel : ℕ) (s : FCR), 0 < s.c → s.r ≤ s.c * 2 * 4 ^ N → N < fuel →
    ∃ t, growLoop fuel s = some t := by
  intro N
  induction N with
  | zero =>
    intro fuel s hc h hf
    obtain ⟨k, rfl⟩ : ∃ k, fuel = k + 1 := ⟨fuel - 1, by omega⟩
    refine ⟨s, ?_⟩
    unfold growLoop whileLoop
    rw [if_neg]
    simp only [pow_zero, mul_one] at h
    linarith
  | succ n ih =>
    intro fuel s hc h hf
    obtain ⟨k, rfl⟩ : ∃ k, fuel = k + 1 := ⟨fuel - 1, by omega⟩
    unfold growLoop whileLoop
    split_ifs with hlt
    · refine ih k ⟨s.f * 2, s.c * 2, s.r / 2⟩ ?_ ?_ (by omega)
      · simp only; linarith
      · simp only; rw [pow_succ] at h; linarith
    · exact ⟨s, rfl⟩

theorem growLoop_term (s : FCR) (hc : 0 < s.c) :
    ∃ N, ∀ fuel, N < fuel → ∃ t, growLoop fuel s = some t := by
  obtain ⟨N, hN⟩ := exists_pow_bound (a := s.c * 2) (b := s.r) (by linarith)
  exact ⟨N, fun fuel hf => growLoop_term_aux N fuel s hc hN hf⟩

theorem shrinkLoop_term_aux : ∀ (N fuel : ℕ) (s : FCR), 0 < s.r → s.c < s.r * 2 * 4 ^ N → N < fuel →
    ∃ t, shrinkLoop fuel s = some t := by
  intro N
  induction N with
  | zero =>
    intro fuel s hc h hf
    obtain ⟨k, rfl⟩ : ∃ k, fuel = k + 1 := ⟨fuel - 1, by omega⟩
    refine ⟨s, ?_⟩
    unfold shrinkLoop whileLoop
    rw [if_neg]
    simp only [pow_zero, mul_one] at h
    simpa using h
  | succ n ih =>
    intro fuel s hc h hf
    obtain ⟨k, rfl⟩ : ∃ k, fuel = k + 1 := ⟨fuel - 1, by omega⟩
    unfold shrinkLoop whileLoop
    split_ifs with hlt
    · refine ih k ⟨s.f / 2, s.c / 2, s.r * 2⟩ ?_ ?_ (by omega)
      · simp only; linarith
      · simp only; rw [pow_succ] at h; linarith
    · exact ⟨s, rfl⟩

theorem shrinkLoop_term (s : FCR) (hr : 0 < s.r) :
    ∃ N, ∀ fuel, N < fuel → ∃ t, shrinkLoop fuel s = some t := by
  obtain ⟨N, hN⟩ := exists_pow_bound (a := s.r * 2) (b := s.c + 1) (by linarith)
  exact ⟨N, fun fuel hf => shrinkLoop_term_aux N fuel s hr (by linarith) hf⟩

/-! ## one index -/

theorem balanceTiny_pos : 0 < balanceTiny := by unfold balanceTiny; positivity

theorem colSq_nonneg {n : ℕ} (M : Matrix (Fin n) (Fin n) ℝ) (i : Fin n) : 0 ≤ colSq M i :=
  Finset.sum_nonneg fun j _ => by split_ifs <;> positivity

theorem rowSq_nonneg {n : ℕ} (M : Matrix (Fin n) (Fin n) ℝ) (i : Fin n) : 0 ≤ rowSq M i :=
  Finset.sum_nonneg fun j _ => by split_ifs <;> positivity

/-- What an execution of the loop body for index `i` did. -/
theorem balanceIndex_spec {n fuel : ℕ} {conv : ℝ} {s t : Matrix (Fin n) (Fin n) ℝ × Bool} {i : Fin n}
    (h : balanceIndex fuel conv s i = some t) :
    (rowSq s.1 i ≤ balanceTiny ∨ colSq s.1 i ≤ balanceTiny) ∧ t = s ∨
    (balanceTiny < rowSq s.1 i ∧ balanceTiny < colSq s.1 i ∧ ∃ (d : ℤ),
      let f : ℝ := 2 ^ d
      let c := Real.sqrt (colSq s.1 i) * f
      let r := Real.sqrt (rowSq s.1 i) / f
      r / 2 ≤ c ∧ c < r * 2 ∧
      ((c ^ 2 + r ^ 2 < conv * (colSq s.1 i + rowSq s.1 i) ∧ t = (scaleIndex s.1 i f, false)) ∨
       (conv * (colSq s.1 i + rowSq s.1 i) ≤ c ^ 2 + r ^ 2 ∧ t = s))) := by
  unfold balanceIndex at h
  simp only [abs_of_nonneg (colSq_nonneg s.1 i), abs_of_nonneg (rowSq_nonneg s.1 i)] at h
  split_ifs at h with hg
  · left; cases h; exact ⟨hg, rfl⟩
  · right
    push Not at hg
    refine ⟨hg.1, hg.2, ?_⟩
    cases h1 : growLoop fuel ⟨1, Real.sqrt (colSq s.1 i), Real.sqrt (rowSq s.1 i)⟩ with
    | none => simp [h1] at h
    | some s₁ =>
      simp only [h1, Option.bind_some] at h
      cases h2 : shrinkLoop fuel s₁ with
      | none => simp [h2] at h
      | some s₂ =>
        simp only [h2, Option.bind_some] at h
        have hr0 : Reach (Real.sqrt (colSq s.1 i)) (Real.sqrt (rowSq s.1 i))
            ⟨1, Real.sqrt (colSq s.1 i), Real.sqrt (rowSq s.1 i)⟩ :=
          ⟨⟨0, by simp⟩, by simp, by simp⟩
        have g1 := growLoop_spec hr0 h1
        have g2 := shrinkLoop_spec g1.1 g1.2 h2
        obtain ⟨⟨⟨d, hd⟩, hc, hr⟩, hlo, hhi⟩ := g2
        refine ⟨d, ?_⟩
        rw [← hd]
        simp only [← hc, ← hr]
        refine ⟨hlo, hhi, ?_⟩
        split_ifs at h with hlt
        · left; cases h; exact ⟨hlt, rfl⟩
        · right; cases h; exact ⟨not_lt.1 hlt, rfl⟩

theorem balanceIndex_total {n : ℕ} (conv : ℝ) (M : Matrix (Fin n) (Fin n) ℝ) (i : Fin n) :
    ∃ N, ∀ fuel, N < fuel → ∀ b, ∃ t, balanceIndex fuel conv (M, b) i = some t := by
  by_cases hg : |rowSq M i| ≤ balanceTiny ∨ |colSq M i| ≤ balanceTiny
  · exact ⟨0, fun fuel _ b => ⟨(M, b), by unfold balanceIndex; simp only [if_pos hg]⟩⟩
  · have hg' := hg
    push Not at hg'
    rw [abs_of_nonneg (colSq_nonneg M i), abs_of_nonneg (rowSq_nonneg M i)] at hg'
    have hc : 0 < Real.sqrt (colSq M i) := Real.sqrt_pos.2 (balanceTiny_pos.trans hg'.2)
    have hr : 0 < Real.sqrt (rowSq M i) := Real.sqrt_pos.2 (balanceTiny_pos.trans hg'.1)
    obtain ⟨N₁, h₁⟩ := growLoop_term ⟨1, Real.sqrt (colSq M i), Real.sqrt (rowSq M i)⟩ hc
    obtain ⟨s₁, hs₁⟩ := h₁ (N₁ + 1) (by omega)
    have hr0 : Reach (Real.sqrt (colSq M i)) (Real.sqrt (rowSq M i))
        ⟨1, Real.sqrt (colSq M i), Real.sqrt (rowSq M i)⟩ := ⟨⟨0, by simp⟩, by simp, by simp⟩
    have g1 := growLoop_spec hr0 hs₁
    have hr1 : 0 < s₁.r := by rw [g1.1.hr]; exact div_pos hr g1.1.fpos
    obtain ⟨N₂, h₂⟩ := shrinkLoop_term s₁ hr1
    refine ⟨N₁ + 1 + N₂, fun fuel hf b => ?_⟩
    obtain ⟨s₂, hs₂⟩ := h₂ fuel (by omega)
    have hs₁' : growLoop fuel ⟨1, Real.sqrt (colSq M i), Real.sqrt (rowSq M i)⟩ = some s₁ :=
      whileLoop_mono (by omega) hs₁
    unfold balanceIndex
    simp only [if_neg hg, hs₁', Option.bind_some, hs₂]
    split_ifs <;> exact ⟨_, rfl⟩

/-! ## diagonal similarity -/

theorem scaleIndex_apply {n : ℕ} (M : Matrix (Fin n) (Fin n) ℝ) (i : Fin n) {f : ℝ} (j k : Fin n) :
    scaleIndex M i f j k =
      M j k * (if k = i then f else 1) / (if j = i then f else 1) := by
  unfold scaleIndex; simp only; split_ifs <;> simp

/-- `B` is `A` conjugated by a diagonal matrix of powers of two. -/
def PowSim {n : ℕ} (A B : Matrix (Fin n) (Fin n) ℝ) : Prop :=
  ∃ d : Fin n → ℤ, ∀ j k, B j k = A j k * (2 : ℝ) ^ d k / (2 : ℝ) ^ d j

theorem PowSim.refl {n : ℕ} (A : Matrix (Fin n) (Fin n) ℝ) : PowSim A A :=
  ⟨fun _ => 0, fun j k => by simp⟩

theorem PowSim.trans {n : ℕ} {A B C : Matrix (Fin n) (Fin n) ℝ} (h : PowSim A B) (h' : PowSim B C) :
    PowSim A C := by
  obtain ⟨d, hd⟩ := h
  obtain ⟨e, he⟩ := h'
  refine ⟨fun i => d i + e i, fun j k => ?_⟩
  rw [he, hd, zpow_add₀ (by norm_num), zpow_add₀ (by norm_num)]
  have : ∀ z : ℤ, (2 : ℝ) ^ z ≠ 0 := fun z => by positivity
  field_simp

theorem PowSim.scaleIndex {n : ℕ} (M : Matrix (Fin n) (Fin n) ℝ) (i : Fin n) (d : ℤ) :
    PowSim M (scaleIndex M i (2 ^ d)) := by
  refine ⟨fun j => if j = i then d else 0, fun j k => ?_⟩
  rw [scaleIndex_apply]
  split_ifs <;> simp [*]

theorem balanceIndex_powSim {n fuel : ℕ} {conv : ℝ} {s t : Matrix (Fin n) (Fin n) ℝ × Bool}
    {i : Fin n} (h : balanceIndex fuel conv s i = some t) : PowSim s.1 t.1 := by
  rcases balanceIndex_spec h with ⟨_, rfl⟩ | ⟨_, _, d, _, _, ⟨_, rfl⟩ | ⟨_, rfl⟩⟩
  · exact .refl _
  · exact .scaleIndex _ _ _
  · exact .refl _

theorem foldlM_inv {α σ : Type*} {f : σ → α → Option σ} (R : σ → σ → Prop)
    (hrefl : ∀ s, R s s) (htrans : ∀ s t u, R s t → R t u → R s u)
    (hstep : ∀ s a t, f s a = some t → R s t) :
    ∀ (l : List α) (s t : σ), l.foldlM f s = some t → R s t := by
  intro l
  induction l with
  | nil => intro s t h; simp only [List.foldlM_nil] at h; cases h; exact hrefl _
  | cons a l ih =>
    intro s t h
    rw [List.foldlM_cons] at h
    cases ha : f s a with
    | none => simp [ha] at h
    | some u =>
      rw [ha] at h
      exact htrans _ _ _ (hstep _ _ _ ha) (ih u t h)

theorem balanceSweep_powSim {n fuel : ℕ} {conv : ℝ} {M : Matrix (Fin n) (Fin n) ℝ}
    {t : Matrix (Fin n) (Fin n) ℝ × Bool}
    (h : balanceSweep fuel conv M = some t) : PowSim M t.1 :=
  foldlM_inv (fun s t => PowSim s.1 t.1) (fun _ => .refl _) (fun _ _ _ => .trans)
    (fun _ _ _ => balanceIndex_powSim) _ _ _ h

theorem balance_powSim {n fuel : ℕ} {conv : ℝ} {M B : Matrix (Fin n) (Fin n) ℝ}
    (h : balance fuel conv M = some B) : PowSim M B := by
  unfold balance at h
  rw [Option.map_eq_some_iff] at h
  obtain ⟨t, ht, rfl⟩ := h
  exact (whileLoop_inv (fun s => PowSim M s.1)
    (fun s t hs _ hb => hs.trans (balanceSweep_powSim hb)) _ _ _ (PowSim.refl M) ht).1

/-- Matrix form of `PowSim`. -/
theorem PowSim.eq_conj {n : ℕ} {A B : Matrix (Fin n) (Fin n) ℝ} (h : PowSim A B) :
    ∃ d : Fin n → ℤ, B = Matrix.diagonal (fun i => ((2 : ℝ) ^ d i)⁻¹) * A *
      Matrix.diagonal (fun i => (2 : ℝ) ^ d i) := by
  obtain ⟨d, hd⟩ := h
  refine ⟨d, ?_⟩
  ext j k
  rw [Matrix.mul_diagonal, Matrix.diagonal_mul, hd]
  ring

/-! ## last sweep: the flag is still set only if nothing was changed -/

theorem balanceIndex_true {n fuel : ℕ} {conv : ℝ} {s t : Matrix (Fin n) (Fin n) ℝ × Bool} {i : Fin n}
    (h : balanceIndex fuel conv s i = some t) (ht : t.2 = true) : t = s := by
  rcases balanceIndex_spec h with ⟨_, rfl⟩ | ⟨_, _, d, _, _, ⟨_, rfl⟩ | ⟨_, rfl⟩⟩
  · rfl
  · simp at ht
  · rfl

theorem foldlM_true {n fuel : ℕ} {conv : ℝ} :
    ∀ (l : List (Fin n)) (s t : Matrix (Fin n) (Fin n) ℝ × Bool),
      l.foldlM (balanceIndex fuel conv) s = some t → t.2 = true →
        t = s ∧ ∀ i ∈ l, balanceIndex fuel conv s i = some s := by
  intro l
  induction l with
  | nil => intro s t h _; simp only [List.foldlM_nil] at h; cases h; exact ⟨rfl, by simp⟩
  | cons a l ih =>
    intro s t h ht
    rw [List.foldlM_cons] at h
    cases ha : balanceIndex fuel conv s a with
    | none => simp [ha] at h
    | some u =>
      rw [ha] at h
      obtain ⟨h1, h2⟩ := ih u t h ht
      subst h1
      have := balanceIndex_true ha ht
      subst this
      refine ⟨rfl, ?_⟩
      intro i hi
      rcases List.mem_cons.1 hi with rfl | hi
      · exact ha
      · exact h2 i hi

theorem balance_exit {n fuel : ℕ} {conv : ℝ} {M B : Matrix (Fin n) (Fin n) ℝ}
    (h : balance fuel conv M = some B) (i : Fin n) :
    balanceIndex fuel conv (B, true) i = some (B, true) := by
  unfold balance at h
  rw [Option.map_eq_some_iff] at h
  obtain ⟨t, ht, rfl⟩ := h
  have := whileLoop_inv (fun s : Matrix (Fin n) (Fin n) ℝ × Bool => s.2 = true →
      ∀ i, balanceIndex fuel conv s i = some s)
    (fun s t _ _ hb ht i => by
      have := foldlM_true _ _ _ hb ht
      rw [this.1]
      exact this.2 i (List.mem_finRange i)) _ _ _ (by simp) ht
  have h2 : t.2 = true := by simpa using this.2
  have h3 := this.1 h2 i
  rw [← h2]; exact h3

/-! ## off-diagonal weight -/

/-- Sum of the squares of all off-diagonal entries. -/
noncomputable def offSq {n : ℕ} (M : Matrix (Fin n) (Fin n) ℝ) : ℝ :=
  ∑ j, ∑ k, if j = k then 0 else M j k ^ 2

/-- Off-diagonal entries neither in row nor in column `i`. -/
noncomputable def restSq {n : ℕ} (M : Matrix (Fin n) (Fin n) ℝ) (i : Fin n) : ℝ :=
  ∑ j, ∑ k, if j = k ∨ j = i ∨ k = i then 0 else M j k ^ 2

theorem offSq_nonneg {n : ℕ} (M : Matrix (Fin n) (Fin n) ℝ) : 0 ≤ offSq M :=
  Finset.sum_nonneg fun j _ => Finset.sum_nonneg fun k _ => by split_ifs <;> positivity

theorem offSq_split {n : ℕ} (M : Matrix (Fin n) (Fin n) ℝ) (i : Fin n) :
    offSq M = colSq M i + rowSq M i + restSq M i := by
  have key : ∀ j k, (if j = k then 0 else M j k ^ 2) =
      (if k = i then (if j = i then 0 else |M j i| ^ 2) else 0) +
      (if j = i then (if k = i then 0 else |M i k| ^ 2) else 0) +
      (if j = k ∨ j = i ∨ k = i then 0 else M j k ^ 2) := by
    intro j k
    by_cases hj : j = i <;> by_cases hk : k = i
    · subst hj; subst hk; simp
    · subst hj; simp [hk, Ne.symm hk]
    · subst hk; simp [hj]
    · simp [hj, hk]
  unfold offSq restSq colSq rowSq
  simp_rw [key, Finset.sum_add_distrib]
  congr 2
  · refine Finset.sum_congr rfl fun j _ => ?_
    rw [Finset.sum_ite_eq' Finset.univ i]; simp
  · rw [Finset.sum_comm]
    refine Finset.sum_congr rfl fun k _ => ?_
    rw [Finset.sum_ite_eq' Finset.univ i]; simp

theorem offSq_scale {n : ℕ} (M : Matrix (Fin n) (Fin n) ℝ) (i : Fin n) {f : ℝ} (hf : 0 < f) :
    offSq (scaleIndex M i f) = colSq M i * f ^ 2 + rowSq M i / f ^ 2 + restSq M i := by
  have e1 : colSq (scaleIndex M i f) i = colSq M i * f ^ 2 := by
    unfold colSq
    rw [Finset.sum_mul]
    refine Finset.sum_congr rfl fun j _ => ?_
    rw [scaleIndex_apply]
    by_cases hj : j = i
    · simp [hj]
    · simp [hj, abs_mul, mul_pow]
  have e2 : rowSq (scaleIndex M i f) i = rowSq M i / f ^ 2 := by
    unfold rowSq
    rw [Finset.sum_div]
    refine Finset.sum_congr rfl fun j _ => ?_
    rw [scaleIndex_apply]
    by_cases hj : j = i
    · simp [hj]
    · simp [hj, abs_div, div_pow]
  have e3 : restSq (scaleIndex M i f) i = restSq M i := by
    unfold restSq
    refine Finset.sum_congr rfl fun j _ => Finset.sum_congr rfl fun k _ => ?_
    rw [scaleIndex_apply]
    by_cases hj : j = i
    · simp [hj]
    · by_cases hk : k = i
      · simp [hk]
      · simp [hj, hk]
  rw [offSq_split _ i, e1, e2, e3]

/-- Either nothing happened, or the off-diagonal weight dropped by a fixed amount. -/
theorem balanceIndex_offSq {n fuel : ℕ} {conv : ℝ} (hconv : conv < 1)
    {s t : Matrix (Fin n) (Fin n) ℝ × Bool} {i : Fin n}
    (h : balanceIndex fuel conv s i = some t) :
    t = s ∨ (t.2 = false ∧ offSq t.1 ≤ offSq s.1 - (1 - conv) * (2 * balanceTiny)) := by
  rcases balanceIndex_spec h with ⟨_, rfl⟩ | ⟨h1, h2, d, _, _, ⟨hlt, rfl⟩ | ⟨_, rfl⟩⟩
  · exact .inl rfl
  · right
    refine ⟨rfl, ?_⟩
    have hf : (0 : ℝ) < 2 ^ d := by positivity
    rw [offSq_scale _ _ hf, offSq_split s.1 i]
    rw [mul_pow, div_pow, Real.sq_sqrt (colSq_nonneg _ _), Real.sq_sqrt (rowSq_nonneg _ _)] at hlt
    have : 0 < 1 - conv := by linarith
    nlinarith [mul_lt_mul_of_pos_left (add_lt_add h1 h2) this]
  · exact .inl rfl

theorem balanceSweep_offSq {n fuel : ℕ} {conv : ℝ} (hconv : conv < 1)
    {M : Matrix (Fin n) (Fin n) ℝ} {t : Matrix (Fin n) (Fin n) ℝ × Bool}
    (h : balanceSweep fuel conv M = some t) :
    t.2 = true ∨ offSq t.1 ≤ offSq M - (1 - conv) * (2 * balanceTiny) := by
  have hδ : 0 < (1 - conv) * (2 * balanceTiny) := by
    have := balanceTiny_pos
    have : 0 < 1 - conv := by linarith
    positivity
  have := foldlM_inv (f := balanceIndex fuel conv)
    (fun s t => t = s ∨ (t.2 = false ∧ offSq t.1 ≤ offSq s.1 - (1 - conv) * (2 * balanceTiny)))
    (fun _ => .inl rfl)
    (fun s t u h h' => by
      rcases h with rfl | ⟨h1, h2⟩
      · exact h'
      · rcases h' with rfl | ⟨h3, h4⟩
        · exact .inr ⟨h1, h2⟩
        · exact .inr ⟨h3, by linarith⟩)
    (fun _ _ _ => balanceIndex_offSq hconv) _ _ _ h
  rcases this with rfl | ⟨_, h2⟩
  · exact .inl rfl
  · exact .inr h2

/-! ## totality -/

theorem balanceSweep_total {n : ℕ} (conv : ℝ) (M : Matrix (Fin n) (Fin n) ℝ) :
    ∃ N, ∃ t, ∀ fuel, N < fuel → balanceSweep fuel conv M = some t := by
  unfold balanceSweep
  generalize (M, true) = s
  induction List.finRange n generalizing s with
  | nil => exact ⟨0, s, fun fuel _ => rfl⟩
  | cons a l ih =>
    obtain ⟨N₁, h₁⟩ := balanceIndex_total conv s.1 a
    obtain ⟨u, hu⟩ := h₁ (N₁ + 1) (by omega) s.2
    have hmono : ∀ fuel, N₁ < fuel → balanceIndex fuel conv s a = some u := by
      intro fuel hf
      -- results are independent of the fuel once it suffices
      have hge : N₁ + 1 ≤ fuel := hf
      revert hu
      unfold balanceIndex
      simp only
      split_ifs with hg
      · exact id
      · intro hu
        cases h1 : growLoop (N₁ + 1) ⟨1, Real.sqrt (colSq s.1 a), Real.sqrt (rowSq s.1 a)⟩ with
        | none => simp [h1] at hu
        | some s₁ =>
          rw [h1] at hu
          simp only [Option.bind_some] at hu
          cases h2 : shrinkLoop (N₁ + 1) s₁ with
          | none => simp [h2] at hu
          | some s₂ =>
            rw [h2] at hu
            have h1' : growLoop fuel ⟨1, Real.sqrt (colSq s.1 a), Real.sqrt (rowSq s.1 a)⟩ = some s₁ :=
              whileLoop_mono hge h1
            have h2' : shrinkLoop fuel s₁ = some s₂ := whileLoop_mono hge h2
            rw [h1']; simp only [Option.bind_some]; rw [h2']; exact hu
    obtain ⟨N₂, t, h₂⟩ := ih u
    refine ⟨N₁ + N₂, t, fun fuel hf => ?_⟩
    rw [List.foldlM_cons, hmono fuel (by omega)]
    exact h₂ fuel (by omega)

theorem balanceLoop_total {n : ℕ} {conv : ℝ} (hconv : conv < 1) :
    ∀ (K : ℕ) (s : Matrix (Fin n) (Fin n) ℝ × Bool),
      offSq s.1 < K * ((1 - conv) * (2 * balanceTiny)) →
      ∃ N, ∀ fuel', N < fuel' → ∃ t, ∀ fuel, N < fuel →
        whileLoop (fun s : Matrix (Fin n) (Fin n) ℝ × Bool => s.2 = false)
          (fun s => balanceSweep fuel' conv s.1) fuel s = some t := by
  intro K
  induction K with
  | zero => intro s h; exact absurd h (by simpa using offSq_nonneg s.1)
  | succ K ih =>
    intro s h
    by_cases hs : s.2 = false
    · obtain ⟨N₁, t, h₁⟩ := balanceSweep_total conv s.1
      by_cases ht : t.2 = true
      · refine ⟨N₁ + 1, fun fuel' hf' => ⟨t, fun fuel hf => ?_⟩⟩
        obtain ⟨k, rfl⟩ : ∃ k, fuel = k + 2 := ⟨fuel - 2, by omega⟩
        unfold whileLoop
        rw [if_pos hs, h₁ fuel' (by omega)]
        simp only [Option.bind_some]
        unfold whileLoop
        rw [if_neg (by simp [ht])]
      · have hdec := (balanceSweep_offSq hconv (h₁ (N₁ + 1) (by omega))).resolve_left ht
        obtain ⟨N₂, h₂⟩ := ih t (by push_cast at h; linarith)
        refine ⟨N₁ + N₂ + 1, fun fuel' hf' => ?_⟩
        obtain ⟨u, hu⟩ := h₂ fuel' (by omega)
        refine ⟨u, fun fuel hf => ?_⟩
        obtain ⟨k, rfl⟩ : ∃ k, fuel = k + 1 := ⟨fuel - 1, by omega⟩
        unfold whileLoop
        rw [if_pos hs, h₁ fuel' (by omega)]
        exact hu k (by omega)
    · refine ⟨0, fun fuel' _ => ⟨s, fun fuel hf => ?_⟩⟩
      obtain ⟨k, rfl⟩ : ∃ k, fuel = k + 1 := ⟨fuel - 1, by omega⟩
      unfold whileLoop
      rw [if_neg hs]

theorem balance_total {n : ℕ} {conv : ℝ} (hconv : conv < 1) (M : Matrix (Fin n) (Fin n) ℝ) :
    ∃ N, ∀ fuel, N < fuel → ∃ B, balance fuel conv M = some B := by
  have hδ : 0 < (1 - conv) * (2 * balanceTiny) := by
    have := balanceTiny_pos
    have : 0 < 1 - conv := by linarith
    positivity
  obtain ⟨K, hK⟩ := exists_nat_gt (offSq M / ((1 - conv) * (2 * balanceTiny)))
  rw [div_lt_iff₀ hδ] at hK
  obtain ⟨N, hN⟩ := balanceLoop_total hconv K (M, false) hK
  refine ⟨N, fun fuel hf => ?_⟩
  obtain ⟨t, ht⟩ := hN fuel hf
  exact ⟨t.1, by unfold balance; rw [ht fuel hf]; rfl⟩

end CasSph
