import Verif.Model.MSum
import Verif.Spec.MSum
import Verif.Lemmas.MSum
import Mathlib.Tactic.IntervalCases

/-! # Properties C13 – C16, C18, C19: sums over `m` and round-trip expansions -/

namespace CasSph

open scoped Classical
open Spec

variable {n : ℕ}

/-! ## C13 -/

/-- The relative change of the reference element (largest magnitude of the previous sum) when subspace
`m` is added is below `precision/10`. -/
def SmallChange (precision : ℝ) (v : ℕ → Fin n → ℝ) (m : ℕ) : Prop :=
  1 ≤ m ∧ ∃ r, IsRef (mSum v (m - 1)) r ∧ |(|mSum v m r / mSum v (m - 1) r|) - 1| < precision / 10

theorem zero_iff_ref (hn : 0 < n) (w : Fin n → ℝ) :
    (∃ r, npArgmax (npAbs w) = some r ∧ w r = 0) ↔ ∀ i, w i = 0 := by
  constructor
  · rintro ⟨r, hr, h0⟩ i
    have := (npArgmax_isRef.1 hr).1 i
    rw [h0, abs_zero] at this
    exact abs_eq_zero.1 (le_antisymm this (abs_nonneg _))
  · intro h
    obtain ⟨r, hr⟩ := exists_isRef hn w
    exact ⟨r, npArgmax_isRef.2 hr, h r⟩

/-- **C13.** If the contributions `v 0, …, v lmax` can be evaluated, `mSumme` returns
`v 0 + 2 (v 1 + … + v M)` where `M` is the first number such that the sum vanishes identically or
changed relatively by less than `precision/10` in the last step, and `lmax` if there is none. -/
theorem C13_mSumme (hn : 0 < n) {lmax : ℕ} {precision : ℝ} {L : ℕ → Res (Fin n → ℝ)}
    {v : ℕ → Fin n → ℝ} (hL : ∀ m ≤ lmax, L m = .ok (v m)) :
    ∃ M, mSummeNonzero lmax precision L = .ok (mSum v M) ∧
      FirstOr (fun m => (∀ i, mSum v m i = 0) ∨ SmallChange precision v m) lmax M := by
  unfold mSummeNonzero
  rw [hL 0 (by omega), ok_bind, ← mSum_zero v]
  obtain ⟨M, -, h2, h3, h4, h5⟩ := mLoop_spec (n := n)
    (pre := fun old => ∃ r, npArgmax (npAbs old) = some r ∧ old r = 0)
    (post := fun old new => ∃ r, npArgmax (npAbs old) = some r ∧
      |(|new r / old r|) - 1| < precision / 10) (L := L) (v := v) lmax 0
    (fun j _ hj => hL j (by omega))
  refine ⟨M, h3, by omega, ?_, fun m hm => ?_⟩
  · rcases h4 with h | h | ⟨h, r, hr, hlt⟩
    · exact .inr (by omega)
    · exact .inl (.inl ((zero_iff_ref hn _).1 h))
    · exact .inl (.inr ⟨by omega, r, npArgmax_isRef.1 hr, hlt⟩)
  · obtain ⟨ha, hb⟩ := h5 m (by omega) hm
    rintro (h | ⟨h, r, hr, hlt⟩)
    · exact ha ((zero_iff_ref hn _).2 h)
    · exact hb (by omega) ⟨r, npArgmax_isRef.2 hr, hlt⟩

/-- **C13 (ii).** If `L_0` vanishes identically, nothing else is evaluated or added. -/
theorem C13_vanishing (hn : 0 < n) (lmax : ℕ) (precision : ℝ) {L : ℕ → Res (Fin n → ℝ)}
    (hL : L 0 = .ok fun _ => 0) : mSummeNonzero lmax precision L = .ok fun _ => 0 := by
  unfold mSummeNonzero
  rw [hL, ok_bind]
  cases lmax with
  | zero => rfl
  | succ l => rw [mLoop, if_pos ((zero_iff_ref hn _).2 fun _ => rfl)]

/-- **C13 (iii).** An exception leaves `mSumme` only if one of the subspaces `0..lmax` raised it. -/
theorem C13_error {lmax : ℕ} {precision : ℝ} {L : ℕ → Res (Fin n → ℝ)} {e : PyErr}
    (h : mSummeNonzero lmax precision L = .error e) : ∃ m ≤ lmax, L m = .error e := by
  unfold mSummeNonzero at h
  cases h0 : L 0 with
  | error e' => rw [h0, error_bind] at h; cases h; exact ⟨0, by omega, h0⟩
  | ok S =>
    rw [h0, ok_bind] at h
    obtain ⟨j, _, h2, h3⟩ := mLoop_error _ _ _ h
    exact ⟨j, by omega, h3⟩

/-- **C13 (iv).** The full method on a list of wavenumbers: without a leading zero it is the array
above; a leading zero contributes the zero-frequency sum as first element; the empty list raises. -/
theorem C13_wavenumbers (lmax : ℕ) (precision : ℝ) (L0 : ℕ → Res (Fin 1 → ℝ))
    (L : (ks : List ℝ) → ℕ → Res (Fin ks.length → ℝ)) :
    mSumme lmax precision L0 L [] = .error .indexError ∧
    (∀ k rest v, k ≠ 0 → mSummeNonzero lmax precision (L (k :: rest)) = .ok v →
      mSumme lmax precision L0 L (k :: rest) = .ok (List.ofFn v)) ∧
    (∀ z, mSummeK0 lmax precision L0 = .ok z → mSumme lmax precision L0 L [0] = .ok [z 0]) ∧
    (∀ z rest r, rest ≠ [] → mSummeK0 lmax precision L0 = .ok z →
      mSumme lmax precision L0 L rest = .ok r →
      mSumme lmax precision L0 L (0 :: rest) = .ok (z 0 :: r)) := by
  refine ⟨rfl, fun k rest v hk hv => ?_, fun z hz => ?_, fun z rest r hr hz hv => ?_⟩
  · rw [mSumme, if_neg hk, hv]; rfl
  · rw [mSumme, if_pos rfl, hz]; rfl
  · rw [mSumme, if_pos rfl, hz, ok_bind]
    cases rest with
    | nil => exact absurd rfl hr
    | cons k rest => dsimp only; rw [hv]; rfl

/-- A concrete run with two wavenumbers in which the sum really stops before `lmax`: contributions
`(-2,-1), (0,-1/4), …`: the reference element 0 does not change at `m = 1`. -/
example : ∃ M, mSummeNonzero 5 (1 / 10)
      (fun m => .ok (fun i : Fin 2 => if m = 0 then (if i = 0 then -2 else -1) else
        (if i = 0 then 0 else -1 / 4))) =
      .ok (mSum (fun m (i : Fin 2) => if m = 0 then (if i = 0 then -2 else -1) else
        (if i = 0 then 0 else -1 / 4)) M) ∧ M = 1 := by
  obtain ⟨M, h, h1, h2, h3⟩ := C13_mSumme (n := 2) (by omega) (lmax := 5) (precision := 1 / 10)
    (L := fun m => .ok (fun i : Fin 2 => if m = 0 then (if i = 0 then -2 else -1) else
        (if i = 0 then 0 else -1 / 4)))
    (v := fun m (i : Fin 2) => if m = 0 then (if i = 0 then -2 else -1) else
        (if i = 0 then 0 else -1 / 4)) (fun _ _ => rfl)
  have hs : SmallChange (1 / 10) (fun m (i : Fin 2) => if m = 0 then (if i = 0 then (-2 : ℝ) else -1) else
        (if i = 0 then 0 else -1 / 4)) 1 := by
    refine ⟨le_refl _, 0, ⟨fun i => ?_, fun i hi => absurd hi (Fin.not_lt_zero i)⟩, ?_⟩
    · fin_cases i <;> simp [mSum]
    · simp [mSum]
  refine ⟨M, h, ?_⟩
  have hM1 : M ≤ 1 := by
    by_contra hc
    exact h3 1 (by omega) (.inr hs)
  rcases Nat.eq_zero_or_pos M with rfl | hp
  · rcases h2 with (h2 | h2) | h2
    · have := h2 0
      simp [mSum] at this
    · exact absurd h2.1 (by omega)
    · omega
  · omega

/-! ## C14 -/

/-- **C14.** `mSumme_k0` returns `v 0 + 2 (v 1 + … + v M)` where `M ≥ 1` is the first number whose
relative change `|abs(old/new) - 1|` is below `precision/10` (a vanishing new sum never stops), and
`lmax` if there is none. -/
theorem C14_mSumme_k0 {lmax : ℕ} {precision : ℝ} {L : ℕ → Res (Fin 1 → ℝ)}
    {v : ℕ → Fin 1 → ℝ} (hL : ∀ m ≤ lmax, L m = .ok (v m)) :
    ∃ M, mSummeK0 lmax precision L = .ok (mSum v M) ∧
      FirstOr (fun m => 1 ≤ m ∧ mSum v m 0 ≠ 0 ∧
        |(|mSum v (m - 1) 0 / mSum v m 0|) - 1| < precision / 10) lmax M := by
  unfold mSummeK0
  rw [hL 0 (by omega), ok_bind, ← mSum_zero v]
  obtain ⟨M, -, h2, h3, h4, h5⟩ := mLoop_spec (n := 1) (pre := fun _ => False)
    (post := fun old new => new 0 ≠ 0 ∧ |(|old 0 / new 0|) - 1| < precision / 10)
    (L := L) (v := v) lmax 0 (fun j _ hj => hL j (by omega))
  refine ⟨M, h3, by omega, ?_, fun m hm => ?_⟩
  · rcases h4 with h | h | ⟨h, h'⟩
    · exact .inr (by omega)
    · exact h.elim
    · exact .inl ⟨by omega, h'⟩
  · rintro ⟨h, h'⟩
    exact (h5 m (by omega) hm).2 (by omega) h'

/-- **C14 (ii).** An exception leaves `mSumme_k0` only if one of the subspaces raised it. -/
theorem C14_error {lmax : ℕ} {precision : ℝ} {L : ℕ → Res (Fin 1 → ℝ)} {e : PyErr}
    (h : mSummeK0 lmax precision L = .error e) : ∃ m ≤ lmax, L m = .error e := by
  unfold mSummeK0 at h
  cases h0 : L 0 with
  | error e' => rw [h0, error_bind] at h; cases h; exact ⟨0, by omega, h0⟩
  | ok S =>
    rw [h0, ok_bind] at h
    obtain ⟨j, _, h2, h3⟩ := mLoop_error _ _ _ h
    exact ⟨j, by omega, h3⟩

example : ∃ M, mSummeK0 3 (1 / 1000) (fun m => .ok fun _ => -1 / 2 ^ m) =
    .ok (mSum (fun m _ => -1 / 2 ^ m) M) :=
  (C14_mSumme_k0 (fun _ _ => rfl)).imp fun _ h => h.1

/-! ## C15 -/

/-- **C15 (refutation).** There are contributions for which `mSumme` stops early although the last added
term is twice as large as the sum before it: `L_0 = 1, L_1 = -1, L_2 = 1`. -/
theorem C15_refuted : ∃ (L : ℕ → Fin 1 → ℝ) (M : ℕ),
    mSummeNonzero 2 (1 / 10000) (fun m => .ok (L m)) = .ok (mSum L M) ∧ 0 < M ∧ M < 2 ∧
    (∀ i, mSum L M i ≠ mSum L 2 i) ∧ ¬ |2 * L M 0| < (1 / 10000) / 10 * |mSum L (M - 1) 0| := by
  obtain ⟨M, h, h1, h2, h3⟩ := C13_mSumme (n := 1) (by omega) (lmax := 2) (precision := 1 / 10000)
    (L := fun m => .ok (fun _ => (-1) ^ m)) (v := fun m _ => (-1 : ℝ) ^ m) (fun _ _ => rfl)
  have hs : SmallChange (1 / 10000) (fun m (_ : Fin 1) => (-1 : ℝ) ^ m) 1 := by
    refine ⟨le_refl _, 0, ⟨fun i => by rw [Subsingleton.elim i 0], fun i hi => absurd hi (Fin.not_lt_zero i)⟩, ?_⟩
    norm_num [mSum]
  have hM : M = 1 := by
    rcases Nat.lt_or_ge 1 M with hc | hc
    · exact absurd (.inr hs) (h3 1 hc)
    rcases Nat.eq_zero_or_pos M with rfl | hp
    · rcases h2 with (h2 | h2) | h2
      · have := h2 0
        simp [mSum] at this
      · exact absurd h2.1 (by omega)
      · omega
    · omega
  subst hM
  refine ⟨_, 1, h, by omega, by omega, fun i => ?_, ?_⟩
  · norm_num [mSum, Finset.sum_Icc_succ_top]
  · norm_num [mSum]

/-- **C15 (partial).** If the sum did not change sign in the last step, an early stop at `M ≥ 1` means
that the last added term is smaller than `precision/10` times the previous sum, at the reference
element.  Missing with respect to the full claim: the case of a sign change, where it is false. -/
theorem C15_last_term_partial {precision : ℝ} {v : ℕ → Fin n → ℝ} {M : ℕ}
    (hs : SmallChange precision v M) (h0 : ∃ i, mSum v (M - 1) i ≠ 0)
    (hsign : ∀ i, 0 ≤ mSum v M i * mSum v (M - 1) i) :
    ∃ r, IsRef (mSum v (M - 1)) r ∧ |2 * v M r| < precision / 10 * |mSum v (M - 1) r| := by
  obtain ⟨hM, r, hr, hlt⟩ := hs
  refine ⟨r, hr, ?_⟩
  have hne : mSum v (M - 1) r ≠ 0 := by
    intro hz
    obtain ⟨i, hi⟩ := h0
    have := hr.1 i
    rw [hz, abs_zero] at this
    exact hi (abs_eq_zero.1 (le_antisymm this (abs_nonneg _)))
  obtain ⟨k, rfl⟩ : ∃ k, M = k + 1 := ⟨M - 1, by omega⟩
  simp only [Nat.add_sub_cancel] at *
  have hq : 0 ≤ mSum v (k + 1) r / mSum v k r := by
    have := hsign r
    rw [div_eq_mul_inv]
    have h2 : mSum v (k + 1) r * (mSum v k r)⁻¹ = mSum v (k + 1) r * mSum v k r * ((mSum v k r)⁻¹) ^ 2 := by
      field_simp
    rw [h2]; positivity
  rw [abs_of_nonneg hq] at hlt
  have e : mSum v (k + 1) r / mSum v k r - 1 = 2 * v (k + 1) r / mSum v k r := by
    rw [mSum_succ]; field_simp; ring
  rw [e, abs_div, div_lt_iff₀ (abs_pos.2 hne)] at hlt
  exact hlt

example : SmallChange (1 / 10) (fun m (_ : Fin 1) => if m = 0 then (1 : ℝ) else 1 / 1000) 1 ∧
    (∀ i, 0 ≤ mSum (fun m (_ : Fin 1) => if m = 0 then (1 : ℝ) else 1 / 1000) 1 i *
      mSum (fun m (_ : Fin 1) => if m = 0 then (1 : ℝ) else 1 / 1000) (1 - 1) i) := by
  refine ⟨⟨le_refl _, 0, ⟨fun i => by rw [Subsingleton.elim i 0],
    fun i hi => absurd hi (Fin.not_lt_zero i)⟩, ?_⟩, fun i => ?_⟩ <;> norm_num [mSum, abs_lt]

/-! ## C16 -/

theorem rtFixedGo_eq {d N : ℕ} (M : Fin d → Matrix (Fin N) (Fin N) ℝ) (todo k : ℕ)
    (P : Fin d → Matrix (Fin N) (Fin N) ℝ) (S : Fin d → ℝ)
    (hP : ∀ i, P i = M i ^ (k + 1)) (hS : ∀ i, S i = traceSum (M i) k) (i : Fin d) :
    rtFixedGo M todo (k + 1) P S i = traceSum (M i) (k + todo) := by
  induction todo generalizing k P S with
  | zero => exact hS i
  | succ t ih =>
    rw [rtFixedGo, ih (k + 1) _ _ (fun i => by rw [hP, ← pow_succ']) fun i => ?_]
    · congr 1; omega
    · rw [hS, hP]
      unfold traceSum
      rw [Finset.sum_Icc_succ_top (by omega)]

/-- **C16.** With an integer order `n ≥ 1` every slice of the result is
`-(tr M + tr M²/2 + … + tr Mⁿ/n)` and `n` is recorded; for `n ≤ 0` UnboundLocalError is raised. -/
theorem C16_fixed_order {d N : ℕ} (M : Fin d → Matrix (Fin N) (Fin N) ℝ) (n : ℕ) (hn : 1 ≤ n) :
    roundtripsFixed M n = .ok (fun i => -traceSum (M i) n, (n : ℤ)) := by
  unfold roundtripsFixed
  rw [if_neg (by omega), Int.toNat_natCast]
  congr 2
  funext i
  rw [rtFixedGo_eq M n 0 _ _ (fun i => by rw [zero_add, pow_one]) (fun i => by simp [traceSum]) i,
    Nat.zero_add]

/-- **C16 (ii).** -/
theorem C16_order_error {d N : ℕ} (M : Fin d → Matrix (Fin N) (Fin N) ℝ) (order : ℤ)
    (h : order < 1) : roundtripsFixed M order = .error .unboundLocalError := if_pos h

example : roundtripsFixed (fun _ : Fin 2 => (Matrix.diagonal fun i : Fin 2 => (i.1 : ℝ) / 3)) 4 =
    .ok (fun _ => -traceSum (Matrix.diagonal fun i : Fin 2 => (i.1 : ℝ) / 3) 4, 4) :=
  C16_fixed_order _ 4 (by omega)

/-! ## C19 -/

/-- The reference element (largest magnitude of the new sum) fell below `precision` times its
predecessor. -/
def Shrunk (precision : ℝ) (v : ℕ → Fin n → ℝ) (m : ℕ) : Prop :=
  1 ≤ m ∧ ∃ r, IsRef (mSum v m) r ∧ mSum v (m - 1) r ≠ 0 ∧
    |mSum v m r / mSum v (m - 1) r| < precision

/-- **C19.** `mSum_roundtrips` returns `t_0 + 2 (t_1 + … + t_M)` where `M` is the first `m` at which the
sum shrank below `precision` times its predecessor, and `lmax` if there is none. -/
theorem C19_mSum_roundtrips {lmax : ℕ} {precision : ℝ} {T : ℕ → Res (Fin n → ℝ)}
    {v : ℕ → Fin n → ℝ} (hL : ∀ m ≤ lmax, T m = .ok (v m)) :
    ∃ M, mSumRoundtrips lmax precision T = .ok (mSum v M) ∧
      FirstOr (Shrunk precision v) lmax M := by
  unfold mSumRoundtrips
  rw [hL 0 (by omega), ok_bind, ← mSum_zero v]
  obtain ⟨M, -, h2, h3, h4, h5⟩ := mLoop_spec (n := n) (pre := fun _ => False)
    (post := fun old new => ∃ r, npArgmax (npAbs new) = some r ∧ old r ≠ 0 ∧
      |new r / old r| < precision)
    (L := T) (v := v) lmax 0 (fun j _ hj => hL j (by omega))
  refine ⟨M, h3, by omega, ?_, fun m hm => ?_⟩
  · rcases h4 with h | h | ⟨h, r, hr, h'⟩
    · exact .inr (by omega)
    · exact h.elim
    · exact .inl ⟨by omega, r, npArgmax_isRef.1 hr, h'⟩
  · rintro ⟨h, r, hr, h'⟩
    exact (h5 m (by omega) hm).2 (by omega) ⟨r, npArgmax_isRef.2 hr, h'⟩

/-- **C19 (ii).** In particular, if no element of the running sum ever shrinks below `precision` times
its predecessor, all subspaces up to `lmax` are added. -/
theorem C19_all_subspaces {lmax : ℕ} {precision : ℝ} {T : ℕ → Res (Fin n → ℝ)}
    {v : ℕ → Fin n → ℝ} (hL : ∀ m ≤ lmax, T m = .ok (v m))
    (h : ∀ m < lmax, ∀ i, precision * |mSum v m i| ≤ |mSum v (m + 1) i|) :
    mSumRoundtrips lmax precision T = .ok (mSum v lmax) := by
  obtain ⟨M, h1, h2, h3, h4⟩ := C19_mSum_roundtrips (precision := precision) hL
  rcases h3 with ⟨hM, r, _, hne, hlt⟩ | rfl
  · obtain ⟨k, rfl⟩ : ∃ k, M = k + 1 := ⟨M - 1, by omega⟩
    have := h k (by omega) r
    rw [Nat.add_sub_cancel] at hne hlt
    rw [abs_div, div_lt_iff₀ (abs_pos.2 hne)] at hlt
    exact absurd this (not_le.2 hlt)
  · exact h1

/-- Contributions of equal sign satisfy the hypothesis. -/
example : mSumRoundtrips 4 (1 / 10000) (fun m => .ok (fun _ : Fin 3 => -1 / (2 : ℝ) ^ m)) =
    .ok (mSum (fun m _ => -1 / (2 : ℝ) ^ m) 4) := by
  refine C19_all_subspaces (fun _ _ => rfl) fun m hm i => ?_
  interval_cases m <;> norm_num [mSum, Finset.sum_Icc_succ_top, abs_of_neg]

end CasSph
