import Verif.Model.FloatSum
import Verif.Spec.FlSum
import Verif.Lemmas.FloatBlocks
import Verif.Lemmas.MSum
import Verif.Lemmas.Thermo

/-! Rounding errors of the sums over `m` and over the Matsubara wavenumbers. -/

namespace CasSph

open Spec
open scoped Classical

/-- `x` is at most `X`, and `x'` differs from `x` by at most `(w - 1) X + H`. -/
def Ab (w X H x' x : ℝ) : Prop := 1 ≤ w ∧ 0 ≤ H ∧ |x| ≤ X ∧ |x' - x| ≤ (w - 1) * X + H

namespace Ab

variable {w v X Y H K x' x y' y u c : ℝ}

theorem nonneg (h : Ab w X H x' x) : 0 ≤ X := (abs_nonneg _).trans h.2.2.1

theorem abs_le (h : Ab w X H x' x) : |x'| ≤ w * X + H := by
  have := abs_sub_abs_le_abs_sub x' x
  linarith [h.2.2.1, h.2.2.2]

theorem mono (h : Ab w X H x' x) (hv : w ≤ v) (hK : H ≤ K) : Ab v X K x' x :=
  ⟨h.1.trans hv, h.2.1.trans hK, h.2.2.1, h.2.2.2.trans (add_le_add (mul_le_mul_of_nonneg_right (by linarith) h.nonneg) hK)⟩

theorem add (h : Ab w X H x' x) (g : Ab w Y K y' y) : Ab w (X + Y) (H + K) (x' + y') (x + y) := by
  refine ⟨h.1, add_nonneg h.2.1 g.2.1, (abs_add_le _ _).trans (add_le_add h.2.2.1 g.2.2.1), ?_⟩
  rw [show x' + y' - (x + y) = (x' - x) + (y' - y) by ring, mul_add]
  refine (abs_add_le _ _).trans ?_
  linarith [h.2.2.2, g.2.2.2]

theorem smul (h : Ab w X H x' x) (hc : 0 ≤ c) : Ab w (c * X) (c * H) (c * x') (c * x) := by
  refine ⟨h.1, mul_nonneg hc h.2.1, ?_, ?_⟩
  · rw [abs_mul, abs_of_nonneg hc]; exact mul_le_mul_of_nonneg_left h.2.2.1 hc
  · rw [← mul_sub, abs_mul, abs_of_nonneg hc]
    have := mul_le_mul_of_nonneg_left h.2.2.2 hc
    linarith

theorem fl {z : ℝ} (h : Ab w X H x' x) (hu : 0 ≤ u) (hz : |z - x'| ≤ u * |x'|) : Ab (w * (1 + u)) X (H * (1 + u)) z x := by
  refine ⟨one_le_mul_of_one_le_of_one_le h.1 (by linarith), mul_nonneg h.2.1 (by linarith), h.2.2.1, ?_⟩
  have e := mul_le_mul_of_nonneg_left h.abs_le hu
  have := abs_add_le (z - x') (x' - x)
  rw [show z - x' + (x' - x) = z - x by ring] at this
  linarith [h.2.2.2]

end Ab

variable {A : FlFun} {u : ℝ}

/-- A computed sum. -/
theorem SumOf.ab (hA : RelErr A u) {xs : List ℝ} {s : ℝ} (h : SumOf A xs s) {w : ℝ} (hw : 1 ≤ w) {ι : Type*} (f F H : ι → ℝ) (is : List ι) (f' : ι → ℝ)
    (hf : ∀ i ∈ is, Ab w (F i) (H i) (f' i) (f i)) (hxs : xs = is.map f') :
    Ab (w * (1 + u) ^ xs.length) (is.map F).sum ((is.map H).sum * (1 + u) ^ xs.length) s (is.map f).sum := by
  have hu := hA.u0
  have p : ∀ {c : ℝ}, 0 ≤ c → ∀ {a b : ℕ}, a ≤ b → c * (1 + u) ^ a ≤ c * (1 + u) ^ b := fun hc _ _ h =>
    mul_le_mul_of_nonneg_left (pow_le_pow_right₀ (by linarith) h) hc
  have hsum : ∀ js : List ι, (∀ i ∈ js, 0 ≤ H i) → 0 ≤ (js.map H).sum := fun js hj => List.sum_nonneg fun x hx => by
    obtain ⟨i, hi, rfl⟩ := List.mem_map.mp hx
    exact hj i hi
  induction h generalizing is with
  | nil =>
    obtain rfl : is = [] := by simpa using hxs.symm
    exact ⟨by simpa using hw, by simp, by simp, by simp⟩
  | one x =>
    obtain ⟨i, rfl, rfl⟩ : ∃ i, is = [i] ∧ x = f' i := by
      match is, hxs with
      | [i], h => exact ⟨i, rfl, by simpa using h⟩
    have := hf i (by simp)
    simp only [List.map_cons, List.map_nil, List.sum_cons, List.sum_nil, add_zero, List.length_singleton, pow_one]
    exact this.mono (le_mul_of_one_le_right (by linarith) (by linarith)) (le_mul_of_one_le_right this.2.1 (by linarith))
  | @add xs ys s t h1 h2 hx hy ih1 ih2 =>
    obtain ⟨i1, i2, rfl, e1, e2⟩ := List.map_eq_append_iff.mp hxs.symm
    have g1 : ∀ i ∈ i1, Ab w (F i) (H i) (f' i) (f i) := fun i hi => hf i (by simp [hi])
    have g2 : ∀ i ∈ i2, Ab w (F i) (H i) (f' i) (f i) := fun i hi => hf i (by simp [hi])
    have c1 := ih1 i1 g1 e1.symm
    have c2 := ih2 i2 g2 e2.symm
    have l1 : 1 ≤ xs.length := List.length_pos_iff.mpr hx
    have l2 : 1 ≤ ys.length := List.length_pos_iff.mpr hy
    have d1 := c1.mono (v := w * (1 + u) ^ (xs.length + ys.length - 1)) (K := (i1.map H).sum * (1 + u) ^ (xs.length + ys.length - 1))
      (p (by linarith) (by omega)) (p (hsum i1 fun i hi => (g1 i hi).2.1) (by omega))
    have d2 := c2.mono (v := w * (1 + u) ^ (xs.length + ys.length - 1)) (K := (i2.map H).sum * (1 + u) ^ (xs.length + ys.length - 1))
      (p (by linarith) (by omega)) (p (hsum i2 fun i hi => (g2 i hi).2.1) (by omega))
    have := (d1.add d2).fl hu (hA.add s t)
    rw [List.map_append, List.map_append, List.map_append, List.sum_append, List.sum_append, List.sum_append, List.length_append]
    rw [← add_mul, mul_assoc, mul_assoc, ← _root_.pow_succ, show xs.length + ys.length - 1 + 1 = xs.length + ys.length by omega] at this
    exact this
  | @perm xs ys s hp h ih =>
    obtain ⟨js, hj, e⟩ : ∃ js : List ι, js.Perm is ∧ js.map f' = xs := by
      rw [hxs] at hp
      have : Relation.Comp (fun a b => a = List.map f' b) (fun a b : List ι => a.Perm b) xs is := by
        rw [List.eq_map_comp_perm]; exact hp
      obtain ⟨js, h1, h2⟩ := this
      exact ⟨js, h2, h1.symm⟩
    have := ih js (fun i hi => hf i (hj.mem_iff.mp hi)) e.symm
    rw [(hj.map F).sum_eq, (hj.map f).sum_eq, (hj.map H).sum_eq, hp.length_eq] at this
    exact this

/-! ## The sum over `m` -/

theorem runSum_succ (A : FlFun) (l : ℕ → ℝ) (M : ℕ) : runSum A l (M + 1) = A.add (runSum A l M) (A.mul 2 (l (M + 1))) := rfl

/-- A running sum over `m`. -/
theorem runSum_ab (hA : RelErr A u) {l' l y : ℕ → ℝ} {κ η : ℝ} (hκ : 0 ≤ κ) (hη : 0 ≤ η) (M : ℕ)
    (h1 : ∀ m ≤ M, |l' m - l m| ≤ κ * y m + η) (h2 : ∀ m ≤ M, |l m| ≤ y m) :
    Ab ((1 + κ) * (1 + u) ^ (M + 1)) (y 0 + 2 * ∑ m ∈ Finset.Icc 1 M, y m) ((2 * M + 1 : ℕ) * η * (1 + u) ^ (M + 1)) (runSum A l' M)
      (l 0 + 2 * ∑ m ∈ Finset.Icc 1 M, l m) := by
  have hu := hA.u0
  have b : ∀ m ≤ M, Ab (1 + κ) (y m) η (l' m) (l m) := fun m hm => ⟨by linarith, hη, h2 m hm, by
    have := h1 m hm
    rwa [add_sub_cancel_left]⟩
  have q : ∀ c : ℝ, 0 ≤ c → ∀ a d : ℕ, a ≤ d → c * (1 + u) ^ a ≤ c * (1 + u) ^ d := fun c hc a d h =>
    mul_le_mul_of_nonneg_left (pow_le_pow_right₀ (by linarith) h) hc
  induction M with
  | zero =>
    have := b 0 le_rfl
    simp only [runSum, Finset.Icc_eq_empty_of_lt (show (0 : ℕ) < 1 by omega), Finset.sum_empty, mul_zero, add_zero, zero_add, Nat.cast_one, one_mul]
    exact this.mono (le_mul_of_one_le_right (by linarith) (by rw [pow_one]; linarith)) (le_mul_of_one_le_right hη (by rw [pow_one]; linarith))
  | succ M ih =>
    have c1 := ih (fun m hm => h1 m (by omega)) (fun m hm => h2 m (by omega)) (fun m hm => b m (by omega))
    have c2 := ((b (M + 1) le_rfl).smul (c := 2) (by norm_num)).fl hu (hA.mul 2 (l' (M + 1)))
    have d2 := c2.mono (v := (1 + κ) * (1 + u) ^ (M + 1)) (K := 2 * η * (1 + u) ^ (M + 1)) (by simpa using q (1 + κ) (by linarith) 1 (M + 1) (by omega))
      (by simpa using q (2 * η) (by linarith) 1 (M + 1) (by omega))
    have := (c1.add d2).fl hu (hA.add _ _)
    rw [runSum_succ, Finset.sum_Icc_succ_top (by omega), Finset.sum_Icc_succ_top (by omega)]
    refine Eq.mp ?_ this
    congr 1
    · ring
    · ring
    · push_cast; ring
    · ring

/-- What the loop returns. -/
theorem flLoop_spec {n : ℕ} {pre : (Fin n → ℝ) → Prop} {post : (Fin n → ℝ) → (Fin n → ℝ) → Prop}
    {L : ℕ → Res (Fin n → ℝ)} {v : ℕ → Fin n → ℝ} (todo m : ℕ)
    (hL : ∀ j, m < j → j ≤ m + todo → L j = .ok (v j)) :
    ∃ M, m ≤ M ∧ M ≤ m + todo ∧ A.mLoop pre post L todo (m + 1) (fun i => runSum A (v · i) m) = .ok (fun i => runSum A (v · i) M) ∧
      (M = m + todo ∨ pre (fun i => runSum A (v · i) M) ∨ (m < M ∧ post (fun i => runSum A (v · i) (M - 1)) (fun i => runSum A (v · i) M))) ∧
      ∀ j, m ≤ j → j < M → ¬ pre (fun i => runSum A (v · i) j) ∧
        (m < j → ¬ post (fun i => runSum A (v · i) (j - 1)) (fun i => runSum A (v · i) j)) := by
  induction todo generalizing m with
  | zero =>
    exact ⟨m, le_refl _, le_refl _, rfl, .inl rfl, fun j h1 h2 => by omega⟩
  | succ t ih =>
    rw [FlFun.mLoop]
    by_cases hp : pre (fun i => runSum A (v · i) m)
    · rw [if_pos hp]
      exact ⟨m, le_refl _, by omega, rfl, .inr (.inl hp), fun j h1 h2 => by omega⟩
    · rw [if_neg hp, hL (m + 1) (by omega) (by omega), ok_bind]
      have hS : (fun i => A.add (runSum A (v · i) m) (A.mul 2 (v (m + 1) i))) = fun i => runSum A (v · i) (m + 1) := rfl
      simp only [hS]
      by_cases hq : post (fun i => runSum A (v · i) m) (fun i => runSum A (v · i) (m + 1))
      · rw [if_pos hq]
        refine ⟨m + 1, by omega, by omega, rfl, .inr (.inr ⟨by omega, hq⟩), fun j h1 h2 => ?_⟩
        have : j = m := by omega
        subst this
        exact ⟨hp, fun h => by omega⟩
      · rw [if_neg hq]
        obtain ⟨M, h1, h2, h3, h4, h5⟩ := ih (m + 1) (fun j hj hj' => hL j (by omega) (by omega))
        refine ⟨M, by omega, by omega, h3, ?_, fun j hj hj' => ?_⟩
        · rcases h4 with h | h | ⟨h, h'⟩
          · exact .inl (by omega)
          · exact .inr (.inl h)
          · exact .inr (.inr ⟨by omega, h'⟩)
        · rcases Nat.eq_or_lt_of_le hj with rfl | hlt
          · exact ⟨hp, fun h => by omega⟩
          · refine ⟨(h5 j hlt hj').1, fun _ => ?_⟩
            rcases Nat.eq_or_lt_of_le hlt with he | hlt'
            · rw [← he]; exact hq
            · exact (h5 j hlt hj').2 hlt'

/-- A quotient by ten keeps the sign. -/
theorem Spec.RelErr.div_nonpos (hA : RelErr A u) {x : ℝ} (hx : x ≤ 0) : A.div x 10 ≤ 0 := by
  have h := (_root_.abs_le.mp (hA.div x 10 (by norm_num))).2
  have h1 := hA.u1
  rw [abs_of_nonpos (by linarith)] at h
  nlinarith

/-! ## The sums over the Matsubara wavenumbers -/

theorem Spec.RelErr.mul_zero' (hA : RelErr A u) (x : ℝ) : A.mul x 0 = 0 := by
  have := hA.mul x 0
  rw [mul_zero, abs_zero, mul_zero, sub_zero] at this
  exact abs_eq_zero.mp (le_antisymm this (abs_nonneg _))

theorem Spec.RelErr.mul_pos' (hA : RelErr A u) {x y : ℝ} (hx : 0 < x) (hy : 0 < y) : 0 < A.mul x y := by
  have h := (_root_.abs_le.mp (hA.mul x y)).1
  have h1 := hA.u1
  have := mul_pos hx hy
  rw [abs_of_pos this] at h
  nlinarith

theorem arange_slice {N : ℕ} {a : ℤ} (h0 : 0 ≤ a) (hN : a ≤ N) (hd : (50 : ℤ) ∣ a - 0) :
    (a = 0 ∧ N = 0) ∨ (a = 0 ∧ 1 ≤ N ∧ IsSlice N 1 (min 49 N)) ∨ (0 < a ∧ IsSlice N a.toNat (min (a.toNat + 49) N)) := by
  obtain ⟨q, hq⟩ := hd
  rcases eq_or_lt_of_le h0 with h | h
  · rcases Nat.eq_zero_or_pos N with h' | h'
    · exact .inl ⟨h.symm, h'⟩
    · exact .inr (.inl ⟨h.symm, h', le_rfl, by omega, 0, by omega, by omega⟩)
  · exact .inr (.inr ⟨h, by omega, by omega, q.toNat, by omega, by omega⟩)

/-- The Matsubara terms as computed. -/
theorem flMats (hA : RelErr A u) (p : FTParams) (hp : p.nprocs.isZero) (ha : p.analyticN0 = true) (hT : 0 < p.deltaT) {N : ℕ} (hN : p.nmax = N)
    {z : ℝ} (hz : p.geo.k0 = .ok z) {f : ℕ → ℝ}
    (hv : ∀ lo hi, IsSlice N lo hi → p.geo.vals ((arange lo hi).map fun n : ℤ => A.mul p.deltaT n) = .ok ((arange lo hi).map fun n : ℤ => f n.toNat)) :
    A.getFMatsubaras p 0 FT.fresh = (.ok ((arange 0 N).map fun n : ℤ => if n = 0 then A.mul 0.5 z else f n.toNat), FT.fresh) := by
  unfold FlFun.getFMatsubaras
  rw [if_pos hp, hN, ha]
  rw [bind_ok (slicewiseEval_elementwise (f := fun n : ℤ => if n = 0 then A.mul 0.5 z else f n.toNat) (by norm_num) (by omega) FT.fresh ?_), allSome_map]
  have ne : ∀ {a b : ℤ}, 0 < a → (arange a b).map (fun n : ℤ => if n = 0 then A.mul 0.5 z else f n.toNat) = (arange a b).map fun n : ℤ => f n.toNat := by
    intro a b h
    refine List.map_congr_left fun n hn => ?_
    rw [if_neg]
    unfold arange at hn
    obtain ⟨i, -, rfl⟩ := List.mem_map.mp hn
    omega
  have nn : ∀ {a b : ℤ} {g : ℤ → ℝ}, a ≤ b → (arange a b).map g ≠ [] := by
    intro a b g h
    rw [arange_cons h]
    simp
  intro a h0 h1 hd
  have hs : { FT.fresh with geoFlag := false } = FT.fresh := rfl
  rcases arange_slice h0 h1 hd with ⟨rfl, rfl⟩ | ⟨rfl, q1, q2⟩ | ⟨q1, q2⟩
  · have e : arange 0 (min (0 + 50 - 1) ((0 : ℕ) : ℤ)) = [0] := by decide
    rw [e]
    simp only [List.map_cons, List.map_nil, Int.cast_zero, hA.mul_zero', FlFun.fAlle]
    rw [if_pos trivial, if_pos ⟨rfl, trivial⟩, bind_ok (a := z) (s' := FT.fresh) (by simp [Geo.mSummeK0, FT.fresh, hz])]
    simp [Proc.pure]
  · have e : min ((0 : ℤ) + 50 - 1) N = ((min 49 N : ℕ) : ℤ) := by omega
    rw [e, arange_cons (by omega), List.map_cons, List.map_cons, ne (by omega)]
    have := hv _ _ q2
    simp only [Nat.cast_one] at this
    simp only [Int.cast_zero, hA.mul_zero', FlFun.fAlle, zero_add]
    rw [if_pos trivial, if_pos ⟨rfl, trivial⟩, bind_ok (a := z) (s' := FT.fresh) (by simp [Geo.mSummeK0, FT.fresh, hz]),
      if_neg (nn (by omega)), bind_ok (mSumme_ok _ (nn (by omega)) (.inr rfl) |>.trans (by rw [this])), hs]
    rfl
  · have e : min (a + 50 - 1) (N : ℤ) = ((min (a.toNat + 49) N : ℕ) : ℤ) := by omega
    have e' : a = ((a.toNat : ℕ) : ℤ) := by omega
    have := hv _ _ q2
    rw [← e'] at this
    rw [e, ne q1]
    rw [arange_cons (a := a) (by omega), List.map_cons] at this ⊢
    have a0 : A.mul p.deltaT a ≠ 0 := (hA.mul_pos' hT (by exact_mod_cast q1)).ne'
    simp only [FlFun.fAlle]
    rw [if_neg a0, if_neg (by simp [FT.fresh]), mSumme_ok _ (by simp) (.inr rfl), this, hs]

/-- The elements of `f[::i]`. -/
theorem strideList_eq {N i : ℕ} (hi : 0 < i) (g : ℤ → ℝ) :
    FlFun.strideList ((arange 0 N).map g) i = (List.range (N / i + 1)).map fun j : ℕ => g ((j * i : ℕ) : ℤ) := by
  unfold FlFun.strideList
  have el : ((arange 0 (N : ℤ)).map g).length = N + 1 := by
    rw [List.length_map]; unfold arange; simp
  have e : (((arange 0 (N : ℤ)).map g).length + i - 1) / i = N / i + 1 := by
    rw [el, show N + 1 + i - 1 = N + i by omega, Nat.add_div_right _ hi]
  rw [e]
  refine List.map_congr_left fun j hj => ?_
  rw [arange_getD]
  rw [List.mem_range] at hj
  exact (Nat.mul_le_mul_right i (Nat.lt_succ_iff.mp hj)).trans (Nat.div_mul_le_self N i)

end CasSph
