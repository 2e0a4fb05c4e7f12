import Verif.Lemmas.MieTM
import Verif.Lemmas.PairGramK0
import Verif.Lemmas.PairValue

/-! # Contributions of consecutive `m` of a pair of spheres -/

namespace CasSph

open Spec Matrix
open scoped Nat

/-! ## Positive wavenumbers -/

theorem Denser.sign {m md : Material} (h : SphereMat m) (hd : MediumMat md) {k : ℝ} (hk : 0 < k) (hc : Denser m md k) : DenseSign m md k 1 :=
  dense_of_le h hd hk (hc.imp id And.right)

/-- A contribution of `m ≥ 1` is at least as large as the next one, if both spheres are denser than the medium. -/
theorem lnDetV_m_step {P : PairIn} (h : PairOK P) {k : ℝ} (hk : 0 < k) (h1 : Denser P.mat1 P.mat3 k) (h2 : Denser P.mat2 P.mat3 k) {m : ℕ} (hm : 1 ≤ m)
    (hml : m + 1 ≤ P.lmax) : lnDetV P m k ≤ lnDetV P (m + 1) k := by
  have ea := h1.sign h.m1 h.m3 hk
  have eb := h2.sign h.m2 h.m3 hk
  obtain ⟨A, hA⟩ := amp_exists h.m1 h.m3 hk h.h1 ea
  obtain ⟨B, hB⟩ := amp_exists h.m2 h.m3 hk h.h2 eb
  obtain ⟨g, e⟩ := lnDetV_kern h (m := m) (by omega) hk hA hB
  obtain ⟨g', e'⟩ := lnDetV_kern h (m := m + 1) (by omega) hk hA hB
  obtain ⟨j, rfl⟩ : ∃ j, m = j + 1 := ⟨m - 1, by omega⟩
  rw [e, e', one_mul]
  have hx : 0 < k * P.L * Real.sqrt (P.mat3.epsV k) := by
    have := (medium_val h.m3.cls h.m3.phys hk).2
    have := h.h1; have := h.h2; have := h.sep
    have : 0 < P.L := by linarith
    positivity
  have vA := fun P i => hA.val (.inl rfl) P i
  have vB := fun P i => hB.val (.inl rfl) P i
  have tA : ∀ c, A false c ≤ A true c := fun c => by rw [vA, vA]; exact ampV_TE_le_TM h.m1 h.m3 h.h1 c hk h1
  have tB : ∀ c, B false c ≤ B true c := fun c => by rw [vB, vB]; exact ampV_TE_le_TM h.m2 h.m3 h.h2 c hk h2
  have nA : ∀ P c, 0 ≤ A P c := fun Q c => by obtain ⟨_, _, -, -, r⟩ := hA; exact ((r c).1 Q).1
  have nB : ∀ P c, 0 ≤ B P c := fun Q c => by obtain ⟨_, _, -, -, r⟩ := hB; exact ((r c).1 Q).1
  have t1 : transLmin ((j + 1 : ℕ) : ℤ) = j + 1 := by unfold transLmin; omega
  have t2 : transLmin ((j + 1 + 1 : ℕ) : ℤ) = j + 2 := by unfold transLmin; omega
  have := kern_m_step hx j nA tA nB tB g g' (P.lmax + 1 - (j + 2)) (P.lssmax + 1 - (j + 2))
  have q1 : P.lmax + 1 - (j + 2) + 1 = P.lmax + 1 - (j + 1) := by omega
  have q2 : P.lssmax + 1 - (j + 2) + 1 = P.lssmax + 1 - (j + 1) := by have := h.hls; omega
  rw [q1, q2] at this
  rw [t1, t2]
  exact neg_le_neg_iff.mp this

/-! ## Zero frequency -/

theorem fact_step {l m : ℕ} (h : m + 1 ≤ l) : ((l - m) ! : ℝ) * ((l + m) ! : ℝ) ≤ ((l - (m + 1)) ! : ℝ) * ((l + (m + 1)) ! : ℝ) := by
  have e1 : l - m = l - (m + 1) + 1 := by omega
  rw [e1, show l + (m + 1) = l + m + 1 by ring, Nat.factorial_succ, Nat.factorial_succ]
  exact_mod_cast (by nlinarith [mul_le_mul_right (a := (l - (m + 1)) ! * (l + m) !) (show l - (m + 1) + 1 ≤ l + m + 1 by omega)] :
    (l - (m + 1) + 1) * (l - (m + 1)) ! * (l + m) ! ≤ (l - (m + 1)) ! * ((l + m + 1) * (l + m) !))

theorem kappaL_pos {l : ℕ} (h : 1 ≤ l) : 0 < kappaL l := by
  have : (0 : ℝ) < l := by exact_mod_cast h
  have d : ∀ n : ℕ, (0 : ℝ) < (n‼ : ℝ) := fun n => by exact_mod_cast Nat.doubleFactorial_pos n
  have := d (2 * l + 1)
  have := d (2 * l - 1)
  unfold kappaL
  positivity

theorem transK0_m_step {l1 l2 m : ℕ} (h1 : 1 ≤ l1) (h2 : 1 ≤ l2) (hm1 : m + 1 ≤ l1) (hm2 : m + 1 ≤ l2) :
    Real.exp (transK0Ext ((m + 1 : ℕ) : ℤ) l1 l2).2 ≤ Real.exp (transK0Ext m l1 l2).2 := by
  have fp : ∀ n : ℕ, (0 : ℝ) < (n ! : ℝ) := fun n => by exact_mod_cast Nat.factorial_pos n
  have hk : 0 < kappaL l1 * kappaL l2 := mul_pos (kappaL_pos h1) (kappaL_pos h2)
  refine le_of_sq_le_sq (le_of_mul_le_mul_left ?_ hk) (Real.exp_pos _).le
  rw [transK0Ext_sq h1 h2 hm1 hm2, transK0Ext_sq h1 h2 (by omega) (by omega)]
  have p1 := mul_pos (fp (l1 - m)) (fp (l1 + m))
  have p2 := mul_pos (fp (l2 - m)) (fp (l2 + m))
  exact div_le_div_of_nonneg_left (sq_nonneg _) (mul_pos p1 p2) (mul_le_mul (fact_step hm1) (fact_step hm2) p2.le (p1.le.trans (fact_step hm1)))

theorem kernS_m_step {l0 l0' m d : ℕ} (hl : 1 ≤ l0) (e : l0' = l0 + d) (hm : m + 1 ≤ l0') {r1 r2 L : ℝ} (hL : 0 < L) (A B : ℕ → ℝ) (i s : ℕ) :
    kernS (m + 1) l0' r1 r2 L A B i s ≤ kernS m l0 r1 r2 L A B (i + d) (s + d) := by
  unfold kernS
  have e1 : l0 + (i + d) = l0' + i := by omega
  have e2 : l0 + (s + d) = l0' + s := by omega
  rw [e1, e2]
  have := transK0_m_step (l1 := l0' + i) (l2 := l0' + s) (m := m) (by omega) (by omega) (by omega) (by omega)
  gcongr

/-- Comparison of two arrays of non-negative numbers one of which is dominated by a shifted part of the other. -/
theorem HSContr.le_of_shift {H H' : ℕ → ℕ → ℝ} {θ θ' T T' : ℝ} (h : HSContr H θ T) (h' : HSContr H' θ' T') (p0 : ∀ i s, 0 ≤ H i s)
    (p0' : ∀ i s, 0 ≤ H' i s) {d : ℕ} (hle : ∀ i s, H' i s ≤ H (i + d) (s + d)) (n p : ℕ) :
    -Real.log (1 - gram 1 H' n p).det ≤ -Real.log (1 - gram 1 H (n + d) (p + d)).det := by
  have inj : ∀ n : ℕ, Function.Injective fun i : Fin n => (⟨i.1 + d, by omega⟩ : Fin (n + d)) := fun n i j e => by
    simpa [Fin.ext_iff] using e
  have hD : Dom (fun i : Fin n => (⟨i.1 + d, by omega⟩ : Fin (n + d))) (fun i : Fin p => (⟨i.1 + d, by omega⟩ : Fin (p + d)))
      (corner H' n p) (corner H (n + d) (p + d)) := ⟨fun a b => p0' _ _, fun a b => p0 _ _, fun a b => hle _ _⟩
  refine h.le_of_trace h' fun j => ?_
  unfold gram
  rw [one_smul, one_smul]
  exact ((hD.mul (inj p) hD.transpose).pow (inj n) j).trace (inj n)

theorem k0V_m_step {m : ℕ} {r1 r2 L : ℝ} (h1 : 0 < r1) (h2 : 0 < r2) (hs : r1 + r2 < L) {lmax lssmax : ℕ} (hm : m + 1 ≤ lmax) (hls : lmax ≤ lssmax)
    {A A' B B' : ℕ → ℝ} (hA : AmpRange A) (hA' : AmpRange A') (hB : AmpRange B) (hB' : AmpRange B') :
    k0V m r1 r2 L lmax lssmax 1 1 A A' B B' ≤ k0V (m + 1) r1 r2 L lmax lssmax 1 1 A A' B B' := by
  have hL : 0 < L := by linarith
  obtain ⟨d, hd, hl, hl0⟩ : ∃ d, transLmin ((m + 1 : ℕ) : ℤ) = transLmin (m : ℤ) + d ∧ 1 ≤ transLmin (m : ℤ) ∧ m ≤ transLmin (m : ℤ) :=
    ⟨transLmin ((m + 1 : ℕ) : ℤ) - transLmin (m : ℤ), by unfold transLmin; omega, by unfold transLmin; omega, by unfold transLmin; omega⟩
  have hm' : m + 1 ≤ transLmin ((m + 1 : ℕ) : ℤ) ∧ transLmin ((m + 1 : ℕ) : ℤ) ≤ lmax := by unfold transLmin; omega
  have key : ∀ {A B : ℕ → ℝ}, AmpRange A → AmpRange B →
      -Real.log (1 - gram 1 (kernS (m + 1) (transLmin ((m + 1 : ℕ) : ℤ)) r1 r2 L A B) (lmax + 1 - transLmin ((m + 1 : ℕ) : ℤ))
        (lssmax + 1 - transLmin ((m + 1 : ℕ) : ℤ))).det ≤
      -Real.log (1 - gram 1 (kernS m (transLmin (m : ℤ)) r1 r2 L A B) (lmax + 1 - transLmin (m : ℤ)) (lssmax + 1 - transLmin (m : ℤ))).det := by
    intro A B hA hB
    obtain ⟨θ, T, g⟩ := kernS_hs hl hl0 h1 h2 hs hA hB
    obtain ⟨θ', T', g'⟩ := kernS_hs (m := m + 1) (l0 := transLmin ((m + 1 : ℕ) : ℤ)) (by omega) hm'.1 h1 h2 hs hA hB
    have := g.le_of_shift g' (fun _ _ => kernS_nonneg _ _ hL _ _ _ _) (fun _ _ => kernS_nonneg _ _ hL _ _ _ _)
      (fun i s => kernS_m_step hl hd hm'.1 hL A B i s) (lmax + 1 - transLmin ((m + 1 : ℕ) : ℤ)) (lssmax + 1 - transLmin ((m + 1 : ℕ) : ℤ))
    rwa [show lmax + 1 - transLmin ((m + 1 : ℕ) : ℤ) + d = lmax + 1 - transLmin (m : ℤ) by omega,
      show lssmax + 1 - transLmin ((m + 1 : ℕ) : ℤ) + d = lssmax + 1 - transLmin (m : ℤ) by omega] at this
  have a := key hA hB
  have b := key hA' hB'
  unfold k0V
  linarith

/-! ## Consequence for the early termination of the sum over `m` -/

/-- Sums of non-positive numbers that grow from the second on. -/
theorem mSum_drop {n : ℕ} {v : ℕ → Fin n → ℝ} {i : Fin n} {M lmax : ℕ} (h1 : 1 ≤ M) (hM : M ≤ lmax) (hn : ∀ m ≤ lmax, v m i ≤ 0)
    (hs : ∀ m, 1 ≤ m → m + 1 ≤ lmax → v m i ≤ v (m + 1) i) :
    mSum v lmax i ≤ mSum v M i ∧ mSum v M i - mSum v lmax i ≤ (lmax - M) * (-2 * v M i) ∧ M * (-2 * v M i) ≤ -mSum v M i := by
  have mono : ∀ d m, 1 ≤ m → m + d ≤ lmax → v m i ≤ v (m + d) i := by
    intro d
    induction d with
    | zero => intro m _ _; exact le_rfl
    | succ d ih => intro m a b; exact (ih m a (by omega)).trans (hs (m + d) (by omega) (by omega))
  have a : ∀ d, M + d ≤ lmax → mSum v (M + d) i ≤ mSum v M i ∧ mSum v M i - mSum v (M + d) i ≤ d * (-2 * v M i) := by
    intro d
    induction d with
    | zero => intro _; simp
    | succ d ih =>
      intro hd
      obtain ⟨i1, i2⟩ := ih (by omega)
      have e : mSum v (M + (d + 1)) i = mSum v (M + d) i + 2 * v (M + d + 1) i := by rw [← add_assoc, mSum_succ]
      have := hn (M + d + 1) hd
      have := mono (d + 1) M h1 hd
      rw [← add_assoc] at this
      rw [e]
      push_cast
      constructor <;> linarith
  have b : ∀ m ≤ M, m * (-2 * v M i) ≤ -mSum v m i := by
    intro m
    induction m with
    | zero => intro _; have := hn 0 (by omega); rw [mSum_zero]; simpa using this
    | succ m ih =>
      intro hm
      have := ih (by omega)
      have := mono (M - (m + 1)) (m + 1) (by omega) (by omega)
      rw [show m + 1 + (M - (m + 1)) = M by omega] at this
      rw [mSum_succ]
      push_cast
      linarith
  obtain ⟨a1, a2⟩ := a (lmax - M) (by omega)
  rw [Nat.add_sub_cancel' hM] at a1 a2
  rw [Nat.cast_sub hM] at a2
  exact ⟨a1, a2, b M le_rfl⟩

end CasSph
