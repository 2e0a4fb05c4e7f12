import Verif.Props.CavityTrunc

/-! # C152: free energy and entropy of a sphere inside a cavity against larger cut-offs and more Matsubara terms -/

namespace CasSph

open Spec Filter Topology

variable {P : PairIn} {frac : ℝ → ℝ → ℝ} {lnK : ℝ → ℕ → ℝ} {R1 R2 : ℝ} {a b : ℕ}

/-- Bound on the contribution of the Matsubara wavenumbers from `k` on at the temperature `T`: `18 T exp(-k d)/((1 - q)³ (1 - exp(-T d)))`. -/
noncomputable def cavTail (P : PairIn) (T k : ℝ) : ℝ := T * (cavExp P k / (1 - Real.exp (-(T * cavGap P))))

theorem cavTail_bound (h : CavOK P) (hprec : P.precision ≤ 0) {t : ℝ} (ht : 0 < t) (i J n : ℕ) :
    |((i + 1 : ℕ) : ℝ) * t * ∑ j ∈ Finset.range n, cavSum P (t * ((J + j + 1) * (i + 1) : ℕ))| ≤ cavTail P ((i + 1) * t) ((i + 1) * t * ((J : ℝ) + 1)) := by
  have hd := h.gap_pos
  obtain ⟨T, eT⟩ : ∃ T, T = ((i : ℝ) + 1) * t := ⟨_, rfl⟩
  have hT : 0 < T := by rw [eT]; positivity
  have e1 : Real.exp (-(T * cavGap P)) < 1 := by rw [Real.exp_lt_one_iff]; have := mul_pos hT hd; linarith
  have e2 := Real.exp_pos (-(T * cavGap P))
  have ek : ∀ j : ℕ, t * ((J + j + 1) * (i + 1) : ℕ) = T * ((J : ℝ) + 1 + j) := fun j => by rw [eT]; push_cast; ring
  have hk : ∀ j : ℕ, 0 < T * ((J : ℝ) + 1 + j) := fun j => by positivity
  have e : ∀ j : ℕ, cavExp P (T * ((J : ℝ) + 1 + j)) = cavExp P (T * ((J : ℝ) + 1)) * Real.exp (-(T * cavGap P)) ^ j := by
    intro j
    unfold cavExp
    rw [← Real.exp_nat_mul, mul_assoc (18 / _), ← Real.exp_add]
    congr 2
    ring
  rw [show ((i + 1 : ℕ) : ℝ) * t = T by rw [eT]; push_cast; ring, ← eT, abs_mul, abs_of_pos hT]
  unfold cavTail
  refine mul_le_mul_of_nonneg_left ?_ hT.le
  simp only [ek]
  refine (Finset.abs_sum_le_sum_abs _ _).trans ?_
  refine (Finset.sum_le_sum (g := fun j : ℕ => cavExp P (T * ((J : ℝ) + 1 + j))) fun j _ => by
    rw [← h.val_eq_sum hprec (hk j)]
    exact (h.val_bound (hk j)).1).trans ?_
  simp only [e]
  rw [← Finset.mul_sum, div_eq_mul_inv]
  refine mul_le_mul_of_nonneg_left ?_ (cavExp_pos h _).le
  rw [← tsum_geometric_of_lt_one e2.le e1]
  exact (summable_geometric_of_lt_one e2.le e1).sum_le_tsum _ fun _ _ => by positivity

theorem cavTail_tendsto (h : CavOK P) (T : ℝ) : Tendsto (cavTail P T) atTop (𝓝 0) := by
  have e : Tendsto (fun k : ℝ => Real.exp (-(k * cavGap P))) atTop (𝓝 0) :=
    Real.tendsto_exp_neg_atTop_nhds_zero.comp (tendsto_id.atTop_mul_const h.gap_pos)
  have := ((e.const_mul (18 / (1 - cavRatio P) ^ 3)).div_const (1 - Real.exp (-(T * cavGap P)))).const_mul T
  rw [mul_zero, zero_div, mul_zero] at this
  exact this

/-- Bound on the error of the cut-offs `a`, `b` and of `J` positive wavenumbers at the temperature `T`. -/
noncomputable def cavErr (P : PairIn) (R1 R2 T : ℝ) (a b J : ℕ) : ℝ :=
  (P.r1 / R1) ^ (2 * a + 1) * cavFree { P with r1 := R1 } T + (R2 / P.r2) ^ (2 * b + 1) * cavFree { P with r2 := R2 } T + cavTail P T (T * (J + 1))

/-- **C152, `free_energy`.** Larger cut-offs and more Matsubara terms change no entry by more than the bound of C151 plus `cavTail`. -/
theorem C152_free_energy {p p' : FTParams} (h : CavOK P) (hprec : P.precision ≤ 0) (hR : CavFits P R1 R2) (ha : P.lmax ≤ a) (hb : P.lssmax ≤ b) (hab : a ≤ b)
    {N N' : ℕ} (hN : p.nmax = N) (hN1 : 1 ≤ N) (hNN : N ≤ N') (hg : p.geo = geoGeo exactBes frac lnK P)
    (hp' : p' = { p with nmax := N', geo := geoGeo exactBes frac lnK (P.cut a b) }) (hp : p.nprocs.isZero) (han : p.analyticN0 = false) (hT : 0 < p.deltaT) :
    ∃ F F' : List ℝ, (freeEnergy p FT.fresh).1 = .ok F ∧ (freeEnergy p' FT.fresh).1 = .ok F' ∧ F.length = p.maxstep.toNat ∧ F'.length = p.maxstep.toNat ∧
      ∀ (i : ℕ) (x y : ℝ), F[i]? = some x → F'[i]? = some y → |y - x| ≤ cavErr P R1 R2 ((i + 1) * p.deltaT) P.lmax P.lssmax (N / (i + 1)) := by
  obtain ⟨F, G, f1, g1, f2, g2, c1⟩ := C151_free_energy (frac := frac) (lnK := lnK) h hprec hR ha hb hab hg rfl hp han hT (by omega)
  obtain ⟨G', k1, k2, k3, -⟩ := cavFreeAt_val (frac := frac) (lnK := lnK) (p := p) h hprec hp han hT (by omega) (h.hl.trans ha) hab
  obtain ⟨F', m1, m2, m3, -⟩ := cavFreeAt_val (frac := frac) (lnK := lnK) (p := { p with nmax := N' }) h hprec hp han hT (by show (1 : ℤ) ≤ N'; omega) (h.hl.trans ha) hab
  rw [g1] at k1
  injection k1 with k1
  subst k1
  refine ⟨F, F', f1, by rw [hp']; exact m1, f2, m2, fun i x y hx hy => ?_⟩
  have hi : i < F'.length := (List.getElem?_eq_some_iff.mp hy).1
  have hi' : i < p.maxstep.toNat := by rw [← m2]; exact hi
  have c2 := c1 i x _ hx (k3 i (by omega))
  rw [m3 i hi] at hy
  injection hy with hy
  obtain ⟨n, hn⟩ := Nat.exists_eq_add_of_le (Nat.div_le_div_right (c := i + 1) hNN)
  have c3 : y - cavFreeAt P p i a b =
      ((i + 1 : ℕ) : ℝ) * p.deltaT * ∑ j ∈ Finset.range n, cavSum (P.cut a b) (p.deltaT * ((N / (i + 1) + j + 1) * (i + 1) : ℕ)) := by
    rw [← hy]
    unfold cavFreeAt
    simp only [hN, Int.toNat_natCast]
    rw [hn, Finset.sum_range_add]
    ring
  have c4 := cavTail_bound (h.cut (h.hl.trans ha) hab) hprec hT i (N / (i + 1)) n
  rw [← c3] at c4
  have c5 : |y - cavFreeAt P p i a b| ≤ cavTail P ((i + 1) * p.deltaT) ((i + 1) * p.deltaT * ((N / (i + 1) : ℕ) + 1)) := c4
  have := abs_sub_le y (cavFreeAt P p i a b) x
  unfold cavErr
  linarith

/-- `free_energy` with the cut-offs `a`, `b` and `N` positive Matsubara wavenumbers. -/
noncomputable def cavRun (frac : ℝ → ℝ → ℝ) (lnK : ℝ → ℕ → ℝ) (P : PairIn) (p : FTParams) (a b N : ℕ) : Res (List ℝ) :=
  (freeEnergy { p with nmax := N, geo := geoGeo exactBes frac lnK (P.cut a b) } FT.fresh).1

/-- `f i` is the limit of the entries `i` for infinite cut-offs and infinitely many Matsubara wavenumbers, whatever the order in which they grow. -/
def IsCavLimit (frac : ℝ → ℝ → ℝ) (lnK : ℝ → ℕ → ℝ) (P : PairIn) (p : FTParams) (f : ℕ → ℝ) : Prop :=
  ∀ i < p.maxstep.toNat, ∀ ε > 0, ∃ M, ∀ a b N : ℕ, M ≤ a → a ≤ b → M ≤ N → ∃ F x, cavRun frac lnK P p a b N = .ok F ∧ F[i]? = some x ∧ |x - f i| < ε

theorem cav_step {p : FTParams} (h : CavOK P) (hprec : P.precision ≤ 0) (hR : CavFits P R1 R2) (hp : p.nprocs.isZero) (han : p.analyticN0 = false)
    (hT : 0 < p.deltaT) {a b a' b' N N' : ℕ} (h1 : 1 ≤ a) (hab : a ≤ b) (hab' : a' ≤ b') (ha : a ≤ a') (hb : b ≤ b') (hN1 : 1 ≤ N) (hN : N ≤ N') :
    ∃ F F' : List ℝ, cavRun frac lnK P p a b N = .ok F ∧ cavRun frac lnK P p a' b' N' = .ok F' ∧ F.length = p.maxstep.toNat ∧ F'.length = p.maxstep.toNat ∧
      ∀ (i : ℕ) (x y : ℝ), F[i]? = some x → F'[i]? = some y → |y - x| ≤ cavErr P R1 R2 ((i + 1) * p.deltaT) a b (N / (i + 1)) :=
  C152_free_energy (P := P.cut a b) (frac := frac) (lnK := lnK) (a := a') (b := b') (p := { p with nmax := N, geo := geoGeo exactBes frac lnK (P.cut a b) })
    (h.cut h1 hab) hprec ⟨hR.1, hR.2, hR.3, hR.4⟩ ha hb hab' rfl hN1 hN rfl rfl hp han hT

theorem cavErr_tendsto (h : CavOK P) (hR : CavFits P R1 R2) (hR1 : P.r1 < R1) (hR2 : R2 < P.r2) {T : ℝ} (hT : 0 < T) (i : ℕ) :
    Tendsto (fun n : ℕ => cavErr P R1 R2 T (n + 1) (n + 1) ((n + 1) / (i + 1))) atTop (𝓝 0) := by
  have g : Tendsto (fun n : ℕ => 2 * (n + 1) + 1) atTop atTop := tendsto_atTop_mono (fun n => by show n ≤ _; omega) tendsto_id
  have q : ∀ {r R : ℝ}, 0 < r → r < R → Tendsto (fun n : ℕ => (r / R) ^ (2 * (n + 1) + 1)) atTop (𝓝 0) := fun {r R} r0 rR =>
    (tendsto_pow_atTop_nhds_zero_of_lt_one (div_nonneg r0.le (r0.trans rR).le) ((div_lt_one (r0.trans rR)).mpr rR)).comp g
  have k : Tendsto (fun n : ℕ => T * ((((n + 1) / (i + 1) : ℕ) : ℝ) + 1)) atTop atTop :=
    (tendsto_atTop_add_const_right _ 1 (tendsto_natCast_atTop_atTop.comp
      ((Nat.tendsto_div_const_atTop (Nat.succ_ne_zero i)).comp (tendsto_add_atTop_nat 1)))).const_mul_atTop hT
  have := (((q h.h1 hR1).mul_const (cavFree { P with r1 := R1 } T)).add ((q (hR.pos2 h) hR2).mul_const (cavFree { P with r2 := R2 } T))).add ((cavTail_tendsto h T).comp k)
  rw [zero_mul, zero_mul, add_zero, add_zero] at this
  exact this

/-- **C152, limit.** At every temperature of the grid the free energies have a limit for infinite cut-offs and infinitely many Matsubara terms, and no finite choice is farther
away from it than `cavErr`. -/
theorem C152_limit (frac : ℝ → ℝ → ℝ) (lnK : ℝ → ℕ → ℝ) {p : FTParams} (h : CavOK P) (hprec : P.precision ≤ 0) (hp : p.nprocs.isZero) (han : p.analyticN0 = false)
    (hT : 0 < p.deltaT) :
    ∃ f : ℕ → ℝ, IsCavLimit frac lnK P p f ∧ ∀ (a b N : ℕ), 1 ≤ a → a ≤ b → 1 ≤ N → ∃ F : List ℝ, cavRun frac lnK P p a b N = .ok F ∧ F.length = p.maxstep.toNat ∧
      ∀ (i : ℕ) (x : ℝ), F[i]? = some x → ∀ R1 R2, CavFits P R1 R2 → |x - f i| ≤ cavErr P R1 R2 ((i + 1) * p.deltaT) a b (N / (i + 1)) := by
  obtain ⟨S1, S2, hS, s1, s2⟩ : ∃ S1 S2, CavFits P S1 S2 ∧ P.r1 < S1 ∧ S2 < P.r2 := by
    have hd := h.gap_pos
    exact ⟨_, _, cavFits_half h, by linarith, by linarith⟩
  have run : ∀ n : ℕ, ∃ F : List ℝ, cavRun frac lnK P p (n + 1) (n + 1) (n + 1) = .ok F ∧ F.length = p.maxstep.toNat := fun n => by
    obtain ⟨F, -, e, -, l, -⟩ := cav_step (frac := frac) (lnK := lnK) (p := p) (a := n + 1) (b := n + 1) (N := n + 1) h hprec hS hp han hT (by omega) le_rfl le_rfl le_rfl
      le_rfl (by omega) le_rfl
    exact ⟨F, e, l⟩
  choose G g1 g2 using run
  have lim : ∀ i : ℕ, ∃ v, i < p.maxstep.toNat → Tendsto (fun n => (G n).getD i 0) atTop (𝓝 v) := fun i => by
    by_cases hi : i < p.maxstep.toNat
    · have T0 : 0 < ((i : ℝ) + 1) * p.deltaT := by positivity
      have c : CauchySeq fun n => (G n).getD i 0 := cauchySeq_of_le_tendsto_0' _ (fun n m hnm => by
        obtain ⟨F, F', e1, e2, l1, l2, e3⟩ := cav_step (frac := frac) (lnK := lnK) (p := p) (a := n + 1) (b := n + 1) (a' := m + 1) (b' := m + 1) (N := n + 1) (N' := m + 1)
          h hprec hS hp han hT (by omega) le_rfl le_rfl (by omega) (by omega) (by omega) (by omega)
        rw [g1] at e1 e2
        injection e1 with e1
        injection e2 with e2
        subst e1 e2
        rw [Real.dist_eq, abs_sub_comm]
        refine e3 i _ _ ?_ ?_
        · rw [List.getD_eq_getElem _ _ (by omega), List.getElem?_eq_getElem]
        · rw [List.getD_eq_getElem _ _ (by omega), List.getElem?_eq_getElem]) (cavErr_tendsto h hS s1 s2 T0 i)
      obtain ⟨v, hv⟩ := cauchySeq_tendsto_of_complete c
      exact ⟨v, fun _ => hv⟩
    · exact ⟨0, fun h => absurd h hi⟩
  choose f hf using lim
  suffices main : ∀ (a b N : ℕ), 1 ≤ a → a ≤ b → 1 ≤ N → ∃ F : List ℝ, cavRun frac lnK P p a b N = .ok F ∧ F.length = p.maxstep.toNat ∧
      ∀ (i : ℕ) (x : ℝ), F[i]? = some x → ∀ R1 R2, CavFits P R1 R2 → |x - f i| ≤ cavErr P R1 R2 ((i + 1) * p.deltaT) a b (N / (i + 1)) by
    refine ⟨f, fun i hi ε hε => ?_, main⟩
    have T0 : 0 < ((i : ℝ) + 1) * p.deltaT := by positivity
    obtain ⟨n, hn⟩ := ((cavErr_tendsto h hS s1 s2 T0 i).eventually (gt_mem_nhds (half_pos hε))).exists
    refine ⟨n + 1, fun a b N ha hab hN => ?_⟩
    obtain ⟨F, F', e1, e2, l1, l2, e3⟩ := cav_step (frac := frac) (lnK := lnK) (p := p) (a := n + 1) (b := n + 1) (a' := a) (b' := b) (N := n + 1) (N' := N) h hprec hS hp han hT
      (by omega) le_rfl hab ha (by omega) (by omega) hN
    obtain ⟨G', m1, -, m2⟩ := main (n + 1) (n + 1) (n + 1) (by omega) le_rfl (by omega)
    rw [e1] at m1
    injection m1 with m1
    subst m1
    have x1 : F[i]? = some (F[i]'(by omega)) := List.getElem?_eq_getElem _
    have x2 : F'[i]? = some (F'[i]'(by omega)) := List.getElem?_eq_getElem _
    refine ⟨F', _, e2, x2, ?_⟩
    have := e3 i _ _ x1 x2
    have := m2 i _ x1 S1 S2 hS
    have := abs_sub_le (F'[i]'(by omega)) (F[i]'(by omega)) (f i)
    linarith
  intro a b N h1 hab hN
  obtain ⟨F, -, e, -, l, -⟩ := cav_step (frac := frac) (lnK := lnK) (p := p) (a := a) (b := b) (N := N) (N' := N) h hprec hS hp han hT h1 hab hab le_rfl le_rfl hN le_rfl
  refine ⟨F, e, l, fun i x hx R1 R2 hR => ?_⟩
  have hi : i < p.maxstep.toNat := by
    rw [← l]
    exact (List.getElem?_eq_some_iff.mp hx).1
  refine le_of_tendsto ((hf i hi).const_sub x).abs ?_
  filter_upwards [eventually_ge_atTop (max b N)] with n hn
  have n1 := (le_max_left b N).trans hn
  have n2 := (le_max_right b N).trans hn
  obtain ⟨F1, F', e1, e2, l1, l2, e3⟩ := cav_step (frac := frac) (lnK := lnK) (p := p) (a := a) (b := b) (a' := n + 1) (b' := n + 1) (N := N) (N' := n + 1) h hprec hR hp han hT
    h1 hab le_rfl (by omega) (by omega) hN (by omega)
  rw [e] at e1
  rw [g1] at e2
  injection e1 with e1
  injection e2 with e2
  subst e1 e2
  rw [abs_sub_comm]
  refine e3 i _ _ hx ?_
  rw [List.getD_eq_getElem _ _ (by omega), List.getElem?_eq_getElem]

theorem gradient_close {F G : List ℝ} {h β : ℝ} (hh : 0 < h) (hl : F.length = G.length) (h2 : 2 ≤ G.length)
    (hb : ∀ (i : ℕ) (v x : ℝ), F[i]? = some v → G[i]? = some x → |x - v| ≤ β) :
    ∃ S S' : List ℝ, npGradient F h = .ok S ∧ npGradient G h = .ok S' ∧ S.length = G.length ∧ S'.length = G.length ∧
      ∀ (i : ℕ) (s s' : ℝ), S[i]? = some s → S'[i]? = some s' → |s' - s| ≤ 2 * β / h := by
  refine ⟨_, _, if_neg (by omega), if_neg (by omega), by simp [hl], by simp, fun i s s' hs hs' => ?_⟩
  have hi : i < G.length := by
    have := (List.getElem?_eq_some_iff.mp hs').1
    simpa using this
  rw [List.getElem?_map, List.getElem?_range (by omega)] at hs hs'
  simp only [Option.map_some, Option.some.injEq] at hs hs'
  have bj : ∀ j < G.length, |G.getD j 0 - F.getD j 0| ≤ β := fun j hj => by
    refine hb j _ _ ?_ ?_
    · rw [List.getD_eq_getElem _ _ (by omega), List.getElem?_eq_getElem]
    · rw [List.getD_eq_getElem _ _ hj, List.getElem?_eq_getElem]
  have β0 := (abs_nonneg _).trans (bj i hi)
  have key : ∀ {x0 x1 v0 v1 H : ℝ}, h ≤ H → |x0 - v0| ≤ β → |x1 - v1| ≤ β → |(x1 - x0) / H - (v1 - v0) / H| ≤ 2 * β / h := fun {x0 x1 v0 v1 H} hH b0 b1 => by
    have H0 := hh.trans_le hH
    rw [← sub_div, abs_div, abs_of_pos H0]
    refine div_le_div₀ (by positivity) ?_ hh hH
    rw [show x1 - x0 - (v1 - v0) = (x1 - v1) - (x0 - v0) by ring]
    linarith [abs_sub (x1 - v1) (x0 - v0)]
  rw [← hs, ← hs', hl]
  split_ifs with i0 il
  · exact key le_rfl (bj 0 (by omega)) (bj 1 (by omega))
  · exact key le_rfl (bj (i - 1) (by omega)) (bj i (by omega))
  · exact key (by linarith) (bj (i - 1) (by omega)) (bj (i + 1) (by omega))

/-- **C152, `entropy`.** -/
theorem C152_entropy {p p' : FTParams} (h : CavOK P) (hprec : P.precision ≤ 0) (hR : CavFits P R1 R2) (ha : P.lmax ≤ a) (hb : P.lssmax ≤ b) (hab : a ≤ b)
    {N N' : ℕ} (hN : p.nmax = N) (hN1 : 1 ≤ N) (hNN : N ≤ N') (hg : p.geo = geoGeo exactBes frac lnK P)
    (hp' : p' = { p with nmax := N', geo := geoGeo exactBes frac lnK (P.cut a b) }) (hp : p.nprocs.isZero) (han : p.analyticN0 = false) (hT : 0 < p.deltaT)
    (hm : 2 ≤ p.maxstep) {β : ℝ} (hβ : ∀ i < p.maxstep.toNat, cavErr P R1 R2 ((i + 1) * p.deltaT) P.lmax P.lssmax (N / (i + 1)) ≤ β) :
    ∃ S S' : List ℝ, (entropy p FT.fresh).1 = .ok S ∧ (entropy p' FT.fresh).1 = .ok S' ∧ S.length = p.maxstep.toNat ∧ S'.length = p.maxstep.toNat ∧
      ∀ (i : ℕ) (s s' : ℝ), S[i]? = some s → S'[i]? = some s' → |s' - s| ≤ 2 * β / p.deltaT := by
  obtain ⟨F, G, f1, g1, l1, l2, e⟩ := C152_free_energy h hprec hR ha hb hab hN hN1 hNN hg hp' hp han hT
  obtain ⟨S, S', s1, s2, s3, s4, s5⟩ := gradient_close (F := F) (G := G) (β := β) hT (by rw [l1, l2]) (by rw [l2]; omega) (fun i v x hv hx => by
    refine (e i v x hv hx).trans (hβ i ?_)
    rw [← l1]
    exact (List.getElem?_eq_some_iff.mp hv).1)
  refine ⟨S.map (- ·), S'.map (- ·), ?_, ?_, by rw [List.length_map, s3, l2], by rw [List.length_map, s4, l2], fun i s s' hs hs' => ?_⟩
  · rw [entropy_eq, f1]
    simp only [Except.bind, s1, Except.map]
  · have : p'.deltaT = p.deltaT := by rw [hp']
    rw [entropy_eq, g1, this]
    simp only [Except.bind, s2, Except.map]
  · rw [List.getElem?_map, Option.map_eq_some_iff] at hs hs'
    obtain ⟨t, ht, rfl⟩ := hs
    obtain ⟨t', ht', rfl⟩ := hs'
    rw [← abs_neg, show -(-t' - -t) = t' - t by ring]
    exact s5 i t t' ht ht'

/-- The limit inherits bound and sign. -/
theorem C152_limit_sign {p : FTParams} {f : ℕ → ℝ} (hf : IsCavLimit frac lnK P p f) (h : CavOK P) (hprec : P.precision ≤ 0) (hp : p.nprocs.isZero) (han : p.analyticN0 = false)
    (hT : 0 < p.deltaT) {i : ℕ} (hi : i < p.maxstep.toNat) :
    |f i| ≤ cavFree P ((i + 1) * p.deltaT) ∧ (P.Same → f i ≤ 0) ∧ (P.Opposite → 0 ≤ f i) := by
  have key : ∀ ε > 0, ∃ x, |x - f i| < ε ∧ |x| ≤ cavFree P ((i + 1) * p.deltaT) ∧ (P.Same → x ≤ 0) ∧ (P.Opposite → 0 ≤ x) := fun ε hε => by
    obtain ⟨M, hM⟩ := hf i hi ε hε
    obtain ⟨F, x, e1, e2, e3⟩ := hM (M + 1) (M + 1) (M + 1) (by omega) le_rfl (by omega)
    obtain ⟨G, g1, g2, g3, g4⟩ := cavFreeAt_val (frac := frac) (lnK := lnK) (p := { p with nmax := (M + 1 : ℕ) }) h hprec hp han hT (by show (1 : ℤ) ≤ (M + 1 : ℕ); omega)
      (a := M + 1) (b := M + 1) (by omega) le_rfl
    have e1' : cavRun frac lnK P p (M + 1) (M + 1) (M + 1) = .ok G := g1
    rw [e1'] at e1
    injection e1 with e1
    subst e1
    have hi' : i < G.length := (List.getElem?_eq_some_iff.mp e2).1
    rw [g3 i hi'] at e2
    injection e2 with e2
    subst e2
    exact ⟨_, e3, g4 i hi'⟩
  refine ⟨le_of_forall_pos_le_add fun ε hε => ?_, fun hc => le_of_forall_pos_le_add fun ε hε => ?_, fun hc => le_of_forall_pos_le_add fun ε hε => ?_⟩
  all_goals
    obtain ⟨x, x1, x2, x3, x4⟩ := key ε hε
    have q := abs_lt.mp x1
  · have := abs_sub_le (f i) x 0
    rw [sub_zero, sub_zero, abs_sub_comm (f i) x] at this
    linarith
  · linarith [x3 hc]
  · linarith [x4 hc]

/-- **C152, `entropy` against the limit.** The computed entropy against minus the difference quotients of the limits of the free energy. -/
theorem C152_entropy_limit {p : FTParams} (h : CavOK P) (hprec : P.precision ≤ 0) (hR : CavFits P R1 R2) {N : ℕ} (hN : p.nmax = N) (hN1 : 1 ≤ N)
    (hg : p.geo = geoGeo exactBes frac lnK P) (hp : p.nprocs.isZero) (han : p.analyticN0 = false) (hT : 0 < p.deltaT)
    (hm : 2 ≤ p.maxstep) {β : ℝ} (hβ : ∀ i < p.maxstep.toNat, cavErr P R1 R2 ((i + 1) * p.deltaT) P.lmax P.lssmax (N / (i + 1)) ≤ β) :
    ∃ f : ℕ → ℝ, IsCavLimit frac lnK P p f ∧ ∃ S S' : List ℝ, (entropy p FT.fresh).1 = .ok S ∧ IsNegGradient ((List.range p.maxstep.toNat).map f) S' p.deltaT ∧
      S.length = p.maxstep.toNat ∧ S'.length = p.maxstep.toNat ∧ ∀ (i : ℕ) (s s' : ℝ), S[i]? = some s → S'[i]? = some s' → |s' - s| ≤ 2 * β / p.deltaT := by
  obtain ⟨f, f1, f2⟩ := C152_limit frac lnK (p := p) h hprec hp han hT
  obtain ⟨F, r1, l1, r4⟩ := f2 P.lmax P.lssmax N h.hl h.hls hN1
  have ep : { p with nmax := (N : ℤ), geo := geoGeo exactBes frac lnK (P.cut P.lmax P.lssmax) } = p := by
    rw [cut_self, ← hg, ← hN]
  unfold cavRun at r1
  rw [ep] at r1
  have gl : ((List.range p.maxstep.toNat).map f).length = p.maxstep.toNat := by rw [List.length_map, List.length_range]
  obtain ⟨S, S', s1, s2, s3, s4, s5⟩ := gradient_close (F := F) (G := (List.range p.maxstep.toNat).map f) (β := β) hT (by rw [l1, gl]) (by rw [gl]; omega)
    (fun i v x hv hx => by
      have hi : i < p.maxstep.toNat := by
        rw [← l1]
        exact (List.getElem?_eq_some_iff.mp hv).1
      rw [List.getElem?_map, List.getElem?_range hi, Option.map_some, Option.some.injEq] at hx
      subst hx
      rw [abs_sub_comm]
      exact (r4 i v hv R1 R2 hR).trans (hβ i hi))
  obtain ⟨S2, t1, t2⟩ := npGradient_spec (F := (List.range p.maxstep.toNat).map f) (h := p.deltaT) (by rw [gl]; omega)
  rw [s2] at t1
  injection t1 with t1
  subst t1
  refine ⟨f, f1, S.map (- ·), S'.map (- ·), ?_, t2, by rw [List.length_map, s3, gl], by rw [List.length_map, s4, gl], fun i s s' hs hs' => ?_⟩
  · rw [entropy_eq, r1]
    simp only [Except.bind, s1, Except.map]
  · rw [List.getElem?_map, Option.map_eq_some_iff] at hs hs'
    obtain ⟨t, ht, rfl⟩ := hs
    obtain ⟨t', ht', rfl⟩ := hs'
    rw [← abs_neg, show -(-t' - -t) = t' - t by ring]
    exact s5 i t t' ht ht'

/-- A gold sphere of the radius 1 in a cavity of the radius 4 in gold, smallest distance 0.1, `lmax = 20`, `lssmax = 80`, 500 wavenumbers, against `lmax = lssmax = 1000` and
5000 wavenumbers: free energy at the temperature 0.01. -/
example (frac : ℝ → ℝ → ℝ) (lnK : ℝ → ℕ → ℝ) : ∃ F F' : List ℝ, (freeEnergy ⟨0.01, 500, 200, false, .int 0, geoGeo exactBes frac lnK goldCav⟩ FT.fresh).1 = .ok F ∧
    (freeEnergy ⟨0.01, 5000, 200, false, .int 0, geoGeo exactBes frac lnK (goldCav.cut 1000 1000)⟩ FT.fresh).1 = .ok F' ∧ F.length = 200 ∧ F'.length = 200 ∧
    ∀ x y : ℝ, F[0]? = some x → F'[0]? = some y → |y - x| ≤ cavErr goldCav 1.05 3.95 0.01 20 80 500 := by
  obtain ⟨F, F', h1, h2, h3, h4, h5⟩ := C152_free_energy (p := ⟨0.01, 500, 200, false, .int 0, geoGeo exactBes frac lnK goldCav⟩) goldCav_ok le_rfl
    goldCav_fits (a := 1000) (b := 1000) (by norm_num [goldCav]) (by norm_num [goldCav]) le_rfl (N := 500) (N' := 5000) rfl (by norm_num) (by norm_num) rfl rfl rfl rfl
    (by norm_num)
  refine ⟨F, F', h1, h2, h3, h4, fun x y hx hy => ?_⟩
  have := h5 0 x y hx hy
  norm_num at this
  norm_num
  exact this

/-- Its entropy at the 200 temperatures. -/
example (frac : ℝ → ℝ → ℝ) (lnK : ℝ → ℕ → ℝ) {β : ℝ}
    (hβ : β = (Finset.range 200).sup' ⟨0, by simp⟩ fun i : ℕ => cavErr goldCav 1.05 3.95 ((i + 1) * 0.01) 20 80 (500 / (i + 1))) :
    ∃ S S' : List ℝ, (entropy ⟨0.01, 500, 200, false, .int 0, geoGeo exactBes frac lnK goldCav⟩ FT.fresh).1 = .ok S ∧
    (entropy ⟨0.01, 5000, 200, false, .int 0, geoGeo exactBes frac lnK (goldCav.cut 1000 1000)⟩ FT.fresh).1 = .ok S' ∧ S.length = 200 ∧ S'.length = 200 ∧
    ∀ (i : ℕ) (s s' : ℝ), S[i]? = some s → S'[i]? = some s' → |s' - s| ≤ 2 * β / 0.01 :=
  C152_entropy (p := ⟨0.01, 500, 200, false, .int 0, geoGeo exactBes frac lnK goldCav⟩) goldCav_ok le_rfl
    goldCav_fits (a := 1000) (b := 1000) (by norm_num [goldCav]) (by norm_num [goldCav]) le_rfl (N := 500) (N' := 5000) rfl (by norm_num) (by norm_num) rfl rfl rfl rfl
    (by norm_num) (by norm_num) (fun i hi => by
      rw [hβ]
      exact Finset.le_sup' (fun i : ℕ => cavErr goldCav 1.05 3.95 (((i : ℝ) + 1) * 0.01) 20 80 (500 / (i + 1))) (Finset.mem_range.mpr hi))

end CasSph
