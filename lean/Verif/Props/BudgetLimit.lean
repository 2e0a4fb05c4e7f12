import Verif.Props.EntropyErr

/-! # C149: distance of the computed free energy from its limit of infinite cut-offs and infinitely many Matsubara terms -/

namespace CasSph

open Spec Filter Topology

variable {P : PairIn} {R1 R2 : ℝ}

/-- `free_energy` in exact arithmetic with the cut-offs `a`, `b` and `N` positive Matsubara wavenumbers. -/
noncomputable def cutRun (frac : ℝ → ℝ → ℝ) (P : PairIn) (p : FTParams) (a b N : ℕ) : Res (List ℝ) :=
  (freeEnergy { p with nmax := N, geo := pairGeo exactBes frac (P.cut a b) } FT.fresh).1

/-- `f i` is the limit of the entries `i` for infinite cut-offs and infinitely many Matsubara wavenumbers, whatever the order in which they grow. -/
def IsFullLimit (frac : ℝ → ℝ → ℝ) (P : PairIn) (p : FTParams) (f : ℕ → ℝ) : Prop :=
  ∀ i < p.maxstep.toNat, ∀ ε > 0, ∃ M, ∀ a b N : ℕ, M ≤ a → a ≤ b → M ≤ N → ∃ F x, cutRun frac P p a b N = .ok F ∧ F[i]? = some x ∧ |x - f i| < ε

/-- Bound on the error of the cut-offs `a`, `b` and of `J` positive wavenumbers at the temperature `T`. -/
noncomputable def cutErr (P : PairIn) (R1 R2 T : ℝ) (a b J : ℕ) : ℝ :=
  (P.r1 / R1) ^ (2 * a + 1) * freeBound R1 P.r2 P.L T + (P.r2 / R2) ^ (2 * b + 1) * freeBound P.r1 R2 P.L T + matsTail P.r1 P.r2 P.L T (T * (J + 1))

theorem cut_step {frac : ℝ → ℝ → ℝ} {p : FTParams} (h : PairOK P) (hprec : P.precision ≤ 0) (hR : Fits P R1 R2) (hp : p.nprocs.isZero) (han : p.analyticN0 = true)
    (hT : 0 < p.deltaT) {a b a' b' N N' : ℕ} (h1 : 1 ≤ a) (hab : a ≤ b) (hab' : a' ≤ b') (ha : a ≤ a') (hb : b ≤ b') (hN : N ≤ N') :
    ∃ F F' : List ℝ, cutRun frac P p a b N = .ok F ∧ cutRun frac P p a' b' N' = .ok F' ∧ F.length = p.maxstep.toNat ∧ F'.length = p.maxstep.toNat ∧
      ∀ (i : ℕ) (x y : ℝ), F[i]? = some x → F'[i]? = some y → |y - x| ≤ cutErr P R1 R2 ((i + 1) * p.deltaT) a b (N / (i + 1)) :=
  C149_exact (P := P.cut a b) (frac := frac) (a := a') (b := b') (p := { p with nmax := N, geo := pairGeo exactBes frac (P.cut a b) }) (h.cut h1 hab) hprec
    ⟨hR.r1, hR.r2, hR.sep1, hR.sep2⟩ ha hb hab' rfl hp han hT rfl hN rfl

/-- Radii with which the error of the cut-offs tends to zero. -/
theorem fits_mid (h : PairOK P) : ∃ R1 R2, Fits P R1 R2 ∧ P.r1 < R1 ∧ P.r2 < R2 := by
  have := h.sep
  refine ⟨P.r1 + (P.L - P.r1 - P.r2) / 2, P.r2 + (P.L - P.r1 - P.r2) / 2, ⟨?_, ?_, ?_, ?_⟩, ?_, ?_⟩ <;> linarith

theorem cutErr_tendsto (h : PairOK P) (hR1 : P.r1 < R1) (hR2 : P.r2 < R2) {T : ℝ} (hT : 0 < T) (i : ℕ) :
    Tendsto (fun n : ℕ => cutErr P R1 R2 T (n + 1) (n + 1) (n / (i + 1))) atTop (𝓝 0) := by
  have g : Tendsto (fun n : ℕ => 2 * (n + 1) + 1) atTop atTop := tendsto_atTop_mono (fun n => by show n ≤ _; omega) tendsto_id
  have q : ∀ {r R : ℝ}, 0 < r → r < R → Tendsto (fun n : ℕ => (r / R) ^ (2 * (n + 1) + 1)) atTop (𝓝 0) := fun {r R} r0 rR =>
    (tendsto_pow_atTop_nhds_zero_of_lt_one (div_nonneg r0.le (r0.trans rR).le) ((div_lt_one (r0.trans rR)).mpr rR)).comp g
  have k : Tendsto (fun n : ℕ => T * (((n / (i + 1) : ℕ) : ℝ) + 1)) atTop atTop :=
    (tendsto_atTop_add_const_right _ 1 (tendsto_natCast_atTop_atTop.comp (Nat.tendsto_div_const_atTop (Nat.succ_ne_zero i)))).const_mul_atTop hT
  have := (((q h.h1 hR1).mul_const (freeBound R1 P.r2 P.L T)).add ((q h.h2 hR2).mul_const (freeBound P.r1 R2 P.L T))).add ((matsTail_tendsto T h.sep).comp k)
  rw [zero_mul, zero_mul, add_zero, add_zero] at this
  exact this

/-- **C149, limit.** At every temperature of the grid the free energies of exact arithmetic have a limit for infinite cut-offs and infinitely many Matsubara terms, and no
finite choice is farther away from it than `cutErr`. -/
theorem C149_limit (frac : ℝ → ℝ → ℝ) {p : FTParams} (h : PairOK P) (hprec : P.precision ≤ 0) (hp : p.nprocs.isZero) (han : p.analyticN0 = true) (hT : 0 < p.deltaT) :
    ∃ f : ℕ → ℝ, IsFullLimit frac P p f ∧ ∀ (a b N : ℕ), 1 ≤ a → a ≤ b → ∃ F : List ℝ, cutRun frac P p a b N = .ok F ∧ F.length = p.maxstep.toNat ∧
      ∀ (i : ℕ) (x : ℝ), F[i]? = some x → ∀ R1 R2, Fits P R1 R2 → |x - f i| ≤ cutErr P R1 R2 ((i + 1) * p.deltaT) a b (N / (i + 1)) := by
  obtain ⟨S1, S2, hS, s1, s2⟩ := fits_mid h
  have run : ∀ n : ℕ, ∃ F : List ℝ, cutRun frac P p (n + 1) (n + 1) n = .ok F ∧ F.length = p.maxstep.toNat := fun n => by
    obtain ⟨F, -, e, -, l, -⟩ := cut_step (frac := frac) (p := p) (a := n + 1) (b := n + 1) (N := n) h hprec hS hp han hT (by omega) le_rfl le_rfl le_rfl le_rfl le_rfl
    exact ⟨F, e, l⟩
  choose G g1 g2 using run
  have lim : ∀ i : ℕ, ∃ v, i < p.maxstep.toNat → Tendsto (fun n => (G n).getD i 0) atTop (𝓝 v) := fun i => by
    by_cases hi : i < p.maxstep.toNat
    · have T0 : 0 < ((i : ℝ) + 1) * p.deltaT := by positivity
      have c : CauchySeq fun n => (G n).getD i 0 := cauchySeq_of_le_tendsto_0' _ (fun n m hnm => by
        obtain ⟨F, F', e1, e2, l1, l2, e3⟩ := cut_step (frac := frac) (p := p) (a := n + 1) (b := n + 1) (a' := m + 1) (b' := m + 1) (N := n) (N' := m) h hprec hS hp han hT
          (by omega) le_rfl le_rfl (by omega) (by omega) hnm
        rw [g1] at e1 e2
        injection e1 with e1
        injection e2 with e2
        subst e1 e2
        rw [Real.dist_eq, abs_sub_comm]
        refine e3 i _ _ ?_ ?_
        · rw [List.getD_eq_getElem _ _ (by omega), List.getElem?_eq_getElem]
        · rw [List.getD_eq_getElem _ _ (by omega), List.getElem?_eq_getElem]) (cutErr_tendsto h s1 s2 T0 i)
      obtain ⟨v, hv⟩ := cauchySeq_tendsto_of_complete c
      exact ⟨v, fun _ => hv⟩
    · exact ⟨0, fun h => absurd h hi⟩
  choose f hf using lim
  suffices main : ∀ (a b N : ℕ), 1 ≤ a → a ≤ b → ∃ F : List ℝ, cutRun frac P p a b N = .ok F ∧ F.length = p.maxstep.toNat ∧
      ∀ (i : ℕ) (x : ℝ), F[i]? = some x → ∀ R1 R2, Fits P R1 R2 → |x - f i| ≤ cutErr P R1 R2 ((i + 1) * p.deltaT) a b (N / (i + 1)) by
    refine ⟨f, fun i hi ε hε => ?_, main⟩
    have T0 : 0 < ((i : ℝ) + 1) * p.deltaT := by positivity
    obtain ⟨n, hn⟩ := ((cutErr_tendsto h s1 s2 T0 i).eventually (gt_mem_nhds (half_pos hε))).exists
    refine ⟨n + 1, fun a b N ha hab hN => ?_⟩
    obtain ⟨F, F', e1, e2, l1, l2, e3⟩ := cut_step (frac := frac) (p := p) (a := n + 1) (b := n + 1) (a' := a) (b' := b) (N := n) (N' := N) h hprec hS hp han hT
      (by omega) le_rfl hab ha (by omega) (by omega)
    obtain ⟨G', m1, -, m2⟩ := main (n + 1) (n + 1) n (by omega) le_rfl
    rw [e1] at m1
    injection m1 with m1
    subst m1
    have x1 : F[i]? = some (F[i]'(by omega)) := List.getElem?_eq_getElem _
    have x2 : F'[i]? = some (F'[i]'(by omega)) := List.getElem?_eq_getElem _
    refine ⟨F', _, e2, x2, ?_⟩
    have := e3 i _ _ x1 x2
    have := m2 i _ x1 S1 S2 hS
    have := abs_sub_le (F'[i]'(by omega)) (F[i]'(by omega)) (f i)
    linarith
  intro a b N h1 hab
  obtain ⟨F, -, e, -, l, -⟩ := cut_step (frac := frac) (p := p) (a := a) (b := b) (N := N) (N' := N) h hprec hS hp han hT h1 hab hab le_rfl le_rfl le_rfl
  refine ⟨F, e, l, fun i x hx R1 R2 hR => ?_⟩
  have hi : i < p.maxstep.toNat := by
    rw [← l]
    exact (List.getElem?_eq_some_iff.mp hx).1
  refine le_of_tendsto ((hf i hi).const_sub x).abs ?_
  filter_upwards [eventually_ge_atTop (max b N)] with n hn
  have n1 := (le_max_left b N).trans hn
  have n2 := (le_max_right b N).trans hn
  obtain ⟨F1, F', e1, e2, l1, l2, e3⟩ := cut_step (frac := frac) (p := p) (a := a) (b := b) (a' := n + 1) (b' := n + 1) (N := N) (N' := n) h hprec hR hp han hT
    h1 hab le_rfl (by omega) (by omega) n2
  rw [e] at e1
  rw [g1] at e2
  injection e1 with e1
  injection e2 with e2
  subst e1 e2
  rw [abs_sub_comm]
  refine e3 i _ _ hx ?_
  rw [List.getD_eq_getElem _ _ (by omega), List.getElem?_eq_getElem]

/-- **C149, double precision against the limit.** What the code computes is within the error budget of the limit of infinite cut-offs and infinitely many Matsubara terms. -/
theorem C149_double_limit {A : FlZero} (h : PairOK P) (hprec : P.precision ≤ 0) (hA : RelErrZ A (2 ^ (-52 : ℤ))) {sum : (p : ℕ) → (Fin p → ℝ) → ℝ} (hS : Sums A.toFlFun sum)
    (hl : P.lssmax ≤ 100) {η : ℝ} (hη0 : 0 ≤ η) (hθ : shrink P.r1 P.r2 P.L ≤ 0.9) (h1 : P.L ≤ 1e40 * P.r1) (h2 : P.L ≤ 1e40 * P.r2) {ld : (n : ℕ) → Blocks n → ℝ}
    {ld0 : (n : ℕ) → Matrix (Fin n) (Fin n) ℝ → Matrix (Fin n) (Fin n) ℝ → ℝ} {frac' : ℝ → ℝ → ℝ} {T : BesTable}
    {V : ℝ → (m : ℕ) → Fin (P.lmax + 1 - transLmin m) → Fin (P.lssmax + 1 - transLmin m) → VCoef}
    {p : FTParams} (hg : p.geo = A.pairGeo sum ld ld0 frac' T P V) (hp : p.nprocs.isZero) (han : p.analyticN0 = true) (hT : 0 < p.deltaT) {N : ℕ} (hN : p.nmax = N)
    (hN6 : N ≤ 1000000) (hd : DetErr0 A sum ld0 frac' P η) (hc : ∀ n : ℕ, 1 ≤ n → n ≤ N → CodeFull A sum ld T P V η (A.mul p.deltaT n))
    (hal : ∀ lo hi, IsSlice N lo hi → ∃ n : ℕ, lo ≤ n ∧ n ≤ hi ∧ Alive A.toFlMie sum ld T P V (A.mul p.deltaT n))
    (hY : ∀ n : ℕ, 1 ≤ n → n ≤ N → ∀ e, P.mat3.epsilon (p.deltaT * n) = .ok e → p.deltaT * n * P.L * Real.sqrt e ≤ 1e6) {frac : ℝ → ℝ → ℝ}
    {f : ℕ → ℝ} (hf : IsFullLimit frac P p f) :
    ∃ F : List ℝ, (A.toFlFun.freeEnergy sum p FT.fresh).1 = .ok F ∧ F.length = p.maxstep.toNat ∧
      ∀ (i : ℕ) (v : ℝ), F[i]? = some v → ∀ R1 R2, Fits P R1 R2 → |v - f i| ≤ budget P R1 R2 η ((i + 1) * p.deltaT) (N / (i + 1)) := by
  obtain ⟨S1, S2, hS12, -, -⟩ := fits_mid h
  obtain ⟨F, -, -, r1, -, -, l1, -⟩ := C149_double (N' := N) h hprec hS12 le_rfl le_rfl h.hls hA hS hl hη0 hθ h1 h2 hg hp han hT hN hN6 le_rfl hd hc hal hY frac
  refine ⟨F, r1, l1, fun i v hv R1 R2 hR => le_of_forall_pos_le_add fun ε hε => ?_⟩
  have hi : i < p.maxstep.toNat := by
    rw [← l1]
    exact (List.getElem?_eq_some_iff.mp hv).1
  obtain ⟨M, hM⟩ := hf i hi ε hε
  obtain ⟨G, x, e1, e2, e3⟩ := hM (max M P.lssmax) (max M P.lssmax) (max M N) (le_max_left _ _) le_rfl (le_max_left _ _)
  obtain ⟨F1, G1, Gm, q1, q2, q3, -, -, m3, q4⟩ := C149_double (a := max M P.lssmax) (b := max M P.lssmax) (N' := max M N) h hprec hR
    (h.hls.trans (le_max_right _ _)) (le_max_right _ _) le_rfl hA hS hl hη0 hθ h1 h2 hg hp han hT hN hN6 (le_max_right _ _) hd hc hal hY frac
  rw [r1] at q1
  injection q1 with q1
  subst q1
  have e1' : cutRun frac P p (max M P.lssmax) (max M P.lssmax) (max M N) = .ok G1 := q2
  rw [e1'] at e1
  injection e1 with e1
  subst e1
  obtain ⟨y, hy⟩ : ∃ y, Gm[i]? = some y := ⟨_, List.getElem?_eq_getElem (by rw [m3]; exact hi)⟩
  obtain ⟨t1, t2⟩ := q4 i v x y hv e2 hy
  obtain ⟨G2, m1, -, m2⟩ := C100_free_energy (p := { p with geo := pairGeo exactBes frac P.metal }) h.metal rfl hp han hT (by show 0 ≤ p.nmax; omega)
  rw [q3] at m1
  injection m1 with m1
  subst m1
  have t3 : |y| ≤ freeBound P.r1 P.r2 P.L ((i + 1) * p.deltaT) := (m2 i y hy).1
  rw [abs_of_nonpos t1] at t3
  have t4 : |v - x| ≤ budget P R1 R2 η ((i + 1) * p.deltaT) (N / (i + 1)) := by
    refine t2.trans ?_
    unfold budget
    push_cast
    linarith
  have := abs_sub_le v x (f i)
  linarith

/-- The limit obeys the bound of C100. -/
theorem IsFullLimit.bound {frac : ℝ → ℝ → ℝ} {p : FTParams} {f : ℕ → ℝ} (hf : IsFullLimit frac P p f) (h : PairOK P) (hp : p.nprocs.isZero) (han : p.analyticN0 = true)
    (hT : 0 < p.deltaT) {i : ℕ} (hi : i < p.maxstep.toNat) : |f i| ≤ freeBound P.r1 P.r2 P.L ((i + 1) * p.deltaT) := by
  refine le_of_forall_pos_le_add fun ε hε => ?_
  obtain ⟨M, hM⟩ := hf i hi ε hε
  obtain ⟨F, x, e1, e2, e3⟩ := hM (M + 1) (M + 1) M (by omega) le_rfl le_rfl
  obtain ⟨G, g1, -, g2⟩ := C100_free_energy (p := { p with nmax := (M : ℤ), geo := pairGeo exactBes frac (P.cut (M + 1) (M + 1)) }) (h.cut (by omega) le_rfl) rfl hp han hT
    (Int.natCast_nonneg M)
  have e1' : cutRun frac P p (M + 1) (M + 1) M = .ok G := g1
  rw [e1'] at e1
  injection e1 with e1
  subst e1
  have q : |x| ≤ freeBound P.r1 P.r2 P.L ((i + 1) * p.deltaT) := (g2 i x e2).1
  have := abs_sub_le (f i) x 0
  rw [sub_zero, sub_zero, abs_sub_comm (f i) x] at this
  linarith

/-- **C150 against the limit.** The computed entropy against minus the exact difference quotients of the limits of the free energy. -/
theorem C150_entropy_limit {A : FlZero} (h : PairOK P) (hprec : P.precision ≤ 0) (hR : Fits P R1 R2) (hA : RelErrZ A (2 ^ (-52 : ℤ))) {sum : (p : ℕ) → (Fin p → ℝ) → ℝ}
    (hS : Sums A.toFlFun sum) (hl : P.lssmax ≤ 100) {η : ℝ} (hη0 : 0 ≤ η) (hθ : shrink P.r1 P.r2 P.L ≤ 0.9) (h1 : P.L ≤ 1e40 * P.r1) (h2 : P.L ≤ 1e40 * P.r2)
    {ld : (n : ℕ) → Blocks n → ℝ} {ld0 : (n : ℕ) → Matrix (Fin n) (Fin n) ℝ → Matrix (Fin n) (Fin n) ℝ → ℝ} {frac' : ℝ → ℝ → ℝ} {T : BesTable}
    {V : ℝ → (m : ℕ) → Fin (P.lmax + 1 - transLmin m) → Fin (P.lssmax + 1 - transLmin m) → VCoef}
    {p : FTParams} (hg : p.geo = A.pairGeo sum ld ld0 frac' T P V) (hp : p.nprocs.isZero) (han : p.analyticN0 = true) (hT : 0 < p.deltaT) {N : ℕ} (hN : p.nmax = N)
    (hN6 : N ≤ 1000000) (hd : DetErr0 A sum ld0 frac' P η) (hc : ∀ n : ℕ, 1 ≤ n → n ≤ N → CodeFull A sum ld T P V η (A.mul p.deltaT n))
    (hal : ∀ lo hi, IsSlice N lo hi → ∃ n : ℕ, lo ≤ n ∧ n ≤ hi ∧ Alive A.toFlMie sum ld T P V (A.mul p.deltaT n))
    (hY : ∀ n : ℕ, 1 ≤ n → n ≤ N → ∀ e, P.mat3.epsilon (p.deltaT * n) = .ok e → p.deltaT * n * P.L * Real.sqrt e ≤ 1e6) {frac : ℝ → ℝ → ℝ}
    {f : ℕ → ℝ} (hf : IsFullLimit frac P p f) (hm : 2 ≤ p.maxstep) {β X : ℝ} (hβ : ∀ i < p.maxstep.toNat, budget P R1 R2 η ((i + 1) * p.deltaT) (N / (i + 1)) ≤ β)
    (hX : ∀ i < p.maxstep.toNat, freeBound P.r1 P.r2 P.L ((i + 1) * p.deltaT) ≤ X) :
    ∃ S S' : List ℝ, (A.toFlFun.entropy sum p FT.fresh).1 = .ok S ∧ Spec.IsNegGradient ((List.range p.maxstep.toNat).map f) S' p.deltaT ∧
      S.length = p.maxstep.toNat ∧ S'.length = p.maxstep.toNat ∧
      ∀ (i : ℕ) (s s' : ℝ), S[i]? = some s → S'[i]? = some s' → |s - s'| ≤ 2 * (β + 4 * 2 ^ (-52 : ℤ) * (β + X)) / p.deltaT := by
  obtain ⟨F, r1, l1, r4⟩ := C149_double_limit h hprec hA hS hl hη0 hθ h1 h2 hg hp han hT hN hN6 hd hc hal hY hf
  have gl : ((List.range p.maxstep.toNat).map f).length = p.maxstep.toNat := by rw [List.length_map, List.length_range]
  obtain ⟨S, S', s1, s2, s3, s4, s5⟩ := C150_gradient (F := F) (G := (List.range p.maxstep.toNat).map f) (β := β) (X := X) hA.toRelErr hT (by rw [l1, gl]) (by rw [gl]; omega)
    (fun i v x hv hx => by
      have hi : i < p.maxstep.toNat := by
        rw [← l1]
        exact (List.getElem?_eq_some_iff.mp hv).1
      rw [List.getElem?_map, List.getElem?_range hi, Option.map_some, Option.some.injEq] at hx
      subst hx
      exact ⟨(r4 i v hv R1 R2 hR).trans (hβ i hi), (hf.bound h hp han hT hi).trans (hX i hi)⟩)
  obtain ⟨S2, t1, t2⟩ := npGradient_spec (F := (List.range p.maxstep.toNat).map f) (h := p.deltaT) (by rw [gl]; omega)
  rw [s2] at t1
  injection t1 with t1
  subst t1
  refine ⟨S.map (- ·), S'.map (- ·), ?_, t2, by rw [List.length_map, s3, gl], by rw [List.length_map, s4, gl], fun i s s' hs hs' => ?_⟩
  · rw [FlFun.entropy_eq, r1]
    simp only [Except.bind, s1, Except.map]
  · rw [List.getElem?_map, Option.map_eq_some_iff] at hs hs'
    obtain ⟨t, ht, rfl⟩ := hs
    obtain ⟨t', ht', rfl⟩ := hs'
    rw [← abs_neg, show -(-t - -t') = t - t' by ring]
    exact s5 i t t' ht ht'

/-! ## Examples -/

/-- Gold spheres: the limit exists, and 20 multipoles and 40 wavenumbers are no farther away than `cutErr`. -/
example (frac : ℝ → ℝ → ℝ) : ∃ f : ℕ → ℝ, IsFullLimit frac goldPair ⟨0.01, 40, 1, true, .int 0, pairGeo exactBes frac goldPair⟩ f ∧
    ∃ x : ℝ, cutRun frac goldPair ⟨0.01, 40, 1, true, .int 0, pairGeo exactBes frac goldPair⟩ 20 20 40 = .ok [x] ∧ |x - f 0| ≤ cutErr goldPair 1.5 4.5 0.01 20 20 40 := by
  obtain ⟨f, f1, f2⟩ := C149_limit frac (p := ⟨0.01, 40, 1, true, .int 0, pairGeo exactBes frac goldPair⟩) goldPair_ok le_rfl rfl rfl (by norm_num)
  obtain ⟨F, e1, e2, e3⟩ := f2 20 20 40 (by norm_num) le_rfl
  obtain ⟨x, rfl⟩ := List.length_eq_one_iff.mp (show F.length = 1 from e2)
  refine ⟨f, f1, x, e1, (e3 0 x rfl 1.5 4.5 gold_fits).trans (le_of_eq ?_)⟩
  norm_num

/-- `mirrorDipoles` in doubles with dipoles and one wavenumber only. -/
example (frac frac' : ℝ → ℝ → ℝ) : ∃ (v : ℝ) (f : ℕ → ℝ),
    ((roundZero (roundDown 53)).toFlFun.freeEnergy (foldSum (roundMie (roundDown 53)).toFlFun) ⟨1, 1, 1, true, .int 0,
      (roundZero (roundDown 53)).pairGeo (foldSum (roundMie (roundDown 53)).toFlFun) (fun _ B => Real.log (1 - B.full).det)
      (fun _ TE TM => Real.log (1 - TE).det + Real.log (1 - TM).det) frac'
      (lniknuTable (roundMie (roundDown 53)).toFlFun) mirrorDipoles dipoleTrans⟩ FT.fresh).1 = .ok [v] ∧
    IsFullLimit frac mirrorDipoles ⟨1, 1, 1, true, .int 0, (roundZero (roundDown 53)).pairGeo (foldSum (roundMie (roundDown 53)).toFlFun) (fun _ B => Real.log (1 - B.full).det)
      (fun _ TE TM => Real.log (1 - TE).det + Real.log (1 - TM).det) frac'
      (lniknuTable (roundMie (roundDown 53)).toFlFun) mirrorDipoles dipoleTrans⟩ f ∧ |v - f 0| ≤ budget mirrorDipoles 0.3 0.3 0 1 1 := by
  have h := mirrorDipoles_ok
  have hA := roundDown_relErrZ
  have u52 : (2 : ℝ) ^ (-52 : ℤ) = 1 / 4503599627370496 := by norm_num
  have rng : ∀ n : ℕ, 1 ≤ n → n ≤ 1 → 0.9 ≤ (roundMie (roundDown 53)).mul 1 n ∧ (roundMie (roundDown 53)).mul 1 n ≤ 1.1 := by
    intro n n1 n2
    obtain rfl : n = 1 := by omega
    have := _root_.abs_le.mp (roundDown_relErrM.mul 1 ((1 : ℕ) : ℝ))
    rw [one_mul, Nat.cast_one, abs_one, u52] at this
    rw [Nat.cast_one]
    constructor <;> linarith
  obtain ⟨f, hf, -⟩ := C149_limit frac (P := mirrorDipoles) (p := ⟨1, 1, 1, true, .int 0, (roundZero (roundDown 53)).pairGeo (foldSum (roundMie (roundDown 53)).toFlFun)
      (fun _ B => Real.log (1 - B.full).det) (fun _ TE TM => Real.log (1 - TE).det + Real.log (1 - TM).det) frac'
      (lniknuTable (roundMie (roundDown 53)).toFlFun) mirrorDipoles dipoleTrans⟩) h le_rfl rfl rfl one_pos
  obtain ⟨F, r1, l1, r4⟩ := C149_double_limit (A := roundZero (roundDown 53)) (P := mirrorDipoles) (η := 0) (frac' := frac')
    (ld0 := fun _ TE TM => Real.log (1 - TE).det + Real.log (1 - TM).det) h le_rfl hA (foldSum_sums _) (by norm_num [mirrorDipoles]) le_rfl
    (by norm_num [mirrorDipoles, shrink]) (by norm_num [mirrorDipoles]) (by norm_num [mirrorDipoles])
    (p := ⟨1, 1, 1, true, .int 0, (roundZero (roundDown 53)).pairGeo (foldSum (roundMie (roundDown 53)).toFlFun) (fun _ B => Real.log (1 - B.full).det)
      (fun _ TE TM => Real.log (1 - TE).det + Real.log (1 - TM).det) frac'
      (lniknuTable (roundMie (roundDown 53)).toFlFun) mirrorDipoles dipoleTrans⟩) rfl rfl rfl one_pos (N := 1) rfl (by norm_num)
    (fun _ _ _ _ _ _ TE TM _ _ _ => by rw [sub_self, abs_zero])
    (fun n n1 n2 => dipole_code (rng n n1 n2).1 (rng n n1 n2).2)
    (fun lo hi hsl => ⟨lo, le_rfl, hsl.2.1, by
      obtain ⟨s1, s2, q, -, s3⟩ := hsl
      exact dipole_alive (rng lo s1 (by omega)).1 (rng lo s1 (by omega)).2⟩)
    (fun n n1 n2 e he => by
      obtain rfl : n = 1 := by omega
      have e1 : e = 1 := by
        have : mirrorDipoles.mat3.epsilon (1 * ((1 : ℕ) : ℝ)) = .ok 1 := rfl
        exact (Except.ok.inj (this.symm.trans he)).symm
      have L : mirrorDipoles.L = 0.6 := rfl
      rw [e1, L, Real.sqrt_one]
      norm_num) hf
  obtain ⟨v, rfl⟩ := List.length_eq_one_iff.mp (show F.length = 1 from l1)
  refine ⟨v, f, r1, hf, (r4 0 v rfl 0.3 0.3 dipoles_fit).trans (le_of_eq ?_)⟩
  norm_num

/-- `mirrorDipoles` in doubles with dipoles and one wavenumber only, entropy on two temperatures. -/
example (frac frac' : ℝ → ℝ → ℝ) : ∃ (S S' : List ℝ) (f : ℕ → ℝ),
    ((roundZero (roundDown 53)).toFlFun.entropy (foldSum (roundMie (roundDown 53)).toFlFun) ⟨1, 1, 2, true, .int 0,
      (roundZero (roundDown 53)).pairGeo (foldSum (roundMie (roundDown 53)).toFlFun) (fun _ B => Real.log (1 - B.full).det)
      (fun _ TE TM => Real.log (1 - TE).det + Real.log (1 - TM).det) frac'
      (lniknuTable (roundMie (roundDown 53)).toFlFun) mirrorDipoles dipoleTrans⟩ FT.fresh).1 = .ok S ∧
    IsFullLimit frac mirrorDipoles ⟨1, 1, 2, true, .int 0, (roundZero (roundDown 53)).pairGeo (foldSum (roundMie (roundDown 53)).toFlFun) (fun _ B => Real.log (1 - B.full).det)
      (fun _ TE TM => Real.log (1 - TE).det + Real.log (1 - TM).det) frac'
      (lniknuTable (roundMie (roundDown 53)).toFlFun) mirrorDipoles dipoleTrans⟩ f ∧ Spec.IsNegGradient [f 0, f 1] S' 1 ∧ S.length = 2 ∧ S'.length = 2 ∧ ∀ (i : ℕ) (s s' : ℝ), S[i]? = some s → S'[i]? = some s' →
      |s - s'| ≤ 2 * (max (budget mirrorDipoles 0.3 0.3 0 1 1) (budget mirrorDipoles 0.3 0.3 0 2 0) +
        4 * 2 ^ (-52 : ℤ) * (max (budget mirrorDipoles 0.3 0.3 0 1 1) (budget mirrorDipoles 0.3 0.3 0 2 0) + max (freeBound 0.2 0.2 0.6 1) (freeBound 0.2 0.2 0.6 2))) / 1 := by
  have h := mirrorDipoles_ok
  have hA := roundDown_relErrZ
  have u52 : (2 : ℝ) ^ (-52 : ℤ) = 1 / 4503599627370496 := by norm_num
  have rng : ∀ n : ℕ, 1 ≤ n → n ≤ 1 → 0.9 ≤ (roundMie (roundDown 53)).mul 1 n ∧ (roundMie (roundDown 53)).mul 1 n ≤ 1.1 := by
    intro n n1 n2
    obtain rfl : n = 1 := by omega
    have := _root_.abs_le.mp (roundDown_relErrM.mul 1 ((1 : ℕ) : ℝ))
    rw [one_mul, Nat.cast_one, abs_one, u52] at this
    rw [Nat.cast_one]
    constructor <;> linarith
  obtain ⟨f, hf, -⟩ := C149_limit frac (P := mirrorDipoles) (p := ⟨1, 1, 2, true, .int 0, (roundZero (roundDown 53)).pairGeo (foldSum (roundMie (roundDown 53)).toFlFun)
      (fun _ B => Real.log (1 - B.full).det) (fun _ TE TM => Real.log (1 - TE).det + Real.log (1 - TM).det) frac'
      (lniknuTable (roundMie (roundDown 53)).toFlFun) mirrorDipoles dipoleTrans⟩) h le_rfl rfl rfl one_pos
  obtain ⟨S, S', q⟩ := C150_entropy_limit (A := roundZero (roundDown 53)) (P := mirrorDipoles) (η := 0) (frac' := frac')
    (ld0 := fun _ TE TM => Real.log (1 - TE).det + Real.log (1 - TM).det) h le_rfl dipoles_fit hA (foldSum_sums _) (by norm_num [mirrorDipoles]) le_rfl
    (by norm_num [mirrorDipoles, shrink]) (by norm_num [mirrorDipoles]) (by norm_num [mirrorDipoles])
    (p := ⟨1, 1, 2, true, .int 0, (roundZero (roundDown 53)).pairGeo (foldSum (roundMie (roundDown 53)).toFlFun) (fun _ B => Real.log (1 - B.full).det)
      (fun _ TE TM => Real.log (1 - TE).det + Real.log (1 - TM).det) frac'
      (lniknuTable (roundMie (roundDown 53)).toFlFun) mirrorDipoles dipoleTrans⟩) rfl rfl rfl one_pos (N := 1) rfl (by norm_num)
    (fun _ _ _ _ _ _ TE TM _ _ _ => by rw [sub_self, abs_zero])
    (fun n n1 n2 => dipole_code (rng n n1 n2).1 (rng n n1 n2).2)
    (fun lo hi hsl => ⟨lo, le_rfl, hsl.2.1, by
      obtain ⟨s1, s2, q, -, s3⟩ := hsl
      exact dipole_alive (rng lo s1 (by omega)).1 (rng lo s1 (by omega)).2⟩)
    (fun n n1 n2 e he => by
      obtain rfl : n = 1 := by omega
      have e1 : e = 1 := by
        have : mirrorDipoles.mat3.epsilon (1 * ((1 : ℕ) : ℝ)) = .ok 1 := rfl
        exact (Except.ok.inj (this.symm.trans he)).symm
      have L : mirrorDipoles.L = 0.6 := rfl
      rw [e1, L, Real.sqrt_one]
      norm_num) hf le_rfl
    (β := max (budget mirrorDipoles 0.3 0.3 0 1 1) (budget mirrorDipoles 0.3 0.3 0 2 0)) (X := max (freeBound 0.2 0.2 0.6 1) (freeBound 0.2 0.2 0.6 2))
    (fun i hi => by
      obtain rfl | rfl : i = 0 ∨ i = 1 := by change i < 2 at hi; omega
      · refine le_trans (le_of_eq ?_) (le_max_left _ _)
        norm_num
      · refine le_trans (le_of_eq ?_) (le_max_right _ _)
        norm_num)
    (fun i hi => by
      have e1 : mirrorDipoles.r1 = 0.2 := rfl
      have e2 : mirrorDipoles.r2 = 0.2 := rfl
      have e3 : mirrorDipoles.L = 0.6 := rfl
      rw [e1, e2, e3]
      obtain rfl | rfl : i = 0 ∨ i = 1 := by change i < 2 at hi; omega
      · refine le_trans (le_of_eq ?_) (le_max_left _ _)
        norm_num
      · refine le_trans (le_of_eq ?_) (le_max_right _ _)
        norm_num)
  obtain ⟨q1, q2, q3, q4, q5⟩ := q
  exact ⟨S, S', f, q1, hf, q2, q3, q4, q5⟩

end CasSph
