import Verif.Model.FloatEntropy
import Verif.Props.Budget

/-! # C150: the computed entropy against larger cut-offs and more Matsubara terms in exact arithmetic -/

namespace CasSph

open Spec

variable {P : PairIn} {R1 R2 : ℝ} {a b : ℕ}

theorem FlFun.ensureF_twice (A : FlFun) (p : FTParams) (s : FT) {f : List ℝ} (h : (A.ensureF p s).1 = .ok f) : A.ensureF p (A.ensureF p s).2 = (.ok f, (A.ensureF p s).2) := by
  unfold FlFun.ensureF at h ⊢
  cases hs : s.fMats with
  | some g => rw [hs] at h; simp_all
  | none =>
    rw [hs] at h
    rcases hg : A.getFMatsubaras p 0 s with ⟨_ | g, s1⟩
    · rw [hg] at h; cases h
    · rw [hg] at h
      dsimp only at h ⊢
      cases h
      rfl

theorem FlFun.freeEnergy_eq (A : FlFun) (sum : (p : ℕ) → (Fin p → ℝ) → ℝ) (p : FTParams) (s : FT) :
    A.freeEnergy sum p s = ((A.ensureF p s).1.map (A.thermoSums sum p.deltaT p.maxstep), (A.ensureF p s).2) := by
  unfold FlFun.freeEnergy Proc.bind
  rcases A.ensureF p s with ⟨_ | _, s1⟩ <;> rfl

/-- The computed entropy is the computed difference quotient of the computed free energy. -/
theorem FlFun.entropy_eq (A : FlFun) (sum : (p : ℕ) → (Fin p → ℝ) → ℝ) (p : FTParams) (s : FT) :
    A.entropy sum p s = ((A.freeEnergy sum p s).1.bind fun F => (A.npGradient F p.deltaT).map fun l => l.map (- ·), (A.freeEnergy sum p s).2) := by
  rw [A.freeEnergy_eq]
  unfold FlFun.entropy Proc.bind
  have h2 := fun f => A.ensureF_twice p s (f := f)
  rcases h : A.ensureF p s with ⟨_ | f, s1⟩
  · rfl
  · rw [h] at h2
    dsimp only at h2 ⊢
    rw [A.freeEnergy_eq, h2 f rfl]
    rfl

/-- A rounded difference quotient: step `H`, computed with relative error `u`. -/
theorem quot_err {A : FlFun} {u : ℝ} (hA : RelErr A u) {v0 v1 x0 x1 β X H H' : ℝ} (hH : 0 < H) (hH' : |H' - H| ≤ u * H) (b0 : |v0 - x0| ≤ β) (b1 : |v1 - x1| ≤ β)
    (c0 : |x0| ≤ X) (c1 : |x1| ≤ X) : |A.div (A.sub v1 v0) H' - (x1 - x0) / H| ≤ 2 * (β + 4 * u * (β + X)) / H := by
  have u0 := hA.u0
  have u1 := hA.u1
  have hH2 := abs_le.mp hH'
  have Hp : 0 < H' := by nlinarith
  have d1 := hA.sub v1 v0
  have d2 := hA.div (A.sub v1 v0) H' Hp.ne'
  obtain ⟨D, eD⟩ : ∃ D, D = v1 - v0 := ⟨_, rfl⟩
  obtain ⟨w, ew⟩ : ∃ w, w = A.sub v1 v0 := ⟨_, rfl⟩
  rw [← eD, ← ew] at d1
  rw [← ew] at d2 ⊢
  have w1 : |w| ≤ (1 + u) * |D| := by
    have := abs_add_le (w - D) D
    rw [sub_add_cancel] at this
    linarith
  have t1 : |w / H' - D / H| ≤ 2.05 * u * |D| / H := by
    have e : w / H' - D / H = ((w - D) * H - D * (H' - H)) / (H' * H) := by
      field_simp
      ring
    have n : |(w - D) * H - D * (H' - H)| ≤ 2 * u * |D| * H := by
      refine (abs_sub _ _).trans ?_
      rw [abs_mul, abs_mul, abs_of_pos hH]
      have := mul_le_mul_of_nonneg_right d1 hH.le
      have := mul_le_mul_of_nonneg_left hH' (abs_nonneg D)
      linarith
    rw [e, abs_div, abs_of_pos (mul_pos Hp hH), div_le_div_iff₀ (mul_pos Hp hH) hH]
    have hh : 0.99 * H ≤ H' := by nlinarith
    have k : 0 ≤ u * |D| * H := by positivity
    calc _ ≤ 2 * u * |D| * H * H := mul_le_mul_of_nonneg_right n hH.le
      _ ≤ 2.05 * u * |D| * H * (0.99 * H) := by nlinarith
      _ ≤ 2.05 * u * |D| * H * H' := mul_le_mul_of_nonneg_left hh (by positivity)
      _ = _ := by ring
  have t2 : |w / H'| ≤ 1.05 * |D| / H := by
    rw [abs_div, abs_of_pos Hp, div_le_div_iff₀ Hp hH]
    have hh : 0.99 * H ≤ H' := by nlinarith
    calc |w| * H ≤ (1 + u) * |D| * H := mul_le_mul_of_nonneg_right w1 hH.le
      _ ≤ 1.01 * |D| * H := by
        have : 0 ≤ |D| * H := by positivity
        nlinarith
      _ ≤ 1.05 * |D| * (0.99 * H) := by
        have : 0 ≤ |D| * H := by positivity
        nlinarith
      _ ≤ _ := mul_le_mul_of_nonneg_left hh (by positivity)
  have D1 : |D| ≤ 2 * (β + X) := by
    have e : D = (v1 - x1) - (v0 - x0) + (x1 - x0) := by rw [eD]; ring
    have := abs_add_le ((v1 - x1) - (v0 - x0)) (x1 - x0)
    have := abs_sub (v1 - x1) (v0 - x0)
    have := abs_sub x1 x0
    rw [e]
    linarith
  have t3 : |D / H - (x1 - x0) / H| ≤ 2 * β / H := by
    rw [← sub_div, abs_div, abs_of_pos hH]
    refine div_le_div_of_nonneg_right ?_ hH.le
    have e : D - (x1 - x0) = (v1 - x1) - (v0 - x0) := by rw [eD]; ring
    rw [e]
    have := abs_sub (v1 - x1) (v0 - x0)
    linarith
  have t4 : |A.div w H' - w / H'| ≤ 1.05 * u * |D| / H := by
    refine d2.trans ?_
    have := mul_le_mul_of_nonneg_left t2 u0
    calc _ ≤ _ := this
      _ = _ := by ring
  have tri := abs_sub_le (A.div w H') (w / H') ((x1 - x0) / H)
  have tri2 := abs_sub_le (w / H') (D / H) ((x1 - x0) / H)
  have f : 3.1 * u * |D| / H ≤ 8 * u * (β + X) / H := by
    refine div_le_div_of_nonneg_right ?_ hH.le
    have := mul_le_mul_of_nonneg_left D1 u0
    have : 0 ≤ u * |D| := by positivity
    nlinarith
  calc _ ≤ 1.05 * u * |D| / H + (2.05 * u * |D| / H + 2 * β / H) := by linarith
    _ = 3.1 * u * |D| / H + 2 * β / H := by ring
    _ ≤ 8 * u * (β + X) / H + 2 * β / H := by linarith
    _ = _ := by ring

/-- **C150, `np.gradient`.** Errors of at most `β` in the free energies, whose moduli are at most `X`, and roundings in the difference quotient. -/
theorem C150_gradient {A : FlFun} {u : ℝ} (hA : RelErr A u) {F G : List ℝ} {h β X : ℝ} (hh : 0 < h) (hl : F.length = G.length) (h2 : 2 ≤ G.length)
    (hb : ∀ (i : ℕ) (v x : ℝ), F[i]? = some v → G[i]? = some x → |v - x| ≤ β ∧ |x| ≤ X) :
    ∃ S S' : List ℝ, A.npGradient F h = .ok S ∧ npGradient G h = .ok S' ∧ S.length = G.length ∧ S'.length = G.length ∧
      ∀ (i : ℕ) (s s' : ℝ), S[i]? = some s → S'[i]? = some s' → |s - s'| ≤ 2 * (β + 4 * u * (β + X)) / h := by
  refine ⟨_, _, if_neg (by omega), if_neg (by omega), by simp [hl], by simp, fun i s s' hs hs' => ?_⟩
  have hi : i < G.length := by
    have := (List.getElem?_eq_some_iff.mp hs').1
    simpa using this
  rw [List.getElem?_map, List.getElem?_range (by omega)] at hs hs'
  simp only [Option.map_some, Option.some.injEq] at hs hs'
  have bj : ∀ j < G.length, |F.getD j 0 - G.getD j 0| ≤ β ∧ |G.getD j 0| ≤ X := fun j hj => by
    refine hb j _ _ ?_ ?_
    · rw [List.getD_eq_getElem _ _ (by omega), List.getElem?_eq_getElem]
    · rw [List.getD_eq_getElem _ _ hj, List.getElem?_eq_getElem]
  have hs0 : |h - h| ≤ u * h := by rw [sub_self, abs_zero]; exact mul_nonneg hA.u0 hh.le
  rw [← hs, ← hs', hl]
  split_ifs with i0 il
  · exact quot_err hA hh hs0 (bj 0 (by omega)).1 (bj 1 (by omega)).1 (bj 0 (by omega)).2 (bj 1 (by omega)).2
  · exact quot_err hA hh hs0 (bj (i - 1) (by omega)).1 (bj i (by omega)).1 (bj (i - 1) (by omega)).2 (bj i (by omega)).2
  · have e : |A.mul 2 h - 2 * h| ≤ u * (2 * h) := by
      have := hA.mul 2 h
      rwa [abs_of_pos (show (0 : ℝ) < 2 * h by positivity)] at this
    refine (quot_err hA (by positivity) e (bj (i - 1) (by omega)).1 (bj (i + 1) (by omega)).1 (bj (i - 1) (by omega)).2 (bj (i + 1) (by omega)).2).trans ?_
    have β0 := (abs_nonneg _).trans (bj i hi).1
    have X0 := (abs_nonneg _).trans (bj i hi).2
    have u0 := hA.u0
    exact div_le_div_of_nonneg_left (by positivity) hh (by linarith)

/-- Bound of C149 on the error of the free energy at the temperature `T` with `J` positive wavenumbers. -/
noncomputable def budget (P : PairIn) (R1 R2 η T : ℝ) (J : ℕ) : ℝ :=
  4.3e-6 * freeBound P.r1 P.r2 P.L T + 1.1 * (T * (J + 1 / 2) * ((2 * P.lmax + 1 : ℕ) * η)) +
    ((P.r1 / R1) ^ (2 * P.lmax + 1) * freeBound R1 P.r2 P.L T + (P.r2 / R2) ^ (2 * P.lssmax + 1) * freeBound P.r1 R2 P.L T) + matsTail P.r1 P.r2 P.L T (T * (J + 1))

/-- **C150.** The entropy that the code computes with `N` Matsubara wavenumbers and the cut-offs `lmax`, `lssmax`, against that of exact arithmetic with larger cut-offs and
more wavenumbers on the same grid of temperatures. -/
theorem C150_entropy {A : FlZero} (h : PairOK P) (hprec : P.precision ≤ 0) (hR : Fits P R1 R2) (ha : P.lmax ≤ a) (hb : P.lssmax ≤ b) (hab : a ≤ b)
    (hA : RelErrZ A (2 ^ (-52 : ℤ))) {sum : (p : ℕ) → (Fin p → ℝ) → ℝ} (hS : Sums A.toFlFun sum)
    (hl : P.lssmax ≤ 100) {η : ℝ} (hη0 : 0 ≤ η) (hθ : shrink P.r1 P.r2 P.L ≤ 0.9) (h1 : P.L ≤ 1e40 * P.r1) (h2 : P.L ≤ 1e40 * P.r2) {ld : (n : ℕ) → Blocks n → ℝ}
    {ld0 : (n : ℕ) → Matrix (Fin n) (Fin n) ℝ → Matrix (Fin n) (Fin n) ℝ → ℝ} {frac' : ℝ → ℝ → ℝ} {T : BesTable}
    {V : ℝ → (m : ℕ) → Fin (P.lmax + 1 - transLmin m) → Fin (P.lssmax + 1 - transLmin m) → VCoef}
    {p : FTParams} (hg : p.geo = A.pairGeo sum ld ld0 frac' T P V) (hp : p.nprocs.isZero) (han : p.analyticN0 = true) (hT : 0 < p.deltaT) {N N' : ℕ} (hN : p.nmax = N)
    (hN6 : N ≤ 1000000) (hNN : N ≤ N') (hd : DetErr0 A sum ld0 frac' P η) (hc : ∀ n : ℕ, 1 ≤ n → n ≤ N → CodeFull A sum ld T P V η (A.mul p.deltaT n))
    (hal : ∀ lo hi, IsSlice N lo hi → ∃ n : ℕ, lo ≤ n ∧ n ≤ hi ∧ Alive A.toFlMie sum ld T P V (A.mul p.deltaT n))
    (hY : ∀ n : ℕ, 1 ≤ n → n ≤ N → ∀ e, P.mat3.epsilon (p.deltaT * n) = .ok e → p.deltaT * n * P.L * Real.sqrt e ≤ 1e6) (frac : ℝ → ℝ → ℝ)
    (hm : 2 ≤ p.maxstep) {β X : ℝ} (hβ : ∀ i < p.maxstep.toNat, budget P R1 R2 η ((i + 1) * p.deltaT) (N / (i + 1)) ≤ β)
    (hX : ∀ i < p.maxstep.toNat, freeBound P.r1 P.r2 P.L ((i + 1) * p.deltaT) ≤ X) :
    ∃ S S' : List ℝ, (A.toFlFun.entropy sum p FT.fresh).1 = .ok S ∧ (entropy { p with nmax := N', geo := pairGeo exactBes frac (P.cut a b) } FT.fresh).1 = .ok S' ∧
      S.length = p.maxstep.toNat ∧ S'.length = p.maxstep.toNat ∧
      ∀ (i : ℕ) (s s' : ℝ), S[i]? = some s → S'[i]? = some s' → |s - s'| ≤ 2 * (β + 4 * 2 ^ (-52 : ℤ) * (β + X)) / p.deltaT := by
  obtain ⟨F, G, Gm, r1, r2, r3, l1, l2, l3, r4⟩ := C149_double h hprec hR ha hb hab hA hS hl hη0 hθ h1 h2 hg hp han hT hN hN6 hNN hd hc hal hY frac
  obtain ⟨G1, g1, -, g2⟩ := C100_free_energy (p := { p with nmax := N', geo := pairGeo exactBes frac (P.cut a b) }) (h.cut (h.hl.trans ha) hab) rfl hp han hT (Int.natCast_nonneg N')
  obtain ⟨G2, m1, -, m2⟩ := C100_free_energy (p := { p with geo := pairGeo exactBes frac P.metal }) h.metal rfl hp han hT (by show 0 ≤ p.nmax; omega)
  rw [r2] at g1
  injection g1 with g1
  subst g1
  rw [r3] at m1
  injection m1 with m1
  subst m1
  have hm' : 2 ≤ G.length := by rw [l2]; omega
  obtain ⟨S, S', s1, s2, s3, s4, s5⟩ := C150_gradient (F := F) (G := G) (β := β) (X := X) hA.toRelErr hT (by rw [l1, l2]) hm' (fun i v x hv hx => by
    have hi : i < p.maxstep.toNat := by
      rw [← l1]
      exact (List.getElem?_eq_some_iff.mp hv).1
    obtain ⟨y, hy⟩ : ∃ y, Gm[i]? = some y := ⟨_, List.getElem?_eq_getElem (by rw [l3]; exact hi)⟩
    obtain ⟨q1, q2⟩ := r4 i v x y hv hx hy
    have q3 : |y| ≤ freeBound P.r1 P.r2 P.L ((i + 1) * p.deltaT) := (m2 i y hy).1
    have q4 : |x| ≤ freeBound P.r1 P.r2 P.L ((i + 1) * p.deltaT) := (g2 i x hx).1
    refine ⟨q2.trans (le_trans ?_ (hβ i hi)), q4.trans (hX i hi)⟩
    unfold budget
    rw [abs_of_nonpos q1] at q3
    push_cast at q3 ⊢
    linarith)
  refine ⟨S.map (- ·), S'.map (- ·), ?_, ?_, by rw [List.length_map, s3, l2], by rw [List.length_map, s4, l2], fun i s s' hs hs' => ?_⟩
  · rw [FlFun.entropy_eq, r1]
    simp only [Except.bind, s1, Except.map]
  · rw [entropy_eq, r2]
    simp only [Except.bind, s2, Except.map]
  · rw [List.getElem?_map, Option.map_eq_some_iff] at hs hs'
    obtain ⟨t, ht, rfl⟩ := hs
    obtain ⟨t', ht', rfl⟩ := hs'
    rw [← abs_neg, show -(-t - -t') = t - t' by ring]
    exact s5 i t t' ht ht'

/-! ## Examples -/

/-- `mirrorDipoles` in doubles with one wavenumber and two temperatures against exact arithmetic with any larger cut-offs and any number of wavenumbers. -/
example (frac frac' : ℝ → ℝ → ℝ) {a b N' : ℕ} (ha : 1 ≤ a) (hb : 1 ≤ b) (hab : a ≤ b) (hN : 1 ≤ N') : ∃ S S' : List ℝ,
    ((roundZero (roundDown 53)).toFlFun.entropy (foldSum (roundMie (roundDown 53)).toFlFun) ⟨1, 1, 2, true, .int 0,
      (roundZero (roundDown 53)).pairGeo (foldSum (roundMie (roundDown 53)).toFlFun) (fun _ B => Real.log (1 - B.full).det)
      (fun _ TE TM => Real.log (1 - TE).det + Real.log (1 - TM).det) frac'
      (lniknuTable (roundMie (roundDown 53)).toFlFun) mirrorDipoles dipoleTrans⟩ FT.fresh).1 = .ok S ∧
    (entropy ⟨1, N', 2, true, .int 0, pairGeo exactBes frac (mirrorDipoles.cut a b)⟩ FT.fresh).1 = .ok S' ∧ S.length = 2 ∧ S'.length = 2 ∧
    ∀ (i : ℕ) (s s' : ℝ), S[i]? = some s → S'[i]? = some s' →
      |s - s'| ≤ 2 * (max (budget mirrorDipoles 0.3 0.3 0 1 1) (budget mirrorDipoles 0.3 0.3 0 2 0) +
        4 * 2 ^ (-52 : ℤ) * (max (budget mirrorDipoles 0.3 0.3 0 1 1) (budget mirrorDipoles 0.3 0.3 0 2 0) + max (freeBound 0.2 0.2 0.6 1) (freeBound 0.2 0.2 0.6 2))) / 1 := by
  have h := mirrorDipoles_ok
  have hA := roundDown_relErrZ
  have u52 : (2 : ℝ) ^ (-52 : ℤ) = 1 / 4503599627370496 := by norm_num
  have rng : ∀ n : ℕ, 1 ≤ n → n ≤ 1 → 0.9 ≤ (roundMie (roundDown 53)).mul 1 n ∧ (roundMie (roundDown 53)).mul 1 n ≤ 1.1 := by
    intro n n1 n2
    obtain rfl : n = 1 := by omega
    have := abs_le.mp (roundDown_relErrM.mul 1 ((1 : ℕ) : ℝ))
    rw [one_mul, Nat.cast_one, abs_one, u52] at this
    rw [Nat.cast_one]
    constructor <;> linarith
  exact C150_entropy (A := roundZero (roundDown 53)) (P := mirrorDipoles) (η := 0) (frac' := frac') (N' := N')
    (ld0 := fun _ TE TM => Real.log (1 - TE).det + Real.log (1 - TM).det) h le_rfl dipoles_fit ha hb hab hA (foldSum_sums _) (by norm_num [mirrorDipoles]) le_rfl
    (by norm_num [mirrorDipoles, shrink]) (by norm_num [mirrorDipoles]) (by norm_num [mirrorDipoles])
    (p := ⟨1, 1, 2, true, .int 0, (roundZero (roundDown 53)).pairGeo (foldSum (roundMie (roundDown 53)).toFlFun) (fun _ B => Real.log (1 - B.full).det)
      (fun _ TE TM => Real.log (1 - TE).det + Real.log (1 - TM).det) frac'
      (lniknuTable (roundMie (roundDown 53)).toFlFun) mirrorDipoles dipoleTrans⟩) rfl rfl rfl one_pos (N := 1) rfl (by norm_num) hN
    (fun _ _ _ _ _ _ TE TM _ _ _ => by rw [sub_self, abs_zero])
    (fun n n1 n2 => dipole_code (rng n n1 n2).1 (rng n n1 n2).2)
    (fun lo hi hsl => ⟨lo, le_rfl, hsl.2.1, by
      obtain ⟨s1, s2, q, -, s3⟩ := hsl
      exact dipole_alive (rng lo s1 (by omega)).1 (rng lo s1 (by omega)).2⟩)
    (fun n n1 n2 e he => by
      obtain rfl : n = 1 := by omega
      have e1 : e = 1 := by
        have : mirrorDipoles.mat3.epsilon (1 * ((1 : ℕ) : ℝ)) = .ok 1 := rfl
        exact (Except.ok.inj (this.symm.trans he)).symm
      have L : mirrorDipoles.L = 0.6 := rfl
      rw [e1, L, Real.sqrt_one]
      norm_num) frac le_rfl
    (fun i hi => by
      obtain rfl | rfl : i = 0 ∨ i = 1 := by change i < 2 at hi; omega
      · refine le_trans (le_of_eq ?_) (le_max_left _ _)
        norm_num
      · refine le_trans (le_of_eq ?_) (le_max_right _ _)
        norm_num)
    (fun i hi => by
      have e1 : mirrorDipoles.r1 = 0.2 := rfl
      have e2 : mirrorDipoles.r2 = 0.2 := rfl
      have e3 : mirrorDipoles.L = 0.6 := rfl
      rw [e1, e2, e3]
      obtain rfl | rfl : i = 0 ∨ i = 1 := by change i < 2 at hi; omega
      · refine le_trans (le_of_eq ?_) (le_max_left _ _)
        norm_num
      · refine le_trans (le_of_eq ?_) (le_max_right _ _)
        norm_num)

end CasSph
