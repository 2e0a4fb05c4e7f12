import Verif.Spec.Scaling
import Verif.Model.ZeroTemp
import Verif.Props.Geometry
import Verif.Props.Distance
import Verif.Props.Dipole

/-! # C115: the results do not depend on the unit of length -/

namespace CasSph

open Spec
open scoped Classical

variable {c : ℝ}

theorem lorentzTerm_scale (hc : 0 < c) (k : ℝ) (o : Osc) : Material.lorentzTerm (c * k) (scaleOsc c o) = Material.lorentzTerm k o := by
  unfold Material.lorentzTerm scaleOsc cdiv
  have e1 : (c * o.wP / omegaNorm) ^ 2 = c ^ 2 * (o.wP / omegaNorm) ^ 2 := by ring
  have e2 : (c * o.wR / omegaNorm) ^ 2 + (c * k) ^ 2 + c * o.gamma / omegaNorm * (c * k) =
    c ^ 2 * ((o.wR / omegaNorm) ^ 2 + k ^ 2 + o.gamma / omegaNorm * k) := by ring
  simp only [e1, e2, mul_div_mul_left _ _ (pow_pos hc 2).ne', mul_eq_zero, (pow_pos hc 2).ne', false_or]

theorem smithTerm_scale (hc : 0 < c) (k : ℝ) (o : Osc) : Material.smithTerm (c * k) (scaleOsc c o) = Material.smithTerm k o := by
  unfold Material.smithTerm scaleOsc cdiv
  have e1 : (c * o.wP / omegaNorm) ^ 2 = c ^ 2 * (o.wP / omegaNorm) ^ 2 := by ring
  have e2 : (c * k) ^ 2 + c * o.gamma / omegaNorm * (c * k) = c ^ 2 * (k ^ 2 + o.gamma / omegaNorm * k) := by ring
  have e3 : 0.49 * (c * o.gamma / omegaNorm) = c * (0.49 * (o.gamma / omegaNorm)) := by ring
  have e4 : c * k + c * o.gamma / omegaNorm = c * (k + o.gamma / omegaNorm) := by ring
  simp only [e1, e2, e3, e4, mul_div_mul_left _ _ (pow_pos hc 2).ne', mul_div_mul_left _ _ hc.ne', mul_eq_zero, (pow_pos hc 2).ne', hc.ne', false_or]

/-- **C115, materials.** The permittivity depends on ratios of frequencies only. -/
theorem C115_epsilon (hc : 0 < c) (M : Material) (k : ℝ) : (scaleMat c M).epsilon (c * k) = M.epsilon k := by
  rcases M with ⟨cls, e, b⟩
  cases cls <;> simp [Material.epsilon, scaleMat, List.foldlM_map, lorentzTerm_scale hc, smithTerm_scale hc]

/-- **C115, materials.** The same for the permeability. -/
theorem C115_mu (hc : 0 < c) (M : Material) (k : ℝ) : (scaleMat c M).mu (c * k) = M.mu k := by
  rcases M with ⟨cls, e, b⟩
  have key : ∀ w : ℝ, cdiv (c * k) (c * w / omegaNorm) = cdiv k (w / omegaNorm) := by
    intro w
    unfold cdiv
    simp only [mul_div_assoc, mul_div_mul_left _ _ hc.ne', mul_eq_zero, hc.ne', false_or]
  cases cls <;> cases b <;> simp [Material.mu, scaleMat, key]

theorem medium_scale (hc : 0 < c) (M : Material) (k : ℝ) : (scaleMat c M).medium (c * k) = M.medium k := by
  unfold Material.medium
  rw [C115_epsilon hc, C115_mu hc]

theorem isDielectric_scale (hc : 0 < c) (e : List Osc) : isDielectric (e.map (scaleOsc c)) = isDielectric e := by
  induction e with
  | nil => rfl
  | cons o e ih => simp [isDielectric, scaleOsc, hc.ne', ← ih]

theorem min?_scale (hc : 0 < c) (l : List ℝ) : (l.map (c * ·)).min? = l.min?.map (c * ·) := by
  cases l with
  | nil => rfl
  | cons a l =>
    simp only [List.map_cons, List.min?_cons', Option.map_some, Option.some.injEq]
    induction l generalizing a with
    | nil => rfl
    | cons b l ih =>
      simp only [List.map_cons, List.foldl_cons]
      rw [← ih, mul_min_of_nonneg _ _ hc.le]

theorem isSigmaFinite_scale (hc : 0 < c) (e : List Osc) : isSigmaFinite (e.map (scaleOsc c)) = isSigmaFinite e := by
  unfold isSigmaFinite
  have key : ((e.map (scaleOsc c)).filter fun p => decide (p.wR = 0 ∧ ¬ p.wP = 0)).map Osc.gamma =
      ((e.filter fun p => decide (p.wR = 0 ∧ ¬ p.wP = 0)).map Osc.gamma).map (c * ·) := by
    induction e with
    | nil => rfl
    | cons o e ih =>
      simp only [List.map_cons, List.filter_cons]
      have : (decide ((scaleOsc c o).wR = 0 ∧ ¬ (scaleOsc c o).wP = 0)) = decide (o.wR = 0 ∧ ¬ o.wP = 0) := by
        simp [scaleOsc, hc.ne']
      rw [this]
      split_ifs
      · rw [List.map_cons, List.map_cons, List.map_cons, ih]; rfl
      · exact ih
  rw [key, min?_scale hc]
  cases ((e.filter fun p => decide (p.wR = 0 ∧ ¬ p.wP = 0)).map Osc.gamma).min? with
  | none => rfl
  | some g => simp [hc.ne']

theorem sigmaFinite_scale (hc : 0 < c) (M : Material) : (scaleMat c M).sigmaFinite = M.sigmaFinite := by
  rcases M with ⟨cls, e, b⟩
  cases cls <;> simp [Material.sigmaFinite, scaleMat, isSigmaFinite_scale hc]

theorem dielectric_scale (hc : 0 < c) (M : Material) : (scaleMat c M).dielectric = M.dielectric := by
  rcases M with ⟨cls, e, b⟩
  cases cls <;> simp [Material.dielectric, scaleMat, isDielectric_scale hc]

theorem mie_scale (hc : 0 < c) (T : BesTable) (M N : Material) (l : ℕ) (k r : ℝ) :
    mie T T (scaleMat c⁻¹ M) (scaleMat c⁻¹ N) l (c⁻¹ * k) (c * r) = mie T T M N l k r := by
  have hc' := inv_pos.mpr hc
  have e : c⁻¹ * k * (c * r) = k * r := by field_simp
  rcases M with ⟨cls, es, b⟩
  have hm := medium_scale hc' ⟨cls, es, b⟩ k
  cases cls <;> simp only [mie, scaleMat, e] at hm ⊢
  · rw [← medium_scale hc' N k]; rfl
  · rw [← medium_scale hc' N k, ← hm]; rfl
  · rw [← medium_scale hc' N k, ← hm]; rfl

theorem firstWp_scale (M : Material) : (scaleMat c M).firstWp = M.firstWp.map (c * ·) := by
  rcases M with ⟨cls, e, b⟩
  cases cls <;> cases e <;> rfl

theorem mieK0_scale (hc : 0 < c) (frac : ℝ → ℝ → ℝ) (M N : Material) (l : ℕ) (R : ℝ) :
    mieK0 frac (scaleMat c⁻¹ M) (scaleMat c⁻¹ N) l (c * R) = mieK0 frac M N l R := by
  have hc' := inv_pos.mpr hc
  have m0 : ∀ M, (scaleMat c⁻¹ M).mu 0 = M.mu 0 := fun M => by have := C115_mu hc' M 0; rwa [mul_zero] at this
  have p0 : ∀ M, (scaleMat c⁻¹ M).epsilon 0 = M.epsilon 0 := fun M => by have := C115_epsilon hc' M 0; rwa [mul_zero] at this
  have w : ∀ w : ℝ, c⁻¹ * w * (c * R) = w * R := fun w => by field_simp
  have hcls : (scaleMat c⁻¹ M).cls = M.cls := rfl
  unfold mieK0
  cases hM : M.firstWp <;> simp only [m0, p0, sigmaFinite_scale hc', dielectric_scale hc', hcls, firstWp_scale, hM, Except.map, w]

theorem waveIn_scale (hc : 0 < c) (T : BesTable) (P : PairIn) (k : ℝ) : waveIn T (scalePair c P) (c⁻¹ * k) = waveIn T P k := by
  have e : c⁻¹ * k * (c * P.L) = k * P.L := by field_simp
  unfold waveIn mieTable scalePair
  simp only [mie_scale hc, C115_epsilon (inv_pos.mpr hc), e]

/-- What `mSumme` does with the values of the translation and the Mie coefficients. -/
noncomputable def pairTail (lmax lssmax : ℕ) (precision : ℝ) (n : ℕ) (ws : List WaveIn) : Res (List ℝ) :=
  if h : ∃ v : ℕ → Fin n → ℝ, ∀ m : ℕ, m ≤ lmax → ∃ N, ∀ fuel, N < fuel →
      singleM fuel 0.9 lmax lssmax m ws = some (.ok (List.ofFn fun i => (v m i : EReal)))
  then do
    let r ← mSummeNonzero lmax precision fun m => .ok (h.choose m)
    .ok (List.ofFn r)
  else .error .valueError

theorem pairVals_tail (T : BesTable) (P : PairIn) (ks : List ℝ) :
    pairVals T P ks = (ks.mapM (waveIn T P)) >>= pairTail P.lmax P.lssmax P.precision ks.length := rfl

/-- **C115, `mSumme`.** With lengths multiplied by `c` and frequencies and wavenumbers divided by `c` the same values are returned, or the
same exception is raised.  Nothing is assumed about the materials, the geometry or the Bessel functions. -/
theorem C115_mSumme (hc : 0 < c) (T : BesTable) (P : PairIn) (ks : List ℝ) :
    pairVals T (scalePair c P) (ks.map (c⁻¹ * ·)) = pairVals T P ks := by
  rw [pairVals_tail, pairVals_tail, List.mapM_map, List.length_map]
  simp only [Function.comp_def, waveIn_scale hc]
  rfl

/-- What `mSumme_k0` does with the determinants `d fuel m` of its block matrices. -/
noncomputable def pairTailK0 (lmax : ℕ) (precision : ℝ) (d : ℕ → ℤ → Option (Res (Option EReal))) : Res ℝ :=
  if h : ∃ v : ℕ → ℝ, ∀ m : ℕ, m ≤ lmax → ∃ N, ∀ fuel, N < fuel → d fuel m = some (.ok (some (v m : EReal)))
  then do
    let r ← mSummeK0 lmax precision fun m => .ok fun _ => h.choose m
    .ok (r 0)
  else .error .valueError

theorem pairK0_tail (frac : ℝ → ℝ → ℝ) (P : PairIn) : pairK0 frac P =
    mieTableK0 frac P.mat1 P.mat3 P.lmax P.r1 >>= fun a => mieTableK0 frac P.mat2 P.mat3 P.lssmax P.r2 >>= fun b =>
      pairTailK0 P.lmax P.precision fun fuel m => singleMK0 fuel P.lmax P.lssmax m P.r1 P.r2 P.L a b := rfl

/-- **C115, `mSumme_k0`.** -/
theorem C115_mSumme_k0 (hc : 0 < c) (frac : ℝ → ℝ → ℝ) (P : PairIn) : pairK0 frac (scalePair c P) = pairK0 frac P := by
  have e : ∀ fuel lmax lssmax (m : ℤ) (a b : MieCoef), singleMK0 fuel lmax lssmax m (c * P.r1) (c * P.r2) (c * P.L) a b =
      singleMK0 fuel lmax lssmax m P.r1 P.r2 P.L a b := by
    intro fuel lmax lssmax m a b
    unfold singleMK0 blockmatricesK0At blockmatricesK0Ext
    simp only [mul_div_mul_left _ _ hc.ne']
  rw [pairK0_tail, pairK0_tail]
  unfold mieTableK0 scalePair
  simp only [mieK0_scale hc, e]

/-! ## Thermodynamics -/

theorem sliceLoop_congr {σ : Type} {f g : List ℤ → Proc σ (List ℝ)} {s : σ} (h : ∀ ns, f ns s = g ns s) (h' : ∀ ns, (f ns s).2 = s)
    (o nmax step : ℤ) (hs : 0 < step) : ∀ (n : ℕ) (nmin : ℤ) (r : List (Option ℝ)), (nmax + 1 - nmin).toNat ≤ n →
      sliceLoop f o nmax step hs nmin r s = sliceLoop g o nmax step hs nmin r s ∧ (sliceLoop f o nmax step hs nmin r s).2 = s := by
  intro n
  induction n with
  | zero =>
    intro nmin r hn
    rw [sliceLoop.eq_def f, sliceLoop.eq_def g, dif_neg (by omega), dif_neg (by omega)]
    exact ⟨rfl, rfl⟩
  | succ n ih =>
    intro nmin r hn
    rw [sliceLoop.eq_def f, sliceLoop.eq_def g]
    by_cases hle : nmin ≤ nmax
    · rw [dif_pos hle, dif_pos hle]
      unfold Proc.bind
      simp only
      set ns := arange nmin (min (nmin + step - 1) nmax)
      have e := h ns
      have e' := h' ns
      rw [← e]
      rcases hf : f ns s with ⟨r1, s1⟩
      rw [hf] at e'
      simp only at e'
      subst e'
      cases r1 with
      | error _ => exact ⟨rfl, rfl⟩
      | ok v =>
        simp only
        cases assignSlice r (o + nmin).toNat (min (nmin + step - 1) nmax + 1 - nmin).toNat v with
        | error _ => exact ⟨rfl, rfl⟩
        | ok r' => exact ih _ _ (by omega)
    · rw [dif_neg hle, dif_neg hle]
      exact ⟨rfl, rfl⟩

/-- The object with temperature step, radii, distance and materials in the other unit. -/
noncomputable def scaleFT (c : ℝ) (T : BesTable) (frac : ℝ → ℝ → ℝ) (P : PairIn) (p : FTParams) : FTParams :=
  { p with deltaT := c⁻¹ * p.deltaT, geo := pairGeo T frac (scalePair c P) }

variable {p : FTParams} {T : BesTable} {frac : ℝ → ℝ → ℝ} {P : PairIn} {s : FT}

theorem mSumme_scale (hc : 0 < c) (ks : List ℝ) :
    (pairGeo T frac (scalePair c P)).mSumme (ks.map (c⁻¹ * ·)) s = (pairGeo T frac P).mSumme ks s := by
  unfold Geo.mSumme pairGeo
  simp only [C115_mSumme hc, List.map_eq_nil_iff]

theorem fAlle_scale (hc : 0 < c) (hs : s.forceFlag = false) (ks : List ℝ) :
    fAlle (pairGeo T frac (scalePair c P)) true (ks.map (c⁻¹ * ·)) s = fAlle (pairGeo T frac P) true ks s ∧
    (fAlle (pairGeo T frac P) true ks s).2 = s := by
  have key : ∀ ks, ((pairGeo T frac P).mSumme ks s).2 = s := by
    intro ks
    unfold Geo.mSumme pairGeo
    simp only [Bool.false_eq_true, if_false]
    split_ifs <;> rfl
  cases ks with
  | nil => exact ⟨rfl, rfl⟩
  | cons k rest =>
    have hk0 : c⁻¹ * k = 0 ↔ k = 0 := by simp [hc.ne']
    rw [List.map_cons]
    unfold fAlle
    simp only [hk0, hs, and_self, if_true]
    by_cases hk : k = 0
    · simp only [hk, if_true, List.map_eq_nil_iff]
      have e0 : (pairGeo T frac (scalePair c P)).mSummeK0 s = (pairGeo T frac P).mSummeK0 s := by
        unfold Geo.mSummeK0 pairGeo
        simp only [C115_mSumme_k0 hc]
      have e0' : ((pairGeo T frac P).mSummeK0 s).2 = s := by
        unfold Geo.mSummeK0 pairGeo
        simp only
        split_ifs <;> rfl
      unfold Proc.bind
      rw [e0]
      rcases hz : (pairGeo T frac P).mSummeK0 s with ⟨r1, s1⟩
      rw [hz] at e0'
      simp only at e0'
      subst e0'
      cases r1 with
      | error _ => exact ⟨rfl, rfl⟩
      | ok z =>
        simp only
        by_cases hr : rest = []
        · simp only [hr, if_true]; exact ⟨trivial, rfl⟩
        · simp only [hr, if_false, mSumme_scale hc]
          have := key rest
          rcases hz : (pairGeo T frac P).mSumme rest s1 with ⟨r1, s2⟩
          rw [hz] at this
          simp only at this
          subst this
          cases r1 <;> exact ⟨trivial, rfl⟩
    · simp only [hk, if_false, Bool.false_eq_true]
      have := mSumme_scale (T := T) (frac := frac) (P := P) (s := s) hc (k :: rest)
      rw [List.map_cons] at this
      exact ⟨this, key _⟩

theorem ensureF_scale (hc : 0 < c) (hs : s.forceFlag = false) (ha : p.analyticN0 = true) (hg : p.geo = pairGeo T frac P) :
    ensureF (scaleFT c T frac P p) s = ensureF p s ∧ (ensureF p s).2.forceFlag = false ∧ (∀ f, (ensureF p s).1 = .ok f → (ensureF p s).2.fMats = some f) := by
  have key : getFMatsubaras (scaleFT c T frac P p) 0 s = getFMatsubaras p 0 s ∧ (getFMatsubaras p 0 s).2 = s := by
    unfold getFMatsubaras scaleFT
    by_cases hp : p.nprocs.isZero
    · simp only [hp, if_true, ha, hg]
      have e : ∀ ns : List ℤ, (ns.map fun n : ℤ => c⁻¹ * p.deltaT * (n : ℝ)) = (ns.map fun n : ℤ => p.deltaT * (n : ℝ)).map (c⁻¹ * ·) := by
        intro ns
        rw [List.map_map]
        refine List.map_congr_left fun n _ => ?_
        simp only [Function.comp_def]
        ring
      simp only [e]
      have hl : slicewiseEval (fun ns => fAlle (pairGeo T frac (scalePair c P)) true ((ns.map fun n : ℤ => p.deltaT * (n : ℝ)).map (c⁻¹ * ·))) 0 p.nmax 50 s =
          slicewiseEval (fun ns => fAlle (pairGeo T frac P) true (ns.map fun n : ℤ => p.deltaT * (n : ℝ))) 0 p.nmax 50 s ∧
          (slicewiseEval (fun ns => fAlle (pairGeo T frac P) true (ns.map fun n : ℤ => p.deltaT * (n : ℝ))) 0 p.nmax 50 s).2 = s := by
        unfold slicewiseEval
        rw [dif_pos (by norm_num), dif_pos (by norm_num)]
        split_ifs
        · exact ⟨rfl, rfl⟩
        · have := sliceLoop_congr (s := s) (f := fun ns => fAlle (pairGeo T frac P) true (ns.map fun n : ℤ => p.deltaT * (n : ℝ)))
            (g := fun ns => fAlle (pairGeo T frac (scalePair c P)) true ((ns.map fun n : ℤ => p.deltaT * (n : ℝ)).map (c⁻¹ * ·)))
            (fun ns => (fAlle_scale hc hs _).1.symm) (fun ns => (fAlle_scale hc hs _).2) (-0) p.nmax 50 (by norm_num) _ 0
            (List.replicate (p.nmax - 0 + 1).toNat none) le_rfl
          exact ⟨this.1.symm, this.2⟩
      obtain ⟨h1, h2⟩ := hl
      unfold Proc.bind
      rw [h1]
      rcases hz : slicewiseEval (fun ns => fAlle (pairGeo T frac P) true (ns.map fun n : ℤ => p.deltaT * (n : ℝ))) 0 p.nmax 50 s with ⟨r1, s1⟩
      rw [hz] at h2
      simp only at h2
      subst h2
      cases r1 <;> exact ⟨rfl, rfl⟩
    · simp only [hp, if_false]
      exact ⟨trivial, rfl⟩
  unfold ensureF
  cases hf : s.fMats with
  | some f => exact ⟨rfl, hs, fun g hg => by simp only [Except.ok.injEq] at hg; rw [← hg]; exact hf⟩
  | none =>
    simp only [key.1]
    have k2 := key.2
    rcases hz : getFMatsubaras p 0 s with ⟨r1, s1⟩
    rw [hz] at k2
    simp only at k2
    subst k2
    cases r1 with
    | error e => exact ⟨trivial, hs, fun f hf => by simp at hf⟩
    | ok f => exact ⟨trivial, hs, fun g hg => by simp only [Except.ok.injEq] at hg; rw [← hg]⟩

theorem thermoSums_scale (d : ℝ) (n : ℤ) (f : List ℝ) : thermoSums (c⁻¹ * d) n f = (thermoSums d n f).map (c⁻¹ * ·) := by
  unfold thermoSums
  rw [List.map_map]
  refine List.map_congr_left fun i _ => ?_
  simp only [Function.comp_def]
  ring

/-- **C115, `free_energy`.** The free energy is divided by `c`, in every state of the object before `force` is called; the object is left
in the same state. -/
theorem C115_free_energy (hc : 0 < c) (hs : s.forceFlag = false) (ha : p.analyticN0 = true) (hg : p.geo = pairGeo T frac P) :
    freeEnergy (scaleFT c T frac P p) s = ((freeEnergy p s).1.map (List.map (c⁻¹ * ·)), (freeEnergy p s).2) := by
  obtain ⟨e, -⟩ := ensureF_scale (T := T) (frac := frac) (P := P) hc hs ha hg
  unfold freeEnergy Proc.bind
  rw [e]
  rcases ensureF p s with ⟨r1, s1⟩
  cases r1 with
  | error _ => rfl
  | ok f =>
    show (Except.ok (thermoSums (c⁻¹ * p.deltaT) p.maxstep f), s1) = _
    rw [thermoSums_scale]
    rfl

theorem npGradient_scale (hc : 0 < c) (f : List ℝ) (h : ℝ) : npGradient (f.map (c⁻¹ * ·)) (c⁻¹ * h) = npGradient f h := by
  have hc' := (inv_pos.mpr hc).ne'
  have g : ∀ i : ℕ, (f.map (c⁻¹ * ·)).getD i 0 = c⁻¹ * f.getD i 0 := by
    intro i
    rw [List.getD_eq_getElem?_getD, List.getD_eq_getElem?_getD, List.getElem?_map]
    cases f[i]? <;> simp
  have e : ∀ a b d : ℝ, (c⁻¹ * a - c⁻¹ * b) / (c⁻¹ * d) = (a - b) / d := fun a b d => by rw [← mul_sub, mul_div_mul_left _ _ hc']
  have e2 : ∀ a b d : ℝ, (c⁻¹ * a - c⁻¹ * b) / (2 * (c⁻¹ * d)) = (a - b) / (2 * d) := fun a b d => by
    rw [← mul_sub, show 2 * (c⁻¹ * d) = c⁻¹ * (2 * d) by ring, mul_div_mul_left _ _ hc']
  unfold npGradient
  simp only [List.length_map, g, e, e2]

/-- **C115, `entropy`.** The entropy has no unit. -/
theorem C115_entropy (hc : 0 < c) (hs : s.forceFlag = false) (ha : p.analyticN0 = true) (hg : p.geo = pairGeo T frac P) :
    entropy (scaleFT c T frac P p) s = entropy p s := by
  obtain ⟨e, hs', -⟩ := ensureF_scale (T := T) (frac := frac) (P := P) hc hs ha hg
  unfold entropy Proc.bind
  rw [e]
  rcases hz : ensureF p s with ⟨r1, s1⟩
  rw [hz] at hs'
  cases r1 with
  | error _ => rfl
  | ok f =>
    simp only
    rw [C115_free_energy hc hs' ha hg]
    rcases freeEnergy p s1 with ⟨r2, s2⟩
    cases r2 with
    | error _ => rfl
    | ok F =>
      show ((npGradient (F.map (c⁻¹ * ·)) (c⁻¹ * p.deltaT)).map _, s2) = _
      rw [npGradient_scale hc]

/-! ## Zero temperature -/

theorem pairAt_scale (hc : 0 < c) (k : ℝ) : pairAt T frac (scalePair c P) (c⁻¹ * k) = pairAt T frac P k := by
  have hk0 : c⁻¹ * k = 0 ↔ k = 0 := by simp [hc.ne']
  have := C115_mSumme hc T P [k]
  rw [List.map_cons, List.map_nil] at this
  unfold pairAt
  simp only [hk0, this, C115_mSumme_k0 hc]

/-- The upper limit of the integral in the other unit. -/
noncomputable def scaleUpper (c : ℝ) : Upper → Upper
  | .num b => .num (c⁻¹ * b)
  | .inf => .inf
  | .none => .none

open MeasureTheory Set in
/-- **C115, `e0`.** The energy at zero temperature is divided by `c`. -/
theorem C115_zero_temperature {q : Quad} {deltaT : ℝ} {nmax : ℤ} (hc : 0 < c) (h : PairOK P) (hq : q.Exact) {a : ℝ} (ha : 0 ≤ a) {b : Upper}
    (hb : ∀ x, b = .num x → a ≤ x) (hb' : b = .none → a ≤ nmax * deltaT) :
    e0 q (pairAt exactBes frac (scalePair c P)) (c⁻¹ * deltaT) nmax (c⁻¹ * a) (scaleUpper c b) =
      (e0 q (pairAt exactBes frac P) deltaT nmax a b).map (c⁻¹ * ·) := by
  have hc' := inv_pos.mpr hc
  have hi := pairVal_integrable h
  have hval : ∀ k, 0 < k → pairAt exactBes frac (scalePair c P) k = .ok (pairVal P (c * k)) := by
    intro k hk
    rw [← pairAt_ok h (frac := frac) (mul_pos hc hk), ← pairAt_scale (P := P) hc, inv_mul_cancel_left₀ hc.ne']
  have hint : IntegrableOn (fun k => pairVal P (c * k)) (Ioi 0) := by
    have := (integrableOn_Ioi_comp_mul_left_iff (pairVal P) 0 hc).mpr (by rwa [mul_zero])
    exact this
  have hfin : ∀ b, a ≤ b → q.fin (pairAt exactBes frac (scalePair c P)) (c⁻¹ * a) (c⁻¹ * b) = .ok (c⁻¹ * ∫ k in Ioo a b, pairVal P k) := by
    intro b hab
    have hle : c⁻¹ * a ≤ c⁻¹ * b := mul_le_mul_of_nonneg_left hab hc'.le
    rw [hq.fin _ _ _ _ hle (fun k hk _ => hval k (lt_of_le_of_lt (by positivity) hk)) (hint.mono_set fun k hk => lt_of_le_of_lt (by positivity) hk.1)]
    congr 1
    rw [← integral_Ioc_eq_integral_Ioo, ← integral_Ioc_eq_integral_Ioo, ← intervalIntegral.integral_of_le hle, ← intervalIntegral.integral_of_le hab,
      intervalIntegral.integral_comp_mul_left _ hc.ne', mul_inv_cancel_left₀ hc.ne', mul_inv_cancel_left₀ hc.ne', smul_eq_mul]
  rw [e0_value h hq ha hb hb']
  cases b with
  | num b => exact hfin b (hb b rfl)
  | inf =>
    show q.inf (pairAt exactBes frac (scalePair c P)) (c⁻¹ * a) = _
    rw [hq.inf _ _ _ (fun k hk => hval k (lt_of_le_of_lt (by positivity) hk)) (hint.mono_set (Ioi_subset_Ioi (by positivity)))]
    show _ = Except.ok (c⁻¹ * _)
    congr 1
    rw [integral_comp_mul_left_Ioi _ _ hc, mul_inv_cancel_left₀ hc.ne', smul_eq_mul]
  | none =>
    show q.fin (pairAt exactBes frac (scalePair c P)) (c⁻¹ * a) (nmax * (c⁻¹ * deltaT)) = _
    rw [show (nmax : ℝ) * (c⁻¹ * deltaT) = c⁻¹ * (nmax * deltaT) by ring]
    exact hfin _ (hb' rfl)

/-! ## Automatic parameters -/

/-- **C115, `get_lmax`.** The automatic cut-off depends on ratios of lengths only. -/
theorem C115_get_lmax (hc : 0 < c) (r1 r2 L prec : ℝ) (o : ℤ) : getLmax (c * r1) (c * r2) (c * L) prec o = getLmax r1 r2 L prec o := by
  have e1 : min (c * r1) (c * r2) = c * min r1 r2 := (mul_min_of_nonneg _ _ hc.le).symm
  have e2 : max (c * r1) (c * r2) = c * max r1 r2 := (mul_max_of_nonneg _ _ hc.le).symm
  have e3 : |c * max r1 r2 - c * L| - c * min r1 r2 = c * (|max r1 r2 - L| - min r1 r2) := by
    rw [← mul_sub, abs_mul, abs_of_pos hc]; ring
  unfold getLmax
  simp only [e1, e2, e3, mul_div_mul_left _ _ hc.ne', mul_eq_zero, hc.ne', false_or]

/-- **C115, `finiteT.__init__`.** So do the automatic number of frequencies and the number of temperatures. -/
theorem C115_init (hc : 0 < c) (deltaT Tmax r1 r2 L lmax : ℝ) (n : NMax) (ml ig an : Bool) (np : NProcs) :
    finiteTInit (c⁻¹ * deltaT) n (c⁻¹ * Tmax) (c * r1) (c * r2) (c * L) lmax ml ig an np = finiteTInit deltaT n Tmax r1 r2 L lmax ml ig an np := by
  have e1 : min (c * r1) (c * r2) = c * min r1 r2 := (mul_min_of_nonneg _ _ hc.le).symm
  have e2 : max (c * r1) (c * r2) = c * max r1 r2 := (mul_max_of_nonneg _ _ hc.le).symm
  have e3 : (if c * min r1 r2 + c * max r1 r2 > c * L then c * max r1 r2 - c * min r1 r2 - c * L else c * L - c * min r1 r2 - c * max r1 r2) =
      c * (if min r1 r2 + max r1 r2 > L then max r1 r2 - min r1 r2 - L else L - min r1 r2 - max r1 r2) := by
    simp only [← mul_add, gt_iff_lt, mul_lt_mul_iff_right₀ hc]
    split_ifs <;> ring
  have e4 : ∀ x : ℝ, c * x * (c⁻¹ * deltaT) = x * deltaT := fun x => by field_simp
  have key : autoNmax (c * r1) (c * r2) (c * L) (c⁻¹ * deltaT) lmax = autoNmax r1 r2 L deltaT lmax := by
    unfold autoNmax
    simp only [e1, e2, e3]
    generalize (if min r1 r2 + max r1 r2 > L then max r1 r2 - min r1 r2 - L else L - min r1 r2 - max r1 r2) = d
    have e5 : -(c * min r1 r2) / (c * d) = -min r1 r2 / d := by rw [neg_div, neg_div, mul_div_mul_left _ _ hc.ne']
    have e6 : ∀ x : ℝ, x * (c * d + c * min r1 r2) / (c * min r1 r2) = x * (d + min r1 r2) / min r1 r2 := fun x => by
      rw [← mul_add, show x * (c * (d + min r1 r2)) = c * (x * (d + min r1 r2)) by ring, mul_div_mul_left _ _ hc.ne']
    simp only [e4, e5, e6, mul_div_mul_left _ _ hc.ne', mul_eq_zero, inv_eq_zero, hc.ne', false_or]
  unfold finiteTInit
  simp only [mul_div_mul_left _ _ (inv_pos.mpr hc).ne', key, mul_eq_zero, inv_eq_zero, hc.ne', false_or]

/-- Perfect conductors in vacuum have no frequencies: the interaction of mirrors depends on ratios of lengths only. -/
theorem C115_mirrors (hc : 0 < c) (T : BesTable) (frac : ℝ → ℝ → ℝ) (P : PairIn) (h1 : P.mat1 = perfectConductor) (h2 : P.mat2 = perfectConductor)
    (h3 : P.mat3 = vacuum) (ks : List ℝ) :
    pairVals T { P with r1 := c * P.r1, r2 := c * P.r2, L := c * P.L } (ks.map (c⁻¹ * ·)) = pairVals T P ks ∧
    pairK0 frac { P with r1 := c * P.r1, r2 := c * P.r2, L := c * P.L } = pairK0 frac P := by
  have e : scalePair c P = { P with r1 := c * P.r1, r2 := c * P.r2, L := c * P.L } := by
    unfold scalePair
    rw [h1, h2, h3]
    simp [scaleMat, perfectConductor, vacuum]
  rw [← e]
  exact ⟨C115_mSumme hc T P ks, C115_mSumme_k0 hc frac P⟩

/-! ## Without `analytic_n0` -/

theorem freeEnergy_numeric {g : Geo} (ht : g.trace = false) {d x y : ℝ} (hd : d ≠ 0) (hx : g.vals [1e-10] = .ok [x]) (hy : g.vals [d] = .ok [y]) :
    (freeEnergy ⟨d, 1, 1, false, .int 0, g⟩ FT.fresh).1 = .ok [d * (0.5 * x + y)] := by
  have e1 : arange 0 (min (0 + 50 - 1) 1) = [0, 1] := by decide
  have hf : fAlle g false [d * 0, d * 1] FT.fresh = (.ok [0.5 * x, y], FT.fresh) := by
    simp [fAlle, FT.fresh, Proc.bind, Proc.pure, Geo.mSumme, ht, hx, hy]
  have hs : slicewiseEval (fun ns => fAlle g false (ns.map fun n : ℤ => d * (n : ℝ))) 0 1 50 FT.fresh = (.ok [some (0.5 * x), some y], FT.fresh) := by
    unfold slicewiseEval
    rw [dif_pos (by norm_num), if_neg (by norm_num), sliceLoop, dif_pos (by norm_num)]
    simp only [Proc.bind, e1, List.map_cons, List.map_nil, Int.cast_zero, Int.cast_one, hf]
    rw [show assignSlice (List.replicate (1 - 0 + 1 : ℤ).toNat none) (-0 + 0 : ℤ).toNat (min (0 + 50 - 1) 1 + 1 - 0 : ℤ).toNat [0.5 * x, y] =
      .ok [some (0.5 * x), some y] from rfl]
    simp only
    rw [sliceLoop, dif_neg (by norm_num)]
    rfl
  have hz : (NProcs.int 0).isZero := rfl
  have hm : (1 : ℤ).toNat = 1 := rfl
  simp only [freeEnergy, Proc.bind, ensureF, FT.fresh, getFMatsubaras, hz, if_true] at hs ⊢
  rw [hs]
  simp [allSome, Proc.pure, thermoSums, strideSum, hm, List.range_succ, Finset.sum_range_succ]

open Filter Topology in
/-- **C115: `analytic_n0=True` is needed.** Otherwise the zero frequency is replaced by the wavenumber `1e-10`, which is no ratio of lengths: for all
physical spheres whose response differs from that of the medium there the free energy depends on the unit of length. -/
theorem C115_needs_analytic_n0 (h : PairOK P) (hprec : P.precision ≤ 0) (hc1 : HasContrast P.mat1 P.mat3 1e-10) (hc2 : HasContrast P.mat2 P.mat3 1e-10)
    (hcc : EqualContrast P.mat1 P.mat2 P.mat3) {d : ℝ} (hd : 0 < d) :
    ∃ c > 0, ∃ F, (freeEnergy ⟨d, 1, 1, false, .int 0, pairGeo exactBes frac P⟩ FT.fresh).1 = .ok [F] ∧
      (freeEnergy (scaleFT c exactBes frac P ⟨d, 1, 1, false, .int 0, pairGeo exactBes frac P⟩) FT.fresh).1 ≠ .ok [c⁻¹ * F] := by
  have hv : ∀ k, 0 < k → pairVals exactBes P [k] = .ok [pairSum P k] := fun k hk => by
    have := pairVals_sum h hprec (ks := [k]) (by simp) (by simpa using hk)
    simpa using this
  have hneg := (pairSum_nonpos h hcc (k := 1e-10) (by norm_num)).2 hc1 hc2
  have hlim : Tendsto (fun c : ℝ => pairSum P (c * 1e-10)) atTop (𝓝 0) := by
    have hb : ∀ᶠ c : ℝ in atTop, |pairSum P (c * 1e-10)| ≤ freeC P.r1 P.r2 P.L * sharpExp (c * 1e-10 * (P.L - (P.r1 + P.r2))) := by
      filter_upwards [eventually_gt_atTop 0] with c hc
      have hk : 0 < c * 1e-10 := by positivity
      rw [← pairVal_sum h hprec hk]
      exact (pairVal_val h hk).1
    refine squeeze_zero_norm' (a := fun c : ℝ => freeC P.r1 P.r2 P.L * sharpExp (c * 1e-10 * (P.L - (P.r1 + P.r2)))) (by simpa using hb) ?_
    have : Tendsto (fun c : ℝ => c * 1e-10 * (P.L - (P.r1 + P.r2))) atTop atTop :=
      (tendsto_id.atTop_mul_const (by norm_num)).atTop_mul_const (sub_pos.mpr h.sep)
    simpa using (sharpExp_zero.comp this).const_mul (freeC P.r1 P.r2 P.L)
  obtain ⟨c, hc, hcv⟩ := ((eventually_gt_atTop (0 : ℝ)).and (hlim.eventually_const_lt hneg)).exists
  refine ⟨c, hc, _, freeEnergy_numeric rfl hd.ne' (hv _ (by norm_num)) (hv d hd), ?_⟩
  have hx : pairVals exactBes (scalePair c P) [1e-10] = .ok [pairSum P (c * 1e-10)] := by
    have := C115_mSumme hc exactBes P [c * 1e-10]
    rw [hv _ (by positivity), List.map_cons, List.map_nil, inv_mul_cancel_left₀ hc.ne'] at this
    exact this
  have hy : pairVals exactBes (scalePair c P) [c⁻¹ * d] = .ok [pairSum P d] := by
    have := C115_mSumme hc exactBes P [d]
    rw [hv _ hd] at this
    exact this
  have e := freeEnergy_numeric (g := pairGeo exactBes frac (scalePair c P)) rfl (mul_pos (inv_pos.mpr hc) hd).ne' hx hy
  unfold scaleFT
  simp only
  rw [e]
  intro hh
  simp only [Except.ok.injEq, List.cons.injEq, and_true, mul_assoc] at hh
  have h1 := mul_left_cancel₀ (inv_pos.mpr hc).ne' hh
  have h2 := mul_left_cancel₀ hd.ne' h1
  linarith

/-! ## Examples -/

theorem goldPair_scaled : scalePair 2 goldPair ≠ goldPair := by
  intro h
  have := congrArg PairIn.r1 h
  simp [scalePair, goldPair] at this

/-- Gold spheres of radii 2 and 8 at distance 12 with half the plasma frequency: the values at half the wavenumbers are those of radii 1, 4, distance 6. -/
example : ∃ vs : List ℝ, vs.length = 2 ∧ (∀ v ∈ vs, v < 0) ∧ pairVals exactBes goldPair [1, 2] = .ok vs ∧
    pairVals exactBes (scalePair 2 goldPair) [2⁻¹ * 1, 2⁻¹ * 2] = .ok vs := by
  have e := C115_mSumme (c := 2) (by norm_num) exactBes goldPair [1, 2]
  have hk : ∀ k ∈ ([1, 2] : List ℝ), 0 < k := by
    intro k hk
    simp only [List.mem_cons, List.not_mem_nil, or_false] at hk
    rcases hk with rfl | rfl <;> norm_num
  rw [pairVals_sum goldPair_ok le_rfl (by simp) hk] at e
  refine ⟨_, by simp, fun v hv => ?_, pairVals_sum goldPair_ok le_rfl (by simp) hk, e⟩
  obtain ⟨k, hkm, rfl⟩ := List.mem_map.mp hv
  exact (pairSum_nonpos goldPair_ok (equalContrast_same goldPair_ok.m1 goldPair_ok.m3) (hk k hkm)).2 (gold_contrast (hk k hkm)) (gold_contrast (hk k hkm))

/-- Free energy of the gold spheres in the two units. -/
example : ∃ F : List ℝ, F.length = 200 ∧
    (freeEnergy ⟨0.01, 500, 200, true, .int 0, pairGeo exactBes (fun _ _ => 0) goldPair⟩ FT.fresh).1 = .ok F ∧
    (freeEnergy (scaleFT 2 exactBes (fun _ _ => 0) goldPair ⟨0.01, 500, 200, true, .int 0, pairGeo exactBes (fun _ _ => 0) goldPair⟩) FT.fresh).1 =
      .ok (F.map (2⁻¹ * ·)) := by
  obtain ⟨z, hz, -⟩ := C100_mSumme_k0 goldPair_ok (fun _ _ => 0)
  obtain ⟨F, hF, hl, -⟩ := free_values (p := ⟨0.01, 500, 200, true, .int 0, pairGeo exactBes (fun _ _ => 0) goldPair⟩) goldPair_ok hz rfl rfl rfl
    (by norm_num) (by norm_num)
  refine ⟨F, hl, hF, ?_⟩
  rw [C115_free_energy (by norm_num) rfl rfl rfl, hF]
  rfl

/-- The hypotheses of `C115_needs_analytic_n0` hold for the gold spheres. -/
example : ∃ c > 0, ∃ F, (freeEnergy ⟨0.01, 1, 1, false, .int 0, pairGeo exactBes (fun _ _ => 0) goldPair⟩ FT.fresh).1 = .ok [F] ∧
    (freeEnergy (scaleFT c exactBes (fun _ _ => 0) goldPair ⟨0.01, 1, 1, false, .int 0, pairGeo exactBes (fun _ _ => 0) goldPair⟩) FT.fresh).1 ≠
      .ok [c⁻¹ * F] :=
  C115_needs_analytic_n0 goldPair_ok le_rfl (gold_contrast (by norm_num)) (gold_contrast (by norm_num))
    (equalContrast_same goldPair_ok.m1 goldPair_ok.m3) (by norm_num)

/-- Energy at zero temperature in the two units. -/
example : ∃ E, e0 exactQuad (pairAt exactBes (fun _ _ => 0) goldPair) 0 0 0 .inf = .ok E ∧
    e0 exactQuad (pairAt exactBes (fun _ _ => 0) (scalePair 2 goldPair)) (2⁻¹ * 0) 0 (2⁻¹ * 0) .inf = .ok (2⁻¹ * E) := by
  have h := C115_zero_temperature (c := 2) (frac := fun _ _ => 0) (deltaT := 0) (nmax := 0) (by norm_num) goldPair_ok exactQuad_exact le_rfl (b := .inf)
    (by simp) (by simp)
  rw [e0_value goldPair_ok exactQuad_exact le_rfl (by simp) (by simp)] at h
  exact ⟨_, e0_value goldPair_ok exactQuad_exact le_rfl (by simp) (by simp), h⟩

end CasSph
