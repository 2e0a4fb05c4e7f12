import Verif.Lemmas.Thermo
import Mathlib.Tactic.NormNum
import Mathlib.Tactic.FieldSimp

/-!
# Properties of `thermodynamics.py`: C23 (the part about `finiteT`), C24 - C31

`Geo` stands for the geometry object: its values are arbitrary functions, so every theorem holds for
whatever numbers the scattering code produces.
-/

namespace CasSph

/-- The geometry evaluates: every list of wavenumbers yields the contributions `φ k`, frequency by
frequency, and the block matrices can be computed. -/
structure Evaluates (g : Geo) (φ : ℝ → ℝ) : Prop where
  vals : ∀ ks, ks ≠ [] → g.vals ks = .ok (ks.map φ)
  blocks : ∀ ks, g.blocks0 ks = .ok ()

/-- An example geometry used beside the theorems. -/
noncomputable def exGeo : Geo := ⟨false, fun _ => .ok (), fun ks => .ok (ks.map fun k => -Real.exp (-k)), .ok (-1)⟩

theorem exGeo_evaluates : Evaluates exGeo (fun k => -Real.exp (-k)) := ⟨fun _ _ => rfl, fun _ => rfl⟩

/-! ## C26: `slicewise_eval` -/

/-- C26: with an elementwise function the slices make no difference: the result is
`[f nmin, …, f nmax]`, for every positive step size. -/
theorem C26_slicewise_eval {σ : Type} (func : List ℤ → Proc σ (List ℝ)) (f : ℤ → ℝ)
    (hf : ∀ ns s, func ns s = (.ok (ns.map f), s)) (nmin nmax stepsize : ℤ) (hs : 1 ≤ stepsize)
    (hn : nmin ≤ nmax + 1) (s : σ) :
    ∃ r : List (Option ℝ), slicewiseEval func nmin nmax stepsize s = (.ok r, s) ∧
      (r.length : ℤ) = nmax + 1 - nmin ∧ ∀ n : ℤ, nmin ≤ n → n ≤ nmax →
        r[(n - nmin).toNat]? = some (some (f n)) := by
  refine ⟨_, slicewiseEval_elementwise (by omega) hn s fun a _ _ _ => hf _ s, ?_, ?_⟩
  · simp only [List.length_map, arange_length]; omega
  · intro n h1 h2
    unfold arange
    rw [List.map_map, List.map_map, List.getElem?_map, List.getElem?_range (by omega)]
    simp only [Option.map_some, Function.comp]
    congr 3; omega

example : ∃ func : List ℤ → Proc Unit (List ℝ), ∀ ns s, func ns s = (.ok (ns.map fun n : ℤ => (n : ℝ) ^ 2), s) :=
  ⟨fun ns => Proc.pure (ns.map fun n : ℤ => (n : ℝ) ^ 2), fun _ _ => rfl⟩

/-- C26: a step size that is not positive is a ValueError, whatever the function. -/
theorem C26_bad_stepsize {σ : Type} (func : List ℤ → Proc σ (List ℝ)) (nmin nmax stepsize : ℤ)
    (hs : stepsize ≤ 0) (s : σ) : slicewiseEval func nmin nmax stepsize s = (.error .valueError, s) := by
  unfold slicewiseEval
  rw [dif_neg (by omega)]; rfl

/-- C26: a negative length is a ValueError of `np.empty`. -/
theorem C26_negative_length {σ : Type} (func : List ℤ → Proc σ (List ℝ)) (nmin nmax stepsize : ℤ)
    (hn : nmax + 1 < nmin) (s : σ) : slicewiseEval func nmin nmax stepsize s = (.error .valueError, s) := by
  unfold slicewiseEval
  split_ifs with h1 h2
  · rfl
  · omega
  · rfl

/-- C26: every entry of a returned array is initialised and the array has the full length, even for
functions that change the object or return arrays of other lengths. -/
theorem C26_initialised {σ : Type} (func : List ℤ → Proc σ (List ℝ)) (nmin nmax stepsize : ℤ) (s s' : σ)
    (r : List (Option ℝ)) (h : slicewiseEval func nmin nmax stepsize s = (.ok r, s')) :
    (r.length : ℤ) = nmax + 1 - nmin ∧ ∀ x ∈ r, x ≠ none := by
  unfold slicewiseEval at h
  split_ifs at h with h1 h2
  · cases h
  · obtain ⟨Q, rfl, hQ⟩ := sliceLoop_initialised (n0 := nmin) (nmax := nmax) h1 (nmax - nmin + 1).toNat
      nmin [] s le_rfl (by congr 1; omega) (by simp) (by simpa using h)
    refine ⟨?_, ?_⟩
    · rw [List.length_map, hQ, List.length_nil]; omega
    · intro x hx
      rw [List.mem_map] at hx
      obtain ⟨y, _, rfl⟩ := hx
      simp
  · cases h

/-! ## C30: `F_alle` -/

/-- C30: with the analytic zero-frequency term, wavenumbers `[0, k₁, …]` give
`[1/2 · mSumme_k0, mSumme(k₁, …)…]`. -/
theorem C30_zero_analytic (g : Geo) (φ : ℝ → ℝ) (hg : Evaluates g φ) (z : ℝ) (hz : g.k0 = .ok z)
    (ks : List ℝ) (s : FT) (h1 : s.forceFlag = false) (h2 : s.geoFlag = false) :
    fAlle g true (0 :: ks) s = (.ok (1 / 2 * z :: ks.map φ), s) := by
  rw [fAlle_zero_analytic g hz hg.vals ks h1 h2]
  norm_num

/-- C30: without it the zero-frequency value is half the value at `1e-10`. -/
theorem C30_zero_numeric (g : Geo) (φ : ℝ → ℝ) (hg : Evaluates g φ)
    (ks : List ℝ) (hks : ks ≠ []) (s : FT) (h2 : s.geoFlag = false) :
    fAlle g false (0 :: ks) s = (.ok (1 / 2 * φ 1e-10 :: ks.map φ), s) := by
  rw [fAlle_zero_numeric g false hg.vals hks (by simp) h2]
  norm_num

/-- C30: a non-zero first wavenumber gives `mSumme` unchanged. -/
theorem C30_nonzero (g : Geo) (φ : ℝ → ℝ) (hg : Evaluates g φ) (a : Bool) (k : ℝ) (hk : k ≠ 0)
    (ks : List ℝ) (s : FT) (h1 : s.forceFlag = false) (h2 : s.geoFlag = false) :
    fAlle g a (k :: ks) s = (.ok ((k :: ks).map φ), s) := fAlle_pos g a hg.vals hk ks h1 h2

/-- C30: exceptions of the zero-frequency evaluation are passed on (NotImplementedError for stratified
spheres, for example). -/
theorem C30_zero_error (g : Geo) (e : PyErr) (hz : g.k0 = .error e) (ks : List ℝ) (s : FT)
    (h1 : s.forceFlag = false) (h2 : s.geoFlag = false) :
    fAlle g true (0 :: ks) s = (.error e, s) := by
  simp only [fAlle]
  rw [if_pos trivial, if_pos ⟨h1, trivial⟩, bind_error (e := e) (s' := s) (by simp [Geo.mSummeK0, h2, hz])]

/-- C30: without the analytic term `F_alle([0])` raises IndexError. -/
theorem C30_single_zero (g : Geo) (φ : ℝ → ℝ) (hg : Evaluates g φ) (s : FT) (h2 : s.geoFlag = false) :
    (fAlle g false [0] s).1 = .error .indexError := by
  simp only [fAlle]
  rw [if_pos trivial, if_neg (by simp),
    bind_ok (mSumme_ok g (by simp) (.inr h2) |>.trans (by rw [hg.vals _ (by simp)]))]
  simp [Proc.bind, Geo.mSumme]

/-- C30: so `nmax = 0` cannot be evaluated without the analytic zero-frequency term. -/
theorem C30_nmax_zero (p : FTParams) (φ : ℝ → ℝ) (hg : Evaluates p.geo φ) (hp : p.nprocs.isZero)
    (ha : p.analyticN0 = false) (hn : p.nmax = 0) :
    (freeEnergy p FT.fresh).1 = .error .indexError := by
  have h := C30_single_zero p.geo φ hg FT.fresh rfl
  unfold freeEnergy ensureF getFMatsubaras slicewiseEval
  rw [if_pos hp, dif_pos (by norm_num), if_neg (by omega), hn, ha]
  rcases hf : fAlle p.geo false [0] FT.fresh with ⟨r, s'⟩
  rw [hf] at h
  dsimp only at h
  subst h
  have := sliceLoop_step_error (func := fun ns => fAlle p.geo false (ns.map fun n : ℤ => p.deltaT * (n : ℝ)))
    (noffset := -0) (nmax := 0) (stepsize := 50) (hs := by norm_num) (nmin := 0)
    (result := List.replicate (0 - 0 + 1 : ℤ).toNat none) (s := FT.fresh) (s' := s') (e := .indexError) le_rfl
    (by simpa [arange] using hf)
  simp only [FT.fresh, Proc.bind] at this ⊢
  rw [this]

example : ∃ s : FT, s.forceFlag = false ∧ s.geoFlag = false := ⟨FT.fresh, rfl, rfl⟩
example : ∃ g φ, Evaluates g φ ∧ g.k0 = .ok (-1) := ⟨exGeo, _, exGeo_evaluates, rfl⟩

/-! ## C27, C28: the Matsubara sum -/

/-- The Matsubara array of an object without flags and analytic zero-frequency term. -/
theorem getF_analytic (p : FTParams) (φ : ℝ → ℝ) (hg : Evaluates p.geo φ) (z : ℝ) (hz : p.geo.k0 = .ok z)
    (hp : p.nprocs.isZero) (ha : p.analyticN0 = true) (hT : 0 < p.deltaT) (N : ℕ) (hN : p.nmax = N)
    {s : FT} (h1 : s.forceFlag = false) (h2 : s.geoFlag = false) :
    getFMatsubaras p 0 s = (.ok ((arange 0 N).map (mTerm (0.5 * z) φ p.deltaT)), s) := by
  rw [← hN]
  refine getF_elementwise p hp hT.ne' (by omega) _ φ s (fun rest _ => ?_) fun _ k rest hk => ?_
  · rw [ha]; exact fAlle_zero_analytic p.geo hz hg.vals rest h1 h2
  · exact fAlle_pos p.geo _ hg.vals hk rest h1 h2

theorem getF_numeric (p : FTParams) (φ : ℝ → ℝ) (hg : Evaluates p.geo φ)
    (hp : p.nprocs.isZero) (hT : 0 < p.deltaT) (N : ℕ) (hN : p.nmax = N) (hN1 : 1 ≤ N)
    {s : FT} (h1 : ¬ (s.forceFlag = false ∧ p.analyticN0 = true)) (h50 : s.forceFlag = false ∨ N < 50)
    (h2 : s.geoFlag = false) :
    getFMatsubaras p 0 s = (.ok ((arange 0 N).map (mTerm (0.5 * φ 1e-10) φ p.deltaT)), s) := by
  rw [← hN]
  refine getF_elementwise p hp hT.ne' (by omega) _ φ s (fun rest h => ?_) fun h k rest hk => ?_
  · exact fAlle_zero_numeric p.geo _ hg.vals (fun hr => by have := h hr; omega) h1 h2
  · exact fAlle_pos p.geo _ hg.vals hk rest (h50.resolve_right (by omega)) h2

theorem thermoSums_spec (dT : ℝ) (hT : 0 < dT) (m : ℤ) (N : ℕ) (c : ℝ) (φ : ℝ → ℝ) :
    thermoSums dT m ((arange 0 N).map (mTerm c φ dT)) =
      (List.range m.toNat).map fun i : ℕ => Spec.matsubaraSum c φ ((i + 1 : ℕ) * dT) (N * dT) := by
  unfold thermoSums
  refine List.map_congr_left fun i _ => ?_
  exact thermoSum_eq_spec hT N (i + 1) (Nat.succ_pos i) c φ

/-- C27: `free_energy()[i-1]` is the Matsubara sum at `T_i = i·deltaT` over all wavenumbers up to
`nmax·deltaT`, the zero-frequency value with weight one half; `i = 1 … maxstep`. -/
theorem C27_free_energy (p : FTParams) (φ : ℝ → ℝ) (hg : Evaluates p.geo φ) (z : ℝ) (hz : p.geo.k0 = .ok z)
    (hp : p.nprocs.isZero) (ha : p.analyticN0 = true) (hT : 0 < p.deltaT) (N : ℕ) (hN : p.nmax = N) :
    ∃ F : List ℝ, (freeEnergy p FT.fresh).1 = .ok F ∧ F.length = p.maxstep.toNat ∧
      ∀ i : ℕ, 1 ≤ i → (i : ℤ) ≤ p.maxstep →
        F[i - 1]? = some (Spec.matsubaraSum (1 / 2 * z) φ (i * p.deltaT) (N * p.deltaT)) := by
  refine ⟨thermoSums p.deltaT p.maxstep ((arange 0 N).map (mTerm (0.5 * z) φ p.deltaT)), ?_, ?_, ?_⟩
  · have := getF_analytic p φ hg z hz hp ha hT N hN (s := FT.fresh) rfl rfl
    unfold freeEnergy ensureF
    simp only [Proc.bind, FT.fresh] at this ⊢
    rw [this]
    rfl
  · simp [thermoSums]
  · intro i h1 h2
    rw [thermoSums_spec _ hT, List.getElem?_map, List.getElem?_range (by omega)]
    simp only [Option.map_some, Nat.sub_add_cancel h1]
    norm_num

/-- C27 without the analytic zero-frequency term (`nmax ≥ 1`): the zero-frequency value is the one at
`1e-10`. -/
theorem C27_free_energy_numeric (p : FTParams) (φ : ℝ → ℝ) (hg : Evaluates p.geo φ)
    (hp : p.nprocs.isZero) (ha : p.analyticN0 = false) (hT : 0 < p.deltaT) (N : ℕ) (hN : p.nmax = N)
    (hN1 : 1 ≤ N) :
    ∃ F : List ℝ, (freeEnergy p FT.fresh).1 = .ok F ∧ F.length = p.maxstep.toNat ∧
      ∀ i : ℕ, 1 ≤ i → (i : ℤ) ≤ p.maxstep →
        F[i - 1]? = some (Spec.matsubaraSum (1 / 2 * φ 1e-10) φ (i * p.deltaT) (N * p.deltaT)) := by
  refine ⟨thermoSums p.deltaT p.maxstep ((arange 0 N).map (mTerm (0.5 * φ 1e-10) φ p.deltaT)), ?_, ?_, ?_⟩
  · have := getF_numeric p φ hg hp hT N hN hN1 (s := FT.fresh) (by simp [ha]) (.inl rfl) rfl
    unfold freeEnergy ensureF
    simp only [Proc.bind, FT.fresh] at this ⊢
    rw [this]
    rfl
  · simp [thermoSums]
  · intro i h1 h2
    rw [thermoSums_spec _ hT, List.getElem?_map, List.getElem?_range (by omega)]
    simp only [Option.map_some, Nat.sub_add_cancel h1]
    norm_num

/-- C27 for an arbitrary geometry (whose values need not be computed frequency by frequency): whenever a
fresh object returns a free energy, the terms are an array `f` of length `nmax + 1` and
`free_energy()[i-1] = T_i (f₀ + f_i + f_{2i} + …)` up to the end of the array. -/
theorem C27_any_geometry (p : FTParams) (F : List ℝ) (s' : FT) (h : freeEnergy p FT.fresh = (.ok F, s')) :
    ∃ f : List ℝ, s'.fMats = some f ∧ (f.length : ℤ) = p.nmax + 1 ∧ F.length = p.maxstep.toNat ∧
      ∀ i : ℕ, 1 ≤ i → (i : ℤ) ≤ p.maxstep → 0 ≤ p.nmax →
        F[i - 1]? = some (i * p.deltaT * ∑ j ∈ Finset.range (p.nmax.toNat / i + 1), f.getD (j * i) 0) := by
  unfold freeEnergy ensureF at h
  simp only [Proc.bind] at h
  rcases hf : getFMatsubaras p 0 FT.fresh with ⟨r, s1⟩
  cases r with
  | error e =>
    exfalso
    simp only [FT.fresh] at h hf
    rw [hf] at h
    cases h
  | ok f =>
    have hlen : (f.length : ℤ) = p.nmax + 1 := by
      unfold getFMatsubaras at hf
      split_ifs at hf
      · unfold Proc.bind at hf
        split at hf
        · cases hf
        · rename_i q s2 hq
          obtain ⟨h1, h2⟩ := C26_initialised _ _ _ _ _ _ _ hq
          have : ∀ (l : List (Option ℝ)) (r : List ℝ), allSome l = .ok r → r.length = l.length := by
            intro l
            induction l with
            | nil => intro r h; cases h; rfl
            | cons x l ih =>
              intro r h
              cases x with
              | none => cases h
              | some y =>
                unfold allSome at h
                split at h
                · cases h
                · rename_i r' hr'
                  cases h
                  simp [ih r' hr']
          have h3 := congrArg Prod.fst hf
          dsimp only at h3
          rw [this _ _ h3, h1]; ring
      · cases hf
    simp only [FT.fresh] at h hf
    rw [hf] at h
    simp only [Proc.pure, Prod.mk.injEq, Except.ok.injEq] at h
    obtain ⟨rfl, rfl⟩ := h
    refine ⟨f, rfl, hlen, by simp [thermoSums], fun i h1 h2 h3 => ?_⟩
    rw [thermoSums, List.getElem?_map, List.getElem?_range (by omega)]
    simp only [Option.map_some, Nat.sub_add_cancel h1]
    rw [strideSum_eq (N := p.nmax.toNat) h1 (by omega), mul_comm p.deltaT]

noncomputable def exFT : FTParams := ⟨1 / 10, 120, 7, true, .int 0, exGeo⟩

/-- An object to which C27 applies: 121 frequencies (three slices) and 7 temperatures. -/
example : ∃ F : List ℝ, (freeEnergy exFT FT.fresh).1 = .ok F ∧ F.length = 7 := by
  obtain ⟨F, h1, h2, _⟩ := C27_free_energy exFT _ exGeo_evaluates (-1) rfl rfl rfl (by norm_num [exFT]) 120 rfl
  exact ⟨F, h1, h2⟩

/-- C28: the free energy at `T = i·deltaT` on a grid of spacing `deltaT` with `nmax` frequencies equals the
first grid point of a calculation with spacing `i·deltaT` and `⌊nmax/i⌋` frequencies. -/
theorem C28_coarse_grid (p q : FTParams) (φ : ℝ → ℝ) (z : ℝ) (hg : Evaluates p.geo φ) (hz : p.geo.k0 = .ok z)
    (hgeo : q.geo = p.geo) (hp : p.nprocs.isZero) (hq : q.nprocs.isZero) (ha : p.analyticN0 = true)
    (hb : q.analyticN0 = true) (hT : 0 < p.deltaT) (N : ℕ) (hN : p.nmax = N) (i : ℕ) (hi : 1 ≤ i)
    (him : (i : ℤ) ≤ p.maxstep) (hqT : q.deltaT = i * p.deltaT) (hqN : q.nmax = (N / i : ℕ))
    (hqm : 1 ≤ q.maxstep) :
    ∃ F G : List ℝ, (freeEnergy p FT.fresh).1 = .ok F ∧ (freeEnergy q FT.fresh).1 = .ok G ∧
      ∃ v, F[i - 1]? = some v ∧ G[0]? = some v := by
  have hi' : (0 : ℝ) < i := by exact_mod_cast hi
  obtain ⟨F, h1, _, h2⟩ := C27_free_energy p φ hg z hz hp ha hT N hN
  obtain ⟨G, h3, _, h4⟩ := C27_free_energy q φ (hgeo ▸ hg) z (hgeo ▸ hz) hq hb (by rw [hqT]; positivity)
    (N / i) hqN
  refine ⟨F, G, h1, h3, _, h2 i hi him, ?_⟩
  rw [h4 1 le_rfl hqm, hqT]
  unfold Spec.matsubaraSum
  have e1 : ⌊((N / i : ℕ) : ℝ) * (i * p.deltaT) / ((1 : ℕ) * (i * p.deltaT))⌋₊ = N / i := by
    rw [Nat.cast_one, one_mul, mul_div_assoc, div_self (by positivity), mul_one, Nat.floor_natCast]
  have e2 : ⌊(N : ℝ) * p.deltaT / (i * p.deltaT)⌋₊ = N / i := by
    rw [mul_div_mul_right _ _ hT.ne', Nat.floor_div_eq_div]
  rw [e1, e2]
  simp only [Nat.cast_one, one_mul]

example : ∃ p q : FTParams, Evaluates p.geo (fun k => -Real.exp (-k)) ∧ q.geo = p.geo ∧ q.deltaT = (3 : ℕ) * p.deltaT ∧
    q.nmax = (121 / 3 : ℕ) ∧ (3 : ℤ) ≤ p.maxstep ∧ 1 ≤ q.maxstep :=
  ⟨exFT, { exFT with deltaT := (3 : ℕ) * exFT.deltaT, nmax := 40 }, exGeo_evaluates, rfl, rfl, rfl,
    by norm_num [exFT], by norm_num [exFT]⟩

/-! ## C24: repeatability -/

/-- Objects reached by `free_energy` / `entropy` calls: the cache is empty or holds the array a fresh
object computes. -/
def GoodFT (p : FTParams) (s : FT) : Prop :=
  s = FT.fresh ∨ ∃ f, getFMatsubaras p 0 FT.fresh = (.ok f, FT.fresh) ∧ s = { FT.fresh with fMats := some f }

theorem ensureF_good (p : FTParams) (s : FT) (h : GoodFT p s) :
    (ensureF p s).1 = (getFMatsubaras p 0 FT.fresh).1 ∧ GoodFT p (ensureF p s).2 ∧
      ∀ f, (ensureF p s).1 = .ok f → (ensureF p s).2.fMats = some f := by
  have hst := getF_state p 0 (s := FT.fresh) rfl rfl
  rcases h with rfl | ⟨f, hf, rfl⟩
  · rcases hg : getFMatsubaras p 0 FT.fresh with ⟨r, s1⟩
    rw [hg] at hst
    dsimp only at hst
    subst hst
    unfold ensureF
    simp only [FT.fresh] at hg ⊢
    rw [hg]
    cases r with
    | error e => exact ⟨rfl, .inl rfl, fun f h => by cases h⟩
    | ok f => exact ⟨rfl, .inr ⟨f, hg, rfl⟩, fun f' h => by cases h; rfl⟩
  · rw [hf]
    exact ⟨rfl, .inr ⟨f, hf, rfl⟩, fun f' h => by cases h; rfl⟩

theorem freeEnergy_eq (p : FTParams) (s : FT) :
    freeEnergy p s = ((ensureF p s).1.map (thermoSums p.deltaT p.maxstep), (ensureF p s).2) := by
  unfold freeEnergy Proc.bind
  rcases ensureF p s with ⟨_ | _, s1⟩ <;> rfl

theorem ensureF_twice (p : FTParams) (s : FT) {f : List ℝ} (h : (ensureF p s).1 = .ok f) :
    ensureF p (ensureF p s).2 = (.ok f, (ensureF p s).2) := by
  unfold ensureF at h ⊢
  cases hs : s.fMats with
  | some g => rw [hs] at h; simp_all
  | none =>
    rw [hs] at h
    rcases hg : getFMatsubaras p 0 s with ⟨_ | g, s1⟩
    · rw [hg] at h; cases h
    · rw [hg] at h
      dsimp only at h ⊢
      cases h
      rfl

theorem entropy_eq (p : FTParams) (s : FT) :
    entropy p s = ((freeEnergy p s).1.bind fun F => (npGradient F p.deltaT).map fun l => l.map (- ·),
      (freeEnergy p s).2) := by
  rw [freeEnergy_eq]
  unfold entropy Proc.bind
  have h2 := fun f => ensureF_twice p s (f := f)
  rcases h : ensureF p s with ⟨_ | f, s1⟩
  · rfl
  · rw [h] at h2
    dsimp only at h2 ⊢
    rw [freeEnergy_eq, h2 f rfl]
    rfl

/-- C24: after every sequence of `free_energy()` and `entropy()` calls, a further call returns (or raises)
exactly what it does on a fresh object. -/
theorem C24_repeatable (p : FTParams) (h : List FTCall) (hh : ∀ c ∈ h, c = .freeEnergy ∨ c = .entropy)
    (c : FTCall) (hc : c = .freeEnergy ∨ c = .entropy) :
    (c.proc p (afterCalls p h FT.fresh)).1 = (c.proc p FT.fresh).1 := by
  have key : ∀ (s : FT) (c : FTCall), GoodFT p s → (c = .freeEnergy ∨ c = .entropy) →
      (c.proc p s).1 = (c.proc p FT.fresh).1 ∧ GoodFT p (c.proc p s).2 := by
    intro s c hs hc
    obtain ⟨e1, e2, -⟩ := ensureF_good p s hs
    obtain ⟨f1, f2, -⟩ := ensureF_good p FT.fresh (.inl rfl)
    rcases hc with rfl | rfl
    · simp only [FTCall.proc, freeEnergy_eq, e1, f1, true_and]; exact e2
    · simp only [FTCall.proc, entropy_eq, freeEnergy_eq, e1, f1, true_and]; exact e2
  have inv : ∀ (h : List FTCall) (s : FT), (∀ c ∈ h, c = .freeEnergy ∨ c = .entropy) → GoodFT p s → GoodFT p (afterCalls p h s) := by
    intro h
    induction h with
    | nil => intro s _ hs; exact hs
    | cons c cs ih =>
      intro s hcs hs
      exact ih _ (fun c' hc' => hcs c' (List.mem_cons_of_mem _ hc')) (key s c hs (hcs c List.mem_cons_self)).2
  exact (key _ c (inv h _ hh (.inl rfl)) hc).1

example : ∃ h : List FTCall, h.length = 3 ∧ ∀ c ∈ h, c = .freeEnergy ∨ c = .entropy :=
  ⟨[.freeEnergy, .entropy, .freeEnergy], rfl, by simp⟩

/-! ## C29: entropy -/

theorem npGradient_spec {F : List ℝ} {h : ℝ} (hF : 2 ≤ F.length) :
    ∃ S, npGradient F h = .ok S ∧ Spec.IsNegGradient F (S.map (- ·)) h := by
  refine ⟨_, if_neg (by omega), ?_, ?_, ?_, ?_⟩
  · simp
  · intro s f0 f1 h1 h2 h3
    rw [List.map_map, List.getElem?_map, List.getElem?_range (by omega)] at h1
    simp only [Option.map_some, Function.comp, Option.some.injEq] at h1
    rw [← h1, if_pos trivial, List.getD_eq_getElem?_getD, List.getD_eq_getElem?_getD, h2, h3]
    rfl
  · intro i s f0 f1 h1 h2 h3
    have hi : i + 2 < F.length := by
      by_contra hc
      rw [List.getElem?_eq_none (by omega)] at h3; cases h3
    rw [List.map_map, List.getElem?_map, List.getElem?_range (by omega)] at h1
    simp only [Option.map_some, Function.comp, Option.some.injEq] at h1
    rw [← h1, if_neg (by omega), if_neg (by omega), List.getD_eq_getElem?_getD,
      List.getD_eq_getElem?_getD, Nat.add_sub_cancel, h2, h3]
    rfl
  · intro i s f0 f1 hi h1 h2 h3
    rw [List.map_map, List.getElem?_map, List.getElem?_range (by omega)] at h1
    simp only [Option.map_some, Function.comp, Option.some.injEq] at h1
    rw [← h1, if_neg (by omega), if_pos (by omega), List.getD_eq_getElem?_getD,
      List.getD_eq_getElem?_getD, Nat.add_sub_cancel, h2, h3]
    rfl

/-- C29: in every state, if `free_energy()` gives `F` on at least two temperatures, `entropy()` gives minus
its finite-difference derivative. -/
theorem C29_entropy (p : FTParams) (s s' : FT) (F : List ℝ) (hF : freeEnergy p s = (.ok F, s'))
    (h2 : 2 ≤ F.length) :
    ∃ S, entropy p s = (.ok S, s') ∧ Spec.IsNegGradient F S p.deltaT := by
  obtain ⟨S, h3, h4⟩ := npGradient_spec (F := F) (h := p.deltaT) h2
  refine ⟨_, ?_, h4⟩
  rw [entropy_eq, hF]
  simp only [Except.bind, h3, Except.map]

/-- C29: fewer than two temperatures raise ValueError. -/
theorem C29_short_grid (p : FTParams) (s s' : FT) (F : List ℝ) (hF : freeEnergy p s = (.ok F, s'))
    (h2 : F.length < 2) : entropy p s = (.error .valueError, s') := by
  rw [entropy_eq, hF]
  simp only [Except.bind, npGradient, if_pos h2, Except.map]

/-- C29: exact for free energies linear in the temperature, `F(T) = a - b T` gives entropy `b` at every
grid point. -/
theorem C29_linear_exact (F S : List ℝ) (h a b : ℝ) (hh : h ≠ 0) (h2 : 2 ≤ F.length)
    (hF : ∀ (i : ℕ) (f : ℝ), F[i]? = some f → f = a - b * ((i + 1 : ℕ) * h)) (hS : Spec.IsNegGradient F S h) :
    ∀ (i : ℕ) (s : ℝ), S[i]? = some s → s = b := by
  intro i s hs
  have hi : i < F.length := by
    by_contra hc
    rw [List.getElem?_eq_none (by rw [hS.length]; omega)] at hs; cases hs
  have get : ∀ j, j < F.length → ∃ f, F[j]? = some f := fun j hj => ⟨F[j], List.getElem?_eq_getElem hj⟩
  by_cases h0 : i = 0
  · subst h0
    obtain ⟨f0, e0⟩ := get 0 hi
    obtain ⟨f1, e1⟩ := get 1 (by omega)
    rw [hS.first s f0 f1 hs e0 e1, hF _ _ e0, hF _ _ e1]
    push_cast
    field_simp
    ring
  · obtain ⟨j, rfl⟩ := Nat.exists_eq_succ_of_ne_zero h0
    obtain ⟨f0, e0⟩ := get j (by omega)
    by_cases hl : j + 2 = F.length
    · obtain ⟨f1, e1⟩ := get (j + 1) hi
      rw [hS.last j s f0 f1 hl hs e0 e1, hF _ _ e0, hF _ _ e1]
      push_cast
      field_simp
      ring
    · obtain ⟨f1, e1⟩ := get (j + 2) (by omega)
      rw [hS.inner j s f0 f1 hs e0 e1, hF _ _ e0, hF _ _ e1]
      push_cast
      field_simp
      ring

/-- The example object has an entropy on its seven temperatures. -/
example : ∃ S, (entropy exFT FT.fresh).1 = .ok S ∧ S.length = 7 := by
  obtain ⟨F, h1, h2, _⟩ := C27_free_energy exFT _ exGeo_evaluates (-1) rfl rfl rfl (by norm_num [exFT]) 120 rfl
  rcases hf : freeEnergy exFT FT.fresh with ⟨r, s'⟩
  rw [hf] at h1
  dsimp only at h1
  subst h1
  have h7 : F.length = 7 := h2
  obtain ⟨S, h3, h4⟩ := C29_entropy exFT _ _ F hf (by omega)
  exact ⟨S, by rw [h3], by rw [h4.length, h7]⟩

/-! ## C25 and C23: `force` -/

/-- C25 is false of the code: after `force()` a first `free_energy()` evaluates the zero frequency
differently. -/
theorem C25_refuted : ∃ (p : FTParams) (φ : ℝ → ℝ), Evaluates p.geo φ ∧ p.nprocs.isZero ∧ 0 < p.deltaT ∧
    1 ≤ p.maxstep ∧ ∃ F G, (freeEnergy p FT.fresh).1 = .ok F ∧
      (freeEnergy p (afterCalls p [.force] FT.fresh)).1 = .ok G ∧ F ≠ G := by
  let g : Geo := ⟨false, fun _ => .ok (), fun ks => .ok (ks.map fun _ => 0), .ok 1⟩
  have hg : Evaluates g (fun _ => 0) := ⟨fun _ _ => rfl, fun _ => rfl⟩
  let p : FTParams := ⟨1, 1, 1, true, .int 0, g⟩
  refine ⟨p, fun _ => 0, hg, rfl, one_pos, le_rfl, ?_⟩
  have hF := getF_analytic p _ hg 1 rfl rfl rfl one_pos 1 rfl (s := FT.fresh) rfl rfl
  let s1 : FT := { FT.fresh with forceFlag := true }
  have hG := getF_numeric p _ hg rfl one_pos 1 rfl le_rfl (s := s1) (by simp [s1]) (.inr (by norm_num)) rfl
  let f := (arange 0 (1 : ℕ)).map (mTerm (0.5 * 0) (fun _ => 0) p.deltaT)
  have h1 : afterCalls p [.force] FT.fresh = { s1 with forceMats := some f } := by
    simp only [afterCalls, FTCall.proc, force]
    simp only [s1, FT.fresh] at hG ⊢
    rw [hG]
  let s2 : FT := { s1 with forceMats := some f }
  have hG2 := getF_numeric p _ hg rfl one_pos 1 rfl le_rfl (s := s2) (by simp [s2, s1]) (.inr (by norm_num)) rfl
  refine ⟨thermoSums 1 1 ((arange 0 (1 : ℕ)).map (mTerm (0.5 * 1) (fun _ => 0) p.deltaT)),
    thermoSums 1 1 f, ?_, ?_, ?_⟩
  · rw [freeEnergy_eq, ensureF]
    simp only [FT.fresh] at hF ⊢
    rw [hF]; rfl
  · rw [h1, freeEnergy_eq, ensureF]
    simp only [s2, s1, FT.fresh] at hG2 ⊢
    rw [hG2]; rfl
  · have a1 := thermoSums_spec 1 one_pos 1 1 (0.5 * 1) (fun _ => 0)
    have a2 := thermoSums_spec 1 one_pos 1 1 (0.5 * 0) (fun _ => 0)
    intro h
    have h' := a1.symm.trans (h.trans a2)
    simp only [Int.toNat_one, List.range_one, List.map_cons, List.map_nil, Spec.matsubaraSum,
      Finset.sum_const_zero] at h'
    norm_num at h'

theorem fMats_kept (p : FTParams) (f : List ℝ) (c : FTCall) (s : FT) (hs : s.fMats = some f) :
    (c.proc p s).2.fMats = some f := by
  have he : ensureF p s = (.ok f, s) := by unfold ensureF; rw [hs]
  cases c with
  | freeEnergy => simp only [FTCall.proc, freeEnergy_eq, he, hs]
  | entropy => simp only [FTCall.proc, entropy_eq, freeEnergy_eq, he, hs]
  | force =>
    simp only [FTCall.proc, force]
    cases h : s.forceMats with
    | some g => exact hs
    | none =>
      dsimp only
      have := getF_same p 0 { s with forceFlag := true, forceMats := none }
      rcases hg : getFMatsubaras p 0 { s with forceFlag := true, forceMats := none } with ⟨_ | g, s1⟩
      · rw [hg] at this; exact this.1.trans hs
      · rw [hg] at this; exact this.1.trans hs

theorem fMats_kept_calls (p : FTParams) (f : List ℝ) (h : List FTCall) (s : FT) (hs : s.fMats = some f) :
    (afterCalls p h s).fMats = some f := by
  induction h generalizing s with
  | nil => exact hs
  | cons c cs ih => exact ih _ (fMats_kept p f c s hs)

/-- C25, the part that holds: once `free_energy()` has been evaluated, its value is the same after every
further sequence of calls, `force()` included.  Missing: histories in which `force()` comes first, for
which the claim is false (`C25_refuted`). -/
theorem C25_unaffected_by_force_partial (p : FTParams) (F : List ℝ) (h : List FTCall)
    (hF : (freeEnergy p FT.fresh).1 = .ok F) :
    (freeEnergy p (afterCalls p (.freeEnergy :: h) FT.fresh)).1 = .ok F := by
  rw [freeEnergy_eq] at hF
  cases he : (ensureF p FT.fresh).1 with
  | error e => rw [he] at hF; cases hF
  | ok f =>
    rw [he] at hF
    have h1 := (ensureF_good p FT.fresh (.inl rfl)).2.2 f he
    have h2 : (afterCalls p (.freeEnergy :: h) FT.fresh).fMats = some f := by
      refine fMats_kept_calls p f h _ ?_
      simp only [FTCall.proc, freeEnergy_eq]; exact h1
    rw [freeEnergy_eq]
    unfold ensureF
    rw [h2]
    exact hF

example : ∃ F, (freeEnergy exFT FT.fresh).1 = .ok F := by
  obtain ⟨F, h1, _⟩ := C27_free_energy exFT _ exGeo_evaluates (-1) rfl rfl rfl (by norm_num [exFT]) 120 rfl
  exact ⟨F, h1⟩

/-- With 50 or more Matsubara terms, evaluating the terms of the force raises AttributeError in every
state of the object. -/
theorem getF_force_error (p : FTParams) (φ : ℝ → ℝ) (hg : Evaluates p.geo φ) (hp : p.nprocs.isZero)
    (hT : 0 < p.deltaT) (h50 : 50 ≤ p.nmax) (s : FT) (hs : s.forceFlag = true) :
    (getFMatsubaras p 0 s).1 = .error .attributeError := by
  unfold getFMatsubaras slicewiseEval
  rw [if_pos hp, dif_pos (by norm_num), if_neg (by omega)]
  have key : (sliceLoop (fun ns => fAlle p.geo p.analyticN0 (ns.map fun n : ℤ => p.deltaT * (n : ℝ))) (-0)
      p.nmax 50 (by norm_num) 0 (List.replicate (p.nmax - 0 + 1).toNat none) s).1 =
        .error .attributeError := by
    by_cases hflag : p.geo.trace = false ∧ s.geoFlag = true
    · have : fAlle p.geo p.analyticN0 ((arange 0 (min (0 + 50 - 1) p.nmax)).map fun n : ℤ => p.deltaT * (n : ℝ)) s
          = (.error .attributeError, s) := by
        rw [arange_cons (by omega), List.map_cons]
        simp only [Int.cast_zero, mul_zero, fAlle]
        rw [if_pos trivial, if_neg (by simp [hs]), bind_error (mSumme_flag _ (by simp) hflag.1 hflag.2)]
      rw [sliceLoop_step_error (by omega) this]
    · have hflag' : p.geo.trace = true ∨ s.geoFlag = false := by
        by_cases h1 : p.geo.trace = true
        · exact .inl h1
        · refine .inr ?_
          by_contra h2
          exact hflag ⟨by simpa using h1, by simpa using h2⟩
      have h1 : fAlle p.geo p.analyticN0 ((arange 0 (min (0 + 50 - 1) p.nmax)).map fun n : ℤ => p.deltaT * (n : ℝ)) s
          = (.ok (0.5 * φ 1e-10 :: ((arange 1 49).map fun n : ℤ => p.deltaT * (n : ℝ)).map φ),
              { s with geoFlag := false }) := by
        rw [arange_cons (by omega), List.map_cons, show min (0 + 50 - 1) p.nmax = 49 by omega]
        simp only [Int.cast_zero, mul_zero, fAlle]
        have hne : ((arange (0 + 1) 49).map fun n : ℤ => p.deltaT * (n : ℝ)) ≠ [] :=
          arange_map_ne_nil (by omega) _
        rw [if_pos trivial, if_neg (by simp [hs]),
          bind_ok (mSumme_ok _ (by simp) hflag' |>.trans (by rw [hg.vals _ (by simp)])),
          bind_ok (mSumme_ok _ hne (.inr rfl) |>.trans (by rw [hg.vals _ hne]))]
        simp [Proc.pure]
      rw [sliceLoop_step (by omega) h1]
      have h2 := assignSlice_ok (P := []) (k := (p.nmax - 0 + 1).toNat)
        (len := (min (0 + 50 - 1) p.nmax + 1 - 0).toNat)
        (vals := 0.5 * φ 1e-10 :: ((arange 1 49).map fun n : ℤ => p.deltaT * (n : ℝ)).map φ)
        (by simp only [List.length_cons, List.length_map, arange_length]; omega) (by omega)
      simp only [List.map_nil, List.nil_append, List.length_nil] at h2
      rw [show (-0 + 0 : ℤ).toNat = 0 by rfl, h2]
      dsimp only
      have h3 : fAlle p.geo p.analyticN0 ((arange (min (0 + 50 - 1) p.nmax + 1)
          (min (min (0 + 50 - 1) p.nmax + 1 + 50 - 1) p.nmax)).map fun n : ℤ => p.deltaT * (n : ℝ))
            { s with geoFlag := false } = (.error .attributeError, { s with geoFlag := true }) := by
        rw [arange_cons (by omega), List.map_cons, show min (0 + 50 - 1) p.nmax + 1 = 50 by omega]
        simp only [fAlle]
        rw [if_neg (mul_ne_zero hT.ne' (by norm_num)), if_pos (by simp [hs])]
        simp [Geo.mSumTraceDot, hg.blocks]
      rw [sliceLoop_step_error (by omega) h3]
  unfold Proc.bind
  split <;> rename_i h <;> rw [h] at key
  · dsimp only at key ⊢
    cases key
    rfl
  · cases key

theorem proc_forceMats (p : FTParams) (c : FTCall) (hc : c ≠ .force) (s : FT) :
    (c.proc p s).2.forceMats = s.forceMats := by
  have he : (ensureF p s).2.forceMats = s.forceMats := by
    unfold ensureF
    have := getF_same p 0 s
    cases hs : s.fMats with
    | some f => rfl
    | none => rcases hg : getFMatsubaras p 0 s with ⟨_ | _, s1⟩ <;> rw [hg] at this <;> exact this.2.1
  cases c with
  | freeEnergy => simp only [FTCall.proc, freeEnergy_eq, he]
  | entropy => simp only [FTCall.proc, entropy_eq, freeEnergy_eq, he]
  | force => exact absurd rfl hc

/-- C23: with `nmax ≥ 50`, `force()` raises AttributeError after every sequence of calls. -/
theorem C23_force_raises (p : FTParams) (φ : ℝ → ℝ) (hg : Evaluates p.geo φ) (hp : p.nprocs.isZero)
    (hT : 0 < p.deltaT) (h50 : 50 ≤ p.nmax) (h : List FTCall) :
    (force p (afterCalls p h FT.fresh)).1 = .error .attributeError := by
  have hf : ∀ s : FT, s.forceMats = none →
      (force p s).1 = .error .attributeError ∧ (force p s).2.forceMats = none := by
    intro s hs
    have h1 := getF_force_error p φ hg hp hT h50 { s with forceFlag := true } rfl
    have h2 := getF_same p 0 { s with forceFlag := true }
    unfold force
    simp only [hs]
    rw [← hs]
    rcases hq : getFMatsubaras p 0 { s with forceFlag := true } with ⟨r, s1⟩
    rw [hq] at h1 h2
    dsimp only at h1
    subst h1
    exact ⟨rfl, h2.2.1⟩
  have inv : ∀ (h : List FTCall) (s : FT), s.forceMats = none → (afterCalls p h s).forceMats = none := by
    intro h
    induction h with
    | nil => intro s hs; exact hs
    | cons c cs ih =>
      intro s hs
      refine ih _ ?_
      by_cases hc : c = .force
      · subst hc; exact (hf s hs).2.trans hs.symm |>.trans hs
      · rw [proc_forceMats p c hc, hs]
  exact (hf _ (inv h FT.fresh rfl)).1

/-- C23: with `1 ≤ nmax < 50`, `force()` returns after every sequence of calls `T` times the stride sums of
the *free energy* terms `φ` (the values of `mSumme`, not derivatives). -/
theorem C23_force_is_free_energy (p : FTParams) (φ : ℝ → ℝ) (hg : Evaluates p.geo φ) (hp : p.nprocs.isZero)
    (hT : 0 < p.deltaT) (N : ℕ) (hN : p.nmax = N) (hN1 : 1 ≤ N) (hN2 : N < 50) (h : List FTCall) :
    (force p (afterCalls p h FT.fresh)).1 = .ok ((List.range p.maxstep.toNat).map fun i : ℕ =>
      Spec.matsubaraSum (1 / 2 * φ 1e-10) φ ((i + 1 : ℕ) * p.deltaT) (N * p.deltaT)) := by
  set A := (arange 0 N).map (mTerm (0.5 * φ 1e-10) φ p.deltaT) with hA
  have hnum := fun (s : FT) (h1 : s.forceFlag = true) (h2 : s.geoFlag = false) =>
    getF_numeric p φ hg hp hT N hN hN1 (s := s) (by simp [h1]) (.inr hN2) h2
  have hstate : ∀ s : FT, s.geoFlag = false → (getFMatsubaras p 0 s).2 = s := by
    intro s hs
    cases hf : s.forceFlag with
    | false => exact getF_state p 0 hf hs
    | true => rw [hnum s hf hs]
  have hforce : ∀ s : FT, s.geoFlag = false → (s.forceMats = none ∨ s.forceMats = some A) →
      (force p s).1 = .ok (thermoSums p.deltaT p.maxstep A) ∧ (force p s).2.geoFlag = false ∧
        (force p s).2.forceMats = some A := by
    intro s h1 h2
    unfold force
    rcases h2 with h2 | h2
    · have := hnum { s with forceFlag := true } rfl h1
      simp only [h2] at this ⊢
      rw [this]
      exact ⟨rfl, h1, rfl⟩
    · simp only [h2]
      exact ⟨trivial, h1, trivial⟩
  have inv : ∀ (h : List FTCall) (s : FT), s.geoFlag = false → (s.forceMats = none ∨ s.forceMats = some A) →
      (afterCalls p h s).geoFlag = false ∧
        ((afterCalls p h s).forceMats = none ∨ (afterCalls p h s).forceMats = some A) := by
    intro h
    induction h with
    | nil => intro s h1 h2; exact ⟨h1, h2⟩
    | cons c cs ih =>
      intro s h1 h2
      have he : (ensureF p s).2.geoFlag = false := by
        unfold ensureF
        have := hstate s h1
        cases hs : s.fMats with
        | some f => exact h1
        | none =>
          rcases hq : getFMatsubaras p 0 s with ⟨_ | _, s1⟩ <;> rw [hq] at this <;>
            · dsimp only at this
              subst this
              exact h1
      cases c with
      | force => exact ih _ (hforce s h1 h2).2.1 (.inr (hforce s h1 h2).2.2)
      | freeEnergy =>
        refine ih _ ?_ ?_
        · simp only [FTCall.proc, freeEnergy_eq, he]
        · rw [proc_forceMats p _ (by simp)]; exact h2
      | entropy =>
        refine ih _ ?_ ?_
        · simp only [FTCall.proc, entropy_eq, freeEnergy_eq, he]
        · rw [proc_forceMats p _ (by simp)]; exact h2
  obtain ⟨i1, i2⟩ := inv h FT.fresh rfl (.inl rfl)
  rw [(hforce _ i1 i2).1, hA, thermoSums_spec _ hT]
  norm_num

example : ∃ p : FTParams, Evaluates p.geo (fun k => -Real.exp (-k)) ∧ p.nprocs.isZero ∧ 0 < p.deltaT ∧ 50 ≤ p.nmax :=
  ⟨exFT, exGeo_evaluates, rfl, by norm_num [exFT], by norm_num [exFT]⟩
example : ∃ p : FTParams, Evaluates p.geo (fun k => -Real.exp (-k)) ∧ p.nprocs.isZero ∧ 0 < p.deltaT ∧
    p.nmax = (20 : ℕ) :=
  ⟨{ exFT with nmax := 20 }, exGeo_evaluates, rfl, by norm_num [exFT], rfl⟩

/-! ## C31: the constructor -/

/-- What a successful constructor did. -/
theorem init_ok {deltaT Tmax r1 r2 L lmax : ℝ} {nmax : NMax} {matList isGeo a : Bool} {np : NProcs} {o : FTInit}
    (h : finiteTInit deltaT nmax Tmax r1 r2 L lmax matList isGeo a np = .ok o) :
    deltaT ≠ 0 ∧ (∀ n, nmax = .num n → o.nmax = n) ∧ (nmax = .automatic → autoNmax r1 r2 L deltaT lmax = .ok o.nmax) ∧
      o.analyticN0 = (a && !matList) ∧ o.maxstep = pyRound (Tmax / deltaT) ∧ o.nprocs = np ∧ isGeo = true := by
  unfold finiteTInit at h
  dsimp only at h
  have h := (ite_eq_iff.1 h).resolve_left (fun h => by cases h.2)
  replace h := h.2
  cases nmax with
  | num n =>
    simp only at h
    split_ifs at h with h1 h2 h3
    all_goals (cases h; simp_all)
  | automatic =>
    simp only at h
    cases hn : autoNmax r1 r2 L deltaT lmax with
    | error e => rw [hn] at h; cases h
    | ok n =>
      rw [hn] at h
      simp only at h
      split_ifs at h with h1 h2 h3
      all_goals (cases h; simp_all)

/-- C31: the automatic `nmax` is at least one (for every geometry). -/
theorem C31_auto_nmax (deltaT Tmax r1 r2 L lmax : ℝ) (matList isGeo a : Bool) (np : NProcs) (o : FTInit)
    (h : finiteTInit deltaT .automatic Tmax r1 r2 L lmax matList isGeo a np = .ok o) : 1 ≤ o.nmax := by
  have hn := (init_ok h).2.2.1 rfl
  unfold autoNmax at hn
  generalize hx : o.nmax = x at hn
  dsimp only at hn
  split_ifs at hn
  all_goals (rw [← Except.ok.inj hn]; exact le_max_right _ _)

/-- C31: stratified spheres (materials given as lists) switch the analytic zero-frequency term off; otherwise
the given choice is used. -/
theorem C31_analytic (deltaT Tmax r1 r2 L lmax : ℝ) (nmax : NMax) (matList isGeo a : Bool) (np : NProcs)
    (o : FTInit) (h : finiteTInit deltaT nmax Tmax r1 r2 L lmax matList isGeo a np = .ok o) :
    o.analyticN0 = (a && !matList) := (init_ok h).2.2.2.1

/-- C31: a `nprocs ≥ 0` that is not an integer is rejected. -/
theorem C31_float_nprocs (deltaT Tmax r1 r2 L lmax : ℝ) (nmax : NMax) (matList isGeo a : Bool) (x : ℝ)
    (hx : 0 ≤ x) : finiteTInit deltaT nmax Tmax r1 r2 L lmax matList isGeo a (.float x) = .error .valueError := by
  unfold finiteTInit
  simp [hx]

/-- C31: every integer `nprocs`, negative ones included, is accepted, for a step of the temperature that is not zero and, if `nmax` is
automatic, separate spheres of radii that are not zero and a non-zero `lmax`. -/
theorem C31_int_nprocs (deltaT Tmax r1 r2 L lmax : ℝ) (nmax : NMax) (matList a : Bool) (n : ℤ) (hT : deltaT ≠ 0)
    (hn : nmax = .automatic → r1 ≠ 0 ∧ r2 ≠ 0 ∧ r1 + r2 < L ∧ lmax ≠ 0) :
    ∃ o, finiteTInit deltaT nmax Tmax r1 r2 L lmax matList true a (.int n) = .ok o ∧ o.nprocs = .int n := by
  cases nmax with
  | num m =>
    unfold finiteTInit
    simp [hT]
  | automatic =>
    obtain ⟨n1, n2, hs, hl⟩ := hn rfl
    have e := min_add_max r1 r2
    have hm : min r1 r2 ≠ 0 := by rcases min_choice r1 r2 with h | h <;> rw [h] <;> assumption
    have ha : ∃ k, autoNmax r1 r2 L deltaT lmax = .ok k := by
      unfold autoNmax
      simp only [e, gt_iff_lt, if_neg hs.not_gt, sub_sub]
      rw [if_neg (by rw [not_or, not_or]; exact ⟨hm, (sub_pos.mpr hs).ne', hl⟩), if_neg hT]
      exact ⟨_, rfl⟩
    obtain ⟨k, ha⟩ := ha
    unfold finiteTInit
    simp [hT, ha]

/-- C31: the exceptions of the constructor.  The step of the temperature zero is a ZeroDivisionError; with an automatic `nmax` touching spheres, a radius zero and
`lmax = 0` are so, too, and the step zero is an OverflowError for spheres that are closer than half the smaller radius. -/
theorem C31_zero_step (Tmax r1 r2 L lmax : ℝ) (m : ℤ) (matList a : Bool) (n : ℤ) :
    finiteTInit 0 (.num m) Tmax r1 r2 L lmax matList true a (.int n) = .error .zeroDivisionError := by
  unfold finiteTInit
  simp

theorem C31_touching (deltaT Tmax r1 r2 lmax : ℝ) (matList isGeo a : Bool) (n : ℤ) :
    finiteTInit deltaT .automatic Tmax r1 r2 (r1 + r2) lmax matList isGeo a (.int n) = .error .zeroDivisionError := by
  have e := min_add_max r1 r2
  have ha : autoNmax r1 r2 (r1 + r2) deltaT lmax = .error .zeroDivisionError := by
    unfold autoNmax
    simp only [e, gt_iff_lt, lt_irrefl, if_false, sub_sub]
    rw [if_pos (.inr (.inl (sub_self _)))]
  unfold finiteTInit
  simp [ha]

theorem C31_radius_zero (deltaT Tmax r2 L lmax : ℝ) (h2 : 0 ≤ r2) (matList isGeo a : Bool) (n : ℤ) :
    finiteTInit deltaT .automatic Tmax 0 r2 L lmax matList isGeo a (.int n) = .error .zeroDivisionError := by
  unfold finiteTInit autoNmax
  simp [h2]

theorem C31_lmax_zero (deltaT Tmax r1 r2 L : ℝ) (matList isGeo a : Bool) (n : ℤ) :
    finiteTInit deltaT .automatic Tmax r1 r2 L 0 matList isGeo a (.int n) = .error .zeroDivisionError := by
  unfold finiteTInit autoNmax
  simp

theorem C31_zero_step_auto (Tmax r1 r2 L lmax : ℝ) (matList isGeo a : Bool) (n : ℤ) (h1 : 0 < r1) (h2 : 0 < r2) (hs : r1 + r2 < L) (hl : lmax ≠ 0) :
    finiteTInit 0 .automatic Tmax r1 r2 L lmax matList isGeo a (.int n) =
      .error (if L - (r1 + r2) ≤ min r1 r2 / 2 then .overflowError else .zeroDivisionError) := by
  have e := min_add_max r1 r2
  have hm : 0 < min r1 r2 := lt_min h1 h2
  have : ((L - (r1 + r2)) / min r1 r2 ≤ 0.5) ↔ L - (r1 + r2) ≤ min r1 r2 / 2 := by
    rw [div_le_iff₀ hm, show (0.5 : ℝ) * min r1 r2 = min r1 r2 / 2 by ring]
  have ha : autoNmax r1 r2 L 0 lmax = .error (if L - (r1 + r2) ≤ min r1 r2 / 2 then .overflowError else .zeroDivisionError) := by
    unfold autoNmax
    simp only [e, gt_iff_lt, if_neg hs.not_gt, sub_sub]
    rw [if_neg (by rw [not_or, not_or]; exact ⟨hm.ne', (sub_pos.mpr hs).ne', hl⟩), if_pos trivial]
    simp only [this]
  unfold finiteTInit
  simp [ha]

/-- C31: an object that is no sphere-sphere geometry is a TypeError. -/
theorem C31_type_error (deltaT Tmax r1 r2 L lmax : ℝ) (m : ℤ) (matList a : Bool) (n : ℤ) :
    finiteTInit deltaT (.num m) Tmax r1 r2 L lmax matList false a (.int n) = .error .typeError := rfl

example : ∃ o, finiteTInit 0.01 .automatic 2 1 4 6 20 false true true (.int 0) = .ok o ∧ 1 ≤ o.nmax := by
  obtain ⟨o, ho, -⟩ := C31_int_nprocs 0.01 2 1 4 6 20 .automatic false true 0 (by norm_num) (fun _ => ⟨by norm_num, by norm_num⟩)
  exact ⟨o, ho, C31_auto_nmax _ _ _ _ _ _ _ _ _ _ _ ho⟩

/-- C31: if the object was accepted with `nprocs ≠ 0`, every evaluation raises NameError, after every
sequence of calls. -/
theorem C31_nprocs_nameError (p : FTParams) (hp : ¬ p.nprocs.isZero) (h : List FTCall) (c : FTCall) :
    (c.proc p (afterCalls p h FT.fresh)).1 = .error .nameError := by
  have hg : ∀ s, getFMatsubaras p 0 s = (.error .nameError, s) := by
    intro s; unfold getFMatsubaras; rw [if_neg hp]; rfl
  have key : ∀ (c : FTCall) (s : FT), s.fMats = none → s.forceMats = none →
      (c.proc p s).1 = .error .nameError ∧ (c.proc p s).2.fMats = none ∧ (c.proc p s).2.forceMats = none := by
    intro c s h1 h2
    have he : ensureF p s = (.error .nameError, s) := by unfold ensureF; rw [h1]; simp only [hg]
    cases c with
    | freeEnergy => simp only [FTCall.proc, freeEnergy_eq, he]; exact ⟨rfl, h1, h2⟩
    | entropy => simp only [FTCall.proc, entropy_eq, freeEnergy_eq, he]; exact ⟨rfl, h1, h2⟩
    | force => simp only [FTCall.proc, force, h2, hg]; exact ⟨trivial, h1, trivial⟩
  have inv : ∀ (h : List FTCall) (s : FT), s.fMats = none → s.forceMats = none →
      (afterCalls p h s).fMats = none ∧ (afterCalls p h s).forceMats = none := by
    intro h
    induction h with
    | nil => intro s h1 h2; exact ⟨h1, h2⟩
    | cons c cs ih => intro s h1 h2; exact ih _ (key c s h1 h2).2.1 (key c s h1 h2).2.2
  exact (key c _ (inv h FT.fresh rfl rfl).1 (inv h FT.fresh rfl rfl).2).1

example : ¬ (NProcs.int (-3)).isZero := by simp [NProcs.isZero]
example : ¬ (NProcs.int 4).isZero := by simp [NProcs.isZero]

/-- The number of temperatures is `Tmax/deltaT` rounded to the nearest integer. -/
theorem C27_maxstep (deltaT Tmax r1 r2 L lmax : ℝ) (nmax : NMax) (matList isGeo a : Bool) (np : NProcs)
    (o : FTInit) (h : finiteTInit deltaT nmax Tmax r1 r2 L lmax matList isGeo a np = .ok o) :
    |(o.maxstep : ℝ) - Tmax / deltaT| ≤ 1 / 2 := by
  have key : ∀ x : ℝ, |(pyRound x : ℝ) - x| ≤ 1 / 2 := by
    intro x
    unfold pyRound
    have e := Int.floor_add_fract x
    have h0 := Int.fract_nonneg x
    have h1 := Int.fract_lt_one x
    rw [abs_le]
    split_ifs <;> push_cast <;> constructor <;> linarith
  rw [(init_ok h).2.2.2.2.1]
  exact key _

end CasSph
