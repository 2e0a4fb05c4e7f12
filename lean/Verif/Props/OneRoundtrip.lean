import Verif.Model.OneRoundtrip
import Verif.Props.FreeEnergy
import Verif.Props.Thermo

/-! # C101 - C103: single round-trip approximation, and methods of `finiteT` that cannot return -/

namespace CasSph

open Spec Matrix

/-! ## C101: `mSum_oneRoundtrip` -/

/-- **C101, Python 3.** There is no `xrange`: whatever the geometry, the call raises; NameError if `blockmatrices` can be evaluated. -/
theorem C101_python3 {d : ℕ} (lmax : ℕ) (precision : ℝ) (mmax : MMaxArg) (B : ℕ → Res (TraceIn d)) :
    (∃ e, mSumOneRoundtrip false lmax precision mmax B = .error e) ∧
    ∀ b, B 0 = .ok b → mSumOneRoundtrip false lmax precision mmax B = .error .nameError := by
  refine ⟨?_, fun b hb => ?_⟩
  · cases hb : B 0 with
    | error e => exact ⟨e, by unfold mSumOneRoundtrip; rw [hb, error_bind]⟩
    | ok b => exact ⟨.nameError, by unfold mSumOneRoundtrip; rw [hb, ok_bind]; rfl⟩
  · unfold mSumOneRoundtrip
    rw [hb, ok_bind]
    rfl

/-- The last subspace that is evaluated. -/
def lastM (lmax : ℕ) (mmax : ℤ) : ℕ := min lmax (max 1 mmax.toNat)

theorem oneLoop_spec {d lmax : ℕ} {mmax : ℤ} {B : ℕ → Res (TraceIn d)} {b : ℕ → TraceIn d} (hB : ∀ m ≤ lmax, B m = .ok (b m))
    (hsz : ∀ m, 1 ≤ m → m ≤ lmax → (b m).size = lmax + 1 - m) :
    ∀ (todo m : ℕ), todo + m = lmax + 1 → 1 ≤ m → m ≤ lastM lmax mmax ∨ todo = 0 →
      oneLoop mmax B todo m (mSum (fun m => (b m).tr) (m - 1)) = .ok (mSum (fun m => (b m).tr) (if todo = 0 then lmax else lastM lmax mmax))
  | 0, m, h, h1, _ => by
    unfold oneLoop
    rw [if_pos rfl, show m - 1 = lmax by omega]
  | todo + 1, m, h, h1, h2 => by
    have hm : m ≤ lastM lmax mmax := h2.resolve_right (by omega)
    have e : (fun i => mSum (fun m => (b m).tr) (m - 1) i + 2 * (b m).tr i) = mSum (fun m => (b m).tr) m := by
      funext i
      obtain ⟨j, rfl⟩ : ∃ j, m = j + 1 := ⟨m - 1, by omega⟩
      unfold mSum
      rw [Nat.add_sub_cancel, ← Finset.insert_Icc_right_eq_Icc_add_one (by omega), Finset.sum_insert (by simp)]
      ring
    unfold oneLoop
    rw [hB m (by omega), ok_bind, hsz m h1 (by omega), if_neg (Nat.succ_ne_zero todo)]
    rw [e]
    by_cases c1 : lmax + 1 - m = 1
    · rw [if_pos c1]
      congr 2
      unfold lastM at hm ⊢
      omega
    · rw [if_neg c1]
      by_cases c2 : mmax ≤ m
      · rw [if_pos c2]
        congr 2
        unfold lastM at hm ⊢
        omega
      · rw [if_neg c2]
        have := oneLoop_spec hB hsz todo (m + 1) (by omega) (by omega) (.inl (by unfold lastM at hm ⊢; omega)) (mmax := mmax)
        rw [Nat.add_sub_cancel, if_neg (by omega)] at this
        exact this

/-- **C101, Python 2.** The result is `Tr M(0) + 2 Σ Tr M(m)` for `m` up to `min(lmax, max(1, mmax))`. -/
theorem C101_python2 {d lmax : ℕ} (hl : 1 ≤ lmax) {precision : ℝ} {mmax : MMaxArg} {mm : ℤ} (hmm : mmaxOf lmax precision mmax = .ok mm)
    {B : ℕ → Res (TraceIn d)} {b : ℕ → TraceIn d} (hB : ∀ m ≤ lmax, B m = .ok (b m))
    (hsz : ∀ m, 1 ≤ m → m ≤ lmax → (b m).size = lmax + 1 - m) :
    mSumOneRoundtrip true lmax precision mmax B = .ok (mSum (fun m => (b m).tr) (lastM lmax mm)) := by
  unfold mSumOneRoundtrip
  rw [hB 0 (by omega), ok_bind, if_pos rfl, hmm, ok_bind]
  have h0 : (b 0).tr = mSum (fun m => (b m).tr) (1 - 1) := by funext i; simp [mSum]
  rw [h0, oneLoop_spec hB hsz lmax 1 rfl le_rfl (.inl (by unfold lastM; omega)), if_neg (by omega)]

/-- **C101, choice of `mmax`.** `"automatic"` always succeeds, a number above `lmax` is an AssertionError. -/
theorem C101_mmax (lmax : ℕ) (precision : ℝ) (n : ℤ) :
    (∃ mm, mmaxOf lmax precision .automatic = .ok mm) ∧ (n ≤ lmax → mmaxOf lmax precision (.num n) = .ok n) ∧
    ((lmax : ℤ) < n → mmaxOf lmax precision (.num n) = .error .assertionError) :=
  ⟨⟨_, rfl⟩, fun h => by simp only [mmaxOf, if_pos h], fun h => by simp only [mmaxOf, if_neg (not_le.mpr h)]⟩

section
variable {mA mB md : Material} {r1 r2 L : ℝ} {lmax lssmax d : ℕ} {ks : Fin d → ℝ} {med : Fin d → Medium} {w : Fin d → WaveIn} {σa σb : Fin d → ℝ}

/-- **C101, sign.** For two separate spheres (Python 2, all subspaces) the result is exactly minus that of `mSum_roundtrips` with
order one, and for pairs that attract it is non-negative, whereas the quantity it is documented to approximate, `ln det(1 - M)`,
is non-positive; the sum of the two is bounded by `C exp(-2 δ)`. -/
theorem C101_sign (hd : 0 < d) (hw : ∀ i, WaveAt mA mB md r1 r2 L (ks i) (med i) lmax lssmax (w i))
    (ea : ∀ i, DenseSign mA md (ks i) (σa i)) (eb : ∀ i, DenseSign mB md (ks i) (σb i)) (hσ : ∀ i, σa i = σb i)
    (hl : 1 ≤ lmax) (hls : lmax ≤ lssmax) (precision : ℝ) :
    ∃ v t : ℕ → Fin d → ℝ,
      (∀ m : ℕ, m ≤ lmax → ∃ A N, superMatrix lmax lssmax m (List.ofFn w) = .ok A ∧ A.shape = [d, N, N] ∧
        roundtripsFixed (fun i : Fin d => A.slice N N i) 1 = .ok (t m, 1) ∧ ∀ i : Fin d, v m i = Real.log (1 - A.slice N N i).det) ∧
      mSumOneRoundtrip true lmax precision (.num lmax) (fun m => tracesAt lmax lssmax m w) = .ok (fun i => -mSum t lmax i) ∧
      ∀ i, 0 ≤ -mSum t lmax i ∧ mSum v lmax i ≤ 0 ∧ mSum v lmax i ≤ mSum t lmax i ∧
        mSum t lmax i - mSum v lmax i ≤ 3 * pairBound (med i) r1 r2 L (ks i) 0 / (1 - pairRatio (med i) r1 r2 L) *
          (Real.exp (-(2 * optGap (med i) r1 r2 L (ks i))) / 2) := by
  obtain ⟨v, t, h1, -, h3⟩ := C99_mSum_roundtrips hd hw ea eb hσ hl hls (precision := 0) (by norm_num) (n := 1) le_rfl
  have hB : ∀ m ≤ lmax, tracesAt lmax lssmax m w = .ok ⟨lmax + 1 - transLmin m, fun i => -t m i⟩ := by
    intro m hm
    choose B hB using fun i => (hw i).blocks_exist (m := m) (by omega) (by omega)
    obtain ⟨A', hA', hs', hv'⟩ := superMatrix_ok hd hB
    obtain ⟨A, N, g1, g2, g3, -⟩ := h1 m hm
    rw [hA'] at g1
    injection g1 with g1
    subst g1
    have hN : N = lmax + 1 - transLmin m + (lmax + 1 - transLmin m) := by
      rw [hs'] at g2
      simp only [List.cons.injEq] at g2
      omega
    subst hN
    have e1 := C16_fixed_order (fun i : Fin d => A'.slice (lmax + 1 - transLmin m + (lmax + 1 - transLmin m))
      (lmax + 1 - transLmin m + (lmax + 1 - transLmin m)) i) 1 le_rfl
    rw [Nat.cast_one] at g3 e1
    rw [g3] at e1
    injection e1 with e1
    injection e1 with e1 _
    unfold tracesAt
    rw [if_neg (by omega), finM_ok hB, ok_bind]
    congr 2
    funext i
    rw [e1]
    unfold traceSum
    simp only [Finset.Icc_self, Finset.sum_singleton, Nat.cast_one, div_one, neg_neg, pow_one]
    have e2 := (det_super (hv' i)).2 1
    rw [pow_one, pow_one] at e2
    rw [e2]
    unfold Blocks.full
    simp [Matrix.trace, Fintype.sum_sum_type]
  refine ⟨v, t, fun m hm => ?_, ?_, fun i => ?_⟩
  · obtain ⟨A, N, g1, g2, g3, g4⟩ := h1 m hm
    exact ⟨A, N, g1, g2, by simpa using g3, g4⟩
  · rw [C101_python2 (mm := lmax) hl (by simp only [mmaxOf, le_refl, if_true])
      (b := fun m => ⟨lmax + 1 - transLmin m, fun i => -t m i⟩) hB (fun m g1 g2 => by
        have : transLmin (m : ℤ) = m := by unfold transLmin; omega
        simp only [this])]
    congr 1
    funext i
    have : lastM lmax lmax = lmax := by unfold lastM; omega
    rw [this]
    unfold mSum
    rw [Finset.sum_neg_distrib]
    ring
  · obtain ⟨g1, g2, g3⟩ := h3 i
    refine ⟨by linarith, by linarith, g1, ?_⟩
    have e : (2 : ℝ) * (1 : ℕ) = 2 := by norm_num
    rw [e] at g3
    norm_num at g3 ⊢
    exact g3

end

/-- The hypotheses of `C101_sign` hold for two gold spheres in vacuum. -/
example {k r1 r2 L : ℝ} (hk : 0 < k) (h1 : 0 < r1) (h2 : 0 < r2) (hs : r1 + r2 < L) :
    ∃ (w : Fin 1 → WaveIn) (x : Fin 1 → ℝ), mSumOneRoundtrip true 5 1e-4 (.num 5) (fun m => tracesAt 5 6 m w) = .ok x ∧ 0 ≤ x 0 := by
  choose w hw using fun _ : Fin 1 => waveAt_exists gold_physical gold_physical (by simp) vac_diel.2 hk h1 h2
    (by rw [muV_none]; simpa using hs) 5 6
  have e := fun _ : Fin 1 => dense_vacuum gold_physical hk
  obtain ⟨v, t, -, h3, h4⟩ := C101_sign (by norm_num) hw e e (fun _ => rfl) (by norm_num) (by norm_num) 1e-4
  exact ⟨w, _, h3, (h4 0).1⟩

/-! ## C102: the class `oneRoundtrip` -/

section
variable {p : FTParams} {one : List ℝ → Res (List ℝ)}

/-- An object on which no evaluation has succeeded. -/
def NoCache (s : FT) : Prop := s.fMats = none ∧ s.forceMats = none

theorem fAlleOne_zero {one : List ℝ → Res (List ℝ)} {e : PyErr} (h : one [1e-10] = .error e) (g : Geo) (rest : List ℝ) (s : FT) :
    fAlleOne g one (0 :: rest) s = (.error (if s.forceFlag then .attributeError else e), s) := by
  unfold fAlleOne
  simp only
  rw [if_pos trivial]
  cases hf : s.forceFlag with
  | false => rw [if_pos rfl]; simp [Proc.bind, h]
  | true => simp

theorem getFMatsubarasOne_error {e : PyErr} (h : one [1e-10] = .error e) (hn : 0 ≤ p.nmax) (s : FT) :
    getFMatsubarasOne p one 0 s = (.error (if s.forceFlag then .attributeError else e), s) := by
  unfold getFMatsubarasOne slicewiseEval
  rw [dif_pos (by norm_num), if_neg (by omega)]
  unfold sliceLoop
  rw [dif_pos hn]
  simp only
  have : (arange 0 (min (0 + 50 - 1) p.nmax)).map (fun n : ℤ => p.deltaT * (n : ℝ)) =
      0 :: ((arange 1 (min (0 + 50 - 1) p.nmax)).map fun n : ℤ => p.deltaT * (n : ℝ)) := by
    rw [arange_cons (by omega), List.map_cons]
    simp
  simp only [Proc.bind, this, fAlleOne_zero h]

/-- **C102.** If `mSum_oneRoundtrip` raises, as it always does in Python 3 (C101), no sequence of calls of `free_energy`, `entropy`
and `force` on a `oneRoundtrip` object ever returns a value: `force` raises AttributeError (the method it calls does not exist),
the other two the exception of `mSum_oneRoundtrip`, or AttributeError once `force` was called. -/
theorem C102_never_returns {e : PyErr} (h : one [1e-10] = .error e) (hn : 0 ≤ p.nmax) (cs : List FTCall) (c : FTCall) :
    (c.procOne p one (afterCallsOne p one cs FT.fresh)).1 =
      .error (match c with | .force => .attributeError | _ => if FTCall.force ∈ cs then .attributeError else e) := by
  have step : ∀ (c : FTCall) (s : FT), NoCache s →
      c.procOne p one s = (.error (match c with | .force => .attributeError | _ => if s.forceFlag then .attributeError else e),
        match c with | .force => { s with forceFlag := true } | _ => s) := by
    rintro c s ⟨h1, h2⟩
    have he : ensureFOne p one s = (.error (if s.forceFlag then .attributeError else e), s) := by
      unfold ensureFOne
      rw [h1]
      simp only
      rw [getFMatsubarasOne_error h hn]
    cases c with
    | freeEnergy => simp only [FTCall.procOne, Proc.bind, he]
    | entropy => simp only [FTCall.procOne, Proc.bind, he]
    | force =>
      simp only [FTCall.procOne, h2]
      rw [getFMatsubarasOne_error h hn]
      simp
  have inv : ∀ (cs : List FTCall) (s : FT), NoCache s → NoCache (afterCallsOne p one cs s) ∧
      ((afterCallsOne p one cs s).forceFlag = true ↔ s.forceFlag = true ∨ FTCall.force ∈ cs) := by
    intro cs
    induction cs with
    | nil => intro s hs; exact ⟨hs, by simp [afterCallsOne]⟩
    | cons c cs ih =>
      intro s hs
      unfold afterCallsOne
      rw [step c s hs]
      cases c with
      | freeEnergy => simpa using ih s hs
      | entropy => simpa using ih s hs
      | force =>
        obtain ⟨a, b⟩ := ih { s with forceFlag := true } hs
        exact ⟨a, by rw [b]; simp⟩
  obtain ⟨h1, h2⟩ := inv cs FT.fresh ⟨rfl, rfl⟩
  rw [step c _ h1]
  cases c with
  | force => rfl
  | freeEnergy =>
    simp only
    by_cases hc : FTCall.force ∈ cs
    · rw [if_pos hc, if_pos (h2.mpr (.inr hc))]
    · rw [if_neg hc, if_neg (fun hh => hc ((h2.mp hh).resolve_left (by simp [FT.fresh])))]
  | entropy =>
    simp only
    by_cases hc : FTCall.force ∈ cs
    · rw [if_pos hc, if_pos (h2.mpr (.inr hc))]
    · rw [if_neg hc, if_neg (fun hh => hc ((h2.mp hh).resolve_left (by simp [FT.fresh])))]

/-- **C102, Python 3.** The hypothesis of `C102_never_returns` holds for every geometry. -/
theorem C102_python3 (lmax : ℕ) (precision : ℝ) (B : (ks : List ℝ) → ℕ → Res (TraceIn ks.length)) (ks : List ℝ) :
    ∃ e, ((mSumOneRoundtrip false lmax precision .automatic (B ks)).map List.ofFn) = .error e := by
  obtain ⟨e, he⟩ := (C101_python3 lmax precision .automatic (B ks)).1
  exact ⟨e, by rw [he]; rfl⟩

end

/-! ## C103: `F_tempcorr` and `l_konvergenz` -/

/-- A routine that passes on the exception of an integrand that always raises. -/
def PassesErrors (quad : (ℝ → Res (List ℝ)) → ℝ → Res ℝ) : Prop := ∀ g e w, (∀ x, g x = .error e) → quad g w = .error e

/-- **C103, `F_tempcorr`.** With every integration routine that evaluates its integrand `F_tempcorr` raises TypeError: it calls
`mSumme` with a float instead of an array. -/
theorem C103_tempcorr {quad : (ℝ → Res (List ℝ)) → ℝ → Res ℝ} (hq : PassesErrors quad) (f : List ℝ → Res (List ℝ)) (deltaT : ℝ)
    {fuel : ℕ} (hf : 0 < fuel) : fTempcorr quad f deltaT fuel = some (.error .typeError) := by
  obtain ⟨n, rfl⟩ : ∃ n, fuel = n + 1 := ⟨fuel - 1, by omega⟩
  unfold fTempcorr tempcorrLoop
  rw [if_pos (by norm_num), hq (fun x => mSummeArg f (KArg.float x)) .typeError 1 fun x => rfl]

/-- **C103, `l_konvergenz`.** It never returns; for numbers `lmax1, lmax2` it raises AttributeError. -/
theorem C103_l_konvergenz (r1 r2 L : ℝ) (lssmax1 lssmax2 lmax1 lmax2 : AutoInt) :
    (∃ e, lKonvergenz r1 r2 L lssmax1 lssmax2 lmax1 lmax2 = .error e) ∧
    ∀ n1 n2, lmax1 = .num n1 → lmax2 = .num n2 → lKonvergenz r1 r2 L lssmax1 lssmax2 lmax1 lmax2 = .error .attributeError := by
  refine ⟨?_, fun n1 n2 h1 h2 => ?_⟩
  · unfold lKonvergenz
    cases h1 : sphereInit r1 r2 L lmax1 lssmax1 .automatic 1e-4 0 .lndet with
    | error e => exact ⟨e, by rw [error_bind]⟩
    | ok a =>
      rw [ok_bind]
      cases h2 : sphereInit r1 r2 L lmax2 lssmax2 .automatic 1e-4 0 .lndet with
      | error e => exact ⟨e, by rw [error_bind]⟩
      | ok b => exact ⟨_, by rw [ok_bind]⟩
  · subst h1 h2
    rfl

/-- A quadrature with one node passes errors on. -/
example : PassesErrors fun g w => (g w).map fun l => l.sum := fun g e w h => by simp only [h]; rfl

end CasSph
