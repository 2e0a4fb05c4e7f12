import Verif.Model.Thermo
import Mathlib.Tactic.Ring
import Mathlib.Algebra.Order.Floor.Semifield
import Mathlib.Tactic.Linarith
import Verif.Spec.Thermo

namespace CasSph

variable {σ : Type}

theorem arange_length (a b : ℤ) : (arange a b).length = (b + 1 - a).toNat := by simp [arange]

theorem arange_empty {a b : ℤ} (h : b < a) : arange a b = [] := by
  unfold arange
  rw [show (b + 1 - a).toNat = 0 by omega]; rfl

theorem arange_append {a b c : ℤ} (h1 : a ≤ b + 1) (h2 : b ≤ c) :
    arange a b ++ arange (b + 1) c = arange a c := by
  refine List.ext_getElem ?_ fun i h1 h2 => ?_
  · simp only [List.length_append, arange_length]; omega
  · simp only [List.length_append, arange_length] at h1 h2
    rw [List.getElem_append]
    split <;> rename_i h
    · simp [arange]
    · rw [arange_length] at h
      simp [arange]
      omega

theorem assignSlice_ok {P : List ℝ} {k len : ℕ} {vals : List ℝ} (hv : vals.length = len) (hk : len ≤ k) :
    assignSlice (P.map some ++ List.replicate k none) P.length len vals =
      .ok ((P ++ vals).map some ++ List.replicate (k - len) none) := by
  unfold assignSlice
  rw [if_pos hv]
  congr 1
  rw [List.take_append, List.drop_append, List.take_of_length_le (by simp),
    List.drop_of_length_le (l := List.map some P) (by simp)]
  simp

/-- Any successful assignment fills exactly the slice. -/
theorem assignSlice_filled {P : List ℝ} {k len : ℕ} {vals : List ℝ} {r : List (Option ℝ)} (hk : len ≤ k)
    (h : assignSlice (P.map some ++ List.replicate k none) P.length len vals = .ok r) :
    ∃ Q : List ℝ, Q.length = len ∧ r = (P ++ Q).map some ++ List.replicate (k - len) none := by
  unfold assignSlice at h
  split_ifs at h with hv
  · have := assignSlice_ok (P := P) hv hk
    unfold assignSlice at this
    rw [if_pos hv] at this
    rw [this] at h
    cases h
    exact ⟨vals, hv, rfl⟩
  · split at h
    · rename_i x
      have := assignSlice_ok (P := P) (vals := List.replicate len x) (by simp) hk
      unfold assignSlice at this
      rw [if_pos (by simp), List.map_replicate] at this
      rw [this] at h
      cases h
      exact ⟨_, by simp, rfl⟩
    · cases h

theorem sliceLoop_step {func : List ℤ → Proc σ (List ℝ)} {noffset nmax stepsize : ℤ} {hs : 0 < stepsize}
    {nmin : ℤ} {result : List (Option ℝ)} {s s' : σ} {vals : List ℝ} (h : nmin ≤ nmax)
    (hf : func (arange nmin (min (nmin + stepsize - 1) nmax)) s = (.ok vals, s')) :
    sliceLoop func noffset nmax stepsize hs nmin result s =
      match assignSlice result (noffset + nmin).toNat
          (min (nmin + stepsize - 1) nmax + 1 - nmin).toNat vals with
      | .error e => (.error e, s')
      | .ok r => sliceLoop func noffset nmax stepsize hs (min (nmin + stepsize - 1) nmax + 1) r s' := by
  rw [sliceLoop, dif_pos h]
  simp only [Proc.bind, hf]
  rfl

theorem sliceLoop_step_error {func : List ℤ → Proc σ (List ℝ)} {noffset nmax stepsize : ℤ}
    {hs : 0 < stepsize} {nmin : ℤ} {result : List (Option ℝ)} {s s' : σ} {e : PyErr} (h : nmin ≤ nmax)
    (hf : func (arange nmin (min (nmin + stepsize - 1) nmax)) s = (.error e, s')) :
    sliceLoop func noffset nmax stepsize hs nmin result s = (.error e, s') := by
  rw [sliceLoop, dif_pos h]
  simp only [Proc.bind, hf]

theorem sliceLoop_done {func : List ℤ → Proc σ (List ℝ)} {noffset nmax stepsize : ℤ} {hs : 0 < stepsize}
    {nmin : ℤ} {result : List (Option ℝ)} {s : σ} (h : ¬ nmin ≤ nmax) :
    sliceLoop func noffset nmax stepsize hs nmin result s = (.ok result, s) := by
  rw [sliceLoop, dif_neg h]; rfl

/-- Evaluation of a state preserving function that is elementwise on the slices that occur. -/
theorem sliceLoop_elementwise {func : List ℤ → Proc σ (List ℝ)} {f : ℤ → ℝ} {n0 nmax stepsize : ℤ}
    (hs : 0 < stepsize) (s : σ)
    (hf : ∀ a, n0 ≤ a → a ≤ nmax → stepsize ∣ a - n0 → func (arange a (min (a + stepsize - 1) nmax)) s =
      (.ok ((arange a (min (a + stepsize - 1) nmax)).map f), s))
    (k : ℕ) (nmin : ℤ) (P : List ℝ) (h0 : n0 ≤ nmin) (hd : nmin ≤ nmax → stepsize ∣ nmin - n0)
    (hk : k = (nmax + 1 - nmin).toNat) (hP : P.length = (nmin - n0).toNat) :
    sliceLoop func (-n0) nmax stepsize hs nmin (P.map some ++ List.replicate k none) s =
      (.ok ((P ++ (arange nmin nmax).map f).map some), s) := by
  induction k using Nat.strong_induction_on generalizing nmin P with
  | _ k ih =>
    by_cases h : nmin ≤ nmax
    · rw [sliceLoop_step h (hf _ h0 h (hd h))]
      rw [show (-n0 + nmin).toNat = P.length by rw [hP]; congr 1; omega,
        assignSlice_ok (by rw [List.length_map, arange_length]) (by omega)]
      dsimp only
      rw [ih (k - (min (nmin + stepsize - 1) nmax + 1 - nmin).toNat) (by omega) _ _ (by omega)
        (fun h' => by
          rw [show min (nmin + stepsize - 1) nmax + 1 - n0 = (nmin - n0) + stepsize by omega]
          exact (hd h).add (dvd_refl _))
        (by omega) (by rw [List.length_append, List.length_map, arange_length, hP]; omega)]
      rw [List.append_assoc, ← List.map_append, arange_append (by omega) (by omega)]
    · rw [sliceLoop_done h, arange_empty (by omega), show k = 0 by omega]
      simp

/-- Every entry of a returned array is initialised, whatever the function does. -/
theorem sliceLoop_initialised {func : List ℤ → Proc σ (List ℝ)} {n0 nmax stepsize : ℤ}
    (hs : 0 < stepsize) (k : ℕ) (nmin : ℤ) (P : List ℝ) (s : σ) (h0 : n0 ≤ nmin)
    (hk : k = (nmax + 1 - nmin).toNat) (hP : P.length = (nmin - n0).toNat) {r : List (Option ℝ)} {s' : σ}
    (h : sliceLoop func (-n0) nmax stepsize hs nmin (P.map some ++ List.replicate k none) s = (.ok r, s')) :
    ∃ Q : List ℝ, r = Q.map some ∧ Q.length = P.length + k := by
  induction k using Nat.strong_induction_on generalizing nmin P s with
  | _ k ih =>
    by_cases hn : nmin ≤ nmax
    · rcases hf : func (arange nmin (min (nmin + stepsize - 1) nmax)) s with ⟨v, s1⟩
      cases v with
      | error e => rw [sliceLoop_step_error hn hf] at h; cases h
      | ok vals =>
        rw [sliceLoop_step hn hf,
          show (-n0 + nmin).toNat = P.length by rw [hP]; congr 1; omega] at h
        cases ha : assignSlice (P.map some ++ List.replicate k none) P.length
            (min (nmin + stepsize - 1) nmax + 1 - nmin).toNat vals with
        | error e => rw [ha] at h; cases h
        | ok r1 =>
          rw [ha] at h
          dsimp only at h
          obtain ⟨Q, hQ, rfl⟩ := assignSlice_filled (by omega) ha
          obtain ⟨Q', h1, h2⟩ := ih (k - (min (nmin + stepsize - 1) nmax + 1 - nmin).toNat) (by omega) _ _ _
            (by omega) (by omega) (by rw [List.length_append, hQ, hP]; omega) h
          exact ⟨Q', h1, by rw [h2, List.length_append, hQ]; omega⟩
    · rw [sliceLoop_done hn] at h
      cases h
      refine ⟨P, ?_, by omega⟩
      rw [show k = 0 by omega]; simp

theorem allSome_map (l : List ℝ) : allSome (l.map some) = .ok l := by
  induction l with
  | nil => rfl
  | cons x l ih => rw [List.map_cons, allSome, ih]

theorem slicewiseEval_elementwise {func : List ℤ → Proc σ (List ℝ)} {f : ℤ → ℝ} {n0 nmax stepsize : ℤ}
    (hs : 0 < stepsize) (hn : n0 ≤ nmax + 1) (s : σ)
    (hf : ∀ a, n0 ≤ a → a ≤ nmax → stepsize ∣ a - n0 → func (arange a (min (a + stepsize - 1) nmax)) s =
      (.ok ((arange a (min (a + stepsize - 1) nmax)).map f), s)) :
    slicewiseEval func n0 nmax stepsize s = (.ok (((arange n0 nmax).map f).map some), s) := by
  unfold slicewiseEval
  rw [dif_pos hs, if_neg (by omega)]
  have := sliceLoop_elementwise hs s hf (nmax - n0 + 1).toNat n0 [] le_rfl (by simp) (by congr 1; omega) (by simp)
  simpa using this

theorem arange_cons {a b : ℤ} (h : a ≤ b) : arange a b = a :: arange (a + 1) b := by
  have := arange_append (a := a) (b := a) (c := b) (by omega) h
  rw [← this]
  simp [arange]

theorem arange_map_ne_nil {a b : ℤ} (h : a ≤ b) {β : Type} (g : ℤ → β) : (arange a b).map g ≠ [] := by
  rw [arange_cons h]; simp

/-- `Proc.bind` after a success. -/
theorem bind_ok {α β : Type} {p : Proc σ α} {f : α → Proc σ β} {s s' : σ} {a : α} (h : p s = (.ok a, s')) :
    Proc.bind p f s = f a s' := by simp [Proc.bind, h]

theorem bind_error {α β : Type} {p : Proc σ α} {f : α → Proc σ β} {s s' : σ} {e : PyErr}
    (h : p s = (.error e, s')) : Proc.bind p f s = (.error e, s') := by simp [Proc.bind, h]

theorem mSumme_ok (g : Geo) {ks : List ℝ} (h : ks ≠ []) {s : FT} (hs : g.trace = true ∨ s.geoFlag = false) :
    g.mSumme ks s = (g.vals ks, { s with geoFlag := false }) := by
  unfold Geo.mSumme
  rcases hs with h' | h'
  · simp [h', h]
  · cases s
    simp_all

theorem mSumme_flag (g : Geo) {ks : List ℝ} (h : ks ≠ []) {s : FT} (h1 : g.trace = false)
    (h2 : s.geoFlag = true) : g.mSumme ks s = (.error .attributeError, s) := by
  simp [Geo.mSumme, h, h1, h2]

/-- Calls on an object whose flags are clear leave the object unchanged. -/
theorem mSumme_state (g : Geo) (ks : List ℝ) {s : FT} (hs : s.geoFlag = false) :
    (g.mSumme ks s).2 = s := by
  cases s
  unfold Geo.mSumme
  simp_all
  split_ifs <;> rfl

theorem fAlle_state (g : Geo) (a : Bool) (ks : List ℝ) {s : FT} (h1 : s.forceFlag = false)
    (h2 : s.geoFlag = false) : (fAlle g a ks s).2 = s := by
  have hm := fun ks => mSumme_state g ks h2
  have hk : (g.mSummeK0 s).2 = s := by simp [Geo.mSummeK0, h2]
  cases ks with
  | nil => rfl
  | cons k rest =>
    unfold fAlle
    simp only [h1]
    split_ifs with c1 c2 c3 c4
    · unfold Proc.bind
      rcases h : g.mSummeK0 s with ⟨_ | _, s1⟩
      · rw [h] at hk; exact hk
      · rw [h] at hk; exact hk
    · unfold Proc.bind
      rcases h : g.mSummeK0 s with ⟨_ | _, s1⟩
      · rw [h] at hk; exact hk
      · rw [h] at hk; dsimp only at hk ⊢; subst hk
        have := hm rest
        rcases h : g.mSumme rest s1 with ⟨_ | _, s2⟩ <;> rw [h] at this <;> exact this
    · unfold Proc.bind
      have := hm [1e-10]
      rcases h : g.mSumme [1e-10] s with ⟨_ | _, s1⟩
      · rw [h] at this; exact this
      · rw [h] at this; dsimp only at this ⊢; subst this
        have := hm rest
        rcases h : g.mSumme rest s1 with ⟨_ | _, s2⟩ <;> rw [h] at this <;> exact this
    · exact absurd c4 (by simp)
    · exact hm _

theorem sliceLoop_state {func : List ℤ → Proc σ (List ℝ)} {noffset nmax stepsize : ℤ} {hs : 0 < stepsize}
    {s : σ} (hf : ∀ ns, (func ns s).2 = s) (k : ℕ) (nmin : ℤ) (hk : k = (nmax + 1 - nmin).toNat)
    (result : List (Option ℝ)) : (sliceLoop func noffset nmax stepsize hs nmin result s).2 = s := by
  induction k using Nat.strong_induction_on generalizing nmin result with
  | _ k ih =>
    by_cases h : nmin ≤ nmax
    · rcases hv : func (arange nmin (min (nmin + stepsize - 1) nmax)) s with ⟨v, s1⟩
      have h1 := hf (arange nmin (min (nmin + stepsize - 1) nmax))
      rw [hv] at h1
      dsimp only at h1
      subst h1
      cases v with
      | error e => rw [sliceLoop_step_error h hv]
      | ok vals =>
        rw [sliceLoop_step h hv]
        cases assignSlice result (noffset + nmin).toNat
            (min (nmin + stepsize - 1) nmax + 1 - nmin).toNat vals with
        | error e => rfl
        | ok r => exact ih _ (by omega) _ rfl r
    · rw [sliceLoop_done h]

theorem slicewiseEval_state {func : List ℤ → Proc σ (List ℝ)} {n0 nmax stepsize : ℤ}
    {s : σ} (hf : ∀ ns, (func ns s).2 = s) : (slicewiseEval func n0 nmax stepsize s).2 = s := by
  unfold slicewiseEval
  split_ifs
  · rfl
  · exact sliceLoop_state hf _ _ rfl _
  · rfl

theorem getF_state (p : FTParams) (n : ℤ) {s : FT} (h1 : s.forceFlag = false)
    (h2 : s.geoFlag = false) : (getFMatsubaras p n s).2 = s := by
  unfold getFMatsubaras
  split_ifs
  · have := slicewiseEval_state (s := s) (n0 := n) (nmax := p.nmax) (stepsize := 50)
      (func := fun ns => fAlle p.geo p.analyticN0 (ns.map fun n : ℤ => p.deltaT * (n : ℝ)))
      (fun ns => fAlle_state p.geo p.analyticN0 _ h1 h2)
    unfold Proc.bind
    split <;> rename_i h <;> rw [h] at this <;> exact this
  · rfl

/-- The contribution of Matsubara number `n`. -/
noncomputable def mTerm (c : ℝ) (φ : ℝ → ℝ) (dT : ℝ) (n : ℤ) : ℝ := if n = 0 then c else φ (dT * n)

theorem getF_elementwise (p : FTParams) (hp : p.nprocs.isZero) (hT : p.deltaT ≠ 0) (hN : 0 ≤ p.nmax) (c : ℝ)
    (φ : ℝ → ℝ) (s : FT)
    (h0 : ∀ rest, (rest = [] → p.nmax = 0) →
      fAlle p.geo p.analyticN0 (0 :: rest) s = (.ok (c :: rest.map φ), s))
    (h1 : 50 ≤ p.nmax → ∀ k rest, k ≠ 0 →
      fAlle p.geo p.analyticN0 (k :: rest) s = (.ok ((k :: rest).map φ), s)) :
    getFMatsubaras p 0 s = (.ok ((arange 0 p.nmax).map (mTerm c φ p.deltaT)), s) := by
  unfold getFMatsubaras
  rw [if_pos hp]
  rw [bind_ok (slicewiseEval_elementwise (f := mTerm c φ p.deltaT) (by norm_num) (by omega) s ?_),
    allSome_map]
  intro a ha0 ha hda
  have hrest : ∀ a b : ℤ, 0 < a → ((arange a b).map fun n : ℤ => p.deltaT * (n : ℝ)).map φ =
      (arange a b).map (mTerm c φ p.deltaT) := by
    intro a b hab
    rw [List.map_map]
    refine List.map_congr_left fun n hn => ?_
    simp only [arange, List.mem_map, List.mem_range] at hn
    obtain ⟨i, _, rfl⟩ := hn
    simp only [Function.comp, mTerm]
    rw [if_neg (by omega)]
  rcases eq_or_lt_of_le ha0 with rfl | hlt
  · rw [arange_cons (by omega), List.map_cons]
    simp only [Int.cast_zero, mul_zero]
    rw [h0, hrest _ _ (by norm_num)]
    · simp [mTerm]
    · intro h
      by_contra hne
      exact absurd h (arange_map_ne_nil (by omega) _)
  · by_cases h50 : 50 ≤ p.nmax
    · rw [arange_cons (by omega), List.map_cons, h1 h50 _ _ (mul_ne_zero hT (by exact_mod_cast hlt.ne')),
        List.map_cons, hrest _ _ (by omega), List.map_cons]
      simp [mTerm, hlt.ne']
    · obtain ⟨q, hq⟩ := hda
      omega

theorem strideSum_eq {f : List ℝ} {i N : ℕ} (hi : 0 < i) (hf : f.length = N + 1) :
    strideSum f i = ∑ j ∈ Finset.range (N / i + 1), f.getD (j * i) 0 := by
  unfold strideSum
  rw [← Finset.sum_filter]
  have : (Finset.range f.length).filter (i ∣ ·) = (Finset.range (N / i + 1)).image (· * i) := by
    ext j
    simp only [Finset.mem_filter, Finset.mem_range, Finset.mem_image, hf]
    constructor
    · rintro ⟨h1, q, rfl⟩
      refine ⟨q, ?_, by ring⟩
      have : q ≤ N / i := by
        rw [Nat.le_div_iff_mul_le hi]; nlinarith
      omega
    · rintro ⟨q, h1, rfl⟩
      have : q * i ≤ N := by
        rw [← Nat.le_div_iff_mul_le hi]; omega
      exact ⟨by omega, Dvd.intro_left q rfl⟩
  rw [this, Finset.sum_image]
  intro a _ b _ hab
  exact Nat.eq_of_mul_eq_mul_right hi hab

theorem sum_range_succ_eq_Icc (g : ℕ → ℝ) (M : ℕ) :
    ∑ j ∈ Finset.range (M + 1), g j = g 0 + ∑ n ∈ Finset.Icc 1 M, g n := by
  rw [Finset.range_eq_Ico, Finset.sum_eq_sum_Ico_succ_bot (by omega)]
  congr 1

theorem arange_getD (N : ℕ) (g : ℤ → ℝ) {j : ℕ} (hj : j ≤ N) :
    ((arange 0 N).map g).getD j 0 = g j := by
  unfold arange
  rw [List.map_map, List.getD_eq_getElem?_getD, List.getElem?_map, List.getElem?_range (by omega)]
  simp

theorem thermoSum_eq_spec {dT : ℝ} (hT : 0 < dT) (N i : ℕ) (hi : 0 < i) (c : ℝ) (φ : ℝ → ℝ) :
    dT * (i : ℝ) * strideSum ((arange 0 N).map (mTerm c φ dT)) i =
      Spec.matsubaraSum c φ (i * dT) (N * dT) := by
  rw [strideSum_eq (N := N) hi (by simp [arange]), sum_range_succ_eq_Icc]
  unfold Spec.matsubaraSum
  have hi' : (0 : ℝ) < i := by exact_mod_cast hi
  have hfl : ⌊(N : ℝ) * dT / (i * dT)⌋₊ = N / i := by
    rw [mul_div_mul_right _ _ hT.ne', Nat.floor_div_natCast, Nat.floor_natCast]
  rw [hfl, mul_comm dT]
  congr 2
  · rw [Nat.zero_mul, arange_getD _ _ (Nat.zero_le _)]
    simp [mTerm]
  · refine Finset.sum_congr rfl fun n hn => ?_
    rw [Finset.mem_Icc] at hn
    have h1 : n * i ≤ N := by rw [← Nat.le_div_iff_mul_le hi]; omega
    rw [arange_getD _ _ h1, mTerm, if_neg (by exact_mod_cast (Nat.mul_pos hn.1 hi).ne')]
    push_cast
    congr 1; ring

/-- `fAlle` on an object without flags, zero first. -/
theorem fAlle_zero_analytic (g : Geo) {φ : ℝ → ℝ} {z : ℝ} (hz : g.k0 = .ok z)
    (hv : ∀ ks, ks ≠ [] → g.vals ks = .ok (ks.map φ)) (rest : List ℝ) {s : FT} (h1 : s.forceFlag = false)
    (h2 : s.geoFlag = false) : fAlle g true (0 :: rest) s = (.ok (0.5 * z :: rest.map φ), s) := by
  simp only [fAlle]
  rw [if_pos trivial, if_pos ⟨h1, trivial⟩, bind_ok (a := z) (s' := s) (by simp [Geo.mSummeK0, h2, hz])]
  split_ifs with h
  · subst h; rfl
  · rw [bind_ok (mSumme_ok g h (.inr h2) |>.trans (by rw [hv _ h]))]
    cases s
    simp_all [Proc.pure]

/-- `fAlle`, zero first, when the zero-frequency value is approximated (flag set or not analytic). -/
theorem fAlle_zero_numeric (g : Geo) {φ : ℝ → ℝ} (a : Bool)
    (hv : ∀ ks, ks ≠ [] → g.vals ks = .ok (ks.map φ)) {rest : List ℝ} (hr : rest ≠ []) {s : FT}
    (h1 : ¬ (s.forceFlag = false ∧ a = true))
    (h2 : s.geoFlag = false) : fAlle g a (0 :: rest) s = (.ok (0.5 * φ 1e-10 :: rest.map φ), s) := by
  simp only [fAlle]
  have hs : { s with geoFlag := false } = s := by cases s; simp_all
  rw [if_pos trivial, if_neg h1, bind_ok (mSumme_ok g (by simp) (.inr h2) |>.trans (by rw [hv _ (by simp)])),
    hs, bind_ok (mSumme_ok g hr (.inr h2) |>.trans (by rw [hv _ hr])), hs]
  simp [Proc.pure]

theorem fAlle_pos (g : Geo) (a : Bool) {φ : ℝ → ℝ} (hv : ∀ ks, ks ≠ [] → g.vals ks = .ok (ks.map φ))
    {k : ℝ} (hk : k ≠ 0) (rest : List ℝ) {s : FT} (h1 : s.forceFlag = false)
    (h2 : s.geoFlag = false) : fAlle g a (k :: rest) s = (.ok ((k :: rest).map φ), s) := by
  simp only [fAlle]
  have hs : { s with geoFlag := false } = s := by cases s; simp_all
  rw [if_neg hk, h1, if_neg (by simp), mSumme_ok g (by simp) (.inr h2), hv _ (by simp), hs]

theorem sliceLoop_pres {func : List ℤ → Proc σ (List ℝ)} {noffset nmax stepsize : ℤ} {hs : 0 < stepsize}
    {P : σ → Prop} (hf : ∀ ns s, P s → P (func ns s).2) (k : ℕ) (nmin : ℤ) (hk : k = (nmax + 1 - nmin).toNat)
    (result : List (Option ℝ)) (s : σ) (h0 : P s) :
    P (sliceLoop func noffset nmax stepsize hs nmin result s).2 := by
  induction k using Nat.strong_induction_on generalizing nmin result s with
  | _ k ih =>
    by_cases h : nmin ≤ nmax
    · rcases hv : func (arange nmin (min (nmin + stepsize - 1) nmax)) s with ⟨v, s1⟩
      have h1 := hf (arange nmin (min (nmin + stepsize - 1) nmax)) s h0
      rw [hv] at h1
      cases v with
      | error e => rw [sliceLoop_step_error h hv]; exact h1
      | ok vals =>
        rw [sliceLoop_step h hv]
        cases assignSlice result (noffset + nmin).toNat
            (min (nmin + stepsize - 1) nmax + 1 - nmin).toNat vals with
        | error e => exact h1
        | ok r => exact ih _ (by omega) _ rfl r _ h1
    · rw [sliceLoop_done h]; exact h0

theorem bind_pres {α β : Type} {P : σ → Prop} {p : Proc σ α} {f : α → Proc σ β}
    (hp : ∀ s, P s → P (p s).2) (hf : ∀ a s, P s → P (f a s).2) (s : σ) (h : P s) : P (Proc.bind p f s).2 := by
  unfold Proc.bind
  have := hp s h
  rcases hq : p s with ⟨_ | a, s1⟩
  · rw [hq] at this; exact this
  · rw [hq] at this; exact hf a s1 this

/-- Two objects that differ at most in the force flag of the geometry. -/
def SameFT (s s' : FT) : Prop :=
  s'.fMats = s.fMats ∧ s'.forceMats = s.forceMats ∧ s'.forceFlag = s.forceFlag

theorem mSumme_same (g : Geo) (ks : List ℝ) (s s0 : FT) (h : SameFT s0 s) : SameFT s0 (g.mSumme ks s).2 := by
  obtain ⟨h1, h2, h3⟩ := h
  unfold Geo.mSumme
  dsimp only
  split_ifs <;> exact ⟨h1, h2, h3⟩

theorem mSummeK0_same (g : Geo) (s s0 : FT) (h : SameFT s0 s) : SameFT s0 (g.mSummeK0 s).2 := by
  unfold Geo.mSummeK0
  split_ifs <;> exact h

theorem mSumTraceDot_same (g : Geo) (ks : List ℝ) (s s0 : FT) (h : SameFT s0 s) :
    SameFT s0 (g.mSumTraceDot ks s).2 := by
  unfold Geo.mSumTraceDot
  obtain ⟨h1, h2, h3⟩ := h
  split <;> exact ⟨h1, h2, h3⟩

theorem fAlle_same (g : Geo) (a : Bool) (ks : List ℝ) (s s0 : FT) (h : SameFT s0 s) :
    SameFT s0 (fAlle g a ks s).2 := by
  cases ks with
  | nil => exact h
  | cons k rest =>
    simp only [fAlle]
    split_ifs
    · exact bind_pres (P := SameFT s0) (mSummeK0_same g · s0) (fun _ _ h => h) s h
    · exact bind_pres (P := SameFT s0) (mSummeK0_same g · s0)
        (fun _ => bind_pres (P := SameFT s0) (mSumme_same g rest · s0) fun _ _ h => h) s h
    · exact bind_pres (P := SameFT s0) (mSumme_same g _ · s0)
        (fun _ => bind_pres (P := SameFT s0) (mSumme_same g rest · s0) fun _ _ h => h) s h
    · exact mSumTraceDot_same g _ s s0 h
    · exact mSumme_same g _ s s0 h

theorem getF_same (p : FTParams) (n : ℤ) (s : FT) : SameFT s (getFMatsubaras p n s).2 := by
  have h0 : SameFT s s := ⟨rfl, rfl, rfl⟩
  unfold getFMatsubaras
  split_ifs
  · refine bind_pres (P := SameFT s) (fun s1 h1 => ?_) (fun _ _ h => h) s h0
    unfold slicewiseEval
    split_ifs
    · exact h1
    · exact sliceLoop_pres (P := SameFT s) (fun ns s2 h2 => fAlle_same p.geo p.analyticN0 _ s2 s h2) _ _ rfl _ s1 h1
    · exact h1
  · exact h0

end CasSph
