import Verif.Lemmas.CutOff
import Verif.Props.Distance

/-! # C111: dependence of the energies on the cut-offs `lmax` and `lssmax` -/

namespace CasSph

open Spec Filter Topology MeasureTheory Set
open scoped Classical

variable {P : PairIn} {frac : ℝ → ℝ → ℝ} {q : Quad} {deltaT : ℝ} {nmax : ℤ}

theorem ne_neg_sign {m md : Material} {k σ : ℝ} (h : DenseSign m md k σ) : σ ≠ -σ := by
  rcases h.sign with e | e <;> rw [e] <;> norm_num

theorem pairSum_cut_contrast (h : PairOK P) {k : ℝ} (hk : 0 < k) {a b a' b' : ℕ} (ha : 1 ≤ a) (hb : a ≤ b) (haa : a ≤ a') (hbb : b ≤ b') (hb' : a' ≤ b') :
    (EqualContrast P.mat1 P.mat2 P.mat3 → pairSum (P.cut a' b') k ≤ pairSum (P.cut a b) k) ∧
    (OppositeContrast P.mat1 P.mat2 P.mat3 → pairSum (P.cut a b) k ≤ pairSum (P.cut a' b') k) := by
  refine ⟨fun hc => ?_, fun hc => ?_⟩
  · obtain ⟨σ, e1, e2⟩ := hc.finite k hk
    exact ((pairSum_cut h hk e1 e2).1 a b a' b' ha hb haa hbb hb').1 rfl
  · obtain ⟨σ, e1, e2⟩ := hc.finite k hk
    exact ((pairSum_cut h hk e1 e2).1 a b a' b' ha hb haa hbb hb').2 (ne_neg_sign e1)

theorem pairSum_sign (h : PairOK P) {k : ℝ} (hk : 0 < k) :
    (EqualContrast P.mat1 P.mat2 P.mat3 → pairSum P k ≤ 0) ∧ (OppositeContrast P.mat1 P.mat2 P.mat3 → 0 ≤ pairSum P k) := by
  refine ⟨fun hc => (pairSum_nonpos h hc hk).1, fun hc => ?_⟩
  obtain ⟨σ, e1, e2⟩ := hc.finite k hk
  have key := fun m (hm' : m ≤ P.lmax) => ((lnDetV_val h (m := m) (by have := h.hl; omega) hk).2 σ (-σ) e1 e2).2 (ne_neg_sign e1)
  have h0 := key 0 (by omega)
  have hs := Finset.sum_nonneg fun m (hm' : m ∈ Finset.Icc 1 P.lmax) => key m (Finset.mem_Icc.mp hm').2
  unfold pairSum
  linarith

/-- **C111, `mSumme`.** Complete sums over `m`: raising the cut-offs makes an attractive value more attractive and a repulsive one more repulsive. -/
theorem C111_mSumme (h : PairOK P) (hprec : P.precision ≤ 0) {a b : ℕ} (ha : P.lmax ≤ a) (hb : P.lssmax ≤ b) (hab : a ≤ b) {ks : List ℝ}
    (hne : ks ≠ []) (hk : ∀ k ∈ ks, 0 < k) :
    ∃ vs ws, pairVals exactBes P ks = .ok vs ∧ pairVals exactBes (P.cut a b) ks = .ok ws ∧ vs.length = ks.length ∧ ws.length = ks.length ∧
      ∀ (j : ℕ) (x y : ℝ), vs[j]? = some x → ws[j]? = some y →
        (EqualContrast P.mat1 P.mat2 P.mat3 → y ≤ x ∧ x ≤ 0) ∧ (OppositeContrast P.mat1 P.mat2 P.mat3 → 0 ≤ x ∧ x ≤ y) := by
  have h' := h.cut (h.hl.trans ha) hab
  refine ⟨_, _, pairVals_sum h hprec hne hk, pairVals_sum h' hprec hne hk, by simp, by simp, fun j x y hx hy => ?_⟩
  rw [List.getElem?_map, Option.map_eq_some_iff] at hx hy
  obtain ⟨k, hj, rfl⟩ := hx
  obtain ⟨k', hj', rfl⟩ := hy
  rw [hj] at hj'
  injection hj' with e
  subst e
  have hk0 : 0 < k := hk k (List.mem_of_getElem? hj)
  have hm := pairSum_cut_contrast h hk0 h.hl h.hls ha hb hab
  rw [cut_self] at hm
  exact ⟨fun hc => ⟨hm.1 hc, (pairSum_sign h hk0).1 hc⟩, fun hc => ⟨(pairSum_sign h hk0).2 hc, hm.2 hc⟩⟩

/-- **C111, `mSumme_k0`.** The same at zero frequency. -/
theorem C111_mSumme_k0 (h : PairOK P) (hprec : P.precision ≤ 0) {a b : ℕ} (ha : P.lmax ≤ a) (hb : P.lssmax ≤ b) (hab : a ≤ b) :
    ∃ z z', pairK0 frac P = .ok z ∧ pairK0 frac (P.cut a b) = .ok z' ∧
      (EqualContrast P.mat1 P.mat2 P.mat3 → z' ≤ z ∧ z ≤ 0) ∧ (OppositeContrast P.mat1 P.mat2 P.mat3 → 0 ≤ z ∧ z ≤ z') := by
  obtain ⟨z, hz, hm, -⟩ := pairK0_cut h hprec frac
  have h1 := hz _ _ h.hl h.hls
  rw [cut_self] at h1
  have h2 := hm _ _ a b h.hl h.hls ha hb hab
  obtain ⟨z₀, hz₀, -, s1, s2⟩ := C100_mSumme_k0 h frac
  rw [h1] at hz₀
  injection hz₀ with e
  subst e
  exact ⟨_, _, h1, hz _ _ (h.hl.trans ha) hab, fun hc => ⟨h2.1 hc, s1 hc⟩, fun hc => ⟨s2 hc, h2.2 hc⟩⟩

/-- **C111, `free_energy`.** -/
theorem C111_free_energy {p p' : FTParams} (h : PairOK P) (hprec : P.precision ≤ 0) {a b : ℕ} (ha : P.lmax ≤ a) (hb : P.lssmax ≤ b) (hab : a ≤ b)
    (hg : p.geo = pairGeo exactBes frac P) (hp' : p' = { p with geo := pairGeo exactBes frac (P.cut a b) }) (hp : p.nprocs.isZero)
    (han : p.analyticN0 = true) (hT : 0 < p.deltaT) (hN : 0 ≤ p.nmax) :
    ∃ F F' : List ℝ, (freeEnergy p FT.fresh).1 = .ok F ∧ (freeEnergy p' FT.fresh).1 = .ok F' ∧ F.length = p.maxstep.toNat ∧ F'.length = p.maxstep.toNat ∧
      ∀ (i : ℕ) (x y : ℝ), F[i]? = some x → F'[i]? = some y →
        (EqualContrast P.mat1 P.mat2 P.mat3 → y ≤ x ∧ x ≤ 0) ∧ (OppositeContrast P.mat1 P.mat2 P.mat3 → 0 ≤ x ∧ x ≤ y) := by
  have h' := h.cut (h.hl.trans ha) hab
  obtain ⟨z, z', hz, hz', z1, z2⟩ := C111_mSumme_k0 (frac := frac) h hprec ha hb hab
  obtain ⟨F, F', hF, hF', hl, hl', hcmp⟩ := free_compare h h' hprec hprec hz hz' hg hp' hp han hT hN
  obtain ⟨G', G, hG', hG, -, -, hcmp'⟩ := free_compare (p := p') (p' := p) h' h hprec hprec hz' hz (by rw [hp']) (by rw [hp', ← hg])
    (by rw [hp']; exact hp) (by rw [hp']; exact han) (by rw [hp']; exact hT) (by rw [hp']; exact hN)
  rw [hF] at hG
  rw [hF'] at hG'
  injection hG with hG
  injection hG' with hG'
  subst hG hG'
  obtain ⟨G, hG, -, hG2⟩ := C100_free_energy (p := p) h hg hp han hT hN
  rw [hF] at hG
  injection hG with hG
  subst hG
  refine ⟨F, F', hF, hF', hl, hl', fun i x y hx hy => ⟨fun hc => ⟨?_, (hG2 i x hx).2.1 hc⟩, fun hc => ⟨(hG2 i x hx).2.2 hc, ?_⟩⟩⟩
  · have hi : (0 : ℝ) < (i + 1) * p'.deltaT := by rw [hp']; have : 0 < p.deltaT := hT; positivity
    simpa using (hcmp' i y x hy hx).1 1 (by simpa using (z1 hc).1) fun k hk => by
      have := (pairSum_cut_contrast h (hi.trans_le hk) h.hl h.hls ha hb hab).1 hc
      rw [cut_self] at this
      simpa using this
  · have hi : (0 : ℝ) < (i + 1) * p.deltaT := by positivity
    simpa using (hcmp i x y hx hy).1 1 (by simpa using (z2 hc).2) fun k hk => by
      have := (pairSum_cut_contrast h (hi.trans_le hk) h.hl h.hls ha hb hab).2 hc
      rw [cut_self] at this
      simpa using this

/-- **C111, `e0`.** -/
theorem C111_zero_temperature (h : PairOK P) (hprec : P.precision ≤ 0) {c d : ℕ} (hc : P.lmax ≤ c) (hd : P.lssmax ≤ d) (hcd : c ≤ d)
    (hq : q.Exact) {a : ℝ} (ha : 0 ≤ a) {b : Upper} (hb : ∀ x, b = .num x → a ≤ x) (hb' : b = .none → a ≤ nmax * deltaT) :
    ∃ E E', e0 q (pairAt exactBes frac P) deltaT nmax a b = .ok E ∧ e0 q (pairAt exactBes frac (P.cut c d)) deltaT nmax a b = .ok E' ∧
      (EqualContrast P.mat1 P.mat2 P.mat3 → E' ≤ E ∧ E ≤ 0) ∧ (OppositeContrast P.mat1 P.mat2 P.mat3 → 0 ≤ E ∧ E ≤ E') := by
  have h' := h.cut (h.hl.trans hc) hcd
  obtain ⟨s1, s2⟩ := e0_set (nmax := nmax) (deltaT := deltaT) ha b
  have hm := fun k (hk : 0 < k) => pairSum_cut_contrast h hk h.hl h.hls hc hd hcd
  simp only [cut_self] at hm
  refine ⟨_, _, e0_value h hq ha hb hb', e0_value h' hq ha hb hb', fun hco => ⟨?_, ?_⟩, fun hco => ⟨?_, ?_⟩⟩
  · exact (e0_compare h' h hprec hprec (fun k hk => (hm k hk).1 hco) s1 s2).1
  · refine setIntegral_nonpos s2 fun k hk => ?_
    rw [pairVal_sum h hprec (s1 hk)]
    exact (pairSum_sign h (s1 hk)).1 hco
  · refine setIntegral_nonneg s2 fun k hk => ?_
    rw [pairVal_sum h hprec (s1 hk)]
    exact (pairSum_sign h (s1 hk)).2 hco
  · exact (e0_compare h h' hprec hprec (fun k hk => (hm k hk).2 hco) s1 s2).1

/-! ## Convergence -/

/-- The limit of the complete sum over `m` for infinite cut-offs. -/
theorem pairSum_limit (h : PairOK P) {k : ℝ} (hk : 0 < k) : ∃ v, ∀ {lm ls : ℕ → ℕ}, Tendsto lm atTop atTop → (∀ i, 1 ≤ lm i) → (∀ i, lm i ≤ ls i) →
    Tendsto (fun i => pairSum (P.cut (lm i) (ls i)) k) atTop (𝓝 v) := by
  obtain ⟨σa, ea⟩ := dense_total h.m1 h.m3 hk
  obtain ⟨σb, eb⟩ := dense_total h.m2 h.m3 hk
  obtain ⟨v, hv⟩ := (pairSum_cut h hk ea eb).2
  exact ⟨v, fun h1 h2 h3 => hv h1 h2 h3⟩

/-- A value that is monotone in the cut-offs is beyond none of them in the limit. -/
theorem cut_limit_le {f : ℕ → ℕ → ℝ} {v : ℝ} {a b : ℕ} (ha : 1 ≤ a) (hab : a ≤ b)
    (hv : ∀ {lm ls : ℕ → ℕ}, Tendsto lm atTop atTop → (∀ i, 1 ≤ lm i) → (∀ i, lm i ≤ ls i) → Tendsto (fun i => f (lm i) (ls i)) atTop (𝓝 v))
    (hm : ∀ a' b', a ≤ a' → b ≤ b' → a' ≤ b' → f a' b' ≤ f a b) : v ≤ f a b := by
  have t := hv (lm := fun i => a + i) (ls := fun i => b + i) (tendsto_atTop_mono (fun i => Nat.le_add_left i a) tendsto_id) (fun i => by omega) (fun i => by omega)
  exact le_of_tendsto t (.of_forall fun i => hm _ _ (by omega) (by omega) (by omega))

/-- **C111, limit of `free_energy`.** At every temperature the free energy converges when the cut-offs grow without bound, to the same limit along all
sequences `lmax → ∞`, `lssmax ≥ lmax`; the limit obeys the bound of C100, and no finite cut-offs go beyond it. -/
theorem C111_free_energy_limit {p : FTParams} (h : PairOK P) (hprec : P.precision ≤ 0) (hp : p.nprocs.isZero) (han : p.analyticN0 = true)
    (hT : 0 < p.deltaT) (hN : 0 ≤ p.nmax) {i : ℕ} (hi : (i : ℤ) < p.maxstep) :
    ∃ v, |v| ≤ freeBound P.r1 P.r2 P.L ((i + 1) * p.deltaT) ∧
      (∀ lm ls : ℕ → ℕ, Tendsto lm atTop atTop → (∀ n, 1 ≤ lm n) → (∀ n, lm n ≤ ls n) → ∀ F : ℕ → List ℝ,
        (∀ n, (freeEnergy { p with geo := pairGeo exactBes frac (P.cut (lm n) (ls n)) } FT.fresh).1 = .ok (F n)) →
        Tendsto (fun n => (F n).getD i 0) atTop (𝓝 v)) ∧
      ∀ (a b : ℕ), 1 ≤ a → a ≤ b → ∀ F, (freeEnergy { p with geo := pairGeo exactBes frac (P.cut a b) } FT.fresh).1 = .ok F →
        (EqualContrast P.mat1 P.mat2 P.mat3 → v ≤ F.getD i 0) ∧ (OppositeContrast P.mat1 P.mat2 P.mat3 → F.getD i 0 ≤ v) := by
  obtain ⟨z, hz, hzm, zl, hzl⟩ := pairK0_cut h hprec frac
  -- the value as a function of the cut-offs
  obtain ⟨f, hf⟩ : ∃ f : ℕ → ℕ → ℝ, f = fun a b => (i + 1 : ℕ) * p.deltaT * (0.5 * z a b +
    ∑ j ∈ Finset.range (p.nmax.toNat / (i + 1)), pairSum (P.cut a b) (p.deltaT * ((j + 1) * (i + 1) : ℕ))) := ⟨_, rfl⟩
  have hpos : ∀ j : ℕ, 0 < p.deltaT * ((j + 1) * (i + 1) : ℕ) := fun j => by positivity
  have hval : ∀ a b, 1 ≤ a → a ≤ b → ∀ F, (freeEnergy { p with geo := pairGeo exactBes frac (P.cut a b) } FT.fresh).1 = .ok F →
      F.getD i 0 = f a b ∧ F[i]? = some (f a b) := by
    intro a b ha hab F hF
    obtain ⟨G, hG, hlen, hv⟩ := free_values (p := { p with geo := pairGeo exactBes frac (P.cut a b) }) (h.cut ha hab) (hz a b ha hab) rfl hp han hT hN
    rw [hF] at hG
    injection hG with hG
    subst hG
    have e := hv i (by rw [hlen]; simp only; omega)
    simp only at e
    have hs : ∀ j ∈ Finset.range (p.nmax.toNat / (i + 1)), sliceVal (pairGeo exactBes frac (P.cut a b)) p.deltaT p.nmax.toNat ((j + 1) * (i + 1)) =
        pairSum (P.cut a b) (p.deltaT * ((j + 1) * (i + 1) : ℕ)) := fun j hj =>
      sliceVal_sum (h.cut ha hab) hprec hT (Nat.one_le_iff_ne_zero.mpr (by positivity))
        ((Nat.mul_le_mul_right _ (Finset.mem_range.mp hj)).trans (Nat.div_mul_le_self _ _))
    rw [Finset.sum_congr rfl hs] at e
    rw [List.getD_eq_getElem?_getD, e, hf]
    exact ⟨rfl, rfl⟩
  choose! S hS using fun k (hk : 0 < k) => pairSum_limit h hk
  obtain ⟨v, hlim⟩ : ∃ v, ∀ {lm ls : ℕ → ℕ}, Tendsto lm atTop atTop → (∀ n, 1 ≤ lm n) → (∀ n, lm n ≤ ls n) →
      Tendsto (fun n => f (lm n) (ls n)) atTop (𝓝 v) := by
    refine ⟨(i + 1 : ℕ) * p.deltaT * (0.5 * zl + ∑ j ∈ Finset.range (p.nmax.toNat / (i + 1)), S (p.deltaT * ((j + 1) * (i + 1) : ℕ))), fun {lm ls} h1 h2 h3 => ?_⟩
    rw [hf]
    exact (((hzl h1 h2 h3).const_mul 0.5).add (tendsto_finsetSum _ fun j _ => hS _ (hpos j) h1 h2 h3)).const_mul _
  have hex : ∀ a b, 1 ≤ a → a ≤ b → ∃ F, (freeEnergy { p with geo := pairGeo exactBes frac (P.cut a b) } FT.fresh).1 = .ok F ∧
      |f a b| ≤ freeBound P.r1 P.r2 P.L ((i + 1) * p.deltaT) := by
    intro a b ha hab
    obtain ⟨F, hF, -, hB⟩ := C100_free_energy (p := { p with geo := pairGeo exactBes frac (P.cut a b) }) (h.cut ha hab) rfl hp han hT hN
    exact ⟨F, hF, (hB i _ (hval a b ha hab F hF).2).1⟩
  refine ⟨v, ?_, fun lm ls h1 h2 h3 F hF => ?_, fun a b ha hab F hF => ?_⟩
  · have t := hlim (lm := fun n => n + 1) (ls := fun n => n + 1) (tendsto_add_atTop_nat 1) (fun n => by omega) (fun n => le_rfl)
    exact le_of_tendsto t.abs (.of_forall fun n => (hex (n + 1) (n + 1) (by omega) le_rfl).choose_spec.2)
  · refine (hlim h1 h2 h3).congr fun n => ?_
    exact (hval _ _ (h2 n) (h3 n) _ (hF n)).1.symm
  · rw [(hval a b ha hab F hF).1]
    have hd : (0 : ℝ) < (i + 1 : ℕ) * p.deltaT := by positivity
    refine ⟨fun hc => ?_, fun hc => ?_⟩
    · refine cut_limit_le (f := f) ha hab hlim fun a' b' haa hbb hab' => ?_
      rw [hf]
      refine mul_le_mul_of_nonneg_left (add_le_add ?_ (Finset.sum_le_sum fun j _ => (pairSum_cut_contrast h (hpos j) ha hab haa hbb hab').1 hc)) hd.le
      have := (hzm a b a' b' ha hab haa hbb hab').1 hc
      linarith
    · have := cut_limit_le (f := fun a b => -f a b) ha hab (fun h1 h2 h3 => (hlim h1 h2 h3).neg) fun a' b' haa hbb hab' => by
        rw [neg_le_neg_iff, hf]
        refine mul_le_mul_of_nonneg_left (add_le_add ?_ (Finset.sum_le_sum fun j _ => (pairSum_cut_contrast h (hpos j) ha hab haa hbb hab').2 hc)) hd.le
        have := (hzm a b a' b' ha hab haa hbb hab').2 hc
        linarith
      linarith

/-- **C111, limit of `e0`.** -/
theorem C111_zero_temperature_limit (h : PairOK P) (hprec : P.precision ≤ 0) (hq : q.Exact) {a : ℝ} (ha : 0 ≤ a) {b : Upper}
    (hb : ∀ x, b = .num x → a ≤ x) (hb' : b = .none → a ≤ nmax * deltaT) :
    ∃ v, |v| ≤ zeroBound P.r1 P.r2 P.L a ∧
      (∀ lm ls : ℕ → ℕ, Tendsto lm atTop atTop → (∀ n, 1 ≤ lm n) → (∀ n, lm n ≤ ls n) → ∀ E : ℕ → ℝ,
        (∀ n, e0 q (pairAt exactBes frac (P.cut (lm n) (ls n))) deltaT nmax a b = .ok (E n)) → Tendsto E atTop (𝓝 v)) ∧
      ∀ (c d : ℕ), 1 ≤ c → c ≤ d → ∀ E, e0 q (pairAt exactBes frac (P.cut c d)) deltaT nmax a b = .ok E →
        (EqualContrast P.mat1 P.mat2 P.mat3 → v ≤ E) ∧ (OppositeContrast P.mat1 P.mat2 P.mat3 → E ≤ v) := by
  obtain ⟨s, s1, s2, hval⟩ : ∃ s : Set ℝ, s ⊆ Ioi 0 ∧ MeasurableSet s ∧ ∀ c d, 1 ≤ c → c ≤ d →
      e0 q (pairAt exactBes frac (P.cut c d)) deltaT nmax a b = .ok (∫ k in s, pairVal (P.cut c d) k) :=
    ⟨_, (e0_set (nmax := nmax) (deltaT := deltaT) ha b).1, (e0_set (nmax := nmax) (deltaT := deltaT) ha b).2,
      fun c d hc hd => e0_value (h.cut hc hd) hq ha hb hb'⟩
  choose! S hS using fun k (hk : 0 < k) => pairSum_limit h hk
  have hdd : 0 < P.L - (P.r1 + P.r2) := sub_pos.mpr h.sep
  have hlim : ∀ {lm ls : ℕ → ℕ}, Tendsto lm atTop atTop → (∀ n, 1 ≤ lm n) → (∀ n, lm n ≤ ls n) →
      Tendsto (fun n => ∫ k in s, pairVal (P.cut (lm n) (ls n)) k) atTop (𝓝 (∫ k in s, S k)) := by
    intro lm ls h1 h2 h3
    refine tendsto_integral_of_dominated_convergence (fun k => freeC P.r1 P.r2 P.L * sharpExp (k * (P.L - (P.r1 + P.r2))))
      (fun n => (pairVal_measurable (h.cut (h2 n) (h3 n))).aestronglyMeasurable) (((sharpExp_integrable hdd).mono_set s1).const_mul _) (fun n => ?_) ?_
    · exact (ae_restrict_iff' s2).mpr (.of_forall fun k hk => (pairVal_val (h.cut (h2 n) (h3 n)) (s1 hk)).1)
    · refine (ae_restrict_iff' s2).mpr (.of_forall fun k hk => ?_)
      refine (hS k (s1 hk) h1 h2 h3).congr fun n => ?_
      exact (pairVal_sum (h.cut (h2 n) (h3 n)) hprec (s1 hk)).symm
  have hu : ∀ c d, 1 ≤ c → c ≤ d → ∀ E, e0 q (pairAt exactBes frac (P.cut c d)) deltaT nmax a b = .ok E → E = ∫ k in s, pairVal (P.cut c d) k := by
    intro c d hc hd E hE
    rw [hval c d hc hd] at hE
    injection hE with hE
    exact hE.symm
  refine ⟨∫ k in s, S k, ?_, fun lm ls h1 h2 h3 E hE => ?_, fun c d hc hd E hE => ?_⟩
  · have t := hlim (lm := fun n => n + 1) (ls := fun n => n + 1) (tendsto_add_atTop_nat 1) (fun n => by omega) (fun n => le_rfl)
    refine le_of_tendsto t.abs (.of_forall fun n => ?_)
    obtain ⟨E, hE, hB, -⟩ := C104_energy (frac := frac) (deltaT := deltaT) (nmax := nmax) (h.cut (P := P) (a := n + 1) (b := n + 1) (by omega) le_rfl) hq ha hb hb'
    rw [← hu _ _ (by omega) le_rfl E hE]
    exact hB
  · refine (hlim h1 h2 h3).congr fun n => ?_
    exact (hu _ _ (h2 n) (h3 n) _ (hE n)).symm
  · rw [hu c d hc hd E hE]
    refine ⟨fun hco => ?_, fun hco => ?_⟩
    · refine cut_limit_le (f := fun c d => ∫ k in s, pairVal (P.cut c d) k) hc hd hlim fun a' b' haa hbb hab' => ?_
      exact (e0_compare (h.cut (hc.trans haa) hab') (h.cut hc hd) hprec hprec (fun k hk => (pairSum_cut_contrast h hk hc hd haa hbb hab').1 hco) s1 s2).1
    · have := cut_limit_le (f := fun c d => -∫ k in s, pairVal (P.cut c d) k) hc hd (fun h1 h2 h3 => (hlim h1 h2 h3).neg) fun a' b' haa hbb hab' => by
        rw [neg_le_neg_iff]
        exact (e0_compare (h.cut hc hd) (h.cut (hc.trans haa) hab') hprec hprec (fun k hk => (pairSum_cut_contrast h hk hc hd haa hbb hab').2 hco) s1 s2).1
      linarith

/-! ## Examples -/

/-- Gold spheres with `lmax = 20` and `lmax = 40`: the larger cut-off gives the stronger attraction at each of 200 temperatures. -/
example : ∃ F F' : List ℝ, (freeEnergy ⟨0.01, 500, 200, true, .int 0, pairGeo exactBes (fun _ _ => 0) goldPair⟩ FT.fresh).1 = .ok F ∧
    (freeEnergy ⟨0.01, 500, 200, true, .int 0, pairGeo exactBes (fun _ _ => 0) (goldPair.cut 40 40)⟩ FT.fresh).1 = .ok F' ∧ F.length = 200 ∧ F'.length = 200 ∧
    ∀ (i : ℕ) (x y : ℝ), F[i]? = some x → F'[i]? = some y → y ≤ x ∧ x ≤ 0 := by
  obtain ⟨F, F', h1, h2, h3, h4, h5⟩ := C111_free_energy (p := ⟨0.01, 500, 200, true, .int 0, pairGeo exactBes (fun _ _ => 0) goldPair⟩) goldPair_ok le_rfl
    (a := 40) (b := 40) (by norm_num [goldPair]) (by norm_num [goldPair]) le_rfl rfl rfl rfl rfl (by norm_num) (by norm_num)
  exact ⟨F, F', h1, h2, h3, h4, fun i x y hx hy => (h5 i x y hx hy).1 (equalContrast_same goldPair_ok.m1 goldPair_ok.m3)⟩

/-- Their energy at zero temperature has a limit for infinite cut-offs, and the computed values with `lmax = lssmax` are above it. -/
example : ∃ v, ∃ E : ℕ → ℝ, (∀ n, e0 exactQuad (pairAt exactBes (fun _ _ => 0) (goldPair.cut (n + 1) (n + 1))) 0 0 0 .inf = .ok (E n)) ∧
    Tendsto E atTop (𝓝 v) ∧ ∀ n, v ≤ E n := by
  obtain ⟨v, -, h1, h2⟩ := C111_zero_temperature_limit (frac := fun _ _ => 0) (deltaT := 0) (nmax := 0) goldPair_ok le_rfl exactQuad_exact le_rfl (b := .inf)
    (by simp) (by simp)
  choose E hE using fun n : ℕ => C104_energy (frac := fun _ _ => 0) (deltaT := 0) (nmax := 0) (goldPair_ok.cut (a := n + 1) (b := n + 1) (by omega) le_rfl)
    exactQuad_exact le_rfl (b := .inf) (by simp) (by simp)
  exact ⟨v, E, fun n => (hE n).1, h1 _ _ (tendsto_add_atTop_nat 1) (fun n => by omega) (fun n => le_rfl) E fun n => (hE n).1, fun n =>
    (h2 (n + 1) (n + 1) (by omega) le_rfl _ (hE n).1).1 (equalContrast_same goldPair_ok.m1 goldPair_ok.m3)⟩

end CasSph
