import Verif.Props.CavityZero

/-! # C125: dependence of the energies of a sphere inside a cavity on the cut-offs `lmax` and `lssmax` -/

namespace CasSph

open Spec Filter Topology MeasureTheory Set Matrix
open scoped Classical

section
variable {P : PairIn} {k : ℝ} {frac : ℝ → ℝ → ℝ} {lnK : ℝ → ℕ → ℝ} {q : Quad} {deltaT : ℝ} {nmax : ℤ}

/-- One wavenumber: monotonicity in the cut-offs and the limit. -/
theorem CavOK.sum_cut (h : CavOK P) (hk : 0 < k) {σa σb : ℝ} (ea : DenseSign P.mat1 P.mat3 k σa) (eb : DenseSign P.mat2 P.mat3 k σb) :
    (∀ a b a' b', 1 ≤ a → a ≤ b → a ≤ a' → b ≤ b' → a' ≤ b' →
      (σa = σb → cavSum (P.cut a' b') k ≤ cavSum (P.cut a b) k) ∧ (σa ≠ σb → cavSum (P.cut a b) k ≤ cavSum (P.cut a' b') k)) ∧
    ∃ v, ∀ {ι : Type} {F : Filter ι} {lm ls : ι → ℕ}, Tendsto lm F atTop → (∀ i, 1 ≤ lm i) → (∀ i, lm i ≤ ls i) →
      Tendsto (fun i => cavSum (P.cut (lm i) (ls i)) k) F (𝓝 v) := by
  obtain ⟨H, hG, -, hw⟩ := h.array hk ea eb
  constructor
  · intro a b a' b' ha hb haa hbb hb'
    have key : ∀ m ≤ a, (σa = σb → lnGeo (P.cut a' b') m k ≤ lnGeo (P.cut a b) m k) ∧ (σa ≠ σb → lnGeo (P.cut a b) m k ≤ lnGeo (P.cut a' b') m k) := by
      intro m hm
      rw [hw a b m (by omega) (by omega), hw a' b' m (by omega) (by omega)]
      exact ⟨fun e => (hG m).down (ea.one eb e) (by omega) (by omega), fun e => (hG m).up (ea.neg eb e) (by omega) (by omega)⟩
    have sg := fun (m : ℕ) (hm : m ≤ a') => C120_sign (h.cut (ha.trans haa) hb') hk ea eb (m := m) hm
    have hsub : Finset.Icc 1 a ⊆ Finset.Icc 1 a' := Finset.Icc_subset_Icc le_rfl haa
    unfold cavSum
    have el : ∀ c d, (P.cut c d).lmax = c := fun _ _ => rfl
    rw [el, el]
    refine ⟨fun hs => ?_, fun hs => ?_⟩
    · have t0 := (key 0 (by omega)).1 hs
      have t1 := Finset.sum_le_sum fun m (hm : m ∈ Finset.Icc 1 a) => (key m (Finset.mem_Icc.mp hm).2).1 hs
      have t2 := Finset.sum_le_sum_of_subset_of_nonneg (f := fun m => -lnGeo (P.cut a' b') m k) hsub fun m hm _ =>
        neg_nonneg.mpr ((sg m (Finset.mem_Icc.mp hm).2).1 hs)
      rw [Finset.sum_neg_distrib, Finset.sum_neg_distrib] at t2
      linarith
    · have t0 := (key 0 (by omega)).2 hs
      have t1 := Finset.sum_le_sum fun m (hm : m ∈ Finset.Icc 1 a) => (key m (Finset.mem_Icc.mp hm).2).2 hs
      have t2 := Finset.sum_le_sum_of_subset_of_nonneg (f := fun m => lnGeo (P.cut a' b') m k) hsub fun m hm _ =>
        (sg m (Finset.mem_Icc.mp hm).2).2 hs
      linarith
  · choose u hu1 hu using fun m => (hG m).limit
    obtain ⟨q0, q1⟩ := h.ratio
    refine ⟨u 0 + 2 * ∑' m, u (m + 1), fun {ι F lm ls} hlm h1 hls => ?_⟩
    refine sum_tannery (f := fun i m => lnGeo (P.cut (lm i) (ls i)) m k) (C := cavBound P k) hlm q0.le q1 (fun i m hm => ?_) fun m => ?_
    · rw [hw _ _ m (by have := h1 i; omega) (by have := h1 i; have := hls i; omega)]
      exact (hG m).bound _ _
    · have hidx : Tendsto (fun i => (2 * (lm i + 1 - transLmin (m : ℤ)), 2 * (ls i + 1 - transLmin (m : ℤ)))) F atTop := by
        rw [← prod_atTop_atTop_eq]
        have : Tendsto (fun c : ℕ => 2 * (c + 1 - transLmin (m : ℤ))) atTop atTop :=
          (tendsto_id.const_mul_atTop' (by norm_num : 0 < 2)).comp ((tendsto_sub_atTop_nat _).comp (tendsto_add_atTop_nat 1))
        exact (this.comp hlm).prodMk (this.comp (tendsto_atTop_mono hls hlm))
      refine ((hu m).comp hidx).congr' ?_
      filter_upwards [hlm.eventually_ge_atTop (max 1 m)] with i hi
      exact (hw _ _ m hi (hi.trans (hls i))).symm

theorem CavOK.sum_cut_sign (h : CavOK P) (hk : 0 < k) {a b a' b' : ℕ} (ha : 1 ≤ a) (hb : a ≤ b) (haa : a ≤ a') (hbb : b ≤ b') (hb' : a' ≤ b') :
    (P.Same → cavSum (P.cut a' b') k ≤ cavSum (P.cut a b) k) ∧ (P.Opposite → cavSum (P.cut a b) k ≤ cavSum (P.cut a' b') k) := by
  refine ⟨fun hc => ?_, fun hc => ?_⟩
  · obtain ⟨σ, e1, e2⟩ := hc k hk
    exact ((h.sum_cut hk e1 e2).1 a b a' b' ha hb haa hbb hb').1 rfl
  · obtain ⟨σ, e1, e2⟩ := hc k hk
    exact ((h.sum_cut hk e1 e2).1 a b a' b' ha hb haa hbb hb').2 (ne_neg_sign e1)

theorem CavOK.sum_limit (h : CavOK P) (hk : 0 < k) : ∃ v, ∀ {lm ls : ℕ → ℕ}, Tendsto lm atTop atTop → (∀ i, 1 ≤ lm i) → (∀ i, lm i ≤ ls i) →
    Tendsto (fun i => cavSum (P.cut (lm i) (ls i)) k) atTop (𝓝 v) := by
  obtain ⟨σa, ea⟩ := dense_total h.m1 h.m3 hk
  obtain ⟨σb, eb⟩ := dense_total h.m2 h.m3 hk
  obtain ⟨v, hv⟩ := (h.sum_cut hk ea eb).2
  exact ⟨v, fun h1 h2 h3 => hv h1 h2 h3⟩

theorem CavOK.sum_sign (h : CavOK P) (hprec : P.precision ≤ 0) (hk : 0 < k) : (P.Same → cavSum P k ≤ 0) ∧ (P.Opposite → 0 ≤ cavSum P k) := by
  rw [← h.val_eq_sum hprec hk]
  exact ⟨fun hc => hc.val h hk, fun hc => hc.val h hk⟩

/-- **C125, `mSumme`.** Complete sums over `m`: raising the cut-offs makes an attractive value more attractive and a repulsive one more repulsive. -/
theorem C125_mSumme (h : CavOK P) (hprec : P.precision ≤ 0) {a b : ℕ} (ha : P.lmax ≤ a) (hb : P.lssmax ≤ b) (hab : a ≤ b) {ks : List ℝ}
    (hne : ks ≠ []) (hk : ∀ k ∈ ks, 0 < k) :
    ∃ vs ws, geoVals exactBes P ks = .ok vs ∧ geoVals exactBes (P.cut a b) ks = .ok ws ∧ vs.length = ks.length ∧ ws.length = ks.length ∧
      ∀ (j : ℕ) (x y : ℝ), vs[j]? = some x → ws[j]? = some y → (P.Same → y ≤ x ∧ x ≤ 0) ∧ (P.Opposite → 0 ≤ x ∧ x ≤ y) := by
  have h' := h.cut (h.hl.trans ha) hab
  refine ⟨_, _, h.vals_sum hprec hne hk, h'.vals_sum hprec hne hk, by simp, by simp, fun j x y hx hy => ?_⟩
  rw [List.getElem?_map, Option.map_eq_some_iff] at hx hy
  obtain ⟨k, hj, rfl⟩ := hx
  obtain ⟨k', hj', rfl⟩ := hy
  rw [hj] at hj'
  injection hj' with e
  subst e
  have hk0 : 0 < k := hk k (List.mem_of_getElem? hj)
  have hm := h.sum_cut_sign hk0 h.hl h.hls ha hb hab
  rw [cut_self] at hm
  exact ⟨fun hc => ⟨hm.1 hc, (h.sum_sign hprec hk0).1 hc⟩, fun hc => ⟨(h.sum_sign hprec hk0).2 hc, hm.2 hc⟩⟩

/-- The free energy at one temperature as a function of the cut-offs. -/
noncomputable def cavFreeAt (P : PairIn) (p : FTParams) (i a b : ℕ) : ℝ := (i + 1 : ℕ) * p.deltaT * (0.5 * cavSum (P.cut a b) 1e-10 +
  ∑ j ∈ Finset.range (p.nmax.toNat / (i + 1)), cavSum (P.cut a b) (p.deltaT * ((j + 1) * (i + 1) : ℕ)))

theorem cavFreeAt_val {p : FTParams} (h : CavOK P) (hprec : P.precision ≤ 0) (hp : p.nprocs.isZero) (han : p.analyticN0 = false) (hT : 0 < p.deltaT)
    (hN : 1 ≤ p.nmax) {a b : ℕ} (ha : 1 ≤ a) (hab : a ≤ b) :
    ∃ F : List ℝ, (freeEnergy { p with geo := geoGeo exactBes frac lnK (P.cut a b) } FT.fresh).1 = .ok F ∧ F.length = p.maxstep.toNat ∧
      (∀ i < F.length, F[i]? = some (cavFreeAt P p i a b)) ∧
      ∀ i < F.length, |cavFreeAt P p i a b| ≤ cavFree P ((i + 1) * p.deltaT) ∧ (P.Same → cavFreeAt P p i a b ≤ 0) ∧ (P.Opposite → 0 ≤ cavFreeAt P p i a b) := by
  obtain ⟨F, hF, hl, hv⟩ := cav_free_values (p := { p with geo := geoGeo exactBes frac lnK (P.cut a b) }) (h.cut ha hab) hprec rfl hp han hT hN
  obtain ⟨G, hG, -, hB⟩ := C121_free_energy (p := { p with geo := geoGeo exactBes frac lnK (P.cut a b) }) (h.cut ha hab) rfl hp han hT hN
  rw [hF] at hG
  injection hG with hG
  subst hG
  exact ⟨F, hF, hl, hv, fun i hi => hB i _ (hv i hi)⟩

theorem cavFreeAt_mono {p : FTParams} (h : CavOK P) (hT : 0 < p.deltaT) (i : ℕ) {a b a' b' : ℕ} (ha : 1 ≤ a) (hb : a ≤ b) (haa : a ≤ a') (hbb : b ≤ b')
    (hb' : a' ≤ b') : (P.Same → cavFreeAt P p i a' b' ≤ cavFreeAt P p i a b) ∧ (P.Opposite → cavFreeAt P p i a b ≤ cavFreeAt P p i a' b') := by
  have hpos : ∀ j : ℕ, 0 < p.deltaT * ((j + 1) * (i + 1) : ℕ) := fun j => by positivity
  have hd : (0 : ℝ) ≤ (i + 1 : ℕ) * p.deltaT := by positivity
  have z := h.sum_cut_sign (k := 1e-10) (by norm_num) ha hb haa hbb hb'
  unfold cavFreeAt
  refine ⟨fun hc => mul_le_mul_of_nonneg_left (add_le_add ?_ (Finset.sum_le_sum fun j _ => (h.sum_cut_sign (hpos j) ha hb haa hbb hb').1 hc)) hd,
    fun hc => mul_le_mul_of_nonneg_left (add_le_add ?_ (Finset.sum_le_sum fun j _ => (h.sum_cut_sign (hpos j) ha hb haa hbb hb').2 hc)) hd⟩
  · have := z.1 hc; linarith
  · have := z.2 hc; linarith

/-- **C125, `free_energy`.** -/
theorem C125_free_energy {p p' : FTParams} (h : CavOK P) (hprec : P.precision ≤ 0) {a b : ℕ} (ha : P.lmax ≤ a) (hb : P.lssmax ≤ b) (hab : a ≤ b)
    (hg : p.geo = geoGeo exactBes frac lnK P) (hp' : p' = { p with geo := geoGeo exactBes frac lnK (P.cut a b) }) (hp : p.nprocs.isZero)
    (han : p.analyticN0 = false) (hT : 0 < p.deltaT) (hN : 1 ≤ p.nmax) :
    ∃ F F' : List ℝ, (freeEnergy p FT.fresh).1 = .ok F ∧ (freeEnergy p' FT.fresh).1 = .ok F' ∧ F.length = p.maxstep.toNat ∧ F'.length = p.maxstep.toNat ∧
      ∀ (i : ℕ) (x y : ℝ), F[i]? = some x → F'[i]? = some y → (P.Same → y ≤ x ∧ x ≤ 0) ∧ (P.Opposite → 0 ≤ x ∧ x ≤ y) := by
  obtain ⟨F, hF, hl, hv, hB⟩ := cavFreeAt_val (frac := frac) (lnK := lnK) (p := p) h hprec hp han hT hN h.hl h.hls
  obtain ⟨F', hF', hl', hv', -⟩ := cavFreeAt_val (frac := frac) (lnK := lnK) (p := p) h hprec hp han hT hN (h.hl.trans ha) hab
  rw [cut_self, ← hg] at hF
  rw [← hp'] at hF'
  refine ⟨F, F', hF, hF', hl, hl', fun i x y hx hy => ?_⟩
  have hi : i < F.length := by
    by_contra hh
    rw [List.getElem?_eq_none (by omega)] at hx
    cases hx
  rw [hv i hi] at hx
  rw [hv' i (by omega)] at hy
  injection hx with hx
  injection hy with hy
  subst hx hy
  have hm := cavFreeAt_mono (p := p) h hT i h.hl h.hls ha hb hab
  exact ⟨fun hc => ⟨hm.1 hc, (hB i hi).2.1 hc⟩, fun hc => ⟨(hB i hi).2.2 hc, hm.2 hc⟩⟩

/-- **C125, `e0`.** -/
theorem C125_zero_temperature (h : CavOK P) (hprec : P.precision ≤ 0) {c d : ℕ} (hc : P.lmax ≤ c) (hd : P.lssmax ≤ d) (hcd : c ≤ d)
    (hq : q.Exact) {a : ℝ} (ha : 0 ≤ a) {b : Upper} (hb : ∀ x, b = .num x → a ≤ x) (hb' : b = .none → a ≤ nmax * deltaT) :
    ∃ E E', e0 q (geoAt exactBes frac lnK P) deltaT nmax a b = .ok E ∧ e0 q (geoAt exactBes frac lnK (P.cut c d)) deltaT nmax a b = .ok E' ∧
      (P.Same → E' ≤ E ∧ E ≤ 0) ∧ (P.Opposite → 0 ≤ E ∧ E ≤ E') := by
  have h' := h.cut (h.hl.trans hc) hcd
  obtain ⟨s1, s2⟩ := e0Range_sub (deltaT := deltaT) (nmax := nmax) a b
  have hpos : ∀ k ∈ e0Range deltaT nmax a b, 0 < k := fun k hk => ha.trans_lt (s1 hk)
  have i1 := h.val_integrable.mono_set hpos
  have i2 := h'.val_integrable.mono_set hpos
  have hm : ∀ k ∈ e0Range deltaT nmax a b, (P.Same → cavVal (P.cut c d) k ≤ cavVal P k) ∧ (P.Opposite → cavVal P k ≤ cavVal (P.cut c d) k) := fun k hk => by
    have := h.sum_cut_sign (hpos k hk) h.hl h.hls hc hd hcd
    rw [cut_self] at this
    rw [h.val_eq_sum hprec (hpos k hk), h'.val_eq_sum hprec (hpos k hk)]
    exact this
  refine ⟨_, _, cav_e0_value h hq ha hb hb', cav_e0_value h' hq ha hb hb', fun hco => ⟨?_, ?_⟩, fun hco => ⟨?_, ?_⟩⟩
  · exact setIntegral_mono_on i2 i1 s2 fun k hk => (hm k hk).1 hco
  · exact setIntegral_nonpos s2 fun k hk => hco.val h (hpos k hk)
  · exact setIntegral_nonneg s2 fun k hk => hco.val h (hpos k hk)
  · exact setIntegral_mono_on i1 i2 s2 fun k hk => (hm k hk).2 hco

/-! ## Convergence -/

/-- **C125, limit of `free_energy`.** At every temperature the free energy converges when the cut-offs grow without bound, to the same limit along all
sequences `lmax → ∞`, `lssmax ≥ lmax`; the limit obeys the bound of C121, and no finite cut-offs go beyond it. -/
theorem C125_free_energy_limit {p : FTParams} (h : CavOK P) (hprec : P.precision ≤ 0) (hp : p.nprocs.isZero) (han : p.analyticN0 = false)
    (hT : 0 < p.deltaT) (hN : 1 ≤ p.nmax) {i : ℕ} (hi : (i : ℤ) < p.maxstep) :
    ∃ v, |v| ≤ cavFree P ((i + 1) * p.deltaT) ∧
      (∀ lm ls : ℕ → ℕ, Tendsto lm atTop atTop → (∀ n, 1 ≤ lm n) → (∀ n, lm n ≤ ls n) → ∀ F : ℕ → List ℝ,
        (∀ n, (freeEnergy { p with geo := geoGeo exactBes frac lnK (P.cut (lm n) (ls n)) } FT.fresh).1 = .ok (F n)) →
        Tendsto (fun n => (F n).getD i 0) atTop (𝓝 v)) ∧
      ∀ (a b : ℕ), 1 ≤ a → a ≤ b → ∀ F, (freeEnergy { p with geo := geoGeo exactBes frac lnK (P.cut a b) } FT.fresh).1 = .ok F →
        (P.Same → v ≤ F.getD i 0) ∧ (P.Opposite → F.getD i 0 ≤ v) := by
  have hval : ∀ a b, 1 ≤ a → a ≤ b → (∀ F, (freeEnergy { p with geo := geoGeo exactBes frac lnK (P.cut a b) } FT.fresh).1 = .ok F →
      F.getD i 0 = cavFreeAt P p i a b) ∧ |cavFreeAt P p i a b| ≤ cavFree P ((i + 1) * p.deltaT) := by
    intro a b ha hab
    obtain ⟨G, hG, hl, hv, hB⟩ := cavFreeAt_val (frac := frac) (lnK := lnK) (p := p) h hprec hp han hT hN ha hab
    have hi' : i < G.length := by omega
    refine ⟨fun F hF => ?_, (hB i hi').1⟩
    rw [hF] at hG
    injection hG with hG
    subst hG
    rw [List.getD_eq_getElem?_getD, hv i hi']; rfl
  have hpos : ∀ j : ℕ, 0 < p.deltaT * ((j + 1) * (i + 1) : ℕ) := fun j => by positivity
  choose! S hS using fun k (hk : 0 < k) => h.sum_limit (k := k) hk
  obtain ⟨v, hlim⟩ : ∃ v, ∀ {lm ls : ℕ → ℕ}, Tendsto lm atTop atTop → (∀ n, 1 ≤ lm n) → (∀ n, lm n ≤ ls n) →
      Tendsto (fun n => cavFreeAt P p i (lm n) (ls n)) atTop (𝓝 v) := by
    refine ⟨(i + 1 : ℕ) * p.deltaT * (0.5 * S 1e-10 + ∑ j ∈ Finset.range (p.nmax.toNat / (i + 1)), S (p.deltaT * ((j + 1) * (i + 1) : ℕ))), fun {lm ls} h1 h2 h3 => ?_⟩
    unfold cavFreeAt
    exact (((hS 1e-10 (by norm_num) h1 h2 h3).const_mul 0.5).add (tendsto_finsetSum _ fun j _ => hS _ (hpos j) h1 h2 h3)).const_mul _
  refine ⟨v, ?_, fun lm ls h1 h2 h3 F hF => ?_, fun a b ha hab F hF => ?_⟩
  · have t := hlim (lm := fun n => n + 1) (ls := fun n => n + 1) (tendsto_add_atTop_nat 1) (fun n => by omega) (fun n => le_rfl)
    exact le_of_tendsto t.abs (.of_forall fun n => (hval (n + 1) (n + 1) (by omega) le_rfl).2)
  · exact (hlim h1 h2 h3).congr fun n => ((hval _ _ (h2 n) (h3 n)).1 _ (hF n)).symm
  · rw [(hval a b ha hab).1 F hF]
    refine ⟨fun hc => ?_, fun hc => ?_⟩
    · exact cut_limit_le (f := cavFreeAt P p i) ha hab hlim fun a' b' haa hbb hab' => (cavFreeAt_mono h hT i ha hab haa hbb hab').1 hc
    · have := cut_limit_le (f := fun a b => -cavFreeAt P p i a b) ha hab (fun h1 h2 h3 => (hlim h1 h2 h3).neg) fun a' b' haa hbb hab' => by
        rw [neg_le_neg_iff]
        exact (cavFreeAt_mono h hT i ha hab haa hbb hab').2 hc
      linarith

/-- **C125, limit of `e0`.** -/
theorem C125_zero_temperature_limit (h : CavOK P) (hprec : P.precision ≤ 0) (hq : q.Exact) {a : ℝ} (ha : 0 ≤ a) {b : Upper}
    (hb : ∀ x, b = .num x → a ≤ x) (hb' : b = .none → a ≤ nmax * deltaT) :
    ∃ v, |v| ≤ cavZero P a ∧
      (∀ lm ls : ℕ → ℕ, Tendsto lm atTop atTop → (∀ n, 1 ≤ lm n) → (∀ n, lm n ≤ ls n) → ∀ E : ℕ → ℝ,
        (∀ n, e0 q (geoAt exactBes frac lnK (P.cut (lm n) (ls n))) deltaT nmax a b = .ok (E n)) → Tendsto E atTop (𝓝 v)) ∧
      ∀ (c d : ℕ), 1 ≤ c → c ≤ d → ∀ E, e0 q (geoAt exactBes frac lnK (P.cut c d)) deltaT nmax a b = .ok E →
        (P.Same → v ≤ E) ∧ (P.Opposite → E ≤ v) := by
  obtain ⟨s1, s2⟩ := e0Range_sub (deltaT := deltaT) (nmax := nmax) a b
  have hpos : ∀ k ∈ e0Range deltaT nmax a b, 0 < k := fun k hk => ha.trans_lt (s1 hk)
  have hu : ∀ c d, 1 ≤ c → c ≤ d → ∀ E, e0 q (geoAt exactBes frac lnK (P.cut c d)) deltaT nmax a b = .ok E →
      E = ∫ k in e0Range deltaT nmax a b, cavVal (P.cut c d) k := by
    intro c d hc hd E hE
    rw [cav_e0_value (h.cut hc hd) hq ha hb hb'] at hE
    injection hE with hE
    exact hE.symm
  choose! S hS using fun k (hk : 0 < k) => h.sum_limit (k := k) hk
  have hlim : ∀ {lm ls : ℕ → ℕ}, Tendsto lm atTop atTop → (∀ n, 1 ≤ lm n) → (∀ n, lm n ≤ ls n) →
      Tendsto (fun n => ∫ k in e0Range deltaT nmax a b, cavVal (P.cut (lm n) (ls n)) k) atTop (𝓝 (∫ k in e0Range deltaT nmax a b, S k)) := by
    intro lm ls h1 h2 h3
    refine tendsto_integral_of_dominated_convergence (cavExp P) (fun n => (h.cut (h2 n) (h3 n)).val_measurable.aestronglyMeasurable)
      ((cavExp_integrable h 0).mono_set hpos) (fun n => ?_) ?_
    · exact (ae_restrict_iff' s2).mpr (.of_forall fun k hk => ((h.cut (h2 n) (h3 n)).val_bound (hpos k hk)).1)
    · refine (ae_restrict_iff' s2).mpr (.of_forall fun k hk => ?_)
      exact (hS k (hpos k hk) h1 h2 h3).congr fun n => ((h.cut (h2 n) (h3 n)).val_eq_sum hprec (hpos k hk)).symm
  have hmono : ∀ c d c' d', 1 ≤ c → c ≤ d → c ≤ c' → d ≤ d' → c' ≤ d' →
      (P.Same → ∫ k in e0Range deltaT nmax a b, cavVal (P.cut c' d') k ≤ ∫ k in e0Range deltaT nmax a b, cavVal (P.cut c d) k) ∧
      (P.Opposite → ∫ k in e0Range deltaT nmax a b, cavVal (P.cut c d) k ≤ ∫ k in e0Range deltaT nmax a b, cavVal (P.cut c' d') k) := by
    intro c d c' d' hc hd hcc hdd hd'
    have g1 := h.cut hc hd
    have g2 := h.cut (hc.trans hcc) hd'
    have i1 := g1.val_integrable.mono_set hpos
    have i2 := g2.val_integrable.mono_set hpos
    have hm : ∀ k ∈ e0Range deltaT nmax a b, (P.Same → cavVal (P.cut c' d') k ≤ cavVal (P.cut c d) k) ∧ (P.Opposite → cavVal (P.cut c d) k ≤ cavVal (P.cut c' d') k) := fun k hk => by
      rw [g1.val_eq_sum hprec (hpos k hk), g2.val_eq_sum hprec (hpos k hk)]
      exact h.sum_cut_sign (hpos k hk) hc hd hcc hdd hd'
    exact ⟨fun hco => setIntegral_mono_on i2 i1 s2 fun k hk => (hm k hk).1 hco, fun hco => setIntegral_mono_on i1 i2 s2 fun k hk => (hm k hk).2 hco⟩
  refine ⟨∫ k in e0Range deltaT nmax a b, S k, ?_, fun lm ls h1 h2 h3 E hE => ?_, fun c d hc hd E hE => ?_⟩
  · have t := hlim (lm := fun n => n + 1) (ls := fun n => n + 1) (tendsto_add_atTop_nat 1) (fun n => by omega) (fun n => le_rfl)
    exact le_of_tendsto t.abs (.of_forall fun n => cav_tail (h.cut (a := n + 1) (b := n + 1) (by omega) le_rfl) ha s1 s2)
  · exact (hlim h1 h2 h3).congr fun n => (hu _ _ (h2 n) (h3 n) _ (hE n)).symm
  · rw [hu c d hc hd E hE]
    refine ⟨fun hco => ?_, fun hco => ?_⟩
    · exact cut_limit_le (f := fun c d => ∫ k in e0Range deltaT nmax a b, cavVal (P.cut c d) k) hc hd hlim
        fun a' b' haa hbb hab' => (hmono c d a' b' hc hd haa hbb hab').1 hco
    · have := cut_limit_le (f := fun c d => -∫ k in e0Range deltaT nmax a b, cavVal (P.cut c d) k) hc hd (fun h1 h2 h3 => (hlim h1 h2 h3).neg)
        fun a' b' haa hbb hab' => by
          rw [neg_le_neg_iff]
          exact (hmono c d a' b' hc hd haa hbb hab').2 hco
      linarith

end

/-! ## The hypotheses can be met -/

/-- A gold sphere in an empty cavity in gold, complete sums over `m`. -/
noncomputable def goldCav : PairIn := ⟨⟨.lorentz, eGold, none⟩, ⟨.lorentz, eGold, none⟩, ⟨.lorentz, [], none⟩, 1, 4, 2.9, 20, 80, 0⟩

theorem goldCav_ok : CavOK goldCav := by
  refine ⟨gold_sphere, gold_sphere, vac_medium, ?_, ?_, ?_, ?_, ?_⟩ <;> norm_num [goldCav]

theorem goldCav_same : goldCav.Same := fun _ hk => ⟨1, dense_vacuum gold_physical hk, dense_vacuum gold_physical hk⟩

/-- `lmax = 40` gives a stronger attraction than `lmax = 20` at each of 200 temperatures. -/
example (frac : ℝ → ℝ → ℝ) (lnK : ℝ → ℕ → ℝ) : ∃ F F' : List ℝ, (freeEnergy ⟨0.01, 500, 200, false, .int 0, geoGeo exactBes frac lnK goldCav⟩ FT.fresh).1 = .ok F ∧
    (freeEnergy ⟨0.01, 500, 200, false, .int 0, geoGeo exactBes frac lnK (goldCav.cut 40 160)⟩ FT.fresh).1 = .ok F' ∧ F.length = 200 ∧ F'.length = 200 ∧
    ∀ (i : ℕ) (x y : ℝ), F[i]? = some x → F'[i]? = some y → y ≤ x ∧ x ≤ 0 := by
  obtain ⟨F, F', h1, h2, h3, h4, h5⟩ := C125_free_energy (p := ⟨0.01, 500, 200, false, .int 0, geoGeo exactBes frac lnK goldCav⟩) goldCav_ok le_rfl
    (a := 40) (b := 160) (by norm_num [goldCav]) (by norm_num [goldCav]) (by norm_num) rfl rfl rfl rfl (by norm_num) (by norm_num)
  exact ⟨F, F', h1, h2, h3, h4, fun i x y hx hy => (h5 i x y hx hy).1 goldCav_same⟩

/-- The energy at zero temperature has a limit for infinite cut-offs, and the values with `lssmax = 4 lmax` are above it. -/
example (frac : ℝ → ℝ → ℝ) (lnK : ℝ → ℕ → ℝ) : ∃ v, ∃ E : ℕ → ℝ,
    (∀ n, e0 exactQuad (geoAt exactBes frac lnK (goldCav.cut (n + 1) (4 * (n + 1)))) 0 0 0 .inf = .ok (E n)) ∧ Tendsto E atTop (𝓝 v) ∧ ∀ n, v ≤ E n := by
  obtain ⟨v, -, h1, h2⟩ := C125_zero_temperature_limit (frac := frac) (lnK := lnK) (deltaT := 0) (nmax := 0) goldCav_ok le_rfl exactQuad_exact le_rfl (b := .inf)
    (by simp) (by simp)
  choose E hE using fun n : ℕ => C124_energy (frac := frac) (lnK := lnK) (deltaT := 0) (nmax := 0) (goldCav_ok.cut (a := n + 1) (b := 4 * (n + 1)) (by omega) (by omega))
    exactQuad_exact le_rfl (b := .inf) (by simp) (by simp)
  exact ⟨v, E, fun n => (hE n).1, h1 _ _ (tendsto_add_atTop_nat 1) (fun n => by omega) (fun n => by omega) E fun n => (hE n).1, fun n =>
    (h2 (n + 1) (4 * (n + 1)) (by omega) (by omega) _ (hE n).1).1 goldCav_same⟩

end CasSph
