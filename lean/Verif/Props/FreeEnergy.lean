import Verif.Props.Geometry
import Verif.Props.Thermo
import Verif.Model.Pair
import Verif.Props.FiniteSum
import Verif.Lemmas.ThermoSlices

/-! # C100: the free energy of two separate spheres, from the materials to `free_energy` -/

namespace CasSph

open Spec Filter Topology Matrix

/-- Equal coefficients for `1 ≤ l ≤ n`. -/
def AgreeTo (n : ℕ) (a b : MieCoef) : Prop := ∀ l, 1 ≤ l → l ≤ n → a.TE l = b.TE l ∧ a.TM l = b.TM l ∧ a.ln l = b.ln l

theorem blockmatricesAt_congr {lmax lssmax m : ℕ} {ext : Bool} {nL : ℝ} {bes : List ℝ} {a a' b b' : MieCoef} (ha : AgreeTo lmax a a')
    (hb : AgreeTo lssmax b b') : blockmatricesAt lmax lssmax m ext nL bes a b = blockmatricesAt lmax lssmax m ext nL bes a' b' := by
  have hl : 1 ≤ transLmin (m : ℤ) := by unfold transLmin; omega
  have ea : ∀ i : Fin (lmax + 1 - transLmin (m : ℤ)), _ := fun i => ha (transLmin (m : ℤ) + i.1) (by omega) (by have := i.2; omega)
  have eb : ∀ i : Fin (lssmax + 1 - transLmin (m : ℤ)), _ := fun i => hb (transLmin (m : ℤ) + i.1) (by omega) (by have := i.2; omega)
  unfold blockmatricesAt roundTripElements
  simp only [fun i => (ea i).1, fun i => (ea i).2.1, fun i => (ea i).2.2, fun i => (eb i).1, fun i => (eb i).2.1, fun i => (eb i).2.2]

theorem blockmatricesK0At_congr {lmax lssmax m : ℕ} {r1 r2 L : ℝ} {a a' b b' : MieCoef} (ha : AgreeTo lmax a a') (hb : AgreeTo lssmax b b') :
    blockmatricesK0At lmax lssmax m r1 r2 L a b = blockmatricesK0At lmax lssmax m r1 r2 L a' b' := by
  have hl : 1 ≤ transLmin (m : ℤ) := by unfold transLmin; omega
  have ea : ∀ i : Fin (lmax + 1 - transLmin (m : ℤ)), _ := fun i => ha (transLmin (m : ℤ) + i.1) (by omega) (by have := i.2; omega)
  have eb : ∀ i : Fin (lssmax + 1 - transLmin (m : ℤ)), _ := fun i => hb (transLmin (m : ℤ) + i.1) (by omega) (by have := i.2; omega)
  unfold blockmatricesK0At
  simp only [fun i => (ea i).1, fun i => (ea i).2.1, fun i => (ea i).2.2, fun i => (eb i).1, fun i => (eb i).2.1, fun i => (eb i).2.2]

theorem singleM_congr {lmax lssmax m d : ℕ} {w w' : Fin d → WaveIn} (h : ∀ i, (w i).nL = (w' i).nL ∧ (w i).bes = (w' i).bes ∧
    AgreeTo lmax (w i).a (w' i).a ∧ AgreeTo lssmax (w i).b (w' i).b) (fuel : ℕ) (conv : ℝ) :
    singleM fuel conv lmax lssmax m (List.ofFn w) = singleM fuel conv lmax lssmax m (List.ofFn w') := by
  have e : ∀ i, blockmatricesAt lmax lssmax m true (w i).nL (w i).bes (w i).a (w i).b =
      blockmatricesAt lmax lssmax m true (w' i).nL (w' i).bes (w' i).a (w' i).b := by
    intro i
    rw [(h i).1, (h i).2.1]
    exact blockmatricesAt_congr (h i).2.2.1 (h i).2.2.2
  unfold singleM superMatrix
  rw [List.ofFn_eq_map, List.ofFn_eq_map]
  simp only [List.map_eq_nil_iff, List.mapM_map, Function.comp_def, e]

theorem singleMK0_congr {lmax lssmax m : ℕ} {r1 r2 L : ℝ} {a a' b b' : MieCoef} (ha : AgreeTo lmax a a') (hb : AgreeTo lssmax b b') (fuel : ℕ) :
    singleMK0 fuel lmax lssmax m r1 r2 L a b = singleMK0 fuel lmax lssmax m r1 r2 L a' b' := by
  unfold singleMK0
  rw [blockmatricesK0At_congr ha hb]

theorem mLoop_congr {n : ℕ} {pre : (Fin n → ℝ) → Prop} {post : (Fin n → ℝ) → (Fin n → ℝ) → Prop} {L L' : ℕ → Res (Fin n → ℝ)} {lmax : ℕ}
    (h : ∀ m ≤ lmax, L m = L' m) : ∀ (todo m : ℕ) (S : Fin n → ℝ), todo + m ≤ lmax + 1 → mLoop pre post L todo m S = mLoop pre post L' todo m S
  | 0, _, _, _ => rfl
  | todo + 1, m, S, hm => by
    unfold mLoop
    rw [h m (by omega)]
    simp only [fun S => mLoop_congr (pre := pre) (post := post) h todo (m + 1) S (by omega)]

theorem mSummeNonzero_congr {n lmax : ℕ} {precision : ℝ} {L L' : ℕ → Res (Fin n → ℝ)} (h : ∀ m ≤ lmax, L m = L' m) :
    mSummeNonzero lmax precision L = mSummeNonzero lmax precision L' := by
  unfold mSummeNonzero
  rw [h 0 (by omega)]
  simp only [fun S => mLoop_congr (pre := fun old : Fin n → ℝ => ∃ r, npArgmax (npAbs old) = some r ∧ old r = 0)
    (post := fun old new => ∃ r, npArgmax (npAbs old) = some r ∧ |(|new r / old r|) - 1| < precision / 10) h lmax 1 S (by omega)]

theorem mSummeK0_congr {lmax : ℕ} {precision : ℝ} {L L' : ℕ → Res (Fin 1 → ℝ)} (h : ∀ m ≤ lmax, L m = L' m) :
    mSummeK0 lmax precision L = mSummeK0 lmax precision L' := by
  unfold mSummeK0
  rw [h 0 (by omega)]
  simp only [fun S => mLoop_congr (pre := fun _ : Fin 1 → ℝ => False)
    (post := fun old new => new 0 ≠ 0 ∧ |(|old 0 / new 0|) - 1| < precision / 10) h lmax 1 S (by omega)]

theorem tableOf_agree {n : ℕ} {c : Fin n → Mie} {a : MieCoef} (h : ∀ i : Fin n, c i = ⟨a.TE (i.1 + 1), a.TM (i.1 + 1), a.ln (i.1 + 1)⟩) :
    AgreeTo n (tableOf c) a := by
  intro l h1 h2
  have hl : l - 1 < n := by omega
  have e : l - 1 + 1 = l := by omega
  simp only [tableOf, dif_pos hl, h]
  simp only [e, and_self]

theorem mieTable_ok {T : BesTable} {mat md : Material} {k r : ℝ} {a : MieCoef}
    (ha : ∀ l, 1 ≤ l → mie T T mat md l k r = .ok ⟨a.TE l, a.TM l, a.ln l⟩) (n : ℕ) :
    ∃ c, mieTable T mat md n k r = .ok c ∧ AgreeTo n c a := by
  unfold mieTable
  rw [finM_ok fun i => ha (i.1 + 1) (by omega), ok_bind]
  exact ⟨_, rfl, tableOf_agree fun i => rfl⟩

theorem mieTableK0_ok {frac : ℝ → ℝ → ℝ} {mat md : Material} {r : ℝ} {a : MieCoef}
    (ha : ∀ l, 1 ≤ l → mieK0 frac mat md l r = .ok ⟨a.TE l, a.TM l, a.ln l⟩) (n : ℕ) :
    ∃ c, mieTableK0 frac mat md n r = .ok c ∧ AgreeTo n c a := by
  unfold mieTableK0
  rw [finM_ok fun i => ha (i.1 + 1) (by omega), ok_bind]
  exact ⟨_, rfl, tableOf_agree fun i => rfl⟩

theorem waveIn_ok {P : PairIn} {k : ℝ} {med : Medium} {a b : MieCoef} (S : FinitePair P.mat1 P.mat2 P.mat3 P.r1 P.r2 P.L k med a b) :
    ∃ w w', waveIn exactBes P k = .ok w ∧ WaveAt P.mat1 P.mat2 P.mat3 P.r1 P.r2 P.L k med P.lmax P.lssmax w' ∧ w.nL = w'.nL ∧ w.bes = w'.bes ∧
      AgreeTo P.lmax w.a w'.a ∧ AgreeTo P.lssmax w.b w'.b := by
  obtain ⟨c1, h1, g1⟩ := mieTable_ok S.ha P.lmax
  obtain ⟨c2, h2, g2⟩ := mieTable_ok S.hb P.lssmax
  refine ⟨⟨k * P.L * Real.sqrt med.eps, (List.range (P.lmax + P.lssmax + 1 + 1)).map (lnk1 (k * P.L * Real.sqrt med.eps)), c1, c2⟩,
    ⟨k * P.L * Real.sqrt med.eps, (List.range (P.lmax + P.lssmax + 1 + 1)).map (lnk1 (k * P.L * Real.sqrt med.eps)), a, b⟩, ?_,
    ⟨S, rfl, trans_row_ext _ _⟩, rfl, rfl, g1, g2⟩
  unfold waveIn
  rw [h1, ok_bind, h2, ok_bind, medium_eps S.hmed, ok_bind, trans_row_ext, ok_bind]
  rfl

/-- `mSumme` of two separate spheres at any positive wavenumbers: one number per wavenumber, with the bounds and signs of C99. -/
theorem pairVals_ok {P : PairIn} {ks : List ℝ} (hne : ks ≠ []) {med : ℝ → Medium} {σa σb : ℝ → ℝ}
    (hS : ∀ k ∈ ks, ∃ a b, FinitePair P.mat1 P.mat2 P.mat3 P.r1 P.r2 P.L k (med k) a b)
    (ea : ∀ k ∈ ks, DenseSign P.mat1 P.mat3 k (σa k)) (eb : ∀ k ∈ ks, DenseSign P.mat2 P.mat3 k (σb k))
    (hl : 1 ≤ P.lmax) (hls : P.lmax ≤ P.lssmax) :
    ∃ vs, pairVals exactBes P ks = .ok vs ∧ vs.length = ks.length ∧ ∀ (j : ℕ) (k x : ℝ), ks[j]? = some k → vs[j]? = some x →
      |x| ≤ 3 * pairBound (med k) P.r1 P.r2 P.L k 0 / (1 - pairRatio (med k) P.r1 P.r2 P.L) ∧
      (σa k = σb k → x ≤ 0) ∧ (σa k ≠ σb k → 0 ≤ x) := by
  have hd : 0 < ks.length := List.length_pos_iff.mpr hne
  have hmem : ∀ i : Fin ks.length, ks.get i ∈ ks := fun i => List.get_mem _ _
  have hw : ∀ i : Fin ks.length, ∃ w w', waveIn exactBes P (ks.get i) = .ok w ∧
      WaveAt P.mat1 P.mat2 P.mat3 P.r1 P.r2 P.L (ks.get i) (med (ks.get i)) P.lmax P.lssmax w' ∧ w.nL = w'.nL ∧ w.bes = w'.bes ∧
      AgreeTo P.lmax w.a w'.a ∧ AgreeTo P.lssmax w.b w'.b := by
    intro i
    obtain ⟨a, b, S⟩ := hS _ (hmem i)
    exact waveIn_ok S
  choose w w' h1 h2 h3 using hw
  obtain ⟨v, hv, M, hM, hsum, hprop⟩ := C99_mSumme hd h2 (fun i => ea _ (hmem i)) (fun i => eb _ (hmem i)) hl hls (conv := 0.9)
    (by norm_num) P.precision
  have hws : ks.mapM (waveIn exactBes P) = .ok (List.ofFn w) := by
    conv_lhs => rw [← List.ofFn_get ks]
    rw [List.ofFn_eq_map, List.ofFn_eq_map, List.mapM_map]
    exact mapM_ok fun i _ => h1 i
  have hex : ∃ v : ℕ → Fin ks.length → ℝ, ∀ m : ℕ, m ≤ P.lmax → ∃ N, ∀ fuel, N < fuel →
      singleM fuel 0.9 P.lmax P.lssmax m (List.ofFn w) = some (.ok (List.ofFn fun i => (v m i : EReal))) := by
    refine ⟨v, fun m hm => ?_⟩
    obtain ⟨N, hN⟩ := hv m hm
    exact ⟨N, fun fuel hf => by rw [singleM_congr h3, hN fuel hf]⟩
  have hv' : ∀ m ≤ P.lmax, hex.choose m = v m := by
    intro m hm
    obtain ⟨N1, q1⟩ := hex.choose_spec m hm
    obtain ⟨N2, q2⟩ := hv m hm
    have a1 := q1 (max N1 N2 + 1) (by omega)
    have a2 := q2 (max N1 N2 + 1) (by omega)
    rw [singleM_congr h3, a2] at a1
    injection a1 with a1
    injection a1 with a1
    have := List.ofFn_injective a1
    funext i
    exact (EReal.coe_injective (congrFun this i)).symm
  refine ⟨List.ofFn (mSum v M), ?_, by simp, fun j k x hk hx => ?_⟩
  · unfold pairVals
    rw [hws, ok_bind]
    rw [dif_pos hex, mSummeNonzero_congr (L' := fun m => .ok (v m)) (fun m hm => by rw [hv' m hm]), hsum, ok_bind]
  · have hj : j < ks.length := by
      by_contra h
      rw [List.getElem?_eq_none (by omega)] at hk
      cases hk
    rw [List.getElem?_eq_getElem hj] at hk
    injection hk with hk
    rw [List.getElem?_ofFn, dif_pos hj] at hx
    injection hx with hx
    obtain ⟨-, p2, p3, p4⟩ := hprop ⟨j, hj⟩
    simp only [List.get_eq_getElem, hk, hx] at p2 p3 p4
    exact ⟨p2, fun h => (p3 h).2, fun h => (p4 h).1⟩

/-- `mSumme_k0` of two separate spheres. -/
theorem pairK0_ok {P : PairIn} {frac : ℝ → ℝ → ℝ} {a0 b0 : MieCoef} (S : StaticPair frac P.mat1 P.mat2 P.mat3 P.r1 P.r2 P.L a0 b0)
    (hl : 1 ≤ P.lmax) (hls : P.lmax ≤ P.lssmax) :
    ∃ z, pairK0 frac P = .ok z ∧ |z| ≤ 4 * staticBound P.r1 P.r2 P.L 0 / (1 - P.r1 / (P.L - P.r2)) ∧
      ∀ σa σb τa τb, ElectricSign P.mat1 P.mat3 σa → ElectricSign P.mat2 P.mat3 σb → MagneticSign P.mat1 P.mat3 τa →
        MagneticSign P.mat2 P.mat3 τb → (σa = σb → τa = τb → z ≤ 0) ∧ (σa ≠ σb → τa ≠ τb → 0 ≤ z) := by
  obtain ⟨c1, h1, g1⟩ := mieTableK0_ok S.ha P.lmax
  obtain ⟨c2, h2, g2⟩ := mieTableK0_ok S.hb P.lssmax
  obtain ⟨v, hv, M, hM, hsum, -, hbd, -, hsg⟩ := C94_mSumme_k0 S hl hls P.precision
  have hex : ∃ v : ℕ → ℝ, ∀ m : ℕ, m ≤ P.lmax → ∃ N, ∀ fuel, N < fuel →
      singleMK0 fuel P.lmax P.lssmax m P.r1 P.r2 P.L c1 c2 = some (.ok (some (v m : EReal))) := by
    refine ⟨v, fun m hm => ?_⟩
    obtain ⟨N, hN⟩ := hv m hm
    exact ⟨N, fun fuel hf => by rw [singleMK0_congr g1 g2, hN fuel hf]⟩
  have hv' : ∀ m ≤ P.lmax, hex.choose m = v m := by
    intro m hm
    obtain ⟨N1, q1⟩ := hex.choose_spec m hm
    obtain ⟨N2, q2⟩ := hv m hm
    have a1 := q1 (max N1 N2 + 1) (by omega)
    have a2 := q2 (max N1 N2 + 1) (by omega)
    rw [singleMK0_congr g1 g2, a2] at a1
    injection a1 with a1
    injection a1 with a1
    injection a1 with a1
    exact (EReal.coe_injective a1).symm
  refine ⟨mSum (fun m (_ : Fin 1) => v m) M 0, ?_, hbd, fun σa σb τa τb e1 e2 e3 e4 => ?_⟩
  · unfold pairK0
    rw [h1, ok_bind, h2, ok_bind]
    rw [dif_pos hex, mSummeK0_congr (L' := fun m => .ok fun _ => v m) (fun m hm => by rw [hv' m hm]), hsum, ok_bind]
  · obtain ⟨p1, p2⟩ := hsg σa σb τa τb e1 e2 e3 e4
    exact ⟨fun h h' => (p1 h h').2, fun h h' => (p2 h h').1⟩

/-! ## Materials -/

/-- A sphere covered by C100: perfect conductor, dielectric or conductor with non-negative parameters, without magnetism. -/
structure SphereMat (m : Material) : Prop where
  static : m.HasStatic
  phys : m.Physical
  mag : m.b = none

/-- A medium covered by C100: a dielectric with non-negative parameters, without magnetism. -/
structure MediumMat (m : Material) : Prop where
  diel : m.Dielectric
  phys : m.Physical
  mag : m.b = none

theorem muV_of_none {m : Material} (h : m.b = none) (k : ℝ) : m.muV k = 1 := by
  rcases m with ⟨cls, e, b⟩
  simp only at h
  subst h
  cases cls <;> rfl

theorem MediumMat.cls {md : Material} (h : MediumMat md) : md.cls ≠ .pec := by rw [h.diel.1]; simp

theorem MediumMat.one_le {md : Material} (h : MediumMat md) {k : ℝ} (hk : 0 < k) : 1 ≤ md.epsV k := by
  rw [epsV_lorentz h.diel.1 h.phys hk, le_add_iff_nonneg_right]
  refine List.sum_nonneg fun x hx => ?_
  rw [List.mem_map] at hx
  obtain ⟨p, hpm, rfl⟩ := hx
  exact div_nonneg (sq_nonneg _) (lorDen_pos hk (h.phys.osc p hpm)).le

/-- Denser than the medium, or a perfect conductor. -/
theorem dense_of_le {m md : Material} (h : SphereMat m) (hd : MediumMat md) {k : ℝ} (hk : 0 < k) (hle : m.cls = .pec ∨ md.epsV k ≤ m.epsV k) :
    DenseSign m md k 1 := by
  by_cases hp : m.cls = .pec
  · exact .inl ⟨rfl, .inl hp⟩
  · exact .inl ⟨rfl, .inr ⟨hp, h.phys, _, _, (medium_val hp h.phys hk).1, (medium_val hd.cls hd.phys hk).1,
      by rw [muV_of_none h.mag, muV_of_none hd.mag], hle.resolve_left hp⟩⟩

theorem dilute_of_le {m md : Material} (h : SphereMat m) (hd : MediumMat md) {k : ℝ} (hk : 0 < k) (hp : m.cls ≠ .pec) (hle : m.epsV k ≤ md.epsV k) :
    DenseSign m md k (-1) :=
  .inr ⟨rfl, hp, h.phys, _, _, (medium_val hp h.phys hk).1, (medium_val hd.cls hd.phys hk).1,
      by rw [muV_of_none h.mag, muV_of_none hd.mag], hle⟩

theorem dense_total {m md : Material} (h : SphereMat m) (hd : MediumMat md) {k : ℝ} (hk : 0 < k) : ∃ σ, DenseSign m md k σ := by
  by_cases hp : m.cls = .pec
  · exact ⟨1, dense_of_le h hd hk (.inl hp)⟩
  · rcases le_total (m.epsV k) (md.epsV k) with hle | hle
    · exact ⟨-1, dilute_of_le h hd hk hp hle⟩
    · exact ⟨1, dense_of_le h hd hk (.inr hle)⟩

/-- Both spheres are denser than the medium or both are less dense, at each frequency; likewise for the static magnetic response. -/
structure EqualContrast (mA mB md : Material) : Prop where
  finite : ∀ k, 0 < k → ∃ σ, DenseSign mA md k σ ∧ DenseSign mB md k σ
  electric : ∃ σ, ElectricSign mA md σ ∧ ElectricSign mB md σ
  magnetic : ∃ σ, MagneticSign mA md σ ∧ MagneticSign mB md σ

/-- One sphere is denser than the medium and the other less dense, at each frequency. -/
structure OppositeContrast (mA mB md : Material) : Prop where
  finite : ∀ k, 0 < k → ∃ σ, DenseSign mA md k σ ∧ DenseSign mB md k (-σ)
  electric : ∃ σ, ElectricSign mA md σ ∧ ElectricSign mB md (-σ)
  magnetic : ∃ σ, MagneticSign mA md σ ∧ MagneticSign mB md (-σ)

/-- Equal materials have equal contrast. -/
theorem equalContrast_same {m md : Material} (h : SphereMat m) (hd : MediumMat md) : EqualContrast m m md := by
  obtain ⟨⟨σ, e⟩, ⟨τ, g⟩⟩ := sign_total h.static hd.diel hd.phys
  exact ⟨fun k hk => (dense_total h hd hk).imp fun _ h => ⟨h, h⟩, ⟨σ, e, e⟩, ⟨τ, g, g⟩⟩

/-- A non-magnetic sphere that is not a perfect conductor has no magnetic contrast. -/
theorem magnetic_both {m md : Material} (h : SphereMat m) (hd : MediumMat md) (hp : m.cls ≠ .pec) :
    MagneticSign m md 1 ∧ MagneticSign m md (-1) := by
  have e1 := mu_val h.phys (le_refl (0 : ℝ))
  have e2 := mu_val hd.phys (le_refl (0 : ℝ))
  have e3 : m.muV 0 = md.muV 0 := by rw [muV_of_none h.mag, muV_of_none hd.mag]
  exact ⟨.inl ⟨rfl, hp, _, _, e1, e2, e3.ge⟩, .inr ⟨rfl, .inr ⟨_, _, e1, e2, e3.le⟩⟩⟩

/-! ## Bounds -/

/-- `12/((1 - q1)(1 - q2)(1 - q1 q2))` with `q_i = r_i/(r_i + d/2)`, where `d` is the gap. -/
noncomputable def freeC (r1 r2 L : ℝ) : ℝ :=
  12 / ((1 - gapRatio r1 (L - (r1 + r2))) * (1 - gapRatio r2 (L - (r1 + r2))) * (1 - gapRatio r1 (L - (r1 + r2)) * gapRatio r2 (L - (r1 + r2))))

/-- Bound on the free energy at the scaled temperature `T`: it contains the radii and the distance, but no material parameters,
cut-offs or precisions. -/
noncomputable def freeBound (r1 r2 L T : ℝ) : ℝ :=
  T * (2 * staticBound r1 r2 L 0 / (1 - r1 / (L - r2)) +
    freeC r1 r2 L * (Real.exp (-(T * (L - (r1 + r2)))) / ((1 - Real.exp (-(2 * (T * (L - (r1 + r2)))))) * (1 - Real.exp (-(T * (L - (r1 + r2))))))))

theorem freeC_pos {r1 r2 L : ℝ} (h1 : 0 < r1) (h2 : 0 < r2) (hs : r1 + r2 < L) : 0 < freeC r1 r2 L := by
  obtain ⟨a1, a2⟩ := gapRatio_mem h1 (sub_pos.mpr hs)
  obtain ⟨b1, b2⟩ := gapRatio_mem h2 (sub_pos.mpr hs)
  have : gapRatio r1 (L - (r1 + r2)) * gapRatio r2 (L - (r1 + r2)) < 1 := by nlinarith
  unfold freeC
  have := sub_pos.mpr a2
  have := sub_pos.mpr b2
  have := sub_pos.mpr ‹gapRatio r1 (L - (r1 + r2)) * gapRatio r2 (L - (r1 + r2)) < 1›
  positivity

/-- `exp(-x)/(1 - exp(-2x))` decreases. -/
theorem expRatio_anti {x y : ℝ} (hx : 0 < x) (hxy : x ≤ y) :
    Real.exp (-y) / (1 - Real.exp (-(2 * y))) ≤ Real.exp (-x) / (1 - Real.exp (-(2 * x))) := by
  have e1 : Real.exp (-(2 * x)) < 1 := by rw [Real.exp_lt_one_iff]; linarith
  have e2 : Real.exp (-(2 * y)) ≤ Real.exp (-(2 * x)) := Real.exp_le_exp.mpr (by linarith)
  exact div_le_div₀ (Real.exp_pos _).le (Real.exp_le_exp.mpr (by linarith)) (by linarith) (by linarith)

theorem pair_le {r1 r2 L k ε : ℝ} (h1 : 0 < r1) (h2 : 0 < r2) (hs : r1 + r2 < L) (hk : 0 < k) (hε : 1 ≤ ε) :
    3 * pairBound ⟨ε, 1⟩ r1 r2 L k 0 / (1 - pairRatio ⟨ε, 1⟩ r1 r2 L) ≤
      freeC r1 r2 L * (Real.exp (-(k * (L - (r1 + r2)))) / (1 - Real.exp (-(2 * (k * (L - (r1 + r2))))))) := by
  have hd : 0 < L - (r1 + r2) := sub_pos.mpr hs
  have hC := freeC_pos h1 h2 hs
  have hg : k * (L - (r1 + r2)) ≤ optGap ⟨ε, 1⟩ r1 r2 L k := by
    unfold optGap
    rw [Real.sqrt_one, mul_one, mul_assoc]
    have : 1 ≤ Real.sqrt ε := Real.one_le_sqrt.mpr hε
    exact mul_le_mul_of_nonneg_left (le_mul_of_one_le_left hd.le this) hk.le
  have e : 3 * pairBound ⟨ε, 1⟩ r1 r2 L k 0 / (1 - pairRatio ⟨ε, 1⟩ r1 r2 L) =
      freeC r1 r2 L * (Real.exp (-optGap ⟨ε, 1⟩ r1 r2 L k) / (1 - Real.exp (-(2 * optGap ⟨ε, 1⟩ r1 r2 L k)))) := by
    obtain ⟨a1, a2⟩ := gapRatio_mem h1 hd
    obtain ⟨b1, b2⟩ := gapRatio_mem h2 hd
    have : gapRatio r1 (L - (r1 + r2)) * gapRatio r2 (L - (r1 + r2)) < 1 := by nlinarith
    unfold pairBound pairTrace pairRatio freeC
    simp only [Real.sqrt_one, mul_one]
    rw [show (0 : ℕ) - 1 = 0 from rfl, pow_zero, pow_zero]
    simp only [div_eq_mul_inv, mul_inv]
    ring
  rw [e]
  exact mul_le_mul_of_nonneg_left (expRatio_anti (by positivity) hg) hC.le

/-! ## The geometry -/

/-- Two separate spheres of covered materials and sensible cut-offs. -/
structure PairOK (P : PairIn) : Prop where
  m1 : SphereMat P.mat1
  m2 : SphereMat P.mat2
  m3 : MediumMat P.mat3
  h1 : 0 < P.r1
  h2 : 0 < P.r2
  sep : P.r1 + P.r2 < P.L
  hl : 1 ≤ P.lmax
  hls : P.lmax ≤ P.lssmax

/-- **C100, `mSumme`.** For two separate spheres and any positive wavenumbers `mSumme` returns one number per wavenumber, of
the order `exp(-k d)` with the gap `d`, negative for equal contrast and positive for opposite contrast. -/
theorem C100_mSumme {P : PairIn} (h : PairOK P) {ks : List ℝ} (hne : ks ≠ []) (hk : ∀ k ∈ ks, 0 < k) :
    ∃ vs, pairVals exactBes P ks = .ok vs ∧ vs.length = ks.length ∧ ∀ (j : ℕ) (k x : ℝ), ks[j]? = some k → vs[j]? = some x →
      |x| ≤ freeC P.r1 P.r2 P.L * (Real.exp (-(k * (P.L - (P.r1 + P.r2)))) / (1 - Real.exp (-(2 * (k * (P.L - (P.r1 + P.r2))))))) ∧
      (EqualContrast P.mat1 P.mat2 P.mat3 → x ≤ 0) ∧ (OppositeContrast P.mat1 P.mat2 P.mat3 → 0 ≤ x) := by
  have hS : ∀ k ∈ ks, ∃ a b, FinitePair P.mat1 P.mat2 P.mat3 P.r1 P.r2 P.L k ⟨P.mat3.epsV k, 1⟩ a b := by
    intro k hkm
    have := finitePair_exists h.m1.phys h.m2.phys h.m3.cls h.m3.phys (hk k hkm) h.h1 h.h2 (L := P.L)
      (by rw [muV_of_none h.m3.mag, Real.sqrt_one, mul_one]; exact h.sep)
    rwa [muV_of_none h.m3.mag] at this
  have gen : ∀ σa σb : ℝ → ℝ, (∀ k ∈ ks, DenseSign P.mat1 P.mat3 k (σa k)) → (∀ k ∈ ks, DenseSign P.mat2 P.mat3 k (σb k)) → _ :=
    fun σa σb ea eb => pairVals_ok hne (med := fun k => ⟨P.mat3.epsV k, 1⟩) hS ea eb h.hl h.hls
  have t1 : ∀ k : ℝ, ∃ σ, 0 < k → DenseSign P.mat1 P.mat3 k σ := fun k => by
    by_cases hk : 0 < k
    · exact (dense_total h.m1 h.m3 hk).imp fun _ h _ => h
    · exact ⟨0, fun h => absurd h hk⟩
  have t2 : ∀ k : ℝ, ∃ σ, 0 < k → DenseSign P.mat2 P.mat3 k σ := fun k => by
    by_cases hk : 0 < k
    · exact (dense_total h.m2 h.m3 hk).imp fun _ h _ => h
    · exact ⟨0, fun h => absurd h hk⟩
  choose s1 q1 using t1
  choose s2 q2 using t2
  obtain ⟨vs, hv, hlen, hx⟩ := gen s1 s2 (fun k h => q1 k (hk k h)) (fun k h => q2 k (hk k h))
  refine ⟨vs, hv, hlen, fun j k x hj hjx => ?_⟩
  have hkm : k ∈ ks := List.mem_of_getElem? hj
  refine ⟨(hx j k x hj hjx).1.trans (pair_le h.h1 h.h2 h.sep (hk k hkm) (h.m3.one_le (hk k hkm))), fun hc => ?_, fun hc => ?_⟩
  · have t : ∀ k : ℝ, ∃ σ, 0 < k → DenseSign P.mat1 P.mat3 k σ ∧ DenseSign P.mat2 P.mat3 k σ := fun k => by
      by_cases hk : 0 < k
      · exact (hc.finite k hk).imp fun _ h _ => h
      · exact ⟨0, fun h => absurd h hk⟩
    choose s q using t
    obtain ⟨vs', hv', -, hx'⟩ := gen s s (fun k h => (q k (hk k h)).1) (fun k h => (q k (hk k h)).2)
    rw [hv] at hv'
    injection hv' with hv'
    subst hv'
    exact (hx' j k x hj hjx).2.1 rfl
  · have t : ∀ k : ℝ, ∃ σ, 0 < k → DenseSign P.mat1 P.mat3 k σ ∧ DenseSign P.mat2 P.mat3 k (-σ) := fun k => by
      by_cases hk : 0 < k
      · exact (hc.finite k hk).imp fun _ h _ => h
      · exact ⟨0, fun h => absurd h hk⟩
    choose s q using t
    obtain ⟨vs', hv', -, hx'⟩ := gen s (fun k => -s k) (fun k h => (q k (hk k h)).1) (fun k h => (q k (hk k h)).2)
    rw [hv] at hv'
    injection hv' with hv'
    subst hv'
    refine (hx' j k x hj hjx).2.2 ?_
    show s k ≠ -s k
    rcases ((q k (hk k hkm)).1).sign with e | e <;> rw [e] <;> norm_num

/-- **C100, `mSumme_k0`.** -/
theorem C100_mSumme_k0 {P : PairIn} (h : PairOK P) (frac : ℝ → ℝ → ℝ) :
    ∃ z, pairK0 frac P = .ok z ∧ |z| ≤ 4 * staticBound P.r1 P.r2 P.L 0 / (1 - P.r1 / (P.L - P.r2)) ∧
      (EqualContrast P.mat1 P.mat2 P.mat3 → z ≤ 0) ∧ (OppositeContrast P.mat1 P.mat2 P.mat3 → 0 ≤ z) := by
  obtain ⟨a0, b0, S⟩ := staticPair_exists frac h.m1.static h.m2.static h.m3.diel h.m3.phys h.h1 h.h2 h.sep
  obtain ⟨z, hz, hb, hsg⟩ := pairK0_ok S h.hl h.hls
  refine ⟨z, hz, hb, fun hc => ?_, fun hc => ?_⟩
  · obtain ⟨σ, e1, e2⟩ := hc.electric
    obtain ⟨τ, g1, g2⟩ := hc.magnetic
    exact (hsg σ σ τ τ e1 e2 g1 g2).1 rfl rfl
  · obtain ⟨σ, e1, e2⟩ := hc.electric
    obtain ⟨τ, g1, g2⟩ := hc.magnetic
    refine (hsg σ (-σ) τ (-τ) e1 e2 g1 g2).2 ?_ ?_
    · rcases e1.sign with e | e <;> rw [e] <;> norm_num
    · rcases g1.sign with e | e <;> rw [e] <;> norm_num

section
variable {P : PairIn} {frac : ℝ → ℝ → ℝ}

theorem pairGeo_valsOk (h : PairOK P) : ValsOk (pairGeo exactBes frac P) := fun _ hne hk => by
  obtain ⟨vs, h1, h2, -⟩ := C100_mSumme h hne hk
  exact ⟨vs, h1, h2⟩

theorem pairGeo_slice (h : PairOK P) {deltaT : ℝ} (hT : 0 < deltaT) {N n : ℕ} (hn : 1 ≤ n) (hN : n ≤ N) :
    |sliceVal (pairGeo exactBes frac P) deltaT N n| ≤ freeC P.r1 P.r2 P.L *
      (Real.exp (-(deltaT * n * (P.L - (P.r1 + P.r2)))) / (1 - Real.exp (-(2 * (deltaT * n * (P.L - (P.r1 + P.r2))))))) ∧
    (EqualContrast P.mat1 P.mat2 P.mat3 → sliceVal (pairGeo exactBes frac P) deltaT N n ≤ 0) ∧
    (OppositeContrast P.mat1 P.mat2 P.mat3 → 0 ≤ sliceVal (pairGeo exactBes frac P) deltaT N n) := by
  obtain ⟨k1, k2, k3⟩ := sliceKs_mem hT hn hN
  obtain ⟨vs, h1, h2, h3⟩ := C100_mSumme h k1 k2
  have hlt : n - sliceLo n < vs.length := by
    rw [h2]
    by_contra hh
    rw [List.getElem?_eq_none (by omega)] at k3
    cases k3
  have e : sliceVal (pairGeo exactBes frac P) deltaT N n = vs[n - sliceLo n] := by
    unfold sliceVal
    rw [show (pairGeo exactBes frac P).vals = pairVals exactBes P from rfl, h1]
    simp only
    rw [List.getD_eq_getElem?_getD, List.getElem?_eq_getElem hlt]
    rfl
  rw [e]
  exact h3 _ _ _ k3 (List.getElem?_eq_getElem hlt)

/-- The terms of the Matsubara sum at the `i`-th temperature are dominated by a geometric series. -/
theorem pairGeo_geometric (h : PairOK P) {deltaT : ℝ} (hT : 0 < deltaT) {i : ℕ} (hi : 1 ≤ i) {N j : ℕ} (hj : (j + 1) * i ≤ N) :
    |sliceVal (pairGeo exactBes frac P) deltaT N ((j + 1) * i)| ≤ freeC P.r1 P.r2 P.L *
      (Real.exp (-(i * deltaT * (P.L - (P.r1 + P.r2)))) / (1 - Real.exp (-(2 * (i * deltaT * (P.L - (P.r1 + P.r2))))))) *
        Real.exp (-(i * deltaT * (P.L - (P.r1 + P.r2)))) ^ j := by
  have hn : 1 ≤ (j + 1) * i := Nat.one_le_iff_ne_zero.mpr (by positivity)
  refine (pairGeo_slice h hT hn hj).1.trans ?_
  have hC := freeC_pos h.h1 h.h2 h.sep
  rw [mul_assoc (freeC _ _ _)]
  refine mul_le_mul_of_nonneg_left ?_ hC.le
  have hd : 0 < P.L - (P.r1 + P.r2) := sub_pos.mpr h.sep
  have hx : 0 < i * deltaT * (P.L - (P.r1 + P.r2)) := by positivity
  have e : deltaT * ((j + 1) * i : ℕ) * (P.L - (P.r1 + P.r2)) = (j + 1) * (i * deltaT * (P.L - (P.r1 + P.r2))) := by push_cast; ring
  rw [e]
  generalize i * deltaT * (P.L - (P.r1 + P.r2)) = x at hx
  have e1 : Real.exp (-(2 * x)) < 1 := by rw [Real.exp_lt_one_iff]; linarith
  have e2 : Real.exp (-((j + 1) * x)) = Real.exp (-x) * Real.exp (-x) ^ j := by
    rw [← Real.exp_nat_mul, ← Real.exp_add]; congr 1; ring
  have e3 : Real.exp (-(2 * ((j + 1) * x))) ≤ Real.exp (-(2 * x)) := by
    refine Real.exp_le_exp.mpr ?_
    have : 0 ≤ (j : ℝ) * x := by positivity
    linarith
  rw [e2, div_mul_eq_mul_div]
  exact div_le_div_of_nonneg_left (by positivity) (by linarith) (by linarith)

theorem geo_sum_le {C y : ℝ} (hC : 0 ≤ C) (y0 : 0 ≤ y) (y1 : y < 1) {n : ℕ} {f : ℕ → ℝ} (hf : ∀ j < n, |f j| ≤ C * y ^ j) :
    |∑ j ∈ Finset.range n, f j| ≤ C / (1 - y) := by
  have hs := (hasSum_geometric_of_lt_one y0 y1).mul_left C
  calc _ ≤ ∑ j ∈ Finset.range n, |f j| := Finset.abs_sum_le_sum_abs _ _
    _ ≤ ∑ j ∈ Finset.range n, C * y ^ j := Finset.sum_le_sum fun j hj => hf j (Finset.mem_range.mp hj)
    _ ≤ C * (1 - y)⁻¹ := sum_le_hasSum _ (fun j _ => by positivity) hs
    _ = _ := by rw [div_eq_mul_inv]

/-- The sum of the static and the other terms, times the temperature. -/
theorem free_bound_aux (h : PairOK P) {deltaT : ℝ} (hT : 0 < deltaT) {i : ℕ} (hi : 1 ≤ i) {z : ℝ} {n : ℕ} {f : ℕ → ℝ}
    (hz : |z| ≤ 4 * staticBound P.r1 P.r2 P.L 0 / (1 - P.r1 / (P.L - P.r2)))
    (hf : ∀ j < n, |f j| ≤ freeC P.r1 P.r2 P.L *
      (Real.exp (-(i * deltaT * (P.L - (P.r1 + P.r2)))) / (1 - Real.exp (-(2 * (i * deltaT * (P.L - (P.r1 + P.r2))))))) *
        Real.exp (-(i * deltaT * (P.L - (P.r1 + P.r2)))) ^ j) :
    |i * deltaT * (0.5 * z + ∑ j ∈ Finset.range n, f j)| ≤ freeBound P.r1 P.r2 P.L (i * deltaT) := by
  have hC := freeC_pos h.h1 h.h2 h.sep
  have hd : 0 < P.L - (P.r1 + P.r2) := sub_pos.mpr h.sep
  have hx : 0 < i * deltaT * (P.L - (P.r1 + P.r2)) := by positivity
  have hT' : (0 : ℝ) < i * deltaT := by positivity
  rw [abs_mul, abs_of_pos hT']
  unfold freeBound
  refine mul_le_mul_of_nonneg_left ?_ hT'.le
  generalize i * deltaT * (P.L - (P.r1 + P.r2)) = x at hx hf
  have e1 : Real.exp (-(2 * x)) < 1 := by rw [Real.exp_lt_one_iff]; linarith
  have e2 : Real.exp (-x) < 1 := by rw [Real.exp_lt_one_iff]; linarith
  have e3 := sub_pos.mpr e1
  have g := geo_sum_le (by positivity) (Real.exp_pos _).le e2 hf
  refine (abs_add_le _ _).trans (add_le_add ?_ (g.trans (le_of_eq ?_)))
  · rw [abs_mul, abs_of_pos (by norm_num)]
    have e : 2 * staticBound P.r1 P.r2 P.L 0 / (1 - P.r1 / (P.L - P.r2)) =
      0.5 * (4 * staticBound P.r1 P.r2 P.L 0 / (1 - P.r1 / (P.L - P.r2))) := by ring
    rw [e]
    linarith
  · rw [mul_div_assoc, div_div]

variable {p : FTParams}

/-- **C100, `free_energy`.** For two separate spheres, `free_energy` on a new object returns one number for each of the
temperatures `deltaT, …, maxstep·deltaT`.  Each is bounded by a function of temperature, radii and distance only; it is
negative (attraction) if the spheres have equal contrast, in particular if they consist of the same material, and positive
(repulsion) for opposite contrast. -/
theorem C100_free_energy (h : PairOK P) (hg : p.geo = pairGeo exactBes frac P) (hp : p.nprocs.isZero) (ha : p.analyticN0 = true)
    (hT : 0 < p.deltaT) (hN : 0 ≤ p.nmax) :
    ∃ F : List ℝ, (freeEnergy p FT.fresh).1 = .ok F ∧ F.length = p.maxstep.toNat ∧ ∀ (i : ℕ) (x : ℝ), F[i]? = some x →
      |x| ≤ freeBound P.r1 P.r2 P.L ((i + 1) * p.deltaT) ∧
      (EqualContrast P.mat1 P.mat2 P.mat3 → x ≤ 0) ∧ (OppositeContrast P.mat1 P.mat2 P.mat3 → 0 ≤ x) := by
  obtain ⟨z, hz, hzb, hz1, hz2⟩ := C100_mSumme_k0 h frac
  obtain ⟨N, hN⟩ := Int.eq_ofNat_of_zero_le hN
  obtain ⟨F, hF, hlen, hval⟩ := freeEnergy_slices p (z := z) (hg ▸ pairGeo_valsOk h) (by rw [hg]; exact hz) hp ha hT hN
  refine ⟨F, hF, hlen, fun i x hx => ?_⟩
  have hi : i < F.length := by
    by_contra hh
    rw [List.getElem?_eq_none (by omega)] at hx
    cases hx
  have hv := hval (i + 1) (by omega) (by omega)
  rw [Nat.add_sub_cancel, hx] at hv
  injection hv with hv
  rw [hg] at hv
  have hle : ∀ j < N / (i + 1), (j + 1) * (i + 1) ≤ N := fun j hj =>
    (Nat.mul_le_mul_right _ hj).trans (Nat.div_mul_le_self _ _)
  have hT' : (0 : ℝ) ≤ (i + 1 : ℕ) * p.deltaT := by positivity
  have hs : ∀ j ∈ Finset.range (N / (i + 1)), _ := fun j hj =>
    pairGeo_slice (frac := frac) h hT (Nat.one_le_iff_ne_zero.mpr (by positivity)) (hle j (Finset.mem_range.mp hj))
  refine ⟨?_, fun hc => ?_, fun hc => ?_⟩
  · rw [hv]
    have := free_bound_aux h hT (i := i + 1) (by omega) hzb (n := N / (i + 1))
      (f := fun j => sliceVal (pairGeo exactBes frac P) p.deltaT N ((j + 1) * (i + 1)))
      (fun j hj => pairGeo_geometric h hT (by omega) (hle j hj))
    rwa [Nat.cast_add, Nat.cast_one] at this ⊢
  · rw [hv]
    exact mul_nonpos_of_nonneg_of_nonpos hT'
      (add_nonpos (by have := hz1 hc; linarith) (Finset.sum_nonpos fun j hj => (hs j hj).2.1 hc))
  · rw [hv]
    exact mul_nonneg hT' (add_nonneg (by have := hz2 hc; linarith) (Finset.sum_nonneg fun j hj => (hs j hj).2.2 hc))

/-- **C100, number of Matsubara terms.** At every temperature the result of `free_energy` converges when `nmax → ∞`; the
limit has the bound and the sign of C100. -/
theorem C100_nmax_limit (h : PairOK P) (hg : p.geo = pairGeo exactBes frac P) (hp : p.nprocs.isZero) (ha : p.analyticN0 = true)
    (hT : 0 < p.deltaT) {F : ℕ → List ℝ} (hF : ∀ N : ℕ, (freeEnergy { p with nmax := N } FT.fresh).1 = .ok (F N)) {i : ℕ}
    (hi : (i : ℤ) < p.maxstep) :
    ∃ v, Tendsto (fun N => (F N).getD i 0) atTop (𝓝 v) ∧ |v| ≤ freeBound P.r1 P.r2 P.L ((i + 1) * p.deltaT) ∧
      (EqualContrast P.mat1 P.mat2 P.mat3 → v ≤ 0) ∧ (OppositeContrast P.mat1 P.mat2 P.mat3 → 0 ≤ v) := by
  obtain ⟨z, hz, -⟩ := C100_mSumme_k0 h frac
  have key : ∀ N, ∃ x, (F N)[i]? = some x ∧
      x = (i + 1 : ℕ) * p.deltaT * (0.5 * z + ∑ j ∈ Finset.range (N / (i + 1)), sliceVal (pairGeo exactBes frac P) p.deltaT N ((j + 1) * (i + 1))) := by
    intro N
    obtain ⟨G, hG, -, hval⟩ := freeEnergy_slices { p with nmax := N } (z := z) (by simp only; rw [hg]; exact pairGeo_valsOk h)
      (by simp only; rw [hg]; exact hz) hp ha hT rfl
    rw [hF] at hG
    injection hG with hG
    subst hG
    refine ⟨_, hval (i + 1) (by omega) (by simp only; omega), ?_⟩
    simp only
    rw [hg]
  choose x hx hxv using key
  have hgd : ∀ N, (F N).getD i 0 = x N := fun N => by rw [List.getD_eq_getElem?_getD, hx]; rfl
  have hd : 0 < P.L - (P.r1 + P.r2) := sub_pos.mpr h.sep
  have hx0 : 0 < (i + 1 : ℕ) * p.deltaT * (P.L - (P.r1 + P.r2)) := by positivity
  obtain ⟨v, hv⟩ := slices_limit (pairGeo exactBes frac P) p.deltaT (i := i + 1) (by omega)
    (b := fun j => freeC P.r1 P.r2 P.L * (Real.exp (-((i + 1 : ℕ) * p.deltaT * (P.L - (P.r1 + P.r2)))) /
      (1 - Real.exp (-(2 * ((i + 1 : ℕ) * p.deltaT * (P.L - (P.r1 + P.r2))))))) *
        Real.exp (-((i + 1 : ℕ) * p.deltaT * (P.L - (P.r1 + P.r2)))) ^ j)
    ((summable_geometric_of_lt_one (Real.exp_pos _).le (by rw [Real.exp_lt_one_iff]; linarith)).mul_left _)
    (fun N j hj => pairGeo_geometric h hT (by omega) hj)
  have hlim : Tendsto (fun N => (F N).getD i 0) atTop (𝓝 ((i + 1 : ℕ) * p.deltaT * (0.5 * z + v))) := by
    refine ((hv.const_add (0.5 * z)).const_mul ((i + 1 : ℕ) * p.deltaT)).congr fun N => ?_
    rw [hgd, hxv]
  have hall : ∀ N, |(F N).getD i 0| ≤ freeBound P.r1 P.r2 P.L ((i + 1) * p.deltaT) ∧
      (EqualContrast P.mat1 P.mat2 P.mat3 → (F N).getD i 0 ≤ 0) ∧ (OppositeContrast P.mat1 P.mat2 P.mat3 → 0 ≤ (F N).getD i 0) := by
    intro N
    obtain ⟨G, hG, -, hval⟩ := C100_free_energy (p := { p with nmax := N }) h hg hp ha hT (by simp)
    rw [hF] at hG
    injection hG with hG
    subst hG
    rw [hgd]
    exact hval i _ (hx N)
  exact ⟨_, hlim, le_of_tendsto hlim.abs (.of_forall fun N => (hall N).1), fun hc => le_of_tendsto hlim (.of_forall fun N => (hall N).2.1 hc),
    fun hc => ge_of_tendsto hlim (.of_forall fun N => (hall N).2.2 hc)⟩

/-- **C100, constructor.** The object made by `finiteT(deltaT, nmax, Tmax, geom)` with the default arguments meets the
hypotheses, also for `nmax = "automatic"`. -/
theorem C100_constructor (h : PairOK P) {deltaT Tmax : ℝ} (hT : 0 < deltaT) {nmax : NMax} (hn : ∀ n, nmax = .num n → 0 ≤ n) :
    ∃ o, finiteTInit deltaT nmax Tmax P.r1 P.r2 P.L P.lmax false true true (.int 0) = .ok o ∧
      ∃ F, (freeEnergy ⟨deltaT, o.nmax, o.maxstep, o.analyticN0, o.nprocs, pairGeo exactBes frac P⟩ FT.fresh).1 = .ok F ∧
        F.length = (pyRound (Tmax / deltaT)).toNat ∧ ∀ (i : ℕ) (x : ℝ), F[i]? = some x →
          |x| ≤ freeBound P.r1 P.r2 P.L ((i + 1) * deltaT) ∧
          (EqualContrast P.mat1 P.mat2 P.mat3 → x ≤ 0) ∧ (OppositeContrast P.mat1 P.mat2 P.mat3 → 0 ≤ x) := by
  cases nmax with
  | num n =>
    refine ⟨⟨n, true, pyRound (Tmax / deltaT), .int 0⟩, by unfold finiteTInit; simp [hT.ne'], ?_⟩
    exact C100_free_energy (p := ⟨deltaT, n, _, true, .int 0, pairGeo exactBes frac P⟩) h rfl rfl rfl hT (hn n rfl)
  | automatic =>
    obtain ⟨o, ho, -⟩ := C31_int_nprocs deltaT Tmax P.r1 P.r2 P.L P.lmax .automatic false true 0 hT.ne' (fun _ => ⟨h.h1.ne', h.h2.ne', h.sep, by
      have := h.hl; positivity⟩)
    obtain ⟨-, -, -, ea, em, en, -⟩ := init_ok ho
    refine ⟨o, ho, ?_⟩
    rw [ea, em, en]
    exact C100_free_energy (p := ⟨deltaT, o.nmax, _, true, .int 0, pairGeo exactBes frac P⟩) h rfl rfl rfl hT
      (zero_le_one.trans (C31_auto_nmax _ _ _ _ _ _ _ _ _ _ _ ho))

/-- **C100, both constructors.** `SphereSphere(r1, r2, L, mat1, mat2, matMd, lmax, o)` with `lmax` automatic or at least one and an
automatic `lssmax`, for two separate spheres (and a positive precision, if `lmax` is automatic), always succeeds and chooses cut-offs for which all of C100 holds; the `finiteT` object
made from it has a free energy with the sign of the contrasts. -/
theorem C100_automatic {mat1 mat2 mat3 : Material} (m1 : SphereMat mat1) (m2 : SphereMat mat2) (m3 : MediumMat mat3) {r1 r2 L : ℝ}
    (h1 : 0 < r1) (h2 : 0 < r2) (hs : r1 + r2 < L) {lmax : AutoInt} (hlm : ∀ n, lmax = .num n → 1 ≤ n) (o : ℤ) (precision : ℝ)
    (hprec : lmax = .automatic → 0 < precision)
    {deltaT Tmax : ℝ} (hT : 0 < deltaT) {nmax : NMax} (hn : ∀ n, nmax = .num n → 0 ≤ n) :
    ∃ g q, sphereInit r1 r2 L lmax (.num o) .automatic precision 0 .lndet = .ok g ∧ g.extFlag = true ∧ 1 ≤ g.lmax ∧ g.lmax ≤ g.lssmax ∧
      finiteTInit deltaT nmax Tmax r1 r2 L g.lmax.toNat false true true (.int 0) = .ok q ∧
      ∃ F, (freeEnergy ⟨deltaT, q.nmax, q.maxstep, q.analyticN0, q.nprocs,
          pairGeo exactBes frac ⟨mat1, mat2, mat3, r1, r2, L, g.lmax.toNat, g.lssmax.toNat, precision⟩⟩ FT.fresh).1 = .ok F ∧
        F.length = (pyRound (Tmax / deltaT)).toNat ∧ ∀ (i : ℕ) (x : ℝ), F[i]? = some x →
          |x| ≤ freeBound r1 r2 L ((i + 1) * deltaT) ∧
          (EqualContrast mat1 mat2 mat3 → x ≤ 0) ∧ (OppositeContrast mat1 mat2 mat3 → 0 ≤ x) := by
  obtain ⟨lm, hlm', hge⟩ : ∃ lm, lmaxArg r1 r2 L precision (.num o) lmax = .ok lm ∧ 1 ≤ lm := by
    cases lmax with
    | num n => exact ⟨n, rfl, hlm n rfl⟩
    | automatic =>
      have : ∃ n, getLmax r1 r2 L precision o = .ok n := by
        unfold getLmax
        simp only
        have hprec := hprec rfl
        split_ifs with c1 c2 c3 c4
        · exact ⟨_, rfl⟩
        · exfalso
          have e : min r1 r2 + max r1 r2 = r1 + r2 := min_add_max r1 r2
          have : 0 < min r1 r2 := lt_min h1 h2
          rw [abs_of_nonpos (by linarith)] at c2
          linarith
        · exact absurd c3 hprec.ne'
        · exact absurd c4 hprec.not_gt
        · exact ⟨_, rfl⟩
      obtain ⟨n, hn⟩ := this
      exact ⟨n, hn, C32_ge_one _ _ _ _ _ _ hn⟩
  have hg : sphereInit r1 r2 L lmax (.num o) .automatic precision 0 .lndet = .ok
      { lmax := lm, lssmax := lssmaxArg r1 r2 lm .automatic, lOffset := .num o, extFlag := decide (L > r1 + r2), forceFlag := 0, trace := false } := by
    unfold sphereInit evalArg
    simp only [hlm']
  have hle := C33_lssmax _ _ _ _ _ _ _ _ _ h1 h2 hg (by simp only; omega)
  have hP : PairOK ⟨mat1, mat2, mat3, r1, r2, L, lm.toNat, (lssmaxArg r1 r2 lm .automatic).toNat, precision⟩ :=
    ⟨m1, m2, m3, h1, h2, hs, by simp only; omega, by simp only at hle ⊢; omega⟩
  obtain ⟨q, hq, hF⟩ := C100_constructor (frac := frac) hP (Tmax := Tmax) hT hn
  exact ⟨_, q, hg, by simpa using hs, hge, hle, hq, hF⟩

end

/-! ## Instances -/

theorem gold_sphere : SphereMat ⟨.lorentz, eGold, none⟩ := ⟨gold_static, gold_physical, rfl⟩
theorem vac_sphere : SphereMat ⟨.lorentz, [], none⟩ := ⟨.inr (.inl vac_diel), vac_diel.2, rfl⟩
theorem pec_sphere : SphereMat ⟨.pec, [], none⟩ := ⟨.inl rfl, ⟨by simp, by simp, by simp⟩, rfl⟩
theorem water_medium : MediumMat ⟨.lorentz, eWater, none⟩ := ⟨water_diel.1, water_diel.2, rfl⟩

/-- Two gold spheres of radius 1 and 4 in water at the distance 6: the free energy is negative at all temperatures. -/
example : ∃ F, (freeEnergy ⟨0.01, 500, 200, true, .int 0, pairGeo exactBes (fun _ _ => 0)
      ⟨⟨.lorentz, eGold, none⟩, ⟨.lorentz, eGold, none⟩, ⟨.lorentz, eWater, none⟩, 1, 4, 6, 20, 25, 1e-4⟩⟩ FT.fresh).1 = .ok F ∧
    F.length = 200 ∧ ∀ (i : ℕ) (x : ℝ), F[i]? = some x → x ≤ 0 := by
  have h : PairOK ⟨⟨.lorentz, eGold, none⟩, ⟨.lorentz, eGold, none⟩, ⟨.lorentz, eWater, none⟩, 1, 4, 6, 20, 25, 1e-4⟩ :=
    ⟨gold_sphere, gold_sphere, water_medium, by norm_num, by norm_num, by norm_num, by norm_num, by norm_num⟩
  obtain ⟨F, hF, hl, hx⟩ := C100_free_energy (frac := fun _ _ => 0) (p := ⟨0.01, 500, 200, true, .int 0, _⟩) h rfl rfl rfl (by norm_num) (by norm_num)
  exact ⟨F, hF, hl, fun i x e => (hx i x e).2.1 (equalContrast_same gold_sphere water_medium)⟩

/-- A perfect conductor and an empty bubble in water repel each other at all temperatures. -/
example : OppositeContrast ⟨.pec, [], none⟩ ⟨.lorentz, [], none⟩ ⟨.lorentz, eWater, none⟩ := by
  refine ⟨fun k hk => ⟨1, dense_of_le pec_sphere water_medium hk (.inl rfl), dilute_of_le vac_sphere water_medium hk (by simp) (one_le_epsV water_diel.2 hk)⟩,
    ⟨1, .inl ⟨rfl, .inl rfl⟩, ?_⟩, ⟨-1, .inr ⟨rfl, .inl rfl⟩, ?_⟩⟩
  · obtain ⟨hd, hp⟩ := water_diel
    refine .inr ⟨rfl, vac_diel.1, _, _, epsilon_lorentz_zero rfl (by simp), epsilon_lorentz_zero rfl (fun p h => (hd.2 p h).ne'), ?_⟩
    rw [lorentzEps_eq, lorentzEps_eq]
    simp only [List.map_nil, List.sum_nil, add_zero]
    have : 0 ≤ (eWater.map (lorT 0)).sum := by
      apply List.sum_nonneg
      intro x hx
      rw [List.mem_map] at hx
      obtain ⟨p, hpm, rfl⟩ := hx
      unfold lorT
      have := sq_nonneg (p.wR / omegaNorm)
      exact div_nonneg (sq_nonneg _) (by nlinarith)
    linarith
  · rw [neg_neg]
    exact (magnetic_both vac_sphere water_medium (by simp)).1

end CasSph
