import Verif.Lemmas.LayerCompare
import Verif.Lemmas.StratTable

/-! # Amplitudes of homogeneous and stratified spheres: values and comparison -/

namespace CasSph

open Spec Filter Topology Set

/-! ## Radial functions -/

section
variable {l : ℕ} {a b : Layer} {r t ρ : ℝ}

/-- The radial function and its derivative are positive. -/
def Up (l : ℕ) (a : Layer) (t r : ℝ) : Prop := 0 < layU l a t r ∧ 0 < layD l a t r

theorem Up.move (hl : 1 ≤ l) (ha : a.Pos) (hρ : 0 < ρ) (hr : ρ ≤ r) (hg : Grow l (a.q * ρ) t) (h : ρ < r ∨ Up l a t ρ) : Up l a t r := by
  rcases hr.eq_or_lt with rfl | hlt
  · exact h.resolve_left (lt_irrefl _)
  have hu : ∀ y, ρ < y → 0 < layU l a t y := fun y hy => grow_pos hl (mul_pos ha.q hρ) (mul_lt_mul_of_pos_left hy ha.q) hg
  refine ⟨hu r hlt, ?_⟩
  have hl' : (0 : ℝ) < l := by exact_mod_cast hl
  have hm : StrictMonoOn (layD l a t) (Ici ρ) := by
    refine strictMonoOn_of_deriv_pos (convex_Ici ρ) (fun y hy => (layD_hasDerivAt hl ha (hρ.trans_le hy)).continuousAt.continuousWithinAt) fun y hy => ?_
    rw [interior_Ici] at hy
    have hy0 : 0 < y := hρ.trans hy
    rw [(layD_hasDerivAt hl ha hy0).deriv]
    have := hu y hy
    have := ha.q
    positivity
  exact (layD_nonneg hg).trans_lt (hm (mem_Ici.mpr le_rfl) (mem_Ici.mpr hr) hlt)

theorem Up.next (hl : 1 ≤ l) (ha : a.Pos) (hb : b.Pos) (hr : 0 < r) (hg : Grow l (a.q * r) t) (h : Up l a t r) : Up l b (ampNext l a b r t) r := by
  obtain ⟨c, hc, h1, h2⟩ := ampNext_vals hl ha hb hr hg
  refine ⟨?_, ?_⟩
  · rw [h1]; exact mul_pos hc (mul_pos ha.w h.1)
  · rw [h2]; exact mul_pos hc (mul_pos hb.w h.2)

/-- A sphere at a larger radius. -/
theorem At.advance' (hl : 1 ≤ l) : ∀ (L : List (ℝ × Layer)) {a : Layer} {t ρ R : ℝ}, 0 < ρ → ρ ≤ R → At l ρ a t L →
    ∃ a1 t1 L1, At l R a1 t1 L1 ∧ ampRun l a1 t1 L1 = ampRun l a t L ∧ lastLayer a1 L1 = lastLayer a L ∧ (∀ r, R < r → layerAt a1 L1 r = layerAt a L r) ∧
      (ρ < R ∨ Up l a t ρ → Up l a1 t1 R)
  | [], a, t, ρ, R, hρ, hR, h => ⟨a, t, [], h.move hl hρ hR (by simp), rfl, rfl, fun _ _ => rfl, Up.move hl h.pos hρ hR h.grow⟩
  | (r1, b) :: L, a, t, ρ, R, hρ, hR, h => by
    obtain ⟨q1, q2⟩ := h.head_le
    rcases le_or_gt R r1 with hr | hr
    · exact ⟨a, t, (r1, b) :: L, h.move hl hρ hR (fun x hx => hr.trans (q2 x hx)), rfl, rfl, fun _ _ => rfl, Up.move hl h.pos hρ hR h.grow⟩
    · have hr1 := hρ.trans_le q1
      have hm := h.move hl hρ q1 q2
      have h' := hm.step hl hr1
      obtain ⟨a1, t1, L1, g1, g2, g3, g4, g5⟩ := At.advance' hl L hr1 hr.le h'
      exact ⟨a1, t1, L1, g1, g2, g3, fun r hrr => (g4 r hrr).trans (by rw [layerAt, if_neg (not_le.mpr (hr.trans hrr))]), fun _ => g5 (.inl hr)⟩

end

/-! ## Polarisations -/

/-- The layer formed by a medium for TE (`false`) and TM (`true`) waves. -/
noncomputable def lay (P : Bool) (k : ℝ) (a : Medium) : Layer := bif P then a.tm k else a.te k

/-- Amplitude excited by a perfectly conducting core. -/
noncomputable def ampPec (P : Bool) (l : ℕ) (b : Layer) (r : ℝ) : ℝ := bif P then ampPecTM l b r else ampPecTE l b r

/-- Sign of the comparison. -/
def sg (P : Bool) : ℝ := bif P then 1 else -1

theorem sg_sq (P : Bool) : sg P * sg P = 1 := by cases P <;> norm_num [sg]

section
variable {l : ℕ} {P : Bool} {k r : ℝ}

theorem lay_pos {a : Medium} (ha : a.Pos) (hk : 0 < k) (P : Bool) : (lay P k a).Pos := by
  cases P
  · exact a.te_pos ha hk
  · exact a.tm_pos ha hk

theorem ampPec_grow (hl : 1 ≤ l) {b : Layer} (hb : b.Pos) (hr : 0 < r) (P : Bool) : Grow l (b.q * r) (ampPec P l b r) := by
  cases P
  · exact grow_pecTE hl hb hr
  · exact grow_pecTM hl hb hr

/-- At the surface of a perfect conductor. -/
theorem wron_pec (hl : 1 ≤ l) {a b : Layer} (ha : a.Pos) (hb : b.Pos) (hr : 0 < r) {t : ℝ} (hg : Grow l (a.q * r) t) (P : Bool) :
    0 ≤ sg P * wron l a b t (ampPec P l b r) r ∧ (Up l a t r → 0 < sg P * wron l a b t (ampPec P l b r) r) := by
  have hx := mul_pos hb.q hr
  have hi := sphI_pos l hx
  have hk := sphK_pos l hx
  have i1 := idX_pos hl hx
  have k1 := kdX_neg hl hx
  have gp := ampPec_grow hl hb hr P
  have u0 := layU_nonneg hg
  have d0 := layD_nonneg hg
  have wa := ha.w
  have wb := hb.w
  cases P
  · have hu : layU l b (ampPecTE l b r) r = 0 := by
      unfold layU ampPecTE
      rw [div_mul_cancel₀ _ hk.ne', sub_self]
    have hd : 0 < layD l b (ampPecTE l b r) r := by
      unfold layD ampPecTE
      have e : idX l (b.q * r) * sphI l (b.q * r) - sphI l (b.q * r) / sphK l (b.q * r) * (kdX l (b.q * r) * sphK l (b.q * r)) =
          sphI l (b.q * r) * (idX l (b.q * r) - kdX l (b.q * r)) := by field_simp
      rw [e]
      exact mul_pos hi (by linarith)
    have e : sg false * wron l a b t (ampPec false l b r) r = a.w * layU l a t r * layD l b (ampPecTE l b r) r := by
      simp only [sg, ampPec, cond_false, wron]
      rw [hu]; ring
    rw [e]
    exact ⟨by positivity, fun h => by have := h.1; positivity⟩
  · have hd : layD l b (ampPecTM l b r) r = 0 := by
      unfold layD ampPecTM
      have h2 := k1.ne
      field_simp
      ring
    have hu : 0 < layU l b (ampPecTM l b r) r := by
      unfold layU ampPecTM
      have : idX l (b.q * r) / kdX l (b.q * r) * (sphI l (b.q * r) / sphK l (b.q * r)) * sphK l (b.q * r) < 0 :=
        mul_neg_of_neg_of_pos (mul_neg_of_neg_of_pos (div_neg_of_pos_of_neg i1 k1) (div_pos hi hk)) hk
      linarith
    have e : sg true * wron l a b t (ampPec true l b r) r = b.w * layD l a t r * layU l b (ampPecTM l b r) r := by
      simp only [sg, ampPec, cond_true, wron]
      rw [hd]; ring
    rw [e]
    exact ⟨by positivity, fun h => by have := h.2; positivity⟩

/-- Two media that are not magnetic. -/
theorem lay_rel {a e : Medium} (ha : a.Pos) (he : e.Pos) (hk : 0 < k) (ma : a.mu = 1) (me : e.mu = 1) (h : a.eps ≤ e.eps) (P : Bool) :
    Rel (sg P) (lay P k a) (lay P k e) ∧ (a.eps < e.eps → RelLt (sg P) (lay P k a) (lay P k e)) := by
  have e1 : a.n ^ 2 = a.eps * a.mu := Real.sq_sqrt (mul_nonneg ha.1.le ha.2.le)
  have e2 : e.n ^ 2 = e.eps * e.mu := Real.sq_sqrt (mul_nonneg he.1.le he.2.le)
  have hag : a.Against (-1) e := ⟨by linarith, by rw [ma, me]; norm_num⟩
  cases P
  · refine ⟨hag.te ha he, fun hlt => .inl ?_⟩
    simp only [lay, sg, cond_false, Medium.te, mul_pow, e1, e2, ma, me]
    have := mul_pos (pow_pos hk 2) (sub_pos.mpr hlt)
    linarith
  · refine ⟨by simpa [sg, lay] using hag.tm (k := k) ha he, fun hlt => .inr ?_⟩
    simp only [lay, sg, cond_true, Medium.tm, one_mul]
    linarith

end

/-! ## Spheres -/

/-- Material in the centre. -/
def Ball.core : Ball → ℕ
  | .solid m _ => m
  | .strat s => s.mats.headD 0

/-- Interfaces and the materials outside them. -/
def Ball.shells (md : ℕ) : Ball → List (ℝ × ℕ)
  | .solid _ r => [(r, md)]
  | .strat s => s.rs.zip s.mats.tail

/-- Material at the distance `r` from the centre. -/
noncomputable def Ball.matAt (md : ℕ) (B : Ball) (r : ℝ) : ℕ := layerAt B.core (B.shells md) r

open scoped Classical in
/-- Amplitude of the wave scattered by the layers. -/
noncomputable def shellAmp (H : MatHeap) (k : ℝ) (P : Bool) (l : ℕ) (a : ℕ) : List (ℝ × ℕ) → ℝ
  | [] => 0
  | (r, b) :: L => ampRun l (lay P k (medAt H k b))
      (if (H a).cls = .pec then ampPec P l (lay P k (medAt H k b)) r else ampNext l (lay P k (medAt H k a)) (lay P k (medAt H k b)) r 0)
      (L.map fun x => (x.1, lay P k (medAt H k x.2)))

/-- Amplitude of the wave scattered by the sphere. -/
noncomputable def ballAmp (H : MatHeap) (md : ℕ) (k : ℝ) (P : Bool) (l : ℕ) (B : Ball) : ℝ := shellAmp H k P l B.core (B.shells md)

section
variable {H : MatHeap} {md : ℕ} {k : ℝ}

theorem zip_fst_snd {α β : Type} (L : List (α × β)) : (L.map Prod.fst).zip (L.map Prod.snd) = L := by
  induction L with
  | nil => rfl
  | cons x L ih => simp [ih]

/-- The layers of a sphere. -/
theorem BallOK.layers {B : Ball} {R : ℝ} (h : BallOK H md B R) (hmd : MediumMat (H md)) : ∃ r b L c, B.shells md = (r, b) :: L ∧
    Shells H B.core r b L ∧ ((r, b) :: L).getLast? = some (R, c) ∧ H c = H md ∧ (∀ x ∈ B.core :: b :: L.map Prod.snd, (H x).b = none) ∧
    (∀ p : Material → Prop, p (H md) → (∀ x ∈ B.mats, p (H x)) → ∀ x ∈ B.core :: b :: L.map Prod.snd, p (H x)) ∧
    ∀ k, ∀ w : MieCoef, (∀ l, 1 ≤ l → ∃ s', StratReturns exactBes H l k (layered B.core ((r, b) :: L)) (.ok ⟨w.TE l, w.TM l, w.ln l⟩, s')) →
      ∀ n, ∃ t, ballTable exactBes H md n k B = .ok t ∧ AgreeTo n t w := by
  cases B with
  | solid m r =>
    obtain ⟨rfl, h1, h2, h3⟩ := h
    refine ⟨r, md, [], md, rfl, ⟨h1, h2, by simpa using ⟨hmd.cls, hmd.phys⟩, by simp⟩, rfl, rfl, by simpa using ⟨h3, hmd.mag⟩,
      fun p p1 p2 => by simpa [Ball.mats, Ball.core, p1] using p2, fun k w hw n => ?_⟩
    refine mieTable_ok (fun l hl => ?_) n
    obtain ⟨s', hs⟩ := hw l hl
    exact stratReturns_solid hs
  | strat s =>
    have h' : Coating H md s R := h
    obtain ⟨a, r, b, L, c, hs, hS, hlast, hce, hm⟩ := h'.layers
    have hcore : (Ball.strat s).core = a := by simp [Ball.core, hm]
    have hsh : (Ball.strat s).shells md = (r, b) :: L := by
      simp only [Ball.shells]
      rw [hs]
      exact zip_fst_snd ((r, b) :: L)
    rw [hcore]
    refine ⟨r, b, L, c, hsh, hS, hlast, hce, fun x hx => (h'.phys x (hm ▸ hx)).2, fun p _ p2 x hx => p2 x (by
      show x ∈ s.mats
      rw [hm]; exact hx), fun k w hw n => ?_⟩
    have hinit : stratInit (.list s.mats) (.list s.rs) = .ok (some s) := by
      rw [C82_lists, if_pos]
      refine ⟨?_, h'.len.symm⟩
      rw [hm]; simp
    show ∃ t, stratTable exactBes H s n k = .ok t ∧ AgreeTo n t w
    unfold stratTable
    rw [hinit, ok_bind]
    simp only
    rw [finM_ok (g := fun i : Fin n => ⟨w.TE (i.1 + 1), w.TM (i.1 + 1), w.ln (i.1 + 1)⟩) (fun i => ?_), ok_bind]
    · exact ⟨_, rfl, tableOf_agree fun i => rfl⟩
    · obtain ⟨s', hs'⟩ := hw (i.1 + 1) (by omega)
      rw [← hs] at hs'
      rw [stratReturns_fuel hs']

/-- `mie_stratified` returns these amplitudes. -/
theorem Shells.value {a r b L} (h : Shells H a r b L) (hk : 0 < k) {l : ℕ} (hl : 1 ≤ l) :
    ∃ v s', StratReturns exactBes H l k (layered a ((r, b) :: L)) (.ok v, s') ∧
      v.TE * Real.exp v.ln = (-1) ^ l * (Real.pi / 2) * shellAmp H k false l a ((r, b) :: L) ∧
      v.TM * Real.exp v.ln = (-1) ^ l * (Real.pi / 2) * shellAmp H k true l a ((r, b) :: L) := by
  have hmed := h.med hk
  obtain ⟨hb, hbp⟩ := hmed b (by simp)
  have tb := (medAt H k b).te_pos hbp hk
  have mb := (medAt H k b).tm_pos hbp hk
  by_cases hc : (H a).cls = .pec
  · obtain ⟨q, hq, q1, q2⟩ := mie_pec_exact hl hc hk h.hr hb hbp
    obtain ⟨v, s', hv, v1, v2⟩ := stratified_exact hl hk h.hr hmed h.ord hq q1 q2 (grow_pecTE hl tb h.hr) (grow_pecTM hl mb h.hr)
    refine ⟨v, s', hv, ?_, ?_⟩
    · rw [v1]; simp only [shellAmp, if_pos hc]; rfl
    · rw [v2]; simp only [shellAmp, if_pos hc]; rfl
  · have hap : (medAt H k a).Pos := ⟨(medium_val hc h.core hk).2, muV_pos h.core hk.le⟩
    have ta := (medAt H k a).te_pos hap hk
    have ma := (medAt H k a).tm_pos hap hk
    obtain ⟨q, hq, q1, q2⟩ := mie_exact hl hc hk h.hr (medium_val hc h.core hk).1 hb hap hbp
    obtain ⟨v, s', hv, v1, v2⟩ := stratified_exact hl hk h.hr hmed h.ord hq q1 q2
      (ampNext_grow hl ta tb h.hr (grow_zero hl (mul_pos ta.q h.hr))) (ampNext_grow hl ma mb h.hr (grow_zero hl (mul_pos ma.q h.hr)))
    refine ⟨v, s', hv, ?_, ?_⟩
    · rw [v1]; simp only [shellAmp, if_neg hc]; rfl
    · rw [v2]; simp only [shellAmp, if_neg hc]; rfl

/-- The coefficients of the geometry are these amplitudes. -/
theorem BallOK.value {B : Ball} {R : ℝ} (h : BallOK H md B R) (hmd : MediumMat (H md)) (hk : 0 < k) {c : MieCoef}
    (hc : ∀ n, ∃ t, ballTable exactBes H md n k B = .ok t ∧ AgreeTo n t c) {l : ℕ} (hl : 1 ≤ l) :
    c.TE l * Real.exp (c.ln l) = (-1) ^ l * (Real.pi / 2) * ballAmp H md k false l B ∧
    c.TM l * Real.exp (c.ln l) = (-1) ^ l * (Real.pi / 2) * ballAmp H md k true l B := by
  obtain ⟨r, b, L, c', hsh, hS, hlast, hce, -, -, htab⟩ := h.layers hmd
  have hex : ∀ l : ℕ, ∃ v : Mie, 1 ≤ l → (∃ s', StratReturns exactBes H l k (layered B.core ((r, b) :: L)) (.ok v, s')) ∧
      v.TE * Real.exp v.ln = (-1) ^ l * (Real.pi / 2) * ballAmp H md k false l B ∧
      v.TM * Real.exp v.ln = (-1) ^ l * (Real.pi / 2) * ballAmp H md k true l B := by
    intro l
    by_cases hl : 1 ≤ l
    · obtain ⟨v, s', hv, h1, h2⟩ := hS.value hk hl
      unfold ballAmp
      rw [hsh]
      exact ⟨v, fun _ => ⟨⟨s', hv⟩, h1, h2⟩⟩
    · exact ⟨⟨0, 0, 0⟩, fun h => absurd h hl⟩
  choose v hv using hex
  obtain ⟨t, ht, ha⟩ := htab k ⟨fun l => (v l).TE, fun l => (v l).TM, fun l => (v l).ln⟩ (fun l hl => (hv l hl).1) l
  obtain ⟨t', ht', ha'⟩ := hc l
  rw [ht] at ht'
  injection ht' with e
  subst e
  obtain ⟨a1, a2, a3⟩ := ha l hl le_rfl
  obtain ⟨b1, b2, b3⟩ := ha' l hl le_rfl
  rw [← b1, ← b2, ← b3, a1, a2, a3]
  exact (hv l hl).2


/-! ## Comparison of two spheres -/

/-- At every distance from the centre the second sphere is a perfect conductor, or both are penetrable and the second has at least the
permittivity of the first. -/
def Ball.Below (H : MatHeap) (md : ℕ) (k : ℝ) (B B' : Ball) : Prop := ∀ r : ℝ, 0 < r →
  (H (B'.matAt md r)).cls = .pec ∨ (H (B.matAt md r)).cls ≠ .pec ∧ (H (B'.matAt md r)).cls ≠ .pec ∧
    (H (B.matAt md r)).epsV k ≤ (H (B'.matAt md r)).epsV k

/-- They differ somewhere. -/
def Ball.Differ (H : MatHeap) (md : ℕ) (k : ℝ) (B B' : Ball) : Prop := ∃ r : ℝ, 0 < r ∧
  ((H (B.matAt md r)).cls ≠ .pec ∧ (H (B'.matAt md r)).cls = .pec ∨ (H (B.matAt md r)).cls ≠ .pec ∧ (H (B'.matAt md r)).cls ≠ .pec ∧
    (H (B.matAt md r)).epsV k < (H (B'.matAt md r)).epsV k)

theorem layerAt_mem {α : Type} (r : ℝ) : ∀ (L : List (ℝ × α)) (a : α), layerAt a L r ∈ a :: L.map Prod.snd
  | [], _ => by simp [layerAt]
  | (r1, b) :: L, a => by
    unfold layerAt
    split_ifs
    · simp
    · exact List.mem_cons_of_mem _ (layerAt_mem r L b)

theorem shellAmp_pen {a r b L} {P : Bool} {l : ℕ} (hc : (H a).cls ≠ .pec) : shellAmp H k P l a ((r, b) :: L) =
    ampRun l (lay P k (medAt H k a)) 0 (((r, b) :: L).map fun x => (x.1, lay P k (medAt H k x.2))) := by
  simp only [shellAmp, if_neg hc]; rfl

theorem shellAmp_pec {a r b L} {P : Bool} {l : ℕ} (hc : (H a).cls = .pec) : shellAmp H k P l a ((r, b) :: L) =
    ampRun l (lay P k (medAt H k b)) (ampPec P l (lay P k (medAt H k b)) r) (L.map fun x => (x.1, lay P k (medAt H k x.2))) := by
  simp only [shellAmp, if_pos hc]

section
variable {a b c : ℕ} {r R : ℝ} {L : List (ℝ × ℕ)} {l : ℕ}

theorem Shells.med_core (h : Shells H a r b L) (hk : 0 < k) (hc : (H a).cls ≠ .pec) : (medAt H k a).Pos :=
  ⟨(medium_val hc h.core hk).2, muV_pos h.core hk.le⟩

theorem Shells.at_pen (h : Shells H a r b L) (hl : 1 ≤ l) (hk : 0 < k) (hc : (H a).cls ≠ .pec) (P : Bool) {ρ : ℝ} (hρ : 0 < ρ) (hr : ρ ≤ r) :
    At l ρ (lay P k (medAt H k a)) 0 (((r, b) :: L).map fun x => (x.1, lay P k (medAt H k x.2))) := by
  have hp := lay_pos (h.med_core hk hc) hk P
  refine ⟨hp, grow_zero hl (mul_pos hp.q hρ), fun x hx => ?_, ?_⟩
  · obtain ⟨y, hy, rfl⟩ := List.mem_map.1 hx
    have : y.2 ∈ b :: L.map Prod.snd := List.mem_map_of_mem (f := Prod.snd) hy
    exact lay_pos (h.med hk _ this).2 hk P
  · rw [List.map_map, List.map_cons]
    refine List.pairwise_cons.2 ⟨fun y hy => ?_, h.ord⟩
    rcases List.mem_cons.1 hy with rfl | hy
    · exact hr
    · exact hr.trans ((List.pairwise_cons.1 h.ord).1 _ hy)

theorem Shells.at_pec (h : Shells H a r b L) (hl : 1 ≤ l) (hk : 0 < k) (P : Bool) :
    At l r (lay P k (medAt H k b)) (ampPec P l (lay P k (medAt H k b)) r) (L.map fun x => (x.1, lay P k (medAt H k x.2))) := by
  have hp := lay_pos (h.med hk b (by simp)).2 hk P
  refine ⟨hp, ampPec_grow hl hp h.hr P, fun x hx => ?_, ?_⟩
  · obtain ⟨y, hy, rfl⟩ := List.mem_map.1 hx
    exact lay_pos (h.med hk y.2 (List.mem_cons_of_mem _ (List.mem_map_of_mem hy))).2 hk P
  · rw [List.map_map]
    exact h.ord

theorem layerAt_inner {α : Type} {a b : α} {L : List (ℝ × α)} {x : ℝ} (h : x ≤ r) : layerAt a ((r, b) :: L) x = a := if_pos h

theorem layerAt_outer {α : Type} {a b : α} {L : List (ℝ × α)} {x : ℝ} (h : r < x) : layerAt a ((r, b) :: L) x = layerAt b L x := if_neg (not_le.mpr h)

end

/-- **Comparison of the amplitudes.** -/
theorem ballAmp_mono {B B' : Ball} {R R' : ℝ} (h : BallOK H md B R) (h' : BallOK H md B' R') (hmd : MediumMat (H md)) (hk : 0 < k)
    (hB : B.Below H md k B') {l : ℕ} (hl : 1 ≤ l) (P : Bool) :
    0 ≤ sg P * (ballAmp H md k P l B - ballAmp H md k P l B') ∧
    (B.Differ H md k B' → 0 < sg P * (ballAmp H md k P l B - ballAmp H md k P l B')) := by
  obtain ⟨r, b, L, c, hsh, hS, hlast, hce, hmag, -, -⟩ := h.layers hmd
  obtain ⟨r', b', L', c', hsh', hS', hlast', hce', hmag', -, -⟩ := h'.layers hmd
  set a := B.core with ha
  set a' := B'.core with ha'
  have hm : ∀ x, B.matAt md x = layerAt a ((r, b) :: L) x := fun x => by unfold Ball.matAt; rw [hsh]
  have hm' : ∀ x, B'.matAt md x = layerAt a' ((r', b') :: L') x := fun x => by unfold Ball.matAt; rw [hsh']
  set f : ℕ → Layer := fun x => lay P k (medAt H k x) with hf
  have hr := hS.hr
  have hr' := hS'.hr
  -- both spheres end in the medium
  have last : ∀ t t' ρ, 0 < ρ → 0 ≤ sg P * wron l (f c) (f c') t t' ρ → 0 ≤ sg P * (t - t') ∧ (0 < sg P * wron l (f c) (f c') t t' ρ → 0 < sg P * (t - t')) := by
    intro t t' ρ hρ hw
    have e : f c' = f c := by
      simp only [hf]; congr 1; unfold medAt; rw [hce, hce']
    rw [e] at hw ⊢
    obtain ⟨q, hq, hv⟩ := wron_final (l := l) hl (lay_pos (hS.med hk c (Shells.last_mem hlast)).2 hk P) hρ
    have ev : sg P * wron l (f c) (f c) t t' ρ = q * (sg P * (t - t')) := by rw [hv]; ring
    rw [ev] at hw ⊢
    exact ⟨nonneg_of_mul_nonneg_right hw hq, fun hw => pos_of_mul_pos_right hw hq.le⟩
  have ll : ∀ {b : ℕ} {L : List (ℝ × ℕ)} {r R : ℝ} {c : ℕ}, ((r, b) :: L).getLast? = some (R, c) → lastLayer (f b) (L.map fun x => (x.1, f x.2)) = f c := by
    intro b L r R c hlast
    rw [lastLayer_map f, (lastRad_map f r b L hlast).2]
  have hRel : ∀ x, 0 < x → (H (B'.matAt md x)).cls ≠ .pec → Rel (sg P) (f (B.matAt md x)) (f (B'.matAt md x)) ∧
      ((H (B.matAt md x)).epsV k < (H (B'.matAt md x)).epsV k → RelLt (sg P) (f (B.matAt md x)) (f (B'.matAt md x))) := by
    intro x hx hn
    obtain ⟨n1, -, n2⟩ := (hB x hx).resolve_left hn
    have p1 : B.matAt md x ∈ a :: b :: L.map Prod.snd := by rw [hm]; exact layerAt_mem _ _ _
    have p2 : B'.matAt md x ∈ a' :: b' :: L'.map Prod.snd := by rw [hm']; exact layerAt_mem _ _ _
    have q1 : (medAt H k (B.matAt md x)).Pos := by
      rcases List.mem_cons.1 p1 with e | e
      · rw [e] at n1 ⊢; exact hS.med_core hk n1
      · exact (hS.med hk _ e).2
    have q2 : (medAt H k (B'.matAt md x)).Pos := by
      rcases List.mem_cons.1 p2 with e | e
      · rw [e] at hn ⊢; exact hS'.med_core hk hn
      · exact (hS'.med hk _ e).2
    exact lay_rel q1 q2 hk (medAt_mu (hmag _ p1)) (medAt_mu (hmag' _ p2)) n2 P
  have hout : ∀ x, r' < x → (H (B'.matAt md x)).cls ≠ .pec := by
    intro x hx
    rw [hm', layerAt_outer hx]
    exact (hS'.shell _ (layerAt_mem _ _ _)).1
  by_cases hc' : (H a').cls = .pec
  · -- the second sphere has a perfectly conducting core
    have hA' := hS'.at_pec hl hk P
    obtain ⟨a1, t1, L1, g1, g2, g3, g4, g5⟩ : ∃ a1 t1 L1, At l r' a1 t1 L1 ∧ ampRun l a1 t1 L1 = ballAmp H md k P l B ∧ lastLayer a1 L1 = f c ∧
        (∀ x, r' < x → layerAt a1 L1 x = f (B.matAt md x)) ∧ ((H a).cls ≠ .pec ∨ r < r' → Up l a1 t1 r') := by
      by_cases hc : (H a).cls = .pec
      · have hrr : r ≤ r' := by
          by_contra hlt
          rw [not_le] at hlt
          have := (hB r hr).resolve_left (hout r hlt)
          rw [hm, layerAt_inner le_rfl] at this
          exact this.1 hc
        obtain ⟨a1, t1, L1, g1, g2, g3, g4, g5⟩ := At.advance' hl _ hr hrr (hS.at_pec hl hk P)
        refine ⟨a1, t1, L1, g1, ?_, g3.trans (ll hlast), fun x hx => ?_, fun hh => g5 (.inl (hh.resolve_left (not_not.mpr hc)))⟩
        · rw [g2]; unfold ballAmp; rw [hsh, ← ha, shellAmp_pec hc]
        · rw [g4 x hx, hm, layerAt_outer (hrr.trans_lt hx)]
          exact layerAt_map f x L b
      · have hρ : 0 < min r r' / 2 := by have := lt_min hr hr'; linarith
        have h1 : min r r' / 2 ≤ r := by have := min_le_left r r'; linarith
        have h2 : min r r' / 2 < r' := by have := min_le_right r r'; linarith
        obtain ⟨a1, t1, L1, g1, g2, g3, g4, g5⟩ := At.advance' hl _ hρ h2.le (hS.at_pen hl hk hc P hρ h1)
        refine ⟨a1, t1, L1, g1, ?_, g3.trans (ll (b := b) (L := L) hlast), fun x hx => ?_, fun _ => g5 (.inl h2)⟩
        · rw [g2]; unfold ballAmp; rw [hsh, ← ha, shellAmp_pen hc]
        · rw [g4 x hx, hm]
          exact layerAt_map f x _ a
    have hw := wron_pec hl g1.pos hA'.pos hr' g1.grow P
    have hx' : ∀ x, r' < x → layerAt (lay P k (medAt H k b')) (L'.map fun x => (x.1, lay P k (medAt H k x.2))) x = f (B'.matAt md x) := fun x hx => by
      rw [hm', layerAt_outer hx]; exact layerAt_map f x L' b'
    obtain ⟨ρ, hρ, w1, w2⟩ := merge_compare (s := sg P) hl _ L1 (L'.map fun x => (x.1, lay P k (medAt H k x.2))) rfl hr' g1 hA' hw.1 (fun x hx => by
      rw [g4 x hx, hx' x hx]
      exact (hRel x (hr'.trans hx) (hout x hx)).1)
    have hv' : ampRun l (lay P k (medAt H k b')) (ampPec P l (lay P k (medAt H k b')) r') (L'.map fun x => (x.1, lay P k (medAt H k x.2))) = ballAmp H md k P l B' := by
      unfold ballAmp; rw [hsh', ← ha', shellAmp_pec hc']
    rw [g2, g3, ll hlast', hv'] at w1 w2
    have fin := last _ _ ρ hρ w1
    refine ⟨fin.1, fun hd => fin.2 (w2 ?_)⟩
    obtain ⟨x, hx, hd⟩ := hd
    rcases le_or_gt x r' with hxr | hxr
    · refine .inl (hw.2 (g5 ?_))
      have n1 : (H (B.matAt md x)).cls ≠ .pec := by rcases hd with hd | hd <;> exact hd.1
      by_contra hcon
      push Not at hcon
      rw [hm, layerAt_inner (hxr.trans hcon.2)] at n1
      exact n1 hcon.1
    · refine .inr ⟨x, hxr, ?_⟩
      rw [g4 x hxr, hx' x hxr]
      rcases hd with hd | hd
      · exact absurd hd.2 (hout x hxr)
      · exact (hRel x hx (hout x hxr)).2 hd.2.2
  · -- no perfect conductor
    have hn : ∀ x, (H (B'.matAt md x)).cls ≠ .pec := by
      intro x
      rcases le_or_gt x r' with hx | hx
      · rw [hm', layerAt_inner hx]; exact hc'
      · exact hout x hx
    have hρ0 := lt_min hr hr'
    have in1 : B.matAt md (min r r') = a := by rw [hm, layerAt_inner (min_le_left _ _)]
    have in1' : B'.matAt md (min r r') = a' := by rw [hm', layerAt_inner (min_le_right _ _)]
    have hc : (H a).cls ≠ .pec := by
      have := ((hB _ hρ0).resolve_left (hn _)).1
      rwa [in1] at this
    have hρ : 0 < min r r' / 2 := by linarith
    have h1 : min r r' / 2 ≤ r := by have := min_le_left r r'; linarith
    have h2 : min r r' / 2 ≤ r' := by have := min_le_right r r'; linarith
    have hA := hS.at_pen hl hk hc P hρ h1
    have hA' := hS'.at_pen hl hk hc' P hρ h2
    have hc0 : Rel (sg P) (f a) (f a') := by
      have := (hRel _ hρ0 (hn _)).1
      rwa [in1, in1'] at this
    have hw : 0 ≤ sg P * wron l (f a) (f a') 0 0 (min r r' / 2) := side_core hl hA.pos hA'.pos hc0 hρ
    have hx : ∀ x, layerAt (f a) (((r, b) :: L).map fun x => (x.1, f x.2)) x = f (B.matAt md x) := fun x => by rw [hm]; exact layerAt_map f x _ a
    have hx' : ∀ x, layerAt (f a') (((r', b') :: L').map fun x => (x.1, f x.2)) x = f (B'.matAt md x) := fun x => by rw [hm']; exact layerAt_map f x _ a'
    obtain ⟨ρ, hρ', w1, w2⟩ := merge_compare (s := sg P) hl _ _ _ rfl hρ hA hA' hw (fun x hxx => by
      have e1 := hx x
      have e2 := hx' x
      simp only [hf] at e1 e2
      rw [e1, e2]
      exact (hRel x (hρ.trans hxx) (hn x)).1)
    have hv : ampRun l (f a) 0 (((r, b) :: L).map fun x => (x.1, f x.2)) = ballAmp H md k P l B := by
      unfold ballAmp; rw [hsh, ← ha, shellAmp_pen hc]
    have hv' : ampRun l (f a') 0 (((r', b') :: L').map fun x => (x.1, f x.2)) = ballAmp H md k P l B' := by
      unfold ballAmp; rw [hsh', ← ha', shellAmp_pen hc']
    have el : lastLayer (f a) (((r, b) :: L).map fun x => (x.1, f x.2)) = f c := ll (b := b) (L := L) hlast
    have el' : lastLayer (f a') (((r', b') :: L').map fun x => (x.1, f x.2)) = f c' := ll (b := b') (L := L') hlast'
    simp only [hf] at hv hv' el el' hx hx'
    rw [hv, hv', el, el'] at w1 w2
    have fin := last _ _ ρ hρ' w1
    refine ⟨fin.1, fun hd => fin.2 (w2 (.inr ?_))⟩
    obtain ⟨x, hx0, hd⟩ := hd
    have hd := hd.resolve_left fun hd => hn x hd.2
    rcases le_or_gt x (min r r') with hxr | hxr
    · have e1 : B.matAt md x = B.matAt md (min r r') := by rw [in1, hm, layerAt_inner (hxr.trans (min_le_left _ _))]
      have e2 : B'.matAt md x = B'.matAt md (min r r') := by rw [in1', hm', layerAt_inner (hxr.trans (min_le_right _ _))]
      rw [e1, e2] at hd
      refine ⟨min r r', by linarith, ?_⟩
      rw [hx, hx']
      exact (hRel _ hρ0 (hn _)).2 hd.2.2
    · refine ⟨x, by linarith, ?_⟩
      rw [hx, hx']
      exact (hRel _ hx0 (hn _)).2 hd.2.2

/-! ## Sides of the medium -/

/-- `σ = 1`: all layers are perfect conductors or have at least the permittivity of the medium; `σ = -1`: none of them is a perfect
conductor or has a larger permittivity. -/
def Ball.OnSide (H : MatHeap) (md : ℕ) (k σ : ℝ) (B : Ball) : Prop := σ = 1 ∧ B.Dense H md k ∨ σ = -1 ∧ B.Dilute H md k

theorem Ball.OnSide.sign {B : Ball} {σ : ℝ} (h : B.OnSide H md k σ) : σ = 1 ∨ σ = -1 := h.imp And.left And.left

/-- Somewhere the sphere is a perfect conductor or has another permittivity than the medium. -/
def Ball.Contrast (H : MatHeap) (md : ℕ) (k : ℝ) (B : Ball) : Prop := ∃ r : ℝ, 0 < r ∧
  ((H (B.matAt md r)).cls = .pec ∨ (H (B.matAt md r)).epsV k ≠ (H md).epsV k)

/-- Sizes of the amplitudes. -/
noncomputable def ballR (H : MatHeap) (md : ℕ) (k σ : ℝ) (B : Ball) (Q : Bool) (i : ℕ) : ℝ :=
  Real.pi / 2 * (σ * (-sg Q) * ballAmp H md k Q (i + 1) B)

/-- A sphere of the medium. -/
theorem medium_ball (hmd : MediumMat (H md)) : BallOK H md (.solid md 1) 1 := ⟨rfl, one_pos, hmd.phys, hmd.mag⟩

theorem medium_ball_mat (r : ℝ) : (Ball.solid md 1).matAt md r = md := by
  simp only [Ball.matAt, Ball.core, Ball.shells, layerAt]
  split_ifs <;> rfl

theorem medium_ball_amp (hmd : MediumMat (H md)) (hk : 0 < k) (P : Bool) (l : ℕ) : ballAmp H md k P l (.solid md 1) = 0 := by
  unfold ballAmp Ball.core Ball.shells
  rw [shellAmp_pen hmd.cls]
  simp only [List.map_cons, List.map_nil, ampRun]
  rw [ampNext_zero (lay_pos ⟨(medium_val hmd.cls hmd.phys hk).2, muV_pos hmd.phys hk.le⟩ hk P) one_pos, sub_self, zero_div, zero_mul]

theorem BallOK.matAt_prop {B : Ball} {R : ℝ} (h : BallOK H md B R) (hmd : MediumMat (H md)) (p : Material → Prop) (h1 : p (H md))
    (h2 : ∀ x ∈ B.mats, p (H x)) (r : ℝ) : p (H (B.matAt md r)) := by
  obtain ⟨r0, b, L, c, hsh, -, -, -, -, hp, -⟩ := h.layers hmd
  refine hp p h1 h2 _ ?_
  unfold Ball.matAt
  rw [hsh]
  exact layerAt_mem _ _ _

theorem dense_below {B : Ball} {R : ℝ} (h : BallOK H md B R) (hmd : MediumMat (H md)) (hD : B.Dense H md k) :
    (Ball.solid md 1).Below H md k B := by
  intro r _
  rw [medium_ball_mat]
  rcases h.matAt_prop hmd (fun m => m.cls = .pec ∨ (H md).epsV k ≤ m.epsV k) (.inr le_rfl) hD r with e | e
  · exact .inl e
  · by_cases hc : (H (B.matAt md r)).cls = .pec
    · exact .inl hc
    · exact .inr ⟨hmd.cls, hc, e⟩

theorem dilute_below {B : Ball} {R : ℝ} (h : BallOK H md B R) (hmd : MediumMat (H md)) (hD : B.Dilute H md k) :
    B.Below H md k (.solid md 1) := by
  intro r _
  rw [medium_ball_mat]
  have := h.matAt_prop hmd (fun m => m.cls ≠ .pec ∧ m.epsV k ≤ (H md).epsV k) ⟨hmd.cls, le_rfl⟩ hD r
  exact .inr ⟨this.1, hmd.cls, this.2⟩

theorem ballR_nonneg {B : Ball} {R σ : ℝ} (h : BallOK H md B R) (hmd : MediumMat (H md)) (hk : 0 < k) (hs : B.OnSide H md k σ) (Q : Bool) (i : ℕ) :
    0 ≤ ballR H md k σ B Q i := by
  have hpi : 0 < Real.pi / 2 := by have := Real.pi_pos; positivity
  refine mul_nonneg hpi.le ?_
  rcases hs with ⟨rfl, hD⟩ | ⟨rfl, hD⟩
  · have := (ballAmp_mono (medium_ball hmd) h hmd hk (dense_below h hmd hD) (l := i + 1) (by omega) Q).1
    rw [medium_ball_amp hmd hk] at this
    linarith
  · have := (ballAmp_mono h (medium_ball hmd) hmd hk (dilute_below h hmd hD) (l := i + 1) (by omega) Q).1
    rw [medium_ball_amp hmd hk] at this
    linarith

theorem ballR_pos {B : Ball} {R σ : ℝ} (h : BallOK H md B R) (hmd : MediumMat (H md)) (hk : 0 < k) (hs : B.OnSide H md k σ) (hc : B.Contrast H md k)
    (Q : Bool) (i : ℕ) : 0 < ballR H md k σ B Q i := by
  have hpi : 0 < Real.pi / 2 := by have := Real.pi_pos; positivity
  refine mul_pos hpi ?_
  obtain ⟨r, hr, hc⟩ := hc
  rcases hs with ⟨rfl, hD⟩ | ⟨rfl, hD⟩
  · have hb := dense_below h hmd hD
    have := (ballAmp_mono (medium_ball hmd) h hmd hk hb (l := i + 1) (by omega) Q).2 ⟨r, hr, by
      have hb := hb r hr
      rw [medium_ball_mat] at hb ⊢
      by_cases hp : (H (B.matAt md r)).cls = .pec
      · exact .inl ⟨hmd.cls, hp⟩
      · exact .inr ⟨hmd.cls, hp, lt_of_le_of_ne (hb.resolve_left hp).2.2 (hc.resolve_left hp).symm⟩⟩
    rw [medium_ball_amp hmd hk] at this
    linarith
  · have hb := dilute_below h hmd hD
    have := (ballAmp_mono h (medium_ball hmd) hmd hk hb (l := i + 1) (by omega) Q).2 ⟨r, hr, by
      have hb := hb r hr
      rw [medium_ball_mat] at hb ⊢
      obtain ⟨n1, n2, n3⟩ := hb.resolve_left hmd.cls
      exact .inr ⟨n1, n2, lt_of_le_of_ne n3 (hc.resolve_left n1)⟩⟩
    rw [medium_ball_amp hmd hk] at this
    linarith

theorem ballR_zero {B : Ball} {R σ : ℝ} (h : BallOK H md B R) (hmd : MediumMat (H md)) (hk : 0 < k) (hc : ¬B.Contrast H md k) :
    ballR H md k σ B = fun _ _ => 0 := by
  have hc : ∀ r : ℝ, 0 < r → (H (B.matAt md r)).cls ≠ .pec ∧ (H (B.matAt md r)).epsV k = (H md).epsV k := by
    unfold Ball.Contrast at hc
    push Not at hc
    exact hc
  funext Q i
  have h1 := (ballAmp_mono (medium_ball hmd) h hmd hk (fun r hr => .inr ⟨by rw [medium_ball_mat]; exact hmd.cls, (hc r hr).1, by
    rw [medium_ball_mat, (hc r hr).2]⟩) (l := i + 1) (by omega) Q).1
  have h2 := (ballAmp_mono h (medium_ball hmd) hmd hk (fun r hr => .inr ⟨(hc r hr).1, by rw [medium_ball_mat]; exact hmd.cls, by
    rw [medium_ball_mat, (hc r hr).2]⟩) (l := i + 1) (by omega) Q).1
  rw [medium_ball_amp hmd hk] at h1 h2
  unfold ballR
  have hz : ballAmp H md k Q (i + 1) B = 0 := by
    have hs := sg_sq Q
    have : sg Q * ballAmp H md k Q (i + 1) B = 0 := by linarith
    rcases mul_eq_zero.mp this with e | e
    · rw [e] at hs; norm_num at hs
    · exact e
  rw [hz]
  ring

/-- The coefficients of a sphere on one side of the medium. -/
theorem BallOK.reflects {B : Ball} {R : ℝ} (h : BallOK H md B R) (hmd : MediumMat (H md)) (hk : 0 < k) :
    ∃ c : MieCoef, (∀ n, ∃ t, ballTable exactBes H md n k B = .ok t ∧ AgreeTo n t c) ∧
      ∀ σ, B.OnSide H md k σ → Reflects c σ (k * R * (⟨(H md).epsV k, 1⟩ : Medium).n) (ballR H md k σ B) := by
  obtain ⟨c, ht, -, hD, hL⟩ := h.scatters hmd hk
  refine ⟨c, ht, fun σ hs => ?_⟩
  obtain ⟨A, hA⟩ : ∃ A, Reflects c σ (k * R * (⟨(H md).epsV k, 1⟩ : Medium).n) A := by
    rcases hs with ⟨rfl, hd⟩ | ⟨rfl, hd⟩
    · exact hD hd
    · exact hL hd
  have hss : σ * σ = 1 := by rcases hs.sign with e | e <;> rw [e] <;> norm_num
  have hp : ∀ n : ℕ, ((-1 : ℝ) ^ n) * (-1) ^ n = 1 := fun n => by rw [← mul_pow]; norm_num
  have e : A = ballR H md k σ B := by
    funext Q i
    obtain ⟨-, h1, h2⟩ := hA i
    obtain ⟨v1, v2⟩ := h.value hmd hk ht (l := i + 1) (by omega)
    rw [v1] at h1
    rw [v2] at h2
    unfold ballR
    have hpi := hp (i + 1)
    cases Q
    · simp only [sg, cond_false]
      calc A false i = (σ * σ) * ((-1) ^ (i + 1) * (-1) ^ (i + 1)) * A false i := by rw [hss, hpi]; ring
        _ = σ * (-1) ^ (i + 1) * (σ * (-1) ^ (i + 1) * A false i) := by ring
        _ = σ * ((-1) ^ (i + 1) * (-1) ^ (i + 1)) * (Real.pi / 2 * ballAmp H md k false (i + 1) B) := by rw [← h1]; ring
        _ = _ := by rw [hpi]; ring
    · simp only [sg, cond_true]
      calc A true i = (σ * σ) * ((-1) ^ (i + 1) * (-1) ^ (i + 1)) * A true i := by rw [hss, hpi]; ring
        _ = -(σ * (-1) ^ (i + 1) * -(σ * (-1) ^ (i + 1) * A true i)) := by ring
        _ = -(σ * ((-1) ^ (i + 1) * (-1) ^ (i + 1)) * (Real.pi / 2 * ballAmp H md k true (i + 1) B)) := by rw [← h2]; ring
        _ = _ := by rw [hpi]; ring
  rw [← e]
  exact hA

theorem Reflects.te_ne {c : MieCoef} {σ ρ : ℝ} {A : Bool → ℕ → ℝ} (h : Reflects c σ ρ A) (hσ : σ = 1 ∨ σ = -1) {l : ℕ} (hl : 1 ≤ l)
    (hA : ∀ i, 0 < A false i) : c.TE l ≠ 0 := by
  obtain ⟨i, rfl⟩ := Nat.exists_eq_add_of_le' hl
  intro e
  have h1 := (h i).2.1
  rw [e, zero_mul] at h1
  have : σ * (-1) ^ (i + 1) * A false i ≠ 0 := by
    refine mul_ne_zero (mul_ne_zero ?_ (pow_ne_zero _ (by norm_num))) (hA i).ne'
    rcases hσ with e | e <;> rw [e] <;> norm_num
  exact this h1.symm

/-- More contrast gives larger amplitudes. -/
def Ball.Weaker (H : MatHeap) (md : ℕ) (k σ : ℝ) (B B' : Ball) : Prop :=
  B.OnSide H md k σ ∧ B'.OnSide H md k σ ∧ (σ = 1 → B.Below H md k B') ∧ (σ = -1 → B'.Below H md k B)

theorem ballR_mono {B B' : Ball} {R R' σ : ℝ} (h : BallOK H md B R) (h' : BallOK H md B' R') (hmd : MediumMat (H md)) (hk : 0 < k)
    (hw : B.Weaker H md k σ B') (Q : Bool) (i : ℕ) : ballR H md k σ B Q i ≤ ballR H md k σ B' Q i := by
  have hpi : 0 < Real.pi / 2 := by have := Real.pi_pos; positivity
  refine mul_le_mul_of_nonneg_left ?_ hpi.le
  obtain ⟨hs, -, w1, w2⟩ := hw
  rcases hs.sign with rfl | rfl
  · have := (ballAmp_mono h h' hmd hk (w1 rfl) (l := i + 1) (by omega) Q).1
    linarith
  · have := (ballAmp_mono h' h hmd hk (w2 rfl) (l := i + 1) (by omega) Q).1
    linarith

end

end CasSph
