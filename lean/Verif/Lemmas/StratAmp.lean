import Verif.Lemmas.LayerSign
import Verif.Props.Stratified
import Verif.Props.FiniteSign

/-! # Amplitudes of stratified spheres compared with those of perfect conductors -/

namespace CasSph

open Spec

/-- The layer `a` compared with the medium `e`: larger `ε` and not larger `μ` for `s = 1`, the other way round for `s = -1`. -/
def Medium.Against (s : ℝ) (a e : Medium) : Prop := 0 ≤ s * (a.eps - e.eps) ∧ 0 ≤ s * (e.mu - a.mu)

theorem Medium.Against.te {s k : ℝ} {a e : Medium} (h : a.Against s e) (ha : a.Pos) (he : e.Pos) : Rel s (a.te k) (e.te k) := by
  refine ⟨?_, h.2⟩
  have e1 : a.n ^ 2 = a.eps * a.mu := Real.sq_sqrt (mul_nonneg ha.1.le ha.2.le)
  have e2 : e.n ^ 2 = e.eps * e.mu := Real.sq_sqrt (mul_nonneg he.1.le he.2.le)
  simp only [Medium.te, mul_pow, e1, e2]
  have := mul_nonneg (mul_nonneg (sq_nonneg k) (mul_nonneg ha.2.le he.2.le)) h.1
  calc (0 : ℝ) ≤ _ := this
    _ = _ := by ring

theorem Medium.Against.tm {s k : ℝ} {a e : Medium} (h : a.Against s e) (ha : a.Pos) (he : e.Pos) : Rel (-s) (a.tm k) (e.tm k) := by
  have e1 : a.n ^ 2 = a.eps * a.mu := Real.sq_sqrt (mul_nonneg ha.1.le ha.2.le)
  have e2 : e.n ^ 2 = e.eps * e.mu := Real.sq_sqrt (mul_nonneg he.1.le he.2.le)
  refine ⟨?_, ?_⟩
  · simp only [Medium.tm, mul_pow, e1, e2]
    have := mul_nonneg (mul_nonneg (sq_nonneg k) (mul_nonneg ha.1.le he.1.le)) h.2
    calc (0 : ℝ) ≤ _ := this
      _ = _ := by ring
  · simp only [Medium.tm]
    have := h.1
    calc (0 : ℝ) ≤ _ := this
      _ = _ := by ring

/-- A core `a` (possibly a perfect conductor), interfaces at `r` and the radii in `L`, penetrable layers `b` and those in `L`; the
last of them is the medium. -/
structure Shells (H : MatHeap) (a : ℕ) (r : ℝ) (b : ℕ) (L : List (ℝ × ℕ)) : Prop where
  hr : 0 < r
  core : (H a).Physical
  shell : ∀ x ∈ b :: L.map Prod.snd, (H x).cls ≠ .pec ∧ (H x).Physical
  ord : List.Pairwise (· ≤ ·) (r :: L.map Prod.fst)

/-- `ε` and `μ` at the wavenumber `k`. -/
noncomputable def medAt (H : MatHeap) (k : ℝ) (x : ℕ) : Medium := ⟨(H x).epsV k, (H x).muV k⟩

section
variable {H : MatHeap} {a b c : ℕ} {r R k : ℝ} {L : List (ℝ × ℕ)}

theorem Shells.med (h : Shells H a r b L) (hk : 0 < k) : ∀ x ∈ b :: L.map Prod.snd, (H x).medium k = .ok (medAt H k x) ∧ (medAt H k x).Pos := by
  intro x hx
  obtain ⟨h1, h2⟩ := h.shell x hx
  exact ⟨(medium_val h1 h2 hk).1, (medium_val h1 h2 hk).2, muV_pos h2 hk.le⟩

theorem Shells.last_mem (hlast : ((r, b) :: L).getLast? = some (R, c)) : c ∈ b :: L.map Prod.snd := by
  obtain ⟨p, hp⟩ := mats_last b L
  rw [hp, (lastRad_map (fun _ => ⟨0, 0⟩) r b L hlast).2]; simp

theorem Shells.rad_pos (h : Shells H a r b L) (hlast : ((r, b) :: L).getLast? = some (R, c)) : 0 < R := by
  have := List.mem_of_getLast? hlast
  have : R ∈ r :: L.map Prod.fst := by simpa using List.mem_map_of_mem (f := Prod.fst) this
  rcases List.mem_cons.1 this with rfl | h'
  · exact h.hr
  · exact h.hr.trans_le ((List.pairwise_cons.1 h.ord).1 R h')

/-- The amplitudes at the innermost interface. -/
theorem inner_amps {l : ℕ} (hl : 1 ≤ l) (hcore : (H a).Physical) (hk : 0 < k) (hr : 0 < r) (hb : (H b).medium k = .ok (medAt H k b))
    (hbp : (medAt H k b).Pos) {e : Medium} (he : e.Pos) :
    ∃ q tE tM, mie exactBes exactBes (H a) (H b) l k r = .ok q ∧ q.TE * Real.exp q.ln = (-1) ^ l * (Real.pi / 2) * tE ∧
      q.TM * Real.exp q.ln = (-1) ^ l * (Real.pi / 2) * tM ∧ Grow l (((medAt H k b).te k).q * r) tE ∧ Grow l (((medAt H k b).tm k).q * r) tM ∧
      ((H a).cls = .pec ∨ (medAt H k a).mu ≤ (medAt H k b).mu → Steep l (((medAt H k b).te k).q * r) tE) ∧
      ∀ s : ℝ, ((H a).cls = .pec → 0 ≤ s) → ((H a).cls ≠ .pec → (medAt H k a).Against s e) →
        Side s l ((medAt H k b).te k) (e.te k) r tE ∧ Side (-s) l ((medAt H k b).tm k) (e.tm k) r tM := by
  have tb := (medAt H k b).te_pos hbp hk
  have mb := (medAt H k b).tm_pos hbp hk
  have te := e.te_pos he hk
  have me := e.tm_pos he hk
  by_cases hc : (H a).cls = .pec
  · obtain ⟨q, hq, q1, q2⟩ := mie_pec_exact hl hc hk hr hb hbp
    have gE := grow_pecTE hl tb hr
    have gM := grow_pecTM hl mb hr
    refine ⟨q, _, _, hq, q1, q2, gE, gM, fun _ => ?_, fun s hs _ => ⟨?_, ?_⟩⟩
    · have hx := mul_pos tb.q hr
      exact steep_nonneg hx (div_pos (sphI_pos l hx) (sphK_pos l hx)).le
    · have hu : layU l ((medAt H k b).te k) (ampPecTE l ((medAt H k b).te k) r) r = 0 := by
        unfold layU ampPecTE
        rw [div_mul_cancel₀ _ (sphK_pos l (mul_pos tb.q hr)).ne', sub_self]
      unfold Side
      rw [hu, mul_zero, zero_mul, sub_zero]
      exact mul_nonneg (hs hc) (mul_nonneg (mul_nonneg te.w.le (layD_nonneg gE)) (layU_nonneg (grow_zero hl (mul_pos te.q hr))))
    · have hu : layD l ((medAt H k b).tm k) (ampPecTM l ((medAt H k b).tm k) r) r = 0 := by
        unfold layD ampPecTM
        have h1 := (sphK_pos l (mul_pos mb.q hr)).ne'
        have h2 := (kdX_neg hl (mul_pos mb.q hr)).ne
        field_simp
        ring
      unfold Side
      rw [hu, mul_zero, zero_mul, zero_sub, neg_mul_neg]
      exact mul_nonneg (hs hc) (mul_nonneg (mul_nonneg mb.w.le (layU_nonneg gM)) (layD_nonneg (grow_zero hl (mul_pos me.q hr))))
  · have hap : (medAt H k a).Pos := ⟨(medium_val hc hcore hk).2, muV_pos hcore hk.le⟩
    have ta := (medAt H k a).te_pos hap hk
    have ma := (medAt H k a).tm_pos hap hk
    obtain ⟨q, hq, q1, q2⟩ := mie_exact hl hc hk hr (medium_val hc hcore hk).1 hb hap hbp
    have zE := grow_zero hl (mul_pos ta.q hr)
    have zM := grow_zero hl (mul_pos ma.q hr)
    refine ⟨q, _, _, hq, q1, q2, ampNext_grow hl ta tb hr zE, ampNext_grow hl ma mb hr zM, fun hm => ?_, fun s _ hs => ?_⟩
    · exact Steep.next hl ta tb hr (hm.resolve_left hc) zE (steep_nonneg (mul_pos ta.q hr) le_rfl)
    · have h := hs hc
      exact ⟨(side_core hl ta te (h.te hap he) hr).next hl ta tb hr zE, (side_core hl ma me (h.tm hap he) hr).next hl ma mb hr zM⟩

/-- Permeabilities do not decrease from the inside to the outside. -/
def MuUp (H : MatHeap) (k : ℝ) (a b : ℕ) (L : List (ℝ × ℕ)) : Prop :=
  ((H a).cls = .pec ∨ (medAt H k a).mu ≤ (medAt H k b).mu) ∧ List.Pairwise (· ≤ ·) ((b :: L.map Prod.snd).map fun x => (medAt H k x).mu)

/-- All layers are compared with the medium `c` in the same way. -/
def AllAgainst (H : MatHeap) (k s : ℝ) (a b c : ℕ) (L : List (ℝ × ℕ)) : Prop :=
  ((H a).cls = .pec → 0 ≤ s) ∧ ((H a).cls ≠ .pec → (medAt H k a).Against s (medAt H k c)) ∧
    ∀ x ∈ b :: L.map Prod.snd, (medAt H k x).Against s (medAt H k c)

/-- The amplitudes of the whole sphere. -/
theorem Shells.amps (h : Shells H a r b L) (hk : 0 < k) (hlast : ((r, b) :: L).getLast? = some (R, c)) {l : ℕ} (hl : 1 ≤ l) :
    ∃ v s' tE tM, StratReturns exactBes H l k (layered a ((r, b) :: L)) (.ok v, s') ∧
      v.TE * Real.exp v.ln = (-1) ^ l * (Real.pi / 2) * tE ∧ v.TM * Real.exp v.ln = (-1) ^ l * (Real.pi / 2) * tM ∧
      Grow l (k * R * (medAt H k c).n) tE ∧ Grow l (k * R * (medAt H k c).n) tM ∧
      (MuUp H k a b L → Steep l (k * R * (medAt H k c).n) tE) ∧
      ∀ s, AllAgainst H k s a b c L → 0 ≤ s * tE ∧ 0 ≤ -s * tM := by
  have hmed := h.med hk
  obtain ⟨hb, hbp⟩ := hmed b (by simp)
  obtain ⟨hc, hcp⟩ := hmed c (Shells.last_mem hlast)
  have hRp := h.rad_pos hlast
  obtain ⟨q, tE, tM, hq, q1, q2, gE, gM, hst, hsd⟩ := inner_amps hl h.core hk h.hr hb hbp hcp
  obtain ⟨v, s', hv, v1, v2⟩ := stratified_exact hl hk h.hr hmed h.ord hq q1 q2 gE gM
  have hR := lastRad_map (fun x => (medAt H k x).te k) r b L hlast
  have hR' := lastRad_map (fun x => (medAt H k x).tm k) r b L hlast
  have posE : ∀ x ∈ L.map fun x => (x.1, (medAt H k x.2).te k), x.2.Pos := by
    intro x hx
    rw [List.mem_map] at hx
    obtain ⟨y, hy, rfl⟩ := hx
    exact (medAt H k y.2).te_pos (hmed y.2 (List.mem_cons_of_mem _ (List.mem_map_of_mem hy))).2 hk
  have posM : ∀ x ∈ L.map fun x => (x.1, (medAt H k x.2).tm k), x.2.Pos := by
    intro x hx
    rw [List.mem_map] at hx
    obtain ⟨y, hy, rfl⟩ := hx
    exact (medAt H k y.2).tm_pos (hmed y.2 (List.mem_cons_of_mem _ (List.mem_map_of_mem hy))).2 hk
  have oE : List.Pairwise (· ≤ ·) (r :: (L.map fun x => (x.1, (medAt H k x.2).te k)).map Prod.fst) := by rw [List.map_map]; exact h.ord
  have oM : List.Pairwise (· ≤ ·) (r :: (L.map fun x => (x.1, (medAt H k x.2).tm k)).map Prod.fst) := by rw [List.map_map]; exact h.ord
  have tb := (medAt H k b).te_pos hbp hk
  have mb := (medAt H k b).tm_pos hbp hk
  have tc := (medAt H k c).te_pos hcp hk
  have mc := (medAt H k c).tm_pos hcp hk
  have GE := ampRun_grow hl _ tb h.hr gE posE oE
  have GM := ampRun_grow hl _ mb h.hr gM posM oM
  have ex : ((medAt H k c).te k).q * R = k * R * (medAt H k c).n := by simp only [Medium.te]; ring
  have ex' : ((medAt H k c).tm k).q * R = k * R * (medAt H k c).n := by simp only [Medium.tm]; ring
  rw [lastLayer_map (fun x => (medAt H k x).te k), hR.1, hR.2, ex] at GE
  rw [lastLayer_map (fun x => (medAt H k x).tm k), hR'.1, hR'.2, ex'] at GM
  refine ⟨v, s', _, _, hv, v1, v2, GE, GM, fun hm => ?_, fun s hs => ⟨?_, ?_⟩⟩
  · have := ampRun_steep hl (L.map fun x => (x.1, (medAt H k x.2).te k)) tb h.hr gE (hst hm.1) posE oE (by
      have := hm.2
      rw [List.map_cons, List.map_map] at this
      rw [List.map_map]
      exact this)
    rw [lastLayer_map (fun x => (medAt H k x).te k), hR.1, hR.2, ex] at this
    exact this
  · have := ampRun_side hl tc (L.map fun x => (x.1, (medAt H k x.2).te k)) tb h.hr ((hs.2.2 b (by simp)).te hbp hcp) gE
      (hsd s hs.1 hs.2.1).1 (by
        intro x hx
        refine ⟨posE x hx, ?_⟩
        rw [List.mem_map] at hx
        obtain ⟨y, hy, rfl⟩ := hx
        have hy' : y.2 ∈ b :: L.map Prod.snd := List.mem_cons_of_mem _ (List.mem_map_of_mem hy)
        exact (hs.2.2 y.2 hy').te (hmed y.2 hy').2 hcp) oE
    rw [lastLayer_map (fun x => (medAt H k x).te k), hR.1, hR.2] at this
    exact this.final hl tc hRp
  · have := ampRun_side hl mc (L.map fun x => (x.1, (medAt H k x.2).tm k)) mb h.hr ((hs.2.2 b (by simp)).tm hbp hcp) gM
      (hsd s hs.1 hs.2.1).2 (by
        intro x hx
        refine ⟨posM x hx, ?_⟩
        rw [List.mem_map] at hx
        obtain ⟨y, hy, rfl⟩ := hx
        have hy' : y.2 ∈ b :: L.map Prod.snd := List.mem_cons_of_mem _ (List.mem_map_of_mem hy)
        exact (hs.2.2 y.2 hy').tm (hmed y.2 hy').2 hcp) oM
    rw [lastLayer_map (fun x => (medAt H k x).tm k), hR'.1, hR'.2] at this
    exact this.final hl mc hRp

end

/-- Amplitudes in the form needed for the round-trip matrix. -/
theorem scatters_of_amps {c : MieCoef} {ρ : ℝ} (hρ : 0 < ρ) {tE tM : ℕ → ℝ}
    (hE : ∀ l, 1 ≤ l → c.TE l * Real.exp (c.ln l) = (-1) ^ l * (Real.pi / 2) * tE l)
    (hM : ∀ l, 1 ≤ l → c.TM l * Real.exp (c.ln l) = (-1) ^ l * (Real.pi / 2) * tM l)
    (gE : ∀ l, 1 ≤ l → Grow l ρ (tE l) ∧ Steep l ρ (tE l)) (gM : ∀ l, 1 ≤ l → Grow l ρ (tM l)) :
    (∃ α : Bool → ℕ → ℝ, (∀ P i, |α P i| ≤ 1) ∧ Scatters c α ρ fun P i => pecR P i ρ) ∧
    ∀ σ : ℝ, (σ = 1 ∨ σ = -1) → (∀ l, 1 ≤ l → 0 ≤ σ * tE l ∧ 0 ≤ -σ * tM l) → ∃ A, Reflects c σ ρ A := by
  have hpi : 0 < Real.pi / 2 := by have := Real.pi_pos; positivity
  have bE : ∀ i, |Real.pi / 2 * tE (i + 1)| ≤ pecR false i ρ := fun i => by
    rw [abs_mul, abs_of_pos hpi]
    exact mul_le_mul_of_nonneg_left (Steep.abs_le hρ (gE (i + 1) (by omega)).1 (gE (i + 1) (by omega)).2) hpi.le
  have bM : ∀ i, |Real.pi / 2 * tM (i + 1)| ≤ pecR true i ρ := fun i => by
    rw [abs_mul, abs_of_pos hpi, pecR_true i hρ]
    exact mul_le_mul_of_nonneg_left (Grow.abs_le (by omega) hρ (gM (i + 1) (by omega))) hpi.le
  have pE := fun i => pecR_pos false i hρ
  have pM := fun i => pecR_pos true i hρ
  refine ⟨⟨fun P i => bif P then -(Real.pi / 2 * tM (i + 1)) / pecR true i ρ else Real.pi / 2 * tE (i + 1) / pecR false i ρ, ?_, fun i => ⟨fun P => ⟨(pecR_pos P i hρ).le, le_rfl⟩, ?_, ?_⟩⟩,
    fun σ hσ hs => ⟨fun P i => bif P then -σ * (Real.pi / 2 * tM (i + 1)) else σ * (Real.pi / 2 * tE (i + 1)), fun i => ⟨?_, ?_, ?_⟩⟩⟩
  · intro P i
    cases P
    · simp only [cond_false]
      rw [abs_div, abs_of_pos (pE i), div_le_one (pE i)]; exact bE i
    · simp only [cond_true]
      rw [abs_div, abs_of_pos (pM i), div_le_one (pM i), abs_neg]; exact bM i
  · rw [hE (i + 1) (by omega)]
    simp only [cond_false]
    have := (pE i).ne'
    field_simp
  · rw [hM (i + 1) (by omega)]
    simp only [cond_true]
    have := (pM i).ne'
    field_simp
  · have hσ1 : |σ| = 1 := by rcases hσ with h | h <;> rw [h] <;> norm_num
    have hi := hs (i + 1) (by omega)
    intro P
    cases P
    · simp only [cond_false]
      refine ⟨?_, (le_abs_self _).trans ?_⟩
      · rw [mul_left_comm]; exact mul_nonneg hpi.le hi.1
      · rw [abs_mul, hσ1, one_mul]; exact bE i
    · simp only [cond_true]
      refine ⟨?_, (le_abs_self _).trans ?_⟩
      · rw [mul_left_comm]; exact mul_nonneg hpi.le hi.2
      · rw [abs_mul, abs_neg, hσ1, one_mul]; exact bM i
  · rw [hE (i + 1) (by omega)]
    simp only [cond_false]
    rcases hσ with h | h <;> rw [h] <;> ring
  · rw [hM (i + 1) (by omega)]
    simp only [cond_true]
    rcases hσ with h | h <;> rw [h] <;> ring

end CasSph
