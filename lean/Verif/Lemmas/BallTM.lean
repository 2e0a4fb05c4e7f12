import Verif.Lemmas.LayerTM
import Verif.Lemmas.BallAmp

/-! # The polarisations of a stratified sphere -/

namespace CasSph

open Spec Filter Topology Set

section
variable {l : ℕ} {e : Medium} {k σ : ℝ}

/-- Through all layers. -/
theorem phase_run (hl : 1 ≤ l) (hk : 0 < k) (he : e.Pos) (me : e.mu = 1) : ∀ (L : List (ℝ × Medium)) {a : Medium} {t1 t2 ρ : ℝ}, 0 < ρ →
    At l ρ (a.te k) t1 (L.map fun x => (x.1, x.2.te k)) → At l ρ (a.tm k) t2 (L.map fun x => (x.1, x.2.tm k)) →
    (∀ x ∈ a :: L.map Prod.snd, x.Pos ∧ x.mu = 1 ∧ 0 ≤ σ * (x.eps - e.eps)) → (a :: L.map Prod.snd).getLast (by simp) = e →
    σ * phaseSum l k a e t1 t2 ρ ≤ 0 →
    σ * (ampRun l (a.te k) t1 (L.map fun x => (x.1, x.2.te k)) + ampRun l (a.tm k) t2 (L.map fun x => (x.1, x.2.tm k))) ≤ 0
  | [], a, t1, t2, ρ, hρ, h1, h2, hm, hlast, h => by
    obtain rfl : a = e := hlast
    unfold phaseSum at h
    rwa [ampNext_self hl h1.pos hρ, ampNext_self hl h2.pos hρ] at h
  | (r, b) :: L, a, t1, t2, ρ, hρ, h1, h2, hm, hlast, h => by
    simp only [List.map_cons] at h1 h2
    obtain ⟨p1, p2⟩ := h1.head_le
    have q2 := h2.head_le.2
    have hr := hρ.trans_le p1
    obtain ⟨a1, a2, a3⟩ := hm a List.mem_cons_self
    obtain ⟨b1, b2, b3⟩ := hm b (by simp)
    have m := phase_move hl hk a1 he a2 me a3 hρ p1 h1.grow h2.grow h
    have g1 := h1.move hl hρ p1 p2
    have g2 := h2.move hl hρ p1 q2
    refine phase_run hl hk he me L hr (g1.step hl hr) (g2.step hl hr) (fun x hx => hm x (List.mem_cons_of_mem _ hx)) ?_ ?_
    · simpa using hlast
    · unfold phaseSum at m ⊢
      rwa [ampNext_trans hl h1.pos (g1.step hl hr).pos (e.te_pos he hk) hr g1.grow, ampNext_trans hl h2.pos (g2.step hl hr).pos (e.tm_pos he hk) hr g2.grow]

end

/-- At the surface of a perfect conductor. -/
theorem phase_pec {l : ℕ} {b e : Medium} {k r : ℝ} (hl : 1 ≤ l) (hk : 0 < k) (hb : b.Pos) (he : e.Pos) (hr : 0 < r) :
    phaseSum l k b e (ampPecTE l (b.te k) r) (ampPecTM l (b.tm k) r) r ≤ 0 := by
  have hx : 0 < k * b.n * r := mul_pos (b.te_pos hb hk).q hr
  have hy : 0 < k * e.n * r := mul_pos (e.te_pos he hk).q hr
  have i0 := sphI_pos l hx
  have k0 := sphK_pos l hx
  have i1 := idX_pos hl hx
  have k1 := kdX_neg hl hx
  have j0 := sphI_pos l hy
  have m0 := sphK_pos l hy
  have j1 := idX_pos hl hy
  have m1 := kdX_neg hl hy
  have e1 : ampNext l (b.te k) (e.te k) r (ampPecTE l (b.te k) r) = sphI l (k * e.n * r) / sphK l (k * e.n * r) := by
    have hU : layU l (b.te k) (ampPecTE l (b.te k) r) r = 0 := by
      unfold layU ampPecTE
      rw [div_mul_cancel₀ _ (show sphK l ((b.te k).q * r) ≠ 0 from k0.ne'), sub_self]
    have hD : layD l (b.te k) (ampPecTE l (b.te k) r) r ≠ 0 := by
      unfold layD ampPecTE
      have : idX l ((b.te k).q * r) * sphI l ((b.te k).q * r) - sphI l ((b.te k).q * r) / sphK l ((b.te k).q * r) * (kdX l ((b.te k).q * r) * sphK l ((b.te k).q * r)) =
          sphI l (k * b.n * r) * (idX l (k * b.n * r) - kdX l (k * b.n * r)) := by
        have := k0.ne'
        simp only [Medium.te]
        field_simp
      rw [this]
      exact (mul_pos i0 (by linarith)).ne'
    rw [ampNext_wron hl (e.te_pos he hk) hr]
    unfold wron
    rw [hU]
    have w := (e.te_pos he hk).w.ne'
    have u0 : layU l (e.te k) 0 r = sphI l (k * e.n * r) := by unfold layU; rw [zero_mul, sub_zero]; rfl
    have u1 : layU l (e.te k) 1 r = sphI l (k * e.n * r) - sphK l (k * e.n * r) := by unfold layU; rw [one_mul]; rfl
    rw [u0, u1]
    have := hr.ne'
    have := m0.ne'
    generalize layD l (b.te k) (ampPecTE l (b.te k) r) r = D at *
    have f1 : r * ((e.te k).w * D * sphI l (k * e.n * r) - (b.te k).w * 0 * layD l (e.te k) 0 r) -
        r * ((e.te k).w * D * (sphI l (k * e.n * r) - sphK l (k * e.n * r)) - (b.te k).w * 0 * layD l (e.te k) 1 r) = r * (e.te k).w * D * sphK l (k * e.n * r) := by ring
    rw [f1]
    field_simp
    ring
  have e2 : ampNext l (b.tm k) (e.tm k) r (ampPecTM l (b.tm k) r) =
      idX l (k * e.n * r) * sphI l (k * e.n * r) / (kdX l (k * e.n * r) * sphK l (k * e.n * r)) := by
    have hD : layD l (b.tm k) (ampPecTM l (b.tm k) r) r = 0 := by
      unfold layD ampPecTM
      have h2 : kdX l ((b.tm k).q * r) ≠ 0 := k1.ne
      have h3 : sphK l ((b.tm k).q * r) ≠ 0 := k0.ne'
      field_simp
      ring
    have hU : layU l (b.tm k) (ampPecTM l (b.tm k) r) r ≠ 0 := by
      unfold layU ampPecTM
      have : idX l (k * b.n * r) / kdX l (k * b.n * r) * (sphI l (k * b.n * r) / sphK l (k * b.n * r)) * sphK l (k * b.n * r) < 0 :=
        mul_neg_of_neg_of_pos (mul_neg_of_neg_of_pos (div_neg_of_pos_of_neg i1 k1) (div_pos i0 k0)) k0
      have h2 : 0 < sphI l (k * b.n * r) - idX l (k * b.n * r) / kdX l (k * b.n * r) * (sphI l (k * b.n * r) / sphK l (k * b.n * r)) * sphK l (k * b.n * r) := by linarith
      exact h2.ne'
    rw [ampNext_wron hl (e.tm_pos he hk) hr]
    unfold wron
    rw [hD]
    have w := (b.tm_pos hb hk).w.ne'
    have u0 : layD l (e.tm k) 0 r = idX l (k * e.n * r) * sphI l (k * e.n * r) := by unfold layD; rw [zero_mul, sub_zero]; rfl
    have u1 : layD l (e.tm k) 1 r = idX l (k * e.n * r) * sphI l (k * e.n * r) - kdX l (k * e.n * r) * sphK l (k * e.n * r) := by unfold layD; rw [one_mul]; rfl
    rw [u0, u1]
    have := hr.ne'
    have := m0.ne'
    have := m1.ne
    generalize layU l (b.tm k) (ampPecTM l (b.tm k) r) r = U at *
    have f1 : r * ((e.tm k).w * 0 * layU l (e.tm k) 0 r - (b.tm k).w * U * (idX l (k * e.n * r) * sphI l (k * e.n * r))) -
        r * ((e.tm k).w * 0 * layU l (e.tm k) 1 r - (b.tm k).w * U * (idX l (k * e.n * r) * sphI l (k * e.n * r) - kdX l (k * e.n * r) * sphK l (k * e.n * r))) =
        -(r * (b.tm k).w * U * (kdX l (k * e.n * r) * sphK l (k * e.n * r))) := by ring
    rw [f1]
    field_simp
    ring
  unfold phaseSum
  rw [e1, e2]
  have k3 := kdX_le_idX hl hy
  have := m1.ne
  have := m0.ne'
  have f : sphI l (k * e.n * r) / sphK l (k * e.n * r) + idX l (k * e.n * r) * sphI l (k * e.n * r) / (kdX l (k * e.n * r) * sphK l (k * e.n * r)) =
      sphI l (k * e.n * r) / sphK l (k * e.n * r) * ((kdX l (k * e.n * r) + idX l (k * e.n * r)) / kdX l (k * e.n * r)) := by
    field_simp
  rw [f]
  exact mul_nonpos_of_nonneg_of_nonpos (div_pos j0 m0).le (div_nonpos_of_nonneg_of_nonpos (by linarith) m1.le)

section
variable {H : MatHeap} {md : ℕ} {k : ℝ}

theorem getLast_of_getLast? {α : Type} {L : List α} {x : α} (h : L.getLast? = some x) (hn : L ≠ []) : L.getLast hn = x := by
  rw [List.getLast?_eq_some_getLast hn] at h
  exact Option.some.inj h

/-- The TM amplitude is at least as large as the TE amplitude. -/
theorem ballAmp_tm {B : Ball} {R σ : ℝ} (h : BallOK H md B R) (hmd : MediumMat (H md)) (hk : 0 < k) (hs : B.OnSide H md k σ) {l : ℕ} (hl : 1 ≤ l) :
    σ * (ballAmp H md k false l B + ballAmp H md k true l B) ≤ 0 := by
  obtain ⟨r, b, L, c, hsh, hS, hlast, hce, hmag, hp, -⟩ := h.layers hmd
  have hcm : medAt H k c = medAt H k md := by unfold medAt; rw [hce]
  have he : (medAt H k md).Pos := ⟨(medium_val hmd.cls hmd.phys hk).2, muV_pos hmd.phys hk.le⟩
  have mu1 : ∀ x ∈ B.core :: b :: L.map Prod.snd, (medAt H k x).mu = 1 := fun x hx => muV_of_none (hmag x hx) k
  have me : (medAt H k md).mu = 1 := muV_of_none hmd.mag k
  -- contrast of the penetrable layers
  have hcon : ∀ x ∈ B.core :: b :: L.map Prod.snd, (H x).cls ≠ .pec → 0 ≤ σ * ((medAt H k x).eps - (medAt H k md).eps) := by
    intro x hx hc
    rcases hs with ⟨rfl, hD⟩ | ⟨rfl, hD⟩
    · have := (hp (fun m => m.cls = .pec ∨ (H md).epsV k ≤ m.epsV k) (.inr le_rfl) hD x hx).resolve_left hc
      rw [one_mul]
      exact sub_nonneg.mpr this
    · have := (hp (fun m => m.cls ≠ .pec ∧ m.epsV k ≤ (H md).epsV k) ⟨hmd.cls, le_rfl⟩ hD x hx).2
      have h2 : (medAt H k x).eps ≤ (medAt H k md).eps := this
      linarith
  have hlastM : ∀ a : Medium, (a :: (((r, b) :: L).map fun x => (x.1, medAt H k x.2)).map Prod.snd).getLast (by simp) = medAt H k md := by
    intro a
    refine getLast_of_getLast? ?_ _
    have e1 : a :: (((r, b) :: L).map fun x => (x.1, medAt H k x.2)).map Prod.snd = a :: ((r, b) :: L).map fun x => medAt H k x.2 := by
      simp
    rw [e1, List.map_cons, List.getLast?_cons_cons, ← List.map_cons (f := fun x : ℝ × ℕ => medAt H k x.2), List.getLast?_map, hlast, Option.map_some, hcm]
  have hcls := hS.med hk
  have hcl : ∀ x ∈ b :: L.map Prod.snd, (H x).cls ≠ .pec := fun x hx => (hS.shell x hx).1
  by_cases hc : (H B.core).cls = .pec
  · have hσ : σ = 1 := by
      rcases hs with ⟨rfl, -⟩ | ⟨-, hD⟩
      · rfl
      · exact absurd hc (hp (fun m => m.cls ≠ .pec) hmd.cls (fun x hx => (hD x hx).1) _ List.mem_cons_self)
    subst hσ
    have hpt := hS.at_pec hl hk false
    have hpm := hS.at_pec hl hk true
    have key := phase_run (σ := 1) hl hk he me (L.map fun x => (x.1, medAt H k x.2)) (a := medAt H k b) hS.hr
      (by rw [List.map_map]; exact hpt) (by rw [List.map_map]; exact hpm) (fun x hx => by
        obtain ⟨y, hy, rfl⟩ : ∃ y ∈ b :: L.map Prod.snd, medAt H k y = x := by
          rw [List.map_map] at hx
          exact List.mem_map.1 (by rw [List.map_cons, List.map_map]; exact hx)
        exact ⟨(hcls y hy).2, mu1 y (List.mem_cons_of_mem _ hy), hcon y (List.mem_cons_of_mem _ hy) (hcl y hy)⟩)
      (by simpa using hlastM (medAt H k b)) ?_
    · unfold ballAmp
      rw [hsh, shellAmp_pec hc, shellAmp_pec hc]
      rw [List.map_map, List.map_map] at key
      exact key
    · rw [one_mul]
      exact phase_pec hl hk (hcls b (by simp)).2 he hS.hr
  · obtain ⟨ρ, hρ, hρr, hneg⟩ := phase_small hl hk (hS.med_core hk hc) he (mu1 _ List.mem_cons_self) me (hcon _ List.mem_cons_self hc) hS.hr
    have key := phase_run (σ := σ) hl hk he me (((r, b) :: L).map fun x => (x.1, medAt H k x.2)) (a := medAt H k B.core) hρ
      (by rw [List.map_map]; exact hS.at_pen hl hk hc false hρ hρr.le) (by rw [List.map_map]; exact hS.at_pen hl hk hc true hρ hρr.le) (fun x hx => by
        obtain ⟨y, hy, rfl⟩ : ∃ y ∈ B.core :: b :: L.map Prod.snd, medAt H k y = x := by
          rw [List.map_map] at hx
          exact List.mem_map.1 (by rw [List.map_cons, List.map_cons, List.map_map]; exact hx)
        rcases List.mem_cons.1 hy with e | hy'
        · rw [e]
          exact ⟨hS.med_core hk hc, mu1 _ List.mem_cons_self, hcon _ List.mem_cons_self hc⟩
        · exact ⟨(hcls y hy').2, mu1 y hy, hcon y hy (hcl y hy')⟩)
      (hlastM _) hneg
    unfold ballAmp
    rw [hsh, shellAmp_pen hc, shellAmp_pen hc]
    rw [List.map_map, List.map_map] at key
    exact key

theorem ballR_tm {B : Ball} {R σ : ℝ} (h : BallOK H md B R) (hmd : MediumMat (H md)) (hk : 0 < k) (hs : B.OnSide H md k σ) (i : ℕ) :
    ballR H md k σ B false i ≤ ballR H md k σ B true i := by
  have := ballAmp_tm h hmd hk hs (l := i + 1) (by omega)
  have hpi : 0 < Real.pi / 2 := by have := Real.pi_pos; positivity
  refine mul_le_mul_of_nonneg_left ?_ hpi.le
  simp only [sg, cond_false, cond_true]
  linarith

end

end CasSph
