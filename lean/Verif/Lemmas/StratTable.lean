import Verif.Lemmas.StratAmp
import Verif.Model.StratPair
import Verif.Props.FreeEnergy

/-! # Mie coefficients of stratified spheres in the geometry -/

namespace CasSph

open Spec

/-- A sphere made of layers with ordered radii: core (possibly a perfect conductor), penetrable shells and the medium `md`; all
materials have non-negative parameters and are not magnetic. -/
structure Coating (H : MatHeap) (md : ℕ) (s : StratState) (R : ℝ) : Prop where
  len : s.mats.length = s.rs.length + 1
  pos : ∀ r ∈ s.rs, 0 < r
  ord : List.Pairwise (· ≤ ·) s.rs
  phys : ∀ x ∈ s.mats, (H x).Physical ∧ (H x).b = none
  pen : ∀ x ∈ s.mats.tail, (H x).cls ≠ .pec
  last : ∃ c, s.mats.getLast? = some c ∧ H c = H md
  outer : s.rs.getLast? = some R

/-- A homogeneous or stratified sphere of the outer radius `R`. -/
def BallOK (H : MatHeap) (md : ℕ) : Ball → ℝ → Prop
  | .solid m r, R => r = R ∧ 0 < r ∧ (H m).Physical ∧ (H m).b = none
  | .strat s, R => Coating H md s R

/-- Materials of the layers (for lists: including the medium). -/
def Ball.mats : Ball → List ℕ
  | .solid m _ => [m]
  | .strat s => s.mats

/-- All layers are perfect conductors or have at least the permittivity of the medium. -/
def Ball.Dense (H : MatHeap) (md : ℕ) (k : ℝ) (B : Ball) : Prop := ∀ x ∈ B.mats, (H x).cls = .pec ∨ (H md).epsV k ≤ (H x).epsV k

/-- No layer is a perfect conductor or has a larger permittivity than the medium. -/
def Ball.Dilute (H : MatHeap) (md : ℕ) (k : ℝ) (B : Ball) : Prop := ∀ x ∈ B.mats, (H x).cls ≠ .pec ∧ (H x).epsV k ≤ (H md).epsV k

section
variable {H : MatHeap} {md : ℕ} {k : ℝ}

theorem Coating.layers {s : StratState} {R : ℝ} (h : Coating H md s R) :
    ∃ a r b L c, s = layered a ((r, b) :: L) ∧ Shells H a r b L ∧ ((r, b) :: L).getLast? = some (R, c) ∧ H c = H md ∧
      s.mats = a :: b :: L.map Prod.snd := by
  obtain ⟨a, M, rfl⟩ := layered_surj h.len
  match M with
  | [] => exact absurd h.outer (by simp [layered])
  | (r, b) :: L =>
    have hm : (layered a ((r, b) :: L)).mats = a :: b :: L.map Prod.snd := rfl
    have hr : (layered a ((r, b) :: L)).rs = r :: L.map Prod.fst := rfl
    have ho := h.outer
    obtain ⟨c, hc, hce⟩ := h.last
    rw [hr] at ho
    rw [hm, List.getLast?_cons_cons] at hc
    obtain ⟨⟨R', c'⟩, hl⟩ : ∃ x, ((r, b) :: L).getLast? = some x := by
      rw [List.getLast?_eq_some_getLast (by simp)]; exact ⟨_, rfl⟩
    have e1 : (((r, b) :: L).map Prod.fst).getLast? = some R' := by rw [List.getLast?_map, hl]; rfl
    have e2 : (((r, b) :: L).map Prod.snd).getLast? = some c' := by rw [List.getLast?_map, hl]; rfl
    rw [List.map_cons] at e1 e2
    have e1' : R' = R := by have := e1.symm.trans ho; simpa using this
    have e2' : c' = c := by have := e2.symm.trans hc; simpa using this
    subst e1' e2'
    refine ⟨a, r, b, L, c', rfl, ⟨h.pos r (by simp [hr]), (h.phys a (by simp [hm])).1, fun x hx => ⟨h.pen x (by rw [hm]; exact hx), (h.phys x (by rw [hm]; exact List.mem_cons_of_mem _ hx)).1⟩, hr ▸ h.ord⟩, hl, hce, hm⟩

theorem BallOK.radius {B : Ball} {R : ℝ} (h : BallOK H md B R) : B.radius = .ok R := by
  cases B with
  | solid m r => exact congrArg Except.ok h.1
  | strat s =>
    have := Coating.outer h
    simp [Ball.radius, this]

theorem BallOK.pos {B : Ball} {R : ℝ} (h : BallOK H md B R) : 0 < R := by
  cases B with
  | solid m r => exact h.1 ▸ h.2.1
  | strat s => exact Coating.pos h R (List.mem_of_getLast? (Coating.outer h))

theorem medAt_mu {x : ℕ} (h : (H x).b = none) : (medAt H k x).mu = 1 := muV_of_none h k

/-- A homogeneous sphere is the stratified sphere with one interface. -/
theorem stratReturns_solid {T : BesTable} {l : ℕ} {a b : ℕ} {r : ℝ} {v : Mie} {s' : StratState}
    (h : StratReturns T H l k (layered a [(r, b)]) (.ok v, s')) : mie T T (H a) (H b) l k r = .ok v := by
  obtain ⟨fuel, h⟩ := h
  cases fuel with
  | zero => exact absurd h (by simp [mieStratified])
  | succ f =>
    rw [mieStratified_layered] at h
    cases hq : mie T T (H a) (H b) l k r with
    | error e => rw [hq] at h; simp at h
    | ok q =>
      rw [hq] at h
      simp only [List.map_nil, stratRedundant_nil, Bool.false_eq_true, if_false, Option.some.injEq, Prod.mk.injEq] at h
      exact h.1

/-- The result of the recursion with sufficient fuel. -/
theorem stratReturns_fuel {T : BesTable} {l : ℕ} {s : StratState} {v : Res Mie} {s' : StratState} (h : StratReturns T H l k s (v, s')) :
    mieStratified T H l k (s.mats.length + 1) s = some (v, s') := by
  obtain ⟨out, ho⟩ := C48_terminates T H l k s
  have e := ho (s.mats.length + 1) le_rfl
  rw [e, h.unique ⟨_, e⟩]

/-- Coefficients of a sphere: they exist for all degrees, with amplitudes bounded by those of a perfect conductor, and signs. -/
theorem BallOK.scatters {B : Ball} {R : ℝ} (h : BallOK H md B R) (hmd : MediumMat (H md)) (hk : 0 < k) :
    ∃ c : MieCoef, (∀ n, ∃ t, ballTable exactBes H md n k B = .ok t ∧ AgreeTo n t c) ∧
      (∃ α : Bool → ℕ → ℝ, (∀ P i, |α P i| ≤ 1) ∧
        Scatters c α (k * R * (⟨(H md).epsV k, 1⟩ : Medium).n) fun P i => pecR P i (k * R * (⟨(H md).epsV k, 1⟩ : Medium).n)) ∧
      (B.Dense H md k → ∃ A, Reflects c 1 (k * R * (⟨(H md).epsV k, 1⟩ : Medium).n) A) ∧
      (B.Dilute H md k → ∃ A, Reflects c (-1) (k * R * (⟨(H md).epsV k, 1⟩ : Medium).n) A) := by
  obtain ⟨a, r, b, L, c, hS, hlast, hce, hphys, hmats, htab⟩ : ∃ a r b L c, Shells H a r b L ∧ ((r, b) :: L).getLast? = some (R, c) ∧ H c = H md ∧
      (∀ x ∈ a :: b :: L.map Prod.snd, (H x).b = none) ∧
      (∀ p : Material → Prop, p (H md) → (∀ x ∈ B.mats, p (H x)) → ∀ x ∈ a :: b :: L.map Prod.snd, p (H x)) ∧
      ∀ w : MieCoef, (∀ l, 1 ≤ l → ∃ s', StratReturns exactBes H l k (layered a ((r, b) :: L)) (.ok ⟨w.TE l, w.TM l, w.ln l⟩, s')) →
        ∀ n, ∃ t, ballTable exactBes H md n k B = .ok t ∧ AgreeTo n t w := by
    cases B with
    | solid m r =>
      obtain ⟨rfl, h1, h2, h3⟩ := h
      refine ⟨m, r, md, [], md, ⟨h1, h2, by simpa using ⟨hmd.cls, hmd.phys⟩, by simp⟩, rfl, rfl, by simpa using ⟨h3, hmd.mag⟩,
        fun p p1 p2 => by simpa [Ball.mats, p1] using p2, fun w hw n => ?_⟩
      refine mieTable_ok (fun l hl => ?_) n
      obtain ⟨s', hs⟩ := hw l hl
      exact stratReturns_solid hs
    | strat s =>
      have h' : Coating H md s R := h
      obtain ⟨a, r, b, L, c, hs, hS, hlast, hce, hm⟩ := h'.layers
      refine ⟨a, r, b, L, c, hS, hlast, hce, fun x hx => (h'.phys x (hm ▸ hx)).2, fun p _ p2 x hx => p2 x (by
        show x ∈ s.mats
        rw [hm]; exact hx), fun w hw n => ?_⟩
      have hinit : stratInit (.list s.mats) (.list s.rs) = .ok (some s) := by
        rw [C82_lists, if_pos]
        refine ⟨?_, h'.len.symm⟩
        rw [hm]; simp
      show ∃ t, stratTable exactBes H s n k = .ok t ∧ AgreeTo n t w
      unfold stratTable
      rw [hinit, ok_bind]
      simp only
      rw [finM_ok (g := fun i : Fin n => ⟨w.TE (i.1 + 1), w.TM (i.1 + 1), w.ln (i.1 + 1)⟩) (fun i => ?_), ok_bind]
      · exact ⟨_, rfl, tableOf_agree fun i => rfl⟩
      · obtain ⟨s', hs'⟩ := hw (i.1 + 1) (by omega)
        rw [← hs] at hs'
        rw [stratReturns_fuel hs']
  have hex : ∀ l : ℕ, ∃ (v : Mie) (tE tM : ℝ), 1 ≤ l → (∃ s', StratReturns exactBes H l k (layered a ((r, b) :: L)) (.ok v, s')) ∧
      v.TE * Real.exp v.ln = (-1) ^ l * (Real.pi / 2) * tE ∧ v.TM * Real.exp v.ln = (-1) ^ l * (Real.pi / 2) * tM ∧
      Grow l (k * R * (medAt H k c).n) tE ∧ Grow l (k * R * (medAt H k c).n) tM ∧
      (MuUp H k a b L → Steep l (k * R * (medAt H k c).n) tE) ∧
      ∀ s, AllAgainst H k s a b c L → 0 ≤ s * tE ∧ 0 ≤ -s * tM := by
    intro l
    by_cases hl : 1 ≤ l
    · obtain ⟨v, s', tE, tM, hv, hrest⟩ := hS.amps hk hlast hl
      exact ⟨v, tE, tM, fun _ => ⟨⟨s', hv⟩, hrest⟩⟩
    · exact ⟨⟨0, 0, 0⟩, 0, 0, fun h => absurd h hl⟩
  choose v tE tM hv using hex
  have hmu : ∀ x ∈ a :: b :: L.map Prod.snd, (medAt H k x).mu = 1 := fun x hx => medAt_mu (hphys x hx)
  have hup : MuUp H k a b L := by
    refine ⟨.inr (by rw [hmu a (by simp), hmu b (by simp)]), ?_⟩
    rw [List.pairwise_map]
    exact List.pairwise_of_forall_mem_list fun x hx y hy => by
      rw [hmu x (List.mem_cons_of_mem _ hx), hmu y (List.mem_cons_of_mem _ hy)]
  have hcm := Shells.last_mem hlast
  have hmed : medAt H k c = ⟨(H md).epsV k, 1⟩ := by
    have := hmu c (List.mem_cons_of_mem _ hcm)
    unfold medAt at this ⊢
    simp only at this
    rw [this, hce]
  have hpos : (medAt H k c).Pos := (hS.med hk c hcm).2
  have hρ : 0 < k * R * (medAt H k c).n := mul_pos (mul_pos hk h.pos) ((medAt H k c).n_pos hpos)
  rw [← hmed]
  have main := scatters_of_amps (c := ⟨fun l => (v l).TE, fun l => (v l).TM, fun l => (v l).ln⟩) hρ (tE := tE) (tM := tM) (fun l hl => (hv l hl).2.1)
    (fun l hl => (hv l hl).2.2.1) (fun l hl => ⟨(hv l hl).2.2.2.1, (hv l hl).2.2.2.2.2.1 hup⟩) (fun l hl => (hv l hl).2.2.2.2.1)
  refine ⟨_, htab _ fun l hl => (hv l hl).1, main.1, fun hD => main.2 1 (.inl rfl) fun l hl => (hv l hl).2.2.2.2.2.2 1 ?_,
    fun hD => main.2 (-1) (.inr rfl) fun l hl => (hv l hl).2.2.2.2.2.2 (-1) ?_⟩
  · have hall := hmats (fun m => m.cls = .pec ∨ (H md).epsV k ≤ m.epsV k) (.inr le_rfl) hD
    have key : ∀ x ∈ a :: b :: L.map Prod.snd, (H x).cls ≠ .pec → (medAt H k x).Against 1 (medAt H k c) := by
      intro x hx hp
      refine ⟨?_, ?_⟩
      · rw [one_mul, sub_nonneg]
        show (H c).epsV k ≤ (H x).epsV k
        rw [hce]; exact (hall x hx).resolve_left hp
      · rw [hmu x hx, hmu c (List.mem_cons_of_mem _ hcm), sub_self, mul_zero]
    exact ⟨fun _ => zero_le_one, key a (by simp), fun x hx => key x (List.mem_cons_of_mem _ hx) (hS.shell x hx).1⟩
  · have hall := hmats (fun m => m.cls ≠ .pec ∧ m.epsV k ≤ (H md).epsV k) ⟨hmd.cls, le_rfl⟩ hD
    have key : ∀ x ∈ a :: b :: L.map Prod.snd, (medAt H k x).Against (-1) (medAt H k c) := by
      intro x hx
      refine ⟨?_, ?_⟩
      · rw [neg_one_mul, neg_sub, sub_nonneg]
        show (H x).epsV k ≤ (H c).epsV k
        rw [hce]; exact (hall x hx).2
      · rw [hmu x hx, hmu c (List.mem_cons_of_mem _ hcm), sub_self, mul_zero]
    exact ⟨fun hp => absurd hp (hall a (by simp)).1, fun _ => key a (by simp), fun x hx => key x (List.mem_cons_of_mem _ hx)⟩

end

end CasSph
