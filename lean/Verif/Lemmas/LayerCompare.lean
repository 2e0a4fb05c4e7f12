import Verif.Lemmas.LayerSign

/-! # Comparison of the radial functions of two layered spheres -/

namespace CasSph

open Spec Filter Topology Set

section
variable {l : ℕ} {a b e f : Layer} {r t t' s : ℝ}

/-- Difference between the logarithmic derivatives (divided by the response `w`) of the radial functions of the layers `a` and `e`. -/
noncomputable def wron (l : ℕ) (a e : Layer) (t t' r : ℝ) : ℝ := e.w * layD l a t r * layU l e t' r - a.w * layU l a t r * layD l e t' r

theorem wron_swap : wron l e a t' t r = -wron l a e t t' r := by unfold wron; ring

theorem side_iff_wron : Side s l a e r t ↔ 0 ≤ s * wron l a e t 0 r := Iff.rfl

theorem Rel.swap (h : Rel s a e) : Rel (-s) e a := ⟨by have := h.1; linarith, by have := h.2; linarith⟩

theorem wron_hasDerivAt (hl : 1 ≤ l) (ha : a.Pos) (he : e.Pos) (hr : 0 < r) :
    HasDerivAt (fun y => y * wron l a e t t' y)
      (layU l a t r * layU l e t' r * r * ((e.w * a.q ^ 2 - a.w * e.q ^ 2) * r + l * (l + 1) / r * (e.w - a.w)) +
        layD l a t r * layD l e t' r * (e.w - a.w)) r := by
  have h := (((layD_hasDerivAt (t := t) hl ha hr).mul (layU_hasDerivAt (t := t') hl he hr)).const_mul e.w).sub
    (((layU_hasDerivAt (t := t) hl ha hr).mul (layD_hasDerivAt (t := t') hl he hr)).const_mul a.w)
  refine (h.congr_deriv ?_).congr_of_eventuallyEq (Eventually.of_forall fun y => ?_)
  · ring
  · simp only [Pi.sub_apply, Pi.mul_apply, wron]; ring

/-- One of the two comparisons is strict. -/
def RelLt (s : ℝ) (a e : Layer) : Prop := 0 < s * (e.w * a.q ^ 2 - a.w * e.q ^ 2) ∨ 0 < s * (e.w - a.w)

theorem RelLt.swap (h : RelLt s a e) : RelLt (-s) e a := h.imp (fun h => by linarith) fun h => by linarith

theorem grow_pos {x y : ℝ} (hl : 1 ≤ l) (hx : 0 < x) (hxy : x < y) (h : Grow l x t) : 0 < sphI l y - t * sphK l y := by
  have hy := hx.trans hxy
  have a1 := sphI_mono_arg l (mem_Ioi.mpr hx) (mem_Ioi.mpr hy) hxy
  have a2 := sphK_anti_arg hl (mem_Ioi.mpr hx) (mem_Ioi.mpr hy) hxy
  have := h.1
  have k := sphK_pos l hy
  have i := sphI_pos l hx
  rcases le_total t 0 with ht | ht
  · nlinarith
  · nlinarith [mul_le_mul_of_nonneg_left a2.le ht]

theorem wron_mono (hl : 1 ≤ l) (ha : a.Pos) (he : e.Pos) (hR : Rel s a e) {r0 : ℝ} (hr0 : 0 < r0) (hg : Grow l (a.q * r0) t)
    (hg' : Grow l (e.q * r0) t') : MonotoneOn (fun y => s * (y * wron l a e t t' y)) (Ici r0) ∧
      (RelLt s a e → StrictMonoOn (fun y => s * (y * wron l a e t t' y)) (Ici r0)) := by
  have hd := fun (y : ℝ) (hy : 0 < y) => (wron_hasDerivAt (t := t) (t' := t') hl ha he hy).const_mul s
  have hc : ContinuousOn (fun y => s * (y * wron l a e t t' y)) (Ici r0) := fun y hy => (hd y (hr0.trans_le hy)).continuousAt.continuousWithinAt
  have key : ∀ y, r0 < y → 0 ≤ deriv (fun y => s * (y * wron l a e t t' y)) y ∧ (RelLt s a e → 0 < deriv (fun y => s * (y * wron l a e t t' y)) y) := by
    intro y hy
    have hy0 : 0 < y := hr0.trans hy
    rw [(hd y hy0).deriv]
    have g : Grow l (a.q * y) t := hg.mono hl (mul_pos ha.q hr0) (mul_le_mul_of_nonneg_left (le_of_lt hy) ha.q.le)
    have g0 : Grow l (e.q * y) t' := hg'.mono hl (mul_pos he.q hr0) (mul_le_mul_of_nonneg_left (le_of_lt hy) he.q.le)
    have u1 : 0 < layU l a t y := grow_pos hl (mul_pos ha.q hr0) (mul_lt_mul_of_pos_left hy ha.q) hg
    have u2 : 0 < layU l e t' y := grow_pos hl (mul_pos he.q hr0) (mul_lt_mul_of_pos_left hy he.q) hg'
    have d1 := layD_nonneg g
    have d2 := layD_nonneg g0
    have e1 : s * (layU l a t y * layU l e t' y * y * ((e.w * a.q ^ 2 - a.w * e.q ^ 2) * y + l * (l + 1) / y * (e.w - a.w)) +
        layD l a t y * layD l e t' y * (e.w - a.w)) =
      layU l a t y * layU l e t' y * y * (s * (e.w * a.q ^ 2 - a.w * e.q ^ 2) * y + l * (l + 1) / y * (s * (e.w - a.w))) +
        layD l a t y * layD l e t' y * (s * (e.w - a.w)) := by ring
    rw [e1]
    have h1 := hR.1
    have h2 := hR.2
    have hl' : (0 : ℝ) < l := by exact_mod_cast hl
    refine ⟨by positivity, fun hs => ?_⟩
    rcases hs with h | h <;> positivity
  constructor
  · refine monotoneOn_of_deriv_nonneg (convex_Ici r0) hc (fun y hy => ?_) fun y hy => ?_
    · rw [interior_Ici] at hy
      exact (hd y (hr0.trans hy)).differentiableAt.differentiableWithinAt
    · rw [interior_Ici] at hy
      exact (key y hy).1
  · intro hs
    refine strictMonoOn_of_deriv_pos (convex_Ici r0) hc fun y hy => ?_
    rw [interior_Ici] at hy
    exact (key y hy).2 hs

/-- From one radius to a larger one. -/
theorem wron_move (hl : 1 ≤ l) (ha : a.Pos) (he : e.Pos) {r0 : ℝ} (hr0 : 0 < r0) (hr : r0 ≤ r) (hR : r0 < r → Rel s a e) (hg : Grow l (a.q * r0) t)
    (hg' : Grow l (e.q * r0) t') (h : 0 ≤ s * wron l a e t t' r0) :
    0 ≤ s * wron l a e t t' r ∧ (0 < s * wron l a e t t' r0 → 0 < s * wron l a e t t' r) ∧ (r0 < r → RelLt s a e → 0 < s * wron l a e t t' r) := by
  rcases hr.eq_or_lt with rfl | hlt
  · exact ⟨h, id, fun h => absurd h (lt_irrefl _)⟩
  obtain ⟨m1, m2⟩ := wron_mono hl ha he (hR hlt) hr0 hg hg'
  have hr' := hr0.trans hlt
  have c : ∀ y, s * (y * wron l a e t t' y) = y * (s * wron l a e t t' y) := fun y => by ring
  have b1 := m1 (mem_Ici.mpr le_rfl) (mem_Ici.mpr hr) hr
  simp only [c] at b1
  refine ⟨nonneg_of_mul_nonneg_right ((mul_nonneg hr0.le h).trans b1) hr', fun hp => pos_of_mul_pos_right ((mul_pos hr0 hp).trans_le b1) hr'.le,
    fun _ hs => ?_⟩
  have b2 := m2 hs (mem_Ici.mpr le_rfl) (mem_Ici.mpr hr) hlt
  simp only [c] at b2
  exact pos_of_mul_pos_right ((mul_nonneg hr0.le h).trans_lt b2) hr'.le

/-- Across an interface of the first sphere. -/
theorem wron_next (hl : 1 ≤ l) (ha : a.Pos) (hb : b.Pos) (hr : 0 < r) (hg : Grow l (a.q * r) t) :
    ∃ c, 0 < c ∧ ∀ (e : Layer) (t' : ℝ), wron l b e (ampNext l a b r t) t' r = c * wron l a e t t' r := by
  obtain ⟨c, hc, h1, h2⟩ := ampNext_vals hl ha hb hr hg
  refine ⟨c * b.w, mul_pos hc hb.w, fun e t' => ?_⟩
  unfold wron
  rw [h1, h2]
  ring

/-- Outside both spheres. -/
theorem wron_final (hl : 1 ≤ l) (he : e.Pos) (hr : 0 < r) : ∃ c, 0 < c ∧ ∀ t t', wron l e e t t' r = c * (t - t') := by
  have hx := mul_pos he.q hr
  have hi := sphI_pos l hx
  have hk := sphK_pos l hx
  have i1 := idX_pos hl hx
  have k1 := kdX_neg hl hx
  have hw := he.w
  have hd : 0 < idX l (e.q * r) - kdX l (e.q * r) := by linarith
  refine ⟨e.w * sphI l (e.q * r) * sphK l (e.q * r) * (idX l (e.q * r) - kdX l (e.q * r)), by positivity, fun t t' => ?_⟩
  unfold wron layU layD
  ring

end

/-! ## Layers in order -/

/-- The layer at the radius `r` if the innermost one is `a`. -/
noncomputable def layerAt {α : Type} : α → List (ℝ × α) → ℝ → α
  | a, [], _ => a
  | a, (r1, b) :: L, r => if r ≤ r1 then a else layerAt b L r

theorem layerAt_map {α β : Type} (f : α → β) (r : ℝ) : ∀ (L : List (ℝ × α)) (a : α), layerAt (f a) (L.map fun x => (x.1, f x.2)) r = f (layerAt a L r)
  | [], _ => rfl
  | (r1, b) :: L, a => by
    simp only [List.map_cons, layerAt]
    split_ifs
    · rfl
    · exact layerAt_map f r L b

theorem layerAt_le {α : Type} {a : α} {L : List (ℝ × α)} {r : ℝ} (h : ∀ x ∈ L, r ≤ x.1) : layerAt a L r = a := by
  cases L with
  | nil => rfl
  | cons x L => obtain ⟨r1, b⟩ := x; rw [layerAt, if_pos (h _ List.mem_cons_self)]

/-- What is known about a sphere at the radius `ρ`: the layer, the amplitude there, and the layers outside. -/
structure At (l : ℕ) (ρ : ℝ) (a : Layer) (t : ℝ) (L : List (ℝ × Layer)) : Prop where
  pos : a.Pos
  grow : Grow l (a.q * ρ) t
  all : ∀ x ∈ L, x.2.Pos
  ord : List.Pairwise (· ≤ ·) (ρ :: L.map Prod.fst)

section
variable {l : ℕ} {ρ s : ℝ}

theorem At.le {a : Layer} {t : ℝ} {L : List (ℝ × Layer)} (h : At l ρ a t L) : ∀ x ∈ L, ρ ≤ x.1 := fun x hx =>
  (List.pairwise_cons.1 h.ord).1 _ (List.mem_map_of_mem hx)

/-- Moving outwards within a layer. -/
theorem At.move {a : Layer} {t : ℝ} {L : List (ℝ × Layer)} (h : At l ρ a t L) (hl : 1 ≤ l) (hρ : 0 < ρ) {r : ℝ} (hr : ρ ≤ r) (hle : ∀ x ∈ L, r ≤ x.1) :
    At l r a t L :=
  ⟨h.pos, h.grow.mono hl (mul_pos h.pos.q hρ) (mul_le_mul_of_nonneg_left hr h.pos.q.le), h.all, List.pairwise_cons.2
    ⟨fun y hy => by obtain ⟨x, hx, rfl⟩ := List.mem_map.1 hy; exact hle x hx, (List.pairwise_cons.1 h.ord).2⟩⟩

/-- Across the next interface. -/
theorem At.step {a b : Layer} {t r : ℝ} {L : List (ℝ × Layer)} (h : At l r a t ((r, b) :: L)) (hl : 1 ≤ l) (hr : 0 < r) : At l r b (ampNext l a b r t) L :=
  ⟨h.all _ List.mem_cons_self, ampNext_grow hl h.pos (h.all _ List.mem_cons_self) hr h.grow, fun x hx => h.all x (List.mem_cons_of_mem _ hx), by
    have := h.ord
    rw [List.map_cons] at this
    exact (List.pairwise_cons.1 this).2⟩

theorem At.head_le {a b : Layer} {t r : ℝ} {L : List (ℝ × Layer)} (h : At l ρ a t ((r, b) :: L)) : ρ ≤ r ∧ ∀ x ∈ (r, b) :: L, r ≤ x.1 := by
  refine ⟨h.le _ List.mem_cons_self, fun x hx => ?_⟩
  have := h.ord
  rw [List.map_cons, List.pairwise_cons] at this
  rcases List.mem_cons.1 hx with rfl | hx
  · exact le_rfl
  · exact (List.pairwise_cons.1 this.2).1 _ (List.mem_map_of_mem hx)

/-- Two spheres whose layers outside `ρ` are ordered at every radius. -/
theorem merge_compare (hl : 1 ≤ l) : ∀ (n : ℕ) (L L' : List (ℝ × Layer)) {a a' : Layer} {t t' ρ : ℝ}, L.length + L'.length = n → 0 < ρ →
    At l ρ a t L → At l ρ a' t' L' → 0 ≤ s * wron l a a' t t' ρ → (∀ r, ρ < r → Rel s (layerAt a L r) (layerAt a' L' r)) →
    ∃ R, 0 < R ∧ 0 ≤ s * wron l (lastLayer a L) (lastLayer a' L') (ampRun l a t L) (ampRun l a' t' L') R ∧
      ((0 < s * wron l a a' t t' ρ ∨ ∃ r, ρ < r ∧ RelLt s (layerAt a L r) (layerAt a' L' r)) →
        0 < s * wron l (lastLayer a L) (lastLayer a' L') (ampRun l a t L) (ampRun l a' t' L') R) := by
  intro n
  induction n with
  | zero =>
    intro L L' a a' t t' ρ hn hρ hA hA' hw hR
    obtain rfl : L = [] := List.length_eq_zero_iff.mp (by omega)
    obtain rfl : L' = [] := List.length_eq_zero_iff.mp (by omega)
    have m := wron_move hl hA.pos hA'.pos hρ (r := ρ + 1) (by linarith) (fun _ => hR (ρ + 1) (by linarith)) hA.grow hA'.grow hw
    refine ⟨ρ + 1, by linarith, m.1, fun h => ?_⟩
    rcases h with h | ⟨r, -, h⟩
    · exact m.2.1 h
    · exact m.2.2 (by linarith) h
  | succ n ih =>
    have main : ∀ (s : ℝ) (L L' : List (ℝ × Layer)) {a a' b : Layer} {t t' ρ r1 : ℝ}, L.length + L'.length = n → 0 < ρ →
        At l ρ a t ((r1, b) :: L) → At l ρ a' t' L' → (∀ x ∈ L', r1 ≤ x.1) → 0 ≤ s * wron l a a' t t' ρ →
        (∀ r, ρ < r → Rel s (layerAt a ((r1, b) :: L) r) (layerAt a' L' r)) →
        0 < r1 ∧ At l r1 b (ampNext l a b r1 t) L ∧ At l r1 a' t' L' ∧ 0 ≤ s * wron l b a' (ampNext l a b r1 t) t' r1 ∧
          (∀ r, r1 < r → Rel s (layerAt b L r) (layerAt a' L' r)) ∧
          ((0 < s * wron l a a' t t' ρ ∨ ∃ r, ρ < r ∧ RelLt s (layerAt a ((r1, b) :: L) r) (layerAt a' L' r)) →
            (0 < s * wron l b a' (ampNext l a b r1 t) t' r1 ∨ ∃ r, r1 < r ∧ RelLt s (layerAt b L r) (layerAt a' L' r))) := by
      intro s L L' a a' b t t' ρ r1 hn hρ hA hA' hle hw hR
      obtain ⟨q1, q2⟩ := hA.head_le
      have hr1 : 0 < r1 := hρ.trans_le q1
      have hB := hA.move hl hρ q1 q2
      have hB' := hA'.move hl hρ q1 hle
      have inner : ∀ r, r ≤ r1 → layerAt a ((r1, b) :: L) r = a ∧ layerAt a' L' r = a' := fun r hr =>
        ⟨by rw [layerAt, if_pos hr], layerAt_le fun x hx => hr.trans (hle x hx)⟩
      have outer : ∀ r, r1 < r → layerAt a ((r1, b) :: L) r = layerAt b L r := fun r hr => by rw [layerAt, if_neg (not_le.mpr hr)]
      have m := wron_move hl hA.pos hA'.pos hρ q1 (fun hlt => by
        have := hR r1 hlt
        rwa [(inner r1 le_rfl).1, (inner r1 le_rfl).2] at this) hA.grow hA'.grow hw
      obtain ⟨c, hc, ec⟩ := wron_next hl hA.pos (hA.all _ List.mem_cons_self) hr1 hB.grow
      have ec' : s * wron l b a' (ampNext l a b r1 t) t' r1 = c * (s * wron l a a' t t' r1) := by rw [ec]; ring
      refine ⟨hr1, hB.step hl hr1, hB', by rw [ec']; exact mul_nonneg hc.le m.1, fun r hr => ?_, fun h => ?_⟩
      · have := hR r (q1.trans_lt hr)
        rwa [outer r hr] at this
      · rcases h with h | ⟨r, hr, h⟩
        · exact .inl (by rw [ec']; exact mul_pos hc (m.2.1 h))
        · rcases le_or_gt r r1 with hrr | hrr
          · rw [(inner r hrr).1, (inner r hrr).2] at h
            exact .inl (by rw [ec']; exact mul_pos hc (m.2.2 (hr.trans_le hrr) h))
          · rw [outer r hrr] at h
            exact .inr ⟨r, hrr, h⟩
    have left : ∀ (L L' : List (ℝ × Layer)) {a a' b : Layer} {t t' ρ r1 : ℝ}, L.length + L'.length = n → 0 < ρ →
        At l ρ a t ((r1, b) :: L) → At l ρ a' t' L' → (∀ x ∈ L', r1 ≤ x.1) → 0 ≤ s * wron l a a' t t' ρ →
        (∀ r, ρ < r → Rel s (layerAt a ((r1, b) :: L) r) (layerAt a' L' r)) →
        ∃ R, 0 < R ∧ 0 ≤ s * wron l (lastLayer a ((r1, b) :: L)) (lastLayer a' L') (ampRun l a t ((r1, b) :: L)) (ampRun l a' t' L') R ∧
          ((0 < s * wron l a a' t t' ρ ∨ ∃ r, ρ < r ∧ RelLt s (layerAt a ((r1, b) :: L) r) (layerAt a' L' r)) →
            0 < s * wron l (lastLayer a ((r1, b) :: L)) (lastLayer a' L') (ampRun l a t ((r1, b) :: L)) (ampRun l a' t' L') R) := by
      intro L L' a a' b t t' ρ r1 hn hρ hA hA' hle hw hR
      obtain ⟨g1, g2, g3, g4, g5, g6⟩ := main s L L' hn hρ hA hA' hle hw hR
      obtain ⟨R, hRp, w1, w2⟩ := ih L L' hn g1 g2 g3 g4 g5
      exact ⟨R, hRp, w1, fun h => w2 (g6 h)⟩
    have right : ∀ (L L' : List (ℝ × Layer)) {a a' b : Layer} {t t' ρ r1 : ℝ}, L.length + L'.length = n → 0 < ρ →
        At l ρ a t L → At l ρ a' t' ((r1, b) :: L') → (∀ x ∈ L, r1 ≤ x.1) → 0 ≤ s * wron l a a' t t' ρ →
        (∀ r, ρ < r → Rel s (layerAt a L r) (layerAt a' ((r1, b) :: L') r)) →
        ∃ R, 0 < R ∧ 0 ≤ s * wron l (lastLayer a L) (lastLayer a' ((r1, b) :: L')) (ampRun l a t L) (ampRun l a' t' ((r1, b) :: L')) R ∧
          ((0 < s * wron l a a' t t' ρ ∨ ∃ r, ρ < r ∧ RelLt s (layerAt a L r) (layerAt a' ((r1, b) :: L') r)) →
            0 < s * wron l (lastLayer a L) (lastLayer a' ((r1, b) :: L')) (ampRun l a t L) (ampRun l a' t' ((r1, b) :: L')) R) := by
      intro L L' a a' b t t' ρ r1 hn hρ hA hA' hle hw hR
      have sw : ∀ (a e : Layer) (t t' r : ℝ), s * wron l a e t t' r = -s * wron l e a t' t r := fun a e t t' r => by rw [wron_swap (a := e)]; ring
      rw [sw] at hw
      obtain ⟨g1, g2, g3, g4, g5, g6⟩ := main (-s) L' L (by omega) hρ hA' hA hle hw fun r hr => (hR r hr).swap
      obtain ⟨R, hRp, w1, w2⟩ := ih L L' hn g1 g3 g2 (by rw [sw]; exact g4) fun r hr => by simpa using (g5 r hr).swap
      refine ⟨R, hRp, w1, fun h => w2 ?_⟩
      rw [sw]
      have := g6 (by
        rw [sw] at h
        exact h.imp id fun ⟨r, hr, h⟩ => ⟨r, hr, h.swap⟩)
      exact this.imp id fun ⟨r, hr, h⟩ => ⟨r, hr, by simpa using h.swap⟩
    intro L L' a a' t t' ρ hn hρ hA hA' hw hR
    match L, L' with
    | [], [] => simp at hn
    | (r1, b) :: L, [] => exact left L [] (by simpa using hn) hρ hA hA' (by simp) hw hR
    | [], (r1, b) :: L' => exact right [] L' (by simpa using hn) hρ hA hA' (by simp) hw hR
    | (r1, b) :: L, (r2, b') :: L' =>
      simp only [List.length_cons] at hn
      rcases le_total r1 r2 with h | h
      · exact left L ((r2, b') :: L') (by simp only [List.length_cons]; omega) hρ hA hA' (fun x hx => h.trans (hA'.head_le.2 x hx)) hw hR
      · exact right ((r1, b) :: L) L' (by simp only [List.length_cons]; omega) hρ hA hA' (fun x hx => h.trans (hA.head_le.2 x hx)) hw hR

/-- A sphere at a larger radius. -/
theorem At.advance (hl : 1 ≤ l) : ∀ (L : List (ℝ × Layer)) {a : Layer} {t ρ R : ℝ}, 0 < ρ → ρ ≤ R → At l ρ a t L →
    ∃ a1 t1 L1, At l R a1 t1 L1 ∧ ampRun l a1 t1 L1 = ampRun l a t L ∧ lastLayer a1 L1 = lastLayer a L ∧ ∀ r, R < r → layerAt a1 L1 r = layerAt a L r
  | [], a, t, ρ, R, hρ, hR, h => ⟨a, t, [], h.move hl hρ hR (by simp), rfl, rfl, fun _ _ => rfl⟩
  | (r1, b) :: L, a, t, ρ, R, hρ, hR, h => by
    obtain ⟨q1, q2⟩ := h.head_le
    rcases le_or_gt R r1 with hr | hr
    · exact ⟨a, t, (r1, b) :: L, h.move hl hρ hR (fun x hx => hr.trans (q2 x hx)), rfl, rfl, fun _ _ => rfl⟩
    · have h' := (h.move hl hρ q1 q2).step hl (hρ.trans_le q1)
      obtain ⟨a1, t1, L1, g1, g2, g3, g4⟩ := At.advance hl L (hρ.trans_le q1) hr.le h'
      exact ⟨a1, t1, L1, g1, g2, g3, fun r hrr => (g4 r hrr).trans (by rw [layerAt, if_neg (not_le.mpr (hr.trans hrr))])⟩

end

end CasSph
