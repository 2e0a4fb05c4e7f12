import Verif.Model.Stratified
import Verif.Props.ScatBoundary

/-! # Lemmas on `mie_stratified` -/

namespace CasSph

open Spec

/-- the loop over the shells as a recursion over the list of interfaces: radius and address of the next material -/
noncomputable def shellRun (T : BesTable) (H : MatHeap) (l : ℕ) (k : ℝ) : ℕ → List (ℝ × ℕ) → Mie → Res Mie
  | _, [], q => .ok q
  | a, (r, b) :: t, q => do
    let q' ← stratCoated T (H a) (H b) l k r q
    shellRun T H l k b t q'

/-- the state for a core and its interfaces -/
def layered (a : ℕ) (L : List (ℝ × ℕ)) : StratState := ⟨a :: L.map Prod.snd, L.map Prod.fst⟩

/-- every pair of lists of matching lengths is of this form -/
theorem layered_surj {s : StratState} (h : s.mats.length = s.rs.length + 1) :
    ∃ a L, s = layered a L := by
  obtain ⟨mats, rs⟩ := s
  cases mats with
  | nil => simp at h
  | cons a bs =>
    refine ⟨a, rs.zip bs, ?_⟩
    simp at h
    unfold layered
    rw [List.map_snd_zip (by omega), List.map_fst_zip (by omega)]

theorem pyGet_append {α : Type} (p : List α) (x : α) (t : List α) (i : ℕ) (h : p.length = i) :
    pyGet (p ++ x :: t) i = .ok x := by
  subst h
  simp [pyGet]

theorem stratLoop_run (T : BesTable) (H : MatHeap) (l : ℕ) (k : ℝ) (L : List (ℝ × ℕ)) :
    ∀ (pm : List ℕ) (a : ℕ) (pr : List ℝ) (q : Mie), 1 ≤ pr.length → pm.length = pr.length →
      stratLoop T H ⟨pm ++ a :: L.map Prod.snd, pr ++ L.map Prod.fst⟩ l k L.length pr.length q =
        shellRun T H l k a L q := by
  induction L with
  | nil => intros; rfl
  | cons x t ih =>
    obtain ⟨r, b⟩ := x
    intro pm a pr q h1 h2
    simp only [List.length_cons, List.map_cons]
    unfold stratLoop shellRun
    simp only
    have g0 : ∃ y, pyGet (pr ++ r :: t.map Prod.fst) (pr.length - 1) = .ok y := by
      unfold pyGet
      have : (pr ++ r :: t.map Prod.fst)[pr.length - 1]? = some (pr[pr.length - 1]'(by omega)) := by
        rw [List.getElem?_append_left (by omega), List.getElem?_eq_getElem]
      rw [this]
      exact ⟨_, rfl⟩
    obtain ⟨y, hy⟩ := g0
    rw [hy, ok_bind, pyGet_append pr r _ _ rfl, ok_bind, pyGet_append pm a _ _ h2, ok_bind,
      show pm ++ a :: b :: t.map Prod.snd = (pm ++ [a]) ++ b :: t.map Prod.snd by simp,
      pyGet_append (pm ++ [a]) b _ _ (by simp [h2]), ok_bind]
    cases stratCoated T (H a) (H b) l k r q with
    | error e => rfl
    | ok q' =>
      rw [ok_bind, ok_bind, show pr ++ r :: t.map Prod.fst = (pr ++ [r]) ++ t.map Prod.fst by simp,
        show pr.length + 1 = (pr ++ [r]).length by simp]
      exact ih (pm ++ [a]) b (pr ++ [r]) q' (by simp) (by simp [h2])

/-- one call, for a sphere with at least one interface -/
theorem mieStratified_layered (T : BesTable) (H : MatHeap) (l : ℕ) (k : ℝ) (fuel : ℕ) (a : ℕ) (r : ℝ) (b : ℕ)
    (L : List (ℝ × ℕ)) :
    mieStratified T H l k (fuel + 1) (layered a ((r, b) :: L)) =
      match mie T T (H a) (H b) l k r with
      | .error e => some (.error e, layered a ((r, b) :: L))
      | .ok q => if stratRedundant (a :: b :: L.map Prod.snd) then
          mieStratified T H l k fuel (layered a (((r, b) :: L).dropLast))
        else some (shellRun T H l k b L q, layered a ((r, b) :: L)) := by
  conv_lhs => unfold mieStratified
  have h1 : stratInner T H (layered a ((r, b) :: L)) l k = mie T T (H a) (H b) l k r := by
    unfold stratInner layered
    simp [pyGet, ok_bind]
  rw [h1]
  cases mie T T (H a) (H b) l k r with
  | error e => rfl
  | ok q =>
    simp only
    have h2 : (layered a ((r, b) :: L)).mats = a :: b :: L.map Prod.snd := rfl
    rw [h2]
    congr 1
    · congr 1
      unfold layered
      simp only [List.map_cons, List.map_dropLast]
      rw [List.dropLast_cons_of_ne_nil (by simp)]
    · congr 2
      have := stratLoop_run T H l k L [a] b [r] q le_rfl rfl
      simpa [layered] using this

/-! ## the redundancy test -/

/-- address of the outermost material -/
def lastMat : ℕ → List (ℝ × ℕ) → ℕ
  | b, [] => b
  | _, (_, c) :: t => lastMat c t

theorem lastMat_append (b : ℕ) (L M : List (ℝ × ℕ)) : lastMat b (L ++ M) = lastMat (lastMat b L) M := by
  induction L generalizing b with
  | nil => rfl
  | cons x t ih => exact ih x.2

theorem lastMat_const (c : ℕ) (L : List (ℝ × ℕ)) (h : ∀ x ∈ L, x.2 = c) : lastMat c L = c := by
  induction L with
  | nil => rfl
  | cons x t ih =>
    have hx : x.2 = c := h x List.mem_cons_self
    show lastMat x.2 t = c
    rw [hx]
    exact ih fun y hy => h y (List.mem_cons_of_mem _ hy)

theorem mats_last (b : ℕ) (L : List (ℝ × ℕ)) : ∃ q, b :: L.map Prod.snd = q ++ [lastMat b L] := by
  induction L generalizing b with
  | nil => exact ⟨[], rfl⟩
  | cons x t ih =>
    obtain ⟨q, hq⟩ := ih x.2
    exact ⟨b :: q, by rw [List.map_cons, hq]; rfl⟩

theorem stratRedundant_nil (a b : ℕ) : stratRedundant [a, b] = false := by simp [stratRedundant]

theorem stratRedundant_snoc (a b : ℕ) (L : List (ℝ × ℕ)) (r : ℝ) (x : ℕ) :
    stratRedundant (a :: b :: (L ++ [(r, x)]).map Prod.snd) = decide (lastMat b L = x) := by
  obtain ⟨q, hq⟩ := mats_last b L
  have e : a :: b :: (L ++ [(r, x)]).map Prod.snd = (a :: q) ++ [lastMat b L, x] := by
    rw [List.map_append, ← List.cons_append, hq]; simp
  rw [e]
  unfold stratRedundant
  have h1 : ((a :: q) ++ [lastMat b L, x])[((a :: q) ++ [lastMat b L, x]).length - 1]? = some x := by
    rw [List.getElem?_append_right (by simp)]
    simp
  have h2 : ((a :: q) ++ [lastMat b L, x])[((a :: q) ++ [lastMat b L, x]).length - 2]? = some (lastMat b L) := by
    rw [List.getElem?_append_right (by simp)]
    simp
  rw [h1, h2]
  have h3 : decide (3 ≤ ((a :: q) ++ [lastMat b L, x]).length) = true := by simp
  rw [h3, Bool.and_true]
  by_cases h : lastMat b L = x
  · simp [h]
  · simp [h, Ne.symm h]

/-- what a call does once the innermost coefficients exist: outer shells made of the outermost material are removed, the
remaining ones are processed -/
theorem strip (T : BesTable) (H : MatHeap) (l : ℕ) (k : ℝ) (a : ℕ) (r : ℝ) (b : ℕ) {q : Mie}
    (hq : mie T T (H a) (H b) l k r = .ok q) (L : List (ℝ × ℕ)) :
    ∃ L' tl, L = L' ++ tl ∧ (∀ x ∈ tl, x.2 = lastMat b L') ∧ stratRedundant (a :: b :: L'.map Prod.snd) = false ∧
      ∀ fuel, L.length + 1 ≤ fuel → mieStratified T H l k fuel (layered a ((r, b) :: L)) =
        some (shellRun T H l k b L' q, layered a ((r, b) :: L')) := by
  induction L using List.reverseRecOn with
  | nil =>
    refine ⟨[], [], rfl, by simp, stratRedundant_nil a b, ?_⟩
    intro fuel hf
    obtain ⟨f, rfl⟩ := Nat.exists_eq_add_of_le' hf
    rw [show f + ([].length + 1) = f + 1 by rfl, mieStratified_layered, hq]
    simp only [List.map_nil, stratRedundant_nil]
    rfl
  | append_singleton L0 x ih =>
    obtain ⟨r1, x⟩ := x
    by_cases hx : lastMat b L0 = x
    · obtain ⟨L', tl, e, ht, hr, hf⟩ := ih
      refine ⟨L', tl ++ [(r1, x)], by rw [e, List.append_assoc], ?_, hr, ?_⟩
      · intro y hy
        rcases List.mem_append.1 hy with hy | hy
        · exact ht y hy
        · rw [List.mem_singleton.1 hy]
          rw [e, lastMat_append, lastMat_const _ _ ht] at hx
          exact hx.symm
      · intro fuel hfu
        simp only [List.length_append, List.length_cons, List.length_nil, Nat.zero_add] at hfu
        obtain ⟨f, rfl⟩ := Nat.exists_eq_add_of_le' hfu
        rw [show f + (L0.length + 1 + 1) = (f + (L0.length + 1)) + 1 by ring, mieStratified_layered, hq]
        simp only [stratRedundant_snoc, hx, decide_true, if_true]
        rw [show (r, b) :: (L0 ++ [(r1, x)]) = ((r, b) :: L0) ++ [(r1, x)] by rfl, List.dropLast_concat]
        exact hf _ (by omega)
    · refine ⟨L0 ++ [(r1, x)], [], by simp, by simp, by rw [stratRedundant_snoc]; simpa using hx, ?_⟩
      intro fuel hfu
      obtain ⟨f, rfl⟩ := Nat.exists_eq_add_of_le' hfu
      rw [show f + ((L0 ++ [(r1, x)]).length + 1) = (f + (L0 ++ [(r1, x)]).length) + 1 by ring, mieStratified_layered, hq]
      simp only [stratRedundant_snoc, hx, decide_false]
      rfl

/-- the call returns `out` -/
def StratReturns (T : BesTable) (H : MatHeap) (l : ℕ) (k : ℝ) (s : StratState) (out : Res Mie × StratState) : Prop :=
  ∃ fuel, mieStratified T H l k fuel s = some out

theorem mieStratified_mono {T : BesTable} {H : MatHeap} {l : ℕ} {k : ℝ} {fuel : ℕ} {s : StratState}
    {out : Res Mie × StratState} (h : mieStratified T H l k fuel s = some out) :
    ∀ fuel', fuel ≤ fuel' → mieStratified T H l k fuel' s = some out := by
  induction fuel generalizing s with
  | zero => simp [mieStratified] at h
  | succ n ih =>
    intro fuel' hf
    obtain ⟨m, rfl⟩ : ∃ m, fuel' = m + 1 := ⟨fuel' - 1, by omega⟩
    unfold mieStratified at h ⊢
    cases hi : stratInner T H s l k with
    | error e => rw [hi] at h; simpa using h
    | ok q =>
      rw [hi] at h
      simp only at h ⊢
      split_ifs at h ⊢ with hr
      · exact ih h m (by omega)
      · exact h

theorem StratReturns.unique {T : BesTable} {H : MatHeap} {l : ℕ} {k : ℝ} {s : StratState}
    {o o' : Res Mie × StratState} (h : StratReturns T H l k s o) (h' : StratReturns T H l k s o') : o = o' := by
  obtain ⟨f, hf⟩ := h
  obtain ⟨f', hf'⟩ := h'
  have h1 := mieStratified_mono hf (max f f') (le_max_left _ _)
  have h2 := mieStratified_mono hf' (max f f') (le_max_right _ _)
  rw [h1] at h2
  exact Option.some.inj h2

theorem stratReturns_error {T : BesTable} {H : MatHeap} {l : ℕ} {k : ℝ} {a : ℕ} {r : ℝ} {b : ℕ} {e : PyErr}
    (he : mie T T (H a) (H b) l k r = .error e) (L : List (ℝ × ℕ)) :
    StratReturns T H l k (layered a ((r, b) :: L)) (.error e, layered a ((r, b) :: L)) := by
  refine ⟨1, ?_⟩
  rw [mieStratified_layered, he]

/-! ## exact Bessel functions -/

theorem coated_exact {l : ℕ} (hl : 1 ≤ l) {k r : ℝ} (hk : 0 < k) (hr : 0 < r) {a b : Medium} (hap : a.Pos)
    (hbp : b.Pos) {q : Mie} {tE tM : ℝ} (hE : q.TE * Real.exp q.ln = (-1) ^ l * (Real.pi / 2) * tE)
    (hM : q.TM * Real.exp q.ln = (-1) ^ l * (Real.pi / 2) * tM) (gE : Grow l ((a.te k).q * r) tE)
    (gM : Grow l ((a.tm k).q * r) tM) :
    ∃ v, coatedCore l (k * r) a b (exactBes l (k * r * a.n)) (exactBes l (k * r * b.n)) q = .ok v ∧
      v.TE * Real.exp v.ln = (-1) ^ l * (Real.pi / 2) * ampNext l (a.te k) (b.te k) r tE ∧
      v.TM * Real.exp v.ln = (-1) ^ l * (Real.pi / 2) * ampNext l (a.tm k) (b.tm k) r tM := by
  have hxa : 0 < k * r * a.n := mul_pos (mul_pos hk hr) (a.n_pos hap)
  have hxb : 0 < k * r * b.n := mul_pos (mul_pos hk hr) (b.n_pos hbp)
  have ea : k * a.n * r = k * r * a.n := by ring
  have eb : k * b.n * r = k * r * b.n := by ring
  have dE := ampNext_den hl (a.te_pos hap hk) (b.te_pos hbp hk) hr gE
  have dM := ampNext_den hl (a.tm_pos hap hk) (b.tm_pos hbp hk) hr gM
  have hi := sphI_pos l hxa
  have hpi := Real.pi_pos
  have s2 : ((-1 : ℝ) ^ l) * (-1) ^ l = 1 := by rw [← mul_pow]; norm_num
  have hp2 : 1 / (Real.pi / 2) * (Real.pi / 2) = 1 := by field_simp
  unfold coatedCore
  simp only
  rw [idT_exact hl hxa, idT_exact hl hxb, kdT_exact hxa, kdT_exact hxb]
  simp only [Real.exp_add, exactBes_exp' hxa]
  unfold ampNext
  simp only [Medium.te, Medium.tm, ea, eb] at dE dM ⊢
  have hln := exactBes_exp (l := l) hxb
  generalize (exactBes l (k * r * b.n)).i1 - (exactBes l (k * r * b.n)).k1 = ln at *
  generalize idX l (k * r * a.n) = Ia at *
  generalize idX l (k * r * b.n) = Ib at *
  generalize kdX l (k * r * a.n) = Ka at *
  generalize kdX l (k * r * b.n) = Kb at *
  generalize sphI l (k * r * a.n) = i at *
  generalize sphK l (k * r * a.n) = κ at *
  rw [← hln]
  have key : ∀ wa wb c t : ℝ, c * Real.exp q.ln = (-1) ^ l * (Real.pi / 2) * t →
      0 < wb * (Ia * i - t * (Ka * κ)) - wa * (i - t * κ) * Kb →
      cdiv ((-1) ^ l * (Real.pi / 2) * ((Ka * wb - Ib * wa) * (1 / (Real.pi / 2)) * (-1) ^ l *
        (κ / i * Real.exp q.ln) * c - (Ia * wb - Ib * wa)))
        ((Ka * wb - Kb * wa) * (1 / (Real.pi / 2)) * (-1) ^ l * (κ / i * Real.exp q.ln) * c - (Ia * wb - Kb * wa)) =
      .ok ((-1) ^ l * (Real.pi / 2) * ((wb * (Ia * i - t * (Ka * κ)) - wa * (i - t * κ) * Ib) /
        (wb * (Ia * i - t * (Ka * κ)) - wa * (i - t * κ) * Kb))) := by
    intro wa wb c t hc hd
    have e1 : (1 / (Real.pi / 2)) * (-1) ^ l * (κ / i * Real.exp q.ln) * c = t * κ / i := by
      have : (1 / (Real.pi / 2)) * (-1) ^ l * (κ / i * Real.exp q.ln) * c =
        (1 / (Real.pi / 2)) * (-1) ^ l * (κ / i) * (c * Real.exp q.ln) := by ring
      rw [this, hc]
      linear_combination t * (κ / i) * (1 / (Real.pi / 2) * (Real.pi / 2)) * s2 + t * (κ / i) * hp2
    have e2 : ∀ X : ℝ, X * (1 / (Real.pi / 2)) * (-1) ^ l * (κ / i * Real.exp q.ln) * c = X * (t * κ / i) := by
      intro X; rw [← e1]; ring
    have hz : ∀ Y : ℝ, (Ka * wb - Y * wa) * (t * κ / i) - (Ia * wb - Y * wa) =
        -(wb * (Ia * i - t * (Ka * κ)) - wa * (i - t * κ) * Y) / i := by
      intro Y; field_simp; ring
    rw [e2, e2, hz, hz, cdiv_ok (div_ne_zero (neg_ne_zero.2 hd.ne') hi.ne'), mul_div_assoc,
      div_div_div_cancel_right₀ hi.ne', neg_div_neg_eq]
  rw [key a.mu b.mu q.TE tE hE dE, ok_bind, key a.eps b.eps q.TM tM hM dM, ok_bind]
  refine ⟨_, rfl, ?_, ?_⟩
  · simp only; ring
  · simp only; ring

/-- the amplitude after a list of interfaces -/
noncomputable def ampRun (l : ℕ) : Layer → ℝ → List (ℝ × Layer) → ℝ
  | _, t, [] => t
  | a, t, (r, b) :: L => ampRun l b (ampNext l a b r t) L

theorem connects_amp {l : ℕ} (hl : 1 ≤ l) (L : List (ℝ × Layer)) : ∀ {a : Layer} {r0 t : ℝ}, a.Pos → 0 < r0 →
    Grow l (a.q * r0) t → (∀ x ∈ L, x.2.Pos) → List.Pairwise (· ≤ ·) (r0 :: L.map Prod.fst) →
    (∀ A A' B', Connects l a A (-t * A) L A' B' → B' = -(ampRun l a t L) * A') ∧
    (∀ A', ∃ A, Connects l a A (-t * A) L A' (-(ampRun l a t L) * A')) := by
  induction L with
  | nil =>
    intro a r0 t _ _ _ _ _
    refine ⟨?_, fun A' => ⟨A', rfl, rfl⟩⟩
    rintro A A' B' ⟨rfl, rfl⟩
    rfl
  | cons x L ih =>
    obtain ⟨r, b⟩ := x
    intro a r0 t ha hr0 hg hp hs
    have hr : r0 ≤ r := (List.pairwise_cons.1 hs).1 r (by simp)
    have hrp : 0 < r := hr0.trans_le hr
    have hb : b.Pos := hp (r, b) List.mem_cons_self
    have hg' : Grow l (a.q * r) t := hg.mono hl (mul_pos ha.q hr0) (mul_le_mul_of_nonneg_left hr ha.q.le)
    obtain ⟨i1, i2⟩ := ih hb hrp (ampNext_grow hl ha hb hrp hg') (fun y hy => hp y (List.mem_cons_of_mem _ hy))
      (List.pairwise_cons.1 hs).2
    constructor
    · rintro A A' B' ⟨A1, B1, hm, hc⟩
      have := matched_amp hl ha hb hrp hg' hm
      subst this
      exact i1 A1 A' B' hc
    · intro A'
      obtain ⟨A1, hA1⟩ := i2 A'
      obtain ⟨A, hA⟩ := matched_exists hl ha hb hrp hg' A1
      exact ⟨A, A1, _, hA, hA1⟩

/-- largest radius, `r0` if there is no interface -/
def lastRad : ℝ → List (ℝ × Layer) → ℝ
  | r0, [] => r0
  | _, (r, _) :: t => lastRad r t

def lastLayer : Layer → List (ℝ × Layer) → Layer
  | a, [] => a
  | _, (_, b) :: t => lastLayer b t

theorem ampRun_grow {l : ℕ} (hl : 1 ≤ l) (L : List (ℝ × Layer)) : ∀ {a : Layer} {r0 t : ℝ}, a.Pos → 0 < r0 →
    Grow l (a.q * r0) t → (∀ x ∈ L, x.2.Pos) → List.Pairwise (· ≤ ·) (r0 :: L.map Prod.fst) →
    Grow l ((lastLayer a L).q * lastRad r0 L) (ampRun l a t L) := by
  induction L with
  | nil => intro a r0 t _ _ h _ _; exact h
  | cons x L ih =>
    obtain ⟨r, b⟩ := x
    intro a r0 t ha hr0 hg hp hs
    have hr : r0 ≤ r := (List.pairwise_cons.1 hs).1 r (by simp)
    have hrp : 0 < r := hr0.trans_le hr
    have hb : b.Pos := hp (r, b) List.mem_cons_self
    have hg' : Grow l (a.q * r) t := hg.mono hl (mul_pos ha.q hr0) (mul_le_mul_of_nonneg_left hr ha.q.le)
    exact ih hb hrp (ampNext_grow hl ha hb hrp hg') (fun y hy => hp y (List.mem_cons_of_mem _ hy))
      (List.pairwise_cons.1 hs).2

theorem ampNext_self {l : ℕ} (hl : 1 ≤ l) {a : Layer} (ha : a.Pos) {r : ℝ} (hr : 0 < r) (t : ℝ) :
    ampNext l a a r t = t := by
  have hx := mul_pos ha.q hr
  have hi := (sphI_pos l hx).ne'
  have hk := (sphK_pos l hx).ne'
  have h1 := idX_pos hl hx
  have h2 := kdX_neg hl hx
  have hd : idX l (a.q * r) - kdX l (a.q * r) ≠ 0 := by linarith
  have hw := ha.w.ne'
  unfold ampNext
  generalize idX l (a.q * r) = I at *
  generalize kdX l (a.q * r) = K at *
  generalize sphI l (a.q * r) = i at *
  generalize sphK l (a.q * r) = k at *
  have e1 : a.w * (I * i - t * (K * k)) - a.w * (i - t * k) * I = a.w * t * k * (I - K) := by ring
  have e2 : a.w * (I * i - t * (K * k)) - a.w * (i - t * k) * K = a.w * i * (I - K) := by ring
  rw [e1, e2]
  field_simp

theorem ampRun_append (l : ℕ) (L M : List (ℝ × Layer)) : ∀ (a : Layer) (t : ℝ),
    ampRun l a t (L ++ M) = ampRun l (lastLayer a L) (ampRun l a t L) M := by
  induction L with
  | nil => intro a t; rfl
  | cons x L ih => intro a t; exact ih _ _

theorem ampRun_const {l : ℕ} (hl : 1 ≤ l) {c : Layer} (hc : c.Pos) (L : List (ℝ × Layer)) (h : ∀ x ∈ L, x.2 = c)
    (hr : ∀ x ∈ L, 0 < x.1) (t : ℝ) : ampRun l c t L = t := by
  induction L with
  | nil => rfl
  | cons x L ih =>
    obtain ⟨r, b⟩ := x
    have : b = c := h (r, b) List.mem_cons_self
    subst this
    show ampRun l b (ampNext l b b r t) L = t
    rw [ampNext_self hl hc (hr (r, b) List.mem_cons_self)]
    exact ih (fun y hy => h y (List.mem_cons_of_mem _ hy)) (fun y hy => hr y (List.mem_cons_of_mem _ hy))

end CasSph
