import Verif.Props.StratDist

/-! # C137: stratified spheres with more contrast interact more strongly -/

namespace CasSph

open Spec Filter Topology

variable {P : BallPair} {B B' B1 B2 : Ball} {R1 R2 R1' R2' R R' : ℝ} {frac : ℝ → ℝ → ℝ} {k σ σa σb : ℝ} {H : MatHeap} {md : ℕ}

/-- Other spheres. -/
def BallPair.balls (P : BallPair) (B1 B2 : Ball) : BallPair := { P with ball1 := B1, ball2 := B2 }

/-- The spheres `B1` and `B2` have at every wavenumber and at every distance from their centres at least the contrast with the medium of the spheres of `P`,
with the same sign. -/
structure BallPair.Weaker (P : BallPair) (B1 B2 : Ball) : Prop where
  first : ∀ k, 0 < k → ∃ σ, P.ball1.Weaker P.H P.mat3 k σ B1
  second : ∀ k, 0 < k → ∃ σ, P.ball2.Weaker P.H P.mat3 k σ B2

/-! ## Comparison -/

theorem lnBall_stronger (h : BallPairOK P R1 R2) (h' : BallPairOK (P.balls B1 B2) R1' R2') (hk : 0 < k) (w1 : P.ball1.Weaker P.H P.mat3 k σa B1)
    (w2 : P.ball2.Weaker P.H P.mat3 k σb B2) {m : ℕ} (hm : m ≤ P.lmax) :
    (σa * σb = 1 → lnBall (P.balls B1 B2) m k ≤ lnBall P m k) ∧ (σa * σb = -1 → lnBall P m k ≤ lnBall (P.balls B1 B2) m k) := by
  have hm' : max 1 m ≤ P.lmax := by have := h.hl; omega
  obtain ⟨⟨θ, T, g1⟩, -, e1⟩ := h.kernelR hk w1.1 w2.1 le_rfl m
  obtain ⟨⟨θ', T', g2⟩, -, e2⟩ := h'.kernelR hk w1.2.1 w2.2.1 le_rfl m
  have e1 := e1 P.lmax P.lssmax hm' h.hls
  have e2 := e2 P.lmax P.lssmax hm' h.hls
  change lnBall P m k = _ at e1
  change lnBall (P.balls B1 B2) m k = _ at e2
  simp only [BallPair.balls] at g2 e2
  have cA : ∀ Q i, ballR P.H P.mat3 k σa P.ball1 Q i ≤ ballR P.H P.mat3 k σa B1 Q i := fun Q i => ballR_mono h.ok1 h'.ok1 h.m3 hk w1 Q i
  have cB : ∀ Q i, ballR P.H P.mat3 k σb P.ball2 Q i ≤ ballR P.H P.mat3 k σb B2 Q i := fun Q i => ballR_mono h.ok2 h'.ok2 h.m3 hk w2 Q i
  have nA := fun Q i => ballR_nonneg h.ok1 h.m3 hk w1.1 Q i
  have nB := fun Q i => ballR_nonneg h.ok2 h.m3 hk w2.1 Q i
  generalize ballR P.H P.mat3 k σa P.ball1 = A at *
  generalize ballR P.H P.mat3 k σb P.ball2 = B at *
  generalize ballR P.H P.mat3 k σa B1 = A' at *
  generalize ballR P.H P.mat3 k σb B2 = B' at *
  have hL0 : 0 < P.L := by linarith [h.sep, h.ok1.pos, h.ok2.pos]
  have hε := (zero_lt_one.trans_le (h.m3.one_le hk))
  have hx : 0 < k * P.L * Real.sqrt ((P.H P.mat3).epsV k) := by positivity
  generalize k * P.L * Real.sqrt ((P.H P.mat3).epsV k) = x at *
  refine ⟨fun hσ => ?_, fun hσ => ?_⟩
  · rw [hσ] at e1 e2
    have key := g2.compare g1 zero_le_one le_rfl (n := 2 * (P.lmax + 1 - transLmin m)) (p := 2 * (P.lssmax + 1 - transLmin m))
      (fun i _ s _ => kern_nonneg hx _ _ _ _ _) (fun i _ s _ => kern_nonneg hx _ _ _ _ _)
      (fun i _ s _ => by rw [one_mul]; exact kern_mono hx _ cA cB _ _)
    rw [one_pow, one_mul] at key
    rw [e1]
    refine le_trans (le_of_eq e2) ?_
    linarith
  · rw [hσ] at e1 e2
    rw [e1]
    refine le_trans ?_ (le_of_eq e2.symm)
    refine Real.log_le_log (g1.pos (.inr rfl) _ _).1 ?_
    have e : kern m x (m - 1) A B = fun i s =>
        (Real.sqrt (A i.bodd (m - 1 + i.div2)) / Real.sqrt (A' i.bodd (m - 1 + i.div2))) * kern m x (m - 1) A' B' i s *
        (Real.sqrt (B s.bodd (m - 1 + s.div2)) / Real.sqrt (B' s.bodd (m - 1 + s.div2))) := by
      funext i s
      unfold kern
      have q1 := (sqrt_ratio (nA i.bodd (m - 1 + i.div2)) (cA i.bodd (m - 1 + i.div2))).1
      have q2 := (sqrt_ratio (nB s.bodd (m - 1 + s.div2)) (cB s.bodd (m - 1 + s.div2))).1
      have hmul : ∀ {x y a b c d f : ℝ}, x = a * b → y = c * d → x * f * y = a * (b * f * d) * c := by
        rintro x y a b c d f rfl rfl; ring
      exact hmul q1 q2
    rw [e]
    exact gram_neg_scale _ (fun i => (sqrt_ratio (nA _ _) (cA _ _)).2) (fun s => (sqrt_ratio (nB _ _) (cB _ _)).2) _ _

theorem Ball.OnSide.sameSide (h1 : P.ball1.OnSide P.H P.mat3 k σa) (h2 : P.ball2.OnSide P.H P.mat3 k σb) :
    (σa * σb = 1 → P.SameSide k) ∧ (σa * σb = -1 → P.OppositeSide k) ∧ (σa * σb = 1 ∨ σa * σb = -1) := by
  rcases h1 with ⟨rfl, h1⟩ | ⟨rfl, h1⟩ <;> rcases h2 with ⟨rfl, h2⟩ | ⟨rfl, h2⟩
  · exact ⟨fun _ => .inl ⟨h1, h2⟩, fun h => by norm_num at h, by norm_num⟩
  · exact ⟨fun h => by norm_num at h, fun _ => .inl ⟨h1, h2⟩, by norm_num⟩
  · exact ⟨fun h => by norm_num at h, fun _ => .inr ⟨h1, h2⟩, by norm_num⟩
  · exact ⟨fun _ => .inr ⟨h1, h2⟩, fun h => by norm_num at h, by norm_num⟩

/-- `y` has the sign of `x` and is at least as large. -/
def Spec.AtLeast (x y : ℝ) : Prop := y ≤ x ∧ x ≤ 0 ∨ 0 ≤ x ∧ x ≤ y

theorem ballSum_stronger (h : BallPairOK P R1 R2) (h' : BallPairOK (P.balls B1 B2) R1' R2') (hk : 0 < k) (w1 : P.ball1.Weaker P.H P.mat3 k σa B1)
    (w2 : P.ball2.Weaker P.H P.mat3 k σb B2) :
    (σa * σb = 1 → ballSum (P.balls B1 B2) k ≤ ballSum P k) ∧ (σa * σb = -1 → ballSum P k ≤ ballSum (P.balls B1 B2) k) := by
  have key := fun m (hm : m ≤ P.lmax) => lnBall_stronger h h' hk w1 w2 hm
  have e : ballSum (P.balls B1 B2) k = lnBall (P.balls B1 B2) 0 k + 2 * ∑ m ∈ Finset.Icc 1 P.lmax, lnBall (P.balls B1 B2) m k := rfl
  rw [e]
  unfold ballSum
  refine ⟨fun hσ => ?_, fun hσ => ?_⟩
  · have h0 := (key 0 (by omega)).1 hσ
    have := Finset.sum_le_sum fun m (hm : m ∈ Finset.Icc 1 P.lmax) => (key m (Finset.mem_Icc.mp hm).2).1 hσ
    linarith
  · have h0 := (key 0 (by omega)).2 hσ
    have := Finset.sum_le_sum fun m (hm : m ∈ Finset.Icc 1 P.lmax) => (key m (Finset.mem_Icc.mp hm).2).2 hσ
    linarith

theorem ballSum_weaker (h : BallPairOK P R1 R2) (h' : BallPairOK (P.balls B1 B2) R1' R2') (hw : P.Weaker B1 B2) (hk : 0 < k) :
    (P.SameSide k ∨ P.OppositeSide k) ∧ ((P.balls B1 B2).SameSide k ∨ (P.balls B1 B2).OppositeSide k) ∧
    Spec.AtLeast (ballSum P k) (ballSum (P.balls B1 B2) k) := by
  obtain ⟨σa, w1⟩ := hw.first k hk
  obtain ⟨σb, w2⟩ := hw.second k hk
  obtain ⟨s1, s2, s3⟩ := w1.1.sameSide w2.1
  obtain ⟨t1, t2, -⟩ := Ball.OnSide.sameSide (P := P.balls B1 B2) w1.2.1 w2.2.1
  obtain ⟨q1, q2⟩ := ballSum_stronger h h' hk w1 w2
  refine ⟨s3.imp s1 s2, s3.imp t1 t2, ?_⟩
  rcases s3 with e | e
  · exact .inl ⟨q1 e, (ballSum_sign h hk).1 (s1 e)⟩
  · exact .inr ⟨(ballSum_sign h hk).2 (s2 e), q2 e⟩

/-! ## The claims -/

/-- **C137, coefficients.** The Mie coefficients of the sphere with more contrast are larger, with the same signs. -/
theorem C137_coefficients (h : BallOK H md B R) (h' : BallOK H md B' R') (hmd : MediumMat (H md)) (hk : 0 < k) (hw : B.Weaker H md k σ B') (n : ℕ) :
    ∃ t t', ballTable exactBes H md n k B = .ok t ∧ ballTable exactBes H md n k B' = .ok t' ∧ ∀ l, 1 ≤ l → l ≤ n →
      Spec.AtLeast (t.TE l * Real.exp (t.ln l)) (t'.TE l * Real.exp (t'.ln l)) ∧ Spec.AtLeast (t.TM l * Real.exp (t.ln l)) (t'.TM l * Real.exp (t'.ln l)) := by
  obtain ⟨c, ht, hc⟩ := h.reflects hmd hk
  obtain ⟨c', ht', hc'⟩ := h'.reflects hmd hk
  have hr := hc σ hw.1
  have hr' := hc' σ hw.2.1
  obtain ⟨t, e, a⟩ := ht n
  obtain ⟨t', e', a'⟩ := ht' n
  refine ⟨t, t', e, e', fun l hl hn => ?_⟩
  obtain ⟨i, rfl⟩ := Nat.exists_eq_add_of_le' hl
  obtain ⟨a1, a2, a3⟩ := a (i + 1) hl hn
  obtain ⟨b1, b2, b3⟩ := a' (i + 1) hl hn
  rw [a1, a2, a3, b1, b2, b3, (hr i).2.1, (hr i).2.2, (hr' i).2.1, (hr' i).2.2]
  have m1 := ballR_mono h h' hmd hk hw false i
  have m2 := ballR_mono h h' hmd hk hw true i
  have n1 := ballR_nonneg h hmd hk hw.1 false i
  have n2 := ballR_nonneg h hmd hk hw.1 true i
  have key : ∀ {s x y : ℝ}, s = 1 ∨ s = -1 → 0 ≤ x → x ≤ y → Spec.AtLeast (s * x) (s * y) := by
    rintro s x y (rfl | rfl) hx hy
    · exact .inr ⟨by linarith, by linarith⟩
    · exact .inl ⟨by linarith, by linarith⟩
  have hs : σ * (-1) ^ (i + 1) = 1 ∨ σ * (-1) ^ (i + 1) = -1 := by
    rcases hw.1.sign with rfl | rfl <;> rcases neg_one_pow_eq_or ℝ (i + 1) with e | e <;> rw [e] <;> norm_num
  refine ⟨key hs n1 m1, ?_⟩
  rw [← neg_mul, ← neg_mul (σ * (-1) ^ (i + 1)) (ballR H md k σ B' true i)]
  refine key ?_ n2 m2
  rcases hs with e | e <;> rw [e] <;> norm_num

/-- **C137, `mSumme`.** -/
theorem C137_mSumme (h : BallPairOK P R1 R2) (h' : BallPairOK (P.balls B1 B2) R1' R2') (hprec : P.precision ≤ 0) (hw : P.Weaker B1 B2) {ks : List ℝ}
    (hne : ks ≠ []) (hk : ∀ k ∈ ks, 0 < k) :
    ∃ vs ws, ballVals exactBes P ks = .ok vs ∧ ballVals exactBes (P.balls B1 B2) ks = .ok ws ∧ vs.length = ks.length ∧ ws.length = ks.length ∧
      ∀ (j : ℕ) (x y : ℝ), vs[j]? = some x → ws[j]? = some y → Spec.AtLeast x y := by
  refine ⟨_, _, ballVals_sum h hprec hne hk fun k hkm => (ballSum_weaker h h' hw (hk k hkm)).1,
    ballVals_sum h' hprec hne hk fun k hkm => (ballSum_weaker h h' hw (hk k hkm)).2.1, by simp, by simp, fun j x y hx hy => ?_⟩
  rw [List.getElem?_map, Option.map_eq_some_iff] at hx hy
  obtain ⟨k, hj, rfl⟩ := hx
  obtain ⟨k', hj', rfl⟩ := hy
  rw [hj] at hj'
  injection hj' with e
  subst e
  exact (ballSum_weaker h h' hw (hk k (List.mem_of_getElem? hj))).2.2

/-- **C137, `free_energy`.** If both spheres have the same sign of the contrast at all wavenumbers, the attraction becomes stronger at every temperature; if
they have opposite signs, the repulsion does. -/
theorem C137_free_energy {p : FTParams} (h : BallPairOK P R1 R2) (h' : BallPairOK (P.balls B1 B2) R1' R2') (hprec : P.precision ≤ 0) (hw : P.Weaker B1 B2)
    (hp : p.nprocs.isZero) (ha : p.analyticN0 = false) (hT : 0 < p.deltaT) (hN : 1 ≤ p.nmax) :
    ∃ F F' : List ℝ, (freeEnergy { p with geo := ballGeo exactBes frac P } FT.fresh).1 = .ok F ∧
      (freeEnergy { p with geo := ballGeo exactBes frac (P.balls B1 B2) } FT.fresh).1 = .ok F' ∧ F.length = p.maxstep.toNat ∧ F'.length = p.maxstep.toNat ∧
      ∀ (i : ℕ) (x y : ℝ), F[i]? = some x → F'[i]? = some y →
        ((∀ k, 0 < k → (P.balls B1 B2).SameSide k) → y ≤ x ∧ x ≤ 0) ∧ ((∀ k, 0 < k → (P.balls B1 B2).OppositeSide k) → 0 ≤ x ∧ x ≤ y) := by
  have hw' := fun k (hk : 0 < k) => ballSum_weaker h h' hw hk
  obtain ⟨F, hF, hl, hv⟩ := ball_free_sum (p := { p with geo := ballGeo exactBes frac P }) h hprec (fun k hk => (hw' k hk).1) rfl hp ha hT hN
  obtain ⟨F', hF', hl', hv'⟩ := ball_free_sum (p := { p with geo := ballGeo exactBes frac (P.balls B1 B2) }) h' hprec (fun k hk => (hw' k hk).2.1) rfl hp ha hT hN
  refine ⟨F, F', hF, hF', hl, hl', fun i x y hx hy => ?_⟩
  rw [hv i x hx, hv' i y hy]
  have hpos : (0 : ℝ) < (i + 1 : ℕ) * p.deltaT := by positivity
  have hk0 : (0 : ℝ) < 1e-10 := by norm_num
  have hkj : ∀ j : ℕ, (0 : ℝ) < p.deltaT * ((j + 1) * (i + 1) : ℕ) := fun j => by positivity
  refine ⟨fun hs => ?_, fun hs => ?_⟩
  · have hle : ∀ k, 0 < k → ballSum (P.balls B1 B2) k ≤ ballSum P k ∧ ballSum P k ≤ 0 := fun k hk => by
      have h1 := (ballSum_sign h' hk).1 (hs k hk)
      rcases (hw' k hk).2.2 with e | ⟨e1, e2⟩
      · exact e
      · exact ⟨h1.trans e1, e2.trans h1⟩
    have s1 := Finset.sum_le_sum fun j (_ : j ∈ Finset.range (p.nmax.toNat / (i + 1))) => (hle _ (hkj j)).1
    have s2 := Finset.sum_nonpos fun j (_ : j ∈ Finset.range (p.nmax.toNat / (i + 1))) => (hle _ (hkj j)).2
    refine ⟨mul_le_mul_of_nonneg_left ?_ hpos.le, mul_nonpos_of_nonneg_of_nonpos hpos.le ?_⟩
    · linarith [(hle _ hk0).1]
    · linarith [(hle _ hk0).2]
  · have hle : ∀ k, 0 < k → 0 ≤ ballSum P k ∧ ballSum P k ≤ ballSum (P.balls B1 B2) k := fun k hk => by
      have h1 := (ballSum_sign h' hk).2 (hs k hk)
      rcases (hw' k hk).2.2 with ⟨e1, e2⟩ | e
      · exact ⟨h1.trans e1, e2.trans h1⟩
      · exact e
    have s1 := Finset.sum_le_sum fun j (_ : j ∈ Finset.range (p.nmax.toNat / (i + 1))) => (hle _ (hkj j)).2
    have s2 := Finset.sum_nonneg fun j (_ : j ∈ Finset.range (p.nmax.toNat / (i + 1))) => (hle _ (hkj j)).1
    refine ⟨mul_nonneg hpos.le ?_, mul_le_mul_of_nonneg_left ?_ hpos.le⟩
    · linarith [(hle _ hk0).1]
    · linarith [(hle _ hk0).2]

/-! ## Homogeneous spheres as bounds -/

/-- Materials inside the sphere. -/
def Ball.inside : Ball → List ℕ
  | .solid m _ => [m]
  | .strat s => s.mats.dropLast

theorem layerAt_inside {α : Type} {r R : ℝ} {c : α} (hr : r ≤ R) : ∀ (L : List (ℝ × α)) (a : α), L.getLast? = some (R, c) →
    layerAt a L r ∈ a :: (L.dropLast.map Prod.snd)
  | [], _, h => by simp at h
  | [(r1, b)], a, h => by
    simp only [List.getLast?_singleton, Option.some.injEq, Prod.mk.injEq] at h
    simp only [layerAt, if_pos (h.1 ▸ hr)]
    simp
  | (r1, b) :: x :: L, a, h => by
    rw [List.getLast?_cons_cons] at h
    rw [List.dropLast_cons_cons, List.map_cons]
    unfold layerAt
    split_ifs
    · simp
    · exact List.mem_cons_of_mem _ (layerAt_inside hr (x :: L) b h)

theorem layerAt_outside {α : Type} {r R : ℝ} {c : α} : ∀ (L : List (ℝ × α)) (a : α), (∀ x ∈ L, x.1 < r) → L.getLast? = some (R, c) → layerAt a L r = c
  | [], _, _, h => by simp at h
  | [(r1, b)], a, hr, h => by
    simp only [List.getLast?_singleton, Option.some.injEq, Prod.mk.injEq] at h
    have := hr (r1, b) (by simp)
    simp only [layerAt, if_neg (not_le.mpr this)]
    exact h.2
  | (r1, b) :: x :: L, a, hr, h => by
    rw [List.getLast?_cons_cons] at h
    have := hr (r1, b) (by simp)
    rw [layerAt, if_neg (not_le.mpr this)]
    exact layerAt_outside (x :: L) b (fun y hy => hr y (List.mem_cons_of_mem _ hy)) h

theorem zip_dropLast {α β : Type} : ∀ (l : List α) (m : List β), l.length = m.length → (l.zip m).dropLast.map Prod.snd = m.dropLast
  | [], [], _ => rfl
  | [_], [_], _ => rfl
  | _ :: a :: l, _ :: b :: m, h => by
    simp only [List.zip_cons_cons, List.dropLast_cons_cons, List.map_cons]
    have := zip_dropLast (a :: l) (b :: m) (by simpa using h)
    rw [List.zip_cons_cons] at this
    rw [this]

theorem pairwise_le_last : ∀ {l : List ℝ} {R x : ℝ}, List.Pairwise (· ≤ ·) l → l.getLast? = some R → x ∈ l → x ≤ R
  | [], _, _, _, h, _ => by simp at h
  | [a], R, x, _, h, hx => by
    simp only [List.getLast?_singleton, Option.some.injEq] at h
    simp only [List.mem_singleton] at hx
    rw [hx, h]
  | a :: b :: l, R, x, hp, h, hx => by
    rw [List.getLast?_cons_cons] at h
    rw [List.pairwise_cons] at hp
    rcases List.mem_cons.mp hx with rfl | hx
    · exact (hp.1 b (by simp)).trans (pairwise_le_last hp.2 h (by simp))
    · exact pairwise_le_last hp.2 h hx

/-- Inside the outer radius there are the layers of the sphere, outside the medium. -/
theorem BallOK.matAt_where (h : BallOK H md B R) (hmd : MediumMat (H md)) (r : ℝ) :
    (r ≤ R → B.matAt md r ∈ B.inside) ∧ (R < r → H (B.matAt md r) = H md) := by
  obtain ⟨r0, b, L, c, e1, e2, e3, e4, -⟩ := h.layers hmd
  refine ⟨fun hr => ?_, fun hr => ?_⟩
  · have := layerAt_inside hr ((r0, b) :: L) B.core e3
    unfold Ball.matAt
    rw [e1]
    suffices hsub : B.core :: (((r0, b) :: L).dropLast.map Prod.snd) ⊆ B.inside from hsub this
    rw [← e1]
    cases B with
    | solid m r => simp [Ball.core, Ball.inside, Ball.shells]
    | strat s =>
      have h' : Coating H md s R := h
      obtain ⟨mats, rs⟩ := s
      have hl := h'.len
      cases mats with
      | nil => simp at hl
      | cons m mats =>
        have hne : mats ≠ [] := by
          rintro rfl
          have : rs = [] := List.length_eq_zero_iff.mp (by simpa using hl.symm)
          have ho := h'.outer
          rw [this] at ho
          simp at ho
        simp only [Ball.core, Ball.shells, Ball.inside, List.headD_cons, List.tail_cons]
        rw [zip_dropLast _ _ (by simpa using hl.symm), List.dropLast_cons_of_ne_nil hne]
        exact List.Subset.refl _
  · unfold Ball.matAt
    rw [e1, layerAt_outside _ _ ?_ e3]
    · exact e4
    · intro x hx
      refine lt_of_le_of_lt ?_ hr
      have hp : List.Pairwise (· ≤ ·) (((r0, b) :: L).map Prod.fst) := by simpa using e2.ord
      have hlast : (((r0, b) :: L).map Prod.fst).getLast? = some R := by rw [List.getLast?_map, e3]; rfl
      exact pairwise_le_last hp hlast (List.mem_map_of_mem hx)

/-- The second material is a perfect conductor, or both are penetrable and the second has at least the permittivity of the first. -/
def Spec.MatBelow (k : ℝ) (m m' : Material) : Prop := m'.cls = .pec ∨ m.cls ≠ .pec ∧ m'.cls ≠ .pec ∧ m.epsV k ≤ m'.epsV k

theorem solid_matAt (x : ℕ) (R r : ℝ) : (Ball.solid x R).matAt md r = if r ≤ R then x else md := rfl

theorem matBelow_md (hmd : MediumMat (H md)) : Spec.MatBelow k (H md) (H md) := .inr ⟨hmd.cls, hmd.cls, le_rfl⟩

theorem below_solid (h : BallOK H md B R) (hmd : MediumMat (H md)) {x : ℕ} (hx : ∀ z ∈ B.inside, Spec.MatBelow k (H z) (H x)) :
    B.Below H md k (.solid x R) := by
  intro r _
  rw [solid_matAt]
  split_ifs with hr
  · exact hx _ ((h.matAt_where hmd r).1 hr)
  · rw [(h.matAt_where hmd r).2 (not_le.mp hr)]
    exact matBelow_md hmd

theorem solid_below (h : BallOK H md B R) (hmd : MediumMat (H md)) {x : ℕ} (hx : ∀ z ∈ B.inside, Spec.MatBelow k (H x) (H z)) :
    (Ball.solid x R).Below H md k B := by
  intro r _
  rw [solid_matAt]
  split_ifs with hr
  · exact hx _ ((h.matAt_where hmd r).1 hr)
  · rw [(h.matAt_where hmd r).2 (not_le.mp hr)]
    exact matBelow_md hmd

/-- **C137, homogeneous bounds.** A stratified sphere of the radius `R` whose layers are all at least as dense as the medium: let `x` be a material between the
medium and the layers, and `y` a material that is denser than the layers.  The layered sphere has more contrast than a homogeneous one of `x` and less than one
of `y`. -/
theorem C137_between (h : BallOK H md B R) (hmd : MediumMat (H md)) {x y : ℕ} (hD : B.Dense H md k) (hxm : Spec.MatBelow k (H md) (H x))
    (hx : ∀ z ∈ B.inside, Spec.MatBelow k (H x) (H z)) (hym : Spec.MatBelow k (H md) (H y)) (hy : ∀ z ∈ B.inside, Spec.MatBelow k (H z) (H y)) :
    (Ball.solid x R).Weaker H md k 1 B ∧ B.Weaker H md k 1 (.solid y R) := by
  have hd : ∀ {z : ℕ}, Spec.MatBelow k (H md) (H z) → (Ball.solid z R).Dense H md k := fun {z} hz w hw => by
    have : w = z := by simpa [Ball.mats] using hw
    subst this
    rcases hz with e | e
    · exact .inl e
    · exact .inr e.2.2
  exact ⟨⟨.inl ⟨rfl, hd hxm⟩, .inl ⟨rfl, hD⟩, fun _ => solid_below h hmd hx, fun e => by norm_num at e⟩,
    ⟨.inl ⟨rfl, hD⟩, .inl ⟨rfl, hd hym⟩, fun _ => below_solid h hmd hy, fun e => by norm_num at e⟩⟩

/-- **C137, homogeneous bounds of the free energy.** -/
theorem C137_homogeneous {p : FTParams} (h : BallPairOK P R1 R2) (hprec : P.precision ≤ 0) {x1 y1 x2 y2 : ℕ}
    (ox1 : BallOK P.H P.mat3 (.solid x1 R1) R1) (oy1 : BallOK P.H P.mat3 (.solid y1 R1) R1) (ox2 : BallOK P.H P.mat3 (.solid x2 R2) R2)
    (oy2 : BallOK P.H P.mat3 (.solid y2 R2) R2)
    (hD1 : ∀ k, 0 < k → P.ball1.Dense P.H P.mat3 k) (hD2 : ∀ k, 0 < k → P.ball2.Dense P.H P.mat3 k)
    (hx1 : ∀ k, 0 < k → Spec.MatBelow k (P.H P.mat3) (P.H x1) ∧ ∀ z ∈ P.ball1.inside, Spec.MatBelow k (P.H x1) (P.H z))
    (hy1 : ∀ k, 0 < k → Spec.MatBelow k (P.H P.mat3) (P.H y1) ∧ ∀ z ∈ P.ball1.inside, Spec.MatBelow k (P.H z) (P.H y1))
    (hx2 : ∀ k, 0 < k → Spec.MatBelow k (P.H P.mat3) (P.H x2) ∧ ∀ z ∈ P.ball2.inside, Spec.MatBelow k (P.H x2) (P.H z))
    (hy2 : ∀ k, 0 < k → Spec.MatBelow k (P.H P.mat3) (P.H y2) ∧ ∀ z ∈ P.ball2.inside, Spec.MatBelow k (P.H z) (P.H y2))
    (hp : p.nprocs.isZero) (ha : p.analyticN0 = false) (hT : 0 < p.deltaT) (hN : 1 ≤ p.nmax) :
    ∃ F G G' : List ℝ, (freeEnergy { p with geo := ballGeo exactBes frac P } FT.fresh).1 = .ok F ∧
      (freeEnergy { p with geo := ballGeo exactBes frac (P.balls (.solid x1 R1) (.solid x2 R2)) } FT.fresh).1 = .ok G ∧
      (freeEnergy { p with geo := ballGeo exactBes frac (P.balls (.solid y1 R1) (.solid y2 R2)) } FT.fresh).1 = .ok G' ∧
      F.length = p.maxstep.toNat ∧ G.length = p.maxstep.toNat ∧ G'.length = p.maxstep.toNat ∧
      ∀ (i : ℕ) (f g g' : ℝ), F[i]? = some f → G[i]? = some g → G'[i]? = some g' → g' ≤ f ∧ f ≤ g ∧ g ≤ 0 := by
  have b1 := fun k hk => C137_between h.ok1 h.m3 (hD1 k hk) (hx1 k hk).1 (hx1 k hk).2 (hy1 k hk).1 (hy1 k hk).2
  have b2 := fun k hk => C137_between h.ok2 h.m3 (hD2 k hk) (hx2 k hk).1 (hx2 k hk).2 (hy2 k hk).1 (hy2 k hk).2
  have oX : BallPairOK (P.balls (.solid x1 R1) (.solid x2 R2)) R1 R2 := ⟨ox1, ox2, h.m3, h.sep, h.hl, h.hls⟩
  have oY : BallPairOK (P.balls (.solid y1 R1) (.solid y2 R2)) R1 R2 := ⟨oy1, oy2, h.m3, h.sep, h.hl, h.hls⟩
  have wX : (P.balls (.solid x1 R1) (.solid x2 R2)).Weaker P.ball1 P.ball2 := ⟨fun k hk => ⟨1, (b1 k hk).1⟩, fun k hk => ⟨1, (b2 k hk).1⟩⟩
  have wY : P.Weaker (.solid y1 R1) (.solid y2 R2) := ⟨fun k hk => ⟨1, (b1 k hk).2⟩, fun k hk => ⟨1, (b2 k hk).2⟩⟩
  have dY : ∀ k, 0 < k → (P.balls (.solid y1 R1) (.solid y2 R2)).SameSide k := fun k hk => by
    rcases (b1 k hk).2.2.1 with ⟨-, d1⟩ | ⟨e, -⟩
    · rcases (b2 k hk).2.2.1 with ⟨-, d2⟩ | ⟨e, -⟩
      · exact .inl ⟨d1, d2⟩
      · norm_num at e
    · norm_num at e
  obtain ⟨G, F, hG, hF, l1, l2, c1⟩ := C137_free_energy (frac := frac) (B1 := P.ball1) (B2 := P.ball2) (p := p) oX h hprec wX hp ha hT hN
  obtain ⟨F', G', hF', hG', l3, l4, c2⟩ := C137_free_energy (frac := frac) (p := p) h oY hprec wY hp ha hT hN
  have hF : (freeEnergy { p with geo := ballGeo exactBes frac P } FT.fresh).1 = .ok F := hF
  rw [hF] at hF'
  injection hF' with e
  subst e
  refine ⟨F, G, G', hF, hG, hG', l2, l1, l4, fun i f g g' hf hg hg' => ?_⟩
  have q1 := (c1 i g f hg hf).1 fun k hk => .inl ⟨hD1 k hk, hD2 k hk⟩
  have q2 := (c2 i f g' hf hg').1 dY
  exact ⟨q2.1, q1.1, q1.2⟩

/-! ## Another shell -/

/-- The sphere with a further shell of the material `c` up to the radius `R`. -/
def Ball.coat (md c : ℕ) (R : ℝ) : Ball → Ball
  | .solid m r => .strat ⟨[m, c, md], [r, R]⟩
  | .strat s => .strat ⟨s.mats.dropLast ++ [c, md], s.rs ++ [R]⟩

theorem layerAt_coat {α : Type} {R R' : ℝ} {c d e : α} (r : ℝ) : ∀ (L : List (ℝ × α)) (a : α),
    layerAt a (L ++ [(R, c), (R', e)]) r = layerAt a (L ++ [(R, d)]) r ∨
    layerAt a (L ++ [(R, d)]) r = d ∧ (layerAt a (L ++ [(R, c), (R', e)]) r = c ∨ layerAt a (L ++ [(R, c), (R', e)]) r = e)
  | [], a => by
    simp only [List.nil_append, layerAt]
    split_ifs <;> simp
  | (r1, b) :: L, a => by
    simp only [List.cons_append, layerAt]
    split_ifs
    · exact .inl rfl
    · exact layerAt_coat r L b

/-- The lists of a coating end with the medium and the outer radius. -/
theorem Coating.split {s : StratState} (h : Coating H md s R) : ∃ m ms rs d, s = ⟨m :: (ms ++ [d]), rs ++ [R]⟩ ∧ H d = H md ∧ ms.length = rs.length := by
  obtain ⟨mats, rs⟩ := s
  obtain ⟨d, hd, e⟩ := h.last
  have ho := h.outer
  have hl := h.len
  simp only at hd ho hl
  obtain ⟨rs', rfl⟩ : ∃ rs', rs = rs' ++ [R] := ⟨_, (List.dropLast_append_getLast? R ho).symm⟩
  obtain ⟨ms', rfl⟩ : ∃ ms', mats = ms' ++ [d] := ⟨_, (List.dropLast_append_getLast? d hd).symm⟩
  cases ms' with
  | nil => simp at hl
  | cons m ms => exact ⟨m, ms, rs', d, rfl, e, by simpa using hl⟩

theorem coat_matAt (h : BallOK H md B R) (c : ℕ) (R' r : ℝ) :
    H ((B.coat md c R').matAt md r) = H (B.matAt md r) ∨
    H (B.matAt md r) = H md ∧ (H ((B.coat md c R').matAt md r) = H c ∨ H ((B.coat md c R').matAt md r) = H md) := by
  cases B with
  | solid m r1 =>
    rcases layerAt_coat (R := r1) (R' := R') (c := c) (d := md) (e := md) r [] m with e | ⟨e1, e2 | e2⟩
    · exact .inl (congrArg H e)
    · exact .inr ⟨congrArg H e1, .inl (congrArg H e2)⟩
    · exact .inr ⟨congrArg H e1, .inr (congrArg H e2)⟩
  | strat s =>
    obtain ⟨m, ms, rs, d, rfl, hd, hl⟩ := Coating.split h
    have e1 : (Ball.coat md c R' (.strat ⟨m :: (ms ++ [d]), rs ++ [R]⟩)).matAt md r = layerAt m (rs.zip ms ++ [(R, c), (R', md)]) r := by
      have : (m :: (ms ++ [d])).dropLast = m :: ms := by rw [← List.cons_append, List.dropLast_concat]
      simp only [Ball.coat, this, Ball.matAt, Ball.core, Ball.shells, List.cons_append, List.headD_cons, List.tail_cons, List.append_assoc]
      rw [List.zip_append hl.symm]
      rfl
    have e2 : (Ball.strat ⟨m :: (ms ++ [d]), rs ++ [R]⟩).matAt md r = layerAt m (rs.zip ms ++ [(R, d)]) r := by
      simp only [Ball.matAt, Ball.core, Ball.shells, List.headD_cons, List.tail_cons]
      rw [List.zip_append hl.symm]
      rfl
    rw [e1, e2]
    rcases layerAt_coat (R := R) (R' := R') (c := c) (d := d) (e := md) r (rs.zip ms) m with e | ⟨e1, e2 | e2⟩
    · exact .inl (congrArg H e)
    · exact .inr ⟨(congrArg H e1).trans hd, .inl (congrArg H e2)⟩
    · exact .inr ⟨(congrArg H e1).trans hd, .inr (congrArg H e2)⟩

theorem coat_ok (h : BallOK H md B R) (hmd : MediumMat (H md)) {c : ℕ} (hc : MediumMat (H c)) (hR : R ≤ R') : BallOK H md (B.coat md c R') R' := by
  cases B with
  | solid m r =>
    obtain ⟨rfl, h1, h2, h3⟩ := h
    refine ⟨rfl, ?_, ?_, ?_, ?_, ⟨md, rfl, rfl⟩, rfl⟩
    · simpa using ⟨h1, h1.trans_le hR⟩
    · simpa using hR
    · simpa using ⟨⟨h2, h3⟩, ⟨hc.phys, hc.mag⟩, ⟨hmd.phys, hmd.mag⟩⟩
    · simpa using ⟨hc.cls, hmd.cls⟩
  | strat s =>
    have h' : Coating H md s R := h
    obtain ⟨m, ms, rs, d, rfl, hd, hl⟩ := h'.split
    have e : (m :: (ms ++ [d])).dropLast = m :: ms := by rw [← List.cons_append, List.dropLast_concat]
    have p1 := h'.phys
    have p2 := h'.pen
    have p3 := h'.ord
    have p4 := h'.pos
    simp only [List.tail_cons] at p1 p2 p3 p4
    refine ⟨?_, ?_, ?_, ?_, ?_, ⟨md, ?_, rfl⟩, ?_⟩
    · simp [e, hl]
    · intro r hr
      rcases List.mem_append.mp hr with hr | hr
      · exact p4 r hr
      · rw [List.mem_singleton.mp hr]
        exact (p4 R (by simp)).trans_le hR
    · refine List.pairwise_append.mpr ⟨p3, by simp, fun a ha b hb => ?_⟩
      rw [List.mem_singleton.mp hb]
      exact (pairwise_le_last p3 (by simp) ha).trans hR
    · intro x hx
      simp only [e, List.cons_append, List.mem_cons, List.mem_append, List.not_mem_nil, or_false] at hx
      rcases hx with rfl | hx | rfl | rfl
      · exact p1 _ (by simp)
      · exact p1 x (by simp [hx])
      · exact ⟨hc.phys, hc.mag⟩
      · exact ⟨hmd.phys, hmd.mag⟩
    · intro x hx
      simp only [e, List.cons_append, List.tail_cons, List.mem_append, List.mem_cons, List.not_mem_nil, or_false] at hx
      rcases hx with hx | rfl | rfl
      · exact p2 x (by simp [hx])
      · exact hc.cls
      · exact hmd.cls
    · rw [e, show m :: ms ++ [c, md] = (m :: ms ++ [c]) ++ [md] by simp]
      exact List.getLast?_concat
    · simp

theorem coat_mats {c : ℕ} {p : Material → Prop} (h : BallOK H md B R) (h1 : p (H md)) (h2 : p (H c)) (h3 : ∀ x ∈ B.mats, p (H x)) :
    ∀ x ∈ (B.coat md c R').mats, p (H x) := by
  cases B with
  | solid m r =>
    intro x hx
    simp only [Ball.coat, Ball.mats, List.mem_cons, List.not_mem_nil, or_false] at hx
    rcases hx with rfl | rfl | rfl
    · exact h3 _ (by simp [Ball.mats])
    · exact h2
    · exact h1
  | strat s =>
    intro x hx
    simp only [Ball.coat, Ball.mats, List.mem_append, List.mem_cons, List.not_mem_nil, or_false] at hx
    rcases hx with hx | rfl | rfl
    · exact h3 _ (List.dropLast_subset _ hx)
    · exact h2
    · exact h1

/-- **C137, another shell.** A further shell whose contrast has the sign of the contrast of the sphere makes its contrast larger. -/
theorem C137_coating (h : BallOK H md B R) (hmd : MediumMat (H md)) {c : ℕ} (hc : MediumMat (H c)) (hR : R ≤ R') (hs : B.OnSide H md k σ)
    (h1 : σ = 1 → (H md).epsV k ≤ (H c).epsV k) (h2 : σ = -1 → (H c).epsV k ≤ (H md).epsV k) :
    BallOK H md (B.coat md c R') R' ∧ B.Weaker H md k σ (B.coat md c R') := by
  refine ⟨coat_ok h hmd hc hR, hs, ?_, fun e r hr => ?_, fun e r hr => ?_⟩
  · rcases hs with ⟨rfl, hs⟩ | ⟨rfl, hs⟩
    · exact .inl ⟨rfl, coat_mats (p := fun m => m.cls = .pec ∨ (H md).epsV k ≤ m.epsV k) h (.inr le_rfl) (.inr (h1 rfl)) hs⟩
    · exact .inr ⟨rfl, coat_mats (p := fun m => m.cls ≠ .pec ∧ m.epsV k ≤ (H md).epsV k) h ⟨hmd.cls, le_rfl⟩ ⟨hc.cls, h2 rfl⟩ hs⟩
  · change Spec.MatBelow k _ _
    rcases coat_matAt h c R' r with e' | ⟨e1, e2 | e2⟩
    · rw [e']
      by_cases hp : (H (B.matAt md r)).cls = .pec
      · exact .inl hp
      · exact .inr ⟨hp, hp, le_rfl⟩
    · rw [e1, e2]
      exact .inr ⟨hmd.cls, hc.cls, h1 e⟩
    · rw [e1, e2]
      exact matBelow_md hmd
  · change Spec.MatBelow k _ _
    rcases coat_matAt h c R' r with e' | ⟨e1, e2 | e2⟩
    · rw [e']
      by_cases hp : (H (B.matAt md r)).cls = .pec
      · exact .inl hp
      · exact .inr ⟨hp, hp, le_rfl⟩
    · rw [e1, e2]
      exact .inr ⟨hc.cls, hmd.cls, h2 e⟩
    · rw [e1, e2]
      exact matBelow_md hmd

/-! ## Examples -/

/-- A bare gold ball and the perfectly conducting ball of `wetFull`. -/
noncomputable def dryFull : BallPair := wetFull.balls (.solid 1 1) (.solid 3 4)

theorem dryFull_ok : BallPairOK dryFull 1 4 :=
  ⟨⟨rfl, by norm_num, gold_physical, rfl⟩, wetFull_ok.ok2, wetFull_ok.m3, by norm_num [dryFull, wetFull, wetPair, BallPair.balls], wetFull_ok.hl, wetFull_ok.hls⟩

theorem vac_epsV (k : ℝ) : (⟨.lorentz, [], none⟩ : Material).epsV k = 1 := by
  simp [Material.epsV, Material.epsilon]
  rfl

theorem dryFull_weaker : dryFull.Weaker (.strat wetGold) (.solid 3 4) := by
  refine ⟨fun k hk => ⟨1, ?_⟩, fun k hk => ⟨1, ?_⟩⟩
  · refine (C137_coating (B := .solid 1 1) (R := 1) (R' := 3/2) (c := 2) (H := fourMats) (md := 0) dryFull_ok.ok1 wetFull_ok.m3
      ⟨water_diel.1, water_diel.2, rfl⟩ (by norm_num) (.inl ⟨rfl, fun x hx => ?_⟩) (fun _ => ?_) (fun e => by norm_num at e)).2
    · have : x = 1 := by simpa [Ball.mats] using hx
      subst this
      exact .inr (one_le_epsV gold_physical hk)
    · exact one_le_epsV water_diel.2 hk
  · have hd : (Ball.solid 3 4).Dense dryFull.H dryFull.mat3 k := fun x hx => by
      have : x = 3 := by simpa [Ball.mats] using hx
      subst this
      exact .inl rfl
    refine ⟨.inl ⟨rfl, hd⟩, .inl ⟨rfl, hd⟩, fun _ r _ => ?_, fun e => by norm_num at e⟩
    by_cases hp : (dryFull.H ((Ball.solid 3 4).matAt dryFull.mat3 r)).cls = .pec
    · exact .inl hp
    · exact .inr ⟨hp, hp, le_rfl⟩

/-- The shell of water makes the attraction stronger at all temperatures. -/
example : ∃ F F' : List ℝ, (freeEnergy ⟨0.01, 500, 200, false, .int 0, ballGeo exactBes frac dryFull⟩ FT.fresh).1 = .ok F ∧
    (freeEnergy ⟨0.01, 500, 200, false, .int 0, ballGeo exactBes frac wetFull⟩ FT.fresh).1 = .ok F' ∧ F.length = 200 ∧ F'.length = 200 ∧
    ∀ (i : ℕ) (x y : ℝ), F[i]? = some x → F'[i]? = some y → y ≤ x ∧ x ≤ 0 := by
  obtain ⟨F, F', h1, h2, h3, h4, h5⟩ := C137_free_energy (frac := frac) (p := ⟨0.01, 500, 200, false, .int 0, ballGeo exactBes frac dryFull⟩) (P := dryFull)
    (B1 := .strat wetGold) (B2 := .solid 3 4) dryFull_ok wetFull_ok le_rfl dryFull_weaker rfl rfl (by norm_num) (by norm_num)
  exact ⟨F, F', h1, h2, h3, h4, fun i x y hx hy => (h5 i x y hx hy).1 fun k hk => wetFull_same hk⟩

/-- A perfect conductor with a shell of gold, and a gold ball. -/
noncomputable def shellPair : BallPair := ⟨fourMats, .strat ⟨[3, 1, 0], [1, 2]⟩, .solid 1 3, 0, 6, 20, 25, 0⟩

theorem shellPair_ok : BallPairOK shellPair 2 3 where
  ok1 := by
    refine ⟨rfl, by norm_num, by norm_num, fun x hx => ?_, fun x hx => ?_, ⟨0, rfl, rfl⟩, rfl⟩
    · simp only [List.mem_cons, List.not_mem_nil, or_false] at hx
      rcases hx with rfl | rfl | rfl
      · exact ⟨pec_sphere.phys, rfl⟩
      · exact ⟨gold_physical, rfl⟩
      · exact ⟨vac_diel.2, rfl⟩
    · simp only [List.tail_cons, List.mem_cons, List.not_mem_nil, or_false] at hx
      rcases hx with rfl | rfl <;> simp [shellPair, fourMats]
  ok2 := ⟨rfl, by norm_num, gold_physical, rfl⟩
  m3 := wetFull_ok.m3
  sep := by norm_num [shellPair]
  hl := by norm_num [shellPair]
  hls := by norm_num [shellPair]

/-- The free energy lies between that of two gold balls and that of two perfect conductors. -/
example : ∃ F G G' : List ℝ, (freeEnergy ⟨0.01, 500, 200, false, .int 0, ballGeo exactBes frac shellPair⟩ FT.fresh).1 = .ok F ∧
    (freeEnergy ⟨0.01, 500, 200, false, .int 0, ballGeo exactBes frac (shellPair.balls (.solid 1 2) (.solid 1 3))⟩ FT.fresh).1 = .ok G ∧
    (freeEnergy ⟨0.01, 500, 200, false, .int 0, ballGeo exactBes frac (shellPair.balls (.solid 3 2) (.solid 3 3))⟩ FT.fresh).1 = .ok G' ∧
    F.length = 200 ∧ G.length = 200 ∧ G'.length = 200 ∧
    ∀ (i : ℕ) (f g g' : ℝ), F[i]? = some f → G[i]? = some g → G'[i]? = some g' → g' ≤ f ∧ f ≤ g ∧ g ≤ 0 := by
  have gold : ∀ k : ℝ, 0 < k → Spec.MatBelow k (shellPair.H shellPair.mat3) (shellPair.H 1) := fun k hk =>
    .inr ⟨by simp [shellPair, fourMats], by simp [shellPair, fourMats], one_le_epsV gold_physical hk⟩
  have gg : ∀ k : ℝ, Spec.MatBelow k (shellPair.H 1) (shellPair.H 1) := fun k =>
    .inr ⟨by simp [shellPair, fourMats], by simp [shellPair, fourMats], le_rfl⟩
  have pec : ∀ (k : ℝ) (z : ℕ), Spec.MatBelow k (shellPair.H z) (shellPair.H 3) := fun k z => .inl rfl
  refine C137_homogeneous (frac := frac) (P := shellPair) (x1 := 1) (y1 := 3) (x2 := 1) (y2 := 3) (p := ⟨0.01, 500, 200, false, .int 0, ballGeo exactBes frac shellPair⟩)
    shellPair_ok le_rfl ⟨rfl, by norm_num, gold_physical, rfl⟩ ⟨rfl, by norm_num, pec_sphere.phys, rfl⟩ ⟨rfl, by norm_num, gold_physical, rfl⟩
    ⟨rfl, by norm_num, pec_sphere.phys, rfl⟩ (fun k hk x hx => ?_) (fun k hk x hx => ?_) (fun k hk => ⟨gold k hk, fun z hz => ?_⟩)
    (fun k hk => ⟨pec k _, fun z hz => pec k z⟩) (fun k hk => ⟨gold k hk, fun z hz => ?_⟩) (fun k hk => ⟨pec k _, fun z hz => pec k z⟩) rfl rfl
    (by norm_num) (by norm_num)
  · simp only [shellPair, Ball.mats, List.mem_cons, List.not_mem_nil, or_false] at hx
    rcases hx with rfl | rfl | rfl
    · exact .inl rfl
    · exact .inr (one_le_epsV gold_physical hk)
    · exact .inr le_rfl
  · simp only [shellPair, Ball.mats, List.mem_cons, List.not_mem_nil, or_false] at hx
    subst hx
    exact .inr (one_le_epsV gold_physical hk)
  · simp only [shellPair, Ball.inside, List.dropLast, List.mem_cons, List.not_mem_nil, or_false] at hz
    rcases hz with rfl | rfl
    · exact pec k _
    · exact gg k
  · simp only [shellPair, Ball.inside, List.mem_cons, List.not_mem_nil, or_false] at hz
    subst hz
    exact gg k

end CasSph
