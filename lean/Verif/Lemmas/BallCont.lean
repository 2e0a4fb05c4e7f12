import Verif.Lemmas.BallDist
import Verif.Lemmas.CavityCont

/-! # Stratified spheres: the values of `mSumme` as functions of the wavenumber -/

namespace CasSph

open Spec Filter Topology Matrix MeasureTheory Set

/-! ## Amplitudes -/

section
variable {l : ℕ} {k r : ℝ}

/-- A layer that depends continuously on the wavenumber. -/
structure LayCont (a : ℝ → Layer) (k : ℝ) : Prop where
  pos : (a k).Pos
  q : ContinuousAt (fun k => (a k).q) k
  w : ContinuousAt (fun k => (a k).w) k

theorem LayCont.bes {a : ℝ → Layer} (ha : LayCont a k) (hl : 1 ≤ l) (hr : 0 < r) :
    ContinuousAt (fun k => sphI l ((a k).q * r)) k ∧ ContinuousAt (fun k => sphK l ((a k).q * r)) k ∧
    ContinuousAt (fun k => idX l ((a k).q * r)) k ∧ ContinuousAt (fun k => kdX l ((a k).q * r)) k := by
  have hx := mul_pos ha.pos.q hr
  have c : ContinuousAt (fun k => (a k).q * r) k := ha.q.mul continuousAt_const
  exact ⟨ContinuousAt.comp (g := sphI l) (f := fun k => (a k).q * r) (sphI_contAt l hx) c,
    ContinuousAt.comp (g := sphK l) (f := fun k => (a k).q * r) (sphK_contAt l hx) c,
    ContinuousAt.comp (g := idX l) (f := fun k => (a k).q * r) (idX_cont hl hx) c,
    ContinuousAt.comp (g := kdX l) (f := fun k => (a k).q * r) (kdX_cont l hx) c⟩

theorem ampNext_contAt {a b : ℝ → Layer} {t : ℝ → ℝ} (hl : 1 ≤ l) (ha : LayCont a k) (hb : LayCont b k) (ht : ContinuousAt t k) (hr : 0 < r)
    (hg : Grow l ((a k).q * r) (t k)) : ContinuousAt (fun k => ampNext l (a k) (b k) r (t k)) k := by
  obtain ⟨i1, k1, x1, y1⟩ := ha.bes hl hr
  obtain ⟨i2, k2, x2, y2⟩ := hb.bes hl hr
  have hD := (ampNext_den hl ha.pos hb.pos hr hg).ne'
  have hK := (sphK_pos l (mul_pos hb.pos.q hr)).ne'
  unfold ampNext
  have n1 := (hb.w.mul ((x1.mul i1).sub (ht.mul (y1.mul k1))))
  have n2 := (ha.w.mul (i1.sub (ht.mul k1)))
  exact ((n1.sub (n2.mul x2)).div (n1.sub (n2.mul y2)) hD).mul (i2.div k2 hK)

theorem ampPec_contAt {b : ℝ → Layer} (hl : 1 ≤ l) (hb : LayCont b k) (hr : 0 < r) (P : Bool) : ContinuousAt (fun k => ampPec P l (b k) r) k := by
  obtain ⟨i2, k2, x2, y2⟩ := hb.bes hl hr
  have hK := (sphK_pos l (mul_pos hb.pos.q hr)).ne'
  cases P
  · exact i2.div k2 hK
  · exact (x2.div y2 (kdX_neg hl (mul_pos hb.pos.q hr)).ne).mul (i2.div k2 hK)

theorem ampRun_contAt (hl : 1 ≤ l) {f : ℕ → ℝ → Layer} : ∀ (L : List (ℝ × ℕ)) {a : ℝ → Layer} {t : ℝ → ℝ} {ρ : ℝ}, 0 < ρ → LayCont a k →
    ContinuousAt t k → Grow l ((a k).q * ρ) (t k) → (∀ x ∈ L, LayCont (f x.2) k) → List.Pairwise (· ≤ ·) (ρ :: L.map Prod.fst) →
    ContinuousAt (fun k => ampRun l (a k) (t k) (L.map fun x => (x.1, f x.2 k))) k
  | [], _, _, _, _, _, ht, _, _, _ => ht
  | (r, b) :: L, a, t, ρ, hρ, ha, ht, hg, hL, ho => by
    have hr : ρ ≤ r := (List.pairwise_cons.1 ho).1 r (by simp)
    have hr0 := hρ.trans_le hr
    have hb : LayCont (f b) k := hL (r, b) List.mem_cons_self
    have hg' : Grow l ((a k).q * r) (t k) := hg.mono hl (mul_pos ha.pos.q hρ) (mul_le_mul_of_nonneg_left hr ha.pos.q.le)
    exact ampRun_contAt hl L (a := f b) (t := fun k => ampNext l (a k) (f b k) r (t k)) hr0 hb (ampNext_contAt hl ha hb ht hr0 hg')
      (ampNext_grow hl ha.pos hb.pos hr0 hg') (fun x hx => hL x (List.mem_cons_of_mem _ hx)) (List.pairwise_cons.1 ho).2

theorem lay_cont {H : MatHeap} {x : ℕ} (hc : (H x).cls ≠ .pec) (hp : (H x).Physical) (hk : 0 < k) (P : Bool) :
    LayCont (fun k => lay P k (medAt H k x)) k := by
  have e1 := epsV_contAt hc hp hk
  have m1 := muV_contAt hp hk
  have hpos : (medAt H k x).Pos := ⟨(medium_val hc hp hk).2, muV_pos hp hk.le⟩
  have hn : ContinuousAt (fun k => k * (medAt H k x).n) k := by
    unfold medAt Medium.n
    exact continuousAt_id.mul (e1.mul m1).sqrt
  refine ⟨lay_pos hpos hk P, ?_, ?_⟩
  · cases P
    · exact hn
    · exact hn
  · cases P
    · exact m1
    · exact e1

variable {H : MatHeap} {md : ℕ} {B : Ball} {R : ℝ}

/-- The amplitudes of a stratified sphere are continuous. -/
theorem BallOK.amp_contAt (h : BallOK H md B R) (hmd : MediumMat (H md)) (hk : 0 < k) (hl : 1 ≤ l) (P : Bool) :
    ContinuousAt (fun k => ballAmp H md k P l B) k := by
  obtain ⟨r, b, L, c, hsh, hS, -⟩ := h.layers hmd
  have hb : LayCont (fun k => lay P k (medAt H k b)) k := lay_cont (hS.shell b (by simp)).1 (hS.shell b (by simp)).2 hk P
  have hL : ∀ x ∈ L, LayCont (fun k => lay P k (medAt H k x.2)) k := fun x hx =>
    lay_cont (hS.shell x.2 (List.mem_cons_of_mem _ (List.mem_map_of_mem hx))).1 (hS.shell x.2 (List.mem_cons_of_mem _ (List.mem_map_of_mem hx))).2 hk P
  unfold ballAmp
  rw [hsh]
  by_cases hc : (H B.core).cls = .pec
  · simp only [shellAmp_pec hc]
    exact ampRun_contAt hl (f := fun x k => lay P k (medAt H k x)) L hS.hr hb (ampPec_contAt hl hb hS.hr P) (ampPec_grow hl hb.pos hS.hr P) hL hS.ord
  · simp only [shellAmp_pen hc]
    have ha := lay_cont (H := H) hc hS.core hk P
    refine ampRun_contAt hl (f := fun x k => lay P k (medAt H k x)) ((r, b) :: L) (ρ := r) (a := fun k => lay P k (medAt H k B.core)) (t := fun _ => 0) hS.hr ha continuousAt_const
      (grow_zero hl (mul_pos ha.pos.q hS.hr)) (fun x hx => ?_) (List.pairwise_cons.2 ⟨fun y hy => ?_, hS.ord⟩)
    · rcases List.mem_cons.1 hx with rfl | hx
      · exact hb
      · exact hL x hx
    · rcases List.mem_cons.1 hy with rfl | hy
      · exact le_rfl
      · exact (List.pairwise_cons.1 hS.ord).1 _ hy

end

/-! ## Round trips -/

/-- Round-trip operator of one `m` as a function of the wavenumber. -/
noncomputable def rtBall (P : BallPair) (m : ℕ) (k : ℝ) : Matrix (Fin (P.lmax + 1 - transLmin m) ⊕ Fin (P.lmax + 1 - transLmin m))
    (Fin (P.lmax + 1 - transLmin m) ⊕ Fin (P.lmax + 1 - transLmin m)) ℝ :=
  let V := fun (i : Fin (P.lmax + 1 - transLmin m)) (s : Fin (P.lssmax + 1 - transLmin m)) =>
    vVal true m (nLV (P.H P.mat3) P.L k) (besV (P.H P.mat3) P.L (P.lmax + P.lssmax + 1 + 1) k) (transLmin m + i.1) (transLmin m + s.1)
  let A := fun (Q : Bool) (l : ℕ) => (-1) ^ l * (Real.pi / 2) * ballAmp P.H P.mat3 k Q l P.ball1
  let B := fun (Q : Bool) (l : ℕ) => (-1) ^ l * (Real.pi / 2) * ballAmp P.H P.mat3 k Q l P.ball2
  roundTrip (fun i => A false (transLmin m + i.1)) (fun i => A true (transLmin m + i.1))
    (fun s => B false (transLmin m + s.1)) (fun s => B true (transLmin m + s.1))
    (of fun i s => (V i s).EEab * Real.exp (V i s).sk) (of fun i s => (V i s).EMab * Real.exp (V i s).sk)
    (of fun i s => (V i s).EEba * Real.exp (V i s).sk) (of fun i s => (V i s).EMba * Real.exp (V i s).sk)

section
variable {P : BallPair} {R1 R2 k : ℝ}

theorem BallPairOK.rt_contAt (h : BallPairOK P R1 R2) (m : ℕ) (hk : 0 < k) : ContinuousAt (fun k => (1 - rtBall P m k).det) k := by
  have hl : ∀ i : ℕ, 1 ≤ transLmin (m : ℤ) + i := fun i => by unfold transLmin; omega
  have hL : 0 < P.L := by linarith [h.sep, h.ok1.pos, h.ok2.pos]
  have ca := fun (Q : Bool) (i : ℕ) => h.ok1.amp_contAt h.m3 hk (hl i) Q
  have cb := fun (Q : Bool) (i : ℕ) => h.ok2.amp_contAt h.m3 hk (hl i) Q
  have cv := fun i s : ℕ => vVal_contAt h.m3.cls h.m3.phys hL hk (P.lmax + P.lssmax + 1 + 1) m (transLmin (m : ℤ) + i) (transLmin (m : ℤ) + s)
  have ce : ∀ {f : ℝ → ℝ}, ContinuousAt f k → ContinuousAt (fun k => Real.exp (f k)) k := fun h => Real.continuous_exp.continuousAt.comp h
  refine roundTrip_contAt (fun i => ?_) (fun i => ?_) (fun i => ?_) (fun i => ?_) (fun i s => ?_) (fun i s => ?_) (fun i s => ?_) (fun i s => ?_)
  · exact continuousAt_const.mul (ca false i.1)
  · exact continuousAt_const.mul (ca true i.1)
  · exact continuousAt_const.mul (cb false i.1)
  · exact continuousAt_const.mul (cb true i.1)
  · exact (cv i.1 s.1).1.mul (ce (cv i.1 s.1).2.2.2.2)
  · exact (cv i.1 s.1).2.2.1.mul (ce (cv i.1 s.1).2.2.2.2)
  · exact (cv i.1 s.1).2.1.mul (ce (cv i.1 s.1).2.2.2.2)
  · exact (cv i.1 s.1).2.2.2.1.mul (ce (cv i.1 s.1).2.2.2.2)

/-- It is the round-trip matrix assembled by the code. -/
theorem BallPairOK.same_rt (h : BallPairOK P R1 R2) (hk : 0 < k) {w : WaveIn} (hw : ballWave exactBes P k = .ok w) {m : ℕ}
    {B : Blocks (P.lmax + 1 - transLmin m)} (hB : blockmatricesAt P.lmax P.lssmax m true w.nL w.bes w.a w.b = .ok B) :
    (1 - B.full).det = (1 - rtBall P m k).det := by
  have hl : ∀ i : ℕ, 1 ≤ transLmin (m : ℤ) + i := fun i => by unfold transLmin; omega
  obtain ⟨ca, ha, -⟩ := h.ok1.scatters h.m3 hk
  obtain ⟨cb, hb, -⟩ := h.ok2.scatters h.m3 hk
  have hmed := (medium_val h.m3.cls h.m3.phys hk).1
  obtain ⟨c1, h1, g1⟩ := ha P.lmax
  obtain ⟨c2, h2, g2⟩ := hb P.lssmax
  unfold ballWave at hw
  rw [h1, ok_bind, h2, ok_bind, medium_eps hmed, ok_bind, trans_row_ext, ok_bind] at hw
  injection hw with hw
  subst hw
  simp only at hB
  rw [blockmatricesAt_congr g1 g2] at hB
  unfold blockmatricesAt roundTripElements at hB
  rw [transAb_ok _ _ _ _ _ (by simp)] at hB
  simp only [ok_bind] at hB
  have := (C11_blockmatrices_operator hB).det
  unfold Blocks.full rtBall
  simp only [← fun i : ℕ => (h.ok1.value h.m3 hk ha (hl i)).1, ← fun i : ℕ => (h.ok1.value h.m3 hk ha (hl i)).2,
    ← fun i : ℕ => (h.ok2.value h.m3 hk hb (hl i)).1, ← fun i : ℕ => (h.ok2.value h.m3 hk hb (hl i)).2]
  exact this

theorem BallPairOK.lnBall_rt (h : BallPairOK P R1 R2) (hk : 0 < k) {m : ℕ} (hm : m ≤ P.lmax) :
    lnBall P m k = Real.log (1 - rtBall P m k).det ∧ 0 < (1 - rtBall P m k).det := by
  obtain ⟨⟨w, hw, hB⟩, -⟩ := h.facts hk
  obtain ⟨B, h1, h2, h3⟩ := hB m hm
  rw [h3, ← h.same_rt hk hw h1]
  exact ⟨rfl, h2⟩

theorem BallPairOK.lnBall_contAt (h : BallPairOK P R1 R2) (hk : 0 < k) {m : ℕ} (hm : m ≤ P.lmax) : ContinuousAt (lnBall P m) k := by
  refine ((h.rt_contAt m hk).log (h.lnBall_rt hk hm).2.ne').congr ?_
  filter_upwards [eventually_gt_nhds hk] with x hx
  exact (h.lnBall_rt hx hm).1.symm

theorem BallPairOK.sum_contAt (h : BallPairOK P R1 R2) (hk : 0 < k) : ContinuousAt (ballSum P) k := by
  unfold ballSum
  refine (h.lnBall_contAt hk (Nat.zero_le _)).add (continuousAt_const.mul ?_)
  exact tendsto_finsetSum _ fun m hm' => h.lnBall_contAt hk (Finset.mem_Icc.mp hm').2

/-! ## One wavenumber -/

open scoped Classical in
/-- Value of `mSumme` at one wavenumber (zero for non-positive ones). -/
noncomputable def ballVal (P : BallPair) (k : ℝ) : ℝ :=
  loop1 P.precision (fun m => if 0 < k then lnBall P m k else 0) P.lmax 1 (if 0 < k then lnBall P 0 k else 0)

theorem BallPairOK.val_ok (h : BallPairOK P R1 R2) (hk : 0 < k) : ballVals exactBes P [k] = .ok [ballVal P k] := by
  unfold ballVals
  rw [valsOf_eq (u := fun m k => lnBall P m k) (by simp) fun k' hkm => (h.facts (by simpa [List.mem_singleton.mp hkm] using hk)).1]
  have e : ∀ i : Fin [k].length, [k].get i = k := fun i => by
    have : i = (0 : Fin 1) := Subsingleton.elim (α := Fin 1) _ _
    rw [this]; rfl
  simp only [e]
  unfold mSummeNonzero
  rw [ok_bind]
  have := mLoop_one P.precision (fun m => lnBall P m k) P.lmax 1 (lnBall P 0 k)
  unfold ballVal
  simp only [if_pos hk]
  erw [this]
  rfl

theorem BallPairOK.val_measurable (h : BallPairOK P R1 R2) : Measurable (ballVal P) := by
  classical
  have hu : ∀ m, Measurable fun k => if m ≤ P.lmax then (if 0 < k then lnBall P m k else 0) else 0 := by
    intro m
    split_ifs with hm
    · have hc : ContinuousOn (lnBall P m) (Ioi 0) := fun k hk => (h.lnBall_contAt hk hm).continuousWithinAt
      have := hc.measurable_piecewise (g := fun _ => (0 : ℝ)) continuousOn_const measurableSet_Ioi
      convert this using 2
      unfold Set.piecewise
      congr
    · exact measurable_const
  have := loop1_measurable P.precision hu P.lmax 1 (hu 0)
  refine (congrArg Measurable ?_).mp this
  funext k
  unfold ballVal
  rw [if_pos (Nat.zero_le _)]
  refine (loop1_congr fun m hm => by rw [if_pos hm]).trans ?_
  congr

/-- The value is one of the partial sums. -/
theorem BallPairOK.val_part (h : BallPairOK P R1 R2) (hk : 0 < k) : ∃ M ≤ P.lmax, ballVal P k = lnBall P 0 k + 2 * ∑ m ∈ Finset.Icc 1 M, lnBall P m k := by
  obtain ⟨M, -, h1, h2, -⟩ := h.vals (ks := [k]) (by simp) (by simpa using hk)
  rw [h.val_ok hk] at h2
  injection h2 with h2
  simp only [List.map_cons, List.map_nil, List.cons.injEq, and_true] at h2
  exact ⟨M, h1, h2⟩

theorem BallPairOK.val_bound (h : BallPairOK P R1 R2) (hk : 0 < k) :
    |ballVal P k| ≤ -pairSum (P.metal R1 R2) k ∧ |ballVal P k| ≤ freeC R1 R2 P.L * sharpExp (k * (P.L - (R1 + R2))) ∧
    (P.SameSide k → ballVal P k ≤ 0) ∧ (P.OppositeSide k → 0 ≤ ballVal P k) := by
  obtain ⟨M, hM, e⟩ := h.val_part hk
  obtain ⟨p1, p2, p3⟩ := h.part_le hk hM
  rw [e]
  exact ⟨p1, p1.trans (h.metal_le hk), p2, p3⟩

theorem BallPairOK.val_integrable (h : BallPairOK P R1 R2) : IntegrableOn (ballVal P) (Ioi 0) := by
  have hd : 0 < P.L - (R1 + R2) := sub_pos.mpr h.sep
  refine Integrable.mono' ((sharpExp_integrable hd).const_mul (freeC R1 R2 P.L)) h.val_measurable.aestronglyMeasurable ?_
  exact (ae_restrict_iff' measurableSet_Ioi).mpr (.of_forall fun k hk => (h.val_bound hk).2.1)

theorem BallPairOK.val_sum (h : BallPairOK P R1 R2) (hp : P.precision ≤ 0) (hk : 0 < k) (hs : P.SameSide k ∨ P.OppositeSide k) :
    ballVal P k = ballSum P k := by
  have := ballVals_sum h hp (ks := [k]) (by simp) (by simpa using hk) (by simpa using hs)
  rw [h.val_ok hk] at this
  injection this with this
  simpa using this

theorem BallPairOK.val_strict (h : BallPairOK P R1 R2) (hk : 0 < k) (c1 : P.ball1.Contrast P.H P.mat3 k) (c2 : P.ball2.Contrast P.H P.mat3 k) :
    (P.SameSide k → ballVal P k < 0) ∧ (P.OppositeSide k → 0 < ballVal P k) := by
  obtain ⟨M, hM, e⟩ := h.val_part hk
  have hmem : ∀ m ∈ Finset.Icc 1 M, m ≤ P.lmax := fun m hm => (Finset.mem_Icc.mp hm).2.trans hM
  have hst := fun m (hm : m ≤ P.lmax) => lnBall_strict h hk c1 c2 hm
  rw [e]
  refine ⟨fun hs => ?_, fun hs => ?_⟩
  · have := Finset.sum_nonpos fun m (hm : m ∈ Finset.Icc 1 M) => ((hst m (hmem m hm)).1 hs).le
    linarith [(hst 0 (by omega)).1 hs]
  · have := Finset.sum_nonneg fun m (hm : m ∈ Finset.Icc 1 M) => ((hst m (hmem m hm)).2 hs).le
    linarith [(hst 0 (by omega)).2 hs]

end

end CasSph
