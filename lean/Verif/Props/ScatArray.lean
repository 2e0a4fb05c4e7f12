import Verif.Props.Scattering

/-! # C42 on arrays: `mie(k, lmin, lmax, r)` as the code evaluates it -/

namespace CasSph

open Spec

theorem besCols_map (f g : ℕ → ℝ) (a n : ℕ) :
    besCols ((List.range' a (n + 1)).map f) ((List.range' a (n + 1)).map g) =
      (List.range' (a + 1) n).map fun l => ⟨f (l - 1), f l, g (l - 1), g l⟩ := by
  unfold besCols
  apply List.ext_getElem
  · simp
  · intro i h1 h2
    simp at h1
    simp only [List.getElem_map, List.getElem_zip, List.getElem_dropLast, List.getElem_tail, List.getElem_range',
      one_mul]
    rw [show a + 1 + i - 1 = a + i by omega, show a + (i + 1) = a + 1 + i by omega]

theorem besRows_ok {xs s g : List ℝ} (hxs : xs = s ++ g) (hs : ∀ x ∈ s, x < 1e-3) (hg : ∀ x ∈ g, 1e-3 ≤ x)
    {xl : ℝ} (hxl : xs.getLast? = some xl) {lmin lmax : ℕ} (h1 : 1 ≤ lmin) (h2 : lmin ≤ lmax) :
    besRows xs lmin lmax = .ok (xs.map fun x =>
      (List.range' lmin (lmax + 1 - lmin)).map fun l => codeBes (fnuTerms xl) (!g.isEmpty) l x) := by
  have hi := i01_smallFirst hs hg
  rw [← hxs] at hi
  have hm := lniknu_maps hxl lmax _ _ hi
  unfold besRows mieBessels
  rw [if_neg (by omega), hm]
  simp only [ok_bind]
  congr 1
  rw [List.map_map, List.map_map, List.zip_map', List.map_map]
  refine List.map_congr_left ?_
  intro x _
  simp only [Function.comp]
  have hd : ∀ f : ℕ → ℝ, pyFrom ((lmin : ℤ) - 1) ((List.range (lmax + 1)).map f) =
      (List.range' (lmin - 1) (lmax + 1 - lmin + 1)).map f := by
    intro f
    unfold pyFrom
    rw [if_pos (by omega), ← List.map_drop, show ((lmin : ℤ) - 1).toNat = lmin - 1 by omega, List.range_eq_range',
      List.drop_range']
    congr 2 <;> omega
  rw [hd, hd, besCols_map, show lmin - 1 + 1 = lmin by omega]
  rfl

theorem mapM_map' {α β γ : Type} (f : α → β) (g : β → Res γ) (l : List α) : (l.map f).mapM g = l.mapM fun a => g (f a) := by
  induction l with
  | nil => rfl
  | cons a l ih => rw [List.map_cons, List.mapM_cons, List.mapM_cons, ih]

theorem mapM_congr' {α β : Type} {f g : α → Res β} : ∀ {l : List α}, (∀ a ∈ l, f a = g a) → l.mapM f = l.mapM g := by
  intro l
  induction l with
  | nil => intro _; rfl
  | cons a l ih => intro h; rw [List.mapM_cons, List.mapM_cons, h a (by simp), ih fun b hb => h b (by simp [hb])]

/-- C42 on arrays: whenever the two arrays of arguments `k r n(k)` (inside and outside) list values below 1e-3 first, as
they do for increasing `k`, the array function `mie` returns without an error and its entry for `(k, l)` is that of
the elementwise formula with the tables the code computes. -/
theorem C42_array {m1 m2 : Material} (hm1 : m1.cls ≠ .pec) (hm2 : m2.cls ≠ .pec) (h1 : m1.Physical) (h2 : m2.Physical)
    {ks : List ℝ} (hne : ks ≠ []) (hk : ∀ k ∈ ks, 0 < k) {r : ℝ} (hr : 0 < r) {lmin lmax : ℕ} (hl1 : 1 ≤ lmin)
    (hl2 : lmin ≤ lmax) (A B : ℝ → Medium) (hA : ∀ k ∈ ks, m1.medium k = .ok (A k))
    (hB : ∀ k ∈ ks, m2.medium k = .ok (B k)) (hsA : SmallFirst (ks.map fun k => k * r * (A k).n))
    (hsB : SmallFirst (ks.map fun k => k * r * (B k).n)) :
    ∃ (Ni Ne : ℝ) (bi be : Bool) (v : ℝ → ℕ → Mie),
      (∀ k ∈ ks, ∀ l, lmin ≤ l → l ≤ lmax →
        mie (codeBes (fnuTerms Ni) bi) (codeBes (fnuTerms Ne) be) m1 m2 l k r = .ok (v k l)) ∧
      mieArr m1 m2 ks lmin lmax r = .ok (ks.map fun k => (List.range' lmin (lmax + 1 - lmin)).map (v k)) := by
  obtain ⟨sA, gA, eA, hA1, hA2⟩ := hsA
  obtain ⟨sB, gB, eB, hB1, hB2⟩ := hsB
  have neA : (ks.map fun k => k * r * (A k).n) ≠ [] := by simpa using hne
  have neB : (ks.map fun k => k * r * (B k).n) ≠ [] := by simpa using hne
  have rA := besRows_ok eA hA1 hA2 (List.getLast?_eq_some_getLast neA) hl1 hl2
  have rB := besRows_ok eB hB1 hB2 (List.getLast?_eq_some_getLast neB) hl1 hl2
  set Ni := (ks.map fun k => k * r * (A k).n).getLast neA
  set Ne := (ks.map fun k => k * r * (B k).n).getLast neB
  have hTi : ∀ l, 1 ≤ l → ∀ x, 0 < x → BesOK (codeBes (fnuTerms Ni) (!gA.isEmpty)) l x := fun l hl => C42_code_table hl _ _
  have hex : ∀ k ∈ ks, ∀ l, lmin ≤ l → ∃ w,
      mie (codeBes (fnuTerms Ni) (!gA.isEmpty)) (codeBes (fnuTerms Ne) (!gB.isEmpty)) m1 m2 l k r = .ok w := by
    intro k hkk l hll
    obtain ⟨a, ha, hap⟩ := medium_pos hm1 h1 (hk k hkk)
    obtain ⟨b, hb, hbp⟩ := medium_pos hm2 h2 (hk k hkk)
    have hxa : 0 < k * r * a.n := mul_pos (mul_pos (hk k hkk) hr) (Medium.n_pos hap)
    have hxb : 0 < k * r * b.n := mul_pos (mul_pos (hk k hkk) hr) (Medium.n_pos hbp)
    rw [mie_diel hm1 ha hb, mieCore_ok hap hbp (idT_pos (hTi l (by omega) _ hxa)) (kdT_neg (by omega) hxb _)]
    exact ⟨_, rfl⟩
  classical
  set v : ℝ → ℕ → Mie := fun k l => if h : k ∈ ks ∧ lmin ≤ l then (hex k h.1 l h.2).choose else ⟨0, 0, 0⟩ with hv
  have hvs : ∀ k ∈ ks, ∀ l, lmin ≤ l →
      mie (codeBes (fnuTerms Ni) (!gA.isEmpty)) (codeBes (fnuTerms Ne) (!gB.isEmpty)) m1 m2 l k r = .ok (v k l) := by
    intro k hkk l hll
    have hh : k ∈ ks ∧ lmin ≤ l := ⟨hkk, hll⟩
    have : v k l = (hex k hkk l hll).choose := by rw [hv]; simp only; rw [dif_pos hh]
    rw [this]; exact (hex k hkk l hll).choose_spec
  refine ⟨Ni, Ne, !gA.isEmpty, !gB.isEmpty, v, fun k hkk l hll _ => hvs k hkk l hll, ?_⟩
  unfold mieArr
  have zB : ks.zipWith (fun k (b : Medium) => k * r * b.n) (ks.map B) = ks.map fun k => k * r * (B k).n := by
    rw [List.zipWith_map_right, List.zipWith_self]
  have zA : ks.zipWith (fun k (b : Medium) => k * r * b.n) (ks.map A) = ks.map fun k => k * r * (A k).n := by
    rw [List.zipWith_map_right, List.zipWith_self]
  rw [mapM_ok hA, ok_bind, mapM_ok hB, ok_bind, zB, rB, ok_bind, zA, rA, ok_bind, List.map_map, List.map_map,
    List.zip_map', List.zip_map']
  have z1 : ks.zip (ks.map fun k => (A k, B k)) = ks.map fun k => (k, A k, B k) := by
    conv_lhs => rw [show ks.zip (ks.map fun k => (A k, B k)) = (ks.map id).zip (ks.map fun k => (A k, B k)) by rw [List.map_id]]
    rw [List.zip_map']; rfl
  rw [z1, List.zip_map', mapM_map']
  apply mapM_ok
  intro k hkk
  simp only [Function.comp]
  rw [List.zip_map']
  have z2 : ∀ (L : List ℕ) (F : ℕ → Bes × Bes), L.zip (L.map F) = L.map fun l => (l, F l) := by
    intro L F
    conv_lhs => rw [show L.zip (L.map F) = (L.map id).zip (L.map F) by rw [List.map_id]]
    rw [List.zip_map']; rfl
  rw [z2, mapM_map']
  apply mapM_ok
  intro l hl
  rw [List.mem_range'_1] at hl
  have := hvs k hkk l hl.1
  rw [mie_diel hm1 (hA k hkk) (hB k hkk)] at this
  exact this

example : ∃ v, mieArr ⟨.lorentz, [⟨2, 1, 0⟩], none⟩ ⟨.lorentz, [], none⟩ [1] 1 3 1 = .ok v := by
  have hp : (Material.mk .lorentz [⟨2, 1, 0⟩] none).Physical := ⟨by simp, by simp, by simp⟩
  have hq : (Material.mk .lorentz [] none).Physical := ⟨by simp, by simp, by simp⟩
  obtain ⟨a, ha, -⟩ := medium_pos (M := ⟨.lorentz, [⟨2, 1, 0⟩], none⟩) (by simp) hp (k := 1) one_pos
  obtain ⟨b, hb, -⟩ := medium_pos (M := ⟨.lorentz, [], none⟩) (by simp) hq (k := 1) one_pos
  have hsf : ∀ x : ℝ, SmallFirst [x] := by
    intro x
    by_cases hx : x < 1e-3
    · exact ⟨[x], [], rfl, by simpa using hx, by simp⟩
    · exact ⟨[], [x], rfl, by simp, by simpa using not_lt.1 hx⟩
  obtain ⟨_, _, _, _, v, -, hv⟩ := C42_array (m1 := ⟨.lorentz, [⟨2, 1, 0⟩], none⟩) (m2 := ⟨.lorentz, [], none⟩)
    (by simp) (by simp) hp hq (ks := [1]) (by simp) (by simp) (r := 1) one_pos (lmin := 1) (lmax := 3) le_rfl (by norm_num)
    (fun _ => a) (fun _ => b) (by simpa using ha) (by simpa using hb) (hsf _) (hsf _)
  exact ⟨_, hv⟩

end CasSph
