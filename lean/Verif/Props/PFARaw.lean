import Verif.Props.PFAExact

/-! # Further theorems for C64 and C89: the methods `get_f_matsubaras`, raw_PFA.py at zero temperature -/

namespace CasSph

open MeasureTheory Set PFA

/-- C64: `PFA.get_f_matsubaras` returns the contributions of the TE modes and of the TM modes; the first one is halved, or zero with
`n0_shielding`.  An empty array is an IndexError. -/
theorem C64_get_f_matsubaras {q : Quad} {p : PFA} {L : ℝ} {φ ψ : ℝ → ℝ} (hφ : ∀ κ, 0 < κ → p.integralTE q 0 L κ = .ok (φ κ))
    (hψ : ∀ κ, 0 < κ → p.integralTM q 0 L κ = .ok (ψ κ)) {m : ℝ} {ms : List ℝ} (hm : ∀ κ ∈ m :: ms, 0 < κ) (s : Bool) :
    p.getFMatsubaras q L (m :: ms) s =
      .ok ((if s then 0 else φ m / 2) :: ms.map φ, (if s then 0 else ψ m / 2) :: ms.map ψ) ∧
    p.getFMatsubaras q L [] s = .error .indexError := by
  constructor
  · unfold PFA.getFMatsubaras
    rw [mapM_ok (fun κ h => hφ κ (hm κ h)), ok_bind, mapM_ok (fun κ h => hψ κ (hm κ h)), ok_bind]
    simp only [List.map_cons, weightZero, ok_bind]
    congr 2 <;> congr 1 <;> cases s <;> norm_num <;> ring
  · rfl

/-- C89: `raw_PFA.get_f_matsubaras` returns the sums of both contributions, the first one not halved but zero with `n0_shielding`; a
zero at the beginning is replaced by `1e-20`. -/
theorem C89_get_f_matsubaras {q : Quad} {p : PFA} {L : ℝ} {φ ψ : ℝ → ℝ} (hφ : ∀ κ, 0 < κ → p.integralTE q 0 L κ = .ok (φ κ))
    (hψ : ∀ κ, 0 < κ → p.integralTM q 0 L κ = .ok (ψ κ)) {m : ℝ} {ms : List ℝ} (h0 : 0 ≤ m) (hm : ∀ κ ∈ ms, 0 < κ) (s : Bool) :
    let m' := if m = 0 then 1e-20 else m
    p.rawGetFMatsubaras q L (m :: ms) s =
      .ok ((if s then 0 else φ m' + ψ m') :: ms.map (fun κ => φ κ + ψ κ), m' :: ms) ∧
    p.rawGetFMatsubaras q L [] s = .error .indexError := by
  intro m'
  have hm' : 0 < m' := by
    change 0 < if m = 0 then (1e-20 : ℝ) else m
    split_ifs with h
    · norm_num
    · exact lt_of_le_of_ne h0 (Ne.symm h)
  have hall : ∀ κ ∈ m' :: ms, 0 < κ := by
    intro κ hκ
    rcases List.mem_cons.1 hκ with rfl | h
    · exact hm'
    · exact hm κ h
  refine ⟨?_, rfl⟩
  unfold PFA.rawGetFMatsubaras
  simp only
  change (((m' :: ms).mapM (p.integralTE q 0 L)) >>= fun te => _) = _
  rw [mapM_ok (fun κ h => hφ κ (hall κ h)), ok_bind, mapM_ok (fun κ h => hψ κ (hall κ h)), ok_bind]
  congr 2
  cases s <;> simp [List.zip_map', List.map_map, Function.comp_def]

/-- C89: at zero temperature raw_PFA.py and PFA.py agree (exact integration). -/
theorem C89_zero_temperature {q : Quad} (hq : q.Exact) {p : PFA} (h : p.Ok) {L : ℝ} (hL : 0 < L) (s s' : Bool) :
    ∃ v, p.rawFreeEnergy q 0 L s = .ok v ∧ p.freeEnergy q (.fin 0) L s' = .ok v := by
  have hz : (0 : ℝ) ≤ 1e-20 := by norm_num
  obtain ⟨i1, i2⟩ := int_integrable h hL hz
  refine ⟨(∫ k in Ioi (1e-20 : ℝ), p.IntTE L k) + ∫ k in Ioi (1e-20 : ℝ), p.IntTM L k, ?_, ?_⟩
  · unfold PFA.rawFreeEnergy
    rw [if_pos rfl]
    unfold PFA.rawE0
    rw [hq.inf _ (fun k => p.IntTE L k) _ (fun k hk => integralTE_val hq h (lt_of_le_of_lt hz hk) hL) i1, ok_bind,
      hq.inf _ (fun k => p.IntTM L k) _ (fun k hk => integralTM_val hq h (lt_of_le_of_lt hz hk) hL) i2, ok_bind]
  · unfold PFA.freeEnergy
    simp only [if_true]
    unfold PFA.e0
    rw [hq.inf _ (fun k => p.IntTE L k + p.IntTM L k) _ (fun k hk => integral_val hq h (lt_of_le_of_lt hz hk) hL) (i1.add i2)]
    congr 1
    exact integral_add i1 i2

/-- C89: the force between two spheres in raw_PFA.py is that of Derjaguin: `2π R₁R₂/(R₁ + R₂)` (`2π R₁R₂/(R₂ - R₁)` inside) times the
free energy of the plates, at temperature zero, at finite temperatures and in the high-temperature limit. -/
theorem C89_sphere_force {q : Quad} {p : PFA} {r1 r2 L : ℝ} (s : Bool) (h1 : 0 < r1) (h2 : 0 < r2) :
    (∀ T v, p.rawFreeEnergy q T L s = .ok v →
      p.rawSphereForce q r1 r2 (.fin T) L s true = .ok (2 * Real.pi * (r1 * r2 / (r1 + r2)) * v) ∧
      (r1 < r2 → p.rawSphereForce q r1 r2 (.fin T) L s false = .ok (2 * Real.pi * (r1 * r2 / (r2 - r1)) * v))) ∧
    (∀ v, p.freeEnergyHT q 1e-10 L s = .ok v →
      p.rawSphereForce q r1 r2 .inf L s true = .ok (2 * Real.pi * (r1 * r2 / (r1 + r2)) * v) ∧
      (r1 < r2 → p.rawSphereForce q r1 r2 .inf L s false = .ok (2 * Real.pi * (r1 * r2 / (r2 - r1)) * v))) := by
  have hs : r1 + r2 ≠ 0 := by positivity
  have key : ∀ T v, p.rawPlane q T L s = .ok v →
      p.rawSphereForce q r1 r2 T L s true = .ok (2 * Real.pi * (r1 * r2 / (r1 + r2)) * v) ∧
      (r1 < r2 → p.rawSphereForce q r1 r2 T L s false = .ok (2 * Real.pi * (r1 * r2 / (r2 - r1)) * v)) := by
    intro T v hv
    refine ⟨?_, fun hr => ?_⟩
    · unfold PFA.rawSphereForce
      rw [cdiv_ok hs, ok_bind]
      simp only [if_true, ok_bind]
      rw [hv, ok_bind]
      congr 1; ring
    · unfold PFA.rawSphereForce
      rw [cdiv_ok hs, ok_bind]
      simp only [Bool.false_eq_true, if_false]
      rw [cdiv_ok (by linarith : r2 - r1 ≠ 0) |> fun h => h, ok_bind, hv, ok_bind]
      congr 1; ring
  refine ⟨fun T v hv => key _ _ ?_, fun v hv => key _ _ hv⟩
  unfold PFA.rawPlane
  simp only
  split_ifs with h
  · subst h
    unfold PFA.rawFreeEnergy at hv
    rwa [if_pos rfl] at hv
  · exact hv

/-- Two spheres of gold in vacuum at zero temperature. -/
example : ∃ v, PFA.rawSphereForce exactQuad ⟨⟨.lorentz, eGold, none⟩, ⟨.lorentz, eGold, none⟩, ⟨.lorentz, [], none⟩⟩ 1 2 (.fin 0) 1
    false true = .ok v := by
  have hg : (Material.mk .lorentz eGold none).Physical := ⟨by norm_num [eGold], by simp, by simp⟩
  obtain ⟨v, hv, -⟩ := C89_zero_temperature exactQuad_exact
    (p := ⟨⟨.lorentz, eGold, none⟩, ⟨.lorentz, eGold, none⟩, ⟨.lorentz, [], none⟩⟩) ⟨hg, hg, vacuum_ok, by simp⟩ (L := 1) one_pos
    false false
  exact ⟨_, ((C89_sphere_force false one_pos (by norm_num : (0:ℝ) < 2)).1 0 v hv).1⟩

end CasSph
