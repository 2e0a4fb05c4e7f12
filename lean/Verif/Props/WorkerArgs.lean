import Verif.Props.Worker

/-! # Further theorems for C66: how worker.py passes the options on -/

namespace CasSph

variable {M G F R : Type}

/-- C66: `lmax`, `lssmax` and `nmax` are integers or are passed on as the text given. -/
theorem C66_text_or_integer (E : Env M G F R) {c : Config} {sec o s : String} (hs : c.get sec o = .ok s) :
    (∀ n, E.toInt s = some n → E.textInt c sec o = .ok (.num n)) ∧ (E.toInt s = none → E.textInt c sec o = .ok (.text s)) := by
  refine ⟨fun n h => ?_, fun h => ?_⟩ <;> unfold Env.textInt <;> rw [hs, ok_bind, h]

/-- C66: a missing `evaluation` means `"lndet"`. -/
theorem C66_evaluation (c : Config) :
    (∀ s, c.get "geometry" "evaluation" = .ok s → evaluationOpt c = .ok s) ∧
    (c.get "geometry" "evaluation" = .error .noOptionError → evaluationOpt c = .ok "lndet") := by
  refine ⟨fun s h => ?_, fun h => ?_⟩ <;> unfold evaluationOpt <;> rw [h]

/-- A configuration without missing options and with numbers where numbers are expected, and what is written in it. -/
structure Complete (E : Env M G F R) (c : Config) where
  ra : ℝ
  rb : ℝ
  d : ℝ
  precision : ℝ
  lmax : ℤ
  lssmax : ℤ
  lOffset : ℤ
  evaluation : String
  mata : String
  matb : String
  matmd : String
  tmin : ℝ
  tmax : ℝ
  nmax : ℤ
  quantity : String
  analytic : String
  hra : ∃ s, c.get "geometry" "ra" = .ok s ∧ E.toFloat s = some ra
  hrb : ∃ s, c.get "geometry" "rb" = .ok s ∧ E.toFloat s = some rb
  hd : ∃ s, c.get "geometry" "d" = .ok s ∧ E.toFloat s = some d
  hprecision : ∃ s, c.get "geometry" "precision" = .ok s ∧ E.toFloat s = some precision
  hlmax : ∃ s, c.get "geometry" "lmax" = .ok s ∧ E.toInt s = some lmax
  hlssmax : ∃ s, c.get "geometry" "lssmax" = .ok s ∧ E.toInt s = some lssmax
  hlOffset : ∃ s, c.get "geometry" "l_offset" = .ok s ∧ E.toInt s = some lOffset
  hevaluation : c.get "geometry" "evaluation" = .ok evaluation
  hmata : c.get "materials" "mata" = .ok mata
  hmatb : c.get "materials" "matb" = .ok matb
  hmatmd : c.get "materials" "matmd" = .ok matmd
  htmin : ∃ s, c.get "thermodynamics" "tmin" = .ok s ∧ E.toFloat s = some tmin
  htmax : ∃ s, c.get "thermodynamics" "tmax" = .ok s ∧ E.toFloat s = some tmax
  hnmax : ∃ s, c.get "thermodynamics" "nmax" = .ok s ∧ E.toInt s = some nmax
  hquantity : c.get "thermodynamics" "quantity" = .ok quantity
  hanalytic : c.get "geometry" "analytic_n0" = .ok analytic

variable {E : Env M G F R} {c : Config}

/-- C66: with a complete configuration and two arguments every option arrives where it belongs: the arguments of the geometry. -/
theorem C66_geometry_arguments (k : Complete E c) {m1 m2 m3 : M} (h1 : E.evalMat k.mata = .ok m1) (h2 : E.evalMat k.matb = .ok m2)
    (h3 : E.evalMat k.matmd = .ok m3) (a b o : String) :
    E.geomArgs [a, b, o] c = .ok
      { r1 := .single k.ra, r2 := .single k.rb, L := k.d, mat1 := m1, mat2 := m2, mat3 := m3, lmax := .num k.lmax,
        lOffset := k.lOffset, lssmax := .num k.lssmax, precision := k.precision, evaluation := k.evaluation } := by
  obtain ⟨_, a1, b1⟩ := k.hra
  obtain ⟨_, a2, b2⟩ := k.hrb
  obtain ⟨_, a3, b3⟩ := k.hd
  obtain ⟨_, a4, b4⟩ := k.hprecision
  obtain ⟨_, a5, b5⟩ := k.hlmax
  obtain ⟨_, a6, b6⟩ := k.hlssmax
  obtain ⟨_, a7, b7⟩ := k.hlOffset
  have e1 : E.radius c "ra" = .ok (.single k.ra) := (C66_radius E a1).1 _ b1
  have e2 : E.radius c "rb" = .ok (.single k.rb) := (C66_radius E a2).1 _ b2
  have e3 : E.distance [a, b, o] c = .ok k.d := by
    rw [(C66_distance E a b o o c).2.2]; unfold Env.getFloat; rw [a3, ok_bind, b3]
  have e4 : E.precision c = .ok k.precision := by unfold Env.precision; rw [a4, ok_bind, b4]
  have e5 : E.lmax c = .ok (.num k.lmax) := by unfold Env.lmax; rw [a5, ok_bind, b5]
  have e6 : E.textInt c "geometry" "lssmax" = .ok (.num k.lssmax) := (C66_text_or_integer E a6).1 _ b6
  have e7 : E.lOffset c = .ok k.lOffset := (C66_l_offset E a5).2.2 _ _ a7 b7
  have e8 : evaluationOpt c = .ok k.evaluation := (C66_evaluation c).1 _ k.hevaluation
  unfold Env.geomArgs
  rw [e1, ok_bind, e2, ok_bind, e3, ok_bind, e4, ok_bind, e5, ok_bind, e6, ok_bind, e7, ok_bind, e8, ok_bind, k.hmata, ok_bind, h1,
    ok_bind, k.hmatb, ok_bind, h2, ok_bind, k.hmatmd, ok_bind, h3, ok_bind]

/-- C66: with a third argument only the distance is another one. -/
theorem C66_third_argument (k : Complete E c) {m1 m2 m3 : M} (h1 : E.evalMat k.mata = .ok m1) (h2 : E.evalMat k.matb = .ok m2)
    (h3 : E.evalMat k.matmd = .ok m3) (a b o s : String) {x : ℝ} (hx : E.toFloat s = some x) :
    E.geomArgs [a, b, o, s] c = (E.geomArgs [a, b, o] c).map fun g => { g with L := x } := by
  rw [C66_geometry_arguments k h1 h2 h3]
  obtain ⟨_, a1, b1⟩ := k.hra
  obtain ⟨_, a2, b2⟩ := k.hrb
  obtain ⟨_, a4, b4⟩ := k.hprecision
  obtain ⟨_, a5, b5⟩ := k.hlmax
  obtain ⟨_, a6, b6⟩ := k.hlssmax
  obtain ⟨_, a7, b7⟩ := k.hlOffset
  have e1 : E.radius c "ra" = .ok (.single k.ra) := (C66_radius E a1).1 _ b1
  have e2 : E.radius c "rb" = .ok (.single k.rb) := (C66_radius E a2).1 _ b2
  have e3 : E.distance [a, b, o, s] c = .ok x := (C66_distance E a b o s c).1 _ hx
  have e4 : E.precision c = .ok k.precision := by unfold Env.precision; rw [a4, ok_bind, b4]
  have e5 : E.lmax c = .ok (.num k.lmax) := by unfold Env.lmax; rw [a5, ok_bind, b5]
  have e6 : E.textInt c "geometry" "lssmax" = .ok (.num k.lssmax) := (C66_text_or_integer E a6).1 _ b6
  have e7 : E.lOffset c = .ok k.lOffset := (C66_l_offset E a5).2.2 _ _ a7 b7
  have e8 : evaluationOpt c = .ok k.evaluation := (C66_evaluation c).1 _ k.hevaluation
  unfold Env.geomArgs
  rw [e1, ok_bind, e2, ok_bind, e3, ok_bind, e4, ok_bind, e5, ok_bind, e6, ok_bind, e7, ok_bind, e8, ok_bind, k.hmata, ok_bind, h1,
    ok_bind, k.hmatb, ok_bind, h2, ok_bind, k.hmatmd, ok_bind, h3, ok_bind]
  rfl

/-- C66: the whole computation: `finiteT` gets `Tmin` as the step of the temperature, `nmax`, `Tmax`, the geometry and `True`, and the
quantity is evaluated for it. -/
theorem C66_computation (k : Complete E c) {m1 m2 m3 : M} (h1 : E.evalMat k.mata = .ok m1) (h2 : E.evalMat k.matb = .ok m2)
    (h3 : E.evalMat k.matmd = .ok m3) {g : G} {f : F} {r : R} (a b o : String)
    (hg : E.geometry
      { r1 := .single k.ra, r2 := .single k.rb, L := k.d, mat1 := m1, mat2 := m2, mat3 := m3, lmax := .num k.lmax,
        lOffset := k.lOffset, lssmax := .num k.lssmax, precision := k.precision, evaluation := k.evaluation } = .ok g)
    (hf : E.finiteT k.tmin (.num k.nmax) k.tmax g true = .ok f) (hr : E.eval k.quantity f = .ok r) :
    E.compute [a, b, o] c = .ok (g, f, r) := by
  obtain ⟨_, a1, b1⟩ := k.htmin
  obtain ⟨_, a2, b2⟩ := k.htmax
  obtain ⟨_, a3, b3⟩ := k.hnmax
  have e1 : E.getFloat c "thermodynamics" "tmin" = .ok k.tmin := by unfold Env.getFloat; rw [a1, ok_bind, b1]
  have e2 : E.getFloat c "thermodynamics" "tmax" = .ok k.tmax := by unfold Env.getFloat; rw [a2, ok_bind, b2]
  have e3 : E.textInt c "thermodynamics" "nmax" = .ok (.num k.nmax) := (C66_text_or_integer E a3).1 _ b3
  have e4 := C66_analytic_value k.hanalytic (.single k.ra) (.single k.rb)
  have e4 : analyticN0 c (.single k.ra) (.single k.rb) = .ok true := e4
  unfold Env.compute
  rw [C66_geometry_arguments k h1 h2 h3, ok_bind, hg, ok_bind, k.hquantity, ok_bind]
  unfold Env.calculate
  rw [e1, ok_bind, e3, ok_bind, e4, ok_bind, e2, ok_bind, hf, ok_bind, k.hquantity, ok_bind, hr, ok_bind]
  rfl

/-- C66: the result written is that of this computation, preceded by the description of the job. -/
theorem C66_result (k : Complete E c) {g : G} {f : F} {r : R} {args : List String} (hc : E.compute args c = .ok (g, f, r))
    {input job txt : String} (hj : E.jobInfos input k.mata k.matb k.matmd k.quantity g f = .ok job) (ht : E.savetxt r = .ok txt)
    (out : String) (fs : FS) :
    (E.runConfig args input out c fs).2 = .ok () ∧
      finalState fs (E.runConfig args input out c fs) (if fs out = none then out else out ++ "1") = some (job ++ txt) := by
  have ej : E.job c input g f = .ok job := by
    unfold Env.job
    rw [k.hmata, ok_bind, k.hmatb, ok_bind, k.hmatmd, ok_bind, k.hquantity, ok_bind, hj]
  have et : (if fs out = none then out else out ++ "1") = target fs out := by
    unfold target
    cases fs out <;> simp
  unfold Env.runConfig
  rw [hc]
  simp only
  rw [ej, ht, C65_success, et]
  exact ⟨rfl, write_same⟩

/-- A complete configuration. -/
def demoConfig : Config := fun _ => some fun o => some (if o = "lmax" then "3" else if o = "l_offset" then "0" else "1")

def demoComplete : Complete demoEnv demoConfig where
  ra := 1
  rb := 1
  d := 1
  precision := 1
  lmax := 3
  lssmax := 1
  lOffset := 0
  evaluation := "1"
  mata := "1"
  matb := "1"
  matmd := "1"
  tmin := 1
  tmax := 1
  nmax := 1
  quantity := "1"
  analytic := "1"
  hra := ⟨"1", rfl, by simp [demoEnv]⟩
  hrb := ⟨"1", rfl, by simp [demoEnv]⟩
  hd := ⟨"1", rfl, by simp [demoEnv]⟩
  hprecision := ⟨"1", rfl, by simp [demoEnv]⟩
  hlmax := ⟨"3", rfl, by simp [demoEnv]⟩
  hlssmax := ⟨"1", rfl, by simp [demoEnv]⟩
  hlOffset := ⟨"0", rfl, by simp [demoEnv]⟩
  hevaluation := rfl
  hmata := rfl
  hmatb := rfl
  hmatmd := rfl
  htmin := ⟨"1", rfl, by simp [demoEnv]⟩
  htmax := ⟨"1", rfl, by simp [demoEnv]⟩
  hnmax := ⟨"1", rfl, by simp [demoEnv]⟩
  hquantity := rfl
  hanalytic := rfl

example : demoEnv.compute ["worker.py", "c", "r"] demoConfig = .ok ((), (), ()) :=
  C66_computation demoComplete (g := ()) rfl rfl rfl _ _ _ rfl rfl rfl

end CasSph
