import Verif.Model.Worker
import Verif.Lemmas.LinAlg
import Mathlib.Data.List.Infix

/-! # C65, C66: worker.py -/

namespace CasSph

open scoped Classical

variable {M G F R : Type}

/-! ## C65 -/

/-- `s` contains everything that `fs` contained -/
def Keeps (fs s : FS) : Prop := ∀ p, fs p ≠ none → s p = fs p

theorem write_other {fs : FS} {p path text : String} (h : p ≠ path) : fs.write path text p = fs p := by
  unfold FS.write; rw [if_neg h]

theorem write_same {fs : FS} {path text : String} : fs.write path text path = some text := by
  unfold FS.write; rw [if_pos rfl]

/-- every state of `save_result` is the initial one with a text in the target file -/
theorem save_states {fs s : FS} {out : String} {job txt : Res String} (h : s ∈ (saveResult fs out job txt).1) :
    ∃ text, s = fs.write (target fs out) text := by
  unfold saveResult at h
  cases job with
  | error e => simp only [List.mem_singleton] at h; exact ⟨_, h⟩
  | ok c =>
    cases txt with
    | error e => simp only [writing, List.mem_map] at h; obtain ⟨p, -, rfl⟩ := h; exact ⟨_, rfl⟩
    | ok t => simp only [writing, List.mem_map] at h; obtain ⟨p, -, rfl⟩ := h; exact ⟨_, rfl⟩

/-- C65: whatever happens, and whenever the program dies, only one file differs from the initial file system. -/
theorem C65_only_target {fs s : FS} {out : String} {job txt : Res String} (h : s ∈ (saveResult fs out job txt).1)
    {p : String} (hp : p ≠ target fs out) : s p = fs p := by
  obtain ⟨text, rfl⟩ := save_states h
  exact write_other hp

/-- C65, the part that holds: if the output file or the one with "1" appended does not exist, nothing that existed is
changed at any time. -/
theorem C65_partial {fs s : FS} {out : String} {job txt : Res String}
    (h0 : fs out = none ∨ fs (out ++ "1") = none) (h : s ∈ (saveResult fs out job txt).1) : Keeps fs s := by
  intro p hp
  refine C65_only_target h fun he => ?_
  subst he
  unfold target at hp
  rcases h0 with h0 | h0
  · simp [h0] at hp
  · split at hp
    · exact hp h0
    · rename_i hn
      exact hn (Option.isSome_iff_ne_none.2 hp)

/-- C65 fails otherwise: the second file is emptied first. -/
theorem C65_overwrites {fs : FS} {out : String} {job txt : Res String} (h0 : fs out ≠ none) :
    ∃ s ∈ (saveResult fs out job txt).1, s (out ++ "1") = some "" := by
  have ht : target fs out = out ++ "1" := by
    unfold target; rw [if_pos (Option.isSome_iff_ne_none.2 h0)]
  unfold saveResult
  cases job with
  | error e => exact ⟨fs.write (target fs out) "", by simp, by rw [ht]; exact write_same⟩
  | ok c =>
    cases txt with
    | error e =>
      refine ⟨fs.write (target fs out) "", ?_, by rw [ht]; exact write_same⟩
      simp only [writing, List.mem_map]
      exact ⟨[], by simp, rfl⟩
    | ok t =>
      refine ⟨fs.write (target fs out) "", ?_, by rw [ht]; exact write_same⟩
      simp only [writing, List.mem_map]
      exact ⟨[], by simp, rfl⟩

/-- C65: existing files are kept at all times exactly if there is no non-empty file with "1" appended, or the output
file itself does not exist.  (`job` succeeds with a non-empty text: an empty existing file would be changed, too.) -/
theorem C65_iff {fs : FS} {out : String} {c t : String} (hc : c ≠ "") :
    (∀ s ∈ (saveResult fs out (.ok c) (.ok t)).1, Keeps fs s) ↔ fs out = none ∨ fs (out ++ "1") = none := by
  refine ⟨fun h => ?_, fun h s hs => C65_partial h hs⟩
  by_contra hn
  push Not at hn
  obtain ⟨h1, h2⟩ := hn
  have ht : target fs out = out ++ "1" := by
    unfold target; rw [if_pos (Option.isSome_iff_ne_none.2 h1)]
  have hmem : ∀ p : List Char, p <+: (c ++ t).toList →
      fs.write (out ++ "1") (String.ofList p) ∈ (saveResult fs out (.ok c) (.ok t)).1 := by
    intro p hp
    simp only [saveResult, writing, List.mem_map, ht]
    exact ⟨p, List.mem_inits _ _ |>.2 hp, rfl⟩
  have e1 := h _ (hmem [] (List.nil_prefix)) _ h2
  have e2 := h _ (hmem _ (List.prefix_refl _)) _ h2
  rw [write_same] at e1 e2
  rw [← e2] at e1
  have e3 := Option.some.inj e1
  rw [String.ofList_toList] at e3
  have e4 := congrArg String.length e3
  rw [String.length_append] at e4
  have e5 : c.length = 0 := by simp at e4; omega
  exact hc (by simpa using e5)

/-- C65 is violated. -/
theorem C65_refuted : ∃ (fs : FS) (out : String) (s : FS),
    s ∈ (saveResult fs out (.ok "# new\n") (.ok "2\n")).1 ∧ ¬ Keeps fs s := by
  by_contra h
  push Not at h
  have := (C65_iff (fs := fun _ => some "old") (out := "r") (c := "# new\n") (t := "2\n") (by decide)).1
    (fun s hs => h _ _ s hs)
  simp at this

theorem inits_last {α : Type} (l : List α) : ∃ xs, l.inits = xs ++ [l] := by
  induction l with
  | nil => exact ⟨[], rfl⟩
  | cons a l ih =>
    obtain ⟨xs, h⟩ := ih
    refine ⟨[] :: xs.map (a :: ·), ?_⟩
    rw [List.inits_cons, h]; simp

/-- C65: a successful run leaves the comment followed by the numbers in the target file and everything else as it was. -/
theorem C65_success (fs : FS) (out c t : String) :
    finalState fs (saveResult fs out (.ok c) (.ok t)) = fs.write (target fs out) (c ++ t) := by
  unfold finalState saveResult writing
  simp only
  obtain ⟨xs, h⟩ := inits_last (c ++ t).toList
  rw [h, List.map_append]
  simp [List.getLastD_eq_getLast?, String.ofList_toList]

/-- C65: of three successful runs with the same output name the result of the second one is lost. -/
theorem C65_third_run {fs : FS} {out : String} (h0 : fs out = none) (c1 t1 c2 t2 c3 t3 : String) :
    let s1 := finalState fs (saveResult fs out (.ok c1) (.ok t1))
    let s2 := finalState s1 (saveResult s1 out (.ok c2) (.ok t2))
    let s3 := finalState s2 (saveResult s2 out (.ok c3) (.ok t3))
    s3 out = some (c1 ++ t1) ∧ s2 (out ++ "1") = some (c2 ++ t2) ∧ s3 (out ++ "1") = some (c3 ++ t3) ∧
      ∀ p, p ≠ out → p ≠ out ++ "1" → s3 p = fs p := by
  have hne : out ≠ out ++ "1" := by
    intro h
    have := congrArg String.length h
    rw [String.length_append] at this
    simp at this
  have e1 : target fs out = out := by unfold target; rw [h0]; rfl
  intro s1 s2 s3
  have f1 : s1 = fs.write out (c1 ++ t1) := by
    have := C65_success fs out c1 t1; rwa [e1] at this
  have e2 : target s1 out = out ++ "1" := by unfold target; rw [f1, write_same]; rfl
  have f2 : s2 = s1.write (out ++ "1") (c2 ++ t2) := by
    have := C65_success s1 out c2 t2; rwa [e2] at this
  have e3 : target s2 out = out ++ "1" := by unfold target; rw [f2, write_other hne, f1, write_same]; rfl
  have f3 : s3 = s2.write (out ++ "1") (c3 ++ t3) := by
    have := C65_success s2 out c3 t3; rwa [e3] at this
  refine ⟨?_, ?_, ?_, fun p h1 h2 => ?_⟩
  · rw [f3, write_other hne, f2, write_other hne, f1, write_same]
  · rw [f2, write_same]
  · rw [f3, write_same]
  · rw [f3, write_other h2, f2, write_other h2, f1, write_other h1]

/-- C65: an exception before `save_result` leaves the file system alone; one in `job_infos` leaves an empty file. -/
theorem C65_exceptions (E : Env M G F R) (args : List String) (input out : String) (c : Config) (fs : FS) :
    (∀ e, E.compute args c = .error e → E.runConfig args input out c fs = ([], .error e)) ∧
    (∀ g f r e, E.compute args c = .ok (g, f, r) → E.job c input g f = .error e →
      (E.runConfig args input out c fs).2 = .error e ∧
      finalState fs (E.runConfig args input out c fs) = fs.write (target fs out) "") := by
  refine ⟨fun e h => ?_, fun g f r e h h' => ?_⟩
  · unfold Env.runConfig; rw [h]
  · unfold Env.runConfig; rw [h]
    simp only
    rw [h']
    exact ⟨rfl, rfl⟩

/-- C65 for the script as a whole: if one of the two output names is free, no existing file changes at any time. -/
theorem C65_run_partial (E : Env M G F R) {args : List String} {fs s : FS}
    (h0 : ∀ out ∈ args[2]?, fs out = none ∨ fs (out ++ "1") = none) (h : s ∈ (E.run args fs).1) : Keeps fs s := by
  have key : ∀ args' input out, (fs out = none ∨ fs (out ++ "1") = none) →
      s ∈ (match E.readConfig fs input with
        | .error e => (([], .error e) : List FS × Res Unit)
        | .ok c => E.runConfig args' input out c fs).1 → Keeps fs s := by
    intro args' input out ho hs
    cases hc : E.readConfig fs input with
    | error e => rw [hc] at hs; cases hs
    | ok c =>
      rw [hc] at hs
      simp only [Env.runConfig] at hs
      cases hg : E.compute args' c with
      | error e => rw [hg] at hs; cases hs
      | ok v =>
        rw [hg] at hs
        exact C65_partial ho hs
  unfold Env.run at h
  split at h
  · exact key _ _ _ (h0 _ (by simp)) h
  · exact key _ _ _ (h0 _ (by simp)) h
  · cases h

/-! ## C66 -/

/-- C66: one, two or more than three command-line arguments (besides the script) abort. -/
theorem C66_argc (E : Env M G F R) (args : List String) (fs : FS) (h : args.length ≠ 3) (h' : args.length ≠ 4) :
    E.run args fs = ([], .error .valueError) := by
  unfold Env.run
  split
  · simp at h
  · simp at h'
  · rfl

/-- C66: a missing configuration file is noticed only by the missing section. -/
theorem C66_missing_file (E : Env M G F R) (args : List String) (fs : FS) (h : args.length = 3 ∨ args.length = 4)
    (hf : ∀ f ∈ args[1]?, fs f = none) : E.run args fs = ([], .error .noSectionError) := by
  unfold Env.run
  split
  · have := hf _ (by simp; rfl)
    simp [Env.readConfig, this, Env.runConfig, Env.compute, Env.geomArgs, Env.radius, Config.get, bind, Except.bind]
  · have := hf _ (by simp; rfl)
    simp [Env.readConfig, this, Env.runConfig, Env.compute, Env.geomArgs, Env.radius, Config.get, bind, Except.bind]
  · rename_i h1 h2
    rcases h with h | h
    · obtain ⟨a, b, c, rfl⟩ := List.length_eq_three.1 h
      exact (h1 _ _ _ rfl).elim
    · match args, h with
      | [a, b, c, d], _ => exact (h2 _ _ _ _ rfl).elim

/-- two configurations that agree except for the value of an option present in both -/
structure SameBut (c c' : Config) (sec opt : String) : Prop where
  get_eq : ∀ s o, (s, o) ≠ (sec, opt) → c.get s o = c'.get s o
  both : ∃ v v', c.get sec opt = .ok v ∧ c'.get sec opt = .ok v'

/-- C66: the value of `analytic_n0` in the configuration has no effect on anything. -/
theorem C66_analytic_ignored (E : Env M G F R) {c c' : Config} (h : SameBut c c' "geometry" "analytic_n0")
    (args : List String) (input out : String) (fs : FS) :
    E.runConfig args input out c fs = E.runConfig args input out c' fs := by
  have g := h.get_eq
  obtain ⟨v, v', e1, e2⟩ := h.both
  have k : ∀ s o, o ≠ "analytic_n0" → c.get s o = c'.get s o := fun s o ho =>
    g s o fun he => ho (congrArg Prod.snd he)
  have hr : ∀ o, o ≠ "analytic_n0" → E.radius c o = E.radius c' o := by
    intro o ho; unfold Env.radius; rw [k _ _ ho]
  have hf : ∀ s o, o ≠ "analytic_n0" → E.getFloat c s o = E.getFloat c' s o := by
    intro s o ho; unfold Env.getFloat; rw [k _ _ ho]
  have ht : ∀ s o, o ≠ "analytic_n0" → E.textInt c s o = E.textInt c' s o := by
    intro s o ho; unfold Env.textInt; rw [k _ _ ho]
  have hd : E.distance args c = E.distance args c' := by unfold Env.distance; rw [hf _ _ (by decide)]
  have hp : E.precision c = E.precision c' := by unfold Env.precision; rw [k _ _ (by decide)]
  have hl : E.lmax c = E.lmax c' := by unfold Env.lmax; rw [k _ "lmax" (by decide), k _ "l_offset" (by decide)]
  have ho : E.lOffset c = E.lOffset c' := by unfold Env.lOffset; rw [k _ _ (by decide)]
  have he : evaluationOpt c = evaluationOpt c' := by unfold evaluationOpt; rw [k _ _ (by decide)]
  have ha : E.geomArgs args c = E.geomArgs args c' := by
    unfold Env.geomArgs
    rw [hr "ra" (by decide), hr "rb" (by decide), hd, hp, hl, ho, he, ht _ _ (by decide), k _ "mata" (by decide),
      k _ "matb" (by decide), k _ "matmd" (by decide)]
  have hn : ∀ r1 r2, analyticN0 c r1 r2 = analyticN0 c' r1 r2 := by
    intro r1 r2; unfold analyticN0; rw [e1, e2]; rfl
  have hc : ∀ g r1 r2, E.calculate c g r1 r2 = E.calculate c' g r1 r2 := by
    intro g r1 r2
    unfold Env.calculate
    rw [hf _ "tmin" (by decide), ht _ "nmax" (by decide), hn, hf _ "tmax" (by decide), k _ "quantity" (by decide)]
  have hq : E.compute args c = E.compute args c' := by
    unfold Env.compute
    rw [ha, k _ "quantity" (by decide)]
    simp only [hc]
  have hj : ∀ g f, E.job c input g f = E.job c' input g f := by
    intro g f
    unfold Env.job
    rw [k _ "mata" (by decide), k _ "matb" (by decide), k _ "matmd" (by decide), k _ "quantity" (by decide)]
  unfold Env.runConfig
  rw [hq]
  simp only [hj]

/-- C66: the flag passed on is `True` exactly if neither radius is a list, provided the option is present. -/
theorem C66_analytic_value {c : Config} {v : String} (h : c.get "geometry" "analytic_n0" = .ok v) (r1 r2 : Radius) :
    analyticN0 c r1 r2 = .ok (!(r1.isList || r2.isList)) := by
  unfold analyticN0; rw [h]; rfl

/-- C66: although it is ignored, the option must be present. -/
theorem C66_analytic_required (E : Env M G F R) {c : Config} {e : PyErr} (h : c.get "geometry" "analytic_n0" = .error e)
    (args : List String) : ∀ v, E.compute args c ≠ .ok v := by
  intro v hv
  unfold Env.compute at hv
  cases h1 : E.geomArgs args c with
  | error e => rw [h1, error_bind] at hv; cases hv
  | ok a =>
    rw [h1, ok_bind] at hv
    cases h2 : E.geometry a with
    | error e => rw [h2, error_bind] at hv; cases hv
    | ok g =>
      rw [h2, ok_bind] at hv
      cases h3 : c.get "thermodynamics" "quantity" with
      | error e => rw [h3, error_bind] at hv; cases hv
      | ok q =>
        rw [h3, ok_bind] at hv
        have : ∃ e, E.calculate c g a.r1 a.r2 = .error e := by
          unfold Env.calculate
          cases h4 : E.getFloat c "thermodynamics" "tmin" with
          | error e => exact ⟨e, rfl⟩
          | ok x =>
            rw [ok_bind]
            cases h5 : E.textInt c "thermodynamics" "nmax" with
            | error e => exact ⟨e, rfl⟩
            | ok n =>
              rw [ok_bind]
              unfold analyticN0
              rw [h]
              exact ⟨e, rfl⟩
        obtain ⟨e', he⟩ := this
        rw [he, error_bind] at hv
        cases hv

/-- C66: with a third argument the distance comes from the command line alone, otherwise from the configuration. -/
theorem C66_distance (E : Env M G F R) (a b c d : String) (cfg : Config) :
    (∀ x, E.toFloat d = some x → E.distance [a, b, c, d] cfg = .ok x) ∧
    (E.toFloat d = none → E.distance [a, b, c, d] cfg = .error .valueError) ∧
    E.distance [a, b, c] cfg = E.getFloat cfg "geometry" "d" := by
  refine ⟨fun x h => ?_, fun h => ?_, rfl⟩ <;> simp [Env.distance, h]

/-- C66: a missing `l_offset` means 0 for an integer `lmax` and aborts for an automatic one; a text that is not an
integer aborts in both cases. -/
theorem C66_l_offset (E : Env M G F R) {c : Config} {s : String} (hs : c.get "geometry" "lmax" = .ok s) :
    (c.get "geometry" "l_offset" = .error .noOptionError →
      (∀ n, E.toInt s = some n → E.lmax c = .ok (.num n) ∧ E.lOffset c = .ok 0) ∧
      (E.toInt s = none → s = "automatic" → E.lmax c = .error .noOptionError)) ∧
    (∀ o, c.get "geometry" "l_offset" = .ok o → E.toInt o = none → E.lOffset c = .error .valueError) ∧
    (∀ o n, c.get "geometry" "l_offset" = .ok o → E.toInt o = some n → E.lOffset c = .ok n) := by
  refine ⟨fun h => ⟨fun n hn => ⟨?_, ?_⟩, fun hn ha => ?_⟩, fun o ho hn => ?_, fun o n ho hn => ?_⟩
  · unfold Env.lmax; rw [hs, ok_bind, hn]
  · unfold Env.lOffset; rw [h]
  · unfold Env.lmax; rw [hs, ok_bind, hn]; simp only; rw [if_pos ha, h, error_bind]
  · unfold Env.lOffset; rw [ho]; simp only; rw [hn]
  · unfold Env.lOffset; rw [ho]; simp only; rw [hn]

/-- C66: a `precision` that is not a number, "automatic" included, aborts by an UnboundLocalError. -/
theorem C66_precision (E : Env M G F R) {c : Config} {s : String} (hs : c.get "geometry" "precision" = .ok s)
    (h : E.toFloat s = none) : E.precision c = .error .unboundLocalError := by
  unfold Env.precision; rw [hs, ok_bind, h]

/-- C66: a radius is a number, or else a list of the comma-separated numbers, or else a TypeError. -/
theorem C66_radius (E : Env M G F R) {c : Config} {o s : String} (hs : c.get "geometry" o = .ok s) :
    (∀ x, E.toFloat s = some x → E.radius c o = .ok (.single x)) ∧
    (∀ xs, E.toFloat s = none → (s.splitOn ",").mapM E.toFloat = some xs → E.radius c o = .ok (.list xs)) ∧
    (E.toFloat s = none → (s.splitOn ",").mapM E.toFloat = none → E.radius c o = .error .typeError) := by
  refine ⟨fun x h => ?_, fun xs h h' => ?_, fun h h' => ?_⟩ <;> unfold Env.radius <;> rw [hs, ok_bind, h]
  · simp only; rw [h']
  · simp only; rw [h']

/-- An environment and a configuration with which the script succeeds. -/
def demoEnv : Env Unit Unit Unit Unit where
  parse _ := .ok fun _ => some fun o => some (if o = "lmax" then "3" else if o = "l_offset" then "0" else "1")
  toFloat s := if s = "1" then some 1 else none
  toInt s := if s = "3" then some 3 else if s = "0" then some 0 else if s = "1" then some 1 else none
  evalMat _ := .ok ()
  geometry _ := .ok ()
  finiteT _ _ _ _ _ := .ok ()
  eval _ _ := .ok ()
  jobInfos _ _ _ _ _ _ _ := .ok "# job\n"
  savetxt _ := .ok "1\n"

example : (demoEnv.run ["worker.py", "c", "r"] fun p => if p = "c" then some "" else none).2 = .ok () := by
  rfl

end CasSph
