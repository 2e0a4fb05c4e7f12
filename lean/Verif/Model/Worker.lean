import Verif.Model.Py

/-!
# Model of CasimirRio/worker.py

The script as a function of its command line, the file system and the numerical code.  Texts are strings, the file
system maps paths to contents.  Everything computed by other files or by Python itself (conversion of strings to
numbers, `eval` of the material and quantity expressions, the constructors, the formatting of the result) is a
parameter collected in `Env`.  Not modelled: printed messages, paths that cannot be opened, other processes changing
the file system meanwhile.
-/

namespace CasSph

open scoped Classical

/-- `config` after `config.read` (worker.py:25-26): sections and, within them, options (names in lower case). -/
abbrev Config := String → Option (String → Option String)

/-- `config.get(section, option)` -/
def Config.get (c : Config) (sec opt : String) : Res String :=
  match c sec with
  | none => .error .noSectionError
  | some s => match s opt with
    | none => .error .noOptionError
    | some v => .ok v

/-- `ra`, `rb`: a number or a list of numbers -/
inductive Radius where
  | single (r : ℝ)
  | list (rs : List ℝ)

/-- `type(r) == list` -/
def Radius.isList : Radius → Bool
  | .single _ => false
  | .list _ => true

/-- `lmax`, `lssmax`, `nmax`: an integer or any text, "automatic" or not (other texts only cause a message) -/
inductive TextInt where
  | num (n : ℤ)
  | text (s : String)

/-- The keyword arguments of `geometry.SphereSphere` (worker.py:91-93); `forceFlag=0`. -/
structure GeomArgs (M : Type) where
  r1 : Radius
  r2 : Radius
  L : ℝ
  mat1 : M
  mat2 : M
  mat3 : M
  lmax : TextInt
  lOffset : ℤ
  lssmax : TextInt
  precision : ℝ
  evaluation : String

/-- What worker.py gets from Python and from the other modules. -/
structure Env (M G F R : Type) where
  /-- text of a configuration file to configuration, or the parse error -/
  parse : String → Res Config
  /-- `float(s)`, `none` for ValueError -/
  toFloat : String → Option ℝ
  /-- `int(s)` -/
  toInt : String → Option ℤ
  /-- `eval` of a material expression, tuples turned into lists (worker.py:84-90) -/
  evalMat : String → Res M
  /-- `geometry.SphereSphere(...)` -/
  geometry : GeomArgs M → Res G
  /-- `thermodynamics.finiteT(dT, nmax, Tmax, geom, analytic_n0)` -/
  finiteT : ℝ → TextInt → ℝ → G → Bool → Res F
  /-- `eval("f.%s" % quantity)` -/
  eval : String → F → Res R
  /-- worker.py:125-145 `job_infos`, of the input file name, the three material expressions, the quantity and the objects -/
  jobInfos : String → String → String → String → String → G → F → Res String
  /-- the text written by `np.savetxt`, or the exception (after the comment was written) -/
  savetxt : R → Res String

variable {M G F R : Type}

/-- `config.getfloat` -/
def Env.getFloat (E : Env M G F R) (c : Config) (sec opt : String) : Res ℝ := do
  let s ← c.get sec opt
  match E.toFloat s with
  | some x => .ok x
  | none => .error .valueError

/-- worker.py:28-37 `assign_radius`: only ValueError (and TypeError) of the first conversion lead to the second one, in
which every exception becomes a TypeError. -/
def Env.radius (E : Env M G F R) (c : Config) (opt : String) : Res Radius := do
  let s ← c.get "geometry" opt
  match E.toFloat s with
  | some x => .ok (.single x)
  | none => match (s.splitOn ",").mapM E.toFloat with
    | some rs => .ok (.list rs)
    | none => .error .typeError

/-- worker.py:69-72, 104-107: `getint`, the text itself after a ValueError -/
def Env.textInt (E : Env M G F R) (c : Config) (sec opt : String) : Res TextInt := do
  let s ← c.get sec opt
  match E.toInt s with
  | some n => .ok (.num n)
  | none => .ok (.text s)

/-- worker.py:49-52: the distance, from the command line if there is a third argument -/
def Env.distance (E : Env M G F R) (args : List String) (c : Config) : Res ℝ :=
  match args[3]? with
  | some s => match E.toFloat s with
    | some x => .ok x
    | none => .error .valueError
  | none => E.getFloat c "geometry" "d"

/-- worker.py:53-57: a ValueError of the conversion is handled by reading the variable `precision`, which has no value
yet -/
def Env.precision (E : Env M G F R) (c : Config) : Res ℝ := do
  let s ← c.get "geometry" "precision"
  match E.toFloat s with
  | some x => .ok x
  | none => .error .unboundLocalError

/-- worker.py:58-68: `lmax`; for "automatic" `l_offset` is read (a missing option is not caught) and forgotten -/
def Env.lmax (E : Env M G F R) (c : Config) : Res TextInt := do
  let s ← c.get "geometry" "lmax"
  match E.toInt s with
  | some n => .ok (.num n)
  | none =>
    if s = "automatic" then do
      let _ ← c.get "geometry" "l_offset"
      .ok (.text s)
    else .ok (.text s)

/-- worker.py:75-78: `l_offset`; here a missing option is caught and a ValueError is not -/
def Env.lOffset (E : Env M G F R) (c : Config) : Res ℤ :=
  match c.get "geometry" "l_offset" with
  | .error .noOptionError => .ok 0
  | .error e => .error e
  | .ok s => match E.toInt s with
    | some n => .ok n
    | none => .error .valueError

/-- worker.py:79-83 `evaluation` -/
def evaluationOpt (c : Config) : Res String :=
  match c.get "geometry" "evaluation" with
  | .error .noOptionError => .ok "lndet"
  | .error e => .error e
  | .ok s => .ok s

/-- worker.py:40-90 `return_geometry` up to the constructor -/
def Env.geomArgs (E : Env M G F R) (args : List String) (c : Config) : Res (GeomArgs M) := do
  let r1 ← E.radius c "ra"
  let r2 ← E.radius c "rb"
  let L ← E.distance args c
  let precision ← E.precision c
  let lmax ← E.lmax c
  let lssmax ← E.textInt c "geometry" "lssmax"
  let lOffset ← E.lOffset c
  let evaluation ← evaluationOpt c
  let s1 ← c.get "materials" "mata"
  let mat1 ← E.evalMat s1
  let s2 ← c.get "materials" "matb"
  let mat2 ← E.evalMat s2
  let s3 ← c.get "materials" "matmd"
  let mat3 ← E.evalMat s3
  .ok ⟨r1, r2, L, mat1, mat2, mat3, lmax, lOffset, lssmax, precision, evaluation⟩

/-- worker.py:110-116 in `do_calculation`: the option `analytic_n0` is read (a missing option is not
caught), then the variable is overwritten. -/
def analyticN0 (c : Config) (r1 r2 : Radius) : Res Bool := do
  let _ ← c.get "geometry" "analytic_n0"
  .ok (!(r1.isList || r2.isList))

/-- worker.py:97-121 `do_calculation` -/
def Env.calculate (E : Env M G F R) (c : Config) (g : G) (r1 r2 : Radius) : Res (R × F) := do
  let dT ← E.getFloat c "thermodynamics" "tmin"
  let nmax ← E.textInt c "thermodynamics" "nmax"
  let a ← analyticN0 c r1 r2
  let Tmax ← E.getFloat c "thermodynamics" "tmax"
  let f ← E.finiteT dT nmax Tmax g a
  let q ← c.get "thermodynamics" "quantity"
  let r ← E.eval q f
  .ok (r, f)

/-- everything before `save_result` (worker.py:95-123): the objects needed by it -/
def Env.compute (E : Env M G F R) (args : List String) (c : Config) : Res (G × F × R) := do
  let a ← E.geomArgs args c
  let g ← E.geometry a
  let _ ← c.get "thermodynamics" "quantity"
  let (r, f) ← E.calculate c g a.r1 a.r2
  .ok (g, f, r)

/-- Contents of the files. -/
abbrev FS := String → Option String

/-- open for writing, write and close -/
noncomputable def FS.write (fs : FS) (path content : String) : FS := fun p => if p = path then some content else fs p

/-- worker.py:152-153 in `save_result`: the name of the result file -/
noncomputable def target (fs : FS) (out : String) : String := if (fs out).isSome then out ++ "1" else out

/-- The states of the file system while a text is written to a newly opened file: any part of it may have reached the
file when the program dies. -/
noncomputable def writing (fs : FS) (path text : String) : List FS :=
  text.toList.inits.map fun p => fs.write path (String.ofList p)

/-- worker.py:147-160 `save_result`: the states the file system passes through (after the initial one), and how it ends.
`job` is the result of `job_infos`, called after the file was opened, `txt` the text of `np.savetxt`. -/
noncomputable def saveResult (fs : FS) (out : String) (job txt : Res String) : List FS × Res Unit :=
  let f := target fs out
  match job with
  | .error e => ([fs.write f ""], .error e)
  | .ok c => match txt with
    | .error e => (writing fs f c, .error e)
    | .ok t => (writing fs f (c ++ t), .ok ())

/-- worker.py:130-132, 138 `job_infos`, the options it reads -/
def Env.job (E : Env M G F R) (c : Config) (input : String) (g : G) (f : F) : Res String := do
  let s1 ← c.get "materials" "mata"
  let s2 ← c.get "materials" "matb"
  let s3 ← c.get "materials" "matmd"
  let q ← c.get "thermodynamics" "quantity"
  E.jobInfos input s1 s2 s3 q g f

/-- worker.py:25-26: `config.read` silently skips files that do not exist. -/
def Env.readConfig (E : Env M G F R) (fs : FS) (input : String) : Res Config :=
  match fs input with
  | none => .ok fun _ => none
  | some text => E.parse text

/-- The script after reading the configuration. -/
noncomputable def Env.runConfig (E : Env M G F R) (args : List String) (input out : String) (c : Config) (fs : FS) :
    List FS × Res Unit :=
  match E.compute args c with
  | .error e => ([], .error e)
  | .ok (g, f, r) => saveResult fs out (E.job c input g f) (E.savetxt r)

/-- worker.py as a whole (`sys.argv = args`) -/
noncomputable def Env.run (E : Env M G F R) (args : List String) (fs : FS) : List FS × Res Unit :=
  match args with
  | [_, input, out] | [_, input, out, _] =>
    match E.readConfig fs input with
    | .error e => ([], .error e)
    | .ok c => E.runConfig args input out c fs
  | _ => ([], .error .valueError)

/-- the file system afterwards -/
def finalState (fs : FS) (t : List FS × Res Unit) : FS := t.1.getLastD fs

end CasSph
