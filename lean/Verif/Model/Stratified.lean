import Verif.Model.Scattering

/-!
# Model of CasimirRio/stratified_sphere_scattering.py

One wavenumber `k` and one angular momentum `l` at a time (all numpy operations are elementwise), doubles are reals.
Materials are heap objects: a material is referred to by its address and `H` gives the object at an address.  Python's
`==` on materials, which define no `__eq__`, compares addresses.  The two lists handed to the constructor are stored by
reference; their contents are the state that `mie_stratified` reads and shortens.
-/

namespace CasSph

/-- Python list indexing `v[i]` with `i >= 0`. -/
def pyGet {α : Type} (v : List α) (i : ℕ) : Res α :=
  match v[i]? with
  | none => .error .indexError
  | some x => .ok x

/-- The heap of materials. -/
abbrev MatHeap := ℕ → Material

/-- The two list objects shared by the caller and the `StratifiedMieScattering` instance. -/
structure StratState where
  mats : List ℕ
  rs : List ℝ

/-- An argument of the constructor: a list or an object of another type. -/
inductive ListArg (α : Type) where
  | list (xs : List α)
  | other

/-- stratified_sphere_scattering.py:26-35, `__init__`.  `none`: the constructor succeeds but the instance has neither
`mat_list` nor `r_list` (the `if` of line 28 has no `else`).  A failing assertion (line 31) and the `IndexError` of
`mat_list[1]` (line 32) are both turned into a `TypeError`.  `scattering.__init__` itself (scattering.py:14-25) cannot
fail. -/
def stratInit : ListArg ℕ → ListArg ℝ → Res (Option StratState)
  | .list mats, .list rs =>
    if (rs.length : ℤ) = (mats.length : ℤ) - 1 then
      match mats with
      | _ :: _ :: _ => .ok (some ⟨mats, rs⟩)
      | _ => .error .typeError
    else .error .typeError
  | _, _ => .ok none

/-- stratified_sphere_scattering.py:55-114, `mie_coated(k, lmin, lmax, ri, ra, mat2, mat3, MieInner)`; `ri` is not
used. -/
noncomputable def stratCoated (T : BesTable) (mat2 mat3 : Material) (l : ℕ) (k ra : ℝ) (q : Mie) : Res Mie := do
  let a ← mat2.medium k
  let b ← mat3.medium k
  coatedCore l (k * ra) a b (T l (k * ra * a.n)) (T l (k * ra * b.n)) q

/-- stratified_sphere_scattering.py:49-53, the loop over the shells; `n` is the number of passes left, `i` the current
index. -/
noncomputable def stratLoop (T : BesTable) (H : MatHeap) (s : StratState) (l : ℕ) (k : ℝ) : ℕ → ℕ → Mie → Res Mie
  | 0, _, q => .ok q
  | n + 1, i, q => do
    let _ ← pyGet s.rs (i - 1)
    let ra ← pyGet s.rs i
    let a ← pyGet s.mats i
    let b ← pyGet s.mats (i + 1)
    let q' ← stratCoated T (H a) (H b) l k ra q
    stratLoop T H s l k n (i + 1) q'

/-- stratified_sphere_scattering.py:42-43, the coefficients of the innermost sphere. -/
noncomputable def stratInner (T : BesTable) (H : MatHeap) (s : StratState) (l : ℕ) (k : ℝ) : Res Mie := do
  let a ← pyGet s.mats 0
  let b ← pyGet s.mats 1
  let r ← pyGet s.rs 0
  mie T T (H a) (H b) l k r

/-- stratified_sphere_scattering.py:44, the test for a redundant outermost shell (evaluated after `mat_list[1]` has
been read, so the list has at least two entries). -/
def stratRedundant (mats : List ℕ) : Bool :=
  mats[mats.length - 1]? == mats[mats.length - 2]? && decide (3 ≤ mats.length)

/-- stratified_sphere_scattering.py:37-53, `mie_stratified`: result and final contents of the two lists.  The recursion
of line 47 is bounded by `fuel`; `none` means that it has not returned yet. -/
noncomputable def mieStratified (T : BesTable) (H : MatHeap) (l : ℕ) (k : ℝ) :
    ℕ → StratState → Option (Res Mie × StratState)
  | 0, _ => none
  | fuel + 1, s =>
    match stratInner T H s l k with
    | .error e => some (.error e, s)
    | .ok q =>
      if stratRedundant s.mats then
        mieStratified T H l k fuel ⟨s.mats.dropLast, s.rs.dropLast⟩
      else some (stratLoop T H s l k (s.rs.length - 1) 1 q, s)

/-- stratified_sphere_scattering.py:26-53, `StratifiedMieScattering(mat_list, r_list).mie_stratified(k, ...)`: an instance
without attributes raises `AttributeError` in line 42.  The second component is the contents of the lists afterwards. -/
noncomputable def stratScript (T : BesTable) (H : MatHeap) (l : ℕ) (k : ℝ) (fuel : ℕ) (m : ListArg ℕ) (r : ListArg ℝ) :
    Option (Res Mie × Option StratState) :=
  match stratInit m r with
  | .error e => some (.error e, none)
  | .ok none => some (.error .attributeError, none)
  | .ok (some s) => (mieStratified T H l k fuel s).map fun p => (p.1, some p.2)

end CasSph
