import Verif.Model.FloatBessel
import Verif.Model.Blocks

/-!
# Model of scaling and block assembly, `CasimirRio/geometry.py`, in rounded arithmetic

As in Model/FloatBessel every operation may return any number close to the exact result; the order of the operations is that
of the code.  Simplifications: no overflow, no underflow; `abs`, `max`, comparisons, negation and the integers `l1-l2`, `n-1`
are exact.  The order of the summands in `.sum(axis=3)` is an argument (`sum`).  One wavenumber, forceFlag = 0.
-/

namespace CasSph

open scoped Classical

namespace FlFun

variable (A : FlFun) {n p : ℕ}

/-- geometry.py:806-813, 815: `abs(A-max(B, C))*fak`, and whether `C > B`. -/
noncomputable def scaleSlope (X : Fin (n + 2) → Fin (n + 2) → Fin p → ℝ) : Res (ℝ × Bool) :=
  match npArgmax (X 0 (Fin.last (n + 1))) with
  | none => .error .valueError
  | some order =>
    let a := X 0 0 order
    let b := X 0 (Fin.last (n + 1)) order
    let c := X (Fin.last (n + 1)) 0 order
    .ok (A.mul |A.sub a (max b c)| (A.div 1 ((n : ℝ) + 1)), decide (c > b))

/-- geometry.py:796-817 `single_k_scale(M)`. -/
noncomputable def singleKScale : {n p : ℕ} → (Fin n → Fin n → Fin p → ℝ) → Res (Fin n → Fin n → Fin p → ℝ)
  | 0, _, _ => .error .indexError
  | 1, _, X => .ok X
  | _ + 2, _, X => do
    let a ← A.scaleSlope X
    .ok fun l1 l2 s =>
      let K := A.mul a.1 ((l1.1 + 1 : ℝ) - (l2.1 + 1))
      A.add (if a.2 then -K else K) (X l1 l2 s)

/-- geometry.py:820-830 `dynamic_scaling`. -/
noncomputable def dynamicScaling (X : Fin n → Fin n → Fin p → ℝ) : Res (Fin n → Fin n → Fin p → ℝ) :=
  (A.singleKScale X).map fun Y l1 l2 s => A.exp (Y l1 l2 s)

/-- geometry.py:301 `a2+b2+V4+V4t`. -/
noncomputable def logSkal (e : RTElems n p) (l1 l2 : Fin n) (s : Fin p) : ℝ :=
  A.add (A.add (A.add (e.a2 l1) (e.b2 s)) (e.V4 l1 s)) (e.V4 l2 s)

/-- geometry.py:314-321 `skal * a*(v0*b*v1*1 + w0*c*w1*1)`. -/
noncomputable def term (skal a v0 b v1 w0 c w1 : ℝ) : ℝ :=
  A.mul (A.mul skal a) (A.add (A.mul (A.mul (A.mul v0 b) v1) 1) (A.mul (A.mul (A.mul w0 c) w1) 1))

/-- geometry.py:282-331 `blockmatrices`; `sum` is the summation over axis 3. -/
noncomputable def blockmatrices (sum : (p : ℕ) → (Fin p → ℝ) → ℝ) (e : RTElems n p) : Res (Blocks n) := do
  let skal ← A.dynamicScaling (A.logSkal e)
  .ok { EE := fun i j => sum p fun s => A.term (skal i j s) (e.aTE i) (e.V0 i s) (e.bTE s) (e.V1 j s) (e.V2 i s) (e.bTM s) (e.V3 j s)
        EM := fun i j => sum p fun s => A.term (skal i j s) (e.aTE i) (e.V0 i s) (e.bTE s) (e.V3 j s) (e.V2 i s) (e.bTM s) (e.V1 j s)
        ME := fun i j => sum p fun s => A.term (skal i j s) (e.aTM i) (e.V2 i s) (e.bTE s) (e.V1 j s) (e.V0 i s) (e.bTM s) (e.V3 j s)
        MM := fun i j => sum p fun s => A.term (skal i j s) (e.aTM i) (e.V2 i s) (e.bTE s) (e.V3 j s) (e.V0 i s) (e.bTM s) (e.V1 j s) }

end FlFun

end CasSph
