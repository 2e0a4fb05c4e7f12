import Verif.Model.FloatSum

/-!
# Model of `entropy` in rounded arithmetic

As in Model/FloatSum.  `np.gradient` with a constant step subtracts neighbouring elements and divides by the step (at the ends) or by twice the step; negation is exact.
-/

namespace CasSph

namespace FlFun

variable (A : FlFun)

/-- `np.gradient(f, h)`, used in thermodynamics.py:102, for a one-dimensional array: centred differences inside, one-sided at the ends; ValueError for fewer than two points. -/
noncomputable def npGradient (f : List ℝ) (h : ℝ) : Res (List ℝ) :=
  if f.length < 2 then .error .valueError
  else .ok ((List.range f.length).map fun i : ℕ =>
    if i = 0 then A.div (A.sub (f.getD 1 0) (f.getD 0 0)) h
    else if i + 1 = f.length then A.div (A.sub (f.getD i 0) (f.getD (i - 1) 0)) h
    else A.div (A.sub (f.getD (i + 1) 0) (f.getD (i - 1) 0)) (A.mul 2 h))

/-- thermodynamics.py:96-103 `entropy`. -/
noncomputable def entropy (sum : (p : ℕ) → (Fin p → ℝ) → ℝ) (p : FTParams) : Proc FT (List ℝ) :=
  Proc.bind (A.ensureF p) fun _ => Proc.bind (A.freeEnergy sum p) fun F s => ((A.npGradient F p.deltaT).map fun l => l.map (- ·), s)

end FlFun

end CasSph
