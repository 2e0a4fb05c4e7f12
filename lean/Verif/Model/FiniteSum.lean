import Verif.Model.Translation
import Verif.Model.LinAlg
import Verif.Model.MSum

/-! # Model of the contribution of one `m` at non-zero wavenumbers, `CasimirRio/geometry.py` lines 475-489, 582-591 -/

namespace CasSph

/-- Inputs of `blockmatrices` at one non-zero wavenumber: the argument `k L √ε` and the Bessel functions of the
translation (translation.py:44-57), the Mie coefficients of the two spheres. -/
structure WaveIn where
  nL : ℝ
  bes : List ℝ
  a : MieCoef
  b : MieCoef

/-- One of the four arrays returned by `blockmatrices` (geometry.py:314-331) for several wavenumbers: axis 0 is the wavenumber. -/
def blockArr {N : ℕ} (Bs : List (Blocks N)) (f : Blocks N → Matrix (Fin N) (Fin N) ℝ) : NdArr :=
  NdArr.mk3 Bs.length N N fun i a b =>
    match Bs[i]? with
    | some B => if h : a < N ∧ b < N then f B ⟨a, h.1⟩ ⟨b, h.2⟩ else 0
    | none => 0

/-- geometry.py:486 `matrix_append(self.blockmatrices(m, matsubaras))`, also geometry.py:582-591 `supermatrix(m, matsubaras, 0)`,
for wavenumbers without a zero; `ext` is `ext_flag` (two separate spheres unless stated otherwise).  (Without wavenumbers `matsubaras[0]` raises IndexError.) -/
noncomputable def superMatrix (lmax lssmax : ℕ) (m : ℤ) (ws : List WaveIn) (ext : Bool := true) : Res NdArr := do
  if ws = [] then .error .indexError
  else
    let Bs ← ws.mapM fun w => blockmatricesAt lmax lssmax m ext w.nL w.bes w.a w.b
    matrixAppend (blockArr Bs (·.EE)) (blockArr Bs (·.EM)) (blockArr Bs (·.ME)) (blockArr Bs (·.MM))

/-- geometry.py:475-489 `single_m(m, matsubaras)` for wavenumbers without a zero, also the body of the loop of `mSumme`
(geometry.py:501-512): `balanced_slogdet` of the appended matrix.  The `Option` is the loop fuel of `balance`.  The Mie
coefficients are taken from `l = max(m, 1)` on, as in the loop, in which they are cached for `m = 0`; a call for `m ≥ 2` with wavenumbers that are
not cached fails instead (C75). -/
noncomputable def singleM (fuel : ℕ) (conv : ℝ) (lmax lssmax : ℕ) (m : ℤ) (ws : List WaveIn) (ext : Bool := true) :
    Option (Res (List EReal)) :=
  match superMatrix lmax lssmax m ws ext with
  | .error e => some (.error e)
  | .ok M => balancedSlogdet fuel conv M

end CasSph
