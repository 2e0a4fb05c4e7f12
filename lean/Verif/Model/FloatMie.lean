import Verif.Model.FloatBessel
import Verif.Model.Scattering

/-!
# Model of the Mie coefficients of `CasimirRio/scattering.py` in rounded arithmetic

As in Model/FloatBessel every operation may return any number close to the exact result.  The order of the operations is
that of the code.  Simplifications: no overflow, no underflow; `-l`, `(-1)**l` and `(-1)**l*2` are exact (they are
integers); permittivity and permeability are given (as the numbers returned by `epsilon` and `mu`); one wavenumber and
one `l` at a time, the rows computed by `mie_bessels` are a table by `l` and argument.
-/

namespace CasSph

/-- The operations of Model/FloatBessel and `np.sqrt`. -/
structure FlMie extends FlFun where
  sqrt : ℝ → ℝ

namespace FlMie

variable (A : FlMie)

open Classical in
/-- A quotient as computed; a zero denominator is an error value as in Model/Scattering. -/
noncomputable def quot (a b : ℝ) : Res ℝ := if b = 0 then .error .zeroDivisionError else .ok (A.div a b)

/-- scattering.py:109, 111: `n = np.sqrt(eps*mu)`. -/
noncomputable def n (a : Medium) : ℝ := A.sqrt (A.mul a.eps a.mu)

/-- scattering.py:112-114, the argument `kr*n` with `kr = k*r`. -/
noncomputable def arg (k r : ℝ) (a : Medium) : ℝ := A.mul (A.mul k r) (A.n a)

/-- scattering.py:268-269, 289-290, the argument `n*k*r`. -/
noncomputable def argPEC (k r : ℝ) (a : Medium) : ℝ := A.mul (A.mul (A.n a) k) r

/-- scattering.py:127-128, `-l + kr*n*np.exp(iv[l-1]-iv[l])`. -/
noncomputable def idF (l : ℕ) (x : ℝ) (B : Bes) : ℝ := A.add (-l) (A.mul x (A.exp (A.sub B.i0 B.i1)))

/-- scattering.py:129, `-l - kr*n*np.exp(kv[l-1]-kv[l])`. -/
noncomputable def kdF (l : ℕ) (x : ℝ) (B : Bes) : ℝ := A.sub (-l) (A.mul x (A.exp (A.sub B.k0 B.k1)))

/-- scattering.py:133, `(-1)**l*np.pi*0.5`. -/
noncomputable def prefak (l : ℕ) : ℝ := A.mul (A.mul ((-1) ^ l) A.pi) 0.5

/-- scattering.py:188, `(-1)**l*2/np.pi`. -/
noncomputable def prefakInt (l : ℕ) : ℝ := A.div ((-1) ^ l * 2) A.pi

/-- scattering.py:107-143, `mie` for one `(k, l)`: interior `a`, exterior `b`, table `T` of the computed logarithms. -/
noncomputable def mie (T : BesTable) (l : ℕ) (k r : ℝ) (a b : Medium) : Res Mie := do
  let xi := A.arg k r a
  let xe := A.arg k r b
  let idi := A.idF l xi (T l xi)
  let ide := A.idF l xe (T l xe)
  let kde := A.kdF l xe (T l xe)
  let te ← A.quot (A.sub (A.mul b.mu idi) (A.mul a.mu ide)) (A.sub (A.mul b.mu idi) (A.mul a.mu kde))
  let tm ← A.quot (A.sub (A.mul b.eps idi) (A.mul a.eps ide)) (A.sub (A.mul b.eps idi) (A.mul a.eps kde))
  .ok ⟨A.mul te (A.prefak l), A.mul tm (A.prefak l), A.sub (T l xe).i1 (T l xe).k1⟩

/-- scattering.py:163-197, `mie_internal` for one `(k, l)`. -/
noncomputable def mieInternal (T : BesTable) (l : ℕ) (k r : ℝ) (a b : Medium) : Res Mie := do
  let xi := A.arg k r a
  let xe := A.arg k r b
  let idi := A.idF l xi (T l xi)
  let kdi := A.kdF l xi (T l xi)
  let kde := A.kdF l xe (T l xe)
  let te ← A.quot (A.sub (A.mul b.mu kdi) (A.mul a.mu kde)) (A.sub (A.mul b.mu idi) (A.mul a.mu kde))
  let tm ← A.quot (A.sub (A.mul b.eps kdi) (A.mul a.eps kde)) (A.sub (A.mul b.eps idi) (A.mul a.eps kde))
  .ok ⟨A.mul te (A.prefakInt l), A.mul tm (A.prefakInt l), A.sub (T l xi).k1 (T l xi).i1⟩

/-- scattering.py:268-280, `miePEC` for one `(k, l)`: `prefak * id_e/kd_e`. -/
noncomputable def miePEC (T : BesTable) (l : ℕ) (k r : ℝ) (b : Medium) : Res Mie := do
  let x := A.argPEC k r b
  let tm ← A.quot (A.mul (A.prefak l) (A.idF l x (T l x))) (A.kdF l x (T l x))
  .ok ⟨A.mul (A.prefak l) 1, tm, A.sub (T l x).i1 (T l x).k1⟩

/-- scattering.py:289-301, `miePEC_internal` for one `(k, l)`: `prefak * (kd_i/id_i)`. -/
noncomputable def miePECInternal (T : BesTable) (l : ℕ) (k r : ℝ) (a : Medium) : Res Mie := do
  let x := A.argPEC k r a
  let q ← A.quot (A.kdF l x (T l x)) (A.idF l x (T l x))
  .ok ⟨A.mul (A.prefakInt l) 1, A.mul (A.prefakInt l) q, A.sub (T l x).k1 (T l x).i1⟩

end FlMie

end CasSph
