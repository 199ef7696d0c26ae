/-
  Model of the maximum-entropy functional of src/ana_cont/solvers.py, class `MaxentSolverSVD`: quadrature weights, root function and
  Jacobian, the map from singular space to spectra, chi-square, entropies and the Bayesian quantities.

  Simplifications: exact real arithmetic; arrays of length n are functions on `Fin n`; the singular value decomposition and the
  eigenvalues are data of the solver object (what is assumed about them is stated where it is used).
-/
import Mathlib.Analysis.SpecialFunctions.Log.Basic
import Mathlib.Analysis.SpecialFunctions.Sqrt
import Mathlib.Analysis.SpecialFunctions.Pow.Real
import Mathlib.Algebra.BigOperators.Fin

noncomputable section

namespace DGA.Mx

open Finset

/-- an array of length n as a function on ℕ (language construct; entries behind the end are never used) -/
def ext {n : ℕ} (a : Fin n → ℝ) (i : ℕ) : ℝ := if h : i < n then a ⟨i, h⟩ else 0

/-- `np.trapz(y, x)` for arrays of length n (language construct) -/
def trapz {n : ℕ} (y x : Fin n → ℝ) : ℝ :=
  ∑ i ∈ range (n - 1), (ext x (i + 1) - ext x i) * (ext y (i + 1) + ext y i) / 2

/-- solvers.py:129-131 the concatenation `[wmin], (re_axis[1:] + re_axis[:-1]) / 2., [wmax]` (length n+1); also continuation.py:163-166 -/
def edge {n : ℕ} (x : Fin n → ℝ) (k : ℕ) : ℝ :=
  if k = 0 then ext x 0 else if k < n then (ext x k + ext x (k - 1)) / 2 else ext x (n - 1)

/-- solvers.py:128-131 `self.dw = np.diff(...)` -/
def dw {n : ℕ} (x : Fin n → ℝ) (l : Fin n) : ℝ := edge x (l + 1) - edge x l

/-- Attributes of a solver object (solvers.py:112-207): mesh, inverse variances, data, real kernel matrix, the kept part of the
    singular value decomposition and the default model.  In the offdiagonal case lines 135-136 store the model twice. -/
structure Solver (nw nk ns : ℕ) where
  re : Fin nw → ℝ
  E : Fin nk → ℝ
  data : Fin nk → ℝ
  K : Fin nk → Fin nw → ℝ
  U : Fin nk → Fin ns → ℝ
  Xi : Fin ns → ℝ
  V : Fin nw → Fin ns → ℝ
  model : Fin nw → ℝ

variable {nw nk ns : ℕ}

namespace Solver

/-- solvers.py:135 `self.model_plus = model` -/
def modelPlus (s : Solver nw nk ns) : Fin nw → ℝ := s.model

/-- solvers.py:136 `self.model_minus = model` -/
def modelMinus (s : Solver nw nk ns) : Fin nw → ℝ := s.model

/-- solvers.py:192-193 `np.einsum('k,km,m,kn,n,ln,l,l->ml', E, U, Xi, U, Xi, V, dw, model)` -/
def W2 (s : Solver nw nk ns) (m : Fin ns) (l : Fin nw) : ℝ :=
  ∑ k, ∑ n, s.E k * s.U k m * s.Xi m * s.U k n * s.Xi n * s.V l n * dw s.re l * s.model l

/-- solvers.py:194 `W2[:, None, :] * (V_svd[None, :, :]).transpose((0, 2, 1))` -/
def W3 (s : Solver nw nk ns) (m i : Fin ns) (l : Fin nw) : ℝ := s.W2 m l * s.V l i

/-- solvers.py:197-198 `np.einsum('k,km,m,kn,n,ln,l->ml', E, U, Xi, U, Xi, V, dw)` -/
def M2 (s : Solver nw nk ns) (m : Fin ns) (l : Fin nw) : ℝ :=
  ∑ k, ∑ n, s.E k * s.U k m * s.Xi m * s.U k n * s.Xi n * s.V l n * dw s.re l

/-- solvers.py:199 -/
def M3 (s : Solver nw nk ns) (m i : Fin ns) (l : Fin nw) : ℝ := s.M2 m l * s.V l i

/-- solvers.py:202 `np.einsum('m,km,k,k->m', Xi, U, E, im_data)` -/
def Evi (s : Solver nw nk ns) (m : Fin ns) : ℝ := ∑ k, s.Xi m * s.U k m * s.E k * s.data k

/-- solvers.py:205-207 `np.einsum('i,j,ki,kj,k->ij', dw, dw, kernel, kernel, E)` -/
def d2chi2 (s : Solver nw nk ns) (i j : Fin nw) : ℝ := ∑ k, dw s.re i * dw s.re j * s.K k i * s.K k j * s.E k

/-- solvers.py:247, 272, 321 `v = np.dot(self.V_svd, u)` -/
def v (s : Solver nw nk ns) (u : Fin ns → ℝ) (l : Fin nw) : ℝ := ∑ m, s.V l m * u m

/-- solvers.py:222-253 `compute_f_J_diag`, first return value -/
def fDiag (s : Solver nw nk ns) (alpha : ℝ) (u : Fin ns → ℝ) (m : Fin ns) : ℝ :=
  alpha * u m + ∑ l, s.W2 m l * Real.exp (s.v u l) - s.Evi m

/-- solvers.py:222-253 `compute_f_J_diag`, second return value -/
def JDiag (s : Solver nw nk ns) (alpha : ℝ) (u : Fin ns → ℝ) (m i : Fin ns) : ℝ :=
  alpha * (if m = i then 1 else 0) + ∑ l, s.W3 m i l * Real.exp (s.v u l)

/-- solvers.py:255-280 `compute_f_J_offdiag`, first return value -/
def fOff (s : Solver nw nk ns) (alpha : ℝ) (u : Fin ns → ℝ) (m : Fin ns) : ℝ :=
  alpha * u m + ∑ l, s.M2 m l * (s.modelPlus l * Real.exp (s.v u l) - s.modelMinus l / Real.exp (s.v u l)) - s.Evi m

/-- solvers.py:255-280 `compute_f_J_offdiag`, second return value -/
def JOff (s : Solver nw nk ns) (alpha : ℝ) (u : Fin ns → ℝ) (m i : Fin ns) : ℝ :=
  alpha * (if m = i then 1 else 0) + ∑ l, s.M3 m i l * (s.modelPlus l * Real.exp (s.v u l) + s.modelMinus l / Real.exp (s.v u l))

/-- solvers.py:286-303 `singular_to_realspace_diag` -/
def specDiag (s : Solver nw nk ns) (u : Fin ns → ℝ) (l : Fin nw) : ℝ := s.model l * Real.exp (s.v u l)

/-- solvers.py:305-323 `singular_to_realspace_offdiag` -/
def specOff (s : Solver nw nk ns) (u : Fin ns → ℝ) (l : Fin nw) : ℝ :=
  s.modelPlus l * Real.exp (s.v u l) - s.modelMinus l / Real.exp (s.v u l)

/-- solvers.py:346-364 `chi2` -/
def chi2 (s : Solver nw nk ns) (A : Fin nw → ℝ) : ℝ := ∑ k, s.E k * (s.data k - trapz (fun l => s.K k l * A l) s.re) ^ 2

/-- solvers.py:366-380 `entropy_pos` -/
def entropyPos (s : Solver nw nk ns) (A : Fin nw → ℝ) (u : Fin ns → ℝ) : ℝ := trapz (fun l => A l - s.model l - A l * s.v u l) s.re

/-- solvers.py:382-400 `entropy_posneg` -/
def entropyPosneg (s : Solver nw nk ns) (A : Fin nw → ℝ) (_u : Fin ns → ℝ) : ℝ :=
  trapz (fun l => Real.sqrt (A l ^ 2 + 4 * s.modelPlus l * s.modelMinus l) - s.modelPlus l - s.modelMinus l
    - A l * Real.log ((Real.sqrt (A l ^ 2 + 4 * s.modelPlus l * s.modelMinus l) + A l) / (2 * s.modelPlus l))) s.re

/-- solvers.py:424 `LambdaMatrix` of `bayes_conv` -/
def lambdaMatrix (s : Solver nw nk ns) (A : Fin nw → ℝ) (i j : Fin nw) : ℝ :=
  Real.sqrt (A i / dw s.re i) * s.d2chi2 i j * Real.sqrt (A j / dw s.re j)

/-- solvers.py:456-457 `LambdaMatrix` of `bayes_conv_offdiag` -/
def lambdaMatrixOff (s : Solver nw nk ns) (A : Fin nw → ℝ) (i j : Fin nw) : ℝ :=
  ((A i ^ 2 + 4 * s.modelPlus i * s.modelMinus i) / dw s.re i ^ 2) ^ (1 / 4 : ℝ) * s.d2chi2 i j
    * ((A j ^ 2 + 4 * s.modelPlus j * s.modelMinus j) / dw s.re j ^ 2) ^ (1 / 4 : ℝ)

end Solver

/-- solvers.py:430-433 (and 459-462): `ng`, `tr`, `conv` from the eigenvalues `lam` -/
def bayes {n : ℕ} (lam : Fin n → ℝ) (entr alpha : ℝ) : ℝ × ℝ × ℝ :=
  let ng := -2 * alpha * entr
  let tr := ∑ i, lam i / (alpha + lam i)
  (ng, tr, tr / ng)

/-- solvers.py:489-494: posterior probability from the eigenvalues -/
def posterior {n : ℕ} (lam : Fin n → ℝ) (alpha entr chisq : ℝ) : ℝ :=
  Real.exp (alpha * entr - 0.5 * chisq + Real.log alpha + 0.5 * ∑ i, Real.log (alpha / (alpha + lam i)))

end DGA.Mx
