/-
  Model of the constructor of `MaxentSolverSVD` (src/ana_cont/solvers.py:112-207): covariance, rotation, number of kept singular values.

  Simplifications: `np.linalg.eigh` and `np.linalg.svd` are arguments (their results); NaN and integer overflow not modelled.
-/
import Verif.MaxEnt.Model
import Mathlib.Data.Complex.Basic
import Mathlib.Data.Fin.Tuple.Basic

noncomputable section

namespace DGA.Mx

open Finset

/-- exceptions of the constructor -/
inductive Err | valueError | attributeError | indexError
  deriving DecidableEq, Repr

/-- what a call of the constructor says about the errors: solvers.py:138-145 -/
inductive ErrIn (n : ℕ) where
  | stdev (σ : Fin n → ℝ)
  | cov (eig : Fin n → ℝ) (ucov : Fin n → Fin n → ℂ)

/-- solvers.py:138-145: exactly one of `stdev`, `cov` must be given.  With both or none of them no branch is taken and line 147 reads
    the missing attribute `ucov`. -/
def chooseErr {n : ℕ} (stdev : Option (Fin n → ℝ)) (cov : Option ((Fin n → ℝ) × (Fin n → Fin n → ℂ))) : Except Err (ErrIn n) :=
  match stdev, cov with
  | some σ, none => .ok (.stdev σ)
  | none, some c => .ok (.cov c.1 c.2)
  | _, _ => .error .attributeError

/-- solvers.py:139, 144-145 `self.var` -/
def ErrIn.var {n : ℕ} : ErrIn n → Fin n → ℝ
  | .stdev σ => fun i => σ i ^ 2
  | .cov eig _ => fun i => |eig i|

/-- solvers.py:141, 144 `self.ucov` -/
def ErrIn.ucov {n : ℕ} : ErrIn n → Fin n → Fin n → ℂ
  | .stdev _ => fun i j => if i = j then 1 else 0
  | .cov _ u => u

/-- solvers.py:147 `np.dot(self.ucov.T.conj(), self.im_data)` and kernels.py:189 for one column of the kernel -/
def rotate {n : ℕ} (ucov : Fin n → Fin n → ℂ) (d : Fin n → ℂ) (i : Fin n) : ℂ := ∑ j, (starRingEnd ℂ) (ucov j i) * d j

/-- solvers.py:167 and kernels.py:182 `np.concatenate((x.real, x.imag))` -/
def reim {n : ℕ} (d : Fin n → ℂ) : Fin (n + n) → ℝ := Fin.append (fun i => (d i).re) (fun i => (d i).im)

/-- solvers.py:148, 169: `E` of the fermionic frequency kernel -/
def Edouble {n : ℕ} (e : ErrIn n) : Fin (n + n) → ℝ := Fin.append (fun i => 1 / e.var i) (fun i => 1 / e.var i)

/-- solvers.py:325-344 `backtransform`: `np.trapz(np.dot(self.ucov, self.kernel.matrix) * A[None, :], self.re_axis, axis=-1)`, `kr` the
    rotated kernel; real and imaginary part of a complex array are integrated separately -/
def backtransform {nw n : ℕ} (re : Fin nw → ℝ) (ucov : Fin n → Fin n → ℂ) (kr : Fin n → Fin nw → ℂ) (A : Fin nw → ℝ) (j : Fin n) : ℂ :=
  ⟨trapz (fun l => (∑ i, ucov j i * kr i l).re * A l) re, trapz (fun l => (∑ i, ucov j i * kr i l).im * A l) re⟩

/-- solvers.py:174 `np.arange(min(self.nw, self.niw))[S > 1e-10][-1]`; `none`: IndexError -/
def nSv (n : ℕ) (S : ℕ → ℝ) : Option ℕ := ((List.range n).filter fun i => decide (1e-10 < S i)).getLast?

/-- solvers.py:176-178: keep the first `ns` columns of the decomposition -/
def truncate {nw nk : ℕ} (re : Fin nw → ℝ) (E data : Fin nk → ℝ) (K : Fin nk → Fin nw → ℝ) (U : Fin nk → ℕ → ℝ) (S : ℕ → ℝ)
    (Vt : ℕ → Fin nw → ℝ) (model : Fin nw → ℝ) (ns : ℕ) : Solver nw nk ns :=
  { re := re, E := E, data := data, K := K, U := fun k m => U k m, Xi := fun m => S m, V := fun l m => Vt m l, model := model }

/-- solvers.py:138-178 for the fermionic frequency kernel: rotated and split data, kernel and errors -/
def initFermi {nw n : ℕ} (re : Fin nw → ℝ) (data : Fin n → ℂ) (kern : Fin n → Fin nw → ℂ) (e : ErrIn n)
    (U : Fin (n + n) → ℕ → ℝ) (S : ℕ → ℝ) (Vt : ℕ → Fin nw → ℝ) (model : Fin nw → ℝ) (ns : ℕ) : Solver nw (n + n) ns :=
  truncate re (Edouble e) (reim (rotate e.ucov data)) (fun k l => reim (rotate e.ucov fun j => kern j l) k) U S Vt model ns

/-- solvers.py:138-178 for the other kernels with real data, kernel and covariance (`U` of the rotation real) -/
def initReal {nw n : ℕ} (re : Fin nw → ℝ) (data : Fin n → ℝ) (kern : Fin n → Fin nw → ℝ) (var : Fin n → ℝ) (ucov : Fin n → Fin n → ℝ)
    (U : Fin n → ℕ → ℝ) (S : ℕ → ℝ) (Vt : ℕ → Fin nw → ℝ) (model : Fin nw → ℝ) (ns : ℕ) : Solver nw n ns :=
  truncate re (fun i => 1 / |var i|) (fun i => ∑ j, ucov j i * data j) (fun i l => ∑ j, ucov j i * kern j l) U S Vt model ns

end DGA.Mx
