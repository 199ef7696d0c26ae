/-
  Model of src/ana_cont/solvers.py:993-1081, class `NewtonOptimizer`.

  Simplifications: exact real arithmetic, so no NaN (line 1063-1064 never fires); `np.linalg.pinv` is a function of the matrix (`none`: it
  raises LinAlgError).  `max_hist = 1` as in the only call (line 536).
-/
import Verif.MaxEnt.Model
import Mathlib.Data.Finset.Lattice.Fold
import Mathlib.Data.Fintype.Basic
import Mathlib.Algebra.Order.Archimedean.Real.Basic

noncomputable section

namespace DGA.Mx

open Finset

/-- function value and Jacobian, solvers.py:253, 280 -/
structure FJ (n : ℕ) where
  f : (Fin n → ℝ) → Fin n → ℝ
  J : (Fin n → ℝ) → Fin n → Fin n → ℝ

/-- `np.linalg.pinv` (library function) -/
abbrev Pinv (n : ℕ) := (Fin n → Fin n → ℝ) → Option (Fin n → Fin n → ℝ)

/-- solvers.py:1023-1027 `increment` -/
def increment {n : ℕ} (pinv : Pinv n) (f : Fin n → ℝ) (J : Fin n → Fin n → ℝ) (i : Fin n) : ℝ :=
  match pinv J with
  | some P => -∑ j, P i j * f j
  | none => 0

/-- solvers.py:1029-1030 entries with `np.abs(proposal) > significance_limit` -/
def signif {n : ℕ} (prop : Fin n → ℝ) : Finset (Fin n) := Finset.univ.filter fun i => 1e-4 < |prop i|

/-- solvers.py:1028-1034 `step_reduction` -/
def stepReduction {n : ℕ} (prop inc : Fin n → ℝ) : ℝ :=
  if h : (signif prop).Nonempty then
    let maxRatio := (signif prop).sup' h fun i => |inc i / prop i|
    if 1 < maxRatio then 1 / maxRatio else 1
  else 1

/-- solvers.py:1014-1036 `iteration_function` -/
def iterate {n : ℕ} (pinv : Pinv n) (fj : FJ n) (prop : Fin n → ℝ) (i : Fin n) : ℝ :=
  prop i + stepReduction prop (increment pinv (fj.f prop) (fj.J prop)) * increment pinv (fj.f prop) (fj.J prop) i

/-- solvers.py:1072-1081 `get_proposal` with `mixing=0.5`; the arguments are the last entries of `props` and `res`, which have the same length -/
def getProposal {n : ℕ} (prop res : Fin n → ℝ) (i : Fin n) : ℝ := prop i + 0.5 * (res i - prop i)

/-- exceptions -/
inductive NErr | runtimeWarning | valueError
  deriving DecidableEq, Repr

/-- solvers.py:1052-1070: the loop and what follows it.  `prop`, `res`: last entries of the two lists.  For n = 0 `np.max` of an empty
    array raises ValueError. -/
def newtonLoop {n : ℕ} (step : (Fin n → ℝ) → Fin n → ℝ) (maxIter : ℕ) (counter : ℕ) (prop res : Fin n → ℝ) : Except NErr ((Fin n → ℝ) × ℕ) :=
  let p := getProposal prop res
  let r := step p
  if hc : counter > maxIter then .error .runtimeWarning   -- `converged` by the first alternative; counter + 1 > max_iter
  else if n = 0 then .error .valueError
  else if ∀ i, |r i - p i| < 1e-4 then
    if counter + 1 > maxIter then .error .runtimeWarning else .ok (r, counter + 1)
  else newtonLoop step maxIter (counter + 1) p r
termination_by maxIter + 1 - counter

/-- solvers.py:1038-1070 `__call__` -/
def newton {n : ℕ} (pinv : Pinv n) (fj : FJ n) (maxIter : ℕ) (guess : Fin n → ℝ) : Except NErr ((Fin n → ℝ) × ℕ) :=
  newtonLoop (iterate pinv fj) maxIter 0 guess (iterate pinv fj guess)

end DGA.Mx
