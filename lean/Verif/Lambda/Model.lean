import Mathlib.Analysis.Complex.Basic

/-
  Model of /repo/src/dga/lambda_correction.py.

  A susceptibility is a list of rows, one per momentum (a mesh `[kx,ky,kz,w]` is flattened over its momentum axes, only
  the last axis and the total mean matter), each row holding the bosonic frequencies.  Arithmetic is exact; numpy's
  `1/0 = inf` is Lean's `1/0 = 0`, so the theorems are stated where no division by zero happens.
-/

noncomputable section

namespace DGA.Lam

/-- `chi.shape[-1]` of a rectangular array given by its rows (language construct). -/
def lastDim (chi : List (List ℂ)) : Nat := (chi.head?.map List.length).getD 0

/-- lambda_correction.py:13-16 `get_lambda_start`: `-np.min(1. / chi_r[..., w0].real)`, `w0 = shape[-1]//2`.
    `none`: no momentum (`np.min` of an empty array raises) or no frequency (`IndexError`). -/
def getLambdaStart (chi : List (List ℂ)) : Option ℝ :=
  (chi.mapM fun row => (row[lastDim chi / 2]?).map fun x => 1 / x.re).bind fun col => col.min?.map fun m => -m

/-- lambda_correction.py:70-71 `use_lambda`, on one entry. -/
def useLambda1 (lam : ℝ) (x : ℂ) : ℂ := 1 / (1 / x + (lam : ℂ))

/-- lambda_correction.py:70-71 `use_lambda`: `1. / (1. / chi_ladder + lambda_)` elementwise. -/
def useLambda (chi : List (List ℂ)) (lam : ℝ) : List (List ℂ) := chi.map fun row => row.map (useLambda1 lam)

/-- `np.mean` of a 1-d array (language construct; the mean of an empty array is not used). -/
def mean (l : List ℂ) : ℂ := l.sum / (l.length : ℂ)

/-- lambda_correction.py:26 `chir_sum = 1/beta * np.mean(np.sum(1/(1/chir + lambda_), axis=-1))`. -/
def chirSum (beta : ℝ) (chi : List (List ℂ)) (lam : ℝ) : ℂ :=
  1 / (beta : ℂ) * mean (chi.map fun row => (row.map fun x => 1 / (1 / x + (lam : ℂ))).sum)

/-- lambda_correction.py:28 `fp_lam = -1/beta * np.mean(np.sum((1/(1/chir + lambda_))**2, axis=-1))`. -/
def fpLam (beta : ℝ) (chi : List (List ℂ)) (lam : ℝ) : ℂ :=
  -1 / (beta : ℂ) * mean (chi.map fun row => (row.map fun x => (1 / (1 / x + (lam : ℂ))) ^ 2).sum)

/-- What can be observed of one run of the search: the returned value, the values of lambda at which the sum rule was
    evaluated (the `verbose` output), and whether the loop was left by `break`. -/
structure Run where
  lam : ℝ
  evals : List ℝ
  converged : Bool

/-- lambda_correction.py:25-40, the `for _ in range(maxiter)` loop with its state
    `(lambda_old, lambda_, delta)`; first argument: iterations left. -/
def loop (f fp : ℝ → ℂ) (start eps : ℝ) : Nat → ℝ → ℝ → ℝ → Run
  | 0, _, lam, _ => ⟨lam, [], false⟩
  | n + 1, old, lam, delta =>
    let fLam := f lam
    let lam' := old - (fLam / fp lam).re
    if |fLam.re| < eps then ⟨lam', [lam], true⟩
    else if lam' < old then
      let r := loop f fp start eps n (start + delta / 2) (start + delta / 2) (delta / 2)
      ⟨r.lam, lam :: r.evals, r.converged⟩
    else
      let r := loop f fp start eps n lam' lam' delta
      ⟨r.lam, lam :: r.evals, r.converged⟩

/-- lambda_correction.py:19-40 `lambda_correction_single`. -/
def single (beta start : ℝ) (chi : List (List ℂ)) (chiLocSum : ℂ)
    (maxiter : Nat := 1000) (eps : ℝ := 1e-7) (delta : ℝ := 0.1) : Run :=
  loop (fun lam => chirSum beta chi lam - chiLocSum) (fpLam beta chi) start eps maxiter
    (start + delta) (start + delta) delta

/-- Return value of `lambda_correction`: corrected susceptibilities and the two lambdas. -/
structure Corrected where
  dens : List (List ℂ)
  magn : List (List ℂ)
  lamDens : ℝ
  lamMagn : ℝ

/-- lambda_correction.py:43-67 `lambda_correction`.  `error` carries the exception name. -/
def lambdaCorrection (dens magn : List (List ℂ)) (beta : ℝ) (locDens locMagn : List ℂ) (mode : String) :
    Except String Corrected :=
  if mode = "spch" then
    match getLambdaStart dens, getLambdaStart magn with
    | some sd, some sm =>
      let ld := (single beta sd dens (1 / (beta : ℂ) * locDens.sum)).lam
      let lm := (single beta sm magn (1 / (beta : ℂ) * locMagn.sum)).lam
      .ok ⟨useLambda dens ld, useLambda magn lm, ld, lm⟩
    | _, _ => .error "ValueError"
  else if mode = "sp" then
    match getLambdaStart magn with
    | some sm =>
      let target := 1 / (beta : ℂ) * (List.zipWith (· + ·) locMagn locDens).sum
        - 1 / (beta : ℂ) * mean (dens.map List.sum)
      let lm := (single beta sm magn target).lam
      .ok ⟨dens, useLambda magn lm, 0, lm⟩
    | none => .error "ValueError"
  else if mode = "none" then .ok ⟨dens, magn, 0, 0⟩
  else .error "NotImplementedError"

end DGA.Lam
