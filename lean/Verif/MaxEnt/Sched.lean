/-
  Model of the determination of α in src/ana_cont/solvers.py:606-936 (`solve_historic`, `solve_classic`, `solve_bryan`, `solve_chi2kink`,
  `solve`).

  Simplifications: exact real arithmetic; the optimisation at one α is a function of α and the start vector which may raise; the fit of
  `scipy.optimize.curve_fit` and the points visited by `scipy.optimize.newton` are arguments.  Loops carry fuel: `none` = not finished.
-/
import Verif.MaxEnt.Model
import Mathlib.Analysis.SpecialFunctions.Log.Base

noncomputable section

namespace DGA.Mx

open Finset

/-- exceptions -/
inductive SErr | optFailed | runtimeError | indexError | keyError | valueError | fitError | zeroDivision
  deriving DecidableEq, Repr

/-- the used fields of `OptimizationResult` (solvers.py:939-990) -/
structure Res (nw ns : ℕ) where
  u : Fin ns → ℝ
  A : Fin nw → ℝ
  chi2 : ℝ
  conv : ℝ
  prob : ℝ
  alpha : ℝ

/-- `maxent_optimization` (solvers.py:496-600) as a function of α and the start vector -/
abbrev Opt (nw ns : ℕ) := ℝ → (Fin ns → ℝ) → Except SErr (Res nw ns)

variable {nw ns : ℕ}

/-! ### chi2kink -/

/-- solvers.py:845-855: one pass through the loop body; every exception is swallowed -/
def kinkStep (opt : Opt nw ns) (alpha : ℝ) (st : (Fin ns → ℝ) × List (ℝ × Res nw ns)) : (Fin ns → ℝ) × List (ℝ × Res nw ns) :=
  match opt alpha st.1 with
  | .ok o => (o.u, st.2 ++ [(alpha, o)])
  | .error _ => st

/-- solvers.py:844-858 the loop of `solve_chi2kink`; the list pairs `alphas` with `optarr` -/
def kinkLoop (opt : Opt nw ns) (alphaEnd alphaDiv : ℝ) :
    ℕ → ℝ → (Fin ns → ℝ) × List (ℝ × Res nw ns) → Option (List (ℝ × Res nw ns))
  | 0, _, _ => none
  | fuel + 1, alpha, st =>
    let st' := kinkStep opt alpha st
    if alpha / alphaDiv < alphaEnd then some st'.2 else kinkLoop opt alphaEnd alphaDiv fuel (alpha / alphaDiv) st'

/-- outcome of `curve_fit` (solvers.py:865-870): parameters (a, b, c, d), a ValueError, or another exception -/
inductive Fit | ok (a b c d : ℝ) | valueError | other

/-- first index of the smallest value, `np.argmin` (language construct) -/
def argmin (f : ℕ → ℝ) : ℕ → ℕ
  | 0 => 0
  | n + 1 => if n = 0 then 0 else if f n < f (argmin f n) then n else argmin f n

/-- solvers.py:859-905 after the loop -/
def kinkFinish (opt : Opt nw ns) (fit : List (ℝ × ℝ) → Fit) (fitPosition : ℝ) (runs : List (ℝ × Res nw ns)) :
    Except SErr (Res nw ns × List (Res nw ns)) :=
  let pts := runs.map fun (p : ℝ × Res nw ns) => (Real.logb 10 p.1, Real.logb 10 p.2.chi2)
  match fit pts with
  | .other => .error .fitError
  | .valueError =>
    match runs.getLast? with
    | some p => .ok (p.2, runs.map Prod.snd)
    | none => .error .indexError
  | .ok _ _ c d =>
    if d < 0 then .error .runtimeError
    else if d = 0 then .error .zeroDivision   -- numpy: infinite; the optimisation is then called with α = 0
    else
      let aOpt := c - fitPosition / d
      let idx := argmin (fun i => |(pts.map Prod.fst).getD i 0 - aOpt|) runs.length
      match runs[idx]? with
      | none => .error .valueError   -- `np.argmin` of an empty array
      | some p => (opt ((10 : ℝ) ^ aOpt) p.2.u).map fun sol => (sol, runs.map Prod.snd)

/-- solvers.py:794-905 `solve_chi2kink` -/
def solveKink (opt : Opt nw ns) (fit : List (ℝ × ℝ) → Fit) (alphaStart alphaEnd alphaDiv fitPosition : ℝ) (fuel : ℕ) :
    Option (Except SErr (Res nw ns × List (Res nw ns))) :=
  (kinkLoop opt alphaEnd alphaDiv fuel alphaStart (0, [])).map (kinkFinish opt fit fitPosition)

/-! ### historic and classic -/

/-- solvers.py:631-635 and 688-694: the scan.  The start vector is `self.ustart`, set to zero before the loop and never changed (in
    `solve_classic` and `solve_bryan` the new value goes into a local variable).  `crit` is `self.niw / o.chi2` or `o.convergence`. -/
def scanLoop (opt : Opt nw ns) (crit : Res nw ns → ℝ) : ℕ → ℝ → List (Res nw ns) → Option (Except SErr (List (Res nw ns)))
  | 0, _, _ => none
  | fuel + 1, alpha, acc =>
    match opt alpha 0 with
    | .error e => some (.error e)
    | .ok o => if crit o < 1 then scanLoop opt crit fuel (alpha / 10) (acc ++ [o]) else some (.ok (acc ++ [o]))

/-- solvers.py:641-645, 715-719: the calls of `root_fun` by `opt.newton` at the given α; returns the start vector after the calls (the array
    is changed in place) and the results appended to `optarr` -/
def rootCalls (opt : Opt nw ns) : List ℝ → (Fin ns → ℝ) → Except SErr ((Fin ns → ℝ) × List (Res nw ns))
  | [], u => .ok (u, [])
  | a :: as, u =>
    match opt a u with
    | .error e => .error e
    | .ok res => (rootCalls opt as res.u).map fun p => (p.1, res :: p.2)

/-- solvers.py:637-654, 696-728: what follows the scan.  `visited` are the α at which `opt.newton` evaluates the function, `alphaOpt` what it
    returns.  `ustart = optarr[-2].u_opt` is the same array as the entry of the list, so the list shows the changed vector. -/
def finishRoot (opt : Opt nw ns) (visited : List ℝ) (alphaOpt : ℝ) (optarr : List (Res nw ns)) :
    Except SErr (Res nw ns × List (Res nw ns)) :=
  if optarr.length ≤ 1 then .error .runtimeError
  else
    match optarr[optarr.length - 2]? with
    | none => .error .indexError
    | some o =>
      match rootCalls opt visited o.u with
      | .error e => .error e
      | .ok (u, more) =>
        match opt alphaOpt u with
        | .error e => .error e
        | .ok sol => .ok (sol, optarr.set (optarr.length - 2) { o with u := u } ++ more)

/-- solvers.py:606-654, 657-728 `solve_historic`, `solve_classic`: `alpha = 10 ** 6` -/
def solveRoot (opt : Opt nw ns) (crit : Res nw ns → ℝ) (newton : List (Res nw ns) → List ℝ × ℝ) (fuel : ℕ) :
    Option (Except SErr (Res nw ns × List (Res nw ns))) :=
  (scanLoop opt crit fuel (10 ^ 6) []).map fun r => r.bind fun arr => finishRoot opt (newton arr).1 (newton arr).2 arr

/-! ### Bryan -/

/-- solvers.py:764-774 the loop of `solve_bryan` -/
def bryanLoop (opt : Opt nw ns) (div : ℝ) : ℕ → ℝ → ℝ → List (Res nw ns) → Option (Except SErr (List (Res nw ns)))
  | 0, _, _, _ => none
  | fuel + 1, alpha, maxprob, acc =>
    match opt alpha 0 with
    | .error e => some (.error e)
    | .ok o =>
      if maxprob < o.prob then bryanLoop opt div fuel (alpha / div) o.prob (acc ++ [o])
      else if o.prob < 0.01 * maxprob then some (.ok (acc ++ [o]))
      else bryanLoop opt div fuel (alpha / div) maxprob (acc ++ [o])

/-- solvers.py:776-787: normalised weights and average over the runs -/
def bryanAverage {K : ℕ} (alpha prob : Fin K → ℝ) (spec : Fin K → Fin nw → ℝ) (l : Fin nw) : ℝ :=
  -trapz (fun k => spec k l * (prob k / -trapz prob alpha)) alpha

/-- solvers.py:731-792 `solve_bryan`: averaged spectrum and list of results -/
def solveBryan (opt : Opt nw ns) (alphaStart div : ℝ) (fuel : ℕ) : Option (Except SErr ((Fin nw → ℝ) × List (Res nw ns))) :=
  (bryanLoop opt div fuel alphaStart 0 []).map fun r => r.map fun arr =>
    (bryanAverage (fun k : Fin arr.length => arr[k].alpha) (fun k => arr[k].prob) (fun k => arr[k].A), arr)

/-! ### dispatch -/

/-- solvers.py:920-936 `solve`: which method runs; `mode` is `kwargs['alpha_determination']` if present -/
def dispatch (mode : Option String) : Except SErr String :=
  match mode with
  | none => .error .keyError
  | some m => if m = "historic" then .ok "historic" else if m = "classic" then .ok "classic" else if m = "bryan" then .ok "bryan"
    else if m = "chi2kink" then .ok "chi2kink" else .error .valueError

end DGA.Mx
