/-
  The driver `pade` (pade_aux.py:473-567): all continuations it performs, the physical ones among them, and their average.
-/
import Verif.Pade.Nonlin
import Verif.Pade.Props2

namespace DGA.Pade.Driver
open Complex

/-- `np.arange(lo, hi + 1, step)` for non-negative integers (language construct) -/
def arangeTo (lo hi step : ℕ) : List ℕ := (List.range ((hi + 1 - lo + (step - 1)) / step)).map fun i => lo + step * i

/-- pade_aux.py:483 `nmins` -/
def nmins : List ℤ := [-3, -2, -1]
/-- pade_aux.py:486-487, 490, 507 `Ms` -/
def Ms : List ℕ := arangeTo 50 100 4
/-- pade_aux.py:488-489, 491, 508 `Ns` -/
def Ns : List ℕ := arangeTo 40 80 4
/-- pade_aux.py:499 `c1v` -/
noncomputable def c1v : ℝ := 99 / 100
/-- pade_aux.py:500, 558 `int(c2v * len(d))` with `c2v = 0.51`; exact product instead of the rounded one -/
def keep (n : ℕ) : ℕ := 51 * n / 100

/-- pade_aux.py:412-447 `acPade` with `solver = 0` for all output points; `none`: the program exits -/
noncomputable def acAll (matrix : List ℂ → List ℂ → ℕ → List ℂ) (opt : (ℕ → ℝ) → ℕ → ℝ) (z f : List ℂ) (N : ℕ) (zout : List ℂ) : Option (List ℂ) :=
  zout.mapM fun w => acPade matrix opt z f N w 0

/-- pade_aux.py:514-531 the loop over all continuations (`diagonalPade = False`, `solver = 0`, `cols = [0]`): the counter and the physical
    continuations in the order found.  `matrix` is `padeMatrix` (numpy's least-squares solver is a parameter). -/
noncomputable def padeLoop (matrix : List ℂ → List ℂ → ℕ → List ℂ) (opt : (ℕ → ℝ) → ℕ → ℝ) (zin fin zout : List ℂ) : Option (ℕ × List (List ℂ)) :=
  nmins.foldlM (fun st nmin =>
    Ms.foldlM (fun st M =>
      let picked := pickPoints (starRingEnd ℂ) zin fin nmin M
      (Ns.filter fun N => decide (N ≤ M)).foldlM (fun (st : ℕ × List (List ℂ)) N =>
        (acAll matrix opt picked.1 picked.2 N zout).map fun f => (st.1 + 1, if physical f then st.2 ++ [f] else st.2)) st) st) (0, [])

/-- pade_aux.py:537-563 mask and mean for the (only) orbital; `argsort` is `np.argsort` -/
noncomputable def select (argsort : List ℝ → List ℕ) (fs : List (List ℂ)) : Option (List ℂ) × List Bool :=
  match fs with
  | [f] => (some f, [true])
  | fs =>
    let m := mask c1v (keep (accum fs).length) (accum fs) (argsort (accum fs))
    (meanRows (pickMask fs m), m)

/-- how a call of `pade` ends -/
inductive Outcome where
  /-- `sys.exit` -/
  | exit
  /-- `fmeans` (`none`: nan everywhere, the mean of an empty selection), `fs` and `masks`, for the only orbital -/
  | done (printed : ℕ) (fmeans : Option (List ℂ)) (fs : List (List ℂ)) (masks : List Bool)

/-- pade_aux.py:473-567 `pade(zin, fin, zout)`; only the first column of `fin` is used.  (`np.complex` and `np.bool` exist in the numpy
    versions the program was written for; newer versions raise.) -/
noncomputable def pade (matrix : List ℂ → List ℂ → ℕ → List ℂ) (opt : (ℕ → ℝ) → ℕ → ℝ) (argsort : List ℝ → List ℕ) (zin fin zout : List ℂ) : Outcome :=
  match padeLoop matrix opt zin fin zout with
  | none => .exit
  | some (c, fs) => if fs = [] then .exit else .done c (select argsort fs).1 fs (select argsort fs).2

end DGA.Pade.Driver
