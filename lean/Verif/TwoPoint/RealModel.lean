/-
  Model of the real-frequency filling: src/dga/two_point.py:468-543.  Momentum axes flattened.
-/
import Verif.TwoPoint.FillModel

noncomputable section

namespace DGA.Two

/-- two_point.py:520-521 `get_gwk`: one row per momentum (`swk` already contains `-1j*deltino`, line 478; a local self-energy is broadcast) -/
def getGwk (w : List ℝ) (swk : List (List ℂ)) (ek : List ℝ) (mu : ℝ) : List (List ℂ) :=
  (List.range ek.length).map fun (k : ℕ) => List.zipWith (fun (x : ℝ) (s : ℂ) => 1 / ((x : ℂ) + (mu : ℂ) - (ek.getD k 0 : ℂ) - s)) w (rowAt swk k)

/-- `np.mean(gwk.imag, axis=(0,1,2))` at frequency number `j` (two_point.py:527) -/
def meanIm (gwk : List (List ℂ)) (j : ℕ) : ℝ := (gwk.map fun (r : List ℂ) => (r.getD j 0).im).sum / (gwk.length : ℝ)

/-- `np.trapz` of the points `(x, y)` -/
def trapzPts : List (ℝ × ℝ) → ℝ
  | p :: q :: l => (q.1 - p.1) * ((p.2 + q.2) / 2) + trapzPts (q :: l)
  | _ => 0

open Classical in
/-- two_point.py:524-527 `get_filling_real_f` -/
def fillingRealF (w : List ℝ) (gwk : List (List ℂ)) : ℝ :=
  -1 / Real.pi * trapzPts (((List.range w.length).map fun (j : ℕ) => (w.getD j 0, meanIm gwk j)).filter fun (p : ℝ × ℝ) => decide (p.1 ≤ 0)) * 2

/-- two_point.py:530-538 `opt_func` -/
def optFunc (mu n : ℝ) (swk : List (List ℂ)) (w : List ℝ) (ek : List ℝ) : ℝ := (fillingRealF w (getGwk w swk ek mu) - n) ^ 2

/-- two_point.py:541-543 `adjust_mu_real_f`; `minimize` stands for `scipy.optimize.minimize(...).x` -/
def adjustMuRealF (minimize : (ℝ → ℝ) → ℝ → ℝ) (mu0 n : ℝ) (swk : List (List ℂ)) (w : List ℝ) (ek : List ℝ) : ℝ :=
  minimize (fun mu => optFunc mu n swk w ek) mu0

/-- two_point.py:474-489 `RealFrequencyGF(w, swk, ek, mu, n, deltino)`: resulting `(mu, n)`; `mu0 = 0` (line 472); neither given raises -/
def realGf (minimize : (ℝ → ℝ) → ℝ → ℝ) (w : List ℝ) (swk : List (List ℂ)) (ek : List ℝ) (mu n : Option ℝ) (deltino : ℝ) : Option (ℝ × ℝ) :=
  let s := swk.map fun (r : List ℂ) => r.map fun (z : ℂ) => z - Complex.I * (deltino : ℂ)
  match n, mu with
  | some n, _ => some (adjustMuRealF minimize 0 n s w ek, n)
  | none, some mu => some (mu, fillingRealF w (getGwk w s ek mu))
  | none, none => none

end DGA.Two
