/-
  Model of the filling: src/dga/two_point.py:187-308.  Momentum axes flattened to a list; the self-energy has one row per momentum
  (a local self-energy is broadcast to equal rows by numpy).
-/
import Verif.TwoPoint.Model

noncomputable section

namespace DGA.Two

open DGA.Mf

/-- row of momentum `k` of a self-energy array: a local self-energy (one row) is broadcast over the momenta (numpy, two_point.py:194-198) -/
def rowAt (siwk : List (List ℂ)) (k : ℕ) : List ℂ := if siwk.length = 1 then siwk.getD 0 [] else siwk.getD k []

/-- two_point.py:187-198 `get_gloc`: mean over momenta of `1/(iv + mu - hk - siwk)` at every frequency of `ivs` (an array of another shape,
    which raises, is not modelled) -/
def getGloc (ivs : List ℂ) (hk : List ℝ) (siwk : List (List ℂ)) (mu : ℝ) : List ℂ :=
  (List.range ivs.length).map fun (n : ℕ) =>
    ((List.range hk.length).map fun (k : ℕ) => 1 / (ivs.getD n 0 + (mu : ℂ) - (hk.getD k 0 : ℂ) - (rowAt siwk k).getD n 0)).sum / (hk.length : ℂ)

/-- two_point.py:202-213 `get_g_model` -/
def getGModel (mu : ℝ) (ivs : List ℂ) (hloc smom0 : ℝ) : List ℂ := ivs.map fun (z : ℂ) => 1 / (z + (mu : ℂ) - (hloc : ℂ) - (smom0 : ℂ))

/-- two_point.py:218-225 `get_fill_primitive` -/
def getFillPrimitive (gloc : List ℂ) (beta : ℝ) : ℂ := (1 / (beta : ℂ) * gloc.sum + (0.5 : ℝ)) * 2

open Classical in
/-- occupation of the model level, two_point.py:266-269 -/
def rhoLoc (beta smom0 hloc mu : ℝ) : ℝ :=
  if beta * (smom0 + hloc - mu) < 20 then 1 / (1 + Real.exp (beta * (smom0 + hloc - mu))) else Real.exp (-beta * (smom0 + hloc - mu))

/-- two_point.py:258-273 `get_fill`: number of electrons (first component of the result) -/
def getFill (ivs : List ℂ) (hk : List ℝ) (siwk : List (List ℂ)) (beta smom0 hloc mu : ℝ) : ℝ :=
  2 * (rhoLoc beta smom0 hloc mu
    + (List.zipWith (fun (g m : ℂ) => g.re - m.re) (getGloc ivs hk siwk mu) (getGModel mu ivs hloc smom0)).sum / beta)

/-- `np.mean(hk)` (two_point.py:293, 342) -/
def hkMean (hk : List ℝ) : ℝ := hk.sum / (hk.length : ℝ)

/-- two_point.py:287-308 `update_mu`; `newton` is the outcome of `scipy.optimize.newton` (`none`: RuntimeError), a non-real result raises -/
def updateMu (newton : (ℝ → ℝ) → ℝ → Option ℂ) (mu0 target : ℝ) (ivs : List ℂ) (hk : List ℝ) (siwk : List (List ℂ)) (beta smom0 : ℝ) : Option ℝ :=
  let mu : ℂ := (newton (fun mu => getFill ivs hk siwk beta smom0 (hkMean hk) mu - target) mu0).getD (mu0 : ℂ)
  open Classical in if |mu.im| < 1e-8 then some mu.re else none

/-- two_point.py:336-343: filling found by `GreensFunction(sigma, ek, mu=mu, niv_shell_mu_find=nivShell)` -/
def gfFilling (s : SelfEnergy) (hk : List ℝ) (mu : ℝ) (nivShell : ℕ) : ℝ :=
  getFill ((vn (s.nivCore + nivShell)).map (iv s.beta)) hk (s.getSiw ((s.nivCore + nivShell : ℕ) : Int)) s.beta s.smom0 (hkMean hk) mu

/-- two_point.py:329-335: chemical potential found by `GreensFunction(sigma, ek, n=n, niv_shell_mu_find=nivShell)` (`mu0 = 0`, line 321) -/
def gfMu (newton : (ℝ → ℝ) → ℝ → Option ℂ) (s : SelfEnergy) (hk : List ℝ) (n : ℝ) (nivShell : ℕ) : Option ℝ :=
  updateMu newton 0 n ((vn (s.nivCore + nivShell)).map (iv s.beta)) hk (s.getSiw ((s.nivCore + nivShell : ℕ) : Int)) s.beta s.smom0

end DGA.Two
