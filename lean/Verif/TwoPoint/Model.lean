import Verif.Matsubara.Model
import Mathlib.Analysis.SpecialFunctions.Trigonometric.Basic

/-
  Model of src/dga/two_point.py (self-energy and Matsubara Green's function).

  A `[kx,ky,kz,v]` array is the list of its momentum rows (the three momentum axes flattened); each row is the frequency
  axis.  The moments are real numbers.  The chemical-potential search (`update_mu`, scipy `newton`) is not modelled: `mu`
  is a parameter.
-/

noncomputable section

namespace DGA.Two

open DGA.Mf

/-- two_point.py:19-21 `get_smom0` -/
def getSmom0 (u n : ℝ) : ℝ := u * n / 2

/-- two_point.py:24-26 `get_smom1` -/
def getSmom1 (u n : ℝ) : ℝ := -u ^ 2 * n / 2 * (1 - n / 2)

/-- `1j * mf.vn(beta, ...)` entry with index `n` (matsubara_frequencies.py:211-212, `np.pi / beta * (2 * n + 1)`). -/
def iv (beta : ℝ) (n : Int) : ℂ := Complex.I * ((Real.pi / beta * (2 * n + 1) : ℝ) : ℂ)

/-- Attributes of `SelfEnergy` (two_point.py:71-122): rows over positive frequencies, moments and core size. -/
structure SelfEnergy where
  sigma : List (List ℂ)
  beta : ℝ
  smom0 : ℝ
  smom1 : ℝ
  nivCore : Nat

/-- two_point.py:124-126 `niv` (`sigma.shape[-1]`). -/
def SelfEnergy.niv (s : SelfEnergy) : Nat := (s.sigma.head?.map List.length).getD 0

/-- two_point.py:95-98: with `pos=False` the negative half is cut off, `sigma[..., niv:]`, `niv = shape[-1]//2`. -/
def positiveHalf (rows : List (List ℂ)) : List (List ℂ) := rows.map fun r => Py.sliceFrom r (r.length / 2 : Nat)

/-- two_point.py:136-137 `k_mean`, entry `n` of the mean over momenta of rows of equal length. -/
def kMean (rows : List (List ℂ)) (n : Nat) : ℂ := (rows.map fun r => r.getD n 0).sum / (rows.length : ℂ)

/-- two_point.py:34-62 `fit_smom`: number of frequencies used, `int(0.2*niv)` but at least 4. -/
def nFreqFit (niv : Nat) : Nat := if niv / 5 < 4 then 4 else niv / 5

/-- two_point.py:34-62 `fit_smom` on rows over positive frequencies: means over the last `n_freq_fit` entries of
    `Re Sigma_loc` and of `Im Sigma_loc * v`. The slice start `niv - n_freq_fit` may be negative (Python slice). -/
def fitSmom (beta : ℝ) (rows : List (List ℂ)) (niv : Nat) : ℝ × ℝ :=
  let idx := Py.sliceFrom (List.range niv) ((niv : Int) - nFreqFit niv)
  ((idx.map fun n => (kMean rows n).re).sum / idx.length,
   (idx.map fun n => (kMean rows n).im * (iv beta n).im).sum / idx.length)

/-- two_point.py:164-172 `get_asympt` value at index `n`: `smom0 - 1/iv * smom1`. -/
def asymptVal (beta smom0 smom1 : ℝ) (n : Int) : ℂ := (smom0 : ℂ) - 1 / iv beta n * (smom1 : ℂ)

/-- `np.argmax` of a boolean array: position of the first `True`, 0 if there is none (language construct). -/
def argmaxBool (l : List Bool) : Nat := (l.findIdx? id).getD 0

open Classical in
/-- two_point.py:139-148 `estimate_niv_core`; the comparison array is `[kx,ky,kz,v]` but identical for every k, and
    `argmax` runs over the flattened array, so the first row decides.  `niv_core_min = 20` (two_point.py:74). -/
def estimateNivCore (rows : List (List ℂ)) (niv : Nat) (beta smom0 smom1 err : ℝ) : Nat :=
  let re := argmaxBool ((List.range niv).map fun n =>
    decide (|(kMean rows n).re - (asymptVal beta smom0 smom1 n).re| < err))
  let im := argmaxBool ((List.range niv).map fun n =>
    decide (|(kMean rows n).im - (asymptVal beta smom0 smom1 n).im| < err))
  if max re im < 20 then 20 else max re im

/-- two_point.py:76-122 `SelfEnergy.__init__` for momentum rows (`[v]` input is one row); `nivCore = none` is
    `'estimate'`. -/
def newSelfEnergy (rows : List (List ℂ)) (beta : ℝ) (pos : Bool) (smom0 smom1 : Option ℝ) (err : ℝ)
    (nivCore : Option Nat) : SelfEnergy :=
  let sigma := if pos then rows else positiveHalf rows
  let niv := (sigma.head?.map List.length).getD 0
  let fit := fitSmom beta sigma niv
  let m0 := smom0.getD fit.1
  let m1 := smom1.getD fit.2
  ⟨sigma, beta, m0, m1, nivCore.getD (estimateNivCore sigma niv beta m0 m1 err)⟩

/-- two_point.py:164-172 `get_asympt(niv_asympt, n_min, pos=True)`: one row (it is the same for every momentum). -/
def SelfEnergy.asymptRow (s : SelfEnergy) (nivAsympt nMin : Nat) : List ℂ :=
  (vn nivAsympt nMin true).map fun n => asymptVal s.beta s.smom0 s.smom1 n

/-- two_point.py:132-134 `sigma_core` -/
def SelfEnergy.sigmaCore (s : SelfEnergy) : List (List ℂ) :=
  s.sigma.map fun r => fermionicFull (starRingEnd ℂ) (Py.sliceTo r s.nivCore)

/-- two_point.py:150-162 `get_siw(niv)` without `pi_shift`; `niv = -1` is the stored range. -/
def SelfEnergy.getSiw (s : SelfEnergy) (niv : Int) : List (List ℂ) :=
  let niv := if niv = -1 then (s.niv : Int) else niv
  if niv ≤ s.nivCore then
    s.sigma.map fun r => fermionicFull (starRingEnd ℂ) (Py.sliceTo r niv)
  else
    let nivShell := (niv - s.nivCore).toNat
    s.sigma.map fun r => fermionicFull (starRingEnd ℂ) (Py.sliceTo r s.nivCore ++ s.asymptRow nivShell s.nivCore)

/-- two_point.py:175-183 `create_dga_siwk_with_dmft_as_asympt`; the shell is taken from the first momentum of the
    DMFT self-energy (`[0, 0, 0, :]`); `none` when there is no such row. -/
def createDga (dga : List (List ℂ)) (dmft : SelfEnergy) (nivShell : Nat) (err : ℝ) : Option SelfEnergy :=
  let nivCore := (dga.head?.map List.length).getD 0 / 2
  let nivFull := nivCore + nivShell
  match (dmft.getSiw nivFull).head? with
  | none => none
  | some row0 =>
    let shell := invCutV row0 nivCore nivShell
    some (newSelfEnergy (dga.map fun r => concatCoreAsympt r shell) dmft.beta false (some dmft.smom0)
      (some dmft.smom1) err (some nivFull))

/-- two_point.py:313-315 `build_g` for one momentum: `1 / (iv + mu - ek - sigma)` along the frequency axis. -/
def buildG (ivs : List ℂ) (ek mu : ℝ) (sigma : List ℂ) : List ℂ :=
  List.zipWith (fun z sg => 1 / (z + (mu : ℂ) - (ek : ℂ) - sg)) ivs sigma

/-- two_point.py:419-420 `build_g_core`, row of momentum number `k`; two_point.py:327 `iv_core`. -/
def gCoreRow (s : SelfEnergy) (ek mu : ℝ) (k : Nat) : Option (List ℂ) :=
  (s.sigmaCore[k]?).map fun r => buildG ((vn s.nivCore).map (iv s.beta)) ek mu r

/-- two_point.py:441-444 `build_asympt`, one row. -/
def gAsymptRow (s : SelfEnergy) (nivAsympt : Nat) (ek mu : ℝ) : List ℂ :=
  fermionicFull (starRingEnd ℂ) (buildG ((vn nivAsympt s.nivCore true).map (iv s.beta)) ek mu (s.asymptRow nivAsympt s.nivCore))

/-- two_point.py:412-417 `g_full` (asymptotic part set, no `pi_shift`), row of momentum number `k`. -/
def gFullRow (s : SelfEnergy) (nivAsympt : Nat) (ek mu : ℝ) (k : Nat) : Option (List ℂ) :=
  (gCoreRow s ek mu k).map fun c => concatCoreAsympt c (gAsymptRow s nivAsympt ek mu)

/-- two_point.py:446-449 `get_sigma_full`, row of momentum number `k`. -/
def sigmaFullRow (s : SelfEnergy) (nivAsympt : Nat) (k : Nat) : Option (List ℂ) :=
  (s.sigmaCore[k]?).map fun c => concatCoreAsympt c (fermionicFull (starRingEnd ℂ) (s.asymptRow nivAsympt s.nivCore))

/-- two_point.py:451-455 `e_kin` before the assertion: `1/beta * sum_v mean_k ek * G`; `g` are the rows of `g_full`
    paired with the band energies. -/
def eKinSum (beta : ℝ) (g : List (ℝ × List ℂ)) : ℂ :=
  1 / (beta : ℂ) * ((g.map fun p => (p.2.map fun x => (p.1 : ℂ) * x).sum).sum / (g.length : ℂ))

/-- two_point.py:457-464 `e_pot` before the assertion: `1/beta * sum_v mean_k (sigma_full - smom0) * G`; `g` pairs the
    rows of `get_sigma_full` and `g_full`. -/
def ePotSum (beta smom0 : ℝ) (g : List (List ℂ × List ℂ)) : ℂ :=
  1 / (beta : ℂ) * ((g.map fun p => (List.zipWith (fun sg x => (sg - (smom0 : ℂ)) * x) p.1 p.2).sum).sum /
    (g.length : ℂ))

/-- two_point.py:520-521 `get_gwk`, one entry (real frequency `w`, self-energy `swk` with `1j*deltino` subtracted as in
    two_point.py:477). -/
def gwk (w mu ek deltino : ℝ) (swk : ℂ) : ℂ := 1 / ((w : ℂ) + mu - ek - (swk - Complex.I * deltino))

/-- two_point.py:491-492 `awk`, one entry. -/
def awk (w mu ek deltino : ℝ) (swk : ℂ) : ℝ := -(gwk w mu ek deltino swk).im / Real.pi

end DGA.Two
