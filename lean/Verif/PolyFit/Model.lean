/-
  Model of the polynomial extrapolations on the momentum grid: src/dga/dga_io.py:149-179, 252-264 and
  src/dga/analytic_continuation.py:40-50, 75-78.

  Simplifications: the fit at one momentum is an argument (`ext`, any function whose values are possible outcomes of
  `get_gamma_bandshift_z`, see C66); plots and log messages are left out; the saved dictionary is the returned triple.
-/
import Verif.Bz.Props2
import Verif.AnaCont.Props2

noncomputable section

namespace DGA.Pf

open DGA.Bz

/-- analytic_continuation.py:75-78 `extract_coefficient_imaxis`: reorders `(gamma, bandshift, z)` to `(bandshift, gamma, z)` -/
def coefImaxis (g : ℝ × ℝ × EReal) : ℝ × ℝ × EReal := (g.2.1, g.1, g.2.2)

/-- analytic_continuation.py:40-50 `extract_coeff_on_ind`: one entry `(siwk_re_fs, siwk_im_fs, siwk_z)` per index;
    `none` = `IndexError` -/
def coeffOnInd (ext : List ℂ → ℝ × ℝ × EReal) (siwk : List (List ℂ)) (ind : List Nat) : Option (List (ℝ × ℝ × EReal)) :=
  ind.mapM fun i => siwk[i]?.map fun row => coefImaxis (ext row)

/-- dga_io.py:167 `mat[:, mat.shape[-1] // 2:]`, one row -/
def posHalf (row : List ℂ) : List ℂ := row.drop (row.length / 2)

/-- dga_io.py:163-179 `poly_fit`: returns the meshes (`re_fs`, `im_fs`, `Z`) that are saved.  `nv` is `mat_data.shape[-1]`.  `np.squeeze` drops
    an axis of length one: a single momentum, or a single positive frequency, and the fit of a scalar raises. -/
def polyFit (nx ny nz nv : Nat) (f : List Nat) (ext : List ℂ → ℝ × ℝ × EReal) (mat : Arr3 (List ℂ)) :
    Option (Arr3 ℝ × Arr3 ℝ × Arr3 EReal) :=
  if nx * ny * nz = 1 ∨ nv - nv / 2 = 1 then none
  else
    (coeffOnInd ext ((flat3 mat).map posHalf) (irrkInd f)).bind fun cs =>
      (irrk2fbzMesh nx ny nz f (cs.map (·.1))).bind fun re =>
        (irrk2fbzMesh nx ny nz f (cs.map (·.2.1))).bind fun im =>
          (irrk2fbzMesh nx ny nz f (cs.map (·.2.2))).map fun z => (re, im, z)

/-- dga_io.py:252-264 `dga_poly_fit`: the fit of the self-energy (or Green's function) shifted by π along the first two axes -/
def dgaPolyFit (nx ny nz nv : Nat) (f : List Nat) (ext : List ℂ → ℝ × ℝ × EReal) (mat : Arr3 (List ℂ)) :
    Option (Arr3 ℝ × Arr3 ℝ × Arr3 EReal) :=
  polyFit nx ny nz nv f ext (shiftByPi2 mat nx ny)

end DGA.Pf
