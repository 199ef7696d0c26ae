/-
  Model of src/ana_cont/kernels.py (class `Kernel`) and of src/ana_cont/continuation.py:9-134 (class `AnalyticContinuationProblem`).

  Simplifications: exact arithmetic; `none` as an entry of a real kernel is NaN (0/0).  `scipy.integrate.simps` on the 201 equidistant points
  is the composite Simpson rule.  The spline of `blur` is not modelled.
-/
import Verif.MaxEnt.Model
import Mathlib.Analysis.SpecialFunctions.Trigonometric.Basic
import Mathlib.Analysis.Complex.Basic

noncomputable section

namespace DGA.Mx

open Finset

/-- exceptions of this module -/
inductive KErr | valueError | indexError | attributeError | notImplemented
  deriving DecidableEq, Repr

/-! ### kernel functions -/

/-- kernels.py:55-58, one entry before the correction; `none`: 0/0 -/
def bosRaw (im re : ℝ) : Option ℝ := if re ^ 2 + im ^ 2 = 0 then none else some (re ^ 2 / (re ^ 2 + im ^ 2))

/-- positions of the zeros, `np.where(x==0.0)[0]` (language construct) -/
def zeros {n : ℕ} (x : Fin n → ℝ) : List (Fin n) := (List.finRange n).filter fun i => decide (x i = 0)

/-- index pairs of `kernel[a, b]` for integer arrays (language construct, numpy broadcasting); `none`: IndexError -/
def fancy {α β : Type} (a : List α) (b : List β) : Option (List (α × β)) :=
  if a.length = b.length then some (a.zip b)
  else match a, b with
    | [x], b => some (b.map fun y => (x, y))
    | a, [y] => some (a.map fun x => (x, y))
    | _, _ => none

/-- kernels.py:54-62 kind `freq_bosonic`.  The condition `len(WhereIsiwn0==1) and len(WhereIsw0==1)` is "both lists are not empty". -/
def kFreqBosonic {ni nr : ℕ} (im : Fin ni → ℝ) (re : Fin nr → ℝ) : Except KErr (Fin ni → Fin nr → Option ℝ) :=
  let raw := fun i l => bosRaw (im i) (re l)
  if zeros im ≠ [] ∧ zeros re ≠ [] then
    match fancy (zeros im) (zeros re) with
    | none => .error .indexError
    | some ps => .ok fun i l => if (i, l) ∈ ps then some 1 else raw i l
  else .ok raw

/-- kernels.py:65-68, one entry before the correction -/
def timeBosRaw (tau w : ℝ) : Option ℝ :=
  if w = 0 then none else some (0.5 * w * (Real.exp (-w * tau) + Real.exp (-w * (1 - tau))) / (1 - Real.exp (-w)))

/-- kernels.py:63-69 kind `time_bosonic`: the first column is set to one -/
def kTimeBosonic {ni nr : ℕ} (im : Fin ni → ℝ) (re : Fin nr → ℝ) (i : Fin ni) (l : Fin nr) : Option ℝ :=
  if (l : ℕ) = 0 then some 1 else timeBosRaw (im i) (re l)

/-- kernels.py:70-73 kind `freq_bosonic_xyz` -/
def kXyz {ni nr : ℕ} (im : Fin ni → ℝ) (re : Fin nr → ℝ) (i : Fin ni) (l : Fin nr) : Option ℝ :=
  if (i : ℕ) = 0 ∧ im i = 0 then some 0
  else if re l ^ 2 + im i ^ 2 = 0 then none else some (-im i / (re l ^ 2 + im i ^ 2))

/-- kernels.py:74-75 kind `freq_fermionic` -/
def kFreqFermionic (nu w : ℝ) : ℂ := 1 / (Complex.I * (nu : ℂ) - (w : ℂ))

/-- kernels.py:76-95 kind `time_fermionic` -/
def kTimeFermionic (tau w : ℝ) : ℝ :=
  if 1e8 < Real.exp (-w) then Real.exp (-(tau - 1) * w) else Real.exp (-tau * w) / (1 + Real.exp (-w))

/-- kernels.py:100-104 kind `freq_fermionic_phsym` -/
def kFreqPhsym (nu w : ℝ) : ℝ := -2 * nu / (nu ^ 2 + w ^ 2)

/-- kernels.py:105-109 kind `time_fermionic_phsym` -/
def kTimePhsym (tau w : ℝ) : ℝ := (Real.cosh (tau * w) + Real.cosh ((1 - tau) * w)) / (1 + Real.cosh w)

/-! ### preblur -/

/-- weights of the composite Simpson rule on 2N+1 points with spacing h (`scipy.integrate.simps`) -/
def simpsonW (N : ℕ) (h : ℝ) (j : ℕ) : ℝ := if j = 0 ∨ j = 2 * N then h / 3 else if j % 2 = 1 then 4 * h / 3 else 2 * h / 3

/-- kernels.py:141 `np.linspace(-5 b, 5 b, num=201)` -/
def blurX (b : ℝ) (j : ℕ) : ℝ := -5 * b + j * (10 * b / 200)

/-- kernels.py:142-143 the Gaussian -/
def gauss (b x : ℝ) : ℝ := 1 / (b * Real.sqrt (2 * Real.pi)) * Real.exp (-0.5 * (x / b) ^ 2)

/-- kernels.py:145-147, 161 the blurred fermionic kernel -/
def blurFermi (b nu w : ℝ) : ℂ :=
  ∑ j ∈ range 201, ((simpsonW 100 (10 * b / 200) j : ℝ) : ℂ) * (((gauss b (blurX b j) : ℝ) : ℂ) / (Complex.I * (nu : ℂ) - (w : ℂ) - (blurX b j : ℂ)))

/-- kernels.py:151-157 one half of the bosonic integrand, corrected at zero frequency; `s` = +1, -1 -/
def blurIntegrand (b im w s x : ℝ) : ℝ :=
  if im = 0 then gauss b x else gauss b x * (x + s * w) ^ 2 / ((x + s * w) ^ 2 + im ^ 2)

/-- kernels.py:148-158, 161 the blurred bosonic kernel -/
def blurBose (b im w : ℝ) : ℝ :=
  ∑ j ∈ range 201, simpsonW 100 (10 * b / 200) j * (0.5 * (blurIntegrand b im w 1 (blurX b j) + blurIntegrand b im w (-1) (blurX b j)))

/-- kernels.py:114-120 `preblur` with 141-143: whether the Gaussian is stored in the object -/
def preblurred (kind : String) (b : ℝ) : Bool := decide (0 < b) && (kind == "freq_fermionic" || kind == "freq_bosonic")

/-- kernels.py:163-177 `blur`: it reads the attributes set by `convolve_kernel` -/
def blurCall (kind : String) (b : ℝ) : Except KErr Unit := if preblurred kind b then .ok () else .error .attributeError

/-! ### the continuation problem -/

/-- arrays of a continuation problem -/
structure Prob (ni nr : ℕ) where
  im : Fin ni → ℝ
  re : Fin nr → ℝ
  data : Fin ni → ℂ

/-- continuation.py:46-80 the constructor for real `im_axis`; `atol = 1e-8` is the default of `np.allclose` for a comparison with zero -/
def mkProb {ni nr : ℕ} (kind : String) (beta : ℝ) (p : Prob ni nr) : Except KErr (Prob ni nr) :=
  if kind = "freq_bosonic" then .ok p
  else if kind = "time_bosonic" then .ok ⟨fun i => p.im i / beta, fun l => p.re l * beta, fun i => p.data i * (beta : ℂ)⟩
  else if kind = "freq_fermionic" then .ok p
  else if kind = "freq_fermionic_phsym" then
    open Classical in
    if ∀ i, |p.im i| ≤ 1e-8 then .ok { p with data := fun i => ((p.data i).im : ℂ) } else .ok { p with data := fun i => ((p.data i).re : ℂ) }
  else if kind = "time_fermionic" ∨ kind = "time_fermionic_phsym" then .ok ⟨fun i => p.im i / beta, fun l => p.re l * beta, p.data⟩
  else .error .valueError

/-- continuation.py:100-104 (and 127-131) rescaling of the result of the solver: spectrum and back transformation -/
def rescaleSol {ni nr : ℕ} (kind : String) (beta : ℝ) (A : Fin nr → ℝ) (back : Fin ni → ℝ) : (Fin nr → ℝ) × (Fin ni → ℝ) :=
  if kind = "time_fermionic" then (fun l => A l * beta, back)
  else if kind = "time_bosonic" then (fun l => A l * beta, fun i => back i / beta)
  else (A, back)

/-- continuation.py:83-114 which solver `solve` runs.  There is no `PadeSolver` in solvers.py. -/
def solveMethod (method : String) : Except KErr Unit :=
  if method = "maxent_svd" then .ok ()
  else if method = "maxent_mc" then .error .notImplemented
  else if method = "pade" then .error .attributeError
  else .error .valueError

end DGA.Mx
