/-
  Model of src/dga/analytic_continuation.py: frequency meshes, extrapolation to zero frequency, kernels of the back
  transformation, Kramers–Kronig transformation, and the data handling of the class `MaxEnt`.

  Simplifications: exact real arithmetic (ℝ, ℂ); `np.polyfit` is "a least-squares solution" (a relation); the MaxEnt optimisation
  itself (src/ana_cont/solvers.py) is a parameter, a function which may fail.
-/
import Mathlib.Analysis.SpecialFunctions.Trigonometric.Basic
import Mathlib.Analysis.SpecialFunctions.Sqrt
import Mathlib.Analysis.Complex.Basic
import Mathlib.Data.EReal.Basic
import Verif.Matsubara.Model
import Verif.Mpi.Model

noncomputable section

namespace DGA.Ana

/-! ### meshes -/

/-- `np.linspace(a, b, n)` (language construct) -/
def linspace (a b : ℝ) (n : Nat) : List ℝ := (List.range n).map fun (k : Nat) => a + (k : ℝ) * ((b - a) / ((n : ℝ) - 1))

/-- analytic_continuation.py:98, 110 `wmin + (wmax - wmin) * (w - w[0]) / (w[-1] - w[0])`; `none`: empty mesh (`w[0]` raises).
    For a single point numpy divides 0 by 0 (nan); the theorems are for two points and more. -/
def rescale (wmin wmax : ℝ) (w : List ℝ) : Option (List ℝ) :=
  (w.head?).bind fun a => (w.getLast?).map fun b => w.map fun x => wmin + (wmax - wmin) * (x - a) / (b - a)

/-- analytic_continuation.py:89 `(w[:-1] + w[1:]) / 2.0` -/
def midpoints (w : List ℝ) : List ℝ := (w.dropLast.zip w.tail).map fun p => (p.1 + p.2) / 2

/-- analytic_continuation.py:83-91 `lorentzian_w_mesh`.  Line 90 `(w - w[0]) / (w[-1] - w[0]) * (wmax - wmin) + wmin` is `rescale`
    up to the order of the factors. -/
def lorentzianMesh (wmin wmax : ℝ) (n : Nat) (cut : ℝ) : Option (List ℝ) :=
  let temp := (linspace 0 1 (n + 1)).map fun u => Real.tan (Real.pi * (u * (1 - 2 * cut) + cut - 1 / 2))
  (temp.head?).bind fun a => (temp.getLast?).bind fun b =>
    let w := temp.map fun x => wmin + (wmax - wmin) * ((x - a) / (b - a))
    let w := midpoints w
    (w.head?).bind fun a => (w.getLast?).map fun b => w.map fun x => (x - a) / (b - a) * (wmax - wmin) + wmin

/-- analytic_continuation.py:94-99 `hyperbolic_w_mesh` -/
def hyperbolicMesh (wmin wmax : ℝ) (n : Nat) : Option (List ℝ) :=
  rescale wmin wmax ((linspace (-1) 1 n).map fun u => SignType.sign u * (Real.sqrt (1 + u ^ 2) - 1))

/-- analytic_continuation.py:102-104 `linear_w_mesh` -/
def linearMesh (wmin wmax : ℝ) (n : Nat) : Option (List ℝ) := some (linspace wmin wmax n)

/-- analytic_continuation.py:107-111 `tan_w_mesh` -/
def tanMesh (wmin wmax : ℝ) (n : Nat) : Option (List ℝ) :=
  rescale wmin wmax ((linspace (-Real.pi / 2.5) (Real.pi / 2.5) n).map fun x => Real.tan x * 1 / Real.tan (Real.pi / 2.5))

/-- analytic_continuation.py:114-125 `get_w_mesh`; `none`: the call raises (unknown name, no `cut` for the Lorentzian mesh, empty mesh) -/
def getWMesh (kind : String) (wmin wmax : ℝ) (nwr : Nat) (cut : Option ℝ) : Option (List ℝ) :=
  if kind = "lorentzian" then cut.bind fun c => lorentzianMesh wmin wmax nwr c
  else if kind = "hyperbolic" then hyperbolicMesh wmin wmax nwr
  else if kind = "linear" then linearMesh wmin wmax nwr
  else if kind = "tan" then tanMesh wmin wmax nwr
  else none

/-! ### extrapolation to zero frequency -/

/-- `np.polyval(p, x)`, highest power first (language construct; Horner scheme as in numpy) -/
def polyval (p : List ℝ) (x : ℝ) : ℝ := p.foldl (fun acc c => acc * x + c) 0

/-- `np.polyder(p)` (language construct) -/
def polyder (p : List ℝ) : List ℝ := (List.range (p.length - 1)).map fun i => p.getD i 0 * ((p.length - 1 - i : Nat) : ℝ)

/-- sum of squared residuals of the polynomial `p` on the points (language construct, objective of `np.polyfit`) -/
def residual (pts : List (ℝ × ℝ)) (p : List ℝ) : ℝ := (pts.map fun q => (polyval p q.1 - q.2) ^ 2).sum

/-- `p = np.polyfit(x, y, deg)` (language construct): `deg+1` coefficients minimising the residual -/
def isPolyfit (x y : List ℝ) (deg : Nat) (p : List ℝ) : Prop :=
  p.length = deg + 1 ∧ x.length = y.length ∧ ∀ q : List ℝ, q.length = deg + 1 → residual (x.zip y) p ≤ residual (x.zip y) q

/-- analytic_continuation.py:53-56 `poly_extrap_0`: `v` is a possible result; `x_new[0] = 0` -/
def isPolyExtrap0 (x y : List ℝ) (order nFit : Nat) (v : ℝ) : Prop :=
  ∃ p, isPolyfit (x.take nFit) (y.take nFit) order p ∧ v = polyval p 0

/-- analytic_continuation.py:59-63 `poly_der_extrap_0` -/
def isPolyDerExtrap0 (x y : List ℝ) (order nFit : Nat) (v : ℝ) : Prop :=
  ∃ p, isPolyfit (x.take nFit) (y.take nFit) order p ∧ v = polyval (polyder p) 0

/-- floating-point `1 / (1 - s)`: `+inf` for `s = 1` (language construct) -/
def recip1m (s : ℝ) : EReal := if s = 1 then ⊤ else ((1 / (1 - s) : ℝ) : EReal)

/-- analytic_continuation.py:69-71 `z = 1/(1 - s)`, `z = min(max(z, 0), 1)`, `if z == 0: z = 1`, with `s` the extrapolated
    `Im Sigma / v`.  Infinities are kept (extended reals); nan is not modelled. -/
def clampZ (s : ℝ) : EReal :=
  let z := min (max (recip1m s) 0) 1
  if z = 0 then 1 else z

/-- analytic_continuation.py:66-72 `get_gamma_bandshift_z` (`re`, `im`: parts of `siw`); the relation holds for every possible
    outcome of the three fits -/
def isGammaBandshiftZ (wn re im : List ℝ) (order nFit : Nat) (gamma bandshift : ℝ) (z : EReal) : Prop :=
  ∃ s, isPolyExtrap0 wn im order nFit (-gamma) ∧ isPolyExtrap0 wn re order nFit bandshift ∧
    isPolyExtrap0 wn (List.zipWith (· / ·) im wn) order nFit s ∧ z = clampZ s

/-! ### back transformation and Kramers–Kronig -/

/-- analytic_continuation.py:131-149 `get_backtransform_kernel`, entry for the imaginary frequency `v` and the real frequency `w`.
    Lines 142-145 set the entry with both frequencies zero to one. -/
def kernel (kind : String) (w v : ℝ) : Option ℂ :=
  if kind = "freq_fermionic" then some (1 / (Complex.I * (v : ℂ) - (w : ℂ)))
  else if kind = "freq_bosonic" then some (if v = 0 ∧ w = 0 then 1 else (((w ^ 2) / (w ^ 2 + v ^ 2) : ℝ) : ℂ))
  else none

/-- `np.trapz(y, x)` (language construct) -/
def trapz : List ℂ → List ℝ → ℂ
  | y0 :: y1 :: ys, x0 :: x1 :: xs => ((x1 - x0 : ℝ) : ℂ) * (y0 + y1) / 2 + trapz (y1 :: ys) (x1 :: xs)
  | _, _ => 0

/-- analytic_continuation.py:154-161 `transform_from_real_to_imag` for complex input, at one imaginary frequency -/
def realToImag (mat : List ℂ) (re : List ℝ) (v : ℝ) (kind : String) : Option ℂ :=
  if mat.length = re.length then
    (re.mapM fun w => kernel kind w v).map fun ks =>
      trapz (List.zipWith (fun k (s : ℂ) => k * ((-s.im / Real.pi : ℝ) : ℂ)) ks mat) re
  else none

/-- analytic_continuation.py:170-171 `dw = np.diff([wmin, midpoints…, wmax])` (ana_cont/continuation.py, `GreensFunction.__init__`) -/
def cellWidths (w : List ℝ) : Option (List ℝ) :=
  (w.head?).bind fun a => (w.getLast?).map fun b =>
    let e := a :: (midpoints w ++ [b])
    (e.dropLast.zip e.tail).map fun p => p.2 - p.1

/-- analytic_continuation.py:172-192 the integrand `m[w', w]` of the Kramers–Kronig transformation off the diagonal -/
def kktTerm (kind : String) (dw A w' w : ℝ) : Option ℝ :=
  if kind = "fermionic_phsym" ∨ kind = "symmetric" then some (2 * dw * w' * A / (w ^ 2 - w' ^ 2))
  else if kind = "bosonic" ∨ kind = "antisymmetric" then some (2 * dw * w * A / (w ^ 2 - w' ^ 2))
  else if kind = "fermionic" ∨ kind = "general" then some (dw * A / (w - w'))
  else none

/-- analytic_continuation.py:164-197 `kkt` (ana_cont/continuation.py:169-199): `g_real + 1j * g_imag`; the diagonal of `m` is set to zero -/
def kkt (spec w : List ℝ) (kind : String) : Option (List ℂ) :=
  if spec.length = w.length then
    (cellWidths w).bind fun dw => (List.range w.length).mapM fun j =>
      ((List.range w.length).mapM fun i =>
        (kktTerm kind (dw.getD i 0) (spec.getD i 0) (w.getD i 0) (w.getD j 0)).map fun t => if i = j then 0 else t).map fun col =>
          (⟨col.sum, -(spec.getD j 0) * Real.pi⟩ : ℂ)
  else none

/-! ### the class `MaxEnt` -/

/-- analytic_continuation.py:228-272 the attributes of `MaxEnt` used below (`mode`: `kernel_mode`) -/
structure Cfg where
  mode : String
  beta : ℝ
  nFit : Nat
  w : List ℝ
  wmin : ℝ
  bw : ℝ

/-- analytic_continuation.py:228-272 the end of `MaxEnt.__init__`, from the merged settings: unsupported kernels are refused, bosonic
    kernels get no preblur (unless forced) and a non-negative window, then the mesh is built -/
def initMaxEnt (mode : String) (beta : ℝ) (nFit nwr : Nat) (wmin wmax bw : ℝ) (mesh : String) (cut : Option ℝ) (forcePreblur : Bool) :
    Option Cfg :=
  if mode = "freq_fermionic" ∨ mode = "freq_bosonic" then
    let bw' := if mode = "freq_bosonic" ∧ bw ≠ 0 ∧ forcePreblur = false then 0 else bw
    let wmin' := if mode = "freq_bosonic" ∧ wmin < 0 then 0 else wmin
    (getWMesh mesh wmin' wmax nwr cut).map fun w => ⟨mode, beta, nFit, w, wmin', bw'⟩
  else none

/-- analytic_continuation.py:293-304 `cut_matrix`: the data on the non-negative frequencies, and the updated `n_fit` -/
def cutMatrix {α : Type} (c : Cfg) (mat : List α) : Option (List α × Cfg) :=
  let niv := mat.length / 2
  let n := if c.nFit > niv then niv else c.nFit
  if c.mode = "freq_fermionic" then some (Py.slice mat niv (niv + n), { c with nFit := n })
  else if c.mode = "freq_bosonic" then some (Py.slice mat niv (niv + n + 1), { c with nFit := n })
  else none

/-- analytic_continuation.py:285-291 `get_im_freq` (matsubara_frequencies.py `vn`, `wn` with `beta`) -/
def imFreq (c : Cfg) : Option (List ℝ) :=
  if c.mode = "freq_fermionic" then some ((Mf.vn c.nFit 0 true).map fun (n : Int) => Real.pi / c.beta * (2 * (n : ℝ) + 1))
  else if c.mode = "freq_bosonic" then some ((Mf.wn c.nFit 0 true).map fun (n : Int) => Real.pi / c.beta * (2 * (n : ℝ)))
  else none

/-- `np.trapz` of the constant one (language construct) -/
def trapzOne (w : List ℝ) : ℝ := (trapz (w.map fun _ => 1) w).re

/-- analytic_continuation.py:306-316 `get_model` (called with the whole matrix, line 321); `none`: unknown kernel or `mat[0]` missing -/
def getModel (c : Cfg) (mat : List ℂ) : Option (List ℝ) :=
  if c.mode = "freq_fermionic" then some (c.w.map fun _ => 1 / trapzOne c.w)
  else if c.mode = "freq_bosonic" then (mat.head?).map fun m => c.w.map fun _ => 1 * (m.re / trapzOne c.w)
  else none

/-- analytic_continuation.py:318-339 `cont_single_ind`: `solve` stands for the MaxEnt optimisation on (frequencies, data, model);
    the result and the changed attributes.  `none`: something raised. -/
def contSingle (solve : List ℝ → List ℝ → List ℂ → List ℝ → Option (List ℝ)) (c : Cfg) (mat : List ℂ) : Option (List ℂ) × Cfg :=
  match cutMatrix c mat with
  | none => (none, c)
  | some (d, c') =>
    ((imFreq c').bind fun im => (getModel c' mat).bind fun model => (solve im c'.w d model).bind fun A =>
      if c'.mode = "freq_fermionic" then kkt A c'.w "fermionic" else some (A.map fun x => ((x * Real.pi / 2 : ℝ) : ℂ)), c')

/-- analytic_continuation.py:341-349 `analytic_continuation`: one row per input, zeros where an error was raised -/
def contAll (solve : List ℝ → List ℝ → List ℂ → List ℝ → Option (List ℝ)) (c : Cfg) : List (List ℂ) → List (List ℂ) × Cfg
  | [] => ([], c)
  | m :: ms =>
    let r := contSingle solve c m
    let rest := contAll solve r.2 ms
    ((r.1.getD (c.w.map fun _ => 0)) :: rest.1, rest.2)

/-- analytic_continuation.py:341-349 the element type of the array returned by `analytic_continuation` (`true`: complex).  A failed index
    contributes `np.zeros_like(self.w)`, real; so does a bosonic continuation (line 335); numpy promotes to complex if one row is. -/
def contIsComplex (solve : List ℝ → List ℝ → List ℂ → List ℝ → Option (List ℝ)) (c : Cfg) : List (List ℂ) → Bool
  | [] => false
  | m :: ms =>
    let r := contSingle solve c m
    (decide (c.mode = "freq_fermionic") && r.1.isSome) || contIsComplex solve r.2 ms

/-- analytic_continuation.py:352-360 `mpi_ana_cont` on `R` ranks (rows of `scatter`/`gather`; the buffers are Mpi/Model.lean).  `none`: the program fails
    or the gathered array is wrong.  A rank without rows continues nothing and holds `np.array([])`, of one axis: if that is rank 0, the array it receives
    into has one axis and its counts are floats (mpi_aux.py:132-135), so the call raises.  If the element types of two ranks differ, they call `Gatherv`
    with different types. -/
def mpiCont (solve : List ℝ → List ℝ → List ℂ → List ℝ → Option (List ℝ)) (c : Cfg) (R : Nat) (mat : List (List ℂ)) :
    Option (List (List ℂ)) :=
  ((List.range R).mapM fun r => (Mpi.mySlice mat.length R r).map fun (p : Nat × Nat) => Py.slice mat p.1 p.2).bind fun mine =>
    if (mine.headD []) ≠ [] ∧ ∀ m ∈ mine, m ≠ [] → contIsComplex solve c m = contIsComplex solve c (mine.headD []) then
      some (mine.map fun m => (contAll solve c m).1).flatten
    else none

end DGA.Ana
