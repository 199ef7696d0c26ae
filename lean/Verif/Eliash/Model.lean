import Mathlib.Analysis.SpecialFunctions.Complex.CircleAddChar
import Mathlib.Analysis.SpecialFunctions.Trigonometric.Basic

/-
  Model of /repo/src/dga/eliashberg_equation.py.

  A momentum index is an element of `ZMod nx × ZMod ny × ZMod nz` (numpy FFT indices are periodic), the frequency
  position an element of `Fin nv`, `nv = 2*niv`.  Random arrays are parameters.
-/

open scoped BigOperators

noncomputable section

namespace DGA.Eli

/-- `np.sum(np.conj(u) * v)` over the whole array (language construct). -/
def dot {ι : Type _} [Fintype ι] (u v : ι → ℂ) : ℂ := ∑ i, (starRingEnd ℂ) (u i) * v i

/-- eliashberg_equation.py:107-109 `proj` and 113-116 `proj_eliash` (the Green's function argument is unused there). -/
def proj {ι : Type _} [Fintype ι] (v u : ι → ℂ) : ι → ℂ := fun i => dot u v / dot u u * u i

/-- eliashberg_equation.py:86-97 `gram_schmidt`, `gram_schmidt_eliash`: the projections of the *original* `v` are
    subtracted one after the other. -/
def gramSchmidt {ι : Type _} [Fintype ι] (v : ι → ℂ) (basis : List (ι → ℂ)) : ι → ℂ :=
  basis.foldl (fun acc u => fun i => acc i - proj v u i) v

/-- One factor of the FFT phase, `exp(-2 pi i k x / n)` (numpy.fft convention, language construct). -/
def phase (n : Nat) (k x : ZMod n) : ℂ := Complex.exp (-(2 * Real.pi * Complex.I * ((k.val : ℂ) * (x.val : ℂ)) / n))

/-- Momentum (or real-space) index of an `nx × ny × nz` array. -/
abbrev Grid (nx ny nz : Nat) := ZMod nx × ZMod ny × ZMod nz

/-- `np.fft.fftn(a, axes=(0,1,2))` (language construct). -/
def fftn {nx ny nz : Nat} [NeZero nx] [NeZero ny] [NeZero nz] (a : Grid nx ny nz → ℂ) (x : Grid nx ny nz) : ℂ :=
  ∑ k : Grid nx ny nz, phase nx k.1 x.1 * phase ny k.2.1 x.2.1 * phase nz k.2.2 x.2.2 * a k

/-- `np.fft.ifftn(a, axes=(0,1,2))` (language construct): conjugate phases and the factor `1/(nx ny nz)`. -/
def ifftn {nx ny nz : Nat} [NeZero nx] [NeZero ny] [NeZero nz] (a : Grid nx ny nz → ℂ) (x : Grid nx ny nz) : ℂ :=
  1 / ((nx : ℂ) * ny * nz) * ∑ k : Grid nx ny nz,
    (starRingEnd ℂ) (phase nx k.1 x.1) * (starRingEnd ℂ) (phase ny k.2.1 x.2.1) *
      (starRingEnd ℂ) (phase nz k.2.2 x.2.2) * a k

/-- eliashberg_equation.py:28 and 67-69: one application of the pairing kernel,
    `gammax = fftn(gamma)`, `gap_gg = ifftn(gap * |gk|**2)`, `1/norm * sum(gammax * gap_gg[..., None, :], -1)`, `fftn`. -/
def kernel {nx ny nz nv : Nat} [NeZero nx] [NeZero ny] [NeZero nz] (gamma : Grid nx ny nz → Fin nv → Fin nv → ℂ)
    (gk : Grid nx ny nz → Fin nv → ℂ) (norm : ℂ) (gap : Grid nx ny nz × Fin nv → ℂ) :
    Grid nx ny nz × Fin nv → ℂ :=
  fun kv => fftn (fun x => 1 / norm * ∑ v' : Fin nv, fftn (fun k => gamma k kv.2 v') x *
    ifftn (fun k => gap (k, v') * ((‖gk k v'‖ ^ 2 : ℝ) : ℂ)) x) kv.1

/-- Result of one power iteration: number of passes through the loop, eigenvalue and gap returned, and (for the
    specification) the orthogonalised vector of the last pass. -/
structure PowRun (ι : Type _) where
  count : Nat
  lam : ℂ
  gap : ι → ℂ
  last : ι → ℂ

/-- eliashberg_equation.py:67-72: kernel application and, if `lam_s is not None`, subtraction of `gap_old * lam_s`. -/
def shifted {ι : Type _} (A : (ι → ℂ) → ι → ℂ) (lamS : Option ℂ) (x : ι → ℂ) : ι → ℂ :=
  match lamS with
  | some s => fun i => A x i - x i * s
  | none => A x

/-- eliashberg_equation.py:73 `lambda_new = sum(conj(gap_old) * gap_new) / sum(conj(gap_old) * gap_old)`. -/
def rayleigh {ι : Type _} [Fintype ι] (A : (ι → ℂ) → ι → ℂ) (lamS : Option ℂ) (x : ι → ℂ) : ℂ :=
  dot x (shifted A lamS x) / dot x x

/-- eliashberg_equation.py:74 `gap_old = gap_new / lambda_new`. -/
def nextGap {ι : Type _} [Fintype ι] (A : (ι → ℂ) → ι → ℂ) (lamS : Option ℂ) (x : ι → ℂ) : ι → ℂ :=
  fun i => shifted A lamS x i / rayleigh A lamS x

/-- eliashberg_equation.py:56-80 `power_iteration`, the `while not converged` loop.  `A` is the kernel application, `lamS`
    the attribute `lam_s` (`none` = `None`), first argument: how often `count > max_count` is still false. -/
def powerLoop {ι : Type _} [Fintype ι] (A : (ι → ℂ) → ι → ℂ) (basis : List (ι → ℂ)) (lamS : Option ℂ) (eps : ℝ) :
    Nat → (ι → ℂ) → ℂ → PowRun ι
  | 0, gapOld, _ =>
    let x := gramSchmidt gapOld basis
    ⟨1, rayleigh A lamS x, nextGap A lamS x, x⟩
  | m + 1, gapOld, lamOld =>
    let x := gramSchmidt gapOld basis
    if ‖rayleigh A lamS x - lamOld‖ < eps then ⟨1, rayleigh A lamS x, nextGap A lamS x, x⟩
    else
      let r := powerLoop A basis lamS eps m (nextGap A lamS x) (rayleigh A lamS x)
      ⟨r.count + 1, r.lam, r.gap, r.last⟩

/-- eliashberg_equation.py:56-80 `power_iteration`: `lambda_old = 1`, `count = 0`. -/
def powerIteration {ι : Type _} [Fintype ι] (A : (ι → ℂ) → ι → ℂ) (basis : List (ι → ℂ)) (lamS : Option ℂ) (eps : ℝ)
    (maxCount : Nat) (gap0 : ι → ℂ) : PowRun ι :=
  powerLoop A basis lamS eps maxCount gap0 1

/-- numpy's `z > 0` on a complex scalar: lexicographic (language construct). -/
def gtZero (z : ℂ) : Prop := 0 < z.re ∨ (z.re = 0 ∧ 0 < z.im)

open Classical in
/-- eliashberg_equation.py:43-46 of `get_eig`: the shift. -/
def shiftOf {ι : Type _} [Fintype ι] (A : (ι → ℂ) → ι → ℂ) (shiftMat : Bool) (eps : ℝ) (maxCount : Nat)
    (gap0s : ι → ℂ) : Option ℂ :=
  if shiftMat then
    let l := (powerIteration A [] none eps maxCount gap0s).lam
    some (if gtZero l then 0 else l)
  else none

/-- eliashberg_equation.py:47-50 of `get_eig`: the loop over `n_eig`, each run with the gaps found so far as basis. -/
def eigRuns {ι : Type _} [Fintype ι] (A : (ι → ℂ) → ι → ℂ) (lamS : Option ℂ) (eps : ℝ) (maxCount : Nat)
    (gap0 : ι → ℂ) : Nat → List (PowRun ι)
  | 0 => []
  | n + 1 =>
    let prev := eigRuns A lamS eps maxCount gap0 n
    prev ++ [powerIteration A (prev.map PowRun.gap) lamS eps maxCount gap0]

/-- eliashberg_equation.py:42-54 `get_eig`: the public attributes `lam` and `gap`. -/
def getEig {ι : Type _} [Fintype ι] (A : (ι → ℂ) → ι → ℂ) (shiftMat : Bool) (eps : ℝ) (maxCount : Nat)
    (gap0 gap0s : ι → ℂ) (nEig : Nat) : List (ℂ × (ι → ℂ)) :=
  let lamS := shiftOf A shiftMat eps maxCount gap0s
  (eigRuns A lamS eps maxCount gap0 nEig).map fun r =>
    (match lamS with | some s => r.lam + s | none => r.lam, r.gap)

/-- eliashberg_equation.py:188-197 `symmetrize_gamma` on one (q, v) row; `np.flip` reverses the last axis.
    `none` is `ValueError`. -/
def symmetrizeGamma {ι : Type _} {nv : Nat} (gamma : ι → Fin nv → ℂ) (channel : String) : Option (ι → Fin nv → ℂ) :=
  if channel = "sing" then some fun q v => 1 / 2 * (gamma q v + gamma q v.rev)
  else if channel = "trip" then some fun q v => 1 / 2 * (gamma q v - gamma q v.rev)
  else none

/-- eliashberg_equation.py:143-144 `d_wave`. -/
def dWave (kx ky : ℝ) : ℝ := -Real.cos kx + Real.cos ky

/-- eliashberg_equation.py:147-148 `p_wave_y`. -/
def pWaveY (kx ky : ℝ) : ℝ := Real.sin kx * 0 + Real.sin ky

/-- eliashberg_equation.py:151-152 `p_wave_x`. -/
def pWaveX (kx ky : ℝ) : ℝ := Real.sin kx + 0 * Real.sin ky

/-- brillouin_zone.py:244-246 (`np.linspace(0, 2*np.pi, n, endpoint=False)`), entry `i`. -/
def kval (n i : Nat) : ℝ := 2 * Real.pi * i / n

/-- eliashberg_equation.py:121-140 `get_gap_start` for an even last axis `2*niv` and momentum mesh `nx × ny × nz`;
    position `v` of the last axis; `rndK`, `rndV` are the two random arrays.  The slice assignments
    `gap0[..., :niv] = ± gap0[..., niv:]` copy position `v + niv` to position `v`. -/
def gapStart (nx ny niv : Nat) (kType vType : String) (rndK rndV : Nat → Nat → Nat → Nat → ℂ)
    (ix iy iz v : Nat) : ℂ :=
  let upper : Nat → ℂ := fun u =>
    if kType = "d-wave" then ((dWave (kval nx ix) (kval ny iy) : ℝ) : ℂ)
    else if kType = "p-wave-y" then ((pWaveY (kval nx ix) (kval ny iy) : ℝ) : ℂ)
    else if kType = "p-wave-x" then ((pWaveX (kval nx ix) (kval ny iy) : ℝ) : ℂ)
    else rndK ix iy iz u
  if vType = "even" then (if v < niv then upper (v + niv) else upper v)
  else if vType = "odd" then (if v < niv then -upper (v + niv) else upper v)
  else rndV ix iy iz v

end DGA.Eli
