/-
  Specification vocabulary for the Brillouin zone claims: grid points, the geometric action of the symmetry names on
  them and symmetry equivalence.  Independent of the array manipulations of the code.
-/
import Verif.Bz.Model

namespace DGA.Bz

/-- a grid point `(ix, iy, iz)`; the momentum is `2π (ix/nx, iy/ny, iz/nz)` -/
abbrev Pt := Nat × Nat × Nat

/-- the point belongs to the grid -/
def InGrid (nx ny nz : Nat) (p : Pt) : Prop := p.1 < nx ∧ p.2.1 < ny ∧ p.2.2 < nz

/-- position of a grid point in the C-ordered flat k list -/
def linP (ny nz : Nat) (p : Pt) : Nat := (p.1 * ny + p.2.1) * nz + p.2.2

/-- the point that a symmetry operation sends `p` to: `k_x → -k_x`, …, `k_x ↔ k_y` (only meaningful on square grids),
    `(k_x, k_y) → -(k_x, k_y)`; all modulo a reciprocal lattice vector. -/
def image (nx ny nz : Nat) : Sym → Pt → Pt
  | .xInv, (i, j, k) => ((nx - i) % nx, j, k)
  | .yInv, (i, j, k) => (i, (ny - j) % ny, k)
  | .zInv, (i, j, k) => (i, j, (nz - k) % nz)
  | .xySym, (i, j, k) => if nx = ny then (j, i, k) else (i, j, k)
  | .xyInv, (i, j, k) => ((nx - i) % nx, (ny - j) % ny, k)
  | .other _, p => p

/-- `q` can be reached from `p` by a sequence of the given symmetry operations -/
inductive Related (nx ny nz : Nat) (syms : List Sym) (p : Pt) : Pt → Prop
  | refl : Related nx ny nz syms p p
  | step {q : Pt} {s : Sym} : s ∈ syms → Related nx ny nz syms p q → Related nx ny nz syms p (image nx ny nz s q)

end DGA.Bz
