/-
  Model of the Brillouin zone grid: src/dga/brillouin_zone.py.
-/
import Verif.Matsubara.Model

namespace DGA.Bz

open DGA.Mf (updSlice)

/-- A three-dimensional array `[kx, ky, kz]`; the entries carry the remaining axes. -/
abbrev Arr3 (α : Type) := List (List (List α))

/-- the symmetry strings of brillouin_zone.py:9 `KNOWN_SYMMETRIES`; every other string is `other` -/
inductive Sym where
  | xInv | yInv | zInv | xySym | xyInv | other (name : String)
deriving DecidableEq, Repr

/-- brillouin_zone.py:69-70 `two_dimensional_square_symmetries` -/
def square : List Sym := [.xInv, .yInv, .xySym]
/-- brillouin_zone.py:73-74 `two_dimensional_nematic_symmetries` -/
def nematic : List Sym := [.xInv, .yInv]
/-- brillouin_zone.py:77-78 `quasi_two_dimensional_square_symmetries` -/
def quasi2d : List Sym := [.xInv, .yInv, .zInv, .xySym]
/-- brillouin_zone.py:81-82 `quasi_one_dimensional_square_symmetries` -/
def quasi1d : List Sym := [.xInv, .yInv]
/-- brillouin_zone.py:85-86 `simultaneous_x_y_inversion` -/
def xyInversion : List Sym := [.xyInv]

/-- brillouin_zone.py:95-99, the statement `mat[len_ax + 1:] = mat[1:len_ax + mod_2][::-1]` of `inv_sym` on one axis.
    A shape mismatch raises (`none`). -/
def inv1 {α : Type} (l : List α) : Option (List α) :=
  let lenAx := l.length / 2
  let mod2 := l.length % 2
  updSlice (fun _ x => x) l ((lenAx + 1 : Nat) : Int) l.length (Py.slice l 1 ((lenAx + mod2 : Nat) : Int)).reverse

/-- brillouin_zone.py:89-99 `inv_sym(mat, 0)` -/
def inv0 {α : Type} (m : Arr3 α) : Option (Arr3 α) := inv1 m
/-- brillouin_zone.py:89-99 `inv_sym(mat, 1)` -/
def invA1 {α : Type} (m : Arr3 α) : Option (Arr3 α) := m.mapM inv1
/-- brillouin_zone.py:89-99 `inv_sym(mat, 2)` -/
def invA2 {α : Type} (m : Arr3 α) : Option (Arr3 α) := m.mapM fun p => p.mapM inv1

/-- element `m[i, j, k]` -/
def at3 {α : Type} (m : Arr3 α) (i j k : Nat) : Option α := (m[i]?.bind (·[j]?)).bind (·[k]?)

/-- brillouin_zone.py:102-108 `x_y_sym`: entrywise minimum with the transposed array if the grid is square, otherwise
    only a warning.  `nx`, `ny` are `mat.shape[0]`, `mat.shape[1]`. -/
def xySym (nx ny : Nat) (m : Arr3 Nat) : Option (Arr3 Nat) :=
  if nx = ny then
    (List.range nx).mapM fun i => (List.range ny).mapM fun j =>
      (m[i]?.bind (·[j]?)).bind fun a => (m[j]?.bind (·[i]?)).bind fun b => some (List.zipWith min a b)
  else some m

/-- brillouin_zone.py:111-116 `x_y_inv`: `mat[len_x + 1:, 1:] = mat[1:len_x + mod_x, 1:][::-1, ::-1]` -/
def xyInv {α : Type} (m : Arr3 α) : Option (Arr3 α) :=
  let lenX := m.length / 2
  let modX := m.length % 2
  let src := ((Py.slice m 1 ((lenX + modX : Nat) : Int)).map fun row => (Py.sliceFrom row 1).reverse).reverse
  let dst := Py.slice m ((lenX + 1 : Nat) : Int) m.length
  if src.length = dst.length then
    ((List.zip dst src).mapM fun (p : List (List α) × List (List α)) =>
      updSlice (fun _ x => x) p.1 1 p.1.length p.2).bind fun rows =>
      updSlice (fun _ x => x) m ((lenX + 1 : Nat) : Int) m.length rows
  else none

/-- brillouin_zone.py:119-126 `apply_symmetry` -/
def applySym (nx ny : Nat) (m : Arr3 Nat) : Sym → Option (Arr3 Nat)
  | .xInv => inv0 m
  | .yInv => invA1 m
  | .zInv => invA2 m
  | .xySym => xySym nx ny m
  | .xyInv => xyInv m
  | .other _ => none

/-- brillouin_zone.py:129-135 `apply_symmetries` -/
def applySyms (nx ny : Nat) (m : Arr3 Nat) (syms : List Sym) : Option (Arr3 Nat) :=
  syms.foldlM (applySym nx ny) m

/-- C-order `np.reshape` of a flat list to `(m, n)` -/
def unflat {α : Type} (l : List α) (m n : Nat) : List (List α) :=
  (List.range m).map fun i => (l.drop (i * n)).take n

/-- C-order `np.reshape` of a flat list to `(nx, ny, nz)` -/
def reshape3 {α : Type} (l : List α) (nx ny nz : Nat) : Arr3 α :=
  (unflat l nx (ny * nz)).map fun p => unflat p ny nz

/-- C-order flattening of a three-dimensional array -/
def flat3 {α : Type} (m : Arr3 α) : List α := m.flatten.flatten

/-- brillouin_zone.py:162-164 `KGrid.set_fbz2irrk` -/
def fbz2irrk (nx ny nz : Nat) (syms : List Sym) : Option (Arr3 Nat) :=
  applySyms nx ny (reshape3 (List.range (nx * ny * nz)) nx ny nz) syms

/-- drop adjacent repetitions (the mask `aux[1:] != aux[:-1]` inside `np.unique`) -/
def squeeze : List Nat → List Nat
  | [] => []
  | [a] => [a]
  | a :: b :: l => if a = b then squeeze (b :: l) else a :: squeeze (b :: l)

/-- insertion into a sorted list -/
def insertN (x : Nat) : List Nat → List Nat
  | [] => [x]
  | y :: l => if x ≤ y then x :: y :: l else y :: insertN x l

/-- `np.sort` of integers (the result does not depend on the algorithm) -/
def sortN (f : List Nat) : List Nat := f.foldr insertN []

/-- sorted distinct values: first result of `np.unique` -/
def uniq (f : List Nat) : List Nat := squeeze (sortN f)

/-- `irrk_ind`: brillouin_zone.py:166-169, `return_index` of `np.unique` (first occurrence of each value) -/
def irrkInd (f : List Nat) : List Nat := (uniq f).map fun u => f.idxOf u
/-- `irrk_inv`: brillouin_zone.py:166-169, `return_inverse` of `np.unique` -/
def irrkInv (f : List Nat) : List Nat := f.map fun x => (uniq f).idxOf x
/-- `irrk_count`: brillouin_zone.py:166-169, `return_counts` of `np.unique` -/
def irrkCount (f : List Nat) : List Nat := (uniq f).map fun u => f.count u

/-- fancy indexing `mat[ind, ...]` along axis 0; `none` = `IndexError` -/
def take? {α : Type} (mat : List α) (ind : List Nat) : Option (List α) := ind.mapM fun i => mat[i]?

/-- brillouin_zone.py:248-256 `map_irrk2fbz(mat, shape='list')` -/
def irrk2fbzList {α : Type} (f : List Nat) (mat : List α) : Option (List α) := take? mat (irrkInv f)
/-- brillouin_zone.py:248-256 `map_irrk2fbz(mat, shape='mesh')` -/
def irrk2fbzMesh {α : Type} (nx ny nz : Nat) (f : List Nat) (mat : List α) : Option (Arr3 α) :=
  (take? mat (irrkInv f)).map fun l => reshape3 l nx ny nz
/-- brillouin_zone.py:277-287 `map_fbz2irrk(mat, shape='list')` -/
def fbz2irrkList {α : Type} (f : List Nat) (mat : List α) : Option (List α) := take? mat (irrkInd f)
/-- brillouin_zone.py:277-287 `map_fbz2irrk(mat, shape='mesh')` -/
def fbz2irrkMesh {α : Type} (f : List Nat) (mat : Arr3 α) : Option (List α) := take? (flat3 mat) (irrkInd f)

/-- brillouin_zone.py:222-231 `kmesh_ind` flattened and brillouin_zone.py:258-260 `get_q_list`: row `l` holds the
    three grid indices of the `l`-th point of the C-ordered meshgrid. -/
def qList (nx ny nz : Nat) : List (Nat × Nat × Nat) :=
  ((List.range nx).map fun i => (List.range ny).map fun j => (List.range nz).map fun k => (i, j, k)).flatten.flatten

/-- brillouin_zone.py:262-264 `get_irrq_list` -/
def irrqList (nx ny nz : Nat) (f : List Nat) : Option (List (Nat × Nat × Nat)) := take? (qList nx ny nz) (irrkInd f)

/-- `np.roll(l, s)` along one axis: `l[n-s:] ++ l[:n-s]` with `s` reduced modulo the length -/
def roll {α : Type} (l : List α) (s : Int) : List α :=
  let k := (s % (l.length : Int)).toNat
  l.drop (l.length - k) ++ l.take (l.length - k)

/-- brillouin_zone.py:318-320 `KGrid.shift_mat_by_ind` and brillouin_zone.py:542-544 `shift_mat_by_ind`:
    `np.roll(mat, ind, axis=(0, 1, 2))` -/
def shiftByInd {α : Type} (m : Arr3 α) (s0 s1 s2 : Int) : Arr3 α :=
  (roll (m.map fun p => roll (p.map fun r => roll r s2) s1) s0)

/-- brillouin_zone.py:306-311 `KGrid.shift_mat_by_pi` with the default axes: per axis `np.roll` by half the length -/
def shiftByPi {α : Type} (m : Arr3 α) (nx ny nz : Nat) : Arr3 α :=
  shiftByInd m ((nx / 2 : Nat) : Int) ((ny / 2 : Nat) : Int) ((nz / 2 : Nat) : Int)

/-- brillouin_zone.py:42-48 module function `shift_mat_by_pi`: only the first two axes, `nk` the two axis lengths -/
def shiftByPi2 {α : Type} (m : Arr3 α) (nx ny : Nat) : Arr3 α :=
  shiftByInd m ((nx / 2 : Nat) : Int) ((ny / 2 : Nat) : Int) 0

/-- numpy boolean-mask indexing `a[mask, ...]` for an array given by its shape and its rows along the masked leading
    axes (C order): the mask may not have more dimensions than the array, and its shape has to agree with the leading
    axes; otherwise `IndexError` (`none`). -/
def maskRows {α : Type} (shape : List Nat) (rows : List α) (maskShape : List Nat) (mask : List Bool) :
    Option (List α) :=
  if maskShape.length ≤ shape.length ∧ shape.take maskShape.length = maskShape then
    some ((List.zip rows mask).filterMap fun (r, b) => if b then some r else none)
  else none

/-- brillouin_zone.py:297-304 `symmetrize_irrk`.  `s` is the number of elements per k point, `rows` the rows of
    `mat_reshape`; the mask `self.fbz2irrk == self.irrk_ind[i]` has the three-dimensional shape `nk`. `mean` is
    `np.mean(…, axis=0)`. -/
def symmetrizeIrrk {α : Type} (mean : List α → α) (nx ny nz s : Nat) (f : List Nat) (rows : List α) :
    Option (Arr3 α) :=
  ((irrkInd f).mapM fun u =>
    (maskRows [nx * ny * nz, s] rows [nx, ny, nz] (f.map fun x => x == u)).map mean).bind fun reduced =>
      irrk2fbzMesh nx ny nz f reduced

/-- brillouin_zone.py:297-304 `symmetrize_irrk` with the mask flattened to shape `(nk_tot,)`.  This is NOT the code;
    it is the repair used to state what the routine is meant to compute. -/
def symmetrizeFlat {α : Type} (mean : List α → α) (nx ny nz s : Nat) (f : List Nat) (rows : List α) :
    Option (List α) :=
  ((irrkInd f).mapM fun u =>
    (maskRows [nx * ny * nz, s] rows [nx * ny * nz] (f.map fun x => x == u)).map mean).bind fun reduced =>
      irrk2fbzList f reduced

end DGA.Bz
