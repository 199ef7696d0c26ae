/-
  Model of paths through the Brillouin zone: src/dga/brillouin_zone.py:11-20, 225-227, 302-351, 354-527.
-/
import Verif.Bz.Model
import Mathlib.Analysis.Real.Sqrt
import Mathlib.Analysis.Real.Pi.Bounds
import Mathlib.Algebra.Order.Round

namespace DGA.KPath

open DGA.Bz

noncomputable section

/-- `np.round` to an integer: halves go to the even neighbour -/
def rint (x : ℝ) : ℤ :=
  if Int.fract x < 1 / 2 then ⌊x⌋ else if 1 / 2 < Int.fract x then ⌊x⌋ + 1 else if ⌊x⌋ % 2 = 0 then ⌊x⌋ else ⌊x⌋ + 1

/-- a triple of coordinates -/
abbrev V3 (α : Type) := α × α × α

/-- brillouin_zone.py:11-20 `KNOWN_K_POINTS` -/
def knownPoint (s : String) : Option (V3 ℝ) :=
  if s = "Gamma" then some (0, 0, 0)
  else if s = "X" then some (0.5, 0, 0)
  else if s = "Y" then some (0, 0.5, 0)
  else if s = "M" then some (0.5, 0.5, 0)
  else if s = "M2" then some (0.25, 0.25, 0)
  else if s = "Z" then some (0, 0, 0.5)
  else if s = "R" then some (0.5, 0, 0.5)
  else if s = "A" then some (0.5, 0.5, 0.5)
  else none

/-- number of points of a segment, brillouin_zone.py:515 -/
def segCount (a b : V3 ℝ) (nk : V3 ℕ) : ℕ :=
  (rint (Real.sqrt ((a.1 * nk.1 - b.1 * nk.1) ^ 2 + (a.2.1 * nk.2.1 - b.2.1 * nk.2.1) ^ 2 + (a.2.2 * nk.2.2 - b.2.2 * nk.2.2) ^ 2))).toNat

/-- one coordinate of a segment before rounding, brillouin_zone.py:516; `np.linspace(0, 1, n, endpoint=False)[j] = j/n` -/
def segCoord (a b : ℝ) (nk n j : ℕ) : ℝ := a * nk + (j : ℝ) / (n : ℝ) * ((b - a) * nk)

/-- rounding and wrapping of one coordinate, brillouin_zone.py:517-520 -/
def wrapOnce (nk : ℕ) (i : ℤ) : ℤ := if (nk : ℤ) ≤ i then i - nk else i

/-- brillouin_zone.py:514-521 `kpath_segment` -/
def segment (a b : V3 ℝ) (nk : V3 ℕ) : List (V3 ℤ) :=
  (List.range (segCount a b nk)).map fun (j : ℕ) =>
    (wrapOnce nk.1 (rint (segCoord a.1 b.1 nk.1 (segCount a b nk) j)), wrapOnce nk.2.1 (rint (segCoord a.2.1 b.2.1 nk.2.1 (segCount a b nk) j)),
      wrapOnce nk.2.2 (rint (segCoord a.2.2 b.2.2 nk.2.2 (segCount a b nk) j)))

/-- brillouin_zone.py:461-472 `build_k_path`: the points, and the lengths of the segments -/
def buildPath (nk : V3 ℕ) : List (V3 ℝ) → List (V3 ℤ) × List ℕ
  | a :: b :: r => (segment a b nk ++ (buildPath nk (b :: r)).1, segCount a b nk :: (buildPath nk (b :: r)).2)
  | _ => ([], [])

/-- brillouin_zone.py:457-459 `map_to_kpath`: fancy indexing, negative indices count from the end, others raise.
    A path of one corner has no array of points and raises already in the constructor (377-382). -/
def mapToPath {α : Type} (nk : V3 ℕ) (corners : List (V3 ℝ)) (m : Arr3 α) : Option (List α) :=
  if corners.length ≤ 1 then none
  else (buildPath nk corners).1.mapM fun (p : V3 ℤ) =>
    (Py.get? m p.1).bind fun plane => (Py.get? plane p.2.1).bind fun row => Py.get? row p.2.2

/-- `np.linspace(0, 2*pi, nk, endpoint=False)` (brillouin_zone.py:243-246, 384-389) -/
def axisVals (nk : ℕ) : List ℝ := (List.range nk).map fun (i : ℕ) => 2 * Real.pi * i / nk

/-- brillouin_zone.py:380-382 `get_kpath_val` with the default grids: all three components are looked up in the x grid -/
def pathVals (nk : V3 ℕ) (pts : List (V3 ℤ)) : Option (List (V3 ℝ)) :=
  pts.mapM fun (p : V3 ℤ) =>
    (Py.get? (axisVals nk.1) p.1).bind fun x => (Py.get? (axisVals nk.1) p.2.1).bind fun y => (Py.get? (axisVals nk.1) p.2.2).map fun z => (x, y, z)

/-- brillouin_zone.py:415-417 `cind`: positions of the ticks -/
def cind (counts : List ℕ) : List ℤ := 0 :: (List.range counts.length).map fun (i : ℕ) => ((counts.take (i + 1)).sum : ℤ) - 1

/-! ### lookup of momenta (KGrid) -/

/-- `np.argmin(np.abs(k - q))`: the first position of the smallest distance; empty arrays raise -/
def argNear (q : ℝ) : List ℝ → Option ℕ
  | [] => none
  | a :: l => match argNear q l with
    | none => some 0
    | some i => if |(l[i]?).getD 0 - q| < |a - q| then some (i + 1) else some 0

/-- brillouin_zone.py:322-327 `find_q_ind` -/
def findQInd (nk : V3 ℕ) (q : V3 ℝ) : Option (V3 ℕ) :=
  (argNear q.1 (axisVals nk.1)).bind fun x => (argNear q.2.1 (axisVals nk.2.1)).bind fun y =>
    (argNear q.2.2 (axisVals nk.2.2)).map fun z => (x, y, z)

/-- brillouin_zone.py:313-316 `shift_mat_by_q` -/
def shiftByQ {α : Type} (nk : V3 ℕ) (m : Arr3 α) (q : V3 ℝ) : Option (Arr3 α) :=
  (findQInd nk q).map fun i => shiftByInd m i.1 i.2.1 i.2.2

/-- brillouin_zone.py:336-351 `get_k_slice` for an array of the grid's shape; an unknown axis raises -/
def kSlice {α : Type} (nk : V3 ℕ) (m : Arr3 α) (dim : ℕ) (val : ℝ) : Option (List (List α)) :=
  if dim = 0 then (argNear val (axisVals nk.1)).bind fun i => m[i]?
  else if dim = 1 then (argNear val (axisVals nk.2.1)).bind fun i => m.mapM fun p => p[i]?
  else if dim = 2 then (argNear val (axisVals nk.2.2)).bind fun i => m.mapM fun p => p.mapM fun r => r[i]?
  else none

end

end DGA.KPath
