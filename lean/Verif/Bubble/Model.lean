/-
  Model of the bubble routines: src/dga/bubble.py:17-88, 157-159.  `K` is the field of the entries with its conjugation `star`.
-/
import Verif.Bz.Model
import Mathlib.Algebra.Field.Basic
import Mathlib.Algebra.Star.Basic

namespace DGA.Bubble

open DGA.Mf DGA.Bz

variable {K : Type} [Field K]

/-- entrywise product of two slices; different lengths raise (`none`; numpy would broadcast a slice of length one, which
    cannot be produced here because windows have even length when they fit) -/
def mulRows (a b : List K) : Option (List K) := if a.length = b.length then some (List.zipWith (· * ·) a b) else none

/-- bubble.py:17-23 `get_gchi0` -/
def getGchi0 (giw : List K) (beta : K) (niv : Nat) (iwn : Int) (nt : String) : Option (List K) :=
  let n : Int := ((giw.length / 2 : Nat) : Int)
  (getFreqShift iwn nt).bind fun s =>
    (mulRows (Py.slice giw (n - niv + s.1) (n + niv + s.1)) (Py.slice giw (n - niv + s.2) (n + niv + s.2))).map
      fun r => r.map fun x => -beta * x

/-- bubble.py:76-79 `get_chi0_sum` -/
def getChi0Sum (giw : List K) (beta : K) (niv : Nat) (iwn : Int) (nt : String) : Option K :=
  let n : Int := ((giw.length / 2 : Nat) : Int)
  (getFreqShift iwn nt).bind fun s =>
    (mulRows (Py.slice giw (n - niv + s.1) (n + niv + s.1)) (Py.slice giw (n - niv + s.2) (n + niv + s.2))).map
      fun r => -1 / beta * r.sum

/-- bubble.py:26-32 `vec_get_gchi0`.  `np.flip` over both frequency axes and `np.conj` of a row is
    `row.reverse.map star`. -/
def vecGetGchi0 [Star K] (giw : List K) (beta : K) (niv : Nat) (w : List Int) (nt : String) (full : Bool) :
    Option (List (List K)) :=
  if full then
    ((wn (nFromMat w) 0 true).mapM fun iwn => getGchi0 giw beta niv iwn nt).map
      fun g => bosonicFull (fun row => row.reverse.map star) g
  else w.mapM fun iwn => getGchi0 giw beta niv iwn nt

/-- bubble.py:82-88 `vec_get_chi0_sum` -/
def vecGetChi0Sum [Star K] (giw : List K) (beta : K) (niv : Nat) (w : List Int) (nt : String) (full : Bool) :
    Option (List K) :=
  if full then
    ((wn (nFromMat w) 0 true).mapM fun iwn => getChi0Sum giw beta niv iwn nt).map fun g => bosonicFull star g
  else w.mapM fun iwn => getChi0Sum giw beta niv iwn nt

/-- `np.mean(rows, axis=(0, 1, 2))` of an array whose k axes are flattened; `c` columns -/
def kMeanRows (c : Nat) (rows : List (List K)) : List K :=
  (List.range c).map fun i => (rows.map fun r => (r[i]?).getD 0).sum / (rows.length : K)

/-- bubble.py:36-44 `get_gchi0_q`: the product `G(k) G(k+q)` of the shifted windows, before `- beta * mean`; `nv` is the
    length of the frequency axis. -/
def prodQ (giwk : Arr3 (List K)) (nv niv : Nat) (s : Int × Int) (q : Int × Int × Int) : Option (List (List K)) :=
  let n : Int := ((nv / 2 : Nat) : Int)
  let giwkpq := shiftByInd giwk (-q.1) (-q.2.1) (-q.2.2)
  (List.zip (flat3 giwk) (flat3 giwkpq)).mapM fun (p : List K × List K) =>
    mulRows (Py.slice p.1 (n - niv + s.1) (n + niv + s.1)) (Py.slice p.2 (n - niv + s.2) (n + niv + s.2))

/-- bubble.py:36-44 `get_gchi0_q` -/
def getGchi0Q (giwk : Arr3 (List K)) (nv : Nat) (beta : K) (niv : Nat) (iwn : Int) (q : Int × Int × Int) (nt : String) :
    Option (List K) :=
  (getFreqShift iwn nt).bind fun s => (prodQ giwk nv niv s q).map fun rows =>
    (kMeanRows (2 * niv) rows).map fun x => -beta * x

/-- bubble.py:56-64 `get_chi0_q` -/
def getChi0Q (giwk : Arr3 (List K)) (nv : Nat) (beta : K) (niv : Nat) (iwn : Int) (q : Int × Int × Int) (nt : String) :
    Option K :=
  (getFreqShift iwn nt).bind fun s => (prodQ giwk nv niv s q).map fun rows =>
    -1 / beta * (kMeanRows (2 * niv) rows).sum

/-- `np.max(np.abs(wn))` -/
def maxAbs (w : List Int) : Nat := (w.map Int.natAbs).foldr max 0

/-- bubble.py:47-53 `vec_get_gchi0_q` -/
def vecGetGchi0Q [Star K] (giwk : Arr3 (List K)) (nv : Nat) (beta : K) (niv : Nat) (w : List Int)
    (qs : List (Int × Int × Int)) (nt : String) (full : Bool) : Option (List (List (List K))) :=
  let wb := if full then wn (nFromMat w) 0 true else w
  let cut : Nat := niv + maxAbs wb
  let g := giwk.map fun p => p.map fun r => r.map fun x => cutV x cut
  let nvc := (cutV (List.replicate nv (0 : K)) cut).length
  (qs.mapM fun q => wb.mapM fun iwn => getGchi0Q g nvc beta niv iwn q nt).map fun res =>
    if full then res.map fun m => bosonicFull (fun row => row.reverse.map star) m else res

/-- bubble.py:67-73 `vec_get_chi0_q` -/
def vecGetChi0Q [Star K] (giwk : Arr3 (List K)) (nv : Nat) (beta : K) (niv : Nat) (w : List Int)
    (qs : List (Int × Int × Int)) (nt : String) (full : Bool) : Option (List (List K)) :=
  let wb := if full then wn (nFromMat w) 0 true else w
  let cut : Nat := niv + maxAbs wb
  let g := giwk.map fun p => p.map fun r => r.map fun x => cutV x cut
  let nvc := (cutV (List.replicate nv (0 : K)) cut).length
  (qs.mapM fun q => wb.mapM fun iwn => getChi0Q g nvc beta niv iwn q nt).map fun res =>
    if full then res.map fun m => bosonicFull star m else res

/-- bubble.py:157-159 `BubbleGenerator.contract_legs` on one row -/
def contractLegs (beta : K) (row : List K) : K := 1 / beta ^ 2 * row.sum

/-- two_point.py:432-433 `set_gloc`: mean over the k axes of the lattice Green's function -/
def gLoc (giwk : Arr3 (List K)) (nv : Nat) : List K := kMeanRows nv (flat3 giwk)

end DGA.Bubble
