/-
  Model of the Matsubara part of the optical conductivity: src/dga/optics.py:25-38, 101-112, 115-159, 162-202,
  265-274.  The light vertices are arrays over the k grid (wannier.py), momentum arrays are nested lists (`Arr3`), the
  frequency axis is the innermost list.
-/
import Verif.Bubble.Model
import Verif.FourPoint.Model

namespace DGA.Opt

open DGA.Mf DGA.Bz DGA.Bubble

variable {K : Type} [Field K]

/-- optics.py:25-38 `get_chijj_bubble`; `nv` is the length of the frequency axis of `giwk` -/
def getChijjBubble (giwk : Arr3 (List K)) (nv : Nat) (lvA lvB : Arr3 K) (beta : K) (iwn : Int) (nivSum : Nat)
    (nt : String) : Option K :=
  let n : Int := ((nv / 2 : Nat) : Int)
  (getFreqShift iwn nt).bind fun s =>
    ((List.zip (flat3 giwk) (List.zip (flat3 lvA) (flat3 lvB))).mapM fun (p : List K × K × K) =>
      (mulRows (Py.slice p.1 (n - nivSum + s.1) (n + nivSum + s.1)) (Py.slice p.1 (n - nivSum + s.2) (n + nivSum + s.2))).map
        fun r => (p.2.1 * p.2.2) * r.sum).map fun vals =>
      -2 / beta * (vals.sum / (vals.length : K))

/-- optics.py:101-112 `vec_get_chijj_bubble` (the Green's function and the light vertices are given) -/
def vecGetChijjBubble (giwk : Arr3 (List K)) (nv : Nat) (lvA lvB : Arr3 K) (beta : K) (wn : List Int) (nivSum : Nat)
    (nt : String) : Option (List K) := wn.mapM fun iwn => getChijjBubble giwk nv lvA lvB beta iwn nivSum nt

/-- dga_main.py:327-331: the bubble for the non-negative frequencies, extended with `bosonic_full_nu_range` -/
def chijjBubbleMain [Star K] (giwk : Arr3 (List K)) (nv : Nat) (lvA lvB : Arr3 K) (beta : K) (niwBubble nivBubble : Nat) :
    Option (List K) :=
  (vecGetChijjBubble giwk nv lvA lvB beta (wn niwBubble 0 true) nivBubble "minus").map fun l => bosonicFull star l

/-- entrywise sum of two rows of equal length -/
def addRows (a b : List K) : Option (List K) := if a.length = b.length then some (List.zipWith (· + ·) a b) else none

/-- optics.py:133-136: the inner loop over the bosonic frequencies `wpn` for one k point; `g` is the row of
    `giwk_kpq`, `f` the slice `f_cond[i]`, `acc` starts as the scalar 0 (a row of zeros) -/
def ggFcond (niv : Nat) (nl nu : Int) (g : List K) (iwn : Int) (wpn : List Int) (f : List (List K)) : Option (List K) :=
  (List.range wpn.length).foldlM (fun acc j =>
    (wpn[j]?).bind fun iwpn => (f[j]?).bind fun fr =>
      (mulRows (Py.slice g (nl - iwpn) (nu - iwpn)) (Py.slice g (nl - iwpn - iwn) (nu - iwpn - iwn))).bind fun gg =>
        (mulRows gg fr).bind fun t => addRows acc t) (List.replicate (2 * niv) 0)

/-- optics.py:127-137: the contribution of one q point; `nivF` is the number of fermionic frequencies of the vertex. -/
def chijjVertexQ (giwk : Arr3 (List K)) (nv : Nat) (lvA lvB : Arr3 K) (iwn : Int) (wpn : List Int)
    (nivF : Nat) (q : Int × Int × Int) (f : List (List K)) : Option K :=
  let nivG : Int := ((nv / 2 : Nat) : Int)
  let nl := nivG - nivF
  let nu := nivG + nivF
  let lvBkpq := shiftByInd lvB (-q.1) (-q.2.1) (-q.2.2)
  let gkpq := shiftByInd giwk (-q.1) (-q.2.1) (-q.2.2)
  ((List.zip (List.zip (flat3 lvA) (flat3 lvBkpq)) (List.zip (flat3 giwk) (flat3 gkpq))).mapM
    fun (p : (K × K) × List K × List K) =>
      (mulRows (Py.slice p.2.1 (nl - iwn) (nu - iwn)) (Py.slice p.2.1 nl nu)).bind fun gg =>
        (ggFcond nivF nl nu p.2.2 iwn wpn f).bind fun acc =>
          mulRows (gg.map fun x => (p.1.1 * p.1.2) * x) acc).map fun rows => (kMeanRows (2 * nivF) rows).sum

/-- optics.py:115-140 `get_chijj_vertex`; `fcond[i]` is the vertex of the i-th q point of the list -/
def getChijjVertex (fcond : List (List (List K))) (nivF : Nat) (lvA lvB : Arr3 K) (giwk : Arr3 (List K)) (nv : Nat)
    (beta : K) (iwn : Int) (wpn : List Int) (qs : List (Int × Int × Int)) (nkTot : Nat) : Option K :=
  ((List.range qs.length).foldlM (fun acc i =>
    (qs[i]?).bind fun q => (fcond[i]?).bind fun f =>
      (chijjVertexQ giwk nv lvA lvB iwn wpn nivF q f).map fun x => acc + x) (0 : K)).map
    fun sigma => -2 / (beta ^ 2 * (nkTot : K)) * sigma

/-- optics.py:143-159 `vec_get_chijj_vert`: `fcond[q][w'][w][v]`; the two assertions compare the numbers of frequencies.
    `nw'`, `nwc`, `2 nivF` are the lengths of the last three axes of the vertex. -/
def vecGetChijjVert (fcond : List (List (List (List K)))) (nwp nwc nivF : Nat) (giwk : Arr3 (List K)) (nv : Nat)
    (lvA lvB : Arr3 K) (beta : K) (wnVert wnCond : List Int) (qs : List (Int × Int × Int)) (nkTot : Nat) :
    Option (List K) :=
  if wnVert.length = nwp ∧ wnCond.length = nwc then
    let cut : Int := ((nivF + nFromMat wnVert + (wnCond.length - 1) : Nat) : Int)
    let g := giwk.map fun p => p.map fun r => r.map fun x => cutV x cut
    let nvc := (cutV (List.replicate nv (0 : K)) cut).length
    (List.range wnCond.length).mapM fun i => (wnCond[i]?).bind fun iwn =>
      (fcond.mapM fun (fq : List (List (List K))) => fq.mapM fun (fw : List (List K)) => fw[i]?).bind fun fc =>
        getChijjVertex fc nivF lvA lvB g nvc beta iwn wnVert qs nkTot
  else none

/-- `np.diag` of a two-dimensional array given by its rows -/
def diagRows {α : Type} (m : List (List α)) : List α := (List.range m.length).filterMap fun i => (m[i]?).bind fun r => r[i]?

/-- optics.py:265-274 `get_vmw_v_slice`; `ncol` is the number of columns.  Assigning a row of another length than
    `2 niv_new` raises, except that a row of length one is broadcast. -/
def getVmwVSlice {α : Type} (mat : List (List α)) (ncol : Nat) (wn : List Int) (nivNew : Nat) : Option (List (List α)) :=
  let nivOld : Int := ((ncol / 2 : Nat) : Int)
  wn.mapM fun iwn =>
    let nl := nivOld - nivNew
    let nu := nivOld + nivNew
    let d := diagRows ((Py.slice mat nl nu).map fun r => Py.slice r (nl - iwn) (nu - iwn))
    if d.length = 2 * nivNew then some d
    else match d with
      | [x] => some (List.replicate (2 * nivNew) x)
      | _ => none

/-- optics.py:162-202 (arithmetic of `build_vertex_for_optical_conductivity`, one entry):
    `f_magn = f1 + (1 + u chi) f2`, `f_dens = f1 + (1 - u chi) f2`, `f_cond = -1/2 f_dens - 3/2 f_magn` -/
def fCond (f1m f2m f1d f2d u chiM chiD : K) : K :=
  -1 / 2 * (f1d + (1 - u * chiD) * f2d) - 3 / 2 * (f1m + (1 + u * chiM) * f2m)

end DGA.Opt
