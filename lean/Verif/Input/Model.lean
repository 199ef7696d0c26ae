/-
  Model of the DMFT input of a DGA run: src/dga/dga_io.py:34-128, src/dga/w2dyn_aux_dga.py:22-216,
  src/dga/local_four_point.py:204-206 and the calls in src/dga/dga_main.py:46-60.

  Files are finite maps; `none` is a raised exception (missing file, dataset or key, wrong shape, failed assertion).
  Open file handles are not modelled.
-/
import Verif.FourPoint.Model
import Verif.Config.Model
import Verif.Symm.Model
import Mathlib.Data.Complex.Basic

noncomputable section

namespace DGA.Inp

open DGA.Fp (NPoint newNPoint cutIw)

/-- value of an hdf5 dataset or attribute, by rank (language construct: `f[name][()]`) -/
inductive DS where
  | num (x : ℂ)
  | a1 (l : List ℂ)
  | a3 (l : List (List (List ℂ)))
  | a4 (l : List (List (List (List ℂ))))

/-- an hdf5 file: datasets by path, the attributes of the group `.config` (w2dyn_aux_dga.py:55-102) and the two-particle
    datasets `/ineq-001/<channel>/<wn>/00001/value` (w2dyn_aux_dga.py:251-275) by channel -/
structure H5 where
  data : String → Option DS
  attr : String → Option ℂ
  g2 : String → Sym.G2File ℂ

/-- dga_io.py:64-80, 83-105 the dictionary `ddict`; the two-particle entries are missing if no second file was given -/
structure Dict where
  giw : DS
  siw : DS
  n : DS
  beta : DS
  u : DS
  mu : DS
  dens : Option DS
  magn : Option DS

/-- the file system: hdf5 files and pickled dictionaries by full path -/
structure Fs where
  h5 : String → Option H5
  npy : String → Option Dict

/-- w2dyn_aux_dga.py:49-50 `atom_group()` with the default arguments -/
def atomGroup : String := "dmft-last/ineq-001"

/-- w2dyn_aux_dga.py:131-132 `get_giw()` -/
def getGiw (f : H5) : Option DS := f.data (atomGroup ++ "/giw/value")
/-- w2dyn_aux_dga.py:125-126 `get_siw()` -/
def getSiw (f : H5) : Option DS := f.data (atomGroup ++ "/siw/value")
/-- w2dyn_aux_dga.py:161-162 `get_occ()` -/
def getOcc (f : H5) : Option DS := f.data (atomGroup ++ "/occ/value")
/-- w2dyn_aux_dga.py:95-96 `get_totdens` -/
def getTotdens (f : H5) : Option ℂ := f.attr "general.totdens"
/-- w2dyn_aux_dga.py:83-84 `get_beta` -/
def getBeta (f : H5) : Option ℂ := f.attr "general.beta"
/-- w2dyn_aux_dga.py:101-102 `get_udd()` -/
def getUdd (f : H5) : Option ℂ := f.attr "atoms.1.udd"
/-- w2dyn_aux_dga.py:89-90 `get_mu()` -/
def getMu (f : H5) : Option DS := f.data "dmft-last/mu/value"

/-- `np.mean(m, axis=0)` of a rectangular array with at least one row (language construct) -/
def meanRows (m : List (List ℂ)) : Option (List ℂ) :=
  m.head?.map fun r => (List.range r.length).map fun j => (m.map fun s => s.getD j 0).sum / (m.length : ℂ)

/-- dga_io.py:88-89 `np.mean(x[0, :, :], axis=0)` -/
def spinMean : DS → Option DS
  | .a3 l => l.head?.bind fun band => (meanRows band).map DS.a1
  | _ => none

/-- dga_io.py:92 `np.sum(np.diag(occ[0, :, 0, :]))` -/
def occSum : DS → Option ℂ
  | .a4 l => l.head?.bind fun b => (b.mapM (List.head? (α := List ℂ))).map fun m =>
      ((List.range (min m.length ((m.head?.map List.length).getD 0))).map fun i => ((m.getD i []).getD i 0)).sum
  | _ => none

/-- dga_io.py:61-80 `load_1p_data_ed` -/
def loadEd (fs : Fs) (path f1 : String) (f2 : Option String) : Option Dict :=
  (fs.h5 (path ++ f1)).bind fun f =>
  (f.data "giw").bind fun giw => (f.data "siw_hat").bind fun siw => (f.data "/config/totdens").bind fun n =>
  (f.data "/config/beta").bind fun beta => (f.data "/config/U").bind fun u => (f.data "/dmft/mu").bind fun mu =>
  match f2 with
  | none => some ⟨giw, siw, n, beta, u, mu, none, none⟩
  | some g => (fs.h5 (path ++ g)).bind fun h =>
    (h.data "g4iw_dens").bind fun d => (h.data "g4iw_magn").bind fun m => some ⟨giw, siw, n, beta, u, mu, some d, some m⟩

/-- dga_io.py:83-105 `load_1p_data_w2dyn` -/
def loadW2dyn (fs : Fs) (path f1 : String) (f2 : Option String) : Option Dict :=
  (fs.h5 (path ++ f1)).bind fun f =>
  ((getGiw f).bind spinMean).bind fun giw => ((getSiw f).bind spinMean).bind fun siw =>
  (getTotdens f).bind fun n0 =>
  (if n0 = 0 then (getOcc f).bind occSum else some n0).bind fun n =>
  (getBeta f).bind fun beta => (getUdd f).bind fun u => (getMu f).bind fun mu =>
  match f2 with
  | none => some ⟨giw, siw, .num n, .num beta, .num u, mu, none, none⟩
  | some g => (fs.h5 (path ++ g)).map fun h =>
    ⟨giw, siw, .num n, .num beta, .num u, mu, some (.a3 (Sym.readG2Full (h.g2 "dens"))), some (.a3 (Sym.readG2Full (h.g2 "magn")))⟩

/-- dga_io.py:48-58 `load_1p_data` -/
def load1p (fs : Fs) (ty path f1 : String) (f2 : Option String) : Option Dict :=
  if ty = "EDFermion" then loadEd fs path f1 f2
  else if ty = "w2dyn" then loadW2dyn fs path f1 f2
  else if ty = "test" then fs.npy (path ++ f1)
  else if ty = "default" then fs.npy (path ++ f1)
  else none

/-- a local four-point object on lists of rows -/
abbrev G2 := NPoint ℂ (List (List ℂ))

/-- local_four_point.py:204-206 `get_g2_from_dmft_input`; local_four_point.py:163-165 needs three axes -/
def g2FromInput (d : Dict) (ch : String) : Option G2 :=
  (if ch = "dens" then d.dens else if ch = "magn" then d.magn else none).bind fun
    | .a3 m => match d.beta, d.u with
      | .num b, .num u => newNPoint ch m b u none true
      | _, _ => none
    | _ => none

/-- local_four_point.py:140-142 property `niv`: `shape[-1] // 2` -/
def nivOf (o : G2) : Nat := ((o.mat.head?.bind List.head?).map List.length).getD 0 / 2

/-- matsubara_frequencies.py:150-159 `cut_v(mat, c, axes=(-2, -1))` (the last axis first) through
    local_four_point.py:167-168 `cut_iv`.  `np.apply_along_axis` raises when one of the other axes has length zero. -/
def cutIv (o : G2) (c : Int) : Option G2 :=
  if o.mat = [] ∨ [] ∈ o.mat then none
  else
    let m1 := o.mat.map fun p => p.map fun r => Mf.cutV r c
    if ∃ p ∈ m1, [] ∈ p then none
    else some { o with mat := m1.map fun p => Mf.cutV p c }

/-- local_four_point.py:148-150 `cut_iw`; the axes `v`, `v'` must not be empty (see `cutIv`) -/
def cutIwArr (o : G2) (c : Int) : Option G2 :=
  if ∃ p ∈ o.mat, p = [] ∨ [] ∈ p then none else cutIw o c

/-- `np.transpose` of one square plane (language construct) -/
def transp (p : List (List ℂ)) : List (List ℂ) :=
  (List.range p.length).map fun i => (List.range p.length).map fun j => (p.getD j []).getD i 0

/-- local_four_point.py:174-176 `symmetrize_v_vp`: `0.5 * (mat + transposed)` (square planes) -/
def symVVp (o : G2) : G2 :=
  { o with mat := o.mat.map fun p => List.zipWith (fun a b => List.zipWith (fun x y => (1 / 2) * (x + y)) a b) p (transp p) }

/-- dga_io.py:108-128 `build_g2_obj`; returns also the box sizes set on the way -/
def buildG2 (box : Cfg.Box) (sym : Bool) (d : Dict) : Option (Cfg.Box × G2 × G2) :=
  (g2FromInput d "dens").bind fun gd => (g2FromInput d "magn").bind fun gm =>
  (box.setFromLfp (nivOf gd) gd.wn.length).bind fun b =>
  (cutIv gd b.nivCore).bind fun gd => (cutIwArr gd b.niwCore).bind fun gd =>
  (cutIv gm b.nivCore).bind fun gm => (cutIwArr gm b.niwCore).map fun gm =>
  if sym then (b, symVVp gd, symVVp gm) else (b, gd, gm)

/-- dga_io.py:34-45 `create_dmft_ddict`, saved by dga_main.py:58-60 as `dmft_input.npy` -/
def saveDict (d : Dict) (gd gm : G2) : Dict := { d with dens := some (.a3 gd.mat), magn := some (.a3 gm.mat) }

/-- w2dyn_aux_dga.py:186-196 `0.5 * np.sum(x, axis=(0, 1))` of `[band, spin, v]` data -/
def halfSum : DS → Option (List ℂ)
  | .a3 l => (l.head?.bind List.head?).map fun r =>
      (List.range r.length).map fun j => (1 / 2) * ((l.map fun b => (b.map fun s => s.getD j 0).sum).sum)
  | _ => none

/-- w2dyn_aux_dga.py:167-181 `get_chi`: `up`/`dn` the two worm components.  The boolean mask must have the length of the data. -/
def getChi (up dn : List ℂ) (n beta : ℂ) (channel : String) : Option (List ℂ) :=
  if up.length ≠ dn.length then none
  else if channel = "dens" then
    let wn := Mf.wn (up.length / 2)
    let chi := List.zipWith (· + ·) up dn
    if wn.length = chi.length then
      some (List.zipWith (fun (w : Int) c => if w = 0 then c - (n / 2 - 1) ^ 2 * beta * 2 else c) wn chi)
    else none
  else if channel = "magn" then some (List.zipWith (· - ·) up dn)
  else none

end DGA.Inp
