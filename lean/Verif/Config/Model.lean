/-
  Model of src/dga/config.py: box sizes, lattice symmetries, optics frequency ranges, Eliashberg start functions, the
  omega mesh of `MaxEntConfig` and the process-count check.

  Configuration entries are optional values (`none`: the key is absent from the YAML file).  Sizes are Python ints.
-/
import Verif.Bz.Model

namespace DGA.Cfg

open DGA.Bz (Sym)

/-- config.py:157-209 `BoxSizes` attributes -/
structure Box where
  niwCore : Int
  nivCore : Int
  nivShell : Int
  nivAsympt : Int
  deriving DecidableEq

/-- config.py:174-176 `niv_full` -/
def Box.nivFull (b : Box) : Int := b.nivShell + b.nivCore

/-- config.py:162-172 `BoxSizes.__init__` -/
def newBox (niw niv shell asympt : Option Int) : Box :=
  let b : Box := ⟨niw.getD (-1), niv.getD (-1), shell.getD 0, asympt.getD (-1)⟩
  if b.nivAsympt = -1 then { b with nivAsympt := b.nivFull + b.niwCore * 2 } else b

/-- config.py:191-209 `set_from_lfp`; `lfpNiv` is `lfp.niv` and `lfpNw` is `len(lfp.wn)`; `none` is `ValueError`. -/
def Box.setFromLfp (b : Box) (lfpNiv lfpNw : Nat) : Option Box := do
  let b1 ← if b.nivCore = -1 then some { b with nivCore := lfpNiv }
    else if b.nivCore > lfpNiv then none else some b
  let b2 ← if b1.niwCore = -1 then some { b1 with niwCore := ((lfpNw / 2 : Nat) : Int) }
    else if b1.niwCore > ((lfpNw / 2 : Nat) : Int) then none else some b1
  if b2.nivAsympt ≤ 0 then some { b2 with nivAsympt := b2.nivFull + b2.niwCore * 2 } else some b2

/-- config.py:182-185 `niv_pp` (`//` is floor division) -/
def Box.nivPP (b : Box) : Int := min (b.niwCore / 2) (b.nivCore / 2)

/-- value of the entry `symmetries` (config.py:219): a string, a tuple of strings, any other sequence of strings (a YAML
    list) or absent/None -/
inductive SymValue where
  | str (s : String)
  | tuple (l : List String)
  | seq (l : List String)
  | null

/-- brillouin_zone.py:9 names of the known symmetries; the strings accepted by `apply_symmetry`
    (brillouin_zone.py:119-126). -/
def symOfName (s : String) : Sym :=
  if s = "x-inv" then .xInv else if s = "y-inv" then .yInv else if s = "z-inv" then .zInv
  else if s = "x-y-sym" then .xySym else if s = "x-y-inv" then .xyInv else .other s

/-- config.py:244-261 `check_symmetries`: the resulting `self.symmetries`; `none` is `NotImplementedError`.  The error
    object built for an unknown tuple entry (config.py:259) is not raised. -/
def checkSymmetries : SymValue → Option (List Sym)
  | .str s =>
    if s = "two_dimensional_square" then some Bz.square
    else if s = "quasi_one_dimensional_square" then some Bz.quasi1d
    else if s = "simultaneous_x_y_inversion" then some Bz.xyInversion
    else if s = "" then some []
    else if s = "none" then some []
    else none
  | .null => some []
  | .tuple l => some (l.map symOfName)
  | .seq l => if l = [] then some [] else none

/-- config.py:216-237 `LatticeConfig.__init__`, symmetry and grid part: check of the symmetries and construction of the
    two k-grids (their full-to-irreducible maps, brillouin_zone.py:162-164).  `nq` absent: `nq = nk`. -/
def latticeGrids (nk : Nat × Nat × Nat) (nq : Option (Nat × Nat × Nat)) (v : SymValue) :
    Option (Bz.Arr3 Nat × Bz.Arr3 Nat) := do
  let syms ← checkSymmetries v
  let q := nq.getD nk
  let kGrid ← Bz.fbz2irrk nk.1 nk.2.1 nk.2.2 syms
  let qGrid ← Bz.fbz2irrk q.1 q.2.1 q.2.2 syms
  return (kGrid, qGrid)

/-- config.py:428-444 `OpticsConfig` frequency attributes -/
structure Optics where
  niwCond : Int := -1
  niwBubble : Int := -1
  niwVert : Int := -1
  nivBubble : Int := -1
  nivVert : Int := -1

/-- config.py:455-484 `set_frequency_ranges`: new optics ranges and box; `none` is `AssertionError`. -/
def Optics.setRanges (o : Optics) (b : Box) : Option (Optics × Box) :=
  (if o.niwVert = -1 then some b.niwCore else if o.niwVert ≤ b.niwCore then some o.niwVert else none).bind fun niwVert =>
  (if o.niwCond = -1 then some (b.niwCore / 2) else if o.niwCond < b.nivCore then some o.niwCond else none).bind
    fun niwCond =>
  let nivBubble := if o.nivBubble = -1 then b.nivAsympt - niwCond * 2 else o.nivBubble
  let nivVert := b.nivCore - niwCond
  let niwBubble := if o.niwBubble = -1 then niwCond else o.niwBubble
  let b' := if nivBubble + niwBubble ≥ b.nivAsympt then { b with nivAsympt := nivBubble + niwBubble } else b
  some (⟨niwCond, niwBubble, niwVert, nivBubble, nivVert⟩, b')

/-- config.py:403-413 `set_gap0_sing`, frequency part -/
def gap0Sing (kSym : String) : String :=
  if kSym = "d-wave" then "even" else if kSym = "p-wave-x" ∨ kSym = "p-wave-y" then "odd" else "random"

/-- config.py:415-425 `set_gap0_trip`, frequency part -/
def gap0Trip (kSym : String) : String :=
  if kSym = "d-wave" then "odd" else if kSym = "p-wave-x" ∨ kSym = "p-wave-y" then "even" else "random"

/-- config.py:563-565: the check at the end of `DgaConfig.__init__`; `false` is `ValueError`. -/
def commSizeOk (commSize : Option Nat) (nkIrr : Nat) : Bool :=
  match commSize with
  | none => true
  | some n => !(n > nkIrr)

/-- Attributes of `MaxEntConfig` (config.py:324-360) that matter for the mesh.  `mesh` records the arguments of
    `get_w_mesh(mesh_type, -wmax, wmax, nwr, cut)`. -/
structure MaxEntCfg where
  cut : Rat
  nwr : Int
  wmax : Rat
  meshType : String           -- the value behind the property, `_mesh_type`
  mesh : String × Rat × Rat × Int × Rat

/-- config.py:353-360, the property setter of `mesh_type` -/
def MaxEntCfg.setMeshType (c : MaxEntCfg) (v : String) : MaxEntCfg :=
  { c with meshType := v, mesh := (v, -c.wmax, c.wmax, c.nwr, c.cut) }

/-- config.py:329-347 `MaxEntConfig.__init__`: defaults, `self.mesh_type = 'tan'` (runs the setter), then
    `self.__dict__.update(config_dict)`.  An entry `mesh_type` in the instance dictionary is shadowed by the property
    (a data descriptor), so it has no effect on `mesh_type` or `mesh`. -/
def newMaxEnt (cut : Option Rat) (nwr : Option Int) (wmax : Option Rat) (_meshType : Option String) : MaxEntCfg :=
  let c : MaxEntCfg := ⟨4 / 100, 501, 15, "", ("", 0, 0, 0, 0)⟩
  let c := c.setMeshType "tan"
  { c with cut := cut.getD c.cut, nwr := nwr.getD c.nwr, wmax := wmax.getD c.wmax }

end DGA.Cfg
