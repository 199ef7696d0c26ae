/-
  Model of src/dga/symmetrize.py (worm component symmetrisation) and of the reader src/dga/w2dyn_aux_dga.py:251-297.
-/
import Verif.Py
import Mathlib.Algebra.Field.Basic

namespace DGA.Sym

/-- symmetrize.py:23-27, 41-43: the loop that peels off the leading digit; `k` operators are left, `t` is `ind_tmp`.
    (`//` by a positive number is floor division, as is `Int` division in Lean.) -/
def peel (base : Nat) : Nat → Int → List Int
  | 0, _ => []
  | k + 1, t => t / (base ^ k : Nat) :: peel base k (t - (base ^ k : Nat) * (t / (base ^ k : Nat)))

/-- symmetrize.py:12-29 `index2component_general`: `(bs, b, s)` -/
def index2componentGeneral (nb N : Nat) (ind : Int) : List Int × List Int × List Int :=
  let bs := peel (2 * nb) N (ind - 1)
  (bs, bs.map (fun x => (x - x % 2) / 2), bs.map (fun x => x % 2))

/-- symmetrize.py:32-36 `component2index_band`; a tuple shorter than `N` raises IndexError (`none`) -/
def component2indexBand (nb N : Nat) (b : List Int) : Option Int :=
  (List.range N).foldlM (fun ind i => (b[i]?).map fun d => ind + (nb ^ (N - i - 1) : Nat) * d) 1

/-- symmetrize.py:39-44 `index2component_band` -/
def index2componentBand (nb N : Nat) (ind : Int) : List Int := peel nb N (ind - 1)

/-- a component of the four-operator correlation function: four spins or four bands -/
abbrev Q4 := Int × Int × Int × Int

/-- the tuple as a list -/
def Q4.toList (b : Q4) : List Int := [b.1, b.2.1, b.2.2.1, b.2.2.2]

/-- what is done with a component -/
inductive Action | plus | minus | skip
deriving DecidableEq

/-- symmetrize.py:173-188: the action of a spin combination; unknown combinations end the program (`none`), as does an
    unknown channel (unbound local) -/
def actionOf (ch : String) (s : Q4) : Option Action :=
  if ch = "dens" then
    if s ∈ [(0, 0, 0, 0), (0, 0, 1, 1), (1, 1, 0, 0), (1, 1, 1, 1)] then some .plus
    else if s ∈ [(0, 1, 1, 0), (1, 0, 0, 1)] then some .skip
    else none
  else if ch = "magn" then
    if s ∈ [(0, 0, 0, 0), (0, 1, 1, 0), (1, 0, 0, 1), (1, 1, 1, 1)] then some .plus
    else if s ∈ [(0, 0, 1, 1), (1, 1, 0, 0)] then some .minus
    else none
  else none

/-- symmetrize.py:190-219: the list of equivalent band tuples (before they are turned into indices); `sy[b]` lists the
    bands equivalent to `b`, counted from one.  All four look-ups are made first (the code evaluates them lazily; for
    bands inside the table there is no difference). -/
def symBands (sy : List (List Int)) (b : Q4) : Option (List Q4) :=
  (Py.get? sy b.1).bind fun y1 => (Py.get? sy b.2.1).bind fun y2 => (Py.get? sy b.2.2.1).bind fun y3 =>
    (Py.get? sy b.2.2.2).map fun y4 =>
      if y1.length = 1 ∧ y2.length = 1 ∧ y3.length = 1 ∧ y4.length = 1 then [b]
      else if b.1 = b.2.1 ∧ b.1 = b.2.2.1 ∧ b.1 = b.2.2.2 then y1.map fun i => (i - 1, i - 1, i - 1, i - 1)
      else if b.1 = b.2.1 ∧ b.2.2.1 = b.2.2.2 ∧ b.2.1 ≠ b.2.2.1 then
        y1.flatMap fun i => (y3.filter fun j => i - 1 ≠ j - 1).map fun j => (i - 1, i - 1, j - 1, j - 1)
      else if b.1 = b.2.2.1 ∧ b.2.1 = b.2.2.2 ∧ b.1 ≠ b.2.1 then
        y1.flatMap fun i => (y2.filter fun j => i - 1 ≠ j - 1).map fun j => (i - 1, j - 1, i - 1, j - 1)
      else if b.1 = b.2.2.2 ∧ b.2.1 = b.2.2.1 ∧ b.1 ≠ b.2.1 then
        y1.flatMap fun i => (y2.filter fun j => i - 1 ≠ j - 1).map fun j => (i - 1, j - 1, j - 1, i - 1)
      else []

/-- symmetrize.py:172-221 `get_symgroups` -/
def getSymgroups (ch : String) (spins bands : Q4) (sy : List (List Int)) (nd : Nat) : Option (Action × List Int) :=
  (actionOf ch spins).bind fun a => (symBands sy bands).bind fun l =>
    (l.mapM fun b => component2indexBand nd 4 b.toList).map fun g => (a, g)

variable {K : Type} [Field K]

/-- symmetrize.py:224-230 -/
def prefactor (ch : String) : Option K := if ch = "dens" then some 2 else if ch = "magn" then some 4 else none

/-- The symmetrised output of one channel: value stored under each band index, `none` if there is no such dataset. -/
abbrev Out (K : Type) := Int → Option K

/-- `h5out[...] += x` for one dataset; a missing dataset raises KeyError -/
def addAt (o : Out K) (g : Int) (x : K) : Option (Out K) :=
  (o g).map fun y => fun h => if h = g then some (y + x) else o h

/-- symmetrize.py:235-240, 245-250, 258-263: one dataset according to the action -/
def applyAct (a : Action) (z : K) (o : Out K) (g : Int) : Option (Out K) :=
  match a with
  | .plus => addAt o g z
  | .minus => addAt o g (-z)
  | .skip => some o

/-- symmetrize.py:223-263 `read_and_add` for one frequency entry of the component's value `x` (the three targets differ only
    in the frequency axes; the 3-frequency data are stored transposed).  NaN replacement: see `scaled` in Symm/Run.lean. -/
def readAndAdd (o : Out K) (ch : String) (x : K) (a : Action) (groups : List Int) : Option (Out K) :=
  (prefactor ch).bind fun p => groups.foldlM (applyAct a (x / (p * (groups.length : K)))) o

/-- one component of the input file: its spins, bands and value -/
structure Comp (K : Type) where
  spins : Q4
  bands : Q4
  val : K

/-- symmetrize.py:102-104: a group name of the input file decoded into spins and bands -/
def decode (nd : Nat) (ind : Int) : Option (Q4 × Q4) :=
  match index2componentGeneral nd 4 ind with
  | (_, [b1, b2, b3, b4], [s1, s2, s3, s4]) => some ((s1, s2, s3, s4), (b1, b2, b3, b4))
  | _ => none

/-- symmetrize.py:105-108, 144-169: one dataset of zeros for every band index that occurs -/
def initOut (nd : Nat) (comps : List (Comp K)) : Out K := fun g =>
  if ∃ c ∈ comps, component2indexBand nd 4 c.bands.toList = some g then some 0 else none

/-- symmetrize.py:304-307: the loop over the components for one channel -/
def symmetrizeChannel (ch : String) (sy : List (List Int)) (nd : Nat) (comps : List (Comp K)) (o : Out K) : Option (Out K) :=
  comps.foldlM (fun o c => (getSymgroups ch c.spins c.bands sy nd).bind fun ag => readAndAdd o ch c.val ag.1 ag.2) o

/-- symmetrize.py:112-121 `check_sym` for one atom: `true` if it passes.  (`j - 1` outside the table raises.) -/
def checkSym (sy : List (List Int)) (nd : Nat) : Option Bool :=
  (List.range nd).foldlM (fun ok i => (sy[i]?).bind fun yi =>
    yi.foldlM (fun ok j => (Py.get? sy (j - 1)).map fun yj =>
      ok && decide ((∀ x ∈ yi, x ∈ yj) ∧ ∀ x ∈ yj, x ∈ yi)) ok) true

/-- symmetrize.py:97-108, 303-307: the groups of the input file (name, value) are decoded and symmetrised for one channel -/
def symmetrizeFile (ch : String) (sy : List (List Int)) (nd : Nat) (groups : List (Int × K)) : Option (Out K) :=
  (groups.mapM fun g => (decode nd g.1).map fun sb => (⟨sb.1, sb.2, g.2⟩ : Comp K)).bind fun comps =>
    symmetrizeChannel ch sy nd comps (initOut nd comps)

/-- symmetrize.py:283-287 for one frequency: `value[band, :] += mean(unsym[symband-1, :] / len(sym[band]), axis=0)`; `x` lists
    the spin entries of every band.  Returns the new row of `band` (all spins get the same value). -/
def sym1freqBand (x : List (List K)) (ys : List Int) (row : List K) : Option (List K) :=
  ys.foldlM (fun row j => (Py.get? x (j - 1)).map fun xs =>
    row.map fun r => r + (xs.map fun v => v / (ys.length : K)).sum / (xs.length : K)) row

/-- symmetrize.py:275-287 for one atom and one frequency: start from zeros -/
def sym1freq (x : List (List K)) (sy : List (List Int)) (nd : Nat) : Option (List (List K)) :=
  (List.range nd).mapM fun b => (sy[b]?).bind fun ys => (x[b]?).bind fun xb => sym1freqBand x ys (xb.map fun _ => 0)

/-! ### three-frequency data: the file on disk -/

/-- `ndarray.T` of a two-dimensional array (a rectangular array of `n` columns) -/
def tr (n : Nat) (A : List (List K)) : Option (List (List K)) :=
  (List.range n).mapM fun j => A.mapM fun r => r[j]?

/-- An hdf5 file as read by `W2dynG4iwFile`: the dataset of bosonic index `wn` for one atom, channel and spin-band group, as a
    list of (wn, rows).  The dataset name is built from `wn` with `{:05}`, which is one-to-one. -/
abbrev G2File (K : Type) := List (Int × List (List K))

/-- `self._file[...][()]`; a missing dataset raises KeyError -/
def G2File.get (f : G2File K) (wn : Int) : Option (List (List K)) := (f.find? fun e => e.1 == wn).map Prod.snd

/-- number of columns of an array -/
def cols (A : List (List K)) : Nat := (A.head?.map List.length).getD 0

/-- `[()].T` of one dataset -/
def G2File.getT (f : G2File K) (wn : Int) : Option (List (List K)) := (f.get wn).bind fun A => tr (cols A) A

/-- w2dyn_aux_dga.py:251-258 `read_g2`: a fixed number of bosonic frequencies; every dataset has to have the shape
    `(2 niv, 2 niv)` (numpy would also broadcast axes of length one, not modelled) -/
def readG2 (f : G2File K) (niw niv : Nat) : Option (List (List (List K))) :=
  (List.range (2 * niw + 1)).mapM fun wn : Nat => (f.getT (wn : Int)).bind fun A =>
    if A.length = 2 * niv ∧ ∀ r ∈ A, r.length = 2 * niv then some A else none

/-- the loop of w2dyn_aux_dga.py:264-273; `fuel` bounds the number of iterations (a file with `n` datasets is left after at
    most `n + 1` of them).  The bare `except` ends the loop at the first dataset that cannot be read. -/
def readFullLoop (f : G2File K) : Nat → Int → List (List (List K))
  | 0, _ => []
  | fuel + 1, wn => match f.getT wn with
    | some A => A :: readFullLoop f fuel (wn + 1)
    | none => []

/-- w2dyn_aux_dga.py:263-275 `read_g2_full` -/
def readG2Full (f : G2File K) : List (List (List K)) := readFullLoop f (f.length + 1) 0

/-- the loop of w2dyn_aux_dga.py:293-295 -/
def countLoop (f : G2File K) : Nat → Int → Int
  | 0, wn => wn
  | fuel + 1, wn => if (f.get wn).isSome then countLoop f fuel (wn + 1) else wn

/-- w2dyn_aux_dga.py:292-297 `get_niw` -/
def getNiw (f : G2File K) : Int := countLoop f (f.length + 1) 0 / 2

/-- w2dyn_aux_dga.py:280-287 `read_g2_iw` (`cen2lin(iw, -niw)` is `iw + niw`, see the Matsubara model) -/
def readG2Iw (f : G2File K) (iw : List Int) : Option (List (List (List K))) :=
  iw.mapM fun w => f.getT (w + getNiw f)

/-- symmetrize.py:161-169, 256-263: what the symmetrisation writes for one channel and one band index: for every bosonic
    index the transposed `[:, :, iwb]` slice of the symmetrised data `S v v' iwb` -/
def writeG2 (n4iwf n4iwb : Nat) (S : Nat → Nat → Nat → K) : G2File K :=
  (List.range (2 * n4iwb + 1)).map fun w : Nat =>
    ((w : Int), (List.range (2 * n4iwf)).map fun i => (List.range (2 * n4iwf)).map fun j => S j i w)

end DGA.Sym
