/-
  A complete run of the symmetrisation program (C127): src/dga/symmetrize.py `main` for the targets '1freq_b', '2freq', '3freq', with the files
  it reads and writes, any number of inequivalent atoms, and the outcomes raise / exit / done.
-/
import Verif.Symm.Props3

namespace DGA.Sym

variable {K : Type} [Field K]

/-- symmetrize.py:50-56: the quantities that are symmetrised component by component -/
inductive Target | b1 | fb2 | ffb3
deriving DecidableEq

/-- a dataset: shape and entries; `none` is NaN -/
structure Arr (K : Type) where
  shape : List Nat
  at_ : List Nat → Option K

/-- The input file: is there a group `.axes`, and for every worm group and atom (counted from one) the components of the quantity of the
    target (symmetrize.py:83-88) as (number of the group, value).  The name of a group is its number with `{:05}`; names that are no
    numbers are not modelled. -/
structure InFile (K : Type) where
  axes : Bool
  grp : String → Nat → Option (List (Int × Arr K))

/-- the dictionary `conf` of symmetrize.py:47-75 and sym1b.py:20-22 -/
structure Conf where
  target : Target
  nineq : Nat
  nbands : List Nat
  sym : List (List (List Int))
  worm : String

/-- how the program ends -/
inductive End | raised | exited | done
deriving DecidableEq

/-- dataset of the output file: atom (from zero), channel, bosonic index, band index.  Its path is
    `ineq-{atom+1:03}/{channel}/{iwb:05}/{band index:05}[/value]` (without the bosonic index for '1freq_b', for which it is zero here);
    the formats are one-to-one. -/
abbrev Key := Nat × String × Nat × Int

/-- content of the output file -/
abbrev OutFile (K : Type) := Key → Option (Arr K)

/-- The output path: nothing there, a file left behind by a run that raised after creating it, or a file. -/
inductive Disk (K : Type) where
  | absent
  | incomplete
  | file (o : OutFile K)

/-- symmetrize.py:112-121 `check_sym` over all atoms: `none` raises, `some false` exits.  (If one atom is inconsistent and a later look-up
    would raise, the program exits; here it raises.  Nothing has been written in either case.) -/
def checkAll (c : Conf) : Option Bool :=
  (List.range c.nineq).foldlM (fun ok a => (c.nbands[a]?).bind fun nd => (c.sym[a]?).bind fun sy => (checkSym sy nd).map (ok && ·)) true

/-- a component of one atom as `get_groups` lists it, together with its value -/
structure Grp (K : Type) where
  spins : Q4
  bands : Q4
  arr : Arr K

/-- symmetrize.py:77-110 `get_groups` for one atom: the number of groups is compared with that of the Kanamori interaction, and if it differs
    the user is asked (`ans`); the names are decoded.  (The value is read later, in `read_and_add`, under the same name.) -/
def getGroups1 (c : Conf) (f : InFile K) (ans : Bool) (a : Nat) : Except End (List (Grp K)) :=
  match f.grp c.worm (a + 1), c.nbands[a]? with
  | some gl, some nd =>
    if (gl.length : Int) ≠ 6 * (3 * (nd : Int) ^ 2 - 2 * nd) ∧ ans = false then .error .exited
    else match gl.mapM fun g => (decode nd g.1).map fun sb => (⟨sb.1, sb.2, g.2⟩ : Grp K) with
      | some l => .ok l
      | none => .error .raised
  | _, _ => .error .raised

/-- symmetrize.py:81-110 over all atoms -/
def getGroups (c : Conf) (f : InFile K) (ans : Bool) : Except End (List (List (Grp K))) :=
  (List.range c.nineq).mapM (getGroups1 c f ans)

/-- symmetrize.py:123-141 `get_fbox`: half sizes (fermionic, bosonic) from the array of group 00001 of the first atom in `worm-last` (whatever
    `worm_group` is).  '1freq_b' has no fermionic size (0 here). -/
def getFbox (t : Target) (f : InFile K) : Option (Nat × Nat) :=
  (f.grp "worm-last" 1).bind fun gl => (gl.find? fun g => g.1 == 1).bind fun g =>
    match t, g.2.shape with
    | .b1, n :: _ => some (0, n / 2)
    | .fb2, [nf, nb] => some (nf / 2, nb / 2)
    | .ffb3, [_, nf, nb] => some (nf / 2, nb / 2)
    | _, _ => none

/-- number of datasets per band index: symmetrize.py:150-152, 154, 163 -/
def nBlocks (t : Target) (nb : Nat) : Nat :=
  match t with
  | .b1 => 1
  | _ => 2 * nb + 1

/-- shape of a dataset: symmetrize.py:151, 158, 167 -/
def outShape (t : Target) (box : Nat × Nat) : List Nat :=
  match t with
  | .b1 => [2 * box.2 + 1]
  | .fb2 => [2 * box.1]
  | .ffb3 => [2 * box.1, 2 * box.1]

/-- symmetrize.py:105-108: the band index `g` is listed for the atom -/
def inBgroups (nd : Nat) (gs : List (Grp K)) (g : Int) : Prop := ∃ x ∈ gs, component2indexBand nd 4 x.bands.toList = some g

open Classical in
/-- symmetrize.py:144-169 `initialize_output`: zeros for every atom, channel, bosonic index and band index -/
noncomputable def initOutput (c : Conf) (box : Nat × Nat) (groups : List (List (Grp K))) : OutFile K := fun k =>
  if k.1 < c.nineq ∧ (k.2.1 = "dens" ∨ k.2.1 = "magn") ∧ k.2.2.1 < nBlocks c.target box.2 ∧
      inBgroups (c.nbands.getD k.1 0) (groups.getD k.1 []) k.2.2.2 then
    some ⟨outShape c.target box, fun _ => some 0⟩
  else none

/-- symmetrize.py:233, 243, 253-255: the component divided by the number of equivalent groups and the prefactor; for '3freq' NaN entries are
    set to zero -/
def scaled (t : Target) (A : Arr K) (d : K) : Arr K :=
  ⟨A.shape, fun ix => match A.at_ ix with
    | some x => some (x / d)
    | none => if t = .ffb3 then some 0 else none⟩

/-- symmetrize.py:236, 246, 260: the part of the component that belongs to the bosonic index; an index outside the array raises -/
def slice (t : Target) (A : Arr K) (w : Nat) : Option (Arr K) :=
  match t, A.shape with
  | .b1, _ => some A
  | .fb2, [n1, n2] => if w < n2 then some ⟨[n1], fun ix => A.at_ (ix ++ [w])⟩ else none
  | .ffb3, [n1, n2, n3] => if w < n3 then some ⟨[n2, n1], fun ix => A.at_ (ix.reverse ++ [w])⟩ else none
  | _, _ => none

/-- `h5out[key][...] += s * B`: the dataset has to exist and to have the shape of `B` (numpy would also broadcast axes of length one, not
    modelled); a sum with NaN is NaN -/
def addArr (o : OutFile K) (k : Key) (s : K) (B : Arr K) : Option (OutFile K) :=
  (o k).bind fun A => if A.shape = B.shape then
    some fun k' => if k' = k then
      some ⟨A.shape, fun ix => match A.at_ ix, B.at_ ix with
        | some x, some y => some (x + s * y)
        | _, _ => none⟩
      else o k'
  else none

/-- symmetrize.py:235-240, 245-250, 258-263: one dataset -/
def addBlock (t : Target) (A : Arr K) (act : Action) (o : OutFile K) (k : Key) : Option (OutFile K) :=
  match act with
  | .plus => (slice t A k.2.2.1).bind fun B => addArr o k 1 B
  | .minus => (slice t A k.2.2.1).bind fun B => addArr o k (-1) B
  | .skip => some o

/-- symmetrize.py:223-263 `read_and_add` -/
def readAndAddFile (t : Target) (nb : Nat) (a : Nat) (ch : String) (A : Arr K) (act : Action) (groups : List Int) (o : OutFile K) :
    Option (OutFile K) :=
  (prefactor ch).bind fun p =>
    (List.range (nBlocks t nb)).foldlM (fun o w =>
      groups.foldlM (fun o g => addBlock t (scaled t A (p * (groups.length : K))) act o (a, ch, w, g)) o) o

/-- symmetrize.py:304-307: one atom and one channel -/
def symAtomChannel (c : Conf) (nb : Nat) (a : Nat) (gs : List (Grp K)) (o : OutFile K) (ch : String) : Option (OutFile K) :=
  (c.sym[a]?).bind fun sy => (c.nbands[a]?).bind fun nd =>
    gs.foldlM (fun o g => (getSymgroups ch g.spins g.bands sy nd).bind fun ag =>
      readAndAddFile c.target nb a ch g.arr ag.1 ag.2 o) o

/-- symmetrize.py:302-307: the loop over atoms and channels -/
def symLoop (c : Conf) (nb : Nat) (groups : List (List (Grp K))) (o : OutFile K) : Option (OutFile K) :=
  (List.range c.nineq).foldlM (fun o a => (groups[a]?).bind fun gs =>
    ["dens", "magn"].foldlM (fun o ch => symAtomChannel c nb a gs o ch) o) o

/-- symmetrize.py:267-314 `main` for the three targets.  `f = none`: the input file cannot be opened; `ans`: the user goes on although the number
    of groups is not the expected one; `d`: what is at the output path.  An exception after line 294 leaves the file behind. -/
noncomputable def run (c : Conf) (f : Option (InFile K)) (ans : Bool) (d : Disk K) : End × Disk K :=
  match checkAll c with
  | none => (.raised, d)
  | some false => (.exited, d)
  | some true => match f with
    | none => (.raised, d)
    | some f => match getGroups c f ans with
      | .error e => (e, d)
      | .ok groups => match getFbox c.target f with
        | none => (.raised, d)
        | some box => match d with
          | .absent =>
            if c.target = .ffb3 ∧ 0 < c.nineq ∧ f.axes = false then (.raised, .incomplete)
            else match symLoop c box.2 groups (initOutput c box groups) with
              | some o => (.done, .file o)
              | none => (.raised, .incomplete)
          | d => (.exited, d)

end DGA.Sym
