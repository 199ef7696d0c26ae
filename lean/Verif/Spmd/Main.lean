/-
  The DGA run as a concurrent program: what every rank does in src/dga/dga_main.py `main` (and src/dga/dga_max_ent.py `main`,
  which it calls), reduced to its collectives, its accesses to shared folders and files, and the checks that can raise.

  Not modelled: numerical work (modelled elsewhere), plots and log lines beyond "the folder must exist", files that are
  written and never read back (only the folder they go to), failures of the operating system or of MPI itself.
-/
import Verif.Spmd.Sem

namespace DGA.Spmd

/-- Folders of a run: config.py:639-647 (output, plots, poly fits, Eliashberg, optics) and dga_max_ent.py:61-62, 88-89, 128-129,
    149-150, 172-173. -/
inductive Dir where
  | out | plots | poly | eliash | optics | meLoc | meSiwk | meGiwk | meDens | meMagn
deriving DecidableEq, Repr

/-- Files of a run that are read back later: dga_main.py:60 (dmft_input), 80 (dga_config.yaml), 167-168 (chi_*_lam),
    pairing_vertex.py:166-167 (F_sing_pp, F_trip_pp), optics.py:200 (F_cond), dga_io.py:221 (siwk_dga). -/
inductive Obj where
  | dmftInput | config | chiDensLam | chiMagnLam | fSing | fTrip | fCond | siwkDga
deriving DecidableEq, Repr

/-- the folder an object is saved to -/
def dirOf : Obj → Dir
  | .fSing => .eliash
  | .fTrip => .eliash
  | .fCond => .optics
  | _ => .out

/-- The three vertices assembled from rank files: pairing (prefix `pv_`), optics, momentum dependent ladder (`fq_`);
    high_level_routines.py:106-113. -/
inductive Vtx where
  | pv | opt | fq
deriving DecidableEq, Repr

/-- The two channels, dga_main.py:129-134. -/
inductive Ch where
  | dens | magn
deriving DecidableEq, Repr

/-- Local actions of a rank. -/
inductive Loc where
  | mkdir (d : Dir)                -- create a new (uniquified) folder
  | needDir (d : Dir)              -- assert that the folder exists, or write a file into it
  | save (o : Obj)                 -- np.save / yaml dump
  | load (o : Obj)                 -- np.load / yaml load
  | clean (o : Obj)                -- clean_data
  | newFile                        -- constructor of MpiDistributor with an output path
  | write (v : Vtx) (c : Ch)       -- write the components of one channel to the own rank file
  | build (v : Vtx)                -- read all rank files
  | delFile                        -- MpiDistributor.delete_file
  | bubble                         -- chijj_bubble is assigned an array
  | needBubble                     -- chijj_bubble is used as an array
  | guard (b : Bool)               -- a check that raises unless `b`
deriving DecidableEq

/-- The part of the world only rank 0 changes: folders, saved objects, and whether `chijj_bubble` holds an array. -/
structure RootSt where
  dirs : List Dir
  npy : List Obj
  bub : Bool
deriving DecidableEq

/-- A rank file: the components written so far. -/
abbrev RFile (β : Type) := List ((Vtx × Ch) × β)

/-- The world: rank 0's part, the rank files (`none`: no file), and the vertices assembled by rank 0 (per rank and channel,
    what was found in that rank's file). -/
structure World (β : Type) where
  root : RootSt
  files : Nat → Option (RFile β)
  vtx : Vtx → Option (Nat → Ch → Option β)

/-- Effect of an action on rank 0's part of the world; `none`: it raises.
    mkdir: config.py:127-131, 608-624, 626-637, dga_io.py:22-31 (`os.mkdir` of a path that `uniquify` has just reported as free);
    needDir: `assert os.path.exists` (config.py:609, 651) or writing a file; save/load/clean: config.py:136-152;
    newFile: `h5py.File(fname, 'a')` in the output folder, mpi_aux.py:27-33; needBubble: optics.py:278-281 called with
    `chijj_bubble = None` (dga_main.py:322) raises. -/
def rootEff : Loc → RootSt → Option RootSt
  | .mkdir d, s => if d ∈ s.dirs then none else some { s with dirs := s.dirs ++ [d] }
  | .needDir d, s => if d ∈ s.dirs then some s else none
  | .save o, s => if dirOf o ∈ s.dirs then some { s with npy := s.npy ++ [o] } else none
  | .load o, s => if o ∈ s.npy then some s else none
  | .clean o, s => some { s with npy := s.npy.filter (· ≠ o) }
  | .newFile, s => if Dir.out ∈ s.dirs then some s else none
  | .bubble, s => some { s with bub := true }
  | .needBubble, s => if s.bub then some s else none
  | .guard b, s => if b then some s else none
  | .write _ _, s => some s
  | .build _, s => some s
  | .delFile, s => some s

/-- Effect on the acting rank's own file; `data` are the values this rank computes.
    newFile: mode 'a' keeps an existing file (mpi_aux.py:32); write: the file must exist and the datasets must be new
    (HDF5 raises on an existing name; four_point.py:297-310, optics.py:205-233, pairing_vertex.py:75-97);
    delFile: `os.remove` inside `try` (mpi_aux.py:99-103). -/
def fileEff {β : Type} (data : Vtx → Ch → β) : Loc → Option (RFile β) → Option (Option (RFile β))
  | .newFile, f => some (some (f.getD []))
  | .write v c, some l => if l.any (fun e => e.1 == (v, c)) then none else some (some (l ++ [((v, c), data v c)]))
  | .write _ _, none => none
  | .delFile, _ => some none
  | _, f => some f

/-- Reading one rank file for vertex `v` (four_point.py:323-334, optics.py:250-262, pairing_vertex.py:109-132): the file must
    exist, and a group must hold both channels. -/
def loadRank {β : Type} (v : Vtx) : Option (RFile β) → Option (Ch → Option β)
  | none => none
  | some l => if (l.lookup (v, .dens)).isSome = (l.lookup (v, .magn)).isSome then some fun c => l.lookup (v, c) else none

/-- Reading the rank files of all `n` ranks (`for ir in range(mpi_size)`). -/
def loadAll {β : Type} (n : Nat) (v : Vtx) (files : Nat → Option (RFile β)) : Option (Nat → Ch → Option β) :=
  if ∀ s < n, (loadRank v (files s)).isSome then
    some fun s c => if s < n then (loadRank v (files s)).bind (fun g => g c) else none
  else none

/-- Effect of a local action of rank `r` on the world. -/
def eff {β : Type} (n : Nat) (data : Nat → Vtx → Ch → β) (r : Nat) (a : Loc) (w : World β) : Option (World β) :=
  (rootEff a w.root).bind fun root' =>
    (fileEff (data r) a (w.files r)).bind fun f' =>
      match a with
      | .build v => (loadAll n v w.files).map fun g =>
          { root := root', files := fun s => if s = r then f' else w.files s,
            vtx := fun u => if u = v then some g else w.vtx u }
      | _ => some { root := root', files := fun s => if s = r then f' else w.files s, vtx := w.vtx }

/-- The world before the run: no folder of this run, no saved object, no rank file. -/
def world0 (β : Type) : World β := ⟨⟨[], [], false⟩, fun _ => none, fun _ => none⟩

/-- Analytic continuation sections of the config file, dga_max_ent.py:60, 87, 127, 148, 171 (`'loc' in max_ent_config` …); the
    Boolean is the `do_cont` flag of the section (dga_max_ent.py:92, 132, 153, 176). -/
structure MeFlags where
  loc : Bool
  sDga : Option Bool
  gDga : Option Bool
  chiD : Option Bool
  chiM : Option Bool

/-- The configuration of a run as far as it decides which of the actions happen (config.py:380-398, 430-447, 488-496, 499-562). -/
structure Flags where
  polyFit : Bool
  verbose : Bool
  pairing : Bool
  vertex : Bool
  saveFq : Bool
  saveVrg : Bool
  keepRank : Bool
  eliash : Bool
  keepPairing : Bool
  bubble : Bool
  opticsSec : Bool
  opticsMe : Bool
  keepFq : Bool
  maxEnt : Option MeFlags
  nkIrr : Nat
  nqIrr : Nat
  niw : Nat
  nx : Nat
  ny : Nat
  nz : Nat

abbrev Prog := List (Act Loc)

/-- statements under `if comm.rank == 0` -/
def onRoot (r : Nat) (l : List Loc) : Prog := if r = 0 then l.map .loc else []

/-- mpi_aux.py:138-154 `scatter`: two broadcasts (dtype, shape) and the Scatterv. -/
def scatter : Prog := [.coll (.bcast 0), .coll (.bcast 0), .coll (.scatterv 0)]

/-- config.py:119-134 `set_output_path` with a communicator. -/
def setOut (r : Nat) (d : Dir) : Prog := .coll (.bcast 0) :: onRoot r [.mkdir d]

/-- config.py:639-647 `create_folders`, up to its last statement (the barrier). -/
def folders (f : Flags) (r : Nat) : Prog :=
  [.coll .barrier] ++ setOut r .out ++ onRoot r [.needDir .out, .mkdir .plots] ++
    (if f.polyFit then onRoot r [.mkdir .poly] else []) ++ setOut r .eliash ++ setOut r .optics

/-- dga_main.py:45-54: config broadcast (config.py:44-51), the check of the number of processes (config.py:564), and the folders. -/
def secConf (n : Nat) (f : Flags) (r : Nat) : Prog :=
  [.coll (.bcast 0), .loc (.guard (decide (n ≤ f.nkIrr)))] ++ folders f r

/-- dga_main.py:56-73, after the barrier of config.py:647: dmft_input.npy, and the logger on every rank (config.py:649-652). -/
def secLog (r : Nat) : Prog := [.coll .barrier] ++ onRoot r [.save .dmftInput] ++ [.loc (.needDir .out)]

/-- dga_main.py:74-101: Hamiltonian, config file, plots, DMFT poly fit (dga_io.py:149-161), local part
    (high_level_routines.py:21-81).  The plots of the two-particle Green's function at the bosonic indices 10 and -10
    (plotting.py:58-63) assert that these indices are in the data (local_four_point.py:179), which holds `-niw .. niw` after the
    cut to `niw_core` (dga_io.py:117, 120).  The figure of the fit is a `pcolormesh` (plotting.py:397-416), which needs a plane: on a k grid
    with several momenta along z it raises (C152). -/
def secLocal (f : Flags) (r : Nat) : Prog :=
  [.coll .barrier] ++ onRoot r [.needDir .out, .save .config, .needDir .plots, .guard (decide (10 ≤ f.niw))] ++
    (if f.polyFit then onRoot r [.needDir .poly, .guard (decide (f.nz = 1))] else []) ++
    (if f.verbose then onRoot r [.needDir .plots, .needDir .out] else [])

/-- high_level_routines.py:96-115 `construct_vrg_and_chi_q_urange` for one channel: the rank's writes. -/
def ladder (f : Flags) (c : Ch) : Prog :=
  (if f.pairing then [.loc (.write .pv c)] else []) ++ (if f.vertex then [.loc (.write .opt c)] else []) ++
    (if f.saveFq then [.loc (.write .fq c)] else [])

/-- dga_main.py:102-141: rank files, double counting kernel (high_level_routines.py:90-91), ladder of both channels. -/
def secLadder (f : Flags) (r : Nat) : Prog :=
  [.coll .barrier, .loc .newFile, .coll .barrier] ++ onRoot r [.needDir .plots] ++ ladder f .dens ++ ladder f .magn ++
    (if f.saveVrg then onRoot r [.needDir .out] else [])

/-- dga_main.py:148-181: gather of both susceptibilities, checks, lambda correction and its output. -/
def secLambda (r : Nat) : Prog :=
  [.coll (.gatherv 0), .coll (.gatherv 0)] ++
    onRoot r [.needDir .plots, .needDir .plots, .save .chiDensLam, .save .chiMagnLam, .needDir .out]

/-- dga_main.py:185-200, after the barrier of line 184: rank 0 assembles the vertices and fits the susceptibility
    (dga_io.py:133-147). -/
def secBuild (f : Flags) (r : Nat) : Prog :=
  (if f.pairing then onRoot r [.build .pv, .needDir .eliash, .save .fSing, .save .fTrip] else []) ++
    (if f.vertex then onRoot r [.build .opt, .needDir .optics, .save .fCond] else []) ++
    (if f.saveFq then onRoot r [.build .fq, .needDir .out] else []) ++ onRoot r [.load .chiMagnLam, .needDir .out]

/-- dga_main.py:219-235, starting with the barrier: scatter of susceptibilities and three-leg vertices, gather and scatter of
    the double counting kernel; line 249 allreduce. -/
def secScatter : Prog :=
  [.coll .barrier] ++ scatter ++ scatter ++ scatter ++ scatter ++ [.coll (.gatherv 0)] ++ scatter ++ [.coll .allreduce]

/-- dga_main.py:258-283: self-energy and Green's function checks (dga_io.py:198-248), deletion of the rank file, energies,
    poly fits.  The search of the Fermi surface (dga_io.py:226-228, brillouin_zone.py:51-66) hands half of the momenta along x and y to
    matplotlib's `contour`, which needs two by two (C152). -/
def secSde (f : Flags) (r : Nat) : Prog :=
  onRoot r [.needDir .plots, .save .siwkDga, .guard (decide (4 ≤ f.nx ∧ 4 ≤ f.ny)), .needDir .out] ++
    (if f.keepRank then [] else [.loc .delFile]) ++
    onRoot r [.needDir .out] ++ (if f.polyFit then onRoot r [.needDir .poly, .guard (decide (f.nz = 1))] else [])

/-- dga_main.py:286-317 with eliashberg_equation.py:169. -/
def secEliash (f : Flags) (r : Nat) : Prog :=
  if f.eliash then
    onRoot r [.needDir .eliash, .load .fSing, .load .fTrip, .needDir .eliash] ++
      (if f.keepPairing then [] else onRoot r [.clean .fSing, .clean .fTrip])
  else []

/-- dga_main.py:320-382. -/
def secOptics (f : Flags) (r : Nat) : Prog :=
  (if f.opticsSec then onRoot r [.needDir .optics] else []) ++
    (if f.bubble then onRoot r [.bubble, .needDir .optics] else []) ++
    (if f.vertex then
      onRoot r [.load .fCond] ++ scatter ++ [.coll .allreduce] ++ onRoot r [.needDir .optics] else []) ++
    (if f.opticsSec then
      onRoot r [.needBubble, .needDir .optics] ++
        (if f.opticsMe then onRoot r [.needDir .optics] ++ (if f.keepFq then [] else onRoot r [.clean .fCond]) else [])
     else [])

/-- One continuation section of dga_max_ent.py (87-124, 127-145, 148-168, 171-191): the folder, and with `do_cont` the
    actions `pre` of rank 0, scatter, gather (analytic_continuation.py:352-360), the actions `post` of rank 0. -/
def secCont (s : Option Bool) (r : Nat) (d : Dir) (pre post : List Loc) : Prog :=
  match s with
  | none => []
  | some false => onRoot r [.mkdir d]
  | some true => onRoot r [.mkdir d] ++ onRoot r pre ++ scatter ++ [.coll (.gatherv 0)] ++ onRoot r (post ++ [.needDir d])

/-- dga_max_ent.py:29-193 `main`.  The distributor (line 83) has `q_grid.nk_irr` tasks, while the self-energy and the Green's
    function are mapped with `k_grid` (97, 104, 137, 143): `Scatterv` raises on rank 0 if the buffer holds fewer rows than tasks,
    and `map_irrk2fbz` raises if the gathered array has fewer rows than `k_grid.nk_irr`. -/
def secMaxEnt (n : Nat) (f : Flags) (r : Nat) : Prog :=
  match f.maxEnt with
  | none => []
  | some m =>
    onRoot r [.load .config] ++ [.coll (.bcast 0), .loc (.guard (decide (n ≤ f.nkIrr)))] ++ onRoot r [.needDir .out] ++
      [.loc (.load .dmftInput)] ++ (if m.loc then onRoot r [.mkdir .meLoc, .needDir .meLoc] else []) ++
      onRoot r [.load .siwkDga] ++ [.coll .barrier] ++ (if m.loc then onRoot r [.needDir .meLoc] else []) ++
      secCont m.sDga r .meSiwk [.guard (decide (f.nqIrr ≤ f.nkIrr))] [.guard (decide (f.nkIrr ≤ f.nqIrr))] ++
      secCont m.gDga r .meGiwk [.guard (decide (f.nqIrr ≤ f.nkIrr))] [.guard (decide (f.nkIrr ≤ f.nqIrr))] ++
      secCont m.chiD r .meDens [.load .chiDensLam] [] ++ secCont m.chiM r .meMagn [.load .chiMagnLam] []

/-- Everything up to the barrier of dga_main.py:184. -/
def beforeBuild (n : Nat) (f : Flags) (r : Nat) : Prog :=
  secConf n f r ++ secLog r ++ secLocal f r ++ secLadder f r ++ secLambda r

/-- dga_main.py:185-205: assembling and the two gathers of the three-leg vertices. -/
def middle (f : Flags) (r : Nat) : Prog := secBuild f r ++ [.coll (.gatherv 0), .coll (.gatherv 0)]

/-- dga_main.py:258-394. -/
def afterSde (n : Nat) (f : Flags) (r : Nat) : Prog :=
  secSde f r ++ secEliash f r ++ secOptics f r ++ secMaxEnt n f r ++ [.coll .barrier]

/-- dga_main.py:42-396 `main`: the program of rank `r` of `n`. -/
def mainProg (n : Nat) (f : Flags) (r : Nat) : Prog :=
  beforeBuild n f r ++ [.coll .barrier] ++ middle f r ++ secScatter ++ afterSde n f r

/-- The value of the flag that asks for vertex `v`. -/
def Flags.wants (f : Flags) : Vtx → Bool
  | .pv => f.pairing
  | .opt => f.vertex
  | .fq => f.saveFq

end DGA.Spmd
