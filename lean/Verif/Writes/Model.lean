/-
  Every file and folder a DGA run creates, writes or deletes, with the path strings exactly as src/dga builds them.

  Folders are named by `Spmd.Dir`; a target is a folder and the string the code appends to the folder's path.  `val` names the
  quantity that is stored, so that two different results written to one file can be told apart; `val = none` marks files that
  are rewritten on purpose (log files, the rank files).

  Not modelled: the bytes of the files, plots that the postprocessing scripts write, temporary files of libraries.
-/
import Verif.Paths.Model
import Verif.Spmd.Main

namespace DGA.Wr

open DGA.RankFiles (Str decDigits rankFileName)
open DGA.Paths (uniquify)
open DGA.Spmd (Dir Flags MeFlags)

/-- One access to the file system by a run. -/
inductive Cmd where
  | mkdir (d : Dir)
  | put (d : Dir) (rel : Str) (val : Option String)
  | del (d : Dir) (rel : Str)
deriving DecidableEq

/-- Parameters of a run that appear in file names or decide which files are written.
    `flags`: see `Spmd.Flags`; `nEig`: eliash.n_eig (config.py:388); `nivG`: the formatted `min(niv_core, 2*int(beta))`
    (plotting.py:75); `bws`: the formatted blur widths (analytic_continuation.py:434-441); `fsPlot`: the Fermi surface was found
    (dga_io.py:245-249); `bwFitDmft`, `bwFitDga`: the blur-width fit converged (analytic_continuation.py:449-459). -/
structure Par where
  flags : Flags
  nEig : Nat
  nivG : Str
  bws : List Str
  fsPlot : Bool
  bwFitDmft : Bool
  bwFitDga : Bool

/-- config.py:136-137 `save_data`: `output_path + '/' + name + '.npy'` -/
def saveData (d : Dir) (name val : String) : Cmd := .put d ('/' :: (name.toList ++ ".npy".toList)) (some val)

/-- config.py:146-149 `clean_data` -/
def cleanData (d : Dir) (name : String) : Cmd := .del d ('/' :: (name.toList ++ ".npy".toList))

/-- `np.savetxt(path + '/name')` and the like, with the separator as in the code -/
def putAs (d : Dir) (rel val : String) : Cmd := .put d rel.toList (some val)

/-- `plt.savefig(pdir + '/' + name + '.png')`: plotting.py:145, 289, local_four_point.py:59 -/
def fig (d : Dir) (name val : String) : Cmd := .put d ('/' :: (name.toList ++ ".png".toList)) (some val)

/-- local_four_point.py:178-182 `LocalFourPoint.plot`: the name is followed by `_wn{iwn}_niv{niv}` -/
def fig4 (d : Dir) (name wn : String) (niv : Str) (val : String) : Cmd :=
  .put d ('/' :: (name.toList ++ ("_wn".toList ++ (wn.toList ++ ("_niv".toList ++ (niv ++ ".png".toList)))))) (some val)

/-- config.py:639-647 `create_folders` (rank 0) -/
def foldersC (f : Flags) : List Cmd :=
  [.mkdir .out, .mkdir .plots] ++ (if f.polyFit then [.mkdir .poly] else []) ++ [.mkdir .eliash, .mkdir .optics]

/-- a log line or a new log file: config.py:652, loggers.py:76, 85, 94, 101 (`output_path + '/dga.log'`) -/
def logC : Cmd := .put .out "/dga.log".toList none

/-- dga_main.py:56-73, 77, 80, 83: DMFT input, log, Hamiltonian (wannier.py:40-42 `path + name`), config file (config.py:57-58),
    plots of the two-particle Green's functions (plotting.py:58-63). -/
def startC : List Cmd :=
  [saveData .out "dmft_input" "dmft_input", logC, putAs .out "wannier_hr.dat" "hr", putAs .out "/dga_config.yaml" "config",
   fig4 .plots "G2_dens" "0" "-1".toList "g2_dens(0)", fig4 .plots "G2_magn" "0" "-1".toList "g2_magn(0)",
   fig4 .plots "G2_magn" "10" "-1".toList "g2_magn(10)", fig4 .plots "G2_magn" "-10" "-1".toList "g2_magn(-10)", logC]

/-- dga_io.py:164-179 `poly_fit`: `output_path + name + '.npy'` and plotting.py:426 -/
def polyC (name val : String) : List Cmd :=
  [.put .poly (name.toList ++ ".npy".toList) (some val), .put .poly (name.toList ++ ".png".toList) (some (val ++ " plot"))]

/-- dga_io.py:149-161 `dmft_poly_fit` -/
def dmftPolyC (f : Flags) : List Cmd :=
  if f.polyFit then polyC "Giwk_dmft_poly_cont_" "giwk_dmft fit" ++ [putAs .poly "Siw_DMFT_polyfit.txt" "siw_dmft fit"] else []

/-- plotting.py:72-79 `default_gamma_plots` -/
def gammaC (niv : Str) : List Cmd :=
  [fig4 .plots "Gamma_dens" "0" niv "gamma_dens(0)", fig4 .plots "Gamma_magn" "0" niv "gamma_magn(0)",
     fig4 .plots "Gamma_magn" "10" niv "gamma_magn(10)", fig4 .plots "Gamma_magn" "-10" niv "gamma_magn(-10)",
     fig4 .plots "Gamma_dens" "10" niv "gamma_dens(10)"]

/-- high_level_routines.py:21-81 `local_sde_from_g2` with plotting.py:66-69, 187, 273 -/
def localC (p : Par) : List Cmd :=
  if p.flags.verbose then
    [fig4 .plots "Gchi_dens" "0" "-1".toList "gchi_dens(0)", fig4 .plots "Gchi_magn" "0" "-1".toList "gchi_magn(0)"] ++
    gammaC p.nivG ++
    [saveData .out "gamma_dens" "gamma_dens", saveData .out "gamma_magn" "gamma_magn",
     putAs .plots "/chi_dens_magn_loc.png" "chi local", putAs .plots "/sde__check.png" "sde check",
     saveData .out "siw_sde_full" "siw_sde_full", saveData .out "chi_dens_loc" "chi_dens_loc",
     saveData .out "chi_magn_loc" "chi_magn_loc", logC]
  else [logC]

/-- mpi_aux.py:27-33: the rank file of rank `r` (`output_path` ends with a slash, so none is added). -/
def rankRel (r : Nat) : Str := rankFileName [] ['Q'] r

/-- dga_main.py:109-141 on rank `r`: the rank file is created (mpi_aux.py:32) and written (four_point.py:297-310, optics.py:205-233,
    pairing_vertex.py:75-97) in both channels; rank 0 plots the double counting vertex (high_level_routines.py:91, `pdir + '/'`)
    and saves the three-leg vertices. -/
def ladderC (p : Par) (r : Nat) : List Cmd :=
  [.put .out (rankRel r) none] ++
    (if r = 0 then [.put .plots ("//F_dc_wn0_niv-1.png".toList) (some "f_dc")] else []) ++
    (if p.flags.pairing || p.flags.vertex || p.flags.saveFq then [.put .out (rankRel r) none, .put .out (rankRel r) none] else []) ++
    (if r = 0 ∧ p.flags.saveVrg then [saveData .out "vrg_q_magn" "vrg_q_magn", saveData .out "vrg_q_dens" "vrg_q_dens"] else [])

/-- dga_io.py:182-195 `chiq_checks`: the first plot has the same name in both calls. -/
def chiChecksC (name : String) : List Cmd :=
  [putAs .plots "/chi_dens_magn_lad_q_tilde.png" ("chi q-sum " ++ name),
   fig .plots ("Chi_" ++ name ++ "_dens_kz0") ("chi_dens " ++ name), fig .plots ("Chi_" ++ name ++ "_magn_kz0") ("chi_magn " ++ name)]

/-- dga_main.py:158-181 -/
def lambdaC : List Cmd :=
  chiChecksC "ladder" ++ chiChecksC "lam" ++
    [saveData .out "chi_dens_lam" "chi_dens_lam", saveData .out "chi_magn_lam" "chi_magn_lam", putAs .out "/lambda.txt" "lambda",
     putAs .out "/UniformStaticSusceptibility.txt" "chi uniform static", logC]

/-- dga_main.py:185-200: pairing_vertex.py:154-167, optics.py:184-200, four_point.py:360-368, dga_io.py:133-147 with plotting.py:533. -/
def buildC (f : Flags) : List Cmd :=
  (if f.pairing then
    [fig .eliash "F_sing_pp" "f_sing plot", fig .eliash "F_trip_pp" "f_trip plot", fig .eliash "F_sing_pp_loc" "f_sing loc",
     fig .eliash "F_trip_pp_loc" "f_trip loc", saveData .eliash "F_sing_pp" "f_sing", saveData .eliash "F_trip_pp" "f_trip"] else []) ++
  (if f.vertex then
    [fig .optics "F_dens_niw0" "f_dens(0)", fig .optics "F_magn_niw0" "f_magn(0)", fig .optics "F_cond_niw0" "f_cond(0)",
     saveData .optics "F_cond" "f_cond"] else []) ++
  (if f.saveFq then
    [fig .out "F_dens_niw0" "fq_dens(0)", fig .out "F_magn_niw0" "fq_magn(0)", saveData .out "F_dens" "fq_dens",
     saveData .out "F_magn" "fq_magn"] else []) ++
  [putAs .out "/oz_coeff.txt" "oz_coeff", fig .out "oz_fit" "oz plot"]

/-- dga_main.py:258-283: dga_io.py:198-221 `default_siwk_checks`, 224-249 `default_giwk_checks`, deletion of the rank file, energies,
    `dga_poly_fit` (dga_io.py:252-266). -/
def sdeC (p : Par) (r : Nat) : List Cmd :=
  (if r = 0 then
    (if p.flags.verbose then
      [fig .plots "Siwk_dga_kz0" "siwk_dga plot", putAs .plots "/sde_dga_loc_check.png" "sde dga_loc",
       putAs .plots "/sde_dga_loc_core_check.png" "sde dga_loc_core"] else []) ++
    [saveData .out "siwk_dga" "siwk_dga", fig .plots "Giwk_dga_kz0" "giwk_dga plot", saveData .out "giwk_dga" "giwk_dga",
     putAs .out "/mu.txt" "mu"] ++
    (if p.fsPlot then [putAs .plots "/Sigma_{dga}_along_Fermi_surface.png" "siwk_dga fs"] else []) else []) ++
  (if p.flags.keepRank then [] else [.del .out (rankRel r)]) ++
  (if r = 0 then [putAs .out "/energies.txt" "energies"] ++
    (if p.flags.polyFit then polyC "Siwk_poly_cont_" "siwk_dga fit" ++ polyC "Giwk_dga_poly_cont_" "giwk_dga fit" else []) else [])

/-- plotting.py:581 with dga_main.py:309, 312: `pdir + '/GapFunction_' + name + '.png'` -/
def gapC (ch : String) (i : Nat) : Cmd :=
  .put .eliash ("/GapFunction_".toList ++ (ch.toList ++ ('_' :: (decDigits i ++ ".png".toList))))
    (some ("gap " ++ ch ++ " " ++ String.ofList (decDigits i)))

/-- dga_main.py:286-317, eliashberg_equation.py:175-178 -/
def eliashC (p : Par) : List Cmd :=
  if p.flags.eliash then
    [putAs .eliash "/eliashberg_config.yaml" "eliashberg config"] ++
    (if p.flags.verbose then [fig .eliash "Gamma_sing_pp_loc" "gamma_sing loc", fig .eliash "Gamma_trip_pp_loc" "gamma_trip loc"] else []) ++
    [saveData .eliash "eliashberg" "eliashberg", putAs .eliash "eigenvalues.txt" "lam", putAs .eliash "eigenvalues_s.txt" "lam_s"] ++
    (List.range p.nEig).flatMap (fun i => [gapC "sing" i, gapC "trip" i]) ++
    (if p.flags.keepPairing then [] else [cleanData .eliash "F_sing_pp", cleanData .eliash "F_trip_pp"])
  else []

/-- dga_main.py:320-382, optics.py:289, 311 -/
def opticsC (f : Flags) : List Cmd :=
  (if f.opticsSec then [putAs .optics "/optics_config.yaml" "optics config"] else []) ++
  (if f.bubble then [saveData .optics "chijj_bubble" "chijj_bubble"] else []) ++
  (if f.vertex then [saveData .optics "chijj_vert" "chijj_vert"] else []) ++
  (if f.opticsSec then
    [putAs .optics "optical_conductivity_matsubara.png" "optics matsubara"] ++
    (if f.opticsMe then
      [putAs .optics "optical_conductivity_realf.png" "optics realf", saveData .optics "sigma_bubble_cont" "sigma_bubble_cont",
       saveData .optics "sigma_full_cont" "sigma_full_cont", saveData .optics "w" "w"] ++
      (if f.keepFq then [] else [cleanData .optics "F_cond"]) else []) else [])

/-- analytic_continuation.py:430-461 `max_ent_loc_bw_range`: for every blur width a plot (plotting.py:547), the continued function
    and the mesh, then the optimal width if the fit converges. -/
def locC (name : String) (bws : List Str) (fit : Bool) : List Cmd :=
  bws.flatMap (fun bw =>
    [.put .meLoc (name.toList ++ ("-bw".toList ++ (bw ++ ".png".toList))) (some (name ++ " plot " ++ String.ofList bw)),
     .put .meLoc (name.toList ++ ("_cont_bw".toList ++ (bw ++ ".npy".toList))) (some (name ++ " " ++ String.ofList bw)),
     putAs .meLoc "w.npy" "mesh"]) ++
  (if fit then [.put .meLoc ("bw_opt_".toList ++ (name.toList ++ ".txt".toList)) (some (name ++ " bw_opt")),
     .put .meLoc ("chi2_bw_".toList ++ (name.toList ++ ".png".toList)) (some (name ++ " chi2"))] else [])

/-- analytic_continuation.py:363-384 `save_and_plot_cont_fermionic` / `_bosonic` with plotting.py:463, 499 -/
def contC (d : Dir) (name : String) : List Cmd :=
  [.put d (name.toList ++ "_cont_fbz.npy".toList) (some (name ++ " cont")), putAs d "w.npy" "mesh",
   .put d (name.toList ++ "_at_w0.png".toList) (some (name ++ " w0")), .put d (name.toList ++ "_at_w0.1.png".toList) (some (name ++ " w0.1")),
   .put d (name.toList ++ "_at_w-0.1.png".toList) (some (name ++ " w-0.1"))]

/-- dga_max_ent.py:54 the k-paths -/
def kpaths : List String :=
  ["Gamma-X-M2-Gamma", "Gamma-Y-M2-Gamma", "Gamma-X-M-Gamma", "Gamma-Y-M-Gamma", "Gamma-X-M-Y-Gamma"]

/-- high_level_plotting.py:51, 79: `pdir + f'{name}.png'` -/
def kfig (d : Dir) (name val : String) : Cmd := .put d (name.toList ++ ".png".toList) (some val)

/-- one continuation section: the folder is made whether or not the continuation is done (dga_max_ent.py:87-92) -/
def secC (s : Option Bool) (d : Dir) (body : List Cmd) : List Cmd :=
  match s with
  | none => []
  | some b => .mkdir d :: (if b then body else [])

/-- log of the continuation, dga_max_ent.py:41 -/
def meLogC : Cmd := .put .out "max_ent.log".toList none

/-- dga_max_ent.py:29-193 `main` on rank 0 with `path = d_cfg.output_path` (dga_main.py:389).  In the magnetic section the plots
    along the k-paths are named `chi_dens_…` (189) but are plots of the magnetic susceptibility. -/
def maxEntC (p : Par) : List Cmd :=
  match p.flags.maxEnt with
  | none => []
  | some m =>
    [meLogC] ++ (if m.loc then .mkdir .meLoc :: locC "dmft" p.bws p.bwFitDmft else []) ++
    (if m.loc then locC "dga" p.bws p.bwFitDga else []) ++
    secC m.sDga .meSiwk (contC .meSiwk "swk_dga" ++ contC .meSiwk "gwk_dga" ++
      kpaths.flatMap (fun k => [kfig .meSiwk ("gwk_dga_" ++ k) ("gwk_dga " ++ k), kfig .meSiwk ("gwk_dga_wfull_" ++ k) ("gwk_dga full " ++ k)]) ++
      [putAs .meSiwk "sigma_bub.npy" "sigma_bub", putAs .meSiwk "w_bub.npy" "w_bub", kfig .meSiwk "sigma_bub" "sigma_bub plot", meLogC]) ++
    secC m.gDga .meGiwk (contC .meGiwk "gwk_dga" ++ [meLogC]) ++
    secC m.chiD .meDens (contC .meDens "chi_dens" ++ kpaths.map (fun k => kfig .meDens ("chi_dens_" ++ k) ("chi_dens " ++ k)) ++ [meLogC]) ++
    secC m.chiM .meMagn (contC .meMagn "chi_magn" ++ kpaths.map (fun k => kfig .meMagn ("chi_dens_" ++ k) ("chi_magn " ++ k)) ++ [meLogC])

/-- dga_main.py:42-396: all accesses of rank `r`, in program order (log lines in between are represented by some of them only:
    they go to the same file). -/
def cmds (p : Par) (r : Nat) : List Cmd :=
  (if r = 0 then foldersC p.flags ++ startC ++ dmftPolyC p.flags ++ localC p else []) ++ ladderC p r ++
    (if r = 0 then lambdaC ++ buildC p.flags else []) ++ sdeC p r ++
    (if r = 0 then eliashC p ++ opticsC p.flags ++ maxEntC p ++ [logC] else [])

/-! ### paths -/

/-- The path strings of the folders, as they are stored by the run. -/
abbrev Dirs := Dir → Str

/-- The string handed to `uniquify` for every folder below the output folder: config.py:610, 629, 645, 646, dga_max_ent.py:61, 88, 128,
    149, 172. -/
def baseOf (out : Str) : Dir → Str
  | .out => out
  | .plots => out ++ "/Plots/".toList
  | .poly => out ++ "/PolyFits/".toList
  | .eliash => out ++ "Eliashberg/".toList
  | .optics => out ++ "Optics/".toList
  | .meLoc => out ++ "MaxEnt/".toList
  | .meSiwk => out ++ "MaxEntSiwk".toList
  | .meGiwk => out ++ "MaxEntGiwk".toList
  | .meDens => out ++ "MaxEntChiDens".toList
  | .meMagn => out ++ "MaxEntChiMagn".toList

/-- The folder strings of a run with output folder `out`: every other folder is what `uniquify` (util.py:12-25) returns in some state
    of the file system (the state at the time of the call, whatever it is). -/
def DirsOk (out : Str) (d : Dirs) : Prop :=
  d .out = out ∧ ∀ x, x ≠ .out → ∃ (ex : Str → Bool) (fuel : Nat), uniquify ex fuel (baseOf out x) = some (d x)

/-! ### file system -/

/-- an entry: a folder, or a file with its content -/
inductive Node (V : Type) where
  | dir
  | file (v : V)
deriving DecidableEq

/-- Absolute path components of an entry to the entry; `none`: it does not exist. -/
abbrev Disk (V : Type) := List Str → Option (Node V)

/-- replace one entry -/
def setKey {V : Type} (disk : Disk V) (k : List Str) (x : Option (Node V)) : Disk V := fun j => if j = k then x else disk j

/-- the folder of an entry exists -/
def hasParent {V : Type} (disk : Disk V) (k : List Str) : Prop := k ≠ [] ∧ ∃ n, disk k.dropLast = some n ∧ n matches .dir

instance {V : Type} (disk : Disk V) (k : List Str) : Decidable (hasParent disk k) := by
  unfold hasParent
  cases h : disk k.dropLast with
  | none => exact isFalse (by simp)
  | some n =>
    cases n with
    | dir => by_cases hk : k = []
             · exact isFalse (by simp [hk])
             · exact isTrue ⟨hk, .dir, rfl, rfl⟩
    | file v => exact isFalse (by simp)

/-- POSIX semantics of the calls: `os.mkdir` fails if the entry exists or has no folder; opening for writing (`open(…, 'w')`, `'a'`,
    `np.save`, `savefig`, `h5py.File(…, 'a')`) needs the folder and must not hit a folder; `os.remove` of a missing file is caught
    (mpi_aux.py:99-103) or not attempted (config.py:148-149), and it does not remove folders.  `none`: the call raises. -/
def doMkdir {V : Type} (disk : Disk V) (k : List Str) : Option (Disk V) :=
  match disk k with
  | none => if hasParent disk k then some (setKey disk k (some .dir)) else none
  | some _ => none

/-- see `doMkdir` (config.py:137, loggers.py:85, mpi_aux.py:32) -/
def doWrite {V : Type} (disk : Disk V) (k : List Str) (v : V) : Option (Disk V) :=
  match disk k with
  | some .dir => none
  | _ => if hasParent disk k then some (setKey disk k (some (.file v))) else none

/-- see `doMkdir` (config.py:149, mpi_aux.py:101) -/
def doRemove {V : Type} (disk : Disk V) (k : List Str) : Option (Disk V) :=
  match disk k with
  | some .dir => none
  | some (.file _) => some (setKey disk k none)
  | none => some disk

/-- the entry an access refers to -/
def target (res : Str → List Str) (d : Dirs) : Cmd → List Str
  | .mkdir x => res (d x)
  | .put x rel _ => res (d x ++ rel)
  | .del x rel => res (d x ++ rel)

/-- One access; `v` is the content written (complete or, at a crash, torn). -/
def doCmd {V : Type} (res : Str → List Str) (d : Dirs) (disk : Disk V) (c : Cmd) (v : V) : Option (Disk V) :=
  match c with
  | .mkdir _ => doMkdir disk (target res d c)
  | .put _ _ _ => doWrite disk (target res d c) v
  | .del _ _ => doRemove disk (target res d c)

/-- A sequence of accesses. -/
def runCmds {V : Type} (res : Str → List Str) (d : Dirs) (disk : Disk V) (cs : List (Cmd × V)) : Option (Disk V) :=
  cs.foldlM (fun s c => doCmd res d s c.1 c.2) disk

end DGA.Wr
