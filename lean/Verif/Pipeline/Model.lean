/-
  Model of the calculation chain: src/dga/local_four_point.py:366-389, src/dga/high_level_routines.py:21-115 and
  src/dga/dga_main.py:99-253 (local irreducible vertex, ladder susceptibilities and three-leg vertices on the irreducible
  momenta, distribution over the ranks, double counting, lattice Schwinger–Dyson equation, assembly of the self-energy).

  Simplifications, beyond those of the routines used: plots, logs, saved files, and the optional vertex components written for
  the pairing vertex and the optics (modelled in RankFiles/Pairing/Optics) are left out; the two channels carry the same
  `beta`, `u` and frequencies; the value of the lambda correction is a parameter (the search for it is Lambda/Model.lean).
-/
import Verif.Sde.Model
import Verif.FourPoint.Model
import Verif.FourPoint.Link
import Verif.Mpi.Model

namespace DGA.Pipe

open DGA.Mf DGA.Bz DGA.Bubble DGA.Fp

variable {K : Type} [Field K]

/-- bubble.py:97-150 the data of a `BubbleGenerator`: `giwk = giwk_obj.g_full()`, `gloc = giwk_obj.g_loc`, `nv` the length of the
    frequency axis -/
structure Bub (K : Type) where
  wn : List Int
  giwk : Arr3 (List K)
  nv : Nat
  gloc : List K
  beta : K
  nt : String
  full : Bool

/-- bubble.py:179-182 `get_gchi0` -/
def Bub.gchi0 [Star K] (b : Bub K) (niv : Nat) : Option (List (List K)) := vecGetGchi0 b.gloc b.beta niv b.wn b.nt b.full
/-- bubble.py:165-177 `get_chi0` (`do_asympt=False`) -/
def Bub.chi0 [Star K] (b : Bub K) (niv : Nat) : Option (List K) := vecGetChi0Sum b.gloc b.beta niv b.wn b.nt b.full
/-- bubble.py:298-302 `get_gchi0_q_list` -/
def Bub.gchi0Q [Star K] (b : Bub K) (niv : Nat) (qs : List (Int × Int × Int)) : Option (List (List (List K))) :=
  vecGetGchi0Q b.giwk b.nv b.beta niv b.wn qs b.nt b.full

/-- elementwise combination of three arrays over the bosonic axis -/
def zip3 {α β γ δ : Type} (f : α → β → γ → δ) (a : List α) (b : List β) (c : List γ) : Option (List δ) :=
  (zipW (fun x y => (x, y)) a b).bind fun ab => zipW (fun (p : α × β) z => f p.1 p.2 z) ab c

/-- local_four_point.py:366-389 `get_vrg_and_chir_tilde_from_gammar_urange` with `sum_axis=-1` -/
noncomputable def vrgChiUrange [Star K] {c : Nat} (gam : FourP (2 * c) K) (b : Bub K) (s : Nat) :
    Option (ThreeP (2 * c) K × List K) :=
  (b.chi0 c).bind fun chi0Core => (b.chi0 (c + s)).bind fun chi0Ur => (b.gchi0 c).bind fun g =>
    (g.mapM (toVec (2 * c))).bind fun gchi0 => (gchiAuxFromGammar gam gchi0).bind fun aux =>
      gam.ur.bind fun ur =>
        (zip3 (fun a x y => chiPhysUrange a x y ur) (contract4 aux) chi0Core chi0Ur).bind fun chi =>
          (zipW (fun X g0 => vrgSlice true X g0) aux.mat gchi0).bind fun v => (construct aux v).map fun o => (o, chi)

/-- what `local_sde_from_g2` returns for one channel (high_level_routines.py:79) -/
structure Chan (n : Nat) (K : Type) where
  gam : FourP n K
  vrg : ThreeP n K
  chi : List K

/-- high_level_routines.py:30-31, 36-39, 53-56 one channel of `local_sde_from_g2`; `g0` is `gchi0_urange` -/
noncomputable def localChannel [Star K] {c : Nat} (s : Nat) (g2 : FourP (2 * c) K) (b : Bub K)
    (g0 : List (Vec (2 * (c + s)) K)) : Option (Chan (2 * c) K) :=
  (gchirFromG2 g2 b.gloc).bind fun gchi => (gamob2FromGchirUrange gchi g0).bind fun gam =>
    (vrgChiUrange gam b s).map fun r => ⟨gam, r.1, r.2⟩

/-- high_level_routines.py:21-79 `local_sde_from_g2`: both channels and the local self-energy; `n` is the filling -/
noncomputable def localSde [Star K] {c : Nat} (s : Nat) (g2D g2M : FourP (2 * c) K) (b : Bub K) (n : K) :
    Option (Chan (2 * c) K × Chan (2 * c) K × List K) :=
  (b.gchi0 (c + s)).bind fun g => (g.mapM (toVec (2 * (c + s)))).bind fun g0 =>
    (localChannel s g2D b g0).bind fun d => (localChannel s g2M b g0).bind fun m =>
      (Sde.sdeFull (d.vrg.mat.map List.ofFn) (m.vrg.mat.map List.ofFn) c d.chi m.chi b.gloc d.vrg.beta d.vrg.u n d.vrg.wn s).map
        fun siw => (d, m, siw)

/-- high_level_routines.py:82-95 `construct_dc_kernel` for a list of momenta whose bubbles on the full box are `gq` -/
noncomputable def dcKernel [Star K] {c : Nat} (s : Nat) (gam : FourP (2 * c) K) (b : Bub K) (gq : List (List (List K))) :
    Option (List (List (List K))) :=
  (b.gchi0 (c + s)).bind fun g => (g.mapM (toVec (2 * (c + s)))).bind fun g0 =>
    (fob2FromGamob2Urange s gam g0).bind fun f => f.ur.bind fun ur =>
      (Sde.getKernelDc (f.mat.map rowsOf) ur gq).map fun k => k.map fun kq => kq.map fun row => cutV row (c : Int)

/-- four_point.py:142-153 `get_gchir_aux_from_gammar_q`, 156-160 `chi_phys_from_chi_aux_q`, 184-195 `vrg_from_gchi_aux` for one
    momentum: `(vrg[w][v], chi[w])` -/
noncomputable def vrgChiOne {c : Nat} (gam : FourP (2 * c) K) (ur : K) (gcore : List (List K)) (chi0Ur chi0Core : List K) :
    Option (List (List K) × List K) :=
  ((List.range gcore.length).mapM fun iw => (gcore[iw]?).bind fun g => (toVec (2 * c) g).bind fun g0 =>
    (gam.mat[iw]?).bind fun m => (auxGamW m g0 gam.beta ur).bind fun X => (chi0Ur[iw]?).bind fun cu =>
      (chi0Core[iw]?).map fun cc =>
        (List.ofFn (vrgSlice true X g0), chiPhysUrange (1 / gam.beta ^ 2 * ∑ i, ∑ j, X i j) cc cu ur)).map
    fun l => (l.map Prod.fst, l.map Prod.snd)

/-- high_level_routines.py:98-115 `construct_vrg_and_chi_q_urange` -/
noncomputable def vrgChiQ {c : Nat} (gam : FourP (2 * c) K) (gcore : List (List (List K))) (chi0Ur chi0Core : List (List K)) :
    Option (List (List (List K)) × List (List K)) :=
  gam.ur.bind fun ur =>
    ((List.range gcore.length).mapM fun iq => (gcore[iq]?).bind fun g => (chi0Ur[iq]?).bind fun cu => (chi0Core[iq]?).bind fun cc =>
      vrgChiOne gam ur g cu cc).map fun l => (l.map Prod.fst, l.map Prod.snd)

/-- the momentum-resolved quantities one rank computes (dga_main.py:115-134) -/
structure QData (K : Type) where
  vrgD : List (List (List K))
  vrgM : List (List (List K))
  chiD : List (List K)
  chiM : List (List K)
  dc : List (List (List K))

/-- dga_main.py:115-134 the work of one rank on its momenta -/
noncomputable def rankQ [Star K] {c : Nat} (s : Nat) (gamD gamM : FourP (2 * c) K) (b : Bub K) (qs : List (Int × Int × Int)) :
    Option (QData K) :=
  (b.gchi0Q (c + s) qs).bind fun gq =>
    let chi0Ur := gq.map fun g => g.map fun row => 1 / b.beta ^ 2 * row.sum
    let gcore := gq.map fun g => g.map fun row => cutV row (c : Int)
    let chi0Core := gcore.map fun g => g.map fun row => 1 / b.beta ^ 2 * row.sum
    (dcKernel s gamM b gq).bind fun dc => (vrgChiQ gamD gcore chi0Ur chi0Core).bind fun d =>
      (vrgChiQ gamM gcore chi0Ur chi0Core).map fun m => ⟨d.1, m.1, d.2, m.2, dc⟩

/-- mpi_aux.py:83-85 and dga_main.py:115, 220 `tasks[my_slice]` on every rank -/
def distribute {α : Type} (R : Nat) (l : List α) : Option (List (List α)) :=
  (List.range R).mapM fun r => (Mpi.mySlice l.length R r).map fun (p : Nat × Nat) => Py.slice l p.1 p.2

/-- mpi_aux.py:130-136 `gather` of the rank results along the first axis (rows are whole entries here; the flattened buffer is
    Mpi/Model.lean) -/
def collect (l : List (QData K)) : QData K :=
  ⟨(l.map QData.vrgD).flatten, (l.map QData.vrgM).flatten, (l.map QData.chiD).flatten, (l.map QData.chiM).flatten,
    (l.map QData.dc).flatten⟩

/-- dga_main.py:153-154, 210-211, 234 `map_irrk2fbz` of every quantity -/
def toFbz (f : List Nat) (d : QData K) : Option (QData K) :=
  (irrk2fbzList f d.vrgD).bind fun vd => (irrk2fbzList f d.vrgM).bind fun vm => (irrk2fbzList f d.chiD).bind fun cd =>
    (irrk2fbzList f d.chiM).bind fun cm => (irrk2fbzList f d.dc).map fun dc => ⟨vd, vm, cd, cm, dc⟩

/-- lambda_correction.py:70-71 `use_lambda`; `none`: the channel is left as it is (`lambda_corr` 'none', density in 'sp') -/
def corrected (lam : Option K) (chi : K) : K :=
  match lam with
  | none => chi
  | some l => 1 / (1 / chi + l)

/-- mpi_aux.py:138-154, dga_main.py:227-235 `scatter`: rank `r` gets the entries of its slice -/
def scatterQ (n R r : Nat) (d : QData K) : Option (QData K) :=
  (Mpi.mySlice n R r).map fun (p : Nat × Nat) =>
    ⟨Py.slice d.vrgD p.1 p.2, Py.slice d.vrgM p.1 p.2, Py.slice d.chiD p.1 p.2, Py.slice d.chiM p.1 p.2, Py.slice d.dc p.1 p.2⟩

/-- mpi_aux.py:160-163 `allreduce` of momentum-resolved arrays -/
def allreduceK (nk nv : Nat) (l : List (List (List K))) : List (List K) :=
  l.foldr (fun a acc => List.zipWith (List.zipWith (· + ·)) a acc) (List.replicate nk (List.replicate nv 0))

/-- dga_main.py:109-163, 203-249: everything between the local part and the assembly, on `R` ranks.  `f` is the flattened
    `fbz2irrk` of the momentum grid. -/
noncomputable def latticeSde [Star K] {c : Nat} (s R nx ny nz : Nat) (f : List Nat) (gamD gamM : FourP (2 * c) K) (b : Bub K)
    (lamD lamM : Option K) (u : K) : Option (List (List K)) :=
  (irrqList nx ny nz f).bind fun irr =>
    (distribute R (irr.map fun q => ((q.1 : Int), (q.2.1 : Int), (q.2.2 : Int)))).bind fun parts =>
      (parts.mapM fun qs => rankQ s gamD gamM b qs).bind fun res =>
        (toFbz f (collect res)).bind fun d =>
          let d' : QData K := { d with chiD := d.chiD.map fun r => r.map (corrected lamD), chiM := d.chiM.map fun r => r.map (corrected lamM) }
          let qfull := (qList nx ny nz).map fun q => ((q.1 : Int), (q.2.1 : Int), (q.2.2 : Int))
          (distribute R qfull).bind fun qparts =>
            ((List.range R).mapM fun r => (qparts[r]?).bind fun qs => (scatterQ qfull.length R r d').bind fun dr =>
              Sde.sdeFullQ dr.vrgD dr.vrgM c dr.chiD dr.chiM dr.dc b.giwk (nx * ny * nz) b.beta u qs b.wn (nx * ny * nz) 0).map fun l =>
                allreduceK (nx * ny * nz) (2 * c) l

/-- dga_main.py:251-253 `siwk_dga += cut_v(siw) - cut_v(siw_sde_full)`, `+= u n / 2`, on one momentum; rows of different lengths raise
    (numpy would broadcast a row of length one, which a box of even size never has) -/
def assemble (row siw loc : List K) (hartree : K) : Option (List K) :=
  if siw.length = loc.length ∧ row.length = siw.length then
    some (List.zipWith (fun x y => x + y + hartree) row (List.zipWith (· - ·) siw loc))
  else none

/-- dga_main.py:99-100, 109-253: the DGA self-energy on the core box.  `siw` is the DMFT self-energy (`d_cfg.sys.siw`), `n` the
    filling. -/
noncomputable def dgaSelfEnergy [Star K] {c : Nat} (s R nx ny nz : Nat) (f : List Nat) (g2D g2M : FourP (2 * c) K) (b : Bub K)
    (lamD lamM : Option K) (u n : K) (siw : List K) : Option (List (List K)) :=
  (localSde s g2D g2M b n).bind fun loc =>
    (latticeSde s R nx ny nz f loc.1.gam loc.2.1.gam b lamD lamM u).bind fun sig =>
      sig.mapM fun (row : List K) => assemble row (cutV siw (c : Int)) (cutV loc.2.2 (c : Int)) (u * n / 2)

end DGA.Pipe
