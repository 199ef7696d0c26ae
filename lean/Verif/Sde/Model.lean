/-
  Model of the Schwinger–Dyson equation: src/dga/local_four_point.py:561-603 (impurity) and src/dga/four_point.py:24-122
  (lattice).  The bosonic axis and the fermionic axis are lists; momentum arrays are nested lists (`Arr3`), the result of a
  lattice routine is the list of its momentum rows in C order (the code keeps the three momentum axes).
-/
import Verif.Optics.Model

namespace DGA.Sde

open DGA.Mf DGA.Bz DGA.Bubble DGA.Opt

variable {K : Type} [Field K]

/-- `np.sum(rows, axis=0)` for rows of `c` entries; a row of another length raises -/
def sumRows (c : Nat) (rows : List (List K)) : Option (List K) := rows.foldlM addRows (List.replicate c 0)

/-- local_four_point.py:561-568 `schwinger_dyson_vrg`; `vrg` has `2 niv` columns.  Axes of different lengths raise (numpy would
    broadcast an axis of length one; not modelled). -/
def sdeVrg (vrg : List (List K)) (niv : Nat) (chi : List K) (giw : List K) (beta ur : K) (w : List Int) : Option (List K) :=
  if chi.length = vrg.length ∧ w.length = vrg.length then
    let grid := wnSlicesGen giw niv w
    ((List.range vrg.length).mapM fun j => (chi[j]?).bind fun c => (vrg[j]?).bind fun vr => (grid[j]?).bind fun g =>
      mulRows (vr.map fun x => 1 - (1 - ur * c) * x) g).bind fun rows =>
        (sumRows (2 * niv) rows).map fun r => r.map fun x => ur / 2 * 1 / beta * x
  else none

/-- local_four_point.py:571-576 `schwinger_dyson_shell` -/
def sdeShell (chi : List K) (giw : List K) (beta u : K) (nShell nCore : Nat) (w : List Int) : Option (List K) :=
  if w.length = chi.length then
    let grid := wnSlicesShell giw nShell nCore w
    ((List.range chi.length).mapM fun j => (chi[j]?).bind fun c => (grid[j]?).bind fun g =>
      some (g.map fun x => (u * c) * x)).bind fun rows =>
        (sumRows (2 * nShell) rows).map fun r => r.map fun x => u / 2 * 1 / beta * x
  else none

/-- local_four_point.py:588-595 `schwinger_dyson_core_urange` -/
def sdeCoreUrange (vrg : List (List K)) (niv : Nat) (chi : List K) (giw : List K) (beta u ur : K) (w : List Int)
    (nivShell : Nat) : Option (List K) :=
  (sdeVrg vrg niv chi giw beta ur w).bind fun core =>
    if nivShell = 0 then some core
    else (sdeShell chi giw beta u nivShell niv w).map fun shell => concatCoreAsympt core shell

/-- local_four_point.py:579-586 `schwinger_dyson_full`; the Hartree term is `get_smom0(u, n) = u n / 2` -/
def sdeFull (vrgD vrgM : List (List K)) (niv : Nat) (chiD chiM : List K) (giw : List K) (beta u n : K) (w : List Int)
    (nivShell : Nat) : Option (List K) :=
  (Fp.getUr u "dens").bind fun urD => (Fp.getUr u "magn").bind fun urM =>
    (sdeCoreUrange vrgD niv chiD giw beta u urD w nivShell).bind fun d =>
      (sdeCoreUrange vrgM niv chiM giw beta u urM w nivShell).bind fun mg =>
        addRows (d.map fun x => u * n / 2 + x) mg

/-- local_four_point.py:598-603 `schwinger_dyson_f`; `f[w][v][v']`, `gchi0[w][v']` -/
def sdeF (f : List (List (List K))) (niv : Nat) (gchi0 : List (List K)) (giw : List K) (beta u : K) (w : List Int) :
    Option (List K) :=
  if gchi0.length = f.length ∧ w.length = f.length then
    let grid := wnSlicesGen giw niv w
    ((List.range f.length).mapM fun j => (f[j]?).bind fun fm => (gchi0[j]?).bind fun g0 => (grid[j]?).bind fun g =>
      (fm.mapM fun (r : List K) => (mulRows (r.map fun x => 1 / beta * u * x) g0).map List.sum).bind fun q => mulRows q g).bind
        fun rows => sumRows (2 * niv) rows
  else none

/-! ### lattice -/

/-- `sigma += row * cut_iv_with_iw_shift(gkpq, niv, iwn)` for all momenta -/
def addKG (niv : Nat) (rows : List (List K)) (ker : List K) (iwn : Int) (sig : List (List K)) : Option (List (List K)) :=
  (List.zip sig rows).mapM fun (p : List K × List K) =>
    (mulRows ker (cutIvShift p.2 niv iwn)).bind fun t => addRows p.1 t

/-- inner loop over the bosonic frequencies for one momentum transfer -/
def addQ (niv : Nat) (rows : List (List K)) (ker : List (List K)) (w : List Int) (sig : List (List K)) : Option (List (List K)) :=
  (List.range w.length).foldlM (fun sig j => (w[j]?).bind fun iwn => (ker[j]?).bind fun kr => addKG niv rows kr iwn sig) sig

/-- rows of the shifted array `shift_mat_by_ind(giwk, [-q])` in C order -/
def shiftedRows {α : Type} (g : Arr3 α) (q : Int × Int × Int) : List α := flat3 (shiftByInd g (-q.1) (-q.2.1) (-q.2.2))

/-- four_point.py:93-102 `schwinger_dyson_kernel_q`; `nk` is the number of momenta of `giwk` -/
def sdeKernelQ (kernel : List (List (List K))) (niv : Nat) (giwk : Arr3 (List K)) (nk : Nat) (beta : K)
    (qs : List (Int × Int × Int)) (w : List Int) (nqtot : Nat) : Option (List (List K)) :=
  let cut : Nat := niv + maxAbs w
  let g := giwk.map fun p => p.map fun r => r.map fun x => cutV x cut
  ((List.range qs.length).foldlM (fun sig i => (qs[i]?).bind fun q => (kernel[i]?).bind fun ker =>
      addQ niv (shiftedRows g q) ker w sig) (List.replicate nk (List.replicate (2 * niv) 0))).map
    fun sig => sig.map fun r => r.map fun x => 1 / (nqtot : K) * 1 / beta * x

/-- four_point.py:24-35 `schwinger_dyson_vrg_q`: the summand contains the duplicity of the momentum -/
def sdeVrgQ (vrg : List (List (List K))) (niv : Nat) (chi : List (List K)) (giwk : Arr3 (List K)) (nk : Nat) (beta ur : K)
    (qs : List (Int × Int × Int)) (dup : List K) (w : List Int) (nqtot : Nat) : Option (List (List K)) :=
  ((List.range qs.length).foldlM (fun sig i => (qs[i]?).bind fun q => (vrg[i]?).bind fun vq => (chi[i]?).bind fun cq =>
      (dup[i]?).bind fun d =>
        ((List.range w.length).mapM fun j => (cq[j]?).bind fun c => (vq[j]?).map fun vr =>
          vr.map fun x => (1 - (1 - ur * c) * x) * d).bind fun ker => addQ niv (shiftedRows giwk q) ker w sig)
      (List.replicate nk (List.replicate (2 * niv) 0))).map
    fun sig => sig.map fun r => r.map fun x => 1 / (nqtot : K) * ur / 2 * 1 / beta * x

/-- four_point.py:38-44 `schwinger_dyson_q_shell`, one momentum transfer: `np.sum(chi[i, :] * mat_grid, axis=0)` times the
    prefactor, added to `sigma` -/
def addShellQ (nShell nCore : Nat) (rows : List (List K)) (chi : List K) (w : List Int) (pref : K) (sig : List (List K)) :
    Option (List (List K)) :=
  if w.length = chi.length then
    (List.zip sig rows).mapM fun (p : List K × List K) =>
      let grid := wnSlicesShell p.2 nShell nCore w
      ((List.range chi.length).mapM fun j => (chi[j]?).bind fun c => (grid[j]?).map fun g => g.map fun x => c * x).bind
        fun t => (sumRows (2 * nShell) t).bind fun r => addRows p.1 (r.map fun x => pref * x)
  else none

/-- four_point.py:38-44 `schwinger_dyson_q_shell` -/
def sdeShellQ (chi : List (List K)) (giwk : Arr3 (List K)) (nk : Nat) (beta u : K) (nShell nCore : Nat) (w : List Int)
    (qs : List (Int × Int × Int)) (nqtot : Nat) : Option (List (List K)) :=
  (List.range qs.length).foldlM (fun sig i => (qs[i]?).bind fun q => (chi[i]?).bind fun cq =>
    addShellQ nShell nCore (shiftedRows giwk q) cq w (1 / (nqtot : K) * u ^ 2 / 2 * 1 / beta) sig)
    (List.replicate nk (List.replicate (2 * nShell) 0))

/-- four_point.py:47-54 `schwinger_dyson_channel_q`: the duplicity enters the core only -/
def sdeChannelQ (vrg : List (List (List K))) (niv : Nat) (chi : List (List K)) (giwk : Arr3 (List K)) (nk : Nat) (beta u ur : K)
    (qs : List (Int × Int × Int)) (dup : List K) (w : List Int) (nqtot nivShell : Nat) : Option (List (List K)) :=
  (sdeVrgQ vrg niv chi giwk nk beta ur qs dup w nqtot).bind fun core =>
    if nivShell = 0 then some core
    else (sdeShellQ chi giwk nk beta u nivShell niv w qs nqtot).map fun sh => List.zipWith concatCoreAsympt core sh

/-- four_point.py:118-122 `schwinger_dyson_shell` (impurity version kept in the lattice module) -/
def sdeShellLat (chi : List K) (giw : List K) (beta u : K) (nShell nCore : Nat) (w : List Int) : Option (List K) :=
  if w.length = chi.length then
    let grid := wnSlicesShell giw nShell nCore w
    ((List.range chi.length).mapM fun j => (chi[j]?).bind fun c => (grid[j]?).map fun g => g.map fun x => c * x).bind fun rows =>
        (sumRows (2 * nShell) rows).map fun r => r.map fun x => u ^ 2 / 2 * 1 / beta * x
  else none

/-- four_point.py:74-79 `get_kernel` -/
def getKernel (vrg : List (List (List K))) (chi : List (List K)) (ur : K) : Option (List (List (List K))) :=
  if vrg.length = chi.length then
    (List.zip vrg chi).mapM fun (p : List (List K) × List K) =>
      if p.1.length = p.2.length then
        some (List.zipWith (fun vr c => vr.map fun x => ur / 2 * (1 - (1 - ur * c) * x)) p.1 p.2)
      else none
  else none

/-- four_point.py:82-90 `get_kernel_dc`; `gchi0[q][w][v']`, `f[w][v][v']` -/
def getKernelDc (f : List (List (List K))) (ur : K) (gchi0 : List (List (List K))) : Option (List (List (List K))) :=
  gchi0.mapM fun gq => (List.range gq.length).mapM fun iw => (gq[iw]?).bind fun g0 => (f[iw]?).bind fun fm =>
    fm.mapM fun (r : List K) => (mulRows g0 r).map fun t => ur * t.sum

/-- entrywise combination of two kernels of equal shape -/
def zipKer (h : K → K → K) (a b : List (List (List K))) : List (List (List K)) :=
  List.zipWith (List.zipWith (List.zipWith h)) a b

/-- four_point.py:57-71 `schwinger_dyson_full_q` (the three kernels have the same shape; a mismatch would raise and is not
    modelled) -/
def sdeFullQ (vrgD vrgM : List (List (List K))) (niv : Nat) (chiD chiM : List (List K)) (kernelDc : List (List (List K)))
    (giwk : Arr3 (List K)) (nk : Nat) (beta u : K) (qs : List (Int × Int × Int)) (w : List Int) (nqtot nivShell : Nat) :
    Option (List (List K)) :=
  (Fp.getUr u "dens").bind fun urD => (Fp.getUr u "magn").bind fun urM =>
    (getKernel vrgD chiD urD).bind fun kd => (getKernel vrgM chiM urM).bind fun km =>
      let kernel := zipKer (fun a b => a - b) (zipKer (fun a b => a + 3 * b) kd km) kernelDc
      (sdeKernelQ kernel niv giwk nk beta qs w nqtot).bind fun core =>
        if nivShell = 0 then some core
        else
          (sdeShellQ chiD giwk nk beta u nivShell niv w qs nqtot).bind fun sd =>
            (sdeShellQ chiM giwk nk beta u nivShell niv w qs nqtot).bind fun sm =>
              ((List.zip sd sm).mapM fun (p : List K × List K) => addRows p.1 p.2).map fun sh =>
                List.zipWith concatCoreAsympt core sh

/-- four_point.py:105-115 `schwinger_dyson_dc` -/
def sdeDc (gf : List (List (List K))) (niv : Nat) (giwk : Arr3 (List K)) (nk : Nat) (u : K) (qs : List (Int × Int × Int))
    (dup : List K) (w : List Int) (nqtot : Nat) : Option (List (List K)) :=
  (List.range qs.length).foldlM (fun sig i => (qs[i]?).bind fun q => (gf[i]?).bind fun gq => (dup[i]?).bind fun d =>
    if w.length = gq.length then
      (List.zip sig (shiftedRows giwk q)).mapM fun (p : List K × List K) =>
        let grid := wnSlicesGen p.2 niv w
        ((List.range gq.length).mapM fun j => (gq[j]?).bind fun r => (grid[j]?).bind fun g => mulRows r g).bind
          fun t => (sumRows (2 * niv) t).bind fun r => addRows p.1 (r.map fun x => u * 1 / (nqtot : K) * d * x)
    else none) (List.replicate nk (List.replicate (2 * niv) 0))

end DGA.Sde
