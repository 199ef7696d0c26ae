/-
  C137: one rank file shared by two channels and up to three kinds of vertex slices.

  The models of C05, C07, C110, C130, C133 give every vertex component a file of its own.  In the program one HDF5 file per rank takes the datasets
  `f1_dens`, `f2_dens`, `f1_magn`, `f2_magn` (and `condition`) of the groups `pv_…`, `f_…` and `fq_…`, in this order of writing: density channel
  (pairing, optics, full vertex), then magnetic channel; the loaders read all four components of a group while they walk through the groups of
  the file.  Here the file is modelled as it is, dataset by dataset.
-/
import Verif.Pairing.Model
import Verif.RankFiles.Spec

noncomputable section

namespace DGA.Shared

open DGA.RankFiles DGA.Pairing

/-- contents of a dataset: a two-dimensional array (of any representation), a list of masked values, a boolean mask -/
inductive DS (β : Type) where
  | mat (m : β)
  | vals (l : List ℂ)
  | mask (m : Mask)

/-- an HDF5 file: its datasets under (group, name), in order of creation -/
abbrev H5 (β : Type) := List ((Str × Str) × DS β)

/-- `file[group + name] = value` (four_point.py:309-310, optics.py:232-233, pairing_vertex.py:92-97): an existing name raises (`none`) -/
def putDs {β : Type} (f : H5 β) (k : Str × Str) (v : DS β) : Option (H5 β) :=
  if f.any (fun e => e.1 == k) then none else some (f ++ [(k, v)])

/-- `name in file` (pairing_vertex.py:96) -/
def hasDs {β : Type} (f : H5 β) (k : Str × Str) : Bool := f.any fun e => e.1 == k

/-- `file[key + name][()]` (four_point.py:331-334, optics.py:258-261, pairing_vertex.py:116-128); `none` = `KeyError` -/
def getDs {β : Type} (f : H5 β) (k : Str × Str) : Option (DS β) := (f.find? fun e => e.1 == k).map (·.2)

/-- `file.keys()` (four_point.py:326, optics.py:253, pairing_vertex.py:112): the top-level groups, each once, by increasing name -/
def keys {β : Type} (f : H5 β) : List Str := (f.map (·.1.1)).dedup.mergeSort strLe

/-- channel names (local_four_point.py, `gamma_r.channel`): `magn` or `dens` -/
def chan (magn : Bool) : Str := if magn then "magn".toList else "dens".toList

/-- `f'f1_{channel}'`, `f'f2_{channel}'` (four_point.py:309-310, optics.py:232-233, pairing_vertex.py:92, 94) -/
def dsName (second magn : Bool) : Str := (if second then "f2_".toList else "f1_".toList) ++ chan magn

/-- pairing_vertex.py:96-97 -/
def condName : Str := "condition".toList

/-- four_point.py:300-310 `write_vertex_components` (prefix `fq_`) and optics.py:221-233 `write_optics_vertex_components` (prefix `f_`): the loop of
    one rank for one channel; `l second i j` the component at task position `i` and frequency position `j` -/
def writeTwo {β : Type} (pre : Str) (magn : Bool) (tasks : List Nat) (wn : List Int) (l : Bool → Nat → Nat → β) (f : H5 β) : Option (H5 β) :=
  tasks.zipIdx.foldlM (fun f (iq, i) => wn.zipIdx.foldlM (fun f (iw, j) =>
    (putDs f (groupName pre iq iw, dsName false magn) (.mat (l false i j))).bind fun f =>
      putDs f (groupName pre iq iw, dsName true magn) (.mat (l true i j))) f) f

/-- pairing_vertex.py:75-97 `write_pairing_vertex_components`: the loop of one rank for one channel; the mask is written unless it is there -/
def writePv {β : Type} (niv npp : Nat) (magn : Bool) (tasks : List Nat) (wn : List Int) (l : Bool → Nat → Nat → Mat2) (f : H5 β) : Option (H5 β) :=
  tasks.zipIdx.foldlM (fun f (iq, i) => wn.zipIdx.foldlM (fun f (iw, j) =>
    if iw.natAbs < 2 * npp then
      (putDs f (groupName "pv_".toList iq iw, dsName false magn) (.vals (ppSlice niv npp (l false i j) (condition npp iw)))).bind fun f =>
        (putDs f (groupName "pv_".toList iq iw, dsName true magn) (.vals (ppSlice niv npp (l true i j) (condition npp iw)))).bind fun f =>
          if hasDs f (groupName "pv_".toList iq iw, condName) then some f
          else putDs f (groupName "pv_".toList iq iw, condName) (.mask (condition npp iw))
    else some f) f) f

/-- what the three writers are asked to do: `do_pairing_vertex`, `do_vertex`, `save_fq` -/
structure Flags where
  pairing : Bool
  vertex : Bool
  fq : Bool

/-- what one rank has computed: its momenta, the bosonic frequencies of the box and of the optics section, the sizes of the boxes, and the vertex
    components by channel (`true` = magnetic) and component (`true` = second) -/
structure RankData (β : Type) where
  tasks : List Nat
  wn : List Int
  wnV : List Int
  niv : Nat
  npp : Nat
  pv : Bool → Bool → Nat → Nat → Mat2
  opt : Bool → Bool → Nat → Nat → β
  fq : Bool → Bool → Nat → Nat → β

/-- high_level_routines.py:106-115: what one rank writes for one channel -/
def writeChannel {β : Type} (fl : Flags) (D : RankData β) (magn : Bool) (f : H5 β) : Option (H5 β) :=
  (if fl.pairing then writePv D.niv D.npp magn D.tasks D.wn (D.pv magn) f else some f).bind fun f =>
    (if fl.vertex then writeTwo "f_".toList magn D.tasks D.wnV (D.opt magn) f else some f).bind fun f =>
      if fl.fq then writeTwo "fq_".toList magn D.tasks D.wn (D.fq magn) f else some f

/-- dga_main.py:129-136: density channel, then magnetic channel, into the new file of the rank (mpi_aux.py:27-31) -/
def rankFile {β : Type} (fl : Flags) (D : RankData β) : Option (H5 β) :=
  (writeChannel fl D false []).bind (writeChannel fl D true)

/-- all ranks -/
def rankFiles {β : Type} (fl : Flags) (Ds : List (RankData β)) : Option (List (H5 β)) := Ds.mapM (rankFile fl)

/-- a two-dimensional dataset -/
def getMat {β : Type} (f : H5 β) (k : Str × Str) : Option β :=
  match getDs f k with
  | some (.mat m) => some m
  | _ => none

/-- a list of values -/
def getVals {β : Type} (f : H5 β) (k : Str × Str) : Option (List ℂ) :=
  match getDs f k with
  | some (.vals l) => some l
  | _ => none

/-- a mask -/
def getMask {β : Type} (f : H5 β) (k : Str × Str) : Option Mask :=
  match getDs f k with
  | some (.mask m) => some m
  | _ => none

/-- the four arrays of a loader: `f1_magn, f2_magn, f1_dens, f2_dens` -/
structure Four (α : Type) where
  f1m : α
  f2m : α
  f1d : α
  f2d : α

/-- four results, or none (language construct) -/
def opt4 {α : Type} (a b c d : Option α) : Option (Four α) :=
  a.bind fun a => b.bind fun b => c.bind fun c => d.bind fun d => some ⟨a, b, c, d⟩

/-- four_point.py:329-334, optics.py:256-261: body of the loader loop for one group: momentum and frequency from the name, then the four assignments
    in the order of the code -/
def loadKey {β : Type} (nq niw : Nat) (f : H5 β) (a : Four (Arr2 β)) (k : Str) : Option (Four (Arr2 β)) :=
  match (findDigits k).map parseDec with
  | q :: w :: _ =>
    (getMat f (k, dsName false true)).bind fun v => (setArr nq (2 * niw + 1) a.f1m q (w + niw) v).bind fun f1m =>
    (getMat f (k, dsName true false)).bind fun v => (setArr nq (2 * niw + 1) a.f2d q (w + niw) v).bind fun f2d =>
    (getMat f (k, dsName false false)).bind fun v => (setArr nq (2 * niw + 1) a.f1d q (w + niw) v).bind fun f1d =>
    (getMat f (k, dsName true true)).bind fun v => (setArr nq (2 * niw + 1) a.f2m q (w + niw) v).bind fun f2m =>
      some ⟨f1m, f2m, f1d, f2d⟩
  | _ => none

/-- four_point.py:313-335 `load_vertex_from_rank_files` (`pre` = `fq_`) and optics.py:236-262 (`pre` = `f_`): all four arrays -/
def load4 {β : Type} (pre : Str) (zero : β) (nq niw : Nat) (files : List (H5 β)) : Option (Four (Arr2 β)) :=
  files.foldlM (fun a f => ((keys f).filter fun k => pre.isPrefixOf k).foldlM (loadKey nq niw f) a)
    ⟨fun _ _ => zero, fun _ _ => zero, fun _ _ => zero, fun _ _ => zero⟩

/-- `arr[q, mask] += vals` (pairing_vertex.py:117-128) for a momentum index inside the array -/
def addAt (npp : Nat) (arr : Arr3) (q : Nat) (m : Mask) (vals : List ℂ) : Option Arr3 :=
  (addMasked (2 * npp) (arr q) m vals).map fun a => Function.update arr q a

/-- pairing_vertex.py:115-128: body of the loader loop for one group: first the four direct contributions, then the four mirrored ones, in the order of
    the code -/
def loadPvKey {β : Type} (nq npp : Nat) (f : H5 β) (a : Four Arr3) (k : Str) : Option (Four Arr3) :=
  match (findDigits k).map parseDec with
  | q :: _ =>
    (getMask f (k, condName)).bind fun m =>
    if q < nq then
      (getVals f (k, dsName false true)).bind fun v => (addAt npp a.f1m q m (v.map fun x => (1 / 2 : ℂ) * x)).bind fun f1m =>
      (getVals f (k, dsName true false)).bind fun v => (addAt npp a.f2d q m (v.map fun x => (1 / 2 : ℂ) * x)).bind fun f2d =>
      (getVals f (k, dsName false false)).bind fun v => (addAt npp a.f1d q m (v.map fun x => (1 / 2 : ℂ) * x)).bind fun f1d =>
      (getVals f (k, dsName true true)).bind fun v => (addAt npp a.f2m q m (v.map fun x => (1 / 2 : ℂ) * x)).bind fun f2m =>
      (getVals f (k, dsName false true)).bind fun v => (addAt npp f1m q (maskT m) (v.map fun x => (1 / 2 : ℂ) * (starRingEnd ℂ) x)).bind fun f1m =>
      (getVals f (k, dsName true true)).bind fun v => (addAt npp f2m q (maskT m) (v.map fun x => (1 / 2 : ℂ) * (starRingEnd ℂ) x)).bind fun f2m =>
      (getVals f (k, dsName false false)).bind fun v => (addAt npp f1d q (maskT m) (v.map fun x => (1 / 2 : ℂ) * (starRingEnd ℂ) x)).bind fun f1d =>
      (getVals f (k, dsName true false)).bind fun v => (addAt npp f2d q (maskT m) (v.map fun x => (1 / 2 : ℂ) * (starRingEnd ℂ) x)).bind fun f2d =>
        some ⟨f1m, f2m, f1d, f2d⟩
    else none
  | _ => none

/-- pairing_vertex.py:100-132 `load_pairing_vertex_from_rank_files`: all four arrays -/
def loadPv4 {β : Type} (nq npp : Nat) (files : List (H5 β)) : Option (Four Arr3) :=
  files.foldlM (fun a f => ((keys f).filter fun k => "pv_".toList.isPrefixOf k).foldlM (loadPvKey nq npp f) a)
    ⟨fun _ _ _ => 0, fun _ _ _ => 0, fun _ _ _ => 0, fun _ _ _ => 0⟩

end DGA.Shared
