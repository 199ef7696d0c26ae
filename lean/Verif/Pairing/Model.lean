/-
  Model of src/dga/pairing_vertex.py: slices of the ladder vertex for the pairing vertex, their rank files and the
  assembly.  Two-dimensional (v, v') arrays are functions of two array positions together with their size; a boolean
  mask is a predicate on positions.
-/
import Verif.RankFiles.Model
import Mathlib.Data.Complex.Basic

namespace DGA.Pairing
open DGA.RankFiles

abbrev Mat2 := Nat → Nat → ℂ
abbrev Mask := Nat → Nat → Bool

/-- config.py:183-185  `niv_pp = min(niw_core // 2, niv_core // 2)` -/
def nivPP (niwCore nivCore : Nat) : Nat := min (niwCore / 2) (nivCore / 2)

/-- pairing_vertex.py:63-73 and 83: `omega[i, j] = vi - vip` with `vi, vip` running over `arange(-niv_pp, niv_pp)`;
    `condition = (omega == iw)`. -/
def condition (nivpp : Nat) (iw : Int) : Mask := fun i j =>
  ((i : Int) - nivpp) - ((j : Int) - nivpp) == iw

/-- positions selected by a boolean mask on an `N × N` array, in row-major order (numpy boolean indexing) -/
def positions (N : Nat) (m : Mask) : List (Nat × Nat) :=
  (List.range N).flatMap fun i => (List.range N).filterMap fun j => if m i j then some (i, j) else none

/-- pairing_vertex.py:36-44 `get_pp_slice_4pt` for a `2 niv × 2 niv` slice: flip of the last axis (line 40), cut of both
    axes to `[niv - niv_pp, niv + niv_pp)` (line 41; `niv_pp ≤ niv`), minus sign and masked row-major extraction
    (line 43). -/
def ppSlice (niv nivpp : Nat) (mat : Mat2) (cond : Mask) : List ℂ :=
  let flipped : Mat2 := fun i j => mat i (2 * niv - 1 - j)
  let cut : Mat2 := fun i j => flipped (niv - nivpp + i) (niv - nivpp + j)
  (positions (2 * nivpp) cond).map fun p => - cut p.1 p.2

/-- what one group of the file holds: the mask and the masked values of one vertex component -/
structure PvGroup where
  cond : Mask
  vals : List ℂ

/-- pairing_vertex.py:79-97: the double loop of one rank (only `|iw| < 2 niv_pp`, line 82).  `loc i j` is the rank-local
    vertex component at task position `i` and frequency position `j`. -/
def writePairing (niv nivpp : Nat) (tasks : List Nat) (wn : List Int) (loc : Nat → Nat → Mat2) (f : File PvGroup) :
    Option (File PvGroup) :=
  tasks.zipIdx.foldlM (fun f (iq, i) =>
    wn.zipIdx.foldlM (fun f (iw, j) =>
      if iw.natAbs < 2 * nivpp then
        putGroup f (groupName "pv_".toList iq iw)
          { cond := condition nivpp iw, vals := ppSlice niv nivpp (loc i j) (condition nivpp iw) }
      else some f) f) f

/-- numpy `arr[mask] += vals` on an `N × N` array: gather, add, scatter; the number of values has to match
    (`none` = `ValueError`; the broadcast of a single value does not occur). -/
def addMasked (N : Nat) (arr : Mat2) (m : Mask) (vals : List ℂ) : Option Mat2 :=
  if vals.length = (positions N m).length then
    some fun i j =>
      match ((positions N m).zip vals).find? (fun e => e.1 == (i, j)) with
      | some e => arr i j + e.2
      | none => arr i j
  else none

/-- `condition.T` (pairing_vertex.py:125) -/
def maskT (m : Mask) : Mask := fun i j => m j i

abbrev Arr3 := Nat → Mat2

/-- pairing_vertex.py:115-128: body of the loader loop for one group and one component. -/
noncomputable def loadPvGroup (nq nivpp : Nat) (arr : Arr3) (e : Str × PvGroup) : Option Arr3 :=
  match (findDigits e.1).map parseDec with
  | irrq :: _ =>
    if irrq < nq then
      (addMasked (2 * nivpp) (arr irrq) e.2.cond (e.2.vals.map fun x => (1 / 2 : ℂ) * x)).bind fun a1 =>
        (addMasked (2 * nivpp) a1 (maskT e.2.cond) (e.2.vals.map fun x => (1 / 2 : ℂ) * (starRingEnd ℂ) x)).map
          fun a2 => Function.update arr irrq a2
    else none
  | _ => none

/-- pairing_vertex.py:100-132 `load_pairing_vertex_from_rank_files`, one component. -/
noncomputable def loadPairing (nq nivpp : Nat) (files : List (File PvGroup)) : Option Arr3 :=
  files.foldlM (fun arr f =>
    ((listGroups f).filter fun e => "pv_".toList.isPrefixOf e.1).foldlM (loadPvGroup nq nivpp) arr)
    (fun _ _ _ => 0)

/-- pairing_vertex.py:143, 148, 151-152: combination of the components at one momentum and one `(v, v')`;
    returns (singlet, triplet).  `chiM`, `chiD` are the λ-corrected susceptibilities at `w = v - v'`. -/
noncomputable def singTrip (u : ℂ) (f1m f2m f1d f2d chiM chiD : ℂ) : ℂ × ℂ :=
  let fM := f1m + (1 + u * chiM) * f2m
  let fD := f1d + (1 - u * chiD) * f2d
  (3 / 2 * fM - 1 / 2 * fD, 1 / 2 * fM + 1 / 2 * fD)

end DGA.Pairing
