/-
  Model of src/dga/util.py `uniquify` and of the folder creation in src/dga/config.py (`OutputConfig.set_output_path`,
  `DgaConfig.create_poly_fit_folder`).  Strings are lists of characters.

  The file system is the finite set of existing entries; `res` is the operating system's path resolution (string to entry).
  `os.mkdir` is assumed to succeed when the entry does not exist (parent present, permissions).
-/
import Verif.RankFiles.Model
import Mathlib.Data.Finset.Card

namespace DGA.Paths

open DGA.RankFiles (Str decDigits)

/-- Python `str.rfind(c)`: index of the last occurrence, -1 if there is none (language construct). -/
def rfind (c : Char) : Str → Int
  | [] => -1
  | x :: xs => if 0 ≤ rfind c xs then rfind c xs + 1 else if x = c then 0 else -1

/-- `os.path.splitext` on POSIX (CPython `genericpath._splitext` with sep '/', no altsep, extsep '.'), used in
    util.py:18: split at the last dot of the last component, leading dots of that component do not count. -/
def splitext (p : Str) : Str × Str :=
  if rfind '/' p < rfind '.' p ∧
      (∃ i ∈ List.range p.length, rfind '/' p + 1 ≤ (i : Int) ∧ (i : Int) < rfind '.' p ∧ p[i]? ≠ some '.') then
    (p.take (rfind '.' p).toNat, p.drop (rfind '.' p).toNat)
  else (p, [])

/-- util.py:22  `filename + '_' + str(counter) + extension` -/
def candidate (filename ext : Str) (counter : Nat) : Str := filename ++ '_' :: (decDigits counter ++ ext)

/-- util.py:21-23, the `while` loop with at most `fuel` tests of the loop condition; `none`: still running. -/
def uniqLoop (exist : Str → Bool) (filename ext : Str) : Nat → Nat → Str → Option Str
  | 0, _, _ => none
  | fuel + 1, counter, path =>
    if exist path then uniqLoop exist filename ext fuel (counter + 1) (candidate filename ext counter) else some path

/-- util.py:12-25 `uniquify` (at most `fuel` loop tests). -/
def uniquify (exist : Str → Bool) (fuel : Nat) (path : Str) : Option Str :=
  (uniqLoop exist (splitext path).1 (splitext path).2 fuel 1 path).map (· ++ ['/'])

/-- State of the file system. -/
abbrev Fs (K : Type) := Finset K

/-- `os.path.exists` -/
def exist {K : Type} [DecidableEq K] (res : Str → K) (fs : Fs K) (p : Str) : Bool := decide (res p ∈ fs)

/-- `os.mkdir`; `none` is `FileExistsError`. -/
def mkdir {K : Type} [DecidableEq K] (res : Str → K) (fs : Fs K) (p : Str) : Option (Fs K) :=
  if res p ∈ fs then none else some (insert (res p) fs)

/-- config.py:120-136 `set_output_path` with one process (or rank 0 running alone): the new path and file system. -/
def setOutputPath {K : Type} [DecidableEq K] (res : Str → K) (fuel : Nat) (fs : Fs K) (base : Str) :
    Option (Str × Fs K) := do
  let p ← uniquify (exist res fs) fuel base
  let fs' ← if exist res fs p then some fs else mkdir res fs p
  return (p, fs')

/-- config.py:131-135: what rank `r` does after the broadcast of the path `p`: rank 0 creates the folder if it does not
    exist, the other ranks only test for existence. -/
def afterBcast {K : Type} [DecidableEq K] (res : Str → K) (p : Str) (fs : Fs K) (r : Nat) : Option (Fs K) :=
  if exist res fs p then some fs else if r = 0 then mkdir res fs p else some fs

/-- One interleaving of the ranks after the broadcast: they run in the order of `sched`. -/
def runAfterBcast {K : Type} [DecidableEq K] (res : Str → K) (p : Str) (fs : Fs K) (sched : List Nat) : Option (Fs K) :=
  sched.foldlM (afterBcast res p) fs

/-- config.py:626-637 `create_poly_fit_folder` with a communicator: here every rank calls `uniquify` itself.  One rank's
    turn; the result is the path this rank stores and the new file system. -/
def polyFitTurn {K : Type} [DecidableEq K] (res : Str → K) (fuel : Nat) (base : Str) (fs : Fs K) (r : Nat) :
    Option (Str × Fs K) := do
  let p ← uniquify (exist res fs) fuel base
  let fs' ← afterBcast res p fs r
  return (p, fs')

end DGA.Paths
