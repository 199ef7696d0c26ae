/-
  Model of the per-rank vertex files: group names, writers and loaders.
  src/dga/four_point.py:297-335, src/dga/optics.py:205-262, src/dga/pairing_vertex.py:75-132, src/dga/mpi_aux.py:27-31.

  Strings are lists of characters.  A file is the list of its top-level groups in order of creation, each with one
  payload: the datasets f1_magn, f2_magn, f1_dens, f2_dens of a group are written and read by identical statements,
  so one payload of arbitrary type stands for each of them.
-/
import Verif.Py

namespace DGA.RankFiles

abbrev Str := List Char

/-- decimal digit character of `d < 10` (Python `str`) -/
def digitChar (d : Nat) : Char := Char.ofNat (48 + d)

/-- Python `str(n)` / format code `d` for a natural number: no leading zeros, "0" for 0. -/
def decDigits (n : Nat) : Str :=
  if n < 10 then [digitChar n] else decDigits (n / 10) ++ [digitChar (n % 10)]
termination_by n
decreasing_by omega

/-- zero padding on the left up to `w` characters -/
def padZero (w : Nat) (s : Str) : Str := List.replicate (w - s.length) '0' ++ s

/-- Python format spec `{:0<w>d}`: the sign counts for the width and stays in front of the zeros. -/
def fmtD (w : Nat) (i : Int) : Str :=
  if i < 0 then '-' :: padZero (w - 1) (decDigits i.natAbs) else padZero w (decDigits i.natAbs)

/-- four_point.py:307, optics.py:229, pairing_vertex.py:90
    `name + f'irrq{iq:03d}wn{iw:04d}'` (the enclosing slashes are the HDF5 path separators). -/
def groupName (pre : Str) (iq : Nat) (iw : Int) : Str :=
  pre ++ ("irrq".toList ++ (fmtD 3 iq ++ ("wn".toList ++ fmtD 4 iw)))

/-- mpi_aux.py:31, four_point.py:324  `output_path + name + f'Rank{ir:05d}' + '.hdf5'` -/
def rankFileName (path name : Str) (ir : Nat) : Str :=
  path ++ (name ++ ("Rank".toList ++ (fmtD 5 ir ++ ".hdf5".toList)))

/-- the class `\d` of the regular expression, restricted to ASCII (only ASCII group names occur) -/
def isDigit (c : Char) : Bool := 48 ≤ c.toNat && c.toNat ≤ 57

/-- `re.findall(r'\d+', s)` (four_point.py:329-330): maximal runs of digits; `cur` is the run being scanned. -/
def findDigitsAux (cur : Str) : Str → List Str
  | [] => if cur.isEmpty then [] else [cur]
  | c :: cs =>
    if isDigit c then findDigitsAux (cur ++ [c]) cs
    else if cur.isEmpty then findDigitsAux [] cs
    else cur :: findDigitsAux [] cs

def findDigits (s : Str) : List Str := findDigitsAux [] s

/-- `np.array([...], dtype=int)` on digit strings (four_point.py:329) -/
def parseDec (s : Str) : Nat := s.foldl (fun a c => 10 * a + (c.toNat - 48)) 0

/-- byte order of group names (HDF5 lists groups by increasing name) -/
def strLe : Str → Str → Bool
  | [], _ => true
  | _ :: _, [] => false
  | a :: as, b :: bs => a.toNat < b.toNat || (a.toNat == b.toNat && strLe as bs)

abbrev File (β : Type) := List (Str × β)

/-- `file[group + ...] = value`: creating a name that exists raises (`none`). -/
def putGroup {β : Type} (f : File β) (k : Str) (v : β) : Option (File β) :=
  if f.any (fun e => e.1 == k) then none else some (f ++ [(k, v)])

/-- four_point.py:300-310 (and optics.py:221-233): the double loop of one rank.
    `tasks` = `my_tasks`, `wn` the bosonic indices, `loc i j` the vertex slice computed from the
    rank-local arrays at position `(i, j)`. -/
def writeVertex {β : Type} (pre : Str) (tasks : List Nat) (wn : List Int) (loc : Nat → Nat → β) (f : File β) :
    Option (File β) :=
  tasks.zipIdx.foldlM (fun f (iq, i) =>
    wn.zipIdx.foldlM (fun f (iw, j) => putGroup f (groupName pre iq iw) (loc i j)) f) f

/-- `file_in.keys()` with the values: sorted by name (four_point.py:326). -/
def listGroups {β : Type} (f : File β) : List (Str × β) := f.mergeSort fun a b => strLe a.1 b.1

/-- zero-initialised result array of shape `(nq, nw, …)` (four_point.py:318-321), as a function of the two leading
    indices; the shape is checked at every access. -/
abbrev Arr2 (β : Type) := Nat → Nat → β

/-- `arr[q, w, ...] = v` for natural indices on an axis of length `nq` resp. `nw`; `none` = `IndexError`. -/
def setArr {β : Type} (nq nw : Nat) (arr : Arr2 β) (q w : Nat) (v : β) : Option (Arr2 β) :=
  if q < nq ∧ w < nw then some fun q' w' => if q' = q ∧ w' = w then v else arr q' w' else none

/-- four_point.py:329-334: body of the loader loop for one group.  `none` also covers a name with fewer than two
    numbers (`IndexError`). -/
def loadGroup {β : Type} (nq niw : Nat) (arr : Arr2 β) (e : Str × β) : Option (Arr2 β) :=
  match (findDigits e.1).map parseDec with
  | irrq :: iw :: _ => setArr nq (2 * niw + 1) arr irrq (iw + niw) e.2
  | _ => none

/-- four_point.py:325-334 one rank file; `pre` is the hard-coded prefix of line 326. -/
def loadRank {β : Type} (pre : Str) (nq niw : Nat) (arr : Arr2 β) (f : File β) : Option (Arr2 β) :=
  ((listGroups f).filter fun e => pre.isPrefixOf e.1).foldlM (loadGroup nq niw) arr

/-- four_point.py:313-335 `load_vertex_from_rank_files` (optics.py:236-262 is the same loop with prefix `f_`). -/
def loadVertex {β : Type} (pre : Str) (zero : β) (nq niw : Nat) (files : List (File β)) : Option (Arr2 β) :=
  files.foldlM (loadRank pre nq niw) (fun _ _ => zero)

end DGA.RankFiles
