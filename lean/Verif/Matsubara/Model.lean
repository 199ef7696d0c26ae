/-
  Model of src/dga/matsubara_frequencies.py.

  The frequency axis of an array is a list; its entries are arbitrary (the remaining axes).  `np.apply_along_axis` over
  an axis applies the one-dimensional function to every fibre, so the one-axis functions below are modelled on one
  fibre; two- and three-axis functions use nested lists.
-/
import Verif.Py

namespace DGA.Mf

/-- matsubara_frequencies.py:17-38 `get_freq_shift`; `none` = `NotImplementedError`.
    Python `//` and `%` by 2 are floor division and its remainder, as Lean's `/` and `%` on `Int`. -/
def getFreqShift (iwn : Int) (notation_ : String) : Option (Int × Int) :=
  if notation_ = "plus" then some (0, iwn)
  else if notation_ = "minus" then some (0, -iwn)
  else if notation_ = "center" then some (iwn / 2, -(iwn / 2 + iwn % 2))
  else none

/-- matsubara_frequencies.py:198-207 `vn(n, shift, pos)` -/
def vn (n : Nat) (shift : Int := 0) (pos : Bool := false) : List Int :=
  if pos then Py.arange shift (n + shift) else Py.arange (-(n : Int) + shift) (n + shift)

/-- matsubara_frequencies.py:305-313 `wn(n, shift, pos)` -/
def wn (n : Nat) (shift : Int := 0) (pos : Bool := false) : List Int :=
  if pos then Py.arange shift (n + shift + 1) else Py.arange (-(n : Int) + shift) (n + shift + 1)

/-- matsubara_frequencies.py:181-189, 271-279 `niv_from_mat` / `niw_from_mat` with `pos=False` -/
def nFromMat {α : Type} (l : List α) : Nat := l.length / 2

/-- matsubara_frequencies.py:140-147 `cut_v_1d` -/
def cutV {α : Type} (l : List α) (nivCut : Int) : List α :=
  let niv : Int := nFromMat l
  let c := if nivCut = -1 then niv else nivCut
  Py.slice l (niv - c) (niv + c)

/-- matsubara_frequencies.py:150-159 `cut_v` over both axes of a two-dimensional array -/
def cutV2 {α : Type} (m : List (List α)) (nivCut : Int) : List (List α) :=
  cutV (m.map fun row => cutV row nivCut) nivCut

/-- matsubara_frequencies.py:162-169 `inv_cut_v_1d` -/
def invCutV {α : Type} (l : List α) (nivCore nivShell : Int) : List α :=
  let niv : Int := nFromMat l
  let s := if nivShell = -1 then niv else nivShell
  Py.slice l (niv - s - nivCore) (niv - nivCore) ++ Py.slice l (niv + nivCore) (niv + nivCore + s)

/-- matsubara_frequencies.py:132-135 `concatenate_core_asmypt` -/
def concatCoreAsympt {α : Type} (core asympt : List α) : List α :=
  let na : Int := nFromMat asympt
  Py.sliceTo asympt na ++ core ++ Py.sliceFrom asympt na

/-- matsubara_frequencies.py:112-116 `cut_v_1d_pos` -/
def cutVPos {α : Type} (l : List α) (nivCut nivMin : Int) : List α :=
  let niv : Int := nFromMat l
  let c := if nivCut = -1 then niv else nivCut
  Py.slice l (niv + nivMin) (niv + nivMin + c)

/-- matsubara_frequencies.py:119-121 `fermionic_full_nu_range` along one axis; `conj` is `np.conj` on the entries -/
def fermionicFull {α : Type} (conj : α → α) (l : List α) : List α := l.reverse.map conj ++ l

/-- matsubara_frequencies.py:124-129 `bosonic_full_nu_range` along one axis (`freq_axes` = that axis);
    `np.take(mat, arange(1, n))` drops the first entry. -/
def bosonicFull {α : Type} (conj : α → α) (l : List α) : List α := (l.drop 1).reverse.map conj ++ l

/-- matsubara_frequencies.py:81-84 `wn_slices_gen`, one row per bosonic index of `w` (`np.array` of rows of unequal
    length is not modelled: the rows are kept as they are). -/
def wnSlicesGen {α : Type} (l : List α) (nCut : Nat) (w : List Int) : List (List α) :=
  let n : Int := nFromMat l
  w.map fun iwn => Py.slice l (n - nCut - iwn) (n + nCut - iwn)

/-- matsubara_frequencies.py:87-92 `wn_slices_shell` -/
def wnSlicesShell {α : Type} (l : List α) (nShell nCore : Nat) (w : List Int) : List (List α) :=
  let n : Int := nFromMat l
  w.map fun iwn =>
    Py.slice l (n - nCore - nShell - iwn) (n - nCore - iwn) ++ Py.slice l (n + nCore - iwn) (n + nCore + nShell - iwn)

/-- matsubara_frequencies.py:96-101 `cut_iv_with_iw_shift_1d` -/
def cutIvShift {α : Type} (l : List α) (nivCut : Int) (iwn : Int) : List α :=
  let niv : Int := nFromMat l
  let c := if nivCut = -1 then niv - iwn.natAbs else nivCut
  Py.slice l (niv - c - iwn) (niv + c - iwn)

/-- matsubara_frequencies.py:57-68 `w_to_vmvp`: list of the columns `mat_new[:, i]`.  Assigning a column of another
    length raises (`none`; the broadcast of a one-element column can only happen for `2 niv = 1`, never). -/
def wToVmvp {α : Type} (l : List α) : Option (List (List α)) :=
  let niw := nFromMat l
  let niv := niw / 2
  (vn niv).mapM fun ivp =>
    let col := Py.slice l ((niw : Int) - niv - ivp) ((niw : Int) + niv - ivp)
    if col.length = 2 * niv then some col else none

/-- numpy `l[a:b] += v` (and `l[a:b] = …`) for a step-1 slice: lengths have to agree (`none` = `ValueError`). -/
def updSlice {α : Type} (f : α → α → α) (l : List α) (a b : Int) (v : List α) : Option (List α) :=
  let s := Py.clip l.length a
  let e := Py.clip l.length b
  if v.length = e - s then
    some (l.take s ++ List.zipWith f (Py.slice l a b) v ++ l.drop (max s e))
  else none

/-- matsubara_frequencies.py:233-248 `add_bosonic` along axis 0 -/
def addBosonic {α : Type} (add : α → α → α) (a b : List α) : Option (List α) :=
  let n1 := nFromMat a
  let n2 := nFromMat b
  if n2 ≤ n1 then updSlice add a ((n1 : Int) - n2) (n1 + n2 + 1) b
  else updSlice add b ((n2 : Int) - n1) (n2 + n1 + 1) a

/-- matsubara_frequencies.py:251-257 `cut_v_1d_wn` -/
def cutW {α : Type} (l : List α) (niwCut : Int) : List α :=
  let n : Int := nFromMat l
  Py.slice l (n - niwCut) (n + niwCut + 1)

/-- matsubara_frequencies.py:282-301 `mat_at_w0` / `get_mat_at_iwn` with `pos=False`: `np.take` (default mode 'raise',
    which accepts negative indices like ordinary indexing). -/
def matAtIwn {α : Type} (l : List α) (iwn : Int) : Option α := Py.get? l (nFromMat l + iwn)

/-- matsubara_frequencies.py:44-53 `append_v_vp_shell`: constant array of size `2 niv_full`, then assignment of the
    centre block.  A block of the wrong size raises (`none`). -/
def appendShell {α : Type} (mat : List (List α)) (val : α) (nivShell : Nat) : Option (List (List α)) :=
  let ncol := (mat.head?.map List.length).getD 0
  let niv := ncol / 2
  let nf := niv + nivShell
  let blank := List.replicate (2 * nf) val
  let lo : Int := (nf : Int) - niv
  let hi : Int := (nf : Int) + niv
  if mat.length = 2 * niv then
    (mat.mapM fun row => updSlice (fun _ x => x) blank lo hi row).bind fun rows =>
      updSlice (fun _ x => x) (List.replicate (2 * nf) blank) lo hi rows
  else none

/-- element access `m[a, b, c]` with Python index semantics; `none` = `IndexError` -/
def get3 {α : Type} (m : List (List (List α))) (a b c : Int) : Option α :=
  (Py.get? m a).bind fun x => (Py.get? x b).bind fun y => Py.get? y c

/-- shape of a three-dimensional array -/
def Shape3 {α : Type} (m : List (List (List α))) (n1 n2 n3 : Nat) : Prop :=
  m.length = n1 ∧ ∀ x ∈ m, x.length = n2 ∧ ∀ y ∈ x, y.length = n3

/-- matsubara_frequencies.py:367-384 `ph2pp_iwn` for a three-dimensional input of shape `(nw, nv, nv)` -/
def ph2ppIwn {α : Type} (m : List (List (List α))) (nw nv : Nat) (iwnPP : Int) : Option (List (List α)) :=
  let niw := nw / 2
  let niv := nv / 2
  let nivpp := min (niw / 3) (niv / 3)
  (vn nivpp).mapM fun vi => (vn nivpp).mapM fun vip =>
    get3 m ((niw : Int) + vi + vip + 1 - iwnPP) ((niv : Int) + vi) ((niv : Int) + vip)

/-- matsubara_frequencies.py:387-394 `ph2pp` -/
def ph2pp {α : Type} (m : List (List (List α))) (nw nv : Nat) : Option (List (List (List α))) :=
  (wn (nw / 6)).mapM fun iwn => ph2ppIwn m nw nv iwn

/-- matsubara_frequencies.py:397-414 `ph2pp_iwn_wc` -/
def ph2ppIwnWc {α : Type} (neg : α → α) (m : List (List (List α))) (nw nv : Nat) (iwnPP : Int) :
    Option (List (List α)) :=
  let niw := nw / 2
  let niv := nv / 2
  let nivpp := min (niw / 2) (niv / 2)
  (vn nivpp).mapM fun vi => (vn nivpp).mapM fun vip =>
    (get3 m ((niw : Int) + vi - vip) ((niv : Int) + vi) ((niv : Int) + iwnPP - (vip + 1))).map neg

/-- matsubara_frequencies.py:417-424 `ph2pp_wc` -/
def ph2ppWc {α : Type} (neg : α → α) (m : List (List (List α))) (nw nv : Nat) : Option (List (List (List α))) :=
  (wn (nw / 4)).mapM fun iwn => ph2ppIwnWc neg m nw nv iwn

/-- pairing_vertex.py:47-60 `reshape_chi`, bosonic axis only (the momentum axes are carried along): rows `v`, columns
    `v'`, value read at `v - v' + niw` with Python indexing. -/
def reshapeChi {α : Type} (chi : List α) (nivpp : Nat) : Option (List (List α)) :=
  let niw := nFromMat chi
  (vn nivpp).mapM fun ivn => (vn nivpp).mapM fun ivnp => Py.get? chi (ivn - ivnp + niw)

end DGA.Mf
