/-
  Model of the momentum-space Hamiltonian files: src/dga/wannier.py:369-453 (`read_hk_w2k`) and 503-520 (`write_hk_wannier90`).
  A file is its header (a list of non-negative integers) and the sequence of numbers that follows; the text of a single number is not modelled
  (it is separated by blanks or line ends from the next one).  Matrix elements are written with twelve decimals; k-points with `print`, which
  keeps a float exactly.  Header lines that start with `VERSION` are not modelled (`np.int` raises there on current NumPy).
-/
import Verif.WanIo.Model

namespace DGA.WanIo

/-- the value of the text `'%.12f' % q` (wannier.py:518) -/
def text12 (q : ℚ) : ℚ := if q < 0 then -(roundEven (|q| * 10 ^ 12) / 10 ^ 12) else roundEven (|q| * 10 ^ 12) / 10 ^ 12

structure HkFile where
  header : List Nat
  num : List ℚ
deriving DecidableEq

/-- one row of `hk_slice.view(float)` (wannier.py:517-518): a complex array is viewed as real and imaginary parts in turn; a real array as itself -/
def viewRow (isComplex : Bool) (nb : Nat) (row : Nat → ℚ × ℚ) : List ℚ :=
  (List.range nb).flatMap fun (b : Nat) => if isComplex then [(row b).1, (row b).2] else [(row b).1]

/-- wannier.py:514-518: the numbers written for one k-point -/
def hkBlock (isComplex : Bool) (nb : Nat) (k : ℚ × ℚ × ℚ) (m : Nat → Nat → ℚ × ℚ) : List ℚ :=
  [k.1, k.2.1, k.2.2] ++ (List.range nb).flatMap fun (a : Nat) => (viewRow isComplex nb (m a)).map text12

/-- wannier.py:503-520 `write_hk_wannier90(hk, fname, kmesh, nk)` for `hk` of shape `(nkHk, nb, nb)`, `kmesh` of shape `(3, nkMesh)`;
    a third index out of range raises -/
def writeHk (isComplex : Bool) (nk : List Nat) (nkHk nkMesh nb : Nat) (kmesh : Nat → ℚ × ℚ × ℚ) (hk : Nat → Nat → Nat → ℚ × ℚ) : Option HkFile :=
  let n := nk.prod
  if n ≤ nkHk ∧ n ≤ nkMesh then
    some ⟨[n, nb, nb], (List.range n).flatMap fun (ik : Nat) => hkBlock isComplex nb (kmesh ik) (hk ik)⟩
  else none

/-- `np.squeeze`: axes of length one are dropped -/
def squeeze (shape : List Nat) : List Nat := shape.filter fun (n : Nat) => n ≠ 1

/-- result of the reader: array before `np.squeeze` as a function of `[k, band, spin, band', spin']`, the shape returned, and the k-points -/
structure HkRead where
  nk : Nat
  nb : Nat
  ns : Nat
  shape : List Nat
  at_ : Nat → Nat → Nat → Nat → Nat → ℚ × ℚ
  kpt : Nat → ℚ × ℚ × ℚ

/-- wannier.py:398-414: number of k-points and bands from the header -/
def hkHeader (h : List Nat) : Option (Nat × Nat) :=
  match h with
  | [n, b, _] => some (n, b)
  | n :: b :: c :: d :: _ => some (n, b * (c + d))
  | _ => none

/-- wannier.py:431-450: the body of the reader once bands and spins are known -/
def hkBody (num : List ℚ) (nkpoints nb ns : Nat) : Option HkRead :=
  let m := 3 + 2 * nb ^ 2 * ns ^ 2
  if num.length % m ≠ 0 then none
  else if num.length / m < nkpoints then none
  else
    let x := fun (i : Nat) => num.getD i 0
    -- wannier.py:440-441: `hk[k, s, b, s', b']`
    let hk := fun (k s b s' b' : Nat) =>
      let i := k * m + 3 + ((((s * nb + b) * ns + s') * nb + b') * 2)
      (x i, x (i + 1))
    -- wannier.py:447: transpose(0, 2, 1, 4, 3)
    some ⟨nkpoints, nb, ns, squeeze [nkpoints, nb, ns, nb, ns], fun k b s b' s' => hk k s b s' b', fun k => (x (k * m), x (k * m + 1), x (k * m + 2))⟩

/-- wannier.py:369-453 `read_hk_w2k(fname, spin_sym)` -/
def readHk (f : HkFile) (spinSym : Bool) : Option HkRead :=
  (hkHeader f.header).bind fun h =>
    if spinSym then hkBody f.num h.1 h.2 1
    else if h.2 % 2 ≠ 0 then none else hkBody f.num h.1 (h.2 / 2) 2

end DGA.WanIo
