/-
  Model of the Padé routines: src/dga/pade_aux.py (and the identical src/ana_cont/pade.pyx).

  Simplifications: arithmetic is exact (`K` any field, ℂ in the program); a numpy division by zero (inf/nan) is `0` here, so the
  theorems are stated where no divisor that is used vanishes; `np.complex` (removed from numpy ≥ 1.24) is read as `complex`.
  Evaluation at an array of points is the map of the evaluation at one point.
-/
import Mathlib.Algebra.BigOperators.Group.Finset.Basic
import Mathlib.Algebra.BigOperators.Fin
import Mathlib.Data.Complex.Basic
import Mathlib.Analysis.Complex.Basic

namespace DGA.Pade

variable {K : Type} [Field K]

/-- `g[i,j] = v` on a two-dimensional array (language construct) -/
def setAt (g : Nat → Nat → K) (i j : Nat) (v : K) : Nat → Nat → K := fun a b => if a = i ∧ b = j then v else g a b

/-- pade_aux.py:167-168 (pade.pyx:19-20) the inner loop `for j in range(1,i+1)` -/
def tableRow (z : List K) (i : Nat) (g : Nat → Nat → K) : Nat → Nat → K :=
  (List.range' 1 i).foldl (fun g j => setAt g i j ((g (j - 1) (j - 1) - g i (j - 1)) / ((z.getD i 0 - z.getD (j - 1) 0) * g i (j - 1)))) g

/-- pade_aux.py:163-168 (pade.pyx:15-20) the array `g` after the loops; indices are inside the array for `i < n` -/
def table (z u : List K) : Nat → Nat → K :=
  (List.range z.length).foldl (fun g i => tableRow z i g) (fun i j => if j = 0 then u.getD i 0 else 0)

/-- pade_aux.py:162-169 (pade.pyx:13-21) `compute_coefficients`; `none`: `g[:,0]=ui` with another length (a length-one `ui`, which numpy
    would broadcast, is not modelled) -/
def computeCoefficients (zi ui : List K) : Option (List K) :=
  if ui.length = zi.length then some ((List.range zi.length).map fun i => table zi ui i i) else none

/-- pade_aux.py:179-183 (pade.pyx:32-36) `g(p,i,zi,ui)`, `p, i ≥ 1`; `none`: `p = 0` (Python returns `None`) or an index outside the array -/
def gRec (zi ui : List K) : Nat → Nat → Option K
  | 0, _ => none
  | 1, i => if i = 0 then none else ui[i - 1]?
  | p + 2, i => if i = 0 then none else
      (gRec zi ui (p + 1) (p + 1)).bind fun x => (gRec zi ui (p + 1) i).bind fun y => (zi[i - 1]?).bind fun s => (zi[p]?).map fun t =>
        (x - y) / ((s - t) * y)

/-- pade_aux.py:185-191 (pade.pyx:38-44) `A(zr,n,zi,ui,a)` -/
def padeA (zr : K) (zi a : List K) : Nat → Option K
  | 0 => some 0
  | 1 => a[0]?
  | n + 2 => (padeA zr zi a (n + 1)).bind fun x => (zi[n]?).bind fun s => (a[n + 1]?).bind fun c => (padeA zr zi a n).map fun y =>
      x + (zr - s) * c * y

/-- pade_aux.py:193-199 (pade.pyx:46-52) `B(zr,n,zi,ui,a)` -/
def padeB (zr : K) (zi a : List K) : Nat → Option K
  | 0 => some 1
  | 1 => some 1
  | n + 2 => (padeB zr zi a (n + 1)).bind fun x => (zi[n]?).bind fun s => (a[n + 1]?).bind fun c => (padeB zr zi a n).map fun y =>
      x + (zr - s) * c * y

/-- pade_aux.py:201-203 (pade.pyx:54-57) `C(zr,zi,ui,a)` -/
def padeC (zr : K) (zi a : List K) : Option K :=
  (padeA zr zi a zi.length).bind fun x => (padeB zr zi a zi.length).map fun y => x / y

/-- pade_aux.py:92, 69-107 `PadeSolver(im_axis, ·, im_data).check(·)`: coefficients from the nodes `1j * im_axis`, evaluated at the nodes
    given; here `zi` are these nodes -/
def solverValue (zi ui : List K) (zr : K) : Option K := (computeCoefficients zi ui).bind fun a => padeC zr zi a

/-- pade_aux.py:226-229 the array `g` of `padeThiele`: row `i`, column `j`.  Entries with `j < i` (where numpy may hold nan) are
    never used. -/
def thieleG (z f : List K) : Nat → Nat → K
  | 0, j => f.getD j 0
  | i + 1, j => (thieleG z f i i - thieleG z f i j) / ((z.getD j 0 - z.getD i 0) * thieleG z f i j)

/-- pade_aux.py:248-250 one step of the loop over `n`; the state is `(A[n-1], A[n], B[n-1], B[n])` -/
def thieleStep (z f : List K) (zut : K) (st : K × K × K × K) (n : Nat) : K × K × K × K :=
  (st.2.1, st.2.1 + (zut - z.getD (n - 1) 0) * thieleG z f n n * st.1, st.2.2.2,
    st.2.2.2 + (zut - z.getD (n - 1) 0) * thieleG z f n n * st.2.2.1)

/-- pade_aux.py:208-251 `padeThiele` at one output point; `none`: lengths differ, or no node (`c[0]` raises) -/
def padeThiele (z f : List K) (zut : K) : Option K :=
  if f.length = z.length ∧ z.length ≠ 0 then
    let st := (List.range' 1 (z.length - 1)).foldl (thieleStep z f zut) (0, thieleG z f 0 0, 1, 1)
    some (st.2.1 / st.2.2.2)
  else none

/-- pade_aux.py:266-271 the linear system of `padeMatrix`: entry `(i, j)` of the matrix for the node `z`, value `f`; `r = N // 2` -/
def matrixEntry (r : Nat) (z f : K) (j : Nat) : K := if j < r then z ^ j else -f * z ^ (j - r)

/-- pade_aux.py:254-282 `padeMatrix`, as a relation: `x` (of even length `N = 2 r`; an odd `N` raises in line 271) solves the system
    exactly.  numpy's `lstsq` returns such an `x` when there is one; least-squares fits without exact solution are not modelled. -/
def isMatrixSolution (zs fs : List K) (r : Nat) (x : List K) : Prop :=
  x.length = 2 * r ∧ ∀ p ∈ zs.zip fs, ((List.range (2 * r)).map fun j => matrixEntry r p.1 p.2 j * x.getD j 0).sum = p.2 * p.1 ^ r

/-- pade_aux.py:285-300 `epade` at one point -/
def epade (z : K) (x : List K) : K :=
  let r := x.length / 2
  let st := (List.range r).foldl (fun (s : K × K) i => (s.1 + x.getD i 0 * z ^ i, s.2 + x.getD (r + i) 0 * z ^ i)) (0, 0)
  st.1 / (st.2 + z ^ r)

/-- `l[k::-1]` for `k ≥ 0` (language construct): the elements `k, k-1, …, 0`, starting at the last one if `k` is too large -/
def revFrom {α : Type} (l : List α) (k : Nat) : List α := (l.take (k + 1)).reverse

/-- pade_aux.py:450-470 `pick_points` for one column; a negative stop `M - nadd` counts from the end, as in Python -/
def pickPoints (cj : K → K) (z f : List K) (nmin : Int) (M : Nat) : List K × List K :=
  if 0 ≤ nmin then
    ((z.drop nmin.toNat).take M, (f.drop nmin.toNat).take M)
  else
    let nadd := -nmin
    let stop (n : Nat) : Nat := if (M : Int) - nadd < 0 then ((M : Int) - nadd + (n : Int)).toNat else ((M : Int) - nadd).toNat
    ((revFrom z (nadd - 1).toNat).map cj ++ z.take (stop z.length), (revFrom f (nadd - 1).toNat).map cj ++ f.take (stop f.length))

/-! ### the averaging over continuations, for one orbital -/

/-- pade_aux.py:520, 526 `np.all(np.imag(f) <= 0)` -/
noncomputable def physical (f : List ℂ) : Bool := f.all fun x => decide (x.im ≤ 0)

/-- pade_aux.py:548 `np.linalg.norm(fi.imag - f[j].imag, ord=1)` -/
noncomputable def dist1 (f g : List ℂ) : ℝ := ((f.zip g).map fun p => |p.1.im - p.2.im|).sum

/-- pade_aux.py:545-548 the upper triangle of distances -/
noncomputable def delta (fs : List (List ℂ)) (i j : Nat) : ℝ := if i < j then dist1 (fs.getD i []) (fs.getD j []) else 0

/-- pade_aux.py:549-551 the accumulated distances `d` -/
noncomputable def accum (fs : List (List ℂ)) : List ℝ :=
  (List.range fs.length).map fun i =>
    ((List.range i).map fun j => delta fs j i).sum + ((List.range' (i + 1) (fs.length - (i + 1))).map fun j => delta fs i j).sum

/-- `np.argsort(d)` returned `p` (language construct; the order of ties is left open) -/
def isArgsort (d : List ℝ) (p : List Nat) : Prop :=
  p.Perm (List.range d.length) ∧ p.Pairwise fun i j => d.getD i 0 ≤ d.getD j 0

/-- pade_aux.py:552-557 `mask`; `c1v = 0.99`, `m = int(0.51 * len(d))` in the program, `p = np.argsort(d)` -/
noncomputable def mask (c1v : ℝ) (m : Nat) (d : List ℝ) (p : List Nat) : List Bool :=
  (List.range d.length).map fun i => decide (d.getD i 0 ≤ c1v * (d.sum / d.length)) && (p.take m).contains i

/-- `f[mask]` (language construct) -/
def pickMask {α : Type} (l : List α) (m : List Bool) : List α := ((l.zip m).filter fun p => p.2).map Prod.fst

/-- `np.mean(rows, axis=0)` (language construct); `none`: no row (numpy returns nan) -/
noncomputable def meanRows (rows : List (List ℂ)) : Option (List ℂ) :=
  match rows with
  | [] => none
  | r :: rs => some ((List.range r.length).map fun k => ((r :: rs).map fun x => x.getD k 0).sum / ((r :: rs).length : ℂ))

/-- pade_aux.py:529-558 the result of `pade` for one orbital from all continuations performed; `none`: no physical continuation
    (`sys.exit`) or an empty selection (nan) -/
noncomputable def average (c1v : ℝ) (m : Nat → Nat) (p : List ℝ → List Nat) (all : List (List ℂ)) : Option (List ℂ) :=
  let fs := all.filter physical
  match fs with
  | [] => none
  | [f] => some f
  | fs => meanRows (pickMask fs (mask c1v (m fs.length) (accum fs) (p (accum fs))))

end DGA.Pade
