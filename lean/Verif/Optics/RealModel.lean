/-
  Model of the real-frequency optical bubble: src/dga/optics.py:41-98.  Momentum axes flattened; Green's function rows over the frequency grid `w`.
-/
import Verif.KPath.Model
import Mathlib.Analysis.SpecialFunctions.Exp

noncomputable section

namespace DGA.Optics

open DGA.KPath

/-- optics.py:45-46 `fermi_function` -/
def fermiFunction (w beta : ℝ) : ℝ := 1 / (Real.exp (beta * w) + 1)

/-- `np.trapz(y, x)`: arrays of different length raise -/
def trapz (y : List ℂ) (x : List ℝ) : Option ℂ :=
  if y.length = x.length then
    some ((List.zipWith (fun (d : ℝ) (s : ℂ) => (d : ℂ) * (s / 2)) (List.zipWith (fun (a b : ℝ) => b - a) x x.tail) (List.zipWith (fun (a b : ℂ) => a + b) y y.tail)).sum)
  else none

/-- elementwise operation of two arrays along the frequency axis: equal length, or length one is broadcast, otherwise raises (numpy) -/
def bc {α β γ : Type} (f : α → β → γ) (a : List α) (b : List β) : Option (List γ) :=
  if a.length = b.length then some (List.zipWith f a b)
  else match a, b with
    | [x], b => some (b.map fun (y : β) => f x y)
    | a, [y] => some (a.map fun (x : α) => f x y)
    | _, _ => none

/-- largest entry of the grid (`np.max`) as used by the assertion optics.py:57 -/
def gridMax (w : List ℝ) : ℝ := w.foldr max (w.getD 0 0)

/-- window of the integration, optics.py:60-64: `(w_0_ind, w_mbub_ind, nl, nu)` -/
def window (w : List ℝ) (wMax : ℝ) : Option (ℕ × ℕ × ℤ × ℤ) :=
  (argNear 0 w).bind fun (w0 : ℕ) => (argNear wMax w).map fun (wm : ℕ) =>
    let wInt : ℤ := (w.length : ℤ) - wm
    (w0, wm, (w0 : ℤ) - wInt + (w.length % 2 : ℕ), (w0 : ℤ) + wInt)

/-- optics.py:71-74 `get_chijj_bubble_realf_iw(i)`, the integral of one momentum -/
def realTerm (w : List ℝ) (beta : ℝ) (nl nu : ℤ) (g : List ℂ) (i : ℤ) : Option ℂ :=
  let wInt := Py.slice w nl nu
  let awk := Py.slice (g.map fun (z : ℂ) => -z.im / Real.pi) nl nu
  let nf := wInt.map fun (x : ℝ) => fermiFunction x beta
  (bc (fun (a b : ℝ) => a * b) nf awk).bind fun na =>
    (bc (fun (a b : ℂ) => a + b) (Py.slice g (nl + i) (nu + i)) (Py.slice (g.map fun (z : ℂ) => (starRingEnd ℂ) z) (nl - i) (nu - i))).bind fun gg =>
      (bc (fun (a : ℝ) (b : ℂ) => (a : ℂ) * b) na gg).bind fun y => trapz y wInt

open Classical in
/-- optics.py:49-77 `vec_get_chijj_bubble_realf`; `lv2 = lv_a * lv_b` per momentum (line 65) -/
def chijjBubbleRealf (w : List ℝ) (gwk : List (List ℂ)) (lv2 : List ℂ) (beta wMax : ℝ) : Option (List ℂ × List ℝ) :=
  if ¬ gridMax w > wMax then none else
  (window w wMax).bind fun q =>
    let wBub := Py.slice w ((q.1 : ℤ) + 1) q.2.1
    ((List.range wBub.length).mapM fun (i : ℕ) =>
      ((List.zip lv2 gwk).mapM fun (p : ℂ × List ℂ) => (realTerm w beta q.2.2.1 q.2.2.2 p.2 ((i : ℤ) + 1)).map fun (t : ℂ) => p.1 * t).map fun (ts : List ℂ) =>
        -2 * (ts.sum / (ts.length : ℂ))).map fun (chi : List ℂ) => (chi, wBub)

/-- optics.py:80-87 `get_sigma_from_chijj_realf`: nodes handed to the interpolation (81-83) -/
def sigmaNodes (chi : List ℂ) (w : List ℝ) : List (ℝ × ℝ) :=
  List.zip ((w.reverse.map fun (x : ℝ) => -x) ++ w)
    (List.zipWith (fun (c x : ℝ) => c / x) (((chi.map fun (z : ℂ) => (starRingEnd ℂ) z).reverse.map fun (z : ℂ) => z.im) ++ chi.map fun (z : ℂ) => z.im)
      ((w.reverse.map fun (x : ℝ) => -x) ++ w))

/-- optics.py:80-87 `get_sigma_from_chijj_realf`; `interp` stands for `scipy.interpolate.interp1d(..., kind='cubic')` -/
def sigmaFromChijj (interp : List (ℝ × ℝ) → ℝ → ℝ) (chi : List ℂ) (w : List ℝ) : List ℝ × List ℝ :=
  let wNew := 0 :: w
  (wNew.map (interp (sigmaNodes chi w)), wNew)

end DGA.Optics
