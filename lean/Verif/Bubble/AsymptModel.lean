/-
  Model of the asymptotic corrections of the bubble: src/dga/bubble.py:165-177, 184-296.
-/
import Verif.Bubble.Model
import Mathlib.Analysis.Complex.Basic
import Mathlib.Analysis.Real.Pi.Bounds

namespace DGA.Bubble

open DGA.Mf DGA.Bz

noncomputable section

/-- entry `n` of `1 / (1j * mf.vn(beta, N))` (bubble.py:231, 269; matsubara_frequencies.py:211-212) -/
def invIv (beta : ℝ) (n : Int) : ℂ := 1 / (Complex.I * ((Real.pi / beta * (2 * n + 1) : ℝ) : ℂ))

structure Facs where
  fac1 : ℝ
  fac2 : ℝ
  fac3 : ℝ

/-- `np.mean` of an array over the k mesh -/
def meanList (l : List ℝ) : ℝ := l.sum / (l.length : ℝ)

/-- bubble.py:202-211 `get_asympt_prefactors` (with 111-132: moments of the dispersion) -/
def facsLoc (mu smom0 smom1 : ℝ) (ek : Arr3 ℝ) : Facs where
  fac1 := mu - smom0
  fac2 := (mu - smom0) ^ 2 + meanList ((flat3 ek).map fun e => e ^ 2) - smom1
  fac3 := (mu - smom0) ^ 2 + meanList (flat3 ek) ^ 2

/-- bubble.py:219-224 `get_ek_ekpq`, one q -/
def ekEkpq (ek : Arr3 ℝ) (q : Int × Int × Int) : ℝ :=
  meanList (List.zipWith (· * ·) (flat3 ek) (flat3 (shiftByInd ek (-q.1) (-q.2.1) (-q.2.2))))

/-- bubble.py:213-217 `get_asympt_prefactors_q`, one q -/
def facsQ (mu smom0 smom1 : ℝ) (ek : Arr3 ℝ) (q : Int × Int × Int) : Facs where
  fac1 := mu - smom0
  fac2 := (mu - smom0) ^ 2 + meanList ((flat3 ek).map fun e => e ^ 2) - smom1
  fac3 := (mu - smom0) ^ 2 + ekEkpq ek q

/-- body of the loop of `get_asympt_sum` / `get_asympt_sum_q` (bubble.py:235-246, 273-280) for one frequency: `v` holds `2*(nivSum+pad)` entries;
    slices of different length raise -/
def asymptSumW (beta : ℝ) (f : Facs) (nivSum pad : Nat) (iwn : Int) (nt : String) : Option ℂ :=
  let v : List ℂ := (vn (nivSum + pad)).map (invIv beta)
  let n : Int := ((v.length / 2 : Nat) : Int)
  (getFreqShift iwn nt).bind fun s =>
    let a := Py.slice v (n - nivSum + s.1) (n + nivSum + s.1)
    let b := Py.slice v (n - nivSum + s.2) (n + nivSum + s.2)
    if a.length = b.length then
      some (((List.zipWith (fun x y => x * y) a b).sum
        - (List.zipWith (fun x y => x ^ 2 * y + x * y ^ 2) a b).sum * (f.fac1 : ℂ)
        + (List.zipWith (fun x y => x ^ 3 * y + x * y ^ 3) a b).sum * (f.fac2 : ℂ)
        + (List.zipWith (fun x y => x ^ 2 * y ^ 2) a b).sum * (f.fac3 : ℂ)) * (-1 / (beta : ℂ)))
    else none

/-- bubble.py:226-246 `get_asympt_sum`: padding by `np.max(np.abs(wn))` -/
def asymptSum (beta : ℝ) (f : Facs) (nivSum : Nat) (w : List Int) (nt : String) : Option (List ℂ) :=
  w.mapM fun iwn => asymptSumW beta f nivSum (maxAbs w) iwn nt

/-- bubble.py:265-280 `get_asympt_sum_q`, one q: padding by the number of bosonic frequencies -/
def asymptSumQ (beta : ℝ) (f : Facs) (nivSum : Nat) (w : List Int) (nt : String) : Option (List ℂ) :=
  w.mapM fun iwn => asymptSumW beta f nivSum w.length iwn nt

/-- bubble.py:248-263 `get_exact_asymptotics` and 282-290 `get_exact_asymptotics_q`, one frequency -/
def exactW (beta : ℝ) (f : Facs) (iwn : Int) : ℂ :=
  let iw : ℂ := (iwn : ℂ) * 2 * (Real.pi : ℂ) / (beta : ℂ) * Complex.I
  if iwn ≠ 0 then -(beta : ℂ) / 2 * 1 / iw ^ 2 * ((f.fac2 : ℂ) - (f.fac3 : ℂ))
  else (beta : ℂ) / 4 - (beta : ℂ) ^ 3 / 24 * (f.fac2 : ℂ) - (beta : ℂ) ^ 3 / 48 * (f.fac3 : ℂ)

/-- bubble.py:184-187 `get_asymptotic_correction` -/
def asymptCorrection (beta : ℝ) (f : Facs) (niv : Nat) (w : List Int) (nt : String) : Option (List ℂ) :=
  (asymptSum beta f niv w nt).map fun s => List.zipWith (· - ·) (w.map (exactW beta f)) s

/-- bubble.py:189-192 `get_asymptotic_correction_q`, one q -/
def asymptCorrectionQ (beta : ℝ) (f : Facs) (niv : Nat) (w : List Int) (nt : String) : Option (List ℂ) :=
  (asymptSumQ beta f niv w nt).map fun s => List.zipWith (· - ·) (w.map (exactW beta f)) s

/-- bubble.py:165-177 `get_chi0` -/
def getChi0 (giw : List ℂ) (beta : ℝ) (f : Facs) (niv : Nat) (w : List Int) (nt : String) (full doAsympt : Bool) : Option (List ℂ) :=
  (vecGetChi0Sum giw (beta : ℂ) niv w nt full).bind fun core =>
    if doAsympt then (asymptCorrection beta f niv w nt).bind fun c =>
      if core.length = c.length then some (List.zipWith (· + ·) core c) else none
    else some core

end

end DGA.Bubble
