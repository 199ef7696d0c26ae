/-
  C122: real-frequency post-processing.
  src/postproc/real_frequency_two_point.py:4-24 (used in src/postproc/plot_giwk_cont.py:37,64 and plot_siwk_cont.py:74) and the derived
  quantities of `RealFrequencyGF` (src/dga/two_point.py:491-517).  Momentum axes flattened as in TwoPoint/RealModel.lean.
-/
import Verif.TwoPoint.RealProps

noncomputable section

namespace DGA.Two

/-! ### model -/

open Classical in
/-- postproc/real_frequency_two_point.py:4-7 `get_dqp_bw`: ones, set to zero where the data are negative -/
def getDqpBw (data : List ℝ) : List ℝ := data.map fun (x : ℝ) => if x < 0 then 0 else 1

open Classical in
/-- postproc/real_frequency_two_point.py:12-14 `get_filling`: the factor `-1/pi` is applied to every entry before the mean, no spin factor -/
def postFilling (w : List ℝ) (gwk : List (List ℂ)) : ℝ :=
  trapzPts (((List.range w.length).map fun (j : ℕ) => (w.getD j 0, (gwk.map fun (r : List ℂ) => -1 / Real.pi * (r.getD j 0).im).sum / (gwk.length : ℝ))).filter
    fun (p : ℝ × ℝ) => decide (p.1 ≤ 0))

/-- postproc/real_frequency_two_point.py:16-20 `opt_func` (`get_giwk`, lines 9-10, is the formula of `get_gwk`) -/
def postOptFunc (mu n : ℝ) (swk : List (List ℂ)) (w ek : List ℝ) : ℝ := (postFilling w (getGwk w swk ek mu) * 2 - n) ^ 2

/-- postproc/real_frequency_two_point.py:22-24 `adjust_mu`; `minimize` stands for `scipy.optimize.minimize(...).x` -/
def postAdjustMu (minimize : (ℝ → ℝ) → ℝ → ℝ) (mu0 n : ℝ) (swk : List (List ℂ)) (w ek : List ℝ) : ℝ :=
  minimize (fun mu => postOptFunc mu n swk w ek) mu0

/-- two_point.py:491-492 `awk` -/
def awkRows (gwk : List (List ℂ)) : List (List ℝ) := gwk.map fun (r : List ℂ) => r.map fun (z : ℂ) => -z.im / Real.pi

/-- two_point.py:494-500 `gw`, `aw` at frequency number `j` -/
def awAt (gwk : List (List ℂ)) (j : ℕ) : ℝ := -((gwk.map fun (r : List ℂ) => r.getD j 0).sum / (gwk.length : ℂ)).im / Real.pi

open Classical in
/-- `np.argmin(np.abs(w - x))` (two_point.py:507, 511): the first position of the smallest distance; `best` is the best position so far -/
def argminFrom (w : List ℝ) (x : ℝ) : ℕ → ℕ → List ℝ → ℕ
  | best, _, [] => best
  | best, i, y :: l => if |y - x| < |w.getD best 0 - x| then argminFrom w x i (i + 1) l else argminFrom w x best (i + 1) l

/-- `np.argmin(np.abs(w - x))` -/
def nearest (w : List ℝ) (x : ℝ) : ℕ := argminFrom w x 0 0 w

/-- two_point.py:505-508 `fs` without the shift: the spectral function at the grid frequency closest to zero -/
def fermiSurface (w : List ℝ) (gwk : List (List ℂ)) : List ℝ := (awkRows gwk).map fun (r : List ℝ) => r.getD (nearest w 0) 0

/-- two_point.py:515-517 `get_gwk_tb`: same grid, dispersion and filling; the self-energy is zero minus `1j*deltino`, the constructor's own
    `deltino` keeps its default `0.0` -/
def getGwkTb (minimize : (ℝ → ℝ) → ℝ → ℝ) (w : List ℝ) (swk : List (List ℂ)) (ek : List ℝ) (n deltino : ℝ) : Option (ℝ × ℝ) :=
  realGf minimize w (swk.map fun (r : List ℂ) => r.map fun (_ : ℂ) => 0 - Complex.I * (deltino : ℂ)) ek none (some n) 0

/-! ### filling -/

/-- C122 (a): twice the post-processing filling is the filling of the main code, on every grid and for every Green's function -/
theorem postFilling_eq (w : List ℝ) (gwk : List (List ℂ)) : postFilling w gwk * 2 = fillingRealF w gwk := by
  classical
  have e : ((List.range w.length).map fun (j : ℕ) => (w.getD j 0, (gwk.map fun (r : List ℂ) => -1 / Real.pi * (r.getD j 0).im).sum / (gwk.length : ℝ))) =
      ((List.range w.length).map fun (j : ℕ) => (w.getD j 0, meanIm gwk j)).map fun (p : ℝ × ℝ) => (p.1, -1 / Real.pi * p.2) := by
    rw [List.map_map]
    refine List.map_congr_left fun j _ => ?_
    simp only [Function.comp, meanIm, Prod.mk.injEq, true_and]
    rw [List.sum_map_mul_left, mul_div_assoc]
  unfold postFilling fillingRealF
  rw [e, List.filter_map, trapz_scale]
  rfl

/-- C122 (a): both objectives agree for every chemical potential and target, so with the same minimiser and start value the two `adjust_mu`
    return the same chemical potential -/
theorem postAdjustMu_eq (minimize : (ℝ → ℝ) → ℝ → ℝ) (mu0 n : ℝ) (swk : List (List ℂ)) (w ek : List ℝ) :
    (∀ mu, postOptFunc mu n swk w ek = optFunc mu n swk w ek) ∧
    postAdjustMu minimize mu0 n swk w ek = adjustMuRealF minimize mu0 n swk w ek := by
  have h : ∀ mu, postOptFunc mu n swk w ek = optFunc mu n swk w ek := fun mu => by
    unfold postOptFunc optFunc; rw [postFilling_eq]
  exact ⟨h, by unfold postAdjustMu adjustMuRealF; simp only [h]⟩

/-- C122 (b): without an imaginary part (plot_giwk_cont.py:37 passes `0*swk`) the filling is zero for every chemical potential, so the objective
    is the constant `n^2`: the fit carries no information about the chemical potential.  A pole on the grid is excluded, there Python's
    division gives `nan`. -/
theorem undamped_objective_constant (mu n : ℝ) (swk : List (List ℂ)) (w ek : List ℝ) (hz : ∀ r ∈ swk, ∀ z ∈ r, (z : ℂ).im = 0)
    (_hp : ∀ k < ek.length, ∀ j < w.length, ((w.getD j 0 : ℝ) : ℂ) + mu - (ek.getD k 0 : ℝ) - (rowAt swk k).getD j 0 ≠ 0) :
    postFilling w (getGwk w swk ek mu) = 0 ∧ postOptFunc mu n swk w ek = n ^ 2 := by
  classical
  have hrow : ∀ k, ∀ z ∈ rowAt swk k, (z : ℂ).im = 0 := by
    intro k z hzm
    have hmem : ∀ m, (swk.getD m []) ∈ swk ∨ swk.getD m [] = [] := by
      intro m
      by_cases hm : m < swk.length
      · left; rw [List.getD_eq_getElem?_getD, List.getElem?_eq_getElem hm]; exact List.getElem_mem hm
      · right; rw [List.getD_eq_getElem?_getD, List.getElem?_eq_none (not_lt.1 hm)]; rfl
    unfold rowAt at hzm
    split at hzm
    · rcases hmem 0 with h | h
      · exact hz _ h z hzm
      · rw [h] at hzm; simp at hzm
    · rcases hmem k with h | h
      · exact hz _ h z hzm
      · rw [h] at hzm; simp at hzm
  have him : ∀ r ∈ getGwk w swk ek mu, ∀ j, (r.getD j 0 : ℂ).im = 0 := by
    intro r hr j
    obtain ⟨k, _, rfl⟩ := List.mem_map.mp hr
    by_cases hj : j < (List.zipWith (fun (x : ℝ) (s : ℂ) => 1 / ((x : ℂ) + (mu : ℂ) - (ek.getD k 0 : ℂ) - s)) w (rowAt swk k)).length
    · rw [List.getD_eq_getElem?_getD, List.getElem?_eq_getElem hj, Option.getD_some, List.getElem_zipWith]
      have h1 : ((rowAt swk k)[j]'(by simp at hj; omega)).im = 0 := hrow k _ (List.getElem_mem _)
      rw [one_div, Complex.inv_im]
      simp [h1]
    · rw [List.getD_eq_getElem?_getD, List.getElem?_eq_none (not_lt.1 hj)]; simp
  have hf : fillingRealF w (getGwk w swk ek mu) = 0 := by
    have hm : ∀ j, meanIm (getGwk w swk ek mu) j = 0 := by
      intro j
      unfold meanIm
      rw [List.sum_eq_zero, zero_div]
      intro x hx
      obtain ⟨r, hr, rfl⟩ := List.mem_map.mp hx
      exact him r hr j
    have e : ((List.range w.length).map fun (j : ℕ) => (w.getD j 0, meanIm (getGwk w swk ek mu) j)) =
        ((List.range w.length).map fun (j : ℕ) => (w.getD j 0, (0 : ℝ))).map fun (p : ℝ × ℝ) => (p.1, 0 * p.2) := by
      rw [List.map_map]
      exact List.map_congr_left fun j _ => by simp [hm]
    unfold fillingRealF
    rw [e, List.filter_map, trapz_scale]
    ring
  have hp0 : postFilling w (getGwk w swk ek mu) = 0 := by
    have := postFilling_eq w (getGwk w swk ek mu)
    rw [hf] at this
    linarith
  exact ⟨hp0, by unfold postOptFunc; rw [hp0]; ring⟩

/-! ### quasiparticle indicator -/

/-- C122 (c): the indicator built from `Re(1/G)` is one where `w + mu - ek - Re Sigma` is not negative and zero elsewhere: it switches exactly at
    the quasiparticle dispersion, whatever the damping (`G` not a pole) -/
theorem indicator_switches (w mu e : ℝ) (s : ℂ) :
    getDqpBw [(1 / (1 / ((w : ℂ) + (mu : ℂ) - (e : ℂ) - s))).re] = [if e - mu + s.re ≤ w then 1 else 0] := by
  unfold getDqpBw
  have h : (1 / (1 / ((w : ℂ) + (mu : ℂ) - (e : ℂ) - s))).re = w + mu - e - s.re := by rw [one_div_one_div]; simp
  simp only [List.map_cons, List.map_nil, h]
  congr 1
  by_cases hc : w + mu - e - s.re < 0
  · rw [if_pos hc, if_neg (by linarith)]
  · rw [if_neg hc, if_pos (by linarith)]

/-- entry by entry, any shape: only zeros and ones, one exactly where the data are not negative; applying it twice gives one everywhere -/
theorem indicator_value (data : List ℝ) : (getDqpBw data).length = data.length ∧
    (∀ (j : ℕ) (x : ℝ), data[j]? = some x → (getDqpBw data)[j]? = some (if 0 ≤ x then 1 else 0)) ∧
    ∀ y ∈ getDqpBw (getDqpBw data), y = 1 := by
  refine ⟨by simp [getDqpBw], ?_, ?_⟩
  · intro j x hx
    unfold getDqpBw
    rw [List.getElem?_map, hx]
    by_cases h : x < 0
    · simp [h, not_le.2 h]
    · simp [h, not_lt.1 h]
  · intro y hy
    unfold getDqpBw at hy
    rw [List.map_map] at hy
    obtain ⟨x, _, rfl⟩ := List.mem_map.mp hy
    simp only [Function.comp]
    by_cases h : x < 0 <;> simp [h]

/-! ### spectral function and Fermi surface -/

theorem argminFrom_spec (w : List ℝ) (x : ℝ) (l : List ℝ) : ∀ (best i : ℕ), w.drop i = l → (best < i ∨ best = 0 ∧ i = 0) → i ≤ w.length →
    (∀ j < i, |w.getD best 0 - x| ≤ |w.getD j 0 - x|) → (∀ j < best, |w.getD best 0 - x| < |w.getD j 0 - x|) → w ≠ [] →
    argminFrom w x best i l < w.length ∧ (∀ j < w.length, |w.getD (argminFrom w x best i l) 0 - x| ≤ |w.getD j 0 - x|) ∧
      ∀ j < argminFrom w x best i l, |w.getD (argminFrom w x best i l) 0 - x| < |w.getD j 0 - x| := by
  induction l with
  | nil =>
    intro best i hl hb hi hle hlt hw
    have hlen : w.length = i := le_antisymm (List.drop_eq_nil_iff.1 hl) hi
    have hpos : 0 < w.length := List.length_pos_of_ne_nil hw
    refine ⟨by unfold argminFrom; omega, ?_, ?_⟩
    · rw [hlen]; exact hle
    · exact hlt
  | cons y l ih =>
    intro best i hl hb hi hle hlt hw
    have hi' : i < w.length := by
      by_contra hc
      rw [List.drop_eq_nil_of_le (not_lt.1 hc)] at hl
      simp at hl
    have hy : w.getD i 0 = y := by
      have := congrArg (fun l => l.getD 0 (0 : ℝ)) hl
      simpa [List.getD_eq_getElem?_getD, List.getElem?_drop] using this
    have hd : w.drop (i + 1) = l := by
      rw [← List.drop_drop, hl]; simp
    unfold argminFrom
    split
    · rename_i hc
      rw [← hy] at hc
      refine ih i (i + 1) hd (Or.inl (Nat.lt_succ_self i)) hi' ?_ ?_ hw
      · intro j hj
        rcases Nat.lt_succ_iff_lt_or_eq.1 hj with h | rfl
        · exact hc.le.trans (hle j h)
        · exact le_rfl
      · intro j hj
        exact hc.trans_le (hle j hj)
    · rename_i hc
      rw [← hy] at hc
      refine ih best (i + 1) hd (by omega) hi' ?_ hlt hw
      intro j hj
      rcases Nat.lt_succ_iff_lt_or_eq.1 hj with h | rfl
      · exact hle j h
      · exact not_lt.1 hc

/-- `np.argmin(np.abs(w - x))` is a valid position, no grid frequency is closer to `x`, and it is the first such position -/
theorem nearest_spec (w : List ℝ) (hw : w ≠ []) (x : ℝ) : nearest w x < w.length ∧
    (∀ j < w.length, |w.getD (nearest w x) 0 - x| ≤ |w.getD j 0 - x|) ∧
    ∀ j < nearest w x, |w.getD (nearest w x) 0 - x| < |w.getD j 0 - x| :=
  argminFrom_spec w x w 0 0 rfl (Or.inr ⟨rfl, rfl⟩) (Nat.zero_le _) (fun j hj => absurd hj (Nat.not_lt_zero j)) (fun j hj => absurd hj (Nat.not_lt_zero j)) hw

/-- C122 (d): the Fermi-surface map holds for every momentum the spectral function at the grid frequency closest to zero, and for a causal
    self-energy it is positive everywhere -/
theorem fermiSurface_value (w : List ℝ) (hw : w ≠ []) (swk : List (List ℂ)) (ek : List ℝ) (mu : ℝ) (S : ℕ → ℕ → ℂ)
    (hS : ∀ k < ek.length, rowAt swk k = (List.range w.length).map (S k)) :
    ∃ j0 < w.length, (∀ j < w.length, |w.getD j0 0| ≤ |w.getD j 0|) ∧ (fermiSurface w (getGwk w swk ek mu)).length = ek.length ∧
      ∀ k < ek.length, (fermiSurface w (getGwk w swk ek mu))[k]? =
          some (-(1 / ((w.getD j0 0 : ℂ) + (mu : ℂ) - (ek.getD k 0 : ℂ) - S k j0)).im / Real.pi) ∧
        ((S k j0).im < 0 → ∀ a, (fermiSurface w (getGwk w swk ek mu))[k]? = some a → 0 < a) := by
  obtain ⟨h1, h2, _⟩ := nearest_spec w hw 0
  refine ⟨nearest w 0, h1, fun j hj => by simpa using h2 j hj, by simp [fermiSurface, awkRows, getGwk], ?_⟩
  intro k hk
  have hv : (fermiSurface w (getGwk w swk ek mu))[k]? =
      some (-(1 / ((w.getD (nearest w 0) 0 : ℂ) + (mu : ℂ) - (ek.getD k 0 : ℂ) - S k (nearest w 0))).im / Real.pi) := by
    unfold fermiSurface awkRows getGwk
    rw [List.getElem?_map, List.getElem?_map, List.getElem?_map, List.getElem?_range hk]
    simp only [Option.map_some, Option.some.injEq]
    rw [hS k hk, List.getD_eq_getElem?_getD, List.getElem?_map, List.getElem?_zipWith, List.getElem?_map, List.getElem?_range h1,
      List.getElem?_eq_getElem h1]
    simp [List.getD_eq_getElem?_getD, List.getElem?_eq_getElem h1]
  refine ⟨hv, fun hs a ha => ?_⟩
  rw [hv, Option.some.injEq] at ha
  rw [← ha]
  exact spectral_pos _ mu _ _ hs

/-- C122 (d): the spectral function of the momentum mean is the momentum mean of the spectral function -/
theorem awAt_mean (gwk : List (List ℂ)) (j : ℕ) : awAt gwk j = (gwk.map fun (r : List ℂ) => -(r.getD j 0).im / Real.pi).sum / (gwk.length : ℝ) := by
  unfold awAt
  have h : ∀ l : List ℂ, (l.sum).im = (l.map Complex.im).sum := by
    intro l
    induction l with
    | nil => simp
    | cons a l ih => simp [ih]
  have e : ((gwk.map fun (r : List ℂ) => r.getD j 0).sum / (gwk.length : ℂ)).im = ((gwk.map fun (r : List ℂ) => r.getD j 0).sum).im / (gwk.length : ℝ) := by
    rw [← Complex.ofReal_natCast, Complex.div_ofReal_im]
  rw [e, h, List.map_map]
  have e2 : (gwk.map fun (r : List ℂ) => -(r.getD j 0).im / Real.pi) = gwk.map fun (r : List ℂ) => (-1 / Real.pi) * (Complex.im ∘ fun (r : List ℂ) => r.getD j 0) r :=
    List.map_congr_left fun r _ => by simp only [Function.comp]; ring
  rw [e2, List.sum_map_mul_left]
  ring

/-- C122 (e): the tight-binding companion keeps the filling; its chemical potential is the minimiser for the Green's function with broadening
    `deltino` counted once, and its spectral function at every momentum is a Lorentzian of that width centred at `ek - mu` -/
theorem getGwkTb_value (minimize : (ℝ → ℝ) → ℝ → ℝ) (w : List ℝ) (swk : List (List ℂ)) (ek : List ℝ) (n deltino : ℝ) :
    getGwkTb minimize w swk ek n deltino = some (adjustMuRealF minimize 0 n (swk.map fun r => r.map fun _ => -(Complex.I * (deltino : ℂ))) w ek, n) ∧
    ∀ x mu e : ℝ, -(1 / ((x : ℂ) + (mu : ℂ) - (e : ℂ) - -(Complex.I * (deltino : ℂ)))).im / Real.pi = deltino / Real.pi / ((x - (e - mu)) ^ 2 + deltino ^ 2) := by
  constructor
  · unfold getGwkTb realGf
    simp only [List.map_map, Function.comp_def, Complex.ofReal_zero, mul_zero, sub_zero, zero_sub]
  · intro x mu e
    rw [one_div, Complex.inv_im]
    simp only [Complex.normSq_apply]
    simp only [Complex.sub_re, Complex.add_re, Complex.ofReal_re, Complex.mul_re, Complex.I_re, Complex.I_im, Complex.ofReal_im,
      Complex.sub_im, Complex.add_im, Complex.mul_im, zero_mul, one_mul, sub_zero, add_zero, zero_add, sub_neg_eq_add, mul_zero]
    have : (x + mu - e) * (x + mu - e) + deltino * deltino = (x - (e - mu)) ^ 2 + deltino ^ 2 := by ring
    rw [this]
    ring

/-! ### non-vacuity -/

/-- a two-point dispersion without damping and without poles on the grid -/
example : ∃ (swk : List (List ℂ)) (w ek : List ℝ) (mu : ℝ), 1 < w.length ∧ (∀ r ∈ swk, ∀ z ∈ r, (z : ℂ).im = 0) ∧
    ∀ k < ek.length, ∀ j < w.length, ((w.getD j 0 : ℝ) : ℂ) + mu - (ek.getD k 0 : ℝ) - (rowAt swk k).getD j 0 ≠ 0 := by
  refine ⟨[[0, 0]], [-1, 0], [3], 1, by norm_num, by simp, ?_⟩
  intro k hk j hj
  have hk0 : k = 0 := by simpa using hk
  subst hk0
  have : j = 0 ∨ j = 1 := by simp at hj; omega
  rcases this with rfl | rfl <;> norm_num [rowAt]

example : nearest [-1, -0.25, 0.25, 1] 0 = 1 := by
  unfold nearest argminFrom
  norm_num [argminFrom, abs_lt, abs_of_neg, abs_of_pos]

end DGA.Two
