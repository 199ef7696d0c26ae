/-
  C87: filling from the real-frequency Green's function.
-/
import Verif.TwoPoint.RealModel
import Verif.TwoPoint.Props

noncomputable section

namespace DGA.Two

/-! ### specification -/

/-- spectral function of the momentum mean at frequency number `j` -/
def meanSpectral (w : List ℝ) (S : ℕ → ℕ → ℂ) (ek : List ℝ) (mu : ℝ) (j : ℕ) : ℝ :=
  (∑ k ∈ Finset.range ek.length, -(1 / ((w.getD j 0 : ℂ) + (mu : ℂ) - (ek.getD k 0 : ℂ) - S k j)).im / Real.pi) / ek.length

theorem trapz_scale (c : ℝ) (l : List (ℝ × ℝ)) : trapzPts (l.map fun (p : ℝ × ℝ) => (p.1, c * p.2)) = c * trapzPts l := by
  induction l with
  | nil => simp [trapzPts]
  | cons p l ih =>
    cases l with
    | nil => simp [trapzPts]
    | cons q l =>
      simp only [List.map_cons, trapzPts] at ih ⊢
      rw [ih]; ring

theorem trapz_nonneg (l : List (ℝ × ℝ)) (hs : (l.map Prod.fst).Pairwise (· ≤ ·)) (hp : ∀ p ∈ l, 0 ≤ p.2) : 0 ≤ trapzPts l := by
  induction l with
  | nil => simp [trapzPts]
  | cons p l ih =>
    cases l with
    | nil => simp [trapzPts]
    | cons q l =>
      simp only [trapzPts]
      have h1 : p.1 ≤ q.1 := by
        rw [List.map_cons, List.map_cons, List.pairwise_cons] at hs
        exact hs.1 q.1 (by simp)
      have h2 := hp p (by simp)
      have h3 := hp q (by simp)
      have h4 := ih (by rw [List.map_cons, List.pairwise_cons] at hs; exact hs.2) fun r hr => hp r (List.mem_cons_of_mem _ hr)
      have : 0 ≤ (q.1 - p.1) * ((p.2 + q.2) / 2) := mul_nonneg (by linarith) (by linarith)
      linarith

/-- the trapezoidal rule on the points of a list -/
theorem trapzPts_eq (l : List (ℝ × ℝ)) : trapzPts l = ∑ i ∈ Finset.range (l.length - 1),
    ((l.getD (i + 1) (0, 0)).1 - (l.getD i (0, 0)).1) * ((l.getD i (0, 0)).2 + (l.getD (i + 1) (0, 0)).2) / 2 := by
  induction l with
  | nil => simp [trapzPts]
  | cons p l ih =>
    cases l with
    | nil => simp [trapzPts]
    | cons q l =>
      simp only [trapzPts]
      rw [ih]
      simp only [List.length_cons, Nat.add_sub_cancel]
      rw [Finset.sum_range_succ' _ l.length]
      simp only [List.getD_cons_succ, List.getD_cons_zero]
      rw [add_comm]
      congr 1
      ring

theorem meanIm_getGwk (w : List ℝ) (swk : List (List ℂ)) (ek : List ℝ) (mu : ℝ) (S : ℕ → ℕ → ℂ)
    (hS : ∀ k < ek.length, rowAt swk k = (List.range w.length).map (S k)) (j : ℕ) (hj : j < w.length) :
    -1 / Real.pi * meanIm (getGwk w swk ek mu) j = meanSpectral w S ek mu j := by
  unfold meanIm getGwk meanSpectral
  rw [List.length_map, List.length_range, List.map_map]
  have e : ((List.range ek.length).map ((fun (r : List ℂ) => (r.getD j 0).im) ∘ fun (k : ℕ) =>
      List.zipWith (fun (x : ℝ) (s : ℂ) => 1 / ((x : ℂ) + (mu : ℂ) - (ek.getD k 0 : ℂ) - s)) w (rowAt swk k))) =
      (List.range ek.length).map fun (k : ℕ) => (1 / ((w.getD j 0 : ℂ) + (mu : ℂ) - (ek.getD k 0 : ℂ) - S k j)).im := by
    refine List.map_congr_left fun k hk => ?_
    simp only [Function.comp]
    rw [hS k (List.mem_range.mp hk)]
    congr 1
    rw [List.getD_eq_getElem?_getD, List.getElem?_zipWith, List.getElem?_map, List.getElem?_range hj, List.getElem?_eq_getElem hj]
    simp [List.getD_eq_getElem?_getD, List.getElem?_eq_getElem hj]
  rw [e]
  have e2 : ∀ (n : ℕ) (F : ℕ → ℝ), ((List.range n).map F).sum = ∑ l ∈ Finset.range n, F l := by
    intro n F
    induction n with
    | zero => simp
    | succ n ih => rw [List.range_succ, List.map_append, List.sum_append, ih, Finset.sum_range_succ]; simp
  rw [e2]
  simp only [neg_div]
  rw [Finset.sum_neg_distrib, ← Finset.sum_div]
  ring

/-- C87 (a): the filling is twice the trapezoidal integral of the mean spectral function over the grid frequencies that are not positive -/
theorem fillingRealF_value (w : List ℝ) (swk : List (List ℂ)) (ek : List ℝ) (mu : ℝ) (S : ℕ → ℕ → ℂ)
    (hS : ∀ k < ek.length, rowAt swk k = (List.range w.length).map (S k)) :
    open Classical in fillingRealF w (getGwk w swk ek mu) =
      2 * trapzPts (((List.range w.length).filter fun (j : ℕ) => decide (w.getD j 0 ≤ 0)).map fun (j : ℕ) => (w.getD j 0, meanSpectral w S ek mu j)) := by
  unfold fillingRealF
  rw [List.filter_map, ← trapz_scale, List.map_map, mul_comm]
  congr 2
  refine List.map_congr_left fun j hj => ?_
  have hj' : j < w.length := List.mem_range.mp (List.mem_filter.mp hj).1
  simp only [Function.comp]
  rw [meanIm_getGwk w swk ek mu S hS j hj']

theorem spectral_pos (x mu e : ℝ) (s : ℂ) (hs : s.im < 0) : 0 < -(1 / ((x : ℂ) + (mu : ℂ) - (e : ℂ) - s)).im / Real.pi := by
  have h := awk_pos x mu e 0 s (by simpa using hs)
  unfold awk gwk at h
  simpa using h

/-- C87 (b): it is never negative for a causal self-energy and an increasing frequency grid -/
theorem fillingRealF_nonneg (w : List ℝ) (hw : w.Pairwise (· ≤ ·)) (swk : List (List ℂ)) (ek : List ℝ) (mu : ℝ) (S : ℕ → ℕ → ℂ)
    (hS : ∀ k < ek.length, rowAt swk k = (List.range w.length).map (S k)) (hc : ∀ k j, (S k j).im < 0) :
    0 ≤ fillingRealF w (getGwk w swk ek mu) := by
  classical
  rw [fillingRealF_value w swk ek mu S hS]
  refine mul_nonneg (by norm_num) (trapz_nonneg _ ?_ ?_)
  · rw [List.map_map]
    have hsub : (((List.range w.length).filter fun (j : ℕ) => decide (w.getD j 0 ≤ 0)).map (Prod.fst ∘ fun (j : ℕ) => (w.getD j 0, meanSpectral w S ek mu j))).Sublist
        ((List.range w.length).map fun (j : ℕ) => w.getD j 0) := by
      have e : (Prod.fst ∘ fun (j : ℕ) => (w.getD j 0, meanSpectral w S ek mu j)) = fun (j : ℕ) => w.getD j 0 := rfl
      rw [e]
      exact (List.filter_sublist).map _
    have e : (List.range w.length).map (fun (j : ℕ) => w.getD j 0) = w := by
      apply List.ext_getElem (by simp)
      intro i h1 h2
      simp [List.getD_eq_getElem?_getD, List.getElem?_eq_getElem h2]
    rw [e] at hsub
    convert hw.sublist hsub
  · intro p hp
    obtain ⟨j, _, rfl⟩ := List.mem_map.mp hp
    exact div_nonneg (Finset.sum_nonneg fun k _ => (spectral_pos _ mu _ _ (hc k j)).le) (by positivity)

/-- C87 (c): it is not bounded by two: for a level between grid points the trapezoidal sum exceeds every bound when the broadening is small -/
theorem fillingRealF_unbounded (B : ℝ) : ∃ (w : List ℝ) (deltino : ℝ), 0 < deltino ∧ w.Pairwise (· < ·) ∧
    B < fillingRealF w (getGwk w [w.map fun _ => -(Complex.I * (deltino : ℂ))] [-1] 0) := by
  classical
  obtain ⟨d, hd, hB⟩ : ∃ d : ℝ, 0 < d ∧ B < 2 * (1 / (Real.pi * d)) := by
    have hp := Real.pi_pos
    refine ⟨1 / (Real.pi * (|B| + 1)), by positivity, ?_⟩
    have : 1 / (Real.pi * (1 / (Real.pi * (|B| + 1)))) = |B| + 1 := by field_simp
    rw [this]
    have := le_abs_self B
    have := abs_nonneg B
    linarith
  refine ⟨[-2, -1, 0], d, hd, by norm_num, ?_⟩
  rw [fillingRealF_value _ _ _ _ (fun _ _ => -(Complex.I * (d : ℂ)))]
  · have hr : ((List.range ([-2, -1, 0] : List ℝ).length).filter fun (j : ℕ) => decide (([-2, -1, 0] : List ℝ).getD j 0 ≤ 0)) = [0, 1, 2] := by
      have : (List.range ([-2, -1, 0] : List ℝ).length) = [0, 1, 2] := rfl
      rw [this]
      simp
    have hm : meanSpectral [-2, -1, 0] (fun _ _ => -(Complex.I * (d : ℂ))) [-1] 0 1 = 1 / (Real.pi * d) := by
      unfold meanSpectral
      simp only [List.length_cons, List.length_nil, zero_add, Finset.sum_range_one, Nat.cast_one, div_one, List.getD_cons_zero, List.getD_cons_succ]
      have e : ((-1 : ℝ) : ℂ) + ((0 : ℝ) : ℂ) - ((-1 : ℝ) : ℂ) - -(Complex.I * (d : ℂ)) = Complex.I * (d : ℂ) := by push_cast; ring
      rw [e, one_div, Complex.inv_im]
      have e2 : (Complex.I * (d : ℂ)).im = d := by simp
      have e3 : Complex.normSq (Complex.I * (d : ℂ)) = d * d := by simp
      rw [e2, e3]
      field_simp
    have hn : ∀ j, 0 ≤ meanSpectral [-2, -1, 0] (fun _ _ => -(Complex.I * (d : ℂ))) [-1] 0 j := by
      intro j
      exact div_nonneg (Finset.sum_nonneg fun k _ => (spectral_pos _ 0 _ _ (by simpa using hd)).le) (by positivity)
    have h0 := hn 0
    have h2 := hn 2
    refine lt_of_lt_of_le hB ?_
    have hl : trapzPts ([0, 1, 2].map fun (j : ℕ) => (([-2, -1, 0] : List ℝ).getD j 0, meanSpectral [-2, -1, 0] (fun _ _ => -(Complex.I * (d : ℂ))) [-1] 0 j)) =
        (meanSpectral [-2, -1, 0] (fun _ _ => -(Complex.I * (d : ℂ))) [-1] 0 0 + 1 / (Real.pi * d)) / 2 +
        (1 / (Real.pi * d) + meanSpectral [-2, -1, 0] (fun _ _ => -(Complex.I * (d : ℂ))) [-1] 0 2) / 2 := by
      rw [← hm]
      simp [trapzPts]
      norm_num
    refine mul_le_mul_of_nonneg_left ?_ (by norm_num)
    rw [hr, hl]
    linarith
  · intro k hk
    simp only [rowAt, List.length_cons, List.length_nil, if_true]
    rfl

/-- C87 (d): the objective handed to the minimiser is zero exactly at the chemical potentials with the requested filling; given `n` the result
    carries that `n` and the minimiser's chemical potential, given only `mu` the filling of that `mu`; giving neither is an error -/
theorem realGf_cases (minimize : (ℝ → ℝ) → ℝ → ℝ) (w : List ℝ) (swk : List (List ℂ)) (ek : List ℝ) (deltino : ℝ) (mu n : Option ℝ) :
    let s := swk.map fun (r : List ℂ) => r.map fun (z : ℂ) => z - Complex.I * (deltino : ℂ)
    (∀ m n', optFunc m n' s w ek = 0 ↔ fillingRealF w (getGwk w s ek m) = n') ∧
    (∀ n', n = some n' → realGf minimize w swk ek mu n deltino = some (minimize (fun m => optFunc m n' s w ek) 0, n')) ∧
    (∀ m, n = none → mu = some m → realGf minimize w swk ek mu n deltino = some (m, fillingRealF w (getGwk w s ek m))) ∧
    (realGf minimize w swk ek mu n deltino = none ↔ n = none ∧ mu = none) := by
  refine ⟨?_, ?_, ?_, ?_⟩
  · intro m n'
    unfold optFunc
    rw [sq_eq_zero_iff, sub_eq_zero]
  · rintro n' rfl; rfl
  · rintro m rfl rfl; rfl
  · unfold realGf
    cases n <;> cases mu <;> simp

example : ∃ (w : List ℝ) (swk : List (List ℂ)) (ek : List ℝ) (S : ℕ → ℕ → ℂ), w.Pairwise (· ≤ ·) ∧ 2 < w.length ∧ ek.length = 2 ∧
    (∀ k < ek.length, rowAt swk k = (List.range w.length).map (S k)) ∧ ∀ k j, (S k j).im < 0 :=
  ⟨[-1, 0, 1], [[-Complex.I, -Complex.I, -Complex.I]], [-1, 1], fun _ _ => -Complex.I, by norm_num, by norm_num, rfl,
    fun k hk => by simp only [rowAt, List.length_cons, List.length_nil, if_true]; rfl, fun _ _ => by simp⟩

/-- C87 (d): with a minimiser that never ends above its start, the chemical potential found is at least as close to the filling asked for as
    the start value given by the caller -/
theorem adjustMuRealF_not_worse (minimize : (ℝ → ℝ) → ℝ → ℝ) (hm : ∀ (f : ℝ → ℝ) (x : ℝ), f (minimize f x) ≤ f x) (mu0 n : ℝ) (swk : List (List ℂ)) (w ek : List ℝ) :
    |fillingRealF w (getGwk w swk ek (adjustMuRealF minimize mu0 n swk w ek)) - n| ≤ |fillingRealF w (getGwk w swk ek mu0) - n| :=
  sq_le_sq.1 (hm (fun mu => optFunc mu n swk w ek) mu0)

/-- such minimisers exist: the one that stays at its start -/
example : ∀ (f : ℝ → ℝ) (x : ℝ), f ((fun (_ : ℝ → ℝ) (x : ℝ) => x) f x) ≤ f x := fun _ _ => le_rfl

end DGA.Two
