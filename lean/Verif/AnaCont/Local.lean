import Verif.AnaCont.Props4
import Mathlib.Analysis.SpecialFunctions.Gaussian.GaussianIntegral
import Mathlib.Analysis.SpecialFunctions.ImproperIntegrals
import Mathlib.MeasureTheory.Measure.Haar.NormedSpace

/-
  C112: the continuation of local quantities (analytic_continuation.py:389-460) and the model spectra (analytic_continuation.py:21-31).

  `solve` stands for the maximum-entropy optimisation: it gets the frequencies, the mesh, the data, the default model and the errors and returns
  the spectrum and χ², or `none` if it raises.  Plots and files are not modelled.
-/

noncomputable section

namespace DGA.Ana

open DGA.Bubble DGA.Mf

/-- the optimisation with errors as argument and χ² as result -/
abbrev SolverE := List ℝ → List ℝ → List ℂ → List ℝ → List ℝ → Option (List ℝ × ℝ)

/-- analytic_continuation.py:406-428 `max_ent` with `return_chi2=True`.  The frequencies are `mf.vn(beta, n_fit, pos=True)` with a float `beta`;
    the data are cut out without looking at how many there are. -/
def maxEnt (solve : SolverE) (mat : List ℂ) (vReal : List ℝ) (beta : ℝ) (nFit : Nat) (err : ℝ) : Option (List ℂ × ℝ) :=
  let niv := mat.length / 2
  let matPlus := Py.slice mat niv (niv + nFit)
  let iv := (Mf.vn nFit 0 true).map fun (n : Int) => Real.pi / beta * (2 * (n : ℝ) + 1)
  let model := vReal.map fun _ => 1 / trapzOne vReal
  let errs := (List.replicate nFit (1 : ℝ)).map (· * err)
  (solve iv vReal matPlus model errs).bind fun s => (kkt s.1 vReal "fermionic").map fun g => (g, s.2)

/-- analytic_continuation.py:389-392 `check_filling`: boolean indexing `v_real < 0`, then `np.trapz` times two -/
def checkFilling (v : List ℝ) (g : List ℂ) : ℝ :=
  open Classical in
  let sel := (v.zip g).filter fun p => decide (p.1 < 0)
  (trapz (sel.map fun p => ((-1 / Real.pi * p.2.im : ℝ) : ℂ)) (sel.map (·.1))).re * 2

/-- analytic_continuation.py:445-446 the function fitted to `log χ²` over `log bw` -/
def bwFit (a b c d x : ℝ) : ℝ := a + b / (1 + Real.exp (-d * (x - c)))

/-- analytic_continuation.py:431-460 `max_ent_loc_bw_range`: one continuation per blur width in order, each with `max_ent_loc`
    (analytic_continuation.py:395-403); an exception there leaves the function (`none`).  `fit` stands for `curve_fit` (`none`: it raised, the bare
    `except` then returns 0).  `solve` depends on the blur width. -/
def bwRange (solve : ℝ → SolverE) (fit : List ℝ → List ℝ → Option (ℝ × ℝ × ℝ × ℝ)) (mat : List ℂ) (vReal : List ℝ) (beta : ℝ) (nFit : Nat)
    (err : ℝ) (bws : List ℝ) (pos : ℝ) : Option ℝ :=
  (bws.mapM fun bw => (maxEnt (solve bw) mat vReal beta nFit err).map (·.2)).map fun chi2 =>
    match fit (bws.map Real.log) (chi2.map Real.log) with
    | some (_, _, c, d) => Real.exp (c - pos / d)
    | none => 0

/-- analytic_continuation.py:21-25 `gauss_peak` at one frequency -/
def gaussPeak (maxpos width weight w : ℝ) : ℝ :=
  weight / (Real.sqrt (2 * Real.pi) * width) * Real.exp (-(1 / 2) * (w - maxpos) ^ 2 / width ^ 2)

/-- analytic_continuation.py:28-31 `lorentzian_peak` at one frequency -/
def lorentzianPeak (maxpos width w : ℝ) : ℝ := 1 / Real.pi * width / ((w - maxpos) ^ 2 + width ^ 2)

/-! ### properties -/

theorem slice_short {α : Type} (F : Int → α) (N n : Nat) :
    Py.slice (samplesF F N) (N : Int) ((N : Int) + (n : Int)) = (List.range (min n N)).map fun (k : Nat) => F k := by
  have h := cutMatrix_fermion (α := α) ⟨"freq_fermionic", 1, n, [], 0, 0⟩ rfl F N
  have hl : (samplesF F N).length / 2 = N := by rw [samplesF_length]; omega
  by_cases hn : n ≤ N
  · simp only [cutMatrix, hl, if_true, Option.some.injEq, Prod.mk.injEq, if_neg (show ¬ n > N by omega)] at h
    exact h.1
  · simp only [cutMatrix, hl, if_true, Option.some.injEq, Prod.mk.injEq, if_pos (show n > N by omega)] at h
    rw [← h.1]
    apply List.ext_getElem?
    intro k
    rw [Py.slice_get?, Py.slice_get?]
    have e1 : (samplesF F N).length = 2 * N := samplesF_length F N
    have : Py.clip (samplesF F N).length ((N : Int) + (n : Int)) = Py.clip (samplesF F N).length ((N : Int) + (N : Int)) := by
      rw [e1]; unfold Py.clip; split <;> split <;> omega
    rw [this]

/-- **C112 (a).** `max_ent` on a full array of values `F(-N), …, F(N-1)`: the optimisation gets the frequencies `(2k+1)π/β` for `k < n_fit`, and
    the data `F(0), F(1), …` at these frequencies as far as there are any; on a mesh from `wmin` to `wmax` the default model is the constant
    `1/(wmax - wmin)` with weight one, all errors are `err`; the returned function has the optimal spectrum as `-Im/π`. -/
theorem maxEnt_value (solve : SolverE) (F : Int → ℂ) (N : Nat) (wmin wmax : ℝ) (hw : wmin < wmax) (n : Nat) (w : List ℝ) (hm : IsMesh wmin wmax n w)
    (beta : ℝ) (nFit : Nat) (err : ℝ) :
    maxEnt solve (samplesF F N) w beta nFit err =
      (solve ((List.range nFit).map fun (k : Nat) => Real.pi / beta * (2 * (k : ℝ) + 1)) w ((List.range (min nFit N)).map fun (k : Nat) => F k)
        (w.map fun _ => 1 / (wmax - wmin)) (List.replicate nFit err)).bind (fun s => (kkt s.1 w "fermionic").map fun g => (g, s.2)) ∧
    trapzR (w.map fun _ => 1 / (wmax - wmin)) w = 1 ∧
    (∀ g x, maxEnt solve (samplesF F N) w beta nFit err = some (g, x) → ∃ A, (∃ iv d, solve iv w d (w.map fun _ => 1 / (wmax - wmin))
      (List.replicate nFit err) = some (A, x)) ∧ (g.map fun z => -z.im / Real.pi) = A) := by
  have h1 : maxEnt solve (samplesF F N) w beta nFit err =
      (solve ((List.range nFit).map fun (k : Nat) => Real.pi / beta * (2 * (k : ℝ) + 1)) w ((List.range (min nFit N)).map fun (k : Nat) => F k)
        (w.map fun _ => 1 / (wmax - wmin)) (List.replicate nFit err)).bind (fun s => (kkt s.1 w "fermionic").map fun g => (g, s.2)) := by
    have hl : (samplesF F N).length / 2 = N := by rw [samplesF_length]; omega
    have him := (imFreq_value ⟨"freq_fermionic", beta, nFit, [], 0, 0⟩).1 rfl
    simp only [imFreq, if_true, Option.some.injEq] at him
    unfold maxEnt
    simp only [hl, slice_short, trapzOne_value wmin wmax w n hm, him, List.map_replicate, one_mul]
  refine ⟨h1, ?_, ?_⟩
  · rw [trapzR_smul, trapzR_one, trapzOne_value wmin wmax w n hm]
    have : wmax - wmin ≠ 0 := by linarith
    field_simp
  · intro g x h
    rw [h1, Option.bind_eq_some_iff] at h
    obtain ⟨s, hs, h⟩ := h
    rw [Option.map_eq_some_iff] at h
    obtain ⟨g', hg, h⟩ := h
    simp only [Prod.mk.injEq] at h
    obtain ⟨rfl, rfl⟩ := h
    exact ⟨s.1, ⟨_, _, hs⟩, (kkt_keeps_spectrum _ _ _ _ hg).2⟩

/-- C112 (a): with more frequencies requested than available the data are shorter than the frequencies (the class `MaxEnt` reduces `n_fit`
    instead, C67); an optimisation that refuses this makes `max_ent` raise. -/
theorem maxEnt_too_many (solve : SolverE) (F : Int → ℂ) (N : Nat) (w : List ℝ) (beta : ℝ) (nFit : Nat) (err : ℝ) (h : N < nFit)
    (hs : ∀ iv w d m e, iv.length ≠ d.length → solve iv w d m e = none) : maxEnt solve (samplesF F N) w beta nFit err = none := by
  have hl : (samplesF F N).length / 2 = N := by rw [samplesF_length]; omega
  unfold maxEnt
  simp only [hl, slice_short]
  rw [hs, Option.bind_none]
  simp only [List.length_map, List.length_range, Mf.vn, if_true, Py.arange]
  omega

/-- sum over neighbouring pairs of the trapezoidal rule, restricted to pairs on the negative half axis -/
theorem trapzR_filter_neg : ∀ (y x : List ℝ), x.Pairwise (· < ·) → y.length = x.length → (∀ a ∈ y, 0 ≤ a) →
    open Classical in
    let sel := (x.zip y).filter fun p => decide (p.1 < 0)
    trapzR (sel.map (·.2)) (sel.map (·.1)) ≤ trapzR y x
  | [], x, _, _, _ => by cases x <;> simp [trapzR]
  | [y0], x, _, hl, _ => by
    match x, hl with
    | [x0], _ => by_cases h : x0 < 0 <;> simp [trapzR, h]
  | y0 :: y1 :: ys, x, hx, hl, hy => by
    match x, hl with
    | x0 :: x1 :: xs, hl =>
      have hx' : (x1 :: xs).Pairwise (· < ·) := (List.pairwise_cons.1 hx).2
      have hlt : x0 < x1 := (List.pairwise_cons.1 hx).1 x1 (by simp)
      have ih := trapzR_filter_neg (y1 :: ys) (x1 :: xs) hx' (by simpa using hl) (fun a ha => hy a (by simp [List.mem_cons.1 ha]))
      have h0 := hy y0 (by simp)
      have h1 := hy y1 (by simp)
      simp only at ih ⊢
      by_cases hn1 : x1 < 0
      · have hn0 : x0 < 0 := lt_trans hlt hn1
        simp only [List.zip_cons_cons, List.filter_cons, hn0, hn1, decide_true, if_true, List.map_cons, trapzR] at ih ⊢
        linarith
      · have hn : (List.filter (fun p : ℝ × ℝ => decide (p.1 < 0)) ((x1 :: xs).zip (y1 :: ys))) = [] := by
          rw [List.filter_eq_nil_iff]
          rintro ⟨a, b⟩ hab
          have ha := (List.of_mem_zip hab).1
          have : x1 ≤ a := by
            rcases List.mem_cons.1 ha with rfl | ha
            · exact le_refl _
            · exact le_of_lt ((List.pairwise_cons.1 hx').1 a ha)
          simp only [decide_eq_true_eq, not_lt]
          linarith
        have hpos := trapzR_nonneg (y0 :: y1 :: ys) (x0 :: x1 :: xs) hx hy
        rw [List.zip_cons_cons, List.filter_cons, hn]
        by_cases hn0 : x0 < 0
        · simp only [hn0, decide_true, if_true, List.map_cons, List.map_nil, trapzR] at hpos ⊢
          exact hpos
        · simp only [hn0, decide_false, Bool.false_eq_true, if_false, List.map_nil, trapzR] at hpos ⊢
          exact hpos

/-- **C112 (b).** The filling computed from a continued local Green's function is twice the trapezoidal integral of the spectrum over the mesh
    points below zero; for a non-negative spectrum it lies between zero and twice the total weight. -/
theorem checkFilling_value (A w : List ℝ) (g : List ℂ) (hg : kkt A w "fermionic" = some g) :
    (open Classical in checkFilling w g = 2 * trapzR (((w.zip A).filter fun p => decide (p.1 < 0)).map (·.2))
      (((w.zip A).filter fun p => decide (p.1 < 0)).map (·.1))) ∧
    ((∀ a ∈ A, 0 ≤ a) → w.Pairwise (· < ·) → 0 ≤ checkFilling w g ∧ checkFilling w g ≤ 2 * trapzR A w) := by
  classical
  obtain ⟨hl, hA⟩ := kkt_keeps_spectrum A w "fermionic" g hg
  have hAl : A.length = w.length := by rw [← hA, List.length_map, hl]
  have hv : checkFilling w g = 2 * trapzR (((w.zip A).filter fun p => decide (p.1 < 0)).map (·.2))
      (((w.zip A).filter fun p => decide (p.1 < 0)).map (·.1)) := by
    unfold checkFilling
    simp only
    have e1 : (List.map (fun p : ℝ × ℂ => ((-1 / Real.pi * p.2.im : ℝ) : ℂ)) (List.filter (fun p => decide (p.1 < 0)) (w.zip g))) =
        (((w.zip A).filter fun p => decide (p.1 < 0)).map (·.2)).map fun z => ((z : ℝ) : ℂ) := by
      rw [← hA, List.zip_map_right, List.filter_map, List.map_map, List.map_map]
      congr 1
      funext p
      simp only [Function.comp, Prod.map, id]
      congr 1
      ring
    have e2 : (List.map (fun p : ℝ × ℂ => p.1) (List.filter (fun p => decide (p.1 < 0)) (w.zip g))) =
        ((w.zip A).filter fun p => decide (p.1 < 0)).map (·.1) := by
      rw [← hA, List.zip_map_right, List.filter_map, List.map_map]
      rfl
    rw [e1, e2, trapz_ofReal]
    simp [mul_comm]
  refine ⟨?_, ?_⟩
  · convert hv
  · intro hp hw
    rw [hv]
    constructor
    · have : 0 ≤ trapzR (((w.zip A).filter fun p => decide (p.1 < 0)).map (·.2)) (((w.zip A).filter fun p => decide (p.1 < 0)).map (·.1)) := by
        apply trapzR_nonneg
        · have : (((w.zip A).filter fun p => decide (p.1 < 0)).map (·.1)).Sublist w := by
            have h1 : ((w.zip A).filter fun p => decide (p.1 < 0)).Sublist (w.zip A) := List.filter_sublist
            have h2 := h1.map (fun p : ℝ × ℝ => p.1)
            rw [List.map_fst_zip (by omega)] at h2
            exact h2
          exact hw.sublist this
        · intro a ha
          obtain ⟨p, hp', rfl⟩ := List.mem_map.1 ha
          exact hp _ (List.of_mem_zip (List.mem_filter.1 hp').1).2
      linarith
    · have := trapzR_filter_neg A w hw hAl hp
      simp only at this
      convert (mul_le_mul_of_nonneg_left this (by norm_num : (0 : ℝ) ≤ 2))

/-- **C112 (c).** The optimal blur width: if the fit succeeds with `(a, b, c, d)`, `d ≠ 0`, the returned width `bw` is positive and the fitted curve
    has risen at `log bw` by the fraction `1/(1 + exp(pos))` of its total rise `b` — half of it for `pos = 0`, whatever `a, b, c, d` are; if the
    fit fails, zero is returned. -/
theorem bwRange_value (solve : ℝ → SolverE) (fit : List ℝ → List ℝ → Option (ℝ × ℝ × ℝ × ℝ)) (mat : List ℂ) (w : List ℝ) (beta : ℝ) (nFit : Nat)
    (err : ℝ) (bws : List ℝ) (pos r : ℝ) (h : bwRange solve fit mat w beta nFit err bws pos = some r) :
    ∃ chi2 : List ℝ, chi2.length = bws.length ∧
      (∀ (i : Nat) b, bws[i]? = some b → ∃ g x, maxEnt (solve b) mat w beta nFit err = some (g, x) ∧ chi2[i]? = some x) ∧
      (∀ a b c d, fit (bws.map Real.log) (chi2.map Real.log) = some (a, b, c, d) → d ≠ 0 →
        0 < r ∧ bwFit a b c d (Real.log r) = a + b / (1 + Real.exp pos)) ∧
      (fit (bws.map Real.log) (chi2.map Real.log) = none → r = 0) := by
  unfold bwRange at h
  rw [Option.map_eq_some_iff] at h
  obtain ⟨chi2, hc, hr⟩ := h
  have key : ∀ (bws chi2 : List ℝ), (bws.mapM fun bw => (maxEnt (solve bw) mat w beta nFit err).map (·.2)) = some chi2 →
      chi2.length = bws.length ∧
      (∀ (i : Nat) b, bws[i]? = some b → ∃ g x, maxEnt (solve b) mat w beta nFit err = some (g, x) ∧ chi2[i]? = some x) := by
    intro bws
    induction bws with
    | nil => intro chi2 h; simp at h; subst h; simp
    | cons b bws ih =>
      intro chi2 h
      rw [List.mapM_cons] at h
      simp only [Option.bind_eq_bind, Option.bind_eq_some_iff, Option.map_eq_some_iff, Option.pure_def, Option.some.injEq] at h
      obtain ⟨x, ⟨⟨g, x'⟩, hgx, rfl⟩, cs, h2, rfl⟩ := h
      obtain ⟨h3, h4⟩ := ih cs h2
      refine ⟨by simp [h3], ?_⟩
      intro i b' hb
      cases i with
      | zero => simp at hb; subst hb; exact ⟨g, x', hgx, by simp⟩
      | succ i => simpa using h4 i b' (by simpa using hb)
  obtain ⟨k1, k2⟩ := key bws chi2 hc
  refine ⟨chi2, k1, k2, ?_, ?_⟩
  · intro a b c d hf hd
    rw [hf] at hr
    simp only at hr
    subst hr
    refine ⟨Real.exp_pos _, ?_⟩
    unfold bwFit
    rw [Real.log_exp]
    congr 4
    field_simp
    ring
  · intro hf
    rw [hf] at hr
    exact hr.symm

/-- **C112 (d).** The model spectra: the Gaussian peak integrates to its weight, the Lorentzian peak to one, both are largest at `maxpos`. -/
theorem peaks_normalised (maxpos width weight : ℝ) (hw : 0 < width) :
    (∫ x : ℝ, gaussPeak maxpos width weight x) = weight ∧ (∫ x : ℝ, lorentzianPeak maxpos width x) = 1 ∧
    (∀ x, 0 ≤ weight → gaussPeak maxpos width weight x ≤ gaussPeak maxpos width weight maxpos) ∧
    (∀ x, lorentzianPeak maxpos width x ≤ lorentzianPeak maxpos width maxpos) := by
  refine ⟨?_, ?_, ?_, ?_⟩
  · have e : ∀ x, gaussPeak maxpos width weight x =
        weight / (Real.sqrt (2 * Real.pi) * width) * (fun y => Real.exp (-(1 / (2 * width ^ 2)) * y ^ 2)) (x - maxpos) := by
      intro x
      unfold gaussPeak
      simp only
      congr 2
      field_simp
    simp_rw [e]
    rw [MeasureTheory.integral_const_mul, MeasureTheory.integral_sub_right_eq_self (fun y => Real.exp (-(1 / (2 * width ^ 2)) * y ^ 2)),
      integral_gaussian]
    have : Real.pi / (1 / (2 * width ^ 2)) = (2 * Real.pi) * width ^ 2 := by field_simp
    rw [this, Real.sqrt_mul (by positivity : (0 : ℝ) ≤ 2 * Real.pi) (width ^ 2), Real.sqrt_sq hw.le]
    have : Real.sqrt (2 * Real.pi) ≠ 0 := by positivity
    field_simp
  · have e : ∀ x, lorentzianPeak maxpos width x = 1 / (Real.pi * width) * (fun y => (1 + y ^ 2)⁻¹) ((x - maxpos) / width) := by
      intro x
      unfold lorentzianPeak
      simp only
      have := Real.pi_ne_zero
      have : (x - maxpos) ^ 2 + width ^ 2 ≠ 0 := by positivity
      have h2 : 1 + ((x - maxpos) / width) ^ 2 ≠ 0 := by positivity
      field_simp
      ring
    simp_rw [e]
    rw [MeasureTheory.integral_const_mul,
      MeasureTheory.integral_sub_right_eq_self (fun y => (fun y => (1 + y ^ 2)⁻¹) (y / width)),
      MeasureTheory.Measure.integral_comp_div (fun y : ℝ => (1 + y ^ 2)⁻¹), integral_univ_inv_one_add_sq]
    have := Real.pi_ne_zero
    rw [abs_of_pos hw, smul_eq_mul]
    field_simp
  · intro x hwt
    unfold gaussPeak
    apply mul_le_mul_of_nonneg_left _ (by positivity)
    apply Real.exp_le_exp.2
    have : 0 ≤ (x - maxpos) ^ 2 / width ^ 2 := by positivity
    rw [sub_self]
    have e : -(1 / 2) * (x - maxpos) ^ 2 / width ^ 2 = -(1 / 2) * ((x - maxpos) ^ 2 / width ^ 2) := by ring
    rw [e]
    norm_num
    positivity
  · intro x
    unfold lorentzianPeak
    apply div_le_div_of_nonneg_left
    · positivity
    · positivity
    · rw [sub_self]; nlinarith [sq_nonneg (x - maxpos)]

/-- a half filled flat spectrum on three points: only the pair of points below zero counts, here none -/
example : checkFilling [-1, 0, 1] [⟨0, -Real.pi⟩, ⟨0, -Real.pi⟩, ⟨0, -Real.pi⟩] = 0 := by
  simp [checkFilling, trapz]

example : bwFit 1 2 3 4 3 = 2 := by norm_num [bwFit]

end DGA.Ana
