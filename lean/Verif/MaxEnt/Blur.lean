/-
  C94, quadrature of the preblur: the Gaussian is the normal density of standard deviation b, the points are symmetric around zero, and the
  weights integrate cubic polynomials exactly.
-/
import Verif.MaxEnt.KernelProps
import Mathlib.Probability.Distributions.Gaussian.Real

noncomputable section

namespace DGA.Mx

open Finset MeasureTheory

theorem simpsonW_sum (h : ℝ) (g : ℕ → ℝ) : ∀ N, 0 < N →
    ∑ j ∈ range (2 * N + 1), simpsonW N h j * g j = ∑ i ∈ range N, h / 3 * (g (2 * i) + 4 * g (2 * i + 1) + g (2 * i + 2)) := by
  intro N hN
  obtain ⟨M, rfl⟩ : ∃ M, N = M + 1 := ⟨N - 1, by omega⟩
  clear hN
  have key : ∀ M K, M < K → ∑ j ∈ range (2 * M + 2), simpsonW K h j * g j + h / 3 * g (2 * M + 2) =
      ∑ i ∈ range (M + 1), h / 3 * (g (2 * i) + 4 * g (2 * i + 1) + g (2 * i + 2)) := by
    intro M
    induction M with
    | zero =>
      intro K hK
      simp only [Nat.mul_zero, zero_add, Finset.sum_range_succ, Finset.sum_range_zero]
      have h0 : simpsonW K h 0 = h / 3 := by simp [simpsonW]
      have h1 : simpsonW K h 1 = 4 * h / 3 := by
        rw [simpsonW, if_neg (by omega), if_pos rfl]
      rw [h0, h1]; ring
    | succ M ih =>
      intro K hK
      have e := ih K (by omega)
      rw [Finset.sum_range_succ _ (M + 1), ← e]
      rw [show 2 * (M + 1) + 2 = (2 * M + 2) + 1 + 1 by ring, Finset.sum_range_succ, Finset.sum_range_succ]
      have h0 : simpsonW K h (2 * M + 2) = 2 * h / 3 := by
        rw [simpsonW, if_neg (by omega), if_neg (by omega)]
      have h1 : simpsonW K h (2 * M + 2 + 1) = 4 * h / 3 := by
        rw [simpsonW, if_neg (by omega), if_pos (by omega)]
      rw [h0, h1, show 2 * (M + 1) = 2 * M + 2 by ring]; ring
  have hk := key M (M + 1) (by omega)
  rw [← hk, show 2 * (M + 1) + 1 = (2 * M + 2) + 1 by ring, Finset.sum_range_succ]
  have h2 : simpsonW (M + 1) h (2 * M + 2) = h / 3 := by
    rw [simpsonW, if_pos (by omega)]
  rw [h2]

/-- the integral of a cubic polynomial from x0 on -/
def cubicInt (c : Fin 4 → ℝ) (x : ℝ) : ℝ := c 0 * x + c 1 * x ^ 2 / 2 + c 2 * x ^ 3 / 3 + c 3 * x ^ 4 / 4

theorem cubicInt_deriv (c : Fin 4 → ℝ) (x : ℝ) : HasDerivAt (cubicInt c) (c 0 + c 1 * x + c 2 * x ^ 2 + c 3 * x ^ 3) x := by
  unfold cubicInt
  have h := (((hasDerivAt_id' x).const_mul (c 0)).add (((hasDerivAt_pow 2 x).const_mul (c 1)).div_const 2)).add
    (((hasDerivAt_pow 3 x).const_mul (c 2)).div_const 3) |>.add (((hasDerivAt_pow 4 x).const_mul (c 3)).div_const 4)
  refine HasDerivAt.congr_deriv (f := _) h ?_
  norm_num
  ring

/-- C94 (k): the quadrature of the preblur: a normal density of standard deviation b, points from -5b to 5b symmetric around zero, weights
    exact for cubic polynomials -/
theorem blur_quadrature (b : ℝ) (hb : 0 < b) :
    (∀ x, gauss b x = ProbabilityTheory.gaussianPDFReal 0 (Real.toNNReal (b ^ 2)) x) ∧ ∫ x, gauss b x = 1 ∧
      blurX b 0 = -(5 * b) ∧ blurX b 200 = 5 * b ∧ (∀ j, j ≤ 200 → blurX b (200 - j) = -blurX b j) ∧
      (∀ j, blurX b (j + 1) - blurX b j = b / 20) ∧
      ∀ c : Fin 4 → ℝ, ∑ j ∈ range 201, simpsonW 100 (10 * b / 200) j * (c 0 + c 1 * blurX b j + c 2 * blurX b j ^ 2 + c 3 * blurX b j ^ 3) =
        cubicInt c (5 * b) - cubicInt c (-(5 * b)) := by
  have hg : ∀ x, gauss b x = ProbabilityTheory.gaussianPDFReal 0 (Real.toNNReal (b ^ 2)) x := by
    intro x
    unfold gauss ProbabilityTheory.gaussianPDFReal
    have e : Real.sqrt (2 * Real.pi * b ^ 2) = b * Real.sqrt (2 * Real.pi) := by
      rw [Real.sqrt_mul (by positivity), Real.sqrt_sq hb.le, mul_comm]
    have hc : ((Real.toNNReal (b ^ 2) : NNReal) : ℝ) = b ^ 2 := Real.coe_toNNReal _ (sq_nonneg b)
    have e2 : -0.5 * (x / b) ^ 2 = -(x - 0) ^ 2 / (2 * b ^ 2) := by field_simp; norm_num; ring
    rw [hc, e, one_div, e2]
  have hx0 : blurX b 0 = -(5 * b) := by rw [blurX]; push_cast; ring
  have hx2 : blurX b 200 = 5 * b := by rw [blurX]; push_cast; ring
  have hstep : ∀ j, blurX b (j + 1) - blurX b j = b / 20 := by intro j; rw [blurX, blurX]; push_cast; ring
  refine ⟨hg, ?_, hx0, hx2, ?_, hstep, ?_⟩
  · simp only [hg]
    refine ProbabilityTheory.integral_gaussianPDFReal_eq_one 0 ?_
    intro h0
    have : b ^ 2 ≤ 0 := Real.toNNReal_eq_zero.mp h0
    nlinarith
  · intro j hj
    rw [blurX, blurX, Nat.cast_sub hj]; push_cast; ring
  · intro c
    rw [simpsonW_sum _ (fun j => c 0 + c 1 * blurX b j + c 2 * blurX b j ^ 2 + c 3 * blurX b j ^ 3) 100 (by norm_num)]
    have hi : ∀ i, 10 * b / 200 / 3 * ((c 0 + c 1 * blurX b (2 * i) + c 2 * blurX b (2 * i) ^ 2 + c 3 * blurX b (2 * i) ^ 3)
        + 4 * (c 0 + c 1 * blurX b (2 * i + 1) + c 2 * blurX b (2 * i + 1) ^ 2 + c 3 * blurX b (2 * i + 1) ^ 3)
        + (c 0 + c 1 * blurX b (2 * i + 2) + c 2 * blurX b (2 * i + 2) ^ 2 + c 3 * blurX b (2 * i + 2) ^ 3)) =
        cubicInt c (blurX b (2 * (i + 1))) - cubicInt c (blurX b (2 * i)) := by
      intro i
      have h1 : blurX b (2 * i + 1) = blurX b (2 * i) + b / 20 := by linarith [hstep (2 * i)]
      have h2 : blurX b (2 * i + 2) = blurX b (2 * i) + b / 10 := by linarith [hstep (2 * i), hstep (2 * i + 1)]
      rw [show 2 * (i + 1) = 2 * i + 2 by ring, h1, h2]
      simp only [cubicInt]; ring
    rw [Finset.sum_congr rfl fun i _ => hi i, Finset.sum_range_sub (fun i => cubicInt c (blurX b (2 * i)))]
    rw [Nat.mul_zero, show 2 * 100 = 200 from rfl, hx0, hx2]

end DGA.Mx
