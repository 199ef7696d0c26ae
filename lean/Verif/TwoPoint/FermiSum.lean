/- The Matsubara sum of a free level (helper lemmas). -/
import Verif.Bubble.AsymptLemmas
import Mathlib.Analysis.SpecialFunctions.Trigonometric.Cotangent
import Mathlib.Analysis.SpecialFunctions.Trigonometric.DerivHyp
import Verif.TwoPoint.Model

namespace DGA.Two

open Filter Topology

theorem imag_not_int (z : ℝ) (hz : z ≠ 0) : ((z : ℂ) * Complex.I) ∈ Complex.integerComplement := by
  rintro ⟨n, hn⟩
  have := congrArg Complex.im hn
  simp at this
  exact hz this.symm

theorem cot_imag (y : ℝ) : Complex.cot ((y : ℂ) * Complex.I) = ((Real.cosh y / Real.sinh y : ℝ) : ℂ) / Complex.I := by
  rw [Complex.cot_eq_cos_div_sin, Complex.cos_mul_I, Complex.sin_mul_I, ← Complex.ofReal_cosh, ← Complex.ofReal_sinh]
  push_cast
  rw [div_div]

theorem hasSum_cot (z : ℝ) (hz : z ≠ 0) :
    HasSum (fun n : ℕ => 2 * z / (z ^ 2 + ((n : ℝ) + 1) ^ 2)) (Real.pi * (Real.cosh (Real.pi * z) / Real.sinh (Real.pi * z)) - 1 / z) := by
  have h := (Summable.hasSum_iff (summable_cotTerm (imag_not_int z hz))).mpr (cot_series_rep' (imag_not_int z hz)).symm
  have h1 := h.mul_left Complex.I
  rw [← Complex.hasSum_ofReal]
  have hI := Complex.I_ne_zero
  have hz' : (z : ℂ) ≠ 0 := by exact_mod_cast hz
  have e1 : (fun n : ℕ => ((2 * z / (z ^ 2 + ((n : ℝ) + 1) ^ 2) : ℝ) : ℂ)) = fun n : ℕ => Complex.I * cotTerm ((z : ℂ) * Complex.I) n := by
    funext n
    unfold cotTerm
    have hd : ((z : ℂ) ^ 2 + ((n : ℂ) + 1) ^ 2) ≠ 0 := by
      have : z ^ 2 + ((n : ℝ) + 1) ^ 2 ≠ 0 := by positivity
      exact_mod_cast this
    have hsq : ((z : ℂ) * Complex.I) ^ 2 = -(z : ℂ) ^ 2 := by rw [mul_pow, Complex.I_sq]; ring
    have ha : ((z : ℂ) * Complex.I - (n + 1)) * ((z : ℂ) * Complex.I + (n + 1)) = -((z : ℂ) ^ 2 + ((n : ℂ) + 1) ^ 2) := by
      rw [show ((z : ℂ) * Complex.I - (n + 1)) * ((z : ℂ) * Complex.I + (n + 1)) = ((z : ℂ) * Complex.I) ^ 2 - ((n : ℂ) + 1) ^ 2 by ring, hsq]; ring
    have hne := ha ▸ neg_ne_zero.mpr hd
    have h1 := left_ne_zero_of_mul hne
    have h2 := right_ne_zero_of_mul hne
    rw [div_add_div _ _ h1 h2, ha]
    push_cast
    rw [mul_div_assoc', div_eq_div_iff hd (neg_ne_zero.mpr hd)]
    have : Complex.I * Complex.I = -1 := Complex.I_mul_I
    linear_combination (-2 * (z : ℂ) * ((z : ℂ) ^ 2 + ((n : ℂ) + 1) ^ 2)) * this
  rw [e1]
  have e2 : ((Real.pi * (Real.cosh (Real.pi * z) / Real.sinh (Real.pi * z)) - 1 / z : ℝ) : ℂ)
      = Complex.I * (Real.pi * Complex.cot (Real.pi * ((z : ℂ) * Complex.I)) - 1 / ((z : ℂ) * Complex.I)) := by
    rw [← mul_assoc (Real.pi : ℂ), ← Complex.ofReal_mul, cot_imag]
    push_cast
    field_simp
  rw [e2]
  exact h1

/-- terms of the partial fractions of the hyperbolic cotangent -/
noncomputable def cotT (z : ℝ) (n : ℕ) : ℝ := 2 * z / (z ^ 2 + ((n : ℝ) + 1) ^ 2)

theorem cotT_odd (z : ℝ) (k : ℕ) : cotT z (2 * k + 1) = 1 / 2 * cotT (z / 2) k := by
  unfold cotT
  have h1 : z ^ 2 + (2 * (k : ℝ) + 1 + 1) ^ 2 ≠ 0 := by positivity
  have h2 : (z / 2) ^ 2 + ((k : ℝ) + 1) ^ 2 ≠ 0 := by positivity
  push_cast
  have h3 : (z / 2) ^ 2 + ((k : ℝ) + 1) ^ 2 = (z ^ 2 + (2 * (k : ℝ) + 1 + 1) ^ 2) / 4 := by ring
  rw [h3]
  field_simp
  ring

theorem cot_half (y w : ℝ) (hy : y ≠ 0) :
    Real.pi * (Real.cosh (2 * y) / Real.sinh (2 * y)) - w - 1 / 2 * (Real.pi * (Real.cosh y / Real.sinh y) - 2 * w) = Real.pi / 2 * Real.tanh y := by
  have hs0 : Real.sinh y ≠ 0 := by rwa [Real.sinh_ne_zero]
  have hc0 : Real.cosh y ≠ 0 := (Real.cosh_pos y).ne'
  rw [Real.cosh_two_mul, Real.sinh_two_mul, Real.tanh_eq_sinh_div_cosh]
  field_simp
  ring

/-- partial fractions of the hyperbolic tangent over the odd numbers -/
theorem hasSum_tanh (z : ℝ) (hz : z ≠ 0) :
    HasSum (fun n : ℕ => z / (z ^ 2 + (2 * (n : ℝ) + 1) ^ 2)) (Real.pi / 4 * Real.tanh (Real.pi * z / 2)) := by
  have hall : HasSum (cotT z) (Real.pi * (Real.cosh (Real.pi * z) / Real.sinh (Real.pi * z)) - 1 / z) := hasSum_cot z hz
  have hz2 : z / 2 ≠ 0 := div_ne_zero hz two_ne_zero
  have hev : HasSum (cotT (z / 2)) (Real.pi * (Real.cosh (Real.pi * (z / 2)) / Real.sinh (Real.pi * (z / 2))) - 1 / (z / 2)) := hasSum_cot (z / 2) hz2
  have ho := hev.mul_left (1 / 2)
  simp only [← cotT_odd] at ho
  have he : Summable (fun k : ℕ => cotT z (2 * k)) :=
    hall.summable.comp_injective (i := fun n : ℕ => 2 * n) (fun a b h => by simpa using h)
  have hu := (HasSum.even_add_odd he.hasSum ho).unique hall
  have hy : Real.pi * z / 2 ≠ 0 := div_ne_zero (mul_ne_zero Real.pi_ne_zero hz) two_ne_zero
  have hc := cot_half (Real.pi * z / 2) (1 / z) hy
  rw [show 2 * (Real.pi * z / 2) = Real.pi * z by ring, show Real.pi * z / 2 = Real.pi * (z / 2) by ring, show 2 * (1 / z) = 1 / (z / 2) by field_simp] at hc
  have hv : (∑' k : ℕ, cotT z (2 * k)) = Real.pi / 2 * Real.tanh (Real.pi * (z / 2)) := by linarith
  have hs := he.hasSum
  rw [hv] at hs
  have h := hs.mul_left (1 / 2)
  have e : (fun n : ℕ => z / (z ^ 2 + (2 * (n : ℝ) + 1) ^ 2)) = fun k : ℕ => 1 / 2 * cotT z (2 * k) := by
    funext k; unfold cotT; push_cast; ring
  rw [e, show Real.pi / 4 * Real.tanh (Real.pi * z / 2) = 1 / 2 * (Real.pi / 2 * Real.tanh (Real.pi * (z / 2))) by rw [mul_div_assoc]; ring]
  exact h

/-- the Fermi function -/
noncomputable def fermi (x : ℝ) : ℝ := 1 / (1 + Real.exp x)

theorem fermi_tanh (x : ℝ) : fermi x - 1 / 2 = -(1 / 2) * Real.tanh (x / 2) := by
  unfold fermi
  rw [Real.tanh_eq_sinh_div_cosh, Real.sinh_eq, Real.cosh_eq]
  have e : Real.exp x = Real.exp (x / 2) * Real.exp (x / 2) := by rw [← Real.exp_add]; congr 1; ring
  have e2 : Real.exp (-(x / 2)) = (Real.exp (x / 2))⁻¹ := Real.exp_neg _
  rw [e, e2]
  have := Real.exp_pos (x / 2)
  field_simp
  ring

/-- the Matsubara sum of a free level at energy `xi` (measured from the chemical potential) -/
theorem hasSum_fermi (beta : ℝ) (hb : 0 < beta) (xi : ℝ) :
    HasSum (fun n : ℤ => (1 / (iv beta n - (xi : ℂ))).re) (beta * (fermi (beta * xi) - 1 / 2)) := by
  have hpi := Real.pi_pos
  set z : ℝ := beta * xi / Real.pi with hz
  have hxi : xi = Real.pi / beta * z := by rw [hz]; field_simp
  have ht : HasSum (fun n : ℕ => z / (z ^ 2 + (2 * (n : ℝ) + 1) ^ 2)) (Real.pi / 4 * Real.tanh (Real.pi * z / 2)) := by
    by_cases h0 : z = 0
    · simp [h0, hasSum_zero]
    · exact hasSum_tanh z h0
  have hterm : ∀ n : ℤ, (1 / (iv beta n - (xi : ℂ))).re = -(beta / Real.pi) * (z / (z ^ 2 + (2 * (n : ℝ) + 1) ^ 2)) := by
    intro n
    have hodd : (2 * (n : ℝ) + 1) ≠ 0 := by
      have : (2 * n + 1 : ℤ) ≠ 0 := by omega
      exact_mod_cast this
    have hd : 0 < z ^ 2 + (2 * (n : ℝ) + 1) ^ 2 := by positivity
    rw [one_div, Complex.inv_re]
    have e1 : (iv beta n - (xi : ℂ)).re = -xi := by unfold iv; simp
    have e2 : (iv beta n - (xi : ℂ)).im = Real.pi / beta * (2 * n + 1) := by unfold iv; simp
    rw [Complex.normSq_apply, e1, e2, hxi]
    have hd' : -(Real.pi / beta * z) * -(Real.pi / beta * z) + Real.pi / beta * (2 * (n : ℝ) + 1) * (Real.pi / beta * (2 * (n : ℝ) + 1)) =
        (Real.pi / beta) ^ 2 * (z ^ 2 + (2 * (n : ℝ) + 1) ^ 2) := by ring
    rw [hd']
    field_simp
  have h1 := ht.mul_left (-(beta / Real.pi))
  have hp : HasSum (fun n : ℕ => (1 / (iv beta ((n : ℕ) : ℤ) - (xi : ℂ))).re) (-(beta / Real.pi) * (Real.pi / 4 * Real.tanh (Real.pi * z / 2))) := by
    have e : (fun n : ℕ => (1 / (iv beta ((n : ℕ) : ℤ) - (xi : ℂ))).re) = fun n : ℕ => -(beta / Real.pi) * (z / (z ^ 2 + (2 * (n : ℝ) + 1) ^ 2)) := by
      funext n; rw [hterm]; push_cast; rfl
    rw [e]; exact h1
  have hm : HasSum (fun n : ℕ => (1 / (iv beta (-((n : ℤ) + 1)) - (xi : ℂ))).re) (-(beta / Real.pi) * (Real.pi / 4 * Real.tanh (Real.pi * z / 2))) := by
    have e : (fun n : ℕ => (1 / (iv beta (-((n : ℤ) + 1)) - (xi : ℂ))).re) = fun n : ℕ => -(beta / Real.pi) * (z / (z ^ 2 + (2 * (n : ℝ) + 1) ^ 2)) := by
      funext n; rw [hterm]; push_cast
      rw [show (2 * -((n : ℝ) + 1) + 1) ^ 2 = (2 * (n : ℝ) + 1) ^ 2 by ring]
    rw [e]; exact h1
  have h := HasSum.of_nat_of_neg_add_one (f := fun n : ℤ => (1 / (iv beta n - (xi : ℂ))).re) hp hm
  have e : beta * (fermi (beta * xi) - 1 / 2) = -(beta / Real.pi) * (Real.pi / 4 * Real.tanh (Real.pi * z / 2)) + -(beta / Real.pi) * (Real.pi / 4 * Real.tanh (Real.pi * z / 2)) := by
    rw [fermi_tanh, hz, show Real.pi * (beta * xi / Real.pi) / 2 = beta * xi / 2 by field_simp]
    field_simp
    ring
  rw [e]; exact h

end DGA.Two
