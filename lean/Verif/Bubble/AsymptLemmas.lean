/- Helper lemmas: Matsubara sums (not claims). -/
import Verif.Bubble.AsymptModel
import Verif.Bubble.Lemmas
import Mathlib.NumberTheory.ZetaValues
import Mathlib.Topology.Algebra.InfiniteSum.NatInt
import Mathlib.Order.Filter.AtTopBot.Interval

namespace DGA.Bubble

open Filter Topology

/-! ### odd zeta sums -/

theorem hasSum_odd (p : ℕ) (z : ℝ) (hz : HasSum (fun n : ℕ => (1 : ℝ) / (n : ℝ) ^ p) z) :
    HasSum (fun n : ℕ => (1 : ℝ) / (2 * (n : ℝ) + 1) ^ p) (z - z / 2 ^ p) := by
  have he : HasSum (fun n : ℕ => (1 : ℝ) / ((2 * n : ℕ) : ℝ) ^ p) (z / 2 ^ p) := by
    have := hz.mul_left (1 / 2 ^ p)
    have e1 : (fun n : ℕ => (1 : ℝ) / ((2 * n : ℕ) : ℝ) ^ p) = fun n : ℕ => 1 / 2 ^ p * (1 / (n : ℝ) ^ p) := by
      funext n; push_cast; rw [mul_pow, one_div_mul_one_div]
    rw [e1, show z / 2 ^ p = 1 / 2 ^ p * z by ring]
    exact this
  have ho : Summable (fun n : ℕ => (1 : ℝ) / ((2 * n + 1 : ℕ) : ℝ) ^ p) :=
    hz.summable.comp_injective (i := fun n : ℕ => 2 * n + 1) (fun a b h => by simpa using h)
  have h := HasSum.even_add_odd (f := fun n : ℕ => (1 : ℝ) / (n : ℝ) ^ p) he ho.hasSum
  have hu := h.unique hz
  have : (∑' n : ℕ, (1 : ℝ) / ((2 * n + 1 : ℕ) : ℝ) ^ p) = z - z / 2 ^ p := by linarith
  rw [← this]
  have := ho.hasSum
  push_cast at this ⊢
  exact this

theorem hasSum_odd_int (p : ℕ) (hp : Even p) (z : ℝ) (hz : HasSum (fun n : ℕ => (1 : ℝ) / (n : ℝ) ^ p) z) :
    HasSum (fun n : ℤ => (1 : ℝ) / (2 * (n : ℝ) + 1) ^ p) (2 * (z - z / 2 ^ p)) := by
  have h := hasSum_odd p z hz
  rw [two_mul]
  refine HasSum.of_nat_of_neg_add_one (f := fun n : ℤ => (1 : ℝ) / (2 * (n : ℝ) + 1) ^ p) ?_ ?_
  · simpa using h
  · convert h using 2 with n
    push_cast
    rw [show (2 * (-((n : ℝ) + 1)) + 1) = -(2 * (n : ℝ) + 1) by ring, hp.neg_pow]

/-! ### the inverse Matsubara frequency -/

variable {beta : ℝ}

theorem invIv_eq (n : ℤ) : invIv beta n = -Complex.I * (beta / Real.pi / (2 * n + 1) : ℝ) := by
  have h2 : (2 * (n : ℝ) + 1) ≠ 0 := by
    have : (2 * n + 1 : ℤ) ≠ 0 := by omega
    exact_mod_cast this
  rw [invIv]
  have hI := Complex.I_ne_zero
  rw [one_div, mul_inv, Complex.inv_I, ← Complex.ofReal_inv]
  congr 2
  rw [mul_inv, inv_div]
  ring

theorem invIv_sq (n : ℤ) : invIv beta n ^ 2 = ((-(beta / Real.pi) ^ 2 * (1 / (2 * (n : ℝ) + 1) ^ 2) : ℝ) : ℂ) := by
  rw [invIv_eq, mul_pow, neg_sq, Complex.I_sq]
  push_cast
  rw [div_pow ((beta : ℂ) / (Real.pi : ℂ))]
  ring

theorem invIv_norm_sq (n : ℤ) : ‖invIv beta n‖ ^ 2 = (beta / Real.pi) ^ 2 * (1 / (2 * (n : ℝ) + 1) ^ 2) := by
  rw [← norm_pow, invIv_sq, Complex.norm_real, Real.norm_eq_abs, neg_mul, abs_neg, abs_of_nonneg (by positivity)]

theorem invIv_neg (n : ℤ) : invIv beta (-1 - n) = -invIv beta n := by
  rw [invIv_eq, invIv_eq, ← mul_neg, ← Complex.ofReal_neg]
  congr 2
  push_cast
  rw [show (2 * (-1 - (n : ℝ)) + 1) = -(2 * n + 1) by ring, div_neg]

theorem hasSum_invIv_sq : HasSum (fun n : ℤ => invIv beta n ^ 2) (-(beta : ℂ) ^ 2 / 4) := by
  have h := (hasSum_odd_int 2 (by decide) _ hasSum_zeta_two).mul_left (-(beta / Real.pi) ^ 2)
  have h' := Complex.hasSum_ofReal.mpr h
  simp only [← invIv_sq] at h'
  convert h' using 1
  have := Real.pi_ne_zero
  rw [show -(beta / Real.pi) ^ 2 * (2 * (Real.pi ^ 2 / 6 - Real.pi ^ 2 / 6 / 2 ^ 2)) = -beta ^ 2 / 4 by field_simp; ring]
  push_cast
  ring

theorem hasSum_invIv_four : HasSum (fun n : ℤ => invIv beta n ^ 4) ((beta : ℂ) ^ 4 / 48) := by
  have h := (hasSum_odd_int 4 (by decide) _ hasSum_zeta_four).mul_left ((beta / Real.pi) ^ 4)
  have h' := Complex.hasSum_ofReal.mpr h
  have e : ∀ n : ℤ, invIv beta n ^ 4 = (((beta / Real.pi) ^ 4 * (1 / (2 * (n : ℝ) + 1) ^ 4) : ℝ) : ℂ) := by
    intro n
    rw [show (4 : ℕ) = 2 * 2 by norm_num, pow_mul, invIv_sq, ← Complex.ofReal_pow]
    congr 1
    rw [pow_mul, pow_mul (2 * (n : ℝ) + 1), mul_pow, neg_sq]
    congr 1
    rw [div_pow, one_pow]
  simp only [← e] at h'
  convert h' using 1
  have := Real.pi_ne_zero
  rw [show (beta / Real.pi) ^ 4 * (2 * (Real.pi ^ 4 / 90 - Real.pi ^ 4 / 90 / 2 ^ 4)) = beta ^ 4 / 48 by field_simp; ring]
  push_cast
  ring

theorem summable_norm_sq : Summable (fun n : ℤ => ‖invIv beta n‖ ^ 2) := by
  simp only [invIv_norm_sq]
  exact ((hasSum_odd_int 2 (by decide) _ hasSum_zeta_two).mul_left _).summable

theorem invIv_norm_le (n : ℤ) : ‖invIv beta n‖ ≤ |beta / Real.pi| := by
  have h : (1 : ℝ) ≤ (2 * (n : ℝ) + 1) ^ 2 := by
    have : (1 : ℤ) ≤ (2 * n + 1) ^ 2 := by
      have : (2 * n + 1 : ℤ) ≠ 0 := by omega
      have := pow_pos (abs_pos.mpr this) 2
      rw [sq_abs] at this
      omega
    exact_mod_cast this
  have h1 : ‖invIv beta n‖ ^ 2 ≤ |beta / Real.pi| ^ 2 := by
    rw [invIv_norm_sq, sq_abs]
    have : 1 / (2 * (n : ℝ) + 1) ^ 2 ≤ 1 := by rw [div_le_one (by linarith)]; exact h
    nlinarith [sq_nonneg (beta / Real.pi)]
  exact (abs_le_of_sq_le_sq' h1 (abs_nonneg _)).2

theorem invIv_tendsto : Tendsto (invIv beta) cofinite (𝓝 0) := by
  have h := (summable_norm_sq (beta := beta)).tendsto_cofinite_zero
  have h2 := (Real.continuous_sqrt.tendsto 0).comp h
  rw [Real.sqrt_zero] at h2
  rw [tendsto_zero_iff_norm_tendsto_zero]
  refine h2.congr fun n => ?_
  simp [Real.sqrt_sq (norm_nonneg _)]

/-! ### windows -/

theorem tendsto_int_shift (g : ℤ → ℂ) (h : Tendsto g cofinite (𝓝 0)) (s : ℤ) : Tendsto (fun N : ℕ => g (N + s)) atTop (𝓝 0) := by
  have hi : Function.Injective (fun N : ℕ => (N : ℤ) + s) := fun a b hab => by simpa using hab
  have := h.comp hi.tendsto_cofinite
  rw [Nat.cofinite_eq_atTop] at this
  exact this

theorem tendsto_int_shift_neg (g : ℤ → ℂ) (h : Tendsto g cofinite (𝓝 0)) (s : ℤ) : Tendsto (fun N : ℕ => g (-(N : ℤ) + s)) atTop (𝓝 0) := by
  have hi : Function.Injective (fun N : ℕ => -(N : ℤ) + s) := fun a b hab => by simpa using hab
  have := h.comp hi.tendsto_cofinite
  rw [Nat.cofinite_eq_atTop] at this
  exact this

theorem window_step (g : ℤ → ℂ) (N : ℕ) : (∑ n ∈ Finset.Ico (-(N : ℤ)) N, g (n + 1)) = (∑ n ∈ Finset.Ico (-(N : ℤ)) N, g n) + g N - g (-N) := by
  have h : (∑ n ∈ Finset.Ico (-(N : ℤ)) N, (g (n + 1) - g n)) = g N - g (-N) := by
    induction N with
    | zero => simp
    | succ N ih =>
      have e : Finset.Ico (-((N + 1 : ℕ) : ℤ)) ((N + 1 : ℕ) : ℤ) = insert (-(N : ℤ) - 1) (insert (N : ℤ) (Finset.Ico (-(N : ℤ)) N)) := by
        ext x; simp only [Finset.mem_Ico, Finset.mem_insert]; push_cast; omega
      rw [e, Finset.sum_insert (by simp only [Finset.mem_insert, Finset.mem_Ico]; omega), Finset.sum_insert (by simp), ih]
      push_cast
      rw [show -(N : ℤ) - 1 + 1 = -N by ring, show -((N : ℤ) + 1) = -(N : ℤ) - 1 by ring]
      ring
  rw [Finset.sum_sub_distrib] at h
  linear_combination h

theorem window_shift_nat (g : ℤ → ℂ) (h : Tendsto g cofinite (𝓝 0)) (s : ℕ) :
    Tendsto (fun N : ℕ => (∑ n ∈ Finset.Ico (-(N : ℤ)) N, g (n + s)) - ∑ n ∈ Finset.Ico (-(N : ℤ)) N, g n) atTop (𝓝 0) := by
  induction s with
  | zero => simp
  | succ s ih =>
    have h1 := (ih.add (tendsto_int_shift g h s)).sub (tendsto_int_shift_neg g h s)
    rw [add_zero, sub_zero] at h1
    refine h1.congr fun N => ?_
    have := window_step (fun n => g (n + s)) N
    push_cast
    simp only [add_assoc, add_comm (s : ℤ) 1] at this ⊢
    rw [this]
    ring

theorem window_shift (g : ℤ → ℂ) (h : Tendsto g cofinite (𝓝 0)) (s : ℤ) :
    Tendsto (fun N : ℕ => (∑ n ∈ Finset.Ico (-(N : ℤ)) N, g (n + s)) - ∑ n ∈ Finset.Ico (-(N : ℤ)) N, g n) atTop (𝓝 0) := by
  obtain ⟨k, rfl | rfl⟩ := s.eq_nat_or_neg
  · exact window_shift_nat g h k
  · have hi : Function.Injective (fun n : ℤ => n + -(k : ℤ)) := fun a b hab => by simpa using hab
    have := (window_shift_nat (fun n => g (n + -(k : ℤ))) (h.comp hi.tendsto_cofinite) k).neg
    rw [neg_zero] at this
    refine this.congr fun N => ?_
    simp

theorem window_odd (N : ℕ) : (∑ n ∈ Finset.Ico (-(N : ℤ)) N, invIv beta n) = 0 := by
  have h : (∑ n ∈ Finset.Ico (-(N : ℤ)) N, invIv beta n) = ∑ n ∈ Finset.Ico (-(N : ℤ)) N, invIv beta (-1 - n) := by
    refine Finset.sum_nbij' (fun n => -1 - n) (fun n => -1 - n) ?_ ?_ ?_ ?_ ?_
    · intro n hn; rw [Finset.mem_Ico] at hn ⊢; omega
    · intro n hn; rw [Finset.mem_Ico] at hn ⊢; omega
    · intro n _; ring
    · intro n _; ring
    · intro n _; congr 1; ring
  simp only [invIv_neg, Finset.sum_neg_distrib] at h
  exact self_eq_neg.mp h

theorem window_shift_zero (s : ℤ) : Tendsto (fun N : ℕ => ∑ n ∈ Finset.Ico (-(N : ℤ)) N, invIv beta (n + s)) atTop (𝓝 0) := by
  have := window_shift (invIv beta) invIv_tendsto s
  simpa [window_odd] using this

/-- limits over windows and sums over all integers -/
theorem hasSum_of_window (g : ℤ → ℂ) (hs : Summable g) (a : ℂ) (h : Tendsto (fun N : ℕ => ∑ n ∈ Finset.Ico (-(N : ℤ)) N, g n) atTop (𝓝 a)) :
    HasSum g a := by
  have h1 : Tendsto (fun N : ℕ => ∑ n ∈ Finset.Ico (-(N : ℤ)) N, g n) atTop (𝓝 (∑' n, g n)) :=
    hs.hasSum.comp (Finset.tendsto_Ico_neg (R := ℤ))
  rw [tendsto_nhds_unique h h1]
  exact hs.hasSum

theorem summable_shift {g : ℤ → ℝ} (h : Summable g) (s : ℤ) : Summable fun n : ℤ => g (n + s) :=
  h.comp_injective (i := fun n : ℤ => n + s) fun a b hab => by simpa using hab

theorem hasSum_shift {g : ℤ → ℂ} {a : ℂ} (h : HasSum g a) (s : ℤ) : HasSum (fun n : ℤ => g (n + s)) a :=
  (Equiv.hasSum_iff (Equiv.addRight s)).mpr h

end DGA.Bubble
