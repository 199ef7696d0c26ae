/-
  C88 continued: the root exists for all data, the Jacobian is nonsingular everywhere, smaller α fits better.
-/
import Verif.MaxEnt.Props
import Mathlib.Topology.Order.Compact
import Mathlib.Topology.MetricSpace.ProperSpace
import Mathlib.Analysis.Normed.Group.Basic
import Mathlib.Analysis.Calculus.LocalExtr.Basic
import Mathlib.Analysis.SpecialFunctions.Exp

noncomputable section

namespace DGA.Mx

open Finset Filter

variable {nw nk ns : ℕ}

/-! ### existence: minimise the dual function -/

/-- vector in singular space belonging to a vector of multipliers -/
def fromDual (s : Solver nw nk ns) (y : Fin nk → ℝ) (m : Fin ns) : ℝ := ∑ k, s.U k m * s.Xi m * y k

theorem v_fromDual (s : Solver nw nk ns) (y : Fin nk → ℝ) (l : Fin nw) : s.v (fromDual s y) l = ∑ k, kept s k l * y k := by
  simp only [Solver.v, fromDual, kept, Finset.mul_sum, Finset.sum_mul]
  rw [Finset.sum_comm]
  exact Finset.sum_congr rfl fun k _ => Finset.sum_congr rfl fun m _ => by ring

/-- dual function -/
def dual (s : Solver nw nk ns) (alpha : ℝ) (y : Fin nk → ℝ) : ℝ :=
  ∑ l, dw s.re l * s.model l * Real.exp (∑ k, kept s k l * y k) + ∑ k, (alpha / (2 * s.E k) * y k ^ 2 - s.data k * y k)

theorem dual_continuous (s : Solver nw nk ns) (alpha : ℝ) : Continuous (dual s alpha) := by
  unfold dual
  fun_prop

/-- one quadratic term is bounded below and grows -/
theorem quad_bound {a d y : ℝ} (ha : 0 < a) : -(d ^ 2 / (2 * a)) + a / 2 * y ^ 2 ≤ a * y ^ 2 - d * y := by
  have h : 0 ≤ (a * y - d) ^ 2 / (2 * a) := by positivity
  have e : (a * y - d) ^ 2 / (2 * a) = a / 2 * y ^ 2 - d * y + d ^ 2 / (2 * a) := by field_simp; ring
  linarith

theorem dual_coercive (s : Solver nw nk ns) (alpha : ℝ) (ha : 0 < alpha) (hx : Monotone s.re) (hD : ∀ l, 0 ≤ s.model l)
    (hE : ∀ k, 0 < s.E k) : ∃ M : ℝ, ∀ y : Fin nk → ℝ, dual s alpha y ≤ dual s alpha 0 → ∀ k, |y k| ≤ M := by
  set c : Fin nk → ℝ := fun k => alpha / (2 * s.E k) with hc
  have hcp : ∀ k, 0 < c k := fun k => div_pos ha (mul_pos two_pos (hE k))
  set T := dual s alpha 0 + ∑ k, s.data k ^ 2 / (2 * c k) with hT
  refine ⟨∑ k, (1 + 2 * |T| / c k), fun y hy k => ?_⟩
  have h1 : 0 ≤ ∑ l, dw s.re l * s.model l * Real.exp (∑ k, kept s k l * y k) :=
    Finset.sum_nonneg fun l _ => mul_nonneg (mul_nonneg (dw_nonneg _ hx l) (hD l)) (Real.exp_pos _).le
  have h2 : ∑ k, (-(s.data k ^ 2 / (2 * c k)) + c k / 2 * y k ^ 2) ≤ ∑ k, (c k * y k ^ 2 - s.data k * y k) :=
    Finset.sum_le_sum fun k _ => quad_bound (hcp k)
  rw [Finset.sum_add_distrib, Finset.sum_neg_distrib] at h2
  have h3 : ∑ k, c k / 2 * y k ^ 2 ≤ T := by
    have this : dual s alpha y = ∑ l, dw s.re l * s.model l * Real.exp (∑ k, kept s k l * y k)
        + ∑ k, (alpha / (2 * s.E k) * y k ^ 2 - s.data k * y k) := rfl
    rw [hT]
    have e : ∑ k, (c k * y k ^ 2 - s.data k * y k) = ∑ k, (alpha / (2 * s.E k) * y k ^ 2 - s.data k * y k) := rfl
    linarith
  have h4 : c k / 2 * y k ^ 2 ≤ T :=
    (Finset.single_le_sum (f := fun k => c k / 2 * y k ^ 2) (fun k _ => by have := hcp k; positivity) (Finset.mem_univ k)).trans h3
  have h5 : y k ^ 2 ≤ 2 * |T| / c k := by
    rw [le_div_iff₀ (hcp k)]
    have := le_abs_self T
    nlinarith
  have h6 : |y k| ≤ 1 + 2 * |T| / c k := by
    have h7 : |y k| ^ 2 ≤ 2 * |T| / c k := by rw [sq_abs]; exact h5
    nlinarith [sq_nonneg (|y k| - 1), abs_nonneg (y k)]
  exact h6.trans (Finset.single_le_sum (f := fun k => 1 + 2 * |T| / c k) (fun k _ => by have := hcp k; positivity) (Finset.mem_univ k))

theorem dual_min (s : Solver nw nk ns) (alpha : ℝ) (ha : 0 < alpha) (hx : Monotone s.re) (hD : ∀ l, 0 ≤ s.model l)
    (hE : ∀ k, 0 < s.E k) : ∃ y, ∀ z, dual s alpha y ≤ dual s alpha z := by
  obtain ⟨M, hM⟩ := dual_coercive s alpha ha hx hD hE
  have hcomp : IsCompact (Set.pi Set.univ fun _ : Fin nk => Set.Icc (-|M|) |M|) := isCompact_univ_pi fun _ => isCompact_Icc
  have h0 : (0 : Fin nk → ℝ) ∈ Set.pi Set.univ fun _ : Fin nk => Set.Icc (-|M|) |M| := by
    intro k _; simp
  obtain ⟨y, -, hy⟩ := hcomp.exists_isMinOn ⟨0, h0⟩ (dual_continuous s alpha).continuousOn
  refine ⟨y, fun z => ?_⟩
  by_cases hz : dual s alpha z ≤ dual s alpha 0
  · refine hy ?_
    intro k _
    have := (hM z hz k).trans (le_abs_self M)
    exact abs_le.mp this
  · exact (hy h0).trans (not_le.mp hz).le

theorem dual_deriv (s : Solver nw nk ns) (alpha : ℝ) (y : Fin nk → ℝ) (i : Fin nk) :
    HasDerivAt (fun t => dual s alpha (Function.update y i t))
      (∑ l, dw s.re l * s.model l * (Real.exp (∑ k, kept s k l * y k) * kept s i l) + (alpha / s.E i * y i - s.data i)) (y i) := by
  unfold dual
  have hin : ∀ l, HasDerivAt (fun t => ∑ k, kept s k l * Function.update y i t k) (kept s i l) (y i) := by
    intro l
    have h : HasDerivAt (fun t => ∑ k, kept s k l * Function.update y i t k) (∑ k, kept s k l * (if k = i then 1 else 0)) (y i) :=
      HasDerivAt.fun_sum fun k _ => (hasDerivAt_coord y i k).const_mul _
    simpa using h
  have h1 : HasDerivAt (fun t => ∑ l, dw s.re l * s.model l * Real.exp (∑ k, kept s k l * Function.update y i t k))
      (∑ l, dw s.re l * s.model l * (Real.exp (∑ k, kept s k l * y k) * kept s i l)) (y i) := by
    refine HasDerivAt.fun_sum fun l _ => ?_
    have h := ((hin l).exp).const_mul (dw s.re l * s.model l)
    rw [Function.update_eq_self] at h
    exact h
  have h2 : HasDerivAt (fun t => ∑ k, (alpha / (2 * s.E k) * Function.update y i t k ^ 2 - s.data k * Function.update y i t k))
      (∑ k, (alpha / (2 * s.E k) * (2 * Function.update y i (y i) k * (if k = i then 1 else 0)) - s.data k * (if k = i then 1 else 0)))
      (y i) := by
    refine HasDerivAt.fun_sum fun k _ => ?_
    have hc := hasDerivAt_coord y i k
    have h := (hc.pow 2).const_mul (alpha / (2 * s.E k))
    have h' := h.fun_sub (hc.const_mul (s.data k))
    simpa using h'
  have h3 := h1.add h2
  have e : ∑ k, (alpha / (2 * s.E k) * (2 * Function.update y i (y i) k * (if k = i then 1 else 0)) - s.data k * (if k = i then 1 else 0))
      = alpha / s.E i * y i - s.data i := by
    rw [Finset.sum_eq_single i]
    · simp
      by_cases hz : s.E i = 0
      · simp [hz]
      · field_simp
    · intro k _ hk; simp [hk]
    · simp
  rw [e] at h3
  exact h3

/-- C88 (c): for all data there is a root -/
theorem root_exists (s : Solver nw nk ns) (alpha : ℝ) (ha : 0 < alpha) (hx : Monotone s.re) (hD : ∀ l, 0 ≤ s.model l)
    (hE : ∀ k, 0 < s.E k) : ∃ u, ∀ m, s.fDiag alpha u m = 0 := by
  obtain ⟨y, hy⟩ := dual_min s alpha ha hx hD hE
  refine ⟨fromDual s y, fun m => ?_⟩
  have hst : ∀ k, alpha * y k = s.E k * misfit s (s.specDiag (fromDual s y)) k := by
    intro k
    have hmin : IsLocalMin (fun t => dual s alpha (Function.update y k t)) (y k) := by
      refine Filter.Eventually.of_forall fun t => ?_
      simp only [Function.update_eq_self]
      exact hy _
    have h0 := hmin.hasDerivAt_eq_zero (dual_deriv s alpha y k)
    have e : ∑ l, dw s.re l * s.model l * (Real.exp (∑ k, kept s k l * y k) * kept s k l) =
        trapz (fun l => kept s k l * s.specDiag (fromDual s y) l) s.re := by
      rw [trapz_eq]
      refine Finset.sum_congr rfl fun l _ => ?_
      rw [Solver.specDiag, v_fromDual]; ring
    rw [e] at h0
    have hEk := (hE k).ne'
    have h1 : alpha / s.E k * y k = misfit s (s.specDiag (fromDual s y)) k := by rw [misfit]; linarith
    rw [← h1]; field_simp
  rw [fDiag_eq, fromDual, Finset.mul_sum, ← Finset.sum_sub_distrib]
  refine Finset.sum_eq_zero fun k _ => ?_
  have := hst k
  have e : alpha * (s.U k m * s.Xi m * y k) = s.U k m * s.Xi m * (alpha * y k) := by ring
  rw [e, this]; ring

/-! ### the Jacobian is nonsingular -/

/-- common form of both Jacobians, `a` being the spectrum or the sum of its positive and negative part -/
theorem jacobian_core (s : Solver nw nk ns) (alpha : ℝ) (ha : 0 < alpha) (hx : Monotone s.re) (a : Fin nw → ℝ) (h0 : ∀ l, 0 ≤ a l)
    (hE : ∀ k, 0 ≤ s.E k) (z : Fin ns → ℝ)
    (h : ∀ m, ∑ i, (alpha * (if m = i then 1 else 0) + ∑ l, s.M3 m i l * a l) * z i = 0) : z = 0 := by
  set t : Fin nw → ℝ := s.v z with ht
  have key : ∀ m, alpha * z m + ∑ l, s.M2 m l * (a l * t l) = 0 := by
    intro m
    refine Eq.trans ?_ (h m)
    simp only [Solver.M3, add_mul, Finset.sum_add_distrib]
    congr 1
    · simp
    · simp only [Finset.sum_mul]
      rw [Finset.sum_comm]
      refine Finset.sum_congr rfl fun l _ => ?_
      rw [ht, Solver.v, Finset.mul_sum, Finset.mul_sum]
      exact Finset.sum_congr rfl fun i _ => by ring
  set r : Fin nk → ℝ := fun k => trapz (fun l => kept s k l * (a l * t l)) s.re with hr
  have key2 : ∀ m, alpha * z m = ∑ k, s.E k * s.U k m * s.Xi m * (-(r k)) := by
    intro m
    have := key m
    rw [M2_sum] at this
    have e : ∑ k, s.E k * s.U k m * s.Xi m * (-(r k)) = -∑ k, s.E k * s.U k m * s.Xi m * r k := by
      rw [← Finset.sum_neg_distrib]; exact Finset.sum_congr rfl fun k _ => by ring
    rw [e]; linarith
  have hv := stationary_v s alpha z (fun k => -(r k)) key2
  have hG : ∀ l, 0 ≤ dw s.re l * a l := fun l => mul_nonneg (dw_nonneg _ hx l) (h0 l)
  have e1 : alpha * ∑ l, dw s.re l * a l * t l ^ 2 = -∑ k, s.E k * r k ^ 2 := by
    have e2 : ∀ k, s.E k * r k ^ 2 = ∑ l, s.E k * r k * (dw s.re l * (kept s k l * (a l * t l))) := by
      intro k
      rw [← Finset.mul_sum, ← trapz_eq]; simp only [hr]; ring
    rw [Finset.sum_congr rfl fun k _ => e2 k, Finset.sum_comm, Finset.mul_sum, ← Finset.sum_neg_distrib]
    refine Finset.sum_congr rfl fun l _ => ?_
    have e3 : alpha * (dw s.re l * a l * t l ^ 2) = dw s.re l * a l * t l * (alpha * s.v z l) := by
      rw [ht]; ring
    rw [e3, hv l, Finset.mul_sum, ← Finset.sum_neg_distrib]
    exact Finset.sum_congr rfl fun k _ => by ring
  have h2 : 0 ≤ ∑ k, s.E k * r k ^ 2 := Finset.sum_nonneg fun k _ => mul_nonneg (hE k) (sq_nonneg _)
  have h3 : ∀ l ∈ Finset.univ, 0 ≤ dw s.re l * a l * t l ^ 2 := fun l _ => mul_nonneg (hG l) (sq_nonneg _)
  have h4 : ∑ l, dw s.re l * a l * t l ^ 2 = 0 := by
    have := Finset.sum_nonneg h3
    nlinarith
  have h5 : ∀ l, dw s.re l * (a l * t l) = 0 := by
    intro l
    have := (Finset.sum_eq_zero_iff_of_nonneg h3).mp h4 l (Finset.mem_univ l)
    rcases mul_eq_zero.mp this with hh | hh
    · rw [← mul_assoc, hh, zero_mul]
    · rw [pow_eq_zero_iff two_ne_zero] at hh; rw [hh]; ring
  have h6 : ∀ k, r k = 0 := by
    intro k
    simp only [hr]
    rw [trapz_eq]
    refine Finset.sum_eq_zero fun l _ => ?_
    have := h5 l
    have e : dw s.re l * (kept s k l * (a l * t l)) = kept s k l * (dw s.re l * (a l * t l)) := by ring
    rw [e, this, mul_zero]
  funext m
  have := key2 m
  simp only [h6, neg_zero, mul_zero, Finset.sum_const_zero] at this
  simpa [ha.ne'] using this

/-- C88 (d): the Newton system has at most one solution at every point -/
theorem jacobian_injective (s : Solver nw nk ns) (alpha : ℝ) (ha : 0 < alpha) (hx : Monotone s.re) (hD : ∀ l, 0 ≤ s.model l)
    (hE : ∀ k, 0 ≤ s.E k) (u z : Fin ns → ℝ) (h : ∀ m, ∑ i, s.JDiag alpha u m i * z i = 0) : z = 0 := by
  refine jacobian_core s alpha ha hx (s.specDiag u) (fun l => mul_nonneg (hD l) (Real.exp_pos _).le) hE z fun m => ?_
  refine Eq.trans (Finset.sum_congr rfl fun i _ => ?_) (h m)
  have e : ∑ l, s.M3 m i l * s.specDiag u l = ∑ l, s.W3 m i l * Real.exp (s.v u l) :=
    Finset.sum_congr rfl fun l _ => by rw [Solver.W3, W2_eq, Solver.M3, Solver.specDiag]; ring
  rw [Solver.JDiag, e]

/-- the same for offdiagonal elements -/
theorem jacobian_off_injective (s : Solver nw nk ns) (alpha : ℝ) (ha : 0 < alpha) (hx : Monotone s.re) (hD : ∀ l, 0 ≤ s.model l)
    (hE : ∀ k, 0 ≤ s.E k) (u z : Fin ns → ℝ) (h : ∀ m, ∑ i, s.JOff alpha u m i * z i = 0) : z = 0 :=
  jacobian_core s alpha ha hx _ (fun l => add_nonneg (mul_nonneg (hD l) (Real.exp_pos _).le) (div_nonneg (hD l) (Real.exp_pos _).le)) hE z h

/-! ### dependence on α -/

/-- C88 (e): with smaller α the fit is not worse and the entropy not larger -/
theorem alpha_tradeoff (s : Solver nw nk ns) (a b : ℝ) (ha : 0 < a) (hab : a < b) (hn : 2 ≤ nw) (hx : StrictMono s.re)
    (hD : ∀ l, 0 < s.model l) (hE : ∀ k, 0 ≤ s.E k) (ua ub : Fin ns → ℝ) (hfa : ∀ m, s.fDiag a ua m = 0) (hfb : ∀ m, s.fDiag b ub m = 0) :
    chi2Kept s (s.specDiag ua) ≤ chi2Kept s (s.specDiag ub) ∧ s.entropyPos (s.specDiag ua) ua ≤ s.entropyPos (s.specDiag ub) ub := by
  rw [entropyPos_eq s hD, entropyPos_eq s hD]
  have h1 := (root_maximises s a ha hn hx hD hE ua hfa _ fun l => (specDiag_pos s hD ub l).le).1
  have h2 := (root_maximises s b (ha.trans hab) hn hx hD hE ub hfb _ fun l => (specDiag_pos s hD ua l).le).1
  simp only [Q] at h1 h2
  constructor
  · nlinarith
  · nlinarith

end DGA.Mx
