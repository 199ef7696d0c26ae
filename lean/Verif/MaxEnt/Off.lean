/-
  C89: the positive–negative entropy and the root function for offdiagonal elements.
-/
import Verif.MaxEnt.Props2

noncomputable section

namespace DGA.Mx

open Finset

variable {nw nk ns : ℕ}

/-! ### one frequency -/

/-- `sqrt(B² + 4 D²)`, the sum of positive and negative part -/
def rootOf (D B : ℝ) : ℝ := Real.sqrt (B ^ 2 + 4 * D * D)

/-- exponent belonging to a value of the spectrum -/
def expOf (D B : ℝ) : ℝ := Real.log ((rootOf D B + B) / (2 * D))

theorem rootOf_sq (D B : ℝ) : rootOf D B ^ 2 = B ^ 2 + 4 * D * D := Real.sq_sqrt (by nlinarith [sq_nonneg B, mul_self_nonneg D])

theorem rootOf_gt {D : ℝ} (hD : 0 < D) (B : ℝ) : |B| < rootOf D B := by
  refine lt_of_pow_lt_pow_left₀ 2 (Real.sqrt_nonneg _) ?_
  rw [rootOf_sq, sq_abs]; nlinarith

theorem exp_expOf {D : ℝ} (hD : 0 < D) (B : ℝ) : Real.exp (expOf D B) = (rootOf D B + B) / (2 * D) := by
  refine Real.exp_log (div_pos ?_ (by linarith))
  have := rootOf_gt hD B
  have := neg_abs_le B
  linarith

/-- positive and negative part of the spectrum -/
theorem parts {D : ℝ} (hD : 0 < D) (B : ℝ) :
    D * Real.exp (expOf D B) = (rootOf D B + B) / 2 ∧ D / Real.exp (expOf D B) = (rootOf D B - B) / 2 := by
  have h := rootOf_gt hD B
  have h2 := neg_abs_le B
  have hp : 0 < rootOf D B + B := by linarith
  rw [exp_expOf hD]
  constructor
  · field_simp
  · rw [div_div_eq_mul_div, div_eq_iff hp.ne']
    have := rootOf_sq D B
    nlinarith

theorem expOf_eq {D : ℝ} (hD : 0 < D) (v : ℝ) :
    rootOf D (D * Real.exp v - D / Real.exp v) = D * Real.exp v + D / Real.exp v ∧ expOf D (D * Real.exp v - D / Real.exp v) = v := by
  have hw := Real.exp_pos v
  have h1 : rootOf D (D * Real.exp v - D / Real.exp v) = D * Real.exp v + D / Real.exp v := by
    unfold rootOf
    rw [show (D * Real.exp v - D / Real.exp v) ^ 2 + 4 * D * D = (D * Real.exp v + D / Real.exp v) ^ 2 by field_simp; ring]
    exact Real.sqrt_sq (by positivity)
  refine ⟨h1, ?_⟩
  unfold expOf
  rw [h1, show (D * Real.exp v + D / Real.exp v + (D * Real.exp v - D / Real.exp v)) / (2 * D) = Real.exp v by field_simp; ring, Real.log_exp]

/-- integrand of `entropy_posneg` -/
def posneg1 (D B : ℝ) : ℝ := rootOf D B - D - D - B * expOf D B

/-- Shannon–Jaynes integrand -/
def shannon1 (D B : ℝ) : ℝ := B - D - B * Real.log (B / D)

/-- the positive–negative entropy is the largest entropy of a decomposition into non-negative parts -/
theorem posneg1_sup {D : ℝ} (hD : 0 < D) (p q : ℝ) (hp : 0 ≤ p) (hq : 0 ≤ q) : shannon1 D p + shannon1 D q ≤ posneg1 D (p - q) := by
  have ⟨ha, hb⟩ := parts hD (p - q)
  set t := expOf D (p - q) with ht
  have hlog : ∀ x : ℝ, 0 ≤ x → ∀ w : ℝ, x * Real.log (x / D) = x * Real.log (x / (D * Real.exp w)) + x * w := by
    intro x hx w
    rcases hx.eq_or_lt with h | h
    · rw [← h]; simp
    · rw [Real.log_div h.ne' hD.ne', Real.log_div h.ne' (mul_pos hD (Real.exp_pos _)).ne', Real.log_mul hD.ne' (Real.exp_ne_zero _),
        Real.log_exp]; ring
  have h1 := relent (mul_pos hD (Real.exp_pos t)) hp
  have h2 := relent (mul_pos hD (Real.exp_pos (-t))) hq
  have e2 : D * Real.exp (-t) = D / Real.exp t := by rw [Real.exp_neg, div_eq_mul_inv]
  unfold shannon1 posneg1
  rw [hlog p hp t, hlog q hq (-t), ← ht]
  rw [e2] at h2 ⊢
  rw [ha] at h1 ⊢
  rw [hb] at h2 ⊢
  nlinarith

theorem posneg1_attained {D : ℝ} (hD : 0 < D) (B : ℝ) : ∃ p q : ℝ, 0 < p ∧ 0 < q ∧ p - q = B ∧ shannon1 D p + shannon1 D q = posneg1 D B := by
  have ⟨ha, hb⟩ := parts hD B
  refine ⟨D * Real.exp (expOf D B), D * Real.exp (-expOf D B), mul_pos hD (Real.exp_pos _), mul_pos hD (Real.exp_pos _), ?_, ?_⟩
  · rw [Real.exp_neg, ← div_eq_mul_inv, ha, hb]; ring
  · unfold shannon1 posneg1
    rw [mul_div_cancel_left₀ _ hD.ne', mul_div_cancel_left₀ _ hD.ne', Real.log_exp, Real.log_exp, Real.exp_neg, ← div_eq_mul_inv, ha, hb]
    ring

/-- supporting line of the entropy -/
theorem posneg1_line {D : ℝ} (hD : 0 < D) (v B : ℝ) :
    posneg1 D B ≤ D * Real.exp v + D / Real.exp v - D - D - B * v ∧
      (posneg1 D B = D * Real.exp v + D / Real.exp v - D - D - B * v → B = D * Real.exp v - D / Real.exp v) := by
  have ⟨ha, hb⟩ := parts hD B
  set t := expOf D B with ht
  have hT := Real.exp_pos t
  obtain ⟨h, rfl⟩ : ∃ h, v = t + h := ⟨v - t, by ring⟩
  have e : D * Real.exp (t + h) + D / Real.exp (t + h) - D - D - B * (t + h) - posneg1 D B =
      D * Real.exp t * (Real.exp h - 1 - h) + D / Real.exp t * (Real.exp (-h) - 1 + h) := by
    have e1 : B = D * Real.exp t - D / Real.exp t := by rw [ha, hb]; ring
    have e2 : rootOf D B = D * Real.exp t + D / Real.exp t := by rw [ha, hb]; ring
    unfold posneg1
    rw [← ht, e2, Real.exp_add, Real.exp_neg]
    have e3 : B * (t + h) = B * t + (D * Real.exp t - D / Real.exp t) * h := by rw [← e1]; ring
    rw [e3]
    have hh := Real.exp_pos h
    field_simp
    ring
  have h1 := Real.add_one_le_exp h
  have h2 := Real.add_one_le_exp (-h)
  have hp1 : 0 < D * Real.exp t := by positivity
  have hp2 : 0 < D / Real.exp t := by positivity
  have n1 : 0 ≤ D * Real.exp t * (Real.exp h - 1 - h) := mul_nonneg hp1.le (by linarith)
  have n2 : 0 ≤ D / Real.exp t * (Real.exp (-h) - 1 + h) := mul_nonneg hp2.le (by linarith)
  refine ⟨by linarith, fun heq => ?_⟩
  have h0 : h = 0 := by
    by_contra hne
    have h3 := Real.add_one_lt_exp hne
    have := mul_pos hp1 (show 0 < Real.exp h - 1 - h by linarith)
    linarith
  rw [h0, add_zero, ha, hb]; ring

/-! ### the functional -/

theorem entropyPosneg_eq (s : Solver nw nk ns) (B : Fin nw → ℝ) (u : Fin ns → ℝ) :
    s.entropyPosneg B u = ∑ l, dw s.re l * posneg1 (s.model l) (B l) := by
  rw [Solver.entropyPosneg, trapz_eq]
  rfl

/-- entropy of a signed spectrum: supremum over decompositions B = P - N into non-negative spectra -/
def IsPosnegEntropy (s : Solver nw nk ns) (B : Fin nw → ℝ) (S : ℝ) : Prop :=
  IsGreatest {x | ∃ P N : Fin nw → ℝ, (∀ l, 0 ≤ P l) ∧ (∀ l, 0 ≤ N l) ∧ (∀ l, P l - N l = B l) ∧ x = shannon s P + shannon s N} S

/-- C89 (a): `entropy_posneg` is the largest total entropy of a decomposition -/
theorem entropyPosneg_spec (s : Solver nw nk ns) (hx : Monotone s.re) (hD : ∀ l, 0 < s.model l) (B : Fin nw → ℝ) (u : Fin ns → ℝ) :
    IsPosnegEntropy s B (s.entropyPosneg B u) := by
  have hs : ∀ P, shannon s P = ∑ l, dw s.re l * shannon1 (s.model l) (P l) := fun P => by rw [shannon, trapz_eq]; rfl
  constructor
  · choose p q hp hq hpq he using fun l => posneg1_attained (hD l) (B l)
    refine ⟨p, q, fun l => (hp l).le, fun l => (hq l).le, hpq, ?_⟩
    rw [hs, hs, ← Finset.sum_add_distrib, entropyPosneg_eq]
    exact Finset.sum_congr rfl fun l _ => by rw [← he l]; ring
  · rintro x ⟨P, N, hP, hN, hPN, rfl⟩
    rw [hs, hs, ← Finset.sum_add_distrib, entropyPosneg_eq]
    refine Finset.sum_le_sum fun l _ => ?_
    rw [← mul_add, ← hPN l]
    exact mul_le_mul_of_nonneg_left (posneg1_sup (hD l) _ _ (hP l) (hN l)) (dw_nonneg _ hx l)

/-- the maximum-entropy functional for offdiagonal elements -/
def QOff (s : Solver nw nk ns) (alpha : ℝ) (B : Fin nw → ℝ) : ℝ := alpha * s.entropyPosneg B 0 - chi2Kept s B / 2

/-- C89 (b): a root of `f` is the unique maximiser among all real spectra -/
theorem rootOff_maximises (s : Solver nw nk ns) (alpha : ℝ) (ha : 0 < alpha) (hn : 2 ≤ nw) (hx : StrictMono s.re)
    (hD : ∀ l, 0 < s.model l) (hE : ∀ k, 0 ≤ s.E k) (u : Fin ns → ℝ) (hf : ∀ m, s.fOff alpha u m = 0) (B : Fin nw → ℝ) :
    QOff s alpha B ≤ QOff s alpha (s.specOff u) ∧ (QOff s alpha B = QOff s alpha (s.specOff u) → B = s.specOff u) := by
  have hst : ∀ m, alpha * u m = ∑ k, s.E k * s.U k m * s.Xi m * misfit s (s.specOff u) k := by
    intro m; have := hf m; rw [fOff_eq] at this; linarith
  have hv := stationary_v s alpha u _ hst
  have hc := chi2_expand s (s.specOff u) B (fun l => alpha * s.v u l) hv
  have hA : ∀ l, posneg1 (s.model l) (s.specOff u l) =
      s.model l * Real.exp (s.v u l) + s.model l / Real.exp (s.v u l) - s.model l - s.model l - s.specOff u l * s.v u l := by
    intro l
    have h := expOf_eq (hD l) (s.v u l)
    have e : s.specOff u l = s.model l * Real.exp (s.v u l) - s.model l / Real.exp (s.v u l) := rfl
    unfold posneg1
    rw [e, h.1, h.2]
  set gap : Fin nw → ℝ := fun l => posneg1 (s.model l) (s.specOff u l) - (B l - s.specOff u l) * s.v u l - posneg1 (s.model l) (B l) with hgap
  have hg : ∀ l, 0 ≤ gap l ∧ (gap l = 0 → B l = s.specOff u l) := by
    intro l
    have h := posneg1_line (hD l) (s.v u l) (B l)
    have e : gap l = s.model l * Real.exp (s.v u l) + s.model l / Real.exp (s.v u l) - s.model l - s.model l - B l * s.v u l
        - posneg1 (s.model l) (B l) := by
      simp only [hgap]; rw [hA l]; ring
    rw [e]
    exact ⟨by linarith [h.1], fun h0 => h.2 (by linarith)⟩
  have hQ : QOff s alpha (s.specOff u) - QOff s alpha B = alpha * ∑ l, dw s.re l * gap l
      + (∑ k, s.E k * (∑ l, dw s.re l * kept s k l * (B l - s.specOff u l)) ^ 2) / 2 := by
    have e : alpha * ∑ l, dw s.re l * gap l = alpha * s.entropyPosneg (s.specOff u) 0 - alpha * s.entropyPosneg B 0
        - ∑ l, dw s.re l * (B l - s.specOff u l) * (alpha * s.v u l) := by
      rw [entropyPosneg_eq, entropyPosneg_eq]
      simp only [Finset.mul_sum]
      rw [← Finset.sum_sub_distrib, ← Finset.sum_sub_distrib]
      exact Finset.sum_congr rfl fun l _ => by simp only [hgap]; ring
    rw [e]
    simp only [QOff]
    rw [hc]; ring
  have h2 : 0 ≤ ∑ k, s.E k * (∑ l, dw s.re l * kept s k l * (B l - s.specOff u l)) ^ 2 :=
    Finset.sum_nonneg fun k _ => mul_nonneg (hE k) (sq_nonneg _)
  have h1 : ∀ l ∈ Finset.univ, 0 ≤ dw s.re l * gap l := fun l _ => mul_nonneg (dw_pos hn _ hx l).le (hg l).1
  have h3 := mul_nonneg ha.le (Finset.sum_nonneg h1)
  refine ⟨by linarith, fun he => ?_⟩
  have h4 : ∑ l, dw s.re l * gap l = 0 := by
    have : alpha * ∑ l, dw s.re l * gap l = 0 := by linarith
    exact (mul_eq_zero.mp this).resolve_left ha.ne'
  funext l
  have h5 := (Finset.sum_eq_zero_iff_of_nonneg h1).mp h4 l (Finset.mem_univ l)
  exact (hg l).2 ((mul_eq_zero.mp h5).resolve_left (dw_pos hn _ hx l).ne')

/-- C89 (c): the root is unique -/
theorem rootOff_unique (s : Solver nw nk ns) (alpha : ℝ) (ha : 0 < alpha) (hn : 2 ≤ nw) (hx : StrictMono s.re)
    (hD : ∀ l, 0 < s.model l) (hE : ∀ k, 0 ≤ s.E k) (u u' : Fin ns → ℝ) (hf : ∀ m, s.fOff alpha u m = 0)
    (hf' : ∀ m, s.fOff alpha u' m = 0) : u = u' := by
  have h1 := rootOff_maximises s alpha ha hn hx hD hE u hf (s.specOff u')
  have h2 := rootOff_maximises s alpha ha hn hx hD hE u' hf' (s.specOff u)
  have h3 := h1.2 (le_antisymm h1.1 h2.1)
  funext m
  have a := hf m
  have b := hf' m
  rw [fOff_eq] at a b
  rw [← h3] at a
  have : alpha * u m = alpha * u' m := by linarith
  exact mul_left_cancel₀ ha.ne' this

/-! ### existence -/

/-- dual function for offdiagonal elements -/
def dualOff (s : Solver nw nk ns) (alpha : ℝ) (y : Fin nk → ℝ) : ℝ :=
  ∑ l, dw s.re l * (s.model l * Real.exp (∑ k, kept s k l * y k) + s.model l * Real.exp (-∑ k, kept s k l * y k))
    + ∑ k, (alpha / (2 * s.E k) * y k ^ 2 - s.data k * y k)

theorem dualOff_eq (s : Solver nw nk ns) (alpha : ℝ) (y : Fin nk → ℝ) :
    dualOff s alpha y = dual s alpha y + ∑ l, dw s.re l * s.model l * Real.exp (-∑ k, kept s k l * y k) := by
  unfold dualOff dual
  simp only [mul_add, Finset.sum_add_distrib, mul_assoc]
  ring

theorem dualOff_min (s : Solver nw nk ns) (alpha : ℝ) (ha : 0 < alpha) (hx : Monotone s.re) (hD : ∀ l, 0 ≤ s.model l)
    (hE : ∀ k, 0 < s.E k) : ∃ y, ∀ z, dualOff s alpha y ≤ dualOff s alpha z := by
  set c : Fin nk → ℝ := fun k => alpha / (2 * s.E k) with hc
  have hcp : ∀ k, 0 < c k := fun k => div_pos ha (mul_pos two_pos (hE k))
  set T := dualOff s alpha 0 + ∑ k, s.data k ^ 2 / (2 * c k) with hT
  have hcont : Continuous (dualOff s alpha) := by unfold dualOff; fun_prop
  have hM : ∀ y, dualOff s alpha y ≤ dualOff s alpha 0 → ∀ k, |y k| ≤ ∑ k, (1 + 2 * |T| / c k) := by
    intro y hy k
    have h1 : 0 ≤ ∑ l, dw s.re l * (s.model l * Real.exp (∑ k, kept s k l * y k) + s.model l * Real.exp (-∑ k, kept s k l * y k)) :=
      Finset.sum_nonneg fun l _ => mul_nonneg (dw_nonneg _ hx l)
        (add_nonneg (mul_nonneg (hD l) (Real.exp_pos _).le) (mul_nonneg (hD l) (Real.exp_pos _).le))
    have h2 : ∑ k, (-(s.data k ^ 2 / (2 * c k)) + c k / 2 * y k ^ 2) ≤ ∑ k, (c k * y k ^ 2 - s.data k * y k) :=
      Finset.sum_le_sum fun k _ => quad_bound (hcp k)
    rw [Finset.sum_add_distrib, Finset.sum_neg_distrib] at h2
    have h3 : ∑ k, c k / 2 * y k ^ 2 ≤ T := by
      have this : dualOff s alpha y =
          ∑ l, dw s.re l * (s.model l * Real.exp (∑ k, kept s k l * y k) + s.model l * Real.exp (-∑ k, kept s k l * y k))
          + ∑ k, (c k * y k ^ 2 - s.data k * y k) := rfl
      rw [hT]; linarith
    have h4 : c k / 2 * y k ^ 2 ≤ T :=
      (Finset.single_le_sum (f := fun k => c k / 2 * y k ^ 2) (fun k _ => by have := hcp k; positivity) (Finset.mem_univ k)).trans h3
    have h5 : y k ^ 2 ≤ 2 * |T| / c k := by
      rw [le_div_iff₀ (hcp k)]
      have := le_abs_self T
      nlinarith
    have h6 : |y k| ≤ 1 + 2 * |T| / c k := by
      have h7 : |y k| ^ 2 ≤ 2 * |T| / c k := by rw [sq_abs]; exact h5
      nlinarith [sq_nonneg (|y k| - 1), abs_nonneg (y k)]
    exact h6.trans (Finset.single_le_sum (f := fun k => 1 + 2 * |T| / c k) (fun k _ => by have := hcp k; positivity) (Finset.mem_univ k))
  set M := ∑ k, (1 + 2 * |T| / c k)
  have hcomp : IsCompact (Set.pi Set.univ fun _ : Fin nk => Set.Icc (-|M|) |M|) := isCompact_univ_pi fun _ => isCompact_Icc
  have h0 : (0 : Fin nk → ℝ) ∈ Set.pi Set.univ fun _ : Fin nk => Set.Icc (-|M|) |M| := by
    intro k _; simp
  obtain ⟨y, -, hy⟩ := hcomp.exists_isMinOn ⟨0, h0⟩ hcont.continuousOn
  refine ⟨y, fun z => ?_⟩
  by_cases hz : dualOff s alpha z ≤ dualOff s alpha 0
  · refine hy ?_
    intro k _
    have := (hM z hz k).trans (le_abs_self M)
    exact abs_le.mp this
  · exact (hy h0).trans (not_le.mp hz).le

theorem dualOff_deriv (s : Solver nw nk ns) (alpha : ℝ) (y : Fin nk → ℝ) (i : Fin nk) :
    HasDerivAt (fun t => dualOff s alpha (Function.update y i t))
      (∑ l, dw s.re l * s.model l * (Real.exp (∑ k, kept s k l * y k) * kept s i l) + (alpha / s.E i * y i - s.data i)
        + ∑ l, dw s.re l * s.model l * (Real.exp (-∑ k, kept s k l * y k) * -kept s i l)) (y i) := by
  have e : (fun t => dualOff s alpha (Function.update y i t)) = fun t => dual s alpha (Function.update y i t)
      + ∑ l, dw s.re l * s.model l * Real.exp (-∑ k, kept s k l * Function.update y i t k) := by
    funext t; rw [dualOff_eq]
  rw [e]
  refine (dual_deriv s alpha y i).add (HasDerivAt.fun_sum fun l _ => ?_)
  have h : HasDerivAt (fun t => ∑ k, kept s k l * Function.update y i t k) (∑ k, kept s k l * (if k = i then 1 else 0)) (y i) :=
    HasDerivAt.fun_sum fun k _ => (hasDerivAt_coord y i k).const_mul _
  have h' : HasDerivAt (fun t => -∑ k, kept s k l * Function.update y i t k) (-kept s i l) (y i) := by
    simpa using h.fun_neg
  have h2 := (h'.exp).const_mul (dw s.re l * s.model l)
  simp only [Function.update_eq_self] at h2
  exact h2

/-- C89 (d): for all data there is a root -/
theorem rootOff_exists (s : Solver nw nk ns) (alpha : ℝ) (ha : 0 < alpha) (hx : Monotone s.re) (hD : ∀ l, 0 ≤ s.model l)
    (hE : ∀ k, 0 < s.E k) : ∃ u, ∀ m, s.fOff alpha u m = 0 := by
  obtain ⟨y, hy⟩ := dualOff_min s alpha ha hx hD hE
  refine ⟨fromDual s y, fun m => ?_⟩
  have hst : ∀ k, alpha * y k = s.E k * misfit s (s.specOff (fromDual s y)) k := by
    intro k
    have hmin : IsLocalMin (fun t => dualOff s alpha (Function.update y k t)) (y k) := by
      refine Filter.Eventually.of_forall fun t => ?_
      simp only [Function.update_eq_self]
      exact hy _
    have h0 := hmin.hasDerivAt_eq_zero (dualOff_deriv s alpha y k)
    have e : trapz (fun l => kept s k l * s.specOff (fromDual s y) l) s.re =
        ∑ l, dw s.re l * s.model l * (Real.exp (∑ k, kept s k l * y k) * kept s k l)
        + ∑ l, dw s.re l * s.model l * (Real.exp (-∑ k, kept s k l * y k) * -kept s k l) := by
      rw [trapz_eq, ← Finset.sum_add_distrib]
      refine Finset.sum_congr rfl fun l _ => ?_
      rw [Solver.specOff, v_fromDual, Real.exp_neg, Solver.modelPlus, Solver.modelMinus, div_eq_mul_inv]; ring
    have hEk := (hE k).ne'
    have h1 : alpha / s.E k * y k = misfit s (s.specOff (fromDual s y)) k := by rw [misfit, e]; linarith
    rw [← h1]; field_simp
  rw [fOff_eq, fromDual, Finset.mul_sum, ← Finset.sum_sub_distrib]
  refine Finset.sum_eq_zero fun k _ => ?_
  have := hst k
  have e : alpha * (s.U k m * s.Xi m * y k) = s.U k m * s.Xi m * (alpha * y k) := by ring
  rw [e, this]; ring

end DGA.Mx
