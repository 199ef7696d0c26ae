import Verif.MaxEnt.SchedProps
import Mathlib.Analysis.SpecialFunctions.Pow.Real
import Mathlib.Analysis.SpecialFunctions.Log.Base

/-
  C93, continued: a complete call of `solve_historic` or `solve_classic`, and the start value of the root search of `solve_classic`.
-/

noncomputable section

namespace DGA.Mx

variable {nw ns : ℕ}

/-- **C93.** A call of `solve_historic` or `solve_classic` that returns: the scan ran at 10^6, 10^5, … , 10^6/10^K, every time from the zero
    vector, up to the first α whose criterion reaches one; at least two values of α were needed; the final run is at the α found by the
    root search and starts from the vector of the last step of the root search; the list holds the scan followed by one result for every
    step. -/
theorem solveRoot_result (opt : Opt nw ns) (crit : Res nw ns → ℝ) (newton : List (Res nw ns) → List ℝ × ℝ) (fuel : ℕ)
    (hv : ∀ l, (newton l).1 ≠ []) (sol : Res nw ns) (arr : List (Res nw ns))
    (h : solveRoot opt crit newton fuel = some (.ok (sol, arr))) :
    ∃ (K : ℕ) (scan : List (Res nw ns)), 1 ≤ K ∧ scan.length = K + 1 ∧
      (∀ k, k ≤ K → ∃ r, scan[k]? = some r ∧ opt (10 ^ 6 / 10 ^ k) 0 = .ok r ∧ (crit r < 1 ↔ k < K)) ∧
      arr.length = K + 1 + (newton scan).1.length ∧
      ∃ last, arr.getLast? = some last ∧ opt (newton scan).2 last.u = .ok sol := by
  unfold solveRoot at h
  cases hs : scanLoop opt crit fuel (10 ^ 6) [] with
  | none => rw [hs] at h; cases h
  | some e =>
    rw [hs] at h
    cases e with
    | error e => simp [Except.bind] at h
    | ok scan =>
      simp only [Option.map_some, Except.bind, Option.some.injEq] at h
      obtain ⟨K, o, h1, h2, h3, h4, _⟩ := scan_result opt crit fuel _ _ _ hs
      obtain ⟨o', last, r, g1, g2, g3, g4, g5, g6, g7, g8, g9⟩ := finishRoot_overwrites opt _ (hv scan) _ scan arr sol h
      simp only [List.length_nil, Nat.zero_add] at h1 h2 h3
      refine ⟨K, scan, by omega, h2, ?_, by rw [g5, h2], last, g2, g9⟩
      intro k hk
      obtain ⟨r, a, b, c⟩ := h1 k hk
      refine ⟨r, a, b, fun hc => ?_, c⟩
      by_contra hkK
      have : k = K := by omega
      subst this
      rw [a] at h3
      cases h3
      exact absurd hc (not_lt.2 h4)

/-- **C93.** If the criterion reaches one already at 10^6 the call raises RuntimeError, whatever the root search would do. -/
theorem solveRoot_raises (opt : Opt nw ns) (crit : Res nw ns → ℝ) (newton : List (Res nw ns) → List ℝ × ℝ) (fuel : ℕ) (o : Res nw ns)
    (ho : opt (10 ^ 6) 0 = .ok o) (hc : 1 ≤ crit o) :
    solveRoot opt crit newton (fuel + 1) = some (.error .runtimeError) := by
  unfold solveRoot
  rw [scanLoop, ho]
  simp only [not_lt.2 hc, if_false, List.nil_append, Option.map_some, Except.bind, finishRoot, List.length_singleton, le_refl, if_true]

/-! ### the start of the root search -/

/-- solvers.py:702-709: `exp_opt` and `alpha_opt` from the last two scanned results `(alpha, convergence)` -/
def predictAlpha (a₂ c₂ a₁ c₁ : ℝ) : ℝ :=
  (10 : ℝ) ^ (Real.logb 10 a₂ - Real.logb 10 c₂ * (Real.logb 10 a₁ - Real.logb 10 a₂) / (Real.logb 10 c₁ - Real.logb 10 c₂))

/-- **C93.** If the logarithm of the convergence measure is a linear function of the logarithm of α, the predicted α is where the measure
    is one. -/
theorem predictAlpha_exact (conv : ℝ → ℝ) (p q : ℝ) (hq : q ≠ 0) (hc : ∀ a, 0 < a → conv a = (10 : ℝ) ^ (p + q * Real.logb 10 a))
    (a₂ a₁ : ℝ) (h2 : 0 < a₂) (h1 : 0 < a₁) (hne : a₁ ≠ a₂) :
    conv (predictAlpha a₂ (conv a₂) a₁ (conv a₁)) = 1 := by
  have hpos : 0 < predictAlpha a₂ (conv a₂) a₁ (conv a₁) := Real.rpow_pos_of_pos (by norm_num) _
  rw [hc _ hpos]
  have hl : Real.logb 10 a₁ - Real.logb 10 a₂ ≠ 0 := by
    intro h0
    exact hne (Real.logb_injOn_pos (by norm_num) h1 h2 (sub_eq_zero.1 h0))
  have e : p + q * Real.logb 10 (predictAlpha a₂ (conv a₂) a₁ (conv a₁)) = 0 := by
    unfold predictAlpha
    rw [Real.logb_rpow (by norm_num) (by norm_num), hc a₂ h2, hc a₁ h1, Real.logb_rpow (by norm_num) (by norm_num),
      Real.logb_rpow (by norm_num) (by norm_num)]
    have : p + q * Real.logb 10 a₁ - (p + q * Real.logb 10 a₂) = q * (Real.logb 10 a₁ - Real.logb 10 a₂) := by ring
    rw [this]
    field_simp
    ring
  rw [e, Real.rpow_zero]

/-- **C93.** The predicted α lies between the last two scanned ones: above the second to last it is not, below the last it is not. -/
theorem predictAlpha_between (a₂ c₂ a₁ c₁ : ℝ) (h1 : 0 < a₁) (h12 : a₁ < a₂) (hc2 : 0 < c₂) (hc21 : c₂ < 1) (hc1 : 1 ≤ c₁) :
    a₁ ≤ predictAlpha a₂ c₂ a₁ c₁ ∧ predictAlpha a₂ c₂ a₁ c₁ < a₂ := by
  have hb : (1 : ℝ) < 10 := by norm_num
  have l2 : Real.logb 10 c₂ < 0 := Real.logb_neg hb hc2 hc21
  have l1 : 0 ≤ Real.logb 10 c₁ := Real.logb_nonneg hb hc1
  have la : Real.logb 10 a₁ < Real.logb 10 a₂ := Real.logb_lt_logb hb h1 h12
  have hden : 0 < Real.logb 10 c₁ - Real.logb 10 c₂ := by linarith
  have h2 : 0 < a₂ := h1.trans h12
  unfold predictAlpha
  constructor
  · refine (Real.rpow_logb (b := 10) (by norm_num) (by norm_num) h1).symm.le.trans ?_
    apply Real.rpow_le_rpow_of_exponent_le hb.le
    rw [le_sub_iff_add_le, ← le_sub_iff_add_le', div_le_iff₀ hden]
    nlinarith
  · conv_rhs => rw [← Real.rpow_logb (b := 10) (by norm_num) (by norm_num) h2]
    apply Real.rpow_lt_rpow_of_exponent_lt hb
    rw [sub_lt_self_iff]
    exact div_pos (mul_pos_of_neg_of_neg l2 (by linarith)) hden

/-- non-vacuity: criterion 1/5 at 10^6 and 2 at 10^5 -/
example : ∃ sol arr, solveRoot (nw := 1) (ns := 1) (fun a _ => .ok ⟨0, 0, 0, if a = 10 ^ 6 then 1 / 5 else 2, 0, a⟩) Res.conv
    (fun _ => ([3], 4)) 5 = some (.ok (sol, arr)) := by
  have h5 : ((10 : ℝ) ^ 6 / 10 = 10 ^ 6) = False := by norm_num
  have h3 : ((3 : ℝ) = 10 ^ 6) = False := by norm_num
  have h4 : ((4 : ℝ) = 10 ^ 6) = False := by norm_num
  have c1 : ((1 / 5 : ℝ) < 1) = True := by norm_num
  have c2 : ((2 : ℝ) < 1) = False := by norm_num
  simp only [solveRoot, scanLoop, if_true, c1, h5, if_false, c2, Option.map_some, Except.bind, finishRoot, rootCalls, h3, h4]
  simp [Except.map]

example : (10 : ℝ) ≤ predictAlpha 100 (1 / 10) 10 10 ∧ predictAlpha 100 (1 / 10) 10 10 < 100 :=
  predictAlpha_between _ _ _ _ (by norm_num) (by norm_num) (by norm_num) (by norm_num) (by norm_num)

end DGA.Mx
