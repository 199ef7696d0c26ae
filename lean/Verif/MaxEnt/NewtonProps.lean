/-
  C92: the Newton iteration — what a returned vector satisfies, when it raises, termination.
-/
import Verif.MaxEnt.Newton
import Verif.MaxEnt.Props2

noncomputable section

namespace DGA.Mx

open Finset

variable {n : ℕ}

/-! ### step reduction -/

theorem stepReduction_pos (prop inc : Fin n → ℝ) : 0 < stepReduction prop inc ∧ stepReduction prop inc ≤ 1 := by
  unfold stepReduction
  split
  · dsimp only
    split
    · rename_i h
      exact ⟨by positivity, (div_le_one (by linarith)).mpr h.le⟩
    · exact ⟨one_pos, le_rfl⟩
  · exact ⟨one_pos, le_rfl⟩

/-- C92 (a): no significant entry changes by more than its own size -/
theorem step_bound (pinv : Pinv n) (fj : FJ n) (prop : Fin n → ℝ) (i : Fin n) (hi : 1e-4 < |prop i|) :
    |iterate pinv fj prop i - prop i| ≤ |prop i| := by
  set inc := increment pinv (fj.f prop) (fj.J prop) with hinc
  have e : iterate pinv fj prop i - prop i = stepReduction prop inc * inc i := by rw [iterate, ← hinc]; ring
  rw [e, abs_mul, abs_of_pos (stepReduction_pos prop inc).1]
  have hp : (0 : ℝ) < |prop i| := by linarith [show (0 : ℝ) < 1e-4 by norm_num]
  have hm : i ∈ signif prop := by simp [signif, hi]
  have hne : (signif prop).Nonempty := ⟨i, hm⟩
  have hr : |inc i / prop i| ≤ (signif prop).sup' hne fun i => |inc i / prop i| :=
    Finset.le_sup' (fun i => |inc i / prop i|) hm
  have hr2 : |inc i| = |inc i / prop i| * |prop i| := by rw [abs_div, div_mul_cancel₀ _ hp.ne']
  unfold stepReduction
  rw [dif_pos hne]
  dsimp only
  generalize hM : ((signif prop).sup' hne fun i => |inc i / prop i|) = M at *
  split
  · rename_i h
    rw [hr2, ← mul_assoc]
    refine mul_le_of_le_one_left hp.le ?_
    rw [div_mul_eq_mul_div, one_mul, div_le_one (by linarith)]
    exact hr
  · rename_i h
    rw [one_mul, hr2]
    exact mul_le_of_le_one_left hp.le (hr.trans (not_lt.mp h))

/-- C92 (b): an iteration that meets the convergence criterion has made the full Newton step -/
theorem converged_full_step (pinv : Pinv n) (fj : FJ n) (prop : Fin n → ℝ) (hc : ∀ i, |iterate pinv fj prop i - prop i| < 1e-4) (i : Fin n) :
    iterate pinv fj prop i - prop i = increment pinv (fj.f prop) (fj.J prop) i := by
  set inc := increment pinv (fj.f prop) (fj.J prop) with hinc
  have e : ∀ i, iterate pinv fj prop i - prop i = stepReduction prop inc * inc i := fun i => by rw [iterate, ← hinc]; ring
  rw [e i]
  suffices h : stepReduction prop inc = 1 by rw [h, one_mul]
  by_contra hne1
  have hne : (signif prop).Nonempty := by
    by_contra h; exact hne1 (by rw [stepReduction, dif_neg h])
  obtain ⟨j, hj, hmax⟩ := Finset.exists_mem_eq_sup' hne fun i => |inc i / prop i|
  have hs : stepReduction prop inc = 1 / |inc j / prop j| ∧ 1 < |inc j / prop j| := by
    have e2 : stepReduction prop inc = if 1 < |inc j / prop j| then 1 / |inc j / prop j| else 1 := by
      rw [stepReduction, dif_pos hne]; dsimp only; rw [hmax]
    by_cases h : 1 < |inc j / prop j|
    · rw [if_pos h] at e2; exact ⟨e2, h⟩
    · rw [if_neg h] at e2; exact absurd e2 hne1
  have hjs : 1e-4 < |prop j| := by simpa [signif] using hj
  have hpj : (0 : ℝ) < |prop j| := by linarith [show (0 : ℝ) < 1e-4 by norm_num]
  have h2 := hc j
  rw [e j, hs.1, abs_mul] at h2
  have h3 : abs (1 / |inc j / prop j|) * |inc j| = |prop j| := by
    have hpos : 0 < |inc j / prop j| := by linarith [hs.2]
    rw [abs_of_pos (by positivity), abs_div]
    rw [abs_div] at hpos
    have : |inc j| ≠ 0 := by intro h0; rw [h0, zero_div] at hpos; exact lt_irrefl _ hpos
    field_simp
  rw [h3] at h2
  linarith

/-! ### the loop -/

/-- proposals and results of the iteration -/
def orbit (step : (Fin n → ℝ) → Fin n → ℝ) (guess : Fin n → ℝ) : ℕ → Fin n → ℝ
  | 0 => guess
  | k + 1 => fun i => (orbit step guess k i + step (orbit step guess k) i) / 2

theorem getProposal_eq (p r : Fin n → ℝ) : getProposal p r = fun i => (p i + r i) / 2 := by
  funext i; rw [getProposal]; ring

theorem newtonLoop_spec (step : (Fin n → ℝ) → Fin n → ℝ) (maxIter : ℕ) (hn : n ≠ 0) (guess : Fin n → ℝ) :
    ∀ (d c : ℕ), maxIter + 1 - c = d →
    (∃ k, c < k ∧ k ≤ maxIter ∧ (∀ i, |step (orbit step guess k) i - orbit step guess k i| < 1e-4) ∧
      (∀ j, c < j → j < k → ¬∀ i, |step (orbit step guess j) i - orbit step guess j i| < 1e-4) ∧
      newtonLoop step maxIter c (orbit step guess c) (step (orbit step guess c)) = .ok (step (orbit step guess k), k)) ∨
    ((∀ k, c < k → k ≤ maxIter → ¬∀ i, |step (orbit step guess k) i - orbit step guess k i| < 1e-4) ∧
      newtonLoop step maxIter c (orbit step guess c) (step (orbit step guess c)) = .error .runtimeWarning) := by
  intro d
  induction d with
  | zero =>
    intro c hd
    right
    refine ⟨fun k h1 h2 => by omega, ?_⟩
    rw [newtonLoop, dif_pos (by omega)]
  | succ d ih =>
    intro c hd
    have hp : getProposal (orbit step guess c) (step (orbit step guess c)) = orbit step guess (c + 1) := by
      rw [getProposal_eq]; rfl
    rw [newtonLoop, dif_neg (by omega), if_neg hn, hp]
    by_cases hc : ∀ i, |step (orbit step guess (c + 1)) i - orbit step guess (c + 1) i| < 1e-4
    · rw [if_pos hc]
      by_cases hm : c + 1 > maxIter
      · rw [if_pos hm]
        right
        exact ⟨fun k h1 h2 => by omega, rfl⟩
      · rw [if_neg hm]
        left
        exact ⟨c + 1, by omega, by omega, hc, fun j h1 h2 => by omega, rfl⟩
    · rw [if_neg hc]
      rcases ih (c + 1) (by omega) with ⟨k, h1, h2, h3, h4, h5⟩ | ⟨h1, h2⟩
      · left
        refine ⟨k, by omega, h2, h3, fun j hj1 hj2 => ?_, h5⟩
        rcases Nat.lt_or_ge (c + 1) j with h | h
        · exact h4 j h hj2
        · have : j = c + 1 := by omega
          subst this; exact hc
      · right
        refine ⟨fun k hk1 hk2 => ?_, h2⟩
        rcases Nat.lt_or_ge (c + 1) k with h | h
        · exact h1 k h hk2
        · have : k = c + 1 := by omega
          subst this; exact hc

/-- C92 (c): the call returns the result of the first iteration 1 ≤ k ≤ max_iter that meets the criterion, with `nfev = k`; without such
    an iteration it raises.  It always ends. -/
theorem newton_spec (pinv : Pinv n) (fj : FJ n) (maxIter : ℕ) (hn : n ≠ 0) (guess : Fin n → ℝ) :
    let conv := fun k => ∀ i, |iterate pinv fj (orbit (iterate pinv fj) guess k) i - orbit (iterate pinv fj) guess k i| < 1e-4
    (∃ k, 1 ≤ k ∧ k ≤ maxIter ∧ conv k ∧ (∀ j, 1 ≤ j → j < k → ¬conv j) ∧
      newton pinv fj maxIter guess = .ok (iterate pinv fj (orbit (iterate pinv fj) guess k), k)) ∨
    ((∀ k, 1 ≤ k → k ≤ maxIter → ¬conv k) ∧ newton pinv fj maxIter guess = .error .runtimeWarning) :=
  newtonLoop_spec (iterate pinv fj) maxIter hn guess _ 0 rfl

/-- C92 (d): a returned vector solves the linearised equation at a point closer than 1e-4 -/
theorem newton_solution (pinv : Pinv n) (fj : FJ n) (maxIter : ℕ) (guess x : Fin n → ℝ) (nfev : ℕ)
    (hpinv : ∀ J P, pinv J = some P → (∀ z : Fin n → ℝ, (∀ m, ∑ i, J m i * z i = 0) → z = 0) → ∀ (y : Fin n → ℝ) m, ∑ i, J m i * ∑ j, P i j * y j = y m)
    (hno : ∀ J, pinv J ≠ none) (hinj : ∀ u (z : Fin n → ℝ), (∀ m, ∑ i, fj.J u m i * z i = 0) → z = 0)
    (h : newton pinv fj maxIter guess = .ok (x, nfev)) :
    nfev ≤ maxIter ∧ ∃ p, (∀ i, |x i - p i| < 1e-4) ∧ (∀ m, fj.f p m + ∑ i, fj.J p m i * (x i - p i) = 0) ∧
      ∀ m, |fj.f p m| ≤ 1e-4 * ∑ i, |fj.J p m i| := by
  have hn : n ≠ 0 := by
    rintro rfl
    rw [newton, newtonLoop] at h
    simp at h
  rcases newton_spec pinv fj maxIter hn guess with ⟨k, -, h2, h3, -, h5⟩ | ⟨-, h2⟩
  · rw [h5] at h
    simp only [Except.ok.injEq, Prod.mk.injEq] at h
    obtain ⟨rfl, rfl⟩ := h
    have hlin : ∀ m, fj.f (orbit (iterate pinv fj) guess k) m + ∑ i, fj.J (orbit (iterate pinv fj) guess k) m i *
        (iterate pinv fj (orbit (iterate pinv fj) guess k) i - orbit (iterate pinv fj) guess k i) = 0 := by
      intro m
      set p := orbit (iterate pinv fj) guess k
      obtain ⟨P, hP⟩ := Option.ne_none_iff_exists'.mp (hno (fj.J p))
      rw [Finset.sum_congr rfl fun i _ => by rw [converged_full_step pinv fj p h3 i]]
      simp only [increment, hP]
      have := hpinv _ P hP (hinj p) (fj.f p) m
      have e : ∑ i, fj.J p m i * -∑ j, P i j * fj.f p j = -∑ i, fj.J p m i * ∑ j, P i j * fj.f p j := by
        rw [← Finset.sum_neg_distrib]; exact Finset.sum_congr rfl fun i _ => by ring
      rw [e, this]; ring
    refine ⟨h2, _, h3, hlin, fun m => ?_⟩
    have e : fj.f (orbit (iterate pinv fj) guess k) m = -∑ i, fj.J (orbit (iterate pinv fj) guess k) m i *
        (iterate pinv fj (orbit (iterate pinv fj) guess k) i - orbit (iterate pinv fj) guess k i) := by linarith [hlin m]
    rw [e, abs_neg, Finset.mul_sum]
    refine (Finset.abs_sum_le_sum_abs _ _).trans (Finset.sum_le_sum fun i _ => ?_)
    rw [abs_mul, mul_comm]
    exact mul_le_mul_of_nonneg_right (h3 i).le (abs_nonneg _)
  · rw [h2] at h; cases h

/-- C92 (e): starting at a root returns it unchanged after one iteration -/
theorem newton_at_root (pinv : Pinv n) (fj : FJ n) (maxIter : ℕ) (hm : 1 ≤ maxIter) (hn : n ≠ 0) (u : Fin n → ℝ) (h : ∀ m, fj.f u m = 0) :
    newton pinv fj maxIter u = .ok (u, 1) := by
  have hinc : ∀ i, increment pinv (fj.f u) (fj.J u) i = 0 := by
    intro i
    unfold increment
    split
    · simp [h]
    · rfl
  have hit : iterate pinv fj u = u := by funext i; rw [iterate, hinc, mul_zero, add_zero]
  have ho : orbit (iterate pinv fj) u 1 = u := by
    funext i; simp only [orbit]; rw [hit]; ring
  rcases newton_spec pinv fj maxIter hn u with ⟨k, h1, -, -, h4, h5⟩ | ⟨h1, -⟩
  · have : k = 1 := by
      by_contra hk
      refine h4 1 le_rfl (by omega) ?_
      intro i; rw [ho, hit]; norm_num
    subst this
    rw [h5, ho, hit]
  · refine absurd ?_ (h1 1 le_rfl hm)
    intro i; rw [ho, hit]; norm_num

/-- C92 (f): without singular values the optimiser always raises -/
theorem newton_empty (pinv : Pinv 0) (fj : FJ 0) (maxIter : ℕ) (guess : Fin 0 → ℝ) : newton pinv fj maxIter guess = .error .valueError := by
  rw [newton, newtonLoop]; simp

/-- one variable, f(x) = x - 3, started at 0: the hypotheses of `newton_solution` can be met and the call returns -/
example : ∃ x : Fin 1 → ℝ, newton (fun _ => some fun _ _ => 1) ⟨fun u i => u i - 3, fun _ _ _ => 1⟩ 20000 (fun _ => 3) = .ok (x, 1) :=
  ⟨_, newton_at_root _ _ _ (by norm_num) (by norm_num) _ (by intro m; norm_num)⟩

end DGA.Mx
