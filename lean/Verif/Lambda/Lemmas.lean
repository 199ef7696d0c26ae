import Verif.Lambda.Model
import Mathlib.Tactic.Linarith
import Mathlib.Tactic.FieldSimp
import Mathlib.Tactic.Positivity
import Mathlib.Tactic.NormNum
import Mathlib.Topology.Order.IntermediateValue
import Mathlib.Topology.Algebra.Order.Field
import Mathlib.Algebra.Order.BigOperators.Group.List
import Mathlib.Topology.Algebra.Monoid

namespace DGA.Lam

/-! Convex-Newton analysis of the search loop, for an abstract sum rule. -/

/-- The facts about the sum rule `F` and its slope `G` on the physical branch `start < lam` used by the loop analysis. -/
structure Branch (f fp : ℝ → ℂ) (start : ℝ) (F G : ℝ → ℝ) : Prop where
  re_f : ∀ l, start < l → (f l).re = F l
  re_q : ∀ l, start < l → (f l / fp l).re = F l / G l
  neg : ∀ l, start < l → G l < 0
  tangent : ∀ l m, start < l → start < m → F l + G l * (m - l) ≤ F m
  slope : ∀ l m, start < l → l ≤ m → G l ≤ G m
  anti : ∀ l m, start < l → l < m → F m < F l

variable {f fp : ℝ → ℂ} {start : ℝ} {F G : ℝ → ℝ}

theorem newton_le_root (h : Branch f fp start F G) {l r : ℝ} (hl : start < l) (hr : start < r) (h0 : F r = 0) :
    l - F l / G l ≤ r := by
  have ht := h.tangent l r hl hr
  have hn := h.neg l hl
  rw [h0] at ht
  have : F l / G l ≥ l - r := by
    rw [ge_iff_le, le_div_iff_of_neg hn]; nlinarith
  linarith

theorem F_nonneg_of_le (h : Branch f fp start F G) {l r : ℝ} (hl : start < l) (hlr : l ≤ r) (h0 : F r = 0) :
    0 ≤ F l := by
  rcases eq_or_lt_of_le hlr with e | e
  · rw [e, h0]
  · have := h.anti l r hl e; linarith

theorem F_neg_of_lt (h : Branch f fp start F G) {l r : ℝ} (hr : start < r) (hlr : r < l) (h0 : F r = 0) :
    F l < 0 := by have := h.anti r l hr hlr; linarith

/-- Left of the root the loop converges. -/
theorem loop_left (h : Branch f fp start F G) {r eps g : ℝ} (hr : start < r) (h0 : F r = 0) (he : 0 < eps)
    (hg : 0 < g) (delta : ℝ) : ∀ (n : Nat) (l : ℝ), start < l → l ≤ r → -g ≤ G l → r - l < (n : ℝ) * (eps / g) →
      (loop f fp start eps n l l delta).converged = true
  | 0, l, _, h2, _, h4 => by simp at h4; linarith
  | n + 1, l, h1, h2, h3, h4 => by
    have hn := h.neg l h1
    have hF := F_nonneg_of_le h h1 h2 h0
    have hroot := newton_le_root h h1 hr h0
    unfold loop
    simp only [h.re_f l h1, h.re_q l h1]
    split
    · rfl
    · rename_i hc
      rw [abs_of_nonneg hF, not_lt] at hc
      have hstep : eps / g ≤ -(F l / G l) := by
        rw [← div_neg]
        have hG : 0 < -G l := by linarith
        rw [div_le_div_iff₀ hg hG]
        nlinarith
      have hpos : 0 < eps / g := div_pos he hg
      rw [if_neg (by linarith)]
      apply loop_left h hr h0 he hg delta n (l - F l / G l) (by linarith) hroot
      · have := h.slope l (l - F l / G l) h1 (by linarith); linarith
      · push_cast at h4; nlinarith

theorem loop_terminates (h : Branch f fp start F G) {r eps : ℝ} (hr : start < r) (h0 : F r = 0) (he : 0 < eps) :
    ∀ (k : Nat) (delta : ℝ), 0 < delta → delta / 2 ^ k ≤ r - start →
      ∃ N, ∀ n, N ≤ n → (loop f fp start eps n (start + delta) (start + delta) delta).converged = true := by
  have left : ∀ delta : ℝ, 0 < delta → start + delta ≤ r →
      ∃ N, ∀ n, N ≤ n → (loop f fp start eps n (start + delta) (start + delta) delta).converged = true := by
    intro delta hd hle
    have hs : start < start + delta := by linarith
    have hn := h.neg _ hs
    have hgp : 0 < eps / (-G (start + delta)) := div_pos he (by linarith)
    obtain ⟨N, hN⟩ := exists_nat_gt ((r - (start + delta)) / (eps / (-G (start + delta))))
    refine ⟨N, fun n hNn => ?_⟩
    apply loop_left h hr h0 he (g := -G (start + delta)) (by linarith) delta n _ hs hle (by linarith)
    rw [div_lt_iff₀ hgp] at hN
    have : (N : ℝ) ≤ n := by exact_mod_cast hNn
    nlinarith
  intro k
  induction k with
  | zero =>
    intro delta hd hk
    exact left delta hd (by simp at hk; linarith)
  | succ k ih =>
    intro delta hd hk
    by_cases hle : start + delta ≤ r
    · exact left delta hd hle
    · push Not at hle
      obtain ⟨N, hN⟩ := ih (delta / 2) (by linarith) (by
        have : delta / 2 / 2 ^ k = delta / 2 ^ (k + 1) := by rw [pow_succ]; field_simp
        rw [this]; exact hk)
      refine ⟨N + 1, fun n hn => ?_⟩
      obtain ⟨m, rfl⟩ : ∃ m, n = m + 1 := ⟨n - 1, by omega⟩
      have hs : start < start + delta := by linarith
      have hF := F_neg_of_lt h hr hle h0
      unfold loop
      simp only [h.re_f _ hs, h.re_q _ hs]
      split
      · rfl
      · have : 0 < F (start + delta) / G (start + delta) := div_pos_of_neg_of_neg hF (h.neg _ hs)
        rw [if_pos (by linarith)]
        exact hN m (by omega)

/-- Where the loop stops by convergence: at the last evaluated value the sum rule holds to `eps`, and the returned value
    is one Newton step further. -/
theorem loop_last (f fp : ℝ → ℂ) (start eps : ℝ) : ∀ (n : Nat) (l delta : ℝ),
    (loop f fp start eps n l l delta).converged = true →
    ∃ e, (loop f fp start eps n l l delta).evals.getLast? = some e ∧ |(f e).re| < eps ∧
      (loop f fp start eps n l l delta).lam = e - (f e / fp e).re
  | 0, l, delta, h => by simp [loop] at h
  | n + 1, l, delta, h => by
    unfold loop at h ⊢
    simp only at h ⊢
    split
    · rename_i hc; exact ⟨l, by simp, hc, rfl⟩
    · rename_i hc
      rw [if_neg hc] at h
      split
      · rename_i hd
        rw [if_pos hd] at h
        obtain ⟨e, h1, h2, h3⟩ := loop_last f fp start eps n _ _ h
        refine ⟨e, ?_, h2, h3⟩
        rw [List.getLast?_cons, h1]; rfl
      · rename_i hd
        rw [if_neg hd] at h
        obtain ⟨e, h1, h2, h3⟩ := loop_last f fp start eps n _ _ h
        refine ⟨e, ?_, h2, h3⟩
        rw [List.getLast?_cons, h1]; rfl

theorem loop_evals (f fp : ℝ → ℂ) (start eps : ℝ) : ∀ (n : Nat) (l delta : ℝ), start < l → 0 < delta →
    (loop f fp start eps n l l delta).evals.length ≤ n ∧
    (∀ e ∈ (loop f fp start eps n l l delta).evals, start < e) ∧
    ((loop f fp start eps n l l delta).converged = false → start < (loop f fp start eps n l l delta).lam ∧
      (loop f fp start eps n l l delta).evals.length = n)
  | 0, l, delta, h, _ => by simp [loop, h]
  | n + 1, l, delta, h, hd => by
    unfold loop
    simp only
    split
    · simp [h]
    · split
      · obtain ⟨h1, h2, h3⟩ := loop_evals f fp start eps n (start + delta / 2) (delta / 2) (by linarith) (by linarith)
        refine ⟨by simpa using h1, ?_, ?_⟩
        · intro e he
          rcases List.mem_cons.mp he with rfl | he
          · exact h
          · exact h2 e he
        · intro hc; have := h3 hc; exact ⟨this.1, by simp [this.2]⟩
      · rename_i hlt
        obtain ⟨h1, h2, h3⟩ := loop_evals f fp start eps n (l - (f l / fp l).re) delta (by linarith) hd
        refine ⟨by simpa using h1, ?_, ?_⟩
        · intro e he
          rcases List.mem_cons.mp he with rfl | he
          · exact h
          · exact h2 e he
        · intro hc; have := h3 hc; exact ⟨this.1, by simp [this.2]⟩

/-- The evaluated points are restart points `start + delta/2^j` or lie on the left of the root. -/
theorem loop_points (h : Branch f fp start F G) {r eps : ℝ} (hr : start < r) (h0 : F r = 0) (d0 : ℝ) :
    ∀ (n : Nat) (l delta : ℝ), start < l → 0 < delta → delta ≤ d0 →
      ((∃ d, 0 < d ∧ d ≤ d0 ∧ l = start + d) ∨ l ≤ r) →
      ∀ e ∈ (loop f fp start eps n l l delta).evals, (∃ d, 0 < d ∧ d ≤ d0 ∧ e = start + d) ∨ e ≤ r
  | 0, l, delta, _, _, _, _ => by simp [loop]
  | n + 1, l, delta, hl, hd, hdd, hp => by
    unfold loop
    simp only [h.re_f _ hl, h.re_q _ hl]
    split
    · simpa using hp
    · split
      · intro e he
        rcases List.mem_cons.mp he with rfl | he
        · exact hp
        · exact loop_points h hr h0 d0 n _ _ (by linarith) (by linarith) (by linarith)
            (Or.inl ⟨delta / 2, by linarith, by linarith, rfl⟩) e he
      · rename_i hlt
        intro e he
        rcases List.mem_cons.mp he with rfl | he
        · exact hp
        · exact loop_points h hr h0 d0 n _ _ (by linarith) hd hdd (Or.inr (newton_le_root h hl hr h0)) e he

end DGA.Lam
