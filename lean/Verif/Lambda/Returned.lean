import Verif.Lambda.Props
import Mathlib.Algebra.Order.Chebyshev

/-
  C33, continued: the value the search returns fulfils the sum rule, and it is reached within an explicit number of
  iterations (with the default parameters always within the 1000 iterations of the code, for every input of physical size).
-/

open scoped BigOperators

namespace DGA.Lam

section Fast

variable {f fp : ℝ → ℂ} {start : ℝ} {F G : ℝ → ℝ}

/-- One Newton step left of the root divides `F * |G|` by at least four. -/
theorem newton_quarter (h : Branch f fp start F G) {l r : ℝ} (hl : start < l) (hr : start < r)
    (h0 : F r = 0) (hF : 0 < F l) :
    4 * (F (l - F l / G l) * -G (l - F l / G l)) ≤ F l * -G l := by
  have hn := h.neg l hl
  have hpos : 0 < -(F l / G l) := by rw [← div_neg]; exact div_pos hF (by linarith)
  have hl' : start < l - F l / G l := by linarith
  have hroot := newton_le_root h hl hr h0
  have hF' := F_nonneg_of_le h hl' hroot h0
  have hn' := h.neg _ hl'
  have ht := h.tangent (l - F l / G l) l hl' hl
  set F' := F (l - F l / G l)
  set G' := G (l - F l / G l)
  have e : l - (l - F l / G l) = F l / G l := by ring
  rw [e] at ht
  have ht2 : F' * -G l + -G' * F l ≤ F l * -G l := by
    have hg : 0 < -G l := by linarith
    have := mul_le_mul_of_nonneg_right ht hg.le
    have e2 : (F' + G' * (F l / G l)) * -G l = F' * -G l + -G' * F l := by
      have : G l ≠ 0 := hn.ne
      field_simp
      ring
    rwa [e2] at this
  set P := F' * -G l
  set Q := -G' * F l
  have hP : 0 ≤ P := mul_nonneg hF' (by linarith)
  have hQ : 0 ≤ Q := mul_nonneg (by linarith) hF.le
  have hR : 0 < F l * -G l := mul_pos hF (by linarith)
  have h4 : 4 * (P * Q) ≤ (F l * -G l) * (F l * -G l) := by nlinarith [sq_nonneg (P - Q)]
  have h5 : P * Q = (F' * -G') * (F l * -G l) := by simp only [P, Q]; ring
  rw [h5] at h4
  have h6 : (4 * (F' * -G')) * (F l * -G l) ≤ (F l * -G l) * (F l * -G l) := by linarith
  exact le_of_mul_le_mul_right h6 hR

/-- Left of the root: convergence after at most `n + 1` iterations as soon as `F |G| < 4^n eps |G r|`. -/
theorem loop_left_fast (h : Branch f fp start F G) {r eps : ℝ} (hr : start < r) (h0 : F r = 0) (he : 0 < eps)
    (delta : ℝ) : ∀ (n : Nat) (l : ℝ), start < l → l ≤ r → F l * -G l < 4 ^ n * (eps * -G r) →
      ∀ m, n + 1 ≤ m → (loop f fp start eps m l l delta).converged = true
  | n, l, h1, h2, h3, m, hm => by
    obtain ⟨m, rfl⟩ : ∃ m', m = m' + 1 := ⟨m - 1, by omega⟩
    have hn := h.neg l h1
    have hF := F_nonneg_of_le h h1 h2 h0
    unfold loop
    simp only [h.re_f l h1, h.re_q l h1]
    split
    · rfl
    · rename_i hc
      rw [abs_of_nonneg hF, not_lt] at hc
      have hFp : 0 < F l := by linarith
      have hstep : 0 < -(F l / G l) := by rw [← div_neg]; exact div_pos hFp (by linarith)
      rw [if_neg (by linarith)]
      cases n with
      | zero =>
        exfalso
        have hs := h.slope l r h1 h2
        have hGr := h.neg r hr
        have : eps * -G r ≤ F l * -G l := mul_le_mul hc (by linarith) (by linarith) hF
        simp at h3; linarith
      | succ n =>
        refine loop_left_fast h hr h0 he delta n _ (by linarith) (newton_le_root h h1 hr h0) ?_ m (by omega)
        have := newton_quarter h h1 hr h0 hFp
        rw [pow_succ] at h3
        linarith

/-- The whole search: `j` halvings of the start distance plus `k + 1` Newton steps. -/
theorem loop_fast (h : Branch f fp start F G) {r eps dmin : ℝ} (hr : start < r) (h0 : F r = 0) (he : 0 < eps)
    (k : Nat) (hmin : dmin ≤ (r - start) / 2)
    (hb : ∀ d, 0 < d → dmin ≤ d → start + d ≤ r → F (start + d) * -G (start + d) < 4 ^ k * (eps * -G r)) :
    ∀ (j : Nat) (delta : ℝ), 0 < delta → dmin ≤ delta → delta ≤ 2 ^ j * (r - start) →
      ∀ n, j + k + 1 ≤ n → (loop f fp start eps n (start + delta) (start + delta) delta).converged = true
  | j, delta, hd, hdm, hj, n, hn => by
    by_cases hle : start + delta ≤ r
    · exact loop_left_fast h hr h0 he delta k _ (by linarith) hle (hb delta hd hdm hle) n (by omega)
    · cases j with
      | zero => simp at hj; linarith
      | succ j =>
        obtain ⟨n, rfl⟩ : ∃ m, n = m + 1 := ⟨n - 1, by omega⟩
        have hs : start < start + delta := by linarith
        have hF := F_neg_of_lt h hr (not_le.mp hle) h0
        have hG := h.neg _ hs
        unfold loop
        simp only [h.re_f _ hs, h.re_q _ hs]
        split
        · rfl
        · have : 0 < F (start + delta) / G (start + delta) := div_pos_of_neg_of_neg hF hG
          rw [if_pos (by linarith)]
          exact loop_fast h hr h0 he k hmin hb j (delta / 2) (by linarith) (by linarith)
            (by rw [pow_succ] at hj; linarith) n (by omega)

end Fast

section Search

variable {nq nw : Nat} {chi : Fin nq → Fin nw → ℝ}

/-- Bounds on the sum rule and its slope at distance `d` above the pole. -/
theorem sumRule_bounds {hw : 0 < nw} (hp : Physical chi hw) (hq : 0 < nq) {s beta d : ℝ} (hb : 0 < beta) (hd : 0 < d)
    (hs : getLambdaStart (rows chi) = some s) :
    1 / (beta * nq * d) ≤ sumRule beta chi (s + d) ∧ sumRule beta chi (s + d) ≤ nw / (beta * d) ∧
    -slope beta chi (s + d) ≤ nw / (beta * d ^ 2) ∧
    beta * sumRule beta chi (s + d) ^ 2 / nw ≤ -slope beta chi (s + d) := by
  have hqr : (0 : ℝ) < nq := by exact_mod_cast hq
  have hwr : (0 : ℝ) < nw := by exact_mod_cast hw
  have hsd : s < s + d := by linarith
  have dp := fun q w => denom_pos hp hq hs hsd q w
  have hinv : ∀ q w, 0 < 1 / (1 / chi q w + (s + d)) ∧ 1 / (1 / chi q w + (s + d)) ≤ 1 / d := fun q w =>
    ⟨one_div_pos.mpr (dp q w).2, one_div_le_one_div_of_le hd (by have := (dp q w).1; linarith)⟩
  obtain ⟨s', e1, _, q0, e2⟩ := getLambdaStart_spec chi hq hw
  have hs2 := hs
  rw [e1] at hs2; cases hs2
  refine ⟨?_, ?_, ?_, ?_⟩
  · have hterm : 1 / (1 / chi q0 ⟨nw / 2, by omega⟩ + (s + d)) = 1 / d := by rw [← e2]; ring_nf
    have h1 : 1 / d ≤ ∑ q, ∑ w, 1 / (1 / chi q w + (s + d)) := by
      rw [← hterm]
      refine le_trans ?_ (Finset.single_le_sum (f := fun q => ∑ w, 1 / (1 / chi q w + (s + d)))
        (fun q _ => Finset.sum_nonneg fun w _ => (hinv q w).1.le) (Finset.mem_univ q0))
      exact Finset.single_le_sum (f := fun w => 1 / (1 / chi q0 w + (s + d)))
        (fun w _ => (hinv q0 w).1.le) (Finset.mem_univ _)
    have hc : (0 : ℝ) ≤ 1 / beta * (1 / nq) := by positivity
    have := mul_le_mul_of_nonneg_left h1 hc
    calc 1 / (beta * nq * d) = 1 / beta * (1 / nq) * (1 / d) := by field_simp
      _ ≤ _ := this
      _ = _ := by simp only [sumRule]; ring
  · have h1 : ∑ q, ∑ w, 1 / (1 / chi q w + (s + d)) ≤ nq * (nw * (1 / d)) := by
      calc _ ≤ ∑ q : Fin nq, ∑ w : Fin nw, 1 / d :=
            Finset.sum_le_sum fun q _ => Finset.sum_le_sum fun w _ => (hinv q w).2
        _ = _ := by simp
    have hc : (0 : ℝ) ≤ 1 / beta * (1 / nq) := by positivity
    have := mul_le_mul_of_nonneg_left h1 hc
    calc sumRule beta chi (s + d) = _ := by simp only [sumRule]; rw [div_eq_mul_one_div _ (nq : ℝ), mul_comm _ (1 / (nq : ℝ)), ← mul_assoc]
      _ ≤ _ := this
      _ = _ := by field_simp
  · have h1 : ∑ q, ∑ w, (1 / (1 / chi q w + (s + d))) ^ 2 ≤ nq * (nw * (1 / d) ^ 2) := by
      calc _ ≤ ∑ q : Fin nq, ∑ w : Fin nw, (1 / d) ^ 2 :=
            Finset.sum_le_sum fun q _ => Finset.sum_le_sum fun w _ => pow_le_pow_left₀ (hinv q w).1.le (hinv q w).2 2
        _ = _ := by simp
    have hc : (0 : ℝ) ≤ 1 / beta * (1 / nq) := by positivity
    have := mul_le_mul_of_nonneg_left h1 hc
    calc -slope beta chi (s + d) = 1 / beta * (1 / nq) * ∑ q, ∑ w, (1 / (1 / chi q w + (s + d))) ^ 2 := by
          simp only [slope]; ring
      _ ≤ _ := this
      _ = _ := by field_simp
  · have hcs : (∑ q, ∑ w, 1 / (1 / chi q w + (s + d))) ^ 2 ≤
        (nq * nw) * ∑ q, ∑ w, (1 / (1 / chi q w + (s + d))) ^ 2 := by
      have := sq_sum_le_card_mul_sum_sq (s := (Finset.univ : Finset (Fin nq × Fin nw)))
        (f := fun p => 1 / (1 / chi p.1 p.2 + (s + d)))
      rw [Fintype.sum_prod_type, Fintype.sum_prod_type] at this
      simpa using this
    have hc : (0 : ℝ) ≤ 1 / (beta * nq ^ 2 * nw) := by positivity
    have := mul_le_mul_of_nonneg_left hcs hc
    calc beta * sumRule beta chi (s + d) ^ 2 / nw
        = 1 / (beta * nq ^ 2 * nw) * (∑ q, ∑ w, 1 / (1 / chi q w + (s + d))) ^ 2 := by
          simp only [sumRule]; field_simp
      _ ≤ _ := this
      _ = 1 / beta * (1 / nq) * ∑ q, ∑ w, (1 / (1 / chi q w + (s + d))) ^ 2 := by field_simp
      _ = _ := by simp only [slope]; ring

/-- Explicit iteration bound: `j` with `delta * beta * nq * target ≤ 2^j` halvings and `k + 1` Newton steps with
    `nw^3 < 4^k * eps * beta^3 * target^2 * d^3`, `d` being the smaller of `delta` and `1 / (2 beta nq target)`, suffice. -/
theorem search_converges_within {hw : 0 < nw} (hp : Physical chi hw) (hq : 0 < nq) {s beta : ℝ} (hb : 0 < beta)
    (hs : getLambdaStart (rows chi) = some s) (target : ℂ) (ht : 0 < target.re) (eps delta : ℝ) (he : 0 < eps)
    (hd : 0 < delta) (j k : Nat) (hj : delta * (beta * nq * target.re) ≤ 2 ^ j)
    (hk : (nw : ℝ) ^ 3 < 4 ^ k * (eps * beta ^ 3 * target.re ^ 2 * min delta (1 / (2 * (beta * nq * target.re))) ^ 3))
    (n : Nat) (hn : j + k + 1 ≤ n) : (single beta s (rows chi) target n eps delta).converged = true := by
  have hqr : (0 : ℝ) < nq := by exact_mod_cast hq
  have hwr : (0 : ℝ) < nw := by exact_mod_cast hw
  obtain ⟨r, hr, hr2⟩ := (sum_rule_root hp hq hb hs target.re).2.mpr ht
  have hbr := branch hp hq hb hs target
  set c := beta * nq * target.re with hcdef
  have hcp : 0 < c := by positivity
  have hrs : 0 < r - s := by linarith
  have hB := sumRule_bounds hp hq hb hrs hs
  rw [show s + (r - s) = r by ring, hr2] at hB
  obtain ⟨b1, -, -, b4⟩ := hB
  have hrc : 1 / c ≤ r - s := by
    rw [div_le_iff₀ (by positivity)] at b1
    rw [div_le_iff₀ hcp, hcdef]; linarith
  set dmin := min delta (1 / (2 * c)) with hdm
  have hdmp : 0 < dmin := lt_min hd (by positivity)
  refine loop_fast hbr hr (by simp [hr2]) he k (dmin := dmin) ?_ ?_ j delta hd (min_le_left _ _) ?_ n hn
  · have h1 : dmin ≤ 1 / (2 * c) := min_le_right _ _
    have h2 : 1 / (2 * c) = 1 / c / 2 := by field_simp
    linarith
  · intro d hdpos hdmin hdr
    obtain ⟨-, a2, a3, -⟩ := sumRule_bounds hp hq hb hdpos hs
    have hF : sumRule beta chi (s + d) - target.re ≤ nw / (beta * dmin) := by
      have : (nw : ℝ) / (beta * d) ≤ nw / (beta * dmin) := by gcongr
      linarith
    have hG : -slope beta chi (s + d) ≤ nw / (beta * dmin ^ 2) := by
      have : (nw : ℝ) / (beta * d ^ 2) ≤ nw / (beta * dmin ^ 2) := by gcongr
      linarith
    have hGp : 0 < -slope beta chi (s + d) := by have := hbr.neg (s + d) (by linarith); linarith
    have hprod : (sumRule beta chi (s + d) - target.re) * -slope beta chi (s + d) ≤
        nw / (beta * dmin) * (nw / (beta * dmin ^ 2)) :=
      mul_le_mul hF hG hGp.le (by positivity)
    have hright : 4 ^ k * (eps * (beta * target.re ^ 2 / nw)) ≤ 4 ^ k * (eps * -slope beta chi r) := by gcongr
    refine lt_of_le_of_lt hprod (lt_of_lt_of_le ?_ hright)
    have e1 : (nw : ℝ) / (beta * dmin) * (nw / (beta * dmin ^ 2)) = nw ^ 3 / (nw * beta ^ 2 * dmin ^ 3) := by
      field_simp
    have e2 : 4 ^ k * (eps * (beta * target.re ^ 2 / nw)) =
        4 ^ k * (eps * beta ^ 3 * target.re ^ 2 * dmin ^ 3) / (nw * beta ^ 2 * dmin ^ 3) := by
      field_simp
    rw [e1, e2]
    gcongr
  · have h1 : delta ≤ 2 ^ j * (1 / c) := by
      rw [mul_one_div, le_div_iff₀ hcp]; exact hj
    refine h1.trans ?_
    gcongr

/-- The search with the parameters of the code (`maxiter = 1000`, `eps = 1e-7`, `delta = 0.1`) converges for every physical
    susceptibility with `nq, nw ≤ 1e12`, `1e-6 ≤ beta ≤ 1e6` and local sum rule value between `1e-6` and `1e6`. -/
theorem default_search_converges {hw : 0 < nw} (hp : Physical chi hw) (hq : 0 < nq) {s beta : ℝ}
    (hs : getLambdaStart (rows chi) = some s) (target : ℂ) (hb : 1e-6 ≤ beta) (hb2 : beta ≤ 1e6)
    (ht : 1e-6 ≤ target.re) (ht2 : target.re ≤ 1e6) (hnq : (nq : ℝ) ≤ 1e12) (hnw : (nw : ℝ) ≤ 1e12) :
    (single beta s (rows chi) target).converged = true := by
  have hqr : (0 : ℝ) < nq := by exact_mod_cast hq
  have hwr : (0 : ℝ) < nw := by exact_mod_cast hw
  have hb0 : 0 < beta := by norm_num at hb; linarith
  have ht0 : 0 < target.re := by norm_num at ht; linarith
  have hc : beta * nq * target.re ≤ 1e24 := by
    calc beta * nq * target.re ≤ 1e6 * 1e12 * 1e6 := by gcongr
      _ = _ := by norm_num
  have hcp : 0 < beta * nq * target.re := by positivity
  apply search_converges_within hp hq hb0 hs target ht0 1e-7 0.1 (by norm_num) (by norm_num) 80 250
  · calc (0.1 : ℝ) * (beta * nq * target.re) ≤ 0.1 * 1e24 := by gcongr
      _ ≤ 2 ^ 80 := by norm_num
  · have hm : (4e-25 : ℝ) ≤ min 0.1 (1 / (2 * (beta * nq * target.re))) := by
      apply le_min (by norm_num)
      rw [le_div_iff₀ (by positivity)]
      calc (4e-25 : ℝ) * (2 * (beta * nq * target.re)) ≤ 4e-25 * (2 * 1e24) := by gcongr
        _ ≤ 1 := by norm_num
    calc (nw : ℝ) ^ 3 ≤ (1e12) ^ 3 := by gcongr
      _ < 4 ^ 250 * (1e-7 * (1e-6) ^ 3 * (1e-6) ^ 2 * (4e-25) ^ 3) := by norm_num
      _ ≤ _ := by gcongr
  · norm_num

/-- The value returned on convergence fulfils the sum rule: the corrected sum is not below the target and exceeds it by
    less than `eps`, provided `2 * eps * beta * nq * delta ≤ 1` (for the default parameters `beta * nq ≤ 5e7`). -/
theorem returned_sum_rule {hw : 0 < nw} (hp : Physical chi hw) (hq : 0 < nq) {s beta : ℝ} (hb : 0 < beta)
    (hs : getLambdaStart (rows chi) = some s) (target : ℂ) (ht : 0 < target.re) (maxiter : Nat) (eps delta : ℝ)
    (he : 0 < eps) (hd : 0 < delta) (hsmall : 2 * (eps * beta * nq * delta) ≤ 1)
    (hconv : (single beta s (rows chi) target maxiter eps delta).converged = true) :
    0 ≤ sumRule beta chi (single beta s (rows chi) target maxiter eps delta).lam - target.re ∧
    sumRule beta chi (single beta s (rows chi) target maxiter eps delta).lam - target.re < eps := by
  have hqr : (0 : ℝ) < nq := by exact_mod_cast hq
  have hwr : (0 : ℝ) < nw := by exact_mod_cast hw
  have hbr := branch hp hq hb hs target
  obtain ⟨r, hr, hr2⟩ := (sum_rule_root hp hq hb hs target.re).2.mpr ht
  have hpole := returned_above_pole hp hq hb hs target ht maxiter eps delta he hd (by linarith)
  obtain ⟨e, h1, h2, h3⟩ := converged_sum_rule beta s (rows chi) target maxiter eps delta hconv
  have hmem := List.mem_of_getLast? h1
  have hse := (search_above_pole beta s (rows chi) target maxiter eps delta hd).2.1 e hmem
  have hre := hbr.re_f e hse
  rw [hre] at h2
  have hq2 := hbr.re_q e hse
  rw [hq2] at h3
  have h0 : (fun lam => sumRule beta chi lam - target.re) r = 0 := by simp [hr2]
  have hroot : e - (sumRule beta chi e - target.re) / slope beta chi e ≤ r := newton_le_root hbr hse hr h0
  rw [← h3] at hroot
  have hnonneg : 0 ≤ sumRule beta chi (single beta s (rows chi) target maxiter eps delta).lam - target.re :=
    F_nonneg_of_le hbr hpole hroot h0
  refine ⟨hnonneg, ?_⟩
  have hneg : slope beta chi e < 0 := hbr.neg e hse
  by_cases hle : e ≤ r
  · have hF : 0 ≤ sumRule beta chi e - target.re := F_nonneg_of_le hbr hse hle h0
    have hstep : (sumRule beta chi e - target.re) / slope beta chi e ≤ 0 := div_nonpos_of_nonneg_of_nonpos hF hneg.le
    have hge : e ≤ (single beta s (rows chi) target maxiter eps delta).lam := by rw [h3]; linarith
    have hFe : sumRule beta chi (single beta s (rows chi) target maxiter eps delta).lam - target.re ≤
        sumRule beta chi e - target.re := by
      rcases hge.eq_or_lt with h | h
      · rw [← h]
      · exact (hbr.anti e _ hse h).le
    rw [abs_of_nonneg hF] at h2
    linarith
  · have hpt := loop_points hbr hr h0 delta maxiter (s + delta) delta (by linarith) hd le_rfl
      (Or.inl ⟨delta, hd, le_rfl, rfl⟩) e hmem
    rcases hpt with ⟨d, hd1, hd2, rfl⟩ | h
    swap
    · exact absurd h hle
    have hFneg : sumRule beta chi (s + d) - target.re < 0 := F_neg_of_lt hbr hr (not_le.mp hle) h0
    obtain ⟨-, -, -, b4⟩ := sumRule_bounds hp hq hb hd1 hs
    -- the slope is at least 1 / (beta nq d^2)
    obtain ⟨s', e1, _, q0, e2⟩ := getLambdaStart_spec chi hq hw
    have hs2 := hs
    rw [e1] at hs2; cases hs2
    have hG : 1 / (beta * nq * d ^ 2) ≤ -slope beta chi (s + d) := by
      have hterm : (1 / (1 / chi q0 ⟨nw / 2, by omega⟩ + (s + d))) ^ 2 = 1 / d ^ 2 := by
        rw [← e2]; ring_nf
      have : 1 / d ^ 2 ≤ ∑ q, ∑ w, (1 / (1 / chi q w + (s + d))) ^ 2 := by
        rw [← hterm]
        refine le_trans ?_ (Finset.single_le_sum (f := fun q => ∑ w, (1 / (1 / chi q w + (s + d))) ^ 2)
          (fun q _ => Finset.sum_nonneg fun w _ => sq_nonneg _) (Finset.mem_univ q0))
        exact Finset.single_le_sum (f := fun w => (1 / (1 / chi q0 w + (s + d))) ^ 2)
          (fun w _ => sq_nonneg _) (Finset.mem_univ _)
      have hc : (0 : ℝ) ≤ 1 / beta * (1 / nq) := by positivity
      have := mul_le_mul_of_nonneg_left this hc
      calc 1 / (beta * nq * d ^ 2) = 1 / beta * (1 / nq) * (1 / d ^ 2) := by field_simp
        _ ≤ _ := this
        _ = _ := by simp only [slope]; ring
    set Fv := sumRule beta chi (s + d) - target.re with hFv
    set Gv := slope beta chi (s + d) with hGv
    set σ := Fv / Gv with hσ
    have hGp : 0 < -Gv := by linarith
    have hσp : 0 < σ := div_pos_of_neg_of_neg hFneg hneg
    have hσF : σ * -Gv = -Fv := by rw [hσ, mul_neg, div_mul_cancel₀ _ hneg.ne]
    rw [abs_of_neg hFneg] at h2
    have hσd : σ ≤ d / 2 := by
      have h5 : eps ≤ d / 2 * (1 / (beta * nq * d ^ 2)) := by
        have : d / 2 * (1 / (beta * nq * d ^ 2)) = 1 / (2 * (beta * nq * d)) := by field_simp
        rw [this, le_div_iff₀ (by positivity)]
        have : eps * (beta * nq * d) ≤ eps * (beta * nq * delta) := by gcongr
        linarith
      have h6 : d / 2 * (1 / (beta * nq * d ^ 2)) ≤ d / 2 * (-Gv) := mul_le_mul_of_nonneg_left hG (by linarith)
      have h7 : σ * -Gv ≤ d / 2 * -Gv := by linarith
      exact le_of_mul_le_mul_right h7 hGp
    -- each term grows by at most `2 σ / D^2`
    have hsum : sumRule beta chi (s + d - σ) ≤ sumRule beta chi (s + d) + 2 * σ * -Gv := by
      have hterm : ∑ q, ∑ w, 1 / (1 / chi q w + (s + d - σ)) ≤
          ∑ q, ∑ w, (1 / (1 / chi q w + (s + d)) + 2 * σ * (1 / (1 / chi q w + (s + d))) ^ 2) := by
        refine Finset.sum_le_sum fun q _ => Finset.sum_le_sum fun w _ => ?_
        obtain ⟨d1, d2⟩ := denom_pos hp hq hs (show s < s + d by linarith) q w
        set D := 1 / chi q w + (s + d)
        have hD : 1 / chi q w + (s + d - σ) = D - σ := by simp only [D]; ring
        rw [hD]
        have hDs : D / 2 ≤ D - σ := by linarith
        have hD2 : 0 < D - σ := by linarith
        have e3 : 1 / D + 2 * σ * (1 / D) ^ 2 - 1 / (D - σ) = σ * (D - 2 * σ) / (D ^ 2 * (D - σ)) := by
          field_simp; ring
        have : 0 ≤ σ * (D - 2 * σ) / (D ^ 2 * (D - σ)) := by
          apply div_nonneg (mul_nonneg hσp.le (by linarith)) (by positivity)
        linarith
      have hc : (0 : ℝ) ≤ 1 / beta * (1 / nq) := by positivity
      have := mul_le_mul_of_nonneg_left hterm hc
      simp only [Finset.sum_add_distrib, ← Finset.mul_sum] at this
      simp only [hGv, sumRule, slope]
      have e4 : 1 / beta * (1 / (nq : ℝ)) * (∑ q, ∑ w, 1 / (1 / chi q w + (s + d)) +
          2 * σ * ∑ q, ∑ w, (1 / (1 / chi q w + (s + d))) ^ 2) =
          1 / beta * ((∑ q, ∑ w, 1 / (1 / chi q w + (s + d))) / nq) +
          2 * σ * -(-1 / beta * ((∑ q, ∑ w, (1 / (1 / chi q w + (s + d))) ^ 2) / nq)) := by ring
      have e5 : 1 / beta * (1 / (nq : ℝ)) * (∑ q, ∑ w, 1 / (1 / chi q w + (s + d - σ))) =
          1 / beta * ((∑ q, ∑ w, 1 / (1 / chi q w + (s + d - σ))) / nq) := by ring
      rw [e4, e5] at this
      exact this
    rw [h3]
    linarith

/-- What the user sees: `1/beta * mean_q sum_w` of a real array `[q][w]`. -/
noncomputable def total (beta : ℝ) (x : Fin nq → Fin nw → ℝ) : ℝ := 1 / beta * ((∑ q, ∑ w, x q w) / nq)

theorem default_single {hw : 0 < nw} (hq : 0 < nq) {beta : ℝ} (hb : 1e-6 ≤ beta) (hb2 : beta ≤ 1e6)
    (hbn : beta * nq ≤ 5e7) (hnw : (nw : ℝ) ≤ 1e12) (hnq : (nq : ℝ) ≤ 1e12) :
    ∀ (chi : Fin nq → Fin nw → ℝ), Physical chi hw → ∀ t : ℂ, 1e-6 ≤ t.re → t.re ≤ 1e6 →
      ∀ s, getLambdaStart (rows chi) = some s →
    (∀ q w, 0 < 1 / (1 / chi q w + (single beta s (rows chi) t).lam)) ∧
    0 ≤ total beta (fun q w => 1 / (1 / chi q w + (single beta s (rows chi) t).lam)) - t.re ∧
    total beta (fun q w => 1 / (1 / chi q w + (single beta s (rows chi) t).lam)) - t.re < 1e-7 := by
  have hb0 : 0 < beta := by norm_num at hb; linarith
  intro chi hc t h1 h2 s hs
  have ht0 : 0 < t.re := by norm_num at h1; linarith
  have hconv := default_search_converges hc hq hs t hb hb2 h1 h2 hnq hnw
  have hsm : 2 * ((1e-7 : ℝ) * beta * nq * 0.1) ≤ 1 := by
    have : (1e-7 : ℝ) * beta * nq * 0.1 = 1e-8 * (beta * nq) := by ring
    rw [this]; norm_num at hbn ⊢; linarith
  have hret := returned_sum_rule hc hq hb0 hs t ht0 1000 1e-7 0.1 (by norm_num) (by norm_num) hsm hconv
  have habove := returned_above_pole hc hq hb0 hs t ht0 1000 1e-7 0.1 (by norm_num) (by norm_num) (by linarith)
  exact ⟨fun q w => one_div_pos.mpr (denom_pos hc hq hs habove q w).2, hret.1, hret.2⟩

/-- End to end, mode 'spch' with the parameters of the code: for physical susceptibilities of physical size the call
    succeeds and returns positive susceptibilities whose sums equal the local ones to within `1e-7` (never below). -/
theorem spch_sum_rules {hw : 0 < nw} {dens magn : Fin nq → Fin nw → ℝ} (hd : Physical dens hw) (hm : Physical magn hw)
    (hq : 0 < nq) {beta : ℝ} (hb : 1e-6 ≤ beta) (hb2 : beta ≤ 1e6) (hbn : beta * nq ≤ 5e7) (hnw : (nw : ℝ) ≤ 1e12)
    (ld lm : List ℂ) (td : 1e-6 ≤ (1 / (beta : ℂ) * ld.sum).re) (td2 : (1 / (beta : ℂ) * ld.sum).re ≤ 1e6)
    (tm : 1e-6 ≤ (1 / (beta : ℂ) * lm.sum).re) (tm2 : (1 / (beta : ℂ) * lm.sum).re ≤ 1e6) (hnq : (nq : ℝ) ≤ 1e12) :
    ∃ (r : Corrected) (d' m' : Fin nq → Fin nw → ℝ),
      lambdaCorrection (rows dens) (rows magn) beta ld lm "spch" = .ok r ∧ r.dens = rows d' ∧ r.magn = rows m' ∧
      (∀ q w, 0 < d' q w ∧ 0 < m' q w) ∧
      0 ≤ total beta d' - (1 / (beta : ℂ) * ld.sum).re ∧ total beta d' - (1 / (beta : ℂ) * ld.sum).re < 1e-7 ∧
      0 ≤ total beta m' - (1 / (beta : ℂ) * lm.sum).re ∧ total beta m' - (1 / (beta : ℂ) * lm.sum).re < 1e-7 := by
  have key := default_single (hw := hw) hq hb hb2 hbn hnw hnq
  obtain ⟨sd, hsd, -⟩ := getLambdaStart_spec dens hq hw
  obtain ⟨sm, hsm, -⟩ := getLambdaStart_spec magn hq hw
  obtain ⟨p1, p2, p3⟩ := key dens hd _ td td2 sd hsd
  obtain ⟨q1, q2, q3⟩ := key magn hm _ tm tm2 sm hsm
  refine ⟨⟨useLambda (rows dens) _, useLambda (rows magn) _, (single beta sd (rows dens) (1 / (beta : ℂ) * ld.sum)).lam,
    (single beta sm (rows magn) (1 / (beta : ℂ) * lm.sum)).lam⟩, _, _, ?_, useLambda_rows dens _, useLambda_rows magn _, fun q w => ⟨p1 q w, q1 q w⟩, p2, p3, q2, q3⟩
  simp [lambdaCorrection, hsd, hsm]

/-- End to end, mode 'sp' with the parameters of the code: the density channel is returned unchanged, the magnetic one is
    positive, and together they fulfil the total sum rule to within `1e-7` (never below). -/
theorem sp_sum_rule {hw : 0 < nw} {dens magn : Fin nq → Fin nw → ℝ} (hm : Physical magn hw)
    (hq : 0 < nq) {beta : ℝ} (hb : 1e-6 ≤ beta) (hb2 : beta ≤ 1e6) (hbn : beta * nq ≤ 5e7) (hnw : (nw : ℝ) ≤ 1e12)
    (hnq : (nq : ℝ) ≤ 1e12) (ld lm : List ℂ) (hlen : lm.length = ld.length)
    (t : 1e-6 ≤ (1 / (beta : ℂ) * (lm.sum + ld.sum)).re - total beta dens)
    (t2 : (1 / (beta : ℂ) * (lm.sum + ld.sum)).re - total beta dens ≤ 1e6) :
    ∃ (r : Corrected) (m' : Fin nq → Fin nw → ℝ),
      lambdaCorrection (rows dens) (rows magn) beta ld lm "sp" = .ok r ∧ r.dens = rows dens ∧ r.magn = rows m' ∧
      (∀ q w, 0 < m' q w) ∧
      0 ≤ total beta dens + total beta m' - (1 / (beta : ℂ) * (lm.sum + ld.sum)).re ∧
      total beta dens + total beta m' - (1 / (beta : ℂ) * (lm.sum + ld.sum)).re < 1e-7 := by
  obtain ⟨sm, hsm, -⟩ := getLambdaStart_spec magn hq hw
  have hok : ∃ r, lambdaCorrection (rows dens) (rows magn) beta ld lm "sp" = .ok r := by
    simp [lambdaCorrection, hsm]
  obtain ⟨r, hr⟩ := hok
  obtain ⟨s, T, hs, hlam, hT⟩ := sp_target _ _ _ _ _ hlen r hr
  obtain ⟨e1, -, e3⟩ := sp_only_magn _ _ _ _ _ r hr
  have htot : chirSum beta (rows dens) 0 = ((total beta dens : ℝ) : ℂ) := by
    rw [chirSum_rows]; simp [sumRule, total]
  have hTre : T.re = (1 / (beta : ℂ) * (lm.sum + ld.sum)).re - total beta dens := by
    rw [← hT, htot, Complex.add_re, Complex.ofReal_re]; ring
  obtain ⟨p1, p2, p3⟩ := default_single (hw := hw) hq hb hb2 hbn hnw hnq magn hm T (by rw [hTre]; exact t)
    (by rw [hTre]; exact t2) s hs
  rw [hTre] at p2 p3
  refine ⟨r, _, hr, e1, ?_, p1, ?_, ?_⟩
  · rw [e3, hlam, useLambda_rows]
  · linarith
  · linarith

/-- A concrete case: constant susceptibility 2 on two momenta and three frequencies at `beta = 10`, target 0.3. -/
example : ∃ (s : ℝ), getLambdaStart (rows fun (_ : Fin 2) (_ : Fin 3) => (2 : ℝ)) = some s ∧
    (single 10 s (rows fun (_ : Fin 2) (_ : Fin 3) => (2 : ℝ)) ((3 / 10 : ℝ) : ℂ)).converged = true := by
  obtain ⟨s, h, _⟩ := getLambdaStart_spec (fun (_ : Fin 2) (_ : Fin 3) => (2 : ℝ)) (by decide) (by decide)
  refine ⟨s, h, default_search_converges (hw := by decide) ⟨fun _ _ => by norm_num, fun _ _ => ⟨0, le_rfl⟩⟩ (by decide) h _
    (by norm_num) (by norm_num) ?_ ?_ (by norm_num) (by norm_num)⟩ <;> rw [Complex.ofReal_re] <;> norm_num

/-- The hypotheses of `spch_sum_rules` are met: susceptibilities 2 and 5 on two momenta and three frequencies, local sums 3
    and 4, `beta = 10`. -/
example : ∃ (r : Corrected) (d' m' : Fin 2 → Fin 3 → ℝ),
    lambdaCorrection (rows fun (_ : Fin 2) (_ : Fin 3) => (2 : ℝ)) (rows fun (_ : Fin 2) (_ : Fin 3) => (5 : ℝ)) 10 [3] [4]
      "spch" = .ok r ∧ r.dens = rows d' ∧ r.magn = rows m' ∧ 0 ≤ total 10 d' - 3 / 10 ∧ total 10 d' - 3 / 10 < 1e-7 := by
  have e3 : (1 / ((10 : ℝ) : ℂ) * [(3 : ℂ)].sum).re = 3 / 10 := by
    rw [show (1 / ((10 : ℝ) : ℂ) * [(3 : ℂ)].sum) = ((3 / 10 : ℝ) : ℂ) by push_cast; simp; ring, Complex.ofReal_re]
  have e4 : (1 / ((10 : ℝ) : ℂ) * [(4 : ℂ)].sum).re = 4 / 10 := by
    rw [show (1 / ((10 : ℝ) : ℂ) * [(4 : ℂ)].sum) = ((4 / 10 : ℝ) : ℂ) by push_cast; simp; ring, Complex.ofReal_re]
  obtain ⟨r, d', m', h1, h2, h3, -, h5, h6, -, -⟩ := spch_sum_rules (nq := 2) (nw := 3) (hw := by decide)
    (dens := fun _ _ => 2) (magn := fun _ _ => 5)
    ⟨fun _ _ => by norm_num, fun _ _ => ⟨0, le_rfl⟩⟩ ⟨fun _ _ => by norm_num, fun _ _ => ⟨0, le_rfl⟩⟩ (by decide)
    (beta := 10) (by norm_num) (by norm_num) (by norm_num) (by norm_num) [3] [4]
    (by rw [e3]; norm_num) (by rw [e3]; norm_num) (by rw [e4]; norm_num) (by rw [e4]; norm_num) (by norm_num)
  rw [e3] at h5 h6
  exact ⟨r, d', m', h1, h2, h3, h5, h6⟩

end Search

end DGA.Lam
