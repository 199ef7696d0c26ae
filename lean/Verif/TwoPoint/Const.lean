import Verif.TwoPoint.GfState

/-
  `sigma_const` (two_point.py:65-68): a self-energy that is meant to be constant.
-/

noncomputable section

namespace DGA.Two

open DGA.Mf DGA.Bubble

/-- two_point.py:65-68 `sigma_const(beta, delta, nk, v)` for `K` momenta and `L` frequencies (`err` and `niv_core` have their
    defaults, two_point.py:76) -/
def sigmaConst (beta delta : ℝ) (K L : Nat) : SelfEnergy :=
  newSelfEnergy (List.replicate K (List.replicate L (-Complex.I * delta))) beta false none none (1 / 10000) none

/-- mean of the Matsubara frequencies of which the moments are fitted (the last `max(4, niv/5)` of `niv`) -/
def vBar (beta : ℝ) (niv : Nat) : ℝ :=
  let idx := Py.sliceFrom (List.range niv) ((niv : Int) - nFreqFit niv)
  (idx.map fun n : Nat => Real.pi / beta * (2 * n + 1)).sum / idx.length

theorem sigmaConst_rows (beta delta : ℝ) (K L : Nat) :
    (sigmaConst beta delta K L).sigma = List.replicate K (List.replicate (L - L / 2) (-Complex.I * delta)) := by
  unfold sigmaConst newSelfEnergy positiveHalf
  simp only [Bool.false_eq_true, if_false, List.map_replicate, List.length_replicate]
  congr 1
  unfold Py.sliceFrom
  rw [List.drop_replicate, List.length_replicate, Py.clip_of_nonneg _ _ (by omega) (by omega), Int.toNat_natCast]

theorem kMean_const (c : ℂ) (K N n : Nat) (hK : 0 < K) (hn : n < N) : kMean (List.replicate K (List.replicate N c)) n = c := by
  unfold kMean
  rw [List.map_replicate, List.sum_replicate, List.length_replicate]
  have : (K : ℂ) ≠ 0 := by exact_mod_cast (by omega)
  simp [List.getD, hn]
  field_simp

/-- the fitted moments -/
theorem sigmaConst_moments (beta delta : ℝ) (K L : Nat) (hK : 0 < K) :
    (sigmaConst beta delta K L).smom0 = 0 ∧ (sigmaConst beta delta K L).smom1 = -delta * vBar beta (L - L / 2) ∧
      (sigmaConst beta delta K L).beta = beta := by
  have hr := sigmaConst_rows beta delta K L
  have e : (sigmaConst beta delta K L).smom0 = (fitSmom beta (sigmaConst beta delta K L).sigma
      (((sigmaConst beta delta K L).sigma.head?.map List.length).getD 0)).1 ∧ (sigmaConst beta delta K L).smom1 =
      (fitSmom beta (sigmaConst beta delta K L).sigma (((sigmaConst beta delta K L).sigma.head?.map List.length).getD 0)).2 := ⟨rfl, rfl⟩
  rw [hr] at e
  have hh : ((List.replicate K (List.replicate (L - L / 2) (-Complex.I * (delta : ℂ)))).head?.map List.length).getD 0 = L - L / 2 := by
    obtain ⟨K', rfl⟩ : ∃ K', K = K' + 1 := ⟨K - 1, by omega⟩
    simp [List.replicate_succ]
  rw [hh] at e
  have hmem : ∀ n ∈ Py.sliceFrom (List.range (L - L / 2)) (((L - L / 2 : Nat) : Int) - nFreqFit (L - L / 2)), n < L - L / 2 := by
    intro n hn
    exact List.mem_range.mp (List.mem_of_mem_drop hn)
  refine ⟨?_, ?_, rfl⟩
  · rw [e.1]
    unfold fitSmom
    simp only
    rw [List.map_congr_left (g := fun _ => (0 : ℝ))]
    · simp
    · intro n hn
      rw [kMean_const _ _ _ _ hK (hmem n hn)]
      simp
  · rw [e.2]
    unfold fitSmom vBar
    simp only
    rw [List.map_congr_left (g := fun n : Nat => -delta * (Real.pi / beta * (2 * n + 1)))]
    · rw [List.sum_map_mul_left, mul_div_assoc]
    · intro n hn
      rw [kMean_const _ _ _ _ hK (hmem n hn)]
      simp [iv]

/-- **C114 (g, finding).** `sigma_const` is constant on the stored frequencies below its core size only; beyond it is
    `-i delta * vbar / v_n`, where `vbar` is the mean of the fitted frequencies. -/
theorem sigmaConst_value (beta delta : ℝ) (K L : Nat) (hK : 0 < K) (n : Nat) :
    (n < (sigmaConst beta delta K L).nivCore → n < L - L / 2 →
      sigmaSpec (sigmaConst beta delta K L) (List.replicate (L - L / 2) (-Complex.I * delta)) n = -Complex.I * delta) ∧
    ((sigmaConst beta delta K L).nivCore ≤ n →
      sigmaSpec (sigmaConst beta delta K L) (List.replicate (L - L / 2) (-Complex.I * delta)) n =
        -Complex.I * delta * ((vBar beta (L - L / 2) / (Real.pi / beta * (2 * n + 1)) : ℝ) : ℂ)) := by
  obtain ⟨m0, m1, mb⟩ := sigmaConst_moments beta delta K L hK
  constructor
  · intro h1 h2
    unfold sigmaSpec
    rw [if_pos (by omega), if_pos (by omega)]
    simp [List.getD, h2]
  · intro h1
    unfold sigmaSpec
    rw [if_pos (by omega), if_neg (by omega), m0, m1, mb]
    unfold iv
    push_cast
    rw [show (Complex.I * ((Real.pi : ℂ) / beta * (2 * n + 1))) = Complex.I * ((Real.pi : ℂ) / beta * (2 * n + 1)) from rfl,
      div_mul_eq_div_div, Complex.div_I]
    ring

/-- so the tail agrees with the constant exactly where the frequency is that mean -/
theorem sigmaConst_constant_iff (beta delta : ℝ) (hb : 0 < beta) (hd : delta ≠ 0) (K L : Nat) (hK : 0 < K) (n : Nat)
    (hn : (sigmaConst beta delta K L).nivCore ≤ n) :
    sigmaSpec (sigmaConst beta delta K L) (List.replicate (L - L / 2) (-Complex.I * delta)) n = -Complex.I * delta ↔
      Real.pi / beta * (2 * n + 1) = vBar beta (L - L / 2) := by
  rw [(sigmaConst_value beta delta K L hK n).2 hn]
  have hv : 0 < Real.pi / beta * (2 * n + 1) := by have := Real.pi_pos; positivity
  have hne : (-Complex.I * (delta : ℂ)) ≠ 0 := mul_ne_zero (neg_ne_zero.mpr Complex.I_ne_zero) (by exact_mod_cast hd)
  rw [mul_eq_left₀ hne]
  constructor
  · intro h
    have h' : vBar beta (L - L / 2) / (Real.pi / beta * (2 * n + 1)) = 1 := by exact_mod_cast h
    rw [div_eq_one_iff_eq hv.ne'] at h'
    exact h'.symm
  · intro h
    rw [h, div_self (h ▸ hv.ne')]; simp

example : (sigmaConst 1 1 1 4).nivCore ≥ 20 := (estimate_bounds _ _ _ _ _ _).1

end DGA.Two
