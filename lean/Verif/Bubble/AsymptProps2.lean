/-
  C82 (e): the complete sums exist, the corrected bubbles converge to them, and what is missing is bounded by fifth powers of the
  inverse frequencies outside the window.
-/
import Verif.Bubble.AsymptOrder

namespace DGA.Bubble

open DGA.Mf DGA.Bz Filter Topology

noncomputable section

theorem summable_fifth (beta : ℝ) (a b : ℤ) : Summable fun n : ℤ => (‖invIv beta (n + a)‖ + ‖invIv beta (n + b)‖) ^ 5 := by
  have h := (summable_shift (summable_norm_sq (beta := beta)) a).add (summable_shift (summable_norm_sq (beta := beta)) b)
  refine Summable.of_nonneg_of_le (fun n => by positivity) (fun n => ?_) (h.mul_left (2 * (2 * |beta / Real.pi|) ^ 3))
  have h1 := invIv_norm_le (beta := beta) (n + a)
  have h2 := invIv_norm_le (beta := beta) (n + b)
  set x := ‖invIv beta (n + a)‖
  set y := ‖invIv beta (n + b)‖
  have hx : 0 ≤ x := norm_nonneg _
  have hy : 0 ≤ y := norm_nonneg _
  have h3 : (x + y) ^ 3 ≤ (2 * |beta / Real.pi|) ^ 3 := pow_le_pow_left₀ (by positivity) (by linarith) 3
  have h4 : (x + y) ^ 2 ≤ 2 * (x ^ 2 + y ^ 2) := by nlinarith [sq_nonneg (x - y)]
  calc (x + y) ^ 5 = (x + y) ^ 3 * (x + y) ^ 2 := by ring
    _ ≤ (2 * |beta / Real.pi|) ^ 3 * (2 * (x ^ 2 + y ^ 2)) := mul_le_mul h3 h4 (by positivity) (by positivity)
    _ = _ := by ring

/-- a product of fifth order accuracy has a complete sum, and its part outside the window is close to the correction -/
theorem outside_bound (beta : ℝ) (hb : beta ≠ 0) (f : Facs) (w : Int) (nt : String) (s : Int × Int) (hs : getFreqShift w nt = some s) (P : ℤ → ℂ) (C : ℝ)
    (hC : ∀ n : ℤ, ‖P n - tailForm f (invIv beta (n + s.1)) (invIv beta (n + s.2))‖ ≤ C * (‖invIv beta (n + s.1)‖ + ‖invIv beta (n + s.2)‖) ^ 5) :
    Summable (fun n => -1 / (beta : ℂ) * P n) ∧ ∀ niv : ℕ, ‖outside niv fun n => -1 / (beta : ℂ) * P n - tailTerm beta f s n‖ ≤
      |1 / beta| * C * ∑' n : {n : ℤ // n ∉ Finset.Ico (-(niv : ℤ)) niv}, (‖invIv beta (n + s.1)‖ + ‖invIv beta (n + s.2)‖) ^ 5 := by
  have hbd : ∀ n : ℤ, ‖-1 / (beta : ℂ) * P n - tailTerm beta f s n‖ ≤ |1 / beta| * C * (‖invIv beta (n + s.1)‖ + ‖invIv beta (n + s.2)‖) ^ 5 := by
    intro n
    unfold tailTerm
    rw [← mul_sub, norm_mul, mul_assoc]
    have : ‖(-1 / (beta : ℂ))‖ = |1 / beta| := by
      rw [norm_div, norm_neg, norm_one, Complex.norm_real, Real.norm_eq_abs, abs_div, abs_one]
    rw [this]
    exact mul_le_mul_of_nonneg_left (hC n) (abs_nonneg _)
  have hsum := (summable_fifth beta s.1 s.2).mul_left (|1 / beta| * C)
  have hd : Summable fun n => -1 / (beta : ℂ) * P n - tailTerm beta f s n := Summable.of_norm_bounded hsum hbd
  constructor
  · have := hd.add (exact_asymptotics_hasSum beta hb f w nt s hs).summable
    simpa using this
  · intro niv
    unfold outside
    rw [← tsum_mul_left]
    exact tsum_of_norm_bounded (hsum.subtype _).hasSum fun n => hbd n

/-- C82 (e): for Green's functions with the moments of the self-energy and a dispersion of zero average, the corrected
    momentum-dependent bubble differs from the complete Matsubara sum by at most a constant times the sum of the fifth powers
    of the inverse frequencies outside the window, the constant being the same for every window -/
theorem chi0q_corrected_bound (beta : ℝ) (hb : beta ≠ 0) (mu smom0 smom1 : ℝ) (nx ny nz : ℕ) (hn : 0 < nx * ny * nz) (e : ℕ → ℕ → ℕ → ℝ)
    (G : ℕ → ℕ → ℕ → ℤ → ℂ) (hG : ∀ i j k, ∀ᶠ n in cofinite, G i j k n = tailGreen mu smom0 smom1 (e i j k) (invIv beta n))
    (hmean : meanList (flat3 (table nx ny nz e)) = 0) (q : Int × Int × Int) (w : Int) (nt : String) (s : Int × Int)
    (hs : getFreqShift w nt = some s) :
    ∃ (chi : ℂ) (C : ℝ), HasSum (fun n : ℤ => -1 / (beta : ℂ) * ((flat3 (table nx ny nz fun i j k : ℕ => G i j k (n + s.1) *
        G (((i : Int) + q.1) % nx).toNat (((j : Int) + q.2.1) % ny).toNat (((k : Int) + q.2.2) % nz).toNat (n + s.2))).sum /
          ((nx * ny * nz : ℕ) : ℂ))) chi ∧
      ∀ (N niv : ℕ) (wn : List Int) (p : ℕ), wn[p]? = some w → (∀ x ∈ wn, x.natAbs ≤ wn.length) → (∀ x ∈ wn, x.natAbs + niv ≤ N) →
        ∃ core corr, getChi0Q (table nx ny nz fun i j k => samplesF (G i j k) N) (2 * N) (beta : ℂ) niv w q nt = some core ∧
          (asymptCorrectionQ beta (facsQ mu smom0 smom1 (table nx ny nz e) q) niv wn nt).bind (fun c => c[p]?) = some corr ∧
          ‖core + corr - chi‖ ≤
            C * ∑' n : {n : ℤ // n ∉ Finset.Ico (-(niv : ℤ)) niv}, (‖invIv beta (n + s.1)‖ + ‖invIv beta (n + s.2)‖) ^ 5 := by
  obtain ⟨C, hC⟩ := lattice_product_order beta hb mu smom0 smom1 nx ny nz hn e G hG hmean q s
  obtain ⟨hsum, hbound⟩ := outside_bound beta hb _ w nt s hs _ C hC
  refine ⟨_, |1 / beta| * C, hsum.hasSum, fun N niv wn p hp hw hN => ?_⟩
  have hmem : w ∈ wn := List.mem_of_getElem? hp
  have hnt : ∀ x ∈ wn, ∃ sx, getFreqShift x nt = some sx := by
    intro x _
    unfold getFreqShift at hs ⊢
    by_cases h1 : nt = "plus"
    · exact ⟨_, if_pos h1⟩
    by_cases h2 : nt = "minus"
    · exact ⟨_, by rw [if_neg h1, if_pos h2]⟩
    by_cases h3 : nt = "center"
    · exact ⟨_, by rw [if_neg h1, if_neg h2, if_pos h3]⟩
    · rw [if_neg h1, if_neg h2, if_neg h3] at hs; cases hs
  obtain ⟨b1, b2⟩ := shift_bound w nt s hs
  have hNw := hN w hmem
  refine ⟨∑ n ∈ Finset.Ico (-(niv : ℤ)) niv, -1 / (beta : ℂ) * ((flat3 (table nx ny nz fun i j k : ℕ => G i j k (n + s.1) *
        G (((i : Int) + q.1) % nx).toNat (((j : Int) + q.2.1) % ny).toNat (((k : Int) + q.2.2) % nz).toNat (n + s.2))).sum / ((nx * ny * nz : ℕ) : ℂ)),
    outside niv (tailTerm beta (facsQ mu smom0 smom1 (table nx ny nz e) q) s), ?_, ?_, ?_⟩
  · unfold getChi0Q
    rw [hs, Option.bind_some, prodQ_value nx ny nz G N niv s q (by omega) (by omega), Option.map_some, kMeanRows_samples, sum_samplesF, Finset.mul_sum]
  · have hsh : ∀ x ∈ wn, getFreqShift x nt = some ((getFreqShift x nt).getD (0, 0)) := by
      intro x hx; obtain ⟨sx, h⟩ := hnt x hx; rw [h]; rfl
    rw [correctionQ_is_outside beta hb _ niv wn nt _ hsh hw, Option.bind_some, List.getElem?_map, hp, Option.map_some, hs]
    rfl
  · have h2 := exact_asymptotics_hasSum beta hb (facsQ mu smom0 smom1 (table nx ny nz e) q) w nt s hs
    have h3 := outside_eq niv _ _ h2
    have h4 := outside_eq niv _ _ (hsum.hasSum.sub h2)
    rw [Finset.sum_sub_distrib] at h4
    have := hbound niv
    rw [← h4] at this
    rw [← h3, ← norm_neg]
    refine le_trans (le_of_eq ?_) this
    congr 1
    ring

/-- the bound vanishes with growing window -/
theorem outside_fifth_tendsto (beta : ℝ) (a b : ℤ) :
    Tendsto (fun niv : ℕ => ∑' n : {n : ℤ // n ∉ Finset.Ico (-(niv : ℤ)) niv}, (‖invIv beta (n + a)‖ + ‖invIv beta (n + b)‖) ^ 5) atTop (𝓝 0) := by
  have hs := summable_fifth beta a b
  have h := (hs.hasSum.comp (Finset.tendsto_Ico_neg (R := ℤ))).const_sub (∑' n : ℤ, (‖invIv beta (n + a)‖ + ‖invIv beta (n + b)‖) ^ 5)
  rw [sub_self] at h
  refine h.congr fun niv => ?_
  have := hs.sum_add_tsum_subtype_compl (Finset.Ico (-(niv : ℤ)) niv)
  rw [← this]
  simp

/-! ### concrete cases -/

/-- a two-point mesh with dispersion `1, -1` -/
example : meanList (flat3 (table 2 1 1 fun i _ _ => if i = 0 then (1 : ℝ) else -1)) = 0 := by
  norm_num [meanList, flat3, table, List.range_succ]

example : (∀ x ∈ wn 3, x.natAbs ≤ (wn 3).length) ∧ (wn 3)[1]? = some (-2) ∧ getFreqShift (-2) "center" = some (-1, 1) := by
  refine ⟨?_, rfl, rfl⟩; decide

/-- a Green's function with these moments at every frequency -/
example : ∃ (chi : ℂ) (C : ℝ), HasSum (fun n : ℤ => -1 / ((2 : ℝ) : ℂ) * ((flat3 (table 2 1 1 fun i j k : ℕ =>
    (fun (i _ _ : ℕ) (n : ℤ) => tailGreen 0.5 1 0.25 (if i = 0 then 1 else -1) (invIv 2 n)) i j k (n + 0) *
    (fun (i _ _ : ℕ) (n : ℤ) => tailGreen 0.5 1 0.25 (if i = 0 then 1 else -1) (invIv 2 n)) (((i : Int) + 1) % 2).toNat (((j : Int) + 0) % 1).toNat
      (((k : Int) + 0) % 1).toNat (n + 3))).sum / ((2 * 1 * 1 : ℕ) : ℂ))) chi ∧ 0 ≤ C ^ 2 := by
  obtain ⟨chi, C, h, _⟩ := chi0q_corrected_bound 2 (by norm_num) 0.5 1 0.25 2 1 1 (by norm_num) (fun i _ _ => if i = 0 then (1 : ℝ) else -1)
    (fun (i _ _ : ℕ) (n : ℤ) => tailGreen 0.5 1 0.25 (if i = 0 then 1 else -1) (invIv 2 n))
    (fun i j k => Eventually.of_forall fun n => rfl)
    (by norm_num [meanList, flat3, table, List.range_succ]) (1, 0, 0) 3 "plus" (0, 3) rfl
  exact ⟨chi, C, h, sq_nonneg C⟩

end

end DGA.Bubble
