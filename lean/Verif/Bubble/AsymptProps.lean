/-
  C82: the high-frequency correction of the bubble.  The closed formulas used by the code are the values of the infinite
  Matsubara sums whose window part the code subtracts.
-/
import Verif.Bubble.AsymptLemmas
import Verif.Bubble.Props

namespace DGA.Bubble

open DGA.Mf DGA.Bz Filter Topology

noncomputable section

/-- specification: the high-frequency form of `G(x) G(y)` in powers of `x = 1/(i v)` and `y = 1/(i v')` up to fourth order -/
def tailForm (f : Facs) (x y : ℂ) : ℂ :=
  x * y - f.fac1 * (x ^ 2 * y + x * y ^ 2) + f.fac2 * (x ^ 3 * y + x * y ^ 3) + f.fac3 * (x ^ 2 * y ^ 2)

/-- specification: the summand of the asymptotic sum at the fermionic index `n` for the two frequency shifts -/
def tailTerm (beta : ℝ) (f : Facs) (s : Int × Int) (n : ℤ) : ℂ :=
  -1 / beta * tailForm f (invIv beta (n + s.1)) (invIv beta (n + s.2))

/-! ### the infinite sums -/

section sums

variable {beta : ℝ}

theorem invIv_ne (hb : beta ≠ 0) (n : ℤ) : invIv beta n ≠ 0 := by
  have h2 : (2 * (n : ℝ) + 1) ≠ 0 := by
    have : (2 * n + 1 : ℤ) ≠ 0 := by omega
    exact_mod_cast this
  have := Real.pi_ne_zero
  rw [invIv]
  refine one_div_ne_zero (mul_ne_zero Complex.I_ne_zero (Complex.ofReal_ne_zero.mpr ?_))
  positivity

/-- the resolvent identity of two Matsubara frequencies -/
theorem invIv_mul (hb : beta ≠ 0) (a b : ℤ) :
    ((b - a : ℤ) : ℂ) * 2 * Real.pi / beta * Complex.I * (invIv beta a * invIv beta b) = invIv beta a - invIv beta b := by
  have ha := invIv_ne hb a
  have hb' := invIv_ne hb b
  have e : ∀ n : ℤ, (invIv beta n)⁻¹ = Complex.I * ((Real.pi / beta * (2 * n + 1) : ℝ) : ℂ) := by
    intro n; rw [invIv, one_div, inv_inv]
  have h : (invIv beta b)⁻¹ - (invIv beta a)⁻¹ = ((b - a : ℤ) : ℂ) * 2 * Real.pi / beta * Complex.I := by
    rw [e, e]; push_cast; ring
  rw [← h]
  field_simp

theorem summable_mul_sq (a b : ℤ) : Summable fun n : ℤ => ‖invIv beta (n + a)‖ * ‖invIv beta (n + b)‖ := by
  have h := (summable_shift (summable_norm_sq (beta := beta)) a).add (summable_shift (summable_norm_sq (beta := beta)) b)
  refine Summable.of_nonneg_of_le (fun n => by positivity) (fun n => ?_) h
  nlinarith [sq_nonneg (‖invIv beta (n + a)‖ - ‖invIv beta (n + b)‖), sq_nonneg (‖invIv beta (n + a)‖), sq_nonneg (‖invIv beta (n + b)‖)]

theorem summable_mono (a b : ℤ) (i j : ℕ) : Summable fun n : ℤ => invIv beta (n + a) ^ (i + 1) * invIv beta (n + b) ^ (j + 1) := by
  refine Summable.of_norm_bounded ((summable_mul_sq (beta := beta) a b).mul_left (|beta / Real.pi| ^ i * |beta / Real.pi| ^ j)) fun n => ?_
  rw [norm_mul, norm_pow, norm_pow, pow_succ, pow_succ]
  have h1 := pow_le_pow_left₀ (norm_nonneg _) (invIv_norm_le (beta := beta) (n + a)) i
  have h2 := pow_le_pow_left₀ (norm_nonneg _) (invIv_norm_le (beta := beta) (n + b)) j
  have h3 := mul_le_mul h1 h2 (by positivity) (by positivity)
  calc ‖invIv beta (n + a)‖ ^ i * ‖invIv beta (n + a)‖ * (‖invIv beta (n + b)‖ ^ j * ‖invIv beta (n + b)‖)
      = ‖invIv beta (n + a)‖ ^ i * ‖invIv beta (n + b)‖ ^ j * (‖invIv beta (n + a)‖ * ‖invIv beta (n + b)‖) := by ring
    _ ≤ _ := mul_le_mul_of_nonneg_right h3 (by positivity)

theorem summable_pow (i : ℕ) : Summable fun n : ℤ => invIv beta n ^ (i + 2) := by
  have := summable_mono (beta := beta) 0 0 i 0
  refine this.congr fun n => ?_
  rw [add_zero, zero_add, pow_one, ← pow_succ]

theorem hasSum_cube : HasSum (fun n : ℤ => invIv beta n ^ 3) 0 := by
  refine hasSum_of_window _ (summable_pow 1) 0 ?_
  have : ∀ N : ℕ, (∑ n ∈ Finset.Ico (-(N : ℤ)) N, invIv beta n ^ 3) = 0 := by
    intro N
    have h : (∑ n ∈ Finset.Ico (-(N : ℤ)) N, invIv beta n ^ 3) = ∑ n ∈ Finset.Ico (-(N : ℤ)) N, invIv beta (-1 - n) ^ 3 := by
      refine Finset.sum_nbij' (fun n => -1 - n) (fun n => -1 - n) ?_ ?_ ?_ ?_ ?_
      · intro n hn; rw [Finset.mem_Ico] at hn ⊢; omega
      · intro n hn; rw [Finset.mem_Ico] at hn ⊢; omega
      · intro n _; ring
      · intro n _; ring
      · intro n _; congr 2; ring
    have e : ∀ n : ℤ, (-invIv beta n) ^ 3 = -(invIv beta n ^ 3) := fun n => by ring
    simp only [invIv_neg, e, Finset.sum_neg_distrib] at h
    exact self_eq_neg.mp h
  simp only [this]
  exact tendsto_const_nhds

/-- equal frequencies -/
theorem tail_static (f : Facs) (a : ℤ) (hb : beta ≠ 0) :
    HasSum (tailTerm beta f (a, a)) ((beta : ℂ) / 4 - (beta : ℂ) ^ 3 / 24 * f.fac2 - (beta : ℂ) ^ 3 / 48 * f.fac3) := by
  have h2 := hasSum_shift (hasSum_invIv_sq (beta := beta)) a
  have h3 := hasSum_shift (hasSum_cube (beta := beta)) a
  have h4 := hasSum_shift (hasSum_invIv_four (beta := beta)) a
  have h := (((h2.sub (h3.mul_left (f.fac1 * 2 : ℂ))).add (h4.mul_left (f.fac2 * 2 : ℂ))).add (h4.mul_left (f.fac3 : ℂ))).mul_left (-1 / beta : ℂ)
  have hb' : (beta : ℂ) ≠ 0 := by exact_mod_cast hb
  have e : (-1 / beta : ℂ) * (-(beta : ℂ) ^ 2 / 4 - f.fac1 * 2 * 0 + f.fac2 * 2 * ((beta : ℂ) ^ 4 / 48) + f.fac3 * ((beta : ℂ) ^ 4 / 48))
      = (beta : ℂ) / 4 - (beta : ℂ) ^ 3 / 24 * f.fac2 - (beta : ℂ) ^ 3 / 48 * f.fac3 := by field_simp; ring
  rw [e] at h
  have e2 : tailTerm beta f (a, a) = fun n : ℤ => (-1 / beta : ℂ) * (invIv beta (n + a) ^ 2 - f.fac1 * 2 * invIv beta (n + a) ^ 3
      + f.fac2 * 2 * invIv beta (n + a) ^ 4 + f.fac3 * invIv beta (n + a) ^ 4) := by
    funext n; unfold tailTerm tailForm; ring
  rw [e2]
  exact h

/-- different frequencies -/
theorem tail_dynamic (f : Facs) (a b : ℤ) (hab : a ≠ b) (hb : beta ≠ 0) :
    HasSum (tailTerm beta f (a, b))
      (-(beta : ℂ) / 2 * 1 / (((b - a : ℤ) : ℂ) * 2 * Real.pi / beta * Complex.I) ^ 2 * (f.fac2 - f.fac3)) := by
  have hb' : (beta : ℂ) ≠ 0 := by exact_mod_cast hb
  generalize hω : ((b - a : ℤ) : ℂ) * 2 * Real.pi / beta * Complex.I = ω
  have hω0 : ω ≠ 0 := by
    rw [← hω]
    have h1 : ((b - a : ℤ) : ℂ) ≠ 0 := by
      have : b - a ≠ 0 := by omega
      exact_mod_cast this
    have h2 : (Real.pi : ℂ) ≠ 0 := by exact_mod_cast Real.pi_ne_zero
    exact mul_ne_zero (div_ne_zero (mul_ne_zero (mul_ne_zero h1 two_ne_zero) h2) hb') Complex.I_ne_zero
  have key : ∀ n : ℤ, ω * (invIv beta (n + a) * invIv beta (n + b)) = invIv beta (n + a) - invIv beta (n + b) := by
    intro n
    have := invIv_mul hb (n + a) (n + b)
    rw [show n + b - (n + a) = b - a by ring, hω] at this
    exact this
  have kd : ∀ n : ℤ, invIv beta (n + a) * invIv beta (n + b) = (invIv beta (n + a) - invIv beta (n + b)) / ω := by
    intro n; rw [eq_div_iff hω0, ← key n]; ring
  have h2a := hasSum_shift (hasSum_invIv_sq (beta := beta)) a
  have h2b := hasSum_shift (hasSum_invIv_sq (beta := beta)) b
  have h3a := hasSum_shift (hasSum_cube (beta := beta)) a
  have h3b := hasSum_shift (hasSum_cube (beta := beta)) b
  -- first order
  have s11 : HasSum (fun n : ℤ => invIv beta (n + a) * invIv beta (n + b)) 0 := by
    refine hasSum_of_window _ ?_ 0 ?_
    · simpa using summable_mono (beta := beta) a b 0 0
    · have h := ((window_shift_zero (beta := beta) a).sub (window_shift_zero (beta := beta) b)).div_const ω
      rw [sub_zero, zero_div] at h
      refine h.congr fun N => ?_
      rw [← Finset.sum_sub_distrib, Finset.sum_div]
      exact Finset.sum_congr rfl fun n _ => (kd n).symm
  have s21 : HasSum (fun n : ℤ => invIv beta (n + a) ^ 2 * invIv beta (n + b) + invIv beta (n + a) * invIv beta (n + b) ^ 2) 0 := by
    have h := (h2a.sub h2b).div_const ω
    rw [sub_self, zero_div] at h
    have e : (fun n : ℤ => invIv beta (n + a) ^ 2 * invIv beta (n + b) + invIv beta (n + a) * invIv beta (n + b) ^ 2)
        = fun n : ℤ => (invIv beta (n + a) ^ 2 - invIv beta (n + b) ^ 2) / ω := by
      funext n; rw [eq_div_iff hω0]; linear_combination (invIv beta (n + a) + invIv beta (n + b)) * key n
    rw [e]; exact h
  have s22 : HasSum (fun n : ℤ => invIv beta (n + a) ^ 2 * invIv beta (n + b) ^ 2) (-(beta : ℂ) ^ 2 / 2 / ω ^ 2) := by
    have h := ((h2a.add h2b).sub (s11.mul_left 2)).div_const (ω ^ 2)
    have e : (fun n : ℤ => invIv beta (n + a) ^ 2 * invIv beta (n + b) ^ 2)
        = fun n : ℤ => (invIv beta (n + a) ^ 2 + invIv beta (n + b) ^ 2 - 2 * (invIv beta (n + a) * invIv beta (n + b))) / ω ^ 2 := by
      funext n
      rw [eq_div_iff (pow_ne_zero 2 hω0)]
      linear_combination (ω * (invIv beta (n + a) * invIv beta (n + b)) + (invIv beta (n + a) - invIv beta (n + b))) * key n
    rw [e, show -(beta : ℂ) ^ 2 / 2 / ω ^ 2 = (-(beta : ℂ) ^ 2 / 4 + -(beta : ℂ) ^ 2 / 4 - 2 * 0) / ω ^ 2 by ring]
    exact h
  have s31 : HasSum (fun n : ℤ => invIv beta (n + a) ^ 3 * invIv beta (n + b) + invIv beta (n + a) * invIv beta (n + b) ^ 3)
      (0 - -(beta : ℂ) ^ 2 / 2 / ω ^ 2) := by
    have h := ((h3a.sub h3b).div_const ω).sub s22
    rw [sub_self, zero_div] at h
    have e : (fun n : ℤ => invIv beta (n + a) ^ 3 * invIv beta (n + b) + invIv beta (n + a) * invIv beta (n + b) ^ 3)
        = fun n : ℤ => (invIv beta (n + a) ^ 3 - invIv beta (n + b) ^ 3) / ω - invIv beta (n + a) ^ 2 * invIv beta (n + b) ^ 2 := by
      funext n
      rw [eq_sub_iff_add_eq, eq_div_iff hω0]
      linear_combination (invIv beta (n + a) ^ 2 + invIv beta (n + a) * invIv beta (n + b) + invIv beta (n + b) ^ 2) * key n
    rw [e]; exact h
  have h := (((s11.sub (s21.mul_left (f.fac1 : ℂ))).add (s31.mul_left (f.fac2 : ℂ))).add (s22.mul_left (f.fac3 : ℂ))).mul_left (-1 / beta : ℂ)
  have e : (-1 / beta : ℂ) * (0 - f.fac1 * 0 + f.fac2 * (0 - -(beta : ℂ) ^ 2 / 2 / ω ^ 2) + f.fac3 * (-(beta : ℂ) ^ 2 / 2 / ω ^ 2))
      = -(beta : ℂ) / 2 * 1 / ω ^ 2 * (f.fac2 - f.fac3) := by field_simp; ring
  rw [e] at h
  exact h

end sums

theorem shift_diff (w : Int) (nt : String) (s : Int × Int) (h : getFreqShift w nt = some s) :
    s.2 - s.1 = w ∨ s.2 - s.1 = -w := by
  unfold getFreqShift at h
  split at h
  · injection h with h; subst h; simp
  · split at h
    · injection h with h; subst h; simp
    · split at h
      · injection h with h; subst h; right; simp only; omega
      · cases h

/-- C82 (a): the closed formula of the code is the value of the infinite Matsubara sum over the asymptotic form, for every
    temperature, frequency and notation -/
theorem exact_asymptotics_hasSum (beta : ℝ) (hb : beta ≠ 0) (f : Facs) (w : Int) (nt : String) (s : Int × Int)
    (hs : getFreqShift w nt = some s) : HasSum (tailTerm beta f s) (exactW beta f w) := by
  have hd := shift_diff w nt s hs
  obtain ⟨a, b⟩ := s
  simp only at hd
  unfold exactW
  by_cases hw : w = 0
  · have : a = b := by omega
    subst this
    simp only [hw, ne_eq, not_true_eq_false, if_false]
    exact tail_static f a hb
  · have : a ≠ b := by omega
    simp only [ne_eq, hw, not_false_eq_true, if_true]
    have h := tail_dynamic f a b this hb
    rcases hd with hd | hd
    · rw [hd] at h; exact h
    · rw [hd] at h
      rw [show ((w : ℂ) * 2 * Real.pi / beta * Complex.I) ^ 2 = (((-w : ℤ) : ℂ) * 2 * Real.pi / beta * Complex.I) ^ 2 by push_cast; ring]
      exact h

/-! ### the window sums -/

theorem sum_samplesF (g : ℤ → ℂ) (N : ℕ) : (samplesF g N).sum = ∑ n ∈ Finset.Ico (-(N : ℤ)) N, g n := by
  induction N with
  | zero => simp [samplesF, vn, Py.arange]
  | succ N ih =>
    have e : Finset.Ico (-((N + 1 : ℕ) : ℤ)) ((N + 1 : ℕ) : ℤ) = insert (-(N : ℤ) - 1) (insert (N : ℤ) (Finset.Ico (-(N : ℤ)) N)) := by
      ext x; simp only [Finset.mem_Ico, Finset.mem_insert]; push_cast; omega
    rw [e, Finset.sum_insert (by simp only [Finset.mem_insert, Finset.mem_Ico]; omega), Finset.sum_insert (by simp), ← ih]
    have hl : samplesF g (N + 1) = g (-(N : ℤ) - 1) :: (samplesF g N ++ [g N]) := by
      symm
      apply eq_samplesF
      · simp [samplesF_length]; omega
      · intro k hk
        match k with
        | 0 => simp; congr 1; ring
        | k + 1 =>
          rw [List.getElem?_cons_succ]
          by_cases h : k < 2 * N
          · rw [List.getElem?_append_left (by rw [samplesF_length]; exact h), samplesF_get? _ _ _ h]
            congr 2; push_cast; ring
          · have : k = 2 * N := by omega
            subst this
            rw [List.getElem?_append_right (by rw [samplesF_length]), samplesF_length]
            simp only [Nat.sub_self, List.getElem?_cons_zero]
            congr 2; push_cast; ring
    rw [hl, List.sum_cons, List.sum_append, List.sum_singleton]
    ring

theorem sum_zip_samplesF (h : ℂ → ℂ → ℂ) (g g' : ℤ → ℂ) (N : ℕ) :
    (List.zipWith h (samplesF g N) (samplesF g' N)).sum = ∑ n ∈ Finset.Ico (-(N : ℤ)) N, h (g n) (g' n) := by
  rw [← sum_samplesF (fun n : ℤ => h (g n) (g' n))]
  unfold samplesF
  rw [List.zipWith_map, List.zipWith_self]

/-- the window part of the asymptotic sum -/
theorem asymptSumW_value (beta : ℝ) (f : Facs) (niv pad : ℕ) (w : Int) (nt : String) (s : Int × Int)
    (hs : getFreqShift w nt = some s) (hp : w.natAbs ≤ pad) :
    asymptSumW beta f niv pad w nt = some (∑ n ∈ Finset.Ico (-(niv : ℤ)) niv, tailTerm beta f s n) := by
  obtain ⟨b1, b2⟩ := shift_bound w nt s hs
  unfold asymptSumW
  have hv : (vn (niv + pad)).map (invIv beta) = samplesF (invIv beta) (niv + pad) := rfl
  simp only [hv, samplesF_length, show 2 * (niv + pad) / 2 = niv + pad by omega, hs, Option.bind_some]
  rw [slice_samplesF (invIv beta) (niv + pad) niv s.1 (by omega), slice_samplesF (invIv beta) (niv + pad) niv s.2 (by omega)]
  simp only [samplesF_length, if_true, sum_zip_samplesF]
  congr 1
  rw [Finset.sum_mul, Finset.sum_mul, Finset.sum_mul, ← Finset.sum_sub_distrib, ← Finset.sum_add_distrib, ← Finset.sum_add_distrib,
    Finset.sum_mul]
  refine Finset.sum_congr rfl fun n _ => ?_
  unfold tailTerm tailForm
  ring

theorem mapM_some' {α β : Type} (l : List α) (g : α → β) (h : α → Option β) (hh : ∀ x ∈ l, h x = some (g x)) : l.mapM h = some (l.map g) := by
  induction l with
  | nil => rfl
  | cons a l ih =>
    rw [List.mapM_cons, hh a (by simp), ih fun x hx => hh x (by simp [hx])]
    rfl

theorem le_maxAbs (w : List Int) (x : Int) (hx : x ∈ w) : x.natAbs ≤ maxAbs w := by
  unfold maxAbs
  induction w with
  | nil => cases hx
  | cons a l ih =>
    rw [List.map_cons, List.foldr_cons]
    rcases List.mem_cons.mp hx with h | h
    · subst h; exact le_max_left _ _
    · exact (ih h).trans (le_max_right _ _)

/-- specification: the part of the infinite sum that lies outside the window of `niv` fermionic frequencies -/
def outside (niv : ℕ) (g : ℤ → ℂ) : ℂ := ∑' n : {n : ℤ // n ∉ Finset.Ico (-(niv : ℤ)) niv}, g n

theorem outside_eq (niv : ℕ) (g : ℤ → ℂ) (a : ℂ) (h : HasSum g a) : a - ∑ n ∈ Finset.Ico (-(niv : ℤ)) niv, g n = outside niv g := by
  have := h.summable.sum_add_tsum_subtype_compl (Finset.Ico (-(niv : ℤ)) niv)
  rw [h.tsum_eq] at this
  rw [← this, outside]
  ring

/-- C82 (b): the local correction is the part of the asymptotic sum outside the summed window: for every list of bosonic
    frequencies, every known notation and every window -/
theorem correction_is_outside (beta : ℝ) (hb : beta ≠ 0) (f : Facs) (niv : ℕ) (w : List Int) (nt : String) (sh : Int → Int × Int)
    (hs : ∀ x ∈ w, getFreqShift x nt = some (sh x)) :
    asymptCorrection beta f niv w nt = some (w.map fun (x : Int) => outside niv (tailTerm beta f (sh x))) := by
  unfold asymptCorrection asymptSum
  rw [mapM_some' w (fun x => ∑ n ∈ Finset.Ico (-(niv : ℤ)) niv, tailTerm beta f (sh x) n) _
    fun x hx => asymptSumW_value beta f niv _ x nt (sh x) (hs x hx) (le_maxAbs w x hx), Option.map_some]
  congr 1
  rw [List.zipWith_map, List.zipWith_self]
  exact List.map_congr_left fun x hx => outside_eq niv _ _ (exact_asymptotics_hasSum beta hb f x nt (sh x) (hs x hx))

/-- C82 (b'): the same for a momentum, when the number of bosonic frequencies bounds them (as for every full or positive range) -/
theorem correctionQ_is_outside (beta : ℝ) (hb : beta ≠ 0) (f : Facs) (niv : ℕ) (w : List Int) (nt : String) (sh : Int → Int × Int)
    (hs : ∀ x ∈ w, getFreqShift x nt = some (sh x)) (hw : ∀ x ∈ w, x.natAbs ≤ w.length) :
    asymptCorrectionQ beta f niv w nt = some (w.map fun (x : Int) => outside niv (tailTerm beta f (sh x))) := by
  unfold asymptCorrectionQ asymptSumQ
  rw [mapM_some' w (fun x => ∑ n ∈ Finset.Ico (-(niv : ℤ)) niv, tailTerm beta f (sh x) n) _
    fun x hx => asymptSumW_value beta f niv _ x nt (sh x) (hs x hx) (hw x hx), Option.map_some]
  congr 1
  rw [List.zipWith_map, List.zipWith_self]
  exact List.map_congr_left fun x hx => outside_eq niv _ _ (exact_asymptotics_hasSum beta hb f x nt (sh x) (hs x hx))

/-- the part outside the window vanishes with growing window -/
theorem outside_tendsto (g : ℤ → ℂ) (hg : Summable g) : Tendsto (fun niv : ℕ => outside niv g) atTop (𝓝 0) := by
  have h := (hg.hasSum.comp (Finset.tendsto_Ico_neg (R := ℤ))).const_sub (∑' n, g n)
  rw [sub_self] at h
  refine h.congr fun niv => ?_
  rw [← outside_eq niv g _ hg.hasSum]
  rfl

/-- C82 (c): the corrected local bubble differs from the complete Matsubara sum exactly by what the product of the two Green's
    functions and its asymptotic form differ outside the window -/
theorem chi0_corrected_error (beta : ℝ) (hb : beta ≠ 0) (f : Facs) (G : ℤ → ℂ) (N niv : ℕ) (w : List Int) (nt : String)
    (sh : Int → Int × Int) (hs : ∀ x ∈ w, getFreqShift x nt = some (sh x)) (hfit : ∀ x ∈ w, x.natAbs + niv ≤ N)
    (chi : Int → ℂ) (hchi : ∀ x ∈ w, HasSum (fun n : ℤ => -1 / (beta : ℂ) * (G (n + (sh x).1) * G (n + (sh x).2))) (chi x)) :
    getChi0 (samplesF G N) beta f niv w nt false true =
      some (w.map fun (x : Int) => chi x - outside niv fun n => -1 / (beta : ℂ) * (G (n + (sh x).1) * G (n + (sh x).2)) - tailTerm beta f (sh x) n) := by
  unfold getChi0 vecGetChi0Sum
  simp only [Bool.false_eq_true, if_false, if_true]
  rw [mapM_some' w (fun x => ∑ n ∈ Finset.Ico (-(niv : ℤ)) niv, -1 / (beta : ℂ) * (G (n + (sh x).1) * G (n + (sh x).2))) _ ?_,
    correction_is_outside beta hb f niv w nt sh hs]
  · simp only [Option.bind_some, List.length_map, if_true]
    congr 1
    rw [List.zipWith_map, List.zipWith_self]
    refine List.map_congr_left fun x hx => ?_
    have h1 := outside_eq niv _ _ (hchi x hx)
    have h2 := exact_asymptotics_hasSum beta hb f x nt (sh x) (hs x hx)
    have h3 := outside_eq niv _ _ h2
    have h4 := outside_eq niv _ _ ((hchi x hx).sub h2)
    rw [Finset.sum_sub_distrib] at h4
    rw [← h4, ← h3]
    ring
  · intro x hx
    rw [getChi0Sum_value G N (beta : ℂ) niv x nt (sh x) (hs x hx) (hfit x hx), sum_samplesF, Finset.mul_sum]

end

end DGA.Bubble
