import Verif.TwoPoint.Lemmas
import Mathlib.Tactic.FieldSimp

/-
  C37 – C39, C53, C54: self-energy and Green's function.

  Specification vocabulary: `samplesF G N` is the array holding `G n` at the Matsubara indices `-N ≤ n < N`
  (frequency (2n+1)pi/beta), `iv beta n` the imaginary frequency, and `sigmaSpec` the self-energy the object stands for.
-/

open DGA.Mf DGA.Bubble

namespace DGA.Two

/-- The self-energy a `SelfEnergy` object stands for, at Matsubara index `n`, for the momentum whose stored
    positive-frequency row is `r`: stored value below the core size, moment tail from there on, and complex conjugate
    for negative frequencies. -/
noncomputable def sigmaSpec (s : SelfEnergy) (r : List ℂ) (n : Int) : ℂ :=
  if 0 ≤ n then
    if n < s.nivCore then r.getD n.toNat 0 else (s.smom0 : ℂ) - (s.smom1 : ℂ) / iv s.beta n
  else (starRingEnd ℂ) (if -n - 1 < s.nivCore then r.getD (-n - 1).toNat 0
    else (s.smom0 : ℂ) - (s.smom1 : ℂ) / iv s.beta (-n - 1))

/-- positive-frequency part of `sigmaSpec` (proof helper) -/
noncomputable def posSpec (s : SelfEnergy) (r : List ℂ) (m : Nat) : ℂ :=
  if m < s.nivCore then r.getD m 0 else asymptVal s.beta s.smom0 s.smom1 m

theorem sigmaSpec_eq (s : SelfEnergy) (r : List ℂ) : sigmaSpec s r = mirror (posSpec s r) := by
  funext n
  unfold sigmaSpec mirror posSpec asymptVal
  by_cases h : 0 ≤ n
  · rw [if_pos h, if_pos h]
    have e : ((n.toNat : Nat) : Int) = n := by omega
    by_cases h2 : n < s.nivCore
    · rw [if_pos h2, if_pos (by omega)]
    · rw [if_neg h2, if_neg (by omega), e]; ring
  · rw [if_neg h, if_neg h]
    have e : (((-n - 1).toNat : Nat) : Int) = -n - 1 := by omega
    by_cases h2 : -n - 1 < s.nivCore
    · rw [if_pos h2, if_pos (by omega)]
    · rw [if_neg h2, if_neg (by omega), e]; congr 1; ring

/-! ### C37 -/

/-- The specification is conjugation symmetric. -/
theorem sigmaSpec_symm (s : SelfEnergy) (r : List ℂ) (n : Int) :
    sigmaSpec s r (-n - 1) = (starRingEnd ℂ) (sigmaSpec s r n) := by
  rw [sigmaSpec_eq, mirror_symm]

/-- Outside the core (both signs) it is the moment tail `smom0 - smom1/(iv)` at that very frequency. -/
theorem sigmaSpec_tail (s : SelfEnergy) (r : List ℂ) (n : Int) (h : (s.nivCore : Int) ≤ n ∨ n < -(s.nivCore : Int)) :
    sigmaSpec s r n = (s.smom0 : ℂ) - (s.smom1 : ℂ) / iv s.beta n := by
  unfold sigmaSpec
  by_cases h0 : 0 ≤ n
  · rw [if_pos h0, if_neg (by omega)]
  · rw [if_neg h0, if_neg (by omega)]
    simp only [map_sub, map_div₀, Complex.conj_ofReal, iv_conj]
    congr 3; ring

/-- `get_siw(n)`: for every requested size `n` (also beyond the stored range) every momentum row has `2n` frequencies
    and holds the self-energy at each of them, provided the core does not exceed the stored range. -/
theorem getSiw_value (s : SelfEnergy) (hcore : ∀ r ∈ s.sigma, s.nivCore ≤ r.length) (n : Nat) :
    s.getSiw n = s.sigma.map fun r => samplesF (sigmaSpec s r) n := by
  unfold SelfEnergy.getSiw
  rw [if_neg (by omega : ¬ ((n : Int) = -1))]
  dsimp only
  split
  · rename_i h
    apply List.map_congr_left
    intro r hr
    have hc := hcore r hr
    rw [sliceTo_eq_take r n (by omega), take_eq_range r n (by omega), fermionicFull_range]
    rw [sigmaSpec_eq, ← fermionicFull_range, ← fermionicFull_range]
    congr 1
    apply range_congr
    intro m hm
    unfold posSpec
    rw [if_pos (by omega)]
  · rename_i h
    apply List.map_congr_left
    intro r hr
    have hc := hcore r hr
    rw [sliceTo_eq_take r _ hc, take_eq_range r _ hc, SelfEnergy.asymptRow, vn_pos_eq, List.map_map, sigmaSpec_eq,
      ← fermionicFull_range]
    congr 1
    have e : n = s.nivCore + ((n : Int) - s.nivCore).toNat := by omega
    conv_rhs => rw [e, ← range_append]
    congr 1
    · apply range_congr
      intro m hm
      unfold posSpec; rw [if_pos hm]
    · apply range_congr
      intro m hm
      unfold posSpec; rw [if_neg (by omega)]; rfl

/-- `get_siw()` without argument uses the stored number of frequencies. -/
theorem getSiw_default (s : SelfEnergy) : s.getSiw (-1) = s.getSiw s.niv := by
  have h : ¬ ((s.niv : Int) = -1) := by omega
  simp only [SelfEnergy.getSiw, if_true, if_neg h]

/-- `niv = -1` returns as many frequencies as the object stores: if every row has `n` entries, it is the request for `n`. -/
theorem getSiw_default_rows (s : SelfEnergy) (n : Nat) (hs : s.sigma ≠ []) (h : ∀ r ∈ s.sigma, r.length = n) :
    s.getSiw (-1) = s.getSiw n := by
  rw [getSiw_default]
  have : s.niv = n := by
    unfold SelfEnergy.niv
    cases hσ : s.sigma with
    | nil => exact absurd hσ hs
    | cons r _ => simp [h r (by rw [hσ]; simp)]
  rw [this]

/-- If the core exceeds the stored range (possible: the estimate never returns less than 20) the result is too short:
    the hypothesis of `getSiw_value` is needed. -/
theorem getSiw_core_too_large : ∃ s : SelfEnergy, (∀ r ∈ s.sigma, r.length = 4) ∧ s.nivCore = 20 ∧
    ∀ r ∈ s.getSiw 10, r.length ≠ 2 * 10 := by
  refine ⟨⟨[[1, 2, 3, 4]], 1, 0, 0, 20⟩, by simp, rfl, ?_⟩
  intro r hr
  simp [SelfEnergy.getSiw, fermionicFull, Py.sliceTo, Py.clip] at hr
  subst hr; simp

/-- The estimated core is at least 20, and does not exceed the stored range if that has at least 20 frequencies. -/
theorem estimate_bounds (rows : List (List ℂ)) (niv : Nat) (beta a b err : ℝ) :
    20 ≤ estimateNivCore rows niv beta a b err ∧ (20 ≤ niv → estimateNivCore rows niv beta a b err ≤ niv) := by
  have key : ∀ l : List Bool, argmaxBool l ≤ l.length := by
    intro l
    unfold argmaxBool
    cases h : l.findIdx? id with
    | none => simp
    | some i =>
      have := (List.findIdx?_eq_some_iff_getElem.mp h).1
      simp; omega
  unfold estimateNivCore
  dsimp only
  split
  · exact ⟨le_refl _, fun h => h⟩
  · refine ⟨by omega, fun _ => ?_⟩
    apply max_le
    · exact (key _).trans (by simp)
    · exact (key _).trans (by simp)

/-- If neither part ever comes within `err` of the tail, the estimate is the minimum 20 (not the whole range): the tail
    replaces data it never approached. -/
theorem estimate_never_reached (rows : List (List ℂ)) (niv : Nat) (beta a b err : ℝ)
    (h : ∀ n : Nat, n < niv → err ≤ |(kMean rows n).re - (asymptVal beta a b n).re| ∧
      err ≤ |(kMean rows n).im - (asymptVal beta a b n).im|) :
    estimateNivCore rows niv beta a b err = 20 := by
  have key : ∀ (p : Nat → Bool), (∀ n, n < niv → p n = false) → argmaxBool ((List.range niv).map p) = 0 := by
    intro p hp
    unfold argmaxBool
    have : ((List.range niv).map p).findIdx? id = none := by
      rw [List.findIdx?_eq_none_iff]
      intro x hx
      obtain ⟨n, hn, rfl⟩ := List.mem_map.mp hx
      simpa using hp n (List.mem_range.mp hn)
    rw [this]; rfl
  unfold estimateNivCore
  dsimp only
  rw [key _ (fun n hn => decide_eq_false (not_lt.mpr (h n hn).1)), key _ (fun n hn => decide_eq_false (not_lt.mpr (h n hn).2))]
  rfl

theorem sum_const_div (l : List Nat) (f : Nat → ℝ) (c : ℝ) (h : ∀ n ∈ l, f n = c) (hl : l ≠ []) :
    (l.map f).sum / l.length = c := by
  have : l.map f = l.map fun _ => c := List.map_congr_left h
  rw [this, List.map_const', List.sum_replicate, nsmul_eq_mul]
  have : (l.length : ℝ) ≠ 0 := by
    have := List.length_pos_of_ne_nil hl
    positivity
  field_simp

/-- Moment fit: if the momentum average has exactly the tail form `m0 - m1/(iv)` on the fitted frequencies, the fit
    returns `m0` and `m1`. -/
theorem fit_recovers_tail (beta : ℝ) (hb : beta ≠ 0) (rows : List (List ℂ)) (niv : Nat) (hn : 0 < niv) (m0 m1 : ℝ)
    (h : ∀ n : Nat, n < niv → kMean rows n = (m0 : ℂ) - (m1 : ℂ) / iv beta n) :
    fitSmom beta rows niv = (m0, m1) := by
  have hne : Py.sliceFrom (List.range niv) ((niv : Int) - nFreqFit niv) ≠ [] := by
    have h4 : 4 ≤ nFreqFit niv := by unfold nFreqFit; split <;> omega
    intro h0
    have := congrArg List.length h0
    simp only [Py.sliceFrom, List.length_drop, List.length_range, List.length_nil] at this
    have : Py.clip niv ((niv : Int) - nFreqFit niv) < niv := by
      unfold Py.clip; split <;> omega
    omega
  have hmem : ∀ n ∈ Py.sliceFrom (List.range niv) ((niv : Int) - nFreqFit niv), n < niv := by
    intro n hn'
    exact List.mem_range.mp (List.mem_of_mem_drop hn')
  have hval : ∀ n : Nat, n < niv → (kMean rows n).re = m0 ∧ (kMean rows n).im * (iv beta n).im = m1 := by
    intro n hn'
    have hiv := iv_ne_zero beta hb n
    have him : (iv beta n).im ≠ 0 := by
      intro h0; apply hiv; apply Complex.ext
      · simp [iv]
      · simpa using h0
    have e : iv beta n = Complex.I * ((iv beta n).im : ℂ) := by rw [iv_im]; rfl
    have e2 : (m1 : ℂ) / iv beta n = ((-(m1 / (iv beta n).im) : ℝ) : ℂ) * Complex.I := by
      rw [e]
      have hc : ((iv beta n).im : ℂ) ≠ 0 := by exact_mod_cast him
      push_cast
      simp only [Complex.I_mul_im, Complex.ofReal_re]
      field_simp
      rw [Complex.I_sq]; ring
    rw [h n hn', e2]
    constructor
    · simp
    · simp; field_simp
  simp only [fitSmom]
  rw [sum_const_div _ _ m0 (fun n hn' => (hval n (hmem n hn')).1) hne,
    sum_const_div _ _ m1 (fun n hn' => (hval n (hmem n hn')).2) hne]

/-- The object built from a full-range array keeps the positive half; explicit moments and core override the fit. -/
theorem newSelfEnergy_full (Fs : List (Int → ℂ)) (N : Nat) (beta a b err : ℝ) (c : Nat) :
    newSelfEnergy (Fs.map fun F => samplesF F N) beta false (some a) (some b) err (some c) =
      ⟨Fs.map fun F => (List.range N).map fun m => F m, beta, a, b, c⟩ := by
  simp only [newSelfEnergy, positiveHalf, List.map_map, Option.getD_some]
  congr 1
  apply List.map_congr_left
  intro F _
  simp only [Function.comp, samplesF_length, Py.sliceFrom]
  rw [show 2 * N / 2 = N by omega, Py.clip_of_nonneg _ _ (by omega) (by omega)]
  simp only [Int.toNat_natCast]
  apply List.ext_getElem?
  intro k
  rw [List.getElem?_drop, List.getElem?_map]
  by_cases hk : k < N
  · rw [samplesF_get? _ _ _ (by omega), List.getElem?_range hk]
    simp only [Option.map_some]; congr 2; omega
  · rw [List.getElem?_eq_none (by rw [samplesF_length]; omega), List.getElem?_eq_none (by simp; omega)]; rfl

/-- A conjugation symmetric input on the full axis is returned unchanged in its core. -/
theorem getSiw_round_trip (Fs : List (Int → ℂ)) (hF : ∀ F ∈ Fs, ∀ n, F (-n - 1) = (starRingEnd ℂ) (F n)) (N : Nat)
    (beta a b err : ℝ) (c : Nat) (hc : c ≤ N) (n : Nat) (hn : n ≤ c) :
    (newSelfEnergy (Fs.map fun F => samplesF F N) beta false (some a) (some b) err (some c)).getSiw n =
      Fs.map fun F => samplesF F n := by
  rw [newSelfEnergy_full, getSiw_value]
  · simp only [List.map_map]
    apply List.map_congr_left
    intro F hFm
    simp only [Function.comp]
    apply samplesF_congr
    intro m hm1 hm2
    simp only [sigmaSpec]
    by_cases h0 : 0 ≤ m
    · rw [if_pos h0, if_pos (by omega)]
      have : m.toNat < N := by omega
      simp [this]
      congr 1; omega
    · rw [if_neg h0, if_pos (by omega)]
      have : (-m - 1).toNat < N := by omega
      simp only [List.getD_eq_getElem?_getD, List.getElem?_map, List.getElem?_range this, Option.map_some,
        Option.getD_some]
      rw [← hF F hFm]; congr 1; omega
  · intro r hr
    simp only [List.mem_map] at hr
    obtain ⟨F, _, rfl⟩ := hr
    simpa using hc

/-! ### C38 -/

/-- `create_dga_siwk_with_dmft_as_asympt`: for every momentum the result holds the DGA self-energy inside its box and the
    DMFT self-energy at the same frequency outside; it has `niv_core + niv_shell` positive frequencies and its core
    covers all of them. -/
theorem createDga_value (D : List (Int → ℂ)) (hD : D ≠ []) (c : Nat) (dmft : SelfEnergy) (r0 : List ℂ)
    (rest : List (List ℂ)) (hs : dmft.sigma = r0 :: rest) (hcore : ∀ r ∈ dmft.sigma, dmft.nivCore ≤ r.length)
    (shell : Nat) (err : ℝ) :
    createDga (D.map fun F => samplesF F c) dmft shell err =
      some ⟨D.map fun F => (List.range (c + shell)).map fun m => if m < c then F m else sigmaSpec dmft r0 m,
        dmft.beta, dmft.smom0, dmft.smom1, c + shell⟩ := by
  have hc : (((D.map fun F => samplesF F c).head?.map List.length).getD 0) / 2 = c := by
    obtain ⟨F0, D', rfl⟩ := List.exists_cons_of_ne_nil hD
    simp [samplesF_length]
  unfold createDga
  rw [hc]
  dsimp only
  rw [getSiw_value dmft hcore, hs]
  rw [List.map_cons, List.head?_cons]
  dsimp only
  have hrow : ∀ F : Int → ℂ, concatCoreAsympt (samplesF F c) (invCutV (samplesF (sigmaSpec dmft r0) (c + shell)) c shell) =
      samplesF (fun n => if -(c : Int) ≤ n ∧ n < c then F n else sigmaSpec dmft r0 n) (c + shell) := by
    intro F
    obtain ⟨hl, hv⟩ := invCutV_value (samplesF (sigmaSpec dmft r0) (c + shell)) (c + shell) (samplesF_length _ _) c shell
      (le_refl _)
    obtain ⟨hl2, hv2⟩ := concatCoreAsympt_value (samplesF F c) _ c shell (samplesF_length _ _) hl
    apply ext_atF _ _ (c + shell) hl2 (samplesF_length _ _)
    intro n h1 h2
    rw [samplesF_atF _ _ _ h1 h2]
    obtain ⟨a1, a2, a3⟩ := hv2 n
    by_cases hlo : n < -(c : Int)
    · rw [a3 (by omega) hlo, (hv (n + c)).2 (by omega) (by omega), samplesF_atF _ _ _ (by omega) (by omega),
        if_neg (by omega)]
      congr 2; omega
    · by_cases hhi : n < c
      · rw [a1 (by omega) hhi, samplesF_atF _ _ _ (by omega) hhi, if_pos ⟨by omega, hhi⟩]
      · rw [a2 (by omega) (by omega), (hv (n - c)).1 (by omega) (by omega), samplesF_atF _ _ _ (by omega) (by omega),
          if_neg (by omega)]
        congr 2; omega
  have hrows : (D.map fun F => samplesF F c).map (fun r => concatCoreAsympt r
      (invCutV (samplesF (sigmaSpec dmft r0) (c + shell)) c shell)) =
      (D.map fun F => fun n : Int => if -(c : Int) ≤ n ∧ n < c then F n else sigmaSpec dmft r0 n).map
        fun F => samplesF F (c + shell) := by
    rw [List.map_map, List.map_map]
    apply List.map_congr_left
    intro F _
    exact hrow F
  rw [hrows, newSelfEnergy_full]
  simp only [List.map_map]
  congr 2
  apply List.map_congr_left
  intro F _
  simp only [Function.comp]
  apply range_congr
  intro m hm
  by_cases h : m < c
  · rw [if_pos (by omega), if_pos h]
  · rw [if_neg (by omega), if_neg h]

/-- Reading the result back on the whole range: DGA values inside (for a conjugation symmetric DGA self-energy), DMFT
    values outside, at every momentum and both signs of the frequency. -/
theorem createDga_getSiw (D : List (Int → ℂ)) (hD : D ≠ []) (hsym : ∀ F ∈ D, ∀ n, F (-n - 1) = (starRingEnd ℂ) (F n))
    (c : Nat) (dmft : SelfEnergy) (r0 : List ℂ)
    (rest : List (List ℂ)) (hs : dmft.sigma = r0 :: rest) (hcore : ∀ r ∈ dmft.sigma, dmft.nivCore ≤ r.length)
    (shell : Nat) (err : ℝ) (out : SelfEnergy) (hout : createDga (D.map fun F => samplesF F c) dmft shell err = some out) :
    out.getSiw ((c + shell : Nat) : Int) = D.map fun F =>
      samplesF (fun n => if -(c : Int) ≤ n ∧ n < c then F n else sigmaSpec dmft r0 n) (c + shell) := by
  rw [createDga_value D hD c dmft r0 rest hs hcore] at hout
  cases hout
  rw [getSiw_value]
  · have hS := sigmaSpec_symm dmft r0
    generalize sigmaSpec dmft r0 = S at hS ⊢
    simp only [List.map_map]
    apply List.map_congr_left
    intro F hF
    simp only [Function.comp]
    apply samplesF_congr
    intro n h1 h2
    have hpos : ∀ m : Nat, m < c + shell → ((List.range (c + shell)).map fun m : Nat =>
        if m < c then F m else S m).getD m 0 = if m < c then F m else S m := by
      intro m hm
      simp [hm]
    conv_lhs => unfold sigmaSpec
    by_cases h0 : 0 ≤ n
    · rw [if_pos h0, if_pos (by simpa using h2), hpos _ (by omega)]
      have e : ((n.toNat : Nat) : Int) = n := by omega
      rw [e]
      by_cases hc : n < c
      · rw [if_pos (by omega), if_pos ⟨by omega, hc⟩]
      · rw [if_neg (by omega), if_neg (by omega)]
    · rw [if_neg h0, if_pos (by simp only; omega), hpos _ (by omega)]
      have e : (((-n - 1).toNat : Nat) : Int) = -n - 1 := by omega
      rw [e]
      by_cases hc : -(c : Int) ≤ n
      · rw [if_pos (by omega), if_pos ⟨hc, by omega⟩, ← hsym F hF]; congr 1; omega
      · rw [if_neg (by omega), if_neg (by omega), ← hS]; congr 1; omega
  · intro r hr
    simp only [List.mem_map] at hr
    obtain ⟨F, _, rfl⟩ := hr
    simp

/-! ### C39 -/

/-- The Green's function on the full range: at every momentum row, core and asymptotic part together hold
    `1/(iv_n + mu - ek - Sigma(n))` with frequency and self-energy of the same index `n`. -/
theorem gFull_value (s : SelfEnergy) (hcore : ∀ r ∈ s.sigma, s.nivCore ≤ r.length) (nivAsympt : Nat) (ek mu : ℝ) (k : Nat) :
    gFullRow s nivAsympt ek mu k = (s.sigma[k]?).map fun r =>
      samplesF (fun n => 1 / (iv s.beta n + (mu : ℂ) - (ek : ℂ) - sigmaSpec s r n)) (s.nivCore + nivAsympt) := by
  unfold gFullRow gCoreRow SelfEnergy.sigmaCore
  rw [List.getElem?_map]
  cases hk : s.sigma[k]? with
  | none => rfl
  | some r =>
    simp only [Option.map_some]
    congr 1
    have hc := hcore r (List.mem_of_getElem? hk)
    set f : Nat → ℂ := fun m => 1 / (iv s.beta m + (mu : ℂ) - (ek : ℂ) - posSpec s r m) with hf
    have hm : ∀ n, mirror f n = 1 / (iv s.beta n + (mu : ℂ) - (ek : ℂ) - sigmaSpec s r n) := by
      intro n
      rw [sigmaSpec_eq]
      unfold mirror
      by_cases h0 : 0 ≤ n
      · rw [if_pos h0, if_pos h0, hf]
        have e : ((n.toNat : Nat) : Int) = n := by omega
        simp only [e]
      · rw [if_neg h0, if_neg h0, hf]
        have e : (((-n - 1).toNat : Nat) : Int) = -n - 1 := by omega
        simp only [map_div₀, map_one, map_sub, map_add, Complex.conj_ofReal, iv_conj, e]
        congr 4; ring_nf
    have hcoreRow : buildG ((vn s.nivCore).map (iv s.beta)) ek mu
        (fermionicFull (starRingEnd ℂ) (Py.sliceTo r s.nivCore)) = samplesF (mirror f) s.nivCore := by
      rw [sliceTo_eq_take r _ hc, take_eq_range r _ hc, fermionicFull_range]
      have : samplesF (mirror fun m => r.getD m 0) s.nivCore = samplesF (sigmaSpec s r) s.nivCore := by
        rw [sigmaSpec_eq, ← fermionicFull_range, ← fermionicFull_range]
        congr 1
        apply range_congr
        intro m hm'
        unfold posSpec; rw [if_pos hm']
      rw [this]
      change List.zipWith _ (samplesF (iv s.beta) s.nivCore) _ = _
      rw [zipWith_samplesF]
      apply samplesF_congr
      intro n _ _
      rw [hm]
    have hasym : gAsymptRow s nivAsympt ek mu = fermionicFull (starRingEnd ℂ)
        ((List.range nivAsympt).map fun j => f (j + s.nivCore)) := by
      unfold gAsymptRow buildG SelfEnergy.asymptRow
      rw [vn_pos_eq, List.map_map, List.map_map, List.zipWith_map]
      congr 1
      rw [List.zipWith_self]
      apply range_congr
      intro j _
      simp only [hf, Function.comp, posSpec]
      rw [if_neg (by omega)]
    rw [hcoreRow, hasym, concat_mirror]
    apply samplesF_congr
    intro n _ _
    rw [hm]

/-- Conjugation symmetry `G(-n-1) = conj G(n)` at every frequency and momentum. -/
theorem gFull_symm (s : SelfEnergy) (r : List ℂ) (ek mu : ℝ) (n : Int) :
    1 / (iv s.beta (-n - 1) + (mu : ℂ) - (ek : ℂ) - sigmaSpec s r (-n - 1)) =
      (starRingEnd ℂ) (1 / (iv s.beta n + (mu : ℂ) - (ek : ℂ) - sigmaSpec s r n)) := by
  simp only [map_div₀, map_one, map_sub, map_add, Complex.conj_ofReal, iv_conj, sigmaSpec_symm]

/-- `get_sigma_full` is `get_siw` on the same range. -/
theorem sigmaFull_eq_getSiw (s : SelfEnergy) (hcore : ∀ r ∈ s.sigma, s.nivCore ≤ r.length) (nivAsympt k : Nat) :
    sigmaFullRow s nivAsympt k = (s.getSiw ((s.nivCore + nivAsympt : Nat) : Int))[k]? := by
  rw [getSiw_value s hcore]
  unfold sigmaFullRow SelfEnergy.sigmaCore
  rw [List.getElem?_map, List.getElem?_map]
  cases hk : s.sigma[k]? with
  | none => rfl
  | some r =>
    simp only [Option.map_some]
    congr 1
    have hc := hcore r (List.mem_of_getElem? hk)
    rw [sliceTo_eq_take r _ hc, take_eq_range r _ hc]
    have h1 : (List.range s.nivCore).map (fun m => r.getD m 0) = (List.range s.nivCore).map (posSpec s r) := by
      apply range_congr
      intro m hm
      unfold posSpec; rw [if_pos hm]
    have h2 : s.asymptRow nivAsympt s.nivCore = (List.range nivAsympt).map fun j => posSpec s r (j + s.nivCore) := by
      unfold SelfEnergy.asymptRow
      rw [vn_pos_eq, List.map_map]
      apply range_congr
      intro m hm
      unfold posSpec; rw [if_neg (by omega)]; rfl
    rw [h1, h2, fermionicFull_range, concat_mirror, sigmaSpec_eq]

example : ∃ s : SelfEnergy, (∀ r ∈ s.sigma, s.nivCore ≤ r.length) ∧ s.nivCore = 2 ∧ s.sigma.length = 2 :=
  ⟨⟨[[1, 2, 3], [4, 5, 6]], 1, 1, 2, 2⟩, by simp, rfl, rfl⟩

/-! ### C53: energies are real -/

/-- Kinetic and potential energy sums have exactly vanishing imaginary part, so the assertions in `e_kin` and `e_pot`
    cannot fail (exact arithmetic), whatever the dispersion and the self-energy. -/
theorem energies_real (s : SelfEnergy) (hcore : ∀ r ∈ s.sigma, s.nivCore ≤ r.length) (nivAsympt : Nat) (mu : ℝ)
    (eks : List ℝ) (gs sigmas : List (List ℂ))
    (hg : ∀ k (g : List ℂ), gs[k]? = some g → ∃ ek, eks[k]? = some ek ∧ gFullRow s nivAsympt ek mu k = some g)
    (hsig : ∀ k (g : List ℂ), sigmas[k]? = some g → sigmaFullRow s nivAsympt k = some g) :
    (eKinSum s.beta (eks.zip gs)).im = 0 ∧ (ePotSum s.beta s.smom0 (sigmas.zip gs)).im = 0 := by
  have real_of : ∀ (l : List ℂ), (∀ x ∈ l, x.im = 0) → ∀ (b : ℝ) (n : Nat), (1 / (b : ℂ) * (l.sum / (n : ℂ))).im = 0 := by
    intro l hl b n
    have : l.sum.im = 0 := by
      have hsum : ∀ l : List ℂ, (∀ x ∈ l, x.im = 0) → l.sum.im = 0 := by
        intro l
        induction l with
        | nil => simp
        | cons x l ih =>
          intro h
          rw [List.sum_cons, Complex.add_im, h x (by simp), ih fun y hy => h y (by simp [hy]), add_zero]
      exact hsum l hl
    have e : l.sum = ((l.sum.re : ℝ) : ℂ) := by
      apply Complex.ext
      · simp
      · rw [this, Complex.ofReal_im]
    rw [e, show (1 / (b : ℂ) * (((l.sum.re : ℝ) : ℂ) / (n : ℂ))) = ((1 / b * (l.sum.re / n) : ℝ) : ℂ) by push_cast; rfl,
      Complex.ofReal_im]
  have zip_mem : ∀ {α β : Type} (a : List α) (b : List β) (p : α × β), p ∈ a.zip b → ∃ (k : Nat), a[k]? = some p.1 ∧ b[k]? = some p.2 := by
    intro α β a b p hp
    obtain ⟨k, hk⟩ := List.mem_iff_getElem?.mp hp
    rw [List.getElem?_zip_eq_some] at hk
    exact ⟨k, hk.1, hk.2⟩
  constructor
  · unfold eKinSum
    apply real_of
    intro x hx
    obtain ⟨⟨e, g⟩, hp, rfl⟩ := List.mem_map.mp hx
    obtain ⟨k, h1, h2⟩ := zip_mem _ _ _ hp
    obtain ⟨ek, h3, h4⟩ := hg k g h2
    rw [gFull_value s hcore] at h4
    cases hk : s.sigma[k]? with
    | none => simp [hk] at h4
    | some r =>
      simp only [hk, Option.map_some, Option.some.injEq] at h4
      subst h4
      simp only [samplesF, List.map_map]
      apply sum_samplesF_symm
      intro n
      simp only [Function.comp, map_mul, Complex.conj_ofReal]
      rw [gFull_symm]
  · unfold ePotSum
    apply real_of
    intro x hx
    obtain ⟨⟨sg, g⟩, hp, rfl⟩ := List.mem_map.mp hx
    obtain ⟨k, h1, h2⟩ := zip_mem _ _ _ hp
    obtain ⟨ek, h3, h4⟩ := hg k g h2
    have h5 := hsig k sg h1
    rw [gFull_value s hcore] at h4
    rw [sigmaFull_eq_getSiw s hcore, getSiw_value s hcore, List.getElem?_map] at h5
    cases hk : s.sigma[k]? with
    | none => simp [hk] at h4
    | some r =>
      simp only [hk, Option.map_some, Option.some.injEq] at h4 h5
      subst h4; subst h5
      rw [zipWith_samplesF]
      apply sum_samplesF_symm
      intro n
      rw [gFull_symm, sigmaSpec_symm]
      simp only [map_mul, map_sub, Complex.conj_ofReal]

/-- Non-vacuity: one momentum, two stored frequencies, core of one, three asymptotic frequencies. -/
example : ∃ (s : SelfEnergy) (g sg : List ℂ), (∀ r ∈ s.sigma, s.nivCore ≤ r.length) ∧ g ≠ [] ∧ sg ≠ [] ∧
    (∀ (k : Nat) (g' : List ℂ), [g][k]? = some g' → ∃ ek, [(1 : ℝ)][k]? = some ek ∧ gFullRow s 3 ek 2 k = some g') ∧
    (∀ (k : Nat) (g' : List ℂ), [sg][k]? = some g' → sigmaFullRow s 3 k = some g') := by
  let s : SelfEnergy := ⟨[[1 - Complex.I, 2]], 1, 1, 1, 1⟩
  have hcore : ∀ r ∈ s.sigma, s.nivCore ≤ r.length := by simp [s]
  have hg : gFullRow s 3 1 2 0 = _ := gFull_value s hcore 3 1 2 0
  have hsg := sigmaFull_eq_getSiw s hcore 3 0
  rw [getSiw_value s hcore, List.getElem?_map] at hsg
  simp only [show s.sigma[0]? = some [1 - Complex.I, 2] from rfl, Option.map_some] at hg hsg
  refine ⟨s, samplesF (fun n => 1 / (iv s.beta n + ((2 : ℝ) : ℂ) - ((1 : ℝ) : ℂ) - sigmaSpec s [1 - Complex.I, 2] n)) (s.nivCore + 3),
    samplesF (sigmaSpec s [1 - Complex.I, 2]) (s.nivCore + 3), hcore, fun h => ?_, fun h => ?_, fun k g' h => ?_, fun k g' h => ?_⟩
  rotate_left 2
  · cases k with
    | zero =>
      simp only [List.getElem?_cons_zero, Option.some.injEq] at h
      exact ⟨1, rfl, by rw [hg, ← h]⟩
    | succ k => simp at h
  · cases k with
    | zero =>
      simp only [List.getElem?_cons_zero, Option.some.injEq] at h
      rw [hsg, ← h]
    | succ k => simp at h
  all_goals
    have := congrArg List.length h
    rw [samplesF_length] at this
    simp [s] at this

/-- Non-vacuity for `createDga_value`: one DGA momentum, core 2, DMFT row of three frequencies. -/
example : ∃ (dmft : SelfEnergy) (r0 : List ℂ), dmft.sigma = r0 :: [] ∧ (∀ r ∈ dmft.sigma, dmft.nivCore ≤ r.length) ∧
    dmft.nivCore = 2 ∧ [fun n : Int => (n : ℂ)] ≠ [] :=
  ⟨⟨[[1, 2, 3]], 1, 1, 2, 2⟩, _, rfl, by simp, rfl, by simp⟩

/-! ### C54: spectral function -/

/-- The real-frequency spectral function is strictly positive wherever the broadened self-energy has negative imaginary
    part. -/
theorem awk_pos (w mu ek deltino : ℝ) (swk : ℂ) (h : swk.im < deltino) : 0 < awk w mu ek deltino swk := by
  unfold awk gwk
  have him : ((w : ℂ) + mu - ek - (swk - Complex.I * deltino)).im = deltino - swk.im := by
    simp
  have hpos : 0 < deltino - swk.im := by linarith
  have hne : ((w : ℂ) + mu - ek - (swk - Complex.I * deltino)) ≠ 0 := by
    intro h0; rw [h0] at him; simp at him; linarith
  have hn : 0 < Complex.normSq ((w : ℂ) + mu - ek - (swk - Complex.I * deltino)) := Complex.normSq_pos.mpr hne
  rw [one_div, Complex.inv_im, him]
  apply div_pos _ Real.pi_pos
  rw [neg_div, neg_neg]
  exact div_pos hpos hn

example : (0 : ℝ) < awk 0 0 0 (1 / 10) 0 := awk_pos 0 0 0 (1 / 10) 0 (by norm_num)

end DGA.Two
