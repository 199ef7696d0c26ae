import Verif.TwoPoint.Model
import Verif.Bubble.Lemmas
import Mathlib.Tactic.Linarith

namespace DGA.Two

open DGA.Mf DGA.Bubble

/-- Positive-frequency function extended to all indices by conjugation. -/
noncomputable def mirror (f : Nat → ℂ) (n : Int) : ℂ :=
  if 0 ≤ n then f n.toNat else (starRingEnd ℂ) (f (-n - 1).toNat)

theorem mirror_symm (f : Nat → ℂ) (n : Int) : mirror f (-n - 1) = (starRingEnd ℂ) (mirror f n) := by
  unfold mirror
  by_cases h : 0 ≤ n
  · rw [if_neg (by omega), if_pos h]; congr 3; omega
  · rw [if_pos (by omega), if_neg h, Complex.conj_conj]

theorem fermionicFull_range (f : Nat → ℂ) (N : Nat) :
    fermionicFull (starRingEnd ℂ) ((List.range N).map f) = samplesF (mirror f) N := by
  apply eq_samplesF
  · simp [fermionicFull]; omega
  · intro k hk
    unfold fermionicFull mirror
    by_cases h : k < N
    · rw [List.getElem?_append_left (by simp; omega), if_neg (by omega), List.getElem?_map,
        List.getElem?_reverse (by simp; omega)]
      simp only [List.length_map, List.length_range, List.getElem?_map]
      rw [List.getElem?_range (by omega)]
      simp only [Option.map_some]
      congr 3; omega
    · rw [List.getElem?_append_right (by simp; omega), if_pos (by omega)]
      simp only [List.length_map, List.length_reverse, List.length_range, List.getElem?_map]
      rw [List.getElem?_range (by omega)]
      simp only [Option.map_some]
      congr 2; omega

theorem take_eq_range (r : List ℂ) (n : Nat) (h : n ≤ r.length) : r.take n = (List.range n).map fun m => r.getD m 0 := by
  apply List.ext_getElem?
  intro k
  by_cases hk : k < n
  · rw [List.getElem?_take, if_pos hk, List.getElem?_map, List.getElem?_range hk]
    simp [List.getElem?_eq_getElem (show k < r.length by omega)]
  · rw [List.getElem?_eq_none (by simp; omega), List.getElem?_eq_none (by simp; omega)]

theorem sliceTo_eq_take (r : List ℂ) (n : Nat) (h : n ≤ r.length) : Py.sliceTo r (n : Int) = r.take n := by
  unfold Py.sliceTo
  rw [Py.clip_of_nonneg _ _ (by omega) (by omega)]; simp

theorem vn_pos_eq (n s : Nat) : vn n s true = (List.range n).map fun k : Nat => ((k + s : Nat) : Int) := by
  simp only [vn, if_true, Py.arange]
  have : ((n : Int) + s - s).toNat = n := by omega
  rw [this]
  apply List.map_congr_left
  intro k _
  push_cast; ring

theorem range_append (f : Nat → ℂ) (a b : Nat) :
    (List.range a).map f ++ (List.range b).map (fun k => f (k + a)) = (List.range (a + b)).map f := by
  rw [List.range_add, List.map_append, List.map_map]
  congr 1
  apply List.map_congr_left
  intro k _
  simp [Nat.add_comm]

theorem range_congr {f g : Nat → ℂ} (n : Nat) (h : ∀ m, m < n → f m = g m) :
    (List.range n).map f = (List.range n).map g := by
  apply List.map_congr_left
  intro m hm
  exact h m (List.mem_range.mp hm)

theorem concat_mirror (f : Nat → ℂ) (c a : Nat) :
    concatCoreAsympt (samplesF (mirror f) c) (fermionicFull (starRingEnd ℂ) ((List.range a).map fun k => f (k + c))) =
      samplesF (mirror f) (c + a) := by
  rw [fermionicFull_range]
  obtain ⟨hlen, hv⟩ := concatCoreAsympt_value (samplesF (mirror f) c) (samplesF (mirror fun k => f (k + c)) a) c a
    (samplesF_length _ _) (samplesF_length _ _)
  apply ext_atF _ _ (c + a) hlen (samplesF_length _ _)
  intro n hn1 hn2
  rw [samplesF_atF _ _ _ hn1 hn2]
  obtain ⟨h1, h2, h3⟩ := hv n
  by_cases hc : n < -(c : Int)
  · rw [h3 (by omega) hc, samplesF_atF _ _ _ (by omega) (by omega)]
    unfold mirror
    rw [if_neg (by omega), if_neg (by omega)]
    have e : (-(n + (c : Int)) - 1).toNat + c = (-n - 1).toNat := by omega
    simp only [e]
  · by_cases hc2 : n < c
    · rw [h1 (by omega) hc2, samplesF_atF _ _ _ (by omega) hc2]
    · rw [h2 (by omega) (by omega), samplesF_atF _ _ _ (by omega) (by omega)]
      unfold mirror
      rw [if_pos (by omega), if_pos (by omega)]
      have e : (n - (c : Int)).toNat + c = n.toNat := by omega
      simp only [e]

theorem zipWith_samplesF (h : ℂ → ℂ → ℂ) (F G : Int → ℂ) (N : Nat) :
    List.zipWith h (samplesF F N) (samplesF G N) = samplesF (fun n => h (F n) (G n)) N := by
  apply eq_samplesF
  · simp [samplesF_length]
  · intro k hk
    rw [List.getElem?_zipWith, samplesF_get? F N k hk, samplesF_get? G N k hk]

theorem iv_conj (beta : ℝ) (n : Int) : (starRingEnd ℂ) (iv beta n) = iv beta (-n - 1) := by
  simp only [iv, map_mul, Complex.conj_I, Complex.conj_ofReal]
  push_cast; ring

theorem asymptVal_conj (beta a b : ℝ) (n : Int) :
    (starRingEnd ℂ) (asymptVal beta a b n) = asymptVal beta a b (-n - 1) := by
  simp only [asymptVal, map_sub, map_mul, map_div₀, map_one, Complex.conj_ofReal, iv_conj]

theorem iv_im (beta : ℝ) (n : Int) : (iv beta n).im = Real.pi / beta * (2 * n + 1) := by
  rw [iv, Complex.I_mul_im, Complex.ofReal_re]

theorem iv_ne_zero (beta : ℝ) (hb : beta ≠ 0) (n : Int) : iv beta n ≠ 0 := by
  intro h
  have h2 := congrArg Complex.im h
  rw [iv_im, Complex.zero_im] at h2
  have h3 : (2 * (n : ℝ) + 1) ≠ 0 := by
    have : (2 * n + 1 : Int) ≠ 0 := by omega
    exact_mod_cast this
  exact (mul_ne_zero (div_ne_zero Real.pi_ne_zero hb) h3) h2

theorem sum_samplesF_mirror (f : Nat → ℂ) (N : Nat) : ((samplesF (mirror f) N).sum).im = 0 := by
  rw [← fermionicFull_range]
  have : (fermionicFull (starRingEnd ℂ) ((List.range N).map f)).sum =
      (starRingEnd ℂ) (((List.range N).map f).sum) + ((List.range N).map f).sum := by
    rw [fermionicFull, List.sum_append, List.map_reverse, List.sum_reverse, map_list_sum]
  rw [this]; simp

theorem sum_samplesF_symm (G : Int → ℂ) (hG : ∀ n, G (-n - 1) = (starRingEnd ℂ) (G n)) (N : Nat) :
    ((samplesF G N).sum).im = 0 := by
  rw [samplesF_congr G (mirror fun m => G m) N]
  · exact sum_samplesF_mirror _ N
  · intro n _ _
    unfold mirror
    by_cases h : 0 ≤ n
    · rw [if_pos h]; congr 1; omega
    · rw [if_neg h, ← hG]; congr 1; omega

end DGA.Two
