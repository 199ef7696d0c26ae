/-
  Quadrature: the weights `dw` are those of the trapezoidal rule.
-/
import Verif.MaxEnt.Model
import Mathlib.Tactic.Linarith
import Mathlib.Tactic.Ring
import Mathlib.Tactic.FieldSimp

noncomputable section

namespace DGA.Mx

open Finset

theorem ext_val {n : ℕ} (a : Fin n → ℝ) (i : Fin n) : ext a (i : ℕ) = a i := by simp [ext]

/-- half of the i-th interval -/
def half {n : ℕ} (x : Fin n → ℝ) (i : ℕ) : ℝ := (ext x (i + 1) - ext x i) / 2

theorem dw_split {n : ℕ} (x : Fin n → ℝ) (l : Fin n) :
    dw x l = (if (l : ℕ) + 1 < n then half x l else 0) + (if 0 < (l : ℕ) then half x (l - 1) else 0) := by
  obtain ⟨l, hl⟩ := l
  simp only [dw, edge, half]
  rcases Nat.eq_zero_or_pos l with h0 | h0
  · subst h0
    by_cases h1 : 0 + 1 < n
    · simp [h1]; ring
    · have : n = 1 := by omega
      subst this
      simp
  · obtain ⟨k, rfl⟩ : ∃ k, l = k + 1 := ⟨l - 1, by omega⟩
    by_cases h1 : k + 1 + 1 < n
    · simp [h1, hl]; ring
    · have : n = k + 2 := by omega
      subst this
      simp; ring

/-- the trapezoidal rule is the sum with the weights `dw` -/
theorem trapz_eq {n : ℕ} (y x : Fin n → ℝ) : trapz y x = ∑ l, dw x l * y l := by
  rcases n with _ | n
  · simp [trapz]
  have e : ∑ l : Fin (n + 1), dw x l * y l = ∑ i ∈ range (n + 1), ((if i + 1 < n + 1 then half x i else 0) +
      (if 0 < i then half x (i - 1) else 0)) * ext y i := by
    rw [Finset.sum_range]
    exact Finset.sum_congr rfl fun l _ => by rw [dw_split, ext_val]
  rw [e]
  simp only [add_mul, Finset.sum_add_distrib]
  rw [Finset.sum_range_succ, Finset.sum_range_succ' (fun i => (if 0 < i then half x (i - 1) else 0) * ext y i)]
  simp only [lt_irrefl, if_false, zero_mul, add_zero, Nat.add_sub_cancel, Nat.succ_pos, if_true]
  rw [← Finset.sum_add_distrib]
  unfold trapz
  refine Finset.sum_congr rfl fun i hi => ?_
  have : i + 1 < n + 1 := by have := Finset.mem_range.mp hi; omega
  rw [if_pos this]
  simp only [half]
  ring

theorem dw_pos {n : ℕ} (hn : 2 ≤ n) (x : Fin n → ℝ) (hx : StrictMono x) (l : Fin n) : 0 < dw x l := by
  have hh : ∀ i, i + 1 < n → 0 < half x i := by
    intro i hi
    simp only [half, ext, hi, dif_pos, show i < n by omega]
    have := hx (show (⟨i, by omega⟩ : Fin n) < ⟨i + 1, hi⟩ by simp)
    linarith
  rw [dw_split]
  have hl := l.isLt
  by_cases h1 : (l : ℕ) + 1 < n
  · have a := hh _ h1
    rw [if_pos h1]
    split
    · have := hh (l - 1) (by omega); linarith
    · linarith
  · rw [if_neg h1, if_pos (by omega)]
    have := hh (l - 1) (by omega); linarith

theorem dw_nonneg {n : ℕ} (x : Fin n → ℝ) (hx : Monotone x) (l : Fin n) : 0 ≤ dw x l := by
  have hh : ∀ i, i + 1 < n → 0 ≤ half x i := by
    intro i hi
    simp only [half, ext, hi, dif_pos, show i < n by omega]
    have := hx (show (⟨i, by omega⟩ : Fin n) ≤ ⟨i + 1, hi⟩ by simp)
    linarith
  rw [dw_split]
  have hl := l.isLt
  have : 0 ≤ (if (l : ℕ) + 1 < n then half x l else 0) := by split; exacts [hh _ (by assumption), le_rfl]
  have : 0 ≤ (if 0 < (l : ℕ) then half x (l - 1) else 0) := by split; exacts [hh _ (by omega), le_rfl]
  linarith

/-- the weights add up to the length of the mesh -/
theorem dw_sum {n : ℕ} (x : Fin (n + 1) → ℝ) : ∑ l, dw x l = x (Fin.last n) - x 0 := by
  have e : ∑ l, dw x l = ∑ i ∈ range (n + 1), (edge x (i + 1) - edge x i) := by rw [Finset.sum_range]; rfl
  rw [e, Finset.sum_range_sub]
  simp [edge, ext, Fin.last]

example : ∑ l : Fin 3, dw ![0, 1, 4] l = (4 : ℝ) - 0 := dw_sum (n := 2) ![0, 1, 4]

end DGA.Mx
