/-
  C83 (continued), C84: values along a path, lookup of momenta.
-/
import Verif.KPath.Props

namespace DGA.KPath

open DGA.Bz

noncomputable section

/-! ### coordinates along the path -/

theorem axis_get (n : ℕ) (i : ℤ) (h0 : 0 ≤ i) (h1 : i < n) : Py.get? (axisVals n) i = some (2 * Real.pi * i / n) := by
  unfold Py.get? axisVals
  rw [if_neg (by omega), List.getElem?_map, List.getElem?_range (by omega)]
  simp only [Option.map_some]
  congr 3
  have : ((i.toNat : ℕ) : ℤ) = i := Int.toNat_of_nonneg h0
  exact_mod_cast this

/-- C83 (c): on a grid with the same number of points in all directions, the coordinates of the path points are those of the grid points -/
theorem pathVals_cubic (n : ℕ) (pts : List (V3 ℤ)) (h : ∀ p ∈ pts, (0 ≤ p.1 ∧ p.1 < n) ∧ (0 ≤ p.2.1 ∧ p.2.1 < n) ∧ (0 ≤ p.2.2 ∧ p.2.2 < n)) :
    pathVals (n, n, n) pts = some (pts.map fun (p : V3 ℤ) => (2 * Real.pi * p.1 / n, 2 * Real.pi * p.2.1 / n, 2 * Real.pi * p.2.2 / n)) := by
  unfold pathVals
  refine mapM_eq _ _ _ fun p hp => ?_
  obtain ⟨h1, h2, h3⟩ := h p hp
  rw [axis_get n _ h1.1 h1.2, axis_get n _ h2.1 h2.2, axis_get n _ h3.1 h3.2]
  rfl

/-- C83 (c'): the same for a two-dimensional square grid with one layer -/
theorem pathVals_square (n : ℕ) (pts : List (V3 ℤ)) (h : ∀ p ∈ pts, (0 ≤ p.1 ∧ p.1 < n) ∧ (0 ≤ p.2.1 ∧ p.2.1 < n) ∧ p.2.2 = 0) :
    pathVals (n, n, 1) pts = some (pts.map fun (p : V3 ℤ) => (2 * Real.pi * p.1 / n, 2 * Real.pi * p.2.1 / n, 0)) := by
  unfold pathVals
  refine mapM_eq _ _ _ fun p hp => ?_
  obtain ⟨h1, h2, h3⟩ := h p hp
  rw [axis_get n _ h1.1 h1.2, axis_get n _ h2.1 h2.2, h3, axis_get n 0 le_rfl (by omega)]
  simp

/-- on other grids the coordinates are wrong: the y value is taken from the x grid -/
theorem pathVals_wrong (nx ny nz : ℕ) (p : V3 ℤ) (h1 : 0 ≤ p.1 ∧ p.1 < nx) (h2 : 0 ≤ p.2.1 ∧ p.2.1 < nx) (h3 : 0 ≤ p.2.2 ∧ p.2.2 < nx) :
    pathVals (nx, ny, nz) [p] = some [(2 * Real.pi * p.1 / nx, 2 * Real.pi * p.2.1 / nx, 2 * Real.pi * p.2.2 / nx)] := by
  unfold pathVals
  rw [mapM_eq [p] (fun (p : V3 ℤ) => (2 * Real.pi * p.1 / (nx : ℝ), 2 * Real.pi * p.2.1 / (nx : ℝ), 2 * Real.pi * p.2.2 / (nx : ℝ))) _ ?_]
  · rfl
  · intro q hq
    rw [List.mem_singleton] at hq
    subst hq
    rw [axis_get nx _ h1.1 h1.2, axis_get nx _ h2.1 h2.2, axis_get nx _ h3.1 h3.2]
    rfl

/-- and an index beyond the x grid raises -/
theorem pathVals_raises (nx ny nz : ℕ) (p : V3 ℤ) (h2 : (nx : ℤ) ≤ p.2.1) : pathVals (nx, ny, nz) [p] = none := by
  unfold pathVals
  rw [List.mapM_cons]
  have : Py.get? (axisVals nx) p.2.1 = none := by
    unfold Py.get? axisVals
    rw [if_neg (by omega), List.getElem?_eq_none]
    rw [List.length_map, List.length_range]
    omega
  simp only [this, Option.bind_none]
  cases Py.get? (axisVals nx) p.1 <;> rfl

/-! ### nearest grid value -/

theorem argNear_spec (q : ℝ) (l : List ℝ) (i : ℕ) (h : argNear q l = some i) :
    ∃ x, l[i]? = some x ∧ (∀ (j : ℕ) (y : ℝ), l[j]? = some y → |x - q| ≤ |y - q|) ∧ ∀ (j : ℕ) (y : ℝ), j < i → l[j]? = some y → |x - q| < |y - q| := by
  induction l generalizing i with
  | nil => cases h
  | cons a l ih =>
    unfold argNear at h
    cases hr : argNear q l with
    | none =>
      rw [hr] at h
      injection h with h
      subst h
      refine ⟨a, rfl, ?_, fun j y hj => by omega⟩
      have : l = [] := by
        cases l with
        | nil => rfl
        | cons b r =>
          unfold argNear at hr
          cases hh : argNear q r with
          | none => rw [hh] at hr; cases hr
          | some k => rw [hh] at hr; simp only at hr; split at hr <;> cases hr
      subst this
      intro j y hy
      cases j with
      | zero => simp only [List.getElem?_cons_zero, Option.some.injEq] at hy; rw [hy]
      | succ j => simp at hy
    | some k =>
      rw [hr] at h
      obtain ⟨x, hx, hmin, hfirst⟩ := ih k hr
      simp only [hx, Option.getD_some] at h
      by_cases hlt : |x - q| < |a - q|
      · rw [if_pos hlt] at h
        injection h with h
        subst h
        refine ⟨x, hx, ?_, ?_⟩
        · intro j y hy
          cases j with
          | zero => simp only [List.getElem?_cons_zero, Option.some.injEq] at hy; rw [← hy]; exact hlt.le
          | succ j => exact hmin j y hy
        · intro j y hj hy
          cases j with
          | zero => simp only [List.getElem?_cons_zero, Option.some.injEq] at hy; rw [← hy]; exact hlt
          | succ j => exact hfirst j y (by omega) hy
      · rw [if_neg hlt] at h
        injection h with h
        subst h
        push Not at hlt
        refine ⟨a, rfl, ?_, fun j y hj => by omega⟩
        intro j y hy
        cases j with
        | zero => simp only [List.getElem?_cons_zero, Option.some.injEq] at hy; rw [hy]
        | succ j => exact hlt.trans (hmin j y hy)

theorem argNear_some (q : ℝ) (l : List ℝ) (hl : l ≠ []) : ∃ i, argNear q l = some i := by
  cases l with
  | nil => exact absurd rfl hl
  | cons a l =>
    unfold argNear
    cases argNear q l with
    | none => exact ⟨0, rfl⟩
    | some k => simp only; split <;> exact ⟨_, rfl⟩

theorem axisVals_get (n i : ℕ) (h : i < n) : (axisVals n)[i]? = some (2 * Real.pi * i / n) := by
  unfold axisVals; rw [List.getElem?_map, List.getElem?_range h]; rfl

theorem axisVals_lt (n i j : ℕ) (hn : 0 < n) (h : i < j) : 2 * Real.pi * (i : ℝ) / n < 2 * Real.pi * (j : ℝ) / n := by
  have hn' : (0 : ℝ) < n := by exact_mod_cast hn
  have : (i : ℝ) < j := by exact_mod_cast h
  have := Real.pi_pos
  gcongr

/-- C84 (a): a momentum of the grid is found at its index -/
theorem argNear_grid (n i : ℕ) (h : i < n) : argNear (2 * Real.pi * i / n) (axisVals n) = some i := by
  have hne : axisVals n ≠ [] := by
    intro e
    have := axisVals_get n i h
    rw [e] at this
    cases this
  obtain ⟨k, hk⟩ := argNear_some (2 * Real.pi * i / n) (axisVals n) hne
  obtain ⟨x, hx, hmin, _⟩ := argNear_spec _ _ _ hk
  have h1 := hmin i _ (axisVals_get n i h)
  rw [sub_self, abs_zero] at h1
  have hx0 : x = 2 * Real.pi * i / n := by
    have := abs_nonpos_iff.mp h1
    linarith
  have hkn : k < n := by
    by_contra hk'
    rw [List.getElem?_eq_none (by unfold axisVals; rw [List.length_map, List.length_range]; omega)] at hx
    cases hx
  rw [axisVals_get n k hkn] at hx
  injection hx with hx
  rw [hk]
  congr 1
  rcases Nat.lt_trichotomy k i with h' | h' | h'
  · have := axisVals_lt n k i (by omega) h'; linarith
  · exact h'
  · have := axisVals_lt n i k (by omega) h'; linarith

/-- C84 (a'): `find_q_ind` returns, per axis, the first of the nearest grid values -/
theorem findQInd_nearest (nk : V3 ℕ) (q : V3 ℝ) (i : V3 ℕ) (h : findQInd nk q = some i) :
    (i.1 < nk.1 ∧ ∀ j < nk.1, |2 * Real.pi * i.1 / nk.1 - q.1| ≤ |2 * Real.pi * j / nk.1 - q.1| ∧ (j < i.1 → |2 * Real.pi * i.1 / nk.1 - q.1| < |2 * Real.pi * j / nk.1 - q.1|)) ∧
    (i.2.1 < nk.2.1 ∧ ∀ j < nk.2.1, |2 * Real.pi * i.2.1 / nk.2.1 - q.2.1| ≤ |2 * Real.pi * j / nk.2.1 - q.2.1| ∧ (j < i.2.1 → |2 * Real.pi * i.2.1 / nk.2.1 - q.2.1| < |2 * Real.pi * j / nk.2.1 - q.2.1|)) ∧
    (i.2.2 < nk.2.2 ∧ ∀ j < nk.2.2, |2 * Real.pi * i.2.2 / nk.2.2 - q.2.2| ≤ |2 * Real.pi * j / nk.2.2 - q.2.2| ∧ (j < i.2.2 → |2 * Real.pi * i.2.2 / nk.2.2 - q.2.2| < |2 * Real.pi * j / nk.2.2 - q.2.2|)) := by
  have key : ∀ (n : ℕ) (x : ℝ) (k : ℕ), argNear x (axisVals n) = some k → k < n ∧ ∀ j < n, |2 * Real.pi * k / n - x| ≤ |2 * Real.pi * j / n - x| ∧ (j < k → |2 * Real.pi * k / n - x| < |2 * Real.pi * j / n - x|) := by
    intro n x k hk
    obtain ⟨y, hy, hmin, hfirst⟩ := argNear_spec _ _ _ hk
    have hkn : k < n := by
      by_contra hk'
      rw [List.getElem?_eq_none (by unfold axisVals; rw [List.length_map, List.length_range]; omega)] at hy
      cases hy
    rw [axisVals_get n k hkn] at hy
    injection hy with hy
    subst hy
    exact ⟨hkn, fun j hj => ⟨hmin j _ (axisVals_get n j hj), fun hjk => hfirst j _ hjk (axisVals_get n j hj)⟩⟩
  unfold findQInd at h
  obtain ⟨a, ha, h⟩ := Option.bind_eq_some_iff.mp h
  obtain ⟨b, hb, h⟩ := Option.bind_eq_some_iff.mp h
  obtain ⟨c, hc, h⟩ := Option.map_eq_some_iff.mp h
  subst h
  exact ⟨key _ _ _ ha, key _ _ _ hb, key _ _ _ hc⟩

/-- C84 (b): shifting by a momentum of the grid is the periodic translation by its index: the entry at `k` moves to `k + q` -/
theorem shiftByQ_grid {α : Type} (nx ny nz i j k : ℕ) (hi : i < nx) (hj : j < ny) (hk : k < nz) (F : ℕ → ℕ → ℕ → α) :
    shiftByQ (nx, ny, nz) (table nx ny nz F) (2 * Real.pi * i / nx, 2 * Real.pi * j / ny, 2 * Real.pi * k / nz) =
      some (table nx ny nz fun a b c : ℕ => F (((a : ℤ) - i) % nx).toNat (((b : ℤ) - j) % ny).toNat (((c : ℤ) - k) % nz).toNat) := by
  unfold shiftByQ findQInd
  simp only [argNear_grid _ _ hi, argNear_grid _ _ hj, argNear_grid _ _ hk, Option.bind_some, Option.map_some, Bubble.shift_table]

/-- C84 (c): the slice at a momentum of the grid is the plane of that momentum, in each direction -/
theorem kSlice_grid {α : Type} (nx ny nz i : ℕ) (F : ℕ → ℕ → ℕ → α) :
    (i < nx → kSlice (nx, ny, nz) (table nx ny nz F) 0 (2 * Real.pi * i / nx) =
      some ((List.range ny).map fun b => (List.range nz).map fun c => F i b c)) ∧
    (i < ny → kSlice (nx, ny, nz) (table nx ny nz F) 1 (2 * Real.pi * i / ny) =
      some ((List.range nx).map fun a => (List.range nz).map fun c => F a i c)) ∧
    (i < nz → kSlice (nx, ny, nz) (table nx ny nz F) 2 (2 * Real.pi * i / nz) =
      some ((List.range nx).map fun a => (List.range ny).map fun b => F a b i)) := by
  refine ⟨fun h => ?_, fun h => ?_, fun h => ?_⟩
  · unfold kSlice
    rw [if_pos rfl, argNear_grid nx i h, Option.bind_some]
    unfold table
    rw [List.getElem?_map, List.getElem?_range h]
    rfl
  · unfold kSlice
    rw [if_neg (by norm_num), if_pos rfl, argNear_grid ny i h, Option.bind_some]
    unfold table
    rw [List.mapM_map]
    refine mapM_eq _ _ _ fun a _ => ?_
    simp only [Function.comp]
    rw [List.getElem?_map, List.getElem?_range h]
    rfl
  · unfold kSlice
    rw [if_neg (by norm_num), if_neg (by norm_num), if_pos rfl, argNear_grid nz i h, Option.bind_some]
    unfold table
    rw [List.mapM_map]
    refine mapM_eq _ _ _ fun a _ => ?_
    simp only [Function.comp]
    rw [List.mapM_map]
    refine mapM_eq _ _ _ fun b _ => ?_
    simp only [Function.comp]
    rw [List.getElem?_map, List.getElem?_range h]
    rfl

/-- the lookup is not periodic: `2 pi` is found at the last point of the axis, not at the first -/
theorem findQ_not_periodic (n : ℕ) (hn : 0 < n) : argNear (2 * Real.pi) (axisVals n) = some (n - 1) := by
  have hne : axisVals n ≠ [] := by
    intro e
    have := axisVals_get n 0 hn
    rw [e] at this
    cases this
  obtain ⟨k, hk⟩ := argNear_some (2 * Real.pi) (axisVals n) hne
  obtain ⟨x, hx, hmin, _⟩ := argNear_spec _ _ _ hk
  have hkn : k < n := by
    by_contra hk'
    rw [List.getElem?_eq_none (by unfold axisVals; rw [List.length_map, List.length_range]; omega)] at hx
    cases hx
  rw [axisVals_get n k hkn] at hx
  injection hx with hx
  rw [hk]
  congr 1
  by_contra hne'
  have hlt : k < n - 1 := by omega
  have h1 := hmin (n - 1) _ (axisVals_get n (n - 1) (by omega))
  rw [← hx] at h1
  have h2 := axisVals_lt n k (n - 1) hn hlt
  have h3 := axisVals_lt n (n - 1) n hn (by omega)
  have hn' : (n : ℝ) ≠ 0 := by exact_mod_cast hn.ne'
  rw [mul_div_assoc _ (n : ℝ), div_self hn', mul_one] at h3
  rw [abs_of_neg (by linarith), abs_of_neg (by linarith)] at h1
  linarith

/-! ### concrete cases -/

theorem segCount_axis (d n : ℕ) (x : ℝ) (h : x * n = d) (ny nz : ℕ) : segCount (0, 0, 0) (x, 0, 0) (n, ny, nz) = d := by
  unfold segCount
  simp only [zero_mul, sub_self, zero_sub, h]
  rw [show (-(d : ℝ)) ^ 2 + 0 ^ 2 + 0 ^ 2 = (d : ℝ) ^ 2 by ring, Real.sqrt_sq (Nat.cast_nonneg _)]
  have := rint_int (d : ℤ)
  push_cast at this
  rw [this]
  simp

/-- from Gamma to X on a 4 x 4 grid: two points, the second of which is not X although the tick of X is placed there -/
example : segCount (0, 0, 0) (0.5, 0, 0) (4, 4, 1) = 2 ∧ cind [2] = [0, 1] ∧ rint (segCoord 0 0.5 4 2 1) = 1 := by
  refine ⟨segCount_axis 2 4 0.5 (by norm_num) 4 1, rfl, ?_⟩
  have : segCoord 0 0.5 4 2 1 = ((1 : ℤ) : ℝ) := by unfold segCoord; norm_num
  rw [this, rint_int]

example : (∀ x ∈ [((0 : ℝ), (0 : ℝ), (0 : ℝ)), (0.5, 0, 0), (0.5, 0.5, 0)], InZone x) := by
  intro x hx
  simp only [List.mem_cons, List.not_mem_nil, or_false] at hx
  rcases hx with rfl | rfl | rfl <;> unfold InZone <;> norm_num [abs_le]

/-- on a 4 x 2 grid the y coordinate of the point `(0, 1, 0)` should be `pi` and is `pi/2` -/
example : pathVals (4, 2, 1) [(0, 1, 0)] = some [(0, Real.pi / 2, 0)] := by
  rw [pathVals_wrong 4 2 1 (0, 1, 0) ⟨le_rfl, by norm_num⟩ ⟨by norm_num, by norm_num⟩ ⟨le_rfl, by norm_num⟩]
  norm_num
  ring

example : pathVals (2, 4, 1) [(0, 3, 0)] = none := pathVals_raises 2 4 1 (0, 3, 0) (by norm_num)

end

end DGA.KPath
