/-
  Model of the non-linear least-squares Padé fit, src/dga/pade_aux.py:303-409 `padeNonlinear`, and of the dispatch `acPade` (412-447).

  Simplifications: exact arithmetic; `scipy.optimize.leastsq` is not modelled, the theorems are about the residual and the Jacobian handed to
  it; messages are left out; `sys.exit` is `none`.
-/
import Verif.Pade.Props
import Mathlib.Analysis.Complex.RealDeriv
import Mathlib.Analysis.Calculus.Deriv.Inv
import Mathlib.Analysis.Calculus.Deriv.Add
import Mathlib.Analysis.Calculus.Deriv.Mul

noncomputable section

namespace DGA.Pade

open Complex

/-- pade_aux.py:325 (and 361): `xin = Xin[:n // 2] + Xin[n // 2:] * 1j`; the real vector is given by its entries and its length `n` -/
def cplx (X : ℕ → ℝ) (n : ℕ) : List ℂ := (List.range (n / 2)).map fun i => (X i : ℂ) + (X (n / 2 + i) : ℂ) * I

/-- pade_aux.py:314-330 `epader` and 332-342 `pade_err`: entry `row` of the residual for the nodes `z` and the data `f`, both of length `M`; rows
    `0 … M-1` are real parts, rows `M … 2M-1` imaginary parts -/
def padeErr (z f : ℕ → ℂ) (M n : ℕ) (X : ℕ → ℝ) (row : ℕ) : ℝ :=
  if row < M then (epade (z row) (cplx X n)).re - (f row).re
  else (epade (z (row - M)) (cplx X n)).im - (f (row - M)).im

/-- pade_aux.py:362-367 `nu` at one node, `r = n // 4` -/
def nuOf (X : ℕ → ℝ) (n : ℕ) (z : ℂ) : ℂ := ((List.range (n / 4)).map fun i => (cplx X n).getD i 0 * z ^ i).sum

/-- pade_aux.py:362-367 `de` at one node -/
def deOf (X : ℕ → ℝ) (n : ℕ) (z : ℂ) : ℂ := ((List.range (n / 4)).map fun i => (cplx X n).getD (n / 4 + i) 0 * z ^ i).sum + z ^ (n / 4)

/-- pade_aux.py:368-377: the row of `e = np.concatenate((a, b, c, d), axis=1)` at one node; the four blocks have `r = n // 4` columns -/
def jacE (X : ℕ → ℝ) (n : ℕ) (z : ℂ) (col : ℕ) : ℂ :=
  let r := n / 4
  let nu := nuOf X n z
  let de := deOf X n z
  if col < r then z ^ col / de
  else if col < 2 * r then -nu * z ^ (col - r) / de ^ 2
  else if col < 3 * r then I * z ^ (col - 2 * r) / de
  else -nu * I * z ^ (col - 3 * r) / de ^ 2

/-- pade_aux.py:344-381 `jac`: `J[:m // 2, :] = e.real`, `J[m // 2:, :] = e.imag`; the assignment raises unless `4 (n // 4) = n` -/
def jac (z : ℕ → ℂ) (M n : ℕ) (X : ℕ → ℝ) (row col : ℕ) : Option ℝ :=
  if 4 * (n / 4) = n then
    some (if row < M then (jacE X n (z row) col).re else (jacE X n (z (row - M)) col).im)
  else none

/-- pade_aux.py:393-394: `X0 = np.zeros(2 * N)`, `X0[N // 2 - 1] = 1` -/
def start (N : ℕ) : ℕ → ℝ := fun i => if i = N / 2 - 1 then 1 else 0

/-- pade_aux.py:408: `x = X[:N] + X[N:] * 1j` for the result `X` (length `2 N`) of the optimiser -/
def padeNonlinear (opt : (ℕ → ℝ) → ℕ → ℝ) (N : ℕ) : List ℂ := cplx (opt (start N)) (2 * N)

/-- pade_aux.py:412-447 `acPade` for one column `f` and one point: `matrix` stands for `padeMatrix`, `opt` for `leastsq` -/
def acPade (matrix : List ℂ → List ℂ → ℕ → List ℂ) (opt : (ℕ → ℝ) → ℕ → ℝ) (z f : List ℂ) (N : ℕ) (zout : ℂ) (solver : ℕ) : Option ℂ :=
  if N % 2 ≠ 0 then none
  else if solver = 0 then some (epade zout (matrix z f N))
  else if solver = 1 then (if N = z.length then padeThiele z f zout else none)
  else if solver = 2 then some (epade zout (padeNonlinear opt N))
  else none

/-! ### properties -/

theorem cplx_length (X : ℕ → ℝ) (n : ℕ) : (cplx X n).length = n / 2 := by simp [cplx]

theorem cplx_getD (X : ℕ → ℝ) (n i : ℕ) (h : i < n / 2) : (cplx X n).getD i 0 = (X i : ℂ) + (X (n / 2 + i) : ℂ) * I := by
  simp [cplx, List.getD, h]

theorem epade_cplx (X : ℕ → ℝ) (n : ℕ) (z : ℂ) : epade z (cplx X n) = nuOf X n z / deOf X n z := by
  rw [epade_value, cplx_length, show n / 2 / 2 = n / 4 by omega]
  rfl

/-- the effect of the parameter `col` on numerator and denominator is linear -/
theorem sum_update (X : ℕ → ℝ) (n : ℕ) (off c : ℕ) (t : ℝ) (z : ℂ) (hoff : off + n / 4 ≤ n / 2) :
    ((List.range (n / 4)).map fun i => (cplx (Function.update X c t) n).getD (off + i) 0 * z ^ i).sum =
      ((List.range (n / 4)).map fun i => (cplx X n).getD (off + i) 0 * z ^ i).sum +
        ((t - X c : ℝ) : ℂ) * ((List.range (n / 4)).map fun i => ((if off + i = c then 1 else 0) + (if n / 2 + (off + i) = c then I else 0)) * z ^ i).sum := by
  rw [← List.sum_map_mul_left, ← List.sum_map_add]
  congr 1
  refine List.map_congr_left fun i hi => ?_
  rw [List.mem_range] at hi
  rw [cplx_getD _ _ _ (by omega), cplx_getD _ _ _ (by omega)]
  by_cases h1 : off + i = c
  · have h2 : n / 2 + (off + i) ≠ c := by omega
    rw [← h1, Function.update_self, Function.update_of_ne (by omega), if_pos rfl, if_neg (by omega)]
    push_cast; ring
  · by_cases h2 : n / 2 + (off + i) = c
    · rw [if_neg h1, if_pos h2, ← h2, Function.update_self, Function.update_of_ne (by omega)]
      push_cast; ring
    · rw [if_neg h1, if_neg h2, Function.update_of_ne h1, Function.update_of_ne h2]
      ring

theorem pick_sum (r k : ℕ) (g : ℕ → ℂ) (v : ℂ) (z : ℂ) (hg : ∀ i, i < r → g i = if i = k then v else 0) (hk : k < r) :
    ((List.range r).map fun i => g i * z ^ i).sum = v * z ^ k := by
  have : ((List.range r).map fun i => g i * z ^ i) = (List.range r).map fun i => if i = k then v * z ^ k else 0 := by
    refine List.map_congr_left fun i hi => ?_
    rw [hg i (List.mem_range.1 hi)]
    by_cases h : i = k
    · subst h; simp
    · simp [h]
  rw [this]
  clear this hg
  induction r with
  | zero => omega
  | succ r ih =>
    rw [List.range_succ, List.map_append, List.sum_append]
    by_cases h : k = r
    · subst h
      have : ((List.range k).map fun i => if i = k then v * z ^ k else 0).sum = 0 := by
        apply List.sum_eq_zero
        intro x hx
        rw [List.mem_map] at hx
        obtain ⟨i, hi, rfl⟩ := hx
        rw [if_neg (by rw [List.mem_range] at hi; omega)]
      rw [this]; simp
    · rw [ih (by omega)]
      simp [show r ≠ k by omega]

theorem zero_sum (r : ℕ) (g : ℕ → ℂ) (z : ℂ) (hg : ∀ i, i < r → g i = 0) : ((List.range r).map fun i => g i * z ^ i).sum = 0 := by
  apply List.sum_eq_zero
  intro x hx
  rw [List.mem_map] at hx
  obtain ⟨i, hi, rfl⟩ := hx
  rw [hg i (List.mem_range.1 hi), zero_mul]

theorem epade_deriv (z : ℂ) (n : ℕ) (hn : 4 * (n / 4) = n) (X : ℕ → ℝ) (hd : deOf X n z ≠ 0) (col : ℕ) (hc : col < n) :
    HasDerivAt (fun t : ℝ => epade z (cplx (Function.update X col t) n)) (jacE X n z col) (X col) := by
  set r := n / 4 with hr
  have hn2 : n / 2 = 2 * r := by omega
  have key : ∀ (dn dd : ℂ),
      (∀ t : ℝ, nuOf (Function.update X col t) n z = nuOf X n z + ((t - X col : ℝ) : ℂ) * dn) →
      (∀ t : ℝ, deOf (Function.update X col t) n z = deOf X n z + ((t - X col : ℝ) : ℂ) * dd) →
      HasDerivAt (fun t : ℝ => epade z (cplx (Function.update X col t) n)) ((dn * deOf X n z - nuOf X n z * dd) / deOf X n z ^ 2) (X col) := by
    intro dn dd h1 h2
    simp only [epade_cplx, h1, h2]
    have hlin : ∀ (a b : ℂ), HasDerivAt (fun t : ℝ => a + ((t - X col : ℝ) : ℂ) * b) b (X col) := by
      intro a b
      have h0 : HasDerivAt (fun t : ℝ => ((t - X col : ℝ) : ℂ)) 1 (X col) := by
        simpa using ((hasDerivAt_id (X col)).sub_const (X col)).ofReal_comp
      simpa using (h0.mul_const b).const_add a
    have := (hlin (nuOf X n z) dn).div (hlin (deOf X n z) dd) (by simpa using hd)
    have h5 : HasDerivAt (fun t : ℝ => (nuOf X n z + ((t - X col : ℝ) : ℂ) * dn) / (deOf X n z + ((t - X col : ℝ) : ℂ) * dd)) _ (X col) := this
    convert h5 using 1
    simp
  have hnu := fun t => sum_update X n 0 col t z (by omega)
  have hde := fun t => sum_update X n r col t z (by omega)
  simp only [Nat.zero_add] at hnu
  unfold jacE
  simp only [← hr]
  by_cases c1 : col < r
  · rw [if_pos c1]
    have a1 := pick_sum r col (fun i => (if i = col then 1 else 0) + (if n / 2 + i = col then I else 0)) 1 z
      (by intro i hi; rw [if_neg (show n / 2 + i ≠ col by omega), add_zero]) c1
    have a2 := zero_sum r (fun i => (if r + i = col then 1 else 0) + (if n / 2 + (r + i) = col then I else 0)) z
      (by intro i hi; rw [if_neg (by omega), if_neg (by omega), add_zero])
    have := key (1 * z ^ col) 0 (fun t => by unfold nuOf; rw [← hr, hnu t, a1]) (fun t => by unfold deOf; rw [← hr, hde t, a2]; ring)
    convert this using 1
    field_simp
    ring
  · rw [if_neg c1]
    by_cases c2 : col < 2 * r
    · rw [if_pos c2]
      have a1 := zero_sum r (fun i => (if i = col then 1 else 0) + (if n / 2 + i = col then I else 0)) z
        (by intro i hi; rw [if_neg (by omega), if_neg (by omega), add_zero])
      have a2 := pick_sum r (col - r) (fun i => (if r + i = col then 1 else 0) + (if n / 2 + (r + i) = col then I else 0)) 1 z
        (by intro i hi; rw [if_neg (show n / 2 + (r + i) ≠ col by omega), add_zero]; simp only [show (r + i = col) = (i = col - r) by
          apply propext; omega]) (by omega)
      have := key 0 (1 * z ^ (col - r)) (fun t => by unfold nuOf; rw [← hr, hnu t, a1]) (fun t => by unfold deOf; rw [← hr, hde t, a2]; ring)
      convert this using 1
      ring
    · rw [if_neg c2]
      by_cases c3 : col < 3 * r
      · rw [if_pos c3]
        have a1 := pick_sum r (col - 2 * r) (fun i => (if i = col then 1 else 0) + (if n / 2 + i = col then I else 0)) I z
          (by intro i hi; rw [if_neg (show i ≠ col by omega), zero_add]; simp only [show (n / 2 + i = col) = (i = col - 2 * r) by
            apply propext; omega]) (by omega)
        have a2 := zero_sum r (fun i => (if r + i = col then 1 else 0) + (if n / 2 + (r + i) = col then I else 0)) z
          (by intro i hi; rw [if_neg (by omega), if_neg (by omega), add_zero])
        have := key (I * z ^ (col - 2 * r)) 0 (fun t => by unfold nuOf; rw [← hr, hnu t, a1]) (fun t => by unfold deOf; rw [← hr, hde t, a2]; ring)
        convert this using 1
        field_simp
        ring
      · rw [if_neg c3]
        have a1 := zero_sum r (fun i => (if i = col then 1 else 0) + (if n / 2 + i = col then I else 0)) z
          (by intro i hi; rw [if_neg (by omega), if_neg (by omega), add_zero])
        have a2 := pick_sum r (col - 3 * r) (fun i => (if r + i = col then 1 else 0) + (if n / 2 + (r + i) = col then I else 0)) I z
          (by intro i hi; rw [if_neg (show r + i ≠ col by omega), zero_add]; simp only [show (n / 2 + (r + i) = col) = (i = col - 3 * r) by
            apply propext; omega]) (by omega)
        have := key 0 (I * z ^ (col - 3 * r)) (fun t => by unfold nuOf; rw [← hr, hnu t, a1]) (fun t => by unfold deOf; rw [← hr, hde t, a2]; ring)
        convert this using 1
        ring

/-- **C106.** The Jacobian handed to the optimiser is the matrix of partial derivatives of the residual, for every parameter vector, row
    and column, wherever the denominator of the approximant does not vanish at the node. -/
theorem jac_correct (z f : ℕ → ℂ) (M n : ℕ) (hn : 4 * (n / 4) = n) (X : ℕ → ℝ) (row col : ℕ) (hc : col < n)
    (hd : deOf X n (z (if row < M then row else row - M)) ≠ 0) :
    ∃ v, jac z M n X row col = some v ∧ HasDerivAt (fun t : ℝ => padeErr z f M n (Function.update X col t) row) v (X col) := by
  unfold jac padeErr
  rw [if_pos hn]
  refine ⟨_, rfl, ?_⟩
  by_cases hr : row < M
  · simp only [hr, if_true] at hd ⊢
    have := epade_deriv (z row) n hn X hd col hc
    have h2 := (Complex.reCLM.hasFDerivAt.comp_hasDerivAt (X col) this).sub_const ((f row).re)
    exact h2
  · simp only [hr, if_false] at hd ⊢
    have := epade_deriv (z (row - M)) n hn X hd col hc
    have h2 := (Complex.imCLM.hasFDerivAt.comp_hasDerivAt (X col) this).sub_const ((f (row - M)).im)
    exact h2

/-- **C106.** For an odd number of coefficients `N` (parameter vector of length `2 N`) the Jacobian raises. -/
theorem jac_odd (z : ℕ → ℂ) (M N : ℕ) (h : N % 2 = 1) (X : ℕ → ℝ) (row col : ℕ) : jac z M (2 * N) X row col = none := by
  unfold jac; rw [if_neg (by omega)]

/-- **C106.** The start vector of the optimisation is the approximant `1/z`. -/
theorem start_is_inverse (N : ℕ) (h : 2 ≤ N) (he : N % 2 = 0) (z : ℂ) (hz : z ≠ 0) : epade z (cplx (start N) (2 * N)) = 1 / z := by
  rw [epade_cplx]
  obtain ⟨r, rfl⟩ : ∃ r, N = 2 * (r + 1) := ⟨N / 2 - 1, by omega⟩
  have h4 : 2 * (2 * (r + 1)) / 4 = r + 1 := by omega
  have h2 : 2 * (2 * (r + 1)) / 2 = 2 * (r + 1) := by omega
  unfold nuOf deOf
  rw [h4, pick_sum (r + 1) r _ 1 z (by
    intro i hi
    rw [cplx_getD _ _ _ (by omega), h2]
    unfold start
    rw [show 2 * (r + 1) / 2 - 1 = r by omega, if_neg (show 2 * (r + 1) + i ≠ r by omega)]
    by_cases h : i = r <;> simp [h]) (by omega)]
  rw [zero_sum (r + 1) _ z (by
    intro i hi
    rw [cplx_getD _ _ _ (by omega), h2]
    unfold start
    rw [show 2 * (r + 1) / 2 - 1 = r by omega, if_neg (show r + 1 + i ≠ r by omega), if_neg (by omega)]
    simp)]
  rw [pow_succ]
  field_simp
  ring

/-- **C106.** The residual vanishes exactly if the approximant takes the values of the data at all nodes. -/
theorem padeErr_zero_iff (z f : ℕ → ℂ) (M n : ℕ) (X : ℕ → ℝ) :
    (∀ row, row < 2 * M → padeErr z f M n X row = 0) ↔ ∀ k, k < M → epade (z k) (cplx X n) = f k := by
  constructor
  · intro h k hk
    have h1 := h k (by omega)
    have h2 := h (M + k) (by omega)
    unfold padeErr at h1 h2
    rw [if_pos hk] at h1
    rw [if_neg (by omega), Nat.add_sub_cancel_left] at h2
    exact Complex.ext (by linarith) (by linarith)
  · intro h row hrow
    unfold padeErr
    by_cases hk : row < M
    · rw [if_pos hk, h row hk]; ring
    · rw [if_neg hk, h (row - M) (by omega)]; ring

/-- **C106.** Data of a rational function of matching degrees have a parameter vector with vanishing residual, the coefficients of the
    function; the continuation with these is the function itself. -/
theorem rational_zero_residual (z f : ℕ → ℂ) (M r : ℕ) (p q : ℕ → ℂ) (_hq : ∀ k, k < M → ((List.range r).map fun i => q i * z k ^ i).sum + z k ^ r ≠ 0)
    (hf : ∀ k, k < M → f k = ((List.range r).map fun i => p i * z k ^ i).sum / (((List.range r).map fun i => q i * z k ^ i).sum + z k ^ r)) :
    ∃ X : ℕ → ℝ, (∀ row, row < 2 * M → padeErr z f M (4 * r) X row = 0) ∧
      ∀ w, epade w (cplx X (4 * r)) = ((List.range r).map fun i => p i * w ^ i).sum / (((List.range r).map fun i => q i * w ^ i).sum + w ^ r) := by
  let X : ℕ → ℝ := fun i => if i < r then (p i).re else if i < 2 * r then (q (i - r)).re else if i < 3 * r then (p (i - 2 * r)).im else (q (i - 3 * r)).im
  have hX : ∀ w, epade w (cplx X (4 * r)) = ((List.range r).map fun i => p i * w ^ i).sum / (((List.range r).map fun i => q i * w ^ i).sum + w ^ r) := by
    intro w
    rw [epade_cplx]
    unfold nuOf deOf
    rw [show 4 * r / 4 = r by omega]
    have e1 : ((List.range r).map fun i => (cplx X (4 * r)).getD i 0 * w ^ i) = (List.range r).map fun i => p i * w ^ i := by
      refine List.map_congr_left fun i hi => ?_
      rw [List.mem_range] at hi
      rw [cplx_getD _ _ _ (by omega), show 4 * r / 2 = 2 * r by omega]
      simp only [X]
      rw [if_pos hi, if_neg (by omega), if_neg (by omega), if_pos (by omega), Nat.add_sub_cancel_left, Complex.re_add_im]
    have e2 : ((List.range r).map fun i => (cplx X (4 * r)).getD (r + i) 0 * w ^ i) = (List.range r).map fun i => q i * w ^ i := by
      refine List.map_congr_left fun i hi => ?_
      rw [List.mem_range] at hi
      rw [cplx_getD _ _ _ (by omega), show 4 * r / 2 = 2 * r by omega]
      simp only [X]
      rw [if_neg (by omega), if_pos (by omega), if_neg (by omega), if_neg (by omega), if_neg (by omega), Nat.add_sub_cancel_left,
        show 2 * r + (r + i) - 3 * r = i by omega, Complex.re_add_im]
    rw [e1, e2]
  exact ⟨X, (padeErr_zero_iff z f M (4 * r) X).2 fun k hk => by rw [hX, hf k hk], hX⟩

/-- **C106.** `acPade`: an odd number of coefficients, Thiele's algorithm with a number of coefficients different from the number of points,
    and an unknown solver stop the program; Thiele's algorithm reproduces the data; the two least-squares solvers do so whenever the residual
    of the returned coefficients vanishes. -/
theorem acPade_spec (matrix : List ℂ → List ℂ → ℕ → List ℂ) (opt : (ℕ → ℝ) → ℕ → ℝ) (z f : List ℂ) (N : ℕ) (solver : ℕ) :
    ((N % 2 = 1 ∨ (solver = 1 ∧ N ≠ z.length) ∨ 3 ≤ solver) → ∀ w, acPade matrix opt z f N w solver = none) ∧
    (N % 2 = 0 → N = z.length → NoBreakdown z f → z ≠ [] → ∀ i, i < z.length → ∀ w, z[i]? = some w →
      (∃ a b, computeCoefficients z f = some a ∧ padeB w z a z.length = some b ∧ b ≠ 0) → acPade matrix opt z f N w 1 = f[i]?) ∧
    (N % 2 = 0 → ∀ k, k < z.length → padeErr (z.getD · 0) (f.getD · 0) z.length (2 * N) (opt (start N)) k = 0 →
      padeErr (z.getD · 0) (f.getD · 0) z.length (2 * N) (opt (start N)) (z.length + k) = 0 → acPade matrix opt z f N (z.getD k 0) 2 = some (f.getD k 0)) := by
  refine ⟨?_, ?_, ?_⟩
  · intro h w
    unfold acPade
    rcases h with h | ⟨rfl, h⟩ | h
    · rw [if_pos (by omega)]
    · split
      · rfl
      · rfl
    · split
      · rfl
      · rw [if_neg (by omega), if_neg (by omega), if_neg (by omega)]
  · intro he hN hb hz i hi w hw ⟨a, b, ha, hB, hb0⟩
    unfold acPade
    rw [if_neg (by omega)]
    simp only [one_ne_zero, if_false, if_true, hN]
    rw [padeThiele_eq z f hb.len hz]
    have ew : w = z.getD i 0 := by simp [List.getD, hw]
    subst ew
    rw [solverValue, ha, Option.bind_some]
    obtain ⟨a', ha', _, h3⟩ := interpolates z f hb i hi
    rw [ha] at ha'
    cases ha'
    exact h3 b hB hb0
  · intro he k hk h1 h2
    unfold acPade
    rw [if_neg (by omega)]
    simp only [OfNat.ofNat_ne_zero, if_false, OfNat.ofNat_ne_one, if_true]
    congr 1
    unfold padeErr at h1 h2
    rw [if_pos hk] at h1
    rw [if_neg (by omega), Nat.add_sub_cancel_left] at h2
    exact Complex.ext (by simpa [padeNonlinear] using sub_eq_zero.1 h1) (by simpa [padeNonlinear] using sub_eq_zero.1 h2)

/-- non-vacuity: `1/(z + 2)` has a vanishing residual for four real parameters -/
example : ∃ X : ℕ → ℝ, ∀ row, row < 2 * 1 → padeErr (fun _ => 1) (fun _ => 1 / 3) 1 4 X row = 0 :=
  ⟨_, (rational_zero_residual (fun _ => 1) (fun _ => 1 / 3) 1 1 (fun _ => 1) (fun _ => 2) (by intro k _; norm_num) (by intro k _; norm_num)).choose_spec.1⟩

end DGA.Pade
