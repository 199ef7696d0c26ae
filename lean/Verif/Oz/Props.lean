/-
  C113: Ornstein–Zernike fit of the static spin susceptibility (ornstein_zernicke_function.py, dga_io.py:133-146).
-/
import Verif.Bz.Count
import Mathlib.Analysis.Real.Pi.Bounds
import Mathlib.Algebra.BigOperators.Group.List.Basic
import Mathlib.Algebra.Order.BigOperators.Group.List
import Mathlib.Tactic.Positivity
import Mathlib.Tactic.Linarith

noncomputable section

namespace DGA.Oz

open DGA.Bz Real

/-- ornstein_zernicke_function.py:15-21 `oz_spin_w0`: the function on the three axes, flattened in C order.  `xi ** (-2)` with `xi = 0` raises or
    gives infinity; the theorems assume `xi ≠ 0`. -/
def ozSpin (kx ky kz : List ℝ) (a xi : ℝ) : List ℝ :=
  (kx.map fun x => ky.map fun y => kz.map fun z => a / (xi ^ (-2 : ℤ) + (x - π) ^ 2 + (y - π) ^ 2 + (z - 0) ^ 2)).flatten.flatten

/-- the function on a momentum grid -/
def ozGrid (nx ny nz : Nat) (a xi : ℝ) : List ℝ := ozSpin (kAxis π nx) (kAxis π ny) (kAxis π nz) a xi

/-- sum of squared residuals that `scipy.optimize.curve_fit` minimises -/
def loss (model data : List ℝ) : ℝ := ((model.zip data).map fun p => (p.1 - p.2) ^ 2).sum

/-- ornstein_zernicke_function.py:24-27 `fit_oz_spin`: a result of the least-squares fit is a pair of parameters that no other pair beats
    (the start values and the iteration of scipy are not modelled) -/
def IsFit (nx ny nz : Nat) (chi : List ℝ) (a xi : ℝ) : Prop :=
  xi ≠ 0 ∧ ∀ a' xi', xi' ≠ 0 → loss (ozGrid nx ny nz a xi) chi ≤ loss (ozGrid nx ny nz a' xi') chi

/-- dga_io.py:133-146 `fit_and_plot_oz`: the coefficients that are written, -1 and -1 if the fit raised -/
def ozCoeff (fit : Option (ℝ × ℝ)) : ℝ × ℝ := match fit with | some p => p | none => (-1, -1)

/-! ### specification -/

/-- momentum along one axis -/
def mom (n i : Nat) : ℝ := 2 * π * i / n

/-- squared distance of a grid point from `(π, π, 0)` -/
def dist2 (nx ny nz : Nat) (p : Pt) : ℝ := (mom nx p.1 - π) ^ 2 + (mom ny p.2.1 - π) ^ 2 + mom nz p.2.2 ^ 2

/-- Ornstein–Zernike form -/
def oz (a xi d2 : ℝ) : ℝ := a / (1 / xi ^ 2 + d2)

/-! ### properties -/

theorem ozGrid_eq (nx ny nz : Nat) (a xi : ℝ) : ozGrid nx ny nz a xi = (qList nx ny nz).map fun p => oz a xi (dist2 nx ny nz p) := by
  have h := (irrKmesh_value (K := ℝ) π nx ny nz []).1
  have e : ozGrid nx ny nz a xi = (kmeshList π nx ny nz).map fun k => a / (xi ^ (-2 : ℤ) + (k.1 - π) ^ 2 + (k.2.1 - π) ^ 2 + (k.2.2 - 0) ^ 2) := by
    unfold ozGrid ozSpin kmeshList
    simp only [List.map_flatten, List.map_map]
    congr 3
    funext x
    simp only [Function.comp, List.map_map]
    congr 1
    funext y
    simp only [Function.comp, List.map_map]
    congr 1
  rw [e, h, List.map_map]
  apply List.map_congr_left
  intro p _
  simp only [Function.comp, oz, dist2, mom]
  congr 1
  rw [zpow_neg, one_div, sub_zero]
  norm_cast
  ring

/-- **C113 (a).** Entry `linP p` of the flattened function is `a/(ξ⁻² + |k - (π,π,0)|²)` at the grid point `p`. -/
theorem ozGrid_value (nx ny nz : Nat) (a xi : ℝ) (p : Pt) (hp : InGrid nx ny nz p) :
    (ozGrid nx ny nz a xi).length = nx * ny * nz ∧ (ozGrid nx ny nz a xi)[linP ny nz p]? = some (oz a xi (dist2 nx ny nz p)) := by
  obtain ⟨h1, h2⟩ := qList_value nx ny nz
  rw [ozGrid_eq]
  refine ⟨by rw [List.length_map, h1], ?_⟩
  rw [List.getElem?_map, h2 p hp]
  rfl

/-- **C113 (b).** For `a > 0`, `ξ ≠ 0` the function is positive, at most `a ξ²`, with equality exactly at distance zero, and has decreased to one half of the
    maximum at the distance `1/ξ`: ξ is the correlation length. -/
theorem oz_shape (a xi d2 : ℝ) (ha : 0 < a) (hx : xi ≠ 0) (hd : 0 ≤ d2) :
    0 < oz a xi d2 ∧ oz a xi d2 ≤ a * xi ^ 2 ∧ (oz a xi d2 = a * xi ^ 2 ↔ d2 = 0) ∧ oz a xi (1 / xi ^ 2) = a * xi ^ 2 / 2 := by
  have h2 : 0 < xi ^ 2 := by positivity
  have h1 : 0 < 1 / xi ^ 2 + d2 := by positivity
  unfold oz
  refine ⟨by positivity, ?_, ?_, ?_⟩
  · rw [div_le_iff₀ h1]
    have : a * xi ^ 2 * (1 / xi ^ 2 + d2) = a + a * xi ^ 2 * d2 := by field_simp
    rw [this]
    have : 0 ≤ a * xi ^ 2 * d2 := by positivity
    linarith
  · rw [div_eq_iff h1.ne']
    have : a * xi ^ 2 * (1 / xi ^ 2 + d2) = a + a * xi ^ 2 * d2 := by field_simp
    rw [this]
    constructor
    · intro h
      have h0 : a * xi ^ 2 * d2 = 0 := by linarith
      rcases mul_eq_zero.1 h0 with h | h
      · have : a * xi ^ 2 ≠ 0 := by positivity
        exact absurd h this
      · exact h
    · rintro rfl; ring
  · field_simp
    ring

theorem mom_eq_pi (n i : Nat) (hi : i < n) : mom n i = π ↔ 2 * i = n := by
  have hn : (n : ℝ) ≠ 0 := by exact_mod_cast (by omega : n ≠ 0)
  unfold mom
  rw [div_eq_iff hn]
  constructor
  · intro h
    have : (2 * i : ℝ) = n := mul_left_cancel₀ pi_ne_zero (by linarith)
    exact_mod_cast this
  · intro h
    have : (2 * i : ℝ) = n := by exact_mod_cast h
    rw [← this]; ring

/-- the grid contains the point of the maximum exactly if `nx` and `ny` are even, and then it is `(nx/2, ny/2, 0)` -/
theorem maximum_on_grid (nx ny nz : Nat) (p : Pt) (hp : InGrid nx ny nz p) :
    dist2 nx ny nz p = 0 ↔ 2 * p.1 = nx ∧ 2 * p.2.1 = ny ∧ p.2.2 = 0 := by
  have hz : (nz : ℝ) ≠ 0 := by exact_mod_cast (by have := hp.2.2; omega : nz ≠ 0)
  unfold dist2
  rw [← mom_eq_pi nx p.1 hp.1, ← mom_eq_pi ny p.2.1 hp.2.1]
  constructor
  · intro h
    have a1 := sq_nonneg (mom nx p.1 - π)
    have a2 := sq_nonneg (mom ny p.2.1 - π)
    have a3 := sq_nonneg (mom nz p.2.2)
    have b1 : (mom nx p.1 - π) ^ 2 = 0 := by linarith
    have b2 : (mom ny p.2.1 - π) ^ 2 = 0 := by linarith
    have b3 : mom nz p.2.2 ^ 2 = 0 := by linarith
    refine ⟨by linarith [pow_eq_zero_iff (two_ne_zero) |>.1 b1], by linarith [pow_eq_zero_iff (two_ne_zero) |>.1 b2], ?_⟩
    have := pow_eq_zero_iff (two_ne_zero) |>.1 b3
    unfold mom at this
    rw [div_eq_zero_iff] at this
    rcases this with h | h
    · have := pi_pos
      rcases mul_eq_zero.1 h with h | h
      · linarith
      · exact_mod_cast h
    · exact absurd h hz
  · rintro ⟨h1, h2, h3⟩
    rw [h1, h2, h3]
    simp [mom]

theorem mom_neg (n i : Nat) (hi : i < n) : (mom n ((n - i) % n) - π) ^ 2 = (mom n i - π) ^ 2 := by
  have hn : (n : ℝ) ≠ 0 := by exact_mod_cast (by omega : n ≠ 0)
  by_cases h0 : i = 0
  · subst h0; simp
  · rw [Nat.mod_eq_of_lt (by omega)]
    unfold mom
    rw [Nat.cast_sub hi.le]
    have : 2 * π * ((n : ℝ) - i) / n - π = -(2 * π * i / n - π) := by field_simp; ring
    rw [this, neg_sq]

/-- **C113 (c).** The function has the symmetry of the square lattice in the plane: inversion of `kx`, of `ky`, and exchange of both on a grid with
    `nx = ny` do not change it. -/
theorem oz_symmetric (nx ny nz : Nat) (syms : List Sym) (hs : ∀ s ∈ syms, s ∈ [Sym.xInv, Sym.yInv, Sym.xySym, Sym.xyInv]) (p q : Pt)
    (hp : InGrid nx ny nz p) (h : Related nx ny nz syms p q) : dist2 nx ny nz q = dist2 nx ny nz p := by
  induction h with
  | refl => rfl
  | @step q s hm hr ih =>
    rw [← ih]
    have hq := related_inGrid hp hr
    obtain ⟨i, j, k⟩ := q
    have := hs s hm
    simp only [List.mem_cons, List.not_mem_nil, or_false] at this
    rcases this with rfl | rfl | rfl | rfl
    · simp only [image, dist2]; rw [mom_neg nx i hq.1]
    · simp only [image, dist2]; rw [mom_neg ny j hq.2.1]
    · simp only [image]
      split
      · rename_i hn
        subst hn
        simp only [dist2]; ring
      · rfl
    · simp only [image, dist2]; rw [mom_neg nx i hq.1, mom_neg ny j hq.2.1]

/-- **C113 (c).** It does not have the inversion symmetry of `kz`: with at least three points along z the value at the second and at the last plane,
    which the quasi-2d symmetry set identifies, differ whenever `a ≠ 0`. -/
theorem oz_not_z_symmetric (nx ny nz i j : Nat) (hz : 3 ≤ nz) (a xi : ℝ) (ha : a ≠ 0) (hx : xi ≠ 0) :
    image nx ny nz .zInv (i, j, 1) = (i, j, nz - 1) ∧
    oz a xi (dist2 nx ny nz (i, j, 1)) ≠ oz a xi (dist2 nx ny nz (image nx ny nz .zInv (i, j, 1))) := by
  have he : image nx ny nz .zInv (i, j, 1) = (i, j, nz - 1) := by
    simp only [image]; rw [Nat.mod_eq_of_lt (by omega)]
  refine ⟨he, ?_⟩
  rw [he]
  have hn : (0 : ℝ) < nz := by exact_mod_cast (by omega : 0 < nz)
  have hn3 : (3 : ℝ) ≤ nz := by exact_mod_cast hz
  intro h
  unfold oz at h
  have d1 : 0 < 1 / xi ^ 2 + dist2 nx ny nz (i, j, 1) := by unfold dist2; positivity
  have d2 : 0 < 1 / xi ^ 2 + dist2 nx ny nz (i, j, nz - 1) := by unfold dist2; positivity
  rw [div_eq_div_iff d1.ne' d2.ne'] at h
  have h' := mul_left_cancel₀ ha h
  unfold dist2 at h'
  simp only [mom] at h'
  rw [Nat.cast_sub (by omega)] at h'
  have h2 : (2 * π * ((nz : ℝ) - (1 : ℕ)) / nz) ^ 2 = (2 * π * ((1 : ℕ) : ℝ) / nz) ^ 2 := by linarith
  rw [div_pow, div_pow, div_left_inj' (by positivity)] at h2
  have h3 : (2 * π) ^ 2 * (((nz : ℝ) - 1) ^ 2 - 1) = 0 := by push_cast at h2; linarith
  have : 0 < (2 * π) ^ 2 * (((nz : ℝ) - 1) ^ 2 - 1) := by
    have : 0 < (2 * π) ^ 2 := by positivity
    have : 0 < ((nz : ℝ) - 1) ^ 2 - 1 := by nlinarith
    positivity
  linarith

theorem loss_nonneg (m d : List ℝ) : 0 ≤ loss m d := by
  unfold loss
  apply List.sum_nonneg
  intro x hx
  obtain ⟨p, _, rfl⟩ := List.mem_map.1 hx
  positivity

theorem loss_self (m : List ℝ) : loss m m = 0 := by
  unfold loss
  induction m with
  | nil => rfl
  | cons a m ih => simpa using ih

theorem loss_eq_zero : ∀ (m d : List ℝ), m.length = d.length → loss m d = 0 → m = d
  | [], [], _, _ => rfl
  | a :: m, b :: d, hl, h => by
    have e : loss (a :: m) (b :: d) = (a - b) ^ 2 + loss m d := by simp [loss]
    rw [e] at h
    have h1 := loss_nonneg m d
    have h2 := sq_nonneg (a - b)
    have h3 : (a - b) ^ 2 = 0 := by linarith
    have h4 : loss m d = 0 := by linarith
    rw [loss_eq_zero m d (by simpa using hl) h4]
    have := pow_eq_zero_iff (two_ne_zero) |>.1 h3
    rw [show a = b by linarith]

theorem loss_neg_le : ∀ m d : List ℝ, m.length = d.length → (∀ x ∈ m, x ≤ 0) → (∀ y ∈ d, 0 ≤ y) →
    loss (m.map fun _ => 0) d ≤ loss m d ∧ ((∃ x ∈ m, x < 0) → loss (m.map fun _ => 0) d < loss m d)
  | [], [], _, _, _ => by simp
  | a :: m, b :: d, hl, hm, hd => by
    obtain ⟨h1, h2⟩ := loss_neg_le m d (by simpa using hl) (fun x hx => hm x (by simp [hx])) (fun y hy => hd y (by simp [hy]))
    have ha := hm a (by simp)
    have hb := hd b (by simp)
    have e1 : loss (a :: m) (b :: d) = (a - b) ^ 2 + loss m d := by simp [loss]
    have e2 : loss ((a :: m).map fun _ => 0) (b :: d) = (0 - b) ^ 2 + loss (m.map fun _ => 0) d := by simp [loss]
    rw [e1, e2]
    refine ⟨by nlinarith, ?_⟩
    rintro ⟨x, hx, hx0⟩
    rcases List.mem_cons.1 hx with rfl | hx
    · nlinarith
    · have := h2 ⟨x, hx, hx0⟩
      nlinarith

/-- **C113 (e).** What is written tells a failed fit from a successful one: a failed fit writes the amplitude -1 and the length -1; for non-negative
    data on a non-empty grid no least-squares result has a negative amplitude. -/
theorem failure_marker (nx ny nz : Nat) (hx : 0 < nx) (hy : 0 < ny) (hz : 0 < nz) (chi : List ℝ) (hl : chi.length = nx * ny * nz)
    (hc : ∀ y ∈ chi, 0 ≤ y) : ozCoeff none = (-1, -1) ∧
    ∀ a xi, IsFit nx ny nz chi a xi → ozCoeff (some (a, xi)) = (a, xi) ∧ 0 ≤ a ∧ ozCoeff (some (a, xi)) ≠ ozCoeff none := by
  refine ⟨rfl, ?_⟩
  intro a xi ⟨hxi, hmin⟩
  have key : 0 ≤ a := by
    by_contra ha
    push Not at ha
    have hpos : ∀ p, 0 < 1 / xi ^ 2 + dist2 nx ny nz p := by intro p; unfold dist2; positivity
    have hneg : ∀ x ∈ ozGrid nx ny nz a xi, x < 0 := by
      intro x hx
      rw [ozGrid_eq] at hx
      obtain ⟨p, -, rfl⟩ := List.mem_map.1 hx
      exact div_neg_of_neg_of_pos ha (hpos p)
    have hzero : ozGrid nx ny nz 0 xi = (ozGrid nx ny nz a xi).map fun _ => 0 := by
      rw [ozGrid_eq, ozGrid_eq, List.map_map]
      apply List.map_congr_left
      intro p _
      simp [oz]
    have p0 : InGrid nx ny nz (0, 0, 0) := ⟨hx, hy, hz⟩
    obtain ⟨hlen, hval⟩ := ozGrid_value nx ny nz a xi _ p0
    have hmem := List.mem_of_getElem? hval
    have := (loss_neg_le (ozGrid nx ny nz a xi) chi (by rw [hlen, hl]) (fun x hx => (hneg x hx).le) hc).2 ⟨_, hmem, hneg _ hmem⟩
    have h2 := hmin 0 xi hxi
    rw [hzero] at h2
    linarith
  refine ⟨rfl, key, ?_⟩
  show (a, xi) ≠ ((-1 : ℝ), (-1 : ℝ))
  intro h
  have := congrArg Prod.fst h
  simp only at this
  linarith

/-- **C113 (d).** Exact data are recovered: on a grid with at least two points along x, for data of Ornstein–Zernike form with amplitude `a₀ ≠ 0` and
    length `ξ₀`, every least-squares result has `a = a₀` and `ξ² = ξ₀²`.  The sign of ξ is not determined: with `ξ` also `-ξ` is a result. -/
theorem fit_exact (nx ny nz : Nat) (hx : 2 ≤ nx) (hy : 0 < ny) (hz : 0 < nz) (a0 xi0 a xi : ℝ) (ha : a0 ≠ 0) (h0 : xi0 ≠ 0)
    (h : IsFit nx ny nz (ozGrid nx ny nz a0 xi0) a xi) :
    a = a0 ∧ xi ^ 2 = xi0 ^ 2 ∧ IsFit nx ny nz (ozGrid nx ny nz a0 xi0) a (-xi) := by
  obtain ⟨hxi, hmin⟩ := h
  have hl := hmin a0 xi0 h0
  rw [loss_self] at hl
  have hz0 := le_antisymm hl (loss_nonneg _ _)
  have p0 : InGrid nx ny nz (0, 0, 0) := ⟨by simp only; omega, hy, hz⟩
  have p1 : InGrid nx ny nz (1, 0, 0) := ⟨by simp only; omega, hy, hz⟩
  have heq := loss_eq_zero _ _ (by rw [(ozGrid_value nx ny nz a xi _ p0).1, (ozGrid_value nx ny nz a0 xi0 _ p0).1]) hz0
  have e0 := (ozGrid_value nx ny nz a xi _ p0).2
  rw [heq, (ozGrid_value nx ny nz a0 xi0 _ p0).2, Option.some.injEq] at e0
  have e1 := (ozGrid_value nx ny nz a xi _ p1).2
  rw [heq, (ozGrid_value nx ny nz a0 xi0 _ p1).2, Option.some.injEq] at e1
  have hnx : (2 : ℝ) ≤ nx := by exact_mod_cast hx
  have hd : dist2 nx ny nz (0, 0, 0) - dist2 nx ny nz (1, 0, 0) ≠ 0 := by
    unfold dist2 mom
    simp only [Nat.cast_zero, mul_zero, zero_div, Nat.cast_one, mul_one]
    have hn : (nx : ℝ) ≠ 0 := by linarith
    have : (0 - π) ^ 2 + (0 - π) ^ 2 + 0 ^ 2 - ((2 * π / nx - π) ^ 2 + (0 - π) ^ 2 + 0 ^ 2) = (2 * π) ^ 2 * (nx - 1) / nx ^ 2 := by
      field_simp; ring
    rw [this]
    have : 0 < (2 * π) ^ 2 * ((nx : ℝ) - 1) / nx ^ 2 := by
      have : 0 < (nx : ℝ) - 1 := by linarith
      positivity
    exact this.ne'
  have hn0 : 0 ≤ dist2 nx ny nz (0, 0, 0) := by unfold dist2; positivity
  have hn1 : 0 ≤ dist2 nx ny nz (1, 0, 0) := by unfold dist2; positivity
  generalize dist2 nx ny nz (0, 0, 0) = d at *
  generalize dist2 nx ny nz (1, 0, 0) = d' at *
  have q1 : 0 < 1 / xi ^ 2 := by positivity
  have q2 : 0 < 1 / xi0 ^ 2 := by positivity
  unfold oz at e0 e1
  rw [div_eq_div_iff (by positivity) (by positivity)] at e0 e1
  have hA : (a0 - a) * (d - d') = 0 := by linear_combination e0 - e1
  have haa : a = a0 := by
    rcases mul_eq_zero.1 hA with h | h
    · linarith
    · exact absurd h hd
  subst haa
  have hs := mul_left_cancel₀ ha e0
  have hs' : 1 / xi ^ 2 = 1 / xi0 ^ 2 := by linarith
  have hneg : ozGrid nx ny nz a (-xi) = ozGrid nx ny nz a xi := by
    rw [ozGrid_eq, ozGrid_eq]; simp [oz]
  refine ⟨rfl, ?_, ?_, ?_⟩
  · rw [one_div, one_div] at hs'
    exact inv_injective hs'
  · exact neg_ne_zero.2 hxi
  · rw [hneg]; exact hmin

/-- exact data have a fit: their own parameters -/
example : IsFit 4 4 1 (ozGrid 4 4 1 3 2) 3 2 := by
  refine ⟨by norm_num, ?_⟩
  intro a' xi' _
  rw [loss_self]
  exact loss_nonneg _ _

end DGA.Oz
