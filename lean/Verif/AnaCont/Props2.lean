import Verif.AnaCont.Model
import Mathlib.LinearAlgebra.Lagrange
import Mathlib.Algebra.Polynomial.Derivative
import Mathlib.Tactic.Positivity
import Mathlib.Tactic.FieldSimp
import Mathlib.Tactic.Linarith

/-
  C47, C66: extrapolation to zero frequency (`poly_extrap_0`, `poly_der_extrap_0`, `get_gamma_bandshift_z`).
-/

noncomputable section

namespace DGA.Ana

open Polynomial

/-! ### C47: the quasi-particle weight -/

/-- C47. The returned quasi-particle weight is `1/(1-s)` for a negative extrapolated slope `s` and one otherwise. -/
theorem clampZ_value (s : ℝ) : clampZ s = if s < 0 then ((1 / (1 - s) : ℝ) : EReal) else 1 := by
  unfold clampZ recip1m
  by_cases h1 : s = 1
  · subst h1; simp
  rw [if_neg h1]
  by_cases h0 : s < 0
  · rw [if_pos h0]
    have hp : 0 < 1 / (1 - s) := by apply one_div_pos.mpr; linarith
    have hle : 1 / (1 - s) ≤ 1 := by rw [div_le_one (by linarith)]; linarith
    have e1 : max ((1 / (1 - s) : ℝ) : EReal) 0 = ((1 / (1 - s) : ℝ) : EReal) := max_eq_left (by exact_mod_cast hp.le)
    have e2 : min ((1 / (1 - s) : ℝ) : EReal) 1 = ((1 / (1 - s) : ℝ) : EReal) := min_eq_left (by exact_mod_cast hle)
    simp only [e1, e2]
    rw [if_neg (by exact_mod_cast hp.ne')]
  · rw [if_neg h0]
    rcases lt_or_gt_of_ne h1 with hlt | hgt
    · have hge : 1 ≤ 1 / (1 - s) := by rw [le_div_iff₀ (by linarith)]; linarith
      have e1 : max ((1 / (1 - s) : ℝ) : EReal) 0 = ((1 / (1 - s) : ℝ) : EReal) := max_eq_left (by exact_mod_cast (by linarith))
      have e2 : min ((1 / (1 - s) : ℝ) : EReal) 1 = 1 := min_eq_right (by exact_mod_cast hge)
      simp only [e1, e2]; simp
    · have hn : 1 / (1 - s) ≤ 0 := by
        rw [div_nonpos_iff]; left; exact ⟨zero_le_one, by linarith⟩
      have e1 : max ((1 / (1 - s) : ℝ) : EReal) 0 = 0 := max_eq_right (by exact_mod_cast hn)
      simp only [e1]; simp

/-- C47. For all data, all fit orders and ranges, and every possible outcome of the fits, the quasi-particle weight is in `(0, 1]`. -/
theorem z_bounds (wn re im : List ℝ) (order nFit : Nat) (gamma shift : ℝ) (z : EReal)
    (h : isGammaBandshiftZ wn re im order nFit gamma shift z) : 0 < z ∧ z ≤ 1 := by
  obtain ⟨s, _, _, _, rfl⟩ := h
  rw [clampZ_value]
  split
  · rename_i h0
    have hp : 0 < 1 / (1 - s) := by apply one_div_pos.mpr; linarith
    have hle : 1 / (1 - s) ≤ 1 := by rw [div_le_one (by linarith)]; linarith
    exact ⟨by exact_mod_cast hp, by exact_mod_cast hle⟩
  · exact ⟨by norm_num, le_refl _⟩

/-! ### C66: the fits are exact on polynomials -/

/-- the polynomial with the coefficients `p`, highest power first -/
def toPoly (p : List ℝ) : ℝ[X] := p.foldl (fun acc c => acc * X + C c) 0

theorem foldl_eval (p : List ℝ) (acc : ℝ[X]) (x : ℝ) :
    (p.foldl (fun acc c => acc * X + C c) acc).eval x = p.foldl (fun acc c => acc * x + c) (acc.eval x) := by
  induction p generalizing acc with
  | nil => rfl
  | cons c p ih => simp only [List.foldl_cons]; rw [ih]; simp

theorem toPoly_eval (p : List ℝ) (x : ℝ) : (toPoly p).eval x = polyval p x := by
  unfold toPoly polyval; rw [foldl_eval]; simp

theorem foldl_poly (p : List ℝ) (acc : ℝ[X]) : p.foldl (fun acc c => acc * X + C c) acc = acc * X ^ p.length + toPoly p := by
  unfold toPoly
  induction p generalizing acc with
  | nil => simp
  | cons c p ih =>
    simp only [List.foldl_cons]
    rw [ih, ih (0 * X + C c), List.length_cons, pow_succ]
    ring

theorem toPoly_cons (c : ℝ) (p : List ℝ) : toPoly (c :: p) = C c * X ^ p.length + toPoly p := by
  rw [toPoly, List.foldl_cons, foldl_poly]; simp

theorem toPoly_degree (p : List ℝ) : (toPoly p).degree < p.length := by
  induction p with
  | nil => simp [toPoly]
  | cons c p ih =>
    rw [toPoly_cons]
    refine lt_of_le_of_lt (degree_add_le _ _) ?_
    rw [max_lt_iff]
    constructor
    · refine lt_of_le_of_lt (degree_C_mul_X_pow_le _ _) ?_
      exact_mod_cast Nat.lt_succ_self _
    · refine ih.trans ?_
      exact_mod_cast Nat.lt_succ_self _

theorem polyder_cons (c : ℝ) (p : List ℝ) (hp : p ≠ []) : polyder (c :: p) = c * (p.length : ℝ) :: polyder p := by
  unfold polyder
  obtain ⟨d, q, rfl⟩ := List.exists_cons_of_ne_nil hp
  simp only [List.length_cons, Nat.add_sub_cancel]
  rw [List.range_succ_eq_map, List.map_cons, List.map_map]
  congr 1
  apply List.map_congr_left
  intro i hi
  rw [List.mem_range] at hi
  simp only [Function.comp, List.getD_cons_succ, Nat.succ_eq_add_one]
  rw [show q.length + 1 - (i + 1) = q.length - i by omega]

/-- `np.polyder` is the derivative. -/
theorem toPoly_polyder (p : List ℝ) : toPoly (polyder p) = derivative (toPoly p) := by
  induction p with
  | nil => simp [polyder, toPoly]
  | cons c p ih =>
    by_cases hp : p = []
    · subst hp; simp [polyder, toPoly]
    · rw [polyder_cons c p hp, toPoly_cons, ih, toPoly_cons, derivative_add, derivative_C_mul_X_pow]
      simp [polyder]

theorem residual_nonneg (pts : List (ℝ × ℝ)) (p : List ℝ) : 0 ≤ residual pts p := by
  unfold residual
  apply List.sum_nonneg
  intro x hx
  obtain ⟨q, _, rfl⟩ := List.mem_map.mp hx
  positivity

theorem residual_zero (pts : List (ℝ × ℝ)) (p : List ℝ) : residual pts p = 0 ↔ ∀ q ∈ pts, polyval p q.1 = q.2 := by
  unfold residual
  constructor
  · intro h q hq
    have hz : (polyval p q.1 - q.2) ^ 2 = 0 := by
      have hmem : (polyval p q.1 - q.2) ^ 2 ∈ pts.map fun q => (polyval p q.1 - q.2) ^ 2 := List.mem_map.mpr ⟨q, hq, rfl⟩
      apply le_antisymm
      · rw [← h]
        apply List.single_le_sum _ _ hmem
        intro x hx
        obtain ⟨q, _, rfl⟩ := List.mem_map.mp hx
        positivity
      · positivity
    have := pow_eq_zero_iff (two_ne_zero) |>.mp hz
    linarith
  · intro h
    apply List.sum_eq_zero
    intro x hx
    obtain ⟨q, hq, rfl⟩ := List.mem_map.mp hx
    rw [h q hq]; ring

/-- The data `y` are the values of the polynomial `q` at `x` (specification). -/
def DataOf (q : ℝ[X]) (x y : List ℝ) : Prop := y = x.map fun t => q.eval t

theorem zip_data (q : ℝ[X]) (x : List ℝ) : x.zip (x.map fun t => q.eval t) = x.map fun t => (t, q.eval t) := by
  induction x with
  | nil => rfl
  | cons a x ih => simp [ih]

/-- coefficients, highest power first, of a polynomial of degree at most `d` -/
def coeffs (q : ℝ[X]) (d : Nat) : List ℝ := ((List.range (d + 1)).map fun k => q.coeff k).reverse

theorem toPoly_reverse (f : Nat → ℝ) (n : Nat) : toPoly ((List.range n).map f).reverse = ∑ k ∈ Finset.range n, C (f k) * X ^ k := by
  induction n with
  | zero => simp [toPoly]
  | succ n ih =>
    rw [List.range_succ, List.map_append, List.map_cons, List.map_nil, List.reverse_append, List.reverse_cons, List.reverse_nil,
      List.nil_append, List.singleton_append, toPoly_cons, ih, Finset.sum_range_succ]
    simp [add_comm]

theorem toPoly_coeffs (q : ℝ[X]) (d : Nat) (h : q.degree ≤ d) : toPoly (coeffs q d) = q := by
  rw [coeffs, toPoly_reverse]
  conv_rhs => rw [q.as_sum_range' (d + 1) (by rw [Nat.lt_succ_iff]; exact natDegree_le_of_degree_le h)]
  apply Finset.sum_congr rfl
  intro k _
  rw [C_mul_X_pow_eq_monomial]

/-- C66. If the data are values of a polynomial of degree at most `order` at more than `order` different points, there is a fit, and every
    least-squares fit is that polynomial. -/
theorem polyfit_exact (q : ℝ[X]) (order : Nat) (hq : q.degree ≤ order) (x y : List ℝ) (hy : DataOf q x y) (hnd : x.Nodup)
    (hlen : order < x.length) : (∃ p, isPolyfit x y order p) ∧ ∀ p, isPolyfit x y order p → toPoly p = q := by
  unfold DataOf at hy
  subst hy
  have h0 : residual (x.zip (x.map fun t => q.eval t)) (coeffs q order) = 0 := by
    rw [residual_zero, zip_data]
    intro z hz
    obtain ⟨t, _, rfl⟩ := List.mem_map.mp hz
    rw [← toPoly_eval, toPoly_coeffs q order hq]
  have hcl : (coeffs q order).length = order + 1 := by simp [coeffs]
  constructor
  · refine ⟨coeffs q order, hcl, by simp, fun p _ => ?_⟩
    rw [h0]; exact residual_nonneg _ _
  · rintro p ⟨hl, _, hmin⟩
    have hr : residual (x.zip (x.map fun t => q.eval t)) p = 0 := le_antisymm (by rw [← h0]; exact hmin _ hcl) (residual_nonneg _ _)
    rw [residual_zero, zip_data] at hr
    have hx : x.toFinset.card = x.length := List.toFinset_card_of_nodup hnd
    apply eq_of_degrees_lt_of_eval_finset_eq x.toFinset
    · rw [hx]
      refine (toPoly_degree p).trans_le ?_
      rw [hl]; exact_mod_cast hlen
    · rw [hx]
      exact hq.trans_lt (by exact_mod_cast hlen)
    · intro t ht
      rw [List.mem_toFinset] at ht
      rw [toPoly_eval]
      exact hr (t, q.eval t) (List.mem_map.mpr ⟨t, ht, rfl⟩)

/-- C66. The extrapolated value of polynomial data is the value at zero; only the first `n_fit` points are used. -/
theorem polyExtrap0_exact (q : ℝ[X]) (order nFit : Nat) (hq : q.degree ≤ order) (x y : List ℝ)
    (hy : DataOf q (x.take nFit) (y.take nFit)) (hnd : (x.take nFit).Nodup) (hlen : order < (x.take nFit).length) (v : ℝ) :
    isPolyExtrap0 x y order nFit v ↔ v = q.eval 0 := by
  obtain ⟨⟨p0, hp0⟩, huniq⟩ := polyfit_exact q order hq _ _ hy hnd hlen
  constructor
  · rintro ⟨p, hp, rfl⟩
    rw [← toPoly_eval, huniq p hp]
  · rintro rfl
    exact ⟨p0, hp0, by rw [← toPoly_eval, huniq p0 hp0]⟩

/-- C66. The extrapolated slope of polynomial data is the derivative at zero. -/
theorem polyDerExtrap0_exact (q : ℝ[X]) (order nFit : Nat) (hq : q.degree ≤ order) (x y : List ℝ)
    (hy : DataOf q (x.take nFit) (y.take nFit)) (hnd : (x.take nFit).Nodup) (hlen : order < (x.take nFit).length) (v : ℝ) :
    isPolyDerExtrap0 x y order nFit v ↔ v = (derivative q).eval 0 := by
  obtain ⟨⟨p0, hp0⟩, huniq⟩ := polyfit_exact q order hq _ _ hy hnd hlen
  constructor
  · rintro ⟨p, hp, rfl⟩
    rw [← toPoly_eval, toPoly_polyder, huniq p hp]
  · rintro rfl
    exact ⟨p0, hp0, by rw [← toPoly_eval, toPoly_polyder, huniq p0 hp0]⟩

/-- C66. A Fermi-liquid self-energy on the imaginary axis, `Re = b(w)`, `Im = w·s(w)` with polynomials `b`, `s`: scattering rate zero,
    band shift `b(0)` and quasi-particle weight `1/(1 - s(0))` (for `s(0) < 0`). -/
theorem fermi_liquid (b s : ℝ[X]) (order nFit : Nat) (hb : b.degree ≤ order) (hs : s.degree ≤ order) (hxs : (X * s).degree ≤ (order : WithBot Nat))
    (wn : List ℝ) (hw : ∀ w ∈ wn, w ≠ 0) (hnd : wn.Nodup) (hlen : order < nFit) (hlen2 : nFit ≤ wn.length) (hs0 : s.eval 0 < 0) :
    isGammaBandshiftZ wn (wn.map fun w => b.eval w) (wn.map fun w => w * s.eval w) order nFit 0 (b.eval 0)
      ((1 / (1 - s.eval 0) : ℝ) : EReal) ∧
    ∀ gamma shift z, isGammaBandshiftZ wn (wn.map fun w => b.eval w) (wn.map fun w => w * s.eval w) order nFit gamma shift z →
      gamma = 0 ∧ shift = b.eval 0 ∧ z = ((1 / (1 - s.eval 0) : ℝ) : EReal) := by
  have hlt : (wn.take nFit).length = nFit := by rw [List.length_take]; omega
  have hnd' : (wn.take nFit).Nodup := hnd.sublist (List.take_sublist _ _)
  have e1 : DataOf b (wn.take nFit) ((wn.map fun w => b.eval w).take nFit) := by rw [DataOf, List.map_take]
  have e2 : DataOf (X * s) (wn.take nFit) ((wn.map fun w => w * s.eval w).take nFit) := by
    rw [DataOf, ← List.map_take]; simp
  have e3 : DataOf s (wn.take nFit) ((List.zipWith (· / ·) (wn.map fun w => w * s.eval w) wn).take nFit) := by
    rw [DataOf]
    have : List.zipWith (· / ·) (wn.map fun w => w * s.eval w) wn = wn.map fun w => s.eval w := by
      clear hnd hlen2 hlt hnd' e1 e2
      induction wn with
      | nil => rfl
      | cons a l ih =>
        simp only [List.map_cons, List.zipWith_cons_cons]
        rw [ih fun w hw' => hw w (by simp [hw'])]
        have := hw a (by simp)
        congr 1; field_simp
    rw [this, List.map_take]
  have i1 := polyExtrap0_exact b order nFit hb wn _ e1 hnd' (by omega)
  have i2 := polyExtrap0_exact (X * s) order nFit hxs wn _ e2 hnd' (by omega)
  have i3 := polyExtrap0_exact s order nFit hs wn _ e3 hnd' (by omega)
  constructor
  · refine ⟨s.eval 0, (i2 _).mpr (by simp), (i1 _).mpr rfl, (i3 _).mpr rfl, ?_⟩
    rw [clampZ_value, if_pos hs0]
  · rintro gamma shift z ⟨t, h2, h1, h3, rfl⟩
    have := (i2 _).mp h2
    refine ⟨by simpa using this, (i1 _).mp h1, ?_⟩
    rw [(i3 _).mp h3, clampZ_value, if_pos hs0]

example : ∃ (b s : ℝ[X]) (wn : List ℝ), b.degree ≤ ((2 : Nat) : WithBot Nat) ∧ s.degree ≤ ((2 : Nat) : WithBot Nat) ∧
    (X * s).degree ≤ ((2 : Nat) : WithBot Nat) ∧ (∀ w ∈ wn, w ≠ 0) ∧ wn.Nodup ∧ 4 ≤ wn.length ∧ s.eval 0 < 0 := by
  refine ⟨C 3, C (-1), [1, 3, 5, 7], ?_, ?_, ?_, by simp, ?_, by simp, by simp⟩
  · exact degree_C_le.trans (by exact_mod_cast Nat.zero_le _)
  · exact degree_C_le.trans (by exact_mod_cast Nat.zero_le _)
  · rw [mul_comm]
    exact (degree_C_mul_X_le _).trans (by exact_mod_cast (by norm_num : 1 ≤ 2))
  · norm_num

/-- C66.  Scattering rate: if the imaginary part is polynomial in the frequency, every outcome has `gamma = -Im Sigma(0)` and the
    band shift `Re Sigma(0)` -/
theorem scattering_rate (b p : ℝ[X]) (order nFit : Nat) (hb : b.degree ≤ order) (hp : p.degree ≤ order)
    (wn : List ℝ) (hnd : wn.Nodup) (hlen : order < nFit) (hlen2 : nFit ≤ wn.length) (gamma shift : ℝ) (z : EReal)
    (h : isGammaBandshiftZ wn (wn.map fun w => b.eval w) (wn.map fun w => p.eval w) order nFit gamma shift z) :
    gamma = -p.eval 0 ∧ shift = b.eval 0 := by
  have hlt : (wn.take nFit).length = nFit := by rw [List.length_take]; omega
  have hnd' : (wn.take nFit).Nodup := hnd.sublist (List.take_sublist _ _)
  have e1 : DataOf b (wn.take nFit) ((wn.map fun w => b.eval w).take nFit) := by rw [DataOf, List.map_take]
  have e2 : DataOf p (wn.take nFit) ((wn.map fun w => p.eval w).take nFit) := by rw [DataOf, List.map_take]
  obtain ⟨t, h2, h1, _, _⟩ := h
  refine ⟨?_, (polyExtrap0_exact b order nFit hb wn _ e1 hnd' (by omega) _).mp h1⟩
  rw [← (polyExtrap0_exact p order nFit hp wn _ e2 hnd' (by omega) _).mp h2, neg_neg]

/-- a finite scattering rate: `Im Sigma = -2`, the outcome is `gamma = 2` -/
example : ∃ (b p : ℝ[X]) (wn : List ℝ), b.degree ≤ ((1 : Nat) : WithBot Nat) ∧ p.degree ≤ ((1 : Nat) : WithBot Nat) ∧ wn.Nodup ∧
    3 ≤ wn.length ∧ -p.eval 0 = 2 := by
  refine ⟨C 3, C (-2), [1, 3, 5], ?_, ?_, ?_, by simp, by simp⟩
  · exact degree_C_le.trans (by exact_mod_cast Nat.zero_le _)
  · exact degree_C_le.trans (by exact_mod_cast Nat.zero_le _)
  · norm_num

end DGA.Ana
