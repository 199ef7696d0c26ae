import Verif.Lambda.Returned
import Mathlib.Analysis.SpecialFunctions.Pow.Real
import Mathlib.Algebra.BigOperators.Fin

/-
  C128: the lambda correction of a complex susceptibility.

  C31 – C33 and C119 are about real positive susceptibilities.  The ladder susceptibility the program hands to the correction
  is complex, obeys `chi(q, -w) = conj chi(q, w)`, and — below the transition temperature of the impurity calculation, where
  the correction is needed most — is negative at some momenta.  Here the analysis is repeated for such susceptibilities:
  `nb` positive bosonic frequencies, frequency number `nb` is the static one.  The only requirement is that no inverse
  susceptibility lies outside the cone of opening angle 30 degrees to the right of the smallest static inverse one.
-/

open scoped BigOperators

namespace DGA.Lam

noncomputable section

/-- The complex array `[q][w]`. -/
def rowsC {nq nw : Nat} (chi : Fin nq → Fin nw → ℂ) : List (List ℂ) := List.ofFn fun q => List.ofFn fun w => chi q w

/-- `1/beta * mean_q sum_w` of a complex array. -/
def totalC (beta : ℝ) {nq nw : Nat} (x : Fin nq → Fin nw → ℂ) : ℂ := 1 / (beta : ℂ) * ((∑ q, ∑ w, x q w) / nq)

/-- `1/(1/chi + lam)`. -/
def shifted {nq nw : Nat} (chi : Fin nq → Fin nw → ℂ) (lam : ℝ) : Fin nq → Fin nw → ℂ := fun q w => 1 / (1 / chi q w + (lam : ℂ))

/-- The static frequency of `2 nb + 1` bosonic ones. -/
def static (nb : Nat) : Fin (2 * nb + 1) := ⟨nb, by omega⟩

/-- Requirements on a complex susceptibility. -/
structure Sectorial {nq nb : Nat} (chi : Fin nq → Fin (2 * nb + 1) → ℂ) : Prop where
  ne : ∀ q w, chi q w ≠ 0
  conj : ∀ q w, chi q w.rev = (starRingEnd ℂ) (chi q w)
  cone : ∀ q w, ∃ q', √3 * |(1 / chi q w).im| ≤ (1 / chi q w).re - (1 / chi q' (static nb)).re

/-- Real part of the sum rule as a function of lambda. -/
def sumRe (beta : ℝ) {nq nw : Nat} (chi : Fin nq → Fin nw → ℂ) (lam : ℝ) : ℝ :=
  1 / beta * ((∑ q, ∑ w, (1 / (1 / chi q w + (lam : ℂ))).re) / nq)

/-- Real part of its slope. -/
def slopeRe (beta : ℝ) {nq nw : Nat} (chi : Fin nq → Fin nw → ℂ) (lam : ℝ) : ℝ :=
  -1 / beta * ((∑ q, ∑ w, ((1 / (1 / chi q w + (lam : ℂ))) ^ 2).re) / nq)

end

/-! ### complex numbers in the cone -/

/-- `p` lies in the open right half plane, with argument at most 30 degrees. -/
structure Sec (p : ℂ) : Prop where
  pos : 0 < p.re
  cone : 3 * p.im ^ 2 ≤ p.re ^ 2

theorem normSq_pos' {p : ℂ} (h : 0 < p.re) : 0 < p.re ^ 2 + p.im ^ 2 := by positivity

theorem inv_re (p : ℂ) : (1 / p).re = p.re / (p.re ^ 2 + p.im ^ 2) := by
  rw [one_div, Complex.inv_re, Complex.normSq_apply]; ring_nf

theorem inv_im (p : ℂ) : (1 / p).im = -p.im / (p.re ^ 2 + p.im ^ 2) := by
  rw [one_div, Complex.inv_im, Complex.normSq_apply]; ring_nf

theorem invsq_re (p : ℂ) : ((1 / p) ^ 2).re = (p.re ^ 2 - p.im ^ 2) / (p.re ^ 2 + p.im ^ 2) ^ 2 := by
  rw [pow_two, Complex.mul_re, inv_re, inv_im]
  rw [div_mul_div_comm, div_mul_div_comm, div_sub_div_same]
  ring_nf

theorem Sec.inv_pos {p : ℂ} (h : Sec p) : 0 < (1 / p).re := by
  rw [inv_re]; exact div_pos h.pos (normSq_pos' h.pos)

theorem Sec.invsq_pos {p : ℂ} (h : Sec p) : 0 < ((1 / p) ^ 2).re := by
  rw [invsq_re]
  apply div_pos
  · have := h.cone; have := h.pos; nlinarith [sq_nonneg p.im]
  · have := normSq_pos' h.pos; positivity

/-- Shared imaginary part: `Re (p^2 p') ≥ 0`. -/
theorem cubic {x x' y : ℝ} (hx : 0 < x) (hx' : 0 < x') (h : 3 * y ^ 2 ≤ x ^ 2) (h' : 3 * y ^ 2 ≤ x' ^ 2) :
    0 ≤ (x ^ 2 - y ^ 2) * x' - 2 * x * y ^ 2 := by
  have hm : 3 * y ^ 2 ≤ x * x' := by
    rcases le_total x x' with hle | hle
    · nlinarith
    · nlinarith
  nlinarith [mul_le_mul_of_nonneg_right h hx'.le, mul_le_mul_of_nonneg_left hm hx.le]

theorem Sec.tangent {p p' : ℂ} (h : Sec p) (h' : Sec p') (him : p'.im = p.im) :
    (1 / p).re - ((1 / p) ^ 2).re * (p'.re - p.re) ≤ (1 / p').re := by
  rw [inv_re, inv_re, invsq_re, him]
  have hp := h.pos
  have hp' := h'.pos
  have hc' := h'.cone
  rw [him] at hc'
  have hcub := cubic hp hp' h.cone hc'
  set x := p.re
  set x' := p'.re
  set y := p.im
  have n1 : 0 < x ^ 2 + y ^ 2 := by positivity
  have n2 : 0 < x' ^ 2 + y ^ 2 := by positivity
  have e : x' / (x' ^ 2 + y ^ 2) - (x / (x ^ 2 + y ^ 2) - (x ^ 2 - y ^ 2) / (x ^ 2 + y ^ 2) ^ 2 * (x' - x)) =
      (x' - x) ^ 2 * ((x ^ 2 - y ^ 2) * x' - 2 * x * y ^ 2) / ((x ^ 2 + y ^ 2) ^ 2 * (x' ^ 2 + y ^ 2)) := by
    field_simp
    ring
  have : 0 ≤ (x' - x) ^ 2 * ((x ^ 2 - y ^ 2) * x' - 2 * x * y ^ 2) / ((x ^ 2 + y ^ 2) ^ 2 * (x' ^ 2 + y ^ 2)) := by
    apply div_nonneg (mul_nonneg (sq_nonneg _) hcub) (by positivity)
  linarith

theorem Sec.anti {p p' : ℂ} (h : Sec p) (him : p'.im = p.im) (hlt : p.re < p'.re) : (1 / p').re < (1 / p).re := by
  rw [inv_re, inv_re, him]
  have hp := h.pos
  have hc := h.cone
  set x := p.re
  set x' := p'.re
  set y := p.im
  have hp' : 0 < x' := by linarith
  rw [div_lt_div_iff₀ (by positivity) (by positivity)]
  have : 0 < (x' - x) * (x * x' - y ^ 2) := by
    apply mul_pos (by linarith)
    nlinarith [sq_nonneg y]
  nlinarith

theorem Sec.mono {p p' : ℂ} (h : Sec p) (him : p'.im = p.im) (hle : p.re ≤ p'.re) : Sec p' := by
  have := h.pos
  refine ⟨by linarith, ?_⟩
  rw [him]
  have := h.cone
  nlinarith

theorem Sec.slope {p p' : ℂ} (h : Sec p) (him : p'.im = p.im) (hle : p.re ≤ p'.re) :
    ((1 / p') ^ 2).re ≤ ((1 / p) ^ 2).re := by
  have h' := h.mono him hle
  rcases hle.eq_or_lt with e | hlt
  · have : p' = p := Complex.ext e.symm him
    rw [this]
  have t1 := h.tangent h' him
  have t2 := h'.tangent h him.symm
  have : 0 ≤ (((1 / p) ^ 2).re - ((1 / p') ^ 2).re) * (p'.re - p.re) := by linarith
  have := nonneg_of_mul_nonneg_left this (by linarith)
  linarith

theorem Sec.inv_le {p : ℂ} (h : Sec p) {d : ℝ} (hd : 0 < d) (hle : d ≤ p.re) : (1 / p).re ≤ 1 / d := by
  rw [inv_re, div_le_div_iff₀ (normSq_pos' h.pos) hd]
  have := h.pos
  nlinarith [sq_nonneg p.im]

theorem Sec.invsq_le {p : ℂ} (h : Sec p) {d : ℝ} (hd : 0 < d) (hle : d ≤ p.re) : ((1 / p) ^ 2).re ≤ (1 / d) ^ 2 := by
  rw [invsq_re, one_div, inv_pow, ← one_div, div_le_div_iff₀ (by have := normSq_pos' h.pos; positivity) (by positivity)]
  have hp := h.pos
  have h1 : d ^ 2 ≤ p.re ^ 2 := by nlinarith
  have hc := h.cone
  have h2 : 0 ≤ p.re ^ 2 - p.im ^ 2 := by nlinarith [sq_nonneg p.im]
  have := mul_le_mul_of_nonneg_left h1 h2
  nlinarith [sq_nonneg (p.im ^ 2), mul_nonneg (sq_nonneg p.re) (sq_nonneg p.im)]

/-- `Re (1/p^2)` is at least two thirds of the square of `Re (1/p)`. -/
theorem Sec.invsq_ge {p : ℂ} (h : Sec p) : 2 / 3 * (1 / p).re ^ 2 ≤ ((1 / p) ^ 2).re := by
  rw [invsq_re, inv_re, div_pow, ← mul_div_assoc]
  apply div_le_div_of_nonneg_right _ (by positivity)
  have := h.cone
  nlinarith

/-- A step `σ` to the left of at most half the real part increases `Re (1/p)` by at most `2 σ Re (1/p^2)`. -/
theorem Sec.back {p : ℂ} (h : Sec p) {σ : ℝ} (hσ : 0 ≤ σ) (hle : 2 * σ ≤ p.re) :
    (1 / (p - (σ : ℂ))).re ≤ (1 / p).re + 2 * σ * ((1 / p) ^ 2).re := by
  have hp := h.pos
  rw [inv_re, inv_re, invsq_re]
  have e1 : (p - (σ : ℂ)).re = p.re - σ := by simp
  have e2 : (p - (σ : ℂ)).im = p.im := by simp
  rw [e1, e2]
  set x := p.re
  set y := p.im
  have hxs : 0 < x - σ := by linarith
  have n1 : 0 < x ^ 2 + y ^ 2 := by positivity
  have n2 : 0 < (x - σ) ^ 2 + y ^ 2 := by positivity
  have e : x / (x ^ 2 + y ^ 2) + 2 * σ * ((x ^ 2 - y ^ 2) / (x ^ 2 + y ^ 2) ^ 2) - (x - σ) / ((x - σ) ^ 2 + y ^ 2) =
      σ * (((x - 2 * σ) * (x - σ) + y ^ 2) * (x ^ 2 - y ^ 2) + 2 * x * y ^ 2 * σ) /
        ((x ^ 2 + y ^ 2) ^ 2 * ((x - σ) ^ 2 + y ^ 2)) := by
    field_simp
    ring
  have hxy : 0 ≤ x ^ 2 - y ^ 2 := by have := h.cone; nlinarith [sq_nonneg y]
  have h3 : 0 ≤ (x - 2 * σ) * (x - σ) := mul_nonneg (by linarith) hxs.le
  have : 0 ≤ σ * (((x - 2 * σ) * (x - σ) + y ^ 2) * (x ^ 2 - y ^ 2) + 2 * x * y ^ 2 * σ) /
        ((x ^ 2 + y ^ 2) ^ 2 * ((x - σ) ^ 2 + y ^ 2)) := by
    apply div_nonneg (mul_nonneg hσ _) (by positivity)
    exact add_nonneg (mul_nonneg (by positivity) hxy) (by positivity)
  linarith

/-! ### the sum rule -/

section Search

variable {nq nb : Nat} {chi : Fin nq → Fin (2 * nb + 1) → ℂ}

/-- A function of the bosonic frequency with `f(-w) = conj f(w)` has a real sum. -/
theorem sum_conj_real {n : Nat} (f : Fin n → ℂ) (h : ∀ w, f w.rev = (starRingEnd ℂ) (f w)) :
    ∑ w, f w = ((∑ w, (f w).re : ℝ) : ℂ) := by
  have h1 : (starRingEnd ℂ) (∑ w, f w) = ∑ w, f w := by
    rw [map_sum, ← Equiv.sum_comp Fin.revPerm f]
    exact Finset.sum_congr rfl fun w _ => (h w).symm
  rw [Complex.conj_eq_iff_real] at h1
  obtain ⟨r, hr⟩ := h1
  rw [hr]
  congr 1
  have := congrArg Complex.re hr
  rw [Complex.re_sum, Complex.ofReal_re] at this
  exact this.symm

theorem Sectorial.shifted_conj (h : Sectorial chi) (lam : ℝ) (q : Fin nq) (w : Fin (2 * nb + 1)) :
    shifted chi lam q w.rev = (starRingEnd ℂ) (shifted chi lam q w) := by
  simp [shifted, h.conj]

theorem static_rev (nb : Nat) : (static nb).rev = static nb := by
  apply Fin.ext; simp only [static, Fin.val_rev]; omega

/-- The static susceptibility is real. -/
theorem Sectorial.static_im (h : Sectorial chi) (q : Fin nq) : (chi q (static nb)).im = 0 := by
  have := h.conj q (static nb)
  rw [static_rev] at this
  exact Complex.conj_eq_iff_im.mp this.symm

theorem Sectorial.static_inv (h : Sectorial chi) (q : Fin nq) :
    1 / (chi q (static nb)).re = (1 / chi q (static nb)).re ∧ (1 / chi q (static nb)).im = 0 := by
  have h0 := h.static_im q
  have hne : (chi q (static nb)).re ≠ 0 := fun e => h.ne q (static nb) (Complex.ext e h0)
  rw [inv_re, inv_im, h0]
  constructor
  · field_simp
    ring
  · simp

theorem chirSum_rowsC (beta lam : ℝ) (nw : Nat) (chi : Fin nq → Fin nw → ℂ) :
    chirSum beta (rowsC chi) lam = totalC beta (shifted chi lam) := by
  simp only [chirSum, totalC, shifted, mean, rowsC, List.map_ofFn, List.length_ofFn, List.sum_ofFn, Function.comp_def]

theorem fpLam_rowsC (beta lam : ℝ) (nw : Nat) (chi : Fin nq → Fin nw → ℂ) :
    fpLam beta (rowsC chi) lam = -totalC beta (fun q w => shifted chi lam q w ^ 2) := by
  simp only [fpLam, totalC, shifted, mean, rowsC, List.map_ofFn, List.length_ofFn, List.sum_ofFn, Function.comp_def]
  ring

theorem totalC_real (beta : ℝ) (x : Fin nq → Fin (2 * nb + 1) → ℂ) (h : ∀ q w, x q w.rev = (starRingEnd ℂ) (x q w)) :
    totalC beta x = ((1 / beta * ((∑ q, ∑ w, (x q w).re) / nq) : ℝ) : ℂ) := by
  simp only [totalC]
  rw [Finset.sum_congr rfl fun q _ => sum_conj_real (x q) (h q)]
  push_cast
  rfl

/-- Nothing is lost by `np.real`: the sum rule is real for every real lambda. -/
theorem Sectorial.sum_real (h : Sectorial chi) (beta lam : ℝ) :
    totalC beta (shifted chi lam) = (sumRe beta chi lam : ℂ) :=
  totalC_real beta _ (h.shifted_conj lam)

theorem Sectorial.slope_real (h : Sectorial chi) (beta lam : ℝ) :
    fpLam beta (rowsC chi) lam = (slopeRe beta chi lam : ℂ) := by
  rw [fpLam_rowsC, totalC_real beta]
  · simp only [slopeRe, shifted]
    push_cast
    ring
  · intro q w
    rw [h.shifted_conj, map_pow]

theorem useLambda_rowsC {nw : Nat} (chi : Fin nq → Fin nw → ℂ) (lam : ℝ) :
    useLambda (rowsC chi) lam = rowsC (shifted chi lam) := by
  simp only [useLambda, rowsC, List.map_ofFn]
  congr 1; funext q
  simp only [Function.comp, List.map_ofFn]
  congr 1

/-- `get_lambda_start` returns minus the smallest inverse static susceptibility. -/
theorem startC_spec (chi : Fin nq → Fin (2 * nb + 1) → ℂ) (hq : 0 < nq) :
    ∃ s, getLambdaStart (rowsC chi) = some s ∧
      (∀ q, -s ≤ 1 / (chi q (static nb)).re) ∧ ∃ q, -s = 1 / (chi q (static nb)).re := by
  have hld : lastDim (rowsC chi) = 2 * nb + 1 := by
    obtain ⟨n, rfl⟩ : ∃ n, nq = n + 1 := ⟨nq - 1, by omega⟩
    simp [lastDim, rowsC]
  have hmid : (2 * nb + 1) / 2 = nb := by omega
  have hcol : ((rowsC chi).mapM fun row => (row[lastDim (rowsC chi) / 2]?).map fun x => 1 / x.re) =
      some (List.ofFn fun q => 1 / (chi q (static nb)).re) := by
    have := mapM_some (fun row : List ℂ => (row[lastDim (rowsC chi) / 2]?).map fun x => 1 / x.re)
      (fun row => 1 / (row[nb]?.getD 0).re) (rowsC chi) (by
        intro row hrow
        obtain ⟨q, rfl⟩ := (List.mem_ofFn' _ _).mp hrow
        have : nb < 2 * nb + 1 := by omega
        simp [hld, hmid, this])
    rw [this]
    have h2 : nb < 2 * nb + 1 := by omega
    simp only [rowsC, List.map_ofFn]
    congr 1; congr 1; funext q
    simp [-List.ofFn_succ, h2, static]
  have hne : (List.ofFn fun q => 1 / (chi q (static nb)).re) ≠ [] := by
    intro h
    have := congrArg List.length h
    simp at this; omega
  obtain ⟨m, hm⟩ : ∃ m, (List.ofFn fun q => 1 / (chi q (static nb)).re).min? = some m := by
    cases h : (List.ofFn fun q => 1 / (chi q (static nb)).re).min? with
    | none => rw [List.min?_eq_none_iff] at h; exact absurd h hne
    | some m => exact ⟨m, rfl⟩
  have hmem := List.min?_mem hm
  have hle := (List.min?_eq_some_iff.mp hm).2
  refine ⟨-m, ?_, ?_, ?_⟩
  · simp only [getLambdaStart, hcol, Option.bind_some, hm, Option.map_some]
  · intro q
    rw [neg_neg]
    exact hle _ ((List.mem_ofFn' _ _).mpr ⟨q, rfl⟩)
  · obtain ⟨q, hq⟩ := (List.mem_ofFn' _ _).mp hmem
    exact ⟨q, by rw [neg_neg]; exact hq.symm⟩

/-- Above the pole every denominator lies in the cone, at least `l - s` to the right of zero. -/
theorem Sectorial.denom (h : Sectorial chi) (hq : 0 < nq) {s : ℝ} (hs : getLambdaStart (rowsC chi) = some s)
    {l : ℝ} (hl : s < l) (q : Fin nq) (w : Fin (2 * nb + 1)) :
    Sec (1 / chi q w + (l : ℂ)) ∧ l - s ≤ (1 / chi q w + (l : ℂ)).re := by
  obtain ⟨s', h1, h2, _⟩ := startC_spec chi hq
  rw [h1] at hs; cases hs
  obtain ⟨q', hq'⟩ := h.cone q w
  have h3 := h2 q'
  rw [(h.static_inv q').1] at h3
  have e1 : (1 / chi q w + (l : ℂ)).re = (1 / chi q w).re + l := by simp
  have e2 : (1 / chi q w + (l : ℂ)).im = (1 / chi q w).im := by simp
  set y := (1 / chi q w).im
  set x := (1 / chi q w).re
  have h4 : √3 * |y| ≤ x + l := by linarith
  have h5 : 0 ≤ √3 * |y| := by positivity
  refine ⟨⟨by rw [e1]; linarith, ?_⟩, by rw [e1]; linarith⟩
  rw [e1, e2]
  calc 3 * y ^ 2 = (√3 * |y|) ^ 2 := by rw [mul_pow, Real.sq_sqrt (by norm_num), sq_abs]
    _ ≤ (x + l) ^ 2 := by gcongr

theorem Sectorial.branch (h : Sectorial chi) (hq : 0 < nq) {s beta : ℝ} (hb : 0 < beta)
    (hs : getLambdaStart (rowsC chi) = some s) (target : ℂ) :
    Branch (fun lam => chirSum beta (rowsC chi) lam - target) (fpLam beta (rowsC chi)) s
      (fun lam => sumRe beta chi lam - target.re) (slopeRe beta chi) := by
  have hqr : (0 : ℝ) < nq := by exact_mod_cast hq
  have dp := fun {l} (hl : s < l) q w => (h.denom hq hs hl q w).1
  have hneF : (Finset.univ : Finset (Fin nq)).Nonempty := ⟨⟨0, hq⟩, Finset.mem_univ _⟩
  have hneW : (Finset.univ : Finset (Fin (2 * nb + 1))).Nonempty := ⟨static nb, Finset.mem_univ _⟩
  have im : ∀ (l m : ℝ) q w, (1 / chi q w + (m : ℂ)).im = (1 / chi q w + (l : ℂ)).im := by intro l m q w; simp
  have re : ∀ (l m : ℝ) q w, (1 / chi q w + (m : ℂ)).re - (1 / chi q w + (l : ℂ)).re = m - l := by intro l m q w; simp
  refine ⟨?_, ?_, ?_, ?_, ?_, ?_⟩
  · intro l _; simp [chirSum_rowsC, h.sum_real]
  · intro l _
    rw [chirSum_rowsC, h.sum_real, h.slope_real, Complex.div_ofReal_re]
    simp
  · intro l hl
    simp only [slopeRe]
    rw [neg_div, neg_mul, neg_lt_zero]
    apply mul_pos (by positivity)
    apply div_pos _ hqr
    exact Finset.sum_pos (fun q _ => Finset.sum_pos (fun w _ => (dp hl q w).invsq_pos) hneW) hneF
  · intro l m hl hm
    have hsum : (∑ q, ∑ w, ((1 / (1 / chi q w + (l : ℂ))).re - ((1 / (1 / chi q w + (l : ℂ))) ^ 2).re * (m - l))) ≤
        ∑ q, ∑ w, (1 / (1 / chi q w + (m : ℂ))).re := by
      apply Finset.sum_le_sum; intro q _; apply Finset.sum_le_sum; intro w _
      have := (dp hl q w).tangent (dp hm q w) (im l m q w)
      rw [re] at this; exact this
    simp only [Finset.sum_sub_distrib, ← Finset.sum_mul] at hsum
    simp only [sumRe, slopeRe]
    have hc : (0 : ℝ) ≤ 1 / beta * (1 / nq) := by positivity
    have := mul_le_mul_of_nonneg_left hsum hc
    linear_combination this
  · intro l m hl hm
    have hsum : ∑ q, ∑ w, ((1 / (1 / chi q w + (m : ℂ))) ^ 2).re ≤ ∑ q, ∑ w, ((1 / (1 / chi q w + (l : ℂ))) ^ 2).re := by
      apply Finset.sum_le_sum; intro q _; apply Finset.sum_le_sum; intro w _
      exact (dp hl q w).slope (im l m q w) (by have := re l m q w; linarith)
    simp only [slopeRe]
    have hc : (0 : ℝ) ≤ 1 / beta * (1 / nq) := by positivity
    have := mul_le_mul_of_nonneg_left hsum hc
    linear_combination this
  · intro l m hl hm
    have hsum : ∑ q, ∑ w, (1 / (1 / chi q w + (m : ℂ))).re < ∑ q, ∑ w, (1 / (1 / chi q w + (l : ℂ))).re := by
      apply Finset.sum_lt_sum_of_nonempty hneF; intro q _
      apply Finset.sum_lt_sum_of_nonempty hneW; intro w _
      exact (dp hl q w).anti (im l m q w) (by have := re l m q w; linarith)
    simp only [sumRe]
    have hc : (0 : ℝ) < 1 / beta * (1 / nq) := by positivity
    have := mul_lt_mul_of_pos_left hsum hc
    linear_combination this

theorem term_le_sum {a b : Nat} (g : Fin a → Fin b → ℝ) (h : ∀ q w, 0 ≤ g q w) (q0 : Fin a) (w0 : Fin b) : g q0 w0 ≤ ∑ q, ∑ w, g q w :=
  (Finset.single_le_sum (f := fun w => g q0 w) (fun w _ => h q0 w) (Finset.mem_univ w0)).trans
    (Finset.single_le_sum (f := fun q => ∑ w, g q w) (fun q _ => Finset.sum_nonneg fun w _ => h q w) (Finset.mem_univ q0))

/-- Bounds on the sum rule and its slope at distance `d` above the pole. -/
theorem Sectorial.bounds (h : Sectorial chi) (hq : 0 < nq) {s beta d : ℝ} (hb : 0 < beta) (hd : 0 < d)
    (hs : getLambdaStart (rowsC chi) = some s) :
    1 / (beta * nq * d) ≤ sumRe beta chi (s + d) ∧ sumRe beta chi (s + d) ≤ (2 * nb + 1 : ℕ) / (beta * d) ∧
    1 / (beta * nq * d ^ 2) ≤ -slopeRe beta chi (s + d) ∧ -slopeRe beta chi (s + d) ≤ (2 * nb + 1 : ℕ) / (beta * d ^ 2) ∧
    2 / 3 * (beta * sumRe beta chi (s + d) ^ 2 / (2 * nb + 1 : ℕ)) ≤ -slopeRe beta chi (s + d) := by
  have hqr : (0 : ℝ) < nq := by exact_mod_cast hq
  have hwr : (0 : ℝ) < (2 * nb + 1 : ℕ) := by exact_mod_cast Nat.succ_pos _
  have hsd : s < s + d := by linarith
  have dp := fun q w => h.denom hq hs hsd q w
  have dd : ∀ q w, d ≤ (1 / chi q w + ((s + d : ℝ) : ℂ)).re := fun q w => by have := (dp q w).2; linarith
  obtain ⟨s', e1, _, q0, e2⟩ := startC_spec chi hq
  have hs2 := hs
  rw [e1] at hs2; cases hs2
  have hz : 1 / chi q0 (static nb) + ((s + d : ℝ) : ℂ) = (d : ℂ) := by
    rw [(h.static_inv q0).1] at e2
    apply Complex.ext
    · simp only [Complex.add_re, Complex.ofReal_re]; linarith
    · simp only [Complex.add_im, Complex.ofReal_im, (h.static_inv q0).2, add_zero]
  have hc : (0 : ℝ) ≤ 1 / beta * (1 / nq) := by positivity
  have eF : sumRe beta chi (s + d) = 1 / beta * (1 / nq) * ∑ q, ∑ w, (1 / (1 / chi q w + ((s + d : ℝ) : ℂ))).re := by
    simp only [sumRe]; ring
  have eG : -slopeRe beta chi (s + d) = 1 / beta * (1 / nq) * ∑ q, ∑ w, ((1 / (1 / chi q w + ((s + d : ℝ) : ℂ))) ^ 2).re := by
    simp only [slopeRe]; ring
  have hsq : ∀ q w, 0 ≤ ((1 / (1 / chi q w + ((s + d : ℝ) : ℂ))) ^ 2).re := fun q w => (dp q w).1.invsq_pos.le
  rw [eG, eF]
  refine ⟨?_, ?_, ?_, ?_, ?_⟩
  · have hterm : (1 / (1 / chi q0 (static nb) + ((s + d : ℝ) : ℂ))).re = 1 / d := by
      rw [hz, ← Complex.ofReal_one, ← Complex.ofReal_div, Complex.ofReal_re]
    have h1 : 1 / d ≤ ∑ q, ∑ w, (1 / (1 / chi q w + ((s + d : ℝ) : ℂ))).re := by
      rw [← hterm]
      exact term_le_sum (fun q w => (1 / (1 / chi q w + ((s + d : ℝ) : ℂ))).re) (fun q w => (dp q w).1.inv_pos.le) q0 (static nb)
    calc 1 / (beta * nq * d) = 1 / beta * (1 / nq) * (1 / d) := by field_simp
      _ ≤ _ := mul_le_mul_of_nonneg_left h1 hc
  · have h1 : ∑ q, ∑ w, (1 / (1 / chi q w + ((s + d : ℝ) : ℂ))).re ≤ nq * ((2 * nb + 1 : ℕ) * (1 / d)) := by
      calc _ ≤ ∑ q : Fin nq, ∑ w : Fin (2 * nb + 1), 1 / d :=
            Finset.sum_le_sum fun q _ => Finset.sum_le_sum fun w _ => (dp q w).1.inv_le hd (dd q w)
        _ = _ := by simp only [Finset.sum_const, Finset.card_univ, Fintype.card_fin, nsmul_eq_mul]
    calc _ ≤ _ := mul_le_mul_of_nonneg_left h1 hc
      _ = _ := by field_simp
  · have hterm : ((1 / (1 / chi q0 (static nb) + ((s + d : ℝ) : ℂ))) ^ 2).re = (1 / d) ^ 2 := by
      rw [hz, ← Complex.ofReal_one, ← Complex.ofReal_div, ← Complex.ofReal_pow, Complex.ofReal_re]
    have h1 : (1 / d) ^ 2 ≤ ∑ q, ∑ w, ((1 / (1 / chi q w + ((s + d : ℝ) : ℂ))) ^ 2).re := by
      rw [← hterm]
      exact term_le_sum (fun q w => ((1 / (1 / chi q w + ((s + d : ℝ) : ℂ))) ^ 2).re) hsq q0 (static nb)
    calc 1 / (beta * nq * d ^ 2) = 1 / beta * (1 / nq) * (1 / d) ^ 2 := by field_simp
      _ ≤ _ := mul_le_mul_of_nonneg_left h1 hc
  · have h1 : ∑ q, ∑ w, ((1 / (1 / chi q w + ((s + d : ℝ) : ℂ))) ^ 2).re ≤ nq * ((2 * nb + 1 : ℕ) * (1 / d) ^ 2) := by
      calc _ ≤ ∑ q : Fin nq, ∑ w : Fin (2 * nb + 1), (1 / d) ^ 2 :=
            Finset.sum_le_sum fun q _ => Finset.sum_le_sum fun w _ => (dp q w).1.invsq_le hd (dd q w)
        _ = _ := by simp only [Finset.sum_const, Finset.card_univ, Fintype.card_fin, nsmul_eq_mul]
    calc _ ≤ _ := mul_le_mul_of_nonneg_left h1 hc
      _ = _ := by field_simp
  · have hcs : (∑ q, ∑ w, (1 / (1 / chi q w + ((s + d : ℝ) : ℂ))).re) ^ 2 ≤
        (nq * (2 * nb + 1 : ℕ)) * ∑ q, ∑ w, (1 / (1 / chi q w + ((s + d : ℝ) : ℂ))).re ^ 2 := by
      have := sq_sum_le_card_mul_sum_sq (s := (Finset.univ : Finset (Fin nq × Fin (2 * nb + 1))))
        (f := fun p => (1 / (1 / chi p.1 p.2 + ((s + d : ℝ) : ℂ))).re)
      rw [Fintype.sum_prod_type, Fintype.sum_prod_type, Finset.card_univ, Fintype.card_prod, Fintype.card_fin, Fintype.card_fin,
        Nat.cast_mul] at this
      exact this
    have h3 : ∑ q, ∑ w, (1 / (1 / chi q w + ((s + d : ℝ) : ℂ))).re ^ 2 ≤
        3 / 2 * ∑ q, ∑ w, ((1 / (1 / chi q w + ((s + d : ℝ) : ℂ))) ^ 2).re := by
      rw [Finset.mul_sum]
      apply Finset.sum_le_sum; intro q _
      rw [Finset.mul_sum]
      apply Finset.sum_le_sum; intro w _
      have := (dp q w).1.invsq_ge
      linarith
    set A := ∑ q, ∑ w, (1 / (1 / chi q w + ((s + d : ℝ) : ℂ))).re
    set B := ∑ q, ∑ w, ((1 / (1 / chi q w + ((s + d : ℝ) : ℂ))) ^ 2).re
    have hAB : A ^ 2 ≤ nq * (2 * nb + 1 : ℕ) * (3 / 2 * B) := hcs.trans (mul_le_mul_of_nonneg_left h3 (by positivity))
    calc 2 / 3 * (beta * (1 / beta * (1 / nq) * A) ^ 2 / (2 * nb + 1 : ℕ))
        = 2 / 3 * (1 / (beta * nq ^ 2 * (2 * nb + 1 : ℕ))) * A ^ 2 := by field_simp
      _ ≤ 2 / 3 * (1 / (beta * nq ^ 2 * (2 * nb + 1 : ℕ))) * (nq * (2 * nb + 1 : ℕ) * (3 / 2 * B)) :=
          mul_le_mul_of_nonneg_left hAB (by positivity)
      _ = _ := by field_simp

/-- On the physical branch the sum rule has at most one solution; it has one iff the target is positive. -/
theorem Sectorial.root (h : Sectorial chi) (hq : 0 < nq) {s beta : ℝ} (hb : 0 < beta)
    (hs : getLambdaStart (rowsC chi) = some s) (target : ℝ) :
    (∀ a b, s < a → s < b → totalC beta (shifted chi a) = target → totalC beta (shifted chi b) = target → a = b) ∧
    ((∃ r, s < r ∧ totalC beta (shifted chi r) = target) ↔ 0 < target) := by
  have hqr : (0 : ℝ) < nq := by exact_mod_cast hq
  have hwr : (0 : ℝ) < (2 * nb + 1 : ℕ) := by exact_mod_cast Nat.succ_pos _
  have hbr := h.branch hq hb hs (target : ℂ)
  have eq : ∀ l, totalC beta (shifted chi l) = target ↔ sumRe beta chi l = target := by
    intro l; rw [h.sum_real]; exact_mod_cast Iff.rfl
  simp only [eq]
  refine ⟨?_, ?_, ?_⟩
  · intro a b ha hb' h1 h2
    rcases lt_trichotomy a b with h | h | h
    · have := hbr.anti a b ha h; linarith
    · exact h
    · have := hbr.anti b a hb' h; linarith
  · rintro ⟨r, hr, rfl⟩
    have hrs : 0 < r - s := by linarith
    have := (h.bounds hq hb hrs hs).1
    rw [show s + (r - s) = r by ring] at this
    have h2 : 0 < 1 / (beta * nq * (r - s)) := by positivity
    linarith
  · intro ht
    set a := 1 / (beta * nq * target)
    set b := (2 * nb + 1 : ℕ) / (beta * target)
    have ha : 0 < a := by positivity
    have hbp : 0 < b := by positivity
    have hlo : target ≤ sumRe beta chi (s + a) := by
      have := (h.bounds hq hb ha hs).1
      calc target = 1 / (beta * nq * a) := by simp only [a]; field_simp
        _ ≤ _ := this
    have hhi : sumRe beta chi (s + b) ≤ target := by
      have := (h.bounds hq hb hbp hs).2.1
      calc _ ≤ _ := this
        _ = target := by simp only [b]; field_simp
    have hab : s + a ≤ s + b := by
      by_contra hc
      push Not at hc
      have := hbr.anti (s + b) (s + a) (by linarith) hc
      linarith
    have hcont : ContinuousOn (sumRe beta chi) (Set.Icc (s + a) (s + b)) := by
      unfold sumRe
      apply ContinuousOn.mul continuousOn_const
      apply ContinuousOn.div_const
      apply continuousOn_finsetSum; intro q _
      apply continuousOn_finsetSum; intro w _
      apply Complex.continuous_re.comp_continuousOn
      apply ContinuousOn.div continuousOn_const
        (continuousOn_const.add Complex.continuous_ofReal.continuousOn)
      intro l hl
      have hp := (h.denom hq hs (by have := hl.1; linarith : s < l) q w).1.pos
      intro e
      have e' : 1 / chi q w + (l : ℂ) = 0 := e
      rw [e'] at hp
      simp at hp
    obtain ⟨r, hr, hr2⟩ := intermediate_value_Icc' hab hcont ⟨hhi, hlo⟩
    exact ⟨r, by have := hr.1; linarith, hr2⟩

theorem Sectorial.root' (h : Sectorial chi) (hq : 0 < nq) {s beta : ℝ} (hb : 0 < beta)
    (hs : getLambdaStart (rowsC chi) = some s) {target : ℝ} (ht : 0 < target) : ∃ r, s < r ∧ sumRe beta chi r = target := by
  obtain ⟨r, h1, h2⟩ := (h.root hq hb hs target).2.mpr ht
  rw [h.sum_real] at h2
  exact ⟨r, h1, by exact_mod_cast h2⟩

/-- Liveness: for a positive target the search converges, provided `maxiter` is large enough. -/
theorem Sectorial.search_converges (h : Sectorial chi) (hq : 0 < nq) {s beta : ℝ} (hb : 0 < beta)
    (hs : getLambdaStart (rowsC chi) = some s) (target : ℂ) (ht : 0 < target.re) (eps delta : ℝ) (he : 0 < eps)
    (hd : 0 < delta) :
    ∃ N, ∀ n, N ≤ n → (single beta s (rowsC chi) target n eps delta).converged = true := by
  obtain ⟨r, hr, hr2⟩ := h.root' hq hb hs ht
  obtain ⟨k, hk⟩ := exists_nat_gt (delta / (r - s))
  apply loop_terminates (h.branch hq hb hs target) hr (by simp [hr2]) he k delta hd
  have h2 : (k : ℝ) ≤ 2 ^ k := by exact_mod_cast Nat.lt_two_pow_self.le
  rw [div_lt_iff₀ (by linarith)] at hk
  rw [div_le_iff₀ (by positivity)]
  nlinarith

/-- Explicit iteration bound. -/
theorem Sectorial.search_converges_within (h : Sectorial chi) (hq : 0 < nq) {s beta : ℝ} (hb : 0 < beta)
    (hs : getLambdaStart (rowsC chi) = some s) (target : ℂ) (ht : 0 < target.re) (eps delta : ℝ) (he : 0 < eps)
    (hd : 0 < delta) (j k : Nat) (hj : delta * (beta * nq * target.re) ≤ 2 ^ j)
    (hk : 3 * ((2 * nb + 1 : ℕ) : ℝ) ^ 3 <
      2 * (4 ^ k * (eps * beta ^ 3 * target.re ^ 2 * min delta (1 / (2 * (beta * nq * target.re))) ^ 3)))
    (n : Nat) (hn : j + k + 1 ≤ n) : (single beta s (rowsC chi) target n eps delta).converged = true := by
  have hqr : (0 : ℝ) < nq := by exact_mod_cast hq
  have hwr : (0 : ℝ) < (2 * nb + 1 : ℕ) := by exact_mod_cast Nat.succ_pos _
  obtain ⟨r, hr, hr2⟩ := h.root' hq hb hs ht
  have hbr := h.branch hq hb hs target
  set c := beta * nq * target.re with hcdef
  have hcp : 0 < c := by positivity
  have hrs : 0 < r - s := by linarith
  have hB := h.bounds hq hb hrs hs
  rw [show s + (r - s) = r by ring, hr2] at hB
  obtain ⟨b1, -, -, -, b4⟩ := hB
  have hrc : 1 / c ≤ r - s := by
    rw [div_le_iff₀ (by positivity)] at b1
    rw [div_le_iff₀ hcp, hcdef]; linarith
  set dmin := min delta (1 / (2 * c)) with hdm
  have hdmp : 0 < dmin := lt_min hd (by positivity)
  have bd := fun {d} (hd : 0 < d) => h.bounds hq hb hd hs
  generalize ((2 * nb + 1 : ℕ) : ℝ) = nw at hk hwr b4 bd
  refine loop_fast hbr hr (by simp [hr2]) he k (dmin := dmin) ?_ ?_ j delta hd (min_le_left _ _) ?_ n hn
  · have h1 : dmin ≤ 1 / (2 * c) := min_le_right _ _
    have h2 : 1 / (2 * c) = 1 / c / 2 := by field_simp
    linarith
  · intro d hdpos hdmin hdr
    obtain ⟨-, a2, -, a3, -⟩ := bd hdpos
    have hF : sumRe beta chi (s + d) - target.re ≤ nw / (beta * dmin) := by
      have : nw / (beta * d) ≤ nw / (beta * dmin) := by gcongr
      linarith
    have hG : -slopeRe beta chi (s + d) ≤ nw / (beta * dmin ^ 2) := by
      have : nw / (beta * d ^ 2) ≤ nw / (beta * dmin ^ 2) := by gcongr
      linarith
    have hGp : 0 < -slopeRe beta chi (s + d) := by have := hbr.neg (s + d) (by linarith); linarith
    have hprod : (sumRe beta chi (s + d) - target.re) * -slopeRe beta chi (s + d) ≤
        nw / (beta * dmin) * (nw / (beta * dmin ^ 2)) :=
      mul_le_mul hF hG hGp.le (by positivity)
    have hright : 4 ^ k * (eps * (2 / 3 * (beta * target.re ^ 2 / nw))) ≤ 4 ^ k * (eps * -slopeRe beta chi r) := by gcongr
    refine lt_of_le_of_lt hprod (lt_of_lt_of_le ?_ hright)
    have e1 : nw / (beta * dmin) * (nw / (beta * dmin ^ 2)) = nw ^ 3 / (nw * beta ^ 2 * dmin ^ 3) := by
      field_simp
    have e2 : 4 ^ k * (eps * (2 / 3 * (beta * target.re ^ 2 / nw))) =
        2 / 3 * (4 ^ k * (eps * beta ^ 3 * target.re ^ 2 * dmin ^ 3)) / (nw * beta ^ 2 * dmin ^ 3) := by
      field_simp
    rw [e1, e2]
    apply div_lt_div_of_pos_right _ (by positivity)
    linarith
  · have h1 : delta ≤ 2 ^ j * (1 / c) := by
      rw [mul_one_div, le_div_iff₀ hcp]; exact hj
    refine h1.trans ?_
    gcongr

/-- The search with the parameters of the code (`maxiter = 1000`, `eps = 1e-7`, `delta = 0.1`) converges for every physical size. -/
theorem Sectorial.default_converges (h : Sectorial chi) (hq : 0 < nq) {s beta : ℝ}
    (hs : getLambdaStart (rowsC chi) = some s) (target : ℂ) (hb : 1e-6 ≤ beta) (hb2 : beta ≤ 1e6)
    (ht : 1e-6 ≤ target.re) (ht2 : target.re ≤ 1e6) (hnq : (nq : ℝ) ≤ 1e12) (hnw : ((2 * nb + 1 : ℕ) : ℝ) ≤ 1e12) :
    (single beta s (rowsC chi) target).converged = true := by
  have hqr : (0 : ℝ) < nq := by exact_mod_cast hq
  have hb0 : 0 < beta := by norm_num at hb; linarith
  have ht0 : 0 < target.re := by norm_num at ht; linarith
  have hc : beta * nq * target.re ≤ 1e24 := by
    calc beta * nq * target.re ≤ 1e6 * 1e12 * 1e6 := by gcongr
      _ = _ := by norm_num
  have hcp : 0 < beta * nq * target.re := by positivity
  apply h.search_converges_within hq hb0 hs target ht0 1e-7 0.1 (by norm_num) (by norm_num) 80 250
  · calc (0.1 : ℝ) * (beta * nq * target.re) ≤ 0.1 * 1e24 := by gcongr
      _ ≤ 2 ^ 80 := by norm_num
  · have hm : (4e-25 : ℝ) ≤ min 0.1 (1 / (2 * (beta * nq * target.re))) := by
      apply le_min (by norm_num)
      rw [le_div_iff₀ (by positivity)]
      calc (4e-25 : ℝ) * (2 * (beta * nq * target.re)) ≤ 4e-25 * (2 * 1e24) := by gcongr
        _ ≤ 1 := by norm_num
    have h0 : (0 : ℝ) ≤ ((2 * nb + 1 : ℕ) : ℝ) := Nat.cast_nonneg _
    generalize ((2 * nb + 1 : ℕ) : ℝ) = nw at *
    calc 3 * nw ^ 3 ≤ 3 * (1e12) ^ 3 := by gcongr
      _ < 2 * (4 ^ 250 * (1e-7 * (1e-6) ^ 3 * (1e-6) ^ 2 * (4e-25) ^ 3)) := by norm_num
      _ ≤ _ := by gcongr
  · norm_num

/-- The returned lambda lies above the pole, and on convergence the corrected sum is real, not below the target and exceeds it by less
    than `eps`, provided `2 * eps * beta * nq * delta ≤ 1` (for the default parameters `beta * nq ≤ 5e7`). -/
theorem Sectorial.returned (h : Sectorial chi) (hq : 0 < nq) {s beta : ℝ} (hb : 0 < beta)
    (hs : getLambdaStart (rowsC chi) = some s) (target : ℂ) (ht : 0 < target.re) (maxiter : Nat) (eps delta : ℝ)
    (he : 0 < eps) (hd : 0 < delta) (hsmall : 2 * (eps * beta * nq * delta) ≤ 1) :
    s < (single beta s (rowsC chi) target maxiter eps delta).lam ∧
    ((single beta s (rowsC chi) target maxiter eps delta).converged = true →
      0 ≤ sumRe beta chi (single beta s (rowsC chi) target maxiter eps delta).lam - target.re ∧
      sumRe beta chi (single beta s (rowsC chi) target maxiter eps delta).lam - target.re < eps) := by
  have hqr : (0 : ℝ) < nq := by exact_mod_cast hq
  cases hconv : (single beta s (rowsC chi) target maxiter eps delta).converged with
  | false => exact ⟨((search_above_pole beta s (rowsC chi) target maxiter eps delta hd).2.2 hconv).1, fun h => by cases h⟩
  | true =>
  have hbr := h.branch hq hb hs target
  obtain ⟨r, hr, hr2⟩ := h.root' hq hb hs ht
  obtain ⟨e, h1, h2, h3⟩ := converged_sum_rule beta s (rowsC chi) target maxiter eps delta hconv
  have hmem := List.mem_of_getLast? h1
  have hse := (search_above_pole beta s (rowsC chi) target maxiter eps delta hd).2.1 e hmem
  have hre := hbr.re_f e hse
  rw [hre] at h2
  have hq2 := hbr.re_q e hse
  rw [hq2] at h3
  have h0 : (fun lam => sumRe beta chi lam - target.re) r = 0 := by simp [hr2]
  have hroot : e - (sumRe beta chi e - target.re) / slopeRe beta chi e ≤ r := newton_le_root hbr hse hr h0
  rw [← h3] at hroot
  have hneg : slopeRe beta chi e < 0 := hbr.neg e hse
  -- the upper bound together with the pole
  have key : s < (single beta s (rowsC chi) target maxiter eps delta).lam ∧
      sumRe beta chi (single beta s (rowsC chi) target maxiter eps delta).lam - target.re < eps := by
    by_cases hle : e ≤ r
    · have hF : 0 ≤ sumRe beta chi e - target.re := F_nonneg_of_le hbr hse hle h0
      have hstep : (sumRe beta chi e - target.re) / slopeRe beta chi e ≤ 0 := div_nonpos_of_nonneg_of_nonpos hF hneg.le
      have hge : e ≤ (single beta s (rowsC chi) target maxiter eps delta).lam := by rw [h3]; linarith
      have hFe : sumRe beta chi (single beta s (rowsC chi) target maxiter eps delta).lam - target.re ≤
          sumRe beta chi e - target.re := by
        rcases hge.eq_or_lt with h | h
        · rw [← h]
        · exact (hbr.anti e _ hse h).le
      rw [abs_of_nonneg hF] at h2
      exact ⟨by linarith, by linarith⟩
    · have hpt := loop_points hbr hr h0 delta maxiter (s + delta) delta (by linarith) hd le_rfl
        (Or.inl ⟨delta, hd, le_rfl, rfl⟩) e hmem
      rcases hpt with ⟨d, hd1, hd2, rfl⟩ | h
      swap
      · exact absurd h hle
      have hFneg : sumRe beta chi (s + d) - target.re < 0 := F_neg_of_lt hbr hr (not_le.mp hle) h0
      obtain ⟨-, -, hG, -, -⟩ := h.bounds hq hb hd1 hs
      set Fv := sumRe beta chi (s + d) - target.re with hFv
      set Gv := slopeRe beta chi (s + d) with hGv
      set σ := Fv / Gv with hσ
      have hGp : 0 < -Gv := by linarith
      have hσp : 0 < σ := div_pos_of_neg_of_neg hFneg hneg
      have hσF : σ * -Gv = -Fv := by rw [hσ, mul_neg, div_mul_cancel₀ _ hneg.ne]
      rw [abs_of_neg hFneg] at h2
      have hσd : σ ≤ d / 2 := by
        have h5 : eps ≤ d / 2 * (1 / (beta * nq * d ^ 2)) := by
          have : d / 2 * (1 / (beta * nq * d ^ 2)) = 1 / (2 * (beta * nq * d)) := by field_simp
          rw [this, le_div_iff₀ (by positivity)]
          have : eps * (beta * nq * d) ≤ eps * (beta * nq * delta) := by gcongr
          linarith
        have h6 : d / 2 * (1 / (beta * nq * d ^ 2)) ≤ d / 2 * (-Gv) := mul_le_mul_of_nonneg_left hG (by linarith)
        have h7 : σ * -Gv ≤ d / 2 * -Gv := by linarith
        exact le_of_mul_le_mul_right h7 hGp
      have hsum : sumRe beta chi (s + d - σ) ≤ sumRe beta chi (s + d) + 2 * σ * -Gv := by
        have hterm : ∑ q, ∑ w, (1 / (1 / chi q w + ((s + d - σ : ℝ) : ℂ))).re ≤
            ∑ q, ∑ w, ((1 / (1 / chi q w + ((s + d : ℝ) : ℂ))).re + 2 * σ * ((1 / (1 / chi q w + ((s + d : ℝ) : ℂ))) ^ 2).re) := by
          refine Finset.sum_le_sum fun q _ => Finset.sum_le_sum fun w _ => ?_
          obtain ⟨d1, d2⟩ := h.denom hq hs (show s < s + d by linarith) q w
          have hD : 1 / chi q w + ((s + d - σ : ℝ) : ℂ) = 1 / chi q w + ((s + d : ℝ) : ℂ) - (σ : ℂ) := by push_cast; ring
          rw [hD]
          exact d1.back hσp.le (by linarith)
        have hc : (0 : ℝ) ≤ 1 / beta * (1 / nq) := by positivity
        have := mul_le_mul_of_nonneg_left hterm hc
        simp only [Finset.sum_add_distrib, ← Finset.mul_sum] at this
        simp only [hGv, sumRe, slopeRe]
        linear_combination this
      rw [h3]
      exact ⟨by linarith, by linarith⟩
  exact ⟨key.1, fun _ => ⟨F_nonneg_of_le hbr key.1 hroot h0, key.2⟩⟩

/-- One channel with the parameters of the code. -/
theorem Sectorial.default_single (h : Sectorial chi) (hq : 0 < nq) {beta : ℝ} (hb : 1e-6 ≤ beta) (hb2 : beta ≤ 1e6)
    (hbn : beta * nq ≤ 5e7) (hnw : ((2 * nb + 1 : ℕ) : ℝ) ≤ 1e12) (hnq : (nq : ℝ) ≤ 1e12) (t : ℂ) (h1 : 1e-6 ≤ t.re) (h2 : t.re ≤ 1e6)
    (s : ℝ) (hs : getLambdaStart (rowsC chi) = some s) :
    (∀ q w, 0 < (shifted chi (single beta s (rowsC chi) t).lam q w).re) ∧
    (∀ q, (shifted chi (single beta s (rowsC chi) t).lam q (static nb)).im = 0) ∧
    (totalC beta (shifted chi (single beta s (rowsC chi) t).lam)).im = 0 ∧
    0 ≤ (totalC beta (shifted chi (single beta s (rowsC chi) t).lam)).re - t.re ∧
    (totalC beta (shifted chi (single beta s (rowsC chi) t).lam)).re - t.re < 1e-7 := by
  have hb0 : 0 < beta := by norm_num at hb; linarith
  have ht0 : 0 < t.re := by norm_num at h1; linarith
  have hconv := h.default_converges hq hs t hb hb2 h1 h2 hnq hnw
  have hsm : 2 * ((1e-7 : ℝ) * beta * nq * 0.1) ≤ 1 := by
    have : (1e-7 : ℝ) * beta * nq * 0.1 = 1e-8 * (beta * nq) := by ring
    rw [this]; norm_num at hbn ⊢; linarith
  obtain ⟨habove, hret⟩ := h.returned hq hb0 hs t ht0 1000 1e-7 0.1 (by norm_num) (by norm_num) hsm
  have hret := hret hconv
  refine ⟨fun q w => (h.denom hq hs habove q w).1.inv_pos, fun q => ?_, ?_, ?_, ?_⟩
  · have := h.shifted_conj (single beta s (rowsC chi) t).lam q (static nb)
    rw [static_rev] at this
    exact Complex.conj_eq_iff_im.mp this.symm
  · rw [h.sum_real, Complex.ofReal_im]
  · rw [h.sum_real, Complex.ofReal_re]; exact hret.1
  · rw [h.sum_real, Complex.ofReal_re]; exact hret.2

/-- End to end, mode 'spch' with the parameters of the code: both corrected susceptibilities have positive real parts, are real at the
    static frequency, and their sums are real and equal the local ones to within `1e-7` (never below). -/
theorem spch_sum_rules_complex {dens magn : Fin nq → Fin (2 * nb + 1) → ℂ} (hd : Sectorial dens) (hm : Sectorial magn)
    (hq : 0 < nq) {beta : ℝ} (hb : 1e-6 ≤ beta) (hb2 : beta ≤ 1e6) (hbn : beta * nq ≤ 5e7) (hnw : ((2 * nb + 1 : ℕ) : ℝ) ≤ 1e12)
    (ld lm : List ℂ) (td : 1e-6 ≤ (1 / (beta : ℂ) * ld.sum).re) (td2 : (1 / (beta : ℂ) * ld.sum).re ≤ 1e6)
    (tm : 1e-6 ≤ (1 / (beta : ℂ) * lm.sum).re) (tm2 : (1 / (beta : ℂ) * lm.sum).re ≤ 1e6) (hnq : (nq : ℝ) ≤ 1e12) :
    ∃ (r : Corrected) (d' m' : Fin nq → Fin (2 * nb + 1) → ℂ),
      lambdaCorrection (rowsC dens) (rowsC magn) beta ld lm "spch" = .ok r ∧ r.dens = rowsC d' ∧ r.magn = rowsC m' ∧
      (∀ q w, 0 < (d' q w).re ∧ 0 < (m' q w).re) ∧ (∀ q, (d' q (static nb)).im = 0 ∧ (m' q (static nb)).im = 0) ∧
      (totalC beta d').im = 0 ∧ (totalC beta m').im = 0 ∧
      0 ≤ (totalC beta d').re - (1 / (beta : ℂ) * ld.sum).re ∧ (totalC beta d').re - (1 / (beta : ℂ) * ld.sum).re < 1e-7 ∧
      0 ≤ (totalC beta m').re - (1 / (beta : ℂ) * lm.sum).re ∧ (totalC beta m').re - (1 / (beta : ℂ) * lm.sum).re < 1e-7 := by
  obtain ⟨sd, hsd, -⟩ := startC_spec dens hq
  obtain ⟨sm, hsm, -⟩ := startC_spec magn hq
  obtain ⟨p1, p2, p3, p4, p5⟩ := hd.default_single hq hb hb2 hbn hnw hnq _ td td2 sd hsd
  obtain ⟨q1, q2, q3, q4, q5⟩ := hm.default_single hq hb hb2 hbn hnw hnq _ tm tm2 sm hsm
  refine ⟨⟨useLambda (rowsC dens) _, useLambda (rowsC magn) _, (single beta sd (rowsC dens) (1 / (beta : ℂ) * ld.sum)).lam,
    (single beta sm (rowsC magn) (1 / (beta : ℂ) * lm.sum)).lam⟩, _, _, ?_, useLambda_rowsC dens _, useLambda_rowsC magn _,
    fun q w => ⟨p1 q w, q1 q w⟩, fun q => ⟨p2 q, q2 q⟩, p3, q3, p4, p5, q4, q5⟩
  simp [lambdaCorrection, hsd, hsm]

/-- End to end, mode 'sp' with the parameters of the code: the density channel is returned unchanged, the magnetic one has positive real
    part and is real at the static frequency, and the total sum rule holds to within `1e-7` (never below). -/
theorem sp_sum_rule_complex {dens magn : Fin nq → Fin (2 * nb + 1) → ℂ} (hm : Sectorial magn)
    (hq : 0 < nq) {beta : ℝ} (hb : 1e-6 ≤ beta) (hb2 : beta ≤ 1e6) (hbn : beta * nq ≤ 5e7) (hnw : ((2 * nb + 1 : ℕ) : ℝ) ≤ 1e12)
    (hnq : (nq : ℝ) ≤ 1e12) (ld lm : List ℂ) (hlen : lm.length = ld.length)
    (t : 1e-6 ≤ (1 / (beta : ℂ) * (lm.sum + ld.sum)).re - (totalC beta dens).re)
    (t2 : (1 / (beta : ℂ) * (lm.sum + ld.sum)).re - (totalC beta dens).re ≤ 1e6) :
    ∃ (r : Corrected) (m' : Fin nq → Fin (2 * nb + 1) → ℂ),
      lambdaCorrection (rowsC dens) (rowsC magn) beta ld lm "sp" = .ok r ∧ r.dens = rowsC dens ∧ r.magn = rowsC m' ∧
      (∀ q w, 0 < (m' q w).re) ∧ (∀ q, (m' q (static nb)).im = 0) ∧ (totalC beta m').im = 0 ∧
      0 ≤ (totalC beta dens).re + (totalC beta m').re - (1 / (beta : ℂ) * (lm.sum + ld.sum)).re ∧
      (totalC beta dens).re + (totalC beta m').re - (1 / (beta : ℂ) * (lm.sum + ld.sum)).re < 1e-7 := by
  obtain ⟨sm, hsm, -⟩ := startC_spec magn hq
  have hok : ∃ r, lambdaCorrection (rowsC dens) (rowsC magn) beta ld lm "sp" = .ok r := by
    simp [lambdaCorrection, hsm]
  obtain ⟨r, hr⟩ := hok
  obtain ⟨s, T, hs, hlam, hT⟩ := sp_target _ _ _ _ _ hlen r hr
  obtain ⟨e1, -, e3⟩ := sp_only_magn _ _ _ _ _ r hr
  have htot : chirSum beta (rowsC dens) 0 = totalC beta dens := by
    rw [chirSum_rowsC]; simp [totalC, shifted]
  have hTre : T.re = (1 / (beta : ℂ) * (lm.sum + ld.sum)).re - (totalC beta dens).re := by
    rw [← hT, htot, Complex.add_re]; ring
  obtain ⟨p1, p2, p3, p4, p5⟩ := hm.default_single hq hb hb2 hbn hnw hnq T (by rw [hTre]; exact t)
    (by rw [hTre]; exact t2) s hs
  rw [hTre] at p4 p5
  refine ⟨r, _, hr, e1, ?_, p1, p2, p3, ?_, ?_⟩
  · rw [e3, hlam, useLambda_rowsC]
  · linarith
  · linarith

/-- A real positive susceptibility with static maximum that is even in the frequency (the inputs of C33, C119) meets the requirements. -/
theorem Physical.sectorial {chi : Fin nq → Fin (2 * nb + 1) → ℝ} {hw : 0 < 2 * nb + 1} (h : Physical chi hw)
    (heven : ∀ q w, chi q w.rev = chi q w) : Sectorial fun q w => (chi q w : ℂ) := by
  refine ⟨fun q w => by exact_mod_cast (h.pos q w).ne', fun q w => by rw [heven, Complex.conj_ofReal], fun q w => ?_⟩
  obtain ⟨q', hq'⟩ := h.static_max q w
  have e : (⟨(2 * nb + 1) / 2, by omega⟩ : Fin (2 * nb + 1)) = static nb := by apply Fin.ext; simp only [static]; omega
  rw [e] at hq'
  refine ⟨q', ?_⟩
  rw [← Complex.ofReal_one, ← Complex.ofReal_div, ← Complex.ofReal_div, Complex.ofReal_im, Complex.ofReal_re, Complex.ofReal_re, abs_zero,
    mul_zero, sub_nonneg]
  exact one_div_le_one_div_of_le (h.pos q w) hq'

/-- A susceptibility past its instability: negative at the static frequency of the first momentum, complex at the other frequencies. -/
theorem unstable_example : Sectorial fun (q : Fin 2) (w : Fin (2 * 1 + 1)) =>
    (if w = 1 then (if q = 0 then -1 else 2) else if w = 0 then 1 / (4 + Complex.I) else 1 / (4 - Complex.I) : ℂ) := by
  have h3 : √3 ≤ 2 := by rw [Real.sqrt_le_left (by norm_num)]; norm_num
  have hI : (4 + Complex.I : ℂ) ≠ 0 := fun h => by have := congrArg Complex.re h; simp at this
  have hI' : (4 - Complex.I : ℂ) ≠ 0 := fun h => by have := congrArg Complex.re h; simp at this
  refine ⟨?_, ?_, ?_⟩
  · intro q w
    fin_cases w <;> fin_cases q <;> simp [hI, hI']
  · intro q w
    fin_cases w <;> fin_cases q <;> simp [Fin.rev, Complex.ext_iff]
  · intro q w
    refine ⟨0, ?_⟩
    fin_cases w <;> fin_cases q <;> simp [static] <;> linarith

/-- … and the hypotheses of `Sectorial.default_single` are met by it at `beta = 10` with target 0.3. -/
example : ∃ s, getLambdaStart (rowsC fun (q : Fin 2) (w : Fin (2 * 1 + 1)) =>
      (if w = 1 then (if q = 0 then -1 else 2) else if w = 0 then 1 / (4 + Complex.I) else 1 / (4 - Complex.I) : ℂ)) = some s ∧
    (single 10 s (rowsC fun (q : Fin 2) (w : Fin (2 * 1 + 1)) =>
      (if w = 1 then (if q = 0 then -1 else 2) else if w = 0 then 1 / (4 + Complex.I) else 1 / (4 - Complex.I) : ℂ))
      ((3 / 10 : ℝ) : ℂ)).converged = true := by
  obtain ⟨s, h, _⟩ := startC_spec (nb := 1) (fun (q : Fin 2) (w : Fin (2 * 1 + 1)) =>
      (if w = 1 then (if q = 0 then -1 else 2) else if w = 0 then 1 / (4 + Complex.I) else 1 / (4 - Complex.I) : ℂ)) (by decide)
  refine ⟨s, h, unstable_example.default_converges (by decide) h _ (by norm_num) (by norm_num) ?_ ?_ (by norm_num) (by norm_num)⟩ <;>
    rw [Complex.ofReal_re] <;> norm_num

end Search

end DGA.Lam
