import Verif.Lambda.Lemmas
import Mathlib.Algebra.BigOperators.Fin

/-
  C31 – C33: the lambda correction.

  Specification vocabulary: a real susceptibility `chi q w` on `nq` momenta and `nw` bosonic frequencies;
  `rows chi` is the array the code receives; the static frequency is number `nw / 2`;
  `sumRule beta chi lam` is (1/beta) * mean_q sum_w 1/(1/chi + lam), the left-hand side of the sum rule.
-/

open scoped BigOperators

namespace DGA.Lam

noncomputable section

/-- The complex array `[q][w]` holding a real susceptibility. -/
def rows {nq nw : Nat} (chi : Fin nq → Fin nw → ℝ) : List (List ℂ) :=
  List.ofFn fun q => List.ofFn fun w => (chi q w : ℂ)

/-- Left-hand side of the sum rule. -/
def sumRule (beta : ℝ) {nq nw : Nat} (chi : Fin nq → Fin nw → ℝ) (lam : ℝ) : ℝ :=
  1 / beta * ((∑ q, ∑ w, 1 / (1 / chi q w + lam)) / nq)

/-- Slope of the sum rule in lambda. -/
def slope (beta : ℝ) {nq nw : Nat} (chi : Fin nq → Fin nw → ℝ) (lam : ℝ) : ℝ :=
  -1 / beta * ((∑ q, ∑ w, (1 / (1 / chi q w + lam)) ^ 2) / nq)

end

/-! ### C31: dispatch -/

/-- 'none': both susceptibilities unchanged, lambdas 0. -/
theorem none_unchanged (dens magn : List (List ℂ)) (beta : ℝ) (ld lm : List ℂ) :
    lambdaCorrection dens magn beta ld lm "none" = .ok ⟨dens, magn, 0, 0⟩ := by
  simp [lambdaCorrection]

/-- 'sp': the density susceptibility is unchanged with lambda 0; the magnetic one is shifted by the reported lambda. -/
theorem sp_only_magn (dens magn : List (List ℂ)) (beta : ℝ) (ld lm : List ℂ) (r : Corrected)
    (h : lambdaCorrection dens magn beta ld lm "sp" = .ok r) :
    r.dens = dens ∧ r.lamDens = 0 ∧ r.magn = useLambda magn r.lamMagn := by
  simp only [lambdaCorrection] at h
  cases hm : getLambdaStart magn with
  | none => simp [hm] at h
  | some sm => simp [hm] at h; subst h; simp

/-- 'spch': both susceptibilities are shifted by the reported lambdas. -/
theorem spch_both (dens magn : List (List ℂ)) (beta : ℝ) (ld lm : List ℂ) (r : Corrected)
    (h : lambdaCorrection dens magn beta ld lm "spch" = .ok r) :
    r.dens = useLambda dens r.lamDens ∧ r.magn = useLambda magn r.lamMagn := by
  simp only [lambdaCorrection] at h
  cases hd : getLambdaStart dens with
  | none => simp [hd] at h
  | some sd =>
    cases hm : getLambdaStart magn with
    | none => simp [hd, hm] at h
    | some sm => simp [hd, hm] at h; subst h; simp

/-- Any other string raises; the three known ones never raise `NotImplementedError`. -/
theorem unknown_mode_raises (dens magn : List (List ℂ)) (beta : ℝ) (ld lm : List ℂ) (mode : String) :
    lambdaCorrection dens magn beta ld lm mode = .error "NotImplementedError" ↔
      mode ∉ ["spch", "sp", "none"] := by
  constructor
  · intro h hm
    simp only [List.mem_cons, List.not_mem_nil, or_false] at hm
    rcases hm with rfl | rfl | rfl
    · simp only [lambdaCorrection] at h
      cases hd : getLambdaStart dens <;> cases hm : getLambdaStart magn <;> simp [hd, hm] at h
    · simp only [lambdaCorrection] at h
      cases hm : getLambdaStart magn <;> simp [hm] at h
    · simp [lambdaCorrection] at h
  · intro h
    simp only [List.mem_cons, List.not_mem_nil, or_false, not_or] at h
    simp [lambdaCorrection, h.1, h.2.1, h.2.2]

/-- 'sp': the magnetic lambda is searched with the target for which the total spin + charge sum rule holds:
    target + (1/beta) mean_q sum_w chi_dens = (1/beta) (sum chi_loc_magn + sum chi_loc_dens). -/
theorem sp_target (dens magn : List (List ℂ)) (beta : ℝ) (ld lm : List ℂ) (hlen : lm.length = ld.length)
    (r : Corrected) (h : lambdaCorrection dens magn beta ld lm "sp" = .ok r) :
    ∃ s T, getLambdaStart magn = some s ∧ r.lamMagn = (single beta s magn T).lam ∧
      T + chirSum beta dens 0 = 1 / (beta : ℂ) * (lm.sum + ld.sum) := by
  simp only [lambdaCorrection] at h
  have hsum : ∀ a b : List ℂ, a.length = b.length → (List.zipWith (· + ·) a b).sum = a.sum + b.sum := by
    intro a
    induction a with
    | nil => intro b hb; cases b with
      | nil => simp
      | cons _ _ => simp at hb
    | cons x a ih => intro b hb; cases b with
      | nil => simp at hb
      | cons y b =>
        simp only [List.zipWith_cons_cons, List.sum_cons]
        rw [ih b (by simpa using hb)]; ring
  have h0 : chirSum beta dens 0 = 1 / (beta : ℂ) * mean (dens.map List.sum) := by
    simp [chirSum]
  cases hm : getLambdaStart magn with
  | none => simp [hm] at h
  | some sm =>
    simp [hm] at h; subst h
    refine ⟨sm, 1 / (beta : ℂ) * (List.zipWith (· + ·) lm ld).sum - 1 / (beta : ℂ) * mean (dens.map List.sum),
      rfl, by simp, ?_⟩
    rw [h0, hsum lm ld hlen]; ring

/-- 'spch': each lambda is searched against the local sum of its own channel. -/
theorem spch_targets (dens magn : List (List ℂ)) (beta : ℝ) (ld lm : List ℂ)
    (r : Corrected) (h : lambdaCorrection dens magn beta ld lm "spch" = .ok r) :
    ∃ sd sm, getLambdaStart dens = some sd ∧ getLambdaStart magn = some sm ∧
      r.lamDens = (single beta sd dens (1 / (beta : ℂ) * ld.sum)).lam ∧
      r.lamMagn = (single beta sm magn (1 / (beta : ℂ) * lm.sum)).lam := by
  simp only [lambdaCorrection] at h
  cases hd : getLambdaStart dens with
  | none => simp [hd] at h
  | some sd =>
    cases hm : getLambdaStart magn with
    | none => simp [hd, hm] at h
    | some sm => simp [hd, hm] at h; subst h; exact ⟨sd, sm, rfl, rfl, by simp, by simp⟩

/-! ### C32: the lambda shift -/

/-- Entry `(q, w)` of the shifted array. -/
theorem useLambda_rows {nq nw : Nat} (chi : Fin nq → Fin nw → ℝ) (lam : ℝ) :
    useLambda (rows chi) lam = rows fun q w => 1 / (1 / chi q w + lam) := by
  simp only [useLambda, rows, List.map_ofFn]
  congr 1; funext q
  simp only [Function.comp, List.map_ofFn]
  congr 1; funext w
  simp [useLambda1]

/-- Lambda 0 leaves the susceptibility unchanged. -/
theorem useLambda_zero (chi : List (List ℂ)) : useLambda chi 0 = chi := by
  simp only [useLambda]
  conv_rhs => rw [← List.map_id chi]
  apply List.map_congr_left
  intro row _
  conv_rhs => rw [id, ← List.map_id row]
  apply List.map_congr_left
  intro x _
  simp [useLambda1]

/-- Shifts compose additively (numpy agrees as long as no entry and no `1/chi + a` vanishes). -/
theorem useLambda_add (chi : List (List ℂ)) (a b : ℝ) :
    useLambda (useLambda chi a) b = useLambda chi (a + b) := by
  simp only [useLambda, List.map_map]
  apply List.map_congr_left
  intro row _
  simp only [Function.comp, List.map_map]
  apply List.map_congr_left
  intro x _
  simp only [Function.comp, useLambda1, one_div_one_div, Complex.ofReal_add, add_assoc]

/-- A shift can be undone. -/
theorem useLambda_undo (chi : List (List ℂ)) (a : ℝ) : useLambda (useLambda chi a) (-a) = chi := by
  rw [useLambda_add, add_neg_cancel, useLambda_zero]

theorem mapM_some {α β : Type _} (f : α → Option β) (g : α → β) : ∀ l : List α, (∀ x ∈ l, f x = some (g x)) →
    l.mapM f = some (l.map g)
  | [], _ => by simp
  | x :: l, h => by
    rw [List.mapM_cons, h x (by simp), mapM_some f g l (fun y hy => h y (by simp [hy]))]
    simp

/-- `get_lambda_start` returns minus the smallest inverse static susceptibility. -/
theorem getLambdaStart_spec {nq nw : Nat} (chi : Fin nq → Fin nw → ℝ) (hq : 0 < nq) (hw : 0 < nw) :
    ∃ s, getLambdaStart (rows chi) = some s ∧
      (∀ q, -s ≤ 1 / chi q ⟨nw / 2, by omega⟩) ∧ ∃ q, -s = 1 / chi q ⟨nw / 2, by omega⟩ := by
  have hld : lastDim (rows chi) = nw := by
    obtain ⟨n, rfl⟩ : ∃ n, nq = n + 1 := ⟨nq - 1, by omega⟩
    simp [lastDim, rows]
  have hcol : ((rows chi).mapM fun row => (row[lastDim (rows chi) / 2]?).map fun x => 1 / x.re) =
      some (List.ofFn fun q => 1 / chi q ⟨nw / 2, by omega⟩) := by
    have := mapM_some (fun row : List ℂ => (row[lastDim (rows chi) / 2]?).map fun x => 1 / x.re)
      (fun row => 1 / (row[nw / 2]?.getD 0).re) (rows chi) (by
        intro row hrow
        obtain ⟨q, rfl⟩ := (List.mem_ofFn' _ _).mp hrow
        have : nw / 2 < nw := by omega
        simp [hld, this])
    rw [this]
    have h2 : nw / 2 < nw := by omega
    simp only [rows, List.map_ofFn]
    congr 1; congr 1; funext q
    simp [h2]
  have hne : (List.ofFn fun q => 1 / chi q ⟨nw / 2, by omega⟩) ≠ [] := by
    intro h
    have := congrArg List.length h
    simp at this; omega
  obtain ⟨m, hm⟩ : ∃ m, (List.ofFn fun q => 1 / chi q ⟨nw / 2, by omega⟩).min? = some m := by
    cases h : (List.ofFn fun q => 1 / chi q ⟨nw / 2, by omega⟩).min? with
    | none => rw [List.min?_eq_none_iff] at h; exact absurd h hne
    | some m => exact ⟨m, rfl⟩
  have hmem := List.min?_mem hm
  have hle := (List.min?_eq_some_iff.mp hm).2
  refine ⟨-m, ?_, ?_, ?_⟩
  · simp only [getLambdaStart, hcol, Option.bind_some, hm, Option.map_some]
  · intro q
    rw [neg_neg]
    exact hle _ ((List.mem_ofFn' _ _).mpr ⟨q, rfl⟩)
  · obtain ⟨q, hq⟩ := (List.mem_ofFn' _ _).mp hmem
    exact ⟨q, by rw [neg_neg]; exact hq.symm⟩

/-- Every static value stays positive exactly for lambda above the start value: the start value is the pole.
    (`1/chi + lam = 0`, where the code divides by zero, is not positive in either reading.) -/
theorem positive_iff_above_start {nq nw : Nat} (chi : Fin nq → Fin nw → ℝ) (hq : 0 < nq) (hw : 0 < nw) (s lam : ℝ)
    (hs : getLambdaStart (rows chi) = some s) :
    (∀ q, 0 < 1 / (1 / chi q ⟨nw / 2, by omega⟩ + lam)) ↔ s < lam := by
  obtain ⟨s', h1, h2, q, h3⟩ := getLambdaStart_spec chi hq hw
  rw [h1] at hs; cases hs
  constructor
  · intro h
    have := one_div_pos.mp (h q)
    linarith
  · intro h q
    apply one_div_pos.mpr
    have := h2 q
    linarith

/-- Above the pole the shifted static susceptibility strictly decreases with lambda. -/
theorem strictly_decreasing {nq nw : Nat} (chi : Fin nq → Fin nw → ℝ) (hq : 0 < nq) (hw : 0 < nw) (s a b : ℝ)
    (hs : getLambdaStart (rows chi) = some s) (ha : s < a) (hab : a < b) (q : Fin nq) :
    1 / (1 / chi q ⟨nw / 2, by omega⟩ + b) < 1 / (1 / chi q ⟨nw / 2, by omega⟩ + a) := by
  have := one_div_pos.mp ((positive_iff_above_start chi hq hw s a hs).mpr ha q)
  exact one_div_lt_one_div_of_lt this (by linarith)

example : getLambdaStart (rows (fun (_ : Fin 2) (_ : Fin 3) => (2 : ℝ))) ≠ none := by
  obtain ⟨s, h, _⟩ := getLambdaStart_spec (fun (_ : Fin 2) (_ : Fin 3) => (2 : ℝ)) (by decide) (by decide)
  simp [h]

/-! ### C33: the search -/

section Search

variable {nq nw : Nat} (chi : Fin nq → Fin nw → ℝ)

theorem chirSum_rows (beta lam : ℝ) : chirSum beta (rows chi) lam = (sumRule beta chi lam : ℂ) := by
  simp only [chirSum, sumRule, mean, rows, List.map_ofFn, List.length_ofFn, List.sum_ofFn, Function.comp_def]
  push_cast
  rfl

theorem fpLam_rows (beta lam : ℝ) : fpLam beta (rows chi) lam = (slope beta chi lam : ℂ) := by
  simp only [fpLam, slope, mean, rows, List.map_ofFn, List.length_ofFn, List.sum_ofFn, Function.comp_def]
  push_cast
  rfl

/-- Positive real susceptibility whose maximum is static: the physical input of the correction. -/
structure Physical (hw : 0 < nw) : Prop where
  pos : ∀ q w, 0 < chi q w
  static_max : ∀ q w, ∃ q', chi q w ≤ chi q' ⟨nw / 2, by omega⟩

variable {chi}

theorem denom_pos {hw : 0 < nw} (hp : Physical chi hw) (hq : 0 < nq) {s : ℝ} (hs : getLambdaStart (rows chi) = some s)
    {l : ℝ} (hl : s < l) (q : Fin nq) (w : Fin nw) : l - s ≤ 1 / chi q w + l ∧ 0 < 1 / chi q w + l := by
  obtain ⟨s', h1, h2, _⟩ := getLambdaStart_spec chi hq hw
  rw [h1] at hs; cases hs
  obtain ⟨q', hq'⟩ := hp.static_max q w
  have h3 : 1 / chi q' ⟨nw / 2, by omega⟩ ≤ 1 / chi q w := one_div_le_one_div_of_le (hp.pos q w) hq'
  have := h2 q'
  constructor <;> linarith

theorem tangent_line {x y : ℝ} (hx : 0 < x) (hy : 0 < y) : 1 / x - (1 / x) ^ 2 * (y - x) ≤ 1 / y := by
  have h : 1 / y - (1 / x - (1 / x) ^ 2 * (y - x)) = (x - y) ^ 2 / (x ^ 2 * y) := by field_simp; ring
  have : 0 ≤ (x - y) ^ 2 / (x ^ 2 * y) := by positivity
  linarith

theorem branch {hw : 0 < nw} (hp : Physical chi hw) (hq : 0 < nq) {s beta : ℝ} (hb : 0 < beta)
    (hs : getLambdaStart (rows chi) = some s) (target : ℂ) :
    Branch (fun lam => chirSum beta (rows chi) lam - target) (fpLam beta (rows chi)) s
      (fun lam => sumRule beta chi lam - target.re) (slope beta chi) := by
  have hqr : (0 : ℝ) < nq := by exact_mod_cast hq
  have dp := fun {l} (hl : s < l) q w => (denom_pos hp hq hs hl q w).2
  have hneF : (Finset.univ : Finset (Fin nq)).Nonempty := ⟨⟨0, hq⟩, Finset.mem_univ _⟩
  have hneW : (Finset.univ : Finset (Fin nw)).Nonempty := ⟨⟨0, hw⟩, Finset.mem_univ _⟩
  refine ⟨?_, ?_, ?_, ?_, ?_, ?_⟩
  · intro l _; simp [chirSum_rows]
  · intro l _
    rw [chirSum_rows, fpLam_rows, Complex.div_ofReal_re]
    simp
  · intro l hl
    simp only [slope]
    rw [neg_div, neg_mul, neg_lt_zero]
    apply mul_pos (by positivity)
    apply div_pos _ hqr
    apply Finset.sum_pos (fun q _ => Finset.sum_pos (fun w _ => ?_) hneW) hneF
    have := dp hl q w
    positivity
  · intro l m hl hm
    have hsum : (∑ q, ∑ w, (1 / (1 / chi q w + l) - (1 / (1 / chi q w + l)) ^ 2 * (m - l))) ≤
        ∑ q, ∑ w, 1 / (1 / chi q w + m) := by
      apply Finset.sum_le_sum; intro q _; apply Finset.sum_le_sum; intro w _
      have := tangent_line (dp hl q w) (dp hm q w)
      have e : 1 / chi q w + m - (1 / chi q w + l) = m - l := by ring
      rw [e] at this; exact this
    simp only [Finset.sum_sub_distrib, ← Finset.sum_mul] at hsum
    simp only [sumRule, slope]
    have hc : (0 : ℝ) ≤ 1 / beta * (1 / nq) := by positivity
    have := mul_le_mul_of_nonneg_left hsum hc
    have e1 : 1 / beta * (1 / (nq : ℝ)) * (∑ q, ∑ w, 1 / (1 / chi q w + l) -
        (∑ q, ∑ w, (1 / (1 / chi q w + l)) ^ 2) * (m - l)) =
        1 / beta * ((∑ q, ∑ w, 1 / (1 / chi q w + l)) / nq) +
        -1 / beta * ((∑ q, ∑ w, (1 / (1 / chi q w + l)) ^ 2) / nq) * (m - l) := by ring
    have e2 : 1 / beta * (1 / (nq : ℝ)) * (∑ q, ∑ w, 1 / (1 / chi q w + m)) =
        1 / beta * ((∑ q, ∑ w, 1 / (1 / chi q w + m)) / nq) := by ring
    rw [e1, e2] at this
    linarith
  · intro l m hl hm
    have hsum : ∑ q, ∑ w, (1 / (1 / chi q w + m)) ^ 2 ≤ ∑ q, ∑ w, (1 / (1 / chi q w + l)) ^ 2 := by
      apply Finset.sum_le_sum; intro q _; apply Finset.sum_le_sum; intro w _
      have h1 := dp hl q w
      have h2 : 1 / (1 / chi q w + m) ≤ 1 / (1 / chi q w + l) := one_div_le_one_div_of_le h1 (by linarith)
      have h3 : 0 < 1 / (1 / chi q w + m) := one_div_pos.mpr (by linarith)
      exact pow_le_pow_left₀ h3.le h2 2
    simp only [slope]
    have : (∑ q, ∑ w, (1 / (1 / chi q w + m)) ^ 2) / (nq : ℝ) ≤ (∑ q, ∑ w, (1 / (1 / chi q w + l)) ^ 2) / (nq : ℝ) :=
      div_le_div_of_nonneg_right hsum hqr.le
    have hbn : -1 / beta ≤ 0 := by rw [neg_div]; have : 0 < 1 / beta := by positivity
                                   linarith
    exact mul_le_mul_of_nonpos_left this hbn
  · intro l m hl hm
    have hsum : ∑ q, ∑ w, 1 / (1 / chi q w + m) < ∑ q, ∑ w, 1 / (1 / chi q w + l) := by
      apply Finset.sum_lt_sum_of_nonempty hneF; intro q _
      apply Finset.sum_lt_sum_of_nonempty hneW; intro w _
      exact one_div_lt_one_div_of_lt (dp hl q w) (by linarith)
    simp only [sumRule]
    have : (∑ q, ∑ w, 1 / (1 / chi q w + m)) / (nq : ℝ) < (∑ q, ∑ w, 1 / (1 / chi q w + l)) / (nq : ℝ) :=
      div_lt_div_of_pos_right hsum hqr
    have := mul_lt_mul_of_pos_left this (by positivity : 0 < 1 / beta)
    linarith

/-- On the physical branch the sum rule has at most one solution; it has one iff the target is positive. -/
theorem sum_rule_root {hw : 0 < nw} (hp : Physical chi hw) (hq : 0 < nq) {s beta : ℝ} (hb : 0 < beta)
    (hs : getLambdaStart (rows chi) = some s) (target : ℝ) :
    (∀ a b, s < a → s < b → sumRule beta chi a = target → sumRule beta chi b = target → a = b) ∧
    ((∃ r, s < r ∧ sumRule beta chi r = target) ↔ 0 < target) := by
  have hqr : (0 : ℝ) < nq := by exact_mod_cast hq
  have hbr := branch hp hq hb hs (target : ℂ)
  have dp := fun {l} (hl : s < l) q w => (denom_pos hp hq hs hl q w)
  have hneF : (Finset.univ : Finset (Fin nq)).Nonempty := ⟨⟨0, hq⟩, Finset.mem_univ _⟩
  have hneW : (Finset.univ : Finset (Fin nw)).Nonempty := ⟨⟨0, hw⟩, Finset.mem_univ _⟩
  refine ⟨?_, ?_, ?_⟩
  · intro a b ha hb' h1 h2
    rcases lt_trichotomy a b with h | h | h
    · have := hbr.anti a b ha h; linarith
    · exact h
    · have := hbr.anti b a hb' h; linarith
  · rintro ⟨r, hr, rfl⟩
    simp only [sumRule]
    apply mul_pos (by positivity)
    apply div_pos _ hqr
    exact Finset.sum_pos (fun q _ => Finset.sum_pos (fun w _ => one_div_pos.mpr (dp hr q w).2) hneW) hneF
  · intro ht
    set c : ℝ := 1 / beta * (1 / nq) with hc
    have hcp : 0 < c := by positivity
    have hS : ∀ l, sumRule beta chi l = c * ∑ q, ∑ w, 1 / (1 / chi q w + l) := by
      intro l; simp only [sumRule, hc]; ring
    have hN : (1 : ℝ) ≤ nq * nw := by
      have : 1 ≤ nq * nw := Nat.mul_pos hq hw
      exact_mod_cast this
    have h1 : s < s + c / target := by have := div_pos hcp ht; linarith
    have h2 : s + c / target ≤ s + c * (nq * nw) / target := by
      have : c / target ≤ c * (nq * nw) / target := div_le_div_of_nonneg_right (by nlinarith) ht.le
      linarith
    -- lower end: the pole term alone exceeds the target
    have hlo : target ≤ sumRule beta chi (s + c / target) := by
      obtain ⟨s', e1, _, q0, e2⟩ := getLambdaStart_spec chi hq hw
      rw [e1] at hs; cases hs
      rw [hS]
      have hterm : 1 / (1 / chi q0 ⟨nw / 2, by omega⟩ + (s + c / target)) = target / c := by
        rw [← e2, neg_add_cancel_left, one_div_div]
      have : target / c ≤ ∑ q, ∑ w, 1 / (1 / chi q w + (s + c / target)) := by
        rw [← hterm]
        refine le_trans ?_ (Finset.single_le_sum (f := fun q => ∑ w, 1 / (1 / chi q w + (s + c / target)))
          (fun q _ => Finset.sum_nonneg fun w _ => (one_div_pos.mpr (dp h1 q w).2).le) (Finset.mem_univ q0))
        exact Finset.single_le_sum (f := fun w => 1 / (1 / chi q0 w + (s + c / target)))
          (fun w _ => (one_div_pos.mpr (dp h1 q0 w).2).le) (Finset.mem_univ _)
      calc target = c * (target / c) := by field_simp
        _ ≤ _ := mul_le_mul_of_nonneg_left this hcp.le
    have hhi : sumRule beta chi (s + c * (nq * nw) / target) ≤ target := by
      rw [hS]
      have h3 : s < s + c * (nq * nw) / target := by linarith
      have hpos : 0 < c * (nq * nw) / target := by linarith
      have : ∑ q, ∑ w, 1 / (1 / chi q w + (s + c * (nq * nw) / target)) ≤
          ∑ _q : Fin nq, ∑ _w : Fin nw, 1 / (c * (nq * nw) / target) := by
        apply Finset.sum_le_sum; intro q _; apply Finset.sum_le_sum; intro w _
        apply one_div_le_one_div_of_le hpos
        have := (dp h3 q w).1; linarith
      simp only [Finset.sum_const, Finset.card_univ, Fintype.card_fin, nsmul_eq_mul] at this
      have hnw : (0 : ℝ) < nw := by exact_mod_cast hw
      calc c * _ ≤ c * (nq * (nw * (1 / (c * (nq * nw) / target)))) := mul_le_mul_of_nonneg_left this hcp.le
        _ = target := by field_simp
    have hcont : ContinuousOn (sumRule beta chi) (Set.Icc (s + c / target) (s + c * (nq * nw) / target)) := by
      have : sumRule beta chi = fun l => c * ∑ q, ∑ w, 1 / (1 / chi q w + l) := funext hS
      rw [this]
      apply ContinuousOn.mul continuousOn_const
      apply continuousOn_finsetSum; intro q _
      apply continuousOn_finsetSum; intro w _
      apply ContinuousOn.div continuousOn_const (continuousOn_const.add continuousOn_id)
      intro l hl
      exact (dp (lt_of_lt_of_le h1 hl.1) q w).2.ne'
    obtain ⟨r, hr, hr2⟩ := intermediate_value_Icc' h2 hcont ⟨hhi, hlo⟩
    exact ⟨r, lt_of_lt_of_le h1 hr.1, hr2⟩

/-- Safety: whatever the susceptibility and the target, every lambda at which the sum rule is evaluated lies above the
    start value; so does the returned one when the iteration limit was hit; there are at most `maxiter` evaluations. -/
theorem search_above_pole (beta s : ℝ) (chiL : List (List ℂ)) (target : ℂ) (maxiter : Nat) (eps delta : ℝ)
    (hd : 0 < delta) :
    (single beta s chiL target maxiter eps delta).evals.length ≤ maxiter ∧
    (∀ e ∈ (single beta s chiL target maxiter eps delta).evals, s < e) ∧
    ((single beta s chiL target maxiter eps delta).converged = false →
      s < (single beta s chiL target maxiter eps delta).lam ∧
      (single beta s chiL target maxiter eps delta).evals.length = maxiter) :=
  loop_evals _ _ s eps maxiter (s + delta) delta (by linarith) hd

/-- If the loop stopped by convergence, the last evaluated lambda fulfils the sum rule to `eps`, and the returned value
    is one further Newton step. -/
theorem converged_sum_rule (beta s : ℝ) (chiL : List (List ℂ)) (target : ℂ) (maxiter : Nat) (eps delta : ℝ)
    (hc : (single beta s chiL target maxiter eps delta).converged = true) :
    ∃ e, (single beta s chiL target maxiter eps delta).evals.getLast? = some e ∧
      |(chirSum beta chiL e - target).re| < eps ∧
      (single beta s chiL target maxiter eps delta).lam = e - ((chirSum beta chiL e - target) / fpLam beta chiL e).re :=
  loop_last _ _ s eps maxiter (s + delta) delta hc

/-- Liveness: for a physical susceptibility and a positive target the search converges, provided `maxiter` is large
    enough. -/
theorem search_converges {hw : 0 < nw} (hp : Physical chi hw) (hq : 0 < nq) {s beta : ℝ} (hb : 0 < beta)
    (hs : getLambdaStart (rows chi) = some s) (target : ℂ) (ht : 0 < target.re) (eps delta : ℝ) (he : 0 < eps)
    (hd : 0 < delta) :
    ∃ N, ∀ n, N ≤ n → (single beta s (rows chi) target n eps delta).converged = true := by
  obtain ⟨r, hr, hr2⟩ := (sum_rule_root hp hq hb hs target.re).2.mpr ht
  obtain ⟨k, hk⟩ := exists_nat_gt (delta / (r - s))
  apply loop_terminates (branch hp hq hb hs target) hr (by simp [hr2]) he k delta hd
  have h2 : (k : ℝ) ≤ 2 ^ k := by exact_mod_cast Nat.lt_two_pow_self.le
  rw [div_lt_iff₀ (by linarith)] at hk
  rw [div_le_iff₀ (by positivity)]
  nlinarith

/-- The returned lambda itself lies above the pole whenever `eps * beta * nq * delta ≤ 1` (the final Newton step, taken
    after the check, cannot jump over the pole), so the corrected static susceptibility is positive; with the default
    `eps = 1e-7`, `delta = 0.1` this is `beta * nq ≤ 1e8`. -/
theorem returned_above_pole {hw : 0 < nw} (hp : Physical chi hw) (hq : 0 < nq) {s beta : ℝ} (hb : 0 < beta)
    (hs : getLambdaStart (rows chi) = some s) (target : ℂ) (ht : 0 < target.re) (maxiter : Nat) (eps delta : ℝ)
    (he : 0 < eps) (hd : 0 < delta) (hsmall : eps * beta * nq * delta ≤ 1) :
    s < (single beta s (rows chi) target maxiter eps delta).lam := by
  have hqr : (0 : ℝ) < nq := by exact_mod_cast hq
  cases hconv : (single beta s (rows chi) target maxiter eps delta).converged with
  | false => exact ((search_above_pole beta s (rows chi) target maxiter eps delta hd).2.2 hconv).1
  | true =>
    have hbr := branch hp hq hb hs target
    obtain ⟨r, hr, hr2⟩ := (sum_rule_root hp hq hb hs target.re).2.mpr ht
    obtain ⟨e, h1, h2, h3⟩ := converged_sum_rule beta s (rows chi) target maxiter eps delta hconv
    have hmem := List.mem_of_getLast? h1
    have hse := (search_above_pole beta s (rows chi) target maxiter eps delta hd).2.1 e hmem
    have hre := hbr.re_f e hse
    rw [h3, hbr.re_q e hse]
    have hneg := hbr.neg e hse
    rw [hre] at h2
    have hpt := loop_points hbr hr (by simp [hr2]) delta maxiter (s + delta) delta (by linarith) hd le_rfl
      (Or.inl ⟨delta, hd, le_rfl, rfl⟩) e hmem
    rcases hpt with ⟨d, hd1, hd2, rfl⟩ | hle
    · -- restart point: |F| < eps and |G| ≥ 1/(beta nq d^2)
      obtain ⟨s', e1, _, q0, e2⟩ := getLambdaStart_spec chi hq hw
      have hs2 := hs
      rw [e1] at hs2; cases hs2
      have hG : 1 / (beta * nq * d ^ 2) ≤ -slope beta chi (s + d) := by
        have hterm : (1 / (1 / chi q0 ⟨nw / 2, by omega⟩ + (s + d))) ^ 2 = 1 / d ^ 2 := by
          rw [← e2]; ring_nf
        have : 1 / d ^ 2 ≤ ∑ q, ∑ w, (1 / (1 / chi q w + (s + d))) ^ 2 := by
          rw [← hterm]
          refine le_trans ?_ (Finset.single_le_sum (f := fun q => ∑ w, (1 / (1 / chi q w + (s + d))) ^ 2)
            (fun q _ => Finset.sum_nonneg fun w _ => sq_nonneg _) (Finset.mem_univ q0))
          exact Finset.single_le_sum (f := fun w => (1 / (1 / chi q0 w + (s + d))) ^ 2)
            (fun w _ => sq_nonneg _) (Finset.mem_univ _)
        have hc : (0 : ℝ) ≤ 1 / beta * (1 / nq) := by positivity
        have := mul_le_mul_of_nonneg_left this hc
        calc 1 / (beta * nq * d ^ 2) = 1 / beta * (1 / nq) * (1 / d ^ 2) := by field_simp
          _ ≤ _ := this
          _ = _ := by simp only [slope]; ring
      set Fv := sumRule beta chi (s + d) - target.re
      set Gv := slope beta chi (s + d)
      have hGp : 0 < -Gv := by linarith
      have hFa : Fv / Gv ≤ |Fv| / (-Gv) := by
        rw [← neg_div_neg_eq]
        exact div_le_div_of_nonneg_right (neg_le_abs Fv) hGp.le
      have hstep : |Fv| / (-Gv) < d := by
        rw [div_lt_iff₀ hGp]
        have h5 : eps ≤ d * (1 / (beta * nq * d ^ 2)) := by
          have : d * (1 / (beta * nq * d ^ 2)) = 1 / (beta * nq * d) := by field_simp
          rw [this, le_div_iff₀ (by positivity)]
          have : eps * (beta * nq * d) ≤ eps * (beta * nq * delta) := by gcongr
          linarith
        have h6 : d * (1 / (beta * nq * d ^ 2)) ≤ d * (-Gv) := mul_le_mul_of_nonneg_left hG hd1.le
        linarith
      linarith
    · have hF := F_nonneg_of_le hbr hse hle (by simp [hr2])
      have : (sumRule beta chi e - target.re) / slope beta chi e ≤ 0 := div_nonpos_of_nonneg_of_nonpos hF hneg.le
      linarith

end Search

/-! Concrete case meeting the hypotheses: two momenta, three frequencies, static maximum in the middle. -/
example : ∃ chi : Fin 2 → Fin 3 → ℝ, Physical chi (by decide) ∧ chi 0 1 ≠ chi 1 1 ∧ ∃ s, getLambdaStart (rows chi) = some s := by
  refine ⟨fun q w => if w = 1 then (if q = 0 then 3 else 2) else 1, ⟨?_, ?_⟩, by simp, ?_⟩
  · intro q w; split_ifs <;> norm_num
  · intro q w; refine ⟨0, ?_⟩
    have : (⟨3 / 2, by omega⟩ : Fin 3) = 1 := by decide
    simp only [this, if_true]
    split_ifs <;> norm_num
  · obtain ⟨s, h, _⟩ := getLambdaStart_spec
      (fun (q : Fin 2) (w : Fin 3) => if w = 1 then (if q = 0 then (3 : ℝ) else 2) else 1) (by decide) (by decide)
    exact ⟨s, h⟩

end DGA.Lam
