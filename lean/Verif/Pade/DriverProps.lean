/-
  C139  the averaged Padé continuation `pade`: what it continues, when it exits, what it returns, and that it is exact for
        rational Green's functions
-/
import Verif.Pade.Driver
import Mathlib.Algebra.Polynomial.Degree.Lemmas
import Mathlib.Algebra.Polynomial.Roots
import Mathlib.Analysis.Complex.Polynomial.Basic

namespace DGA.Pade.Driver
open Complex Polynomial

/-! ### specification -/

/-- the continuations to perform: start index, number of points, number of coefficients -/
def jobs : List (ℤ × ℕ × ℕ) :=
  ([-3, -2, -1] : List ℤ).flatMap fun nmin =>
    [50, 54, 58, 62, 66, 70, 74, 78, 82, 86, 90, 94, 98].flatMap fun M =>
      ([40, 44, 48, 52, 56, 60, 64, 68, 72, 76, 80].filter fun N => decide (N ≤ M)).map fun N => (nmin, M, N)

/-- the continuation of one job at all output points -/
noncomputable def cont (matrix : List ℂ → List ℂ → ℕ → List ℂ) (zin fin zout : List ℂ) (j : ℤ × ℕ × ℕ) : List ℂ :=
  let picked := pickPoints (starRingEnd ℂ) zin fin j.1 j.2.1
  zout.map fun w => epade w (matrix picked.1 picked.2 j.2.2)

/-- the least-squares solver returns an exact solution of the linear system if there is one -/
def SolvesExact (matrix : List ℂ → List ℂ → ℕ → List ℂ) : Prop :=
  ∀ zs fs r, (∃ x, isMatrixSolution zs fs r x) → isMatrixSolution zs fs r (matrix zs fs (2 * r))

/-- the denominator of the approximant with coefficients `x` at `w` -/
noncomputable def denom (w : ℂ) (x : List ℂ) : ℂ :=
  ((List.range (x.length / 2)).map fun i => x.getD (x.length / 2 + i) 0 * w ^ i).sum + w ^ (x.length / 2)

/-! ### the loop -/

theorem Ms_eq : Ms = [50, 54, 58, 62, 66, 70, 74, 78, 82, 86, 90, 94, 98] := by decide
theorem Ns_eq : Ns = [40, 44, 48, 52, 56, 60, 64, 68, 72, 76, 80] := by decide
theorem jobs_length : jobs.length = 321 := by decide +kernel

theorem foldlM_some {α β : Type} (l : List α) (g : β → α → Option β) (h : β → α → β) (hg : ∀ a ∈ l, ∀ s, g s a = some (h s a)) (s : β) :
    l.foldlM g s = some (l.foldl h s) := by
  induction l generalizing s with
  | nil => rfl
  | cons a l ih =>
    rw [List.foldlM_cons, hg a (by simp), Option.bind_eq_bind, Option.bind_some, ih (fun b hb => hg b (by simp [hb])), List.foldl_cons]

theorem mapM_some {α β : Type} (l : List α) (g : α → β) : (l.mapM fun a => (some (g a) : Option β)) = some (l.map g) := by
  induction l with
  | nil => rfl
  | cons a l ih => simp [List.mapM_cons, ih]

theorem acAll_even (matrix : List ℂ → List ℂ → ℕ → List ℂ) (opt : (ℕ → ℝ) → ℕ → ℝ) (z f : List ℂ) (N : ℕ) (hN : N % 2 = 0) (zout : List ℂ) :
    acAll matrix opt z f N zout = some (zout.map fun w => epade w (matrix z f N)) := by
  unfold acAll
  rw [show (fun w => acPade matrix opt z f N w 0) = fun w => some (epade w (matrix z f N)) by funext w; simp [acPade, hN], mapM_some]

/-- one accumulation step over a list of jobs -/
theorem foldl_acc {α : Type} (l : List α) (c : α → List (List ℂ)) (step : ℕ × List (List ℂ) → α → ℕ × List (List ℂ))
    (h : ∀ a ∈ l, ∀ st, step st a = (st.1 + (c a).length, st.2 ++ (c a).filter physical)) (st : ℕ × List (List ℂ)) :
    l.foldl step st = (st.1 + (l.flatMap c).length, st.2 ++ (l.flatMap c).filter physical) := by
  induction l generalizing st with
  | nil => simp
  | cons a l ih =>
    rw [List.foldl_cons, ih (fun b hb => h b (by simp [hb])), h a (by simp), List.flatMap_cons, List.length_append, List.filter_append,
      List.append_assoc, Nat.add_assoc]

theorem Ns_even : ∀ N ∈ Ns, N % 2 = 0 := by decide

/-- **C139.** A call performs exactly 321 continuations, one for each start index -3, -2, -1, each number of points 50, 54, …, 98 and each number
    of coefficients 40, 44, …, 80 not larger than the number of points, and keeps those with nowhere positive imaginary part, in this order. -/
theorem loop_value (matrix : List ℂ → List ℂ → ℕ → List ℂ) (opt : (ℕ → ℝ) → ℕ → ℝ) (zin fin zout : List ℂ) :
    padeLoop matrix opt zin fin zout = some (321, (jobs.map (cont matrix zin fin zout)).filter physical) := by
  unfold padeLoop
  have hin : ∀ (nmin : ℤ) (M : ℕ) (st : ℕ × List (List ℂ)),
      ((Ns.filter fun N => decide (N ≤ M)).foldlM (fun (st : ℕ × List (List ℂ)) N =>
        (acAll matrix opt (pickPoints (starRingEnd ℂ) zin fin nmin M).1 (pickPoints (starRingEnd ℂ) zin fin nmin M).2 N zout).map
          fun f => (st.1 + 1, if physical f then st.2 ++ [f] else st.2)) st)
      = some (st.1 + (((Ns.filter fun N => decide (N ≤ M)).flatMap fun N => [cont matrix zin fin zout (nmin, M, N)]).length),
          st.2 ++ ((Ns.filter fun N => decide (N ≤ M)).flatMap fun N => [cont matrix zin fin zout (nmin, M, N)]).filter physical) := by
    intro nmin M st
    rw [foldlM_some (h := fun st N => (st.1 + 1, if physical (cont matrix zin fin zout (nmin, M, N)) then st.2 ++ [cont matrix zin fin zout (nmin, M, N)] else st.2))]
    · rw [foldl_acc (c := fun N => [cont matrix zin fin zout (nmin, M, N)])]
      intro N _ st
      by_cases hp : physical (cont matrix zin fin zout (nmin, M, N)) = true <;> simp [hp]
    · intro N hN s
      rw [acAll_even _ _ _ _ _ (Ns_even N (List.mem_filter.1 hN).1)]
      rfl
  simp only [hin]
  rw [foldlM_some (h := fun st nmin => (st.1 + (Ms.flatMap fun M => (Ns.filter fun N => decide (N ≤ M)).flatMap fun N => [cont matrix zin fin zout (nmin, M, N)]).length,
      st.2 ++ (Ms.flatMap fun M => (Ns.filter fun N => decide (N ≤ M)).flatMap fun N => [cont matrix zin fin zout (nmin, M, N)]).filter physical))]
  · rw [foldl_acc (c := fun nmin => Ms.flatMap fun M => (Ns.filter fun N => decide (N ≤ M)).flatMap fun N => [cont matrix zin fin zout (nmin, M, N)]) (h := fun _ _ _ => rfl)]
    have hj : (nmins.flatMap fun nmin => Ms.flatMap fun M => (Ns.filter fun N => decide (N ≤ M)).flatMap fun N => [cont matrix zin fin zout (nmin, M, N)])
        = jobs.map (cont matrix zin fin zout) := by
      have hs : ∀ (l : List ℕ) (g : ℕ → List ℂ), (l.flatMap fun a => [g a]) = l.map g := by
        intro l g; induction l with
        | nil => rfl
        | cons a l ih => simp [List.flatMap_cons, ih]
      rw [Ms_eq, Ns_eq]
      simp only [jobs, nmins, List.map_flatMap, List.map_map, hs, Function.comp_def]
    rw [hj]
    simp [jobs_length]
  · intro nmin _ st
    rw [foldlM_some (h := fun st M => (st.1 + ((Ns.filter fun N => decide (N ≤ M)).flatMap fun N => [cont matrix zin fin zout (nmin, M, N)]).length,
      st.2 ++ ((Ns.filter fun N => decide (N ≤ M)).flatMap fun N => [cont matrix zin fin zout (nmin, M, N)]).filter physical)) (hg := fun _ _ _ => rfl),
      foldl_acc (c := fun M => (Ns.filter fun N => decide (N ≤ M)).flatMap fun N => [cont matrix zin fin zout (nmin, M, N)]) (h := fun _ _ _ => rfl)]

/-- **C139.** The program exits exactly if each of the 321 continuations has a positive imaginary part at some output point. -/
theorem pade_exit_iff (matrix : List ℂ → List ℂ → ℕ → List ℂ) (opt : (ℕ → ℝ) → ℕ → ℝ) (argsort : List ℝ → List ℕ) (zin fin zout : List ℂ) :
    pade matrix opt argsort zin fin zout = .exit ↔ ∀ j ∈ jobs, ∃ w ∈ cont matrix zin fin zout j, 0 < w.im := by
  unfold pade
  rw [loop_value]
  have h : ((jobs.map (cont matrix zin fin zout)).filter physical = []) ↔ ∀ j ∈ jobs, ∃ w ∈ cont matrix zin fin zout j, 0 < w.im := by
    rw [List.filter_eq_nil_iff]
    simp only [List.mem_map, forall_exists_index, and_imp, forall_apply_eq_imp_iff₂]
    refine forall₂_congr fun j _ => ?_
    simp [physical]
  by_cases hf : (jobs.map (cont matrix zin fin zout)).filter physical = []
  · simp only [hf, if_true]
    exact ⟨fun _ => h.1 hf, fun _ => trivial⟩
  · simp only [hf, if_false, reduceCtorEq, false_iff]
    exact fun h' => hf (h.2 h')

/-! ### the picked points -/

/-- the pairs (point, value) a job uses -/
noncomputable def pairs (ps : List (ℂ × ℂ)) (nadd M : ℕ) : List (ℂ × ℂ) :=
  ((ps.take nadd).reverse.map fun p => (starRingEnd ℂ p.1, starRingEnd ℂ p.2)) ++ ps.take (M - nadd)

theorem pick_eq (ps : List (ℂ × ℂ)) (nadd M : ℕ) (h0 : 0 < nadd) (h1 : nadd ≤ M) :
    pickPoints (starRingEnd ℂ) (ps.map Prod.fst) (ps.map Prod.snd) (-(nadd : ℤ)) M = ((pairs ps nadd M).map Prod.fst, (pairs ps nadd M).map Prod.snd) := by
  have e1 : ((-(-(nadd : ℤ)) - 1).toNat) = nadd - 1 := by omega
  simp only [pickPoints, if_neg (show ¬ (0 : ℤ) ≤ -(nadd : ℤ) by omega), e1, if_neg (show ¬ (M : ℤ) - -(-(nadd : ℤ)) < 0 by omega)]
  rw [show ((M : ℤ) - -(-(nadd : ℤ))).toNat = M - nadd by omega]
  simp only [revFrom, pairs, show nadd - 1 + 1 = nadd by omega, List.map_append, List.map_map, List.map_take, List.map_reverse, Function.comp_def]

theorem zip_pairs (qs : List (ℂ × ℂ)) : (qs.map Prod.fst).zip (qs.map Prod.snd) = qs := by
  induction qs with
  | nil => rfl
  | cons a l ih => simp [ih]

theorem pairs_length (ps : List (ℂ × ℂ)) (nadd M : ℕ) (h1 : nadd ≤ M) (h2 : nadd ≤ ps.length) : (pairs ps nadd M).length = min M (ps.length + nadd) := by
  simp [pairs]; omega

theorem pairs_nodup (ps : List (ℂ × ℂ)) (nadd M : ℕ) (hd : (ps.map Prod.fst).Nodup) (him : ∀ p ∈ ps, 0 < p.1.im) :
    ((pairs ps nadd M).map Prod.fst).Nodup := by
  rw [pairs, List.map_append, List.nodup_append]
  refine ⟨?_, ?_, ?_⟩
  · rw [List.map_map, show (Prod.fst ∘ fun p : ℂ × ℂ => (starRingEnd ℂ p.1, starRingEnd ℂ p.2)) = (starRingEnd ℂ) ∘ Prod.fst from rfl, ← List.map_map,
      List.nodup_map_iff (RingHom.injective _), List.map_reverse, List.nodup_reverse, List.map_take]
    exact hd.sublist (List.take_sublist _ _)
  · rw [List.map_take]
    exact hd.sublist (List.take_sublist _ _)
  · intro a ha b hb hab
    simp only [List.mem_map, List.mem_reverse] at ha hb
    obtain ⟨_, ⟨p, hp, rfl⟩, rfl⟩ := ha
    obtain ⟨q, hq, rfl⟩ := hb
    have h1 := him p (List.mem_of_mem_take hp)
    have h2 := him q (List.mem_of_mem_take hq)
    have := congrArg Complex.im hab
    rw [Complex.conj_im] at this
    linarith

/-- every pair used is a data pair or the mirror image of one -/
theorem mem_pairs (ps : List (ℂ × ℂ)) (nadd M : ℕ) (p : ℂ × ℂ) (hp : p ∈ pairs ps nadd M) :
    p ∈ ps ∨ ∃ q ∈ ps, p = (starRingEnd ℂ q.1, starRingEnd ℂ q.2) := by
  rw [pairs, List.mem_append, List.mem_map] at hp
  rcases hp with ⟨q, hq, rfl⟩ | hp
  · exact .inr ⟨q, List.mem_of_mem_take (List.mem_reverse.1 hq), rfl⟩
  · exact .inl (List.mem_of_mem_take hp)

/-! ### polynomials -/

theorem list_range_sum (n : ℕ) (g : ℕ → ℂ) : ((List.range n).map g).sum = ∑ i ∈ Finset.range n, g i := by
  induction n with
  | zero => simp
  | succ n ih => rw [List.range_succ, List.map_append, List.sum_append, ih, Finset.sum_range_succ]; simp

/-- numerator polynomial of the coefficients `x` -/
noncomputable def numP (r : ℕ) (x : List ℂ) : ℂ[X] := ∑ i ∈ Finset.range r, C (x.getD i 0) * X ^ i
/-- denominator polynomial of the coefficients `x` -/
noncomputable def denP (r : ℕ) (x : List ℂ) : ℂ[X] := (∑ i ∈ Finset.range r, C (x.getD (r + i) 0) * X ^ i) + X ^ r

theorem numP_eval (r : ℕ) (x : List ℂ) (w : ℂ) : (numP r x).eval w = ((List.range r).map fun i => x.getD i 0 * w ^ i).sum := by
  rw [list_range_sum, numP, eval_finsetSum]; simp
theorem denP_eval (r : ℕ) (x : List ℂ) (w : ℂ) : (denP r x).eval w = ((List.range r).map fun i => x.getD (r + i) 0 * w ^ i).sum + w ^ r := by
  rw [list_range_sum, denP, eval_add, eval_finsetSum]; simp

theorem numP_degree (r : ℕ) (hr : 0 < r) (g : ℕ → ℂ) : (∑ i ∈ Finset.range r, C (g i) * X ^ i : ℂ[X]).natDegree ≤ r - 1 := by
  refine natDegree_sum_le_of_forall_le _ _ fun i hi => ?_
  rw [Finset.mem_range] at hi
  exact (natDegree_C_mul_X_pow_le _ _).trans (by omega)

theorem denP_degree (r : ℕ) (hr : 0 < r) (x : List ℂ) : (denP r x).natDegree ≤ r := by
  unfold denP
  refine (natDegree_add_le _ _).trans (max_le ((numP_degree r hr _).trans (by omega)) (natDegree_X_pow_le r))

/-- the linear system says: numerator = value × denominator at every node -/
theorem solution_iff (zs fs : List ℂ) (r : ℕ) (x : List ℂ) :
    isMatrixSolution zs fs r x ↔ x.length = 2 * r ∧ ∀ p ∈ zs.zip fs, (numP r x).eval p.1 = p.2 * (denP r x).eval p.1 := by
  unfold isMatrixSolution
  refine and_congr Iff.rfl (forall₂_congr fun p _ => ?_)
  rw [sum_two_mul, numP_eval, denP_eval]
  have e1 : ((List.range r).map fun j => matrixEntry r p.1 p.2 j * x.getD j 0).sum = ((List.range r).map fun i => x.getD i 0 * p.1 ^ i).sum := by
    congr 1; refine List.map_congr_left fun j hj => ?_
    rw [matrixEntry, if_pos (List.mem_range.1 hj), mul_comm]
  have e2 : ((List.range r).map fun j => matrixEntry r p.1 p.2 (r + j) * x.getD (r + j) 0).sum
      = -p.2 * ((List.range r).map fun i => x.getD (r + i) 0 * p.1 ^ i).sum := by
    rw [← List.sum_map_mul_left]
    congr 1; refine List.map_congr_left fun j _ => ?_
    rw [matrixEntry, if_neg (by omega), Nat.add_sub_cancel_left]; ring
  rw [e1, e2]
  constructor <;> intro h <;> linear_combination h

/-- values of a ratio of polynomials of low degree admit an exact solution -/
theorem solution_exists (qs : List (ℂ × ℂ)) (r : ℕ) (P Q : ℂ[X]) (hdeg : P.natDegree < Q.natDegree) (hr : Q.natDegree ≤ r)
    (hv : ∀ p ∈ qs, P.eval p.1 = p.2 * Q.eval p.1) : ∃ x, isMatrixSolution (qs.map Prod.fst) (qs.map Prod.snd) r x := by
  have hQ0 : Q ≠ 0 := by rintro rfl; simp at hdeg
  have hlc : Q.leadingCoeff ≠ 0 := leadingCoeff_ne_zero.2 hQ0
  obtain ⟨e, rfl⟩ : ∃ e, r = Q.natDegree + e := ⟨_, (Nat.add_sub_cancel' hr).symm⟩
  set r := Q.natDegree + e with hrd
  let A : ℂ[X] := C Q.leadingCoeff⁻¹ * P * X ^ e
  let B : ℂ[X] := C Q.leadingCoeff⁻¹ * Q * X ^ e
  have hA : A.natDegree < r := by
    refine lt_of_le_of_lt (natDegree_mul_le.trans (add_le_add (natDegree_C_mul_le _ _) (natDegree_X_pow_le e))) (by omega)
  have hBd : B.natDegree ≤ r := natDegree_mul_le.trans (add_le_add (natDegree_C_mul_le _ _) (natDegree_X_pow_le e))
  have hBc : B.coeff r = 1 := by
    simp only [B, hrd]
    rw [coeff_mul_X_pow, coeff_C_mul]
    exact inv_mul_cancel₀ hlc
  let x : List ℂ := ((List.range r).map A.coeff) ++ ((List.range r).map B.coeff)
  refine ⟨x, (solution_iff _ _ _ _).2 ⟨by simp [x]; omega, ?_⟩⟩
  rw [zip_pairs]
  have hn : numP r x = A := by
    rw [as_sum_range' A r hA, numP]
    refine Finset.sum_congr rfl fun i hi => ?_
    rw [Finset.mem_range] at hi
    rw [← C_mul_X_pow_eq_monomial]
    simp [x, List.getD_eq_getElem?_getD, List.getElem?_append, hi]
  have hd : denP r x = B := by
    rw [as_sum_range' B (r + 1) (by omega), denP, Finset.sum_range_succ, hBc]
    congr 1
    · refine Finset.sum_congr rfl fun i hi => ?_
      rw [Finset.mem_range] at hi
      rw [← C_mul_X_pow_eq_monomial]
      simp [x, List.getD_eq_getElem?_getD, hi]
    · rw [monomial_one_right_eq_X_pow]
  intro p hp
  rw [hn, hd]
  simp only [A, B, eval_mul, eval_C, eval_pow, eval_X]
  rw [hv p hp]; ring

/-- any exact solution is the function itself, wherever neither denominator vanishes -/
theorem solution_unique (qs : List (ℂ × ℂ)) (r : ℕ) (hr : 0 < r) (x : List ℂ) (P Q : ℂ[X]) (hdeg : P.natDegree < Q.natDegree)
    (hx : isMatrixSolution (qs.map Prod.fst) (qs.map Prod.snd) r x) (hnd : (qs.map Prod.fst).Nodup) (hlen : r + Q.natDegree ≤ qs.length)
    (hv : ∀ p ∈ qs, P.eval p.1 = p.2 * Q.eval p.1) (w : ℂ) (hQw : Q.eval w ≠ 0) (hdw : denom w x ≠ 0) :
    epade w x = P.eval w / Q.eval w := by
  obtain ⟨hl, hs⟩ := (solution_iff _ _ _ _).1 hx
  rw [zip_pairs] at hs
  have hD : numP r x * Q - P * denP r x = 0 := by
    refine eq_zero_of_natDegree_lt_card_of_eval_eq_zero' _ (qs.map Prod.fst).toFinset ?_ ?_
    · intro z hz
      rw [List.mem_toFinset, List.mem_map] at hz
      obtain ⟨p, hp, rfl⟩ := hz
      rw [eval_sub, eval_mul, eval_mul, hs p hp, hv p hp]; ring
    · rw [List.toFinset_card_of_nodup hnd, List.length_map]
      refine lt_of_le_of_lt (natDegree_sub_le _ _) (max_lt ?_ ?_)
      · exact lt_of_le_of_lt (natDegree_mul_le.trans (add_le_add_left (numP_degree r hr _) _)) (by omega)
      · exact lt_of_le_of_lt (natDegree_mul_le.trans (add_le_add_right (denP_degree r hr x) _)) (by omega)
  have hw := congrArg (eval w) hD
  rw [eval_sub, eval_mul, eval_mul, eval_zero, sub_eq_zero] at hw
  have h2 : x.length / 2 = r := by omega
  have hden : denom w x = (denP r x).eval w := by rw [denP_eval, denom, h2]
  rw [epade_value, h2, ← numP_eval, ← denP_eval]
  rw [hden] at hdw
  rw [div_eq_div_iff hdw hQw]
  exact hw

end DGA.Pade.Driver
