/-
  C126  the Padé solver object: spectrum, retarded function and sanity check are those of one interpolant
  Model of src/dga/pade_aux.py:69-160 (`PadeSolver`) and 172-177 (`a`).  Exact arithmetic, as in Pade/Model.lean.
-/
import Verif.Pade.Props
import Verif.AnaCont.Model
import Mathlib.Analysis.SpecialFunctions.Trigonometric.Basic

namespace DGA.Pade

open Complex

/-- the fields of `OptimizationResult` that `PadeSolver.solve` sets (pade_aux.py:150-158), as lists over the frequencies; the two callables are
    `padeA`, `padeB` with the coefficients fixed -/
structure SolverResult where
  numerator : List ℂ
  denominator : List ℂ
  gRet : List ℂ
  aOpt : List ℝ
  check : List ℂ
  ivcheck : List ℝ

/-- pade_aux.py:86, 120, 137-146 `1j * self.im_axis` -/
noncomputable def nodes (imAxis : List ℝ) : List ℂ := imAxis.map fun (v : ℝ) => I * (v : ℂ)

/-- `np.max(im_axis)` (language construct); `none`: empty array (raises) -/
noncomputable def maxOf : List ℝ → Option ℝ
  | [] => none
  | x :: xs => some (xs.foldl max x)

/-- pade_aux.py:116-119: the points at which the approximant is checked; `None` gives 500 points from 0 to twice the largest frequency -/
noncomputable def ivPoints (imAxis : List ℝ) : Option (List ℝ) → Option (List ℝ)
  | none => (maxOf imAxis).map fun m => Ana.linspace 0 (2 * m) 500
  | some l => some l

/-- pade_aux.py:88-122 `PadeSolver.check(im_axis_fine)`: the points and the values there -/
noncomputable def solverCheck (imAxis : List ℝ) (a : List ℂ) (fine : Option (List ℝ)) : Option (List ℝ × List ℂ) :=
  (ivPoints imAxis fine).bind fun iv => (iv.mapM fun (v : ℝ) => padeC ((v : ℂ) * I) (nodes imAxis) a).map fun c => (iv, c)

/-- pade_aux.py:71-86 `PadeSolver(im_axis, re_axis, im_data)` followed by 124-160 `solve()` -/
noncomputable def padeSolve (imAxis reAxis : List ℝ) (imData : List ℂ) : Option SolverResult :=
  (computeCoefficients (nodes imAxis) imData).bind fun a =>
    (reAxis.mapM fun (w : ℝ) => padeA (w : ℂ) (nodes imAxis) a imAxis.length).bind fun num =>
      (reAxis.mapM fun (w : ℝ) => padeB (w : ℂ) (nodes imAxis) a imAxis.length).bind fun den =>
        (solverCheck imAxis a none).map fun c =>
          let result := List.zipWith (· / ·) num den
          ⟨num, den, result, result.map fun z => -z.im / Real.pi, c.2, c.1⟩

/-- pade_aux.py:172-177 `a(zi, ui)`: entry `i-1` is `g(i,i)` for `i` in `range(1, n)`, so `n-1` entries.  (The array is of type double: complex
    values are outside this model, the theorems about it are for a field of real numbers.) -/
def aList {K : Type} [Field K] (zi ui : List K) : Option (List K) := (List.range' 1 (zi.length - 1)).mapM fun i => gRec zi ui i i

/-! ### lemmas -/

theorem mapM_some_of_forall {α β : Type} (f : α → Option β) (g : α → β) (l : List α) (h : ∀ x ∈ l, f x = some (g x)) :
    l.mapM f = some (l.map g) := by
  induction l with
  | nil => rfl
  | cons x l ih =>
    rw [List.mapM_cons, h x (by simp), ih fun y hy => h y (by simp [hy])]
    rfl

/-- value of the approximant at a point, from nodes and data: numerator and denominator -/
noncomputable def numVal (imAxis : List ℝ) (imData : List ℂ) (z : ℂ) : ℂ :=
  numA z (at' (nodes imAxis)) (fun n => invDiff (at' (nodes imAxis)) (at' imData) n n) imAxis.length
noncomputable def denVal (imAxis : List ℝ) (imData : List ℂ) (z : ℂ) : ℂ :=
  denB z (at' (nodes imAxis)) (fun n => invDiff (at' (nodes imAxis)) (at' imData) n n) imAxis.length

theorem nodes_length (imAxis : List ℝ) : (nodes imAxis).length = imAxis.length := by simp [nodes]

section
variable (imAxis : List ℝ) (imData : List ℂ) (h : imData.length = imAxis.length) (a : List ℂ)
  (ha : computeCoefficients (nodes imAxis) imData = some a)
include h ha

theorem coeff_len : a.length = (nodes imAxis).length := by
  rw [computeCoefficients_some _ _ (by rw [h, nodes_length]), Option.some.injEq] at ha; rw [← ha]; simp

theorem coeff_at (i : Nat) (hi : i < imAxis.length) : at' a i = invDiff (at' (nodes imAxis)) (at' imData) i i := by
  rw [computeCoefficients_some _ _ (by rw [h, nodes_length]), Option.some.injEq] at ha
  rw [← ha]; exact at'_map_range _ _ _ (by rw [nodes_length]; exact hi)

theorem padeA_num (z : ℂ) : padeA z (nodes imAxis) a imAxis.length = some (numVal imAxis imData z) := by
  rw [padeA_eq z _ a (coeff_len imAxis imData h a ha) _ (by rw [nodes_length]), numVal]
  exact congrArg some (numA_congr _ _ _ _ _ fun i hi => coeff_at imAxis imData h a ha i hi)

theorem padeB_den (z : ℂ) : padeB z (nodes imAxis) a imAxis.length = some (denVal imAxis imData z) := by
  rw [padeB_eq z _ a (coeff_len imAxis imData h a ha) _ (by rw [nodes_length]), denVal]
  exact congrArg some (denB_congr _ _ _ _ _ fun i hi => coeff_at imAxis imData h a ha i hi)

theorem padeC_quot (z : ℂ) : padeC z (nodes imAxis) a = some (numVal imAxis imData z / denVal imAxis imData z) := by
  rw [padeC, nodes_length, padeA_num imAxis imData h a ha, padeB_den imAxis imData h a ha]; rfl
end

theorem padeSolve_value (imAxis reAxis : List ℝ) (imData : List ℂ) (h : imData.length = imAxis.length) (m : ℝ) (hm : maxOf imAxis = some m) :
    padeSolve imAxis reAxis imData = some
      ⟨reAxis.map fun (w : ℝ) => numVal imAxis imData (w : ℂ), reAxis.map fun (w : ℝ) => denVal imAxis imData (w : ℂ),
       reAxis.map fun (w : ℝ) => numVal imAxis imData (w : ℂ) / denVal imAxis imData (w : ℂ),
       reAxis.map fun (w : ℝ) => -(numVal imAxis imData (w : ℂ) / denVal imAxis imData (w : ℂ)).im / Real.pi,
       (Ana.linspace 0 (2 * m) 500).map fun (v : ℝ) => numVal imAxis imData ((v : ℂ) * I) / denVal imAxis imData ((v : ℂ) * I),
       Ana.linspace 0 (2 * m) 500⟩ := by
  obtain ⟨a, ha⟩ : ∃ a, computeCoefficients (nodes imAxis) imData = some a :=
    ⟨_, computeCoefficients_some _ _ (by rw [h, nodes_length])⟩
  rw [padeSolve, ha, Option.bind_some, mapM_some_of_forall _ (fun w : ℝ => numVal imAxis imData (w : ℂ)) reAxis fun w _ => padeA_num imAxis imData h a ha w,
    Option.bind_some, mapM_some_of_forall _ (fun w : ℝ => denVal imAxis imData (w : ℂ)) reAxis fun w _ => padeB_den imAxis imData h a ha w,
    Option.bind_some, solverCheck, ivPoints, hm, Option.map_some, Option.bind_some,
    mapM_some_of_forall _ (fun v : ℝ => numVal imAxis imData ((v : ℂ) * I) / denVal imAxis imData ((v : ℂ) * I)) _
      fun v _ => padeC_quot imAxis imData h a ha _]
  simp only [Option.map_some, Option.some.injEq, SolverResult.mk.injEq, true_and, List.zipWith_map_left, List.zipWith_map_right,
    List.zipWith_self, List.map_map]
  refine ⟨?_, ?_⟩ <;> first | rfl | trivial

theorem foldl_max_spec (x : ℝ) (xs : List ℝ) : (∀ v ∈ x :: xs, v ≤ xs.foldl max x) ∧ xs.foldl max x ∈ x :: xs := by
  induction xs generalizing x with
  | nil => simp
  | cons y ys ih =>
    obtain ⟨h1, h2⟩ := ih (max x y)
    rw [List.foldl_cons]
    refine ⟨fun v hv => ?_, ?_⟩
    · have hx : max x y ≤ ys.foldl max (max x y) := h1 _ (by simp)
      rcases List.mem_cons.1 hv with rfl | hv
      · exact (le_max_left _ _).trans hx
      · rcases List.mem_cons.1 hv with rfl | hv
        · exact (le_max_right _ _).trans hx
        · exact h1 v (by simp [hv])
    · rcases List.mem_cons.1 h2 with h2 | h2
      · rw [h2]; rcases max_choice x y with e | e <;> rw [e] <;> simp
      · simp [h2]

/-! ### C126 -/

/-- C126. `solve` succeeds exactly for data of the same, nonzero number as frequencies. At every real frequency `w` the retarded function is the
    value of the continued fraction built from the nodes `i v` (the same function that `check` evaluates on the imaginary axis), the spectrum is
    `-Im/π` of it, and the check runs over 500 points `2 vmax k / 499`, from zero to twice the largest input frequency. -/
theorem solve_spec (imAxis reAxis : List ℝ) (imData : List ℂ) :
    ((∃ r, padeSolve imAxis reAxis imData = some r) ↔ imData.length = imAxis.length ∧ imAxis ≠ []) ∧
    ∀ r, padeSolve imAxis reAxis imData = some r →
      (reAxis.map fun (w : ℝ) => solverValue (imAxis.map fun (v : ℝ) => I * (v : ℂ)) imData (w : ℂ)) = r.gRet.map some ∧
      r.gRet = List.zipWith (· / ·) r.numerator r.denominator ∧
      r.aOpt = (r.gRet.map fun g => -g.im / Real.pi) ∧
      (r.ivcheck.map fun (v : ℝ) => solverValue (imAxis.map fun (v : ℝ) => I * (v : ℂ)) imData ((v : ℂ) * I)) = r.check.map some ∧
      ∃ vmax ∈ imAxis, (∀ v ∈ imAxis, v ≤ vmax) ∧ r.ivcheck = (List.range 500).map fun (k : Nat) => 2 * vmax * ((k : ℝ) / 499) := by
  have key : ∀ r, padeSolve imAxis reAxis imData = some r → imData.length = imAxis.length ∧ imAxis ≠ [] := by
    intro r hr
    have h1 : imData.length = imAxis.length := by
      by_contra hne
      rw [padeSolve, computeCoefficients, if_neg (by rw [nodes_length]; exact hne)] at hr
      simp at hr
    refine ⟨h1, fun h0 => ?_⟩
    subst h0
    obtain ⟨a, ha⟩ : ∃ a, computeCoefficients (nodes []) imData = some a := ⟨_, computeCoefficients_some _ _ (by rw [h1, nodes_length])⟩
    rw [padeSolve, ha, Option.bind_some] at hr
    have : solverCheck [] a none = none := rfl
    rw [this] at hr
    simp at hr
  have val : ∀ {z : ℂ}, imData.length = imAxis.length →
      solverValue (imAxis.map fun (v : ℝ) => I * (v : ℂ)) imData z = some (numVal imAxis imData z / denVal imAxis imData z) := by
    intro z h
    obtain ⟨a, ha⟩ : ∃ a, computeCoefficients (nodes imAxis) imData = some a :=
      ⟨_, computeCoefficients_some _ _ (by rw [h, nodes_length])⟩
    have e : solverValue (nodes imAxis) imData z = some (numVal imAxis imData z / denVal imAxis imData z) := by
      rw [solverValue, ha, Option.bind_some, padeC_quot imAxis imData h a ha]
    exact e
  have suc : imData.length = imAxis.length → imAxis ≠ [] → ∃ m ∈ imAxis, (∀ v ∈ imAxis, v ≤ m) ∧ maxOf imAxis = some m := by
    intro _ h0
    cases imAxis with
    | nil => exact absurd rfl h0
    | cons x xs =>
      exact ⟨_, (foldl_max_spec x xs).2, (foldl_max_spec x xs).1, rfl⟩
  refine ⟨⟨fun ⟨r, hr⟩ => key r hr, fun ⟨h, h0⟩ => ?_⟩, fun r hr => ?_⟩
  · obtain ⟨m, _, _, hm⟩ := suc h h0
    exact ⟨_, padeSolve_value imAxis reAxis imData h m hm⟩
  · obtain ⟨h, h0⟩ := key r hr
    obtain ⟨m, hmem, hmax, hm⟩ := suc h h0
    obtain ⟨L, hL⟩ : ∃ L, L = Ana.linspace 0 (2 * m) 500 := ⟨_, rfl⟩
    rw [padeSolve_value imAxis reAxis imData h m hm, ← hL, Option.some.injEq] at hr
    subst hr
    refine ⟨?_, ?_, ?_, ?_, m, hmem, hmax, ?_⟩
    · rw [List.map_map]; exact List.map_congr_left fun x _ => val h
    · simp [List.zipWith_map_left, List.zipWith_map_right, List.zipWith_self]
    · simp
    · rw [List.map_map]; exact List.map_congr_left fun x _ => val h
    · simp only [hL, Ana.linspace]
      refine List.map_congr_left fun k _ => ?_
      norm_num
      ring

/-- C126 (with C64). If the data are the values of a rational function `P/Q` of sufficiently low degree, the retarded function is `P/Q` at every
    real frequency at which neither denominator vanishes, and the spectrum is its imaginary part over `-π`. -/
theorem solve_recovers (imAxis reAxis : List ℝ) (imData : List ℂ) (r : SolverResult) (hr : padeSolve imAxis reAxis imData = some r)
    (hb : NoBreakdown (imAxis.map fun (v : ℝ) => I * (v : ℂ)) imData) (P Q : Polynomial ℂ)
    (hP : P.natDegree ≤ (imAxis.length - 1) / 2) (hQ : Q.natDegree ≤ imAxis.length / 2)
    (hQv : ∀ v ∈ imAxis, Q.eval (I * (v : ℂ)) ≠ 0)
    (hu : ∀ p ∈ imAxis.zip imData, p.2 = P.eval (I * (p.1 : ℂ)) / Q.eval (I * (p.1 : ℂ)))
    (k : Nat) (w : ℝ) (hk : reAxis[k]? = some w) (hQw : Q.eval (w : ℂ) ≠ 0) (hd : ∀ d, r.denominator[k]? = some d → d ≠ 0) :
    r.gRet[k]? = some (P.eval (w : ℂ) / Q.eval (w : ℂ)) ∧ r.aOpt[k]? = some (-(P.eval (w : ℂ) / Q.eval (w : ℂ)).im / Real.pi) := by
  obtain ⟨h, h0⟩ := (solve_spec imAxis reAxis imData).1.1 ⟨r, hr⟩
  obtain ⟨x, xs, rfl⟩ : ∃ x xs, imAxis = x :: xs := by cases imAxis with | nil => exact absurd rfl h0 | cons x xs => exact ⟨x, xs, rfl⟩
  rw [padeSolve_value (x :: xs) reAxis imData h _ rfl, Option.some.injEq] at hr
  subst hr
  have hd' : denVal (x :: xs) imData w ≠ 0 := hd _ (by simp [hk])
  obtain ⟨a, ha⟩ : ∃ a, computeCoefficients (nodes (x :: xs)) imData = some a :=
    ⟨_, computeCoefficients_some _ _ (by rw [h, nodes_length])⟩
  have e := recovers_rational (nodes (x :: xs)) imData hb (by simp [nodes]) P Q (by rw [nodes_length]; exact hP) (by rw [nodes_length]; exact hQ)
    (fun i hi => by
      rw [nodes_length] at hi
      have : (nodes (x :: xs)).getD i 0 = I * (((x :: xs)[i] : ℝ) : ℂ) := by
        rw [List.getD_eq_getElem?_getD, nodes, List.getElem?_map, List.getElem?_eq_getElem hi]; rfl
      rw [this]
      exact hQv _ (List.getElem_mem hi))
    (fun i hi => by
      rw [nodes_length] at hi
      have e1 : (nodes (x :: xs)).getD i 0 = I * (((x :: xs)[i] : ℝ) : ℂ) := by
        rw [List.getD_eq_getElem?_getD, nodes, List.getElem?_map, List.getElem?_eq_getElem hi]; rfl
      have hi2 : i < imData.length := by rw [h]; exact hi
      have e2 : imData.getD i 0 = imData[i] := by rw [List.getD_eq_getElem?_getD, List.getElem?_eq_getElem hi2]; rfl
      rw [e1, e2]
      exact hu ((x :: xs)[i], imData[i]) (List.mem_iff_getElem.2 ⟨i, by rw [List.length_zip]; exact lt_min hi hi2, by simp⟩))
    a ha w hQw (denVal (x :: xs) imData w) (by rw [nodes_length]; exact padeB_den (x :: xs) imData h a ha _) hd'
  rw [padeC_quot (x :: xs) imData h a ha, Option.some.injEq] at e
  simp [hk, e]

/-- C126. The interpolant is evaluated on the real axis itself: for data of a rational function with real coefficients (any finite set of poles
    on the real axis) the spectrum is zero at every frequency at which neither denominator vanishes. -/
theorem discrete_spectrum_invisible (imAxis reAxis : List ℝ) (imData : List ℂ) (r : SolverResult) (hr : padeSolve imAxis reAxis imData = some r)
    (hb : NoBreakdown (imAxis.map fun (v : ℝ) => I * (v : ℂ)) imData) (P Q : Polynomial ℝ)
    (hP : P.natDegree ≤ (imAxis.length - 1) / 2) (hQ : Q.natDegree ≤ imAxis.length / 2)
    (hQv : ∀ v ∈ imAxis, (Q.map ofRealHom).eval (I * (v : ℂ)) ≠ 0)
    (hu : ∀ p ∈ imAxis.zip imData, p.2 = (P.map ofRealHom).eval (I * (p.1 : ℂ)) / (Q.map ofRealHom).eval (I * (p.1 : ℂ)))
    (k : Nat) (w : ℝ) (hk : reAxis[k]? = some w) (hQw : Q.eval w ≠ 0) (hd : ∀ d, r.denominator[k]? = some d → d ≠ 0) :
    r.aOpt[k]? = some 0 := by
  have ev : ∀ R : Polynomial ℝ, (R.map ofRealHom).eval (w : ℂ) = ((R.eval w : ℝ) : ℂ) := by
    intro R
    have := Polynomial.eval_map_apply (p := R) ofRealHom w
    simpa using this
  rw [(solve_recovers imAxis reAxis imData r hr hb (P.map ofRealHom) (Q.map ofRealHom) (Polynomial.natDegree_map_le.trans hP)
    (Polynomial.natDegree_map_le.trans hQ) hQv hu k w hk (by rw [ev]; exact_mod_cast hQw) hd).2, ev, ev, ← ofReal_div, ofReal_im]
  simp

/-- C126. The recursive helper `a` returns the coefficients without the last one, so the approximant cannot be evaluated with it when there are
    two nodes or more. -/
theorem aList_drops_last {K : Type} [Field K] (zi ui : List K) (h : ui.length = zi.length) (hn : 2 ≤ zi.length) :
    ∃ c l, computeCoefficients zi ui = some c ∧ aList zi ui = some l ∧ l = c.dropLast ∧ l.length = zi.length - 1 ∧
      ∀ zr, padeC zr zi l = none := by
  have e : aList zi ui = some ((List.range' 1 (zi.length - 1)).map fun i => table zi ui (i - 1) (i - 1)) := by
    refine mapM_some_of_forall _ _ _ fun i hi => ?_
    rw [List.mem_range'_1] at hi
    have := gRec_eq_table zi ui h (i - 1) (i - 1) (le_refl _) (by omega)
    rwa [Nat.sub_add_cancel hi.1] at this
  refine ⟨_, _, by rw [computeCoefficients, if_pos h], e, ?_, by simp, fun zr => ?_⟩
  · refine List.ext_getElem (by simp) fun i h1 h2 => ?_
    simp
  · have : ∀ (n : Nat) (l : List K), l.length + 1 = n → 2 ≤ n → padeA zr zi l n = none := by
      intro n l hl h2
      obtain ⟨m, rfl⟩ : ∃ m, n = m + 2 := ⟨n - 2, by omega⟩
      rw [padeA]
      have : l[m + 1]? = none := by rw [List.getElem?_eq_none_iff]; omega
      rw [this]
      cases padeA zr zi l (m + 1) <;> simp
    rw [padeC, this _ _ (by simp; omega) hn]; rfl

/-! ### non-vacuity -/

/-- two Matsubara frequencies, a pole at zero: data `1/(i v)` at `v = 1, 2` -/
example : NoBreakdown ([1, 2].map fun v : ℝ => I * (v : ℂ)) [1 / I, 1 / (2 * I)] := by
  refine ⟨rfl, ?_, ?_⟩ <;>
  · intro i hi j hj
    have hi' : i < 2 := by simpa using hi
    interval_cases i
    · omega
    · interval_cases j
      simp [invDiff, Complex.ext_iff]
example : ∃ r, padeSolve [1, 2] [1] [1 / I, 1 / (2 * I)] = some r := (solve_spec _ _ _).1.2 ⟨rfl, by simp⟩
example : aList [1, 2, 3] [1, 1/2, (1/5 : ℚ)] = some [1, 1] ∧ computeCoefficients [1, 2, 3] [1, 1/2, (1/5 : ℚ)] = some [1, 1, -1/2] := by
  decide +kernel

end DGA.Pade
