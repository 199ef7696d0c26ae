import Verif.AnaCont.Props3

/-
  C68: the real part of the Kramers–Kronig transformation (analytic_continuation.py:164-197, ana_cont/continuation.py:169-199).
-/

noncomputable section

namespace DGA.Ana

/-- Specification: the trapezoidal rule for samples `f 0, …, f (n-1)` at the points `x 0, …, x (n-1)`. -/
def trapezoid (x f : Nat → ℝ) (n : Nat) : ℝ := ∑ i ∈ Finset.range (n - 1), (x (i + 1) - x i) * (f i + f (i + 1)) / 2

/-- Specification: principal-value integrand of the three kinds, `w` the frequency of the result. -/
def pvIntegrand (kind : String) (A w' w : ℝ) : ℝ :=
  if kind = "fermionic" ∨ kind = "general" then A / (w - w')
  else if kind = "bosonic" ∨ kind = "antisymmetric" then 2 * w * A / (w ^ 2 - w' ^ 2)
  else 2 * w' * A / (w ^ 2 - w' ^ 2)

/-- widths of the cells from the left edge `a` on -/
def widthsFrom : ℝ → List ℝ → List ℝ
  | _, [] => []
  | a, [x] => [x - a]
  | a, x :: y :: r => ((x + y) / 2 - a) :: widthsFrom ((x + y) / 2) (y :: r)

theorem widthsFrom_edges : ∀ (x a : ℝ) (r : List ℝ),
    (((a :: (midpoints (x :: r) ++ [(x :: r).getLast (by simp)])).dropLast.zip
      (a :: (midpoints (x :: r) ++ [(x :: r).getLast (by simp)])).tail).map fun p => p.2 - p.1) = widthsFrom a (x :: r)
  | x, a, [] => by simp [midpoints, widthsFrom]
  | x, a, y :: r => by
    have ih := widthsFrom_edges y ((x + y) / 2) r
    have hm : midpoints (x :: y :: r) = (x + y) / 2 :: midpoints (y :: r) := by
      simp [midpoints, List.dropLast]
    rw [hm, List.getLast_cons (by simp)]
    simp only [List.cons_append, List.tail_cons] at ih ⊢
    rw [List.dropLast_cons_of_ne_nil (by simp)]
    simp only [List.zip_cons_cons, List.map_cons, widthsFrom]
    rw [ih]

theorem cellWidths_eq (x : ℝ) (r : List ℝ) : cellWidths (x :: r) = some (widthsFrom x (x :: r)) := by
  have h1 : (x :: r).getLast? = some ((x :: r).getLast (by simp)) := List.getLast?_eq_some_getLast (by simp)
  simp only [cellWidths, List.head?_cons, h1, Option.bind_some, Option.map_some]
  rw [widthsFrom_edges]

theorem widthsFrom_length : ∀ (a : ℝ) (l : List ℝ), (widthsFrom a l).length = l.length
  | _, [] => rfl
  | _, [_] => rfl
  | a, x :: y :: r => by simp [widthsFrom, widthsFrom_length _ (y :: r)]

/-- The midpoint cells integrate like the trapezoidal rule. -/
theorem widthsFrom_sum : ∀ (x a : ℝ) (r : List ℝ) (f : Nat → ℝ),
    ∑ i ∈ Finset.range (x :: r).length, (widthsFrom a (x :: r)).getD i 0 * f i =
      (x - a) * f 0 + trapezoid (fun i => (x :: r).getD i 0) f (x :: r).length
  | x, a, [], f => by simp [widthsFrom, trapezoid]
  | x, a, y :: r, f => by
    have ih := widthsFrom_sum y ((x + y) / 2) r (fun i => f (i + 1))
    rw [List.length_cons, Finset.sum_range_succ']
    simp only [widthsFrom, List.getD_cons_succ, List.getD_cons_zero]
    rw [ih]
    simp only [trapezoid, List.length_cons, Nat.add_sub_cancel]
    rw [Finset.sum_range_succ' _ r.length]
    simp only [List.getD_cons_succ, List.getD_cons_zero, zero_add]
    ring

/-- C68. The cells of the Kramers–Kronig transformation: one per mesh point, adding up to the frequency window, positive on an
    increasing mesh with at least two points. -/
theorem cellWidths_spec (w : List ℝ) (hw : 2 ≤ w.length) (hinc : w.Pairwise (· < ·)) :
    ∃ dw, cellWidths w = some dw ∧ dw.length = w.length ∧ (∀ d ∈ dw, 0 < d) ∧
      ∑ i ∈ Finset.range w.length, dw.getD i 0 = w.getD (w.length - 1) 0 - w.getD 0 0 := by
  match w, hw with
  | x :: y :: r, _ =>
    refine ⟨_, cellWidths_eq x (y :: r), widthsFrom_length _ _, ?_, ?_⟩
    · have key : ∀ (r : List ℝ) (x a : ℝ), a ≤ x → (a < x ∨ r ≠ []) → (x :: r).Pairwise (· < ·) → ∀ d ∈ widthsFrom a (x :: r), 0 < d := by
        intro r
        induction r with
        | nil => intro x a h1 h2 _ d hd; simp [widthsFrom] at hd; subst hd; rcases h2 with h | h; linarith; simp at h
        | cons y r ih =>
          intro x a h1 _ hp d hd
          have hxy : x < y := (List.pairwise_cons.1 hp).1 y (by simp)
          simp only [widthsFrom, List.mem_cons] at hd
          rcases hd with rfl | hd
          · linarith
          · exact ih y _ (by linarith) (Or.inl (by linarith)) (List.pairwise_cons.1 hp).2 d hd
      exact key (y :: r) x x le_rfl (Or.inr (by simp)) hinc
    · have h := widthsFrom_sum x x (y :: r) (fun _ => 1)
      simp only [mul_one, sub_self, zero_add] at h
      rw [h]
      simp only [trapezoid]
      have hs := Finset.sum_range_sub (fun i => (x :: y :: r).getD i 0) ((x :: y :: r).length - 1)
      rw [← hs]
      refine Finset.sum_congr rfl fun i _ => by ring

theorem kktTerm_value (kind : String) (dw A w' w t : ℝ) (h : kktTerm kind dw A w' w = some t) :
    t = dw * pvIntegrand kind A w' w := by
  unfold kktTerm at h
  unfold pvIntegrand
  split at h
  · next h1 =>
    rw [if_neg (by rcases h1 with h1 | h1 <;> subst h1 <;> simp), if_neg (by rcases h1 with h1 | h1 <;> subst h1 <;> simp)]
    simp only [Option.some.injEq] at h; rw [← h]; ring
  · split at h
    · next h1 =>
      rw [if_neg (by rcases h1 with h1 | h1 <;> subst h1 <;> simp), if_pos h1]
      simp only [Option.some.injEq] at h; rw [← h]; ring
    · split at h
      · next h1 =>
        rw [if_pos h1]
        simp only [Option.some.injEq] at h; rw [← h]; ring
      · simp at h

theorem mapM_getD {α β : Type} (f : α → Option β) (d : α) (e : β) : ∀ (l : List α) (r : List β), l.mapM f = some r →
    r.length = l.length ∧ ∀ i < l.length, f (l.getD i d) = some (r.getD i e)
  | [], r, h => by simp at h; subst h; simp
  | a :: l, r, h => by
    rw [List.mapM_cons] at h
    simp only [Option.bind_eq_bind, Option.bind_eq_some_iff, Option.pure_def, Option.some.injEq] at h
    obtain ⟨b, hb, rs, hrs, rfl⟩ := h
    obtain ⟨h1, h2⟩ := mapM_getD f d e l rs hrs
    refine ⟨by simp [h1], fun i hi => ?_⟩
    cases i with
    | zero => simpa using hb
    | succ i => simpa using h2 i (by simpa using hi)

/-- C68. The real part at every mesh point is the principal-value integral by the trapezoidal rule, the point itself left out;
    the transformation exists exactly for the six kinds, on a non-empty mesh with matching spectrum. -/
theorem kkt_real_part (spec w : List ℝ) (kind : String) (g : List ℂ) (h : kkt spec w kind = some g) (j : Nat) (hj : j < w.length) :
    (g.getD j 0).re = trapezoid (fun i => w.getD i 0)
      (fun i => if i = j then 0 else pvIntegrand kind (spec.getD i 0) (w.getD i 0) (w.getD j 0)) w.length := by
  unfold kkt at h
  by_cases hl : spec.length = w.length
  · rw [if_pos hl, Option.bind_eq_some_iff] at h
    obtain ⟨dw, hdw, h⟩ := h
    obtain ⟨h1, h2⟩ := mapM_getD _ 0 (0 : ℂ) _ _ h
    have h3 := h2 j (by simpa using hj)
    rw [Option.map_eq_some_iff] at h3
    obtain ⟨col, h4, h5⟩ := h3
    have hjr : (List.range w.length).getD j 0 = j := by simp [List.getD_eq_getElem?_getD, hj]
    rw [hjr] at h4 h5
    rw [← h5]
    obtain ⟨h6, h7⟩ := mapM_getD _ 0 (0 : ℝ) _ _ h4
    rw [List.length_range] at h6 h7
    have hcol : ∀ i < w.length, col.getD i 0 =
        dw.getD i 0 * (if i = j then 0 else pvIntegrand kind (spec.getD i 0) (w.getD i 0) (w.getD j 0)) := by
      intro i hi
      have h8 := h7 i hi
      have hir : (List.range w.length).getD i 0 = i := by simp [List.getD_eq_getElem?_getD, hi]
      rw [hir, Option.map_eq_some_iff] at h8
      obtain ⟨t, ht, h9⟩ := h8
      rw [← h9]
      split
      · rw [mul_zero]
      · exact kktTerm_value _ _ _ _ _ _ ht
    have hsum : col.sum = ∑ i ∈ Finset.range w.length, col.getD i 0 := by
      rw [← h6]
      clear * -
      induction col with
      | nil => rfl
      | cons a l ih => rw [List.sum_cons, List.length_cons, Finset.sum_range_succ', ih]; simp [add_comm]
    show col.sum = _
    rw [hsum, Finset.sum_congr rfl fun i hi => hcol i (Finset.mem_range.1 hi)]
    match w, hdw with
    | [], _ => simp at hj
    | x :: r, hdw =>
      rw [cellWidths_eq, Option.some.injEq] at hdw
      rw [← hdw]
      have := widthsFrom_sum x x r (fun i => if i = j then 0 else pvIntegrand kind (spec.getD i 0) ((x :: r).getD i 0) ((x :: r).getD j 0))
      rw [this]; ring
  · rw [if_neg hl] at h; simp at h

/-- C68. An even spectrum on a mesh symmetric about zero has an odd real part: the values at `w` and `-w` of the general
    transformation of a pair of points are opposite (here for one pair and every evaluation point). -/
theorem pvIntegrand_odd (A w' w : ℝ) : pvIntegrand "general" A (-w') (-w) = -pvIntegrand "general" A w' w := by
  simp only [pvIntegrand, or_true, if_true]
  rw [show -w - -w' = -(w - w') by ring, div_neg]

example : ∃ g, kkt [1, 2, 1] [-1, 0, 2] "general" = some g ∧ (g.getD 0 0).re = -(3 / 2) * 2 - 1 / 3 := by
  have h : kkt [1, 2, 1] [-1, 0, 2] "general" ≠ none := by
    simp [kkt, cellWidths, midpoints, kktTerm, List.range_succ]
  obtain ⟨g, hg⟩ := Option.ne_none_iff_exists'.1 h
  refine ⟨g, hg, ?_⟩
  rw [kkt_real_part _ _ _ g hg 0 (by simp)]
  simp [trapezoid, pvIntegrand, Finset.sum_range_succ]
  norm_num

end DGA.Ana
