/-
  C86: the real-frequency optical bubble.
-/
import Verif.Optics.RealModel
import Verif.KPath.Props2
import Mathlib.Algebra.BigOperators.Intervals

noncomputable section

namespace DGA.Optics

open DGA.KPath

/-! ### specification -/

/-- the symmetric grid of `2M+1` frequencies with spacing `h` -/
def oddGrid (M : ℕ) (h : ℝ) : List ℝ := (List.range (2 * M + 1)).map fun (j : ℕ) => ((j : ℝ) - M) * h

/-- a Green's function on that grid; `G j` is its value at the frequency `j h` -/
def oddRow (M : ℕ) (G : ℤ → ℂ) : List ℂ := (List.range (2 * M + 1)).map fun (j : ℕ) => G ((j : ℤ) - M)

/-- integrand of Eq. (5): `nf(v) A(v) [G^R(v+w) + G^A(v-w)]` at `v = j h`, `w = i h` -/
def integrand (h beta : ℝ) (G : ℤ → ℂ) (i j : ℤ) : ℂ :=
  ((1 / (Real.exp (beta * (j * h)) + 1) * (-(G j).im / Real.pi) : ℝ) : ℂ) * (G (j + i) + (starRingEnd ℂ) (G (j - i)))

/-- trapezoidal rule over `-K h ≤ v ≤ K h` -/
def trapezoid (h : ℝ) (K : ℕ) (F : ℤ → ℂ) : ℂ := ∑ j ∈ Finset.range (2 * K), (h : ℂ) * ((F ((j : ℤ) - K) + F ((j : ℤ) + 1 - K)) / 2)

/-! ### helpers -/

theorem slice_range {α : Type} (n : ℕ) (f : ℕ → α) (a b : ℕ) (hab : a ≤ b) (hb : b ≤ n) :
    Py.slice ((List.range n).map f) (a : ℤ) (b : ℤ) = (List.range (b - a)).map fun (j : ℕ) => f (a + j) := by
  apply List.ext_getElem?
  intro k
  by_cases hk : k < b - a
  · rw [Py.slice_get?_in _ _ _ (by omega) (by simp; omega) k (by omega)]
    rw [List.getElem?_map, List.getElem?_map, List.getElem?_range (by omega), List.getElem?_range hk]
    simp only [Option.map_some]
    congr 2
  · have h1 : (Py.slice ((List.range n).map f) (a : ℤ) (b : ℤ)).length = b - a := by
      rw [Py.length_slice_in _ _ _ (by omega) (by omega) (by simp; omega)]; omega
    rw [List.getElem?_eq_none (by omega), List.getElem?_eq_none (by simp; omega)]

theorem zipWith_range {α β γ : Type} (f : α → β → γ) (n : ℕ) (a : ℕ → α) (b : ℕ → β) :
    List.zipWith f ((List.range n).map a) ((List.range n).map b) = (List.range n).map fun (j : ℕ) => f (a j) (b j) := by
  rw [List.zipWith_map, List.zipWith_self]

theorem bc_range {α β γ : Type} (f : α → β → γ) (n : ℕ) (a : ℕ → α) (b : ℕ → β) :
    bc f ((List.range n).map a) ((List.range n).map b) = some ((List.range n).map fun (j : ℕ) => f (a j) (b j)) := by
  unfold bc
  rw [if_pos (by simp), zipWith_range]

theorem zipWith_tail_range {α γ : Type} (f : α → α → γ) (n : ℕ) (a : ℕ → α) :
    List.zipWith f ((List.range n).map a) ((List.range n).map a).tail = (List.range (n - 1)).map fun (j : ℕ) => f (a j) (a (j + 1)) := by
  apply List.ext_getElem?
  intro k
  rw [List.getElem?_zipWith]
  rw [List.getElem?_tail]
  simp only [List.getElem?_map]
  by_cases hk : k + 1 < n
  · rw [List.getElem?_range (by omega), List.getElem?_range hk, List.getElem?_range (by omega)]; rfl
  · rw [List.getElem?_eq_none (l := List.range n) (i := k + 1) (by simp; omega), List.getElem?_eq_none (l := List.range (n - 1)) (by simp; omega)]
    cases (Option.map a (List.range n)[k]?) <;> rfl

theorem sum_range_list {A : Type} [AddCommMonoid A] (n : ℕ) (F : ℕ → A) : ((List.range n).map F).sum = ∑ l ∈ Finset.range n, F l := by
  induction n with
  | zero => simp
  | succ n ih => rw [List.range_succ, List.map_append, List.sum_append, ih, Finset.sum_range_succ]; simp

theorem trapz_range (n : ℕ) (y : ℕ → ℂ) (x : ℕ → ℝ) :
    trapz ((List.range n).map y) ((List.range n).map x) = some (∑ j ∈ Finset.range (n - 1), ((x (j + 1) - x j : ℝ) : ℂ) * ((y j + y (j + 1)) / 2)) := by
  unfold trapz
  rw [if_pos (by simp), zipWith_tail_range, zipWith_tail_range, zipWith_range, sum_range_list]

theorem argNear_unique (x : ℝ) (n : ℕ) (f : ℕ → ℝ) (c : ℕ) (hc : c < n) (h : ∀ j < n, j ≠ c → |f c - x| < |f j - x|) :
    argNear x ((List.range n).map f) = some c := by
  obtain ⟨i, hi⟩ := argNear_some x ((List.range n).map f) (by simp; omega)
  obtain ⟨y, hy, hmin, _⟩ := argNear_spec _ _ _ hi
  have hin : i < n := by
    by_contra hk
    rw [List.getElem?_eq_none (by simp; omega)] at hy; cases hy
  have hget : ∀ j < n, ((List.range n).map f)[j]? = some (f j) := by intro j hj; simp [hj]
  rw [hget i hin] at hy
  have hy' : f i = y := Option.some.inj hy
  by_contra hne
  have hic : i ≠ c := fun e => hne (by rw [hi, e])
  have h1 := h i hin hic
  have h2 := hmin c _ (hget c hc)
  rw [hy'] at h1
  linarith

/-- a point closer than half a spacing to the grid point `c` is nearest to it -/
theorem near_grid (h x o : ℝ) (hh : 0 < h) (c j : ℕ) (hj : j ≠ c) (hx : |x - ((c : ℝ) - o) * h| < h / 2) :
    |((c : ℝ) - o) * h - x| < |((j : ℝ) - o) * h - x| := by
  have h1 : h ≤ |((j : ℝ) - o) * h - ((c : ℝ) - o) * h| := by
    have : ((j : ℝ) - o) * h - ((c : ℝ) - o) * h = ((j : ℝ) - c) * h := by ring
    rw [this, abs_mul, abs_of_pos hh]
    have h2 : (1 : ℝ) ≤ |(j : ℝ) - c| := by
      have : (1 : ℤ) ≤ |(j : ℤ) - c| := Int.one_le_abs (by omega)
      exact_mod_cast this
    nlinarith
  have h2 := abs_sub_le (((j : ℝ) - o) * h) x (((c : ℝ) - o) * h)
  rw [abs_sub_comm] at hx
  rw [abs_sub_comm x] at h2
  linarith

theorem gridMax_ge (w : List ℝ) (x : ℝ) (hx : x ∈ w) : x ≤ gridMax w := by
  unfold gridMax
  generalize w.getD 0 0 = z
  induction w with
  | nil => cases hx
  | cons a l ih =>
    rw [List.foldr_cons]
    rcases List.mem_cons.mp hx with h | h
    · rw [h]; exact le_max_left _ _
    · exact (ih h).trans (le_max_right _ _)

theorem mapM_some'' {α β : Type} (l : List α) (g : α → β) (h : α → Option β) (hh : ∀ x ∈ l, h x = some (g x)) : l.mapM h = some (l.map g) := by
  induction l with
  | nil => rfl
  | cons a l ih =>
    rw [List.mapM_cons, hh a (by simp), ih fun x hx => hh x (by simp [hx])]
    rfl

theorem mapM_none'' {α β : Type} (l : List α) (h : α → Option β) (x : α) (hx : x ∈ l) (hn : h x = none) : l.mapM h = none := by
  induction l with
  | nil => cases hx
  | cons a l ih =>
    rw [List.mapM_cons]
    rcases List.mem_cons.mp hx with e | e
    · rw [← e, hn]; rfl
    · rw [ih e]
      cases h a <;> rfl

/-! ### the odd grid -/

theorem window_odd (M : ℕ) (h wMax : ℝ) (hh : 0 < h) (c : ℕ) (hc : c ≤ M) (hw : |wMax - c * h| < h / 2) :
    window (oddGrid M h) wMax = some (M, M + c, (c : ℤ), ((2 * M + 1 - c : ℕ) : ℤ)) := by
  unfold window oddGrid
  have e0 := argNear_unique 0 (2 * M + 1) (fun (j : ℕ) => ((j : ℝ) - M) * h) M (by omega)
    (fun j _ hj => near_grid h 0 M hh M j hj (by simp; exact hh))
  have e1 := argNear_unique wMax (2 * M + 1) (fun (j : ℕ) => ((j : ℝ) - M) * h) (M + c) (by omega)
    (fun j _ hj => near_grid h wMax M hh (M + c) j hj (by push_cast; simpa using hw))
  rw [e0, e1]
  simp only [Option.bind_some, Option.map_some, List.length_map, List.length_range]
  have h2 : (2 * M + 1) % 2 = 1 := by omega
  rw [h2]
  congr 3
  ext <;> simp <;> omega

theorem realTerm_odd (M : ℕ) (h beta : ℝ) (c i : ℕ) (hi : i + 1 ≤ c) (hc : c ≤ M) (G : ℤ → ℂ) :
    realTerm (oddGrid M h) beta (c : ℤ) ((2 * M + 1 - c : ℕ) : ℤ) (oddRow M G) (i : ℤ) =
      some (trapezoid h (M - c) (integrand h beta G i)) := by
  unfold realTerm oddGrid oddRow
  simp only [List.map_map]
  have s1 := slice_range (2 * M + 1) (fun (j : ℕ) => ((j : ℝ) - M) * h) c (2 * M + 1 - c) (by omega) (by omega)
  have s2 := slice_range (2 * M + 1) ((fun (z : ℂ) => -z.im / Real.pi) ∘ fun (j : ℕ) => G ((j : ℤ) - M)) c (2 * M + 1 - c) (by omega) (by omega)
  have s3 := slice_range (2 * M + 1) (fun (j : ℕ) => G ((j : ℤ) - M)) (c + i) (2 * M + 1 - c + i) (by omega) (by omega)
  have s4 := slice_range (2 * M + 1) ((fun (z : ℂ) => (starRingEnd ℂ) z) ∘ fun (j : ℕ) => G ((j : ℤ) - M)) (c - i) (2 * M + 1 - c - i) (by omega) (by omega)
  have c1 : (c : ℤ) + i = ((c + i : ℕ) : ℤ) := by push_cast; ring
  have c2 : ((2 * M + 1 - c : ℕ) : ℤ) + i = ((2 * M + 1 - c + i : ℕ) : ℤ) := by omega
  have c3 : (c : ℤ) - i = ((c - i : ℕ) : ℤ) := by omega
  have c4 : ((2 * M + 1 - c : ℕ) : ℤ) - i = ((2 * M + 1 - c - i : ℕ) : ℤ) := by omega
  rw [c1, c2, c3, c4, s1, s2, s3, s4]
  have n3 : 2 * M + 1 - c + i - (c + i) = 2 * M + 1 - c - c := by omega
  have n4 : 2 * M + 1 - c - i - (c - i) = 2 * M + 1 - c - c := by omega
  rw [n3, n4]
  simp only [List.map_map, bc_range, Option.bind_some, trapz_range]
  congr 1
  unfold trapezoid
  have n5 : 2 * M + 1 - c - c - 1 = 2 * (M - c) := by omega
  rw [n5]
  refine Finset.sum_congr rfl fun j hj => ?_
  have hj' := Finset.mem_range.mp hj
  have hF : ∀ t : ℕ, t ≤ 2 * (M - c) → (((fun x => fermiFunction x beta) ∘ fun (j : ℕ) => (((c + j : ℕ) : ℝ) - M) * h) t *
      ((fun (z : ℂ) => -z.im / Real.pi) ∘ fun (j : ℕ) => G ((j : ℤ) - M)) (c + t) : ℝ) *
      (G (((c + i + t : ℕ) : ℤ) - M) + ((fun (z : ℂ) => (starRingEnd ℂ) z) ∘ fun (j : ℕ) => G ((j : ℤ) - M)) (c - i + t)) =
      integrand h beta G i ((t : ℤ) - (M - c : ℕ)) := by
    intro t ht
    unfold integrand fermiFunction
    simp only [Function.comp]
    have a1 : (((c + t : ℕ) : ℝ) - M) = (((t : ℤ) - (M - c : ℕ) : ℤ) : ℝ) := by push_cast [Nat.cast_sub hc]; ring
    have a2 : ((c + t : ℕ) : ℤ) - M = (t : ℤ) - (M - c : ℕ) := by omega
    have a3 : ((c + i + t : ℕ) : ℤ) - M = (t : ℤ) - (M - c : ℕ) + i := by omega
    have a4 : ((c - i + t : ℕ) : ℤ) - M = (t : ℤ) - (M - c : ℕ) - i := by omega
    rw [a1, a2, a3, a4]
  have k1 := hF j (by omega)
  have k2 := hF (j + 1) (by omega)
  push_cast at k1 k2 ⊢
  rw [k1, k2]
  have k3 : (j : ℤ) + 1 - ((M - c : ℕ) : ℤ) = (j : ℤ) + 1 - ((M - c : ℕ) : ℤ) := rfl
  ring_nf

/-- C86 (a): on a symmetric grid with an odd number of frequencies the routine never leaves the grid and returns, for every frequency `i h` below the
    requested maximum (rounded to the grid, `c h`), the trapezoidal approximation of Eq. (5) over the window `|v| ≤ (M - c) h` common to all frequencies -/
theorem realf_value (M : ℕ) (h beta wMax : ℝ) (hh : 0 < h) (c : ℕ) (hc : c ≤ M) (hw : |wMax - c * h| < h / 2) (hmax : wMax < M * h)
    (Gs : List (ℤ → ℂ)) (lv2 : List ℂ) (hlen : lv2.length = Gs.length) :
    chijjBubbleRealf (oddGrid M h) (Gs.map (oddRow M)) lv2 beta wMax =
      some ((List.range (c - 1)).map fun (i : ℕ) => -2 * ((List.zipWith (fun (l : ℂ) (G : ℤ → ℂ) =>
          l * trapezoid h (M - c) (integrand h beta G ((i : ℤ) + 1))) lv2 Gs).sum / (Gs.length : ℂ)),
        (List.range (c - 1)).map fun (i : ℕ) => ((i : ℝ) + 1) * h) := by
  unfold chijjBubbleRealf
  have hm : gridMax (oddGrid M h) > wMax := by
    refine lt_of_lt_of_le hmax (gridMax_ge _ _ ?_)
    unfold oddGrid
    refine List.mem_map.mpr ⟨2 * M, by simp, ?_⟩
    push_cast; ring
  rw [if_neg (not_not.mpr hm), window_odd M h wMax hh c hc hw]
  simp only [Option.bind_some]
  have hs : Py.slice (oddGrid M h) ((M : ℤ) + 1) ((M + c : ℕ) : ℤ) = (List.range (c - 1)).map fun (i : ℕ) => ((i : ℝ) + 1) * h := by
    unfold oddGrid
    by_cases h0 : c = 0
    · subst h0
      rw [Py.slice_eq_nil_of_le]
      · simp
      · simp only [List.length_map, List.length_range]
        rw [Py.clip_of_nonneg _ _ (by omega) (by omega), Py.clip_of_nonneg _ _ (by omega) (by omega)]
        omega
    · have := slice_range (2 * M + 1) (fun (j : ℕ) => ((j : ℝ) - M) * h) (M + 1) (M + c) (by omega) (by omega)
      rw [show ((M : ℤ) + 1) = ((M + 1 : ℕ) : ℤ) by push_cast; ring, this, show M + c - (M + 1) = c - 1 by omega]
      refine List.map_congr_left fun i _ => ?_
      push_cast; ring
  rw [hs, List.length_map, List.length_range]
  have hz : ∀ i ∈ List.range (c - 1), ((List.zip lv2 (Gs.map (oddRow M))).mapM fun (p : ℂ × List ℂ) =>
      (realTerm (oddGrid M h) beta (c : ℤ) ((2 * M + 1 - c : ℕ) : ℤ) p.2 ((i : ℤ) + 1)).map fun (t : ℂ) => p.1 * t) =
      some (List.zipWith (fun (l : ℂ) (G : ℤ → ℂ) => l * trapezoid h (M - c) (integrand h beta G ((i : ℤ) + 1))) lv2 Gs) := by
    intro i hi
    have hi' := List.mem_range.mp hi
    clear hlen
    induction lv2 generalizing Gs with
    | nil => simp
    | cons l lv2 ih =>
      cases Gs with
      | nil => simp
      | cons G Gs =>
        rw [List.map_cons, List.zip_cons_cons, List.mapM_cons, ih Gs]
        have := realTerm_odd M h beta c (i + 1) (by omega) hc G
        push_cast at this
        simp only [this, Option.map_some]
        rfl
  rw [mapM_some'' (List.range (c - 1)) (fun (i : ℕ) => -2 * ((List.zipWith (fun (l : ℂ) (G : ℤ → ℂ) =>
          l * trapezoid h (M - c) (integrand h beta G ((i : ℤ) + 1))) lv2 Gs).sum / (Gs.length : ℂ)))]
  · rfl
  · intro i hi
    rw [hz i hi, Option.map_some, List.length_zipWith, hlen, min_self]

/-! ### the even grid -/

/-- a symmetric grid of `2M` frequencies -/
def evenGrid (M : ℕ) (h : ℝ) : List ℝ := (List.range (2 * M)).map fun (j : ℕ) => ((j : ℝ) - (M - 1 / 2)) * h

theorem argNear_even (M : ℕ) (hM : 0 < M) (h : ℝ) (hh : 0 < h) : argNear 0 (evenGrid M h) = some (M - 1) := by
  unfold evenGrid
  set f : ℕ → ℝ := fun (j : ℕ) => ((j : ℝ) - (M - 1 / 2)) * h with hf
  obtain ⟨i, hi⟩ := argNear_some 0 ((List.range (2 * M)).map f) (by simp; omega)
  obtain ⟨y, hy, hmin, hfirst⟩ := argNear_spec _ _ _ hi
  have hin : i < 2 * M := by
    by_contra hk
    rw [List.getElem?_eq_none (by simp; omega)] at hy; cases hy
  have hget : ∀ j < 2 * M, ((List.range (2 * M)).map f)[j]? = some (f j) := by intro j hj; simp [hj]
  rw [hget i hin] at hy
  have hy' : f i = y := Option.some.inj hy
  have hm1 : |f (M - 1)| = h / 2 := by
    rw [hf]; dsimp only
    rw [Nat.cast_sub (by omega : 1 ≤ M), abs_mul, abs_of_pos hh]
    rw [show ((M : ℝ) - (1 : ℕ) - (M - 1 / 2)) = -(1 / 2) by push_cast; ring, abs_neg, abs_of_pos (by norm_num)]
    ring
  have hle := hmin (M - 1) _ (hget (M - 1) (by omega))
  rw [← hy', sub_zero, sub_zero, hm1] at hle
  have hcases : i = M - 1 ∨ i = M := by
    have : |(i : ℝ) - (M - 1 / 2)| ≤ 1 / 2 := by
      rw [hf] at hle; dsimp only at hle
      rw [abs_mul, abs_of_pos hh] at hle
      by_contra hcon
      push Not at hcon
      nlinarith
    rw [abs_le] at this
    have h1 : (i : ℝ) ≤ M := by linarith
    have h2 : (M : ℝ) ≤ i + 1 := by linarith
    have h1' : i ≤ M := by exact_mod_cast h1
    have h2' : M ≤ i + 1 := by exact_mod_cast h2
    omega
  rcases hcases with e | e
  · rw [hi, e]
  · exfalso
    have := hfirst (M - 1) _ (by omega) (hget (M - 1) (by omega))
    rw [← hy', sub_zero, sub_zero, hm1, e] at this
    have hm : |f M| = h / 2 := by
      rw [hf]; dsimp only
      rw [abs_mul, abs_of_pos hh, show ((M : ℝ) - (M - 1 / 2)) = 1 / 2 by ring, abs_of_pos (by norm_num)]; ring
    linarith

/-- C86 (b): on a symmetric grid with an even number of frequencies the routine raises, whatever the Green's function, as soon as it has to compute
    one frequency -/
theorem realf_even_raises (M : ℕ) (hM : 0 < M) (h beta wMax : ℝ) (hh : 0 < h) (m : ℕ) (hm : M < m) (hm2 : m < 2 * M)
    (hw : |wMax - ((m : ℝ) - (M - 1 / 2)) * h| < h / 2) (g : List ℂ) (hg : g.length = 2 * M) (l : ℂ) (gs : List (List ℂ)) (ls : List ℂ) :
    chijjBubbleRealf (evenGrid M h) (g :: gs) (l :: ls) beta wMax = none := by
  unfold chijjBubbleRealf
  split
  · rfl
  have e1 : argNear wMax (evenGrid M h) = some m := argNear_unique wMax (2 * M) (fun (j : ℕ) => ((j : ℝ) - (M - 1 / 2)) * h) m hm2
    (fun j _ hj => near_grid h wMax (M - 1 / 2) hh m j hj hw)
  have hwin : window (evenGrid M h) wMax = some (M - 1, m, (m : ℤ) - M - 1, ((3 * M - 1 - m : ℕ) : ℤ)) := by
    unfold window
    rw [argNear_even M hM h hh, e1]
    simp only [Option.bind_some, Option.map_some, evenGrid, List.length_map, List.length_range]
    have h2 : (2 * M) % 2 = 0 := by omega
    rw [h2]
    congr 3
    ext <;> simp <;> omega
  rw [hwin]
  simp only [Option.bind_some]
  have hlen : (Py.slice (evenGrid M h) (((M - 1 : ℕ) : ℤ) + 1) (m : ℤ)).length = m - M := by
    rw [Py.length_slice_in _ _ _ (by omega) (by omega) (by simp [evenGrid]; omega)]; omega
  rw [hlen]
  rw [mapM_none'' _ _ (m - M - 1) (by simp; omega)]
  · rfl
  · rw [List.zip_cons_cons, List.mapM_cons]
    have hterm : realTerm (evenGrid M h) beta ((m : ℤ) - M - 1) ((3 * M - 1 - m : ℕ) : ℤ) g (((m - M - 1 : ℕ) : ℤ) + 1) = none := by
      unfold realTerm
      dsimp only
      have c1 : ((m : ℤ) - M - 1 - (((m - M - 1 : ℕ) : ℤ) + 1)) = -1 := by omega
      have hnil : Py.slice (g.map fun (z : ℂ) => (starRingEnd ℂ) z) (-1) (((3 * M - 1 - m : ℕ) : ℤ) - (((m - M - 1 : ℕ) : ℤ) + 1)) = [] := by
        apply Py.slice_eq_nil_of_le
        rw [List.length_map, hg, Py.clip_of_neg _ (-1) (by omega)]
        by_cases hneg : 0 ≤ ((3 * M - 1 - m : ℕ) : ℤ) - (((m - M - 1 : ℕ) : ℤ) + 1)
        · rw [Py.clip_of_nonneg _ _ hneg (by omega)]; omega
        · rw [Py.clip_of_neg _ _ (by omega)]; omega
      rw [c1, hnil]
      have hl2 : 2 ≤ (Py.slice g ((m : ℤ) - M - 1 + (((m - M - 1 : ℕ) : ℤ) + 1)) (((3 * M - 1 - m : ℕ) : ℤ) + (((m - M - 1 : ℕ) : ℤ) + 1))).length := by
        rw [Py.length_slice_in _ _ _ (by omega) (by omega) (by rw [hg]; omega)]; omega
      generalize Py.slice g ((m : ℤ) - M - 1 + (((m - M - 1 : ℕ) : ℤ) + 1)) (((3 * M - 1 - m : ℕ) : ℤ) + (((m - M - 1 : ℕ) : ℤ) + 1)) = gl at hl2
      have hb : bc (fun (a b : ℂ) => a + b) gl [] = none := by
        match gl, hl2 with
        | a :: b :: t, _ => rfl
      rw [hb]
      cases bc (fun (a b : ℝ) => a * b) _ _ <;> rfl
    rw [hterm]
    rfl

/-! ### conductivity -/

theorem sigmaNodes_eq (chi : List ℂ) (w : List ℝ) (hlen : chi.length = w.length) :
    sigmaNodes chi w = ((List.zip w chi).reverse.map fun (p : ℝ × ℂ) => (-p.1, p.2.im / p.1)) ++ (List.zip w chi).map fun (p : ℝ × ℂ) => (p.1, p.2.im / p.1) := by
  unfold sigmaNodes
  rw [List.zipWith_append (by simp [hlen]), List.zip_append (by simp [hlen])]
  congr 1
  · rw [← List.map_reverse, List.map_map]
    apply List.ext_getElem (by simp [hlen])
    intro n h1 h2
    simp [hlen]
  · apply List.ext_getElem (by simp [hlen])
    intro n h1 h2
    simp

/-- C86 (c): the data handed to the interpolation are symmetric in the frequency -/
theorem sigmaNodes_even (chi : List ℂ) (w : List ℝ) (hlen : chi.length = w.length) (x y : ℝ) (h : (x, y) ∈ sigmaNodes chi w) : (-x, y) ∈ sigmaNodes chi w := by
  rw [sigmaNodes_eq chi w hlen] at h ⊢
  rw [List.mem_append] at h ⊢
  rcases h with h | h
  · right
    obtain ⟨p, hp, e⟩ := List.mem_map.mp h
    refine List.mem_map.mpr ⟨p, List.mem_reverse.mp hp, ?_⟩
    simp only [Prod.mk.injEq] at e ⊢
    exact ⟨by rw [← e.1, neg_neg], e.2⟩
  · left
    obtain ⟨p, hp, e⟩ := List.mem_map.mp h
    refine List.mem_map.mpr ⟨p, List.mem_reverse.mpr hp, ?_⟩
    simp only [Prod.mk.injEq] at e ⊢
    exact ⟨by rw [← e.1], e.2⟩

/-- the abscissae are strictly increasing for increasing positive frequencies -/
theorem sigmaNodes_sorted (chi : List ℂ) (w : List ℝ) (hlen : chi.length = w.length) (hpos : ∀ x ∈ w, 0 < x) (hs : w.Pairwise (· < ·)) :
    ((sigmaNodes chi w).map Prod.fst).Pairwise (· < ·) := by
  have e : (sigmaNodes chi w).map Prod.fst = (w.reverse.map fun (x : ℝ) => -x) ++ w := by
    unfold sigmaNodes
    rw [List.map_fst_zip]
    simp [hlen]
  rw [e, List.pairwise_append]
  refine ⟨?_, hs, ?_⟩
  · rw [List.pairwise_map, List.pairwise_reverse]
    exact hs.imp fun h => neg_lt_neg h
  · intro a ha b hb
    obtain ⟨x, hx, rfl⟩ := List.mem_map.mp ha
    have h1 := hpos x (List.mem_reverse.mp hx)
    have h2 := hpos b hb
    linarith

/-- C86 (d): for any interpolation through its data points the conductivity at the frequencies of the bubble is `Im chi(w)/w`; only the value at zero
    frequency is interpolated -/
theorem sigma_values (interp : List (ℝ × ℝ) → ℝ → ℝ)
    (hint : ∀ nodes : List (ℝ × ℝ), (nodes.map Prod.fst).Pairwise (· < ·) → ∀ p ∈ nodes, interp nodes p.1 = p.2)
    (chi : List ℂ) (w : List ℝ) (hlen : chi.length = w.length) (hpos : ∀ x ∈ w, 0 < x) (hs : w.Pairwise (· < ·)) :
    ∃ s0, sigmaFromChijj interp chi w = (s0 :: List.zipWith (fun (z : ℂ) (x : ℝ) => z.im / x) chi w, 0 :: w) := by
  refine ⟨interp (sigmaNodes chi w) 0, ?_⟩
  unfold sigmaFromChijj
  simp only [List.map_cons]
  congr 2
  apply List.ext_getElem (by simp [hlen])
  intro n h1 h2
  simp only [List.length_map] at h1
  rw [List.getElem_map, List.getElem_zipWith]
  refine hint _ (sigmaNodes_sorted chi w hlen hpos hs) (w[n], (chi[n]'(by omega)).im / w[n]) ?_
  rw [sigmaNodes_eq chi w hlen]
  refine List.mem_append_right _ (List.mem_map.mpr ⟨(w[n], chi[n]'(by omega)), ?_, rfl⟩)
  rw [List.mem_iff_getElem]
  exact ⟨n, by simp; omega, by simp⟩

/-! ### the hypotheses are met -/

/-- a grid of 101 frequencies, 20 of them requested -/
example : ∃ (M c : ℕ) (h wMax : ℝ), 0 < h ∧ c ≤ M ∧ 1 < c ∧ |wMax - c * h| < h / 2 ∧ wMax < M * h :=
  ⟨50, 20, 1 / 10, 2, by norm_num, by norm_num, by norm_num, by norm_num, by norm_num⟩

example : ∃ (M m : ℕ) (h wMax : ℝ), 0 < M ∧ 0 < h ∧ M < m ∧ m < 2 * M ∧ |wMax - ((m : ℝ) - (M - 1 / 2)) * h| < h / 2 :=
  ⟨50, 70, 1 / 10, 51 / 25, by norm_num, by norm_num, by norm_num, by norm_num, by rw [abs_lt]; norm_num⟩

example : ∃ (w : List ℝ), (∀ x ∈ w, 0 < x) ∧ w.Pairwise (· < ·) ∧ w.length = 2 := ⟨[1, 2], by simp, by simp, rfl⟩

end DGA.Optics
