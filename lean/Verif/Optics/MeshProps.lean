/-
  C143: the bubble of the optical conductivity on a real-frequency mesh that need not be equidistant: src/dga/optics.py:49-77.
-/
import Verif.Optics.RealProps

noncomputable section

namespace DGA.Optics

open DGA.KPath

/-! ### Specification -/

/-- a mesh of `2M+1` frequencies numbered from `-M` to `M` -/
def meshOf (M : ℕ) (f : ℤ → ℝ) : List ℝ := (List.range (2 * M + 1)).map fun (j : ℕ) => f ((j : ℤ) - M)

/-- the frequencies increase, and the middle one is zero -/
structure OddMesh (M : ℕ) (f : ℤ → ℝ) : Prop where
  zero : f 0 = 0
  incr : ∀ i j : ℤ, -M ≤ i → i < j → j ≤ M → f i < f j

/-- the integrand at the `j`-th frequency: `nf(v) A(v)` there, the Green's functions `i` mesh points above and below -/
def shiftIntegrand (f : ℤ → ℝ) (beta : ℝ) (G : ℤ → ℂ) (i j : ℤ) : ℂ :=
  ((1 / (Real.exp (beta * f j) + 1) * (-(G j).im / Real.pi) : ℝ) : ℂ) * (G (j + i) + (starRingEnd ℂ) (G (j - i)))

/-- trapezoidal rule over the mesh points `-K … K` -/
def meshTrapezoid (f : ℤ → ℝ) (K : ℕ) (F : ℤ → ℂ) : ℂ :=
  ∑ j ∈ Finset.range (2 * K), ((f ((j : ℤ) + 1 - K) - f ((j : ℤ) - K) : ℝ) : ℂ) * ((F ((j : ℤ) - K) + F ((j : ℤ) + 1 - K)) / 2)

/-! ### Theorems -/

theorem argNear_zero_mesh (M : ℕ) (f : ℤ → ℝ) (hf : OddMesh M f) : argNear 0 (meshOf M f) = some M := by
  refine argNear_unique 0 (2 * M + 1) (fun j : ℕ => f ((j : ℤ) - M)) M (by omega) ?_
  intro j hj hne
  simp only [sub_self, hf.zero, sub_zero, abs_zero]
  rw [abs_pos, ← hf.zero]
  rcases lt_or_gt_of_ne hne with h | h
  · exact (hf.incr _ _ (by omega) (by omega) (by omega)).ne
  · exact (hf.incr _ _ (by omega) (by omega) (by omega)).ne'

/-- the mesh point nearest to a frequency that is not negative is not below zero -/
theorem argNear_mesh (M : ℕ) (f : ℤ → ℝ) (hf : OddMesh M f) (x : ℝ) (hx : 0 ≤ x) :
    ∃ c, c ≤ M ∧ argNear x (meshOf M f) = some (M + c) ∧ ∀ j : ℤ, -M ≤ j → j ≤ M → |f c - x| ≤ |f j - x| := by
  obtain ⟨m, hm⟩ := argNear_some x (meshOf M f) (by simp [meshOf])
  obtain ⟨y, hy, hmin, -⟩ := argNear_spec _ _ _ hm
  have hget : ∀ j < 2 * M + 1, (meshOf M f)[j]? = some (f ((j : ℤ) - M)) := by
    intro j hj
    simp [meshOf, hj]
  have hlt : m < 2 * M + 1 := by
    by_contra hk
    rw [List.getElem?_eq_none (by simp [meshOf]; omega)] at hy
    cases hy
  rw [hget m hlt] at hy
  obtain rfl : f ((m : ℤ) - M) = y := Option.some.inj hy
  have hge : M ≤ m := by
    by_contra hk
    have h1 := hmin M _ (hget M (by omega))
    rw [sub_self, hf.zero] at h1
    have h2 := hf.incr ((m : ℤ) - M) 0 (by omega) (by omega) (by omega)
    rw [hf.zero] at h2
    rw [abs_of_nonpos (by linarith), abs_of_nonpos (by linarith)] at h1
    linarith
  refine ⟨m - M, by omega, by rw [show M + (m - M) = m by omega]; exact hm, ?_⟩
  intro j h1 h2
  have := hmin (j + M).toNat _ (hget (j + M).toNat (by omega))
  rw [show (((j + M).toNat : ℕ) : ℤ) - M = j by omega] at this
  rw [show ((m - M : ℕ) : ℤ) = (m : ℤ) - M by omega]
  exact this

theorem window_mesh (M : ℕ) (f : ℤ → ℝ) (hf : OddMesh M f) (wMax : ℝ) (c : ℕ) (hc : c ≤ M) (hw : argNear wMax (meshOf M f) = some (M + c)) :
    window (meshOf M f) wMax = some (M, M + c, (c : ℤ), ((2 * M + 1 - c : ℕ) : ℤ)) := by
  unfold window
  rw [argNear_zero_mesh M f hf, hw]
  simp only [Option.bind_some, Option.map_some, meshOf, List.length_map, List.length_range]
  have h2 : (2 * M + 1) % 2 = 1 := by omega
  rw [h2]
  congr 3
  ext <;> simp <;> omega

theorem realTerm_mesh (M : ℕ) (f : ℤ → ℝ) (beta : ℝ) (c i : ℕ) (hi : i + 1 ≤ c) (hc : c ≤ M) (G : ℤ → ℂ) :
    realTerm (meshOf M f) beta (c : ℤ) ((2 * M + 1 - c : ℕ) : ℤ) (oddRow M G) (i : ℤ) =
      some (meshTrapezoid f (M - c) (shiftIntegrand f beta G i)) := by
  unfold realTerm meshOf oddRow
  simp only [List.map_map]
  have s1 := slice_range (2 * M + 1) (fun (j : ℕ) => f ((j : ℤ) - M)) c (2 * M + 1 - c) (by omega) (by omega)
  have s2 := slice_range (2 * M + 1) ((fun (z : ℂ) => -z.im / Real.pi) ∘ fun (j : ℕ) => G ((j : ℤ) - M)) c (2 * M + 1 - c) (by omega) (by omega)
  have s3 := slice_range (2 * M + 1) (fun (j : ℕ) => G ((j : ℤ) - M)) (c + i) (2 * M + 1 - c + i) (by omega) (by omega)
  have s4 := slice_range (2 * M + 1) ((fun (z : ℂ) => (starRingEnd ℂ) z) ∘ fun (j : ℕ) => G ((j : ℤ) - M)) (c - i) (2 * M + 1 - c - i) (by omega) (by omega)
  have c1 : (c : ℤ) + i = ((c + i : ℕ) : ℤ) := by push_cast; ring
  have c2 : ((2 * M + 1 - c : ℕ) : ℤ) + i = ((2 * M + 1 - c + i : ℕ) : ℤ) := by omega
  have c3 : (c : ℤ) - i = ((c - i : ℕ) : ℤ) := by omega
  have c4 : ((2 * M + 1 - c : ℕ) : ℤ) - i = ((2 * M + 1 - c - i : ℕ) : ℤ) := by omega
  rw [c1, c2, c3, c4, s1, s2, s3, s4]
  have n3 : 2 * M + 1 - c + i - (c + i) = 2 * M + 1 - c - c := by omega
  have n4 : 2 * M + 1 - c - i - (c - i) = 2 * M + 1 - c - c := by omega
  rw [n3, n4]
  simp only [List.map_map, bc_range, Option.bind_some, trapz_range]
  congr 1
  unfold meshTrapezoid
  have n5 : 2 * M + 1 - c - c - 1 = 2 * (M - c) := by omega
  rw [n5]
  refine Finset.sum_congr rfl fun j hj => ?_
  have a0 : ∀ t : ℕ, ((c + t : ℕ) : ℤ) - M = (t : ℤ) - (M - c : ℕ) := fun t => by omega
  have a3 : ∀ t : ℕ, ((c + i + t : ℕ) : ℤ) - M = (t : ℤ) - (M - c : ℕ) + i := fun t => by omega
  have a4 : ∀ t : ℕ, ((c - i + t : ℕ) : ℤ) - M = (t : ℤ) - (M - c : ℕ) - i := fun t => by omega
  have a5 : ((j + 1 : ℕ) : ℤ) - ((M - c : ℕ) : ℤ) = (j : ℤ) + 1 - ((M - c : ℕ) : ℤ) := by push_cast; ring
  unfold shiftIntegrand fermiFunction
  simp only [Function.comp, a0, a3, a4, a5]

/-- **C143 (a).** On a mesh of any kind with an odd number of frequencies and zero in the middle the routine returns: at the mesh frequencies above zero and below
    the one nearest to the requested maximum, the `c`-th above zero, the trapezoidal sum over the mesh points at most `M - c` away from the middle; the Green's
    functions are those at the mesh points a fixed number of places away. -/
theorem mesh_value (M : ℕ) (f : ℤ → ℝ) (hf : OddMesh M f) (beta wMax : ℝ) (h0 : 0 ≤ wMax) (hmax : wMax < f M) (Gs : List (ℤ → ℂ)) (lv2 : List ℂ)
    (hlen : lv2.length = Gs.length) : ∃ c, c ≤ M ∧ (∀ j : ℤ, -M ≤ j → j ≤ M → |f c - wMax| ≤ |f j - wMax|) ∧
    chijjBubbleRealf (meshOf M f) (Gs.map (oddRow M)) lv2 beta wMax =
      some ((List.range (c - 1)).map fun (i : ℕ) => -2 * ((List.zipWith (fun (l : ℂ) (G : ℤ → ℂ) =>
          l * meshTrapezoid f (M - c) (shiftIntegrand f beta G ((i : ℤ) + 1))) lv2 Gs).sum / (Gs.length : ℂ)),
        (List.range (c - 1)).map fun (i : ℕ) => f ((i : ℤ) + 1)) := by
  obtain ⟨c, hc, hw, hnear⟩ := argNear_mesh M f hf wMax h0
  refine ⟨c, hc, hnear, ?_⟩
  unfold chijjBubbleRealf
  have hm : gridMax (meshOf M f) > wMax := by
    refine lt_of_lt_of_le hmax (gridMax_ge _ _ ?_)
    unfold meshOf
    refine List.mem_map.mpr ⟨2 * M, by simp, ?_⟩
    congr 1
    push_cast; ring
  rw [if_neg (not_not.mpr hm), window_mesh M f hf wMax c hc hw]
  simp only [Option.bind_some]
  have hs : Py.slice (meshOf M f) ((M : ℤ) + 1) ((M + c : ℕ) : ℤ) = (List.range (c - 1)).map fun (i : ℕ) => f ((i : ℤ) + 1) := by
    unfold meshOf
    by_cases h0 : c = 0
    · subst h0
      rw [Py.slice_eq_nil_of_le]
      · simp
      · simp only [List.length_map, List.length_range]
        rw [Py.clip_of_nonneg _ _ (by omega) (by omega), Py.clip_of_nonneg _ _ (by omega) (by omega)]
        omega
    · have := slice_range (2 * M + 1) (fun (j : ℕ) => f ((j : ℤ) - M)) (M + 1) (M + c) (by omega) (by omega)
      rw [show ((M : ℤ) + 1) = ((M + 1 : ℕ) : ℤ) by push_cast; ring, this, show M + c - (M + 1) = c - 1 by omega]
      refine List.map_congr_left fun i _ => ?_
      congr 1
      push_cast; ring
  rw [hs, List.length_map, List.length_range]
  have hz : ∀ i ∈ List.range (c - 1), ((List.zip lv2 (Gs.map (oddRow M))).mapM fun (p : ℂ × List ℂ) =>
      (realTerm (meshOf M f) beta (c : ℤ) ((2 * M + 1 - c : ℕ) : ℤ) p.2 ((i : ℤ) + 1)).map fun (t : ℂ) => p.1 * t) =
      some (List.zipWith (fun (l : ℂ) (G : ℤ → ℂ) => l * meshTrapezoid f (M - c) (shiftIntegrand f beta G ((i : ℤ) + 1))) lv2 Gs) := by
    intro i hi
    have hi' := List.mem_range.mp hi
    clear hlen
    induction lv2 generalizing Gs with
    | nil => simp
    | cons l lv2 ih =>
      cases Gs with
      | nil => simp
      | cons G Gs =>
        rw [List.map_cons, List.zip_cons_cons, List.mapM_cons, ih Gs]
        have := realTerm_mesh M f beta c (i + 1) (by omega) hc G
        push_cast at this
        simp only [this, Option.map_some]
        rfl
  rw [mapM_some'' (List.range (c - 1)) (fun (i : ℕ) => -2 * ((List.zipWith (fun (l : ℂ) (G : ℤ → ℂ) =>
          l * meshTrapezoid f (M - c) (shiftIntegrand f beta G ((i : ℤ) + 1))) lv2 Gs).sum / (Gs.length : ℂ)))]
  · rfl
  · intro i hi
    rw [hz i hi, Option.map_some, List.length_zipWith, hlen, min_self]

/-- **C143 (b).** The Green's functions used are those at the frequencies `v ± w` exactly on equidistant meshes: the mesh points `i` places away from the `j`-th
    one lie at a distance of the `i`-th frequency for all places if and only if all frequencies are multiples of the first. -/
theorem shift_is_frequency_iff (M : ℕ) (f : ℤ → ℝ) (hf : OddMesh M f) :
    (∀ i j : ℤ, 0 ≤ i → i ≤ M → -M ≤ j → j + i ≤ M → f (j + i) = f j + f i) ↔ ∀ j : ℤ, -M ≤ j → j ≤ M → f j = j * f 1 := by
  constructor
  · intro h
    have hup : ∀ n : ℕ, (n : ℤ) ≤ M → f n = n * f 1 := by
      intro n
      induction n with
      | zero => intro _; simp [hf.zero]
      | succ n ih =>
        intro hn
        have := h 1 n (by omega) (by omega) (by omega) (by omega)
        push_cast
        rw [this, ih (by omega)]
        ring
    intro j h1 h2
    by_cases hj : 0 ≤ j
    · lift j to ℕ using hj
      have := hup j h2
      exact_mod_cast this
    · have := h (-j) j (by omega) (by omega) h1 (by omega)
      rw [show j + -j = 0 by ring, hf.zero] at this
      obtain ⟨n, hn⟩ : ∃ n : ℕ, (n : ℤ) = -j := ⟨(-j).toNat, by omega⟩
      have h3 := hup n (by omega)
      rw [hn] at h3
      have h4 : (n : ℝ) = -(j : ℝ) := by
        have : ((n : ℤ) : ℝ) = ((-j : ℤ) : ℝ) := by rw [hn]
        push_cast at this
        exact this
      rw [h4] at h3
      linarith
  · intro h i j h1 h2 h3 h4
    rw [h (j + i) (by omega) h4, h j h3 (by omega), h i (by omega) h2]
    push_cast
    ring

end DGA.Optics
