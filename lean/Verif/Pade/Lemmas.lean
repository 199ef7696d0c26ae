/- Lemmas about the Padé model. -/
import Verif.Pade.Model
import Mathlib.Tactic.FieldSimp
import Mathlib.Tactic.LinearCombination
import Mathlib.Tactic.Ring
import Mathlib.Algebra.Polynomial.Roots

namespace DGA.Pade

variable {K : Type} [Field K]

/-- Specification: Thiele's inverse differences of the data `u` at the nodes `z`,
    `ρ_0(i) = u_i`, `ρ_{j+1}(i) = (ρ_j(j) − ρ_j(i)) / ((z_i − z_j) ρ_j(i))`. -/
def invDiff (z u : Nat → K) : Nat → Nat → K
  | 0, i => u i
  | j + 1, i => (invDiff z u j j - invDiff z u j i) / ((z i - z j) * invDiff z u j i)

/-- node / datum number `i` of a list -/
def at' (l : List K) (i : Nat) : K := l.getD i 0

omit [Field K] in
theorem setAt_same (g : Nat → Nat → K) (i j : Nat) (v : K) : setAt g i j v i j = v := by simp [setAt]
omit [Field K] in
theorem setAt_other (g : Nat → Nat → K) (i j a b : Nat) (v : K) (h : ¬ (a = i ∧ b = j)) : setAt g i j v a b = g a b := by
  simp [setAt, h]

theorem tableRow_aux (z u : List K) (i : Nat) (g : Nat → Nat → K)
    (hlow : ∀ a < i, ∀ b ≤ a, g a b = invDiff (at' z) (at' u) b a) (h0 : ∀ a, g a 0 = at' u a) (n : Nat) (hn : n ≤ i) :
    let g' := (List.range' 1 n).foldl (fun g j => setAt g i j ((g (j - 1) (j - 1) - g i (j - 1)) / ((z.getD i 0 - z.getD (j - 1) 0) * g i (j - 1)))) g
    (∀ a b, a ≠ i → g' a b = g a b) ∧ (∀ a, g' a 0 = at' u a) ∧ ∀ b ≤ n, g' i b = invDiff (at' z) (at' u) b i := by
  induction n with
  | zero => simp [h0, invDiff]
  | succ n ih =>
    obtain ⟨h1, h2, h3⟩ := ih (by omega)
    simp only [List.range'_concat, List.foldl_append, List.foldl_cons, List.foldl_nil, Nat.one_mul]
    have e : 1 + n - 1 = n := by omega
    refine ⟨fun a b ha => ?_, fun a => ?_, fun b hb => ?_⟩
    · rw [setAt_other _ _ _ _ _ _ (by omega), h1 a b ha]
    · rw [setAt_other _ _ _ _ _ _ (by omega), h2 a]
    · by_cases hbn : b = n + 1
      · subst hbn
        rw [show n + 1 = 1 + n by omega, setAt_same, e, h3 n (le_refl _), h1 n n (by omega), hlow n (by omega) n (le_refl _),
          show 1 + n = n + 1 by omega]
        rfl
      · rw [setAt_other _ _ _ _ _ _ (by omega), h3 b (by omega)]

theorem table_aux (z u : List K) (n : Nat) :
    let g' := (List.range n).foldl (fun g i => tableRow z i g) (fun i j => if j = 0 then u.getD i 0 else 0)
    (∀ a, g' a 0 = at' u a) ∧ ∀ a < n, ∀ b ≤ a, g' a b = invDiff (at' z) (at' u) b a := by
  induction n with
  | zero => simp [at']
  | succ n ih =>
    obtain ⟨h1, h2⟩ := ih
    simp only [List.range_succ, List.foldl_append, List.foldl_cons, List.foldl_nil]
    obtain ⟨k1, k2, k3⟩ := tableRow_aux z u n _ h2 h1 n (le_refl _)
    refine ⟨k2, fun a ha b hb => ?_⟩
    by_cases han : a = n
    · subst han; exact k3 b hb
    · exact (k1 a b han).trans (h2 a (by omega) b hb)

/-- the loops of `compute_coefficients` compute the inverse differences -/
theorem table_eq (z u : List K) (a b : Nat) (ha : a < z.length) (hb : b ≤ a) :
    table z u a b = invDiff (at' z) (at' u) b a := (table_aux z u z.length).2 a ha b hb

/-- `A_n` and `B_n` for a sequence of nodes and coefficients -/
def numA (zr : K) (z a : Nat → K) : Nat → K
  | 0 => 0
  | 1 => a 0
  | n + 2 => numA zr z a (n + 1) + (zr - z n) * a (n + 1) * numA zr z a n
def denB (zr : K) (z a : Nat → K) : Nat → K
  | 0 => 1
  | 1 => 1
  | n + 2 => denB zr z a (n + 1) + (zr - z n) * a (n + 1) * denB zr z a n

theorem getElem?_at' (l : List K) (i : Nat) (h : i < l.length) : l[i]? = some (at' l i) := by
  simp [at', h]

theorem padeA_eq (zr : K) (z a : List K) (h : a.length = z.length) : ∀ n ≤ z.length, padeA zr z a n = some (numA zr (at' z) (at' a) n)
  | 0, _ => rfl
  | 1, hn => by rw [padeA, getElem?_at' _ _ (by omega)]; rfl
  | n + 2, hn => by
    rw [padeA, padeA_eq zr z a h (n + 1) (by omega), padeA_eq zr z a h n (by omega), getElem?_at' z n (by omega),
      getElem?_at' a (n + 1) (by omega)]; rfl

theorem padeB_eq (zr : K) (z a : List K) (h : a.length = z.length) : ∀ n ≤ z.length, padeB zr z a n = some (denB zr (at' z) (at' a) n)
  | 0, _ => rfl
  | 1, hn => rfl
  | n + 2, hn => by
    rw [padeB, padeB_eq zr z a h (n + 1) (by omega), padeB_eq zr z a h n (by omega), getElem?_at' z n (by omega),
      getElem?_at' a (n + 1) (by omega)]; rfl

/-- truncated form: the last coefficient replaced by the inverse difference at the node `i` -/
theorem trunc (z u : Nat → K) (i : Nat) (hz : ∀ j < i, z i ≠ z j) (hg : ∀ j < i, invDiff z u j i ≠ 0) (k : Nat) (hk : k ≤ i) :
    ∀ m, m + 1 = k →
    numA (z i) z (fun n => invDiff z u n n) (m + 1) + (z i - z m) * invDiff z u (m + 1) i * numA (z i) z (fun n => invDiff z u n n) m
      = u i * (denB (z i) z (fun n => invDiff z u n n) (m + 1) + (z i - z m) * invDiff z u (m + 1) i * denB (z i) z (fun n => invDiff z u n n) m) := by
  induction k with
  | zero => intro m hm; omega
  | succ k ih =>
    rintro m hm
    obtain rfl : m = k := by omega
    have hne : z i - z m ≠ 0 := sub_ne_zero.2 (hz m (by omega))
    have key : invDiff z u m i * (1 + (z i - z m) * invDiff z u (m + 1) i) = invDiff z u m m := by
      have := hg m (by omega)
      rw [invDiff]; field_simp; ring
    cases m with
    | zero =>
      simp only [numA, denB]
      have : invDiff z u 0 i = u i := rfl
      rw [this] at key
      linear_combination -key
    | succ m =>
      have := ih (by omega) m rfl
      simp only [numA, denB] at this ⊢
      rw [← key]
      linear_combination (1 + (z i - z (m + 1)) * invDiff z u (m + 1 + 1) i) * this

/-- the interpolation property of the two recursions, without division -/
theorem num_eq_den (z u : Nat → K) (i : Nat) (hz : ∀ j < i, z i ≠ z j) (hg : ∀ j < i, invDiff z u j i ≠ 0) (n : Nat) (hn : i < n) :
    numA (z i) z (fun n => invDiff z u n n) n = u i * denB (z i) z (fun n => invDiff z u n n) n := by
  have base : ∀ d, numA (z i) z (fun n => invDiff z u n n) (i + 1 + d) = u i * denB (z i) z (fun n => invDiff z u n n) (i + 1 + d)
      ∧ numA (z i) z (fun n => invDiff z u n n) (i + 2 + d) = u i * denB (z i) z (fun n => invDiff z u n n) (i + 2 + d) := by
    have h1 : numA (z i) z (fun n => invDiff z u n n) (i + 1) = u i * denB (z i) z (fun n => invDiff z u n n) (i + 1) := by
      cases i with
      | zero => simp [numA, denB, invDiff]
      | succ i => simpa [numA, denB] using trunc z u (i + 1) hz hg (i + 1) (le_refl _) i rfl
    intro d
    induction d with
    | zero =>
      refine ⟨h1, ?_⟩
      simp only [numA, denB, sub_self, zero_mul, add_zero]
      exact h1
    | succ d ih =>
      refine ⟨by rw [show i + 1 + (d + 1) = i + 2 + d by omega]; exact ih.2, ?_⟩
      rw [show i + 2 + (d + 1) = (i + 1 + d) + 2 by omega]
      simp only [numA, denB]
      have h2 := ih.2
      rw [show i + 2 + d = i + 1 + d + 1 by omega] at h2
      rw [ih.1, h2]; ring
  obtain ⟨d, rfl⟩ := Nat.exists_eq_add_of_lt hn
  have := (base d).1
  rwa [show i + 1 + d = i + d + 1 by omega] at this

theorem computeCoefficients_some (z u : List K) (h : u.length = z.length) :
    computeCoefficients z u = some ((List.range z.length).map fun i => invDiff (at' z) (at' u) i i) := by
  rw [computeCoefficients, if_pos h]
  congr 1
  exact List.map_congr_left fun i hi => table_eq z u i i (List.mem_range.1 hi) (le_refl _)

theorem at'_map_range (n : Nat) (f : Nat → K) (i : Nat) (h : i < n) : at' ((List.range n).map f) i = f i := by
  simp [at', h]

theorem numA_congr (zr : K) (z : Nat → K) (a b : Nat → K) : ∀ n, (∀ i < n, a i = b i) → numA zr z a n = numA zr z b n
  | 0, _ => rfl
  | 1, h => h 0 (by omega)
  | n + 2, h => by
    simp only [numA]
    rw [numA_congr zr z a b (n + 1) fun i hi => h i (by omega), numA_congr zr z a b n fun i hi => h i (by omega), h (n + 1) (by omega)]
theorem denB_congr (zr : K) (z : Nat → K) (a b : Nat → K) : ∀ n, (∀ i < n, a i = b i) → denB zr z a n = denB zr z b n
  | 0, _ => rfl
  | 1, _ => rfl
  | n + 2, h => by
    simp only [denB]
    rw [denB_congr zr z a b (n + 1) fun i hi => h i (by omega), denB_congr zr z a b n fun i hi => h i (by omega), h (n + 1) (by omega)]

/-- value of the evaluation chain in closed recursion form -/
theorem padeC_value (z u : List K) (h : u.length = z.length) (a : List K) (ha : computeCoefficients z u = some a) (zr : K) :
    padeC zr z a = some (numA zr (at' z) (fun n => invDiff (at' z) (at' u) n n) z.length /
      denB zr (at' z) (fun n => invDiff (at' z) (at' u) n n) z.length) := by
  rw [computeCoefficients_some z u h, Option.some.injEq] at ha
  subst ha
  rw [padeC, padeA_eq _ _ _ (by simp) _ (le_refl _), padeB_eq _ _ _ (by simp) _ (le_refl _)]
  simp only [Option.bind_some, Option.map_some, Option.some.injEq]
  congr 1
  · exact numA_congr _ _ _ _ _ fun i hi => at'_map_range _ _ _ hi
  · exact denB_congr _ _ _ _ _ fun i hi => at'_map_range _ _ _ hi

/-- the two recursions as polynomials -/
noncomputable def polyA (z a : Nat → K) : Nat → Polynomial K
  | 0 => 0
  | 1 => Polynomial.C (a 0)
  | n + 2 => polyA z a (n + 1) + (Polynomial.X - Polynomial.C (z n)) * Polynomial.C (a (n + 1)) * polyA z a n
noncomputable def polyB (z a : Nat → K) : Nat → Polynomial K
  | 0 => 1
  | 1 => 1
  | n + 2 => polyB z a (n + 1) + (Polynomial.X - Polynomial.C (z n)) * Polynomial.C (a (n + 1)) * polyB z a n

theorem eval_polyA (zr : K) (z a : Nat → K) : ∀ n, (polyA z a n).eval zr = numA zr z a n
  | 0 => by simp [polyA, numA]
  | 1 => by simp [polyA, numA]
  | n + 2 => by simp [polyA, numA, eval_polyA zr z a (n + 1), eval_polyA zr z a n]
theorem eval_polyB (zr : K) (z a : Nat → K) : ∀ n, (polyB z a n).eval zr = denB zr z a n
  | 0 => by simp [polyB, denB]
  | 1 => by simp [polyB, denB]
  | n + 2 => by simp [polyB, denB, eval_polyB zr z a (n + 1), eval_polyB zr z a n]

theorem natDegree_step (x c : K) (p q : Polynomial K) (d : Nat) (hp : p.natDegree ≤ d + 1) (hq : q.natDegree ≤ d) :
    (p + (Polynomial.X - Polynomial.C x) * Polynomial.C c * q).natDegree ≤ d + 1 := by
  refine (Polynomial.natDegree_add_le _ _).trans (max_le hp ?_)
  refine (Polynomial.natDegree_mul_le).trans ?_
  have : ((Polynomial.X - Polynomial.C x) * Polynomial.C c).natDegree ≤ 1 := by
    refine (Polynomial.natDegree_mul_C_le _ _).trans ?_
    exact (Polynomial.natDegree_X_sub_C x).le
  omega

theorem natDegree_polyA (z a : Nat → K) : ∀ n, (polyA z a n).natDegree ≤ (n - 1) / 2
  | 0 => by simp [polyA]
  | 1 => by simp [polyA]
  | 2 => by
    simp only [polyA, mul_zero, add_zero]; simp
  | n + 3 => by
    rw [polyA]
    have h1 := natDegree_polyA z a (n + 2)
    have h2 := natDegree_polyA z a (n + 1)
    rw [show (n + 3 - 1) / 2 = (n + 1 - 1) / 2 + 1 by omega]
    exact natDegree_step _ _ _ _ _ (h1.trans (by omega)) h2
theorem natDegree_polyB (z a : Nat → K) : ∀ n, (polyB z a n).natDegree ≤ n / 2
  | 0 => by simp [polyB]
  | 1 => by simp [polyB]
  | n + 2 => by
    rw [polyB]
    have h1 := natDegree_polyB z a (n + 1)
    have h2 := natDegree_polyB z a n
    rw [show (n + 2) / 2 = n / 2 + 1 by omega]
    exact natDegree_step _ _ _ _ _ (by omega) h2

/-- two rational functions of the degrees of the approximant which agree at the nodes are equal (cross-multiplied) -/
theorem cross_eq (z : Nat → K) (n : Nat) (hn : 0 < n) (hinj : ∀ i < n, ∀ j < i, z i ≠ z j) (A B P Q : Polynomial K)
    (hA : A.natDegree ≤ (n - 1) / 2) (hB : B.natDegree ≤ n / 2) (hP : P.natDegree ≤ (n - 1) / 2) (hQ : Q.natDegree ≤ n / 2)
    (h : ∀ i < n, P.eval (z i) * B.eval (z i) = A.eval (z i) * Q.eval (z i)) : P * B = A * Q := by
  by_contra hne
  have hd : P * B - A * Q ≠ 0 := sub_ne_zero.2 hne
  have hdeg : (P * B - A * Q).natDegree < n := by
    have := Polynomial.natDegree_sub_le (P * B) (A * Q)
    have h1 := Polynomial.natDegree_mul_le (p := P) (q := B)
    have h2 := Polynomial.natDegree_mul_le (p := A) (q := Q)
    have : max (P * B).natDegree (A * Q).natDegree ≤ (n - 1) / 2 + n / 2 := max_le (by omega) (by omega)
    omega
  have hinj' : Set.InjOn z (Finset.range n : Set Nat) := by
    intro i hi j hj e
    simp only [Finset.coe_range, Set.mem_Iio] at hi hj
    rcases lt_trichotomy i j with hl | hl | hl
    · exact absurd e.symm (hinj j hj i hl)
    · exact hl
    · exact absurd e (hinj i hi j hl)
  have hcard := Polynomial.card_roots' (P * B - A * Q)
  classical
  have hsub : ((Finset.range n).image z).val ⊆ (P * B - A * Q).roots := by
    intro x hx
    simp only [Finset.mem_val, Finset.mem_image, Finset.mem_range] at hx
    obtain ⟨i, hi, rfl⟩ := hx
    rw [Polynomial.mem_roots hd, Polynomial.IsRoot, Polynomial.eval_sub, Polynomial.eval_mul, Polynomial.eval_mul, h i hi, sub_self]
  have hle := (Multiset.le_iff_subset ((Finset.range n).image z).nodup).2 hsub
  have := Multiset.card_le_card hle
  rw [Finset.card_val, Finset.card_image_of_injOn hinj', Finset.card_range] at this
  omega

end DGA.Pade
