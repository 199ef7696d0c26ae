import Verif.Eliash.Props

/-
  C36 continued: when the power iteration stops, and what the further eigenvalues are.
  Models `power_iteration` and `get_eig` of eliashberg_equation.py (lines 41-81).
-/

noncomputable section

namespace DGA.Eli

variable {ι : Type _} [Fintype ι] (A : (ι → ℂ) → ι → ℂ)

/-- Specification: the gap and eigenvalue after `k` unlimited passes of
    "orthogonalise, apply the kernel minus the shift `s`, Rayleigh quotient, normalise", starting from `gap0` and the value 1.
    (eliashberg_equation.py:62-81 without the stopping test) -/
def iter (basis : List (ι → ℂ)) (s : ℂ) (gap0 : ι → ℂ) : Nat → (ι → ℂ) × ℂ
  | 0 => (gap0, 1)
  | k + 1 =>
    let x := gramSchmidt (iter basis s gap0 k).1 basis
    let y : ι → ℂ := fun i => A x i - s * x i
    (fun i => y i / (dot x y / dot x x), dot x y / dot x x)

theorem powerLoop_stop (basis : List (ι → ℂ)) (lamS : Option ℂ) (eps : ℝ) (gap0 : ι → ℂ) : ∀ (m j : Nat),
    let r := powerLoop A basis lamS eps m (iter A basis (lamS.getD 0) gap0 j).1 (iter A basis (lamS.getD 0) gap0 j).2
    (r.gap, r.lam) = iter A basis (lamS.getD 0) gap0 (j + r.count) ∧
    (r.count ≤ m → ‖(iter A basis (lamS.getD 0) gap0 (j + r.count)).2 - (iter A basis (lamS.getD 0) gap0 (j + r.count - 1)).2‖ < eps) ∧
    (∀ i, j < i → i < j + r.count → eps ≤ ‖(iter A basis (lamS.getD 0) gap0 i).2 - (iter A basis (lamS.getD 0) gap0 (i - 1)).2‖) := by
  have hstep : ∀ k, iter A basis (lamS.getD 0) gap0 (k + 1) =
      (nextGap A lamS (gramSchmidt (iter A basis (lamS.getD 0) gap0 k).1 basis),
       rayleigh A lamS (gramSchmidt (iter A basis (lamS.getD 0) gap0 k).1 basis)) := by
    intro k
    simp only [iter, rayleigh, shifted_eq]
    have : ∀ x : ι → ℂ, (fun i => A x i - lamS.getD 0 * x i) = fun i => A x i - x i * lamS.getD 0 := by
      intro x; funext i; ring
    rw [this]
    congr 1
    funext i
    rw [nextGap, rayleigh, shifted_eq, mul_comm (lamS.getD 0)]
  intro m
  induction m with
  | zero =>
    intro j
    simp only [powerLoop, hstep]
    refine ⟨trivial, fun h => absurd h (by omega), fun i h1 h2 => by omega⟩
  | succ m ih =>
    intro j
    have hj := hstep j
    simp only [powerLoop]
    by_cases hc : ‖rayleigh A lamS (gramSchmidt (iter A basis (lamS.getD 0) gap0 j).1 basis) - (iter A basis (lamS.getD 0) gap0 j).2‖ < eps
    · simp only [hc, if_true, hj, Nat.add_sub_cancel]
      exact ⟨trivial, fun _ => trivial, fun i h1 h2 => by omega⟩
    · simp only [hc, if_false]
      have := ih (j + 1)
      rw [hj] at this
      simp only at this
      obtain ⟨h1, h2, h3⟩ := this
      set r := powerLoop A basis lamS eps m (nextGap A lamS (gramSchmidt (iter A basis (lamS.getD 0) gap0 j).1 basis))
        (rayleigh A lamS (gramSchmidt (iter A basis (lamS.getD 0) gap0 j).1 basis)) with hr
      rw [show j + 1 + r.count = j + (r.count + 1) by ring] at h1 h2 h3
      refine ⟨h1, fun hle => h2 (by omega), fun i hi1 hi2 => ?_⟩
      by_cases hij : i = j + 1
      · subst hij
        rw [hj]
        simpa using hc
      · exact h3 i (by omega) hi2

/-- The power iteration returns the first iterate whose eigenvalue differs from the previous one by less than `eps`, and if there is
    none among the first `max_count + 1`, the iterate number `max_count + 1`. -/
theorem powerIteration_stops_first (basis : List (ι → ℂ)) (lamS : Option ℂ) (eps : ℝ) (maxCount : Nat) (gap0 : ι → ℂ) :
    ∃ c, 1 ≤ c ∧ c ≤ maxCount + 1 ∧
      ((powerIteration A basis lamS eps maxCount gap0).gap, (powerIteration A basis lamS eps maxCount gap0).lam) =
        iter A basis (lamS.getD 0) gap0 c ∧
      (c ≤ maxCount → ‖(iter A basis (lamS.getD 0) gap0 c).2 - (iter A basis (lamS.getD 0) gap0 (c - 1)).2‖ < eps) ∧
      ∀ i, 1 ≤ i → i < c → eps ≤ ‖(iter A basis (lamS.getD 0) gap0 i).2 - (iter A basis (lamS.getD 0) gap0 (i - 1)).2‖ := by
  have hc := powerIteration_count A basis lamS eps maxCount gap0
  obtain ⟨h1, h2, h3⟩ := powerLoop_stop A basis lamS eps gap0 maxCount 0
  simp only [Nat.zero_add] at h1 h2 h3
  exact ⟨_, hc.1, hc.2, h1, h2, fun i hi1 hi2 => h3 i hi1 hi2⟩

theorem eigRuns_length (lamS : Option ℂ) (eps : ℝ) (maxCount : Nat) (gap0 : ι → ℂ) :
    ∀ n, (eigRuns A lamS eps maxCount gap0 n).length = n
  | 0 => rfl
  | n + 1 => by simp [eigRuns, eigRuns_length lamS eps maxCount gap0 n]

theorem eigRuns_get (lamS : Option ℂ) (eps : ℝ) (maxCount : Nat) (gap0 : ι → ℂ) : ∀ (n k : Nat), k < n →
    (eigRuns A lamS eps maxCount gap0 n)[k]? =
      some (powerIteration A (((eigRuns A lamS eps maxCount gap0 n).take k).map PowRun.gap) lamS eps maxCount gap0) := by
  intro n
  induction n with
  | zero => intro k hk; omega
  | succ n ih =>
    intro k hk
    have hl := eigRuns_length A lamS eps maxCount gap0 n
    simp only [eigRuns]
    by_cases hkn : k < n
    · rw [List.getElem?_append_left (by omega), ih k hkn, List.take_append_of_le_length (by omega)]
    · have : k = n := by omega
      subst this
      rw [List.getElem?_append_right (by omega), hl, Nat.sub_self, List.take_append_of_le_length (by omega), List.take_of_length_le (by omega)]
      rfl

/-- The solver reports as many (eigenvalue, gap) pairs as requested, for every kernel. -/
theorem getEig_length (shiftMat : Bool) (eps : ℝ) (maxCount : Nat) (gap0 gap0s : ι → ℂ) (nEig : Nat) :
    (getEig A shiftMat eps maxCount gap0 gap0s nEig).length = nEig := by
  simp [getEig, eigRuns_length]

/-- Every reported gap comes from a vector orthogonal to all gaps reported before it (as long as these are mutually orthogonal and
    non-zero): the reported eigenvalue is the Rayleigh quotient of the unshifted kernel on the orthogonal complement. -/
theorem getEig_deflates (shiftMat : Bool) (eps : ℝ) (maxCount : Nat) (gap0 gap0s : ι → ℂ) (nEig k : Nat) (lam : ℂ) (gap : ι → ℂ)
    (h : (getEig A shiftMat eps maxCount gap0 gap0s nEig)[k]? = some (lam, gap))
    (hp : (((getEig A shiftMat eps maxCount gap0 gap0s nEig).take k).map Prod.snd).Pairwise fun a b => dot a b = 0)
    (h0 : ∀ u ∈ ((getEig A shiftMat eps maxCount gap0 gap0s nEig).take k).map Prod.snd, u ≠ 0) :
    ∃ x s, (∀ u ∈ ((getEig A shiftMat eps maxCount gap0 gap0s nEig).take k).map Prod.snd, dot u x = 0) ∧
      (shiftMat = false → s = 0) ∧ (dot x x ≠ 0 → lam = dot x (A x) / dot x x) ∧
      (lam ≠ s → ∀ i, A x i = (lam - s) * gap i + s * x i) := by
  have hk : k < nEig := by
    have := (List.getElem?_eq_some_iff.mp h).1
    rwa [getEig_length] at this
  have hs0 : shiftMat = false → (shiftOf A shiftMat eps maxCount gap0s).getD 0 = 0 := by
    rintro rfl; simp [shiftOf]
  simp only [getEig, ← List.map_take, List.map_map] at h hp h0 ⊢
  generalize shiftOf A shiftMat eps maxCount gap0s = lamS at *
  simp only [Function.comp_def] at hp h0 ⊢
  rw [List.getElem?_map, eigRuns_get A lamS eps maxCount gap0 nEig k hk, Option.map_some, Option.some.injEq] at h
  set basis := ((eigRuns A lamS eps maxCount gap0 nEig).take k).map PowRun.gap with hb
  obtain ⟨h1, h2, g', h3⟩ := powerLoop_last A basis lamS eps maxCount gap0 1
  set r := powerIteration A basis lamS eps maxCount gap0 with hr
  change r.lam = rayleigh A lamS r.last at h1
  change r.gap = nextGap A lamS r.last at h2
  change r.last = _ at h3
  have hlam : lam = r.lam + lamS.getD 0 := by
    have := congrArg Prod.fst h
    simp only at this
    rw [← this]
    cases lamS <;> simp
  have hgap : gap = r.gap := (congrArg Prod.snd h).symm
  refine ⟨r.last, lamS.getD 0, ?_, hs0, ?_, ?_⟩
  · intro u hu
    rw [h3]
    exact gramSchmidt_orthogonal _ _ hp h0 u hu
  · intro hx
    rw [hlam, h1, rayleigh, shifted_eq, dot_sub]
    have : dot r.last (fun i => r.last i * lamS.getD 0) = lamS.getD 0 * dot r.last r.last := by
      rw [← dot_smul]; congr 1; funext i; ring
    rw [this]
    field_simp
    ring
  · intro hne i
    have hr0 : r.lam ≠ 0 := by
      intro h0; apply hne; rw [hlam, h0, zero_add]
    have e : gap i = (A r.last i - r.last i * lamS.getD 0) / r.lam := by
      rw [hgap, h2, nextGap, shifted_eq, ← h1]
    rw [e, hlam]
    field_simp
    ring

/-- For a kernel that is symmetric with respect to the scalar product and an exact first gap, the second reported gap is orthogonal to
    the first. -/
theorem second_gap_orthogonal (hA : ∀ u v, dot u (A v) = dot (A u) v) (shiftMat : Bool) (eps : ℝ) (maxCount : Nat) (gap0 gap0s : ι → ℂ)
    (l1 l2 : ℂ) (g1 g2 : ι → ℂ) (h : getEig A shiftMat eps maxCount gap0 gap0s 2 = [(l1, g1), (l2, g2)]) (hg : g1 ≠ 0)
    (he : A g1 = fun i => l1 * g1 i) :
    ∃ s, (shiftMat = false → s = 0) ∧ (l2 ≠ s → dot g1 g2 = 0) := by
  obtain ⟨x, s, hx, hs, _, h2⟩ := getEig_deflates A shiftMat eps maxCount gap0 gap0s 2 1 l2 g2 (by rw [h]; rfl) (by rw [h]; simp)
    (by rw [h]; simpa using hg)
  refine ⟨s, hs, fun hne => ?_⟩
  have hgx : dot g1 x = 0 := hx g1 (by rw [h]; simp)
  have h3 : dot g1 (A x) = 0 := by
    rw [hA, he, dot_conj, dot_smul, dot_conj x g1, hgx]
    simp
  have h4 : A x = fun i => (l2 - s) * g2 i + s * x i := by funext i; exact h2 hne i
  rw [h4, dot_add g1 (fun i => (l2 - s) * g2 i) (fun i => s * x i), dot_smul, dot_smul, hgx, mul_zero, add_zero] at h3
  exact (mul_eq_zero.mp h3).resolve_left (sub_ne_zero.mpr hne)

/-- Non-vacuity: the kernel `diag(3, 1)`, start vector `(1, 0)`; the first reported pair is the eigenpair with eigenvalue 3. -/
example : ∃ (A : (Fin 2 → ℂ) → Fin 2 → ℂ), (∀ u v, dot u (A v) = dot (A u) v) ∧
    (∃ g : Fin 2 → ℂ, g ≠ 0 ∧ A g = (fun i => 3 * g i) ∧ (getEig A false 1 5 g g 2)[0]? = some (3, g)) := by
  refine ⟨fun v => ![3 * v 0, v 1], ?_, ![1, 0], ?_, ?_, ?_⟩
  · intro u v
    have h3 : (starRingEnd ℂ) (3 : ℂ) = 3 := Complex.conj_ofNat 3
    simp [dot, Fin.sum_univ_two, h3]; ring
  · intro h; have := congrFun h 0; simp at this
  · funext i; fin_cases i <;> simp
  · have hv : (![1, 0] : Fin 2 → ℂ) ≠ 0 := by intro h; have := congrFun h 0; simp at this
    have hA : (fun v : Fin 2 → ℂ => ![3 * v 0, v 1]) ![1, 0] = fun i => 3 * (![1, 0] : Fin 2 → ℂ) i := by
      funext i; fin_cases i <;> simp
    obtain ⟨h1, h2⟩ := eigenvector_start (fun v : Fin 2 → ℂ => ![3 * v 0, v 1]) [] none 1 5 ![1, 0] 3 hv hA (by simp) (by simp)
    simp only [getEig, eigRuns, shiftOf, Bool.false_eq_true, if_false, List.nil_append, List.map_nil, List.map_append, List.map_cons]
    rw [h1, h2]
    simp

end DGA.Eli
