/-
  General Hamiltonians: light vertex, Hermiticity, periodicity, the loop version, the Emery model (C72–C75).
-/
import Verif.Wannier.Props

namespace DGA.Wan

open Complex

/-! ### C72: the light vertex is the derivative of the Hamiltonian -/

theorem ph_deriv (s : ℝ) : HasDerivAt ph (Complex.I * ph s) s := by
  have h1 : HasDerivAt (fun x : ℝ => Complex.I * (x : ℂ)) Complex.I s := by
    simpa using (Complex.ofRealCLM.hasDerivAt (x := s)).const_mul Complex.I
  exact h1.cexp.congr_deriv (mul_comm _ _)

/-- C72.  For every real-space Hamiltonian (any number of orbitals, any vectors, weights and complex hoppings), every momentum and every
    direction, `light_vertex` is the derivative of the Hamiltonian matrix of `convham` with respect to that momentum component. -/
theorem light_vertex_is_derivative {nb : Nat} {ι : Type} (h : Hr nb) (kmesh : Fin 3 → ι → ℝ) (der : Fin 3) (ik : ι) (a b : Fin nb) :
    HasDerivAt (fun x : ℝ => convham h (fun c (_ : Unit) => if c = der then x else kmesh c ik) () a b)
      (lightVertex h kmesh der ik a b) (kmesh der ik) := by
  unfold convham lightVertex
  apply HasDerivAt.fun_sum
  intro R _
  have h0 : ∀ x : ℝ, h.dot (fun c => if c = der then x else kmesh c ik) R a b =
      h.rGrid R a b der * x + ∑ c ∈ Finset.univ.erase der, h.rGrid R a b c * kmesh c ik := by
    intro x
    unfold Hr.dot
    rw [← Finset.add_sum_erase _ _ (Finset.mem_univ der)]
    beta_reduce
    rw [if_pos rfl]
    congr 1
    apply Finset.sum_congr rfl
    intro c hc
    rw [if_neg (Finset.ne_of_mem_erase hc)]
  have h1 : h.dot (fun x => kmesh x ik) R a b = h.rGrid R a b der * kmesh der ik + ∑ c ∈ Finset.univ.erase der, h.rGrid R a b c * kmesh c ik := by
    unfold Hr.dot
    rw [← Finset.add_sum_erase _ _ (Finset.mem_univ der)]
  have h2 : HasDerivAt (fun x : ℝ => h.rGrid R a b der * x + ∑ c ∈ Finset.univ.erase der, h.rGrid R a b c * kmesh c ik)
      (h.rGrid R a b der) (kmesh der ik) := by
    simpa using ((hasDerivAt_id (kmesh der ik)).const_mul (h.rGrid R a b der)).add_const (∑ c ∈ Finset.univ.erase der, h.rGrid R a b c * kmesh c ik)
  have h3 := (ph_deriv (h.dot (fun x => kmesh x ik) R a b))
  rw [h1] at h3
  have h4 := (HasDerivAt.scomp (kmesh der ik) h3 h2).div_const (h.w R : ℂ) |>.mul_const (h.hr R a b)
  have e : (fun y : ℝ => Complex.exp (Complex.I * ((h.dot (fun c => if c = der then y else kmesh c ik) R a b : ℝ) : ℂ)) / (h.w R : ℂ) * h.hr R a b) =
      fun y : ℝ => (ph ∘ fun x => h.rGrid R a b der * x + ∑ c ∈ Finset.univ.erase der, h.rGrid R a b c * kmesh c ik) y / (h.w R : ℂ) *
        h.hr R a b := by
    funext y
    rw [h0]
    rfl
  beta_reduce
  rw [e]
  refine h4.congr_deriv ?_
  rw [h1]
  simp only [Complex.real_smul, ph]
  ring

/-- C72: for the square lattice along `kx` it is the module's closed form `del_ek_del_kx_square` -/
theorem light_vertex_square {ι : Type} (t tp tpp : ℝ) (kmesh : Fin 3 → ι → ℝ) (ik : ι) :
    lightVertex (oneBand t tp tpp) kmesh 0 ik 0 0 = (delEkDelKxSquare (kmesh 0 ik) (kmesh 1 ik) t tp tpp : ℂ) := by
  have h1 := light_vertex_is_derivative (oneBand t tp tpp) kmesh 0 ik 0 0
  simp only [square_band_ek, if_true, one_ne_zero, if_false] at h1
  have h2 : HasDerivAt (fun x : ℝ => ekSquare x (kmesh 1 ik) t tp tpp) (delEkDelKxSquare (kmesh 0 ik) (kmesh 1 ik) t tp tpp) (kmesh 0 ik) := by
    unfold ekSquare delEkDelKxSquare
    have hc := Real.hasDerivAt_cos (kmesh 0 ik)
    have hc2 : HasDerivAt (fun x : ℝ => Real.cos (2 * x)) (-Real.sin (2 * kmesh 0 ik) * 2) (kmesh 0 ik) := by
      have := (Real.hasDerivAt_cos (2 * kmesh 0 ik)).comp (kmesh 0 ik) ((hasDerivAt_id (kmesh 0 ik)).const_mul 2)
      exact this.congr_deriv (by simp)
    have := (((hc.add_const (Real.cos (kmesh 1 ik))).const_mul (-2 * t)).sub ((hc.const_mul (4 * tp)).mul_const (Real.cos (kmesh 1 ik)))).sub
      ((hc2.add_const (Real.cos (2 * kmesh 1 ik))).const_mul (2 * tpp))
    refine this.congr_deriv ?_
    ring
  exact h1.unique h2.ofReal_comp

/-! ### C73: Hermiticity and periodicity -/

/-- the real-space Hamiltonian is Hermitian: every hopping `a → b` by `R` is matched by the conjugate hopping `b → a` by `-R` with the
    same weight.  `σ` is the matching. -/
def Hermitian {nb : Nat} (h : Hr nb) (σ : Fin nb → Fin nb → Fin h.nr ≃ Fin h.nr) : Prop :=
  ∀ a b R, (∀ x, h.rGrid (σ a b R) b a x = -h.rGrid R a b x) ∧ h.hr (σ a b R) b a = star (h.hr R a b) ∧ h.w (σ a b R) = h.w R

/-- C73.  A Hermitian real-space Hamiltonian gives a Hermitian matrix at every momentum, and a Hermitian light vertex in every direction. -/
theorem hk_hermitian {nb : Nat} {ι : Type} (h : Hr nb) (σ : Fin nb → Fin nb → Fin h.nr ≃ Fin h.nr) (hh : Hermitian h σ)
    (kmesh : Fin 3 → ι → ℝ) (der : Fin 3) (ik : ι) (a b : Fin nb) :
    convham h kmesh ik b a = star (convham h kmesh ik a b) ∧ lightVertex h kmesh der ik b a = star (lightVertex h kmesh der ik a b) := by
  have hd : ∀ R, h.dot (fun x => kmesh x ik) (σ a b R) b a = -h.dot (fun x => kmesh x ik) R a b := by
    intro R
    unfold Hr.dot
    rw [← Finset.sum_neg_distrib]
    apply Finset.sum_congr rfl
    intro x _
    rw [(hh a b R).1 x]
    ring
  have hp : ∀ s : ℝ, star (Complex.exp (Complex.I * (s : ℂ))) = Complex.exp (Complex.I * ((-s : ℝ) : ℂ)) := ph_conj
  have sI : star Complex.I = -Complex.I := Complex.conj_I
  have sR : ∀ x : ℝ, star (x : ℂ) = x := Complex.conj_ofReal
  have sD : ∀ x y : ℂ, star (x / y) = star x / star y := fun x y => map_div₀ (starRingEnd ℂ) x y
  constructor
  · unfold convham
    rw [star_sum, ← (σ a b).sum_comp]
    apply Finset.sum_congr rfl
    intro R _
    rw [hd R, (hh a b R).2.1, (hh a b R).2.2, star_mul', sD, hp, sR]
  · unfold lightVertex
    rw [star_sum, ← (σ a b).sum_comp]
    apply Finset.sum_congr rfl
    intro R _
    rw [hd R, (hh a b R).2.1, (hh a b R).2.2, (hh a b R).1 der, star_mul', star_mul', star_mul', sD, hp, sR, sR, sI]
    push_cast
    ring

/-- C73.  If all lattice vectors are integer, shifting momenta by reciprocal lattice vectors changes neither the Hamiltonian nor the
    light vertex. -/
theorem hk_periodic {nb : Nat} {ι : Type} (h : Hr nb) (z : Fin h.nr → Fin nb → Fin nb → Fin 3 → ℤ)
    (hz : ∀ R a b x, h.rGrid R a b x = z R a b x) (kmesh : Fin 3 → ι → ℝ) (m : Fin 3 → ι → ℤ) (der : Fin 3) (ik : ι) (a b : Fin nb) :
    convham h (fun x i => kmesh x i + 2 * Real.pi * m x i) ik a b = convham h kmesh ik a b ∧
    lightVertex h (fun x i => kmesh x i + 2 * Real.pi * m x i) der ik a b = lightVertex h kmesh der ik a b := by
  have hd : ∀ R, Complex.exp (Complex.I * ((h.dot (fun x => kmesh x ik + 2 * Real.pi * m x ik) R a b : ℝ) : ℂ)) =
      Complex.exp (Complex.I * ((h.dot (fun x => kmesh x ik) R a b : ℝ) : ℂ)) := by
    intro R
    have : h.dot (fun x => kmesh x ik + 2 * Real.pi * m x ik) R a b =
        h.dot (fun x => kmesh x ik) R a b + 2 * Real.pi * ((∑ x, z R a b x * m x ik : ℤ) : ℝ) := by
      unfold Hr.dot
      push_cast
      rw [Finset.mul_sum, ← Finset.sum_add_distrib]
      apply Finset.sum_congr rfl
      intro x _
      rw [hz]
      ring
    rw [this]
    exact ph_int _ _
  unfold convham lightVertex
  constructor <;>
  · apply Finset.sum_congr rfl
    intro R _
    rw [hd R]

/-! ### C74: the two implementations agree -/

/-- C74.  `convham2`, which fills the array element by element, returns the array of `convham`. -/
theorem convham2_eq {nb nk : Nat} (h : Hr nb) (kmesh : Fin 3 → Fin nk → ℝ) : convham2 h kmesh = convham h kmesh := by
  have inner : ∀ (ib2 ib1 : Fin nb) (hk : Fin nk → Fin nb → Fin nb → ℂ) (l : List (Fin nk)) (ik : Fin nk) (a b : Fin nb),
      l.foldl (fun hk ik => fun ik' a b => if ik' = ik ∧ a = ib1 ∧ b = ib2 then convham h kmesh ik ib1 ib2 else hk ik' a b) hk ik a b =
        if ik ∈ l ∧ a = ib1 ∧ b = ib2 then convham h kmesh ik a b else hk ik a b := by
    intro ib2 ib1 hk l ik a b
    induction l using List.reverseRecOn generalizing ik a b with
    | nil => simp
    | append_singleton l c ih =>
      rw [List.foldl_append, List.foldl_cons, List.foldl_nil]
      by_cases h1 : ik = c
      · subst h1
        by_cases h2 : a = ib1 ∧ b = ib2
        · obtain ⟨rfl, rfl⟩ := h2; simp
        · simp only [h2, if_false, and_false]
          rw [ih]
          simp [h2]
      · simp only [h1, false_and, if_false, ih, List.mem_append, List.mem_singleton, or_false]
  have mid : ∀ (ib2 : Fin nb) (hk : Fin nk → Fin nb → Fin nb → ℂ) (l : List (Fin nb)) (ik : Fin nk) (a b : Fin nb),
      l.foldl (fun hk ib1 => (List.finRange nk).foldl (fun hk ik => fun ik' a b => if ik' = ik ∧ a = ib1 ∧ b = ib2 then
        convham h kmesh ik ib1 ib2 else hk ik' a b) hk) hk ik a b = if a ∈ l ∧ b = ib2 then convham h kmesh ik a b else hk ik a b := by
    intro ib2 hk l ik a b
    induction l using List.reverseRecOn generalizing ik a b with
    | nil => simp
    | append_singleton l c ih =>
      rw [List.foldl_append, List.foldl_cons, List.foldl_nil, inner, ih]
      by_cases h1 : a = c <;> by_cases h2 : b = ib2 <;> by_cases h3 : a ∈ l <;> simp [h1, h2, h3]
  funext ik a b
  have outer : ∀ (hk : Fin nk → Fin nb → Fin nb → ℂ) (l : List (Fin nb)) (ik : Fin nk) (a b : Fin nb),
      l.foldl (fun hk ib2 => (List.finRange nb).foldl (fun hk ib1 => (List.finRange nk).foldl (fun hk ik =>
        fun ik' a b => if ik' = ik ∧ a = ib1 ∧ b = ib2 then convham h kmesh ik ib1 ib2 else hk ik' a b) hk) hk) hk ik a b =
        if b ∈ l then convham h kmesh ik a b else hk ik a b := by
    intro hk l ik a b
    induction l using List.reverseRecOn generalizing ik a b with
    | nil => simp
    | append_singleton l c ih =>
      rw [List.foldl_append, List.foldl_cons, List.foldl_nil, mid, ih]
      by_cases h1 : b = c <;> by_cases h2 : b ∈ l <;> simp [h1, h2]
  refine (outer (fun _ _ _ => 0) (List.finRange nb) ik a b).trans ?_
  simp

/-! ### C75: the Emery model -/

theorem emery_hr_eq (ed ep tpd tpp tppP : ℝ) (R : Fin 7) (a b : Fin 3) :
    (emery ed ep tpd tpp tppP).hr R a b = (((![![![ed, tpd, tpd], ![tpd, ep, tpp], ![tpd, tpp, ep]],
      ![![0, 0, 0], ![-tpd, tppP, -tpp], ![0, 0, 0]],
      ![![0, 0, 0], ![0, 0, 0], ![-tpd, -tpp, tppP]],
      ![![0, -tpd, 0], ![0, tppP, 0], ![0, -tpp, 0]],
      ![![0, 0, -tpd], ![0, 0, -tpp], ![0, 0, tppP]],
      ![![0, 0, 0], ![0, 0, tpp], ![0, 0, 0]],
      ![![0, 0, 0], ![0, 0, 0], ![0, tpp, 0]]] : Fin 7 → Fin 3 → Fin 3 → ℝ) R a b : ℝ) : ℂ) := by
  have i0 : emeryR.idxOf (0, 0, 0) = 0 := by decide
  have i1 : emeryR.idxOf (1, 0, 0) = 1 := by decide
  have i2 : emeryR.idxOf (0, 1, 0) = 2 := by decide
  have i3 : emeryR.idxOf (-1, 0, 0) = 3 := by decide
  have i4 : emeryR.idxOf (0, -1, 0) = 4 := by decide
  have i5 : emeryR.idxOf (1, -1, 0) = 5 := by decide
  have i6 : emeryR.idxOf (-1, 1, 0) = 6 := by decide
  fin_cases R <;> fin_cases a <;> fin_cases b <;> simp [emery, emeryElems, insertHr, i0, i1, i2, i3, i4, i5, i6]

theorem sum_emery (c : Fin 7 → ℂ) (k : Fin 3 → ℝ) :
    ∑ R : Fin 7, ph (∑ x : Fin 3, createRGrid emeryR R x * k x) / ((1 : ℝ) : ℂ) * c R =
      c 0 + ph (k 0) * c 1 + ph (k 1) * c 2 + ph (-k 0) * c 3 + ph (-k 1) * c 4 + ph (k 0) * ph (-k 1) * c 5 + ph (-k 0) * ph (k 1) * c 6 := by
  have h : ∀ f : Fin 7 → ℂ, ∑ R, f R = f 0 + f 1 + f 2 + f 3 + f 4 + f 5 + f 6 := by
    intro f
    simp only [Fin.sum_univ_succ, Fin.sum_univ_zero]
    simp only [add_zero, ← add_assoc]
    rfl
  rw [h]
  have g : ∀ (R : Fin 7) (x y z : Int), emeryR.get R = (x, y, z) → ∑ c : Fin 3, createRGrid emeryR R c * k c = x * k 0 + y * k 1 + z * k 2 := by
    intro R x y z hR
    simp only [createRGrid, Fin.sum_univ_three, hR]
    rfl
  rw [g 0 0 0 0 rfl, g 1 1 0 0 rfl, g 2 0 1 0 rfl, g 3 (-1) 0 0 rfl, g 4 0 (-1) 0 rfl, g 5 1 (-1) 0 rfl, g 6 (-1) 1 0 rfl]
  simp [ph_add, ph_eq 0]

/-- C75.  The Fourier transform of the real-space Emery model is the closed-form matrix, at every momentum. -/
theorem emery_band {ι : Type} (ed ep tpd tpp tppP : ℝ) (kmesh : Fin 3 → ι → ℝ) (ik : ι) (a b : Fin 3) :
    convham (emery ed ep tpd tpp tppP) kmesh ik a b = emeryHk (kmesh 0 ik) (kmesh 1 ik) ed ep tpd tpp tppP a b := by
  refine (sum_emery (fun R => (emery ed ep tpd tpp tppP).hr R a b) fun x => kmesh x ik).trans ?_
  have e : emeryHk (kmesh 0 ik) (kmesh 1 ik) ed ep tpd tpp tppP =
      ![![(ed : ℂ), tpd * (1 - ph (-kmesh 0 ik)), tpd * (1 - ph (-kmesh 1 ik))],
        ![tpd * (1 - ph (kmesh 0 ik)), ep + 2 * tppP * Real.cos (kmesh 0 ik), tpp * (1 - ph (kmesh 0 ik)) * (1 - ph (-kmesh 1 ik))],
        ![tpd * (1 - ph (kmesh 1 ik)), tpp * (1 - ph (-kmesh 0 ik)) * (1 - ph (kmesh 1 ik)), ep + 2 * tppP * Real.cos (kmesh 1 ik)]] := rfl
  rw [e]
  simp only [emery_hr_eq]
  fin_cases a <;> fin_cases b <;> simp <;> simp only [ph_eq, Real.cos_neg, Real.sin_neg] <;> push_cast <;> ring

end DGA.Wan
