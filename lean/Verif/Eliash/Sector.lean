import Verif.Eliash.Converge2
import Verif.Eliash.Props2
import Verif.Bubble.Lemmas

/-
  C116: the driver `linear_eliashberg` (eliashberg_equation.py:155-184) and the symmetry sectors of the power iteration: a start
  gap of definite symmetry stays in its sector for every number of steps, every deflated run and with the shift.
-/

noncomputable section

namespace DGA.Eli

variable {ι : Type _} [Fintype ι]

/-- symmetry of a gap function: it takes up the factor `χ` under the map `σ` of its arguments -/
def Sym (σ : ι → ι) (χ : ℂ) (x : ι → ℂ) : Prop := ∀ i, x (σ i) = χ * x i

/-! ### Sectors are invariant -/

theorem gramSchmidt_sym (σ : ι → ι) (χ : ℂ) (v : ι → ℂ) (basis : List (ι → ℂ)) (hv : Sym σ χ v) (hb : ∀ u ∈ basis, Sym σ χ u) :
    Sym σ χ (gramSchmidt v basis) := by
  intro i
  rw [gramSchmidt_span, gramSchmidt_span, hv i, mul_sub, ← List.sum_map_mul_left]
  congr 2
  apply List.map_congr_left
  intro u hu
  rw [hb u hu i]; ring

theorem nextGap_sym (A : (ι → ℂ) → ι → ℂ) (σ : ι → ι) (χ : ℂ) (hA : ∀ x, Sym σ χ x → Sym σ χ (A x)) (lamS : Option ℂ) (x : ι → ℂ)
    (hx : Sym σ χ x) : Sym σ χ (nextGap A lamS x) := by
  intro i
  unfold nextGap
  rw [shifted_eq]
  simp only
  rw [hx i, hA x hx i]; ring

theorem powerLoop_sym (A : (ι → ℂ) → ι → ℂ) (σ : ι → ι) (χ : ℂ) (hA : ∀ x, Sym σ χ x → Sym σ χ (A x)) (basis : List (ι → ℂ))
    (hb : ∀ u ∈ basis, Sym σ χ u) (lamS : Option ℂ) (eps : ℝ) : ∀ (m : Nat) (g : ι → ℂ) (l : ℂ), Sym σ χ g →
      Sym σ χ (powerLoop A basis lamS eps m g l).gap
  | 0, g, l, hg => nextGap_sym A σ χ hA lamS _ (gramSchmidt_sym σ χ g basis hg hb)
  | m + 1, g, l, hg => by
    have hx := nextGap_sym A σ χ hA lamS _ (gramSchmidt_sym σ χ g basis hg hb)
    unfold powerLoop
    simp only
    split_ifs
    · exact hx
    · exact powerLoop_sym A σ χ hA basis hb lamS eps m _ _ hx

theorem eigRuns_sym (A : (ι → ℂ) → ι → ℂ) (σ : ι → ι) (χ : ℂ) (hA : ∀ x, Sym σ χ x → Sym σ χ (A x)) (lamS : Option ℂ) (eps : ℝ)
    (maxCount : Nat) (gap0 : ι → ℂ) (h0 : Sym σ χ gap0) : ∀ n, ∀ r ∈ eigRuns A lamS eps maxCount gap0 n, Sym σ χ r.gap
  | 0, r, hr => by simp [eigRuns] at hr
  | n + 1, r, hr => by
    have ih := eigRuns_sym A σ χ hA lamS eps maxCount gap0 h0 n
    rw [eigRuns, List.mem_append, List.mem_singleton] at hr
    rcases hr with hr | rfl
    · exact ih r hr
    · refine powerLoop_sym A σ χ hA _ ?_ lamS eps maxCount gap0 1 h0
      intro u hu
      rw [List.mem_map] at hu
      obtain ⟨r', hr', rfl⟩ := hu
      exact ih r' hr'

/-- **C116 (a).** If the kernel does not leave the sector, every gap function found from a start gap of the sector — with or
    without shift, the first and the deflated ones, for any number of steps — is in the sector. -/
theorem getEig_sym (A : (ι → ℂ) → ι → ℂ) (σ : ι → ι) (χ : ℂ) (hA : ∀ x, Sym σ χ x → Sym σ χ (A x)) (shiftMat : Bool) (eps : ℝ)
    (maxCount : Nat) (gap0 gap0s : ι → ℂ) (h0 : Sym σ χ gap0) (nEig : Nat) :
    ∀ p ∈ getEig A shiftMat eps maxCount gap0 gap0s nEig, Sym σ χ p.2 := by
  intro p hp
  unfold getEig at hp
  simp only [List.mem_map] at hp
  obtain ⟨r, hr, rfl⟩ := hp
  exact eigRuns_sym A σ χ hA _ eps maxCount gap0 h0 nEig r hr

/-! two kernels that agree on the sector -/

theorem powerLoop_agree (A A' : (ι → ℂ) → ι → ℂ) (σ : ι → ι) (χ : ℂ) (hA : ∀ x, Sym σ χ x → Sym σ χ (A x))
    (hAA : ∀ x, Sym σ χ x → A' x = A x) (basis : List (ι → ℂ)) (hb : ∀ u ∈ basis, Sym σ χ u) (lamS : Option ℂ) (eps : ℝ) :
    ∀ (m : Nat) (g : ι → ℂ) (l : ℂ), Sym σ χ g → powerLoop A' basis lamS eps m g l = powerLoop A basis lamS eps m g l := by
  have key : ∀ x, Sym σ χ x → rayleigh A' lamS x = rayleigh A lamS x ∧ nextGap A' lamS x = nextGap A lamS x := by
    intro x hx
    have hs : shifted A' lamS x = shifted A lamS x := by rw [shifted_eq, shifted_eq, hAA x hx]
    have hr : rayleigh A' lamS x = rayleigh A lamS x := by unfold rayleigh; rw [hs]
    exact ⟨hr, by unfold nextGap; rw [hs, hr]⟩
  intro m
  induction m with
  | zero =>
    intro g l hg
    obtain ⟨h1, h2⟩ := key _ (gramSchmidt_sym σ χ g basis hg hb)
    unfold powerLoop; simp only [h1, h2]
  | succ m ih =>
    intro g l hg
    have hx := gramSchmidt_sym σ χ g basis hg hb
    obtain ⟨h1, h2⟩ := key _ hx
    unfold powerLoop
    simp only [h1, h2]
    rw [ih _ _ (nextGap_sym A σ χ hA lamS _ hx)]

theorem eigRuns_agree (A A' : (ι → ℂ) → ι → ℂ) (σ : ι → ι) (χ : ℂ) (hA : ∀ x, Sym σ χ x → Sym σ χ (A x))
    (hAA : ∀ x, Sym σ χ x → A' x = A x) (lamS : Option ℂ) (eps : ℝ) (maxCount : Nat) (gap0 : ι → ℂ) (h0 : Sym σ χ gap0) :
    ∀ n, eigRuns A' lamS eps maxCount gap0 n = eigRuns A lamS eps maxCount gap0 n
  | 0 => rfl
  | n + 1 => by
    have ih := eigRuns_agree A A' σ χ hA hAA lamS eps maxCount gap0 h0 n
    unfold eigRuns
    simp only [ih]
    congr 2
    apply powerLoop_agree A A' σ χ hA hAA _ _ lamS eps _ _ _ h0
    intro u hu
    rw [List.mem_map] at hu
    obtain ⟨r, hr, rfl⟩ := hu
    exact eigRuns_sym A σ χ hA lamS eps maxCount gap0 h0 n r hr

/-! ### The pairing kernel -/

section Kernel

variable {nx ny nz nv : Nat} [NeZero nx] [NeZero ny] [NeZero nz]

/-- reversal of the frequency axis, `v -> -v` -/
def revV : Grid nx ny nz × Fin nv → Grid nx ny nz × Fin nv := fun i => (i.1, i.2.rev)

/-- a map of the momenta -/
def mapK (φ : Grid nx ny nz → Grid nx ny nz) : Grid nx ny nz × Fin nv → Grid nx ny nz × Fin nv := fun i => (φ i.1, i.2)

/-- A lattice symmetry of vertex and |G| is a symmetry of the kernel, for every sector. -/
theorem kernel_momentum_sym (φ : Grid nx ny nz ≃+ Grid nx ny nz) (χ : ℂ) (gamma : Grid nx ny nz → Fin nv → Fin nv → ℂ)
    (gk : Grid nx ny nz → Fin nv → ℂ) (norm : ℂ) (hg : ∀ q v v', gamma (φ q) v v' = gamma q v v') (hk : ∀ k v, ‖gk (φ k) v‖ = ‖gk k v‖)
    (x : Grid nx ny nz × Fin nv → ℂ) (hx : Sym (mapK φ) χ x) : Sym (mapK φ) χ (kernel gamma gk norm x) := by
  rintro ⟨k, v⟩
  show kernel gamma gk norm x (φ k, v) = _
  rw [kernel_is_momentum_sum, kernel_is_momentum_sum, ← mul_assoc, mul_comm χ, mul_assoc]
  congr 1
  rw [Finset.mul_sum, ← Equiv.sum_comp φ.toEquiv]
  refine Finset.sum_congr rfl fun k' _ => ?_
  rw [Finset.mul_sum]
  refine Finset.sum_congr rfl fun v' _ => ?_
  have e1 : φ.toEquiv k' - φ k = φ (k' - k) := by
    show φ k' - φ k = _; rw [map_sub]
  have e2 : x (φ.toEquiv k', v') = χ * x (k', v') := hx (k', v')
  have e3 : ‖gk (φ.toEquiv k') v'‖ = ‖gk k' v'‖ := hk k' v'
  rw [e1, hg, e2, e3]; ring

/-- Reversal of both frequencies, likewise. -/
theorem kernel_frequency_sym (χ : ℂ) (gamma : Grid nx ny nz → Fin nv → Fin nv → ℂ) (gk : Grid nx ny nz → Fin nv → ℂ) (norm : ℂ)
    (hg : ∀ q v v', gamma q v.rev v'.rev = gamma q v v') (hk : ∀ k v, ‖gk k v.rev‖ = ‖gk k v‖)
    (x : Grid nx ny nz × Fin nv → ℂ) (hx : Sym revV χ x) : Sym revV χ (kernel gamma gk norm x) := by
  rintro ⟨k, v⟩
  show kernel gamma gk norm x (k, v.rev) = _
  rw [kernel_is_momentum_sum, kernel_is_momentum_sum, ← mul_assoc, mul_comm χ, mul_assoc]
  congr 1
  rw [Finset.mul_sum]
  refine Finset.sum_congr rfl fun k' _ => ?_
  rw [Finset.mul_sum, ← Equiv.sum_comp Fin.revPerm]
  refine Finset.sum_congr rfl fun v' _ => ?_
  have e2 : x (k', v'.rev) = χ * x (k', v') := hx (k', v')
  simp only [Fin.revPerm_apply]
  rw [hg, e2, hk]; ring

/-- the channel signs: even in frequency for singlet, odd for triplet -/
def chanSign (channel : String) : ℂ := if channel = "sing" then 1 else -1

/-- the vertex symmetrised in its second frequency (C36) -/
def symGamma (gamma : Grid nx ny nz → Fin nv → Fin nv → ℂ) (s : ℂ) : Grid nx ny nz → Fin nv → Fin nv → ℂ :=
  fun q v v' => 1 / 2 * (gamma q v v' + s * gamma q v v'.rev)

/-- part of `x` with parity `s` -/
def parityPart (s : ℂ) (x : Grid nx ny nz × Fin nv → ℂ) : Grid nx ny nz × Fin nv → ℂ := fun i => 1 / 2 * (x i + s * x (revV i))

/-- The kernel of the symmetrised vertex is the kernel acting on the part of that parity only. -/
theorem kernel_symGamma (gamma : Grid nx ny nz → Fin nv → Fin nv → ℂ) (gk : Grid nx ny nz → Fin nv → ℂ) (norm s : ℂ)
    (hk : ∀ k v, ‖gk k v.rev‖ = ‖gk k v‖) (x : Grid nx ny nz × Fin nv → ℂ) :
    kernel (symGamma gamma s) gk norm x = kernel gamma gk norm (parityPart s x) := by
  funext ⟨k, v⟩
  rw [kernel_is_momentum_sum, kernel_is_momentum_sum]
  congr 1
  refine Finset.sum_congr rfl fun k' _ => ?_
  have h2 : ∑ v' : Fin nv, gamma (k' - k) v v'.rev * ((‖gk k' v'‖ ^ 2 : ℝ) : ℂ) * x (k', v') =
      ∑ v' : Fin nv, gamma (k' - k) v v' * ((‖gk k' v'‖ ^ 2 : ℝ) : ℂ) * x (k', v'.rev) := by
    rw [← Equiv.sum_comp Fin.revPerm]
    refine Finset.sum_congr rfl fun v' _ => ?_
    simp only [Fin.revPerm_apply, Fin.rev_rev]
    rw [hk]
  have e1 : ∑ v' : Fin nv, symGamma gamma s (k' - k) v v' * ((‖gk k' v'‖ ^ 2 : ℝ) : ℂ) * x (k', v') =
      1 / 2 * (∑ v' : Fin nv, gamma (k' - k) v v' * ((‖gk k' v'‖ ^ 2 : ℝ) : ℂ) * x (k', v')) +
      1 / 2 * s * ∑ v' : Fin nv, gamma (k' - k) v v'.rev * ((‖gk k' v'‖ ^ 2 : ℝ) : ℂ) * x (k', v') := by
    rw [Finset.mul_sum, Finset.mul_sum, ← Finset.sum_add_distrib]
    refine Finset.sum_congr rfl fun v' _ => ?_
    unfold symGamma; ring
  rw [e1, h2, Finset.mul_sum, Finset.mul_sum, ← Finset.sum_add_distrib]
  refine Finset.sum_congr rfl fun v' _ => ?_
  simp only [parityPart, revV]; ring

omit [NeZero nx] [NeZero ny] [NeZero nz] in
theorem parityPart_of_sym (s : ℂ) (hs : s * s = 1) (x : Grid nx ny nz × Fin nv → ℂ) (hx : Sym revV s x) : parityPart s x = x := by
  funext i
  unfold parityPart
  rw [hx i, ← mul_assoc, hs]; ring

omit [NeZero nx] [NeZero ny] [NeZero nz] in
theorem parityPart_sym (s : ℂ) (hs : s * s = 1) (x : Grid nx ny nz × Fin nv → ℂ) : Sym revV s (parityPart s x) := by
  intro i
  unfold parityPart
  have : revV (revV i) = i := by simp [revV]
  rw [this]
  linear_combination (-(1 / 2) * x (revV i)) * hs

/-- **C116 (b).** What the option `symmetrize` of a channel does, for a vertex unchanged under reversal of both frequencies: the
    eigenvectors of the symmetrised kernel with non-zero eigenvalue are exactly those eigenvectors of the plain kernel that have
    the parity of the channel, with the same eigenvalues; gaps of the other parity are mapped to zero. -/
theorem symmetrised_spectrum (gamma : Grid nx ny nz → Fin nv → Fin nv → ℂ) (gk : Grid nx ny nz → Fin nv → ℂ) (norm s : ℂ) (hs : s * s = 1)
    (hg : ∀ q v v', gamma q v.rev v'.rev = gamma q v v') (hk : ∀ k v, ‖gk k v.rev‖ = ‖gk k v‖)
    (x : Grid nx ny nz × Fin nv → ℂ) (lam : ℂ) (hl : lam ≠ 0) :
    ((kernel (symGamma gamma s) gk norm x = fun i => lam * x i) ↔ (Sym revV s x ∧ kernel gamma gk norm x = fun i => lam * x i)) ∧
    (Sym revV (-s) x → kernel (symGamma gamma s) gk norm x = fun _ => 0) := by
  rw [kernel_symGamma gamma gk norm s hk]
  refine ⟨⟨fun h => ?_, fun ⟨h1, h2⟩ => ?_⟩, fun h => ?_⟩
  · have hsym : Sym revV s x := by
      have h1 := kernel_frequency_sym s gamma gk norm hg hk _ (parityPart_sym s hs x)
      intro i
      have := h1 i
      rw [h] at this
      simp only at this
      have h2 : lam * (x (revV i) - s * x i) = 0 := by linear_combination this
      rcases mul_eq_zero.mp h2 with h3 | h3
      · exact absurd h3 hl
      · linear_combination h3
    refine ⟨hsym, ?_⟩
    rwa [parityPart_of_sym s hs x hsym] at h
  · rw [parityPart_of_sym s hs x h1, h2]
  · have : parityPart s x = fun _ => 0 := by
      funext i
      unfold parityPart
      rw [h i]
      linear_combination (-(1 / 2) * x i) * hs
    rw [this]
    funext ⟨k, v⟩
    rw [kernel_is_momentum_sum]
    simp

/-! ### The driver -/

/-- the options of the Eliashberg section used by the driver (config.py `EliashbergConfig`): start gaps (momentum type, frequency
    type), symmetrisation flags, tolerance, maximal number of steps, number of eigenvalues -/
structure ElCfg where
  gap0Sing : String × String
  gap0Trip : String × String
  symSing : Bool
  symTrip : Bool
  eps : ℝ
  maxCount : Nat
  nEig : Nat

/-- eliashberg_equation.py:155-184 `linear_eliashberg`.  `core` are the momentum rows of `giwk_obj.core`, `F` the loaded pairing
    vertex, `rk`, `rv` the random numbers of `get_gap_start`, `gap0s` the random start of the shift run.  `none` is
    `ValueError`.  The plots (lines 175-178) are left out. -/
def linearEliashberg (cfg : ElCfg) (niv : Nat) (beta : ℝ) (F : Grid nx ny nz → Fin (2 * niv) → Fin (2 * niv) → ℂ)
    (core : Grid nx ny nz → List ℂ) (channel : String) (shiftMat : Bool) (rk rv : Nat → Nat → Nat → Nat → ℂ)
    (gap0s : Grid nx ny nz × Fin (2 * niv) → ℂ) : Option (List (ℂ × (Grid nx ny nz × Fin (2 * niv) → ℂ))) :=
  let gk : Grid nx ny nz → Fin (2 * niv) → ℂ := fun k v => (Mf.cutV (core k) niv).getD v 0
  let norm : ℂ := ((nx * ny * nz : Nat) : ℂ) * beta
  let pars : Option ((String × String) × Bool) :=
    if channel = "sing" then some (cfg.gap0Sing, cfg.symSing) else if channel = "trip" then some (cfg.gap0Trip, cfg.symTrip) else none
  pars.bind fun p =>
    let gap0 : Grid nx ny nz × Fin (2 * niv) → ℂ := fun i =>
      gapStart nx ny niv p.1.1 p.1.2 rk rv i.1.1.val i.1.2.1.val i.1.2.2.val i.2.val
    let gamma : Grid nx ny nz × Fin (2 * niv) → Fin (2 * niv) → ℂ := fun i v' => -F i.1 i.2 v'
    let gammaS := if p.2 then symmetrizeGamma gamma channel else some gamma
    gammaS.map fun g => getEig (kernel (fun q v v' => g (q, v) v') gk norm) shiftMat cfg.eps cfg.maxCount gap0 gap0s cfg.nEig

/-- exchange of `kx` and `ky` on a square grid -/
def swapXY {n nz : Nat} : Grid n n nz ≃+ Grid n n nz where
  toFun k := (k.2.1, k.1, k.2.2)
  invFun k := (k.2.1, k.1, k.2.2)
  left_inv _ := rfl
  right_inv _ := rfl
  map_add' _ _ := rfl

/-- inversion of `kx` -/
def negX : Grid nx ny nz ≃+ Grid nx ny nz where
  toFun k := (-k.1, k.2.1, k.2.2)
  invFun k := (-k.1, k.2.1, k.2.2)
  left_inv k := by simp
  right_inv k := by simp
  map_add' a b := Prod.ext (by simp [add_comm]) rfl

/-- inversion of `ky` -/
def negY : Grid nx ny nz ≃+ Grid nx ny nz where
  toFun k := (k.1, -k.2.1, k.2.2)
  invFun k := (k.1, -k.2.1, k.2.2)
  left_inv k := by simp
  right_inv k := by simp
  map_add' a b := by simp [add_comm]

/-- the driver, written out -/
theorem linearEliashberg_eq (cfg : ElCfg) (niv : Nat) (beta : ℝ) (F : Grid nx ny nz → Fin (2 * niv) → Fin (2 * niv) → ℂ)
    (core : Grid nx ny nz → List ℂ) (G : Grid nx ny nz → Int → ℂ) (nivCore : Nat) (hn : niv ≤ nivCore)
    (hcore : ∀ k, core k = Bubble.samplesF (G k) nivCore) (channel : String) (hc : channel = "sing" ∨ channel = "trip") (shiftMat : Bool)
    (rk rv : Nat → Nat → Nat → Nat → ℂ) (gap0s : Grid nx ny nz × Fin (2 * niv) → ℂ) :
    linearEliashberg cfg niv beta F core channel shiftMat rk rv gap0s = some (getEig
      (kernel (if (if channel = "sing" then cfg.symSing else cfg.symTrip) then symGamma (fun q v v' => -F q v v') (chanSign channel)
        else fun q v v' => -F q v v') (fun (k : Grid nx ny nz) (v : Fin (2 * niv)) => G k (((v : Nat) : Int) - niv)) (((nx * ny * nz : Nat) : ℂ) * beta)) shiftMat cfg.eps cfg.maxCount
      (fun i => gapStart nx ny niv (if channel = "sing" then cfg.gap0Sing else cfg.gap0Trip).1
        (if channel = "sing" then cfg.gap0Sing else cfg.gap0Trip).2 rk rv i.1.1.val i.1.2.1.val i.1.2.2.val i.2.val) gap0s cfg.nEig) := by
  have hgk : (fun (k : Grid nx ny nz) (v : Fin (2 * niv)) => (Mf.cutV (core k) niv).getD v 0) =
      fun (k : Grid nx ny nz) (v : Fin (2 * niv)) => G k (((v : Nat) : Int) - niv) := by
    funext k v
    have hlen := Bubble.samplesF_length (G k) nivCore
    obtain ⟨h1, h2⟩ := Mf.cutV_value (core k) nivCore (by rw [hcore, hlen]) niv hn
    have h3 := h2 (((v : Nat) : Int) - niv) (by omega) (by have := v.isLt; omega)
    rw [hcore, Bubble.samplesF_atF _ _ _ (by omega) (by have := v.isLt; omega), ← hcore,
      Mf.atF_eq _ niv h1, if_pos ⟨by omega, by have := v.isLt; omega⟩] at h3
    have e : (((v : Nat) : Int) - niv + niv).toNat = v := by omega
    rw [e] at h3
    simp [List.getD, h3]
  unfold linearEliashberg
  simp only [hgk]
  rcases hc with rfl | rfl
  · simp only [if_true, Option.bind_some, symmetrizeGamma, chanSign]
    cases hsym : cfg.symSing
    · rfl
    · have : (fun (q : Grid nx ny nz) (v v' : Fin (2 * niv)) => 1 / 2 * (-F q v v' + -F q v v'.rev)) =
          symGamma (fun q v v' => -F q v v') 1 := by
        funext q v v'; unfold symGamma; ring
      rw [if_pos rfl, if_pos rfl, Option.map_some, this]
  · simp only [show ("trip" : String) ≠ "sing" by decide, if_false, if_true, Option.bind_some, symmetrizeGamma, chanSign]
    cases hsym : cfg.symTrip
    · rfl
    · have : (fun (q : Grid nx ny nz) (v v' : Fin (2 * niv)) => 1 / 2 * (-F q v v' - -F q v v'.rev)) =
          symGamma (fun q v v' => -F q v v') (-1) := by
        funext q v v'; unfold symGamma; ring
      rw [if_pos rfl, if_pos rfl, Option.map_some, this]

end Kernel

end DGA.Eli
