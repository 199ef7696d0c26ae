import Verif.Eliash.Driver

/-
  C117: gaps and eigenvalues when the vertex obeys `Gamma(q; -v, -v') = conj Gamma(q; v, v')`, the symmetry the assembled pairing
  vertex has (Pairing/Symmetry.lean).
-/

noncomputable section

namespace DGA.Eli

variable {ι : Type _} [Fintype ι]

local notation "conj" => starRingEnd ℂ

/-- `x(σ i) = s conj x(i)` -/
def CSym (σ : ι → ι) (s : ℂ) (x : ι → ℂ) : Prop := ∀ i, x (σ i) = s * conj (x i)

/-- what is needed of `σ` and `s`: an involution and a sign -/
structure Refl (σ : ι → ι) (s : ℂ) : Prop where
  inv : Function.Involutive σ
  sq : s * s = 1
  real : conj s = s

theorem dot_csym {σ : ι → ι} {s : ℂ} (h : Refl σ s) {u v : ι → ℂ} (hu : CSym σ s u) (hv : CSym σ s v) : conj (dot u v) = dot u v := by
  unfold dot
  rw [map_sum, ← Equiv.sum_comp (h.inv.toPerm σ) (fun i => conj (u i) * v i)]
  refine Finset.sum_congr rfl fun i _ => ?_
  have e1 : u ((h.inv.toPerm σ) i) = s * conj (u i) := hu i
  have e2 : v ((h.inv.toPerm σ) i) = s * conj (v i) := hv i
  rw [e1, e2, map_mul, map_mul, h.real, Complex.conj_conj]
  linear_combination (-(u i * conj (v i))) * h.sq

theorem gramSchmidt_csym {σ : ι → ι} {s : ℂ} (h : Refl σ s) (v : ι → ℂ) (basis : List (ι → ℂ)) (hv : CSym σ s v)
    (hb : ∀ u ∈ basis, CSym σ s u) : CSym σ s (gramSchmidt v basis) := by
  intro i
  rw [gramSchmidt_span, gramSchmidt_span, hv i, map_sub, mul_sub, map_list_sum, List.map_map, ← List.sum_map_mul_left]
  congr 2
  apply List.map_congr_left
  intro u hu
  simp only [Function.comp, map_mul, map_div₀]
  rw [dot_csym h (hb u hu) hv, dot_csym h (hb u hu) (hb u hu), hb u hu i]
  ring

section loop

variable (A : (ι → ℂ) → ι → ℂ) {σ : ι → ι} {s : ℂ} (h : Refl σ s) (hA : ∀ x, CSym σ s x → CSym σ s (A x)) (lamS : Option ℂ)
  (hl : conj (lamS.getD 0) = lamS.getD 0)

include h hA hl

omit [Fintype ι] h in
theorem shifted_csym (x : ι → ℂ) (hx : CSym σ s x) : CSym σ s (shifted A lamS x) := by
  intro i
  rw [shifted_eq]
  simp only
  rw [hA x hx i, hx i, map_sub, map_mul, hl]; ring

theorem rayleigh_real (x : ι → ℂ) (hx : CSym σ s x) : conj (rayleigh A lamS x) = rayleigh A lamS x := by
  unfold rayleigh
  rw [map_div₀, dot_csym h hx (shifted_csym A hA lamS hl x hx), dot_csym h hx hx]

theorem nextGap_csym (x : ι → ℂ) (hx : CSym σ s x) : CSym σ s (nextGap A lamS x) := by
  intro i
  unfold nextGap
  rw [shifted_csym A hA lamS hl x hx i, map_div₀, rayleigh_real A h hA lamS hl x hx]; ring

theorem powerLoop_csym (basis : List (ι → ℂ)) (hb : ∀ u ∈ basis, CSym σ s u) (eps : ℝ) : ∀ (m : Nat) (g : ι → ℂ) (l : ℂ), CSym σ s g →
      CSym σ s (powerLoop A basis lamS eps m g l).gap ∧
      conj (powerLoop A basis lamS eps m g l).lam = (powerLoop A basis lamS eps m g l).lam
  | 0, g, l, hg =>
    have hx := gramSchmidt_csym h g basis hg hb
    ⟨nextGap_csym A h hA lamS hl _ hx, rayleigh_real A h hA lamS hl _ hx⟩
  | m + 1, g, l, hg => by
    have hx := gramSchmidt_csym h g basis hg hb
    have h1 := nextGap_csym A h hA lamS hl _ hx
    unfold powerLoop
    simp only
    split_ifs
    · exact ⟨h1, rayleigh_real A h hA lamS hl _ hx⟩
    · exact powerLoop_csym basis hb eps m _ _ h1

theorem eigRuns_csym (eps : ℝ) (maxCount : Nat) (gap0 : ι → ℂ) (h0 : CSym σ s gap0) :
    ∀ n, ∀ r ∈ eigRuns A lamS eps maxCount gap0 n, CSym σ s r.gap ∧ conj r.lam = r.lam
  | 0, r, hr => by simp [eigRuns] at hr
  | n + 1, r, hr => by
    have ih := eigRuns_csym eps maxCount gap0 h0 n
    rw [eigRuns, List.mem_append, List.mem_singleton] at hr
    rcases hr with hr | rfl
    · exact ih r hr
    · refine powerLoop_csym A h hA lamS hl _ ?_ eps maxCount gap0 1 h0
      intro u hu
      rw [List.mem_map] at hu
      obtain ⟨r', hr', rfl⟩ := hu
      exact (ih r' hr').1

end loop

theorem getEig_csym (A : (ι → ℂ) → ι → ℂ) {σ : ι → ι} {s : ℂ} (h : Refl σ s) (hA : ∀ x, CSym σ s x → CSym σ s (A x)) (shiftMat : Bool)
    (eps : ℝ) (maxCount : Nat) (gap0 gap0s : ι → ℂ) (h0 : CSym σ s gap0) (nEig : Nat)
    (hl : conj ((shiftOf A shiftMat eps maxCount gap0s).getD 0) = (shiftOf A shiftMat eps maxCount gap0s).getD 0) :
    ∀ p ∈ getEig A shiftMat eps maxCount gap0 gap0s nEig, CSym σ s p.2 ∧ conj p.1 = p.1 := by
  intro p hp
  unfold getEig at hp
  simp only [List.mem_map] at hp
  obtain ⟨r, hr, rfl⟩ := hp
  obtain ⟨h1, h2⟩ := eigRuns_csym A h hA _ hl eps maxCount gap0 h0 nEig r hr
  refine ⟨h1, ?_⟩
  cases hs : shiftOf A shiftMat eps maxCount gap0s with
  | none => exact h2
  | some t =>
    rw [hs] at hl
    simp only [Option.getD_some] at hl
    simp only [map_add, h2, hl]

/-! ### The kernel -/

variable {nx ny nz : Nat} [NeZero nx] [NeZero ny] [NeZero nz]

theorem kernel_csym {nv : Nat} (s : ℂ) (gamma : Grid nx ny nz → Fin nv → Fin nv → ℂ) (gk : Grid nx ny nz → Fin nv → ℂ)
    (norm : ℂ) (hnorm : conj norm = norm) (hg : ∀ q v v', gamma q v.rev v'.rev = conj (gamma q v v'))
    (hk : ∀ k v, ‖gk k v.rev‖ = ‖gk k v‖) (x : Grid nx ny nz × Fin nv → ℂ) (hx : CSym revV s x) :
    CSym revV s (kernel gamma gk norm x) := by
  rintro ⟨k, v⟩
  show kernel gamma gk norm x (k, v.rev) = _
  rw [kernel_is_momentum_sum, kernel_is_momentum_sum, map_mul, map_div₀, map_one, hnorm, ← mul_assoc, mul_comm s, mul_assoc]
  congr 1
  rw [map_sum, Finset.mul_sum]
  refine Finset.sum_congr rfl fun k' _ => ?_
  rw [map_sum, Finset.mul_sum, ← Equiv.sum_comp Fin.revPerm]
  refine Finset.sum_congr rfl fun v' _ => ?_
  have e2 : x (k', v'.rev) = s * conj (x (k', v')) := hx (k', v')
  simp only [Fin.revPerm_apply]
  rw [hg, e2, hk, map_mul, map_mul, Complex.conj_ofReal]; ring

omit [NeZero nx] [NeZero ny] [NeZero nz] in
theorem symGamma_csym {nv : Nat} (gamma : Grid nx ny nz → Fin nv → Fin nv → ℂ) (t : ℂ) (ht : conj t = t)
    (hg : ∀ q v v', gamma q v.rev v'.rev = conj (gamma q v v')) (q : Grid nx ny nz) (v v' : Fin nv) :
    symGamma gamma t q v.rev v'.rev = conj (symGamma gamma t q v v') := by
  have h2 : gamma q v.rev v' = conj (gamma q v v'.rev) := by
    have := hg q v v'.rev; rwa [Fin.rev_rev] at this
  unfold symGamma
  rw [hg, Fin.rev_rev, h2, map_mul, map_add, map_mul, ht, map_div₀, map_one, map_ofNat]

omit [NeZero nx] [NeZero ny] [NeZero nz] in
theorem gammaOf_csym (niv : Nat) (F : Grid nx ny nz → Fin (2 * niv) → Fin (2 * niv) → ℂ) (sym : Bool) (channel : String)
    (hF : ∀ q v v', F q v.rev v'.rev = conj (F q v v')) (q : Grid nx ny nz) (v v' : Fin (2 * niv)) :
    gammaOf niv F sym channel q v.rev v'.rev = conj (gammaOf niv F sym channel q v v') := by
  have h1 : ∀ (q : Grid nx ny nz) (v v' : Fin (2 * niv)), -F q v.rev v'.rev = conj (-F q v v') := fun q v v' => by
    rw [hF, map_neg]
  unfold gammaOf
  split_ifs
  · exact symGamma_csym _ _ (by unfold chanSign; split_ifs <;> simp) h1 q v v'
  · exact h1 q v v'

omit [NeZero nx] [NeZero ny] [NeZero nz] in
theorem gap0_real (niv : Nat) (kSym channel : String) (hk : kSym ∈ namedK) (hc : channel = "sing" ∨ channel = "trip")
    (rk rv : Nat → Nat → Nat → Nat → ℂ) (i : Grid nx ny nz × Fin (2 * niv)) :
    conj (gap0Of niv kSym channel rk rv i) = gap0Of niv kSym channel rk rv i := by
  have key : ∀ vt, vt = "even" ∨ vt = "odd" → ∀ ix iy iz p,
      conj (gapStart nx ny niv kSym vt rk rv ix iy iz p) = gapStart nx ny niv kSym vt rk rv ix iy iz p := by
    intro vt hv ix iy iz p
    simp only [namedK, List.mem_cons, List.not_mem_nil, or_false] at hk
    rcases hk with rfl | rfl | rfl <;> rcases hv with rfl | rfl <;> by_cases hp : p < niv <;>
      simp [gapStart, hp, -Complex.ofReal_add, -Complex.ofReal_neg]
  exact key _ ((startType kSym channel hk hc).imp And.left And.left) _ _ _ _

/-- **C117 (c).** For a vertex with `F(q; -v, -v') = conj F(q; v, v')` (which the assembled pairing vertex has), a conjugation-symmetric
    Green's function and a named `k_sym`: without shift, or with a real shift, all reported eigenvalues are real and every gap
    obeys `Delta(k, -v) = ± conj Delta(k, v)` with the sign of its start gap — in both channels, symmetrised or not. -/
theorem eigenvalues_real {niv : Nat} (r : Run nx ny nz niv) (hk : r.kSym ∈ namedK)
    (hF : ∀ q v v', r.F q v.rev v'.rev = conj (r.F q v v')) (hG : ∀ k n, r.G k (-n - 1) = conj (r.G k n))
    (hl : r.shiftMat = false ∨ conj ((shiftOf r.A r.shiftMat r.eps r.maxCount r.gap0s).getD 0) =
      (shiftOf r.A r.shiftMat r.eps r.maxCount r.gap0s).getD 0)
    (l : List (ℂ × (Grid nx ny nz × Fin (2 * niv) → ℂ))) (hres : r.result = some l) : ∀ p ∈ l, p.1.im = 0 ∧
      ∀ (k : Grid nx ny nz) (v : Fin (2 * niv)), p.2 (k, v.rev) = startSign r.kSym r.channel * conj (p.2 (k, v)) := by
  have hc : r.channel = "sing" ∨ r.channel = "trip" := by
    by_contra h
    rw [not_or] at h
    rw [(driver_total r).1.mpr h] at hres
    simp at hres
  rw [Run.result_eq r hc, Option.some.injEq] at hres
  subst hres
  have hsgn : startSign r.kSym r.channel * startSign r.kSym r.channel = 1 ∧ conj (startSign r.kSym r.channel) = startSign r.kSym r.channel := by
    unfold startSign; split_ifs <;> simp
  have href : Refl (revV (nx := nx) (ny := ny) (nz := nz) (nv := 2 * niv)) (startSign r.kSym r.channel) :=
    ⟨fun i => by simp [revV], hsgn.1, hsgn.2⟩
  have h0 : CSym revV (startSign r.kSym r.channel) (gap0Of (nx := nx) (ny := ny) (nz := nz) niv r.kSym r.channel r.rk r.rv) := fun i => by
    rw [gap0_real niv r.kSym r.channel hk hc, gap0_parity niv r.kSym r.channel hk hc r.rk r.rv i]
  have hl' : conj ((shiftOf r.A r.shiftMat r.eps r.maxCount r.gap0s).getD 0) = (shiftOf r.A r.shiftMat r.eps r.maxCount r.gap0s).getD 0 := by
    rcases hl with h | h
    · rw [h]; simp [shiftOf]
    · exact h
  intro p hp
  obtain ⟨h1, h2⟩ := getEig_csym r.A href (fun x hx => kernel_csym _ _ _ _ (by simp)
    (gammaOf_csym niv r.F _ r.channel hF) (gkOf_rev niv r.G hG) x hx) r.shiftMat r.eps r.maxCount _ r.gap0s h0 r.nEig hl' p hp
  exact ⟨Complex.conj_eq_iff_im.mp h2, fun k v => h1 (k, v)⟩

end DGA.Eli
