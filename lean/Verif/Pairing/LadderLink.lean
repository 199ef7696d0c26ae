import Verif.Pairing.SymmetryRun
import Verif.Pipeline.Slice

/-
  C120: the saved pairing vertex in terms of the ladder: the Bethe–Salpeter vertex of the lattice, read in particle-particle
  notation at zero total frequency.
-/

noncomputable section

namespace DGA.Pairing

open DGA.RankFiles DGA.Mpi DGA.Pipe DGA.Fp
open DGA.Eli (Grid Run)

local notation "conj" => starRingEnd ℂ

/-! ### Specification -/

/-- vertex of one channel with interaction `U` (`U = u` density, `U = -u` magnetic) from the solution `chi` of the
    Bethe–Salpeter equation with bubble `B`: `beta^2 F`, plus the change of the three-leg part when the physical susceptibility
    is replaced by the `lambda`-corrected one; without correction the second term vanishes. -/
def vertexLam {n : Nat} (beta U : ℂ) (lam : Option ℂ) (B : Fin n → ℂ) (chi : Matrix (Fin n) (Fin n) ℂ) (a b : Fin n) : ℂ :=
  beta ^ 2 * vertexF B chi a b + U ^ 2 * (phys beta chi - withLambda lam (phys beta chi)) *
    ((∑ k, chi a k) / B a / (1 - U * phys beta chi)) * ((∑ k, chi b k) / B b / (1 - U * phys beta chi))

theorem vertexLam_none {n : Nat} (beta U : ℂ) (B : Fin n → ℂ) (chi : Matrix (Fin n) (Fin n) ℂ) (a b : Fin n) :
    vertexLam beta U none B chi a b = beta ^ 2 * vertexF B chi a b := by
  simp [vertexLam, withLambda]

/-- the value of a matrix on the box of `2 n` frequencies at two Matsubara indices -/
def atFreq {n : Nat} (M : Fin (2 * n) → Fin (2 * n) → ℂ) (v v' : Int) : ℂ :=
  if h : (-(n : Int) ≤ v ∧ v < n) ∧ (-(n : Int) ≤ v' ∧ v' < n) then M ⟨(v + n).toNat, by omega⟩ ⟨(v' + n).toNat, by omega⟩ else 0

/-! ### The components of one momentum and frequency -/

theorem atMx_eq {n : Nat} (M : Mat (2 * n) ℂ) (v v' : Int) : atMx M v v' = atFreq M v v' := by
  unfold atMx atFreq
  by_cases h1 : -(n : Int) ≤ v ∧ v < n
  · have e : ∀ f : Fin (2 * n) → ℂ, atV f v = f ⟨(v + n).toNat, by omega⟩ := fun f => by unfold atV; rw [dif_pos h1]
    rw [e]
    by_cases h2 : -(n : Int) ≤ v' ∧ v' < n
    · rw [dif_pos ⟨h1, h2⟩]; unfold atV; rw [dif_pos h2]
    · rw [dif_neg (fun h => h2 h.2)]; unfold atV; rw [dif_neg h2]
  · rw [dif_neg (fun h => h1 h.1)]; unfold atV; rw [dif_neg h1]

theorem aux_symm {n : Nat} (gam : Mat n ℂ) (hs : ∀ i j, gam i j = gam j i) (g0 : Vec n ℂ) (beta ur : ℂ) (X : Mat n ℂ)
    (hX : auxGamW gam g0 beta ur = some X) (i j : Fin n) : X i j = X j i := by
  unfold auxGamW inv? at hX
  split at hX
  · simp at hX
  · rw [Option.some.injEq] at hX
    have ht : (addC (Fp.diag (fun i => 1 / g0 i) + gam) (-(ur / beta ^ 2))).transpose =
        addC (Fp.diag (fun i => 1 / g0 i) + gam) (-(ur / beta ^ 2)) := by
      ext i j
      simp only [Matrix.transpose_apply, addC, Matrix.of_apply, Matrix.add_apply, hs j i, Fp.diag]
      by_cases h : i = j
      · subst h; rfl
      · simp [h, Ne.symm h]
    have : X.transpose = X := by rw [← hX, Matrix.transpose_nonsing_inv, ht]
    exact (congrFun (congrFun this j) i)

/-- `f1 + (1 - U chi_lam) f2` is the vertex of the specification on the core box. -/
theorem components_value {c s : Nat} (gam X : Mat (2 * c) ℂ) (hs : ∀ i j, gam i j = gam j i) (g0 : Vec (2 * (c + s)) ℂ)
    (h0 : ∀ i, g0 i ≠ 0) (beta ur : ℂ) (hb : beta ≠ 0) (lam : Option ℂ)
    (hX : auxGamW gam (cut1 (c := c) (s := s) g0) beta ur = some X) (chi : Mat (2 * (c + s)) ℂ) (hL : Ladder beta ur g0 gam chi)
    (i j : Fin (2 * c)) :
    (ladderComponents X (vrgSlice true X (cut1 (c := c) (s := s) g0)) (cut1 (c := c) (s := s) g0) beta ur).1 i j +
      (1 - ur * corrected lam (phys beta chi)) *
      (ladderComponents X (vrgSlice true X (cut1 (c := c) (s := s) g0)) (cut1 (c := c) (s := s) g0) beta ur).2 i j =
    vertexLam beta ur lam g0 chi (core c s i) (core c s j) := by
  have hd := denom_ne_zero gam X g0 h0 beta ur hb hX chi hL
  obtain ⟨chi', h1, h2⟩ := ladder_vertex (c := c) (s := s) false gam X (aux_symm gam hs _ beta ur X hX) g0 h0 beta ur ur hb
    (by simp [getUr]) hX hd
  have hL' := (ladder_iff beta ur g0 gam chi).1 hL
  rw [h1] at hL'
  have hcc := Option.some.inj hL'
  subst hcc
  obtain ⟨-, h3, -⟩ := slice_value gam X g0 h0 beta ur hb hX chi' hL
  have h4 := congrFun (congrFun h2 i) j
  simp only [buildF, Matrix.of_apply, Bool.false_eq_true, if_false, Matrix.smul_apply, smul_eq_mul, cut2] at h4
  have e1 : fob2Slice g0 chi' (emb c s i) (emb c s j) = vertexF g0 chi' (core c s i) (core c s j) := by
    unfold fob2Slice vertexF
    simp only [Matrix.of_apply, Fp.diag]
    show _ = (if core c s i = core c s j then 1 / g0 (core c s i) else 0) - _
    have : ∀ a b : ℂ, ∀ x : ℂ, 1 / a * x * 1 / b = x / (a * b) := by intros; field_simp
    rw [this]
    rfl
  rw [e1] at h4
  have hp : physical beta chi' = phys beta chi' := rfl
  have hcor : corrected lam (phys beta chi') = withLambda lam (phys beta chi') := by cases lam <;> rfl
  have e2 : (ladderComponents X (vrgSlice true X (cut1 (c := c) (s := s) g0)) (cut1 (c := c) (s := s) g0) beta ur).2 i j =
      ur * ((∑ k, chi' (core c s i) k) / g0 (core c s i) / (1 - ur * phys beta chi')) *
        ((∑ k, chi' (core c s j) k) / g0 (core c s j) / (1 - ur * phys beta chi')) := by
    rw [← h3, ← h3]; rfl
  rw [hp] at h4
  unfold vertexLam
  rw [← h4, hcor, e2]
  ring

/-! ### The calculation -/

namespace Calc

variable {nx ny nz c : Nat} (C : Calc nx ny nz c)

/-- the regular case: at the momentum `q` and every bosonic frequency of the box the bubble does not vanish, `chi x` solves the Bethe–Salpeter equation of the
    channel, its physical susceptibility does not vanish, the core inversion of the code succeeds; the irreducible vertex is symmetric in its two frequencies. -/
structure Regular (ur : ℂ) (Γ : Int → Mat (2 * c) ℂ) (q : Mom) (chi : Int → Mat (2 * (c + C.s)) ℂ) : Prop where
  beta : (C.beta : ℂ) ≠ 0
  bubble : ∀ x : Int, -(C.niw : Int) ≤ x ∧ x ≤ C.niw → ∀ a, Pipe.onBox (c + C.s) (C.B q x) a ≠ 0
  symm : ∀ x : Int, -(C.niw : Int) ≤ x ∧ x ≤ C.niw → ∀ i j, Γ x i j = Γ x j i
  core : ∀ x : Int, -(C.niw : Int) ≤ x ∧ x ≤ C.niw → (auxGamW (Γ x) (Pipe.onBox c (C.B q x)) C.beta ur).isSome
  bse : ∀ x : Int, -(C.niw : Int) ≤ x ∧ x ≤ C.niw → Ladder (C.beta : ℂ) ur (Pipe.onBox (c + C.s) (C.B q x)) (Γ x) (chi x)
  chi_ne : ∀ x : Int, -(C.niw : Int) ≤ x ∧ x ≤ C.niw → phys (C.beta : ℂ) (chi x) ≠ 0

variable {C}

theorem comp_value {ur : ℂ} {Γ : Int → Mat (2 * c) ℂ} {rep : Nat → Mom} {iq : Nat} {chi : Int → Mat (2 * (c + C.s)) ℂ}
    (h : C.Regular ur Γ (rep iq) chi) (lam : Option ℂ) (w : Int) (hw : -(C.niw : Int) ≤ w ∧ w ≤ C.niw) (v v' : Int)
    (hv : -(c : Int) ≤ v ∧ v < c) (hv' : -(c : Int) ≤ v' ∧ v' < c) :
    comp false C.niw C.beta ur Γ C.B rep iq w v v' + (1 - ur * chiIrr C.s C.niw C.beta ur lam Γ C.B rep iq w) *
      comp true C.niw C.beta ur Γ C.B rep iq w v v' =
    atFreq (vertexLam C.beta ur lam (Pipe.onBox (c + C.s) (C.B (rep iq) w)) (chi w)) v v' := by
  obtain ⟨X, hX⟩ := Option.isSome_iff_exists.1 (h.core w hw)
  have hXQ : XQ (C.beta : ℂ) ur Γ C.B (rep iq) w = X := by unfold XQ; rw [hX]; rfl
  have hX' : auxGamW (Γ w) (cut1 (c := c) (s := C.s) (Pipe.onBox (c + C.s) (C.B (rep iq) w))) (C.beta : ℂ) ur = some X := by
    rw [cut1_box]; exact hX
  have hval := components_value (Γ w) X (h.symm w hw) (Pipe.onBox (c + C.s) (C.B (rep iq) w)) (h.bubble w hw) (C.beta : ℂ) ur h.beta lam
    hX' (chi w) (h.bse w hw)
  have hcq : CQ C.s (C.beta : ℂ) ur Γ C.B (rep iq) w = phys (C.beta : ℂ) (chi w) := by
    have := (slice_value (Γ w) X (Pipe.onBox (c + C.s) (C.B (rep iq) w)) (h.bubble w hw) (C.beta : ℂ) ur h.beta hX' (chi w) (h.bse w hw)).2.2
      (h.chi_ne w hw)
    rw [cut1_box] at this
    unfold CQ
    rw [hXQ]; exact this
  unfold comp chiIrr
  simp only [if_pos hw, hXQ, hcq, Bool.false_eq_true, if_false, if_true]
  rw [atMx_eq, atMx_eq]
  unfold atFreq
  rw [dif_pos ⟨hv, hv'⟩, dif_pos ⟨hv, hv'⟩, dif_pos ⟨⟨by omega, by omega⟩, ⟨by omega, by omega⟩⟩]
  have := hval ⟨(v + c).toNat, by omega⟩ ⟨(v' + c).toNat, by omega⟩
  rw [cut1_box] at this
  rw [this]
  unfold Pipe.core
  congr 1 <;> (apply Fin.ext; simp only []; push_cast; omega)

theorem comp_symm {ur : ℂ} {Γ : Int → Mat (2 * c) ℂ} {rep : Nat → Mom} {iq : Nat}
    (hs : ∀ x : Int, -(C.niw : Int) ≤ x ∧ x ≤ C.niw → ∀ i j, Γ x i j = Γ x j i) (second : Bool) (w v v' : Int) :
    comp second C.niw C.beta ur Γ C.B rep iq w v v' = comp second C.niw C.beta ur Γ C.B rep iq w v' v := by
  unfold comp
  by_cases hw : -(C.niw : Int) ≤ w ∧ w ≤ C.niw
  · rw [if_pos hw, if_pos hw]
    simp only [atMx_eq]
    have hX : ∀ i j, XQ (C.beta : ℂ) ur Γ C.B (rep iq) w i j = XQ (C.beta : ℂ) ur Γ C.B (rep iq) w j i := by
      intro i j
      cases hx : auxGamW (Γ w) (Pipe.onBox c (C.B (rep iq) w)) (C.beta : ℂ) ur with
      | none =>
        have : XQ (C.beta : ℂ) ur Γ C.B (rep iq) w = 0 := by unfold XQ; rw [hx]; rfl
        rw [this]; rfl
      | some X =>
        have : XQ (C.beta : ℂ) ur Γ C.B (rep iq) w = X := by unfold XQ; rw [hx]; rfl
        rw [this]
        exact aux_symm (Γ w) (hs w hw) _ _ _ X hx i j
    have key : ∀ M : Mat (2 * c) ℂ, (∀ i j, M i j = M j i) → atFreq M v v' = atFreq M v' v := by
      intro M hM
      unfold atFreq
      by_cases h : (-(c : Int) ≤ v ∧ v < c) ∧ (-(c : Int) ≤ v' ∧ v' < c)
      · rw [dif_pos h, dif_pos ⟨h.2, h.1⟩]; exact hM _ _
      · rw [dif_neg h, dif_neg (fun h' => h ⟨h'.2, h'.1⟩)]
    apply key
    intro i j
    cases second
    · simp only [Bool.false_eq_true, if_false, ladderComponents, Matrix.of_apply]
      rw [hX i j]
      by_cases hij : i = j
      · subst hij; rfl
      · simp only [if_neg hij, if_neg (Ne.symm hij)]
        ring
    · simp only [if_true, ladderComponents, Matrix.of_apply]
      ring
  · rw [if_neg hw, if_neg hw]

/-- for a vertex component with both symmetries the Hermitian average of the program changes nothing -/
theorem H_eq (F : Nat → Int → Int → Int → ℂ) (q : Nat) (hc : ∀ w v v' : Int, F q (-w) (-v - 1) (-v' - 1) = conj (F q w v v'))
    (hs : ∀ w v v', F q w v v' = F q w v' v) (v v' : Int) : H F q v v' = -F q (v - v') v (-v' - 1) := by
  unfold H P
  have := hc (v - v') (-v' - 1) v
  have e : conj (F q (v' - v) v' (-v - 1)) = F q (v - v') v (-v' - 1) := by
    rw [show -(v - v') = v' - v by ring, show -(-v' - 1) - 1 = v' by ring] at this
    rw [this, Complex.conj_conj, hs]
  rw [map_neg, e]
  ring

/-- **C120.** One momentum: the singlet and triplet vertices of the calculation are `-(3/2 V_m - 1/2 V_d)` and `-(1/2 V_m + 1/2 V_d)` with the
    ladder vertices at bosonic frequency `v - v'` and fermionic frequencies `v`, `-v'`. -/
theorem pp_value {iq : Nat} {chiM chiD : Int → Mat (2 * (c + C.s)) ℂ} (hM : C.Regular (-C.u) C.ΓM (C.rep iq) chiM)
    (hD : C.Regular C.u C.ΓD (C.rep iq) chiD) (sing : Bool) (v v' : Int) (hv : -(c : Int) ≤ v ∧ v < c) (hv' : -(c : Int) ≤ v' ∧ v' < c)
    (hw : -(C.niw : Int) ≤ v - v' ∧ v - v' ≤ C.niw) :
    C.ingr.pp sing iq v v' =
      -((if sing then 3 / 2 else 1 / 2) * atFreq (vertexLam C.beta (-C.u) (C.lamM.map (↑)) (Pipe.onBox (c + C.s) (C.B (C.rep iq) (v - v')))
          (chiM (v - v'))) v (-v' - 1) +
        (if sing then -(1 / 2) else 1 / 2) * atFreq (vertexLam C.beta C.u (C.lamD.map (↑)) (Pipe.onBox (c + C.s) (C.B (C.rep iq) (v - v')))
          (chiD (v - v'))) v (-v' - 1)) := by
  have hv2 : -(c : Int) ≤ -v' - 1 ∧ -v' - 1 < c := ⟨by omega, by omega⟩
  have eM := comp_value hM (C.lamM.map (↑)) (v - v') hw v (-v' - 1) hv hv2
  have eD := comp_value hD (C.lamD.map (↑)) (v - v') hw v (-v' - 1) hv hv2
  have m1 := H_eq C.ingr.f1M iq (fun w v v' => C.comp_conj (-C.u) (starR' _) C.ΓM C.hM false iq w v v')
    (fun w v v' => comp_symm hM.symm false w v v') v v'
  have m2 := H_eq C.ingr.f2M iq (fun w v v' => C.comp_conj (-C.u) (starR' _) C.ΓM C.hM true iq w v v')
    (fun w v v' => comp_symm hM.symm true w v v') v v'
  have d1 := H_eq C.ingr.f1D iq (fun w v v' => C.comp_conj C.u (starR _) C.ΓD C.hD false iq w v v')
    (fun w v v' => comp_symm hD.symm false w v v') v v'
  have d2 := H_eq C.ingr.f2D iq (fun w v v' => C.comp_conj C.u (starR _) C.ΓD C.hD true iq w v v')
    (fun w v v' => comp_symm hD.symm true w v v') v v'
  unfold Ingr.pp Ingr.magn Ingr.dens
  rw [m1, m2, d1, d2, ← eM, ← eD]
  simp only [ingr]
  cases sing
  · simp only [Bool.false_eq_true, if_false]; ring
  · simp only [if_true]; ring

end Calc

section saved

variable {nx ny nz c : Nat} [NeZero nx] [NeZero ny] [NeZero nz]

/-- **C120.** The saved pairing vertices.  For every number of ranks, grid, symmetry set and frequency box: at each momentum `q` with irreducible
    representative `k` and each pair of frequencies of the pairing box the saved singlet (triplet) vertex is
    `-(3/2 V_m - 1/2 V_d)` (`-(1/2 V_m + 1/2 V_d)`), with the `lambda`-corrected ladder vertices `V` at momentum `k`, bosonic frequency
    `v - v'` and fermionic frequencies `v`, `-v'`. -/
theorem saved_is_ladder (S : Saved nx ny nz c) (chiM chiD : Nat → Int → Mat (2 * (c + S.C.s)) ℂ)
    (hM : ∀ iq, S.C.Regular (-S.C.u) S.C.ΓM (S.C.rep iq) (chiM iq)) (hD : ∀ iq, S.C.Regular S.C.u S.C.ΓD (S.C.rep iq) (chiD iq))
    (sing : Bool) (q : Grid nx ny nz) : ∃ iq, irrOf (Bz.flat3 S.m) q = some iq ∧ ∀ (i j : Fin (2 * S.npp)) (v v' : Int),
      v = (i : Nat) - (S.npp : Int) → v' = (j : Nat) - (S.npp : Int) →
      S.F sing q i j =
        -((if sing then 3 / 2 else 1 / 2) * atFreq (vertexLam S.C.beta (-S.C.u) (S.C.lamM.map (↑))
            (Pipe.onBox (c + S.C.s) (S.C.B (S.C.rep iq) (v - v'))) (chiM iq (v - v'))) v (-v' - 1) +
          (if sing then -(1 / 2) else 1 / 2) * atFreq (vertexLam S.C.beta S.C.u (S.C.lamD.map (↑))
            (Pipe.onBox (c + S.C.s) (S.C.B (S.C.rep iq) (v - v'))) (chiD iq (v - v'))) v (-v' - 1)) := by
  obtain ⟨iq, h1, h2⟩ := S.value sing q
  refine ⟨iq, h1, ?_⟩
  rintro i j v v' rfl rfl
  rw [h2]
  have hi := i.isLt
  have hj := j.isLt
  have hn : S.npp ≤ S.C.niw / 2 ∧ S.npp ≤ c / 2 := by
    unfold Saved.npp nivPP
    exact ⟨min_le_left _ _, min_le_right _ _⟩
  apply Calc.pp_value (hM iq) (hD iq)
  · omega
  · omega
  · omega

end saved

/-! ### A concrete case -/

/-- For an irreducible vertex equal to its asymptotic value everywhere the hypotheses reduce to three inequalities per frequency. -/
theorem regular_const {nx ny nz c : Nat} (C : Calc nx ny nz c) (ur : ℂ) (hb : (C.beta : ℂ) ≠ 0) (q : Mom)
    (h0 : ∀ x : Int, -(C.niw : Int) ≤ x ∧ x ≤ C.niw → ∀ a, Pipe.onBox (c + C.s) (C.B q x) a ≠ 0)
    (h1 : ∀ x : Int, -(C.niw : Int) ≤ x ∧ x ≤ C.niw → physicalBubble (C.beta : ℂ) (Pipe.onBox (c + C.s) (C.B q x)) ≠ 0)
    (h2 : ∀ x : Int, -(C.niw : Int) ≤ x ∧ x ≤ C.niw → 1 + ur * physicalBubble (C.beta : ℂ) (Pipe.onBox (c + C.s) (C.B q x)) ≠ 0) :
    ∃ chi, C.Regular ur (fun _ => Matrix.of fun _ _ => ur / (C.beta : ℂ) ^ 2) q chi := by
  have haux : ∀ x : Int, -(C.niw : Int) ≤ x ∧ x ≤ C.niw →
      auxGamW (Matrix.of fun _ _ => ur / (C.beta : ℂ) ^ 2) (Pipe.onBox c (C.B q x)) C.beta ur =
        some (Fp.diag (Pipe.onBox c (C.B q x))) := by
    intro x hx
    have hne : ∀ a, Pipe.onBox c (C.B q x) a ≠ 0 := by
      intro a
      rw [← cut1_box (C.B q x) c C.s]
      exact h0 x hx _
    unfold auxGamW
    rw [inv?_iff]
    have e : addC (Fp.diag (fun i => 1 / Pipe.onBox c (C.B q x) i) + Matrix.of fun _ _ => ur / (C.beta : ℂ) ^ 2) (-(ur / (C.beta : ℂ) ^ 2)) =
        Matrix.diagonal (fun i => 1 / Pipe.onBox c (C.B q x) i) := by
      rw [← diag_eq]
      ext i j
      simp [addC]
    rw [e, diag_eq, Matrix.diagonal_mul_diagonal]
    have : (fun i => 1 / Pipe.onBox c (C.B q x) i * Pipe.onBox c (C.B q x) i) = fun _ => (1 : ℂ) := by
      funext i; rw [one_div, inv_mul_cancel₀ (hne i)]
    rw [this, Matrix.diagonal_one]
  have hphys : ∀ x : Int, physical (C.beta : ℂ) (Fp.diag (Pipe.onBox c (C.B q x))) = physicalBubble (C.beta : ℂ) (Pipe.onBox c (C.B q x)) := by
    intro x
    unfold physical physicalBubble
    congr 1
    apply Finset.sum_congr rfl
    intro i _
    rw [diag_eq]
    simp [Matrix.diagonal_apply]
  have hfull : ∀ x : Int, -(C.niw : Int) ≤ x ∧ x ≤ C.niw → ∃ chi : Mat (2 * (c + C.s)) ℂ,
      Ladder (C.beta : ℂ) ur (Pipe.onBox (c + C.s) (C.B q x)) (Matrix.of fun _ _ => ur / (C.beta : ℂ) ^ 2) chi ∧ phys (C.beta : ℂ) chi ≠ 0 := by
    intro x hx
    have hX : auxGamW (Matrix.of fun _ _ => ur / (C.beta : ℂ) ^ 2) (cut1 (c := c) (s := C.s) (Pipe.onBox (c + C.s) (C.B q x))) (C.beta : ℂ) ur =
        some (Fp.diag (Pipe.onBox c (C.B q x))) := by rw [cut1_box]; exact haux x hx
    have hA : physical (C.beta : ℂ) (Fp.diag (Pipe.onBox c (C.B q x))) + physicalBubble (C.beta : ℂ) (Pipe.onBox (c + C.s) (C.B q x)) -
        physicalBubble (C.beta : ℂ) (cut1 (c := c) (s := C.s) (Pipe.onBox (c + C.s) (C.B q x))) =
        physicalBubble (C.beta : ℂ) (Pipe.onBox (c + C.s) (C.B q x)) := by
      rw [cut1_box, hphys]; ring
    obtain ⟨chi, e1, e2⟩ := chi_phys_is_contraction (c := c) (s := C.s) _ _ _ (h0 x hx) (C.beta : ℂ) ur hb hX (by rw [hA]; exact h1 x hx)
      (by rw [hA]; exact h2 x hx)
    refine ⟨chi, (ladder_iff _ _ _ _ _).2 e1, ?_⟩
    have : phys (C.beta : ℂ) chi = physical (C.beta : ℂ) chi := rfl
    rw [this, ← e2, chiPhysUrange, hA]
    have hx1 := h1 x hx
    have hx2 := h2 x hx
    refine one_div_ne_zero ?_
    intro h
    apply hx2
    have := congrArg (fun z => z * physicalBubble (C.beta : ℂ) (Pipe.onBox (c + C.s) (C.B q x))) h
    simp only [zero_mul, add_mul, one_div, inv_mul_cancel₀ hx1] at this
    exact this
  choose! chi hchi using hfull
  exact ⟨chi, hb, h0, fun _ _ _ _ => rfl, fun x hx => by rw [haux x hx]; rfl, fun x hx => (hchi x hx).1, fun x hx => (hchi x hx).2⟩

/-- one momentum, an atomic propagator, irreducible vertices `± u / beta^2` -/
def atomCalc : Calc 1 1 1 2 where
  s := 0
  niw := 2
  N := 4
  beta := 1
  u := 1
  lamD := none
  lamM := some 1
  ΓD := fun _ => Matrix.of fun _ _ => 1
  ΓM := fun _ => Matrix.of fun _ _ => -1
  G := fun _ _ _ n => 1 / (Complex.I * ((2 * (n : ℝ) + 1 : ℝ) : ℂ))
  rep := fun _ => (0, 0, 0)
  fit := by decide
  hG := by
    intro i j k m _ _
    simp only [map_div₀, map_one, map_mul, Complex.conj_ofReal, Complex.conj_I]
    push_cast
    ring_nf
  hD := fun x _ => by ext i j; simp [cm]
  hM := fun x _ => by ext i j; simp [cm]

theorem atom_bubble (q : Mom) (x v : Int) : atomCalc.B q x v = 1 / (((2 * v + 1) * (2 * (v - x) + 1) : ℤ) : ℂ) := by
  have h1 : ((2 * v + 1 : ℤ) : ℂ) ≠ 0 := by exact_mod_cast (by omega : 2 * v + 1 ≠ 0)
  have h2 : ((2 * (v - x) + 1 : ℤ) : ℂ) ≠ 0 := by exact_mod_cast (by omega : 2 * (v - x) + 1 ≠ 0)
  simp only [Calc.B, bubQ, atomCalc, kSum]
  push_cast at h1 h2 ⊢
  simp
  field_simp
  simp

example : ∃ chiM chiD, atomCalc.Regular (-atomCalc.u) atomCalc.ΓM (atomCalc.rep 0) chiM ∧
    atomCalc.Regular atomCalc.u atomCalc.ΓD (atomCalc.rep 0) chiD := by
  have hb : (atomCalc.beta : ℂ) ≠ 0 := by simp [atomCalc]
  have h0 : ∀ x : Int, -(atomCalc.niw : Int) ≤ x ∧ x ≤ atomCalc.niw → ∀ a, Pipe.onBox (2 + atomCalc.s) (atomCalc.B (0, 0, 0) x) a ≠ 0 := by
    intro x _ a
    unfold Pipe.onBox
    rw [atom_bubble]
    apply one_div_ne_zero
    have h : (2 * ((a.val : Int) - ((2 + atomCalc.s : Nat) : Int)) + 1) * (2 * ((a.val : Int) - ((2 + atomCalc.s : Nat) : Int) - x) + 1) ≠ 0 :=
      mul_ne_zero (by omega) (by omega)
    exact_mod_cast h
  have hval : ∀ x : Int, physicalBubble (atomCalc.beta : ℂ) (Pipe.onBox (2 + atomCalc.s) (atomCalc.B (0, 0, 0) x)) =
      1 / (((-3) * (-3 - 2 * x) : ℤ) : ℂ) + 1 / (((-1) * (-1 - 2 * x) : ℤ) : ℂ) + 1 / (((1) * (1 - 2 * x) : ℤ) : ℂ) + 1 / (((3) * (3 - 2 * x) : ℤ) : ℂ) := by
    intro x
    unfold physicalBubble
    have e : ∑ i, Pipe.onBox (2 + atomCalc.s) (atomCalc.B (0, 0, 0) x) i = ∑ i : Fin 4, atomCalc.B (0, 0, 0) x ((i.val : Int) - 2) := rfl
    rw [e]
    simp only [Fin.sum_univ_four, atom_bubble, show (atomCalc.beta : ℂ) = 1 by simp [atomCalc], one_pow, div_one]
    have e0 : (2 * (((0 : Fin 4).val : Int) - 2) + 1) * (2 * (((0 : Fin 4).val : Int) - 2 - x) + 1) = -3 * (-3 - 2 * x) := by simp; ring
    have e1 : (2 * (((1 : Fin 4).val : Int) - 2) + 1) * (2 * (((1 : Fin 4).val : Int) - 2 - x) + 1) = -1 * (-1 - 2 * x) := by simp; ring
    have e2 : (2 * (((2 : Fin 4).val : Int) - 2) + 1) * (2 * (((2 : Fin 4).val : Int) - 2 - x) + 1) = 1 * (1 - 2 * x) := by simp; ring
    have e3 : (2 * (((3 : Fin 4).val : Int) - 2) + 1) * (2 * (((3 : Fin 4).val : Int) - 2 - x) + 1) = 3 * (3 - 2 * x) := by simp; ring
    rw [e0, e1, e2, e3]
  have hnum : ∀ x : Int, -(atomCalc.niw : Int) ≤ x ∧ x ≤ atomCalc.niw →
      physicalBubble (atomCalc.beta : ℂ) (Pipe.onBox (2 + atomCalc.s) (atomCalc.B (0, 0, 0) x)) ≠ 0 ∧
      1 + 1 * physicalBubble (atomCalc.beta : ℂ) (Pipe.onBox (2 + atomCalc.s) (atomCalc.B (0, 0, 0) x)) ≠ 0 ∧
      1 + -1 * physicalBubble (atomCalc.beta : ℂ) (Pipe.onBox (2 + atomCalc.s) (atomCalc.B (0, 0, 0) x)) ≠ 0 := by
    intro x hx
    rw [hval]
    have hx' : -2 ≤ x ∧ x ≤ 2 := hx
    obtain ⟨l, r⟩ := hx'
    interval_cases x <;> norm_num
  have hu : ((atomCalc.u : ℝ) : ℂ) = 1 := by simp [atomCalc]
  obtain ⟨cD, hD⟩ := regular_const atomCalc 1 hb (0, 0, 0) h0 (fun x hx => (hnum x hx).1) (fun x hx => (hnum x hx).2.1)
  obtain ⟨cM, hM⟩ := regular_const atomCalc (-1) hb (0, 0, 0) h0 (fun x hx => (hnum x hx).1) (fun x hx => (hnum x hx).2.2)
  refine ⟨cM, cD, ?_, ?_⟩
  · rw [hu]
    have : atomCalc.ΓM = fun _ => Matrix.of fun _ _ => (-1 : ℂ) / (atomCalc.beta : ℂ) ^ 2 := by
      funext x; ext i j; simp [atomCalc]
    rw [this]; exact hM
  · rw [hu]
    have : atomCalc.ΓD = fun _ => Matrix.of fun _ _ => (1 : ℂ) / (atomCalc.beta : ℂ) ^ 2 := by
      funext x; ext i j; simp [atomCalc]
    rw [this]; exact hD

end DGA.Pairing
