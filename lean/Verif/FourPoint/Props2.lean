/-
  C26, C27: u-range irreducible vertex, auxiliary susceptibility, three-leg vertex and physical susceptibility.
-/
import Verif.FourPoint.Props

namespace DGA.Fp

open DGA.Mf DGA.Bubble

variable {K : Type} [Field K]

/-! ### C26 -/

/-- C26 (no shell).  If the bubble box is the core box, the u-range inversion returns the plain Bethe–Salpeter vertex. -/
theorem gamUrange_no_shell {c : Nat} (chi gam : Mat (2 * c) K) (g0 : Vec (2 * c) K) (beta u : K)
    (h : gamUrangeW (c := c) (s := 0) chi g0 beta u = some gam) : gamob2W chi g0 = some gam := by
  unfold gamUrangeW at h
  cases h1 : inv? (addC (diag fun i => 1 / g0 i) (u / (beta * beta)) : Mat (2 * (c + 0)) K) with
  | none => rw [h1] at h; cases h
  | some T =>
    rw [h1, Option.bind_some] at h
    have hcut : cut2 (c := c) (s := 0) T = T := by
      ext i j
      simp [cut2, emb]
    rw [hcut] at h
    have h2 : inv? (T : Mat (2 * c) K) = some (addC (diag fun i => 1 / g0 i) (u / (beta * beta))) :=
      (inv?_iff _ _).mpr (inv?_left h1)
    rw [h2, Option.bind_some] at h
    unfold gamob2W
    cases h3 : inv? chi with
    | none => rw [h3] at h; cases h
    | some ci =>
      rw [h3] at h
      rw [Option.map_some] at h ⊢
      rw [← h]
      congr 1
      ext i j
      simp only [addC, Matrix.of_apply, Matrix.sub_apply, Matrix.neg_apply]
      ring

/-- the u-range inversion without shell succeeds whenever `chi` and `X_0^-1 + U` are invertible -/
theorem gamUrange_no_shell_exists {c : Nat} (chi : Mat (2 * c) K) (g0 : Vec (2 * c) K) (beta u : K)
    (hc : chi.det ≠ 0) (hx : (addC (diag fun i => 1 / g0 i) (u / (beta * beta))).det ≠ 0) :
    gamUrangeW (c := c) (s := 0) chi g0 beta u = gamob2W chi g0 := by
  have h1 : (inv? (addC (diag fun i => 1 / g0 i) (u / (beta * beta)) : Mat (2 * (c + 0)) K)).isSome := by
    rw [Option.isSome_iff_ne_none]; exact fun h => hx ((inv?_none_iff _).mp h)
  obtain ⟨T, hT⟩ := Option.isSome_iff_exists.mp h1
  have hcut : cut2 (c := c) (s := 0) T = T := by
    ext i j
    simp [cut2, emb]
  have h2 : inv? (T : Mat (2 * c) K) = some (addC (diag fun i => 1 / g0 i) (u / (beta * beta))) :=
    (inv?_iff _ _).mpr (inv?_left hT)
  have h3 : (inv? chi).isSome := by
    rw [Option.isSome_iff_ne_none]; exact fun h => hc ((inv?_none_iff _).mp h)
  obtain ⟨ci, hci⟩ := Option.isSome_iff_exists.mp h3
  have : ∃ gam, gamUrangeW (c := c) (s := 0) chi g0 beta u = some gam := by
    unfold gamUrangeW
    rw [hT, Option.bind_some, hcut, h2, Option.bind_some, hci]
    exact ⟨_, rfl⟩
  obtain ⟨gam, hg⟩ := this
  rw [hg, gamUrange_no_shell chi gam g0 beta u hg]

/-- one slice of C26: the extended vertex reproduces the core block of the susceptibility -/
theorem gamUrange_slice {c s : Nat} (chi gam : Mat (2 * c) K) (g0 : Vec (2 * (c + s)) K) (beta u : K)
    (h : gamUrangeW chi g0 beta u = some gam) :
    ∃ full, gchirGamW (shell2 s gam (u / beta ^ 2)) g0 = some full ∧ cut2 full = chi := by
  unfold gamUrangeW at h
  rw [← pow_two] at h
  cases h1 : inv? (addC (diag fun i => 1 / g0 i) (u / beta ^ 2)) with
  | none => rw [h1] at h; cases h
  | some T =>
    rw [h1, Option.bind_some] at h
    cases h2 : inv? (cut2 (c := c) (s := s) T) with
    | none => rw [h2] at h; cases h
    | some Xi =>
      rw [h2, Option.bind_some] at h
      cases h3 : inv? chi with
      | none => rw [h3] at h; cases h
      | some ci =>
        rw [h3, Option.map_some] at h
        have hg : gam = addC (ci - Xi) (u / beta ^ 2) := (Option.some.inj h).symm
        rw [inv?_iff] at h1 h2 h3
        obtain ⟨Z, hZ1, hZ2⟩ := woodbury _ T _ Xi chi ci h1 (cut2_eq T).symm h2 h3
        refine ⟨Z, ?_, ?_⟩
        · unfold gchirGamW
          have hgk : gam + (-(u / beta ^ 2)) • ones _ K = ci - Xi := by
            rw [hg]
            ext i j
            simp [addC, ones]
          rw [inv?_iff, shell2_eq, hgk, ← add_assoc, ← addC_eq]
          exact hZ1
        · rw [cut2_eq]; exact hZ2

/-- C26.  For every susceptibility object the u-range vertex, extended by `u_r / beta^2` to the bubble box and inserted
    into the Bethe–Salpeter equation there, reproduces exactly the susceptibility on the core box. -/
theorem gamob2Urange_bse {c s : Nat} (x gam : FourP (2 * c) K) (gchi0 : List (Vec (2 * (c + s)) K)) (ur : K)
    (hur : x.ur = some ur) (hx : x.mat.length = x.wn.length) (h : gamob2FromGchirUrange x gchi0 = some gam) :
    ∃ gu chi, getUrange s gam (ur / x.beta ^ 2) = some gu ∧ gchirFromGamob2 gu gchi0 = some chi ∧
      chi.wn = x.wn ∧ chi.mat.map (cut2 (c := c) (s := s)) = x.mat := by
  unfold gamob2FromGchirUrange at h
  rw [hur, Option.bind_some] at h
  cases ho : overWn x x.mat gchi0 (fun m g0 => gamUrangeW m g0 x.beta ur) with
  | none => rw [ho] at h; cases h
  | some l =>
    rw [ho, Option.bind_some] at h
    have hk : x.channel ∈ knownChannels := by
      by_contra hk
      have : construct x l = none := by
        unfold construct newNPoint
        cases x.wnSel <;> simp [hk]
      rw [this] at h; cases h
    rw [construct_eq x hk] at h
    have hg : gam = ⟨x.channel, l, x.beta, x.u, x.wnSel⟩ := (Option.some.inj h).symm
    obtain ⟨h1, h2⟩ := overWn_get x x.mat gchi0 _ l ho
    have hgu : getUrange s gam (ur / x.beta ^ 2) =
        some ⟨x.channel, l.map fun m => shell2 s m (ur / x.beta ^ 2), x.beta, x.u, x.wnSel⟩ := by
      unfold getUrange
      rw [hg, construct_eq _ (by exact hk)]
    have hguw : (⟨x.channel, l.map fun m => shell2 s m (ur / x.beta ^ 2), x.beta, x.u, x.wnSel⟩ :
        FourP (2 * (c + s)) K).wn = x.wn := wn_congr x _ (by rw [List.length_map, h1, hx])
    have hgl : x.wn.length ≤ gchi0.length := by
      by_contra hc
      obtain ⟨_, y, _, _, hy, _⟩ := h2 (gchi0.length) (by omega)
      rw [List.getElem?_eq_none (le_refl _)] at hy; cases hy
    have hfull : ∀ k : Fin x.wn.length, ∃ full : Mat (2 * (c + s)) K, ∃ m g0 gm, x.mat[k.val]? = some m ∧
        gchi0[k.val]? = some g0 ∧ l[k.val]? = some gm ∧
        gchirGamW (shell2 s gm (ur / x.beta ^ 2)) g0 = some full ∧ cut2 full = m := by
      intro k
      obtain ⟨m, g0, gm, e1, e2, e3, e4⟩ := h2 k.val k.isLt
      obtain ⟨full, e5, e6⟩ := gamUrange_slice m gm g0 x.beta ur e3
      exact ⟨full, m, g0, gm, e1, e2, e4, e5, e6⟩
    choose F hF using hfull
    have hov : overWn (⟨x.channel, l.map fun m => shell2 s m (ur / x.beta ^ 2), x.beta, x.u, x.wnSel⟩ :
        FourP (2 * (c + s)) K) (l.map fun m => shell2 s m (ur / x.beta ^ 2)) gchi0 (fun m g0 => gchirGamW m g0) =
        some (List.ofFn F) := by
      apply overWn_some _ _ _ _ (by rw [hguw, List.length_map, h1]) (by rw [hguw]; exact hgl) _
        (by rw [List.length_ofFn, hguw])
      intro k a b z ha hb hz
      have hkl : k < x.wn.length := by
        by_contra hc
        rw [List.getElem?_eq_none (by rw [List.length_ofFn]; omega)] at hz; cases hz
      obtain ⟨m, g0, gm, e1, e2, e3, e4, e5⟩ := hF ⟨k, hkl⟩
      rw [List.getElem?_ofFn, dif_pos hkl] at hz
      simp only at e1 e2 e3
      rw [List.getElem?_map, e3, Option.map_some] at ha
      rw [e2] at hb
      cases ha; cases hb; cases hz
      exact e4
    refine ⟨_, ⟨x.channel, List.ofFn F, x.beta, x.u, x.wnSel⟩, hgu, ?_, ?_, ?_⟩
    · unfold gchirFromGamob2
      rw [hov, Option.bind_some, construct_eq _ (by exact hk)]
    · exact wn_congr x _ (by rw [List.length_ofFn, hx])
    · apply List.ext_getElem?
      intro k
      by_cases hkl : k < x.wn.length
      · obtain ⟨m, g0, gm, e1, e2, e3, e4, e5⟩ := hF ⟨k, hkl⟩
        rw [List.getElem?_map, List.getElem?_ofFn, dif_pos hkl, Option.map_some, e5]
        exact e1.symm
      · rw [List.getElem?_eq_none (by simp; omega), List.getElem?_eq_none (by omega)]

theorem one_add_ones (n : Nat) (a b : K) (h : a + b + n * a * b = 0) :
    ((1 : Mat n K) + a • ones n K) * (1 + b • ones n K) = 1 := by
  have ho : ones n K * ones n K = (n : K) • ones n K := by
    ext i j
    simp [ones, Matrix.mul_apply]
  rw [Matrix.add_mul, Matrix.mul_add, Matrix.mul_add, Matrix.one_mul, Matrix.one_mul, Matrix.mul_one, Matrix.smul_mul,
    Matrix.mul_smul, ho, smul_smul, smul_smul]
  have : b • ones n K + a • ones n K + (a * b * (n : K)) • ones n K = 0 := by
    rw [← add_smul, ← add_smul, show b + a + a * b * (n : K) = 0 by linear_combination h, zero_smul]
  calc _ = 1 + (b • ones n K + a • ones n K + (a * b * (n : K)) • ones n K) := by abel
    _ = 1 := by rw [this, add_zero]

/-- hypotheses of C26 are met: bubble one, `u = beta = 1`, core of two and shell of two frequencies, `chi = 1 + J` -/
example : (gamUrangeW (c := 1) (s := 1) (1 + (1 : ℚ) • ones _ ℚ) (fun _ => 1) 1 1).isSome := by
  have h1 : inv? (addC (diag fun _ : Fin (2 * (1 + 1)) => 1 / (1 : ℚ)) (1 / (1 * 1))) =
      some (1 + (-1 / 5 : ℚ) • ones _ ℚ) := by
    have : addC (diag fun _ : Fin (2 * (1 + 1)) => 1 / (1 : ℚ)) (1 / (1 * 1)) = 1 + (1 : ℚ) • ones _ ℚ := by
      rw [addC_eq, diag_eq]; norm_num
    rw [inv?_iff, this, one_add_ones _ _ _ (by norm_num)]
  have h2 : inv? (cut2 (c := 1) (s := 1) (1 + (-1 / 5 : ℚ) • ones _ ℚ)) = some (1 + (1 / 3 : ℚ) • ones _ ℚ) := by
    have : cut2 (c := 1) (s := 1) (1 + (-1 / 5 : ℚ) • ones _ ℚ) = 1 + (-1 / 5 : ℚ) • ones _ ℚ := by
      ext i j
      have := emb_inj 1 1 i j
      simp [cut2, Matrix.one_apply, ones]
      simp only [this]
    rw [inv?_iff, this, one_add_ones _ _ _ (by norm_num)]
  have h3 : inv? (1 + (1 : ℚ) • ones (2 * 1) ℚ) = some (1 + (-1 / 3 : ℚ) • ones _ ℚ) := by
    rw [inv?_iff, one_add_ones _ _ _ (by norm_num)]
  unfold gamUrangeW
  rw [h1, Option.bind_some, h2, Option.bind_some, h3]
  rfl

/-! ### C27 -/

theorem total_smul {n : Nat} (k : K) (A : Mat n K) : total (k • A) = k * total A := by
  unfold total
  simp only [Matrix.smul_apply, smul_eq_mul, Finset.mul_sum]

theorem total_sub {n : Nat} (A B : Mat n K) : total (A - B) = total A - total B := by
  unfold total
  simp only [Matrix.sub_apply, Finset.sum_sub_distrib]

theorem total_add {n : Nat} (A B : Mat n K) : total (A + B) = total A + total B := by
  unfold total
  simp only [Matrix.add_apply, Finset.sum_add_distrib]

theorem mul_ones_mul {n : Nat} (A B : Mat n K) (i j : Fin n) :
    (A * ones n K * B) i j = (∑ k, A i k) * ∑ k, B k j := by
  simp only [Matrix.mul_apply, ones, Matrix.of_apply, mul_one, Finset.mul_sum]

theorem total_mul_ones_mul {n : Nat} (A : Mat n K) : total (A * ones n K * A) = total A * total A := by
  unfold total
  simp only [mul_ones_mul]
  rw [← Finset.sum_mul_sum]
  congr 1
  exact Finset.sum_comm

theorem one_sub_selT_sel {c s : Nat} (i j : Fin (2 * (c + s))) :
    ((1 : Mat (2 * (c + s)) K) - (sel c s K).transpose * sel c s K) i j =
      if i = j ∧ ¬ (s ≤ i.val ∧ i.val < s + 2 * c) then 1 else 0 := by
  have : (sel c s K).transpose * sel c s K = (sel c s K).transpose * (1 : Mat (2 * c) K) * sel c s K := by
    rw [Matrix.mul_one]
  rw [Matrix.sub_apply, this, selT_mul, Matrix.one_apply]
  by_cases hij : i = j
  · subst hij
    by_cases h : s ≤ i.val ∧ i.val < s + 2 * c
    · rw [dif_pos ⟨h, h⟩]; simp [h]
    · rw [dif_neg (fun hc => h hc.1)]; simp [h]
  · simp only [hij, if_false, false_and]
    split
    · rename_i h
      rw [Matrix.one_apply, if_neg]
      · ring
      · intro he
        apply hij
        rw [Fin.ext_iff] at he ⊢
        simp only at he
        omega
    · ring

/-- sum over the full box = sum over the core + sum over the shell -/
theorem sum_core_shell {c s : Nat} (f : Fin (2 * (c + s)) → K) :
    ∑ i, f i = (∑ i, f (emb c s i)) + ∑ i, if ¬ (s ≤ i.val ∧ i.val < s + 2 * c) then f i else 0 := by
  have h1 : ∑ i, f (emb c s i) = ∑ i : Fin (2 * (c + s)), if (s ≤ i.val ∧ i.val < s + 2 * c) then f i else 0 := by
    rw [← Finset.sum_filter]
    apply Finset.sum_bij (fun i _ => emb c s i)
    · intro i _
      simp [emb]
      omega
    · intro i _ j _ h
      exact (emb_inj c s i j).mp h
    · intro j hj
      simp at hj
      exact ⟨⟨j.val - s, by omega⟩, Finset.mem_univ _, by simp [emb, Fin.ext_iff]; omega⟩
    · intro i _; rfl
  rw [h1, ← Finset.sum_add_distrib]
  apply Finset.sum_congr rfl
  intro i _
  by_cases h : s ≤ i.val ∧ i.val < s + 2 * c
  · rw [if_pos h, if_neg (not_not.mpr h), add_zero]
  · rw [if_neg h, if_pos h, zero_add]

/-- the block-diagonal auxiliary susceptibility of the full box -/
def blockAux {c s : Nat} (X : Mat (2 * c) K) (g0 : Vec (2 * (c + s)) K) : Mat (2 * (c + s)) K :=
  (sel c s K).transpose * X * sel c s K + (1 - (sel c s K).transpose * sel c s K) * diag g0

theorem blockAux_apply {c s : Nat} (X : Mat (2 * c) K) (g0 : Vec (2 * (c + s)) K) (i j : Fin (2 * (c + s))) :
    blockAux X g0 i j = if h : (s ≤ i.val ∧ i.val < s + 2 * c) ∧ (s ≤ j.val ∧ j.val < s + 2 * c) then
      X ⟨i.val - s, by omega⟩ ⟨j.val - s, by omega⟩ else if i = j then g0 i else 0 := by
  unfold blockAux
  rw [Matrix.add_apply, selT_mul, diag_eq, Matrix.mul_diagonal, one_sub_selT_sel]
  by_cases h : (s ≤ i.val ∧ i.val < s + 2 * c) ∧ (s ≤ j.val ∧ j.val < s + 2 * c)
  · rw [dif_pos h, dif_pos h]; simp [h.1]
  · rw [dif_neg h, dif_neg h]
    by_cases hij : i = j
    · subst hij
      have : ¬ (s ≤ i.val ∧ i.val < s + 2 * c) := fun hc => h ⟨hc, hc⟩
      simp [this]
    · simp [hij]

theorem blockAux_core {c s : Nat} (X : Mat (2 * c) K) (g0 : Vec (2 * (c + s)) K) (i j : Fin (2 * c)) :
    blockAux X g0 (emb c s i) (emb c s j) = X i j := by
  rw [blockAux_apply, dif_pos (by simp [emb]; omega)]
  congr 1 <;> simp [emb]

theorem blockAux_row {c s : Nat} (X : Mat (2 * c) K) (g0 : Vec (2 * (c + s)) K) (i : Fin (2 * c)) :
    ∑ j, blockAux X g0 (emb c s i) j = ∑ j, X i j := by
  rw [sum_core_shell]
  simp only [blockAux_core]
  rw [add_eq_left]
  apply Finset.sum_eq_zero
  intro j _
  split
  · rename_i h
    rw [blockAux_apply, dif_neg (fun hc => h hc.2), if_neg]
    intro he
    apply h
    rw [← he]
    simp [emb]
    omega
  · rfl

theorem blockAux_col {c s : Nat} (X : Mat (2 * c) K) (g0 : Vec (2 * (c + s)) K) (j : Fin (2 * c)) :
    ∑ i, blockAux X g0 i (emb c s j) = ∑ i, X i j := by
  rw [sum_core_shell]
  simp only [blockAux_core]
  rw [add_eq_left]
  apply Finset.sum_eq_zero
  intro i _
  split
  · rename_i h
    rw [blockAux_apply, dif_neg (fun hc => h hc.1), if_neg]
    intro he
    apply h
    rw [he]
    simp [emb]
    omega
  · rfl

theorem blockAux_total {c s : Nat} (X : Mat (2 * c) K) (g0 : Vec (2 * (c + s)) K) :
    total (blockAux X g0) = total X + (∑ i, g0 i - ∑ i, cut1 (c := c) (s := s) g0 i) := by
  have h2 := sum_core_shell (c := c) (s := s) g0
  have h1 := sum_core_shell (c := c) (s := s) (fun i => ∑ j, blockAux X g0 i j)
  unfold total
  rw [h1]
  simp only [blockAux_row]
  congr 1
  rw [h2]
  unfold cut1
  rw [add_sub_cancel_left]
  apply Finset.sum_congr rfl
  intro i _
  split
  · rename_i h
    rw [Finset.sum_eq_single i]
    · rw [blockAux_apply, dif_neg (fun hc => h hc.1), if_pos rfl]
    · intro j _ hj
      rw [blockAux_apply, dif_neg (fun hc => h hc.1), if_neg (fun he => hj he.symm)]
    · intro hn; exact absurd (Finset.mem_univ _) hn
  · rfl

/-- `1/beta^2` times the sum over all frequencies: `contract_legs` of one slice (specification vocabulary) -/
def physical {n : Nat} (beta : K) (A : Mat n K) : K := (∑ i, ∑ j, A i j) / beta ^ 2

/-- `1/beta^2` times the sum of a bubble (specification vocabulary) -/
def physicalBubble {n : Nat} (beta : K) (g : Vec n K) : K := (∑ i, g i) / beta ^ 2

/-- the full-box susceptibility in terms of the core auxiliary susceptibility -/
theorem full_chi {c s : Nat} (gam X : Mat (2 * c) K) (g0 : Vec (2 * (c + s)) K) (h0 : ∀ i, g0 i ≠ 0) (beta ur : K)
    (hb : beta ≠ 0) (hX : auxGamW gam (cut1 (c := c) (s := s) g0) beta ur = some X)
    (hd : 1 + ur * (physical beta X + physicalBubble beta g0 - physicalBubble beta (cut1 (c := c) (s := s) g0)) ≠ 0) :
    gchirGamW (shell2 s gam (ur / beta ^ 2)) g0 = some (blockAux X g0 -
      ((ur / beta ^ 2) / (1 + ur * (physical beta X + physicalBubble beta g0 -
        physicalBubble beta (cut1 (c := c) (s := s) g0)))) • (blockAux X g0 * ones _ K * blockAux X g0)) := by
  have hk : (ur / beta ^ 2) * total (blockAux X g0) =
      ur * (physical beta X + physicalBubble beta g0 - physicalBubble beta (cut1 (c := c) (s := s) g0)) := by
    rw [blockAux_total]
    unfold physical physicalBubble total
    field_simp
    ring
  have hX' : (diag (fun i => 1 / cut1 (c := c) (s := s) g0 i) + (gam + (-(ur / beta ^ 2)) • ones _ K)) * X = 1 := by
    unfold auxGamW at hX
    rw [inv?_iff, addC_eq, add_assoc] at hX
    exact hX
  have hblock := block_inverse g0 h0 _ X hX'
  have := sherman _ (blockAux X g0) (ur / beta ^ 2) hblock (by rw [hk]; exact hd)
  unfold gchirGamW
  rw [inv?_iff, shell2_eq, ← hk]
  rw [← this]
  congr 1
  abel

/-- C27.  Let `X` be the auxiliary susceptibility of the core vertex and `chi` the generalized susceptibility that
    solves the Bethe–Salpeter equation with the extended vertex on the full box.  The physical susceptibility computed
    from `X` and the bubbles is the contraction of `chi` over the whole box. -/
theorem chi_phys_is_contraction {c s : Nat} (gam X : Mat (2 * c) K) (g0 : Vec (2 * (c + s)) K) (h0 : ∀ i, g0 i ≠ 0)
    (beta ur : K) (hb : beta ≠ 0) (hX : auxGamW gam (cut1 (c := c) (s := s) g0) beta ur = some X)
    (hA : physical beta X + physicalBubble beta g0 - physicalBubble beta (cut1 (c := c) (s := s) g0) ≠ 0)
    (hd : 1 + ur * (physical beta X + physicalBubble beta g0 - physicalBubble beta (cut1 (c := c) (s := s) g0)) ≠ 0) :
    ∃ chi, gchirGamW (shell2 s gam (ur / beta ^ 2)) g0 = some chi ∧
      chiPhysUrange (physical beta X) (physicalBubble beta (cut1 (c := c) (s := s) g0)) (physicalBubble beta g0) ur =
        physical beta chi := by
  refine ⟨_, full_chi gam X g0 h0 beta ur hb hX hd, ?_⟩
  have ht : total (blockAux X g0) = beta ^ 2 * (physical beta X + physicalBubble beta g0 -
      physicalBubble beta (cut1 (c := c) (s := s) g0)) := by
    rw [blockAux_total]
    unfold physical physicalBubble total
    field_simp
    ring
  have hq : chiPhysUrange (physical beta X) (physicalBubble beta (cut1 (c := c) (s := s) g0)) (physicalBubble beta g0) ur =
      1 / (1 / (physical beta X + physicalBubble beta g0 - physicalBubble beta (cut1 (c := c) (s := s) g0)) + ur) := rfl
  generalize physical beta X + physicalBubble beta g0 - physicalBubble beta (cut1 (c := c) (s := s) g0) = A at *
  have hp : ∀ B : Mat (2 * (c + s)) K, physical beta B = total B / beta ^ 2 := fun _ => rfl
  rw [hp, total_sub, total_smul, total_mul_ones_mul, ht, hq]
  have : 1 + A * ur ≠ 0 := by rwa [mul_comm] at hd
  field_simp
  ring

/-- entries of the full-box susceptibility in the core -/
theorem full_chi_core {c s : Nat} (X : Mat (2 * c) K) (g0 : Vec (2 * (c + s)) K) (r : K) (i j : Fin (2 * c)) :
    (blockAux X g0 - r • (blockAux X g0 * ones _ K * blockAux X g0) : Mat (2 * (c + s)) K) (emb c s i) (emb c s j) =
      X i j - r * ((∑ k, X i k) * ∑ k, X k j) := by
  rw [Matrix.sub_apply, Matrix.smul_apply, smul_eq_mul, mul_ones_mul, blockAux_core, blockAux_row, blockAux_col]

/-- core rows of the full-box susceptibility summed over the whole box -/
theorem full_chi_row {c s : Nat} (X : Mat (2 * c) K) (g0 : Vec (2 * (c + s)) K) (r : K) (i : Fin (2 * c)) :
    ∑ j, (blockAux X g0 - r • (blockAux X g0 * ones _ K * blockAux X g0) : Mat (2 * (c + s)) K) (emb c s i) j =
      (∑ k, X i k) * (1 - r * total (blockAux X g0)) := by
  simp only [Matrix.sub_apply, Matrix.smul_apply, smul_eq_mul, mul_ones_mul, Finset.sum_sub_distrib, blockAux_row]
  rw [← Finset.mul_sum, ← Finset.mul_sum]
  have : ∑ j, ∑ k, blockAux X g0 k j = total (blockAux X g0) := by unfold total; exact Finset.sum_comm
  rw [this]
  ring

/-- C27.  The three-leg vertex times `1 - u_r chi_phys` is the row sum of the full-box susceptibility divided by the
    bubble: `(1 - u_r chi) vrg(v) = sum_v' chi(v, v') / chi_0(v)` with `v'` running over core and shell. -/
theorem vrg_is_row_sum {c s : Nat} (gam X : Mat (2 * c) K) (g0 : Vec (2 * (c + s)) K) (h0 : ∀ i, g0 i ≠ 0)
    (beta ur : K) (hb : beta ≠ 0) (hX : auxGamW gam (cut1 (c := c) (s := s) g0) beta ur = some X)
    (hd : 1 + ur * (physical beta X + physicalBubble beta g0 - physicalBubble beta (cut1 (c := c) (s := s) g0)) ≠ 0) :
    ∃ chi, gchirGamW (shell2 s gam (ur / beta ^ 2)) g0 = some chi ∧ ∀ i : Fin (2 * c),
      (1 - ur * physical beta chi) * vrgSlice true X (cut1 (c := c) (s := s) g0) i =
        (∑ j, chi (emb c s i) j) / g0 (emb c s i) := by
  refine ⟨_, full_chi gam X g0 h0 beta ur hb hX hd, ?_⟩
  intro i
  rw [full_chi_row]
  have ht : total (blockAux X g0) = beta ^ 2 * (physical beta X + physicalBubble beta g0 -
      physicalBubble beta (cut1 (c := c) (s := s) g0)) := by
    rw [blockAux_total]
    unfold physical physicalBubble total
    field_simp
    ring
  have hp : ∀ B : Mat (2 * (c + s)) K, physical beta B = total B / beta ^ 2 := fun _ => rfl
  generalize physical beta X + physicalBubble beta g0 - physicalBubble beta (cut1 (c := c) (s := s) g0) = A at *
  rw [hp, total_sub, total_smul, total_mul_ones_mul, ht]
  have hg := h0 (emb c s i)
  simp only [vrgSlice, sumAxis, cut1, if_true]
  field_simp
  ring

/-- C27.  The full vertex assembled from auxiliary susceptibility, three-leg vertices and physical susceptibility
    (`fob2_from_vrg_and_chir`) is the core block of the full vertex of the full-box Bethe–Salpeter solution
    (`fob2_from_gchir`), for every irreducible vertex and every shell. -/
theorem vertex_decomposition {c s : Nat} (gam X : Mat (2 * c) K) (g0 : Vec (2 * (c + s)) K) (h0 : ∀ i, g0 i ≠ 0)
    (beta ur : K) (hb : beta ≠ 0) (hX : auxGamW gam (cut1 (c := c) (s := s) g0) beta ur = some X)
    (hd : 1 + ur * (physical beta X + physicalBubble beta g0 - physicalBubble beta (cut1 (c := c) (s := s) g0)) ≠ 0) :
    ∃ chi, gchirGamW (shell2 s gam (ur / beta ^ 2)) g0 = some chi ∧
      fob2VrgSlice X (vrgSlice true X (cut1 (c := c) (s := s) g0)) (vrgSlice false X (cut1 (c := c) (s := s) g0))
        (physical beta chi) (cut1 (c := c) (s := s) g0) beta ur = cut2 (fob2Slice g0 chi) := by
  refine ⟨_, full_chi gam X g0 h0 beta ur hb hX hd, ?_⟩
  have ht : total (blockAux X g0) = beta ^ 2 * (physical beta X + physicalBubble beta g0 -
      physicalBubble beta (cut1 (c := c) (s := s) g0)) := by
    rw [blockAux_total]
    unfold physical physicalBubble total
    field_simp
    ring
  have hp : ∀ B : Mat (2 * (c + s)) K, physical beta B = total B / beta ^ 2 := fun _ => rfl
  generalize physical beta X + physicalBubble beta g0 - physicalBubble beta (cut1 (c := c) (s := s) g0) = A at *
  ext i j
  rw [hp, total_sub, total_smul, total_mul_ones_mul, ht]
  simp only [fob2VrgSlice, cut2, fob2Slice, Matrix.of_apply]
  rw [full_chi_core]
  have hi := h0 (emb c s i)
  have hj := h0 (emb c s j)
  simp only [vrgSlice, sumAxis, cut1, if_true, diag, Matrix.of_apply, Bool.false_eq_true, if_false, emb_inj]
  generalize (∑ k, X i k) = R
  generalize (∑ k, X k j) = C
  by_cases hij : i = j
  · simp only [hij, if_true] at *
    field_simp
    ring
  · simp only [hij, if_false]
    field_simp
    ring

/-- C27.  For a vertex symmetric in (v, v') the lattice code uses one three-leg vertex: `f1 + (1 ∓ u chi) f2` is `beta^2`
    times the core block of the full vertex, with the upper sign in the density and the lower in the magnetic channel. -/
theorem ladder_vertex {c s : Nat} (magn : Bool) (gam X : Mat (2 * c) K) (hs : ∀ i j, X i j = X j i)
    (g0 : Vec (2 * (c + s)) K) (h0 : ∀ i, g0 i ≠ 0) (beta u ur : K) (hb : beta ≠ 0)
    (hur : getUr u (if magn then "magn" else "dens") = some ur)
    (hX : auxGamW gam (cut1 (c := c) (s := s) g0) beta ur = some X)
    (hd : 1 + ur * (physical beta X + physicalBubble beta g0 - physicalBubble beta (cut1 (c := c) (s := s) g0)) ≠ 0) :
    ∃ chi, gchirGamW (shell2 s gam (ur / beta ^ 2)) g0 = some chi ∧
      buildF magn (ladderComponents X (vrgSlice true X (cut1 (c := c) (s := s) g0)) (cut1 (c := c) (s := s) g0) beta ur)
        u (physical beta chi) = beta ^ 2 • cut2 (fob2Slice g0 chi) := by
  obtain ⟨chi, h1, h2⟩ := vertex_decomposition gam X g0 h0 beta ur hb hX hd
  refine ⟨chi, h1, ?_⟩
  rw [← h2]
  have hv : vrgSlice false X (cut1 (c := c) (s := s) g0) = vrgSlice true X (cut1 (c := c) (s := s) g0) := by
    funext i
    simp only [vrgSlice, sumAxis, if_true, Bool.false_eq_true, if_false]
    congr 1
    apply Finset.sum_congr rfl
    intro j _
    exact hs j i
  rw [hv]
  have hsgn : (if magn then 1 + u * physical beta chi else 1 - u * physical beta chi) = 1 - ur * physical beta chi := by
    rw [getUr_table] at hur
    cases magn
    · simp at hur; subst hur; simp
    · simp at hur; subst hur; simp
  ext i j
  simp only [buildF, ladderComponents, fob2VrgSlice, Matrix.of_apply, Matrix.smul_apply, smul_eq_mul, hsgn]
  field_simp

/-- C27.  `fob2_from_gamob2_urange` (geometric series form) agrees with `fob2_from_gchir` of the Bethe–Salpeter
    solution, on every box. -/
theorem fob2GamSlice_eq {n : Nat} (gam chi : Mat n K) (g0 : Vec n K) (h0 : ∀ i, g0 i ≠ 0)
    (h : gchirGamW gam g0 = some chi) : fob2GamSlice gam g0 = some (fob2Slice g0 chi) := by
  unfold gchirGamW at h
  rw [inv?_iff] at h
  have hD : diag g0 * diag (fun i => 1 / g0 i) = 1 := by
    rw [diag_eq, diag_eq, Matrix.diagonal_mul_diagonal]
    ext i j
    simp only [Matrix.diagonal_apply, Matrix.one_apply]
    split
    · rename_i he; subst he; rw [one_div, mul_inv_cancel₀ (h0 i)]
    · rfl
  have hD' : diag (fun i => 1 / g0 i) * diag g0 = 1 := mul_eq_one_comm.mp hD
  have hF : fob2Slice g0 chi =
      diag (fun i => 1 / g0 i) - diag (fun i => 1 / g0 i) * chi * diag (fun i => 1 / g0 i) := by
    ext i j
    simp only [fob2Slice, Matrix.of_apply, Matrix.sub_apply]
    rw [diag_eq, Matrix.mul_diagonal, Matrix.diagonal_mul]
    ring
  have hM : (Matrix.of fun i j => gam i j * g0 i : Mat n K) = diag g0 * gam := by
    ext i j
    rw [diag_eq, Matrix.diagonal_mul, Matrix.of_apply, mul_comm]
  generalize diag (fun i => 1 / g0 i) = D at *
  have hinv : inv? (1 + Matrix.of fun i j => gam i j * g0 i) = some (chi * D) := by
    rw [inv?_iff, hM]
    have : (1 + diag g0 * gam) = diag g0 * (D + gam) := by rw [Matrix.mul_add, hD]
    rw [this, Matrix.mul_assoc, ← Matrix.mul_assoc (D + gam), h, Matrix.one_mul, hD]
  unfold fob2GamSlice
  rw [hinv, Option.map_some, hF]
  congr 1
  have : gam * chi = 1 - D * chi := by
    rw [Matrix.add_mul] at h
    rw [← h]; abel
  rw [← Matrix.mul_assoc, this, Matrix.sub_mul, Matrix.one_mul]

/-- C27.  The older route through the lambda vertex (`lam_from_chir`, `get_lam_tilde`, `get_chir_tilde`, `vrg_from_lam`)
    applied to the core block of the same susceptibility gives the same physical susceptibility and the same three-leg
    vertex as the route through the auxiliary susceptibility. -/
theorem lambda_route {c s : Nat} (gam X : Mat (2 * c) K) (g0 : Vec (2 * (c + s)) K) (h0 : ∀ i, g0 i ≠ 0)
    (beta u sign ur : K) (hb : beta ≠ 0) (ch : String) (hsg : getSign ch = some sign) (hur : getUr u ch = some ur)
    (hX : auxGamW gam (cut1 (c := c) (s := s) g0) beta ur = some X)
    (hd : 1 + ur * (physical beta X + physicalBubble beta g0 - physicalBubble beta (cut1 (c := c) (s := s) g0)) ≠ 0)
    (hs : 1 - (u * (physicalBubble beta g0 - physicalBubble beta (cut1 (c := c) (s := s) g0))) ^ 2 ≠ 0) :
    ∃ chi, gchirGamW (shell2 s gam (ur / beta ^ 2)) g0 = some chi ∧
      let g0c := cut1 (c := c) (s := s) g0
      let shell := physicalBubble beta g0 - physicalBubble beta g0c
      let lam := lamTildeSlice u ur (lamSlice sign (cut2 chi) g0c) shell
      chirTilde sign u beta lam (physical beta (cut2 chi)) shell g0c = physical beta chi ∧
      vrgLamSlice sign ur lam (physical beta chi) = vrgSlice true X g0c := by
  refine ⟨_, full_chi gam X g0 h0 beta ur hb hX hd, ?_⟩
  intro g0c shell lam
  have hsu : ur = sign * u := by
    rw [ur_eq_sign_mul u sign ch hsg] at hur; exact (Option.some.inj hur).symm
  have hss : sign * sign = 1 := by
    rw [getSign_table] at hsg
    split at hsg
    · cases hsg; ring
    · split at hsg
      · cases hsg; ring
      · cases hsg
  have hus : ur * ur = u * u := by rw [hsu]; linear_combination u * u * hss
  have ht : total (blockAux X g0) = beta ^ 2 * (physical beta X + shell) := by
    rw [blockAux_total]
    show _ = beta ^ 2 * (physical beta X + (physicalBubble beta g0 - physicalBubble beta (cut1 (c := c) (s := s) g0)))
    unfold physical physicalBubble total
    field_simp
  have hA : physical beta X + physicalBubble beta g0 - physicalBubble beta g0c = physical beta X + shell := by
    show _ = physical beta X + (physicalBubble beta g0 - physicalBubble beta g0c); ring
  have hd' : 1 + ur * (physical beta X + shell) ≠ 0 := by rw [← hA]; exact hd
  have hs' : 1 - (u * shell) ^ 2 ≠ 0 := hs
  have h1s : 1 + ur * shell ≠ 0 := by
    intro h
    apply hs'
    have : (u * shell) ^ 2 = (ur * shell) ^ 2 := by linear_combination (-(shell * shell)) * hus
    rw [this]
    linear_combination (1 - ur * shell) * h
  have hphys : ∀ (r : K), r = (ur / beta ^ 2) / (1 + ur * (physical beta X + shell)) →
      physical beta (blockAux X g0 - r • (blockAux X g0 * ones _ K * blockAux X g0)) =
        (physical beta X + shell) / (1 + ur * (physical beta X + shell)) := by
    intro r hr
    have hp : ∀ B : Mat (2 * (c + s)) K, physical beta B = total B / beta ^ 2 := fun _ => rfl
    rw [hp, total_sub, total_smul, total_mul_ones_mul, ht, hr]
    clear_value shell
    generalize physical beta X + shell = A at hd' ⊢
    have : 1 + A * ur ≠ 0 := by rwa [mul_comm] at hd'
    field_simp
    ring
  have hcore : ∀ (r : K), cut2 (blockAux X g0 - r • (blockAux X g0 * ones _ K * blockAux X g0)) =
      (X - r • (X * ones _ K * X) : Mat (2 * c) K) := by
    intro r
    ext i j
    simp only [cut2, Matrix.of_apply]
    rw [full_chi_core, Matrix.sub_apply, Matrix.smul_apply, smul_eq_mul, mul_ones_mul]
  rw [hphys _ (by rw [← hA])]
  have hXp : total X = beta ^ 2 * physical beta X := by unfold physical total; field_simp
  -- rows of the core block
  have hlam : ∀ i, 1 + sign * lam i = (vrgSlice true X g0c i) / (1 + ur * (physical beta X + shell)) := by
    intro i
    have hgi : g0c i ≠ 0 := h0 _
    have hrow : ∑ j, (X - ((ur / beta ^ 2) / (1 + ur * (physical beta X + shell))) • (X * ones _ K * X) : Mat (2 * c) K) i j
        = (∑ k, X i k) * (1 + ur * shell) / (1 + ur * (physical beta X + shell)) := by
      simp only [Matrix.sub_apply, Matrix.smul_apply, smul_eq_mul, mul_ones_mul, Finset.sum_sub_distrib]
      rw [← Finset.mul_sum, ← Finset.mul_sum]
      have : ∑ j, ∑ k, X k j = total X := by unfold total; exact Finset.sum_comm
      rw [this, hXp]
      field_simp
      ring
    have hl : lamSlice sign (cut2 (blockAux X g0 - ((ur / beta ^ 2) / (1 + ur * (physical beta X + physicalBubble beta g0 -
        physicalBubble beta (cut1 (c := c) (s := s) g0)))) • (blockAux X g0 * ones _ K * blockAux X g0))) g0c i =
        -sign * (1 - (∑ k, X i k) * (1 + ur * shell) / (1 + ur * (physical beta X + shell)) * (1 / g0c i)) := by
      rw [hcore, show physical beta X + physicalBubble beta g0 - physicalBubble beta (cut1 (c := c) (s := s) g0) =
        physical beta X + shell from hA]
      unfold lamSlice
      rw [← Finset.sum_mul, hrow]
    show 1 + sign * ((lamSlice sign _ g0c i - u * shell) / (1 + ur * shell)) = _
    rw [hl]
    simp only [vrgSlice, sumAxis, if_true]
    generalize (∑ k, X i k) = R
    rw [mul_div_assoc', eq_div_iff hd', add_mul, one_mul, div_mul_eq_mul_div, eq_comm, ← sub_eq_iff_eq_add', eq_div_iff h1s]
    have hE : (1 + ur * (physical beta X + shell)) ≠ 0 := hd'
    field_simp
    linear_combination (g0c i * (1 + ur * (physical beta X + shell)) - R * (1 + ur * shell)) * hss -
      (g0c i * shell * (1 + ur * (physical beta X + shell))) * hsu
  constructor
  · rw [hcore]
    unfold chirTilde chirShell
    have hsum : ∑ i, (lam i + sign) * g0c i = sign * (beta ^ 2 * physical beta X) / (1 + ur * (physical beta X + shell)) := by
      have : ∀ i, (lam i + sign) * g0c i = sign / (1 + ur * (physical beta X + shell)) * ∑ k, X i k := by
        intro i
        have hgi : g0c i ≠ 0 := h0 _
        have e : lam i + sign = sign * (1 + sign * lam i) := by linear_combination (-lam i) * hss
        rw [e, hlam]
        simp only [vrgSlice, sumAxis, if_true]
        field_simp
      rw [Finset.sum_congr rfl fun i _ => this i, ← Finset.mul_sum]
      rw [← hXp]
      unfold total
      ring
    have hpc : physical beta (X - ((ur / beta ^ 2) / (1 + ur * (physical beta X + physicalBubble beta g0 -
        physicalBubble beta (cut1 (c := c) (s := s) g0)))) • (X * ones _ K * X) : Mat (2 * c) K) =
        physical beta X * (1 + ur * shell) / (1 + ur * (physical beta X + shell)) := by
      have hp : ∀ B : Mat (2 * c) K, physical beta B = total B / beta ^ 2 := fun _ => rfl
      rw [show physical beta X + physicalBubble beta g0 - physicalBubble beta (cut1 (c := c) (s := s) g0) =
        physical beta X + shell from hA]
      rw [hp, total_sub, total_smul, total_mul_ones_mul, hXp]
      field_simp
      ring
    rw [hsum, hpc]
    clear_value shell
    generalize physical beta X = a at *
    rw [show 2 * u * 1 / beta ^ 2 * (sign * (beta ^ 2 * a) / (1 + ur * (a + shell))) =
      2 * ur * a / (1 + ur * (a + shell)) by rw [hsu]; field_simp, show -sign * u = -ur by rw [hsu]; ring,
      show (u * shell) ^ 2 = (ur * shell) ^ 2 by linear_combination (-(shell * shell)) * hus]
    have hs2 : 1 - (ur * shell) ^ 2 ≠ 0 := by
      rw [show (ur * shell) ^ 2 = (u * shell) ^ 2 by linear_combination (shell * shell) * hus]; exact hs'
    rw [div_eq_div_iff hs2 hd']
    field_simp
    ring
  · funext i
    unfold vrgLamSlice
    rw [hlam]
    field_simp
    ring

/-- C27.  The asymptotic correction of the physical susceptibility is compensated in the three-leg vertex: the
    combination `(1 - u_r chi) vrg` that enters the Schwinger–Dyson equation and the vertex does not change. -/
theorem asympt_invariant {n : Nat} (last : Bool) (X : Mat n K) (g0 : Vec n K) (chiU chiA ur : K)
    (hA : 1 - ur * chiA ≠ 0) (i : Fin n) :
    (1 - ur * chiA) * vrgAsymptSlice last X g0 chiU chiA ur i = (1 - ur * chiU) * vrgSlice last X g0 i := by
  unfold vrgAsymptSlice vrgSlice
  field_simp

/-- hypotheses of C27 are met: the random-phase vertex `Gamma = u_r` on a core of two and a shell of two frequencies -/
example : ∃ X : Mat (2 * 1) ℚ,
    auxGamW (Matrix.of fun _ _ => (1 / 1 ^ 2 : ℚ)) (cut1 (c := 1) (s := 1) fun _ => 2) 1 1 = some X ∧
    physical 1 X + physicalBubble 1 (fun _ : Fin (2 * (1 + 1)) => (2 : ℚ)) -
      physicalBubble 1 (cut1 (c := 1) (s := 1) fun _ => (2 : ℚ)) ≠ 0 ∧
    1 + 1 * (physical 1 X + physicalBubble 1 (fun _ : Fin (2 * (1 + 1)) => (2 : ℚ)) -
      physicalBubble 1 (cut1 (c := 1) (s := 1) fun _ => (2 : ℚ))) ≠ 0 ∧ ∀ i j, X i j = X j i := by
  refine ⟨diag fun _ => 2, ?_, ?_, ?_, ?_⟩
  · unfold auxGamW
    have : addC (diag (fun i => 1 / cut1 (c := 1) (s := 1) (fun _ => (2 : ℚ)) i) + Matrix.of fun _ _ => (1 / 1 ^ 2 : ℚ))
        (-(1 / 1 ^ 2)) = diag fun _ => 1 / 2 := by
      ext i j
      simp [addC, cut1, diag]
    rw [inv?_iff, this, diag_eq, diag_eq, Matrix.diagonal_mul_diagonal]
    norm_num
  · norm_num [physical, physicalBubble, diag, cut1]
  · norm_num [physical, physicalBubble, diag, cut1]
  · intro i j
    by_cases h : i = j
    · subst h; rfl
    · simp [diag, h, Ne.symm h]

end DGA.Fp
