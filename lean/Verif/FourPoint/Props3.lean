/-
  C18 (get_f_diag), C28 (frequency bookkeeping of n-point objects).
-/
import Verif.FourPoint.Link
import Verif.FourPoint.Props2

namespace DGA.Fp

open DGA.Mf

variable {K : Type} [Field K]

/-! ### C28 — cutting the bosonic axis -/

omit [Field K] in
/-- C28.  `cut_iw` is refused for an object defined on a list of frequencies (the assertion on `is_full_w`), and only then. -/
theorem cutIw_refused {α : Type} (o : NPoint K α) (c : Int) : cutIw o c = none ↔ ∃ l, o.wnSel = some l := by
  unfold cutIw
  cases o.wnSel <;> simp

omit [Field K] in
/-- C28.  On a full object of `2 niw + 1` frequencies `cut_iw(c)` with `c ≤ niw` keeps channel, temperature, interaction
    and every value at the indices `-c … c`, and the object then reports exactly these indices as its frequencies. -/
theorem cutIw_value {α : Type} (o : NPoint K α) (niw c : Nat) (hs : o.wnSel = none) (hl : o.mat.length = 2 * niw + 1)
    (hc : c ≤ niw) : ∃ r, cutIw o c = some r ∧ r.channel = o.channel ∧ r.beta = o.beta ∧ r.u = o.u ∧
      r.wn = (List.range (2 * c + 1)).map (fun k : Nat => (k : Int) - c) ∧ r.mat.length = 2 * c + 1 ∧
      ∀ n : Int, n.natAbs ≤ c → atB r.mat n = atB o.mat n := by
  obtain ⟨h1, h2⟩ := cutW_value o.mat niw hl c hc
  refine ⟨{ o with mat := cutW o.mat c }, ?_, rfl, rfl, rfl, ?_, h1, h2⟩
  · unfold cutIw; rw [hs]
  · simp only [NPoint.wn, hs]
    rw [nFromMat_eq' _ c h1]
    apply List.ext_getElem?
    intro k
    by_cases hk : k < 2 * c + 1
    · rw [wn_get? c k hk, List.getElem?_map, List.getElem?_range hk]; rfl
    · rw [List.getElem?_eq_none (by rw [wn_length]; omega), List.getElem?_eq_none (by simp; omega)]

/-- C28.  `contract_legs` of a four-point object is, frequency by frequency, `1/beta^2` times the sum over both fermionic
    frequencies. -/
theorem contract4_value {n : Nat} (o : FourP n K) (k : Nat) :
    (contract4 o)[k]? = (o.mat[k]?).map fun m => physical o.beta m := by
  unfold contract4 physical
  rw [List.getElem?_map]
  congr 1
  funext m
  rw [one_div, mul_comm, ← div_eq_mul_inv]

/-- non-vacuity: five frequencies cut to three -/
example : (cutIw (⟨"dens", [1, 2, 3, 4, 5], 2, 3, none⟩ : NPoint ℚ Nat) 1).map (fun r => (r.mat, r.wn)) =
    some ([2, 3, 4], [-1, 0, 1]) := by decide +kernel

/-! ### C27 — the two routes to the auxiliary susceptibility, non-interacting limit -/

/-- C27.  `gchi_aux_core` (from the susceptibility) and `gchi_aux_core_from_gammar` (from the irreducible vertex of that
    susceptibility) return the same matrix, or raise both. -/
theorem aux_routes {n : Nat} (chi gam : Mat n K) (g0 : Vec n K) (beta ur : K) (h : gamob2W chi g0 = some gam) :
    auxW chi beta ur = auxGamW gam g0 beta ur := by
  unfold gamob2W at h
  cases hi : inv? chi with
  | none => rw [hi] at h; cases h
  | some ci =>
    rw [hi, Option.map_some] at h
    have hg : gam = -(diag (fun i => 1 / g0 i) - ci) := (Option.some.inj h).symm
    unfold auxW auxGamW
    rw [hi, Option.bind_some, hg]
    congr 2
    abel

/-- C27.  Without interaction and without vertex (`u = 0`, `Gamma = 0`) the chain auxiliary susceptibility, physical
    susceptibility, asymptotic susceptibility returns the bubble: on the core box the diagonal bubble matrix, with the shell
    the contracted bubble of the full box, and with the asymptotic correction the bubble `chiA` of the infinite box.  (A vanishing
    contracted bubble, for which numpy divides by zero, is excluded.) -/
theorem noninteracting {c s : Nat} (g0 : Vec (2 * (c + s)) K) (h0 : ∀ i, g0 i ≠ 0) (beta chiA : K)
    (_hs : physicalBubble beta g0 ≠ 0) :
    ∃ X : Mat (2 * c) K, auxGamW 0 (cut1 (c := c) (s := s) g0) beta 0 = some X ∧ X = diag (cut1 (c := c) (s := s) g0) ∧
      chiPhysUrange (physical beta X) (physicalBubble beta (cut1 (c := c) (s := s) g0)) (physicalBubble beta g0) 0 =
        physicalBubble beta g0 ∧
      chiPhysAsympt (physicalBubble beta g0) (physicalBubble beta g0) chiA = chiA := by
  refine ⟨_, ?_, rfl, ?_, ?_⟩
  · unfold auxGamW
    rw [inv?_iff, addC_eq, diag_eq, diag_eq]
    simp only [zero_div, neg_zero, zero_smul, add_zero]
    rw [Matrix.diagonal_mul_diagonal]
    rw [← Matrix.diagonal_one]
    congr 1
    funext i
    have := h0 (emb c s i)
    unfold cut1
    field_simp
  · have hp : physical beta (diag (cut1 (c := c) (s := s) g0)) = physicalBubble beta (cut1 (c := c) (s := s) g0) := by
      unfold physical physicalBubble diag
      congr 1
      apply Finset.sum_congr rfl
      intro i _
      simp
    unfold chiPhysUrange
    rw [hp]
    rw [add_sub_cancel_left, add_zero, one_div_one_div]
  · unfold chiPhysAsympt
    ring

/-- non-vacuity: a bubble without zeros -/
example : ∃ X : Mat (2 * 1) ℚ, auxGamW 0 (cut1 (c := 1) (s := 1) (fun i : Fin (2 * (1 + 1)) => (i.val : ℚ) + 1)) 2 0 = some X :=
  let ⟨X, h, _⟩ := noninteracting (c := 1) (s := 1) (fun i : Fin (2 * (1 + 1)) => (i.val : ℚ) + 1) (fun i => by positivity) 2 7
    (by unfold physicalBubble; decide +kernel)
  ⟨X, h⟩

/-- C27.  `get_f_dc_asympt` with the three-leg vertex and physical susceptibility of a vertex symmetric in `(v, v')` is `beta^2`
    times the core block of the full vertex of the full-box Bethe–Salpeter solution. -/
theorem f_dc_is_vertex {c s : Nat} (gam X : Mat (2 * c) K) (hs : ∀ i j, X i j = X j i) (g0 : Vec (2 * (c + s)) K)
    (h0 : ∀ i, g0 i ≠ 0) (beta ur : K) (hb : beta ≠ 0) (hX : auxGamW gam (cut1 (c := c) (s := s) g0) beta ur = some X)
    (hd : 1 + ur * (physical beta X + physicalBubble beta g0 - physicalBubble beta (cut1 (c := c) (s := s) g0)) ≠ 0) :
    ∃ chi, gchirGamW (shell2 s gam (ur / beta ^ 2)) g0 = some chi ∧ ∀ i j,
      fDcSlice X (vrgSlice true X (cut1 (c := c) (s := s) g0)) (physical beta chi) (cut1 (c := c) (s := s) g0) beta ur i j =
        beta ^ 2 * fob2Slice g0 chi (emb c s i) (emb c s j) := by
  obtain ⟨chi, h1, h2⟩ := vertex_decomposition gam X g0 h0 beta ur hb hX hd
  refine ⟨chi, h1, ?_⟩
  intro i j
  have hv : vrgSlice false X (cut1 (c := c) (s := s) g0) = vrgSlice true X (cut1 (c := c) (s := s) g0) := by
    funext k
    unfold vrgSlice sumAxis
    simp only [Bool.false_eq_true, if_false, if_true]
    congr 1
    exact Finset.sum_congr rfl fun l _ => hs l k
  rw [hv] at h2
  have := congrFun (congrFun h2 i) j
  simp only [cut2, Matrix.of_apply] at this
  rw [← this]
  unfold fDcSlice fob2VrgSlice
  simp only [Matrix.of_apply]
  rw [← mul_assoc, mul_one_div, div_self (pow_ne_zero 2 hb), one_mul]

/-! ### C18 — the diagonal vertex -/

/-- C18.  For two susceptibilities with `2 niw + 1` frequencies `get_f_diag` returns in the magnetic channel
    `1/2 chi_d(v - v') - 1/2 chi_m(v - v')`, in the density channel `1/2 chi_d(v - v') + 3/2 chi_m(v - v')` for all `v`,
    `v'` of the box with `niw // 2` positive frequencies, and raises in every other channel. -/
theorem getFDiag_value (D M : Int → K) (niw : Nat) (ch : String) :
    (ch ≠ "magn" → ch ≠ "dens" → getFDiag (Bubble.samplesB D niw) (Bubble.samplesB M niw) ch = none) ∧
    ((ch = "magn" ∨ ch = "dens") → ∃ cols, getFDiag (Bubble.samplesB D niw) (Bubble.samplesB M niw) ch = some cols ∧
      cols.length = 2 * (niw / 2) ∧
      ∀ v v' : Int, -((niw / 2 : Nat) : Int) ≤ v → v < (niw / 2 : Nat) → -((niw / 2 : Nat) : Int) ≤ v' →
        v' < (niw / 2 : Nat) → ((atF cols v').bind fun col => atF col v) =
          some (if ch = "magn" then 1 / 2 * D (v - v') - 1 / 2 * M (v - v') else 1 / 2 * D (v - v') + 3 / 2 * M (v - v'))) := by
  have hlen : ∀ F : Int → K, (Bubble.samplesB F niw).length = 2 * niw + 1 := by
    intro F; unfold Bubble.samplesB; rw [List.length_map, wn_length]
  have hat : ∀ (F : Int → K) (n : Int), n.natAbs ≤ niw → atB (Bubble.samplesB F niw) n = some (F n) := by
    intro F n hn
    rw [atB_eq _ niw (hlen F), if_pos (by omega)]
    unfold Bubble.samplesB
    rw [List.getElem?_map, wn_get? _ _ (by omega), Option.map_some]
    congr 2; omega
  have key : ∀ a b : K, ∃ d m cols, wToVmvp (Bubble.samplesB D niw) = some d ∧ wToVmvp (Bubble.samplesB M niw) = some m ∧
      linComb2 a b d m = some cols ∧ cols.length = 2 * (niw / 2) ∧
      ∀ v v' : Int, -((niw / 2 : Nat) : Int) ≤ v → v < (niw / 2 : Nat) → -((niw / 2 : Nat) : Int) ≤ v' →
        v' < (niw / 2 : Nat) → ((atF cols v').bind fun col => atF col v) = some (a * D (v - v') + b * M (v - v')) := by
    intro a b
    have hw : ∀ F : Int → K, wToVmvp (Bubble.samplesB F niw) =
        some ((vn (niw / 2)).map fun v' => (vn (niw / 2)).map fun v => F (v - v')) := by
      intro F
      unfold wToVmvp
      simp only [nFromMat_eq' _ niw (hlen F)]
      apply mapM_some
      intro ivp hi
      rw [mem_vn] at hi
      have hcl : (Py.slice (Bubble.samplesB F niw) ((niw : Int) - (niw / 2 : Nat) - ivp)
          ((niw : Int) + (niw / 2 : Nat) - ivp)).length = 2 * (niw / 2) := by
        rw [Py.length_slice_in _ _ _ (by omega) (by omega) (by rw [hlen]; omega)]; omega
      rw [if_pos hcl]
      congr 1
      apply List.ext_getElem?
      intro k
      by_cases hk : k < 2 * (niw / 2)
      · rw [Py.slice_get?_in _ _ _ (by omega) (by rw [hlen]; omega) _ (by omega), List.getElem?_map, vn_get? _ _ hk]
        unfold Bubble.samplesB
        rw [List.getElem?_map, wn_get? _ _ (by omega), Option.map_some, Option.map_some]
        congr 2; omega
      · rw [List.getElem?_eq_none (by omega), List.getElem?_eq_none (by rw [List.length_map, vn_length]; omega)]
    refine ⟨_, _, (vn (niw / 2)).map fun v' => (vn (niw / 2)).map fun v => a * D (v - v') + b * M (v - v'), hw D, hw M,
      ?_, by rw [List.length_map, vn_length], ?_⟩
    · unfold linComb2
      rw [if_pos (by simp)]
      have hr : (List.range ((vn (niw / 2)).map fun v' => (vn (niw / 2)).map fun v => D (v - v')).length) =
          List.range (2 * (niw / 2)) := by rw [List.length_map, vn_length]
      rw [hr, mapM_some _ _ (fun i : Nat => (vn (niw / 2)).map fun v =>
        a * D (v - ((i : Int) - (niw / 2 : Nat))) + b * M (v - ((i : Int) - (niw / 2 : Nat))))]
      · congr 1
        apply List.ext_getElem?
        intro k
        by_cases hk : k < 2 * (niw / 2)
        · rw [List.getElem?_map, List.getElem?_map, List.getElem?_range hk, vn_get? _ _ hk]; rfl
        · rw [List.getElem?_eq_none (by simp; omega), List.getElem?_eq_none (by rw [List.length_map, vn_length]; omega)]
      · intro i hi
        rw [List.mem_range] at hi
        rw [List.getElem?_map, List.getElem?_map, vn_get? _ _ hi]
        simp only [Option.map_some, Option.bind_some, List.length_map, if_true]
        congr 1
        rw [List.zipWith_map, List.zipWith_self]
    · intro v v' h1 h2 h3 h4
      rw [atF_eq _ (niw / 2) (by rw [List.length_map, vn_length]), if_pos ⟨h3, h4⟩, List.getElem?_map,
        vn_get? _ _ (by omega), Option.map_some, Option.bind_some,
        atF_eq _ (niw / 2) (by rw [List.length_map, vn_length]), if_pos ⟨h1, h2⟩, List.getElem?_map,
        vn_get? _ _ (by omega), Option.map_some]
      congr 1
      rw [show (((v' + (niw / 2 : Nat)).toNat : Nat) : Int) - (niw / 2 : Nat) = v' by omega,
        show (((v + (niw / 2 : Nat)).toNat : Nat) : Int) - (niw / 2 : Nat) = v by omega]
  constructor
  · intro h1 h2
    unfold getFDiag
    rw [if_neg h1, if_neg h2]
  · intro h
    by_cases hm : ch = "magn"
    · obtain ⟨d, m, cols, e1, e2, e3, e4, e5⟩ := key (1 / 2) (-(1 / 2))
      refine ⟨cols, ?_, e4, ?_⟩
      · unfold getFDiag
        rw [if_pos hm, e1, Option.bind_some, e2, Option.bind_some, e3]
      · intro v v' h1 h2 h3 h4
        rw [e5 v v' h1 h2 h3 h4, if_pos hm]
        congr 1; ring
    · have hd : ch = "dens" := by rcases h with h | h; exact absurd h hm; exact h
      obtain ⟨d, m, cols, e1, e2, e3, e4, e5⟩ := key (1 / 2) (3 / 2)
      refine ⟨cols, ?_, e4, ?_⟩
      · unfold getFDiag
        rw [if_neg hm, if_pos hd, e1, Option.bind_some, e2, Option.bind_some, e3]
      · intro v v' h1 h2 h3 h4
        rw [e5 v v' h1 h2 h3 h4, if_neg hm]

/-- non-vacuity: a 2×2 box -/
example : getFDiag [1, 2, 3, 4, (5 : ℚ)] [10, 20, 30, 40, 50] "dens" = some [[93 / 2, 62], [31, 93 / 2]] := by decide +kernel

end DGA.Fp
