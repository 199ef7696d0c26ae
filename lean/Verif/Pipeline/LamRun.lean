/-
  C128, second part: the complete run with the lambda correction the program computes itself.

  In Pipeline/Model.lean the lambda correction is a parameter.  Here the calculation is put together with the search of
  Lambda/Model.lean, as dga_main.py does: the ladder susceptibilities of the irreducible momenta are gathered, expanded to the full
  zone, corrected in the mode the user asked for, and enter the Schwinger–Dyson equation.
-/
import Verif.Pipeline.Conj
import Verif.Pipeline.Success
import Verif.Lambda.Complex

namespace DGA.Pipe

open DGA.Mf DGA.Bz DGA.Bubble DGA.Fp

section model

variable {K : Type} [Field K]

/-- dga_main.py:109-154: ladder quantities of the irreducible momenta on `R` ranks, gathered and expanded to the full zone -/
noncomputable def ladderFbz [Star K] {c : Nat} (s R nx ny nz : Nat) (f : List Nat) (gamD gamM : FourP (2 * c) K) (b : Bub K) :
    Option (QData K) :=
  (irrqList nx ny nz f).bind fun irr =>
    (distribute R (irr.map fun q => ((q.1 : Int), (q.2.1 : Int), (q.2.2 : Int)))).bind fun parts =>
      (parts.mapM fun qs => rankQ s gamD gamM b qs).bind fun res => toFbz f (collect res)

/-- dga_main.py:203-249: distribution over the full zone, lattice Schwinger–Dyson equation, reduction -/
noncomputable def solveQ (c R nx ny nz : Nat) (b : Bub K) (u : K) (d : QData K) : Option (List (List K)) :=
  let qfull := (qList nx ny nz).map fun q => ((q.1 : Int), (q.2.1 : Int), (q.2.2 : Int))
  (distribute R qfull).bind fun qparts =>
    ((List.range R).mapM fun r => (qparts[r]?).bind fun qs => (scatterQ qfull.length R r d).bind fun dr =>
      Sde.sdeFullQ dr.vrgD dr.vrgM c dr.chiD dr.chiM dr.dc b.giwk (nx * ny * nz) b.beta u qs b.wn (nx * ny * nz) 0).map fun l =>
        allreduceK (nx * ny * nz) (2 * c) l

theorem latticeSde_split [Star K] {c : Nat} (s R nx ny nz : Nat) (f : List Nat) (gamD gamM : FourP (2 * c) K) (b : Bub K)
    (lamD lamM : Option K) (u : K) : latticeSde s R nx ny nz f gamD gamM b lamD lamM u =
      (ladderFbz s R nx ny nz f gamD gamM b).bind fun d => solveQ c R nx ny nz b u
        { d with chiD := d.chiD.map fun r => r.map (corrected lamD), chiM := d.chiM.map fun r => r.map (corrected lamM) } := by
  unfold latticeSde ladderFbz solveQ
  cases irrqList nx ny nz f with
  | none => rfl
  | some irr =>
    simp only [Option.bind_some]
    cases distribute R (irr.map fun q => ((q.1 : Int), (q.2.1 : Int), (q.2.2 : Int))) with
    | none => rfl
    | some parts =>
      simp only [Option.bind_some]
      cases parts.mapM fun qs => rankQ s gamD gamM b qs <;> rfl

end model

/-- what the run leaves behind: the self-energy on the core box, the susceptibilities saved as `chi_dens_lam`, `chi_magn_lam`, and the
    two numbers written to `lambda.txt` -/
structure RunOut where
  sigma : List (List ℂ)
  chi : Lam.Corrected

/-- dga_main.py:99-253: the run with the lambda correction in mode `mode` (lines 159-163; lambda_correction.py:43-67), up to the core
    self-energy.  `"failed"`: an inversion or a shape error outside the lambda correction. -/
noncomputable def dgaRun {c : Nat} (s R nx ny nz : Nat) (f : List Nat) (g2D g2M : FourP (2 * c) ℂ) (b : Bub ℂ) (beta : ℝ) (mode : String)
    (u n : ℂ) (siw : List ℂ) : Except String RunOut :=
  match localSde s g2D g2M b n with
  | none => .error "failed"
  | some loc =>
    match ladderFbz s R nx ny nz f loc.1.gam loc.2.1.gam b with
    | none => .error "failed"
    | some d =>
      match Lam.lambdaCorrection d.chiD d.chiM beta loc.1.chi loc.2.1.chi mode with
      | .error e => .error e
      | .ok r =>
        match (solveQ c R nx ny nz b u { d with chiD := r.dens, chiM := r.magn }).bind fun sig =>
            sig.mapM fun (row : List ℂ) => assemble row (cutV siw (c : Int)) (cutV loc.2.2 (c : Int)) (u * n / 2) with
        | none => .error "failed"
        | some sig => .ok ⟨sig, r⟩

/-- the shifts the user reads off: in mode 'spch' both channels, in mode 'sp' only the magnetic one, otherwise none -/
def lamOf (mode : String) (r : Lam.Corrected) : Option ℂ × Option ℂ :=
  if mode = "spch" then (some (r.lamDens : ℂ), some (r.lamMagn : ℂ))
  else if mode = "sp" then (none, some (r.lamMagn : ℂ)) else (none, none)

theorem corrected_none (chi : List (List ℂ)) : (chi.map fun r => r.map (corrected none)) = chi := by
  conv_rhs => rw [← List.map_id chi]
  apply List.map_congr_left
  intro row _
  conv_rhs => rw [id, ← List.map_id row]
  rfl

theorem corrected_some (chi : List (List ℂ)) (l : ℝ) : (chi.map fun r => r.map (corrected (some (l : ℂ)))) = Lam.useLambda chi l := rfl

/-- what the correction does to the two arrays, in every mode -/
theorem lambdaCorrection_arrays (dens magn : List (List ℂ)) (beta : ℝ) (ld lm : List ℂ) (mode : String) (r : Lam.Corrected)
    (h : Lam.lambdaCorrection dens magn beta ld lm mode = .ok r) :
    mode ∈ ["spch", "sp", "none"] ∧ r.dens = (dens.map fun x => x.map (corrected (lamOf mode r).1)) ∧
      r.magn = magn.map fun x => x.map (corrected (lamOf mode r).2) := by
  have hm : mode ∈ ["spch", "sp", "none"] := by
    by_contra hc
    rw [(Lam.unknown_mode_raises dens magn beta ld lm mode).2 hc] at h
    cases h
  refine ⟨hm, ?_⟩
  simp only [List.mem_cons, List.not_mem_nil, or_false] at hm
  rcases hm with rfl | rfl | rfl
  · obtain ⟨h1, h2⟩ := Lam.spch_both _ _ _ _ _ r h
    simp only [lamOf, if_true]
    rw [corrected_some, corrected_some]
    exact ⟨h1, h2⟩
  · obtain ⟨h1, h2, h3⟩ := Lam.sp_only_magn _ _ _ _ _ r h
    have e : lamOf "sp" r = (none, some (r.lamMagn : ℂ)) := by simp [lamOf]
    rw [e, corrected_some, corrected_none]
    exact ⟨h1, h3⟩
  · rw [Lam.none_unchanged] at h
    cases h
    have e : ∀ r, lamOf "none" r = (none, none) := by simp [lamOf]
    rw [e, corrected_none, corrected_none]
    exact ⟨rfl, rfl⟩

/-- the run is the calculation of C62 with the shifts it reports -/
theorem run_is_self_energy {c : Nat} (s R nx ny nz : Nat) (f : List Nat) (g2D g2M : FourP (2 * c) ℂ) (b : Bub ℂ) (beta : ℝ) (mode : String)
    (u n : ℂ) (siw : List ℂ) (out : RunOut) (h : dgaRun s R nx ny nz f g2D g2M b beta mode u n siw = .ok out) :
    mode ∈ ["spch", "sp", "none"] ∧
    dgaSelfEnergy s R nx ny nz f g2D g2M b (lamOf mode out.chi).1 (lamOf mode out.chi).2 u n siw = some out.sigma := by
  unfold dgaRun at h
  unfold dgaSelfEnergy
  cases hl : localSde s g2D g2M b n with
  | none => rw [hl] at h; cases h
  | some loc =>
  rw [hl] at h
  simp only at h
  rw [Option.bind_some, latticeSde_split]
  cases hd : ladderFbz s R nx ny nz f loc.1.gam loc.2.1.gam b with
  | none => rw [hd] at h; cases h
  | some d =>
  rw [hd] at h
  simp only at h
  cases hr : Lam.lambdaCorrection d.chiD d.chiM beta loc.1.chi loc.2.1.chi mode with
  | error e => rw [hr] at h; cases h
  | ok r =>
  rw [hr] at h
  simp only at h
  split at h
  · cases h
  · rename_i sig hs
    cases h
    obtain ⟨h0, h1, h2⟩ := lambdaCorrection_arrays _ _ _ _ _ _ _ hr
    refine ⟨h0, ?_⟩
    rw [Option.bind_some]
    simp only [← h1, ← h2]
    exact hs

/-- an unknown mode is reported as such, after the ladder has been computed; the three known modes never are -/
theorem run_unknown_mode {c : Nat} (s R nx ny nz : Nat) (f : List Nat) (g2D g2M : FourP (2 * c) ℂ) (b : Bub ℂ) (beta : ℝ) (mode : String)
    (u n : ℂ) (siw : List ℂ) :
    (dgaRun s R nx ny nz f g2D g2M b beta mode u n siw = .error "NotImplementedError" → mode ∉ ["spch", "sp", "none"]) ∧
    (mode ∉ ["spch", "sp", "none"] → (localSde s g2D g2M b n).isSome →
      (∀ loc, localSde s g2D g2M b n = some loc → (ladderFbz s R nx ny nz f loc.1.gam loc.2.1.gam b).isSome) →
      dgaRun s R nx ny nz f g2D g2M b beta mode u n siw = .error "NotImplementedError") := by
  constructor
  · intro h
    unfold dgaRun at h
    split at h
    · exact absurd (Except.error.inj h) (by decide)
    · split at h
      · exact absurd (Except.error.inj h) (by decide)
      · split at h
        · rename_i e he
          rw [Except.error.inj h] at he
          exact (Lam.unknown_mode_raises _ _ _ _ _ _).1 he
        · split at h
          · exact absurd (Except.error.inj h) (by decide)
          · cases h
  · intro hm h1 h2
    obtain ⟨loc, hloc⟩ := Option.isSome_iff_exists.1 h1
    obtain ⟨d, hd⟩ := Option.isSome_iff_exists.1 (h2 loc hloc)
    unfold dgaRun
    simp only [hloc, hd, (Lam.unknown_mode_raises _ _ _ _ _ mode).2 hm]

section closed

variable {K : Type} [Field K] [StarRing K]

open Classical in
/-- closed form of the ladder part, for every number of ranks, with the irreducible momenta `irr` and the representative `rep` of every
    momentum given -/
theorem ladderFbz_of {c : Nat} (s nx ny nz N niw : Nat) (beta u : K) (hb : star beta = beta)
    (G : Nat → Nat → Nat → Int → K) (g : Int → K) (hg : ∀ n : Int, -(N : Int) ≤ n → n < N → g (-n - 1) = star (g n))
    (hG : ∀ i j k, ∀ n : Int, -(N : Int) ≤ n → n < N → G i j k (-n - 1) = star (G i j k n))
    (hfit : niw + (c + s) ≤ N) (ΓD ΓM : Int → Mat (2 * c) K) (label : Nat → Nat → Nat → Nat)
    (irr : List (Nat × Nat × Nat)) (rep : Mom → Mom) (h1 : irrqList nx ny nz (flat3 (table nx ny nz label)) = some irr)
    (h2 : ∀ {α : Type} (φ : Mom → α), irrk2fbzList (flat3 (table nx ny nz label)) ((irr.map momOf).map φ) =
        some (((qList nx ny nz).map momOf).map fun (q : Mom) => φ (rep q))) (R : Nat) (hR : 0 < R) :
    ladderFbz s R nx ny nz (flat3 (table nx ny nz label)) (objOf true niw beta u ΓD) (objOf false niw beta u ΓM)
        (genOf nx ny nz N niw beta G g) =
      if OkL s (wn niw) beta (-u) ΓM (bubLoc beta g) ∧ ∀ q ∈ irr.map momOf, OkBoth (wn niw) beta u ΓD ΓM (bubQ nx ny nz beta G) q then
        some (mk5 c (wn niw) (fun q => VQ beta u ΓD (bubQ nx ny nz beta G) (rep q)) (fun q => VQ beta (-u) ΓM (bubQ nx ny nz beta G) (rep q))
          (fun q => CQ s beta u ΓD (bubQ nx ny nz beta G) (rep q)) (fun q => CQ s beta (-u) ΓM (bubQ nx ny nz beta G) (rep q))
          (fun q => DQ s beta (-u) ΓM (bubQ nx ny nz beta G) (bubLoc beta g) (rep q)) ((qList nx ny nz).map momOf))
      else none := by
  unfold ladderFbz
  rw [h1, Option.bind_some]
  obtain ⟨b, hbs, hd, hfl⟩ := distribute_spec R hR (irr.map momOf)
  rw [show (irr.map fun (q : Nat × Nat × Nat) => (((q.1 : Int), (q.2.1 : Int), (q.2.2 : Int)) : Mom)) = irr.map momOf from rfl, hd,
    Option.bind_some]
  generalize hparts : (List.range R).map (fun (r : Nat) => Py.slice (irr.map momOf) (b r) (b (r + 1))) = parts at *
  have hpne : parts ≠ [] := by
    rw [← hparts]
    intro h
    have := congrArg List.length h
    simp at this
    omega
  simp only [rankQ_eq s nx ny nz N niw beta u hb G g hg hG hfit ΓD ΓM]
  rw [mapM_if _ _ ⟨[], [], [], [], []⟩]
  by_cases hok : OkL s (wn niw) beta (-u) ΓM (bubLoc beta g) ∧ ∀ q ∈ irr.map momOf, OkBoth (wn niw) beta u ΓD ΓM (bubQ nx ny nz beta G) q
  · have hall : ∀ qs ∈ parts, OkL s (wn niw) beta (-u) ΓM (bubLoc beta g) ∧ ∀ q ∈ qs, OkBoth (wn niw) beta u ΓD ΓM (bubQ nx ny nz beta G) q := by
      intro qs hqs
      refine ⟨hok.1, fun q hq => hok.2 q ?_⟩
      rw [← hfl]
      exact List.mem_flatten.2 ⟨qs, hqs, hq⟩
    rw [if_pos (by intro qs hqs; rw [if_pos (hall qs hqs)]; rfl), Option.bind_some, if_pos hok]
    have e : (parts.map fun qs => (if OkL s (wn niw) beta (-u) ΓM (bubLoc beta g) ∧
        ∀ q ∈ qs, OkBoth (wn niw) beta u ΓD ΓM (bubQ nx ny nz beta G) q then
          some (mkQ s (wn niw) beta u ΓD ΓM (bubQ nx ny nz beta G) (bubLoc beta g) qs) else none).getD ⟨[], [], [], [], []⟩) =
        parts.map fun (qs : List Mom) => mkQ s (wn niw) beta u ΓD ΓM (bubQ nx ny nz beta G) (bubLoc beta g) qs := by
      apply List.map_congr_left
      intro qs hqs
      rw [if_pos (hall qs hqs)]
      rfl
    rw [e, collect_mkQ, hfl]
    unfold toFbz mkQ
    simp only [h2, Option.bind_some, Option.map_some]
    rfl
  · rw [if_neg hok, if_neg]
    · rfl
    · intro h
      apply hok
      have h' : ∀ qs ∈ parts, OkL s (wn niw) beta (-u) ΓM (bubLoc beta g) ∧ ∀ q ∈ qs, OkBoth (wn niw) beta u ΓD ΓM (bubQ nx ny nz beta G) q := by
        intro qs hqs
        have := h qs hqs
        by_contra hc
        rw [if_neg hc] at this
        cases this
      obtain ⟨qs0, hqs0⟩ := List.exists_mem_of_ne_nil _ hpne
      refine ⟨(h' qs0 hqs0).1, ?_⟩
      intro q hq
      rw [← hfl, List.mem_flatten] at hq
      obtain ⟨qs, hqs, hq⟩ := hq
      exact (h' qs hqs).2 q hq

open Classical in
/-- closed form of the ladder part, for every number of ranks -/
theorem ladderFbz_eq {c : Nat} (s nx ny nz N niw : Nat) (beta u : K) (hb : star beta = beta)
    (G : Nat → Nat → Nat → Int → K) (g : Int → K) (hg : ∀ n : Int, -(N : Int) ≤ n → n < N → g (-n - 1) = star (g n))
    (hG : ∀ i j k, ∀ n : Int, -(N : Int) ≤ n → n < N → G i j k (-n - 1) = star (G i j k n))
    (hfit : niw + (c + s) ≤ N) (ΓD ΓM : Int → Mat (2 * c) K) (label : Nat → Nat → Nat → Nat) :
    ∃ (irr : List Mom) (rep : Mom → Mom),
      (∀ i j k, i < nx → j < ny → k < nz → ∃ i' j' k', i' < nx ∧ j' < ny ∧ k' < nz ∧ rep (momOf (i, j, k)) = momOf (i', j', k') ∧
        label i' j' k' = label i j k ∧ momOf (i', j', k') ∈ irr) ∧
      ∀ R, 0 < R → ladderFbz s R nx ny nz (flat3 (table nx ny nz label)) (objOf true niw beta u ΓD) (objOf false niw beta u ΓM)
          (genOf nx ny nz N niw beta G g) =
        if OkL s (wn niw) beta (-u) ΓM (bubLoc beta g) ∧ ∀ q ∈ irr, OkBoth (wn niw) beta u ΓD ΓM (bubQ nx ny nz beta G) q then
          some (mk5 c (wn niw) (fun q => VQ beta u ΓD (bubQ nx ny nz beta G) (rep q)) (fun q => VQ beta (-u) ΓM (bubQ nx ny nz beta G) (rep q))
            (fun q => CQ s beta u ΓD (bubQ nx ny nz beta G) (rep q)) (fun q => CQ s beta (-u) ΓM (bubQ nx ny nz beta G) (rep q))
            (fun q => DQ s beta (-u) ΓM (bubQ nx ny nz beta G) (bubLoc beta g) (rep q)) ((qList nx ny nz).map momOf))
        else none := by
  obtain ⟨irr, rep, h1, h2, h3⟩ := expand_irr nx ny nz label
  refine ⟨irr.map momOf, rep, ?_, ?_⟩
  · intro i j k hi hj hk
    obtain ⟨i', j', k', a1, a2, a3, a4, a5, a6⟩ := h3 i j k hi hj hk
    exact ⟨i', j', k', a1, a2, a3, a4, a5, List.mem_map.2 ⟨_, a6, rfl⟩⟩
  · exact fun R hR => ladderFbz_of s nx ny nz N niw beta u hb G g hg hG hfit ΓD ΓM label irr rep h1 h2 R hR

omit [StarRing K] in
/-- the second half on arrays given by functions -/
theorem solveQ_eq {c : Nat} (nx ny nz N niw : Nat) (beta u : K) (G : Nat → Nat → Nat → Int → K) (g : Int → K) (hfit : niw + c ≤ N)
    (VD VM : Mom → Int → Int → K) (CD CM : Mom → Int → K) (D : Mom → Int → Int → K) (R R' : Nat) (hR : 0 < R) (hR' : 0 < R') :
    solveQ c R nx ny nz (genOf nx ny nz N niw beta G g) u (mk5 c (wn niw) VD VM CD CM D ((qList nx ny nz).map momOf)) =
    solveQ c R' nx ny nz (genOf nx ny nz N niw beta G g) u (mk5 c (wn niw) VD VM CD CM D ((qList nx ny nz).map momOf)) := by
  have h := fun (R : Nat) (hR : 0 < R) => eom_ranks (c := c) nx ny nz N niw beta u G hfit VD VM CD CM D R hR ((qList nx ny nz).map momOf)
  unfold solveQ
  exact (h R hR).trans (h R' hR').symm

omit [StarRing K] in
theorem mk5_corrected {c : Nat} (w : List Int) (VD VM : Mom → Int → Int → K) (CD CM : Mom → Int → K) (D : Mom → Int → Int → K) (qs : List Mom)
    (lamD lamM : Option K) :
    ({ mk5 c w VD VM CD CM D qs with
        chiD := (mk5 c w VD VM CD CM D qs).chiD.map fun r => r.map (corrected lamD)
        chiM := (mk5 c w VD VM CD CM D qs).chiM.map fun r => r.map (corrected lamM) } : QData K) =
      mk5 c w VD VM (fun q x => corrected lamD (CD q x)) (fun q x => corrected lamM (CM q x)) D qs := by
  simp only [mk5, List.map_map, Function.comp_def]

end closed

/-- The number of ranks does not matter for the run with lambda correction either: self-energy, corrected susceptibilities, lambdas and
    the error are the same. -/
theorem run_rank_independent {c : Nat} (s nx ny nz N niw : Nat) (beta : ℝ) (u n : ℂ) (hb0 : beta ≠ 0)
    (G : Nat → Nat → Nat → Int → ℂ) (g : Int → ℂ) (hg : ∀ n : Int, -(N : Int) ≤ n → n < N → g (-n - 1) = star (g n))
    (hG : ∀ i j k, ∀ n : Int, -(N : Int) ≤ n → n < N → G i j k (-n - 1) = star (G i j k n))
    (hfit : niw + (c + s) ≤ N) (G2D G2M : Int → Mat (2 * c) ℂ) (label : Nat → Nat → Nat → Nat) (mode : String) (siw : List ℂ)
    (R R' : Nat) (hR : 0 < R) (hR' : 0 < R') :
    dgaRun s R nx ny nz (flat3 (table nx ny nz label)) (objOf true niw (beta : ℂ) u G2D) (objOf false niw (beta : ℂ) u G2M)
        (genOf nx ny nz N niw (beta : ℂ) G g) beta mode u n siw =
      dgaRun s R' nx ny nz (flat3 (table nx ny nz label)) (objOf true niw (beta : ℂ) u G2D) (objOf false niw (beta : ℂ) u G2M)
        (genOf nx ny nz N niw (beta : ℂ) G g) beta mode u n siw := by
  have hb : star (beta : ℂ) = (beta : ℂ) := Complex.conj_ofReal beta
  have hbc : (beta : ℂ) ≠ 0 := by exact_mod_cast hb0
  unfold dgaRun
  cases h : localSde s (objOf true niw (beta : ℂ) u G2D) (objOf false niw (beta : ℂ) u G2M) (genOf nx ny nz N niw (beta : ℂ) G g) n with
  | none => rfl
  | some r =>
    obtain ⟨d, m, loc⟩ := r
    obtain ⟨ΓD, ΓM, e1, e2⟩ := localSde_gam nx ny nz N niw (beta : ℂ) u n hb hbc G g hg hfit G2D G2M d m loc h
    obtain ⟨irr, rep, _, h3⟩ := ladderFbz_eq s nx ny nz N niw (beta : ℂ) u hb G g hg hG hfit ΓD ΓM label
    simp only [e1, e2, h3 R hR, h3 R' hR']
    split
    · rename_i hcase
      split at hcase
      · cases hcase
      · rfl
    · rename_i D hcase
      split at hcase
      swap
      · cases hcase
      cases hcase
      cases hr : Lam.lambdaCorrection _ _ beta d.chi m.chi mode with
      | error e => rfl
      | ok r =>
        simp only
        obtain ⟨_, a1, a2⟩ := lambdaCorrection_arrays _ _ _ _ _ _ _ hr
        rw [a1, a2, mk5_corrected, solveQ_eq nx ny nz N niw (beta : ℂ) u G g (by omega) _ _ _ _ _ R R' hR hR']

/-! ### the ladder susceptibilities as arrays -/

/-- bosonic index of position `w` on an axis of `2 niw + 1` frequencies -/
def wOf (niw : Nat) (w : Fin (2 * niw + 1)) : Int := (w.val : Int) - niw

/-- array over the flattened momentum grid and the bosonic frequencies -/
def gridArr (nx ny nz niw : Nat) (C : Nat → Nat → Nat → Int → ℂ) : Fin (nx * ny * nz) → Fin (2 * niw + 1) → ℂ :=
  fun l w => C (l.val / nz / ny) (l.val / nz % ny) (l.val % nz) (wOf niw w)

theorem wn_map_ofFn {α : Type} (niw : Nat) (f : Int → α) : (wn niw).map f = List.ofFn fun w : Fin (2 * niw + 1) => f (wOf niw w) := by
  unfold wn Py.arange wOf
  simp only [Bool.false_eq_true, if_false]
  apply List.ext_getElem
  · simp; omega
  · intro k h1 h2
    simp only [List.getElem_map, List.getElem_range, List.getElem_ofFn]
    congr 1
    omega

theorem rows_grid (nx ny nz niw : Nat) (C : Mom → Int → ℂ) :
    (((qList nx ny nz).map momOf).map fun (q : Mom) => (wn niw).map fun (x : Int) => C q x) =
      Lam.rowsC (gridArr nx ny nz niw fun i j k x => C (momOf (i, j, k)) x) := by
  rw [show qList nx ny nz = (List.range (nx * ny * nz)).map fun l => pt ny nz l from flat3_table nx ny nz fun i j k => (i, j, k),
    List.map_map, List.map_map]
  unfold Lam.rowsC gridArr
  apply List.ext_getElem
  · simp
  · intro k h1 h2
    simp only [List.getElem_map, List.getElem_range, List.getElem_ofFn, Function.comp]
    rw [wn_map_ofFn]
    rfl

theorem objOf_inj {c niw : Nat} {dens : Bool} {beta u : ℂ} {Γ Γ' : Int → Mat (2 * c) ℂ} (h : objOf dens niw beta u Γ = objOf dens niw beta u Γ')
    (x : Int) (hx : x ∈ wn niw) : Γ x = Γ' x := by
  have := congrArg (fun o => o.mat) h
  simp only [objOf] at this
  exact List.map_inj_left.1 this x hx

/-- conjugating and reversing a solution of the ladder equation solves the conjugate equation -/
theorem ladder_conj {c s : Nat} {beta U : ℂ} (hb : star beta = beta) (hU : star U = U) {B : Vec (2 * (c + s)) ℂ} {Γ : Mat (2 * c) ℂ}
    {χ : Mat (2 * (c + s)) ℂ} (h : Ladder beta U B Γ χ) : Ladder beta U (cv B) (cm Γ) (cm χ) := by
  unfold Ladder at h ⊢
  rw [withShell_eq] at h ⊢
  have e : (Matrix.diagonal fun a => 1 / cv B a) = cm (Matrix.diagonal fun a => 1 / B a) := by
    ext i j
    simp only [cm, cv, Matrix.diagonal_apply, Matrix.of_apply, Fin.rev_inj]
    split <;> simp
  rw [e, ← cm_shell2 s Γ _ (star_urat beta U hb hU), ← cm_add, ← cm_mul, h, cm_one]

theorem phys_cm {n : Nat} {beta : ℂ} (hb : star beta = beta) (X : Mat n ℂ) : phys beta (cm X) = star (phys beta X) := by
  unfold phys
  rw [star_divC, star_pow, hb, star_sum, ← sum_rev]
  congr 1
  apply Finset.sum_congr rfl
  intro i _
  rw [star_sum, ← sum_rev]
  apply Finset.sum_congr rfl
  intro j _
  simp [cm]

theorem phys_conj {c s : Nat} {beta U : ℂ} (hb : star beta = beta) (hU : star U = U) {B B' : Vec (2 * (c + s)) ℂ} {Γ Γ' : Mat (2 * c) ℂ}
    {χ χ' : Mat (2 * (c + s)) ℂ} (hB : B' = cv B) (hΓ : Γ' = cm Γ) (h : Ladder beta U B Γ χ) (h' : Ladder beta U B' Γ' χ') :
    phys beta χ' = (starRingEnd ℂ) (phys beta χ) := by
  subst hB hΓ
  rw [ladder_unique h' (ladder_conj hb hU h), phys_cm hb]
  rfl

theorem wOf_rev (niw : Nat) (w : Fin (2 * niw + 1)) : wOf niw w.rev = -wOf niw w := by
  unfold wOf
  rw [Fin.val_rev]
  omega

theorem wOf_mem (niw : Nat) (w : Fin (2 * niw + 1)) : wOf niw w ∈ Finset.Icc (-(niw : Int)) niw := by
  unfold wOf
  rw [Finset.mem_Icc]
  omega

theorem grid_lt {nx ny nz : Nat} (l : Fin (nx * ny * nz)) : l.val / nz / ny < nx ∧ l.val / nz % ny < ny ∧ l.val % nz < nz := by
  have h := l.isLt
  have hz : 0 < nz := Nat.pos_of_ne_zero fun h0 => by subst h0; simp at h
  have hy : 0 < ny := Nat.pos_of_ne_zero fun h0 => by subst h0; simp at h
  refine ⟨?_, Nat.mod_lt _ hy, Nat.mod_lt _ hz⟩
  rw [Nat.div_div_eq_div_mul, Nat.div_lt_iff_lt_mul (by positivity)]
  calc l.val < nx * ny * nz := h
    _ = nx * (nz * ny) := by ring

/-- Specification: `out` is the DGA result for the lattice Green's function `G`, the impurity Green's function `g`, its self-energy `S` and
    its two-particle Green's functions `G2D`, `G2M`.  There are irreducible vertices and solutions of the impurity ladder equations whose
    core blocks are the measured susceptibilities, such that for all solutions of the lattice ladder equations with these vertices: the
    saved susceptibilities and lambdas are the lambda correction of the physical ladder susceptibilities on the full grid against the local
    ones, and the self-energy is `S` minus the local plus the lattice equation of motion with these lambdas. -/
def IsDga (c s nx ny nz niw : Nat) (beta : ℝ) (u : ℂ) (mode : String) (G : Nat → Nat → Nat → Int → ℂ) (g S : Int → ℂ)
    (G2D G2M : Int → Matrix (Fin (2 * c)) (Fin (2 * c)) ℂ) (out : RunOut) : Prop :=
  ∃ (ΓD ΓM : Int → Matrix (Fin (2 * c)) (Fin (2 * c)) ℂ) (χD0 χM0 : Int → Matrix (Fin (2 * (c + s))) (Fin (2 * (c + s))) ℂ),
      (∀ x ∈ Finset.Icc (-(niw : Int)) niw,
        Ladder (beta : ℂ) u (onBox (c + s) (bubLoc (beta : ℂ) g x)) (ΓD x) (χD0 x) ∧
        (∀ i j, χD0 x (core c s i) (core c s j) = gchiOf (beta : ℂ) g true G2D x i j) ∧
        Ladder (beta : ℂ) (-u) (onBox (c + s) (bubLoc (beta : ℂ) g x)) (ΓM x) (χM0 x) ∧
        (∀ i j, χM0 x (core c s i) (core c s j) = gchiOf (beta : ℂ) g false G2M x i j)) ∧
      ((∀ x ∈ Finset.Icc (-(niw : Int)) niw, phys (beta : ℂ) (χD0 x) ≠ 0 ∧ phys (beta : ℂ) (χM0 x) ≠ 0) →
        ∀ χD χM : Nat → Nat → Nat → Int → Matrix (Fin (2 * (c + s))) (Fin (2 * (c + s))) ℂ,
          (∀ i j k, i < nx → j < ny → k < nz → ∀ x ∈ Finset.Icc (-(niw : Int)) niw,
            Ladder (beta : ℂ) u (onBox (c + s) (bubQ nx ny nz (beta : ℂ) G (i, j, k) x)) (ΓD x) (χD i j k x) ∧
              phys (beta : ℂ) (χD i j k x) ≠ 0 ∧
            Ladder (beta : ℂ) (-u) (onBox (c + s) (bubQ nx ny nz (beta : ℂ) G (i, j, k) x)) (ΓM x) (χM i j k x) ∧
              phys (beta : ℂ) (χM i j k x) ≠ 0) →
          Lam.lambdaCorrection (Lam.rowsC (gridArr nx ny nz niw fun i j k x => phys (beta : ℂ) (χD i j k x)))
            (Lam.rowsC (gridArr nx ny nz niw fun i j k x => phys (beta : ℂ) (χM i j k x))) beta
            ((wn niw).map fun x => phys (beta : ℂ) (χD0 x)) ((wn niw).map fun x => phys (beta : ℂ) (χM0 x)) mode = .ok out.chi ∧
          out.sigma = flat3 (table nx ny nz fun i j k => List.ofFn fun a : Fin (2 * c) =>
            S ((a.val : Int) - c) - locTerm niw (beta : ℂ) u g χD0 χM0 a +
              latTerm nx ny nz niw (beta : ℂ) u (lamOf mode out.chi).1 (lamOf mode out.chi).2 G g χM0 χD χM i j k a))

/-- `dga_run` without conjugation symmetry of the two-particle data, naming the intermediate results -/
theorem dga_run_core {c : Nat} (s nx ny nz N Ns niw : Nat) (beta : ℝ) (u n : ℂ) (hb0 : beta ≠ 0)
    (G : Nat → Nat → Nat → Int → ℂ) (g S : Int → ℂ) (hg : ∀ n : Int, -(N : Int) ≤ n → n < N → g (-n - 1) = star (g n))
    (hg0 : ∀ m : Int, -(N : Int) ≤ m → m < N → g m ≠ 0)
    (hG : ∀ i j k, ∀ n : Int, -(N : Int) ≤ n → n < N → G i j k (-n - 1) = star (G i j k n))
    (hfit : niw + (c + s) ≤ N) (hS : c ≤ Ns) (G2D G2M : Int → Matrix (Fin (2 * c)) (Fin (2 * c)) ℂ)
    (label : Nat → Nat → Nat → Nat)
    (hB0 : ∀ i j k, i < nx → j < ny → k < nz → ∀ x ∈ Finset.Icc (-(niw : Int)) niw, ∀ a,
      onBox (c + s) (bubQ nx ny nz (beta : ℂ) G (i, j, k) x) a ≠ 0)
    (hsym : ∀ i j k i' j' k', i < nx → j < ny → k < nz → i' < nx → j' < ny → k' < nz → label i' j' k' = label i j k →
      ∀ x ∈ Finset.Icc (-(niw : Int)) niw,
        onBox (c + s) (bubQ nx ny nz (beta : ℂ) G (i', j', k') x) = onBox (c + s) (bubQ nx ny nz (beta : ℂ) G (i, j, k) x))
    (mode : String) (R : Nat) (hR : 0 < R) (out : RunOut)
    (h : dgaRun s R nx ny nz (flat3 (table nx ny nz label)) (objOf true niw (beta : ℂ) u G2D) (objOf false niw (beta : ℂ) u G2M)
        (genOf nx ny nz N niw (beta : ℂ) G g) beta mode u n (samplesF S Ns) = .ok out) :
    ∃ (d m : Chan (2 * c) ℂ) (loc : List ℂ) (ΓD ΓM : Int → Matrix (Fin (2 * c)) (Fin (2 * c)) ℂ) (χD0 χM0 : Int → Matrix (Fin (2 * (c + s))) (Fin (2 * (c + s))) ℂ),
      localSde s (objOf true niw (beta : ℂ) u G2D) (objOf false niw (beta : ℂ) u G2M) (genOf nx ny nz N niw (beta : ℂ) G g) n = some (d, m, loc) ∧
      d.gam = objOf true niw (beta : ℂ) u ΓD ∧ m.gam = objOf false niw (beta : ℂ) u ΓM ∧
      (∀ x ∈ Finset.Icc (-(niw : Int)) niw,
        Ladder (beta : ℂ) u (onBox (c + s) (bubLoc (beta : ℂ) g x)) (ΓD x) (χD0 x) ∧
        (∀ i j, χD0 x (core c s i) (core c s j) = gchiOf (beta : ℂ) g true G2D x i j) ∧
        Ladder (beta : ℂ) (-u) (onBox (c + s) (bubLoc (beta : ℂ) g x)) (ΓM x) (χM0 x) ∧
        (∀ i j, χM0 x (core c s i) (core c s j) = gchiOf (beta : ℂ) g false G2M x i j)) ∧
      ((∀ x ∈ Finset.Icc (-(niw : Int)) niw, phys (beta : ℂ) (χD0 x) ≠ 0 ∧ phys (beta : ℂ) (χM0 x) ≠ 0) →
        ∀ χD χM : Nat → Nat → Nat → Int → Matrix (Fin (2 * (c + s))) (Fin (2 * (c + s))) ℂ,
          (∀ i j k, i < nx → j < ny → k < nz → ∀ x ∈ Finset.Icc (-(niw : Int)) niw,
            Ladder (beta : ℂ) u (onBox (c + s) (bubQ nx ny nz (beta : ℂ) G (i, j, k) x)) (ΓD x) (χD i j k x) ∧
              phys (beta : ℂ) (χD i j k x) ≠ 0 ∧
            Ladder (beta : ℂ) (-u) (onBox (c + s) (bubQ nx ny nz (beta : ℂ) G (i, j, k) x)) (ΓM x) (χM i j k x) ∧
              phys (beta : ℂ) (χM i j k x) ≠ 0) →
          Lam.lambdaCorrection (Lam.rowsC (gridArr nx ny nz niw fun i j k x => phys (beta : ℂ) (χD i j k x)))
            (Lam.rowsC (gridArr nx ny nz niw fun i j k x => phys (beta : ℂ) (χM i j k x))) beta
            ((wn niw).map fun x => phys (beta : ℂ) (χD0 x)) ((wn niw).map fun x => phys (beta : ℂ) (χM0 x)) mode = .ok out.chi ∧
          out.sigma = flat3 (table nx ny nz fun i j k => List.ofFn fun a : Fin (2 * c) =>
            S ((a.val : Int) - c) - locTerm niw (beta : ℂ) u g χD0 χM0 a +
              latTerm nx ny nz niw (beta : ℂ) u (lamOf mode out.chi).1 (lamOf mode out.chi).2 G g χM0 χD χM i j k a)) := by
  have hb : star (beta : ℂ) = (beta : ℂ) := Complex.conj_ofReal beta
  have hbc : (beta : ℂ) ≠ 0 := by exact_mod_cast hb0
  have hmem : ∀ x, x ∈ wn niw ↔ x ∈ Finset.Icc (-(niw : Int)) niw := fun x => by rw [mem_wn, Finset.mem_Icc]
  obtain ⟨_, hself⟩ := run_is_self_energy _ _ _ _ _ _ _ _ _ _ _ _ _ _ _ h
  obtain ⟨d, m, loc, ΓD, ΓM, χD0, χM0, hl, e1, e2, e3, e4⟩ := dga_self_energy_full s nx ny nz N Ns niw (beta : ℂ) u n hb hbc G g S hg hg0 hG hfit hS
    G2D G2M label _ _ hB0 hsym R hR _ hself
  refine ⟨d, m, loc, ΓD, ΓM, χD0, χM0, hl, e1, e2, fun x hx => ⟨(e3 x hx).1, (e3 x hx).2.1, (e3 x hx).2.2.1, (e3 x hx).2.2.2.1⟩, ?_⟩
  intro hp χD χM hχ
  obtain ⟨p1, p2, p3⟩ := e4 hp
  refine ⟨?_, p3 χD χM hχ⟩
  · -- the arrays handed to the correction
    unfold dgaRun at h
    rw [hl] at h
    obtain ⟨irr, rep, hrep, hlad⟩ := ladderFbz_eq s nx ny nz N niw (beta : ℂ) u hb G g hg hG hfit ΓD ΓM label
    simp only [e1, e2, p1, p2] at h
    rw [hlad R hR] at h
    by_cases hok : OkL s (wn niw) (beta : ℂ) (-u) ΓM (bubLoc (beta : ℂ) g) ∧ ∀ q ∈ irr, OkBoth (wn niw) (beta : ℂ) u ΓD ΓM (bubQ nx ny nz (beta : ℂ) G) q
    swap
    · rw [if_neg hok] at h
      cases h
    rw [if_pos hok] at h
    simp only at h
    have hval : ∀ q1 q2 q3, q1 < nx → q2 < ny → q3 < nz → ∀ x ∈ Finset.Icc (-(niw : Int)) niw,
        CQ s (beta : ℂ) u ΓD (bubQ nx ny nz (beta : ℂ) G) (rep (momOf (q1, q2, q3))) x = phys (beta : ℂ) (χD q1 q2 q3 x) ∧
        CQ s (beta : ℂ) (-u) ΓM (bubQ nx ny nz (beta : ℂ) G) (rep (momOf (q1, q2, q3))) x = phys (beta : ℂ) (χM q1 q2 q3 x) := by
      intro q1 q2 q3 h1 h2 h3 x hx
      obtain ⟨i', j', k', b1, b2, b3, b4, b5, b6⟩ := hrep q1 q2 q3 h1 h2 h3
      have hBr : onBox (c + s) (bubQ nx ny nz (beta : ℂ) G (rep (momOf (q1, q2, q3))) x) = onBox (c + s) (bubQ nx ny nz (beta : ℂ) G (q1, q2, q3) x) := by
        rw [b4]; exact hsym q1 q2 q3 i' j' k' h1 h2 h3 b1 b2 b3 b5 x hx
      have hok' := hok.2 _ b6
      rw [← b4] at hok'
      obtain ⟨XD, hXD⟩ := Option.isSome_iff_exists.1 (hok'.1 x ((hmem x).2 hx))
      obtain ⟨XM, hXM⟩ := Option.isSome_iff_exists.1 (hok'.2 x ((hmem x).2 hx))
      obtain ⟨l1, l2, l3, l4⟩ := hχ q1 q2 q3 h1 h2 h3 x hx
      have hne := hB0 q1 q2 q3 h1 h2 h3 x hx
      rw [← hBr] at l1 l3 hne
      have dd := (slice_value (s := s) (ΓD x) XD _ hne (beta : ℂ) u hbc (by rw [cut1_box]; exact hXD) _ l1).2.2 l2
      have mm := (slice_value (s := s) (ΓM x) XM _ hne (beta : ℂ) (-u) hbc (by rw [cut1_box]; exact hXM) _ l3).2.2 l4
      rw [cut1_box] at dd mm
      constructor
      · unfold CQ XQ
        rw [hXD, Option.getD_some]
        exact dd
      · unfold CQ XQ
        rw [hXM, Option.getD_some]
        exact mm
    have hrD : (((qList nx ny nz).map momOf).map fun (q : Mom) => (wn niw).map fun (x : Int) =>
        CQ s (beta : ℂ) u ΓD (bubQ nx ny nz (beta : ℂ) G) (rep q) x) =
        Lam.rowsC (gridArr nx ny nz niw fun i j k x => phys (beta : ℂ) (χD i j k x)) := by
      rw [rows_grid nx ny nz niw fun q x => CQ s (beta : ℂ) u ΓD (bubQ nx ny nz (beta : ℂ) G) (rep q) x]
      congr 1
      funext l w
      obtain ⟨g1, g2, g3⟩ := grid_lt l
      exact (hval _ _ _ g1 g2 g3 _ (wOf_mem niw w)).1
    have hrM : (((qList nx ny nz).map momOf).map fun (q : Mom) => (wn niw).map fun (x : Int) =>
        CQ s (beta : ℂ) (-u) ΓM (bubQ nx ny nz (beta : ℂ) G) (rep q) x) =
        Lam.rowsC (gridArr nx ny nz niw fun i j k x => phys (beta : ℂ) (χM i j k x)) := by
      rw [rows_grid nx ny nz niw fun q x => CQ s (beta : ℂ) (-u) ΓM (bubQ nx ny nz (beta : ℂ) G) (rep q) x]
      congr 1
      funext l w
      obtain ⟨g1, g2, g3⟩ := grid_lt l
      exact (hval _ _ _ g1 g2 g3 _ (wOf_mem niw w)).2
    simp only [mk5] at h
    rw [hrD, hrM] at h
    split at h
    · cases h
    · rename_i r hr
      split at h
      · cases h
      · cases h
        exact hr

/-- C128, C129.  Every result of the run is a DGA result in the sense of the specification, also for two-particle data without the
    conjugation symmetry (statistical noise). -/
theorem run_is_dga {c : Nat} (s nx ny nz N Ns niw : Nat) (beta : ℝ) (u n : ℂ) (hb0 : beta ≠ 0)
    (G : Nat → Nat → Nat → Int → ℂ) (g S : Int → ℂ) (hg : ∀ n : Int, -(N : Int) ≤ n → n < N → g (-n - 1) = star (g n))
    (hg0 : ∀ m : Int, -(N : Int) ≤ m → m < N → g m ≠ 0)
    (hG : ∀ i j k, ∀ n : Int, -(N : Int) ≤ n → n < N → G i j k (-n - 1) = star (G i j k n))
    (hfit : niw + (c + s) ≤ N) (hS : c ≤ Ns) (G2D G2M : Int → Matrix (Fin (2 * c)) (Fin (2 * c)) ℂ)
    (label : Nat → Nat → Nat → Nat)
    (hB0 : ∀ i j k, i < nx → j < ny → k < nz → ∀ x ∈ Finset.Icc (-(niw : Int)) niw, ∀ a,
      onBox (c + s) (bubQ nx ny nz (beta : ℂ) G (i, j, k) x) a ≠ 0)
    (hsym : ∀ i j k i' j' k', i < nx → j < ny → k < nz → i' < nx → j' < ny → k' < nz → label i' j' k' = label i j k →
      ∀ x ∈ Finset.Icc (-(niw : Int)) niw,
        onBox (c + s) (bubQ nx ny nz (beta : ℂ) G (i', j', k') x) = onBox (c + s) (bubQ nx ny nz (beta : ℂ) G (i, j, k) x))
    (mode : String) (R : Nat) (hR : 0 < R) (out : RunOut)
    (h : dgaRun s R nx ny nz (flat3 (table nx ny nz label)) (objOf true niw (beta : ℂ) u G2D) (objOf false niw (beta : ℂ) u G2M)
        (genOf nx ny nz N niw (beta : ℂ) G g) beta mode u n (samplesF S Ns) = .ok out) :
    IsDga c s nx ny nz niw beta u mode G g S G2D G2M out := by
  obtain ⟨_, _, _, ΓD, ΓM, χD0, χM0, _, _, _, e3, e4⟩ := dga_run_core s nx ny nz N Ns niw beta u n hb0 G g S hg hg0 hG hfit hS
    G2D G2M label hB0 hsym mode R hR out h
  exact ⟨ΓD, ΓM, χD0, χM0, e3, e4⟩

/-- C128.  The complete run with the lambda correction it computes itself.  Whenever the run returns, there are irreducible impurity
    vertices and solutions of the impurity ladder equations (core blocks: the measured susceptibilities) such that for all solutions of
    the lattice ladder equations with the same vertices: the arrays handed to the lambda correction are the physical ladder
    susceptibilities on the full momentum grid and the local ones, the saved susceptibilities and lambdas are its result, the
    self-energy is the equation of motion with exactly these lambdas, and the ladder susceptibilities obey
    `chi(q,-w) = conj chi(q,w)`. -/
theorem dga_run {c : Nat} (s nx ny nz N Ns niw : Nat) (beta : ℝ) (u n : ℂ) (hb0 : beta ≠ 0) (hu : star u = u)
    (G : Nat → Nat → Nat → Int → ℂ) (g S : Int → ℂ) (hg : ∀ n : Int, -(N : Int) ≤ n → n < N → g (-n - 1) = star (g n))
    (hg0 : ∀ m : Int, -(N : Int) ≤ m → m < N → g m ≠ 0)
    (hG : ∀ i j k, ∀ n : Int, -(N : Int) ≤ n → n < N → G i j k (-n - 1) = star (G i j k n))
    (hfit : niw + (c + s) ≤ N) (hS : c ≤ Ns) (G2D G2M : Int → Matrix (Fin (2 * c)) (Fin (2 * c)) ℂ)
    (hD : ∀ x ∈ Finset.Icc (-(niw : Int)) niw, ∀ i j, G2D (-x) i.rev j.rev = star (G2D x i j))
    (hM : ∀ x ∈ Finset.Icc (-(niw : Int)) niw, ∀ i j, G2M (-x) i.rev j.rev = star (G2M x i j))
    (label : Nat → Nat → Nat → Nat)
    (hB0 : ∀ i j k, i < nx → j < ny → k < nz → ∀ x ∈ Finset.Icc (-(niw : Int)) niw, ∀ a,
      onBox (c + s) (bubQ nx ny nz (beta : ℂ) G (i, j, k) x) a ≠ 0)
    (hsym : ∀ i j k i' j' k', i < nx → j < ny → k < nz → i' < nx → j' < ny → k' < nz → label i' j' k' = label i j k →
      ∀ x ∈ Finset.Icc (-(niw : Int)) niw,
        onBox (c + s) (bubQ nx ny nz (beta : ℂ) G (i', j', k') x) = onBox (c + s) (bubQ nx ny nz (beta : ℂ) G (i, j, k) x))
    (mode : String) (R : Nat) (hR : 0 < R) (out : RunOut)
    (h : dgaRun s R nx ny nz (flat3 (table nx ny nz label)) (objOf true niw (beta : ℂ) u G2D) (objOf false niw (beta : ℂ) u G2M)
        (genOf nx ny nz N niw (beta : ℂ) G g) beta mode u n (samplesF S Ns) = .ok out) :
    ∃ (ΓD ΓM : Int → Matrix (Fin (2 * c)) (Fin (2 * c)) ℂ) (χD0 χM0 : Int → Matrix (Fin (2 * (c + s))) (Fin (2 * (c + s))) ℂ),
      (∀ x ∈ Finset.Icc (-(niw : Int)) niw,
        Ladder (beta : ℂ) u (onBox (c + s) (bubLoc (beta : ℂ) g x)) (ΓD x) (χD0 x) ∧
        (∀ i j, χD0 x (core c s i) (core c s j) = gchiOf (beta : ℂ) g true G2D x i j) ∧
        Ladder (beta : ℂ) (-u) (onBox (c + s) (bubLoc (beta : ℂ) g x)) (ΓM x) (χM0 x) ∧
        (∀ i j, χM0 x (core c s i) (core c s j) = gchiOf (beta : ℂ) g false G2M x i j)) ∧
      ((∀ x ∈ Finset.Icc (-(niw : Int)) niw, phys (beta : ℂ) (χD0 x) ≠ 0 ∧ phys (beta : ℂ) (χM0 x) ≠ 0) →
        ∀ χD χM : Nat → Nat → Nat → Int → Matrix (Fin (2 * (c + s))) (Fin (2 * (c + s))) ℂ,
          (∀ i j k, i < nx → j < ny → k < nz → ∀ x ∈ Finset.Icc (-(niw : Int)) niw,
            Ladder (beta : ℂ) u (onBox (c + s) (bubQ nx ny nz (beta : ℂ) G (i, j, k) x)) (ΓD x) (χD i j k x) ∧
              phys (beta : ℂ) (χD i j k x) ≠ 0 ∧
            Ladder (beta : ℂ) (-u) (onBox (c + s) (bubQ nx ny nz (beta : ℂ) G (i, j, k) x)) (ΓM x) (χM i j k x) ∧
              phys (beta : ℂ) (χM i j k x) ≠ 0) →
          Lam.lambdaCorrection (Lam.rowsC (gridArr nx ny nz niw fun i j k x => phys (beta : ℂ) (χD i j k x)))
            (Lam.rowsC (gridArr nx ny nz niw fun i j k x => phys (beta : ℂ) (χM i j k x))) beta
            ((wn niw).map fun x => phys (beta : ℂ) (χD0 x)) ((wn niw).map fun x => phys (beta : ℂ) (χM0 x)) mode = .ok out.chi ∧
          out.sigma = flat3 (table nx ny nz fun i j k => List.ofFn fun a : Fin (2 * c) =>
            S ((a.val : Int) - c) - locTerm niw (beta : ℂ) u g χD0 χM0 a +
              latTerm nx ny nz niw (beta : ℂ) u (lamOf mode out.chi).1 (lamOf mode out.chi).2 G g χM0 χD χM i j k a) ∧
          (∀ q w, gridArr nx ny nz niw (fun i j k x => phys (beta : ℂ) (χD i j k x)) q w.rev =
            (starRingEnd ℂ) (gridArr nx ny nz niw (fun i j k x => phys (beta : ℂ) (χD i j k x)) q w)) ∧
          (∀ q w, gridArr nx ny nz niw (fun i j k x => phys (beta : ℂ) (χM i j k x)) q w.rev =
            (starRingEnd ℂ) (gridArr nx ny nz niw (fun i j k x => phys (beta : ℂ) (χM i j k x)) q w)) ∧
          (∀ x ∈ Finset.Icc (-(niw : Int)) niw, phys (beta : ℂ) (χD0 (-x)) = (starRingEnd ℂ) (phys (beta : ℂ) (χD0 x)) ∧
            phys (beta : ℂ) (χM0 (-x)) = (starRingEnd ℂ) (phys (beta : ℂ) (χM0 x)))) := by
  have hb : star (beta : ℂ) = (beta : ℂ) := Complex.conj_ofReal beta
  have hbc : (beta : ℂ) ≠ 0 := by exact_mod_cast hb0
  have hu' : star (-u) = -u := by rw [star_neg, hu]
  have hmem : ∀ x, x ∈ wn niw ↔ x ∈ Finset.Icc (-(niw : Int)) niw := fun x => by rw [mem_wn, Finset.mem_Icc]
  obtain ⟨d, m, loc, ΓD, ΓM, χD0, χM0, hl, e1, e2, e3, e4⟩ := dga_run_core s nx ny nz N Ns niw beta u n hb0 G g S hg hg0 hG hfit hS
    G2D G2M label hB0 hsym mode R hR out h
  refine ⟨ΓD, ΓM, χD0, χM0, e3, ?_⟩
  intro hp χD χM hχ
  -- the vertices are conjugate at opposite frequencies
  obtain ⟨ΓD', ΓM', e1', e2', k1, k2, _⟩ := localSde_closed nx ny nz N niw (beta : ℂ) u n hb hbc G g hg hfit G2D G2M d m loc hl
  have iD := objOf_inj (e1.symm.trans e1')
  have iM := objOf_inj (e2.symm.trans e2')
  have cD : ∀ x ∈ Finset.Icc (-(niw : Int)) niw, ΓD (-x) = cm (ΓD x) := by
    intro x hx
    have hx' := Finset.mem_Icc.1 hx
    rw [iD _ ((hmem x).2 hx), iD (-x) (by rw [mem_wn]; omega)]
    exact gam_conj (beta : ℂ) u hb hu g N niw hfit hg true G2D ΓD' hD k1 x hx'
  have cM : ∀ x ∈ Finset.Icc (-(niw : Int)) niw, ΓM (-x) = cm (ΓM x) := by
    intro x hx
    have hx' := Finset.mem_Icc.1 hx
    rw [iM _ ((hmem x).2 hx), iM (-x) (by rw [mem_wn]; omega)]
    exact gam_conj (beta : ℂ) (-u) hb hu' g N niw hfit hg false G2M ΓM' hM k2 x hx'
  have hneg : ∀ x ∈ Finset.Icc (-(niw : Int)) niw, -x ∈ Finset.Icc (-(niw : Int)) niw := by
    intro x hx
    rw [Finset.mem_Icc] at hx ⊢
    omega
  refine ⟨(e4 hp χD χM hχ).1, (e4 hp χD χM hχ).2, ?_, ?_, ?_⟩
  · intro l w
    obtain ⟨g1, g2, g3⟩ := grid_lt l
    unfold gridArr
    rw [wOf_rev]
    have hw := wOf_mem niw w
    exact phys_conj hb hu (bubQ_conj nx ny nz (beta : ℂ) hb G N niw (c + s) hG hfit _ _ (Finset.mem_Icc.1 hw)) (cD _ hw)
      (hχ _ _ _ g1 g2 g3 _ hw).1 (hχ _ _ _ g1 g2 g3 _ (hneg _ hw)).1
  · intro l w
    obtain ⟨g1, g2, g3⟩ := grid_lt l
    unfold gridArr
    rw [wOf_rev]
    have hw := wOf_mem niw w
    exact phys_conj hb hu' (bubQ_conj nx ny nz (beta : ℂ) hb G N niw (c + s) hG hfit _ _ (Finset.mem_Icc.1 hw)) (cM _ hw)
      (hχ _ _ _ g1 g2 g3 _ hw).2.2.1 (hχ _ _ _ g1 g2 g3 _ (hneg _ hw)).2.2.1
  · intro x hx
    have hB := bubLoc_conj (beta : ℂ) hb g N niw (c + s) hg hfit x (Finset.mem_Icc.1 hx)
    exact ⟨phys_conj hb hu hB (cD x hx) (e3 x hx).1 (e3 _ (hneg x hx)).1, phys_conj hb hu' hB (cM x hx) (e3 x hx).2.2.1 (e3 _ (hneg x hx)).2.2.1⟩

end DGA.Pipe
