/-
  C132: what the text files of a run contain.
-/
import Verif.Report.Model
import Verif.Bubble.AsymptOrder

noncomputable section

namespace DGA.Report

open DGA.Mf DGA.Bz DGA.Bubble DGA.Two DGA.Inp DGA.Pipe DGA.Pairing

/-! ### the uniform momentum -/

theorem image_gamma (nx ny nz : Nat) (s : Sym) : Bz.image nx ny nz s (0, 0, 0) = (0, 0, 0) := by
  cases s <;> simp [Bz.image]

theorem related_gamma {nx ny nz : Nat} {syms : List Sym} {q : Pt} (h : Related nx ny nz syms (0, 0, 0) q) : q = (0, 0, 0) := by
  induction h with
  | refl => rfl
  | step _ _ ih => rw [ih, image_gamma]

theorem ekMesh_eq (S : Settings) : ekMesh S = table S.nx S.ny S.nz fun i j k => band S i j k := by
  unfold ekMesh table
  apply List.map_congr_left; intro i _
  apply List.map_congr_left; intro j hj
  apply List.map_congr_left; intro k hk
  rw [List.mem_range] at hj hk
  beta_reduce
  rw [getEk_bloch _ _ _ _ _ _ _ hj hk]
  rfl

theorem table_congr {α : Type} (nx ny nz : Nat) (F H : Nat → Nat → Nat → α) (h : ∀ i j k, i < nx → j < ny → k < nz → F i j k = H i j k) :
    table nx ny nz F = table nx ny nz H := by
  unfold table
  apply List.map_congr_left; intro i hi
  apply List.map_congr_left; intro j hj
  apply List.map_congr_left; intro k hk
  rw [List.mem_range] at hi hj hk
  exact h i j k hi hj hk

theorem facs_gamma (S : Settings) (mu s0 s1 : ℝ) :
    facsQ mu s0 s1 (ekMesh S) (momOf (0, 0, 0)) = ⟨mu - s0, (mu - s0) ^ 2 + bandSq S - s1, (mu - s0) ^ 2 + bandSq S⟩ := by
  have h1 : meanList ((flat3 (ekMesh S)).map fun e => e ^ 2) = bandSq S := by
    unfold meanList bandSq
    rw [ekMesh_eq, flat3_table, List.map_map, List.length_map, List.length_range]
    congr 1
    rw [← kSum_flat3, flat3_table]
    rfl
  have h2 : shiftByInd (ekMesh S) (-(momOf (0, 0, 0)).1) (-(momOf (0, 0, 0)).2.1) (-(momOf (0, 0, 0)).2.2) = ekMesh S := by
    rw [ekMesh_eq, shift_table]
    apply table_congr
    intro i j k hi hj hk
    simp only [momOf, Nat.cast_zero, neg_zero, sub_zero]
    rw [Int.emod_eq_of_lt (by omega) (by omega), Int.emod_eq_of_lt (by omega) (by omega), Int.emod_eq_of_lt (by omega) (by omega)]
    rfl
  have h3 : ekEkpq (ekMesh S) (momOf (0, 0, 0)) = bandSq S := by
    unfold ekEkpq
    rw [h2, List.zipWith_self, ← h1]
    congr 2
    funext e
    ring
  unfold facsQ
  rw [h1, h3]

theorem wn_zero (niw : Nat) : (wn niw)[niw]? = some 0 := by
  unfold wn Py.arange
  simp

/-- the correction at the uniform momentum and the static frequency -/
theorem correction_gamma (S : Settings) (mu : ℝ) (s : SelfEnergy) (hb : s.beta ≠ 0) (nivFull niw : Nat) (mp : Arr3 Nat)
    (hmp : fbz2irrk S.nx S.ny S.nz S.syms = some mp) (hk : 0 < S.nx * S.ny * S.nz) :
    ∃ corr z, chi0Correction S mu s nivFull niw (flat3 mp) = some corr ∧ (Bz.at3 corr 0 0 0).bind (·[niw]?) = some z ∧
      z.re = uniformTail S s.beta mu s.smom0 s.smom1 nivFull := by
  have hx : 0 < S.nx := Nat.pos_of_ne_zero fun h => by simp [h] at hk
  have hy : 0 < S.ny := Nat.pos_of_ne_zero fun h => by simp [h] at hk
  have hz : 0 < S.nz := Nat.pos_of_ne_zero fun h => by simp [h] at hk
  obtain ⟨label, hlab, hrel⟩ := label_of S.nx S.ny S.nz S.syms mp hmp
  obtain ⟨irr, rep, h1, h2, h3⟩ := expand_irr S.nx S.ny S.nz label
  have hval : ∀ q : Mom, asymptCorrectionQ s.beta (facsQ mu s.smom0 s.smom1 (ekMesh S) q) nivFull (wn niw) "minus" =
      some ((wn niw).map fun (x : Int) => outside nivFull (tailTerm s.beta (facsQ mu s.smom0 s.smom1 (ekMesh S) q) (0, -x))) := by
    intro q
    apply correctionQ_is_outside s.beta hb _ _ _ _ (fun x => (0, -x))
    · intro x _
      simp [getFreqShift]
    · intro x hx'
      rw [mem_wn] at hx'
      have : (wn niw).length = 2 * niw + 1 := by unfold wn Py.arange; simp; omega
      omega
  set φ : Mom → List ℂ := fun q => (wn niw).map fun (x : Int) => outside nivFull (tailTerm s.beta (facsQ mu s.smom0 s.smom1 (ekMesh S) q) (0, -x)) with hφ
  obtain ⟨i', j', k', a1, a2, a3, a4, a5, _⟩ := h3 0 0 0 hx hy hz
  have hg := related_gamma (hrel (0, 0, 0) (i', j', k') ⟨hx, hy, hz⟩ ⟨a1, a2, a3⟩ a5.symm)
  rw [hg] at a4
  have hrows : (irr.mapM fun q => asymptCorrectionQ s.beta (facsQ mu s.smom0 s.smom1 (ekMesh S) (momOf q)) nivFull (wn niw) "minus") =
      some ((irr.map momOf).map φ) := by
    rw [List.map_map]
    exact mapM_some' irr _ _ fun q _ => hval _
  refine ⟨reshape3 (((qList S.nx S.ny S.nz).map momOf).map fun (q : Mom) => φ (rep q)) S.nx S.ny S.nz,
    outside nivFull (tailTerm s.beta (facsQ mu s.smom0 s.smom1 (ekMesh S) (momOf (0, 0, 0))) (0, 0)), ?_, ?_, ?_⟩
  · unfold chi0Correction
    rw [hlab, h1, Option.bind_some, hrows, Option.bind_some]
    unfold irrk2fbzMesh
    have := h2 φ
    unfold irrk2fbzList at this
    rw [this]
    rfl
  · rw [show qList S.nx S.ny S.nz = (List.range (S.nx * S.ny * S.nz)).map fun l => pt S.ny S.nz l from flat3_table S.nx S.ny S.nz fun i j k => (i, j, k),
      List.map_map, List.map_map, reshape3_range, at3_table _ _ _ _ _ _ _ hx hy hz, Option.bind_some]
    simp only [Function.comp]
    rw [lin_div S.ny S.nz 0 0 0 hy hz, a4, hφ]
    simp only
    rw [List.getElem?_map, wn_zero]
    simp
  · rw [facs_gamma]
    unfold uniformTail
    congr 2
    funext n
    unfold tailTerm tailForm
    have e : invIv s.beta n = 1 / iv s.beta n := rfl
    simp only [add_zero, e]
    push_cast
    ring

/-! ### the energies -/

theorem ksum_trace (S : Settings) (beta : ℝ) (N : Nat) (F : Nat → Int → ℂ) (f : Nat → Nat → Nat → Int → ℂ)
    (h : ∀ l, l < S.nx * S.ny * S.nz → F l = f (l / S.nz / S.ny) (l / S.nz % S.ny) (l % S.nz)) :
    ksum beta (S.nx * S.ny * S.nz) N F = trace S beta N f := by
  unfold ksum trace
  rw [← kSum_flat3, sum_flat3]
  congr 2
  apply Finset.sum_congr rfl
  intro l hl
  rw [h l (Finset.mem_range.1 hl)]

theorem ekOf_band (S : Settings) (l : Nat) (hl : l < S.nx * S.ny * S.nz) : ekOf (bandOf S) l = band S (l / S.nz / S.ny) (l / S.nz % S.ny) (l % S.nz) := by
  have h : ekOf (bandOf S) l = (bandOf S).getD l 0 := by
    unfold ekOf
    split_ifs with h1
    · rw [bandOf_length] at h1
      rw [show l = 0 by omega]
    · rfl
  have hb : bandOf S = flat3 (ekMesh S) := rfl
  rw [h, hb, ekMesh_eq, flat3_table, List.getD_eq_getElem?_getD, List.getElem?_map, List.getElem?_range hl]
  rfl

theorem lin_pt (ny nz l : Nat) : (l / nz / ny * ny + l / nz % ny) * nz + l % nz = l := by
  rw [Nat.div_add_mod', Nat.div_add_mod']

/-- an object with one row per grid point -/
theorem energies_lattice (S : Settings) (s : SelfEnergy) (hk : 0 < S.nx * S.ny * S.nz) (hlen : s.sigma.length = S.nx * S.ny * S.nz)
    (hrow : ∀ r ∈ s.sigma, s.nivCore ≤ r.length) (mu n : ℝ) (na : Int) (g : Gf) (h : newGf s (bandOf S) mu na = some g) :
    g.eKin = some (kinetic S s.beta (s.nivCore + na.toNat) (dyson S s.beta mu (sigmaAt S s))) ∧
    g.ePot n = some (potential S s.beta (s.nivCore + na.toNat) s.smom0 n (sigmaAt S s) (dyson S s.beta mu (sigmaAt S s))) := by
  have hnK : nK s (bandOf S) = S.nx * S.ny * S.nz := by
    unfold nK
    rw [bandOf_length, hlen]
    split_ifs <;> rfl
  have hrw : ∀ l, l < S.nx * S.ny * S.nz → rowOf s l = s.sigma.getD l [] := by
    intro l hl
    unfold rowOf
    split_ifs with h1
    · rw [hlen] at h1
      rw [show l = 0 by omega]
    · rfl
  have hsig : ∀ l, l < S.nx * S.ny * S.nz → sigmaSpec s (rowOf s l) = sigmaAt S s (l / S.nz / S.ny) (l / S.nz % S.ny) (l % S.nz) := by
    intro l hl
    funext m
    unfold sigmaAt
    rw [lin_pt, hrw l hl]
  have hgv : ∀ l, l < S.nx * S.ny * S.nz → gVal s (bandOf S) mu l = dyson S s.beta mu (sigmaAt S s) (l / S.nz / S.ny) (l / S.nz % S.ny) (l % S.nz) := by
    intro l hl
    funext m
    unfold gVal dyson
    rw [ekOf_band S l hl, hsig l hl]
  obtain ⟨N, hN, e1, _, e2, _⟩ := gf_energies s (bandOf S) mu (Or.inl (by rw [bandOf_length, hlen])) hrow (by rw [hnK]; exact hk) na [] g g h rfl n
  simp only [List.getLast_singleton] at hN
  subst hN
  rw [hnK] at e1 e2
  constructor
  · rw [e1]
    unfold kinetic
    rw [ksum_trace]
    intro l hl
    rw [hgv l hl, ekOf_band S l hl]
  · rw [e2]
    unfold potential
    rw [ksum_trace]
    intro l hl
    rw [hgv l hl, hsig l hl]

/-- a local object -/
theorem energies_local (S : Settings) (s : SelfEnergy) (r : List ℂ) (hk : 0 < S.nx * S.ny * S.nz) (hr : s.sigma = [r])
    (hrow : s.nivCore ≤ r.length) (mu n : ℝ) (na : Int) (g : Gf) (h : newGf s (bandOf S) mu na = some g) :
    g.eKin = some (kinetic S s.beta (s.nivCore + na.toNat) (dyson S s.beta mu fun _ _ _ => sigmaSpec s r)) ∧
    g.ePot n = some (potential S s.beta (s.nivCore + na.toNat) s.smom0 n (fun _ _ _ => sigmaSpec s r)
      (dyson S s.beta mu fun _ _ _ => sigmaSpec s r)) := by
  have hnK : nK s (bandOf S) = S.nx * S.ny * S.nz := by
    unfold nK
    rw [bandOf_length, hr]
    simp only [List.length_singleton]
    split_ifs with h1
    · exact h1.symm
    · rfl
  have hrw : ∀ l, rowOf s l = r := by
    intro l
    unfold rowOf
    rw [hr]
    simp
  have hgv : ∀ l, l < S.nx * S.ny * S.nz → gVal s (bandOf S) mu l =
      dyson S s.beta mu (fun _ _ _ => sigmaSpec s r) (l / S.nz / S.ny) (l / S.nz % S.ny) (l % S.nz) := by
    intro l hl
    funext m
    unfold gVal dyson
    rw [ekOf_band S l hl, hrw]
  obtain ⟨N, hN, e1, _, e2, _⟩ := gf_energies s (bandOf S) mu (Or.inr (Or.inl (by rw [hr]; rfl))) (by rw [hr]; simpa using hrow) (by rw [hnK]; exact hk)
    na [] g g h rfl n
  simp only [List.getLast_singleton] at hN
  subst hN
  rw [hnK] at e1 e2
  constructor
  · rw [e1]
    unfold kinetic
    rw [ksum_trace]
    intro l hl
    rw [hgv l hl, ekOf_band S l hl]
  · rw [e2]
    unfold potential
    rw [ksum_trace]
    intro l hl
    rw [hgv l hl, hrw]

/-! ### the run -/

/-- a run that writes its files has calculated the result of C129 and reports from it -/
theorem report_run (fs : Fs) (ty path f1 : String) (f2 : Option String) (S : Settings) (newton : (ℝ → ℝ) → ℝ → Option ℂ) (d : Dict)
    (hload : load1p fs ty path f1 f2 = some d) (out : MainOut) (r : TextFiles) (h : mainReport fs ty path f1 f2 S newton = .ok (out, r)) :
    ∃ b gd gm, buildG2 S.box S.symVVp d = some (b, gd, gm) ∧ calcFrom S d b gd gm = .ok out ∧ reportFrom S newton d b out = .ok r ∧
      mainRun fs ty path f1 f2 S = .ok out := by
  unfold mainReport at h
  rw [hload] at h
  simp only at h
  split at h
  · cases h
  · rename_i b gd gm hb
    split at h
    · cases h
    · rename_i o ho
      split at h
      · cases h
      · rename_i r' hr
        cases h
        refine ⟨b, gd, gm, hb, ho, hr, ?_⟩
        unfold mainRun
        rw [hload]
        simp only [hb, ho]

/-- **C132.**  The three text files of a run.  Input as in C129 (`main_run`).  Whenever the run returns, the result `out` is that of C129 and

    * `lambda.txt` holds the shifts of the lambda correction,
    * the uniform static susceptibilities are the real parts of the saved susceptibilities at zero momentum and zero frequency plus
      the contribution of the fermionic frequencies outside the box to the uniform static bubble,
    * the kinetic energies are those of the DGA Green's function (Dyson's equation with the saved self-energy at the chemical potential
      found for the filling) and of the DMFT Green's function, the third number is the potential energy of the DGA Green's function,
    * the fourth number, headed `pot-dmft`, is the potential energy of the DGA Green's function as well. -/
theorem main_report (fs : Fs) (ty path f1 : String) (f2 : Option String) (S : Settings) (hlat : LatticeOk S.nx S.ny S.nz S.hr S.syms)
    (newton : (ℝ → ℝ) → ℝ → Option ℂ) (d : Dict)
    (hload : load1p fs ty path f1 f2 = some d)
    (N : Nat) (hN : 20 ≤ N) (Sg : Int → ℂ) (hs : d.siw = .a1 (samplesF Sg N))
    (n beta u mu : ℝ) (hb0 : 0 < beta) (hn : d.n = .num n) (hb : d.beta = .num beta) (hu : d.u = .num u) (hm : d.mu = .num mu)
    (wD vD wM vM : Nat) (D M : Int → Int → Int → ℂ) (hD : d.dens = some (.a3 (tab wD vD D))) (hM : d.magn = some (.a3 (tab wM vM M)))
    (c w sh as : Nat) (hc : S.box.nivCore = c ∨ S.box.nivCore = -1 ∧ c = vD) (hw : S.box.niwCore = w ∨ S.box.niwCore = -1 ∧ w = wD)
    (hsh : S.box.nivShell = sh) (has : (as : Int) = if S.box.nivAsympt ≤ 0 then S.box.nivShell + c + w * 2 else S.box.nivAsympt)
    (h0 : 0 < c) (hcD : c ≤ vD) (hcM : c ≤ vM) (hwD : w ≤ wD) (hwM : w ≤ wM) (hcN : c ≤ N)
    (hfit : w + (c + sh) ≤ (siwObj (samplesF Sg N) beta).nivCore + as)
    (hk : 0 < S.nx * S.ny * S.nz) (hR : 0 < S.ranks)
    (out : MainOut) (r : TextFiles) (h : mainReport fs ty path f1 f2 S newton = .ok (out, r)) :
    mainRun fs ty path f1 f2 S = .ok out ∧ r.lambda = (out.run.chi.lamDens, out.run.chi.lamMagn) ∧
    (∃ xD xM rowD rowM, out.run.chi.dens[0]? = some rowD ∧ rowD[w]? = some xD ∧ out.run.chi.magn[0]? = some rowM ∧ rowM[w]? = some xM ∧
      let s := siwObj (samplesF Sg N) beta
      r.chi = (xD.re + uniformTail S beta mu s.smom0 s.smom1 (c + sh), xM.re + uniformTail S beta mu s.smom0 s.smom1 (c + sh))) ∧
    ∃ muDga, gfMu newton out.sigma (bandOf S) n 0 = some muDga ∧
      let s := siwObj (samplesF Sg N) beta
      let G := dyson S beta muDga (sigmaAt S out.sigma)
      r.energies.1 = kinetic S beta (c + sh + as) G ∧
      r.energies.2.1 = kinetic S beta (s.nivCore + as) (runG S mu beta Sg N) ∧
      r.energies.2.2.1 = potential S beta (c + sh + as) s.smom0 n (sigmaAt S out.sigma) G ∧
      r.energies.2.2.2 = r.energies.2.2.1 := by
  obtain ⟨box', hbuild, q1, q2, q3, q4⟩ := buildG2_value S.box S.symVVp d beta u hb hu wD vD wM vM D M hD hM c w hc hw h0 hcD hcM hwD hwM
  have hbox : box' = ⟨w, c, sh, as⟩ := by
    obtain ⟨b1, b2, b3, b4⟩ := box'
    simp only at q1 q2 q3 q4
    rw [q1, q2, q3, hsh, q4, has]
  obtain ⟨b, gd, gm, e1, hcalc, hrep, hmain⟩ := report_run fs ty path f1 f2 S newton d hload out r h
  rw [hbuild] at e1
  have e1' := Option.some.inj e1
  simp only [Prod.mk.injEq] at e1'
  obtain ⟨rfl, rfl, rfl⟩ := e1'
  rw [hbox] at hcalc hrep
  refine ⟨hmain, ?_⟩
  obtain ⟨Sig, _, _, hsig, hbeta, hcore⟩ := calc_sigma S hlat d n beta u mu hb0 N Sg hs hn hb hu hm w c sh as hN hcN hfit hk hR _ _ out hcalc
  obtain ⟨mp, hmp, _, _, hcr⟩ := calcFrom_eq S d n beta u mu N Sg hs hn hb hu hm w c sh as hN _ _ out hcalc
  obtain ⟨s1, s2⟩ := siwObj_sigma Sg N beta
  have hle : (siwObj (samplesF Sg N) beta).nivCore ≤ (posHalf Sg N).length := by simpa [posHalf] using core_le Sg N beta hN
  have hs0 : out.sigma.smom0 = (siwObj (samplesF Sg N) beta).smom0 := by
    unfold createDga at hcr
    simp only at hcr
    split at hcr
    · cases hcr
    · rw [← Option.some.inj hcr]
      rfl
  have hlen : out.sigma.sigma.length = S.nx * S.ny * S.nz := by rw [hsig, flat3_table]; simp
  have hrow : ∀ x ∈ out.sigma.sigma, out.sigma.nivCore ≤ x.length := by
    rw [hsig, flat3_table, hcore]
    intro x hx
    rw [List.mem_map] at hx
    obtain ⟨l, _, rfl⟩ := hx
    simp
  have hbne : (siwObj (samplesF Sg N) beta).beta ≠ 0 := by rw [s2]; exact hb0.ne'
  obtain ⟨corr, z, hcor, hz, hzre⟩ := correction_gamma S mu (siwObj (samplesF Sg N) beta) hbne (c + sh) w mp hmp hk
  unfold reportFrom at hrep
  rw [hs, hn, hb, hm, hmp] at hrep
  simp only [arrOf, numOf, Complex.ofReal_re, Int.toNat_natCast, hcor] at hrep
  split at hrep
  · rename_i gDmft corr' muDga hg1 hcor' hmu
    cases hcor'
    split at hrep
    · rename_i cd cm gDga hcd hcm hg2
      obtain ⟨k1, k2⟩ := energies_lattice S out.sigma hk hlen hrow muDga n as gDga hg2
      obtain ⟨k3, _⟩ := energies_local S (siwObj (samplesF Sg N) beta) (posHalf Sg N) hk s1 hle mu n as gDmft hg1
      rw [k1, k2, k3] at hrep
      simp only at hrep
      cases hrep
      refine ⟨rfl, ?_, muDga, hmu, ?_⟩
      · unfold uniformStatic at hcd hcm
        rw [hz, Option.bind_eq_some_iff] at hcd hcm
        obtain ⟨xD, d1, d2⟩ := hcd
        obtain ⟨xM, m1, m2⟩ := hcm
        rw [Option.bind_eq_some_iff] at d1 m1
        obtain ⟨rD, d3, d4⟩ := d1
        obtain ⟨rM, m3, m4⟩ := m1
        refine ⟨xD, xM, rD, rM, d3, d4, m3, m4, ?_⟩
        simp only [Option.map_some, Option.some.injEq, hzre, s2] at d2 m2
        simp only [← d2, ← m2]
      · simp only
        rw [hbeta, hcore, hs0, s2]
        simp only [Int.toNat_natCast, and_true, true_and]
        unfold runG
        unfold kinetic
        congr 2
    · cases hrep
  · cases hrep

/-- C132.  In terms of the ladder equations: where the result is the DGA result for solutions `χD`, `χM` of the lattice ladder equations (the
    specification `IsDga` of C128, C129), the entries of the susceptibilities the uniform static values are taken from are the corrected
    physical susceptibilities `1/(1/χ + λ)` at zero momentum and zero frequency. -/
theorem uniform_is_ladder (c s nx ny nz niw : Nat) (beta : ℝ) (mode : String) (hk : 0 < nx * ny * nz)
    (χD χM : Nat → Nat → Nat → Int → Matrix (Fin (2 * (c + s))) (Fin (2 * (c + s))) ℂ) (ld lm : List ℂ) (r : Lam.Corrected)
    (h : Lam.lambdaCorrection (Lam.rowsC (gridArr nx ny nz niw fun i j k x => phys (beta : ℂ) (χD i j k x)))
      (Lam.rowsC (gridArr nx ny nz niw fun i j k x => phys (beta : ℂ) (χM i j k x))) beta ld lm mode = .ok r) :
    r.dens[0]?.bind (·[niw]?) = some (corrected (lamOf mode r).1 (phys (beta : ℂ) (χD 0 0 0 0))) ∧
    r.magn[0]?.bind (·[niw]?) = some (corrected (lamOf mode r).2 (phys (beta : ℂ) (χM 0 0 0 0))) := by
  obtain ⟨_, h1, h2⟩ := lambdaCorrection_arrays _ _ _ _ _ _ _ h
  have key : ∀ (C : Nat → Nat → Nat → Int → ℂ) (lam : Option ℂ),
      ((Lam.rowsC (gridArr nx ny nz niw C)).map fun x => x.map (corrected lam))[0]?.bind (·[niw]?) = some (corrected lam (C 0 0 0 0)) := by
    intro C lam
    have hw : (niw : Nat) < 2 * niw + 1 := by omega
    have e : (Lam.rowsC (gridArr nx ny nz niw C))[0]? = some (List.ofFn fun w => gridArr nx ny nz niw C ⟨0, hk⟩ w) := by
      unfold Lam.rowsC
      rw [List.getElem?_ofFn, dif_pos hk]
    rw [List.getElem?_map, e, Option.map_some, Option.bind_some, List.getElem?_map, List.getElem?_ofFn, dif_pos hw]
    simp [gridArr, wOf]
  rw [h1, h2]
  exact ⟨key _ _, key _ _⟩

/-- the saved susceptibilities have an entry at zero momentum and zero frequency -/
theorem chi_entry {c : Nat} (sh nx ny nz N niw : Nat) (beta : ℝ) (u n : ℂ) (hb0 : beta ≠ 0) (hk : 0 < nx * ny * nz)
    (G : Nat → Nat → Nat → Int → ℂ) (g : Int → ℂ) (hg : ∀ n : Int, -(N : Int) ≤ n → n < N → g (-n - 1) = star (g n))
    (hG : ∀ i j k, ∀ n : Int, -(N : Int) ≤ n → n < N → G i j k (-n - 1) = star (G i j k n))
    (hfit : niw + (c + sh) ≤ N) (G2D G2M : Int → Matrix (Fin (2 * c)) (Fin (2 * c)) ℂ) (label : Nat → Nat → Nat → Nat) (siw : List ℂ)
    (R : Nat) (hR : 0 < R) (mode : String) (out : RunOut)
    (h : dgaRun sh R nx ny nz (flat3 (table nx ny nz label)) (objOf true niw (beta : ℂ) u G2D) (objOf false niw (beta : ℂ) u G2M)
        (genOf nx ny nz N niw (beta : ℂ) G g) beta mode u n siw = .ok out) :
    (∃ z, out.chi.dens[0]?.bind (·[niw]?) = some z) ∧ ∃ z, out.chi.magn[0]?.bind (·[niw]?) = some z := by
  have hb : star (beta : ℂ) = (beta : ℂ) := Complex.conj_ofReal beta
  have hbc : (beta : ℂ) ≠ 0 := by exact_mod_cast hb0
  obtain ⟨⟨d, m, loc⟩, q, hl, hq, e1, e2⟩ := dgaRun_parts _ _ _ _ _ _ _ _ _ _ _ _ _ _ _ h
  obtain ⟨ΓD, ΓM, g1, g2⟩ := localSde_gam nx ny nz N niw (beta : ℂ) u n hb hbc G g hg hfit G2D G2M d m loc hl
  obtain ⟨irr, rep, _, hlad⟩ := ladderFbz_eq sh nx ny nz N niw (beta : ℂ) u hb G g hg hG hfit ΓD ΓM label
  rw [g1, g2, hlad R hR] at hq
  split at hq
  · have hq' := Option.some.inj hq
    have key : ∀ (C : Mom → Int → ℂ) (lam : Option ℂ),
        ∃ z, ((((qList nx ny nz).map momOf).map fun (q : Mom) => (wn niw).map fun (x : Int) => C q x).map fun x => x.map (corrected lam))[0]?.bind (·[niw]?) = some z := by
      intro C lam
      rw [show qList nx ny nz = (List.range (nx * ny * nz)).map fun l => pt ny nz l from flat3_table nx ny nz fun i j k => (i, j, k)]
      simp only [List.getElem?_map, List.getElem?_range hk, Option.map_some, Option.bind_some, wn_zero]
      exact ⟨_, rfl⟩
    rw [e1, e2, ← hq']
    exact ⟨key _ _, key _ _⟩
  · cases hq

/-- C132.  The files are written whenever the run arrives at a self-energy and the root finder at a real chemical potential: neither the
    assertions of the energies nor the indexing of the susceptibilities can fail. -/
theorem report_returns (fs : Fs) (ty path f1 : String) (f2 : Option String) (S : Settings) (hlat : LatticeOk S.nx S.ny S.nz S.hr S.syms)
    (newton : (ℝ → ℝ) → ℝ → Option ℂ) (d : Dict)
    (hload : load1p fs ty path f1 f2 = some d)
    (N : Nat) (hN : 20 ≤ N) (Sg : Int → ℂ) (hs : d.siw = .a1 (samplesF Sg N))
    (n beta u mu : ℝ) (hb0 : 0 < beta) (hn : d.n = .num n) (hb : d.beta = .num beta) (hu : d.u = .num u) (hm : d.mu = .num mu)
    (wD vD wM vM : Nat) (D M : Int → Int → Int → ℂ) (hD : d.dens = some (.a3 (tab wD vD D))) (hM : d.magn = some (.a3 (tab wM vM M)))
    (c w sh as : Nat) (hc : S.box.nivCore = c ∨ S.box.nivCore = -1 ∧ c = vD) (hw : S.box.niwCore = w ∨ S.box.niwCore = -1 ∧ w = wD)
    (hsh : S.box.nivShell = sh) (has : (as : Int) = if S.box.nivAsympt ≤ 0 then S.box.nivShell + c + w * 2 else S.box.nivAsympt)
    (h0 : 0 < c) (hcD : c ≤ vD) (hcM : c ≤ vM) (hwD : w ≤ wD) (hwM : w ≤ wM) (hcN : c ≤ N)
    (hfit : w + (c + sh) ≤ (siwObj (samplesF Sg N) beta).nivCore + as)
    (hk : 0 < S.nx * S.ny * S.nz) (hR : 0 < S.ranks)
    (out : MainOut) (h : mainRun fs ty path f1 f2 S = .ok out) (muDga : ℝ) (hmu : gfMu newton out.sigma (bandOf S) n 0 = some muDga) :
    ∃ r, mainReport fs ty path f1 f2 S newton = .ok (out, r) := by
  obtain ⟨box', hbuild, q1, q2, q3, q4⟩ := buildG2_value S.box S.symVVp d beta u hb hu wD vD wM vM D M hD hM c w hc hw h0 hcD hcM hwD hwM
  have hbox : box' = ⟨w, c, sh, as⟩ := by
    obtain ⟨b1, b2, b3, b4⟩ := box'
    simp only at q1 q2 q3 q4
    rw [q1, q2, q3, hsh, q4, has]
  have hcalc := h
  unfold mainRun at hcalc
  rw [hload] at hcalc
  simp only [hbuild, hbox] at hcalc
  obtain ⟨Sig, _, _, hsig, hbeta, hcore⟩ := calc_sigma S hlat d n beta u mu hb0 N Sg hs hn hb hu hm w c sh as hN hcN hfit hk hR _ _ out hcalc
  obtain ⟨mp, hmp, _, hrun, hcr⟩ := calcFrom_eq S d n beta u mu N Sg hs hn hb hu hm w c sh as hN _ _ out hcalc
  obtain ⟨s1, s2⟩ := siwObj_sigma Sg N beta
  have hle : (siwObj (samplesF Sg N) beta).nivCore ≤ (posHalf Sg N).length := by simpa [posHalf] using core_le Sg N beta hN
  have hlen : out.sigma.sigma.length = S.nx * S.ny * S.nz := by rw [hsig, flat3_table]; simp
  have hrow : ∀ x ∈ out.sigma.sigma, out.sigma.nivCore ≤ x.length := by
    rw [hsig, flat3_table, hcore]
    intro x hx
    rw [List.mem_map] at hx
    obtain ⟨l, _, rfl⟩ := hx
    simp
  have hbne : (siwObj (samplesF Sg N) beta).beta ≠ 0 := by rw [s2]; exact hb0.ne'
  obtain ⟨corr, z, hcor, hz, _⟩ := correction_gamma S mu (siwObj (samplesF Sg N) beta) hbne (c + sh) w mp hmp hk
  obtain ⟨label, hlab, _⟩ := label_of S.nx S.ny S.nz S.syms mp hmp
  rw [hlab] at hrun
  obtain ⟨⟨xD, hxD⟩, xM, hxM⟩ := chi_entry sh S.nx S.ny S.nz _ w beta u n hb0.ne' hk _ _ (fun m _ _ => gLocBand_conj _ _ _ _ _ _ _ m)
    (fun i j k m _ _ => gBand_conj _ _ _ _ _ _ _ i j k m) hfit _ _ label _ S.ranks hR _ _ hrun
  obtain ⟨a1, hg1, _⟩ := newGf_state (siwObj (samplesF Sg N) beta) (bandOf S) mu as (Or.inr (Or.inl (by rw [s1]; rfl))) (by rw [s1]; simpa using hle)
    (by unfold nK; rw [bandOf_length, s1]; split_ifs; exacts [Nat.one_pos, hk])
  obtain ⟨a2, hg2, _⟩ := newGf_state out.sigma (bandOf S) muDga as (Or.inl (by rw [bandOf_length, hlen])) hrow
    (by unfold nK; rw [bandOf_length, hlen]; split_ifs <;> exact hk)
  obtain ⟨gA, hgA⟩ : ∃ x, newGf (siwObj (samplesF Sg N) beta) (bandOf S) mu as = some x := ⟨_, hg1⟩
  obtain ⟨gB, hgB⟩ : ∃ x, newGf out.sigma (bandOf S) muDga as = some x := ⟨_, hg2⟩
  obtain ⟨k1, k2⟩ := energies_lattice S out.sigma hk hlen hrow muDga n as _ hgB
  obtain ⟨k3, _⟩ := energies_local S (siwObj (samplesF Sg N) beta) (posHalf Sg N) hk s1 hle mu n as _ hgA
  have hrep : ∃ r, reportFrom S newton d ⟨w, c, sh, as⟩ out = .ok r := by
    unfold reportFrom
    rw [hs, hn, hb, hm, hmp]
    simp only [arrOf, numOf, Complex.ofReal_re, Int.toNat_natCast, hcor, hgA, hgB, hmu]
    unfold uniformStatic
    rw [hxD, hxM, hz]
    simp only [Option.bind_some, Option.map_some, k1, k2, k3]
    exact ⟨_, rfl⟩
  obtain ⟨r, hr⟩ := hrep
  refine ⟨r, ?_⟩
  unfold mainReport
  rw [hload]
  simp only [hbuild, hbox, hcalc, hr]

end DGA.Report
