/-
  C129: what a user gets from the files.
-/
import Verif.Pipeline.FromFiles
import Verif.Symm.RunProps3

noncomputable section

namespace DGA.Pipe

open DGA.Mf DGA.Bz DGA.Bubble DGA.Fp DGA.Two DGA.Inp

/-! ### a causal self-energy has a local Green's function without zeros -/

theorem iv_im (beta : ℝ) (m : Int) : (iv beta m).im = Real.pi / beta * (2 * m + 1) := by
  simp [iv]

theorem iv_re (beta : ℝ) (m : Int) : (iv beta m).re = 0 := by
  unfold iv
  rw [Complex.mul_re, Complex.I_re, Complex.I_im, Complex.ofReal_im]
  ring

theorem sum_nonpos' (l : List ℝ) (h : ∀ x ∈ l, x ≤ 0) : l.sum ≤ 0 := by
  induction l with
  | nil => simp
  | cons a l ih =>
    rw [List.sum_cons]
    exact add_nonpos (h a List.mem_cons_self) (ih fun x hx => h x (List.mem_cons_of_mem _ hx))

theorem fit_nonpos (Sg : Int → ℂ) (N : Nat) (beta : ℝ) (hb : 0 < beta) (hc : ∀ m : Nat, m < N → (Sg m).im ≤ 0) :
    (siwObj (samplesF Sg N) beta).smom1 ≤ 0 := by
  have hs := (siwObj_sigma Sg N beta).1
  have hrw : positiveHalf [samplesF Sg N] = [posHalf Sg N] := by
    unfold siwObj newSelfEnergy at hs
    simpa using hs
  unfold siwObj newSelfEnergy
  simp only [Bool.false_eq_true, if_false, Option.getD_none, hrw, List.head?_cons, Option.map_some, Option.getD_some]
  unfold fitSmom
  apply div_nonpos_of_nonpos_of_nonneg _ (Nat.cast_nonneg _)
  apply sum_nonpos'
  intro x hx
  rw [List.mem_map] at hx
  obtain ⟨k, hk, rfl⟩ := hx
  have hkN : k < N := by
    have : k ∈ List.range (posHalf Sg N).length := by
      unfold Py.sliceFrom at hk
      exact List.mem_of_mem_drop hk
    simpa [posHalf] using this
  have e : kMean [posHalf Sg N] k = Sg k := by
    simp [kMean, posHalf, List.getD_eq_getElem?_getD, hkN]
  rw [e, iv_im]
  apply mul_nonpos_of_nonpos_of_nonneg (hc k hkN)
  have := Real.pi_pos
  have h2 : (0 : ℝ) ≤ 2 * ((k : Int) : ℝ) + 1 := by push_cast; positivity
  exact mul_nonneg (by positivity) h2

theorem sigma_causal (Sg : Int → ℂ) (N : Nat) (beta : ℝ) (hb : 0 < beta) (hN : (siwObj (samplesF Sg N) beta).nivCore ≤ N)
    (hc : ∀ m : Nat, m < N → (Sg m).im ≤ 0) (m : Int) (hm : 0 ≤ m) :
    (sigmaSpec (siwObj (samplesF Sg N) beta) (posHalf Sg N) m).im ≤ 0 := by
  have hb1 := (siwObj_sigma Sg N beta).2
  have hfit := fit_nonpos Sg N beta hb hc
  generalize (siwObj (samplesF Sg N) beta) = o at *
  unfold sigmaSpec
  rw [if_pos hm]
  split
  · rename_i h
    have hk : m.toNat < N := by omega
    simp only [posHalf, List.getD_eq_getElem?_getD, List.getElem?_map, List.getElem?_range hk, Option.map_some, Option.getD_some]
    exact hc _ hk
  · rw [hb1, Complex.sub_im, Complex.ofReal_im, Complex.div_im, Complex.ofReal_im, Complex.ofReal_re, iv_re, iv_im, Complex.normSq_apply, iv_re, iv_im]
    have hv : 0 < Real.pi / beta * (2 * (m : ℝ) + 1) := by
      have := Real.pi_pos
      have h2 : (0 : ℝ) ≤ (m : ℝ) := by exact_mod_cast hm
      positivity
    have : o.smom1 * (Real.pi / beta * (2 * (m : ℝ) + 1)) / (0 * 0 + Real.pi / beta * (2 * (m : ℝ) + 1) * (Real.pi / beta * (2 * (m : ℝ) + 1))) ≤ 0 :=
      div_nonpos_of_nonpos_of_nonneg (mul_nonpos_of_nonpos_of_nonneg hfit hv.le) (by positivity)
    simp only [mul_zero, zero_div, zero_sub, zero_add] at this ⊢
    rw [_root_.neg_neg]
    exact this

/-- at least 20 positive frequencies are enough for the core of the object to lie within the data -/
theorem core_le (Sg : Int → ℂ) (N : Nat) (beta : ℝ) (hN : 20 ≤ N) : (siwObj (samplesF Sg N) beta).nivCore ≤ N := by
  have hs := (siwObj_sigma Sg N beta).1
  have hrw : positiveHalf [samplesF Sg N] = [posHalf Sg N] := by
    unfold siwObj newSelfEnergy at hs
    simpa using hs
  unfold siwObj newSelfEnergy
  simp only [Bool.false_eq_true, if_false, Option.getD_none, hrw, List.head?_cons, Option.map_some, Option.getD_some]
  have hl : (posHalf Sg N).length = N := by simp [posHalf]
  rw [hl]
  exact (estimate_bounds _ N _ _ _ _).2 hN

theorem gBand_im {nb : Nat} (nx ny nz : Nat) (h : Wan.Hr (nb + 1)) (mu : ℝ) (Sg : Int → ℂ) (N : Nat) (beta : ℝ) (hb : 0 < beta) (hN : 20 ≤ N)
    (hc : ∀ m : Nat, m < N → (Sg m).im ≤ 0) (i j k : Nat) (m : Int) (hm : 0 ≤ m) :
    (gBand nx ny nz h mu (siwObj (samplesF Sg N) beta) (posHalf Sg N) i j k m).im < 0 := by
  have hs := sigma_causal Sg N beta hb (core_le Sg N beta hN) hc m hm
  have hb1 := (siwObj_sigma Sg N beta).2
  unfold gBand
  rw [hb1]
  generalize sigmaSpec (siwObj (samplesF Sg N) beta) (posHalf Sg N) m = z at *
  have hv : 0 < Real.pi / beta * (2 * (m : ℝ) + 1) := by
    have := Real.pi_pos
    have h2 : (0 : ℝ) ≤ (m : ℝ) := by exact_mod_cast hm
    positivity
  set w : ℂ := iv beta m + (mu : ℂ) - (((bloch h (kPt nx ny nz i j k)).re : ℝ) : ℂ) - z with hw
  have him : 0 < w.im := by
    rw [hw, Complex.sub_im, Complex.sub_im, Complex.add_im, Complex.ofReal_im, Complex.ofReal_im, iv_im]
    linarith
  have hne : 0 < Complex.normSq w := by
    rw [Complex.normSq_pos]
    intro h
    rw [h] at him
    simp at him
  rw [one_div, Complex.inv_im]
  exact div_neg_of_neg_of_pos (by linarith) hne

theorem gLoc_ne_zero {nb : Nat} (nx ny nz : Nat) (hk : 0 < nx * ny * nz) (h : Wan.Hr (nb + 1)) (mu : ℝ) (Sg : Int → ℂ) (N : Nat) (beta : ℝ) (hb : 0 < beta) (hN : 20 ≤ N)
    (hc : ∀ m : Nat, m < N → (Sg m).im ≤ 0) (m : Int) :
    gLocBand nx ny nz h mu (siwObj (samplesF Sg N) beta) (posHalf Sg N) m ≠ 0 := by
  have key : ∀ m : Int, 0 ≤ m → gLocBand nx ny nz h mu (siwObj (samplesF Sg N) beta) (posHalf Sg N) m ≠ 0 := by
    intro m hm h0
    unfold gLocBand at h0
    rw [div_eq_zero_iff] at h0
    rcases h0 with h0 | h0
    · have hx : 0 < nx := Nat.pos_of_ne_zero fun hz => by subst hz; simp at hk
      have hy : 0 < ny := Nat.pos_of_ne_zero fun hz => by subst hz; simp at hk
      have hz : 0 < nz := Nat.pos_of_ne_zero fun hz => by subst hz; simp at hk
      have h' := congrArg Complex.im h0
      unfold kSum at h'
      simp only [Complex.im_sum, Complex.zero_im] at h'
      have : ∑ i ∈ Finset.range nx, ∑ j ∈ Finset.range ny, ∑ k ∈ Finset.range nz,
          (gBand nx ny nz h mu (siwObj (samplesF Sg N) beta) (posHalf Sg N) i j k m).im < 0 := by
        refine Finset.sum_neg (fun i _ => Finset.sum_neg (fun j _ => Finset.sum_neg (fun k _ => ?_) ⟨0, by simpa using hz⟩) ⟨0, by simpa using hy⟩) ⟨0, by simpa using hx⟩
        exact gBand_im nx ny nz h mu Sg N beta hb hN hc i j k m hm
      linarith
    · have : ((nx * ny * nz : Nat) : ℂ) ≠ 0 := by exact_mod_cast hk.ne'
      exact this h0
  by_cases hm : 0 ≤ m
  · exact key m hm
  · have h1 := gLocBand_conj nx ny nz h mu (siwObj (samplesF Sg N) beta) (posHalf Sg N) (-m - 1)
    rw [show -(-m - 1) - 1 = m by ring] at h1
    rw [h1]
    exact star_ne_zero.2 (key _ (by omega))

/-! ### the run -/

theorem run_row_length {c : Nat} (s R nx ny nz : Nat) (f : List Nat) (g2D g2M : FourP (2 * c) ℂ) (b : Bub ℂ) (beta : ℝ) (mode : String)
    (u n : ℂ) (siw : List ℂ) (out : RunOut) (h : dgaRun s R nx ny nz f g2D g2M b beta mode u n siw = .ok out) :
    ∀ r ∈ out.sigma, r.length = (cutV siw (c : Int)).length := by
  unfold dgaRun at h
  split at h
  · cases h
  · split at h
    · cases h
    · split at h
      · cases h
      · split at h
        · cases h
        · rename_i sig hs
          cases h
          rw [Option.bind_eq_some_iff] at hs
          obtain ⟨q, _, hq⟩ := hs
          obtain ⟨f, hf, rfl⟩ := mapM_ex [] _ _ _ hq
          intro r hr
          rw [List.mem_map] at hr
          obtain ⟨a, ha, rfl⟩ := hr
          have := hf a ha
          unfold assemble at this
          split at this
          · rename_i hl
            rw [← Option.some.inj this]
            simp [hl.1, hl.2]
          · cases this

/-- the run on the input objects is the run of C128 on functions of the Matsubara index -/
theorem calcFrom_eq (S : Settings) (d : Dict) (n beta u mu : ℝ) (N : Nat) (Sg : Int → ℂ) (hs : d.siw = .a1 (samplesF Sg N))
    (hn : d.n = .num n) (hb : d.beta = .num beta) (hu : d.u = .num u) (hm : d.mu = .num mu) (w c sh as : Nat) (hN : 20 ≤ N)
    (D M : Int → Int → Int → ℂ) (out : MainOut)
    (h : calcFrom S d ⟨w, c, sh, as⟩ ⟨"dens", tab w c D, (beta : ℂ), (u : ℂ), none⟩ ⟨"magn", tab w c M, (beta : ℂ), (u : ℂ), none⟩ = .ok out) :
    ∃ mp, fbz2irrk S.nx S.ny S.nz S.syms = some mp ∧ out.box = ⟨w, c, sh, as⟩ ∧
      dgaRun sh S.ranks S.nx S.ny S.nz (flat3 mp) (objOf true w (beta : ℂ) (u : ℂ) (onBox2 c D)) (objOf false w (beta : ℂ) (u : ℂ) (onBox2 c M))
        (genOf S.nx S.ny S.nz ((siwObj (samplesF Sg N) beta).nivCore + as) w (beta : ℂ)
          (gBand S.nx S.ny S.nz S.hr mu (siwObj (samplesF Sg N) beta) (posHalf Sg N))
          (gLocBand S.nx S.ny S.nz S.hr mu (siwObj (samplesF Sg N) beta) (posHalf Sg N))) beta S.lambdaCorr (u : ℂ) (n : ℂ)
        (samplesF Sg N) = .ok out.run ∧
      createDga out.run.sigma (siwObj (samplesF Sg N) beta) sh 1e-4 = some out.sigma := by
  obtain ⟨s1, s2⟩ := siwObj_sigma Sg N beta
  unfold calcFrom at h
  rw [hs, hn, hb, hu, hm] at h
  simp only [arrOf, numOf, Complex.ofReal_re, Int.toNat_natCast] at h
  have e1 : toFour (2 * c) ⟨"dens", tab w c D, (beta : ℂ), (u : ℂ), none⟩ = some (objOf true w (beta : ℂ) (u : ℂ) (onBox2 c D)) :=
    toFour_tab true w c D _ _
  have e2 : toFour (2 * c) ⟨"magn", tab w c M, (beta : ℂ), (u : ℂ), none⟩ = some (objOf false w (beta : ℂ) (u : ℂ) (onBox2 c M)) :=
    toFour_tab false w c M _ _
  cases hmp : fbz2irrk S.nx S.ny S.nz S.syms with
  | none => rw [e1, e2, hmp] at h; cases h
  | some mp =>
  rw [e1, e2, hmp] at h
  simp only at h
  rw [genDmft_eq S.nx S.ny S.nz S.hr mu _ (posHalf Sg N) s1 (by simpa [posHalf] using core_le Sg N beta hN), s2] at h
  refine ⟨mp, rfl, ?_⟩
  split at h
  · cases h
  · rename_i r hr
    split at h
    · cases h
    · rename_i sg hsg
      cases h
      exact ⟨rfl, hr, hsg⟩

/-- the self-energy of the run: the symmetry of the lattice, and what the saved object holds -/
theorem calc_sigma (S : Settings) (hlat : LatticeOk S.nx S.ny S.nz S.hr S.syms) (d : Dict) (n beta u mu : ℝ) (hb0 : 0 < beta) (N : Nat) (Sg : Int → ℂ) (hs : d.siw = .a1 (samplesF Sg N))
    (hn : d.n = .num n) (hb : d.beta = .num beta) (hu : d.u = .num u) (hm : d.mu = .num mu) (w c sh as : Nat) (hN : 20 ≤ N) (hcN : c ≤ N)
    (hfit : w + (c + sh) ≤ (siwObj (samplesF Sg N) beta).nivCore + as) (hk : 0 < S.nx * S.ny * S.nz) (hR : 0 < S.ranks)
    (D M : Int → Int → Int → ℂ) (out : MainOut)
    (h : calcFrom S d ⟨w, c, sh, as⟩ ⟨"dens", tab w c D, (beta : ℂ), (u : ℂ), none⟩ ⟨"magn", tab w c M, (beta : ℂ), (u : ℂ), none⟩ = .ok out) :
    ∃ Sig : Nat → Nat → Nat → Int → ℂ, out.run.sigma = flat3 (table S.nx S.ny S.nz fun i j k => samplesF (Sig i j k) c) ∧
      (∀ σ ∈ S.syms, ∀ p, InGrid S.nx S.ny S.nz p → ∀ v : Int, -(c : Int) ≤ v → v < c →
        Sig (Bz.image S.nx S.ny S.nz σ p).1 (Bz.image S.nx S.ny S.nz σ p).2.1 (Bz.image S.nx S.ny S.nz σ p).2.2 v = Sig p.1 p.2.1 p.2.2 v) ∧
      out.sigma.sigma = flat3 (table S.nx S.ny S.nz fun i j k => (List.range (c + sh)).map fun m : Nat =>
        if m < c then Sig i j k m else sigmaSpec (siwObj (samplesF Sg N) beta) (posHalf Sg N) m) ∧
      out.sigma.beta = beta ∧ out.sigma.nivCore = c + sh := by
  obtain ⟨mp, hmp, hbx, hrun, hcr⟩ := calcFrom_eq S d n beta u mu N Sg hs hn hb hu hm w c sh as hN D M out h
  obtain ⟨s1, s2⟩ := siwObj_sigma Sg N beta
  set o := siwObj (samplesF Sg N) beta with ho
  have hinv := gBand_invariant hlat mu o (posHalf Sg N)
  have hbne : (beta : ℂ) ≠ 0 := by exact_mod_cast hb0.ne'
  have hlen := run_row_length _ _ _ _ _ _ _ _ _ _ _ _ _ _ _ hrun
  rw [cutV_samplesF _ _ _ hcN] at hlen
  simp only [samplesF_length] at hlen
  obtain ⟨_, hself⟩ := run_is_self_energy _ _ _ _ _ _ _ _ _ _ _ _ _ _ _ hrun
  obtain ⟨Sl, e1, i1⟩ := dga_symmetric sh S.nx S.ny S.nz _ w (beta : ℂ) u n (Complex.conj_ofReal beta) hbne S.syms mp hmp _ hinv _
    (fun m _ _ => gLocBand_conj _ _ _ _ _ _ _ m) (fun i j k m _ _ => gBand_conj _ _ _ _ _ _ _ i j k m) hfit _ _ _ _ _ S.ranks hR _ hself
  have hSl : ∀ i j k, i < S.nx → j < S.ny → k < S.nz → Sl i j k = samplesF (fun v => (Sl i j k).getD (v + c).toNat 0) c := by
    intro i j k hi hj hk'
    obtain ⟨l, l1, l2, l3⟩ := grid_surj hi hj hk'
    have hl : (Sl i j k).length = 2 * c := by
      apply hlen
      rw [e1, flat3_table, List.mem_map]
      exact ⟨l.val, List.mem_range.2 l.isLt, by rw [l1, l2, l3]⟩
    apply eq_samplesF _ _ _ hl
    intro m hm'
    rw [show (m : Int) - c + c = m by omega, Int.toNat_natCast, List.getD_eq_getElem?_getD, List.getElem?_eq_getElem (by omega)]
    rfl
  have htab : out.run.sigma = flat3 (table S.nx S.ny S.nz fun i j k => samplesF (fun v => (Sl i j k).getD (v + c).toNat 0) c) := by
    rw [e1]
    congr 1
    unfold table
    apply List.map_congr_left; intro i hi
    apply List.map_congr_left; intro j hj
    apply List.map_congr_left; intro k hk'
    exact hSl i j k (List.mem_range.1 hi) (List.mem_range.1 hj) (List.mem_range.1 hk')
  refine ⟨fun i j k v => (Sl i j k).getD (v + c).toNat 0, htab, ?_, ?_⟩
  · intro σ hσ p hp v _ _
    have := i1 σ hσ p hp
    simp only [this]
  · have hrows : out.run.sigma = ((List.range (S.nx * S.ny * S.nz)).map fun l => fun v : Int =>
        (Sl (l / S.nz / S.ny) (l / S.nz % S.ny) (l % S.nz)).getD (v + c).toNat 0).map fun F => samplesF F c := by
      rw [htab, flat3_table, List.map_map]
      rfl
    rw [hrows, createDga_value _ (by rw [Ne, List.map_eq_nil_iff, List.range_eq_nil]; exact hk.ne') c o (posHalf Sg N) [] s1 (by
      rw [s1]
      intro r hr
      rw [List.mem_singleton] at hr
      subst hr
      simpa [posHalf] using core_le Sg N beta hN)] at hcr
    rw [← Option.some.inj hcr]
    refine ⟨?_, s2, rfl⟩
    rw [flat3_table, List.map_map]
    rfl

/-- the two-particle data the calculation uses: those of the file, symmetrised in `v ↔ v'` if asked for -/
def used (sym : Bool) (D : Int → Int → Int → ℂ) : Int → Int → Int → ℂ :=
  if sym then fun w v v' => (1 / 2) * (D w v v' + D w v' v) else D

/-- Green's function of the run: `1 / (iv + mu - e(k) - Sigma(v))` with the band of the hopping parameters and the DMFT self-energy with
    its fitted tail -/
def runG (S : Settings) (mu beta : ℝ) (Sg : Int → ℂ) (N : Nat) : Nat → Nat → Nat → Int → ℂ :=
  gBand S.nx S.ny S.nz S.hr mu (siwObj (samplesF Sg N) beta) (posHalf Sg N)

/-- its mean over the momenta -/
def runGloc (S : Settings) (mu beta : ℝ) (Sg : Int → ℂ) (N : Nat) (m : Int) : ℂ :=
  (kSum S.nx S.ny S.nz fun i j k => runG S mu beta Sg N i j k m) / ((S.nx * S.ny * S.nz : Nat) : ℂ)

/-- C129.  From the files to the saved self-energy.  `d` is the dictionary read from the files: self-energy `Sg` on `2 N` frequencies
    (causal, at least 20 positive ones), filling, temperature, interaction, chemical potential and the two-particle data `D`, `M` at
    their Matsubara indices, on boxes at least as large as the requested one (`c`, `w`; the size of the density data where none is
    requested).  If the frequency boxes fit (`default_box_fits`) and no bubble vanishes, then whenever the program returns: it used
    exactly these sizes; its result is the DGA result (`IsDga`) for the Green's function of the band and `Sg`, and for the data `D`, `M`;
    the core self-energy has the symmetry of the lattice; and the saved self-energy holds at every momentum the core self-energy
    inside the core box and the DMFT self-energy on the shell. -/
theorem main_run (fs : Fs) (ty path f1 : String) (f2 : Option String) (S : Settings) (hlat : LatticeOk S.nx S.ny S.nz S.hr S.syms)
    (d : Dict) (hload : load1p fs ty path f1 f2 = some d)
    (N : Nat) (hN : 20 ≤ N) (Sg : Int → ℂ) (hs : d.siw = .a1 (samplesF Sg N)) (hcausal : ∀ m : Nat, m < N → (Sg m).im ≤ 0)
    (n beta u mu : ℝ) (hb0 : 0 < beta) (hn : d.n = .num n) (hb : d.beta = .num beta) (hu : d.u = .num u) (hm : d.mu = .num mu)
    (wD vD wM vM : Nat) (D M : Int → Int → Int → ℂ) (hD : d.dens = some (.a3 (tab wD vD D))) (hM : d.magn = some (.a3 (tab wM vM M)))
    (c w sh as : Nat) (hc : S.box.nivCore = c ∨ S.box.nivCore = -1 ∧ c = vD) (hw : S.box.niwCore = w ∨ S.box.niwCore = -1 ∧ w = wD)
    (hsh : S.box.nivShell = sh) (has : (as : Int) = if S.box.nivAsympt ≤ 0 then S.box.nivShell + c + w * 2 else S.box.nivAsympt)
    (h0 : 0 < c) (hcD : c ≤ vD) (hcM : c ≤ vM) (hwD : w ≤ wD) (hwM : w ≤ wM) (hcN : c ≤ N)
    (hfit : w + (c + sh) ≤ (siwObj (samplesF Sg N) beta).nivCore + as)
    (hk : 0 < S.nx * S.ny * S.nz) (hR : 0 < S.ranks)
    (hB0 : ∀ i j k, i < S.nx → j < S.ny → k < S.nz → ∀ x ∈ Finset.Icc (-(w : Int)) w, ∀ a,
      onBox (c + sh) (bubQ S.nx S.ny S.nz (beta : ℂ) (runG S mu beta Sg N) (i, j, k) x) a ≠ 0)
    (out : MainOut) (h : mainRun fs ty path f1 f2 S = .ok out) :
    out.box = ⟨w, c, sh, as⟩ ∧
    IsDga c sh S.nx S.ny S.nz w beta (u : ℂ) S.lambdaCorr (runG S mu beta Sg N) (runGloc S mu beta Sg N) Sg
      (onBox2 c (used S.symVVp D)) (onBox2 c (used S.symVVp M)) out.run ∧
    ∃ Sig : Nat → Nat → Nat → Int → ℂ, out.run.sigma = flat3 (table S.nx S.ny S.nz fun i j k => samplesF (Sig i j k) c) ∧
      (∀ σ ∈ S.syms, ∀ p, InGrid S.nx S.ny S.nz p → ∀ v : Int, -(c : Int) ≤ v → v < c →
        Sig (Bz.image S.nx S.ny S.nz σ p).1 (Bz.image S.nx S.ny S.nz σ p).2.1 (Bz.image S.nx S.ny S.nz σ p).2.2 v = Sig p.1 p.2.1 p.2.2 v) ∧
      out.sigma.sigma = flat3 (table S.nx S.ny S.nz fun i j k => (List.range (c + sh)).map fun m : Nat =>
        if m < c then Sig i j k m else sigmaSpec (siwObj (samplesF Sg N) beta) (posHalf Sg N) m) ∧
      out.sigma.beta = beta ∧ out.sigma.nivCore = c + sh := by
  obtain ⟨box', hbuild, q1, q2, q3, q4⟩ := buildG2_value S.box S.symVVp d beta u hb hu wD vD wM vM D M hD hM c w hc hw h0 hcD hcM hwD hwM
  have hbox : box' = ⟨w, c, sh, as⟩ := by
    obtain ⟨b1, b2, b3, b4⟩ := box'
    simp only at q1 q2 q3 q4
    rw [q1, q2, q3, hsh, q4, has]
  unfold mainRun at h
  rw [hload] at h
  simp only [hbuild, hbox] at h
  obtain ⟨mp, hmp, hbx, hrun, hcr⟩ := calcFrom_eq S d n beta u mu N Sg hs hn hb hu hm w c sh as hN (used S.symVVp D) (used S.symVVp M) out h
  obtain ⟨s1, s2⟩ := siwObj_sigma Sg N beta
  set o := siwObj (samplesF Sg N) beta with ho
  have hinv := gBand_invariant hlat mu o (posHalf Sg N)
  obtain ⟨label, hlab, hsymB⟩ := bubble_labels S.nx S.ny S.nz (c + sh) w (beta : ℂ) S.syms mp hmp _ hinv
  have hbne : (beta : ℂ) ≠ 0 := by exact_mod_cast hb0.ne'
  refine ⟨hbx, ?_, ?_⟩
  · rw [hlab] at hrun
    exact run_is_dga sh S.nx S.ny S.nz (o.nivCore + as) N w beta u n hb0.ne' _ _ Sg (fun m _ _ => gLocBand_conj _ _ _ _ _ _ _ m)
      (fun m _ _ => gLoc_ne_zero S.nx S.ny S.nz hk S.hr mu Sg N beta hb0 hN hcausal m)
      (fun i j k m _ _ => gBand_conj _ _ _ _ _ _ _ i j k m) hfit hcN _ _ label hB0 hsymB _ S.ranks hR _ hrun
  · exact calc_sigma S hlat d n beta u mu hb0 N Sg hs hn hb hu hm w c sh as hN hcN hfit hk hR (used S.symVVp D) (used S.symVVp M) out h

theorem used_conj (sym : Bool) (D : Int → Int → Int → ℂ) (h : ∀ w v v', D (-w) (-v - 1) (-v' - 1) = star (D w v v')) (w v v' : Int) :
    used sym D (-w) (-v - 1) (-v' - 1) = star (used sym D w v v') := by
  unfold used
  cases sym
  · exact h w v v'
  · simp only [if_true, h, star_mul, star_add]
    rw [show star (1 / 2 : ℂ) = 1 / 2 by rw [one_div, star_inv₀]; simp]
    ring

/-- C129.  If moreover the self-energy and the two-particle data of the files are conjugate at opposite frequencies, so is the core
    self-energy, and reading the saved object on its whole range gives at every momentum, for both signs of the frequency, the core
    self-energy inside and the DMFT self-energy outside. -/
theorem main_run_conj (fs : Fs) (ty path f1 : String) (f2 : Option String) (S : Settings) (hlat : LatticeOk S.nx S.ny S.nz S.hr S.syms)
    (d : Dict) (hload : load1p fs ty path f1 f2 = some d)
    (N : Nat) (hN : 20 ≤ N) (Sg : Int → ℂ) (hs : d.siw = .a1 (samplesF Sg N)) (hSg : ∀ m, Sg (-m - 1) = star (Sg m))
    (n beta u mu : ℝ) (hb0 : 0 < beta) (hn : d.n = .num n) (hb : d.beta = .num beta) (hu : d.u = .num u) (hm : d.mu = .num mu)
    (wD vD wM vM : Nat) (D M : Int → Int → Int → ℂ) (hD : d.dens = some (.a3 (tab wD vD D))) (hM : d.magn = some (.a3 (tab wM vM M)))
    (hDc : ∀ w v v', D (-w) (-v - 1) (-v' - 1) = star (D w v v')) (hMc : ∀ w v v', M (-w) (-v - 1) (-v' - 1) = star (M w v v'))
    (c w sh as : Nat) (hc : S.box.nivCore = c ∨ S.box.nivCore = -1 ∧ c = vD) (hw : S.box.niwCore = w ∨ S.box.niwCore = -1 ∧ w = wD)
    (hsh : S.box.nivShell = sh) (has : (as : Int) = if S.box.nivAsympt ≤ 0 then S.box.nivShell + c + w * 2 else S.box.nivAsympt)
    (h0 : 0 < c) (hcD : c ≤ vD) (hcM : c ≤ vM) (hwD : w ≤ wD) (hwM : w ≤ wM) (hcN : c ≤ N)
    (hfit : w + (c + sh) ≤ (siwObj (samplesF Sg N) beta).nivCore + as)
    (hk : 0 < S.nx * S.ny * S.nz) (hR : 0 < S.ranks)
    (out : MainOut) (h : mainRun fs ty path f1 f2 S = .ok out) :
    ∃ Sig : Nat → Nat → Nat → Int → ℂ, out.run.sigma = flat3 (table S.nx S.ny S.nz fun i j k => samplesF (Sig i j k) c) ∧
      (∀ i j k, ∀ v : Int, -(c : Int) ≤ v → v < c → Sig i j k (-v - 1) = star (Sig i j k v)) ∧
      out.sigma.getSiw ((c + sh : Nat) : Int) = flat3 (table S.nx S.ny S.nz fun i j k => samplesF (fun v =>
        if -(c : Int) ≤ v ∧ v < c then Sig i j k v else sigmaSpec (siwObj (samplesF Sg N) beta) (posHalf Sg N) v) (c + sh)) := by
  obtain ⟨box', hbuild, q1, q2, q3, q4⟩ := buildG2_value S.box S.symVVp d beta u hb hu wD vD wM vM D M hD hM c w hc hw h0 hcD hcM hwD hwM
  have hbox : box' = ⟨w, c, sh, as⟩ := by
    obtain ⟨b1, b2, b3, b4⟩ := box'
    simp only at q1 q2 q3 q4
    rw [q1, q2, q3, hsh, q4, has]
  unfold mainRun at h
  rw [hload] at h
  simp only [hbuild, hbox] at h
  obtain ⟨mp, hmp, hbx, hrun, hcr⟩ := calcFrom_eq S d n beta u mu N Sg hs hn hb hu hm w c sh as hN (used S.symVVp D) (used S.symVVp M) out h
  obtain ⟨s1, s2⟩ := siwObj_sigma Sg N beta
  set o := siwObj (samplesF Sg N) beta with ho
  have hinv := gBand_invariant hlat mu o (posHalf Sg N)
  obtain ⟨label, hlab, _⟩ := bubble_labels S.nx S.ny S.nz (c + sh) w (beta : ℂ) S.syms mp hmp _ hinv
  rw [hlab] at hrun
  have hrev : ∀ i : Fin (2 * c), ((i.rev.val : Int) - c) = -((i.val : Int) - c) - 1 := by
    intro i
    rw [Fin.val_rev]
    omega
  have hbx2 : ∀ F : Int → Int → Int → ℂ, (∀ w v v', F (-w) (-v - 1) (-v' - 1) = star (F w v v')) →
      ∀ x ∈ Finset.Icc (-(w : Int)) w, ∀ i j, onBox2 c F (-x) i.rev j.rev = star (onBox2 c F x i j) := by
    intro F hF x _ i j
    simp only [onBox2, Matrix.of_apply, hrev, hF]
  obtain ⟨Sig0, hsig, hcon⟩ := run_conj_symmetric sh S.nx S.ny S.nz (o.nivCore + as) N w beta u n hb0.ne' (Complex.conj_ofReal u) (Complex.conj_ofReal n) _ _ Sg
    (fun m _ _ => gLocBand_conj _ _ _ _ _ _ _ m) (fun i j k m _ _ => gBand_conj _ _ _ _ _ _ _ i j k m) (fun m _ _ => hSg m) hfit hcN _ _
    (hbx2 _ (used_conj _ D hDc)) (hbx2 _ (used_conj _ M hMc)) label _ S.ranks hR _ hrun
  -- extended by symmetry outside the box
  set Sig : Nat → Nat → Nat → Int → ℂ := fun i j k v => if -(c : Int) ≤ v ∧ v < c then Sig0 i j k v else 0 with hSig
  have hsig' : out.run.sigma = flat3 (table S.nx S.ny S.nz fun i j k => samplesF (Sig i j k) c) := by
    rw [hsig]
    congr 2
    funext i j k
    apply samplesF_congr
    intro v h1 h2
    rw [hSig]
    simp only
    rw [if_pos ⟨h1, h2⟩]
  have hall : ∀ i j k, ∀ v : Int, Sig i j k (-v - 1) = (starRingEnd ℂ) (Sig i j k v) := by
    intro i j k v
    rw [hSig]
    simp only
    by_cases hv : -(c : Int) ≤ v ∧ v < c
    · rw [if_pos (by omega), if_pos hv]
      exact hcon i j k v hv.1 hv.2
    · rw [if_neg (by omega), if_neg hv, map_zero]
  refine ⟨Sig, hsig', fun i j k v _ _ => hall i j k v, ?_⟩
  have hrows : out.run.sigma = ((List.range (S.nx * S.ny * S.nz)).map fun l =>
      Sig (l / S.nz / S.ny) (l / S.nz % S.ny) (l % S.nz)).map fun F => samplesF F c := by
    rw [hsig', flat3_table, List.map_map]
    rfl
  rw [hrows] at hcr
  have := createDga_getSiw _ (by rw [Ne, List.map_eq_nil_iff, List.range_eq_nil]; exact hk.ne') (by
    intro F hF m
    rw [List.mem_map] at hF
    obtain ⟨l, _, rfl⟩ := hF
    exact hall _ _ _ m) c o (posHalf Sg N) [] s1 (by
      rw [s1]
      intro r hr
      rw [List.mem_singleton] at hr
      subst hr
      simpa [posHalf] using core_le Sg N beta hN) sh 1e-4 out.sigma hcr
  rw [this, flat3_table, List.map_map]
  rfl

/-! ### from the worm measurements -/

/-- the symmetrisation program called as in cli/sym1b.py:16-25 (one band, one atom, three frequencies) -/
def sym1b (worm : String) : Sym.Conf := ⟨.ffb3, 1, [1, 1], [[[1]]], worm⟩

/-- combination of the spin components that is called the density / magnetic channel -/
def densOf (V : Sym.Q4 → ℂ) : ℂ := (V (0, 0, 0, 0) + V (0, 0, 1, 1) + V (1, 1, 0, 0) + V (1, 1, 1, 1)) / 2
/-- see `densOf` -/
def magnOf (V : Sym.Q4 → ℂ) : ℂ :=
  (V (0, 0, 0, 0) + V (1, 1, 1, 1) + V (0, 1, 1, 0) + V (1, 0, 0, 1) - V (0, 0, 1, 1) - V (1, 1, 0, 0)) / 4

/-- C129.  w2dynamics input: the first file holds the one-particle data, the second one was written by the symmetrisation program from a
    complete set of worm measurements `X` (spin combination, array indices `v, v', w`; a missing value counts as zero).  Loading gives
    the spin-averaged self-energy and the density and magnetic combinations of the measurements at their Matsubara indices. -/
theorem worm_to_dict (worm : String) (fin : Sym.InFile ℂ) (ans : Bool) (nf nb : Nat) (nba : Nat → Nat)
    (X : Nat → Sym.Q4 → Sym.Q4 → List Nat → Option ℂ) (hin : Sym.InputOk (sym1b worm) fin nf nb nba X) :
    ∃ o, Sym.run (sym1b worm) (some fin) ans .absent = (.done, .file o) ∧
      ∀ (fs : Fs) (path f1 f2 : String) (f h : H5), fs.h5 (path ++ f1) = some f → fs.h5 (path ++ f2) = some h →
        (∀ ch, ch = "dens" ∨ ch = "magn" → h.g2 ch = Sym.g2Of o 0 ch 1 (2 * nb + 1)) →
        ∀ (N : Nat) (gu gd su sd : Nat → ℂ) (gr sr : List (List (List ℂ))),
        f.data "dmft-last/ineq-001/giw/value" = some (.a3 ([(List.range (2 * N)).map gu, (List.range (2 * N)).map gd] :: gr)) →
        f.data "dmft-last/ineq-001/siw/value" = some (.a3 ([(List.range (2 * N)).map su, (List.range (2 * N)).map sd] :: sr)) →
        ∀ (n beta u mu : ℂ), f.attr "general.totdens" = some n → f.attr "general.beta" = some beta →
        f.attr "atoms.1.udd" = some u → f.data "dmft-last/mu/value" = some (.num mu) →
        ∀ (uu ud du dd : ℂ) (r1 r2 : List (List ℂ)) (r3 : List (List (List (List ℂ)))),
        f.data "dmft-last/ineq-001/occ/value" = some (.a4 ([[uu, ud] :: r1, [du, dd] :: r2] :: r3)) →
        ∃ d, load1p fs "w2dyn" path f1 (some f2) = some d ∧
          d.siw = .a1 (samplesF (fun m => (su (m + N).toNat + sd (m + N).toNat) / 2) N) ∧
          d.n = .num (if n = 0 then uu + dd else n) ∧ d.beta = .num beta ∧ d.u = .num u ∧ d.mu = .num mu ∧
          d.dens = some (.a3 (tab nb nf fun w v v' => densOf fun s => (X 0 s (0, 0, 0, 0) [(v + nf).toNat, (v' + nf).toNat, (w + nb).toNat]).getD 0)) ∧
          d.magn = some (.a3 (tab nb nf fun w v v' => magnOf fun s => (X 0 s (0, 0, 0, 0) [(v + nf).toNat, (v' + nf).toNat, (w + nb).toNat]).getD 0)) := by
  obtain ⟨o, h1, h2⟩ := Sym.run_file (sym1b worm) rfl fin ans nf nb nba X hin
  refine ⟨o, h1, ?_⟩
  intro fs path f1 f2 f h hf hh hg2 N gu gd su sd gr sr hg hs n beta u mu hn hb hu hm uu ud du dd r1 r2 r3 ho
  have hr : Sym.InRange 1 (0, 0, 0, 0) := by simp [Sym.InRange]
  have hkn : Sym.Kan (0, 0, 0, 0) := by simp [Sym.Kan]
  have horb : ∀ t, t ∈ ({(0, 0, 0, 0)} : Finset Sym.Q4) ↔ Sym.Equiv4 [[1]] (0, 0, 0, 0) t := by
    intro t
    obtain ⟨a, b, c, d⟩ := t
    rw [Finset.mem_singleton]
    constructor
    · intro ht
      rw [ht]
      exact Sym.equiv4_refl [[1]] 1 Sym.valid_one _ hr
    · intro ht
      have := Sym.equiv4_range [[1]] 1 Sym.valid_one _ _ hr ht
      simp only [Sym.InRange] at this
      obtain ⟨h1, h2, h3, h4⟩ := this
      simp only [Prod.mk.injEq]
      omega
  have hidx : Sym.component2indexBand 1 4 (Sym.Q4.toList (0, 0, 0, 0)) = some 1 := by decide
  have key : ∀ ch, ch = "dens" ∨ ch = "magn" → Sym.readG2Full (h.g2 ch) = tab nb nf fun w v v' =>
      ∑ s ∈ Sym.sixSpins, Sym.weight ℂ ch s * (X 0 s (0, 0, 0, 0) [(v + nf).toNat, (v' + nf).toNat, (w + nb).toNat]).getD 0 := by
    intro ch hch
    rw [hg2 ch hch, h2 0 (by simp [sym1b]) ch hch (0, 0, 0, 0) {(0, 0, 0, 0)} 1 hr hkn horb hidx, Sym.readG2Full_writeG2]
    unfold tab
    refine List.map_congr_left fun w _ => List.map_congr_left fun v _ => List.map_congr_left fun v' _ => ?_
    simp only [Finset.sum_singleton, Finset.card_singleton, Nat.cast_one, div_one, Int.sub_add_cancel, Int.toNat_natCast]
  refine ⟨_, loadW2dyn_value fs path f1 f2 f h hf hh (2 * N) gu gd su sd gr sr hg hs n beta u (.num mu) hn hb hu hm uu ud du dd r1 r2 r3 ho,
    ?_, rfl, rfl, rfl, rfl, ?_, ?_⟩
  · refine congrArg DS.a1 ?_
    apply eq_samplesF
    · simp
    · intro k hk
      rw [List.getElem?_map, List.getElem?_range hk, Option.map_some]
      congr 3 <;> congr 1 <;> omega
  · refine congrArg (fun l => some (DS.a3 l)) ?_
    rw [key "dens" (Or.inl rfl)]
    refine congrArg (tab nb nf) ?_
    funext w v v'
    simp [Sym.sixSpins, Sym.weight, densOf]
    ring
  · refine congrArg (fun l => some (DS.a3 l)) ?_
    rw [key "magn" (Or.inr rfl)]
    refine congrArg (tab nb nf) ?_
    funext w v v'
    simp [Sym.sixSpins, Sym.weight, magnOf]
    ring

/-- the measured component as a function of the Matsubara indices; what was not measured counts as zero -/
def meas (X : Nat → Sym.Q4 → Sym.Q4 → List Nat → Option ℂ) (nf nb : Nat) (w v v' : Int) (s : Sym.Q4) : ℂ :=
  (X 0 s (0, 0, 0, 0) [(v + nf).toNat, (v' + nf).toNat, (w + nb).toNat]).getD 0

/-- C129.  The two programs in sequence: worm measurements `X` symmetrised by the first program, the file it leaves read by the second
    one together with the one-particle file (causal self-energies of the two spins, at least 20 positive frequencies).  Whenever the
    second program returns, its result is the DGA result for the spin-averaged self-energy and the density and magnetic combinations
    of the measurements. -/
theorem worm_run (worm : String) (fin : Sym.InFile ℂ) (ans : Bool) (nf nb : Nat) (nba : Nat → Nat)
    (X : Nat → Sym.Q4 → Sym.Q4 → List Nat → Option ℂ) (hin : Sym.InputOk (sym1b worm) fin nf nb nba X) :
    ∃ o, Sym.run (sym1b worm) (some fin) ans .absent = (.done, .file o) ∧
      ∀ (fs : Fs) (path f1 f2 : String) (f h : H5), fs.h5 (path ++ f1) = some f → fs.h5 (path ++ f2) = some h →
        (∀ ch, ch = "dens" ∨ ch = "magn" → h.g2 ch = Sym.g2Of o 0 ch 1 (2 * nb + 1)) →
        ∀ (N : Nat), 20 ≤ N → ∀ (gu gd su sd : Nat → ℂ) (gr sr : List (List (List ℂ))),
        (∀ m, m < N → (su (m + N)).im ≤ 0 ∧ (sd (m + N)).im ≤ 0) →
        f.data "dmft-last/ineq-001/giw/value" = some (.a3 ([(List.range (2 * N)).map gu, (List.range (2 * N)).map gd] :: gr)) →
        f.data "dmft-last/ineq-001/siw/value" = some (.a3 ([(List.range (2 * N)).map su, (List.range (2 * N)).map sd] :: sr)) →
        ∀ (n beta u mu : ℝ), 0 < beta → f.attr "general.totdens" = some (n : ℂ) → f.attr "general.beta" = some (beta : ℂ) →
        f.attr "atoms.1.udd" = some (u : ℂ) → f.data "dmft-last/mu/value" = some (.num (mu : ℂ)) →
        ∀ (uu dd : ℝ) (ud du : ℂ) (r1 r2 : List (List ℂ)) (r3 : List (List (List (List ℂ)))),
        f.data "dmft-last/ineq-001/occ/value" = some (.a4 ([[(uu : ℂ), ud] :: r1, [du, (dd : ℂ)] :: r2] :: r3)) →
        ∀ (S : Settings), LatticeOk S.nx S.ny S.nz S.hr S.syms → ∀ (c w sh as : Nat), (S.box.nivCore = c ∨ S.box.nivCore = -1 ∧ c = nf) → (S.box.niwCore = w ∨ S.box.niwCore = -1 ∧ w = nb) →
        S.box.nivShell = sh → ((as : Int) = if S.box.nivAsympt ≤ 0 then S.box.nivShell + c + w * 2 else S.box.nivAsympt) →
        0 < c → c ≤ nf → w ≤ nb → c ≤ N → 0 < S.nx * S.ny * S.nz → 0 < S.ranks →
        ∀ Sg : Int → ℂ, (∀ m, Sg m = (su (m + N).toNat + sd (m + N).toNat) / 2) →
        w + (c + sh) ≤ (siwObj (samplesF Sg N) beta).nivCore + as →
        (∀ i j k, i < S.nx → j < S.ny → k < S.nz → ∀ x ∈ Finset.Icc (-(w : Int)) w, ∀ a,
          onBox (c + sh) (bubQ S.nx S.ny S.nz (beta : ℂ) (runG S mu beta Sg N) (i, j, k) x) a ≠ 0) →
        ∀ out, mainRun fs "w2dyn" path f1 (some f2) S = .ok out →
          out.box = ⟨w, c, sh, as⟩ ∧
          IsDga c sh S.nx S.ny S.nz w beta (u : ℂ) S.lambdaCorr (runG S mu beta Sg N) (runGloc S mu beta Sg N) Sg
            (onBox2 c (used S.symVVp fun w v v' => densOf (meas X nf nb w v v')))
            (onBox2 c (used S.symVVp fun w v v' => magnOf (meas X nf nb w v v'))) out.run := by
  obtain ⟨o, h1, h2⟩ := worm_to_dict worm fin ans nf nb nba X hin
  refine ⟨o, h1, ?_⟩
  intro fs path f1 f2 f h hf hh hg2 N hN gu gd su sd gr sr hc0 hg hs n beta u mu hb0 hn hb hu hm uu dd ud du r1 r2 r3 ho S hlat c w sh as
    hc hw hsh has h0 hcf hwb hcN hk hR Sg hSg hfit hB0 out hout
  obtain ⟨d, k1, k2, k3, k4, k5, k6, k7, k8⟩ := h2 fs path f1 f2 f h hf hh hg2 N gu gd su sd gr sr hg hs n beta u mu hn hb hu hm uu ud du dd r1 r2 r3 ho
  have hSg' : (fun m : Int => (su (m + N).toNat + sd (m + N).toNat) / 2) = Sg := funext fun m => (hSg m).symm
  rw [hSg'] at k2
  have hn' : d.n = .num (((if n = 0 then uu + dd else n : ℝ)) : ℂ) := by
    rw [k3]
    by_cases hz : n = 0
    · simp [hz]
    · have : (n : ℂ) ≠ 0 := by exact_mod_cast hz
      simp [hz]
  have hcausal : ∀ m : Nat, m < N → (Sg m).im ≤ 0 := by
    intro m hm'
    obtain ⟨a1, a2⟩ := hc0 m hm'
    rw [hSg, show ((m : Int) + N).toNat = m + N by omega, show (2 : ℂ) = ((2 : ℝ) : ℂ) by simp, Complex.div_ofReal_im, Complex.add_im]
    linarith
  obtain ⟨r1, r2, _⟩ := main_run fs "w2dyn" path f1 (some f2) S hlat d k1 N hN Sg k2 hcausal _ beta u mu hb0 hn' k4 k5 k6 nb nf nb nf _ _ k7 k8 c w sh as
    hc hw hsh has h0 hcf hcf hwb hwb hcN hfit hk hR hB0 out hout
  exact ⟨r1, r2⟩

end DGA.Pipe
