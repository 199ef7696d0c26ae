/-
  C142: what the continuations read from a run.
-/
import Verif.Whole.ContsProps

noncomputable section

namespace DGA.Whole

open DGA.Mf DGA.Bz DGA.Bubble DGA.Fp DGA.Two DGA.Inp DGA.Pipe DGA.Pairing DGA.Report DGA.Shared
open DGA.RankFiles (Str)
open DGA.Eli (Grid)

/-- the function of the bosonic index a saved row of `2 w + 1` frequencies holds at the momentum `p` -/
def chiAt (S : Settings) (w : Nat) (rows : List (List ℂ)) (p : Pt) (x : Int) : ℂ := (rows.getD (linP S.ny S.nz p) []).getD (x + w).toNat 0

/-- a function of momentum and frequency has the symmetries of the lattice -/
def Sym3 (S : Settings) (G : Pt → Int → ℂ) : Prop := ∀ σ ∈ S.syms, ∀ p, InGrid S.nx S.ny S.nz p → G (Bz.image S.nx S.ny S.nz σ p) = G p

theorem Sym3.related {S : Settings} {G : Pt → Int → ℂ} (hG : Sym3 S G) {p q : Pt} (hp : InGrid S.nx S.ny S.nz p) (h : Related S.nx S.ny S.nz S.syms p q) :
    G q = G p := by
  induction h with
  | refl => rfl
  | step hs hpq ih => rw [hG _ hs _ (related_inGrid hp hpq), ih]

theorem positiveHalf_samples {α : Type} (l : List α) (Fs : α → Int → ℂ) (N : Nat) :
    positiveHalf (l.map fun x => samplesF (Fs x) N) = l.map fun x => (List.range N).map fun m : Nat => Fs x m := by
  have := congrArg SelfEnergy.sigma (newSelfEnergy_full (l.map Fs) N 0 0 0 0 0)
  simp only [newSelfEnergy, List.map_map, Bool.false_eq_true, if_false] at this
  exact this

section

variable {fs : Fs} {ty path f1 : String} {f2 : Option String} {S : Settings} [NeZero S.nx] [NeZero S.ny] [NeZero S.nz]
variable (I : Files fs ty path f1 f2 S)

/-- the self-energy of a run: symmetric, and what `siwk_dga.npy` holds -/
theorem sigma_saved (out : MainOut) (h : calcFrom S I.d ⟨I.w, I.c, I.sh, I.as⟩ (I.obj "dens" I.D) (I.obj "magn" I.M) = .ok out) :
    out.box = ⟨I.w, I.c, I.sh, I.as⟩ ∧ (Sym3 S fun p => sigmaAt S out.sigma p.1 p.2.1 p.2.2) ∧
    out.sigma.getSiw ((I.sh : Int) + (I.c : Int)) = (List.range (S.nx * S.ny * S.nz)).map fun l =>
      samplesF (sigmaAt S out.sigma (pt S.ny S.nz l).1 (pt S.ny S.nz l).2.1 (pt S.ny S.nz l).2.2) (I.c + I.sh) := by
  obtain ⟨Sig, -, hinv, hsig, hbeta, hcore⟩ := I.calc_sigma out h
  obtain ⟨-, -, hbx, -⟩ := calcFrom_eq S I.d I.n I.beta I.u I.mu I.N I.Sg I.siw I.d_n I.d_beta I.d_u I.d_mu I.w I.c I.sh I.as I.hN
    (used S.symVVp I.D) (used S.symVVp I.M) out h
  have hlen : out.sigma.sigma.length = S.nx * S.ny * S.nz := by rw [hsig, flat3_table]; simp
  have hrow : ∀ r ∈ out.sigma.sigma, out.sigma.nivCore ≤ r.length := by
    rw [hsig, hcore, flat3_table]
    intro r hr
    rw [List.mem_map] at hr
    obtain ⟨l, _, rfl⟩ := hr
    simp
  set R : Nat → Nat → Nat → List ℂ := fun i j k => (List.range (I.c + I.sh)).map fun m : Nat =>
        if m < I.c then Sig i j k m else sigmaSpec (siwObj (samplesF I.Sg I.N) I.beta) (posHalf I.Sg I.N) m with hR
  have hat : ∀ i j k, i < S.nx → j < S.ny → k < S.nz → sigmaAt S out.sigma i j k = sigmaSpec out.sigma (R i j k) := by
    intro i j k hi hj hk
    funext m
    unfold sigmaAt
    have hl : lin S.ny S.nz i j k < S.nx * S.ny * S.nz := Bz.lin_lt S.nx S.ny S.nz i j k hi hj hk
    have hd := lin_div S.ny S.nz i j k hj hk
    simp only [pt, Prod.mk.injEq] at hd
    rw [hsig, flat3_table, show (i * S.ny + j) * S.nz + k = lin S.ny S.nz i j k from rfl, List.getD_eq_getElem?_getD, List.getElem?_map, List.getElem?_range hl]
    simp only [Option.map_some, Option.getD_some]
    rw [hd.1, hd.2.1, hd.2.2]
  have hRimg : ∀ σ ∈ S.syms, ∀ p, InGrid S.nx S.ny S.nz p →
      R (Bz.image S.nx S.ny S.nz σ p).1 (Bz.image S.nx S.ny S.nz σ p).2.1 (Bz.image S.nx S.ny S.nz σ p).2.2 = R p.1 p.2.1 p.2.2 := by
    intro σ hσ p hp
    rw [hR]
    apply List.map_congr_left
    intro m _
    split_ifs with hm
    · exact hinv σ hσ p hp m (by omega) (by omega)
    · rfl
  refine ⟨hbx, ?_, ?_⟩
  · intro σ hσ p hp
    have hp' := image_inGrid S.nx S.ny S.nz σ p hp
    show sigmaAt S out.sigma _ _ _ = sigmaAt S out.sigma _ _ _
    rw [hat _ _ _ hp'.1 hp'.2.1 hp'.2.2, hat _ _ _ hp.1 hp.2.1 hp.2.2, hRimg σ hσ p hp]
  · rw [show ((I.sh : Int) + (I.c : Int)) = ((I.c + I.sh : Nat) : Int) by push_cast; ring, getSiw_value _ hrow]
    apply List.ext_getElem?
    intro l
    rw [List.getElem?_map, List.getElem?_map]
    by_cases hl : l < S.nx * S.ny * S.nz
    · have hl' : l < out.sigma.sigma.length := by rw [hlen]; exact hl
      rw [List.getElem?_range hl, List.getElem?_eq_getElem hl']
      simp only [Option.map_some, Option.some.injEq]
      congr 1
      funext m
      unfold sigmaAt
      have e := Pf.linP_pt S.nx S.ny S.nz l hl
      unfold linP at e
      rw [e, List.getD_eq_getElem?_getD, List.getElem?_eq_getElem hl']
      rfl
    · rw [List.getElem?_eq_none (by rw [hlen]; omega), List.getElem?_eq_none (by simp; omega)]
      rfl

/-- the self-energy object dga_max_ent.py works with: stored values and inverse temperature of the run, moments fitted to the stored momentum mean,
    a core of at least 20 and, if there are so many, at most all stored frequencies -/
theorem loaded_value (out : MainOut) (h : calcFrom S I.d ⟨I.w, I.c, I.sh, I.as⟩ (I.obj "dens" I.D) (I.obj "magn" I.M) = .ok out) :
    let rows := (List.range (S.nx * S.ny * S.nz)).map fun l =>
      valsAt (I.c + I.sh) (sigmaAt S out.sigma (pt S.ny S.nz l).1 (pt S.ny S.nz l).2.1 (pt S.ny S.nz l).2.2)
    let sg := loadedSigma out I.beta
    sg.sigma = rows ∧ sg.beta = I.beta ∧ (sg.smom0, sg.smom1) = fitSmom I.beta rows (I.c + I.sh) ∧ 20 ≤ sg.nivCore ∧
      (20 ≤ I.c + I.sh → sg.nivCore ≤ I.c + I.sh) ∧ (Sym3 S fun p => sigmaAt S sg p.1 p.2.1 p.2.2) ∧
      ∀ p, InGrid S.nx S.ny S.nz p → ∀ m : Int, sigmaAt S sg p.1 p.2.1 p.2.2 m =
        if 0 ≤ m then (if m < sg.nivCore then (if m < I.c + I.sh then sigmaAt S out.sigma p.1 p.2.1 p.2.2 m else 0) else asymptVal I.beta sg.smom0 sg.smom1 m)
        else (starRingEnd ℂ) (if -m - 1 < sg.nivCore then (if -m - 1 < I.c + I.sh then sigmaAt S out.sigma p.1 p.2.1 p.2.2 (-m - 1) else 0)
          else asymptVal I.beta sg.smom0 sg.smom1 (-m - 1)) := by
  intro rows sg
  obtain ⟨hbx, hsym, hsiw⟩ := sigma_saved I out h
  have hsg : sg = newSelfEnergy ((List.range (S.nx * S.ny * S.nz)).map fun l =>
      samplesF (sigmaAt S out.sigma (pt S.ny S.nz l).1 (pt S.ny S.nz l).2.1 (pt S.ny S.nz l).2.2) (I.c + I.sh)) I.beta false none none 1e-4 none := by
    show loadedSigma out I.beta = _
    unfold loadedSigma
    rw [hbx]
    simp only
    rw [hsiw]
  have hhalf := positiveHalf_samples (List.range (S.nx * S.ny * S.nz)) (fun l => sigmaAt S out.sigma (pt S.ny S.nz l).1 (pt S.ny S.nz l).2.1 (pt S.ny S.nz l).2.2) (I.c + I.sh)
  have hniv : ((rows.head?.map List.length).getD 0) = I.c + I.sh := by
    have hpos : 0 < S.nx * S.ny * S.nz := nk_pos
    rw [List.head?_eq_getElem?]
    simp [rows, List.getElem?_range hpos, valsAt]
  have hs : sg.sigma = rows := by
    rw [hsg]
    unfold newSelfEnergy
    simp only [Bool.false_eq_true, if_false]
    exact hhalf
  have hb : sg.beta = I.beta := by rw [hsg]; rfl
  have hat : ∀ p, InGrid S.nx S.ny S.nz p → sg.sigma.getD ((p.1 * S.ny + p.2.1) * S.nz + p.2.2) [] = valsAt (I.c + I.sh) (sigmaAt S out.sigma p.1 p.2.1 p.2.2) := by
    intro p hp
    have hl : lin S.ny S.nz p.1 p.2.1 p.2.2 < S.nx * S.ny * S.nz := Bz.lin_lt S.nx S.ny S.nz _ _ _ hp.1 hp.2.1 hp.2.2
    rw [hs, show (p.1 * S.ny + p.2.1) * S.nz + p.2.2 = lin S.ny S.nz p.1 p.2.1 p.2.2 from rfl, List.getD_eq_getElem?_getD, List.getElem?_map, List.getElem?_range hl]
    simp only [Option.map_some, Option.getD_some]
    rw [lin_div S.ny S.nz _ _ _ hp.2.1 hp.2.2]
  have hget : ∀ (f : Int → ℂ) (n : Nat) (m : Int), 0 ≤ m → (valsAt n f).getD m.toNat 0 = if m < n then f m else 0 := by
    intro f n m hm
    unfold valsAt
    rw [List.getD_eq_getElem?_getD, List.getElem?_map]
    split_ifs with h1
    · rw [List.getElem?_range (by omega)]
      simp [Int.toNat_of_nonneg hm]
    · rw [List.getElem?_eq_none (by simp; omega)]
      rfl
  refine ⟨hs, hb, ?_, ?_, ?_, ?_, ?_⟩
  · rw [hsg]
    unfold newSelfEnergy
    simp only [Bool.false_eq_true, if_false, Option.getD_none, hhalf]
    rw [show ((List.range (S.nx * S.ny * S.nz)).map fun l => (List.range (I.c + I.sh)).map fun m : Nat =>
      sigmaAt S out.sigma (pt S.ny S.nz l).1 (pt S.ny S.nz l).2.1 (pt S.ny S.nz l).2.2 m) = rows from rfl, hniv]
  · rw [hsg]; exact (estimate_bounds _ _ _ _ _ _).1
  · intro h20
    have : sg.nivCore = estimateNivCore rows (I.c + I.sh) I.beta sg.smom0 sg.smom1 1e-4 := by
      rw [hsg]
      unfold newSelfEnergy
      simp only [Bool.false_eq_true, if_false, Option.getD_none, hhalf]
      rw [show ((List.range (S.nx * S.ny * S.nz)).map fun l => (List.range (I.c + I.sh)).map fun m : Nat =>
        sigmaAt S out.sigma (pt S.ny S.nz l).1 (pt S.ny S.nz l).2.1 (pt S.ny S.nz l).2.2 m) = rows from rfl, hniv]
    rw [this]
    exact (estimate_bounds _ _ _ _ _ _).2 h20
  · intro σ hσ p hp
    have hp' := image_inGrid S.nx S.ny S.nz σ p hp
    funext m
    show sigmaSpec sg _ m = sigmaSpec sg _ m
    rw [hat _ hp', hat _ hp]
    have := hsym σ hσ p hp
    simp only at this
    rw [this]
  · intro p hp m
    have e : sigmaAt S sg p.1 p.2.1 p.2.2 m = sigmaSpec sg (valsAt (I.c + I.sh) (sigmaAt S out.sigma p.1 p.2.1 p.2.2)) m := by
      show sigmaSpec sg _ m = _
      rw [hat p hp]
    rw [e]
    unfold sigmaSpec
    rw [hb]
    unfold asymptVal
    by_cases h1 : 0 ≤ m
    · rw [if_pos h1, if_pos h1, hget _ _ _ h1]
      push_cast
      split_ifs <;> first | rfl | ring
    · rw [if_neg h1, if_neg h1, hget _ _ _ (by omega)]
      push_cast
      split_ifs <;> first | rfl | (congr 1; ring)

/-- the susceptibilities of a run: one row of `2 w + 1` frequencies per momentum, the same for momenta of the same class -/
theorem chi_saved (out : MainOut) (h : calcFrom S I.d ⟨I.w, I.c, I.sh, I.as⟩ (I.obj "dens" I.D) (I.obj "magn" I.M) = .ok out) :
    ∃ mp, fbz2irrk S.nx S.ny S.nz S.syms = some mp ∧ ∀ rows, rows = out.run.chi.dens ∨ rows = out.run.chi.magn →
      reshape3 rows S.nx S.ny S.nz = (table S.nx S.ny S.nz fun i j k => samplesB (chiAt S I.w rows (i, j, k)) I.w) ∧
      ∀ p r, InGrid S.nx S.ny S.nz p → InGrid S.nx S.ny S.nz r → Bz.at3 mp r.1 r.2.1 r.2.2 = Bz.at3 mp p.1 p.2.1 p.2.2 → chiAt S I.w rows r = chiAt S I.w rows p := by
  obtain ⟨mp, hmp, hbx, hrun, -⟩ := calcFrom_eq S I.d I.n I.beta I.u I.mu I.N I.Sg I.siw I.d_n I.d_beta I.d_u I.d_mu I.w I.c I.sh I.as I.hN
    (used S.symVVp I.D) (used S.symVVp I.M) out h
  obtain ⟨V⟩ := I.vertexOf out h
  obtain ⟨hflen, hflat⟩ := Pf.flat_index S.nx S.ny S.nz S.syms mp hmp
  refine ⟨mp, hmp, ?_⟩
  have hVm : V.Sv.m = mp := by
    have := V.Sv.hm
    rw [V.hsyms, hmp] at this
    exact (Option.some.inj this).symm
  have hVw : V.Sv.C.niw = I.w := by rw [V.hC]; rfl
  -- number of rows
  have hlen : out.run.chi.dens.length = S.nx * S.ny * S.nz ∧ out.run.chi.magn.length = S.nx * S.ny * S.nz := by
    obtain ⟨loc, Q, -, hlad, hd, hm⟩ := dgaRun_parts _ _ _ _ _ _ _ _ _ _ _ _ _ _ _ hrun
    have htake : ∀ {α : Type} (l x : List α), irrk2fbzList (flat3 mp) l = some x → x.length = S.nx * S.ny * S.nz := by
      intro α l x hx
      obtain ⟨c1, -⟩ := DGA.Mf.mapM_getElem? _ _ _ hx
      rw [c1]
      simpa [irrkInv] using hflen
    unfold ladderFbz at hlad
    simp only [Option.bind_eq_some_iff] at hlad
    obtain ⟨_, _, _, _, _, _, hf⟩ := hlad
    unfold Pipe.toFbz at hf
    simp only [Option.bind_eq_some_iff, Option.map_eq_some_iff] at hf
    obtain ⟨_, _, _, _, cd, hcd, cm, hcm, _, _, rfl⟩ := hf
    rw [hd, hm]
    simp only [List.length_map]
    exact ⟨htake _ _ hcd, htake _ _ hcm⟩
  have key : ∀ (rows : List (List ℂ)) (X : Nat → Int → ℂ), rows.length = S.nx * S.ny * S.nz →
      (∀ (q : Grid S.nx S.ny S.nz) (iq : Nat), irrOf (flat3 mp) q = some iq → rowQ rows q = samplesB (X iq) I.w) →
      reshape3 rows S.nx S.ny S.nz = (table S.nx S.ny S.nz fun i j k => samplesB (chiAt S I.w rows (i, j, k)) I.w) ∧
      ∀ p r, InGrid S.nx S.ny S.nz p → InGrid S.nx S.ny S.nz r → Bz.at3 mp r.1 r.2.1 r.2.2 = Bz.at3 mp p.1 p.2.1 p.2.2 → chiAt S I.w rows r = chiAt S I.w rows p := by
    intro rows X hl hX
    have hrow : ∀ p, InGrid S.nx S.ny S.nz p → ∃ lab, Bz.at3 mp p.1 p.2.1 p.2.2 = some lab ∧
        rows.getD (linP S.ny S.nz p) [] = samplesB (X ((uniq (flat3 mp)).idxOf lab)) I.w := by
      intro p hp
      have hpl : linP S.ny S.nz p < S.nx * S.ny * S.nz := Bz.lin_lt S.nx S.ny S.nz _ _ _ hp.1 hp.2.1 hp.2.2
      obtain ⟨lab, hlab⟩ : ∃ lab, (flat3 mp)[linP S.ny S.nz p]? = some lab := ⟨_, List.getElem?_eq_getElem (by omega)⟩
      refine ⟨lab, by rw [← hflat p hp, hlab], ?_⟩
      let q : Grid S.nx S.ny S.nz := (((p.1 : Nat) : ZMod S.nx), ((p.2.1 : Nat) : ZMod S.ny), ((p.2.2 : Nat) : ZMod S.nz))
      have hq : flatQ q = linP S.ny S.nz p := by
        unfold flatQ linP
        simp only [q]
        rw [ZMod.val_natCast_of_lt hp.1, ZMod.val_natCast_of_lt hp.2.1, ZMod.val_natCast_of_lt hp.2.2]
      have := hX q ((uniq (flat3 mp)).idxOf lab) (by unfold irrOf irrkInv; rw [hq, List.getElem?_map, hlab]; rfl)
      rw [← this]
      unfold rowQ
      rw [hq]
    have hself : ∀ l, l < S.nx * S.ny * S.nz → rows.getD l [] = samplesB (chiAt S I.w rows (pt S.ny S.nz l)) I.w := by
      intro l hl'
      obtain ⟨b1, b2, b3, _⟩ := pt_bounds S.nx S.ny S.nz l hl'
      obtain ⟨lab, -, e⟩ := hrow _ ⟨b1, b2, b3⟩
      have e0 := Pf.linP_pt S.nx S.ny S.nz l hl'
      rw [e0] at e
      rw [e]
      apply samplesB_congr'
      intro x hx
      unfold chiAt
      rw [e0, e]
      unfold samplesB
      rw [List.getD_eq_getElem?_getD, List.getElem?_map]
      simp only [wn, Bool.false_eq_true, if_false]
      rw [Py.arange_get? _ _ _ (by omega)]
      simp only [Option.map_some, Option.getD_some]
      congr 1
      omega
    constructor
    · rw [show rows = (List.range (S.nx * S.ny * S.nz)).map fun l => rows.getD l [] by
        apply List.ext_getElem?
        intro l
        rw [List.getElem?_map]
        by_cases hl' : l < S.nx * S.ny * S.nz
        · rw [List.getElem?_range hl', List.getElem?_eq_getElem (by omega)]
          simp [List.getD_eq_getElem?_getD, List.getElem?_eq_getElem (show l < rows.length by omega)]
        · rw [List.getElem?_eq_none (by omega), List.getElem?_eq_none (by simp; omega)]
          rfl, reshape3_range fun l => rows.getD l []]
      apply table_congr
      intro i j k hi hj hk
      have hl' : lin S.ny S.nz i j k < S.nx * S.ny * S.nz := Bz.lin_lt S.nx S.ny S.nz i j k hi hj hk
      rw [hself _ hl', lin_div S.ny S.nz i j k hj hk]
      congr 2
      apply List.ext_getElem?
      intro l
      rw [List.getElem?_map]
      by_cases hl'' : l < S.nx * S.ny * S.nz
      · rw [List.getElem?_range hl'', List.getElem?_eq_getElem (by omega)]
        simp [List.getD_eq_getElem?_getD, List.getElem?_eq_getElem (show l < rows.length by omega)]
      · rw [List.getElem?_eq_none (by omega), List.getElem?_eq_none (by simp; omega)]
        rfl
    · intro p r hp hr hpr
      obtain ⟨lab, e1, e2⟩ := hrow p hp
      obtain ⟨lab', e3, e4⟩ := hrow r hr
      rw [hpr, e1] at e3
      cases e3
      funext x
      unfold chiAt
      rw [e2, e4]
  rintro rows (rfl | rfl)
  · refine key _ V.Sv.C.ingr.chiD hlen.1 fun q iq hq => ?_
    have := V.Sv.inp.cD q iq (by rw [hVm]; exact hq)
    rw [V.chiD, hVw] at this
    exact this
  · refine key _ V.Sv.C.ingr.chiM hlen.2 fun q iq hq => ?_
    have := V.Sv.inp.cM q iq (by rw [hVm]; exact hq)
    rw [V.chiM, hVw] at this
    exact this

end

end DGA.Whole
