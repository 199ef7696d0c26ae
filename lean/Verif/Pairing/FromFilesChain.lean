/-
  C130: a run that returns is a calculation in the sense of C117/C120 whose rank files, susceptibilities and Green's function are those
  of the run of C129.
-/
import Verif.Pairing.FromFiles

noncomputable section

namespace DGA.Pairing

open DGA.RankFiles DGA.Mpi DGA.Pipe DGA.Fp DGA.Mf DGA.Bz DGA.Bubble DGA.Two DGA.Inp
open DGA.Eli (Grid Run elCfg linearEliashberg)

/-- the shifts the run reports, as real numbers -/
def lamReal (mode : String) (r : Lam.Corrected) : Option ℝ × Option ℝ :=
  if mode = "spch" then (some r.lamDens, some r.lamMagn) else if mode = "sp" then (none, some r.lamMagn) else (none, none)

theorem lamOf_real (mode : String) (r : Lam.Corrected) :
    lamOf mode r = ((lamReal mode r).1.map (↑), (lamReal mode r).2.map (↑)) := by
  unfold lamOf lamReal
  split_ifs <;> rfl

/-- the intermediate results of a run that returns -/
theorem dgaRun_parts {c : Nat} (s R nx ny nz : Nat) (f : List Nat) (g2D g2M : FourP (2 * c) ℂ) (b : Bub ℂ) (beta : ℝ) (mode : String)
    (u n : ℂ) (siw : List ℂ) (out : RunOut) (h : dgaRun s R nx ny nz f g2D g2M b beta mode u n siw = .ok out) :
    ∃ loc d, localSde s g2D g2M b n = some loc ∧ ladderFbz s R nx ny nz f loc.1.gam loc.2.1.gam b = some d ∧
      out.chi.dens = (d.chiD.map fun x => x.map (corrected (lamOf mode out.chi).1)) ∧
      out.chi.magn = d.chiM.map fun x => x.map (corrected (lamOf mode out.chi).2) := by
  unfold dgaRun at h
  split at h
  · cases h
  · rename_i loc hl
    split at h
    · cases h
    · rename_i d hd
      split at h
      · cases h
      · rename_i r hr
        split at h
        · cases h
        · cases h
          obtain ⟨_, h1, h2⟩ := lambdaCorrection_arrays _ _ _ _ _ _ _ hr
          exact ⟨loc, d, hl, hd, h1, h2⟩

theorem pt_flatQ {nx ny nz : Nat} [NeZero nx] [NeZero ny] [NeZero nz] (q : Grid nx ny nz) : pt ny nz (flatQ q) = ptOf q := by
  have h2 := ZMod.val_lt q.2.1
  have h3 := ZMod.val_lt q.2.2
  exact lin_div ny nz q.1.val q.2.1.val q.2.2.val h2 h3

theorem flat_at {nx ny nz : Nat} [NeZero nx] [NeZero ny] [NeZero nz] {α : Type} (F : Nat → Nat → Nat → α) (d : α) (q : Grid nx ny nz) :
    (flat3 (table nx ny nz F)).getD (flatQ q) d = F q.1.val q.2.1.val q.2.2.val := by
  have h := pt_flatQ q
  unfold pt ptOf at h
  simp only [Prod.mk.injEq] at h
  rw [flat3_table, List.getD_eq_getElem?_getD, List.getElem?_map, List.getElem?_range (flatQ_lt q), Option.map_some, Option.getD_some, h.1, h.2.1, h.2.2]

/-- the representative of a momentum is that of its irreducible number -/
theorem rep_irr {nx ny nz : Nat} [NeZero nx] [NeZero ny] [NeZero nz] (f : List Nat) (irr : List (Nat × Nat × Nat)) (rep : Mom → Mom)
    (h2 : irrk2fbzList f ((irr.map momOf).map id) = some (((qList nx ny nz).map momOf).map fun (q : Mom) => id (rep q)))
    (q : Grid nx ny nz) (iq : Nat) (hq : irrOf f q = some iq) : rep (momOf (ptOf q)) = repOf irr iq := by
  unfold irrk2fbzList take? at h2
  rw [mapM_if _ _ (0, 0, 0)] at h2
  split at h2
  · have h3 := congrArg (fun l => l[flatQ q]?) (Option.some.inj h2)
    unfold irrOf at hq
    rw [show qList nx ny nz = (List.range (nx * ny * nz)).map fun l => pt ny nz l from flat3_table nx ny nz fun i j k => (i, j, k)] at h3
    simp only [List.getElem?_map, hq, Option.map_some, List.getElem?_range (flatQ_lt q), id, pt_flatQ, Option.some.injEq, List.map_id] at h3
    rw [← h3]
    unfold repOf
    rw [List.getD_eq_getElem?_getD]
    congr 1
    simp
  · cases h2

theorem rowQ_grid {nx ny nz : Nat} [NeZero nx] [NeZero ny] [NeZero nz] (niw : Nat) (C : Mom → Int → ℂ) (lam : Option ℂ) (q : Grid nx ny nz) :
    rowQ ((((qList nx ny nz).map momOf).map fun (q : Mom) => (wn niw).map fun (x : Int) => C q x).map fun r => r.map (corrected lam)) q =
      samplesB (fun x => corrected lam (C (momOf (ptOf q)) x)) niw := by
  unfold rowQ
  rw [show qList nx ny nz = (List.range (nx * ny * nz)).map fun l => pt ny nz l from flat3_table nx ny nz fun i j k => (i, j, k)]
  simp only [List.map_map, List.getD_eq_getElem?_getD, List.getElem?_map, List.getElem?_range (flatQ_lt q), Option.map_some, Option.getD_some,
    Function.comp, pt_flatQ]
  rfl

theorem samplesB_congr' (X Y : Int → ℂ) (N : Nat) (h : ∀ x : Int, -(N : Int) ≤ x ∧ x ≤ N → X x = Y x) : samplesB X N = samplesB Y N := by
  unfold samplesB
  apply List.map_congr_left
  intro x hx
  exact h x ((mem_wn N x).1 hx)

/-! ### The Green's function of the DGA self-energy -/

theorem bandOf_length (S : Settings) : (bandOf S).length = S.nx * S.ny * S.nz := by
  unfold bandOf
  rw [flat3_table]
  simp

theorem bandOf_at (S : Settings) [NeZero S.nx] [NeZero S.ny] [NeZero S.nz] (q : Grid S.nx S.ny S.nz) :
    ekOf (bandOf S) (flatQ q) = (bloch S.hr (kPt S.nx S.ny S.nz q.1.val q.2.1.val q.2.2.val)).re := by
  have h : ekOf (bandOf S) (flatQ q) = (bandOf S).getD (flatQ q) 0 := by
    unfold ekOf
    split_ifs with h1
    · rw [bandOf_length] at h1
      have := flatQ_lt q
      rw [show flatQ q = 0 by omega]
    · rfl
  rw [h]
  unfold bandOf
  rw [flat_at, getEk_bloch _ _ _ _ _ _ _ (ZMod.val_lt _) (ZMod.val_lt _)]

/-- Dyson's equation with the saved self-energy: what the Eliashberg solver gets -/
theorem newGf_rows (S : Settings) [NeZero S.nx] [NeZero S.ny] [NeZero S.nz] (s : SelfEnergy) (hlen : s.sigma.length = S.nx * S.ny * S.nz)
    (hrow : ∀ r ∈ s.sigma, s.nivCore ≤ r.length) (mu : ℝ) (n : Int) (g : Gf) (h : newGf s (bandOf S) mu n = some g) :
    rowQ g.core = fun k : Grid S.nx S.ny S.nz => samplesF (fun m => gVal s (bandOf S) mu (flatQ k) m) s.nivCore := by
  have hpos : 0 < S.nx * S.ny * S.nz := Nat.mul_pos (Nat.mul_pos (Nat.pos_of_ne_zero (NeZero.ne _)) (Nat.pos_of_ne_zero (NeZero.ne _))) (Nat.pos_of_ne_zero (NeZero.ne _))
  have hnK : nK s (bandOf S) = S.nx * S.ny * S.nz := by
    unfold nK
    rw [bandOf_length, hlen]
    split_ifs <;> rfl
  obtain ⟨a, ha, _⟩ := newGf_state s (bandOf S) mu n (Or.inl (by rw [bandOf_length, hlen])) hrow (by rw [hnK]; exact hpos)
  rw [ha] at h
  rw [← Option.some.inj h]
  funext k
  unfold rowQ
  simp only [List.getD_eq_getElem?_getD, List.getElem?_map, hnK, List.getElem?_range (flatQ_lt k), Option.map_some, Option.getD_some]

theorem rowOf_flat (S : Settings) [NeZero S.nx] [NeZero S.ny] [NeZero S.nz] (s : SelfEnergy) (R : Nat → Nat → Nat → List ℂ)
    (hs : s.sigma = flat3 (table S.nx S.ny S.nz R)) (q : Grid S.nx S.ny S.nz) : rowOf s (flatQ q) = R q.1.val q.2.1.val q.2.2.val := by
  rw [← flat_at R [] q, ← hs]
  unfold rowOf
  split_ifs with h1
  · rw [hs, flat3_table, List.length_map, List.length_range] at h1
    have := flatQ_lt q
    rw [show flatQ q = 0 by omega]
  · rfl

/-! ### What the files contain -/

/-- The input of the run (the hypotheses of C129): a dictionary read from the files with the self-energy `Sg` on `2 N` frequencies, filling,
    temperature, interaction, chemical potential, and two-particle data `D`, `M` at their Matsubara indices on boxes at least as large as
    those the run uses (`w`, `c`, shell `sh`, asymptotic range `as`); self-energy and two-particle data conjugate at opposite frequencies;
    the boxes fit, the grid uses one of the predefined symmetry sets, the band of the hopping
    table is real and has these symmetries, and the pairing box is not empty. -/
structure Files (fs : Fs) (ty path f1 : String) (f2 : Option String) (S : Settings) where
  d : Dict
  load : load1p fs ty path f1 f2 = some d
  N : Nat
  hN : 20 ≤ N
  Sg : Int → ℂ
  siw : d.siw = .a1 (samplesF Sg N)
  Sg_conj : ∀ m, Sg (-m - 1) = star (Sg m)
  n : ℝ
  beta : ℝ
  u : ℝ
  mu : ℝ
  beta_pos : 0 < beta
  d_n : d.n = .num n
  d_beta : d.beta = .num beta
  d_u : d.u = .num u
  d_mu : d.mu = .num mu
  wD : Nat
  vD : Nat
  wM : Nat
  vM : Nat
  D : Int → Int → Int → ℂ
  M : Int → Int → Int → ℂ
  dens : d.dens = some (.a3 (tab wD vD D))
  magn : d.magn = some (.a3 (tab wM vM M))
  D_conj : ∀ w v v', D (-w) (-v - 1) (-v' - 1) = star (D w v v')
  M_conj : ∀ w v v', M (-w) (-v - 1) (-v' - 1) = star (M w v v')
  c : Nat
  w : Nat
  sh : Nat
  as : Nat
  box_c : S.box.nivCore = c ∨ S.box.nivCore = -1 ∧ c = vD
  box_w : S.box.niwCore = w ∨ S.box.niwCore = -1 ∧ w = wD
  box_sh : S.box.nivShell = sh
  box_as : (as : Int) = if S.box.nivAsympt ≤ 0 then S.box.nivShell + c + w * 2 else S.box.nivAsympt
  c_pos : 0 < c
  cD : c ≤ vD
  cM : c ≤ vM
  wwD : w ≤ wD
  wwM : w ≤ wM
  cN : c ≤ N
  fit : w + (c + sh) ≤ (siwObj (samplesF Sg N) beta).nivCore + as
  ranks : 0 < S.ranks
  syms : S.syms ∈ Bz.predefined
  lat : LatticeOk S.nx S.ny S.nz S.hr S.syms
  pp : 0 < nivPP w c

namespace Files

variable {fs : Fs} {ty path f1 : String} {f2 : Option String} {S : Settings} (I : Files fs ty path f1 f2 S)

/-- number of frequencies of the Green's function -/
def NG : Nat := (siwObj (samplesF I.Sg I.N) I.beta).nivCore + I.as

/-- lattice Green's function, Dyson's equation with the DMFT self-energy -/
def G : Nat → Nat → Nat → Int → ℂ := runG S I.mu I.beta I.Sg I.N

/-- local Green's function -/
def gloc : Int → ℂ := gLocBand S.nx S.ny S.nz S.hr I.mu (siwObj (samplesF I.Sg I.N) I.beta) (posHalf I.Sg I.N)

/-- the local calculation of the run -/
def localRun : Option (Chan (2 * I.c) ℂ × Chan (2 * I.c) ℂ × List ℂ) :=
  localSde I.sh (objOf true I.w (I.beta : ℂ) (I.u : ℂ) (onBox2 I.c (used S.symVVp I.D))) (objOf false I.w (I.beta : ℂ) (I.u : ℂ) (onBox2 I.c (used S.symVVp I.M)))
    (genOf S.nx S.ny S.nz I.NG I.w (I.beta : ℂ) I.G I.gloc) (I.n : ℂ)

theorem G_conj (i j k : Nat) (m : Int) : I.G i j k (-m - 1) = star (I.G i j k m) := gBand_conj _ _ _ _ _ _ _ i j k m

theorem gloc_conj (m : Int) : I.gloc (-m - 1) = star (I.gloc m) := gLocBand_conj _ _ _ _ _ _ _ m

theorem rev_val {c : Nat} (i : Fin (2 * c)) : ((i.rev.val : Int) - c) = -((i.val : Int) - c) - 1 := by
  rw [Fin.val_rev]; omega

theorem used_box_conj {c : Nat} (sym : Bool) (F : Int → Int → Int → ℂ) (hF : ∀ w v v', F (-w) (-v - 1) (-v' - 1) = star (F w v v')) (x : Int)
    (i j : Fin (2 * c)) : onBox2 c (used sym F) (-x) i.rev j.rev = star (onBox2 c (used sym F) x i j) := by
  simp only [onBox2, Matrix.of_apply, rev_val, used_conj sym F hF]

theorem build : buildG2 S.box S.symVVp I.d = some (⟨I.w, I.c, I.sh, I.as⟩, ⟨"dens", tab I.w I.c (used S.symVVp I.D), (I.beta : ℂ), (I.u : ℂ), none⟩,
    ⟨"magn", tab I.w I.c (used S.symVVp I.M), (I.beta : ℂ), (I.u : ℂ), none⟩) := by
  obtain ⟨box', hbuild, q1, q2, q3, q4⟩ := buildG2_value S.box S.symVVp I.d I.beta I.u I.d_beta I.d_u I.wD I.vD I.wM I.vM I.D I.M I.dens I.magn I.c I.w
    I.box_c I.box_w I.c_pos I.cD I.cM I.wwD I.wwM
  have hbox : box' = ⟨I.w, I.c, I.sh, I.as⟩ := by
    obtain ⟨b1, b2, b3, b4⟩ := box'
    simp only at q1 q2 q3 q4
    rw [q1, q2, q3, I.box_sh, q4, I.box_as]
  rw [hbuild, hbox]
  rfl

/-- conjugation symmetry on the bosonic frequencies of the run -/
def VertexConj (Γ : Int → Mat (2 * I.c) ℂ) : Prop := ∀ x : Int, -(I.w : Int) ≤ x ∧ x ≤ I.w → Γ (-x) = cm (Γ x)

/-- the ladder calculation of the run -/
def theCalc (lam : Option ℝ × Option ℝ) (ΓD ΓM : Int → Mat (2 * I.c) ℂ) (hD : I.VertexConj ΓD) (hM : I.VertexConj ΓM) (rep : Nat → Mom) :
    Calc S.nx S.ny S.nz I.c where
  s := I.sh
  niw := I.w
  N := I.NG
  beta := I.beta
  u := I.u
  lamD := lam.1
  lamM := lam.2
  ΓD := ΓD
  ΓM := ΓM
  G := I.G
  rep := rep
  fit := I.fit
  hG := fun i j k m _ _ => I.G_conj i j k m
  hD := hD
  hM := hM

/-- the rank files of one component -/
def files (second : Bool) (mp : Bz.Arr3 Nat) (gam : FourP (2 * I.c) ℂ) : Option (List (File PvGroup)) :=
  pvFiles second I.sh S.ranks S.nx S.ny S.nz (flat3 mp) I.w gam (genOf S.nx S.ny S.nz I.NG I.w (I.beta : ℂ) I.G I.gloc) (I.beta : ℂ) (I.u : ℂ)

/-- the rank files of one component when the program runs on `R` ranks -/
def filesOn (R : Nat) (second : Bool) (mp : Bz.Arr3 Nat) (gam : FourP (2 * I.c) ℂ) : Option (List (File PvGroup)) :=
  pvFiles second I.sh R S.nx S.ny S.nz (flat3 mp) I.w gam (genOf S.nx S.ny S.nz I.NG I.w (I.beta : ℂ) I.G I.gloc) (I.beta : ℂ) (I.u : ℂ)

/-- the input objects as the run uses them -/
def obj (ch : String) (F : Int → Int → Int → ℂ) : G2 := ⟨ch, tab I.w I.c (used S.symVVp F), (I.beta : ℂ), (I.u : ℂ), none⟩

variable [NeZero S.nx] [NeZero S.ny] [NeZero S.nz]

/-- the vertex part of a run: the local calculation with its irreducible vertices, the rank files and the corrected susceptibilities -/
structure VertexOf (out : MainOut) where
  Sv : Saved S.nx S.ny S.nz I.c
  dc : Chan (2 * I.c) ℂ
  mc : Chan (2 * I.c) ℂ
  loc : List ℂ
  ΓD : Int → Mat (2 * I.c) ℂ
  ΓM : Int → Mat (2 * I.c) ℂ
  hD : I.VertexConj ΓD
  hM : I.VertexConj ΓM
  rep : Nat → Mom
  hloc : I.localRun = some (dc, mc, loc)
  gamD : dc.gam = objOf true I.w (I.beta : ℂ) (I.u : ℂ) ΓD
  gamM : mc.gam = objOf false I.w (I.beta : ℂ) (I.u : ℂ) ΓM
  invD : ∀ x ∈ wn I.w, gamUrangeW (s := I.sh) (Matrix.of (gchiOf (I.beta : ℂ) I.gloc true (onBox2 I.c (used S.symVVp I.D)) x))
        (Pipe.onBox (I.c + I.sh) (bubLoc (I.beta : ℂ) I.gloc x)) (I.beta : ℂ) (I.u : ℂ) = some (ΓD x)
  invM : ∀ x ∈ wn I.w, gamUrangeW (s := I.sh) (Matrix.of (gchiOf (I.beta : ℂ) I.gloc false (onBox2 I.c (used S.symVVp I.M)) x))
        (Pipe.onBox (I.c + I.sh) (bubLoc (I.beta : ℂ) I.gloc x)) (I.beta : ℂ) (-(I.u : ℂ)) = some (ΓM x)
  hC : Sv.C = I.theCalc (lamReal S.lambdaCorr out.run.chi) ΓD ΓM hD hM rep
  hsyms : Sv.syms = S.syms
  f1M : I.files false Sv.m mc.gam = some Sv.f1M
  f2M : I.files true Sv.m mc.gam = some Sv.f2M
  f1D : I.files false Sv.m dc.gam = some Sv.f1D
  f2D : I.files true Sv.m dc.gam = some Sv.f2D
  chiM : Sv.chiM = rowQ out.run.chi.magn
  chiD : Sv.chiD = rowQ out.run.chi.dens
  onRanks : ∀ R, 0 < R → ∃ g1M g2M g1D g2D, I.filesOn R false Sv.m mc.gam = some g1M ∧ I.filesOn R true Sv.m mc.gam = some g2M ∧
        I.filesOn R false Sv.m dc.gam = some g1D ∧ I.filesOn R true Sv.m dc.gam = some g2D ∧
        Inputs Sv.C.ingr (flat3 Sv.m) R Sv.C.niw I.c g1M g2M g1D g2D Sv.chiM Sv.chiD
  hrep : ∀ (q : Grid S.nx S.ny S.nz) (iq : Nat), irrOf (flat3 Sv.m) q = some iq →
        OkBoth (wn I.w) (I.beta : ℂ) (I.u : ℂ) ΓD ΓM (bubQ S.nx S.ny S.nz (I.beta : ℂ) I.G) (rep iq) ∧
        bubQ S.nx S.ny S.nz (I.beta : ℂ) I.G (rep iq) = bubQ S.nx S.ny S.nz (I.beta : ℂ) I.G (momOf (ptOf q))
  irr : List (Nat × Nat × Nat)
  hirr : irrqList S.nx S.ny S.nz (flat3 Sv.m) = some irr
  hrepOf : rep = repOf irr
  hokI : ∀ q ∈ irr.map momOf, OkBoth (wn I.w) (I.beta : ℂ) (I.u : ℂ) ΓD ΓM (bubQ S.nx S.ny S.nz (I.beta : ℂ) I.G) q

/-- Every run that returns has such a vertex part. -/
theorem vertexOf (out : MainOut) (h : calcFrom S I.d ⟨I.w, I.c, I.sh, I.as⟩ (I.obj "dens" I.D) (I.obj "magn" I.M) = .ok out) :
    Nonempty (I.VertexOf out) := by
  obtain ⟨mp, hmp, hbx, hrun, hcr⟩ := calcFrom_eq S I.d I.n I.beta I.u I.mu I.N I.Sg I.siw I.d_n I.d_beta I.d_u I.d_mu I.w I.c I.sh I.as I.hN
    (used S.symVVp I.D) (used S.symVVp I.M) out h
  have hb : star (I.beta : ℂ) = (I.beta : ℂ) := Complex.conj_ofReal I.beta
  have hu : star (I.u : ℂ) = (I.u : ℂ) := Complex.conj_ofReal I.u
  have hb0 : (I.beta : ℂ) ≠ 0 := by exact_mod_cast I.beta_pos.ne'
  have hfit : I.w + (I.c + I.sh) ≤ I.NG := I.fit
  obtain ⟨⟨dc, mc, loc⟩, Q, hloc, hlad, hdens, hmagn⟩ := dgaRun_parts _ _ _ _ _ _ _ _ _ _ _ _ _ _ _ hrun
  obtain ⟨ΓD, ΓM, e1, e2, k1, k2, _⟩ := localSde_closed S.nx S.ny S.nz I.NG I.w (I.beta : ℂ) I.u I.n hb hb0 I.G I.gloc
    (fun m _ _ => I.gloc_conj m) hfit _ _ dc mc loc hloc
  have hD : I.VertexConj ΓD := gam_conj (I.beta : ℂ) I.u hb hu I.gloc I.NG I.w hfit (fun m _ _ => I.gloc_conj m) true _ ΓD
    (fun x _ i j => used_box_conj _ _ I.D_conj x i j) k1
  have hM : I.VertexConj ΓM := gam_conj (I.beta : ℂ) (-I.u) hb (by rw [star_neg, hu]) I.gloc I.NG I.w hfit (fun m _ _ => I.gloc_conj m) false _ ΓM
    (fun x _ i j => used_box_conj _ _ I.M_conj x i j) k2
  have hinv := gBand_invariant I.lat I.mu (siwObj (samplesF I.Sg I.N) I.beta) (posHalf I.Sg I.N)
  obtain ⟨label, hlab, hlab2⟩ := label_of S.nx S.ny S.nz S.syms mp hmp
  subst hlab
  obtain ⟨irr, rep, h1, h2, h3⟩ := expand_irr S.nx S.ny S.nz label
  simp only [e1, e2] at hlad
  rw [show (genOf S.nx S.ny S.nz ((siwObj (samplesF I.Sg I.N) I.beta).nivCore + I.as) I.w (I.beta : ℂ)
      (gBand S.nx S.ny S.nz S.hr I.mu (siwObj (samplesF I.Sg I.N) I.beta) (posHalf I.Sg I.N))
      (gLocBand S.nx S.ny S.nz S.hr I.mu (siwObj (samplesF I.Sg I.N) I.beta) (posHalf I.Sg I.N))) =
      genOf S.nx S.ny S.nz I.NG I.w (I.beta : ℂ) I.G I.gloc from rfl,
    ladderFbz_of I.sh S.nx S.ny S.nz I.NG I.w (I.beta : ℂ) I.u hb I.G I.gloc (fun m _ _ => I.gloc_conj m) (fun i j k m _ _ => I.G_conj i j k m) hfit
      ΓD ΓM label irr rep h1 h2 S.ranks I.ranks] at hlad
  split at hlad
  swap
  · cases hlad
  rename_i hok
  have hQ := (Option.some.inj hlad).symm
  subst hQ
  have hrep : ∀ (q : Grid S.nx S.ny S.nz) (iq : Nat), irrOf (flat3 (table S.nx S.ny S.nz label)) q = some iq → rep (momOf (ptOf q)) = repOf irr iq :=
    fun q iq hq => rep_irr _ irr rep (h2 id) q iq hq
  have hfile : ∀ (R : Nat), 0 < R → ∀ (dens second : Bool) (Γ : Int → Mat (2 * I.c) ℂ),
      (∀ q ∈ irr.map momOf, OkQ (wn I.w) (I.beta : ℂ) (urOf dens I.u) Γ (bubQ S.nx S.ny S.nz (I.beta : ℂ) I.G) q) →
      ∃ fl, I.filesOn R second (table S.nx S.ny S.nz label) (objOf dens I.w (I.beta : ℂ) I.u Γ) = some fl ∧
        PvWritten (uniq (flat3 (table S.nx S.ny S.nz label))).length R I.w I.c
          (comp second I.w (I.beta : ℂ) (urOf dens I.u) Γ (bubQ S.nx S.ny S.nz (I.beta : ℂ) I.G) (repOf irr)) fl :=
    fun R hR dens second Γ hokd => pvFiles_written I.sh S.nx S.ny S.nz I.NG I.w (I.beta : ℂ) I.u hb I.G I.gloc (fun i j k m _ _ => I.G_conj i j k m) hfit dens Γ _ irr h1
      hokd R hR second
  have hlam := lamOf_real S.lambdaCorr out.run.chi
  have hin : ∀ (R : Nat), 0 < R → ∃ g1M g2M g1D g2D, I.filesOn R false (table S.nx S.ny S.nz label) mc.gam = some g1M ∧
      I.filesOn R true (table S.nx S.ny S.nz label) mc.gam = some g2M ∧ I.filesOn R false (table S.nx S.ny S.nz label) dc.gam = some g1D ∧
      I.filesOn R true (table S.nx S.ny S.nz label) dc.gam = some g2D ∧
      Inputs (I.theCalc (lamReal S.lambdaCorr out.run.chi) ΓD ΓM hD hM (repOf irr)).ingr (flat3 (table S.nx S.ny S.nz label)) R I.w I.c g1M g2M g1D g2D
        (rowQ (nx := S.nx) (ny := S.ny) (nz := S.nz) out.run.chi.magn) (rowQ out.run.chi.dens) := by
    intro R hR
    obtain ⟨f1M, m1, m1'⟩ := hfile R hR false false ΓM (fun q hq => (hok.2 q hq).2)
    obtain ⟨f2M, m2, m2'⟩ := hfile R hR false true ΓM (fun q hq => (hok.2 q hq).2)
    obtain ⟨f1D, d1, d1'⟩ := hfile R hR true false ΓD (fun q hq => (hok.2 q hq).1)
    obtain ⟨f2D, d2, d2'⟩ := hfile R hR true true ΓD (fun q hq => (hok.2 q hq).1)
    refine ⟨f1M, f2M, f1D, f2D, by rw [e2]; exact m1, by rw [e2]; exact m2, by rw [e1]; exact d1, by rw [e1]; exact d2,
      { hR := hR, w1M := m1', w2M := m2', w1D := d1', w2D := d2', cM := ?_, cD := ?_, box := I.pp, flen := ?_ }⟩
    · intro q iq hq
      rw [hmagn, hlam]
      simp only [mk5]
      rw [rowQ_grid I.w (fun q x => CQ I.sh (I.beta : ℂ) (-(I.u : ℂ)) ΓM (bubQ S.nx S.ny S.nz (I.beta : ℂ) I.G) (rep q) x)]
      apply samplesB_congr'
      intro x hx
      rw [hrep q iq hq]
      simp only [Calc.ingr, chiIrr, theCalc, if_pos hx]
      rfl
    · intro q iq hq
      rw [hdens, hlam]
      simp only [mk5]
      rw [rowQ_grid I.w (fun q x => CQ I.sh (I.beta : ℂ) (I.u : ℂ) ΓD (bubQ S.nx S.ny S.nz (I.beta : ℂ) I.G) (rep q) x)]
      apply samplesB_congr'
      intro x hx
      rw [hrep q iq hq]
      simp only [Calc.ingr, chiIrr, theCalc, if_pos hx]
      rfl
    · rw [flat3_table]; simp
  obtain ⟨f1M, f2M, f1D, f2D, m1, m2, d1, d2, hinp⟩ := hin S.ranks I.ranks
  refine ⟨⟨{
      C := I.theCalc (lamReal S.lambdaCorr out.run.chi) ΓD ΓM hD hM (repOf irr)
      syms := S.syms
      hs := I.syms
      m := table S.nx S.ny S.nz label
      hm := hmp
      R := S.ranks
      f1M := f1M, f2M := f2M, f1D := f1D, f2D := f2D
      chiM := rowQ out.run.chi.magn
      chiD := rowQ out.run.chi.dens
      inp := hinp }, dc, mc, loc, ΓD, ΓM, hD, hM, repOf irr, hloc, e1, e2, k1, k2, rfl, rfl, m1, m2, d1, d2, rfl, rfl, hin, ?_, irr, h1, rfl, hok.2⟩⟩
  intro q iq hq
  rw [← hrep q iq hq]
  obtain ⟨i', j', k', a1, a2, a3, a4, a5, a6⟩ := h3 _ _ _ (ZMod.val_lt q.1) (ZMod.val_lt q.2.1) (ZMod.val_lt q.2.2)
  have a4' : rep (momOf (ptOf q)) = momOf (i', j', k') := a4
  rw [a4']
  refine ⟨hok.2 _ (List.mem_map.2 ⟨_, a6, rfl⟩), ?_⟩
  exact bubQ_related S.nx S.ny S.nz (I.beta : ℂ) S.syms I.G hinv (ptOf q) (i', j', k') (ptOf_inGrid q)
    (hlab2 (ptOf q) (i', j', k') (ptOf_inGrid q) ⟨a1, a2, a3⟩ a5.symm)

variable {I}

theorem VertexOf.npp_eq {out : MainOut} (V : I.VertexOf out) : V.Sv.npp = nivPP I.w I.c := by
  unfold Saved.npp
  rw [V.hC]; rfl

/-- the assembly from the files of a run on another number of ranks gives the same vertices -/
theorem VertexOf.assemble_on {out : MainOut} (V : I.VertexOf out) (R : Nat) (g1M g2M g1D g2D : List (File PvGroup))
    (h : Inputs V.Sv.C.ingr (flat3 V.Sv.m) R V.Sv.C.niw I.c g1M g2M g1D g2D V.Sv.chiM V.Sv.chiD) :
    assemblePp (flat3 V.Sv.m) V.Sv.npp g1M g2M g1D g2D V.Sv.chiM V.Sv.chiD (I.u : ℂ) = some (V.Sv.F true, V.Sv.F false) := by
  have hu : ((V.Sv.C.u : ℝ) : ℂ) = I.u := by rw [V.hC]; rfl
  have hu' : V.Sv.C.ingr.u = I.u := hu
  have hF : ∀ b, savedF b (flat3 V.Sv.m) V.Sv.npp g1M g2M g1D g2D V.Sv.chiM V.Sv.chiD (I.u : ℂ) = V.Sv.F b := by
    intro b
    funext q v v'
    obtain ⟨iq, h1, h2⟩ := savedF_value V.Sv.C.ingr _ R V.Sv.C.niw I.c _ _ _ _ _ _ h b q
    obtain ⟨iq', h1', h2'⟩ := V.Sv.value b q
    rw [h1] at h1'
    cases h1'
    rw [h2', ← hu']
    exact h2 v v'
  unfold assemblePp
  rw [if_pos, hF, hF]
  intro q
  obtain ⟨iq, fS, fT, _, _, h, _⟩ := buildPairing_value V.Sv.C.ingr _ R V.Sv.C.niw I.c _ _ _ _ _ _ h q
  rw [hu'] at h
  have h' : buildPairing (flat3 V.Sv.m) V.Sv.npp g1M g2M g1D g2D V.Sv.chiM V.Sv.chiD (I.u : ℂ) q = some (fS, fT) := h
  rw [h']; rfl

/-- the Eliashberg calculation of one channel: the saved vertex, Dyson's equation with the saved self-energy at the chemical potential `mu` -/
def VertexOf.solver {out : MainOut} (V : I.VertexOf out) (E : EliSettings) (X : Chance S.nx S.ny S.nz) (mu : ℝ) (hn : V.Sv.npp ≤ out.sigma.nivCore) (ch : String) :
    Run S.nx S.ny S.nz V.Sv.npp where
  kSym := E.kSym
  symSing := E.symSing
  symTrip := E.symTrip
  eps := E.eps
  maxCount := E.maxCount
  nEig := E.nEig
  beta := I.beta
  F := V.Sv.F (ch = "sing")
  G := fun k m => gVal out.sigma (bandOf S) mu (flatQ k) m
  nivCore := out.sigma.nivCore
  hn := hn
  channel := ch
  shiftMat := E.shiftMat
  rk := X.rk ch
  rv := X.rv ch
  gap0s := X.gap0s ch V.Sv.npp

variable (I)

theorem calc_sigma (out : MainOut) (h : calcFrom S I.d ⟨I.w, I.c, I.sh, I.as⟩ (I.obj "dens" I.D) (I.obj "magn" I.M) = .ok out) :
    ∃ Sig : Nat → Nat → Nat → Int → ℂ, out.run.sigma = flat3 (table S.nx S.ny S.nz fun i j k => samplesF (Sig i j k) I.c) ∧
      (∀ σ ∈ S.syms, ∀ p, InGrid S.nx S.ny S.nz p → ∀ v : Int, -(I.c : Int) ≤ v → v < I.c →
        Sig (Bz.image S.nx S.ny S.nz σ p).1 (Bz.image S.nx S.ny S.nz σ p).2.1 (Bz.image S.nx S.ny S.nz σ p).2.2 v = Sig p.1 p.2.1 p.2.2 v) ∧
      out.sigma.sigma = flat3 (table S.nx S.ny S.nz fun i j k => (List.range (I.c + I.sh)).map fun m : Nat =>
        if m < I.c then Sig i j k m else sigmaSpec (siwObj (samplesF I.Sg I.N) I.beta) (posHalf I.Sg I.N) m) ∧
      out.sigma.beta = I.beta ∧ out.sigma.nivCore = I.c + I.sh :=
  Pipe.calc_sigma S I.lat I.d I.n I.beta I.u I.mu I.beta_pos I.N I.Sg I.siw I.d_n I.d_beta I.d_u I.d_mu I.w I.c I.sh I.as I.hN I.cN I.fit
    (Nat.mul_pos (Nat.mul_pos (Nat.pos_of_ne_zero (NeZero.ne _)) (Nat.pos_of_ne_zero (NeZero.ne _))) (Nat.pos_of_ne_zero (NeZero.ne _))) I.ranks _ _ out h

theorem npp_le {out : MainOut} (V : I.VertexOf out) (h : out.sigma.nivCore = I.c + I.sh) : V.Sv.npp ≤ out.sigma.nivCore := by
  rw [V.npp_eq, h]
  unfold nivPP
  omega

/-- the vertex part of the run, on any number of ranks -/
theorem eliFrom_on (E : EliSettings) (X : Chance S.nx S.ny S.nz) (out : MainOut)
    (h : calcFrom S I.d ⟨I.w, I.c, I.sh, I.as⟩ (I.obj "dens" I.D) (I.obj "magn" I.M) = .ok out) :
    ∃ (V : I.VertexOf out) (hn : V.Sv.npp ≤ out.sigma.nivCore), ∀ R, 0 < R →
      eliFrom { S with ranks := R } E X I.d ⟨I.w, I.c, I.sh, I.as⟩ (I.obj "dens" I.D) (I.obj "magn" I.M) out =
        match gfMu X.newton out.sigma (bandOf S) I.n 0 with
        | none => .error "failed"
        | some mu =>
          match (V.solver E X mu hn "sing").result, (V.solver E X mu hn "trip").result with
          | some ls, some lt => .ok ⟨out, V.Sv.npp, V.Sv.F true, V.Sv.F false, mu, ls, lt⟩
          | _, _ => .error "failed" := by
  obtain ⟨V⟩ := I.vertexOf out h
  obtain ⟨Sig, -, -, hsig, hbeta, hcore⟩ := I.calc_sigma out h
  have hn := I.npp_le V hcore
  refine ⟨V, hn, fun R hR => ?_⟩
  obtain ⟨s1, s2⟩ := siwObj_sigma I.Sg I.N I.beta
  have e1 : toFour (2 * I.c) (I.obj "dens" I.D) = some (objOf true I.w (I.beta : ℂ) (I.u : ℂ) (onBox2 I.c (used S.symVVp I.D))) :=
    toFour_tab true I.w I.c _ _ _
  have e2 : toFour (2 * I.c) (I.obj "magn" I.M) = some (objOf false I.w (I.beta : ℂ) (I.u : ℂ) (onBox2 I.c (used S.symVVp I.M))) :=
    toFour_tab false I.w I.c _ _ _
  have hgen : genDmft S.nx S.ny S.nz S.hr I.mu (siwObj (samplesF I.Sg I.N) I.beta) I.as I.w =
      genOf S.nx S.ny S.nz I.NG I.w (I.beta : ℂ) I.G I.gloc := by
    rw [genDmft_eq S.nx S.ny S.nz S.hr I.mu _ (posHalf I.Sg I.N) s1 (by simpa [posHalf] using core_le I.Sg I.N I.beta I.hN), s2]
    rfl
  have hm : fbz2irrk S.nx S.ny S.nz S.syms = some V.Sv.m := by rw [← V.hsyms]; exact V.Sv.hm
  have hloc := V.hloc
  unfold localRun at hloc
  obtain ⟨r1M, r2M, r1D, r2D, g1, g2, g3, g4, hinp⟩ := V.onRanks R hR
  unfold filesOn at g1 g2 g3 g4
  have hasm := V.assemble_on R r1M r2M r1D r2D hinp
  rw [V.chiM, V.chiD] at hasm
  have hlen : out.sigma.sigma.length = S.nx * S.ny * S.nz := by rw [hsig, flat3_table]; simp
  have hrow : ∀ r ∈ out.sigma.sigma, out.sigma.nivCore ≤ r.length := by
    rw [hsig, hcore, flat3_table]
    intro r hr
    rw [List.mem_map] at hr
    obtain ⟨l, _, rfl⟩ := hr
    simp
  unfold eliFrom
  rw [I.siw, I.d_n, I.d_beta, I.d_u, I.d_mu]
  simp only [arrOf, numOf, Complex.ofReal_re, Int.toNat_natCast, e1, e2, hm, hgen, hloc, g1, g2, g3, g4]
  rw [← V.npp_eq]
  have hbnd : bandOf { S with ranks := R } = bandOf S := rfl
  simp only [hasm, hbnd]
  cases hmu : gfMu X.newton out.sigma (bandOf S) I.n 0 with
  | none => rfl
  | some mu =>
    simp only
    have hgf : ∃ g, newGf out.sigma (bandOf S) mu (I.as : Int) = some g := by
      have hpos : 0 < S.nx * S.ny * S.nz :=
        Nat.mul_pos (Nat.mul_pos (Nat.pos_of_ne_zero (NeZero.ne _)) (Nat.pos_of_ne_zero (NeZero.ne _))) (Nat.pos_of_ne_zero (NeZero.ne _))
      obtain ⟨a, ha, _⟩ := newGf_state out.sigma (bandOf S) mu (I.as : Int) (Or.inl (by rw [bandOf_length, hlen])) hrow (by
        unfold nK
        rw [bandOf_length, hlen]
        split_ifs <;> exact hpos)
      exact ⟨_, ha⟩
    obtain ⟨g, hg⟩ := hgf
    simp only [hg, newGf_rows S out.sigma hlen hrow mu _ g hg]
    have r1 : (V.solver E X mu hn "sing").result = linearEliashberg (elCfg E.kSym E.symSing E.symTrip E.eps E.maxCount E.nEig) V.Sv.npp I.beta (V.Sv.F true)
        (fun k => samplesF (fun m => gVal out.sigma (bandOf S) mu (flatQ k) m) out.sigma.nivCore) "sing" E.shiftMat (X.rk "sing") (X.rv "sing")
        (X.gap0s "sing" V.Sv.npp) := by
      unfold Run.result VertexOf.solver
      simp
    have r2 : (V.solver E X mu hn "trip").result = linearEliashberg (elCfg E.kSym E.symSing E.symTrip E.eps E.maxCount E.nEig) V.Sv.npp I.beta (V.Sv.F false)
        (fun k => samplesF (fun m => gVal out.sigma (bandOf S) mu (flatQ k) m) out.sigma.nivCore) "trip" E.shiftMat (X.rk "trip") (X.rv "trip")
        (X.gap0s "trip" V.Sv.npp) := by
      unfold Run.result VertexOf.solver
      simp
    rw [r1, r2]
    generalize linearEliashberg (elCfg E.kSym E.symSing E.symTrip E.eps E.maxCount E.nEig) V.Sv.npp I.beta (V.Sv.F true)
      (fun k => samplesF (fun m => gVal out.sigma (bandOf S) mu (flatQ k) m) out.sigma.nivCore) "sing" E.shiftMat (X.rk "sing") (X.rv "sing")
        (X.gap0s "sing" V.Sv.npp) = a
    generalize linearEliashberg (elCfg E.kSym E.symSing E.symTrip E.eps E.maxCount E.nEig) V.Sv.npp I.beta (V.Sv.F false)
      (fun k => samplesF (fun m => gVal out.sigma (bandOf S) mu (flatQ k) m) out.sigma.nivCore) "trip" E.shiftMat (X.rk "trip") (X.rv "trip")
        (X.gap0s "trip" V.Sv.npp) = b
    cases a <;> cases b <;> rfl

/-- the vertex part of the run in terms of what it wrote -/
theorem eliFrom_eq (E : EliSettings) (X : Chance S.nx S.ny S.nz) (out : MainOut)
    (h : calcFrom S I.d ⟨I.w, I.c, I.sh, I.as⟩ (I.obj "dens" I.D) (I.obj "magn" I.M) = .ok out) :
    ∃ (V : I.VertexOf out) (hn : V.Sv.npp ≤ out.sigma.nivCore),
      eliFrom S E X I.d ⟨I.w, I.c, I.sh, I.as⟩ (I.obj "dens" I.D) (I.obj "magn" I.M) out =
        match gfMu X.newton out.sigma (bandOf S) I.n 0 with
        | none => .error "failed"
        | some mu =>
          match (V.solver E X mu hn "sing").result, (V.solver E X mu hn "trip").result with
          | some ls, some lt => .ok ⟨out, V.Sv.npp, V.Sv.F true, V.Sv.F false, mu, ls, lt⟩
          | _, _ => .error "failed" := by
  obtain ⟨V, hn, hV⟩ := I.eliFrom_on E X out h
  exact ⟨V, hn, hV S.ranks I.ranks⟩

/-- the complete run: the run of C129 followed by the vertex part -/
theorem mainEli_eq (E : EliSettings) (X : Chance S.nx S.ny S.nz) : mainEli fs ty path f1 f2 S E X =
    match mainRun fs ty path f1 f2 S with
    | .error e => .error e
    | .ok out => eliFrom S E X I.d ⟨I.w, I.c, I.sh, I.as⟩ (I.obj "dens" I.D) (I.obj "magn" I.M) out := by
  unfold mainEli mainRun
  simp only [I.load, I.build]
  rfl

omit [NeZero S.nx] [NeZero S.ny] [NeZero S.nz] in
theorem mainRun_eq : mainRun fs ty path f1 f2 S = calcFrom S I.d ⟨I.w, I.c, I.sh, I.as⟩ (I.obj "dens" I.D) (I.obj "magn" I.M) := by
  unfold mainRun
  simp only [I.load, I.build]
  rfl

/-- a run that returns, taken apart -/
theorem eli_chain (E : EliSettings) (X : Chance S.nx S.ny S.nz) (r : EliOut S.nx S.ny S.nz) (h : mainEli fs ty path f1 f2 S E X = .ok r) :
    ∃ (out : MainOut) (V : I.VertexOf out) (hn : V.Sv.npp ≤ out.sigma.nivCore) (mu : ℝ)
      (ls lt : List (ℂ × (Grid S.nx S.ny S.nz × Fin (2 * V.Sv.npp) → ℂ))),
      mainRun fs ty path f1 f2 S = .ok out ∧ gfMu X.newton out.sigma (bandOf S) I.n 0 = some mu ∧
      (V.solver E X mu hn "sing").result = some ls ∧ (V.solver E X mu hn "trip").result = some lt ∧
      r = ⟨out, V.Sv.npp, V.Sv.F true, V.Sv.F false, mu, ls, lt⟩ := by
  rw [I.mainEli_eq] at h
  cases hr : mainRun fs ty path f1 f2 S with
  | error e => rw [hr] at h; cases h
  | ok out =>
    rw [hr] at h
    simp only at h
    have hc := hr
    rw [I.mainRun_eq] at hc
    obtain ⟨V, hn, he⟩ := I.eliFrom_eq E X out hc
    rw [he] at h
    cases hmu : gfMu X.newton out.sigma (bandOf S) I.n 0 with
    | none => rw [hmu] at h; cases h
    | some mu =>
      rw [hmu] at h
      simp only at h
      split at h
      · rename_i ls lt h1 h2
        exact ⟨out, V, hn, mu, ls, lt, rfl, hmu, h1, h2, (Except.ok.inj h).symm⟩
      · cases h

/-- the vertex part adds only one way to fail: the chemical potential of the DGA Green's function is not found -/
theorem eli_returns (E : EliSettings) (X : Chance S.nx S.ny S.nz) (out : MainOut) (h : mainRun fs ty path f1 f2 S = .ok out) (mu : ℝ)
    (hmu : gfMu X.newton out.sigma (bandOf S) I.n 0 = some mu) : ∃ r, mainEli fs ty path f1 f2 S E X = .ok r ∧ r.main = out ∧ r.mu = mu := by
  have hc := h
  rw [I.mainRun_eq] at hc
  obtain ⟨V, hn, he⟩ := I.eliFrom_eq E X out hc
  rw [I.mainEli_eq, h]
  simp only
  rw [he, hmu]
  simp only
  have k : ∀ ch, ch = "sing" ∨ ch = "trip" → ∃ l, (V.solver E X mu hn ch).result = some l := by
    intro ch hch
    have h1 := (Eli.driver_total (V.solver E X mu hn ch)).1
    cases hr : (V.solver E X mu hn ch).result with
    | some l => exact ⟨l, rfl⟩
    | none =>
      obtain ⟨a, b⟩ := h1.1 hr
      rcases hch with h | h
      · exact absurd h a
      · exact absurd h b
  obtain ⟨ls, h1⟩ := k "sing" (Or.inl rfl)
  obtain ⟨lt, h2⟩ := k "trip" (Or.inr rfl)
  rw [h1, h2]
  exact ⟨_, rfl, rfl, rfl⟩

/-- The run up to the self-energy has no other way to fail than the calculation of the self-energy itself: if that returns whatever the shifts, the
    program returns in each of the three lambda modes. -/
theorem run_of_sde (hmode : S.lambdaCorr ∈ ["spch", "sp", "none"])
    (h : ∀ label : Nat → Nat → Nat → Nat, (∀ i j k i' j' k', i < S.nx → j < S.ny → k < S.nz → i' < S.nx → j' < S.ny → k' < S.nz → label i' j' k' = label i j k →
        ∀ x ∈ Finset.Icc (-(I.w : Int)) I.w, Pipe.onBox (I.c + I.sh) (bubQ S.nx S.ny S.nz (I.beta : ℂ) I.G (i', j', k') x) =
          Pipe.onBox (I.c + I.sh) (bubQ S.nx S.ny S.nz (I.beta : ℂ) I.G (i, j, k) x)) →
      ∀ lamD lamM : Option ℂ, ∃ sig, dgaSelfEnergy I.sh S.ranks S.nx S.ny S.nz (flat3 (table S.nx S.ny S.nz label))
        (objOf true I.w (I.beta : ℂ) (I.u : ℂ) (onBox2 I.c (used S.symVVp I.D))) (objOf false I.w (I.beta : ℂ) (I.u : ℂ) (onBox2 I.c (used S.symVVp I.M)))
        (genOf S.nx S.ny S.nz I.NG I.w (I.beta : ℂ) I.G I.gloc) lamD lamM (I.u : ℂ) (I.n : ℂ) (samplesF I.Sg I.N) = some sig) :
    ∃ out, mainRun fs ty path f1 f2 S = .ok out := by
  have hk : 0 < S.nx * S.ny * S.nz :=
    Nat.mul_pos (Nat.mul_pos (Nat.pos_of_ne_zero (NeZero.ne _)) (Nat.pos_of_ne_zero (NeZero.ne _))) (Nat.pos_of_ne_zero (NeZero.ne _))
  obtain ⟨s1, s2⟩ := siwObj_sigma I.Sg I.N I.beta
  obtain ⟨mp, hmp, _⟩ := irrk_representative S.nx S.ny S.nz S.syms I.syms
  obtain ⟨label, hlab, hl⟩ := bubble_labels S.nx S.ny S.nz (I.c + I.sh) I.w (I.beta : ℂ) S.syms mp hmp I.G (gBand_invariant I.lat _ _ _)
  obtain ⟨out, hout⟩ := run_returns I.sh S.nx S.ny S.nz I.NG I.w I.beta (I.u : ℂ) (I.n : ℂ) I.beta_pos.ne' hk I.G I.gloc
    (fun m _ _ => I.gloc_conj m) (fun i j k m _ _ => I.G_conj i j k m) I.fit _ _ label (samplesF I.Sg I.N) S.ranks I.ranks S.lambdaCorr hmode (h label hl)
  have hcr : ∃ sgo, createDga out.sigma (siwObj (samplesF I.Sg I.N) I.beta) I.sh 1e-4 = some sgo := by
    unfold createDga SelfEnergy.getSiw
    simp only [s1]
    split_ifs <;> simp
  obtain ⟨sgo, hsgo⟩ := hcr
  refine ⟨⟨⟨I.w, I.c, I.sh, I.as⟩, out, sgo⟩, ?_⟩
  rw [I.mainRun_eq]
  have e1 : toFour (2 * I.c) (I.obj "dens" I.D) = some (objOf true I.w (I.beta : ℂ) (I.u : ℂ) (onBox2 I.c (used S.symVVp I.D))) :=
    toFour_tab true I.w I.c _ _ _
  have e2 : toFour (2 * I.c) (I.obj "magn" I.M) = some (objOf false I.w (I.beta : ℂ) (I.u : ℂ) (onBox2 I.c (used S.symVVp I.M))) :=
    toFour_tab false I.w I.c _ _ _
  have hgen : genDmft S.nx S.ny S.nz S.hr I.mu (siwObj (samplesF I.Sg I.N) I.beta) I.as I.w =
      genOf S.nx S.ny S.nz I.NG I.w (I.beta : ℂ) I.G I.gloc := by
    rw [genDmft_eq S.nx S.ny S.nz S.hr I.mu _ (posHalf I.Sg I.N) s1 (by simpa [posHalf] using core_le I.Sg I.N I.beta I.hN), s2]
    rfl
  rw [hlab] at hmp
  unfold calcFrom
  rw [I.siw, I.d_n, I.d_beta, I.d_u, I.d_mu]
  simp only [arrOf, numOf, Complex.ofReal_re, Int.toNat_natCast, e1, e2, hmp, hgen, hout, hsgo]

omit [NeZero S.nx] [NeZero S.ny] [NeZero S.nz] in
/-- the part up to the self-energy does not depend on the number of ranks -/
theorem calcFrom_ranks (R : Nat) (hR : 0 < R) : calcFrom { S with ranks := R } I.d ⟨I.w, I.c, I.sh, I.as⟩ (I.obj "dens" I.D) (I.obj "magn" I.M) =
    calcFrom S I.d ⟨I.w, I.c, I.sh, I.as⟩ (I.obj "dens" I.D) (I.obj "magn" I.M) := by
  obtain ⟨s1, s2⟩ := siwObj_sigma I.Sg I.N I.beta
  have e1 : toFour (2 * I.c) (I.obj "dens" I.D) = some (objOf true I.w (I.beta : ℂ) (I.u : ℂ) (onBox2 I.c (used S.symVVp I.D))) :=
    toFour_tab true I.w I.c _ _ _
  have e2 : toFour (2 * I.c) (I.obj "magn" I.M) = some (objOf false I.w (I.beta : ℂ) (I.u : ℂ) (onBox2 I.c (used S.symVVp I.M))) :=
    toFour_tab false I.w I.c _ _ _
  have hgen : genDmft S.nx S.ny S.nz S.hr I.mu (siwObj (samplesF I.Sg I.N) I.beta) I.as I.w =
      genOf S.nx S.ny S.nz I.NG I.w (I.beta : ℂ) I.G I.gloc := by
    rw [genDmft_eq S.nx S.ny S.nz S.hr I.mu _ (posHalf I.Sg I.N) s1 (by simpa [posHalf] using core_le I.Sg I.N I.beta I.hN), s2]
    rfl
  unfold calcFrom
  rw [I.siw, I.d_n, I.d_beta, I.d_u, I.d_mu]
  simp only [arrOf, numOf, Complex.ofReal_re, Int.toNat_natCast, e1, e2, hgen]
  cases hmp : fbz2irrk S.nx S.ny S.nz S.syms with
  | none => rfl
  | some mp =>
    obtain ⟨label, hlab, -⟩ := label_of S.nx S.ny S.nz S.syms mp hmp
    subst hlab
    simp only
    rw [run_rank_independent I.sh S.nx S.ny S.nz I.NG I.w I.beta (I.u : ℂ) (I.n : ℂ) I.beta_pos.ne' I.G I.gloc (fun m _ _ => I.gloc_conj m)
      (fun i j k m _ _ => I.G_conj i j k m) I.fit _ _ label S.lambdaCorr (samplesF I.Sg I.N) R S.ranks hR I.ranks]

/-- **C131.** The complete run does not depend on the number of ranks: self-energy, susceptibilities, shifts, box sizes, pairing vertices, chemical
    potential, eigenvalues and gaps are the same, and it fails on one number of ranks exactly if it fails on every other, with the same
    error. -/
theorem eli_ranks (I : Files fs ty path f1 f2 S) (R : Nat) (hR : 0 < R) (E : EliSettings) (X : Chance S.nx S.ny S.nz) :
    mainRun fs ty path f1 f2 { S with ranks := R } = mainRun fs ty path f1 f2 S ∧
    mainEli fs ty path f1 f2 { S with ranks := R } E X = mainEli fs ty path f1 f2 S E X := by
  have h1 : mainRun fs ty path f1 f2 { S with ranks := R } = mainRun fs ty path f1 f2 S := by
    rw [I.mainRun_eq, ← I.calcFrom_ranks R hR]
    unfold mainRun
    simp only [I.load, I.build]
    rfl
  refine ⟨h1, ?_⟩
  have h2 : mainEli fs ty path f1 f2 { S with ranks := R } E X =
      match mainRun fs ty path f1 f2 { S with ranks := R } with
      | .error e => .error e
      | .ok out => eliFrom { S with ranks := R } E X I.d ⟨I.w, I.c, I.sh, I.as⟩ (I.obj "dens" I.D) (I.obj "magn" I.M) out := by
    unfold mainEli mainRun
    simp only [I.load, I.build]
    rfl
  rw [h2, h1, I.mainEli_eq]
  cases hr : mainRun fs ty path f1 f2 S with
  | error e => rfl
  | ok out =>
    rw [I.mainRun_eq] at hr
    obtain ⟨V, hn, hV⟩ := I.eliFrom_on E X out hr
    exact (hV R hR).trans (hV S.ranks I.ranks).symm

end Files

end DGA.Pairing
