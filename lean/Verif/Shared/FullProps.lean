/-
  C138: what a user finds in `F_dens` and `F_magn`.
-/
import Verif.Shared.FullVertex
import Verif.Shared.Ex

noncomputable section

namespace DGA.Pairing

open DGA.Shared DGA.RankFiles DGA.Mpi DGA.Pipe DGA.Fp DGA.Mf DGA.Bz DGA.Bubble DGA.Two DGA.Inp
open DGA.Eli (Grid)

local notation "conj" => starRingEnd ℂ

/-! ### Specification -/

/-- the entry of a saved vertex at momentum `(i, j, k)`, bosonic frequency `w` and fermionic frequencies `v`, `v'`, for a box of `niw` bosonic and `niv` fermionic
    frequencies -/
def fqAt (S : Settings) (niw niv : Nat) (F : List (List (List (List ℂ)))) (i j k : Nat) (w v v' : Int) : ℂ :=
  e4 F (lin S.ny S.nz i j k) (w + niw).toNat (v + niv).toNat (v' + niv).toNat

/-! ### Helpers -/

theorem e4_fqList (Ig : Ingr) (dens : Bool) (inv : List Nat) (nk niw c : Nat) (q j a b : Nat) (hq : q < nk) (hj : j < 2 * niw + 1) (ha : a < 2 * c) (hb : b < 2 * c) :
    e4 (fqList Ig dens inv nk niw c) q j a b = storedChan Ig dens (inv.getD q 0) ((j : Int) - niw) ((a : Int) - c) ((b : Int) - c) := by
  unfold e4 fqList boxOf
  simp only [List.getD_eq_getElem?_getD, List.getElem?_map, List.getElem?_range hq, List.getElem?_range hj, List.getElem?_range ha,
    List.getElem?_range hb, Option.map_some, Option.getD_some]

namespace Files

variable {fs : Fs} {ty path f1 : String} {f2 : Option String} {S : Settings} (I : Files fs ty path f1 f2 S)
variable [NeZero S.nx] [NeZero S.ny] [NeZero S.nz]

/-- the saved vertices in closed form, on any number of ranks and whatever else is asked for -/
theorem fqFrom_on {out : MainOut} (V : I.VertexOf out) (R : Nat) (hR : 0 < R) (fl : Flags) (hfl : fl.fq = true) (niwV niwC nivV : Nat)
    (hopt : fl.vertex = true → niwV ≤ I.w ∧ nivV + niwC ≤ I.c) :
    fqFrom { S with ranks := R } fl niwV niwC nivV I.d ⟨I.w, I.c, I.sh, I.as⟩ (I.obj "dens" I.D) (I.obj "magn" I.M) out =
      .ok ⟨out, fqList V.Sv.C.ingr true (irrkInv (flat3 V.Sv.m)) (S.nx * S.ny * S.nz) I.w I.c,
        fqList V.Sv.C.ingr false (irrkInv (flat3 V.Sv.m)) (S.nx * S.ny * S.nz) I.w I.c⟩ := by
  obtain ⟨s1, s2⟩ := siwObj_sigma I.Sg I.N I.beta
  have e1 : toFour (2 * I.c) (I.obj "dens" I.D) = some (objOf true I.w (I.beta : ℂ) (I.u : ℂ) (onBox2 I.c (used S.symVVp I.D))) :=
    toFour_tab true I.w I.c _ _ _
  have e2 : toFour (2 * I.c) (I.obj "magn" I.M) = some (objOf false I.w (I.beta : ℂ) (I.u : ℂ) (onBox2 I.c (used S.symVVp I.M))) :=
    toFour_tab false I.w I.c _ _ _
  have hgen : genDmft S.nx S.ny S.nz S.hr I.mu (siwObj (samplesF I.Sg I.N) I.beta) I.as I.w =
      genOf S.nx S.ny S.nz I.NG I.w (I.beta : ℂ) I.G I.gloc := by
    rw [genDmft_eq S.nx S.ny S.nz S.hr I.mu _ (posHalf I.Sg I.N) s1 (by simpa [posHalf] using core_le I.Sg I.N I.beta I.hN), s2]
    rfl
  have hm : fbz2irrk S.nx S.ny S.nz S.syms = some V.Sv.m := by rw [← V.hsyms]; exact V.Sv.hm
  have hloc := V.hloc
  unfold localRun at hloc
  have hb : star (I.beta : ℂ) = (I.beta : ℂ) := Complex.conj_ofReal I.beta
  have hload : ∀ (dens second : Bool) (Γ : Int → Mat (2 * I.c) ℂ),
      (∀ q ∈ V.irr.map momOf, OkQ (wn I.w) (I.beta : ℂ) (urOf dens (I.u : ℂ)) Γ (bubQ S.nx S.ny S.nz (I.beta : ℂ) I.G) q) →
      ∃ arr, (fqFiles second I.sh R S.nx S.ny S.nz (flat3 V.Sv.m) I.w (objOf dens I.w (I.beta : ℂ) (I.u : ℂ) Γ)
        (genOf S.nx S.ny S.nz I.NG I.w (I.beta : ℂ) I.G I.gloc) (I.beta : ℂ) (I.u : ℂ)).bind
          (loadVertex "fq_".toList (List.replicate (2 * I.c) (List.replicate (2 * I.c) 0)) (uniq (flat3 V.Sv.m)).length I.w) = some arr ∧
        toFbz (flat3 V.Sv.m) I.w arr = some (fbzArr (irrkInv (flat3 V.Sv.m)) I.w I.c
          (comp second I.w (I.beta : ℂ) (urOf dens (I.u : ℂ)) Γ (bubQ S.nx S.ny S.nz (I.beta : ℂ) I.G) V.rep)) := by
    intro dens second Γ hok
    obtain ⟨files, g1, g2⟩ := fqFiles_written I.sh S.nx S.ny S.nz I.NG I.w (I.beta : ℂ) (I.u : ℂ) hb I.G I.gloc
      (fun i j k m _ _ => I.G_conj i j k m) I.fit dens Γ (flat3 V.Sv.m) V.irr V.hirr hok R hR second
    obtain ⟨arr, a1, a2⟩ := toFbz_value _ R I.w I.c hR _ files g2
    refine ⟨arr, by rw [g1, Option.bind_some, a1], ?_⟩
    rw [a2, V.hrepOf]
  obtain ⟨a1, l1, m1⟩ := hload false false V.ΓM (fun q hq => (V.hokI q hq).2)
  obtain ⟨a2, l2, m2⟩ := hload false true V.ΓM (fun q hq => (V.hokI q hq).2)
  obtain ⟨a3, l3, m3⟩ := hload true false V.ΓD (fun q hq => (V.hokI q hq).1)
  obtain ⟨a4, l4, m4⟩ := hload true true V.ΓD (fun q hq => (V.hokI q hq).1)
  obtain ⟨files, hfiles⟩ := files_run I V fl R niwV niwC nivV hR hopt
  have hfour := run_fq fl I.sh R S.nx S.ny S.nz (flat3 V.Sv.m) I.w niwV niwC nivV V.dc.gam V.mc.gam _ _ _ hR hfl
    (List.replicate (2 * I.c) (List.replicate (2 * I.c) 0)) (uniq (flat3 V.Sv.m)).length files hfiles
  rw [V.gamM, V.gamD, l1, l2, l3, l4] at hfour
  obtain ⟨_, _, _, _, _, _, _, _, hinp⟩ := V.onRanks 1 one_pos
  have hw : V.Sv.C.niw = I.w := by rw [V.hC]; rfl
  have hinv : (irrkInv (flat3 V.Sv.m)).length = S.nx * S.ny * S.nz := by
    rw [← hinp.flen]
    simp [irrkInv]
  have hrowQ : ∀ l, l < S.nx * S.ny * S.nz → irrOf (flat3 V.Sv.m) (gridOf S.nx S.ny S.nz l) = some ((irrkInv (flat3 V.Sv.m)).getD l 0) := by
    intro l hl
    unfold irrOf
    rw [flatQ_gridOf l hl, List.getElem?_eq_getElem (by omega), List.getD_eq_getElem?_getD, List.getElem?_eq_getElem (by omega)]
    rfl
  have hM := chanArr_value V.Sv.C.ingr false (irrkInv (flat3 V.Sv.m)) (S.nx * S.ny * S.nz) I.w I.c hinv out.run.chi.magn
    (by
      intro l hl
      have := hinp.cM _ _ (hrowQ l hl)
      rw [hw, V.chiM] at this
      unfold rowQ at this
      rw [flatQ_gridOf l hl] at this
      exact this)
  have hD := chanArr_value V.Sv.C.ingr true (irrkInv (flat3 V.Sv.m)) (S.nx * S.ny * S.nz) I.w I.c hinv out.run.chi.dens
    (by
      intro l hl
      have := hinp.cD _ _ (hrowQ l hl)
      rw [hw, V.chiD] at this
      unfold rowQ at this
      rw [flatQ_gridOf l hl] at this
      exact this)
  have hbuild : buildFq (S.nx * S.ny * S.nz) I.w I.c (flat3 V.Sv.m) files out.run.chi.magn out.run.chi.dens (I.u : ℂ) =
      some (fqList V.Sv.C.ingr true (irrkInv (flat3 V.Sv.m)) (S.nx * S.ny * S.nz) I.w I.c,
        fqList V.Sv.C.ingr false (irrkInv (flat3 V.Sv.m)) (S.nx * S.ny * S.nz) I.w I.c) := by
    unfold buildFq
    rw [hfour]
    simp only [opt4, Option.bind_some, m1, m2, m3, m4, Option.map_some]
    rw [← hM, ← hD, V.hC]
    rfl
  unfold fqFrom
  rw [I.siw, I.d_n, I.d_beta, I.d_u, I.d_mu]
  simp only [arrOf, numOf, Complex.ofReal_re, Int.toNat_natCast, e1, e2, hm, hgen, hloc, hfiles, hbuild]

omit [NeZero S.nx] [NeZero S.ny] [NeZero S.nz] in
/-- a run, in terms of the run of C129 -/
theorem mainFq_eq (R : Nat) (hR : 0 < R) (fl : Flags) (niwV niwC nivV : Nat) :
    mainFq fs ty path f1 f2 { S with ranks := R } fl niwV niwC nivV =
      match mainRun fs ty path f1 f2 S with
      | .error e => .error e
      | .ok out => fqFrom { S with ranks := R } fl niwV niwC nivV I.d ⟨I.w, I.c, I.sh, I.as⟩ (I.obj "dens" I.D) (I.obj "magn" I.M) out := by
  have h : mainFq fs ty path f1 f2 { S with ranks := R } fl niwV niwC nivV =
      match calcFrom { S with ranks := R } I.d ⟨I.w, I.c, I.sh, I.as⟩ (I.obj "dens" I.D) (I.obj "magn" I.M) with
      | .error e => .error e
      | .ok out => fqFrom { S with ranks := R } fl niwV niwC nivV I.d ⟨I.w, I.c, I.sh, I.as⟩ (I.obj "dens" I.D) (I.obj "magn" I.M) out := by
    unfold mainFq
    simp only [I.load, I.build]
    rfl
  rw [h, I.calcFrom_ranks R hR, ← I.mainRun_eq]

/-! ### Properties -/

/-- **C138 (a).** Whenever the self-energy run returns, the run that also saves the full vertices returns, and its other results are the same. -/
theorem fq_returns (fl : Flags) (hfl : fl.fq = true) (niwV niwC nivV : Nat) (hopt : fl.vertex = true → niwV ≤ I.w ∧ nivV + niwC ≤ I.c) (out : MainOut)
    (h : mainRun fs ty path f1 f2 S = .ok out) : ∃ r, mainFq fs ty path f1 f2 S fl niwV niwC nivV = .ok r ∧ r.main = out := by
  have h1 := I.mainFq_eq S.ranks I.ranks fl niwV niwC nivV
  rw [h] at h1
  have hc := h
  rw [I.mainRun_eq] at hc
  obtain ⟨V⟩ := I.vertexOf out hc
  exact ⟨_, h1.trans (I.fqFrom_on V S.ranks I.ranks fl hfl niwV niwC nivV hopt), rfl⟩

/-- **C138 (b).** Neither the number of ranks nor what else is asked for matters. -/
theorem fq_independent (R : Nat) (hR : 0 < R) (fl fl' : Flags) (hfl : fl.fq = true) (hfl' : fl'.fq = true) (niwV niwC nivV niwV' niwC' nivV' : Nat)
    (hopt : fl.vertex = true → niwV ≤ I.w ∧ nivV + niwC ≤ I.c) (hopt' : fl'.vertex = true → niwV' ≤ I.w ∧ nivV' + niwC' ≤ I.c) :
    mainFq fs ty path f1 f2 { S with ranks := R } fl niwV niwC nivV = mainFq fs ty path f1 f2 S fl' niwV' niwC' nivV' := by
  have h1 := I.mainFq_eq R hR fl niwV niwC nivV
  have h2 := I.mainFq_eq S.ranks I.ranks fl' niwV' niwC' nivV'
  refine h1.trans (Eq.trans ?_ h2.symm)
  cases h : mainRun fs ty path f1 f2 S with
  | error e => rfl
  | ok out =>
    have hc := h
    rw [I.mainRun_eq] at hc
    obtain ⟨V⟩ := I.vertexOf out hc
    exact (I.fqFrom_on V R hR fl hfl niwV niwC nivV hopt).trans (I.fqFrom_on V S.ranks I.ranks fl' hfl' niwV' niwC' nivV' hopt').symm

/-- a run that returns, taken apart -/
theorem fq_parts (fl : Flags) (hfl : fl.fq = true) (niwV niwC nivV : Nat) (hopt : fl.vertex = true → niwV ≤ I.w ∧ nivV + niwC ≤ I.c) (r : FqOut)
    (h : mainFq fs ty path f1 f2 S fl niwV niwC nivV = .ok r) :
    mainRun fs ty path f1 f2 S = .ok r.main ∧ ∃ V : I.VertexOf r.main,
      r.dens = fqList V.Sv.C.ingr true (irrkInv (flat3 V.Sv.m)) (S.nx * S.ny * S.nz) I.w I.c ∧
      r.magn = fqList V.Sv.C.ingr false (irrkInv (flat3 V.Sv.m)) (S.nx * S.ny * S.nz) I.w I.c := by
  have h1 := (I.mainFq_eq S.ranks I.ranks fl niwV niwC nivV).symm.trans h
  cases hr : mainRun fs ty path f1 f2 S with
  | error e => rw [hr] at h1; cases h1
  | ok out =>
    rw [hr] at h1
    have hc := hr
    rw [I.mainRun_eq] at hc
    obtain ⟨V⟩ := I.vertexOf out hc
    have := (I.fqFrom_on V S.ranks I.ranks fl hfl niwV niwC nivV hopt).symm.trans h1
    cases this
    exact ⟨rfl, V, rfl, rfl⟩

/-- **C138 (c).** The saved arrays have the shapes (momenta, `2 niw + 1`, `2 niv`, `2 niv`). -/
theorem fq_shape (fl : Flags) (hfl : fl.fq = true) (niwV niwC nivV : Nat) (hopt : fl.vertex = true → niwV ≤ I.w ∧ nivV + niwC ≤ I.c) (r : FqOut)
    (h : mainFq fs ty path f1 f2 S fl niwV niwC nivV = .ok r) :
    ∀ F ∈ [r.dens, r.magn], F.length = S.nx * S.ny * S.nz ∧ ∀ A ∈ F, A.length = 2 * I.w + 1 ∧ ∀ M ∈ A, M.length = 2 * I.c ∧ ∀ row ∈ M, row.length = 2 * I.c := by
  obtain ⟨-, V, hd, hm⟩ := I.fq_parts fl hfl niwV niwC nivV hopt r h
  have hs : ∀ dens, ∀ F, F = fqList V.Sv.C.ingr dens (irrkInv (flat3 V.Sv.m)) (S.nx * S.ny * S.nz) I.w I.c →
      F.length = S.nx * S.ny * S.nz ∧ ∀ A ∈ F, A.length = 2 * I.w + 1 ∧ ∀ M ∈ A, M.length = 2 * I.c ∧ ∀ row ∈ M, row.length = 2 * I.c := by
    rintro dens F rfl
    unfold fqList boxOf
    refine ⟨by simp, ?_⟩
    intro A hA
    rw [List.mem_map] at hA
    obtain ⟨_, _, rfl⟩ := hA
    refine ⟨by simp, ?_⟩
    intro M hM
    rw [List.mem_map] at hM
    obtain ⟨_, _, rfl⟩ := hM
    refine ⟨by simp, ?_⟩
    intro row hrow
    rw [List.mem_map] at hrow
    obtain ⟨_, _, rfl⟩ := hrow
    simp
  intro F hF
  simp only [List.mem_cons, List.not_mem_nil, or_false] at hF
  rcases hF with rfl | rfl
  · exact hs true _ hd
  · exact hs false _ hm

/-- **C138 (d).** The saved vertices.  For a causal self-energy, non-vanishing bubbles and two-particle data that are symmetric in the two fermionic
    frequencies (or symmetrised by the program) there are irreducible vertices that reproduce the data of the files through the impurity's ladder, and for every
    solution of the lattice ladder with these vertices and non-vanishing susceptibilities: at the bosonic frequencies `w ≥ 0` of the box the entries of `F_dens` and
    `F_magn` are the lambda-corrected full vertices of the lattice; at `w < 0` they are 0, although the vertex there is the complex conjugate of the entry at
    `(-w, -v'-1, -v-1)`.  (Half of each array is lost: see C05.) -/
theorem fq_value (hcausal : ∀ m : Nat, m < I.N → (I.Sg m).im ≤ 0)
    (hB0 : ∀ i j k, i < S.nx → j < S.ny → k < S.nz → ∀ x ∈ Finset.Icc (-(I.w : Int)) I.w, ∀ a,
      Pipe.onBox (I.c + I.sh) (bubQ S.nx S.ny S.nz (I.beta : ℂ) (runG S I.mu I.beta I.Sg I.N) (i, j, k) x) a ≠ 0)
    (hDs : S.symVVp = true ∨ ∀ w v v', I.D w v v' = I.D w v' v) (hMs : S.symVVp = true ∨ ∀ w v v', I.M w v v' = I.M w v' v)
    (fl : Flags) (hfl : fl.fq = true) (niwV niwC nivV : Nat) (hopt : fl.vertex = true → niwV ≤ I.w ∧ nivV + niwC ≤ I.c) (r : FqOut)
    (h : mainFq fs ty path f1 f2 S fl niwV niwC nivV = .ok r) :
    ∃ (ΓD ΓM : Int → Matrix (Fin (2 * I.c)) (Fin (2 * I.c)) ℂ) (χD0 χM0 : Int → Matrix (Fin (2 * (I.c + I.sh))) (Fin (2 * (I.c + I.sh))) ℂ),
      (∀ x ∈ Finset.Icc (-(I.w : Int)) I.w,
        Ladder (I.beta : ℂ) I.u (Pipe.onBox (I.c + I.sh) (bubLoc (I.beta : ℂ) (runGloc S I.mu I.beta I.Sg I.N) x)) (ΓD x) (χD0 x) ∧
        (∀ i j, χD0 x (core I.c I.sh i) (core I.c I.sh j) =
          gchiOf (I.beta : ℂ) (runGloc S I.mu I.beta I.Sg I.N) true (onBox2 I.c (used S.symVVp I.D)) x i j) ∧
        Ladder (I.beta : ℂ) (-I.u) (Pipe.onBox (I.c + I.sh) (bubLoc (I.beta : ℂ) (runGloc S I.mu I.beta I.Sg I.N) x)) (ΓM x) (χM0 x) ∧
        (∀ i j, χM0 x (core I.c I.sh i) (core I.c I.sh j) =
          gchiOf (I.beta : ℂ) (runGloc S I.mu I.beta I.Sg I.N) false (onBox2 I.c (used S.symVVp I.M)) x i j)) ∧
      ∀ χD χM : Nat → Nat → Nat → Int → Matrix (Fin (2 * (I.c + I.sh))) (Fin (2 * (I.c + I.sh))) ℂ,
        (∀ i j k, i < S.nx → j < S.ny → k < S.nz → ∀ x ∈ Finset.Icc (-(I.w : Int)) I.w,
          Ladder (I.beta : ℂ) I.u (Pipe.onBox (I.c + I.sh) (bubQ S.nx S.ny S.nz (I.beta : ℂ) (runG S I.mu I.beta I.Sg I.N) (i, j, k) x)) (ΓD x) (χD i j k x) ∧
            phys (I.beta : ℂ) (χD i j k x) ≠ 0 ∧
          Ladder (I.beta : ℂ) (-I.u) (Pipe.onBox (I.c + I.sh) (bubQ S.nx S.ny S.nz (I.beta : ℂ) (runG S I.mu I.beta I.Sg I.N) (i, j, k) x)) (ΓM x) (χM i j k x) ∧
            phys (I.beta : ℂ) (χM i j k x) ≠ 0) →
        ∀ i j k : Nat, i < S.nx → j < S.ny → k < S.nz → ∀ w v v' : Int, -(I.w : Int) ≤ w → w ≤ I.w → -(I.c : Int) ≤ v → v < I.c → -(I.c : Int) ≤ v' → v' < I.c →
          ∀ B FM FD, B = Pipe.onBox (I.c + I.sh) (bubQ S.nx S.ny S.nz (I.beta : ℂ) (runG S I.mu I.beta I.Sg I.N) (i, j, k) w) →
            FM = atFreq (vertexLam I.beta (-I.u) (lamOf S.lambdaCorr r.main.run.chi).2 B (χM i j k w)) v v' →
            FD = atFreq (vertexLam I.beta I.u (lamOf S.lambdaCorr r.main.run.chi).1 B (χD i j k w)) v v' →
            (0 ≤ w → fqAt S I.w I.c r.magn i j k w v v' = FM ∧ fqAt S I.w I.c r.dens i j k w v v' = FD) ∧
            (w < 0 → fqAt S I.w I.c r.magn i j k w v v' = 0 ∧ fqAt S I.w I.c r.dens i j k w v v' = 0 ∧
              conj (fqAt S I.w I.c r.magn i j k (-w) (-v' - 1) (-v - 1)) = FM ∧ conj (fqAt S I.w I.c r.dens i j k (-w) (-v' - 1) (-v - 1)) = FD) := by
  obtain ⟨hr, V, hd, hm⟩ := I.fq_parts fl hfl niwV niwC nivV hopt r h
  obtain ⟨ΓD, ΓM, χD0, χM0, c4, hreg⟩ := I.regular_each V hr hcausal hB0 hDs hMs
  refine ⟨ΓD, ΓM, χD0, χM0, c4, ?_⟩
  intro χD χM hχ i j k hi hj hk w v v' w1 w2 v1 v2 v3 v4 B FM FD hB hFM hFD
  set q : Grid S.nx S.ny S.nz := ((i : ZMod S.nx), (j : ZMod S.ny), (k : ZMod S.nz)) with hqd
  have e1 : q.1.val = i := ZMod.val_natCast_of_lt hi
  have e2 : q.2.1.val = j := ZMod.val_natCast_of_lt hj
  have e3 : q.2.2.val = k := ZMod.val_natCast_of_lt hk
  have hfl : flatQ q = lin S.ny S.nz i j k := by
    unfold flatQ lin
    rw [e1, e2, e3]
  obtain ⟨_, _, _, _, _, _, _, _, hinp⟩ := V.onRanks 1 one_pos
  have hinv : (irrkInv (flat3 V.Sv.m)).length = S.nx * S.ny * S.nz := by
    rw [← hinp.flen]
    simp [irrkInv]
  have hl := lin_lt S.nx S.ny S.nz i j k hi hj hk
  set iq := (irrkInv (flat3 V.Sv.m)).getD (lin S.ny S.nz i j k) 0 with hiq
  have hq : irrOf (flat3 V.Sv.m) q = some iq := by
    unfold irrOf
    rw [hfl, hiq, List.getElem?_eq_getElem (by omega), List.getD_eq_getElem?_getD, List.getElem?_eq_getElem (by omega)]
    rfl
  have hval := hreg χD χM hχ q iq hq
  rw [e1, e2, e3] at hval
  have hat : ∀ dens (F), F = fqList V.Sv.C.ingr dens (irrkInv (flat3 V.Sv.m)) (S.nx * S.ny * S.nz) I.w I.c → ∀ x y y' : Int, -(I.w : Int) ≤ x → x ≤ I.w →
      -(I.c : Int) ≤ y → y < I.c → -(I.c : Int) ≤ y' → y' < I.c → fqAt S I.w I.c F i j k x y y' = storedChan V.Sv.C.ingr dens iq x y y' := by
    rintro dens F rfl x y y' x1 x2 y1 y2 y3 y4
    unfold fqAt
    rw [e4_fqList _ _ _ _ _ _ _ _ _ _ hl (by omega) (by omega) (by omega)]
    congr 1 <;> omega
  obtain ⟨hvd, hvm, hvc⟩ := hval w w1 w2 v v' v1 v2 v3 v4
  have hFD' : chanOf V.Sv.C.ingr true iq w v v' = FD := by rw [hvd, hFD, hB]
  have hFM' : chanOf V.Sv.C.ingr false iq w v v' = FM := by rw [hvm, hFM, hB]
  refine ⟨fun h0 => ⟨?_, ?_⟩, fun h0 => ⟨?_, ?_, ?_, ?_⟩⟩
  · rw [hat false _ hm w v v' w1 w2 v1 v2 v3 v4, storedChan, if_pos h0, hFM']
  · rw [hat true _ hd w v v' w1 w2 v1 v2 v3 v4, storedChan, if_pos h0, hFD']
  · rw [hat false _ hm w v v' w1 w2 v1 v2 v3 v4, storedChan, if_neg (by omega)]
  · rw [hat true _ hd w v v' w1 w2 v1 v2 v3 v4, storedChan, if_neg (by omega)]
  · rw [hat false _ hm (-w) (-v' - 1) (-v - 1) (by omega) (by omega) (by omega) (by omega) (by omega) (by omega), storedChan, if_pos (by omega), hvc, Complex.conj_conj, hFM']
  · rw [hat true _ hd (-w) (-v' - 1) (-v - 1) (by omega) (by omega) (by omega) (by omega) (by omega) (by omega), storedChan, if_pos (by omega), hvc, Complex.conj_conj, hFD']

end Files

namespace Ex4

/-- the hypotheses of C138 are met: a run on two ranks with all flags set returns (the remaining hypotheses of (d) are met by the same input, Optics/FromFilesEx) -/
example : ∃ r, mainFq fs "test" "in/" "data.npy" none S ⟨true, true, true⟩ 1 1 1 = .ok r ∧ S.ranks = 2 ∧ r.dens.length = 16 := by
  obtain ⟨out, h⟩ := returns
  obtain ⟨r, hr, -⟩ := theFiles.fq_returns ⟨true, true, true⟩ rfl 1 1 1 (fun _ => by decide) out h
  exact ⟨r, hr, rfl, (theFiles.fq_shape ⟨true, true, true⟩ rfl 1 1 1 (fun _ => by decide) r hr r.dens (by simp)).1⟩

/-- causal, symmetric data, bubbles that do not vanish -/
example : (∀ m : Nat, m < theFiles.N → (theFiles.Sg m).im ≤ 0) ∧ (∀ w v v', theFiles.D w v v' = theFiles.D w v' v) ∧
    (∀ w v v', theFiles.M w v v' = theFiles.M w v' v) ∧
    ∀ i j k, i < S.nx → j < S.ny → k < S.nz → ∀ x ∈ Finset.Icc (-(theFiles.w : Int)) theFiles.w, ∀ a,
      Pipe.onBox (theFiles.c + theFiles.sh) (bubQ S.nx S.ny S.nz (theFiles.beta : ℂ) (runG S theFiles.mu theFiles.beta theFiles.Sg theFiles.N) (i, j, k) x) a ≠ 0 := by
  refine ⟨fun m _ => by simp [theFiles], fun w v v' => dat_symm true w v v', fun w v v' => dat_symm false w v v', ?_⟩
  intro i j k _ _ _ x hx a
  have hx' : -2 ≤ x ∧ x ≤ 2 := by
    rw [Finset.mem_Icc] at hx
    exact hx
  exact (denoms _ x hx' (fun v hv => bubQ_at (i, j, k) x v hx' hv)).2.2.2 a

end Ex4

end DGA.Pairing
