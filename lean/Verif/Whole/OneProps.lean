/-
  C140: a complete run with shared rank files returns what the separate runs of C129-C138 return.
-/
import Verif.Whole.One
import Verif.Whole.Ex

noncomputable section

namespace DGA.Whole

open DGA.Mf DGA.Bz DGA.Bubble DGA.Fp DGA.Two DGA.Inp DGA.Pipe DGA.Pairing DGA.Report DGA.Shared DGA.RankFiles
open DGA.Eli (Grid elCfg linearEliashberg)

/-! ### Specification -/

/-- The saved pairing vertices, if asked for: those of a run of C130 on the same input (with any options of the Eliashberg equation). -/
def PvAs (fs : Fs) (ty path f1 : String) (f2 : Option String) (S : Settings) [NeZero S.nx] [NeZero S.ny] [NeZero S.nz] (asked : Bool)
    (r : Option (PairVertex S.nx S.ny S.nz)) : Prop :=
  (asked = true ∧ ∃ E X e, mainEli fs ty path f1 f2 S E X = .ok e ∧ 0 < e.npp ∧ r = some ⟨e.npp, e.fSing, e.fTrip⟩) ∨ (asked = false ∧ r = none)

/-- The saved full vertices, if asked for: those of a run of C138 that asks for nothing else. -/
def FqAs (fs : Fs) (ty path f1 : String) (f2 : Option String) (S : Settings) (asked : Bool)
    (r : Option (List (List (List (List ℂ))) × List (List (List (List ℂ))))) : Prop :=
  (asked = true ∧ ∃ x, mainFq fs ty path f1 f2 S ⟨false, false, true⟩ 0 0 0 = .ok x ∧ r = some (x.dens, x.magn)) ∨ (asked = false ∧ r = none)

/-- what C136 says about: a run without the parts C136 does not have -/
def OneOut.all {nx ny nz : Nat} (r : OneOut nx ny nz) : AllOut nx ny nz := ⟨r.main, r.text, r.pairing, r.optics⟩

/-- the plan of C136: the pairing vertex only for the Eliashberg equation -/
def Plan.forAll (P : Plan) : Plan := { P with pairing := P.pairing && P.eliash }

/-! ### From the shared files to the files of their own -/

theorem pairAt_eq {nx ny nz : Nat} (fb : List Nat) (npp : Nat) (f1M f2M f1D f2D : List (File PvGroup)) (a1 a2 a3 a4 : Pairing.Arr3)
    (h1 : loadPairing (uniq fb).length npp f1M = some a1) (h2 : loadPairing (uniq fb).length npp f2M = some a2)
    (h3 : loadPairing (uniq fb).length npp f1D = some a3) (h4 : loadPairing (uniq fb).length npp f2D = some a4)
    (chiM chiD : Grid nx ny nz → List ℂ) (u : ℂ) (q : Grid nx ny nz) :
    pairAt fb npp ⟨a1, a2, a3, a4⟩ chiM chiD u q = buildPairing fb npp f1M f2M f1D f2D chiM chiD u q := by
  unfold pairAt buildPairing
  simp only [h1, h2, h3, h4, Option.bind_some]

/-- the assembly from the shared files is the one from files of their own -/
theorem pairVertex_eq {nx ny nz : Nat} [NeZero nx] [NeZero ny] [NeZero nz] (fb : List Nat) (npp : Nat) (files : List (H5 (List (List ℂ))))
    (f1M f2M f1D f2D : List (File PvGroup)) (chiM chiD : Grid nx ny nz → List ℂ) (u : ℂ)
    (hl : loadPv4 (uniq fb).length npp files = opt4 (loadPairing (uniq fb).length npp f1M) (loadPairing (uniq fb).length npp f2M)
      (loadPairing (uniq fb).length npp f1D) (loadPairing (uniq fb).length npp f2D))
    (F : (Grid nx ny nz → Fin (2 * npp) → Fin (2 * npp) → ℂ) × (Grid nx ny nz → Fin (2 * npp) → Fin (2 * npp) → ℂ))
    (h : assemblePp fb npp f1M f2M f1D f2D chiM chiD u = some F) :
    pairVertex fb npp files chiM chiD u = if 0 < npp then some ⟨npp, F.1, F.2⟩ else none := by
  unfold assemblePp at h
  split at h
  swap
  · cases h
  rename_i hall
  cases h
  have h0 := hall 0
  rw [Option.isSome_iff_exists] at h0
  obtain ⟨x, hx⟩ := h0
  unfold buildPairing at hx
  simp only [Option.bind_eq_some_iff] at hx
  obtain ⟨a1, h1, a2, h2, a3, h3, a4, h4, -⟩ := hx
  have hp := pairAt_eq (nx := nx) (ny := ny) (nz := nz) fb npp f1M f2M f1D f2D a1 a2 a3 a4 h1 h2 h3 h4 chiM chiD u
  have hs : ∀ b, pairSaved b fb npp ⟨a1, a2, a3, a4⟩ chiM chiD u = savedF b fb npp f1M f2M f1D f2D chiM chiD u := by
    intro b
    funext q v v'
    unfold pairSaved savedF
    rw [hp]
    cases buildPairing fb npp f1M f2M f1D f2D chiM chiD u q <;> rfl
  unfold pairVertex
  rw [hl, h1, h2, h3, h4]
  simp only [opt4, Option.bind_some, hp, hs]
  by_cases h0 : 0 < npp
  · rw [if_pos h0, if_pos ⟨hall, h0⟩]
  · rw [if_neg h0, if_neg fun hc => h0 hc.2]

theorem opt4_bind {α β γ : Type} (g : α → Option β) (k : β → β → β → β → γ) (x1 x2 x3 x4 : Option α) :
    ((opt4 x1 x2 x3 x4).bind fun a => (g a.f1m).bind fun p => (g a.f2m).bind fun q => (g a.f1d).bind fun r => (g a.f2d).map fun s => k p q r s) =
      match x1.bind g, x2.bind g, x3.bind g, x4.bind g with
      | some p, some q, some r, some s => some (k p q r s)
      | _, _, _, _ => none := by
  unfold opt4
  cases x1 with
  | none => rfl
  | some a1 =>
    cases x2 with
    | none => simp only [Option.bind_some, Option.bind_none]; cases g a1 <;> rfl
    | some a2 =>
      cases x3 with
      | none => simp only [Option.bind_some, Option.bind_none]; cases g a1 <;> cases g a2 <;> rfl
      | some a3 =>
        cases x4 with
        | none => simp only [Option.bind_some, Option.bind_none]; cases g a1 <;> cases g a2 <;> cases g a3 <;> rfl
        | some a4 => simp only [Option.bind_some]; cases g a1 <;> cases g a2 <;> cases g a3 <;> cases g a4 <;> rfl

/-- `F_cond` from the shared files is the one from files of their own -/
theorem condVertex_eq {c : Nat} (fl : Flags) (hv : fl.vertex = true) (s R nx ny nz : Nat) (hR : 0 < R) (f : List Nat) (niw niwV niwC nivV : Nat)
    (gamD gamM : FourP (2 * c) ℂ) (b : Bub ℂ) (beta u : ℂ) (nk : Nat) (chiM chiD : List (List ℂ)) (files : List (H5 (List (List ℂ))))
    (h : runFiles fl s R nx ny nz f niw niwV niwC nivV gamD gamM b beta u = some files) :
    condVertex nk niwV niwC nivV f files chiM chiD u =
      let load := fun (second : Bool) (gam : FourP (2 * c) ℂ) => (optFiles second s R nx ny nz f niw niwV niwC nivV gam b beta u).bind (loadOptics f niwV niwC nivV)
      match load false gamM, load true gamM, load false gamD, load true gamD with
      | some f1M, some f2M, some f1D, some f2D => some (buildFcond nk niwV niwC nivV f1M f2M f1D f2D chiM chiD u)
      | _, _, _, _ => none := by
  have h4 := run_optics fl s R nx ny nz f niw niwV niwC nivV gamD gamM b beta u hR hv (List.replicate (niwC + 1) (List.replicate (2 * nivV) 0)) (uniq f).length files h
  unfold condVertex
  rw [h4]
  have hl : ∀ (second : Bool) (gam : FourP (2 * c) ℂ), (optFiles second s R nx ny nz f niw niwV niwC nivV gam b beta u).bind (loadOptics f niwV niwC nivV) =
      ((optFiles second s R nx ny nz f niw niwV niwC nivV gam b beta u).bind
        (loadVertex "f_".toList (List.replicate (niwC + 1) (List.replicate (2 * nivV) 0)) (uniq f).length niwV)).bind (toFbz f niwV) := by
    intro second gam
    cases optFiles second s R nx ny nz f niw niwV niwC nivV gam b beta u <;> rfl
  simp only [hl]
  refine (opt4_bind (toFbz f niwV) (fun f1m f2m f1d f2d => buildFcond nk niwV niwC nivV f1m f2m f1d f2d chiM chiD u) _ _ _ _).trans ?_
  generalize ((optFiles false s R nx ny nz f niw niwV niwC nivV gamM b beta u).bind _).bind _ = x1
  generalize ((optFiles true s R nx ny nz f niw niwV niwC nivV gamM b beta u).bind _).bind _ = x2
  generalize ((optFiles false s R nx ny nz f niw niwV niwC nivV gamD b beta u).bind _).bind _ = x3
  generalize ((optFiles true s R nx ny nz f niw niwV niwC nivV gamD b beta u).bind _).bind _ = x4
  cases x1 <;> cases x2 <;> cases x3 <;> cases x4 <;> rfl

theorem built_as (S : Settings) (a : Nat) (P : Plan) (saveFq : Bool) (o : Cfg.Optics) (d : Dict) (b : Cfg.Box) (gd gm : G2) (out : MainOut) :
    builtFrom (withAs S a) P saveFq o d b gd gm out = builtFrom S P saveFq o d b gd gm out := rfl

theorem eliWith_as (S : Settings) [NeZero S.nx] [NeZero S.ny] [NeZero S.nz] (a : Nat) (E : EliSettings) (X : Chance S.nx S.ny S.nz) (d : Dict) (b : Cfg.Box) (out : MainOut)
    (V : PairVertex S.nx S.ny S.nz) : eliWith (withAs S a) E X d b out V = eliWith S E X d b out V := by
  have h2 : bandOf (withAs S a) = bandOf S := rfl
  unfold eliWith
  rw [h2]

theorem eliWith_parts (S : Settings) [NeZero S.nx] [NeZero S.ny] [NeZero S.nz] (E : EliSettings) (X : Chance S.nx S.ny S.nz) (d : Dict) (b : Cfg.Box) (out : MainOut)
    (V : PairVertex S.nx S.ny S.nz) (e : EliOut S.nx S.ny S.nz) (h : eliWith S E X d b out V = some e) :
    (⟨e.npp, e.fSing, e.fTrip⟩ : PairVertex S.nx S.ny S.nz) = V ∧ e.main = out := by
  unfold eliWith at h
  simp only [Option.bind_eq_some_iff, Option.map_eq_some_iff] at h
  obtain ⟨n, -, beta, -, mu, -, g, -, ls, -, lt, -, rfl⟩ := h
  exact ⟨rfl, rfl⟩

section

variable {fs : Fs} {ty path f1 : String} {f2 : Option String} {S : Settings} [NeZero S.nx] [NeZero S.ny] [NeZero S.nz]
variable (I : Files fs ty path f1 f2 S)

/-- the pairing vertices of a run -/
def vertexPair {out : MainOut} (V : I.VertexOf out) : PairVertex S.nx S.ny S.nz := ⟨V.Sv.npp, V.Sv.F true, V.Sv.F false⟩

/-- the Eliashberg part of C130 loads the pairing vertices of the run -/
theorem eli_with {out : MainOut} (V : I.VertexOf out) (E : EliSettings) (X : Chance S.nx S.ny S.nz) :
    (eliFrom S E X I.d ⟨I.w, I.c, I.sh, I.as⟩ (I.obj "dens" I.D) (I.obj "magn" I.M) out).toOption =
      eliWith S E X I.d ⟨I.w, I.c, I.sh, I.as⟩ out (vertexPair I V) := by
  obtain ⟨s1, s2⟩ := siwObj_sigma I.Sg I.N I.beta
  have e1 : toFour (2 * I.c) (I.obj "dens" I.D) = some (objOf true I.w (I.beta : ℂ) (I.u : ℂ) (onBox2 I.c (used S.symVVp I.D))) :=
    toFour_tab true I.w I.c _ _ _
  have e2 : toFour (2 * I.c) (I.obj "magn" I.M) = some (objOf false I.w (I.beta : ℂ) (I.u : ℂ) (onBox2 I.c (used S.symVVp I.M))) :=
    toFour_tab false I.w I.c _ _ _
  have hgen : genDmft S.nx S.ny S.nz S.hr I.mu (siwObj (samplesF I.Sg I.N) I.beta) I.as I.w =
      genOf S.nx S.ny S.nz I.NG I.w (I.beta : ℂ) I.G I.gloc := by
    rw [genDmft_eq S.nx S.ny S.nz S.hr I.mu _ (posHalf I.Sg I.N) s1 (by simpa [posHalf] using core_le I.Sg I.N I.beta I.hN), s2]
    rfl
  have hm : fbz2irrk S.nx S.ny S.nz S.syms = some V.Sv.m := by rw [← V.hsyms]; exact V.Sv.hm
  have hloc := V.hloc
  unfold Files.localRun at hloc
  obtain ⟨r1M, r2M, r1D, r2D, g1, g2, g3, g4, hinp⟩ := V.onRanks S.ranks I.ranks
  unfold Files.filesOn at g1 g2 g3 g4
  have hasm := V.assemble_on S.ranks r1M r2M r1D r2D hinp
  rw [V.chiM, V.chiD] at hasm
  unfold eliFrom eliWith vertexPair
  rw [I.siw, I.d_n, I.d_beta, I.d_u, I.d_mu]
  simp only [arrOf, numOf, Complex.ofReal_re, Int.toNat_natCast, e1, e2, hm, hgen, hloc, g1, g2, g3, g4]
  rw [← V.npp_eq]
  simp only [hasm, Option.bind_some]
  cases gfMu X.newton out.sigma (bandOf S) I.n 0 with
  | none => rfl
  | some mu =>
    simp only [Option.bind_some]
    cases newGf out.sigma (bandOf S) mu (I.as : Int) with
    | none => rfl
    | some g =>
      simp only [Option.bind_some]
      generalize linearEliashberg (elCfg E.kSym E.symSing E.symTrip E.eps E.maxCount E.nEig) V.Sv.npp I.beta (V.Sv.F true) _ _ _ _ _ _ = x
      generalize linearEliashberg (elCfg E.kSym E.symSing E.symTrip E.eps E.maxCount E.nEig) V.Sv.npp I.beta (V.Sv.F false) _ _ _ _ _ _ = y
      cases x <;> cases y <;> rfl

/-- what the master rank assembles from the shared files -/
theorem built_on {out : MainOut} (V : I.VertexOf out) (P : Plan) (saveFq : Bool) (o : Cfg.Optics)
    (hv : (P.hasOptics && P.vertex) = true → 0 ≤ o.niwVert ∧ 0 ≤ o.niwCond ∧ 0 < o.nivVert ∧ o.niwVert.toNat ≤ I.w ∧ o.nivVert.toNat + o.niwCond.toNat ≤ I.c) :
    ∃ cond : Option (List (List (List (List ℂ)))),
      builtFrom S P saveFq o I.d ⟨I.w, I.c, I.sh, I.as⟩ (I.obj "dens" I.D) (I.obj "magn" I.M) out =
        ((ifAsked P.pairing (if 0 < nivPP I.w I.c then some (vertexPair I V) else none)).bind fun pv => (ifAsked (P.hasOptics && P.vertex) cond).bind fun cd =>
          (ifAsked saveFq (some (fqList V.Sv.C.ingr true (irrkInv (flat3 V.Sv.m)) (S.nx * S.ny * S.nz) I.w I.c,
            fqList V.Sv.C.ingr false (irrkInv (flat3 V.Sv.m)) (S.nx * S.ny * S.nz) I.w I.c))).map fun fq => ⟨pv, cd, fq⟩) ∧
      ((P.hasOptics && P.vertex) = true → ∀ derA derB newton,
        ((optFrom S o derA derB newton I.d ⟨I.w, I.c, I.sh, I.as⟩ (I.obj "dens" I.D) (I.obj "magn" I.M) out).toOption.map fun r =>
            (⟨r.ranges, r.mu, r.bubble, some (r.fCond, r.vert)⟩ : Optical)) =
          cond.bind (optWith S o derA derB newton I.d ⟨I.w, I.c, I.sh, I.as⟩ out)) := by
  obtain ⟨s1, s2⟩ := siwObj_sigma I.Sg I.N I.beta
  have e1 : toFour (2 * I.c) (I.obj "dens" I.D) = some (objOf true I.w (I.beta : ℂ) (I.u : ℂ) (onBox2 I.c (used S.symVVp I.D))) :=
    toFour_tab true I.w I.c _ _ _
  have e2 : toFour (2 * I.c) (I.obj "magn" I.M) = some (objOf false I.w (I.beta : ℂ) (I.u : ℂ) (onBox2 I.c (used S.symVVp I.M))) :=
    toFour_tab false I.w I.c _ _ _
  have hgen : genDmft S.nx S.ny S.nz S.hr I.mu (siwObj (samplesF I.Sg I.N) I.beta) I.as I.w =
      genOf S.nx S.ny S.nz I.NG I.w (I.beta : ℂ) I.G I.gloc := by
    rw [genDmft_eq S.nx S.ny S.nz S.hr I.mu _ (posHalf I.Sg I.N) s1 (by simpa [posHalf] using core_le I.Sg I.N I.beta I.hN), s2]
    rfl
  have hm : fbz2irrk S.nx S.ny S.nz S.syms = some V.Sv.m := by rw [← V.hsyms]; exact V.Sv.hm
  have hloc := V.hloc
  unfold Files.localRun at hloc
  obtain ⟨r1M, r2M, r1D, r2D, g1, g2, g3, g4, hinp⟩ := V.onRanks S.ranks I.ranks
  unfold Files.filesOn at g1 g2 g3 g4
  have hasm := V.assemble_on S.ranks r1M r2M r1D r2D hinp
  rw [V.chiM, V.chiD] at hasm
  obtain ⟨files, hfiles⟩ := files_run I V (flagsOf P saveFq) S.ranks o.niwVert.toNat o.niwCond.toNat o.nivVert.toNat I.ranks (fun h => ⟨(hv h).2.2.2.1, (hv h).2.2.2.2⟩)
  have hpv : P.pairing = true → pairVertex (nx := S.nx) (ny := S.ny) (nz := S.nz) (flat3 V.Sv.m) (nivPP I.w I.c) files (rowQ out.run.chi.magn) (rowQ out.run.chi.dens) (I.u : ℂ) =
      if 0 < nivPP I.w I.c then some (vertexPair I V) else none := by
    intro hp
    have h4 := run_pairing (flagsOf P saveFq) I.sh S.ranks S.nx S.ny S.nz (flat3 V.Sv.m) I.w _ _ _ V.dc.gam V.mc.gam _ _ _ I.ranks hp (uniq (flat3 V.Sv.m)).length (nivPP I.w I.c)
      files hfiles
    rw [g1, g2, g3, g4] at h4
    rw [← V.npp_eq] at h4 ⊢
    exact pairVertex_eq _ _ files r1M r2M r1D r2D _ _ _ h4 _ hasm
  have hfq : saveFq = true → buildFq (S.nx * S.ny * S.nz) I.w I.c (flat3 V.Sv.m) files out.run.chi.magn out.run.chi.dens (I.u : ℂ) =
      some (fqList V.Sv.C.ingr true (irrkInv (flat3 V.Sv.m)) (S.nx * S.ny * S.nz) I.w I.c,
        fqList V.Sv.C.ingr false (irrkInv (flat3 V.Sv.m)) (S.nx * S.ny * S.nz) I.w I.c) := by
    intro hs
    have h := I.fqFrom_on V S.ranks I.ranks (flagsOf P saveFq) hs o.niwVert.toNat o.niwCond.toNat o.nivVert.toNat (fun h => ⟨(hv h).2.2.2.1, (hv h).2.2.2.2⟩)
    unfold fqFrom at h
    rw [I.siw, I.d_n, I.d_beta, I.d_u, I.d_mu] at h
    simp only [arrOf, numOf, Complex.ofReal_re, Int.toNat_natCast, e1, e2, hm, hgen, hloc, hfiles] at h
    cases hb : buildFq (S.nx * S.ny * S.nz) I.w I.c (flat3 V.Sv.m) files out.run.chi.magn out.run.chi.dens (I.u : ℂ) with
    | none => rw [hb] at h; cases h
    | some x =>
      rw [hb] at h
      obtain ⟨fd, fm⟩ := x
      simp only [Except.ok.injEq, FqOut.mk.injEq, true_and] at h
      rw [h.1, h.2]
  have hneg : ¬ (P.hasOptics && P.vertex && (decide (o.niwVert < 0 ∨ o.niwCond < 0 ∨ o.nivVert ≤ 0))) = true := by
    intro h
    rw [Bool.and_eq_true, decide_eq_true_eq] at h
    have := hv h.1
    omega
  refine ⟨condVertex (S.nx * S.ny * S.nz) o.niwVert.toNat o.niwCond.toNat o.nivVert.toNat (flat3 V.Sv.m) files out.run.chi.magn out.run.chi.dens (I.u : ℂ), ?_, ?_⟩
  · unfold builtFrom
    simp only [if_neg hneg]
    rw [I.siw, I.d_n, I.d_beta, I.d_u, I.d_mu]
    simp only [arrOf, numOf, Complex.ofReal_re, Int.toNat_natCast, e1, e2, hm, hgen, hloc, hfiles, Option.bind_some]
    have h1 : ifAsked P.pairing (pairVertex (nx := S.nx) (ny := S.ny) (nz := S.nz) (flat3 V.Sv.m) (nivPP I.w I.c) files (rowQ out.run.chi.magn) (rowQ out.run.chi.dens) (I.u : ℂ)) =
        ifAsked P.pairing (if 0 < nivPP I.w I.c then some (vertexPair I V) else none) := by
      unfold ifAsked
      by_cases h : P.pairing = true
      · rw [if_pos h, if_pos h, hpv h]
      · rw [if_neg h, if_neg h]
    have h2 : ifAsked saveFq (buildFq (S.nx * S.ny * S.nz) I.w I.c (flat3 V.Sv.m) files out.run.chi.magn out.run.chi.dens (I.u : ℂ)) =
        ifAsked saveFq (some (fqList V.Sv.C.ingr true (irrkInv (flat3 V.Sv.m)) (S.nx * S.ny * S.nz) I.w I.c,
          fqList V.Sv.C.ingr false (irrkInv (flat3 V.Sv.m)) (S.nx * S.ny * S.nz) I.w I.c)) := by
      unfold ifAsked
      by_cases h : saveFq = true
      · rw [if_pos h, if_pos h, hfq h]
      · rw [if_neg h, if_neg h]
    rw [h1, h2]
  · intro hvx derA derB newton
    have hc := condVertex_eq (flagsOf P saveFq) hvx I.sh S.ranks S.nx S.ny S.nz I.ranks (flat3 V.Sv.m) I.w o.niwVert.toNat o.niwCond.toNat o.nivVert.toNat V.dc.gam V.mc.gam
      (genOf S.nx S.ny S.nz I.NG I.w (I.beta : ℂ) I.G I.gloc) (I.beta : ℂ) (I.u : ℂ) (S.nx * S.ny * S.nz) out.run.chi.magn out.run.chi.dens files hfiles
    rw [hc]
    obtain ⟨p1, p2, p3, -⟩ := hv hvx
    unfold optFrom optWith
    by_cases hb : o.niwBubble < 0 ∨ o.nivBubble < 0
    · rw [if_pos (by omega)]
      simp only [if_pos hb]
      generalize (match (_ : Option (List (List (List (List ℂ))))), (_ : Option (List (List (List (List ℂ))))), (_ : Option (List (List (List (List ℂ))))),
        (_ : Option (List (List (List (List ℂ))))) with
        | some f1M, some f2M, some f1D, some f2D => some (buildFcond _ _ _ _ f1M f2M f1D f2D _ _ _)
        | _, _, _, _ => none) = x
      cases x <;> rfl
    · rw [if_neg (by omega)]
      simp only [if_neg hb]
      rw [I.siw, I.d_n, I.d_beta, I.d_u, I.d_mu]
      simp only [arrOf, numOf, Complex.ofReal_re, Int.toNat_natCast, e1, e2, hm, hgen, hloc]
      generalize (optFiles false I.sh S.ranks S.nx S.ny S.nz (flat3 V.Sv.m) I.w o.niwVert.toNat o.niwCond.toNat o.nivVert.toNat V.mc.gam _ _ _).bind _ = x1
      generalize (optFiles true I.sh S.ranks S.nx S.ny S.nz (flat3 V.Sv.m) I.w o.niwVert.toNat o.niwCond.toNat o.nivVert.toNat V.mc.gam _ _ _).bind _ = x2
      generalize (optFiles false I.sh S.ranks S.nx S.ny S.nz (flat3 V.Sv.m) I.w o.niwVert.toNat o.niwCond.toNat o.nivVert.toNat V.dc.gam _ _ _).bind _ = x3
      generalize (optFiles true I.sh S.ranks S.nx S.ny S.nz (flat3 V.Sv.m) I.w o.niwVert.toNat o.niwCond.toNat o.nivVert.toNat V.dc.gam _ _ _).bind _ = x4
      cases x1 with
      | none => rfl
      | some x1 =>
      cases x2 with
      | none => rfl
      | some x2 =>
      cases x3 with
      | none => rfl
      | some x3 =>
      cases x4 with
      | none => rfl
      | some x4 =>
      simp only [Option.bind_some]
      cases gfMu newton out.sigma (bandOf S) I.n 0 with
      | none => rfl
      | some mu =>
        simp only [Option.bind_some]
        cases newGf out.sigma (bandOf S) mu (I.as : Int) with
        | none => rfl
        | some g =>
          simp only [Option.bind_some]
          generalize (Opt.chijjBubbleMain _ _ _ _ _ _ _ : Option (List ℂ)) = y
          generalize vertRanks _ _ _ _ _ _ _ _ _ _ _ _ _ = z
          cases y <;> cases z <;> rfl

theorem toOption_ok {α : Type} (x : Except String α) (a : α) : x = .ok a ↔ x.toOption = some a := by
  cases x with
  | error e => exact ⟨(fun h => nomatch h), (fun h => nomatch h)⟩
  | ok y =>
    simp only [Except.toOption, Except.ok.injEq, Option.some.injEq]

theorem ifAsked_some {α : Type} (b : Bool) (x : Option α) (r : Option α) : ifAsked b x = some r ↔ (b = true ∧ ∃ a, x = some a ∧ r = some a) ∨ (b = false ∧ r = none) := by
  unfold ifAsked
  cases b
  · simp [eq_comm]
  · cases x <;> simp [eq_comm]

/-- **C140 (a).** A complete run in which every rank writes one file for everything that is asked for, and in which `save_fq` may be set, returns exactly if the run
    of C136 (every component in a file of its own) returns for the same input, with the same self-energies, text files, eigenvalues and conductivity; the saved
    pairing vertices are those of a run of C130, also if the Eliashberg equation is not solved, and exist only if the frequency box of the pairing vertex
    is not empty; the saved full vertices are those of a run of C138 that asks for nothing else. -/
theorem one_iff (P : Plan) (saveFq : Bool) (X : Chance S.nx S.ny S.nz) (r : OneOut S.nx S.ny S.nz) :
    mainOne fs ty path f1 f2 S P saveFq X = .ok r ↔ mainAll fs ty path f1 f2 S P.forAll X = .ok r.all ∧
      ∃ (a : Nat) (o : Cfg.Optics), I.as ≤ a ∧ P.o.setRanges ⟨I.w, I.c, I.sh, I.as⟩ = some (o, ⟨I.w, I.c, I.sh, a⟩) ∧
        PvAs fs ty path f1 f2 (withAs S a) P.pairing r.pv ∧ FqAs fs ty path f1 f2 (withAs S a) saveFq r.fq := by
  have key : ∀ (a : Nat) (o : Cfg.Optics), I.as ≤ a → P.o.setRanges ⟨I.w, I.c, I.sh, I.as⟩ = some (o, ⟨I.w, I.c, I.sh, a⟩) →
      (mainOne fs ty path f1 f2 S P saveFq X = .ok r ↔ mainAll fs ty path f1 f2 S P.forAll X = .ok r.all ∧
        PvAs fs ty path f1 f2 (withAs S a) P.pairing r.pv ∧ FqAs fs ty path f1 f2 (withAs S a) saveFq r.fq) := by
    intro a o ha hs
    obtain ⟨p1, p2, p3, p4, p5, p6, p7, -⟩ := Cfg.setRanges_spec _ _ _ _ hs
    simp only at p1 p2 p3 p4
    set b : Cfg.Box := ⟨I.w, I.c, I.sh, a⟩ with hb
    have h0 : mainAll fs ty path f1 f2 S P.forAll X = match calcFrom S I.d b (I.obj "dens" I.D) (I.obj "magn" I.M) with
        | .error e => .error e
        | .ok out =>
          match reportFrom S X.newton I.d b out with
          | .error e => .error e
          | .ok text =>
            match pairingPart S P.forAll X I.d b (I.obj "dens" I.D) (I.obj "magn" I.M) out with
            | .error e => .error e
            | .ok pr =>
              match opticsPart S P.forAll o X.newton I.d b (I.obj "dens" I.D) (I.obj "magn" I.M) out with
              | .error e => .error e
              | .ok op => .ok ⟨out, text, pr, op⟩ := by
      have hs' : P.forAll.o.setRanges ⟨I.w, I.c, I.sh, I.as⟩ = some (o, ⟨I.w, I.c, I.sh, a⟩) := hs
      unfold mainAll
      simp only [I.load, I.build, hs']
      rfl
    have h1 : mainOne fs ty path f1 f2 S P saveFq X = match calcFrom S I.d b (I.obj "dens" I.D) (I.obj "magn" I.M) with
        | .error e => .error e
        | .ok out =>
          match builtFrom S P saveFq o I.d b (I.obj "dens" I.D) (I.obj "magn" I.M) out with
          | none => .error "failed"
          | some B =>
            match reportFrom S X.newton I.d b out with
            | .error e => .error e
            | .ok text =>
              match eliPart S P X I.d b out B.pv, condPart S P o X.newton I.d b out B.cond with
              | some pr, some op => .ok ⟨out, text, B.pv, B.fq, pr, op⟩
              | _, _ => .error "failed" := by
      unfold mainOne
      simp only [I.load, I.build, hs]
      rfl
    rw [h0, h1]
    have hrun : mainRun fs ty path f1 f2 (withAs S a) = calcFrom S I.d b (I.obj "dens" I.D) (I.obj "magn" I.M) := (I.enlarge a ha).mainRun_eq
    cases hc : calcFrom S I.d b (I.obj "dens" I.D) (I.obj "magn" I.M) with
    | error e =>
      constructor
      · intro h'; cases h'
      · rintro ⟨h', -⟩; cases h'
    | ok out =>
    rw [hc] at hrun
    simp only
    -- the vertex part
    obtain ⟨V⟩ := (I.enlarge a ha).vertexOf out hc
    obtain ⟨W, hW⟩ : ∃ W : PairVertex S.nx S.ny S.nz, W = @vertexPair fs ty path f1 f2 (withAs S a) _ _ _ (I.enlarge a ha) out V := ⟨_, rfl⟩
    have hWn : W.npp = nivPP I.w I.c := by rw [hW]; exact V.npp_eq
    have hel : ∀ E X', (eliFrom S E X' I.d b (I.obj "dens" I.D) (I.obj "magn" I.M) out).toOption = eliWith S E X' I.d b out W := by
      intro E X'
      rw [← eli_as a, ← eliWith_as S a, hW]
      exact eli_with (I.enlarge a ha) V E X'
    have hme : ∀ E X', mainEli fs ty path f1 f2 (withAs S a) E X' = eliFrom S E X' I.d b (I.obj "dens" I.D) (I.obj "magn" I.M) out := by
      intro E X'
      rw [(I.enlarge a ha).mainEli_eq, hrun]
      exact eli_as a ..
    -- the optics ranges
    by_cases hneg : (P.hasOptics && P.vertex) = true ∧ (o.niwVert < 0 ∨ o.niwCond < 0 ∨ o.nivVert ≤ 0)
    · have hB : builtFrom S P saveFq o I.d b (I.obj "dens" I.D) (I.obj "magn" I.M) out = none := by
        unfold builtFrom
        simp only
        rw [if_pos (by rw [Bool.and_eq_true, decide_eq_true_eq]; exact hneg)]
      rw [hB]
      constructor
      · intro h'; cases h'
      rintro ⟨h', -⟩
      have hno : ∀ op, opticsPart S P.forAll o X.newton I.d b (I.obj "dens" I.D) (I.obj "magn" I.M) out ≠ .ok op := by
        intro op ho
        have hh := hneg.1
        rw [Bool.and_eq_true] at hh
        have a1 : P.forAll.hasOptics = true := hh.1
        have a2 : P.forAll.vertex = true := hh.2
        unfold opticsPart at ho
        rw [if_pos a1, if_pos a2] at ho
        have he : optFrom S o P.forAll.derA P.forAll.derB X.newton I.d b (I.obj "dens" I.D) (I.obj "magn" I.M) out = .error "failed" := by
          unfold optFrom
          simp only
          rw [if_pos (by omega)]
        rw [he] at ho
        split at ho <;> cases ho
      split at h'
      · cases h'
      · split at h'
        · cases h'
        · split at h'
          · cases h'
          · rename_i op ho
            exact absurd ho (hno op)
    · obtain ⟨cond, hB, hO⟩ := built_on (I.enlarge a ha) V P saveFq o (by
        intro hvx
        have : ¬ (o.niwVert < 0 ∨ o.niwCond < 0 ∨ o.nivVert ≤ 0) := fun h => hneg ⟨hvx, h⟩
        refine ⟨by omega, by omega, by omega, ?_, ?_⟩
        · show o.niwVert.toNat ≤ I.w
          omega
        · show o.nivVert.toNat + o.niwCond.toNat ≤ I.c
          omega)
      obtain ⟨fqv, hfqv⟩ : ∃ x, x = (fqList V.Sv.C.ingr true (irrkInv (flat3 V.Sv.m)) (S.nx * S.ny * S.nz) I.w I.c,
        fqList V.Sv.C.ingr false (irrkInv (flat3 V.Sv.m)) (S.nx * S.ny * S.nz) I.w I.c) := ⟨_, rfl⟩
      have hB' : builtFrom S P saveFq o I.d b (I.obj "dens" I.D) (I.obj "magn" I.M) out =
          ((ifAsked P.pairing (if 0 < nivPP I.w I.c then some W else none)).bind fun pv => (ifAsked (P.hasOptics && P.vertex) cond).bind fun cd =>
            (ifAsked saveFq (some fqv)).map fun fq => ⟨pv, cd, fq⟩) := by
        rw [hfqv, hW]
        exact hB
      have hPv : ∀ pv, ifAsked P.pairing (if 0 < nivPP I.w I.c then some W else none) = some pv ↔ PvAs fs ty path f1 f2 (withAs S a) P.pairing pv := by
        intro pv
        rw [ifAsked_some]
        unfold PvAs
        apply or_congr_left
        apply and_congr_right
        intro _
        constructor
        · rintro ⟨x, hx, rfl⟩
          split at hx
          swap
          · cases hx
          rename_i hpos
          cases hx
          obtain ⟨e, he, -⟩ := (I.enlarge a ha).eli_returns P.E ⟨fun _ _ => some 0, X.rk, X.rv, X.gap0s⟩ out hrun 0 (by simp [gfMu, updateMu]; norm_num)
          have he' := (toOption_ok _ _).1 ((hme _ _).symm.trans he)
          have hpart := eliWith_parts S _ _ _ _ _ _ e ((hel _ _).symm.trans he')
          refine ⟨_, _, e, he, ?_, ?_⟩
          · have : e.npp = W.npp := congrArg PairVertex.npp hpart.1
            rw [this, hWn]
            exact hpos
          · rw [← hpart.1]
        · rintro ⟨E, X', e, he, hpos, rfl⟩
          have he' := (toOption_ok _ _).1 ((hme _ _).symm.trans he)
          have hpart := eliWith_parts S _ _ _ _ _ _ e ((hel _ _).symm.trans he')
          have hn : e.npp = W.npp := congrArg PairVertex.npp hpart.1
          refine ⟨W, ?_, ?_⟩
          · rw [if_pos (by rw [← hWn, ← hn]; exact hpos)]
          · rw [← hpart.1]
      have hFq : ∀ fq, ifAsked saveFq (some fqv) = some fq ↔ FqAs fs ty path f1 f2 (withAs S a) saveFq fq := by
        intro fq
        have hmain : mainFq fs ty path f1 f2 (withAs S a) ⟨false, false, true⟩ 0 0 0 = .ok ⟨out, fqv.1, fqv.2⟩ := by
          have h1 := (I.enlarge a ha).mainFq_eq S.ranks I.ranks ⟨false, false, true⟩ 0 0 0
          rw [hrun] at h1
          rw [hfqv]
          exact h1.trans ((I.enlarge a ha).fqFrom_on V S.ranks I.ranks ⟨false, false, true⟩ rfl 0 0 0 (fun h => by cases h))
        rw [ifAsked_some]
        unfold FqAs
        rw [hmain]
        apply or_congr_left
        apply and_congr_right
        intro _
        constructor
        · rintro ⟨x, hx, rfl⟩
          cases hx
          exact ⟨_, rfl, rfl⟩
        · rintro ⟨x, hx, rfl⟩
          cases hx
          exact ⟨_, rfl, rfl⟩
      have hEl : ∀ pv, ifAsked P.pairing (if 0 < nivPP I.w I.c then some W else none) = some pv → ∀ pr,
          eliPart S P X I.d b out pv = some pr ↔ pairingPart S P.forAll X I.d b (I.obj "dens" I.D) (I.obj "magn" I.M) out = .ok pr := by
        intro pv hpv pr
        rw [ifAsked_some] at hpv
        unfold eliPart
        rw [ifAsked_some]
        unfold pairingPart Plan.forAll
        rcases hpv with ⟨h1, x, hx, rfl⟩ | ⟨h1, rfl⟩
        · split at hx
          swap
          · cases hx
          cases hx
          cases he : P.eliash with
          | false => simp [eq_comm]
          | true =>
            simp only [h1, Option.bind_some, true_and, reduceCtorEq, false_and, or_false, if_true, Bool.and_self]
            rw [← hel]
            cases eliFrom S P.E X I.d b (I.obj "dens" I.D) (I.obj "magn" I.M) out with
            | error e => simp [Except.toOption]
            | ok e => simp [Except.toOption, eq_comm]
        · cases he : P.eliash with
          | false => simp [eq_comm]
          | true => simp [h1]
      have hCo : ∀ cd, ifAsked (P.hasOptics && P.vertex) cond = some cd → ∀ op,
          condPart S P o X.newton I.d b out cd = some op ↔ opticsPart S P.forAll o X.newton I.d b (I.obj "dens" I.D) (I.obj "magn" I.M) out = .ok op := by
        intro cd hcd op
        rw [ifAsked_some] at hcd
        unfold condPart
        rw [ifAsked_some]
        unfold opticsPart Plan.forAll
        cases ho : P.hasOptics with
        | false =>
          simp only [Bool.false_eq_true, false_and, true_and, false_or, if_false, Except.ok.injEq]
          exact eq_comm
        | true =>
          cases hbu : P.bubble with
          | false => simp
          | true =>
            cases hvx : P.vertex with
            | false =>
              simp only [true_and, reduceCtorEq, false_and, or_false, if_true, Bool.false_eq_true, if_false]
              cases bubFrom S o P.derA P.derB X.newton I.d b out with
              | error e => simp
              | ok x => simp [eq_comm]
            | true =>
              rw [ho, hvx] at hcd hO
              simp only [Bool.and_self, true_and, reduceCtorEq, false_and, or_false] at hcd
              obtain ⟨x, hx, rfl⟩ := hcd
              have hO' := hO rfl P.derA P.derB X.newton
              rw [hx, Option.bind_some] at hO'
              simp only [true_and, reduceCtorEq, false_and, or_false, if_true, Option.bind_some]
              have hO'' : (Except.toOption (optFrom S o P.derA P.derB X.newton I.d b (I.obj "dens" I.D) (I.obj "magn" I.M) out)).map
                (fun r => (⟨r.ranges, r.mu, r.bubble, some (r.fCond, r.vert)⟩ : Optical)) = optWith S o P.derA P.derB X.newton I.d b out x := hO'
              rw [← hO'']
              cases optFrom S o P.derA P.derB X.newton I.d b (I.obj "dens" I.D) (I.obj "magn" I.M) out with
              | error e => simp [Except.toOption]
              | ok x => simp [Except.toOption, eq_comm]
      have hCs : ∀ op, opticsPart S P.forAll o X.newton I.d b (I.obj "dens" I.D) (I.obj "magn" I.M) out = .ok op →
          ∃ cd, ifAsked (P.hasOptics && P.vertex) cond = some cd := by
        intro op hop
        cases hvx : (P.hasOptics && P.vertex) with
        | false => exact ⟨none, rfl⟩
        | true =>
          have hO' := hO hvx P.derA P.derB X.newton
          cases cond with
          | some x => exact ⟨some x, rfl⟩
          | none =>
            rw [Bool.and_eq_true] at hvx
            rw [Option.bind_none, Option.map_eq_none_iff] at hO'
            have hO'' : Except.toOption (optFrom S o P.derA P.derB X.newton I.d b (I.obj "dens" I.D) (I.obj "magn" I.M) out) = none := hO'
            unfold opticsPart Plan.forAll at hop
            simp only [hvx.1, hvx.2, if_true] at hop
            split at hop
            swap
            · cases hop
            cases hz : optFrom S o P.derA P.derB X.newton I.d b (I.obj "dens" I.D) (I.obj "magn" I.M) out with
            | error e => rw [hz] at hop; cases hop
            | ok z => rw [hz] at hO''; cases hO''
      rw [hB']
      constructor
      · intro h'
        cases hp1 : ifAsked P.pairing (if 0 < nivPP I.w I.c then some W else none) with
        | none => rw [hp1] at h'; cases h'
        | some pv =>
        cases hp2 : ifAsked (P.hasOptics && P.vertex) cond with
        | none => rw [hp1, hp2] at h'; cases h'
        | some cd =>
        cases hp3 : ifAsked saveFq (some fqv) with
        | none => rw [hp1, hp2, hp3] at h'; cases h'
        | some fq =>
        rw [hp1, hp2, hp3] at h'
        simp only [Option.bind_some, Option.map_some] at h'
        cases hrep : reportFrom S X.newton I.d b out with
        | error e => rw [hrep] at h'; cases h'
        | ok text =>
        rw [hrep] at h'
        simp only at h'
        split at h'
        swap
        · cases h'
        rename_i pr op hpr hop
        cases h'
        rw [(hEl pv hp1 pr).1 hpr, (hCo cd hp2 op).1 hop]
        exact ⟨rfl, (hPv pv).1 hp1, (hFq fq).1 hp3⟩
      · rintro ⟨h', hpv, hfq⟩
        have hp1 := (hPv _).2 hpv
        have hp3 := (hFq _).2 hfq
        cases hrep : reportFrom S X.newton I.d b out with
        | error e => rw [hrep] at h'; cases h'
        | ok text =>
        rw [hrep] at h'
        simp only at h'
        cases hpr : pairingPart S P.forAll X I.d b (I.obj "dens" I.D) (I.obj "magn" I.M) out with
        | error e => rw [hpr] at h'; cases h'
        | ok pr =>
        rw [hpr] at h'
        simp only at h'
        cases hop : opticsPart S P.forAll o X.newton I.d b (I.obj "dens" I.D) (I.obj "magn" I.M) out with
        | error e => rw [hop] at h'; cases h'
        | ok op =>
        rw [hop] at h'
        obtain ⟨cd, hp2⟩ := hCs op hop
        rw [hp1, hp2, hp3]
        simp only [Option.bind_some, Option.map_some]
        rw [(hEl _ hp1 pr).2 hpr, (hCo cd hp2 op).2 hop]
        obtain ⟨r1, r2, r3, r4, r5, r6⟩ := r
        simp only [OneOut.all, Except.ok.injEq, AllOut.mk.injEq] at h'
        obtain ⟨rfl, rfl, rfl, rfl⟩ := h'
        rfl
  constructor
  · intro h
    cases hs : P.o.setRanges ⟨I.w, I.c, I.sh, I.as⟩ with
    | none =>
      unfold mainOne at h
      simp only [I.load, I.build, hs] at h
      cases h
    | some ob =>
      obtain ⟨o', b'⟩ := ob
      obtain ⟨p1, p2, p3, p4, p5, p6, p7, -⟩ := Cfg.setRanges_spec _ _ _ _ hs
      obtain ⟨b1, b2, b3, b4⟩ := b'
      simp only at p1 p2 p3 p4 p5 p6 p7
      obtain ⟨a, rfl⟩ : ∃ a : Nat, b4 = (a : Int) := ⟨b4.toNat, by omega⟩
      subst p5 p6 p7
      have := (key a o' (by omega) hs).1 h
      exact ⟨this.1, a, o', by omega, rfl, this.2⟩
  · rintro ⟨h0, a, o, ha, hs, h⟩
    exact (key a o ha hs).2 ⟨h0, h⟩

/-- the frequency box of the pairing vertex -/
theorem eli_npp (E : EliSettings) (X : Chance S.nx S.ny S.nz) (e : EliOut S.nx S.ny S.nz) (h : mainEli fs ty path f1 f2 S E X = .ok e) : e.npp = nivPP I.w I.c := by
  obtain ⟨out, V, hn, mu, ls, lt, hh⟩ := I.eli_chain E X e h
  have he : e = ⟨out, V.Sv.npp, V.Sv.F true, V.Sv.F false, mu, ls, lt⟩ := by tauto
  rw [he]
  exact V.npp_eq

/-- **C140 (b).** The number of ranks does not matter, although every rank writes other groups into its file. -/
theorem one_ranks (hfit : I.w ≤ I.sh + I.as) (P : Plan) (saveFq : Bool) (X : Chance S.nx S.ny S.nz) (R : Nat) (hR : 0 < R) (r : OneOut S.nx S.ny S.nz) :
    mainOne fs ty path f1 f2 { S with ranks := R } P saveFq X = .ok r ↔ mainOne fs ty path f1 f2 S P saveFq X = .ok r := by
  rw [one_iff (onRanks I R hR) P saveFq X r, one_iff I P saveFq X r]
  apply and_congr (all_ranks I hfit P.forAll X R hR r.all)
  apply exists_congr
  intro a
  apply exists_congr
  intro o
  apply and_congr_right
  intro ha
  have ha' : I.as ≤ a := ha
  apply and_congr_right
  intro _
  apply and_congr
  · unfold PvAs
    simp only [show ∀ E X, mainEli fs ty path f1 f2 (withAs { S with ranks := R } a) E X = mainEli fs ty path f1 f2 (withAs S a) E X from
      fun E X => ((I.enlarge a ha').eli_ranks R hR E X).2]
  · unfold FqAs
    rw [show mainFq fs ty path f1 f2 (withAs { S with ranks := R } a) ⟨false, false, true⟩ 0 0 0 = mainFq fs ty path f1 f2 (withAs S a) ⟨false, false, true⟩ 0 0 0 from
      (I.enlarge a ha').fq_independent R hR ⟨false, false, true⟩ ⟨false, false, true⟩ rfl rfl 0 0 0 0 0 0 (fun h => by cases h) (fun h => by cases h)]

/-- **C140 (c).** A run that asks for the pairing vertex returns only if both frequency boxes have at least two frequencies: for smaller ones the plots of
    the pairing vertex raise, after all the ladders have been computed. -/
theorem one_box (P : Plan) (saveFq : Bool) (X : Chance S.nx S.ny S.nz) (r : OneOut S.nx S.ny S.nz) (h : mainOne fs ty path f1 f2 S P saveFq X = .ok r)
    (hp : P.pairing = true) : 2 ≤ I.w ∧ 2 ≤ I.c := by
  obtain ⟨-, a, o, ha, -, hpv, -⟩ := (one_iff I P saveFq X r).1 h
  rcases hpv with ⟨-, E, X', e, he, hpos, -⟩ | ⟨hn, -⟩
  · have hnpp := @eli_npp fs ty path f1 f2 (withAs S a) _ _ _ (I.enlarge a ha) E X' e he
    rw [hnpp] at hpos
    have h2 : 0 < nivPP I.w I.c := hpos
    unfold nivPP at h2
    omega
  · rw [hp] at hn; cases hn

/-- **C140 (d).** The complete program with shared files adds no way to fail but a chemical potential that is not found: whenever the run of C129 returns in the
    asymptotic range asked for, the flags fit together and the ranges are usable, everything asked for is written. -/
theorem one_returns (hfit : I.w ≤ I.sh + I.as) (P : Plan) (saveFq : Bool) (X : Chance S.nx S.ny S.nz) (a : Nat) (o : Cfg.Optics)
    (hs : P.o.setRanges ⟨I.w, I.c, I.sh, I.as⟩ = some (o, ⟨I.w, I.c, I.sh, a⟩)) (hflag : P.eliash = true → P.pairing = true)
    (hbox : P.pairing = true → 2 ≤ I.w ∧ 2 ≤ I.c)
    (hopt : P.hasOptics = true → P.bubble = true ∧ 0 ≤ o.niwVert ∧ 0 ≤ o.niwCond ∧ 0 < o.nivVert ∧ 0 ≤ o.niwBubble ∧ 0 ≤ o.nivBubble)
    (out : MainOut) (hr : mainRun fs ty path f1 f2 (withAs S a) = .ok out) (mu : ℝ) (hmu : gfMu X.newton out.sigma (bandOf S) I.n 0 = some mu) :
    ∃ r, mainOne fs ty path f1 f2 S P saveFq X = .ok r ∧ r.main = out ∧ r.pv.isSome = P.pairing ∧ r.fq.isSome = saveFq ∧ r.pairing.isSome = P.eliash ∧
      r.optics.isSome = P.hasOptics := by
  obtain ⟨-, -, -, p4, -⟩ := Cfg.setRanges_spec _ _ _ _ hs
  have ha : I.as ≤ a := by simpa using p4
  have hfl : P.forAll.pairing = P.forAll.eliash := by
    show (P.pairing && P.eliash) = P.eliash
    cases he : P.eliash with
    | false => simp
    | true => rw [hflag he]; rfl
  obtain ⟨r, h1, h2, h3, h4⟩ := all_returns I hfit P.forAll X a o hs hfl hopt out hr mu hmu
  have hpv : ∃ pv, PvAs fs ty path f1 f2 (withAs S a) P.pairing pv ∧ pv.isSome = P.pairing := by
    cases hp : P.pairing with
    | false => exact ⟨none, Or.inr ⟨rfl, rfl⟩, rfl⟩
    | true =>
      obtain ⟨e, he, -⟩ := (I.enlarge a ha).eli_returns P.E X out hr mu hmu
      have hnpp := @eli_npp fs ty path f1 f2 (withAs S a) _ _ _ (I.enlarge a ha) P.E X e he
      refine ⟨_, Or.inl ⟨rfl, P.E, X, e, he, ?_, rfl⟩, rfl⟩
      rw [hnpp]
      have h2 := hbox hp
      show 0 < nivPP I.w I.c
      unfold nivPP
      omega
  have hfq : ∃ fq, FqAs fs ty path f1 f2 (withAs S a) saveFq fq ∧ fq.isSome = saveFq := by
    cases saveFq with
    | false => exact ⟨none, Or.inr ⟨rfl, rfl⟩, rfl⟩
    | true =>
      obtain ⟨x, hx, -⟩ := (I.enlarge a ha).fq_returns ⟨false, false, true⟩ rfl 0 0 0 (fun h => by cases h) out hr
      exact ⟨_, Or.inl ⟨rfl, x, hx, rfl⟩, rfl⟩
  obtain ⟨pv, hpv, hpv'⟩ := hpv
  obtain ⟨fq, hfq, hfq'⟩ := hfq
  exact ⟨⟨r.main, r.text, pv, fq, r.pairing, r.optics⟩, (one_iff I P saveFq X _).2 ⟨h1, a, o, ha, hs, hpv, hfq⟩, h2, hpv', hfq', h3, h4⟩

end

end DGA.Whole
