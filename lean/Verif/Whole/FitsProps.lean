/-
  C141: the polynomial fits of a complete run.
-/
import Verif.Whole.Fits

noncomputable section

namespace DGA.Whole

open DGA.Mf DGA.Bz DGA.Bubble DGA.Fp DGA.Two DGA.Inp DGA.Pipe DGA.Pairing DGA.Report DGA.Shared
open DGA.RankFiles (Str)

section

variable {fs : Fs} {ty path f1 : String} {f2 : Option String} {S : Settings} [NeZero S.nx] [NeZero S.ny] [NeZero S.nz]
variable (I : Files fs ty path f1 f2 S)

theorem nk_pos : 0 < S.nx * S.ny * S.nz :=
  Nat.mul_pos (Nat.mul_pos (Nat.pos_of_ne_zero (NeZero.ne _)) (Nat.pos_of_ne_zero (NeZero.ne _))) (Nat.pos_of_ne_zero (NeZero.ne _))

omit [NeZero S.nx] [NeZero S.ny] [NeZero S.nz] in
theorem band_image (hl : LatticeOk S.nx S.ny S.nz S.hr S.syms) (σ : Sym) (hσ : σ ∈ S.syms) (p : Pt) (hp : InGrid S.nx S.ny S.nz p) :
    band S (Bz.image S.nx S.ny S.nz σ p).1 (Bz.image S.nx S.ny S.nz σ p).2.1 (Bz.image S.nx S.ny S.nz σ p).2.2 = band S p.1 p.2.1 p.2.2 := by
  unfold band
  rw [hl.sym σ hσ p hp]

/-- the DMFT fits, in any asymptotic range -/
theorem dmftFits_value (fit : List ℝ → List ℂ → ℝ × ℝ × EReal) (a : Nat) :
    (S.nx * S.ny * S.nz = 1 → dmftFits S fit I.d ⟨I.w, I.c, I.sh, a⟩ = none) ∧
    (S.nx * S.ny * S.nz ≠ 1 → ∃ x, dmftFits S fit I.d ⟨I.w, I.c, I.sh, a⟩ = some x ∧
      (∀ p, InGrid S.nx S.ny S.nz p → MapsAt x.1 p (fit (freqs I.beta ((siwObj (samplesF I.Sg I.N) I.beta).nivCore + a))
        (valsAt ((siwObj (samplesF I.Sg I.N) I.beta).nivCore + a) (runG S I.mu I.beta I.Sg I.N p.1 p.2.1 p.2.2)))) ∧
      x.2 = (let c := fit (freqs I.beta I.N) (valsAt I.N I.Sg); (c.2.1, c.1, c.2.2))) := by
  obtain ⟨mp, hmp, -⟩ := irrk_representative S.nx S.ny S.nz S.syms I.syms
  obtain ⟨s1, s2⟩ := siwObj_sigma I.Sg I.N I.beta
  have hle : (siwObj (samplesF I.Sg I.N) I.beta).nivCore ≤ (posHalf I.Sg I.N).length := by simpa [posHalf] using core_le I.Sg I.N I.beta I.hN
  have h20 : 20 ≤ (siwObj (samplesF I.Sg I.N) I.beta).nivCore := (estimate_bounds _ _ _ _ _ _).1
  obtain ⟨g, hg, hg1, hg2⟩ := newGf_local S nk_pos _ _ s1 hle I.mu (a : Int)
  rw [Int.toNat_natCast] at hg1 hg2
  rw [s2] at hg1
  have hunf : dmftFits S fit I.d ⟨I.w, I.c, I.sh, a⟩ = (fitRows S fit I.beta (flat3 mp) false (gFullArr g.core g.asympt)).map fun maps =>
      (maps, (fit (freqs I.beta I.N) (valsAt I.N I.Sg)).2.1, (fit (freqs I.beta I.N) (valsAt I.N I.Sg)).1, (fit (freqs I.beta I.N) (valsAt I.N I.Sg)).2.2) := by
    unfold dmftFits
    rw [I.siw, I.d_beta, I.d_mu, hmp]
    simp only [arrOf, numOf, Complex.ofReal_re, hg, Option.bind_some]
    have e := posHalf_samplesF I.Sg I.N
    unfold Pf.posHalf at e
    rw [e, samplesF_length, show 2 * I.N / 2 = I.N by omega, vnBeta_freqs]
  constructor
  · intro h1
    rw [hunf, fitRows_none S fit I.beta mp _ _ hg2 false (Or.inl h1)]
    rfl
  · intro h1
    obtain ⟨maps, hm, hv⟩ := fitRows_plain S fit I.beta mp hmp _ _ (fun p => dyson S I.beta I.mu (fun _ _ _ => sigmaSpec (siwObj (samplesF I.Sg I.N) I.beta) (posHalf I.Sg I.N)) p.1 p.2.1 p.2.2)
      hg1 hg2 h1 (by omega) (by
        intro σ hσ p hp
        funext m
        unfold dyson
        rw [band_image I.lat σ hσ p hp])
    refine ⟨_, by rw [hunf, hm]; rfl, ?_, rfl⟩
    intro p hp
    exact hv p hp

/-- the DGA fits: when they fail, and their values on any grid and on even ones -/
theorem dgaFits_value (fit : List ℝ → List ℂ → ℝ × ℝ × EReal) (newton : (ℝ → ℝ) → ℝ → Option ℂ) (out : MainOut)
    (h : calcFrom S I.d ⟨I.w, I.c, I.sh, I.as⟩ (I.obj "dens" I.D) (I.obj "magn" I.M) = .ok out) (mu : ℝ)
    (hmu : gfMu newton out.sigma (bandOf S) I.n 0 = some mu) :
    (S.nx * S.ny * S.nz = 1 ∨ I.c + I.sh = 1 → dgaFits S fit newton I.d ⟨I.w, I.c, I.sh, I.as⟩ out = none) ∧
    (S.nx * S.ny * S.nz ≠ 1 → I.c + I.sh ≠ 1 → ∃ y, dgaFits S fit newton I.d ⟨I.w, I.c, I.sh, I.as⟩ out = some y ∧
      (∀ p, InGrid S.nx S.ny S.nz p → ∃ r, InGrid S.nx S.ny S.nz r ∧ Related S.nx S.ny S.nz S.syms p r ∧
        MapsAt y.1 p (fit (freqs I.beta (I.c + I.sh)) (valsAt (I.c + I.sh) (sigmaAt S out.sigma (Pf.back S.nx S.ny r).1 (Pf.back S.nx S.ny r).2.1 (Pf.back S.nx S.ny r).2.2)))) ∧
      (∀ p, InGrid S.nx S.ny S.nz p → ∃ r, InGrid S.nx S.ny S.nz r ∧ Related S.nx S.ny S.nz S.syms p r ∧
        MapsAt y.2 p (fit (freqs I.beta (I.c + I.sh + I.as)) (valsAt (I.c + I.sh + I.as)
          (dyson S I.beta mu (sigmaAt S out.sigma) (Pf.back S.nx S.ny r).1 (Pf.back S.nx S.ny r).2.1 (Pf.back S.nx S.ny r).2.2)))) ∧
      (S.nx % 2 = 0 → S.ny % 2 = 0 → ∀ p, InGrid S.nx S.ny S.nz p →
        MapsAt y.1 p (fit (freqs I.beta (I.c + I.sh)) (valsAt (I.c + I.sh) (sigmaAt S out.sigma (Pf.back S.nx S.ny p).1 (Pf.back S.nx S.ny p).2.1 (Pf.back S.nx S.ny p).2.2))) ∧
        MapsAt y.2 p (fit (freqs I.beta (I.c + I.sh + I.as)) (valsAt (I.c + I.sh + I.as)
          (dyson S I.beta mu (sigmaAt S out.sigma) (Pf.back S.nx S.ny p).1 (Pf.back S.nx S.ny p).2.1 (Pf.back S.nx S.ny p).2.2))))) := by
  obtain ⟨mp, hmp, -⟩ := irrk_representative S.nx S.ny S.nz S.syms I.syms
  obtain ⟨Sig, -, hinv, hsig, hbeta, hcore⟩ := I.calc_sigma out h
  have hc := I.c_pos
  have hlen : out.sigma.sigma.length = S.nx * S.ny * S.nz := by rw [hsig, flat3_table]; simp
  have hrow : ∀ r ∈ out.sigma.sigma, out.sigma.nivCore ≤ r.length := by
    rw [hsig, hcore, flat3_table]
    intro r hr
    rw [List.mem_map] at hr
    obtain ⟨l, _, rfl⟩ := hr
    simp
  -- the rows of the self-energy
  set R : Nat → Nat → Nat → List ℂ := fun i j k => (List.range (I.c + I.sh)).map fun m : Nat =>
        if m < I.c then Sig i j k m else sigmaSpec (siwObj (samplesF I.Sg I.N) I.beta) (posHalf I.Sg I.N) m with hR
  have hat : ∀ i j k, i < S.nx → j < S.ny → k < S.nz → sigmaAt S out.sigma i j k = sigmaSpec out.sigma (R i j k) := by
    intro i j k hi hj hk
    funext m
    unfold sigmaAt
    have hl : lin S.ny S.nz i j k < S.nx * S.ny * S.nz := Bz.lin_lt S.nx S.ny S.nz i j k hi hj hk
    have hd := lin_div S.ny S.nz i j k hj hk
    simp only [pt, Prod.mk.injEq] at hd
    rw [hsig, flat3_table, show (i * S.ny + j) * S.nz + k = lin S.ny S.nz i j k from rfl, List.getD_eq_getElem?_getD, List.getElem?_map, List.getElem?_range hl]
    simp only [Option.map_some, Option.getD_some]
    rw [hd.1, hd.2.1, hd.2.2]
  have hRimg : ∀ σ ∈ S.syms, ∀ p, InGrid S.nx S.ny S.nz p →
      R (Bz.image S.nx S.ny S.nz σ p).1 (Bz.image S.nx S.ny S.nz σ p).2.1 (Bz.image S.nx S.ny S.nz σ p).2.2 = R p.1 p.2.1 p.2.2 := by
    intro σ hσ p hp
    rw [hR]
    apply List.map_congr_left
    intro m _
    split_ifs with hm
    · exact hinv σ hσ p hp m (by omega) (by omega)
    · rfl
  have himg : ∀ σ ∈ S.syms, ∀ p, InGrid S.nx S.ny S.nz p → sigmaAt S out.sigma (Bz.image S.nx S.ny S.nz σ p).1 (Bz.image S.nx S.ny S.nz σ p).2.1
      (Bz.image S.nx S.ny S.nz σ p).2.2 = sigmaAt S out.sigma p.1 p.2.1 p.2.2 := by
    intro σ hσ p hp
    have hp' := image_inGrid S.nx S.ny S.nz σ p hp
    rw [hat _ _ _ hp'.1 hp'.2.1 hp'.2.2, hat _ _ _ hp.1 hp.2.1 hp.2.2, hRimg σ hσ p hp]
  -- the self-energy asked for
  have hsiw : out.sigma.getSiw ((I.sh : Int) + (I.c : Int)) = (List.range (S.nx * S.ny * S.nz)).map fun l =>
      samplesF (sigmaSpec out.sigma (out.sigma.sigma.getD l [])) (I.c + I.sh) := by
    rw [show ((I.sh : Int) + (I.c : Int)) = ((I.c + I.sh : Nat) : Int) by push_cast; ring, getSiw_value _ hrow]
    apply List.ext_getElem?
    intro l
    rw [List.getElem?_map, List.getElem?_map]
    by_cases hl : l < S.nx * S.ny * S.nz
    · have hl' : l < out.sigma.sigma.length := by rw [hlen]; exact hl
      simp [List.getElem?_range hl, List.getD_eq_getElem?_getD, List.getElem?_eq_getElem hl']
    · rw [List.getElem?_eq_none (by rw [hlen]; omega), List.getElem?_eq_none (by simp; omega)]
      rfl
  have hs1 : reshape3 (out.sigma.getSiw ((I.sh : Int) + (I.c : Int))) S.nx S.ny S.nz =
      table S.nx S.ny S.nz fun i j k => samplesF ((fun p : Pt => sigmaAt S out.sigma p.1 p.2.1 p.2.2) (i, j, k)) (I.c + I.sh) := by
    rw [hsiw, reshape3_range fun l => samplesF (sigmaSpec out.sigma (out.sigma.sigma.getD l [])) (I.c + I.sh)]
    rfl
  have hs2 : ((out.sigma.getSiw ((I.sh : Int) + (I.c : Int))).getD 0 []).length = 2 * (I.c + I.sh) := by
    rw [hsiw, List.getD_eq_getElem?_getD, List.getElem?_map, List.getElem?_range nk_pos]
    simp [samplesF_length]
  -- the Green's function
  obtain ⟨g, hg, hg1, hg2⟩ := newGf_full S out.sigma hlen hrow mu (I.as : Int)
  rw [Int.toNat_natCast, hcore] at hg1 hg2
  have hg1' : reshape3 (gFullArr g.core g.asympt) S.nx S.ny S.nz = table S.nx S.ny S.nz fun i j k =>
      samplesF ((fun p : Pt => dyson S I.beta mu (sigmaAt S out.sigma) p.1 p.2.1 p.2.2) (i, j, k)) (I.c + I.sh + I.as) := by
    rw [hg1]
    apply table_congr
    intro i j k hi hj hk
    rw [gOpt_dyson S out.sigma hlen mu i j k hi hj hk, hbeta]
  have hgimg : ∀ σ ∈ S.syms, ∀ p, InGrid S.nx S.ny S.nz p → (fun p : Pt => dyson S I.beta mu (sigmaAt S out.sigma) p.1 p.2.1 p.2.2) (Bz.image S.nx S.ny S.nz σ p) =
      (fun p : Pt => dyson S I.beta mu (sigmaAt S out.sigma) p.1 p.2.1 p.2.2) p := by
    intro σ hσ p hp
    funext m
    simp only [dyson]
    rw [band_image I.lat σ hσ p hp, himg σ hσ p hp]
  have hunf : dgaFits S fit newton I.d ⟨I.w, I.c, I.sh, I.as⟩ out =
      (fitRows S fit I.beta (flat3 mp) true (out.sigma.getSiw ((I.sh : Int) + (I.c : Int)))).bind fun siw =>
        (fitRows S fit I.beta (flat3 mp) true (gFullArr g.core g.asympt)).map fun giw => (siw, giw) := by
    unfold dgaFits
    rw [I.d_n, I.d_beta, hmp]
    simp only [numOf, Complex.ofReal_re, hmu, Option.bind_some, hg]
  have has : 0 < I.as := by
    have h1 := I.box_as
    have h2 := I.box_sh
    split_ifs at h1 with h3 <;> omega
  constructor
  · intro h1
    rw [hunf, fitRows_none S fit I.beta mp _ _ hs2 true h1]
    rfl
  · intro h1 h2
    obtain ⟨m1, e1, v1⟩ := fitRows_any S fit I.beta mp hmp _ _ (fun p : Pt => sigmaAt S out.sigma p.1 p.2.1 p.2.2) hs1 hs2 h1 h2
    obtain ⟨m2, e2, v2⟩ := fitRows_any S fit I.beta mp hmp _ _ (fun p : Pt => dyson S I.beta mu (sigmaAt S out.sigma) p.1 p.2.1 p.2.2) hg1' hg2 h1 (by omega)
    refine ⟨(m1, m2), by rw [hunf, e1, e2]; rfl, v1, v2, ?_⟩
    intro ex ey p hp
    obtain ⟨m1', e1', v1'⟩ := fitRows_even S fit I.beta mp hmp _ _ (fun p : Pt => sigmaAt S out.sigma p.1 p.2.1 p.2.2) hs1 hs2 h1 h2 ex ey himg
    obtain ⟨m2', e2', v2'⟩ := fitRows_even S fit I.beta mp hmp _ _ (fun p : Pt => dyson S I.beta mu (sigmaAt S out.sigma) p.1 p.2.1 p.2.2) hg1' hg2 h1 (by omega) ex ey hgimg
    rw [e1] at e1'
    rw [e2] at e2'
    cases e1'
    cases e2'
    exact ⟨v1' p hp, v2' p hp⟩

/-- the complete run with fits is the complete run and the fits of its results -/
theorem poly_split (P : Plan) (saveFq : Bool) (F : Option (Nat × Nat)) (fit : Fitter) (X : Chance S.nx S.ny S.nz) (x : OneOut S.nx S.ny S.nz) (fits : Option PolyFits) :
    mainPoly fs ty path f1 f2 S P saveFq F fit X = .ok (x, fits) ↔ mainOne fs ty path f1 f2 S P saveFq X = .ok x ∧
      ((F = none ∧ fits = none) ∨ ∃ (p : Nat × Nat) (o : Cfg.Optics) (b : Cfg.Box) (y : Maps × ℝ × ℝ × EReal) (z : Maps × Maps), F = some p ∧
        P.o.setRanges ⟨I.w, I.c, I.sh, I.as⟩ = some (o, b) ∧ dmftFits S (fit p.1 p.2) I.d b = some y ∧ dgaFits S (fit p.1 p.2) X.newton I.d b x.main = some z ∧
        fits = some ⟨y.1, y.2, z.1, z.2⟩) := by
  have e1 : mainPoly fs ty path f1 f2 S P saveFq F fit X = match P.o.setRanges ⟨I.w, I.c, I.sh, I.as⟩ with
      | none => .error "failed"
      | some (o, b) =>
        match ifAsked F.isSome (F.bind fun p => dmftFits S (fit p.1 p.2) I.d b) with
        | none => .error "failed"
        | some fits1 =>
          match calcFrom S I.d b (I.obj "dens" I.D) (I.obj "magn" I.M) with
          | .error e => .error e
          | .ok out =>
            match builtFrom S P saveFq o I.d b (I.obj "dens" I.D) (I.obj "magn" I.M) out with
            | none => .error "failed"
            | some B =>
              match reportFrom S X.newton I.d b out with
              | .error e => .error e
              | .ok text =>
                match ifAsked F.isSome (F.bind fun p => dgaFits S (fit p.1 p.2) X.newton I.d b out) with
                | none => .error "failed"
                | some fits2 =>
                  match eliPart S P X I.d b out B.pv, condPart S P o X.newton I.d b out B.cond with
                  | some pr, some op => .ok (⟨out, text, B.pv, B.fq, pr, op⟩, fits1.bind fun x => fits2.map fun y => ⟨x.1, x.2, y.1, y.2⟩)
                  | _, _ => .error "failed" := by
    unfold mainPoly
    rw [I.load]
    simp only [I.build]
    rfl
  have e2 : mainOne fs ty path f1 f2 S P saveFq X = match P.o.setRanges ⟨I.w, I.c, I.sh, I.as⟩ with
      | none => .error "failed"
      | some (o, b) =>
          match calcFrom S I.d b (I.obj "dens" I.D) (I.obj "magn" I.M) with
          | .error e => .error e
          | .ok out =>
            match builtFrom S P saveFq o I.d b (I.obj "dens" I.D) (I.obj "magn" I.M) out with
            | none => .error "failed"
            | some B =>
              match reportFrom S X.newton I.d b out with
              | .error e => .error e
              | .ok text =>
                  match eliPart S P X I.d b out B.pv, condPart S P o X.newton I.d b out B.cond with
                  | some pr, some op => .ok ⟨out, text, B.pv, B.fq, pr, op⟩
                  | _, _ => .error "failed" := by
    unfold mainOne
    rw [I.load]
    simp only [I.build]
    rfl
  rw [e1, e2]
  rcases hs : P.o.setRanges ⟨I.w, I.c, I.sh, I.as⟩ with _ | ⟨o, b⟩
  · simp
  simp only [Option.some.injEq, Prod.mk.injEq]
  rcases hc : calcFrom S I.d b (I.obj "dens" I.D) (I.obj "magn" I.M) with e | out
  · simp only [reduceCtorEq, false_and, iff_false]
    intro h
    split at h <;> cases h
  rcases hB : builtFrom S P saveFq o I.d b (I.obj "dens" I.D) (I.obj "magn" I.M) out with _ | B
  · simp only [hB, reduceCtorEq, false_and, iff_false]
    intro h
    split at h <;> cases h
  rcases hr : reportFrom S X.newton I.d b out with e | text
  · simp only [hB, hr, reduceCtorEq, false_and, iff_false]
    intro h
    split at h <;> cases h
  simp only [hB, hr]
  rcases he : eliPart S P X I.d b out B.pv with _ | pr
  · simp only [reduceCtorEq, false_and, iff_false]
    intro h
    split at h
    · cases h
    · split at h <;> cases h
  rcases ho : condPart S P o X.newton I.d b out B.cond with _ | op
  · simp only [reduceCtorEq, false_and, iff_false]
    intro h
    split at h
    · cases h
    · split at h <;> cases h
  simp only [Except.ok.injEq]
  cases F with
  | none =>
    simp only [ifAsked, Option.isSome_none, Bool.false_eq_true, if_false, Option.bind_none, Except.ok.injEq, Prod.mk.injEq, true_and, reduceCtorEq, false_and, exists_const]
    tauto
  | some p =>
    simp only [ifAsked, Option.isSome_some, if_true, Option.bind_some, reduceCtorEq, false_and, false_or, Option.some.injEq]
    constructor
    · intro h
      split at h
      · cases h
      · rename_i f1' hf1
        split at h
        · cases h
        · rename_i f2' hf2
          rw [Option.map_eq_some_iff] at hf1 hf2
          obtain ⟨y, hy, rfl⟩ := hf1
          obtain ⟨z, hz, rfl⟩ := hf2
          simp only [Except.ok.injEq, Prod.mk.injEq, Option.bind_some, Option.map_some] at h
          obtain ⟨rfl, rfl⟩ := h
          exact ⟨rfl, p, o, b, y, z, rfl, ⟨rfl, rfl⟩, hy, hz, rfl⟩
    · rintro ⟨rfl, _, _, _, y, z, rfl, ⟨rfl, rfl⟩, hy, hz, rfl⟩
      simp only at hz
      simp only [hy, hz, Option.map_some, Option.bind_some]

/-- a complete run: asymptotic range, chemical potential and the result of the calculation -/
theorem one_parts (P : Plan) (saveFq : Bool) (X : Chance S.nx S.ny S.nz) (x : OneOut S.nx S.ny S.nz) (h : mainOne fs ty path f1 f2 S P saveFq X = .ok x) :
    ∃ (a : Nat) (ha : I.as ≤ a) (o : Cfg.Optics) (mu : ℝ), P.o.setRanges ⟨I.w, I.c, I.sh, I.as⟩ = some (o, ⟨I.w, I.c, I.sh, a⟩) ∧
      gfMu X.newton x.main.sigma (bandOf S) I.n 0 = some mu ∧ calcFrom (withAs S a) (I.enlarge a ha).d ⟨(I.enlarge a ha).w, (I.enlarge a ha).c, (I.enlarge a ha).sh, (I.enlarge a ha).as⟩
        ((I.enlarge a ha).obj "dens" (I.enlarge a ha).D) ((I.enlarge a ha).obj "magn" (I.enlarge a ha).M) = .ok x.main := by
  obtain ⟨h1, -⟩ := (one_iff I P saveFq X x).1 h
  obtain ⟨a, o, ha, hs, hrep, -⟩ := (all_iff I P.forAll X x.all).1 h1
  let J := I.enlarge a ha
  obtain ⟨k1, -, -, mu, k2, -⟩ := main_report fs ty path f1 f2 (withAs S a) J.lat X.newton J.d J.load J.N J.hN J.Sg J.siw J.n J.beta J.u J.mu J.beta_pos J.d_n J.d_beta J.d_u J.d_mu
    J.wD J.vD J.wM J.vM J.D J.M J.dens J.magn J.c J.w J.sh J.as J.box_c J.box_w J.box_sh J.box_as J.c_pos J.cD J.cM J.wwD J.wwM J.cN J.fit nk_pos J.ranks _ _ hrep
  refine ⟨a, ha, o, mu, hs, k2, ?_⟩
  rw [← J.mainRun_eq]
  exact k1

/-- **C141 (a).** The polynomial fits add exactly two ways to fail to a complete run: a grid with a single momentum and a self-energy with a single
    positive frequency.  Otherwise the run with fits returns whatever the run without returns. -/
theorem poly_iff (P : Plan) (saveFq : Bool) (F : Option (Nat × Nat)) (fit : Fitter) (X : Chance S.nx S.ny S.nz) (x : OneOut S.nx S.ny S.nz) :
    (∃ fits, mainPoly fs ty path f1 f2 S P saveFq F fit X = .ok (x, fits)) ↔
      mainOne fs ty path f1 f2 S P saveFq X = .ok x ∧ (F ≠ none → S.nx * S.ny * S.nz ≠ 1 ∧ I.c + I.sh ≠ 1) := by
  simp only [poly_split I]
  constructor
  · rintro ⟨fits, h, hf⟩
    refine ⟨h, fun hF => ?_⟩
    obtain ⟨a, ha, o, mu, hs, hmu, hcalc⟩ := one_parts I P saveFq X x h
    rcases hf with ⟨h0, -⟩ | ⟨p, o', b, y, z, -, hs', hy, hz, -⟩
    · exact absurd h0 hF
    · rw [hs] at hs'
      cases hs'
      have key := (@dgaFits_value fs ty path f1 f2 (withAs S a) _ _ _ (I.enlarge a ha) (fit p.1 p.2) X.newton x.main hcalc mu hmu).1
      by_contra hne
      have : dgaFits S (fit p.1 p.2) X.newton I.d ⟨I.w, I.c, I.sh, a⟩ x.main = none := key (by
        show S.nx * S.ny * S.nz = 1 ∨ I.c + I.sh = 1
        tauto)
      rw [this] at hz
      cases hz
  · rintro ⟨h, hF⟩
    cases F with
    | none => exact ⟨none, h, Or.inl ⟨rfl, rfl⟩⟩
    | some p =>
      obtain ⟨h1, h2⟩ := hF (by simp)
      obtain ⟨a, ha, o, mu, hs, hmu, hcalc⟩ := one_parts I P saveFq X x h
      obtain ⟨y, hy, -⟩ := (dmftFits_value I (fit p.1 p.2) a).2 h1
      obtain ⟨z, hz, -⟩ := (@dgaFits_value fs ty path f1 f2 (withAs S a) _ _ _ (I.enlarge a ha) (fit p.1 p.2) X.newton x.main hcalc mu hmu).2 h1 h2
      exact ⟨_, h, Or.inr ⟨p, o, _, y, z, rfl, hs, hy, hz, rfl⟩⟩

/-- **C141 (b).** What the files of the fits hold after a complete run, on every grid: the DMFT maps hold at every momentum `k` the coefficients fitted to
    Dyson's Green's function with the DMFT self-energy at `k`; `Siw_DMFT_polyfit.txt` holds those of the DMFT self-energy; the DGA maps hold at `k` the
    coefficients of the saved self-energy, and of Dyson's Green's function with it and the new chemical potential, at a momentum `r - (π, π, 0)` for some
    `r` equivalent to `k` by symmetry.  If nkx and nky are even, `r` is `k`. -/
theorem poly_values (P : Plan) (saveFq : Bool) (F : Option (Nat × Nat)) (fit : Fitter) (X : Chance S.nx S.ny S.nz) (x : OneOut S.nx S.ny S.nz) (fits : Option PolyFits)
    (h : mainPoly fs ty path f1 f2 S P saveFq F fit X = .ok (x, fits)) :
    (F = none ∧ fits = none) ∨ ∃ (nFit order a : Nat) (o : Cfg.Optics) (mu : ℝ) (t : PolyFits), F = some (nFit, order) ∧ fits = some t ∧
      P.o.setRanges ⟨I.w, I.c, I.sh, I.as⟩ = some (o, ⟨I.w, I.c, I.sh, a⟩) ∧ gfMu X.newton x.main.sigma (bandOf S) I.n 0 = some mu ∧
      let sg := sigmaAt S x.main.sigma
      let g := dyson S I.beta mu sg
      let n0 := (siwObj (samplesF I.Sg I.N) I.beta).nivCore + a
      let n1 := I.c + I.sh
      (∀ p, InGrid S.nx S.ny S.nz p → MapsAt t.giwDmft p (fit nFit order (freqs I.beta n0) (valsAt n0 (runG S I.mu I.beta I.Sg I.N p.1 p.2.1 p.2.2)))) ∧
      t.siwDmft = (let c := fit nFit order (freqs I.beta I.N) (valsAt I.N I.Sg); (c.2.1, c.1, c.2.2)) ∧
      (∀ p, InGrid S.nx S.ny S.nz p → ∃ r, InGrid S.nx S.ny S.nz r ∧ Related S.nx S.ny S.nz S.syms p r ∧ (S.nx % 2 = 0 → S.ny % 2 = 0 → r = p) ∧
        MapsAt t.siw p (fit nFit order (freqs I.beta n1) (valsAt n1 (sg (Pf.back S.nx S.ny r).1 (Pf.back S.nx S.ny r).2.1 (Pf.back S.nx S.ny r).2.2)))) ∧
      (∀ p, InGrid S.nx S.ny S.nz p → ∃ r, InGrid S.nx S.ny S.nz r ∧ Related S.nx S.ny S.nz S.syms p r ∧ (S.nx % 2 = 0 → S.ny % 2 = 0 → r = p) ∧
        MapsAt t.giw p (fit nFit order (freqs I.beta (n1 + a)) (valsAt (n1 + a) (g (Pf.back S.nx S.ny r).1 (Pf.back S.nx S.ny r).2.1 (Pf.back S.nx S.ny r).2.2)))) := by
  obtain ⟨h', hcond⟩ := (poly_iff I P saveFq F fit X x).1 ⟨fits, h⟩
  obtain ⟨-, hf⟩ := (poly_split I P saveFq F fit X x fits).1 h
  rcases hf with hf | ⟨⟨nFit, order⟩, o', b, y, z, rfl, hs', hy, hz, rfl⟩
  · exact Or.inl hf
  · right
    obtain ⟨h1, h2⟩ := hcond (by simp)
    obtain ⟨a, ha, o, mu, hs, hmu, hcalc⟩ := one_parts I P saveFq X x h'
    rw [hs] at hs'
    cases hs'
    obtain ⟨y', hy', v1, v2⟩ := (dmftFits_value I (fit nFit order) a).2 h1
    obtain ⟨z', hz', v3, v4, v5⟩ := (@dgaFits_value fs ty path f1 f2 (withAs S a) _ _ _ (I.enlarge a ha) (fit nFit order) X.newton x.main hcalc mu hmu).2 h1 h2
    have hz2 : dgaFits S (fit nFit order) X.newton I.d ⟨I.w, I.c, I.sh, a⟩ x.main = some z' := hz'
    rw [hy] at hy'
    rw [hz] at hz2
    cases hy'
    cases hz2
    refine ⟨nFit, order, a, _, mu, _, rfl, rfl, hs, hmu, v1, v2, ?_, ?_⟩
    · intro p hp
      by_cases hev : S.nx % 2 = 0 ∧ S.ny % 2 = 0
      · exact ⟨p, hp, .refl, fun _ _ => rfl, (v5 hev.1 hev.2 p hp).1⟩
      · obtain ⟨r, r1, r2, r3⟩ := v3 p hp
        exact ⟨r, r1, r2, fun e1 e2 => absurd ⟨e1, e2⟩ hev, r3⟩
    · intro p hp
      by_cases hev : S.nx % 2 = 0 ∧ S.ny % 2 = 0
      · exact ⟨p, hp, .refl, fun _ _ => rfl, (v5 hev.1 hev.2 p hp).2⟩
      · obtain ⟨r, r1, r2, r3⟩ := v4 p hp
        exact ⟨r, r1, r2, fun e1 e2 => absurd ⟨e1, e2⟩ hev, r3⟩

/-- **C141 (c).** The number of ranks does not matter. -/
theorem poly_ranks (hfit : I.w ≤ I.sh + I.as) (P : Plan) (saveFq : Bool) (F : Option (Nat × Nat)) (fit : Fitter) (X : Chance S.nx S.ny S.nz) (R : Nat) (hR : 0 < R)
    (x : OneOut S.nx S.ny S.nz) (fits : Option PolyFits) :
    mainPoly fs ty path f1 f2 { S with ranks := R } P saveFq F fit X = .ok (x, fits) ↔ mainPoly fs ty path f1 f2 S P saveFq F fit X = .ok (x, fits) := by
  rw [poly_split (onRanks I R hR) P saveFq F fit X x fits, poly_split I P saveFq F fit X x fits]
  exact and_congr (one_ranks I hfit P saveFq X R hR x) Iff.rfl

end

end DGA.Whole
