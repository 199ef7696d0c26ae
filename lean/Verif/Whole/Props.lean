/-
  C136: the parts of a complete run are those of the separate runs of C129-C133; number of ranks; the bubble.
-/
import Verif.Whole.Model

noncomputable section

namespace DGA.Whole

open DGA.Mf DGA.Bz DGA.Bubble DGA.Fp DGA.Two DGA.Inp DGA.Pipe DGA.Pairing DGA.Report

/-! ### Specification -/

/-- The pairing part of a run: both flags set and the result of the run of C130, or none. -/
def PairingAs (fs : Fs) (ty path f1 : String) (f2 : Option String) (S : Settings) [NeZero S.nx] [NeZero S.ny] [NeZero S.nz] (P : Plan)
    (X : Chance S.nx S.ny S.nz) (main : MainOut) (r : Option (EliOut S.nx S.ny S.nz)) : Prop :=
  (P.pairing = true ∧ P.eliash = true ∧ ∃ e, r = some e ∧ e.main = main ∧ mainEli fs ty path f1 f2 S P.E X = .ok e) ∨
  (P.pairing = false ∧ P.eliash = false ∧ r = none)

/-- The optics part of a run at filling `n`, inverse temperature `beta`, with the frequency ranges `o`: none without a section; the result of the run
    of C133; or, without the vertex, the bubble `-2/β Σ v_a v_b G G` (`Opt.chijjBubbleSpec`) of the Green's function of the saved self-energy. -/
def OpticsAs (fs : Fs) (ty path f1 : String) (f2 : Option String) (S : Settings) (o : Cfg.Optics) (P : Plan) (newton : (ℝ → ℝ) → ℝ → Option ℂ)
    (n beta : ℝ) (main : MainOut) (r : Option Optical) : Prop :=
  (P.hasOptics = false ∧ r = none) ∨
  (P.hasOptics = true ∧ P.bubble = true ∧ P.vertex = true ∧ ∃ mu bub F V, r = some ⟨o, mu, bub, some (F, V)⟩ ∧
    mainOptics fs ty path f1 f2 S P.o P.derA P.derB newton = .ok ⟨main, o, mu, F, bub, V⟩) ∨
  (P.hasOptics = true ∧ P.bubble = true ∧ P.vertex = false ∧ 0 ≤ o.niwBubble ∧ 0 ≤ o.nivBubble ∧
    ∃ mu, gfMu newton main.sigma (bandOf S) n 0 = some mu ∧
      r = some ⟨o, mu, samplesB (Opt.chijjBubbleSpec S.nx S.ny S.nz (gOpt S main.sigma mu) (lightAt S P.derA) (lightAt S P.derB) (beta : ℂ)
        o.nivBubble.toNat) o.niwBubble.toNat, none⟩)

/-! ### Theorems -/

section

variable {fs : Fs} {ty path f1 : String} {f2 : Option String} {S : Settings} [NeZero S.nx] [NeZero S.ny] [NeZero S.nz]
variable (I : Files fs ty path f1 f2 S)

theorem bubFrom_value (o : Cfg.Optics) (derA derB : Fin 3) (newton : (ℝ → ℝ) → ℝ → Option ℂ) (out : MainOut)
    (h : calcFrom S I.d ⟨I.w, I.c, I.sh, I.as⟩ (I.obj "dens" I.D) (I.obj "magn" I.M) = .ok out) (hr : o.nivBubble + o.niwBubble ≤ I.c + I.sh + I.as)
    (x : ℝ × List ℂ) :
    bubFrom S o derA derB newton I.d ⟨I.w, I.c, I.sh, I.as⟩ out = .ok x ↔ 0 ≤ o.niwBubble ∧ 0 ≤ o.nivBubble ∧
      gfMu newton out.sigma (bandOf S) I.n 0 = some x.1 ∧
      x.2 = samplesB (Opt.chijjBubbleSpec S.nx S.ny S.nz (gOpt S out.sigma x.1) (lightAt S derA) (lightAt S derB) (I.beta : ℂ) o.nivBubble.toNat)
        o.niwBubble.toNat := by
  obtain ⟨Sig, -, -, hsig, hbeta, hcore⟩ := I.calc_sigma out h
  have hlen : out.sigma.sigma.length = S.nx * S.ny * S.nz := by rw [hsig, flat3_table]; simp
  have hrow : ∀ r ∈ out.sigma.sigma, out.sigma.nivCore ≤ r.length := by
    rw [hsig, hcore, flat3_table]
    intro r hr
    rw [List.mem_map] at hr
    obtain ⟨l, _, rfl⟩ := hr
    simp
  unfold bubFrom
  by_cases hneg : o.niwBubble < 0 ∨ o.nivBubble < 0
  · rw [if_pos hneg]
    constructor
    · intro h'; cases h'
    · rintro ⟨h1, h2, -⟩; omega
  rw [if_neg hneg, I.d_n]
  simp only [numOf, Complex.ofReal_re]
  cases hmu : gfMu newton out.sigma (bandOf S) I.n 0 with
  | none =>
    constructor
    · intro h'; cases h'
    · rintro ⟨-, -, h3, -⟩; cases h3
  | some mu =>
    obtain ⟨g, hg, hg1, hg2⟩ := newGf_full S out.sigma hlen hrow mu (I.as : Int)
    rw [Int.toNat_natCast, hcore] at hg1 hg2
    have hlt : ∀ der, lightOf S der = table S.nx S.ny S.nz (lightAt S der) := fun _ => rfl
    simp only [hg, hg1, hg2, hlt, hbeta]
    obtain ⟨res, b1, b2, b3⟩ := Opt.chijjBubbleMain_value S.nx S.ny S.nz (gOpt S out.sigma mu) (I.c + I.sh + I.as) (lightAt S derA) (lightAt S derB) (I.beta : ℂ)
      o.niwBubble.toNat o.nivBubble.toNat (by omega) (gOpt_conj S out.sigma mu) (light_real S I.lat.real derA) (light_real S I.lat.real derB)
      (Complex.conj_ofReal I.beta)
    have hres := samplesB_of_atB res o.niwBubble.toNat _ b2 b3
    rw [b1]
    simp only [Except.ok.injEq, Option.some.injEq]
    obtain ⟨x1, x2⟩ := x
    simp only [Prod.mk.injEq]
    constructor
    · rintro ⟨rfl, rfl⟩
      exact ⟨by omega, by omega, rfl, hres⟩
    · rintro ⟨-, -, rfl, rfl⟩
      exact ⟨rfl, hres⟩

omit [NeZero S.nx] [NeZero S.ny] [NeZero S.nz] in
theorem report_as (a : Nat) (newton : (ℝ → ℝ) → ℝ → Option ℂ) (d : Dict) (b : Cfg.Box) (out : MainOut) :
    reportFrom (withAs S a) newton d b out = reportFrom S newton d b out := by
  have h1 : ∀ mu s nf nw f, chi0Correction (withAs S a) mu s nf nw f = chi0Correction S mu s nf nw f := fun _ _ _ _ _ => rfl
  have h2 : bandOf (withAs S a) = bandOf S := rfl
  unfold reportFrom
  simp only [h1, h2]

omit [NeZero S.nx] [NeZero S.ny] [NeZero S.nz] in
theorem calc_as (a : Nat) (d : Dict) (b : Cfg.Box) (gd gm : G2) : calcFrom (withAs S a) d b gd gm = calcFrom S d b gd gm := rfl

theorem eli_as (a : Nat) (E : EliSettings) (X : Chance S.nx S.ny S.nz) (d : Dict) (b : Cfg.Box) (gd gm : G2) (out : MainOut) :
    eliFrom (withAs S a) E X d b gd gm out = eliFrom S E X d b gd gm out := by
  have h2 : bandOf (withAs S a) = bandOf S := rfl
  unfold eliFrom
  simp only [h2]
  congr 1
  funext siw n beta u mu
  congr 1
  funext g2D g2M mp
  congr 1
  funext loc
  congr 1
  funext a1 a2 a3 a4
  generalize assemblePp (nx := S.nx) (ny := S.ny) (nz := S.nz) (flat3 mp) (nivPP b.niwCore.toNat b.nivCore.toNat) a1 a2 a3 a4 (rowQ out.run.chi.magn)
    (rowQ out.run.chi.dens) (u : ℂ) = q
  cases q with
  | none => rfl
  | some F =>
    dsimp only
    generalize gfMu X.newton out.sigma (bandOf S) n 0 = q1
    cases q1 with
    | none => rfl
    | some mu =>
      dsimp only
      generalize newGf out.sigma (bandOf S) mu b.nivAsympt = q2
      cases q2 with
      | none => rfl
      | some g =>
        dsimp only
        generalize Eli.linearEliashberg _ _ beta F.1 _ _ _ _ _ _ = l1
        generalize Eli.linearEliashberg _ _ beta F.2 _ _ _ _ _ _ = l2
        cases l1 <;> cases l2 <;> rfl

/-- **C136 (a).** The complete program returns a result exactly if the ranges of the optics section are accepted, the report of C132 is that of the run in
    the asymptotic range they ask for, the pairing part is that of C130 in this range and the optics part that of C133. -/
theorem all_iff (P : Plan) (X : Chance S.nx S.ny S.nz) (r : AllOut S.nx S.ny S.nz) :
    mainAll fs ty path f1 f2 S P X = .ok r ↔
      ∃ (a : Nat) (o : Cfg.Optics), I.as ≤ a ∧ P.o.setRanges ⟨I.w, I.c, I.sh, I.as⟩ = some (o, ⟨I.w, I.c, I.sh, a⟩) ∧
        mainReport fs ty path f1 f2 (withAs S a) X.newton = .ok (r.main, r.text) ∧
        PairingAs fs ty path f1 f2 (withAs S a) P X r.main r.pairing ∧
        OpticsAs fs ty path f1 f2 S o P X.newton I.n I.beta r.main r.optics := by
  have key : ∀ (a : Nat) (o : Cfg.Optics), I.as ≤ a → P.o.setRanges ⟨I.w, I.c, I.sh, I.as⟩ = some (o, ⟨I.w, I.c, I.sh, a⟩) →
      (mainAll fs ty path f1 f2 S P X = .ok r ↔ mainReport fs ty path f1 f2 (withAs S a) X.newton = .ok (r.main, r.text) ∧
        PairingAs fs ty path f1 f2 (withAs S a) P X r.main r.pairing ∧
        OpticsAs fs ty path f1 f2 S o P X.newton I.n I.beta r.main r.optics) := by
    intro a o ha hs
    set b : Cfg.Box := ⟨I.w, I.c, I.sh, a⟩ with hb
    have h0 : mainAll fs ty path f1 f2 S P X = match calcFrom S I.d b (I.obj "dens" I.D) (I.obj "magn" I.M) with
        | .error e => .error e
        | .ok out =>
          match reportFrom S X.newton I.d b out with
          | .error e => .error e
          | .ok text =>
            match pairingPart S P X I.d b (I.obj "dens" I.D) (I.obj "magn" I.M) out with
            | .error e => .error e
            | .ok pr =>
              match opticsPart S P o X.newton I.d b (I.obj "dens" I.D) (I.obj "magn" I.M) out with
              | .error e => .error e
              | .ok op => .ok ⟨out, text, pr, op⟩ := by
      unfold mainAll
      simp only [I.load, I.build, hs]
      rfl
    have h1 : mainReport fs ty path f1 f2 (withAs S a) X.newton = match calcFrom S I.d b (I.obj "dens" I.D) (I.obj "magn" I.M) with
        | .error e => .error e
        | .ok out =>
          match reportFrom S X.newton I.d b out with
          | .error e => .error e
          | .ok text => .ok (out, text) := by
      unfold mainReport
      rw [(I.enlarge a ha).load]
      have hbd := (I.enlarge a ha).build
      simp only [hbd, calc_as, report_as]
      rfl
    have h2 : mainEli fs ty path f1 f2 (withAs S a) P.E X = match calcFrom S I.d b (I.obj "dens" I.D) (I.obj "magn" I.M) with
        | .error e => .error e
        | .ok out => eliFrom S P.E X I.d b (I.obj "dens" I.D) (I.obj "magn" I.M) out := by
      unfold mainEli
      rw [(I.enlarge a ha).load]
      have hbd := (I.enlarge a ha).build
      simp only [hbd, calc_as, eli_as]
      rfl
    have h3 : mainOptics fs ty path f1 f2 S P.o P.derA P.derB X.newton = match calcFrom S I.d b (I.obj "dens" I.D) (I.obj "magn" I.M) with
        | .error e => .error e
        | .ok out => optFrom S o P.derA P.derB X.newton I.d b (I.obj "dens" I.D) (I.obj "magn" I.M) out := by
      unfold mainOptics
      simp only [I.load, I.build, hs]
      rfl
    rw [h0, h1]
    cases hc : calcFrom S I.d b (I.obj "dens" I.D) (I.obj "magn" I.M) with
    | error e =>
      constructor
      · intro h'; cases h'
      · rintro ⟨h', -⟩; cases h'
    | ok out =>
      simp only
      rw [hc] at h2 h3
      simp only at h2 h3
      cases hrep : reportFrom S X.newton I.d b out with
      | error e =>
        constructor
        · intro h'; cases h'
        · rintro ⟨h', -⟩; cases h'
      | ok text =>
        simp only [Except.ok.injEq, Prod.mk.injEq]
        -- the two parts
        have hpair : ∀ pr, pairingPart S P X I.d b (I.obj "dens" I.D) (I.obj "magn" I.M) out = .ok pr ↔
            PairingAs fs ty path f1 f2 (withAs S a) P X out pr := by
          intro pr
          unfold pairingPart PairingAs
          cases P.eliash <;> cases P.pairing <;> simp only [Bool.false_eq_true, if_false, if_true, true_and, false_and, and_false, or_false, false_or,
            reduceCtorEq, Except.ok.injEq]
          · exact eq_comm
          · rw [h2]
            cases he : eliFrom S P.E X I.d b (I.obj "dens" I.D) (I.obj "magn" I.M) out with
            | error e => simp
            | ok e =>
              have hm : e.main = out := by
                unfold eliFrom at he
                simp only at he
                repeat' split at he
                all_goals first | cases he; rfl | cases he
              constructor
              · intro h'
                exact ⟨e, (Except.ok.inj h').symm, hm, rfl⟩
              · rintro ⟨e', rfl, -, h'⟩
                rw [Except.ok.inj h']
        have hopt : ∀ op, opticsPart S P o X.newton I.d b (I.obj "dens" I.D) (I.obj "magn" I.M) out = .ok op ↔
            OpticsAs fs ty path f1 f2 S o P X.newton I.n I.beta out op := by
          intro op
          unfold opticsPart OpticsAs
          cases P.hasOptics <;> cases P.bubble <;> cases P.vertex <;> simp only [Bool.false_eq_true, if_false, if_true, true_and, false_and, and_false,
            or_false, false_or, reduceCtorEq, Except.ok.injEq]
          · exact eq_comm
          · exact eq_comm
          · exact eq_comm
          · exact eq_comm
          · obtain ⟨p1, p2, p3, p4, p5, p6, p7, -⟩ := Cfg.setRanges_spec _ _ _ _ hs
            have hv := bubFrom_value (I.enlarge a ha) o P.derA P.derB X.newton out hc (by
              simp only [hb] at p3
              show o.nivBubble + o.niwBubble ≤ (I.c : Int) + I.sh + a
              omega)
            constructor
            · intro h'
              split at h'
              · cases h'
              · rename_i x hx
                obtain ⟨v1, v2, v3, v4⟩ := (hv x).1 hx
                refine ⟨v1, v2, x.1, v3, ?_⟩
                rw [← Except.ok.inj h', v4]
                rfl
            · rintro ⟨v1, v2, mu, v3, rfl⟩
              have := (hv (mu, samplesB (Opt.chijjBubbleSpec S.nx S.ny S.nz (gOpt S out.sigma mu) (lightAt S P.derA) (lightAt S P.derB) (I.beta : ℂ)
                o.nivBubble.toNat) o.niwBubble.toNat)).2 ⟨v1, v2, v3, rfl⟩
              rw [show bubFrom S o P.derA P.derB X.newton I.d b out = _ from this]
          · rw [h3]
            cases he : optFrom S o P.derA P.derB X.newton I.d b (I.obj "dens" I.D) (I.obj "magn" I.M) out with
            | error e => simp
            | ok z =>
              have hm : z.main = out ∧ z.ranges = o := by
                unfold optFrom at he
                simp only at he
                repeat' split at he
                all_goals first | cases he; exact ⟨rfl, rfl⟩ | cases he
              obtain ⟨z1, z2, z3, z4, z5, z6⟩ := z
              obtain ⟨rfl, rfl⟩ := hm
              constructor
              · intro h'
                exact ⟨z3, z5, z4, z6, (Except.ok.inj h').symm, rfl⟩
              · rintro ⟨mu, bub, F, V, rfl, h'⟩
                cases h'
                rfl
        constructor
        · intro h'
          split at h'
          · cases h'
          · rename_i pr hp
            split at h'
            · cases h'
            · rename_i op ho
              cases h'
              exact ⟨⟨rfl, rfl⟩, (hpair pr).1 hp, (hopt op).1 ho⟩
        · rintro ⟨⟨rfl, rfl⟩, hp, ho⟩
          rw [(hpair _).2 hp, (hopt _).2 ho]
  constructor
  · intro h
    cases hs : P.o.setRanges ⟨I.w, I.c, I.sh, I.as⟩ with
    | none =>
      unfold mainAll at h
      simp only [I.load, I.build, hs] at h
      cases h
    | some ob =>
      obtain ⟨o', b'⟩ := ob
      obtain ⟨p1, p2, p3, p4, p5, p6, p7, -⟩ := Cfg.setRanges_spec _ _ _ _ hs
      obtain ⟨b1, b2, b3, b4⟩ := b'
      simp only at p1 p2 p3 p4 p5 p6 p7
      obtain ⟨a, rfl⟩ : ∃ a : Nat, b4 = (a : Int) := ⟨b4.toNat, by omega⟩
      subst p5 p6 p7
      exact ⟨a, o', by omega, rfl, (key a o' (by omega) hs).1 h⟩
  · rintro ⟨a, o, ha, hs, h⟩
    exact (key a o ha hs).2 h

/-- the same files on another number of ranks -/
def onRanks (R : Nat) (hR : 0 < R) : Files fs ty path f1 f2 { S with ranks := R } :=
  { I with ranks := hR, box_c := I.box_c, box_w := I.box_w, box_sh := I.box_sh, box_as := I.box_as, syms := I.syms, lat := I.lat }

omit [NeZero S.nx] [NeZero S.ny] [NeZero S.nz] in
theorem report_on (I : Files fs ty path f1 f2 S) (R : Nat) (hR : 0 < R) (newton : (ℝ → ℝ) → ℝ → Option ℂ) :
    mainReport fs ty path f1 f2 { S with ranks := R } newton = mainReport fs ty path f1 f2 S newton := by
  have h1 : ∀ d b out, reportFrom { S with ranks := R } newton d b out = reportFrom S newton d b out := by
    intro d b out
    have h1 : ∀ mu s nf nw f, chi0Correction { S with ranks := R } mu s nf nw f = chi0Correction S mu s nf nw f := fun _ _ _ _ _ => rfl
    have h2 : bandOf { S with ranks := R } = bandOf S := rfl
    unfold reportFrom
    simp only [h1, h2]
  have hbd := I.build
  have hc := I.calcFrom_ranks R hR
  unfold Files.obj at hc
  unfold mainReport
  simp only [I.load, hbd, h1, hc]

/-- **C136 (b).** The number of ranks does not matter: the complete program returns the same on every number of ranks, or fails on all. -/
theorem all_ranks (hfit : I.w ≤ I.sh + I.as) (P : Plan) (X : Chance S.nx S.ny S.nz) (R : Nat) (hR : 0 < R) (r : AllOut S.nx S.ny S.nz) :
    mainAll fs ty path f1 f2 { S with ranks := R } P X = .ok r ↔ mainAll fs ty path f1 f2 S P X = .ok r := by
  rw [all_iff (onRanks I R hR) P X r, all_iff I P X r]
  apply exists_congr
  intro a
  apply exists_congr
  intro o
  apply and_congr_right
  intro ha
  have ha' : I.as ≤ a := ha
  apply and_congr_right
  intro hs
  apply and_congr
  · rw [show withAs { S with ranks := R } a = { withAs S a with ranks := R } from rfl, report_on (I.enlarge a ha') R hR]
  apply and_congr
  · unfold PairingAs
    have := ((I.enlarge a ha').eli_ranks R hR P.E X).2
    rw [show mainEli fs ty path f1 f2 (withAs { S with ranks := R } a) P.E X = mainEli fs ty path f1 f2 { withAs S a with ranks := R } P.E X from rfl, this]
  · unfold OpticsAs
    rw [I.opt_ranks P.o P.derA P.derB X.newton hfit R hR]
    rfl

/-- **C136 (c).** One chemical potential: the energies, the Eliashberg equation and the optical conductivity of a complete run use the Green's function of
    the saved self-energy at the same chemical potential, the one found for the filling of the input; and the self-energy is that of the run of
    C129 in the asymptotic range used. -/
theorem all_consistent (hfit : I.w ≤ I.sh + I.as) (P : Plan) (X : Chance S.nx S.ny S.nz) (r : AllOut S.nx S.ny S.nz)
    (h : mainAll fs ty path f1 f2 S P X = .ok r) :
    ∃ (a : Nat) (mu : ℝ), I.as ≤ a ∧ r.main.box = ⟨I.w, I.c, I.sh, a⟩ ∧ mainRun fs ty path f1 f2 (withAs S a) = .ok r.main ∧
      gfMu X.newton r.main.sigma (bandOf S) I.n 0 = some mu ∧
      (r.text.energies.1 = kinetic S I.beta (I.c + I.sh + a) (dyson S I.beta mu (sigmaAt S r.main.sigma)) ∧
        r.text.energies.2.2.1 = potential S I.beta (I.c + I.sh + a) (siwObj (samplesF I.Sg I.N) I.beta).smom0 I.n (sigmaAt S r.main.sigma)
          (dyson S I.beta mu (sigmaAt S r.main.sigma))) ∧
      (∀ e ∈ r.pairing, e.main = r.main ∧ e.mu = mu) ∧ (∀ z ∈ r.optics, z.mu = mu) := by
  obtain ⟨a, o, ha, hs, hrep, hp, ho⟩ := (all_iff I P X r).1 h
  have J := I.enlarge a ha
  have hk : 0 < S.nx * S.ny * S.nz := Nat.mul_pos (Nat.mul_pos (Nat.pos_of_ne_zero (NeZero.ne _)) (Nat.pos_of_ne_zero (NeZero.ne _))) (Nat.pos_of_ne_zero (NeZero.ne _))
  have has := (I.enlarge a ha).box_as
  obtain ⟨hrun, -, -, mu, hmu, e1, -, e3, -⟩ := main_report fs ty path f1 f2 (withAs S a) I.lat X.newton I.d I.load I.N I.hN I.Sg I.siw I.n I.beta I.u I.mu
    I.beta_pos I.d_n I.d_beta I.d_u I.d_mu I.wD I.vD I.wM I.vM I.D I.M I.dens I.magn I.c I.w I.sh a I.box_c I.box_w I.box_sh has I.c_pos I.cD I.cM I.wwD I.wwM I.cN
    (I.enlarge a ha).fit hk I.ranks r.main r.text hrep
  refine ⟨a, mu, ha, (I.enlarge a ha).box_of r.main hrun, hrun, hmu, ⟨e1, e3⟩, ?_, ?_⟩
  · intro e he
    rcases hp with ⟨-, -, e', h1, h2, h3⟩ | ⟨-, -, h1⟩
    · rw [h1] at he
      cases he
      refine ⟨h2, ?_⟩
      obtain ⟨out, V, hn, mu', ls, lt, g1, g2, -, -, rfl⟩ := (I.enlarge a ha).eli_chain P.E X _ h3
      subst h2
      exact Option.some.inj (g2.symm.trans hmu)
    · rw [h1] at he
      cases he
  · intro z hz
    rcases ho with ⟨-, h1⟩ | ⟨-, -, -, mu', bub, F, V, h1, h2⟩ | ⟨-, -, -, -, -, mu', h2, h1⟩
    · rw [h1] at hz; cases hz
    · rw [h1] at hz
      cases hz
      obtain ⟨a', -, -, -, -, g, -⟩ := I.opt_run P.o P.derA P.derB X.newton hfit _ h2
      exact Option.some.inj (g.symm.trans hmu)
    · rw [h1] at hz
      cases hz
      exact Option.some.inj (h2.symm.trans hmu)

/-- **C136 (d).** Whether or not the vertex is asked for, the bubble written is at every frequency of its range `-2/β` times the mean over the zone
    of `v_a(k) v_b(k) Σ_v G(k,v) G(k,v-w)`, with Dyson's equation (`gCond`) for the saved self-energy and the derivatives of the band. -/
theorem all_bubble (hfit : I.w ≤ I.sh + I.as) (P : Plan) (X : Chance S.nx S.ny S.nz) (A B : Nat → Nat → Nat → ℝ) (hA : IsVelocity S P.derA A)
    (hB : IsVelocity S P.derB B) (r : AllOut S.nx S.ny S.nz) (h : mainAll fs ty path f1 f2 S P X = .ok r) (z : Optical) (hz : r.optics = some z)
    (w : Int) (h1 : -z.ranges.niwBubble ≤ w) (h2 : w ≤ z.ranges.niwBubble) :
    atB z.bubble w = some (-2 / (I.beta : ℂ) * (Opt.kSum S.nx S.ny S.nz (fun i j k => (A i j k : ℂ) * (B i j k : ℂ) *
      Opt.vSum z.ranges.nivBubble.toNat fun v =>
        let G := gCond S ⟨r.main, z.ranges, z.mu, [], [], []⟩ i j k
        G v * G (v - w)) / ((S.nx * S.ny * S.nz : Nat) : ℂ))) := by
  obtain ⟨a, o, ha, hs, hrep, hp, ho⟩ := (all_iff I P X r).1 h
  rcases ho with ⟨-, g1⟩ | ⟨-, -, -, mu', bub, F, V, g1, g2⟩ | ⟨-, -, -, b1, b2, mu', g2, g1⟩
  · rw [g1] at hz; cases hz
  · rw [g1] at hz
    cases hz
    exact I.opt_bubble P.o P.derA P.derB X.newton hfit A B hA hB _ g2 w h1 h2
  · rw [g1] at hz
    cases hz
    simp only at h1 h2
    simp only
    rw [samplesB_atB _ _ _ (by omega) (by omega),
      spec_congr S.nx S.ny S.nz _ (gCond S ⟨r.main, o, mu', [], [], []⟩) _ (fun i j k => (A i j k : ℂ)) _ (fun i j k => (B i j k : ℂ)) _ _ w
      (fun i j k hi hj hk => Files.gOpt_eq ⟨r.main, o, mu', [], [], []⟩ i j k hi hj hk) (fun i j k => light_velocity S I.lat.real P.derA A hA i j k)
      (fun i j k => light_velocity S I.lat.real P.derB B hB i j k)]
    rfl

/-- **C136 (e).** The complete program adds no way to fail but a chemical potential that is not found: whenever the run of C129 returns in the
    asymptotic range asked for, the flags fit together and the optics ranges are usable, everything is written. -/
theorem all_returns (hfit : I.w ≤ I.sh + I.as) (P : Plan) (X : Chance S.nx S.ny S.nz) (a : Nat) (o : Cfg.Optics)
    (hs : P.o.setRanges ⟨I.w, I.c, I.sh, I.as⟩ = some (o, ⟨I.w, I.c, I.sh, a⟩)) (hflag : P.pairing = P.eliash)
    (hopt : P.hasOptics = true → P.bubble = true ∧ 0 ≤ o.niwVert ∧ 0 ≤ o.niwCond ∧ 0 < o.nivVert ∧ 0 ≤ o.niwBubble ∧ 0 ≤ o.nivBubble)
    (out : MainOut) (hr : mainRun fs ty path f1 f2 (withAs S a) = .ok out) (mu : ℝ) (hmu : gfMu X.newton out.sigma (bandOf S) I.n 0 = some mu) :
    ∃ r, mainAll fs ty path f1 f2 S P X = .ok r ∧ r.main = out ∧ (r.pairing.isSome = P.eliash) ∧ (r.optics.isSome = P.hasOptics) := by
  obtain ⟨-, -, -, p4, -⟩ := Cfg.setRanges_spec _ _ _ _ hs
  have ha : I.as ≤ a := by simpa using p4
  have hk : 0 < S.nx * S.ny * S.nz := Nat.mul_pos (Nat.mul_pos (Nat.pos_of_ne_zero (NeZero.ne _)) (Nat.pos_of_ne_zero (NeZero.ne _))) (Nat.pos_of_ne_zero (NeZero.ne _))
  have has := (I.enlarge a ha).box_as
  obtain ⟨text, hrep⟩ := report_returns fs ty path f1 f2 (withAs S a) I.lat X.newton I.d I.load I.N I.hN I.Sg I.siw I.n I.beta I.u I.mu
    I.beta_pos I.d_n I.d_beta I.d_u I.d_mu I.wD I.vD I.wM I.vM I.D I.M I.dens I.magn I.c I.w I.sh a I.box_c I.box_w I.box_sh has I.c_pos I.cD I.cM I.wwD I.wwM I.cN
    (I.enlarge a ha).fit hk I.ranks out hr mu hmu
  have hp : ∃ pr, PairingAs fs ty path f1 f2 (withAs S a) P X out pr ∧ pr.isSome = P.eliash := by
    cases he : P.eliash with
    | true =>
      obtain ⟨e, h1, h2, -⟩ := (I.enlarge a ha).eli_returns P.E X out hr mu hmu
      exact ⟨some e, Or.inl ⟨by rw [hflag, he], he, e, rfl, h2, h1⟩, rfl⟩
    | false => exact ⟨none, Or.inr ⟨by rw [hflag, he], he, rfl⟩, rfl⟩
  have ho : ∃ op, OpticsAs fs ty path f1 f2 S o P X.newton I.n I.beta out op ∧ op.isSome = P.hasOptics := by
    cases he : P.hasOptics with
    | false => exact ⟨none, Or.inl ⟨he, rfl⟩, rfl⟩
    | true =>
      obtain ⟨hb, hneg⟩ := hopt he
      cases hv : P.vertex with
      | false => exact ⟨_, Or.inr (Or.inr ⟨he, hb, hv, hneg.2.2.2.1, hneg.2.2.2.2, mu, hmu, rfl⟩), rfl⟩
      | true =>
        obtain ⟨z, h1, h2, h3, h4⟩ := I.opt_returns P.o P.derA P.derB X.newton hfit o a hs hneg out hr mu hmu
        refine ⟨some ⟨o, z.mu, z.bubble, some (z.fCond, z.vert)⟩, Or.inr (Or.inl ⟨he, hb, hv, _, _, _, _, rfl, ?_⟩), rfl⟩
        rw [h1]
        obtain ⟨z1, z2, z3, z4, z5, z6⟩ := z
        simp only at h2 h4
        rw [h2, h4]
  obtain ⟨pr, hp, hp'⟩ := hp
  obtain ⟨op, ho, ho'⟩ := ho
  exact ⟨⟨out, text, pr, op⟩, (all_iff I P X _).2 ⟨a, o, ha, hs, hrep, hp, ho⟩, rfl, hp', ho'⟩

end

end DGA.Whole
