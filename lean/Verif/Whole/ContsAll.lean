/-
  C142: the continuations of a complete run: the optical conductivity, the whole program, the number of ranks.
-/
import Verif.Whole.ContsMain

noncomputable section

namespace DGA.Whole

open DGA.Mf DGA.Bz DGA.Bubble DGA.Fp DGA.Two DGA.Inp DGA.Pipe DGA.Pairing DGA.Report DGA.Shared
open DGA.RankFiles (Str)
open DGA.Eli (Grid)

/-! ### Specification -/

/-- the value of a bosonic array (odd length, frequency 0 in the middle) at the frequency number `m`, zero outside -/
def entryB (l : List ℂ) (m : Int) : ℂ := (atB l m).getD 0

/-- the vertex part of the optical conductivity, nothing without the vertex -/
def vertOf (O : Optical) : List ℂ := (O.vertex.map fun v => v.2).getD (O.bubble.map fun _ => 0)

/-- What the continuation of the optical conductivity leaves: the spectra of the bubble and of bubble plus vertex (each zero outside its own range), both from
    the same number of frequencies: the requested one, at most that of the bubble. -/
def CondAs (solve : Ana.Solver) (beta : ℝ) (O : Optical) (K : ContSet) (minusOne : Bool) (y : CondOut) : Prop :=
  let nb := O.bubble.length / 2
  let nt := max nb ((vertOf O).length / 2)
  let n := min (if minusOne = true then O.ranges.niwCond.toNat else K.nFit) nb
  (minusOne = true → 0 ≤ O.ranges.niwCond) ∧ MeshIs K true y.w ∧ boseCont solve beta y.w n nb (entryB O.bubble) = some y.bubble ∧
    boseCont solve beta y.w n nt (fun m => entryB O.bubble m + entryB (vertOf O) m) = some y.full

/-! ### Theorems -/

theorem samplesB_entry (l : List ℂ) (n : Nat) (hl : l.length = 2 * n + 1) : l = samplesB (entryB l) n := by
  refine samplesB_of_atB l n _ hl ?_
  intro w h1 h2
  obtain ⟨x, hx⟩ : ∃ x, atB l w = some x := by
    rw [atB_eq l n hl, if_pos ⟨h1, h2⟩]
    exact ⟨_, List.getElem?_eq_getElem (by omega)⟩
  unfold entryB
  rw [hx]
  rfl

/-- **C142 (a).** The continuation of the optical conductivity: what it leaves, and when it returns. -/
theorem cond_iff (T : Tools) (beta : ℝ) (O : Optical) (K : ContSet) (minusOne : Bool) (nb nv : Nat) (hb : O.bubble.length = 2 * nb + 1)
    (hv : (vertOf O).length = 2 * nv + 1) (y : CondOut) : condCont T beta O K minusOne = some y ↔ CondAs (T.solve "cond") beta O K minusOne y := by
  have enb : O.bubble.length / 2 = nb := by omega
  have env : (vertOf O).length / 2 = nv := by omega
  have hcc : condCont T beta O K minusOne = if minusOne = true ∧ O.ranges.niwCond < 0 then none else
      ((if minusOne = true then { K with nFit := O.ranges.niwCond.toNat } else K).init "freq_bosonic" beta).bind fun c =>
        (Ana.contSingle (T.solve "cond") c O.bubble).1.bind fun b => (addBosonic (fun x y : ℂ => x + y) O.bubble (vertOf O)).bind fun full =>
          (Ana.contSingle (T.solve "cond") (Ana.contSingle (T.solve "cond") c O.bubble).2 full).1.map fun f =>
            ⟨b, f, (Ana.contSingle (T.solve "cond") (Ana.contSingle (T.solve "cond") c O.bubble).2 full).2.w⟩ := by
    unfold condCont vertOf
    cases O.vertex <;> rfl
  obtain ⟨full, hfull, hlen, hval⟩ := addBosonic_value (fun x y : ℂ => x + y) (fun x y => add_comm x y) O.bubble (vertOf O) nb nv hb hv
  have hfullS : full = samplesB (fun m => entryB O.bubble m + entryB (vertOf O) m) (max nb nv) := by
    refine samplesB_of_atB full _ _ hlen ?_
    intro w h1 h2
    rw [hval w (by omega)]
    unfold entryB
    have a1 := atB_eq O.bubble nb hb w
    have a2 := atB_eq (vertOf O) nv hv w
    cases e1 : atB O.bubble w with
    | some x => cases e2 : atB (vertOf O) w <;> simp
    | none =>
      cases e2 : atB (vertOf O) w with
      | some y => simp
      | none =>
        exfalso
        rw [e1] at a1
        rw [e2] at a2
        split_ifs at a1 with c1
        · rw [List.getElem?_eq_getElem (by omega)] at a1; cases a1
        · split_ifs at a2 with c2
          · rw [List.getElem?_eq_getElem (by omega)] at a2; cases a2
          · have : max nb nv = nb ∨ max nb nv = nv := by omega
            omega
  have hbS := samplesB_entry O.bubble nb hb
  rw [hcc]
  unfold CondAs
  simp only [enb, env]
  by_cases hneg : minusOne = true ∧ O.ranges.niwCond < 0
  · rw [if_pos hneg]
    constructor
    · intro h; cases h
    · rintro ⟨h, -⟩
      have := h hneg.1
      omega
  rw [if_neg hneg]
  have hm1 : minusOne = true → 0 ≤ O.ranges.niwCond := fun h => by
    by_contra hc
    exact hneg ⟨h, by omega⟩
  set K' : ContSet := if minusOne = true then { K with nFit := O.ranges.niwCond.toNat } else K with hK'
  have kf : K'.nFit = if minusOne = true then O.ranges.niwCond.toNat else K.nFit := by rw [hK']; split_ifs <;> rfl
  have km : ∀ w, MeshIs K' true w ↔ MeshIs K true w := by intro w; rw [hK']; split_ifs <;> rfl
  have step : ∀ c : Ana.Cfg, K'.init "freq_bosonic" beta = some c → ∀ y : CondOut,
      (((Ana.contSingle (T.solve "cond") c O.bubble).1.bind fun b => (addBosonic (fun x y : ℂ => x + y) O.bubble (vertOf O)).bind fun full =>
        (Ana.contSingle (T.solve "cond") (Ana.contSingle (T.solve "cond") c O.bubble).2 full).1.map fun f =>
          (⟨b, f, (Ana.contSingle (T.solve "cond") (Ana.contSingle (T.solve "cond") c O.bubble).2 full).2.w⟩ : CondOut)) = some y ↔
        y.w = c.w ∧ boseCont (T.solve "cond") beta c.w (min K'.nFit nb) nb (entryB O.bubble) = some y.bubble ∧
          boseCont (T.solve "cond") beta c.w (min K'.nFit nb) (max nb nv) (fun m => entryB O.bubble m + entryB (vertOf O) m) = some y.full) := by
    intro c hc y
    obtain ⟨-, k2, k3, k4⟩ := init_bose K' beta c hc
    obtain ⟨d, hd⟩ : ∃ d, d = (Ana.contSingle (T.solve "cond") c O.bubble).2 := ⟨_, rfl⟩
    have hcut := Ana.cutMatrix_boson c k2 (entryB O.bubble) nb
    rw [← hbS] at hcut
    have hd' : d = { c with nFit := min c.nFit nb } := by
      rw [hd]
      unfold Ana.contSingle
      rw [hcut]
    have h1 : (Ana.contSingle (T.solve "cond") c O.bubble).1 = boseCont (T.solve "cond") beta c.w (min K'.nFit nb) nb (entryB O.bubble) := by
      conv_lhs => rw [hbS]
      rw [contSingle_bose _ c k2, k3, k4]
    have h2 : (Ana.contSingle (T.solve "cond") d full).1 =
        boseCont (T.solve "cond") beta c.w (min K'.nFit nb) (max nb nv) (fun m => entryB O.bubble m + entryB (vertOf O) m) := by
      rw [hfullS, contSingle_bose _ d (by rw [hd']; exact k2), hd']
      dsimp only
      rw [k3, k4, show min (min K'.nFit nb) (max nb nv) = min K'.nFit nb by omega]
    have h3 : (Ana.contSingle (T.solve "cond") d full).2.w = c.w := by
      rcases Ana.contSingle_cfg (T.solve "cond") d full with e | e <;> rw [e, hd']
    rw [h1, hfull, ← hd]
    simp only [Option.bind_some, h2, h3]
    obtain ⟨yb, yf, yw⟩ := y
    simp only [Option.bind_eq_some_iff, Option.map_eq_some_iff, CondOut.mk.injEq]
    constructor
    · rintro ⟨b, hb, f, hf, rfl, rfl, rfl⟩
      exact ⟨rfl, hb, hf⟩
    · rintro ⟨rfl, hb, hf⟩
      exact ⟨yb, hb, yf, hf, rfl, rfl, rfl⟩
  rw [Option.bind_eq_some_iff]
  rw [← kf]
  constructor
  · rintro ⟨c, hc, h⟩
    obtain ⟨e1, e2, e3⟩ := (step c hc y).1 h
    rw [e1]
    exact ⟨hm1, (km _).1 (init_bose K' beta c hc).1, e2, e3⟩
  · rintro ⟨-, hw, e2, e3⟩
    obtain ⟨c, hc, hcw⟩ : ∃ c, K'.init "freq_bosonic" beta = some c ∧ c.w = y.w := by
      have hw' := (km _).2 hw
      unfold MeshIs at hw'
      simp only [if_true] at hw'
      rw [show max K'.wmin 0 = if K'.wmin < 0 then 0 else K'.wmin by
        split_ifs with h1 <;> [exact max_eq_right h1.le; exact max_eq_left (not_lt.1 h1)]] at hw'
      unfold ContSet.init Ana.initMaxEnt
      simp only [or_true, if_true, true_and, Option.map_eq_some_iff]
      exact ⟨_, ⟨_, hw', rfl⟩, rfl⟩
    exact ⟨c, hc, (step c hc y).2 ⟨hcw.symm, by rw [hcw]; exact e2, by rw [hcw]; exact e3⟩⟩

section

variable {fs : Fs} {ty path f1 : String} {f2 : Option String} {S : Settings} [NeZero S.nx] [NeZero S.ny] [NeZero S.nz]
variable (I : Files fs ty path f1 f2 S)

/-- the complete run with continuations is the run without and the continuations of its results -/
theorem conts_split (P : Plan) (saveFq : Bool) (F : Option (Nat × Nat)) (fit : Fitter) (C : ContPlan) (T : Tools) (X : Chance S.nx S.ny S.nz)
    (x : OneOut S.nx S.ny S.nz) (fits : Option PolyFits) (c : ContsOut) :
    mainConts fs ty path f1 f2 S P saveFq F fit C T X = .ok (x, fits, c) ↔ mainPoly fs ty path f1 f2 S P saveFq F fit X = .ok (x, fits) ∧
      contsFrom S C T X.newton I.d x.main x.optics = some c := by
  unfold mainConts
  rw [I.load]
  simp only
  rcases h : mainPoly fs ty path f1 f2 S P saveFq F fit X with e | ⟨x', fits'⟩
  · simp
  · simp only [Except.ok.injEq, Prod.mk.injEq]
    constructor
    · intro h'
      rcases hc : contsFrom S C T X.newton I.d x'.main x'.optics with _ | c'
      · rw [hc] at h'; cases h'
      · rw [hc] at h'
        simp only [Except.ok.injEq, Prod.mk.injEq] at h'
        obtain ⟨rfl, rfl, rfl⟩ := h'
        exact ⟨⟨rfl, rfl⟩, hc⟩
    · rintro ⟨⟨rfl, rfl⟩, hc⟩
      rw [hc]

/-- the optics arrays of a run: odd lengths, `niw_bubble` and `niw_cond` frequencies -/
theorem optics_sizes (hfit : I.w ≤ I.sh + I.as) (P : Plan) (saveFq : Bool) (X : Chance S.nx S.ny S.nz) (x : OneOut S.nx S.ny S.nz)
    (h : mainOne fs ty path f1 f2 S P saveFq X = .ok x) (O : Optical) (hO : x.optics = some O) :
    (O.bubble.length : Int) = 2 * O.ranges.niwBubble + 1 ∧ 0 ≤ O.ranges.niwBubble ∧
    (∀ v, O.vertex = some v → (v.2.length : Int) = 2 * O.ranges.niwCond + 1 ∧ 0 ≤ O.ranges.niwCond) := by
  obtain ⟨h1, -⟩ := (one_iff I P saveFq X x).1 h
  obtain ⟨a, o, -, -, -, -, q⟩ := (all_iff I P.forAll X x.all).1 h1
  have hO' : x.all.optics = some O := hO
  rcases q with ⟨-, e⟩ | ⟨-, -, -, mu, bub, F, V, e, hr⟩ | ⟨-, -, -, b1, b2, mu, -, e⟩
  · rw [e] at hO'; cases hO'
  · rw [e] at hO'
    cases hO'
    obtain ⟨a, -, -, -, -, -, -, -, c1, c2, -, l1, l2, -⟩ := I.opt_run _ _ _ _ hfit _ hr
    refine ⟨l1, c2, ?_⟩
    intro v hv
    cases hv
    exact ⟨l2, c1⟩
  · rw [e] at hO'
    cases hO'
    refine ⟨?_, b1, ?_⟩
    · rw [samplesB_length]
      push_cast
      rw [Int.toNat_of_nonneg b1]
    · intro v hv; cases hv

/-- **C142 (c).** A run with continuations returns if and only if the run without returns and the continuations do; what they leave is described by (a) and
    (b): the conductivity with the optics arrays of this run, the rest with its saved self-energy and susceptibilities. -/
theorem conts_values (hfit : I.w ≤ I.sh + I.as) (P : Plan) (saveFq : Bool) (F : Option (Nat × Nat)) (fit : Fitter) (C : ContPlan) (T : Tools)
    (X : Chance S.nx S.ny S.nz) (x : OneOut S.nx S.ny S.nz) (fits : Option PolyFits) (c : ContsOut)
    (h : mainConts fs ty path f1 f2 S P saveFq F fit C T X = .ok (x, fits, c)) :
    mainPoly fs ty path f1 f2 S P saveFq F fit X = .ok (x, fits) ∧
    ((x.optics = none ∨ C.cond = none) ∧ c.cond = none ∨ ∃ O K minusOne y, x.optics = some O ∧ C.cond = some (K, minusOne) ∧ c.cond = some y ∧
      CondAs (T.solve "cond") I.beta O K minusOne y) ∧
    (C.maxEnt = none ∧ c.maxEnt = none ∨ ∃ M y, C.maxEnt = some M ∧ c.maxEnt = some y ∧
      MaxEntAs S T X.newton I.n I.beta I.w (I.c + I.sh) x.main M y) := by
  obtain ⟨h1, h2⟩ := (conts_split I P saveFq F fit C T X x fits c).1 h
  refine ⟨h1, ?_⟩
  have hone := ((poly_split I P saveFq F fit X x fits).1 h1).1
  unfold contsFrom at h2
  rw [Option.bind_eq_some_iff] at h2
  obtain ⟨cc, e1, e2⟩ := h2
  rw [Option.map_eq_some_iff] at e2
  obtain ⟨mm, e2, rfl⟩ := e2
  constructor
  · rcases hO : x.optics with _ | O
    · rw [hO] at e1
      simp only [Option.some.injEq] at e1
      exact Or.inl ⟨Or.inl rfl, e1.symm⟩
    rcases hC : C.cond with _ | ⟨K, m1⟩
    · rw [hO, hC] at e1
      simp only [Option.some.injEq] at e1
      exact Or.inl ⟨Or.inr rfl, e1.symm⟩
    rw [hO, hC, I.d_beta] at e1
    simp only [numOf, Complex.ofReal_re, Option.bind_some, Option.map_eq_some_iff] at e1
    obtain ⟨y, hy, rfl⟩ := e1
    right
    obtain ⟨l1, l2, l3⟩ := optics_sizes I hfit P saveFq X x hone O hO
    obtain ⟨nv, hnv⟩ : ∃ nv, (vertOf O).length = 2 * nv + 1 := by
      unfold vertOf
      rcases hv : O.vertex with _ | v
      · refine ⟨O.ranges.niwBubble.toNat, ?_⟩
        simp only [Option.map_none, Option.getD_none, List.length_map]
        omega
      · obtain ⟨k1, k2⟩ := l3 v hv
        refine ⟨O.ranges.niwCond.toNat, ?_⟩
        simp only [Option.map_some, Option.getD_some]
        omega
    exact ⟨O, K, m1, y, rfl, rfl, rfl, (cond_iff T I.beta O K m1 O.ranges.niwBubble.toNat nv (by omega) hnv y).1 hy⟩
  · rcases hM : C.maxEnt with _ | M
    · rw [hM] at e2
      simp only [Option.some.injEq] at e2
      exact Or.inl ⟨rfl, e2.symm⟩
    rw [hM] at e2
    simp only [Option.map_eq_some_iff] at e2
    obtain ⟨y, hy, rfl⟩ := e2
    obtain ⟨a, ha, o, mu, -, -, hcalc⟩ := one_parts I P saveFq X x hone
    exact Or.inr ⟨M, y, rfl, rfl, @maxEnt_values fs ty path f1 f2 (withAs S a) _ _ _ (I.enlarge a ha) x.main hcalc T X.newton M y hy⟩

/-! ### The number of ranks -/

theorem section_mono {α : Type} (K : Option (ContSet × Bool)) (mode : String) (beta : ℝ) (run run' : Ana.Cfg → Option α) (y : Option α)
    (h : section_ K mode beta run = some y) (himp : ∀ c o, run c = some o → run' c = some o) : section_ K mode beta run' = some y := by
  unfold section_ at h ⊢
  cases K with
  | none => exact h
  | some K =>
    simp only [Option.bind_eq_some_iff] at h ⊢
    obtain ⟨c, hc, h⟩ := h
    refine ⟨c, hc, ?_⟩
    unfold ifAsked at h ⊢
    split_ifs at h ⊢
    · rw [Option.map_eq_some_iff] at h ⊢
      obtain ⟨o, ho, e⟩ := h
      exact ⟨o, himp _ _ ho, e⟩
    · exact h

theorem section_made {α : Type} (K : Option (ContSet × Bool)) (mode : String) (beta : ℝ) (run : Ana.Cfg → Option α) (y : Option α)
    (h : section_ K mode beta run = some y) (hy : y.isSome = true) : ∃ c o, run c = some o := by
  unfold section_ at h
  cases K with
  | none => cases h; cases hy
  | some K =>
    simp only [Option.bind_eq_some_iff] at h
    obtain ⟨c, hc, h⟩ := h
    unfold ifAsked at h
    split_ifs at h
    · rw [Option.map_eq_some_iff] at h
      obtain ⟨o, ho, e⟩ := h
      exact ⟨c, o, ho⟩
    · cases h; cases hy

variable (out : MainOut) (h : calcFrom S I.d ⟨I.w, I.c, I.sh, I.as⟩ (I.obj "dens" I.D) (I.obj "magn" I.M) = .ok out)

include h in
/-- dga_max_ent.py: what returns on any number of ranks returns the same on one; and not with more ranks than irreducible momenta if anything is continued -/
theorem maxEnt_ranks (T : Tools) (newton : (ℝ → ℝ) → ℝ → Option ℂ) (M : MaxEntPlan) (y : MaxEntOut) (hy : maxEntMain S T newton I.d out M = some y) :
    maxEntMain { S with ranks := 1 } T newton I.d out M = some y ∧
    (y.s.isSome = true ∨ y.g.isSome = true ∨ y.d.isSome = true ∨ y.m.isSome = true →
      ∃ mp, fbz2irrk S.nx S.ny S.nz S.syms = some mp ∧ S.ranks ≤ (uniq (flat3 mp)).length) := by
  obtain ⟨h20, emu, mp, hmp, g, eg, es, egg, edd, emm⟩ := cont_inputs I out h T newton M y hy
  obtain ⟨g', eg', hg, -, hs, -⟩ := cont_tables I out h h20 y.mu
  obtain rfl : g = g' := Option.some.inj (eg.symm.trans eg')
  obtain ⟨mp', hmp', hchi⟩ := chi_saved I out h
  rw [hmp] at hmp'
  cases hmp'
  obtain ⟨rd, -⟩ := hchi out.run.chi.dens (Or.inl rfl)
  obtain ⟨rm, -⟩ := hchi out.run.chi.magn (Or.inr rfl)
  have key : ∀ (solve : Ana.Solver) (c : Ana.Cfg) (G : Pt → List ℂ) (L : Nat) (_ : ∀ p, (G p).length = L) (t : Bz.Arr3 (List ℂ)),
      contGrid S solve c (flat3 mp) (table S.nx S.ny S.nz fun i j k => G (i, j, k)) = some t →
      S.ranks ≤ (uniq (flat3 mp)).length ∧ contGrid { S with ranks := 1 } solve c (flat3 mp) (table S.nx S.ny S.nz fun i j k => G (i, j, k)) = some t := by
    intro solve c G L hL t ht
    obtain ⟨k1, k2, -⟩ := (contGrid_table S I.ranks mp hmp nk_pos solve c G L hL).1 t ht
    exact ⟨k1, k2⟩
  have keyF : ∀ (solve : Ana.Solver) (c : Ana.Cfg) (G : Pt → Int → ℂ) (N : Nat) (t : Bz.Arr3 (List ℂ)),
      contGrid S solve c (flat3 mp) (table S.nx S.ny S.nz fun i j k => samplesF (G (i, j, k)) N) = some t →
      S.ranks ≤ (uniq (flat3 mp)).length ∧ contGrid { S with ranks := 1 } solve c (flat3 mp) (table S.nx S.ny S.nz fun i j k => samplesF (G (i, j, k)) N) = some t :=
    fun solve c G N t ht => key solve c (fun p => samplesF (G p) N) (2 * N) (fun p => samplesF_length _ _) t ht
  have keyB : ∀ (solve : Ana.Solver) (c : Ana.Cfg) (G : Pt → Int → ℂ) (N : Nat) (t : Bz.Arr3 (List ℂ)),
      contGrid S solve c (flat3 mp) (table S.nx S.ny S.nz fun i j k => samplesB (G (i, j, k)) N) = some t →
      S.ranks ≤ (uniq (flat3 mp)).length ∧ contGrid { S with ranks := 1 } solve c (flat3 mp) (table S.nx S.ny S.nz fun i j k => samplesB (G (i, j, k)) N) = some t :=
    fun solve c G N t ht => key solve c (fun p => samplesB (G p) N) (2 * N + 1) (fun p => samplesB_length _ _) t ht
  have hS : ∀ c o, contSwk S T I.n I.beta (flat3 mp) (loadedSigma out I.beta) c = some o →
      S.ranks ≤ (uniq (flat3 mp)).length ∧ contSwk { S with ranks := 1 } T I.n I.beta (flat3 mp) (loadedSigma out I.beta) c = some o := by
    intro c o ho
    unfold contSwk at ho ⊢
    rw [Option.bind_eq_some_iff] at ho ⊢
    obtain ⟨t, ht, ho⟩ := ho
    rw [hs c.nFit] at ht
    obtain ⟨k1, k2⟩ := keyF (T.solve "s_dga") c (fun p m => sigmaAt S (loadedSigma out I.beta) p.1 p.2.1 p.2.2 m - ((loadedSigma out I.beta).smom0 : ℂ)) c.nFit t ht
    refine ⟨k1, t, ?_, ho⟩
    rw [← hs c.nFit] at k2
    exact k2
  have hB : ∀ (name : String) (rows : List (List ℂ)) (G : Pt → Int → ℂ), reshape3 rows S.nx S.ny S.nz = (table S.nx S.ny S.nz fun i j k => samplesB (G (i, j, k)) I.w) →
      ∀ (c : Ana.Cfg) (o : GridOut), ((contGrid S (T.solve name) c (flat3 mp) (reshape3 rows S.nx S.ny S.nz)).map fun t => (⟨t, c.w⟩ : GridOut)) = some o →
      S.ranks ≤ (uniq (flat3 mp)).length ∧
        ((contGrid { S with ranks := 1 } (T.solve name) c (flat3 mp) (reshape3 rows S.nx S.ny S.nz)).map fun t => (⟨t, c.w⟩ : GridOut)) = some o := by
    intro name rows G hrow c o ho
    rw [Option.map_eq_some_iff] at ho ⊢
    obtain ⟨t, ht, rfl⟩ := ho
    rw [hrow] at ht ⊢
    obtain ⟨k1, k2⟩ := keyB (T.solve name) c G I.w t ht
    exact ⟨k1, t, k2, rfl⟩
  have hdens := hB "chi_d" out.run.chi.dens (chiAt S I.w out.run.chi.dens) rd
  have hmagn := hB "chi_m" out.run.chi.magn (chiAt S I.w out.run.chi.magn) rm
  have hG : ∀ (c : Ana.Cfg) (o : GridOut),
      ((contGrid S (T.solve "g_dga") c (flat3 mp) (reshape3 (gFullArr g.core g.asympt) S.nx S.ny S.nz)).map fun t => (⟨t, c.w⟩ : GridOut)) = some o →
      S.ranks ≤ (uniq (flat3 mp)).length ∧
        ((contGrid { S with ranks := 1 } (T.solve "g_dga") c (flat3 mp) (reshape3 (gFullArr g.core g.asympt) S.nx S.ny S.nz)).map fun t => (⟨t, c.w⟩ : GridOut)) = some o := by
    intro c o ho
    rw [Option.map_eq_some_iff] at ho ⊢
    obtain ⟨t, ht, rfl⟩ := ho
    rw [hg] at ht ⊢
    obtain ⟨k1, k2⟩ := keyF (T.solve "g_dga") c (fun p => dyson S I.beta y.mu (sigmaAt S (loadedSigma out I.beta)) p.1 p.2.1 p.2.2) _ t ht
    exact ⟨k1, t, k2, rfl⟩
  constructor
  · unfold maxEntMain
    rw [I.d_n, I.d_beta]
    show (match some I.n, some I.beta, fbz2irrk S.nx S.ny S.nz S.syms with | some n, some beta, some mp => _ | _, _, _ => none) = some y
    rw [hmp]
    simp only [Option.bind_eq_some_iff, Option.map_eq_some_iff]
    exact ⟨y.mu, emu, g, eg, y.s, section_mono _ _ _ _ _ _ es fun c o ho => (hS c o ho).2, y.g, section_mono _ _ _ _ _ _ egg fun c o ho => (hG c o ho).2,
      y.d, section_mono _ _ _ _ _ _ edd fun c o ho => (hdens c o ho).2, y.m, section_mono _ _ _ _ _ _ emm fun c o ho => (hmagn c o ho).2, rfl⟩
  · intro hsome
    refine ⟨mp, hmp, ?_⟩
    rcases hsome with e | e | e | e
    · obtain ⟨c, o, ho⟩ := section_made _ _ _ _ _ es e
      exact (hS c o ho).1
    · obtain ⟨c, o, ho⟩ := section_made _ _ _ _ _ egg e
      exact (hG c o ho).1
    · obtain ⟨c, o, ho⟩ := section_made _ _ _ _ _ edd e
      exact (hdens c o ho).1
    · obtain ⟨c, o, ho⟩ := section_made _ _ _ _ _ emm e
      exact (hmagn c o ho).1

omit h in
/-- **C142 (d).** What a run with continuations leaves on any number of ranks, it leaves on one.  It does not return with more ranks than irreducible momenta if
    dga_max_ent.py has anything to continue. -/
theorem conts_ranks (hfit : I.w ≤ I.sh + I.as) (P : Plan) (saveFq : Bool) (F : Option (Nat × Nat)) (fit : Fitter) (C : ContPlan) (T : Tools)
    (X : Chance S.nx S.ny S.nz) (x : OneOut S.nx S.ny S.nz) (fits : Option PolyFits) (c : ContsOut)
    (h : mainConts fs ty path f1 f2 S P saveFq F fit C T X = .ok (x, fits, c)) :
    mainConts fs ty path f1 f2 { S with ranks := 1 } P saveFq F fit C T X = .ok (x, fits, c) ∧
    ∀ y, c.maxEnt = some y → y.s.isSome = true ∨ y.g.isSome = true ∨ y.d.isSome = true ∨ y.m.isSome = true →
      ∃ mp, fbz2irrk S.nx S.ny S.nz S.syms = some mp ∧ S.ranks ≤ (uniq (flat3 mp)).length := by
  obtain ⟨h1, h2⟩ := (conts_split I P saveFq F fit C T X x fits c).1 h
  have hone := ((poly_split I P saveFq F fit X x fits).1 h1).1
  obtain ⟨a, ha, o, mu, -, -, hcalc⟩ := one_parts I P saveFq X x hone
  unfold contsFrom at h2
  rw [Option.bind_eq_some_iff] at h2
  obtain ⟨cc, e1, e2⟩ := h2
  rw [Option.map_eq_some_iff] at e2
  obtain ⟨mm, e2, rfl⟩ := e2
  have key : ∀ M y, maxEntMain S T X.newton I.d x.main M = some y → maxEntMain { S with ranks := 1 } T X.newton I.d x.main M = some y ∧
      (y.s.isSome = true ∨ y.g.isSome = true ∨ y.d.isSome = true ∨ y.m.isSome = true →
        ∃ mp, fbz2irrk S.nx S.ny S.nz S.syms = some mp ∧ S.ranks ≤ (uniq (flat3 mp)).length) := fun M y hy =>
    @maxEnt_ranks fs ty path f1 f2 (withAs S a) _ _ _ (I.enlarge a ha) x.main hcalc T X.newton M y hy
  constructor
  · rw [conts_split (onRanks I 1 Nat.one_pos) P saveFq F fit C T X x fits]
    refine ⟨(poly_ranks I hfit P saveFq F fit X 1 Nat.one_pos x fits).2 h1, ?_⟩
    unfold contsFrom
    rw [Option.bind_eq_some_iff]
    refine ⟨cc, e1, ?_⟩
    rw [Option.map_eq_some_iff]
    refine ⟨mm, ?_, rfl⟩
    rcases hM : C.maxEnt with _ | M
    · rw [hM] at e2; exact e2
    · rw [hM] at e2
      simp only [Option.map_eq_some_iff] at e2 ⊢
      obtain ⟨y, hy, rfl⟩ := e2
      exact ⟨y, (key M y hy).1, rfl⟩
  · intro y hy hsome
    simp only at hy
    subst hy
    rcases hM : C.maxEnt with _ | M
    · rw [hM] at e2; cases e2
    · rw [hM] at e2
      simp only [Option.map_eq_some_iff] at e2
      obtain ⟨y', hy', e⟩ := e2
      cases e
      exact (key M y hy').2 hsome

end

end DGA.Whole
