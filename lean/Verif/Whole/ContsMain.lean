/-
  C142: the continuations of a complete run: theorems.
-/
import Verif.Whole.ContsRun

noncomputable section

namespace DGA.Whole

open DGA.Mf DGA.Bz DGA.Bubble DGA.Fp DGA.Two DGA.Inp DGA.Pipe DGA.Pairing DGA.Report DGA.Shared
open DGA.RankFiles (Str)
open DGA.Eli (Grid)

/-! ### Specification -/

/-- the mesh of real frequencies of a section; bosonic spectra live on non-negative frequencies -/
def MeshIs (K : ContSet) (bosonic : Bool) (w : List ℝ) : Prop :=
  Ana.getWMesh K.mesh (if bosonic = true then max K.wmin 0 else K.wmin) K.wmax K.nwr K.cut = some w

/-- What a subsection leaves: nothing if it does not exist or `do_cont` is not set — though a mesh must exist in this case, too —, else a result with the
    property `P`. -/
def SectionAs {α : Type} (K : Option (ContSet × Bool)) (bosonic : Bool) (y : Option α) (P : ContSet → List ℝ → α → Prop) : Prop :=
  (K = none ∧ y = none) ∨ ∃ K0 doCont w, K = some (K0, doCont) ∧ MeshIs K0 bosonic w ∧
    ((doCont = false ∧ y = none) ∨ ∃ o, doCont = true ∧ y = some o ∧ P K0 w o)

/-- the array holds at every momentum the given row -/
def HoldsAt (S : Settings) (t : Bz.Arr3 (List ℂ)) (row : Pt → List ℂ) : Prop := ∀ p, InGrid S.nx S.ny S.nz p → Bz.at3 t p.1 p.2.1 p.2.2 = some (row p)

/-- asymptotic range of the Green's function of dga_max_ent.py:73: the configured box, `-1` where nothing is configured -/
def contAs (S : Settings) : Nat := (S.box.nivShell + S.box.nivCore).toNat

/-- What dga_max_ent.py leaves behind a calculation `out` at filling `n` and inverse temperature `beta`, with `w` bosonic and `v` fermionic frequencies: the
    chemical potential of the self-energy read from the file; the continuation of the self-energy without its Hartree term, to which it is added again, the
    chemical potential on the real axis and Dyson's equation; the continuation of the Green's function from at most the range of the configuration; the
    continuations of the susceptibilities. -/
def MaxEntAs (S : Settings) (T : Tools) (newton : (ℝ → ℝ) → ℝ → Option ℂ) (n beta : ℝ) (w v : Nat) (out : MainOut) (M : MaxEntPlan) (y : MaxEntOut) : Prop :=
    let sg := loadedSigma out beta
    20 ≤ v ∧ gfMu newton sg (bandOf S) n 0 = some y.mu ∧
    (SectionAs M.s false y.s fun K ws o => o.w = ws ∧
      (HoldsAt S o.swk fun p => (orZeros ws (fermiCont (T.solve "s_dga") beta ws K.nFit fun m => sigmaAt S sg p.1 p.2.1 p.2.2 m - (sg.smom0 : ℂ))).map
        fun z => z + (sg.smom0 : ℂ)) ∧
      o.mu = adjustMuRealF T.minimize 0 n ((flat3 o.swk).map fun r => r.map fun z => z - Complex.I * ((0.04 : ℝ) : ℂ)) ws (bandOf S) ∧
      ∀ p, InGrid S.nx S.ny S.nz p → o.gwk[linP S.ny S.nz p]? = (Bz.at3 o.swk p.1 p.2.1 p.2.2).map fun row =>
        List.zipWith (fun x s => gwk x o.mu (band S p.1 p.2.1 p.2.2) 0.04 s) ws row) ∧
    (SectionAs M.g false y.g fun K ws o => o.w = ws ∧ HoldsAt S o.mat fun p =>
      orZeros ws (fermiCont (T.solve "g_dga") beta ws (min K.nFit (sg.nivCore + contAs S)) (dyson S beta y.mu (sigmaAt S sg) p.1 p.2.1 p.2.2))) ∧
    (SectionAs M.d true y.d fun K ws o => o.w = ws ∧ HoldsAt S o.mat fun p =>
      orZeros ws (boseCont (T.solve "chi_d") beta ws (min K.nFit w) w (chiAt S w out.run.chi.dens p))) ∧
    (SectionAs M.m true y.m fun K ws o => o.w = ws ∧ HoldsAt S o.mat fun p =>
      orZeros ws (boseCont (T.solve "chi_m") beta ws (min K.nFit w) w (chiAt S w out.run.chi.magn p)))

/-! ### Theorems -/

theorem init_fermi (K : ContSet) (beta : ℝ) (c : Ana.Cfg) (h : K.init "freq_fermionic" beta = some c) :
    MeshIs K false c.w ∧ c.mode = "freq_fermionic" ∧ c.beta = beta ∧ c.nFit = K.nFit := by
  unfold ContSet.init Ana.initMaxEnt at h
  simp only [true_or, if_true, String.reduceEq, false_and, if_false, Option.map_eq_some_iff] at h
  obtain ⟨w, hw, rfl⟩ := h
  exact ⟨hw, rfl, rfl, rfl⟩

theorem init_bose (K : ContSet) (beta : ℝ) (c : Ana.Cfg) (h : K.init "freq_bosonic" beta = some c) :
    MeshIs K true c.w ∧ c.mode = "freq_bosonic" ∧ c.beta = beta ∧ c.nFit = K.nFit := by
  unfold ContSet.init Ana.initMaxEnt at h
  simp only [or_true, if_true, true_and, Option.map_eq_some_iff] at h
  obtain ⟨w, hw, rfl⟩ := h
  refine ⟨?_, rfl, rfl, rfl⟩
  unfold MeshIs
  simp only [if_true]
  rw [show max K.wmin 0 = if K.wmin < 0 then 0 else K.wmin by split_ifs with h1 <;> [exact max_eq_right h1.le; exact max_eq_left (not_lt.1 h1)]]
  exact hw

theorem section_as {α : Type} (K : Option (ContSet × Bool)) (bosonic : Bool) (beta : ℝ) (run : Ana.Cfg → Option α) (y : Option α)
    (h : section_ K (if bosonic = true then "freq_bosonic" else "freq_fermionic") beta run = some y) (P : ContSet → List ℝ → α → Prop)
    (hP : ∀ K0 c o, MeshIs K0 bosonic c.w → c.mode = (if bosonic = true then "freq_bosonic" else "freq_fermionic") → c.beta = beta → c.nFit = K0.nFit →
      run c = some o → P K0 c.w o) : SectionAs K bosonic y P := by
  unfold section_ at h
  cases K with
  | none => left; cases h; exact ⟨rfl, rfl⟩
  | some K =>
    obtain ⟨K0, b⟩ := K
    right
    simp only [Option.bind_eq_some_iff] at h
    obtain ⟨c, hc, h⟩ := h
    obtain ⟨e1, e2, e3, e4⟩ : MeshIs K0 bosonic c.w ∧ c.mode = (if bosonic = true then "freq_bosonic" else "freq_fermionic") ∧ c.beta = beta ∧ c.nFit = K0.nFit := by
      cases bosonic
      · exact init_fermi K0 beta c hc
      · exact init_bose K0 beta c hc
    refine ⟨K0, b, c.w, rfl, e1, ?_⟩
    unfold ifAsked at h
    cases b with
    | false => left; simp at h; exact ⟨rfl, h.symm⟩
    | true =>
      right
      simp only [if_true, Option.map_eq_some_iff] at h
      obtain ⟨o, ho, rfl⟩ := h
      exact ⟨o, rfl, rfl, hP K0 c o e1 e2 e3 e4 ho⟩

section

variable {fs : Fs} {ty path f1 : String} {f2 : Option String} {S : Settings} [NeZero S.nx] [NeZero S.ny] [NeZero S.nz]
variable (I : Files fs ty path f1 f2 S)

omit [NeZero S.nx] [NeZero S.ny] [NeZero S.nz] in
theorem at3_reshape {α : Type} (l : List α) (hl : l.length = S.nx * S.ny * S.nz) (p : Pt) (hp : InGrid S.nx S.ny S.nz p) :
    Bz.at3 (reshape3 l S.nx S.ny S.nz) p.1 p.2.1 p.2.2 = l[linP S.ny S.nz p]? := by
  have hlt : linP S.ny S.nz p < S.nx * S.ny * S.nz := Bz.lin_lt S.nx S.ny S.nz _ _ _ hp.1 hp.2.1 hp.2.2
  obtain ⟨a, ha⟩ : ∃ a, l[linP S.ny S.nz p]? = some a := ⟨_, List.getElem?_eq_getElem (by omega)⟩
  have e' : l = (List.range (S.nx * S.ny * S.nz)).map fun i => l.getD i a := by
    apply List.ext_getElem?
    intro i
    rw [List.getElem?_map]
    by_cases hi : i < S.nx * S.ny * S.nz
    · rw [List.getElem?_range hi, List.getElem?_eq_getElem (by omega)]
      simp [List.getD_eq_getElem?_getD, List.getElem?_eq_getElem (show i < l.length by omega)]
    · rw [List.getElem?_eq_none (by omega), List.getElem?_eq_none (by simp; omega)]; rfl
  rw [ha]
  conv_lhs => rw [e', reshape3_range fun i => l.getD i a]
  rw [Bz.at3_table _ _ _ _ _ _ _ hp.1 hp.2.1 hp.2.2]
  show some (l.getD (linP S.ny S.nz p) a) = some a
  rw [List.getD_eq_getElem?_getD, ha]
  rfl

omit [NeZero S.nx] [NeZero S.ny] [NeZero S.nz] in
theorem contGrid_shape (mp : Bz.Arr3 Nat) (hmp : fbz2irrk S.nx S.ny S.nz S.syms = some mp) (solve : Ana.Solver) (c : Ana.Cfg) (mat t : Bz.Arr3 (List ℂ))
    (h : contGrid S solve c (flat3 mp) mat = some t) : ∃ l, l.length = S.nx * S.ny * S.nz ∧ t = reshape3 l S.nx S.ny S.nz ∧ flat3 t = l := by
  obtain ⟨hlen, -⟩ := Pf.flat_index S.nx S.ny S.nz S.syms mp hmp
  unfold contGrid irrk2fbzMesh at h
  simp only [Option.bind_eq_some_iff, Option.map_eq_some_iff] at h
  obtain ⟨_, _, _, _, l, hl, rfl⟩ := h
  obtain ⟨c1, -⟩ := DGA.Mf.mapM_getElem? _ _ _ hl
  have hl' : l.length = S.nx * S.ny * S.nz := by rw [c1]; simpa [irrkInv] using hlen
  exact ⟨l, hl', rfl, flat3_reshape3 _ _ _ _ hl'⟩

/-- continuation of a symmetric fermionic function -/
theorem contGrid_fermi (mp : Bz.Arr3 Nat) (hmp : fbz2irrk S.nx S.ny S.nz S.syms = some mp) (solve : Ana.Solver) (c : Ana.Cfg) (hm : c.mode = "freq_fermionic")
    (hR : 0 < S.ranks) (G : Pt → Int → ℂ) (hG : Sym3 S G) (N : Nat) (t : Bz.Arr3 (List ℂ))
    (h : contGrid S solve c (flat3 mp) (table S.nx S.ny S.nz fun i j k => samplesF (G (i, j, k)) N) = some t) :
    HoldsAt S t fun p => orZeros c.w (fermiCont solve c.beta c.w (min c.nFit N) (G p)) := by
  intro p hp
  obtain ⟨-, -, hv⟩ := (contGrid_table S hR mp hmp nk_pos solve c (fun p => samplesF (G p) N) (2 * N) fun p => samplesF_length _ _).1 t h
  obtain ⟨r, hr, e1, e2⟩ := hv p hp
  have hrel := irrk_share_related S.nx S.ny S.nz S.syms mp hmp p r hp hr e1.symm
  rw [e2, contSingle_fermi solve c hm, hG.related hp hrel]

/-- continuation of a bosonic function that is the same for momenta of the same class -/
theorem contGrid_bose (mp : Bz.Arr3 Nat) (hmp : fbz2irrk S.nx S.ny S.nz S.syms = some mp) (solve : Ana.Solver) (c : Ana.Cfg) (hm : c.mode = "freq_bosonic")
    (hR : 0 < S.ranks) (G : Pt → Int → ℂ)
    (hG : ∀ p r, InGrid S.nx S.ny S.nz p → InGrid S.nx S.ny S.nz r → Bz.at3 mp r.1 r.2.1 r.2.2 = Bz.at3 mp p.1 p.2.1 p.2.2 → G r = G p) (N : Nat) (t : Bz.Arr3 (List ℂ))
    (h : contGrid S solve c (flat3 mp) (table S.nx S.ny S.nz fun i j k => samplesB (G (i, j, k)) N) = some t) :
    HoldsAt S t fun p => orZeros c.w (boseCont solve c.beta c.w (min c.nFit N) N (G p)) := by
  intro p hp
  obtain ⟨-, -, hv⟩ := (contGrid_table S hR mp hmp nk_pos solve c (fun p => samplesB (G p) N) (2 * N + 1) fun p => samplesB_length _ _).1 t h
  obtain ⟨r, hr, e1, e2⟩ := hv p hp
  rw [e2, contSingle_bose solve c hm, hG p r hp hr e1]

variable (out : MainOut) (h : calcFrom S I.d ⟨I.w, I.c, I.sh, I.as⟩ (I.obj "dens" I.D) (I.obj "magn" I.M) = .ok out)

include h in
/-- the arrays that are continued -/
theorem cont_tables (h20 : 20 ≤ I.c + I.sh) (mu : ℝ) :
    let sg := loadedSigma out I.beta
    ∃ g : Gf, newGf sg (bandOf S) mu (S.box.nivShell + S.box.nivCore) = some g ∧
      (reshape3 (gFullArr g.core g.asympt) S.nx S.ny S.nz = table S.nx S.ny S.nz fun i j k =>
        samplesF ((fun p : Pt => dyson S I.beta mu (sigmaAt S sg) p.1 p.2.1 p.2.2) (i, j, k)) (sg.nivCore + contAs S)) ∧
      (Sym3 S fun p => dyson S I.beta mu (sigmaAt S sg) p.1 p.2.1 p.2.2) ∧
      (∀ n : Nat, reshape3 ((sg.getSiw n).map fun r => r.map fun z => z - (sg.smom0 : ℂ)) S.nx S.ny S.nz = table S.nx S.ny S.nz fun i j k =>
        samplesF ((fun (p : Pt) m => sigmaAt S sg p.1 p.2.1 p.2.2 m - (sg.smom0 : ℂ)) (i, j, k)) n) ∧
      (Sym3 S fun p m => sigmaAt S sg p.1 p.2.1 p.2.2 m - (sg.smom0 : ℂ)) := by
  intro sg
  obtain ⟨l1, l2, -, l4, l5, l6, -⟩ := loaded_value I out h
  have hlen : sg.sigma.length = S.nx * S.ny * S.nz := by rw [l1]; simp
  have hrl : ∀ r ∈ sg.sigma, r.length = I.c + I.sh := by
    rw [l1]
    intro r hr
    rw [List.mem_map] at hr
    obtain ⟨l, _, rfl⟩ := hr
    simp [valsAt]
  have hrow : ∀ r ∈ sg.sigma, sg.nivCore ≤ r.length := by
    intro r hr
    rw [hrl r hr]
    exact l5 h20
  obtain ⟨g, hg', e, -⟩ := newGf_full S sg hlen hrow mu (S.box.nivShell + S.box.nivCore)
  refine ⟨g, hg', ?_, ?_, ?_, ?_⟩
  · rw [e]
    apply table_congr
    intro i j k hi hj hk
    rw [gOpt_dyson S sg hlen mu i j k hi hj hk, l2]
    rfl
  · intro σ hσ p hp
    funext m
    have e := congrFun (l6 σ hσ p hp) m
    simp only at e
    simp only [dyson]
    rw [band_image I.lat σ hσ p hp]
    exact congrArg (fun z => 1 / (iv I.beta m + (mu : ℂ) - (band S p.1 p.2.1 p.2.2 : ℂ) - z)) e
  · intro n
    rw [getSiw_value sg hrow]
    have e : (sg.sigma.map fun r => samplesF (sigmaSpec sg r) n).map (fun r => r.map fun z => z - (sg.smom0 : ℂ)) =
        (List.range (S.nx * S.ny * S.nz)).map fun l => samplesF (fun m => sigmaSpec sg (sg.sigma.getD l []) m - (sg.smom0 : ℂ)) n := by
      apply List.ext_getElem?
      intro l
      rw [List.getElem?_map, List.getElem?_map, List.getElem?_map]
      by_cases hl : l < S.nx * S.ny * S.nz
      · have hl' : l < sg.sigma.length := by rw [hlen]; exact hl
        rw [List.getElem?_range hl, List.getElem?_eq_getElem hl']
        simp [List.getD_eq_getElem?_getD, List.getElem?_eq_getElem hl', samplesF]
      · rw [List.getElem?_eq_none (by rw [hlen]; omega), List.getElem?_eq_none (by simp; omega)]
        rfl
    rw [e, reshape3_range fun l => samplesF (fun m => sigmaSpec sg (sg.sigma.getD l []) m - (sg.smom0 : ℂ)) n]
    rfl
  · intro σ hσ p hp
    funext m
    have e := congrFun (l6 σ hσ p hp) m
    simp only at e
    exact congrArg (fun z => z - (sg.smom0 : ℂ)) e

include h in
/-- the parts of dga_max_ent.py -/
theorem cont_inputs (T : Tools) (newton : (ℝ → ℝ) → ℝ → Option ℂ) (M : MaxEntPlan) (y : MaxEntOut) (hy : maxEntMain S T newton I.d out M = some y) :
    let sg := loadedSigma out I.beta
    20 ≤ I.c + I.sh ∧ gfMu newton sg (bandOf S) I.n 0 = some y.mu ∧
    ∃ mp, fbz2irrk S.nx S.ny S.nz S.syms = some mp ∧ ∃ g : Gf, newGf sg (bandOf S) y.mu (S.box.nivShell + S.box.nivCore) = some g ∧
      (let grid := fun (name : String) (mat : List (List ℂ)) (c : Ana.Cfg) =>
        (contGrid S (T.solve name) c (flat3 mp) (reshape3 mat S.nx S.ny S.nz)).map fun t => (⟨t, c.w⟩ : GridOut)
      section_ M.s "freq_fermionic" I.beta (contSwk S T I.n I.beta (flat3 mp) sg) = some y.s ∧
      section_ M.g "freq_fermionic" I.beta (grid "g_dga" (gFullArr g.core g.asympt)) = some y.g ∧
      section_ M.d "freq_bosonic" I.beta (grid "chi_d" out.run.chi.dens) = some y.d ∧
      section_ M.m "freq_bosonic" I.beta (grid "chi_m" out.run.chi.magn) = some y.m) := by
  intro sg
  obtain ⟨mp, hmp, -⟩ := irrk_representative S.nx S.ny S.nz S.syms I.syms
  obtain ⟨l1, l2, -, l4, l5, l6, -⟩ := loaded_value I out h
  unfold maxEntMain at hy
  rw [I.d_n, I.d_beta, hmp] at hy
  simp only [numOf, Complex.ofReal_re, Option.bind_eq_some_iff, Option.map_eq_some_iff] at hy
  obtain ⟨mu, hmu, g, hg, s, hs, gg, hgg, dd, hdd, mm, hmm, rfl⟩ := hy
  refine ⟨?_, hmu, mp, hmp, g, hg, hs, hgg, hdd, hmm⟩
  by_contra hc
  have hlen : sg.sigma.length = S.nx * S.ny * S.nz := by rw [l1]; simp
  have hrl : ∀ r ∈ sg.sigma, r.length = I.c + I.sh := by
    rw [l1]
    intro r hr
    rw [List.mem_map] at hr
    obtain ⟨l, _, rfl⟩ := hr
    simp [valsAt]
  have hpos : 0 < sg.sigma.length := hlen ▸ nk_pos
  have : newGf sg (bandOf S) mu (S.box.nivShell + S.box.nivCore) = none := newGf_raises _ _ _ _
    (Or.inr ⟨sg.sigma[0], List.getElem_mem _, by rw [hrl _ (List.getElem_mem _)]; exact lt_of_lt_of_le (by omega) l4⟩)
  rw [show loadedSigma out I.beta = sg from rfl, this] at hg
  cases hg

include h in
/-- **C142 (b).** The continuations by dga_max_ent.py, whenever they return. -/
theorem maxEnt_values (T : Tools) (newton : (ℝ → ℝ) → ℝ → Option ℂ) (M : MaxEntPlan) (y : MaxEntOut) (hy : maxEntMain S T newton I.d out M = some y) :
    MaxEntAs S T newton I.n I.beta I.w (I.c + I.sh) out M y := by
  unfold MaxEntAs
  intro sg
  obtain ⟨h20, hmu, mp, hmp, g, hgf, e1, e2, e3, e4⟩ := cont_inputs I out h T newton M y hy
  obtain ⟨g', hg', hg, hgs, hs, hss⟩ := cont_tables I out h h20 y.mu
  obtain rfl : g = g' := Option.some.inj (hgf.symm.trans hg')
  obtain ⟨mp', hmp', hchi⟩ := chi_saved I out h
  rw [hmp] at hmp'
  cases hmp'
  have hbose : ∀ (name : String) (rows : List (List ℂ)), rows = out.run.chi.dens ∨ rows = out.run.chi.magn → ∀ (K0 : ContSet) (c : Ana.Cfg) (o : GridOut),
      MeshIs K0 true c.w → c.mode = "freq_bosonic" → c.beta = I.beta → c.nFit = K0.nFit →
      ((contGrid S (T.solve name) c (flat3 mp) (reshape3 rows S.nx S.ny S.nz)).map fun t => (⟨t, c.w⟩ : GridOut)) = some o →
      o.w = c.w ∧ HoldsAt S o.mat fun p => orZeros c.w (boseCont (T.solve name) I.beta c.w (min K0.nFit I.w) I.w (chiAt S I.w rows p)) := by
    intro name rows hr K0 c o _ hm hb hn ho
    rw [Option.map_eq_some_iff] at ho
    obtain ⟨t, ht, rfl⟩ := ho
    obtain ⟨r1, r2⟩ := hchi rows hr
    rw [r1] at ht
    have := contGrid_bose mp hmp (T.solve name) c hm I.ranks (chiAt S I.w rows) r2 I.w t ht
    rw [hb, hn] at this
    exact ⟨rfl, this⟩
  refine ⟨h20, hmu, ?_, ?_, ?_, ?_⟩
  · refine section_as M.s false I.beta _ y.s e1 _ ?_
    intro K0 c o _ hm hb hn ho
    unfold contSwk at ho
    simp only [Option.bind_eq_some_iff, Option.map_eq_some_iff] at ho
    obtain ⟨t, ht, r, hr, last, -, q, -, hh, -, rfl⟩ := ho
    rw [hs c.nFit] at ht
    have hv := contGrid_fermi mp hmp (T.solve "s_dga") c hm I.ranks _ hss c.nFit t ht
    rw [hb, hn, Nat.min_self] at hv
    obtain ⟨l, hl, ht', hf⟩ := contGrid_shape mp hmp _ _ _ _ ht
    simp only [hf] at hr ⊢
    have hrl : (l.map fun r => r.map fun z => z + (sg.smom0 : ℂ)).length = S.nx * S.ny * S.nz := by simpa using hl
    have hat : ∀ p, InGrid S.nx S.ny S.nz p → l[linP S.ny S.nz p]? = Bz.at3 t p.1 p.2.1 p.2.2 := fun p hp => by rw [ht', at3_reshape l hl p hp]
    have hswk : ∀ p, InGrid S.nx S.ny S.nz p → Bz.at3 (reshape3 (l.map fun r => r.map fun z => z + (sg.smom0 : ℂ)) S.nx S.ny S.nz) p.1 p.2.1 p.2.2 =
        (l[linP S.ny S.nz p]?).map fun r => r.map fun z => z + (sg.smom0 : ℂ) := fun p hp => by rw [at3_reshape _ hrl p hp, List.getElem?_map]
    refine ⟨trivial, ?_, ?_, ?_⟩
    · intro p hp
      rw [hswk p hp, hat p hp, hv p hp]
      rfl
    · rw [flat3_reshape3 _ _ _ _ hrl]
      unfold realGf at hr
      simp only [Option.some.injEq] at hr
      rw [← hr]
    · intro p hp
      have hlt : linP S.ny S.nz p < S.nx * S.ny * S.nz := Bz.lin_lt S.nx S.ny S.nz _ _ _ hp.1 hp.2.1 hp.2.2
      have hb' : (bandOf S).getD (linP S.ny S.nz p) 0 = band S p.1 p.2.1 p.2.2 := by
        have e := ekOf_band S _ hlt
        have hd : pt S.ny S.nz (linP S.ny S.nz p) = p := lin_div S.ny S.nz p.1 p.2.1 p.2.2 hp.2.1 hp.2.2
        rw [show linP S.ny S.nz p / S.nz / S.ny = p.1 from congrArg (fun q : Pt => q.1) hd,
          show linP S.ny S.nz p / S.nz % S.ny = p.2.1 from congrArg (fun q : Pt => q.2.1) hd,
          show linP S.ny S.nz p % S.nz = p.2.2 from congrArg (fun q : Pt => q.2.2) hd] at e
        rw [← e]
        unfold ekOf
        rw [bandOf_length]
        split_ifs with h1
        · rw [show linP S.ny S.nz p = 0 by omega]
        · rfl
      rw [hswk p hp]
      unfold getGwk
      rw [List.getElem?_map, bandOf_length, List.getElem?_range hlt]
      simp only [Option.map_some, hb']
      obtain ⟨a, ha⟩ : ∃ a, l[linP S.ny S.nz p]? = some a := ⟨_, List.getElem?_eq_getElem (by omega)⟩
      rw [ha]
      simp only [Option.map_some, Option.some.injEq]
      have hra : rowAt ((l.map fun r => r.map fun z => z + (sg.smom0 : ℂ)).map fun r => r.map fun z => z - Complex.I * ((0.04 : ℝ) : ℂ)) (linP S.ny S.nz p) =
          (a.map fun z => z + (sg.smom0 : ℂ)).map fun z => z - Complex.I * ((0.04 : ℝ) : ℂ) := by
        have e : ((l.map fun r => r.map fun z => z + (sg.smom0 : ℂ)).map fun r => r.map fun z => z - Complex.I * ((0.04 : ℝ) : ℂ)).getD (linP S.ny S.nz p) [] =
            (a.map fun z => z + (sg.smom0 : ℂ)).map fun z => z - Complex.I * ((0.04 : ℝ) : ℂ) := by
          rw [List.getD_eq_getElem?_getD, List.getElem?_map, List.getElem?_map, ha]
          rfl
        unfold rowAt
        split_ifs with h1
        · rw [List.length_map, List.length_map, hl] at h1
          rw [show linP S.ny S.nz p = 0 by omega] at e
          exact e
        · exact e
      exact (congrArg _ hra).trans (List.zipWith_map_right ..)
  · refine section_as M.g false I.beta _ y.g e2 _ ?_
    intro K0 c o _ hm hb hn ho
    rw [Option.map_eq_some_iff] at ho
    obtain ⟨t, ht, rfl⟩ := ho
    rw [hg] at ht
    have := contGrid_fermi mp hmp (T.solve "g_dga") c hm I.ranks _ hgs _ t ht
    rw [hb, hn] at this
    exact ⟨rfl, this⟩
  · exact section_as M.d true I.beta _ y.d e3 _ fun K0 c o a1 a2 a3 a4 a5 => hbose "chi_d" _ (Or.inl rfl) K0 c o a1 a2 a3 a4 a5
  · exact section_as M.m true I.beta _ y.m e4 _ fun K0 c o a1 a2 a3 a4 a5 => hbose "chi_m" _ (Or.inr rfl) K0 c o a1 a2 a3 a4 a5

end

end DGA.Whole
