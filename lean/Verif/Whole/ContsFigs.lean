/-
  C151: when a complete run with continuations also gets through the figures along the paths: src/dga/dga_max_ent.py:57-58, 105-115, 166-168, 189-191.
-/
import Verif.Whole.ContsReturn
import Verif.Whole.ContsEx
import Verif.KPath.Figures

noncomputable section

namespace DGA.Whole

open DGA.Mf DGA.Bz DGA.Bubble DGA.Fp DGA.Two DGA.Inp DGA.Pipe DGA.Pairing DGA.Report DGA.Shared DGA.KPath
open DGA.RankFiles (Str)
open DGA.Eli (Grid)

/-! ### Model -/

/-- dga_max_ent.py:112-115: for every path the figure in the window (-2, 2) and the one without a window -/
def drawSwk (S : Settings) (ps : List (List (V3 ℝ))) (o : SwkOut) : Option (List (DispFig × DispFig)) :=
  ps.mapM fun c => (dispersionFigure o.w (S.nx, S.ny, S.nz) c (reshape3 o.gwk S.nx S.ny S.nz) (some (-2)) (some 2)).bind fun a =>
    (dispersionFigure o.w (S.nx, S.ny, S.nz) c (reshape3 o.gwk S.nx S.ny S.nz) none none).map fun b => (a, b)

/-- dga_max_ent.py:166-168, 189-191 -/
def drawChi (S : Settings) (ps : List (List (V3 ℝ))) (o : GridOut) : Option (List ChiFig) := ps.mapM fun c => chiFigure o.w (S.nx, S.ny, S.nz) c o.mat

/-- what is drawn along the paths of the folders `MaxEntSiwk`, `MaxEntChiDens`, `MaxEntChiMagn` -/
structure Drawn where
  s : Option (List (DispFig × DispFig))
  d : Option (List ChiFig)
  m : Option (List ChiFig)

/-- nothing is drawn where nothing was continued (language construct: `if`; used by dga_max_ent.py:94-115, 156-168, 179-191) -/
def drawOpt {α β : Type} (x : Option α) (f : α → Option β) : Option (Option β) :=
  match x with
  | none => some none
  | some a => (f a).map some

/-- dga_max_ent.py:57-58, 105-115, 166-168, 189-191: the paths and the figures.  In the code the paths come first, and each figure directly after its
    continuation; whether the program gets to its end does not depend on this order. -/
def drawAll (S : Settings) (y : MaxEntOut) : Option Drawn :=
  (preparePaths (S.nx, S.ny, S.nz)).bind fun ps => (drawOpt y.s (drawSwk S ps)).bind fun s => (drawOpt y.d (drawChi S ps)).bind fun d =>
    (drawOpt y.m (drawChi S ps)).map fun m => ⟨s, d, m⟩

/-- dga_main.py:41-397 with the figures along the paths -/
def mainDrawn (fs : Fs) (ty path f1 : String) (f2 : Option String) (S : Settings) [NeZero S.nx] [NeZero S.ny] [NeZero S.nz] (P : Plan) (saveFq : Bool)
    (F : Option (Nat × Nat)) (fit : Fitter) (C : ContPlan) (T : Tools) (X : Chance S.nx S.ny S.nz) :
    Except String (OneOut S.nx S.ny S.nz × Option PolyFits × ContsOut × Option Drawn) :=
  match mainConts fs ty path f1 f2 S P saveFq F fit C T X with
  | .error e => .error e
  | .ok (x, fits, c) =>
    match drawOpt c.maxEnt (drawAll S) with
    | none => .error "failed"
    | some figs => .ok (x, fits, c, figs)

/-! ### Specification -/

/-- the optimiser returns one value per frequency of the mesh -/
def FillsMesh (T : Tools) (name : String) : Prop := ∀ im w data model A, T.solve name im w data model = some A → A.length = w.length

/-- the grids on which everything can be drawn: half of `ny`, rounded half to even, is smaller than `nx`; and two momenta along x if there is a figure -/
def GridFits (S : Settings) (figures : Prop) : Prop := rint (1 / 2 * (S.ny : ℝ)) < S.nx ∧ (figures → 2 ≤ S.nx)

/-- a named mesh, with the parameter the Lorentzian one needs -/
def Named (K : ContSet) : Prop := K.mesh ∈ ["hyperbolic", "linear", "tan"] ∨ K.mesh = "lorentzian" ∧ ∃ c, K.cut = some c ∧ 0 < c ∧ c < 1 / 2

/-- settings of the self-energy as recommended: a named mesh from `-wmax` to `wmax` with an odd number of points, three or more -/
def SymmetricMesh (K : ContSet) : Prop := Named K ∧ K.wmin = -K.wmax ∧ 0 < K.wmax ∧ ∃ n, 0 < n ∧ K.nwr = 2 * n + 1

/-- settings of a susceptibility: a named mesh that ends above zero, with two points or more -/
def PositiveMesh (K : ContSet) : Prop := Named K ∧ 0 < K.wmax ∧ K.wmin < K.wmax ∧ 2 ≤ K.nwr

/-! ### Theorems -/

theorem reshape_table (l : List (List ℂ)) (nx ny nz : Nat) (hl : l.length = nx * ny * nz) :
    reshape3 l nx ny nz = table nx ny nz fun i j k => l.getD (lin ny nz i j k) [] := by
  have e' : l = (List.range (nx * ny * nz)).map fun i => l.getD i [] := by
    apply List.ext_getElem?
    intro i
    rw [List.getElem?_map]
    by_cases hi : i < nx * ny * nz
    · rw [List.getElem?_range hi, List.getElem?_eq_getElem (by omega)]
      simp [List.getD_eq_getElem?_getD, List.getElem?_eq_getElem (show i < l.length by omega)]
    · rw [List.getElem?_eq_none (by omega), List.getElem?_eq_none (by simp; omega)]; rfl
  conv_lhs => rw [e', reshape3_range fun i => l.getD i []]

/-- the figures of the self-energy -/
theorem drawSwk_iff (S : Settings) (hx : 0 < S.nx) (hy : 0 < S.ny) (hz : 0 < S.nz) (hq : rint (1 / 2 * (S.ny : ℝ)) < S.nx) (o : SwkOut)
    (hl : o.gwk.length = S.nx * S.ny * S.nz) (hw : o.w.Pairwise (· < ·)) :
    (drawSwk S quarterPaths o).isSome ↔ 2 ≤ S.nx ∧ (∃ x ∈ o.w, -2 < x ∧ x < 2) ∧ 3 ≤ o.w.length := by
  unfold drawSwk
  rw [mapM_mem, ← paths_have_points S.nx S.ny S.nz hx hy hq, reshape_table _ _ _ _ hl]
  have key : ∀ c ∈ quarterPaths, ((dispersionFigure o.w (S.nx, S.ny, S.nz) c (table S.nx S.ny S.nz fun i j k => o.gwk.getD (lin S.ny S.nz i j k) []) (some (-2)) (some 2)).bind fun a =>
      (dispersionFigure o.w (S.nx, S.ny, S.nz) c (table S.nx S.ny S.nz fun i j k => o.gwk.getD (lin S.ny S.nz i j k) []) none none).map fun b => (a, b)).isSome ↔
      0 < (buildPath (S.nx, S.ny, S.nz) c).2.sum ∧ (∃ x ∈ o.w, -2 < x ∧ x < 2) ∧ 3 ≤ o.w.length := by
    intro c hc
    obtain ⟨h2, h3⟩ := quarterPaths_zone c hc
    have i1 := dispersion_iff S.nx S.ny S.nz hx hy hz o.w (fun i j k => o.gwk.getD (lin S.ny S.nz i j k) []) c h2 h3 (-2) 2
    have i2 := dispersion_full S.nx S.ny S.nz hx hy hz o.w hw (fun i j k => o.gwk.getD (lin S.ny S.nz i j k) []) c h2 h3
    generalize (∃ x ∈ o.w, -2 < x ∧ x < 2) = Q at i1 ⊢
    rcases e1 : dispersionFigure o.w (S.nx, S.ny, S.nz) c (table S.nx S.ny S.nz fun i j k => o.gwk.getD (lin S.ny S.nz i j k) []) (some (-2)) (some 2) with _ | a <;>
      rcases e2 : dispersionFigure o.w (S.nx, S.ny, S.nz) c (table S.nx S.ny S.nz fun i j k => o.gwk.getD (lin S.ny S.nz i j k) []) none none with _ | b <;>
      rw [e1] at i1 <;> rw [e2] at i2 <;> simp at i1 i2 ⊢ <;> tauto
  constructor
  · intro h
    have h0 := (key _ (List.mem_cons_self : _ ∈ quarterPaths)).1 (h _ List.mem_cons_self)
    exact ⟨fun c hc => ((key c hc).1 (h c hc)).1, h0.2⟩
  · rintro ⟨h1, h2⟩ c hc
    exact (key c hc).2 ⟨h1 c hc, h2⟩

/-- the figures of a susceptibility -/
theorem drawChi_iff (S : Settings) (hx : 0 < S.nx) (hy : 0 < S.ny) (hz : 0 < S.nz) (hq : rint (1 / 2 * (S.ny : ℝ)) < S.nx) (o : GridOut) (l : List (List ℂ))
    (hl : l.length = S.nx * S.ny * S.nz) (hm : o.mat = reshape3 l S.nx S.ny S.nz) (hrow : ∀ p r, Bz.at3 o.mat p.1 p.2.1 p.2.2 = some r → InGrid S.nx S.ny S.nz p → r.length = o.w.length)
    (hw : o.w.Pairwise (· < ·)) (h0 : ∀ x ∈ o.w, 0 ≤ x) : (drawChi S quarterPaths o).isSome ↔ 2 ≤ S.nx ∧ 2 ≤ o.w.length := by
  have ht := reshape_table l S.nx S.ny S.nz hl
  rw [← hm] at ht
  unfold drawChi
  rw [mapM_mem, ← paths_have_points S.nx S.ny S.nz hx hy hq]
  have key : ∀ c ∈ quarterPaths, (chiFigure o.w (S.nx, S.ny, S.nz) c o.mat).isSome ↔ 0 < (buildPath (S.nx, S.ny, S.nz) c).2.sum ∧ 2 ≤ o.w.length := by
    intro c hc
    obtain ⟨h2, h3⟩ := quarterPaths_zone c hc
    rw [ht]
    refine chi_iff_any S.nx S.ny S.nz hx hy hz o.w hw h0 _ (fun x y z e1 e2 e3 => ?_) c h2 h3
    refine hrow (x, y, z) _ ?_ ⟨e1, e2, e3⟩
    rw [ht]
    exact Bz.at3_table _ _ _ _ _ _ _ e1 e2 e3
  constructor
  · intro h
    have h1 := (key _ (List.mem_cons_self : _ ∈ quarterPaths)).1 (h _ List.mem_cons_self)
    exact ⟨fun c hc => ((key c hc).1 (h c hc)).1, h1.2⟩
  · rintro ⟨h1, h2⟩ c hc
    exact (key c hc).2 ⟨h1 c hc, h2⟩

theorem drawOpt_iff {α β : Type} (x : Option α) (f : α → Option β) : (drawOpt x f).isSome ↔ ∀ a, x = some a → (f a).isSome := by
  cases x <;> simp [drawOpt]

/-- the shapes of the files of dga_max_ent.py -/
theorem maxEnt_shapes (S : Settings) (T : Tools) (newton : (ℝ → ℝ) → ℝ → Option ℂ) (d : Dict) (out : MainOut) (M : MaxEntPlan) (y : MaxEntOut)
    (h : maxEntMain S T newton d out M = some y) :
    (∀ o, y.s = some o → o.gwk.length = S.nx * S.ny * S.nz) ∧
    ∀ o, (y.g = some o ∨ y.d = some o ∨ y.m = some o) → ∃ l, l.length = S.nx * S.ny * S.nz ∧ o.mat = reshape3 l S.nx S.ny S.nz := by
  unfold maxEntMain at h
  rcases hn : numOf d.n with _ | n
  · rw [hn] at h; simp at h
  rcases hb : numOf d.beta with _ | beta
  · rw [hn, hb] at h; simp at h
  rcases hmp : fbz2irrk S.nx S.ny S.nz S.syms with _ | mp
  · rw [hn, hb, hmp] at h; simp at h
  rw [hn, hb, hmp] at h
  simp only [Option.bind_eq_some_iff, Option.map_eq_some_iff] at h
  obtain ⟨mu, -, g, -, s, hs, gg, hg, dd, hd, mm, hmm, rfl⟩ := h
  have gridLen : ∀ (K : Option (ContSet × Bool)) (mode name : String) (mat : List (List ℂ)) (r : Option GridOut),
      section_ K mode beta (fun c => (contGrid S (T.solve name) c (flat3 mp) (reshape3 mat S.nx S.ny S.nz)).map fun t => (⟨t, c.w⟩ : GridOut)) = some r →
      ∀ o, r = some o → ∃ l, l.length = S.nx * S.ny * S.nz ∧ o.mat = reshape3 l S.nx S.ny S.nz := by
    intro K mode name mat r hr o ho
    subst ho
    rcases K with _ | ⟨K, b⟩
    · simp [section_] at hr
    simp only [section_, Option.bind_eq_some_iff] at hr
    obtain ⟨c, -, hr⟩ := hr
    unfold ifAsked at hr
    cases b
    · simp at hr
    · simp only [if_true, Option.map_eq_some_iff] at hr
      obtain ⟨o', ⟨t, ht, rfl⟩, e⟩ := hr
      cases e
      obtain ⟨l, l1, l2, -⟩ := contGrid_shape mp hmp _ _ _ _ ht
      exact ⟨l, l1, l2⟩
  refine ⟨?_, ?_⟩
  · rintro o rfl
    rcases hK : M.s with _ | ⟨K, b⟩
    · rw [hK] at hs; simp [section_] at hs
    rw [hK] at hs
    simp only [section_, Option.bind_eq_some_iff] at hs
    obtain ⟨c, -, hr⟩ := hs
    unfold ifAsked at hr
    cases b
    · simp at hr
    · simp only [if_true, Option.map_eq_some_iff] at hr
      obtain ⟨o', ho, e⟩ := hr
      cases e
      unfold contSwk at ho
      simp only [Option.bind_eq_some_iff, Option.map_eq_some_iff] at ho
      obtain ⟨t, -, r, -, last, -, q, -, h', -, rfl⟩ := ho
      simp [getGwk, bandOf_length]
  · rintro o (ho | ho | ho)
    · exact gridLen _ _ _ _ _ hg o ho
    · exact gridLen _ _ _ _ _ hd o ho
    · exact gridLen _ _ _ _ _ hmm o ho

theorem boseCont_length (solve : Ana.Solver) (beta : ℝ) (w : List ℝ) (n N : Nat) (F : Int → ℂ)
    (hs : ∀ im w data model A, solve im w data model = some A → A.length = w.length) : (orZeros w (boseCont solve beta w n N F)).length = w.length := by
  unfold orZeros boseCont
  rcases h : solve (bfreqs beta n) w (valsAt (n + 1) F) (flatModel w (F (-(N : Int))).re) with _ | A
  · simp
  · simpa using hs _ _ _ _ _ h

/-- all the figures of dga_max_ent.py, once it has returned -/
theorem drawAll_iff (S : Settings) [NeZero S.nx] [NeZero S.ny] [NeZero S.nz] (y : MaxEntOut) (hs : ∀ o, y.s = some o → o.gwk.length = S.nx * S.ny * S.nz ∧ o.w.Pairwise (· < ·))
    (hc : ∀ o, (y.d = some o ∨ y.m = some o) → (∃ l, l.length = S.nx * S.ny * S.nz ∧ o.mat = reshape3 l S.nx S.ny S.nz) ∧
      (∀ p r, Bz.at3 o.mat p.1 p.2.1 p.2.2 = some r → InGrid S.nx S.ny S.nz p → r.length = o.w.length) ∧ o.w.Pairwise (· < ·) ∧ ∀ x ∈ o.w, 0 ≤ x) :
    (drawAll S y).isSome ↔ GridFits S (y.s.isSome ∨ y.d.isSome ∨ y.m.isSome) ∧
      (∀ o, y.s = some o → (∃ x ∈ o.w, -2 < x ∧ x < 2) ∧ 3 ≤ o.w.length) ∧ ∀ o, (y.d = some o ∨ y.m = some o) → 2 ≤ o.w.length := by
  have hx : 0 < S.nx := Nat.pos_of_ne_zero (NeZero.ne _)
  have hy : 0 < S.ny := Nat.pos_of_ne_zero (NeZero.ne _)
  have hz : 0 < S.nz := Nat.pos_of_ne_zero (NeZero.ne _)
  have hp := prepare_iff S.nx S.ny S.nz hx hy hz
  unfold drawAll GridFits
  rcases h : preparePaths (S.nx, S.ny, S.nz) with _ | ps
  · rw [h] at hp
    simp only [Option.isSome_none, Bool.false_eq_true, false_iff] at hp
    simp only [Option.bind_none, Option.isSome_none, Bool.false_eq_true, false_iff]
    exact fun hh => hp hh.1.1
  · have hps := prepared _ _ h
    subst hps
    rw [h] at hp
    have hq := hp.1 rfl
    have k1 : (drawOpt y.s (drawSwk S quarterPaths)).isSome ↔ ∀ o, y.s = some o → 2 ≤ S.nx ∧ (∃ x ∈ o.w, -2 < x ∧ x < 2) ∧ 3 ≤ o.w.length := by
      rw [drawOpt_iff]
      exact forall_congr' fun o => imp_congr_right fun ho => drawSwk_iff S hx hy hz hq o (hs o ho).1 (hs o ho).2
    have k2 : ∀ x : Option GridOut, (x = y.d ∨ x = y.m) → ((drawOpt x (drawChi S quarterPaths)).isSome ↔ ∀ o, x = some o → 2 ≤ S.nx ∧ 2 ≤ o.w.length) := by
      intro x hxx
      rw [drawOpt_iff]
      refine forall_congr' fun o => imp_congr_right fun ho => ?_
      obtain ⟨⟨l, l1, l2⟩, c2, c3, c4⟩ := hc o (by rcases hxx with rfl | rfl <;> simp [ho])
      exact drawChi_iff S hx hy hz hq o l l1 l2 c2 c3 c4
    have k3 := k2 y.d (Or.inl rfl)
    have k4 := k2 y.m (Or.inr rfl)
    have hall : ((some quarterPaths).bind fun ps => (drawOpt y.s (drawSwk S ps)).bind fun s => (drawOpt y.d (drawChi S ps)).bind fun d =>
        (drawOpt y.m (drawChi S ps)).map fun m => (⟨s, d, m⟩ : Drawn)).isSome ↔
        (drawOpt y.s (drawSwk S quarterPaths)).isSome ∧ (drawOpt y.d (drawChi S quarterPaths)).isSome ∧ (drawOpt y.m (drawChi S quarterPaths)).isSome := by
      rw [Option.bind_some]
      rcases drawOpt y.s (drawSwk S quarterPaths) with _ | a <;> rcases drawOpt y.d (drawChi S quarterPaths) with _ | b <;>
        rcases drawOpt y.m (drawChi S quarterPaths) with _ | c <;> simp
    rw [hall, k1, k3, k4]
    constructor
    · rintro ⟨a1, a2, a3⟩
      refine ⟨⟨hq, ?_⟩, fun o ho => (a1 o ho).2, ?_⟩
      · rintro (hh | hh | hh) <;> obtain ⟨o, ho⟩ := Option.isSome_iff_exists.1 hh
        · exact (a1 o ho).1
        · exact (a2 o ho).1
        · exact (a3 o ho).1
      · rintro o (ho | ho)
        · exact (a2 o ho).2
        · exact (a3 o ho).2
    · rintro ⟨⟨-, b1⟩, b2, b3⟩
      exact ⟨fun o ho => ⟨b1 (Or.inl (by simp [ho])), b2 o ho⟩, fun o ho => ⟨b1 (Or.inr (Or.inl (by simp [ho]))), b3 o (Or.inl ho)⟩,
        fun o ho => ⟨b1 (Or.inr (Or.inr (by simp [ho]))), b3 o (Or.inr ho)⟩⟩

variable {fs : Fs} {ty path f1 : String} {f2 : Option String} {S : Settings} [NeZero S.nx] [NeZero S.ny] [NeZero S.nz]
variable (I : Files fs ty path f1 f2 S)

include I in
/-- **C151 (a).** A run with continuations and figures returns exactly if the run without figures does and, if dga_max_ent.py is part of it, half the number of momenta along y (rounded half to
    even) is smaller than the number along x, there are two momenta along x if the self-energy or a susceptibility was continued, the mesh of the self-energy has three frequencies and one
    in (-2, 2), and those of the susceptibilities have two — on increasing meshes, and with an optimiser that returns a value per frequency.  What it returns is the same. -/
theorem drawn_iff (hfit : I.w ≤ I.sh + I.as) (P : Plan) (saveFq : Bool) (F : Option (Nat × Nat)) (fit : Fitter) (C : ContPlan) (T : Tools) (X : Chance S.nx S.ny S.nz)
    (hd : FillsMesh T "chi_d") (hm : FillsMesh T "chi_m") (hmesh : ∀ M K b w, C.maxEnt = some M →
      (M.s = some (K, b) → MeshIs K false w → w.Pairwise (· < ·)) ∧ ((M.d = some (K, b) ∨ M.m = some (K, b)) → MeshIs K true w → w.Pairwise (· < ·) ∧ ∀ x ∈ w, 0 ≤ x))
    (x : OneOut S.nx S.ny S.nz) (fits : Option PolyFits) (c : ContsOut) :
    (∃ figs, mainDrawn fs ty path f1 f2 S P saveFq F fit C T X = .ok (x, fits, c, figs)) ↔
      mainConts fs ty path f1 f2 S P saveFq F fit C T X = .ok (x, fits, c) ∧
      ∀ y, c.maxEnt = some y → GridFits S (y.s.isSome ∨ y.d.isSome ∨ y.m.isSome) ∧
        (∀ o, y.s = some o → (∃ x ∈ o.w, -2 < x ∧ x < 2) ∧ 3 ≤ o.w.length) ∧ ∀ o, (y.d = some o ∨ y.m = some o) → 2 ≤ o.w.length := by
  unfold mainDrawn
  rcases h : mainConts fs ty path f1 f2 S P saveFq F fit C T X with e | ⟨x', fits', c'⟩
  · simp
  simp only
  have hval := conts_values I hfit P saveFq F fit C T X x' fits' c' h
  have key : (drawOpt c'.maxEnt (drawAll S)).isSome ↔ ∀ y, c'.maxEnt = some y → GridFits S (y.s.isSome ∨ y.d.isSome ∨ y.m.isSome) ∧
        (∀ o, y.s = some o → (∃ x ∈ o.w, -2 < x ∧ x < 2) ∧ 3 ≤ o.w.length) ∧ ∀ o, (y.d = some o ∨ y.m = some o) → 2 ≤ o.w.length := by
    rw [drawOpt_iff]
    refine forall_congr' fun y => imp_congr_right fun hy => ?_
    rcases hval.2.2 with ⟨-, e⟩ | ⟨M, y', hM, hy', -, -, vs, -, vd, vm⟩
    · rw [e] at hy; cases hy
    rw [hy] at hy'
    cases hy'
    -- the shapes
    have hshape : (∀ o, y.s = some o → o.gwk.length = S.nx * S.ny * S.nz) ∧
        ∀ o, (y.g = some o ∨ y.d = some o ∨ y.m = some o) → ∃ l, l.length = S.nx * S.ny * S.nz ∧ o.mat = reshape3 l S.nx S.ny S.nz := by
      have h2 := ((conts_split I P saveFq F fit C T X x' fits' c').1 h).2
      unfold contsFrom at h2
      rw [Option.bind_eq_some_iff] at h2
      obtain ⟨cc, -, e2⟩ := h2
      rw [hM] at e2
      simp only [Option.map_map, Option.map_eq_some_iff] at e2
      obtain ⟨y1, hy1, rfl⟩ := e2
      simp only [Function.comp_apply, Option.some.injEq] at hy
      subst hy
      exact maxEnt_shapes S T X.newton I.d x'.main M y1 hy1
    refine drawAll_iff S y (fun o ho => ⟨hshape.1 o ho, ?_⟩) fun o ho => ⟨hshape.2 o (Or.inr ho), ?_⟩
    · rcases vs with ⟨-, e⟩ | ⟨K, b, w, e1, e2, ⟨-, e3⟩ | ⟨o', -, e3, e4, -⟩⟩
      · rw [e] at ho; cases ho
      · rw [e3] at ho; cases ho
      · rw [e3] at ho; cases ho
        rw [e4]
        exact (hmesh M K b w hM).1 e1 e2
    · rcases ho with ho | ho
      · rcases vd with ⟨-, e⟩ | ⟨K, b, w, e1, e2, ⟨-, e3⟩ | ⟨o', -, e3, e4, e5⟩⟩
        · rw [e] at ho; cases ho
        · rw [e3] at ho; cases ho
        · rw [e3] at ho; cases ho
          rw [e4]
          refine ⟨fun p r hr hp => ?_, (hmesh M K b w hM).2 (Or.inl e1) e2⟩
          rw [e5 p hp] at hr
          cases hr
          exact boseCont_length _ _ _ _ _ _ hd
      · rcases vm with ⟨-, e⟩ | ⟨K, b, w, e1, e2, ⟨-, e3⟩ | ⟨o', -, e3, e4, e5⟩⟩
        · rw [e] at ho; cases ho
        · rw [e3] at ho; cases ho
        · rw [e3] at ho; cases ho
          rw [e4]
          refine ⟨fun p r hr hp => ?_, (hmesh M K b w hM).2 (Or.inr e1) e2⟩
          rw [e5 p hp] at hr
          cases hr
          exact boseCont_length _ _ _ _ _ _ hm
  rcases hdr : drawOpt c'.maxEnt (drawAll S) with _ | figs
  · rw [hdr] at key
    simp only [Option.isSome_none, Bool.false_eq_true, false_iff] at key
    constructor
    · rintro ⟨f, hf⟩
      simp at hf
    · rintro ⟨h1, h2⟩
      simp only [Except.ok.injEq, Prod.mk.injEq] at h1
      obtain ⟨rfl, rfl, rfl⟩ := h1
      exact absurd h2 key
  · rw [hdr] at key
    have := key.1 rfl
    simp only [Except.ok.injEq, Prod.mk.injEq]
    constructor
    · rintro ⟨f, rfl, rfl, rfl, rfl⟩
      exact ⟨⟨rfl, rfl, rfl⟩, this⟩
    · rintro ⟨⟨rfl, rfl, rfl⟩, -⟩
      exact ⟨figs, rfl, rfl, rfl, rfl⟩


omit [NeZero S.nx] [NeZero S.ny] [NeZero S.nz] in
theorem named_mesh (K : ContSet) (hk : Named K) (a b : ℝ) (hab : a < b) (n : Nat) (hn : 2 ≤ n) (w : List ℝ) (h : Ana.getWMesh K.mesh a b n K.cut = some w) : Ana.IsMesh a b n w := by
  rcases hk with hk | ⟨hk, c, hc, h0, h1⟩
  · simp only [List.mem_cons, List.not_mem_nil, or_false] at hk
    obtain ⟨m, hm, hi⟩ := Ana.mesh_valid K.mesh (by rcases hk with hk | hk | hk <;> rw [hk] <;> simp) a b hab n hn (1 / 4) (by norm_num) (by norm_num)
    have : Ana.getWMesh K.mesh a b n K.cut = Ana.getWMesh K.mesh a b n (some (1 / 4)) := by rcases hk with hk | hk | hk <;> rw [hk] <;> simp [Ana.getWMesh]
    rw [this, hm] at h
    cases h
    exact hi
  · obtain ⟨m, hm, hi⟩ := Ana.mesh_valid K.mesh (by rw [hk]; simp) a b hab n hn c h0 h1
    rw [hc, hm] at h
    cases h
    exact hi

theorem symmetric_ok (K : ContSet) (h : SymmetricMesh K) (w : List ℝ) (hw : MeshIs K false w) : w.Pairwise (· < ·) ∧ (∃ x ∈ w, -2 < x ∧ x < 2) ∧ 3 ≤ w.length := by
  obtain ⟨hk, hsym, hpos, n, hn, hodd⟩ := h
  unfold MeshIs at hw
  simp only [Bool.false_eq_true, if_false] at hw
  have hi := named_mesh K hk _ _ (by linarith) _ (by omega) w hw
  obtain ⟨f, hf, -, -, hm⟩ := Optics.kinds_odd K.mesh K.wmax hpos n hn K.cut hk
  rw [hsym, hodd, hm] at hw
  cases hw
  refine ⟨hi.2.2.2, ⟨0, ?_, by norm_num, by norm_num⟩, by rw [hi.1]; omega⟩
  unfold Optics.meshOf
  rw [List.mem_map]
  exact ⟨n, List.mem_range.2 (by omega), by rw [sub_self]; exact hf.zero⟩

theorem positive_ok (K : ContSet) (h : PositiveMesh K) (w : List ℝ) (hw : MeshIs K true w) : w.Pairwise (· < ·) ∧ (∀ x ∈ w, 0 ≤ x) ∧ 2 ≤ w.length := by
  obtain ⟨hk, hpos, hlt, hn⟩ := h
  unfold MeshIs at hw
  rw [if_pos rfl] at hw
  obtain ⟨h1, h2, -, h4⟩ := named_mesh K hk _ _ (max_lt hlt hpos) _ hn w hw
  refine ⟨h4, ?_, by omega⟩
  rcases w with _ | ⟨a, t⟩
  · simp
  · simp only [List.head?_cons, Option.some.injEq] at h2
    have ha : 0 ≤ a := by rw [h2]; exact le_max_right _ _
    intro x hx
    rcases List.mem_cons.1 hx with rfl | hx
    · exact ha
    · exact ha.trans (List.rel_of_pairwise_cons h4 hx).le

omit [NeZero S.nx] [NeZero S.ny] [NeZero S.nz] in
theorem section_made_iff {α : Type} (K : Option (ContSet × Bool)) (bosonic : Bool) (y : Option α) (Q : ContSet → List ℝ → α → Prop) (h : SectionAs K bosonic y Q) :
    y.isSome = true ↔ ∃ K0, K = some (K0, true) := by
  rcases h with ⟨rfl, rfl⟩ | ⟨K0, b, w, rfl, -, ⟨rfl, rfl⟩ | ⟨o, rfl, rfl, -⟩⟩ <;> simp

include I in
/-- **C151 (b).** With named meshes — for the self-energy from `-wmax` to `wmax` with an odd number of points — only the grid matters: the run gets through its figures exactly if half the number of
    momenta along y, rounded half to even, is smaller than the number along x, and there are two along x if the self-energy or a susceptibility is continued. -/
theorem drawn_named (hfit : I.w ≤ I.sh + I.as) (P : Plan) (saveFq : Bool) (F : Option (Nat × Nat)) (fit : Fitter) (C : ContPlan) (T : Tools) (X : Chance S.nx S.ny S.nz)
    (hd : FillsMesh T "chi_d") (hm : FillsMesh T "chi_m") (hmesh : ∀ M K b, C.maxEnt = some M →
      (M.s = some (K, b) → SymmetricMesh K) ∧ ((M.d = some (K, b) ∨ M.m = some (K, b)) → PositiveMesh K))
    (x : OneOut S.nx S.ny S.nz) (fits : Option PolyFits) (c : ContsOut) :
    (∃ figs, mainDrawn fs ty path f1 f2 S P saveFq F fit C T X = .ok (x, fits, c, figs)) ↔
      mainConts fs ty path f1 f2 S P saveFq F fit C T X = .ok (x, fits, c) ∧
      ∀ M, C.maxEnt = some M → GridFits S (∃ K, M.s = some (K, true) ∨ M.d = some (K, true) ∨ M.m = some (K, true)) := by
  rw [drawn_iff I hfit P saveFq F fit C T X hd hm (fun M K b w hM => ⟨fun hK hw => (symmetric_ok K ((hmesh M K b hM).1 hK) w hw).1,
    fun hK hw => ⟨(positive_ok K ((hmesh M K b hM).2 hK) w hw).1, (positive_ok K ((hmesh M K b hM).2 hK) w hw).2.1⟩⟩)]
  refine and_congr_right fun h => ?_
  have hval := conts_values I hfit P saveFq F fit C T X x fits c h
  rcases hval.2.2 with ⟨e1, e2⟩ | ⟨M, y, hM, hy, -, -, vs, -, vd, vm⟩
  · rw [e1, e2]; simp
  rw [hM, hy]
  simp only [Option.some.injEq, forall_eq']
  have hiff : (y.s.isSome ∨ y.d.isSome ∨ y.m.isSome) ↔ ∃ K, M.s = some (K, true) ∨ M.d = some (K, true) ∨ M.m = some (K, true) := by
    rw [section_made_iff _ _ _ _ vs, section_made_iff _ _ _ _ vd, section_made_iff _ _ _ _ vm, exists_or, exists_or]
  unfold GridFits
  rw [hiff]
  refine and_iff_left ⟨fun o ho => ?_, ?_⟩
  · rcases vs with ⟨-, e⟩ | ⟨K, b, w, e1, e2, ⟨-, e3⟩ | ⟨o', -, e3, e4, -⟩⟩
    · rw [e] at ho; cases ho
    · rw [e3] at ho; cases ho
    · rw [e3] at ho; cases ho
      rw [e4]
      exact (symmetric_ok K ((hmesh M K b hM).1 e1) w e2).2
  · rintro o (ho | ho)
    · rcases vd with ⟨-, e⟩ | ⟨K, b, w, e1, e2, ⟨-, e3⟩ | ⟨o', -, e3, e4, -⟩⟩
      · rw [e] at ho; cases ho
      · rw [e3] at ho; cases ho
      · rw [e3] at ho; cases ho
        rw [e4]
        exact (positive_ok K ((hmesh M K b hM).2 (Or.inl e1)) w e2).2.2
    · rcases vm with ⟨-, e⟩ | ⟨K, b, w, e1, e2, ⟨-, e3⟩ | ⟨o', -, e3, e4, -⟩⟩
      · rw [e] at ho; cases ho
      · rw [e3] at ho; cases ho
      · rw [e3] at ho; cases ho
        rw [e4]
        exact (positive_ok K ((hmesh M K b hM).2 (Or.inr e1)) w e2).2.2

omit [NeZero S.nx] [NeZero S.ny] [NeZero S.nz] in
/-- **C151 (c).** On a grid with an even number of at least `2 nx` momenta along y a run that asks for the maximum-entropy program never gets to its end, whatever the files, settings and
    random numbers — also if nothing is continued. -/
theorem never_drawn [NeZero S.nx] [NeZero S.ny] [NeZero S.nz] (P : Plan) (saveFq : Bool) (F : Option (Nat × Nat)) (fit : Fitter) (C : ContPlan) (T : Tools) (X : Chance S.nx S.ny S.nz) (M : MaxEntPlan) (hM : C.maxEnt = some M)
    (heven : S.ny % 2 = 0) (hle : 2 * S.nx ≤ S.ny) : ¬ ∃ r, mainDrawn fs ty path f1 f2 S P saveFq F fit C T X = .ok r := by
  rintro ⟨r, hr⟩
  unfold mainDrawn at hr
  rcases h : mainConts fs ty path f1 f2 S P saveFq F fit C T X with e | ⟨x, fits, c⟩
  · rw [h] at hr; simp at hr
  rw [h] at hr
  have hc : ∃ y, c.maxEnt = some y := by
    unfold mainConts at h
    rcases h1 : load1p fs ty path f1 f2 with _ | d
    · rw [h1] at h; simp at h
    rw [h1] at h
    simp only at h
    rcases h2 : mainPoly fs ty path f1 f2 S P saveFq F fit X with e | ⟨x', fits'⟩
    · rw [h2] at h; simp at h
    rw [h2] at h
    simp only at h
    rcases h3 : contsFrom S C T X.newton d x'.main x'.optics with _ | c'
    · rw [h3] at h; simp at h
    rw [h3] at h
    simp only [Except.ok.injEq, Prod.mk.injEq] at h
    obtain ⟨-, -, rfl⟩ := h
    unfold contsFrom at h3
    rw [Option.bind_eq_some_iff] at h3
    obtain ⟨cc, -, h3⟩ := h3
    rw [hM] at h3
    simp only [Option.map_map, Option.map_eq_some_iff] at h3
    obtain ⟨y, -, rfl⟩ := h3
    exact ⟨y, rfl⟩
  obtain ⟨y, hy⟩ := hc
  have hp := (prepare_raises S.nx S.ny S.nz (Nat.pos_of_ne_zero (NeZero.ne _)) (Nat.pos_of_ne_zero (NeZero.ne _)) (Nat.pos_of_ne_zero (NeZero.ne _))).1 heven hle
  simp only [hy, drawOpt, drawAll, hp, Option.bind_none, Option.map_none] at hr
  cases hr

/-- **C151 (d).** What is drawn for the self-energy: for each of the five paths two figures with the same image, in the window (-2, 2) and in that of the whole mesh; at each point of the path the image
    holds minus the imaginary part of the saved real-frequency Green's function of its grid point, over π. -/
theorem drawn_values (S : Settings) (hx : 0 < S.nx) (hy : 0 < S.ny) (hz : 0 < S.nz) (o : SwkOut) (hl : o.gwk.length = S.nx * S.ny * S.nz) (figs : List (DispFig × DispFig))
    (h : drawSwk S quarterPaths o = some figs) : figs.length = 5 ∧ ∀ (i : Nat) (c : List (V3 ℝ)) (a b : DispFig), quarterPaths[i]? = some c → figs[i]? = some (a, b) →
      a.window = (-2, 2) ∧ (some b.window.1 = o.w.head? ∧ some b.window.2 = o.w.getLast?) ∧ ∃ pts, RunsThrough (S.nx, S.ny, S.nz) c pts ∧ b.image = a.image ∧
        a.image = pts.map fun (p : V3 ℤ) =>
          (o.gwk.getD (linP S.ny S.nz ((p.1 % S.nx).toNat, (p.2.1 % S.ny).toNat, (p.2.2 % S.nz).toNat)) []).map fun (z : ℂ) => -z.im / Real.pi := by
  unfold drawSwk at h
  obtain ⟨l1, l2⟩ := DGA.Mf.mapM_getElem? _ _ _ h
  refine ⟨by rw [l1]; rfl, ?_⟩
  intro i c a b hc hab
  obtain ⟨h2, h3⟩ := quarterPaths_zone c (List.mem_of_getElem? hc)
  have e := l2 i c hc
  rw [hab, reshape_table _ _ _ _ hl] at e
  rw [Option.bind_eq_some_iff] at e
  obtain ⟨a', ea, e⟩ := e
  rw [Option.map_eq_some_iff] at e
  obtain ⟨b', eb, e⟩ := e
  cases e
  obtain ⟨pts, hp, hm⟩ := rows_of S.nx S.ny S.nz hx hy hz (fun i j k => o.gwk.getD (lin S.ny S.nz i j k) []) c h2 h3
  have hmm := hm
  obtain ⟨w1, -, -, -⟩ := dispersion_value S.nx S.ny S.nz hx hy hz o.w _ c h2 h3 (-2) 2 a ea
  unfold dispersionFigure at ea eb
  simp only [some_or, Option.none_or, Option.bind_some, hm, Option.bind_eq_some_iff, Option.map_eq_some_iff] at ea eb
  obtain ⟨t, -, m, -, rfl⟩ := ea
  obtain ⟨lo, hlo, hi, hhi, t', -, m', -, rfl⟩ := eb
  refine ⟨w1, ⟨hlo.symm, hhi.symm⟩, pts, hp, rfl, ?_⟩
  simp only [List.map_map]
  rfl

/-! ### Concrete case: the run of C142 gets through its figures -/

open ContEx in
example : ∃ x fits c figs, mainDrawn ContEx.fs "test" "in/" "data.npy" none ContEx.S plan true none (fun _ _ _ _ => 0) theConts ContEx.T ContEx.X = .ok (x, fits, c, figs) := by
  have hT : ∀ name, FillsMesh ContEx.T name := by
    intro name im w data model A hA
    cases hA
    simp
  obtain ⟨x, fits, c, h, -⟩ := conts_return
  obtain ⟨figs, hf⟩ := (drawn_named theFiles (by decide) plan true none (fun _ _ _ _ => 0) theConts ContEx.T ContEx.X (hT _) (hT _) (by
    intro M K b hM
    cases hM
    have hn : Named ContEx.K := Or.inl (by simp [ContEx.K])
    refine ⟨?_, ?_⟩
    · intro hK
      cases hK
      exact ⟨hn, by norm_num [ContEx.K], by norm_num [ContEx.K], 2, by norm_num, rfl⟩
    · rintro (hK | hK) <;> cases hK <;> exact ⟨hn, by norm_num [ContEx.K], by norm_num [ContEx.K], by norm_num [ContEx.K]⟩) x fits c).2 ⟨h, by
    intro M hM
    refine ⟨?_, fun _ => by norm_num [ContEx.S]⟩
    show rint (1 / 2 * ((4 : ℕ) : ℝ)) < ((4 : ℕ) : ℤ)
    rw [show (1 / 2 * ((4 : ℕ) : ℝ)) = ((2 : ℤ) : ℝ) by norm_num, rint_int]
    norm_num⟩
  exact ⟨x, fits, c, figs, hf⟩

end DGA.Whole
