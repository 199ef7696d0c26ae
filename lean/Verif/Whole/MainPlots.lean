/-
  C152: when a complete run gets through the figures of the main program: src/dga/dga_main.py:83, 261-263, src/dga/plotting.py:58-79, 397-416,
  src/dga/local_four_point.py:178-182, src/dga/brillouin_zone.py:51-66, src/dga/dga_io.py:179, 224-247.

  Figures that never refuse their data (susceptibilities and self-energies over frequency, planes of the Brillouin zone, the Ornstein-Zernike fit, gap functions; the vertex
  planes of the optics folder have an entry `niv_vert` by C133 (a)) are not modelled.  matplotlib is described by what it refuses: `contour` needs two rows and two columns, `pcolormesh` a
  two-dimensional array that fits its axes (newer versions also draw a cube of 3 or 4 points as colours; this is not modelled).
-/
import Verif.Whole.ContsFigs
import Verif.Bz.Count

noncomputable section

namespace DGA.Whole

open DGA.Mf DGA.Bz DGA.Bubble DGA.Fp DGA.Two DGA.Inp DGA.Pipe DGA.Pairing DGA.Report DGA.Shared DGA.KPath
open DGA.RankFiles (Str)

/-! ### Model -/

/-- local_four_point.py:178-182 `LocalFourPoint.plot` with `niv = -1`: the array drawn (its real and imaginary part are the two panels); the assertion of line 179 -/
def planePlot (o : G2) (iwn : Int) : Option (List (List ℂ)) :=
  if iwn ∈ o.wn then (o.mat[o.wn.idxOf iwn]?).map fun p => Mf.cutV2 p (-1) else none

/-- plotting.py:58-63: `G2_dens_wn0`, `G2_magn_wn0`, `G2_magn_wn10`, `G2_magn_wn-10` -/
structure G2Plots where
  dens0 : List (List ℂ)
  magn0 : List (List ℂ)
  magnP : List (List ℂ)
  magnM : List (List ℂ)

/-- plotting.py:58-63 `default_g2_plots`; `default_gamma_plots` (72-79) asks for the same frequencies of objects with the same axis -/
def defaultG2 (gd gm : G2) : Option G2Plots :=
  (planePlot gd 0).bind fun a => (planePlot gm 0).bind fun b => (planePlot gm 10).bind fun c => (planePlot gm (-10)).map fun d => ⟨a, b, c, d⟩

/-- matplotlib: the lines along which an array `z[row][column]` is zero, as lists of points (column, row) -/
abbrev Contour := List (List ℝ) → List (List (ℝ × ℝ))

/-- `np.array(…, dtype=int)` of one number (language construct; used by brillouin_zone.py:65) -/
def truncR (x : ℝ) : Int := if 0 ≤ x then ⌊x⌋ else ⌈x⌉

/-- brillouin_zone.py:51-66 `find_zeros` of an array `[x, y]` -/
def findZeros (contour : Contour) (mat : List (List ℂ)) : Option (List (Int × Int)) :=
  let ny := (mat.head?.map List.length).getD 0
  let z := (List.range ny).map fun j => mat.map fun r => (r.getD j 0).re
  if ny < 2 ∨ mat.length < 2 then none else some ((contour z).flatten.map fun v => (truncR v.1, truncR v.2))

/-- dga_io.py:226-227 `g_full()[..., 0, niv_full][:nx // 2, :ny // 2]` -/
def gQuarter (S : Settings) (g : Gf) : Option (List (List ℂ)) :=
  ((reshape3 (gFullArr g.core g.asympt) S.nx S.ny S.nz).take (S.nx / 2)).mapM fun plane => (plane.take (S.ny / 2)).mapM fun line =>
    line.head?.bind fun r => Py.get? r g.nivFull

/-- the figure of the Green's function and that along the Fermi surface: the array of which the zeros are searched, the indices used, the points drawn (none if there are none
    to draw) -/
structure FermiFig where
  quarter : List (List ℂ)
  ind : List (Int × Int)
  points : Option (List (ℝ × ℝ))

/-- dga_io.py:224-247 `default_giwk_checks`: half of the points found are used; without any the `IndexError` is caught (233-236, 245-248) -/
def fermiFigure (S : Settings) (contour : Contour) (g : Gf) : Option FermiFig :=
  (gQuarter S g).bind fun m => (findZeros contour m).map fun zs =>
    let ind := zs.take (zs.length / 2)
    ⟨m, ind, if zs = [] then none else ind.mapM fun p => (Py.get? (Bz.kAxis Real.pi S.nx) p.1).bind fun x => (Py.get? (Bz.kAxis Real.pi S.ny) p.2).map fun y => (x, y)⟩

/-- plotting.py:400-416: the coefficients as drawn: axes of length one are dropped, the array is shifted over its first two axes, transposed and drawn over `kx` and `ky`.
    Result: the shape of the transposed array. -/
def extrapShape (nx ny nz : Nat) : Option (Nat × Nat) :=
  match [nx, ny, nz].filter fun n => n ≠ 1 with
  | [a, b] => if b = ny ∧ a = nx ∨ b + 1 = ny ∧ a + 1 = nx then some (b, a) else none
  | _ => none

/-- the figures of the main program -/
structure MainPlots where
  g2 : G2Plots
  extrap : Option (Nat × Nat)
  fermi : FermiFig

/-- dga_main.py:83, 96 (dga_io.py:179), 261-263, 283 for a run with the result `out`.  In the code each figure is drawn where its data are ready; whether the program gets to its end
    does not depend on this order. -/
def plotsFrom (S : Settings) (newton : (ℝ → ℝ) → ℝ → Option ℂ) (contour : Contour) (fits : Bool) (d : Dict) (gd gm : G2) (out : MainOut) : Option MainPlots :=
  (numOf d.n).bind fun n => (defaultG2 gd gm).bind fun a => (ifAsked fits (extrapShape S.nx S.ny S.nz)).bind fun e =>
    (gfMu newton out.sigma (bandOf S) n 0).bind fun mu => (newGf out.sigma (bandOf S) mu out.box.nivAsympt).bind fun g =>
      (fermiFigure S contour g).map fun f => ⟨a, e, f⟩

/-- dga_main.py:41-397 with the figures of the main program -/
def mainPlotted (fs : Fs) (ty path f1 : String) (f2 : Option String) (S : Settings) [NeZero S.nx] [NeZero S.ny] [NeZero S.nz] (P : Plan) (saveFq : Bool)
    (F : Option (Nat × Nat)) (fit : Fitter) (contour : Contour) (C : ContPlan) (T : Tools) (X : Chance S.nx S.ny S.nz) :
    Except String (OneOut S.nx S.ny S.nz × Option PolyFits × ContsOut × MainPlots) :=
  match load1p fs ty path f1 f2 with
  | none => .error "failed"
  | some d =>
    match buildG2 S.box S.symVVp d with
    | none => .error "failed"
    | some (_, gd, gm) =>
      match mainConts fs ty path f1 f2 S P saveFq F fit C T X with
      | .error e => .error e
      | .ok (x, fits, c) =>
        match plotsFrom S X.newton contour F.isSome d gd gm x.main with
        | none => .error "failed"
        | some p => .ok (x, fits, c, p)

/-! ### Specification -/

/-- the array holds, at row `i` and column `j`, the value at the fermionic frequencies `i - c` and `j - c` -/
def ShowsPlane (m : List (List ℂ)) (c : Nat) (F : Int → Int → ℂ) : Prop :=
  m = (List.range (2 * c)).map fun i : Nat => (List.range (2 * c)).map fun j : Nat => F ((i : Int) - c) ((j : Int) - c)

/-- what the figures need: ten bosonic frequencies, four momenta along x and y, and for the polynomial fits a two-dimensional grid -/
def PlotsFit (S : Settings) (w : Nat) (fits : Prop) : Prop := 10 ≤ w ∧ 4 ≤ S.nx ∧ 4 ≤ S.ny ∧ (fits → S.nz = 1)

/-! ### Theorems -/

theorem cutV2_square (c : Nat) (F : Nat → Nat → ℂ) : Mf.cutV2 ((List.range (2 * c)).map fun i => (List.range (2 * c)).map fun j => F i j) (-1) =
    (List.range (2 * c)).map fun i => (List.range (2 * c)).map fun j => F i j := by
  unfold Mf.cutV2
  rw [List.map_map]
  have : ((fun row : List ℂ => Mf.cutV row (-1)) ∘ fun i => (List.range (2 * c)).map fun j => F i j) = fun i => (List.range (2 * c)).map fun j => F i j := by
    funext i
    exact Mf.cutV_minus_one _ c (by simp)
  rw [this, Mf.cutV_minus_one _ c (by simp)]

/-- one plane of the two-particle data -/
theorem planePlot_value (ch : String) (w c : Nat) (F : Int → Int → Int → ℂ) (b u : ℂ) (iwn : Int) :
    (planePlot ⟨ch, tab w c F, b, u, none⟩ iwn).isSome = decide (-(w : Int) ≤ iwn ∧ iwn ≤ w) ∧ ∀ m, planePlot ⟨ch, tab w c F, b, u, none⟩ iwn = some m → ShowsPlane m c (F iwn) := by
  have hwn : NPoint.wn (⟨ch, tab w c F, b, u, none⟩ : G2) = wn w := by
    unfold NPoint.wn nFromMat tab
    simp only [List.length_map, List.length_range]
    congr 1
    omega
  by_cases h : -(w : Int) ≤ iwn ∧ iwn ≤ w
  · have hidx : (wn w).idxOf iwn = (iwn + w).toNat := by
      refine DGA.Shared.idx_of _ ?_ _ _ ?_
      · unfold wn Py.arange
        simp only [Bool.false_eq_true, if_false]
        refine List.Nodup.map ?_ List.nodup_range
        intro a b hab
        simpa using hab
      · rw [wn_get? _ _ (by omega)]
        congr 1
        omega
    have e : planePlot ⟨ch, tab w c F, b, u, none⟩ iwn = some ((List.range (2 * c)).map fun i : Nat => (List.range (2 * c)).map fun j : Nat => F iwn ((i : Int) - c) ((j : Int) - c)) := by
      unfold planePlot
      rw [hwn, if_pos ((mem_wn _ _).2 h), hidx]
      simp only [tab]
      rw [List.getElem?_map, List.getElem?_range (by omega)]
      simp only [Option.map_some, Option.some.injEq]
      rw [cutV2_square c fun i j => F (((iwn + w).toNat : Int) - w) ((i : Int) - c) ((j : Int) - c)]
      rw [show (((iwn + w).toNat : Int) - w) = iwn by omega]
    rw [e]
    refine ⟨by simp [h], ?_⟩
    rintro m hm
    cases hm
    rfl
  · have e : planePlot ⟨ch, tab w c F, b, u, none⟩ iwn = none := by
      unfold planePlot
      rw [hwn, if_neg fun hh => h ((mem_wn _ _).1 hh)]
    rw [e]
    exact ⟨by simp [h], by simp⟩

/-- the four planes -/
theorem defaultG2_iff (w c : Nat) (D M : Int → Int → Int → ℂ) (b u : ℂ) :
    ((defaultG2 ⟨"dens", tab w c D, b, u, none⟩ ⟨"magn", tab w c M, b, u, none⟩).isSome ↔ 10 ≤ w) ∧
    ∀ p, defaultG2 ⟨"dens", tab w c D, b, u, none⟩ ⟨"magn", tab w c M, b, u, none⟩ = some p →
      ShowsPlane p.dens0 c (D 0) ∧ ShowsPlane p.magn0 c (M 0) ∧ ShowsPlane p.magnP c (M 10) ∧ ShowsPlane p.magnM c (M (-10)) := by
  obtain ⟨a1, a2⟩ := planePlot_value "dens" w c D b u 0
  obtain ⟨b1, b2⟩ := planePlot_value "magn" w c M b u 0
  obtain ⟨c1, c2⟩ := planePlot_value "magn" w c M b u 10
  obtain ⟨d1, d2⟩ := planePlot_value "magn" w c M b u (-10)
  unfold defaultG2
  rcases e1 : planePlot ⟨"dens", tab w c D, b, u, none⟩ 0 with _ | p1 <;> rcases e2 : planePlot ⟨"magn", tab w c M, b, u, none⟩ 0 with _ | p2 <;>
    rcases e3 : planePlot ⟨"magn", tab w c M, b, u, none⟩ 10 with _ | p3 <;> rcases e4 : planePlot ⟨"magn", tab w c M, b, u, none⟩ (-10) with _ | p4 <;>
    rw [e1] at a1 a2 <;> rw [e2] at b1 b2 <;> rw [e3] at c1 c2 <;> rw [e4] at d1 d2 <;> simp at a1 b1 c1 d1 ⊢ <;> first | omega | skip
  exact ⟨by omega, a2 _ rfl, b2 _ rfl, c2 _ rfl, d2 _ rfl⟩

/-- the coefficients can be drawn exactly on two-dimensional grids -/
theorem extrapShape_iff (nx ny nz : Nat) (hx : 0 < nx) (hy : 0 < ny) (hz : 0 < nz) : (extrapShape nx ny nz).isSome ↔ nz = 1 ∧ 2 ≤ nx ∧ 2 ≤ ny := by
  unfold extrapShape
  by_cases h1 : nx = 1 <;> by_cases h2 : ny = 1 <;> by_cases h3 : nz = 1 <;> simp [h1, h2, h3] <;> omega

theorem take_map_range {α : Type} (n m : Nat) (f : Nat → α) (h : m ≤ n) : ((List.range n).map f).take m = (List.range m).map f := by
  rw [← List.map_take, List.take_range, Nat.min_eq_left h]

/-- the array searched for zeros -/
theorem gQuarter_value (S : Settings) (hz : 0 < S.nz) (g : Gf) (n : Nat) (hn : 0 < n) (h1 : g.nivFull = n) (G : Nat → Nat → Nat → Int → ℂ)
    (h2 : reshape3 (gFullArr g.core g.asympt) S.nx S.ny S.nz = table S.nx S.ny S.nz fun i j k => samplesF (G i j k) n) :
    gQuarter S g = some ((List.range (S.nx / 2)).map fun i => (List.range (S.ny / 2)).map fun j => G i j 0 0) := by
  unfold gQuarter
  rw [h2]
  unfold table
  rw [take_map_range _ _ _ (Nat.div_le_self _ _)]
  have row : ∀ i, (((List.range S.ny).map fun j => (List.range S.nz).map fun k => samplesF (G i j k) n).take (S.ny / 2)).mapM
      (fun line => line.head?.bind fun r => Py.get? r g.nivFull) = some ((List.range (S.ny / 2)).map fun j => G i j 0 0) := by
    intro i
    rw [take_map_range _ _ _ (Nat.div_le_self _ _), List.mapM_map]
    refine Mf.mapM_some _ _ _ ?_
    intro j _
    obtain ⟨k, hk⟩ := Nat.exists_eq_succ_of_ne_zero hz.ne'
    simp only [Function.comp_apply, hk, List.range_succ_eq_map, List.map_cons, List.head?_cons, Option.bind_some, h1]
    show Py.get? (samplesF (G i j 0) n) (n : Int) = _
    unfold Py.get?
    rw [if_neg (by omega), Int.toNat_natCast, samplesF_get? _ _ _ (by omega), sub_self]
  rw [List.mapM_map]
  exact Mf.mapM_some _ _ _ fun i _ => by rw [Function.comp_apply, row i]

/-- the zeros are found exactly if there are two rows and two columns -/
theorem findZeros_iff (contour : Contour) (a b : Nat) (f : Nat → Nat → ℂ) :
    findZeros contour ((List.range a).map fun i => (List.range b).map fun j => f i j) =
      if 2 ≤ a ∧ 2 ≤ b then some ((contour ((List.range b).map fun j => (List.range a).map fun i => (f i j).re)).flatten.map fun v => (truncR v.1, truncR v.2)) else none := by
  unfold findZeros
  rcases a with _ | a
  · simp
  have hb : ((((List.range (a + 1)).map fun i => (List.range b).map fun j => f i j).head?).map List.length).getD 0 = b := by
    rw [List.range_succ_eq_map]
    simp
  simp only [hb, List.length_map, List.length_range]
  by_cases h : 2 ≤ a + 1 ∧ 2 ≤ b
  · rw [if_neg (by omega), if_pos h]
    congr 4
    apply List.map_congr_left
    intro j hj
    rw [List.mem_range] at hj
    rw [List.map_map]
    apply List.map_congr_left
    intro i _
    simp [List.getD_eq_getElem?_getD, List.getElem?_range hj]
  · rw [if_pos (by omega), if_neg h]

variable {fs : Fs} {ty path f1 : String} {f2 : Option String} {S : Settings} [NeZero S.nx] [NeZero S.ny] [NeZero S.nz]
variable (I : Files fs ty path f1 f2 S)

include I in
/-- the Green's function of the run in the figures: Dyson's with the final self-energy, at the first positive frequency -/
theorem fermi_value (a : Nat) (ha : I.as ≤ a) (out : MainOut) (mu : ℝ)
    (hcalc : calcFrom (withAs S a) (I.enlarge a ha).d ⟨(I.enlarge a ha).w, (I.enlarge a ha).c, (I.enlarge a ha).sh, (I.enlarge a ha).as⟩
        ((I.enlarge a ha).obj "dens" (I.enlarge a ha).D) ((I.enlarge a ha).obj "magn" (I.enlarge a ha).M) = .ok out) :
    out.box.nivAsympt = a ∧ ∃ g, newGf out.sigma (bandOf S) mu out.box.nivAsympt = some g ∧
      gQuarter S g = some ((List.range (S.nx / 2)).map fun i => (List.range (S.ny / 2)).map fun j => dyson S I.beta mu (sigmaAt S out.sigma) i j 0 0) := by
  have hz : 0 < S.nz := Nat.pos_of_ne_zero (NeZero.ne _)
  have hbox : out.box = ⟨(I.enlarge a ha).w, (I.enlarge a ha).c, (I.enlarge a ha).sh, (I.enlarge a ha).as⟩ := by
    apply (I.enlarge a ha).box_of
    rw [(I.enlarge a ha).mainRun_eq]
    exact hcalc
  have hboxa : out.box.nivAsympt = a := by rw [hbox]; rfl
  obtain ⟨Sig, -, -, hsig, hbeta, hcore⟩ := @Files.calc_sigma _ _ _ _ _ (withAs S a) (I.enlarge a ha) _ _ _ out hcalc
  have hlen : out.sigma.sigma.length = S.nx * S.ny * S.nz := by rw [hsig, flat3_table]; simp
  have hrow : ∀ r ∈ out.sigma.sigma, out.sigma.nivCore ≤ r.length := by
    rw [hsig, hcore, flat3_table]
    intro r hr
    rw [List.mem_map] at hr
    obtain ⟨l, _, rfl⟩ := hr
    simp
  obtain ⟨g, hg, hg1, hg2⟩ := newGf_full S out.sigma hlen hrow mu (a : Int)
  have hK : 0 < nK out.sigma (bandOf S) := by
    unfold nK
    rw [bandOf_length, hlen]
    split_ifs <;> exact nk_pos
  have hstate : g.nivFull = ((I.c + I.sh + a : Nat) : Int) := by
    obtain ⟨as, e, -⟩ := newGf_state out.sigma (bandOf S) mu (a : Int) (Or.inl (by rw [bandOf_length, hlen])) hrow hK
    rw [hg] at e
    cases e
    show (out.sigma.nivCore : Int) + a = _
    rw [hcore]
    push_cast
    rfl
  refine ⟨hboxa, g, by rw [hboxa]; exact hg, ?_⟩
  refine gQuarter_value S hz g (I.c + I.sh + a) (by have := I.c_pos; omega) hstate (fun i j k => dyson S I.beta mu (sigmaAt S out.sigma) i j k) ?_
  rw [hg1, hcore, Int.toNat_natCast]
  apply table_congr
  intro i j k hi hj hk
  rw [gOpt_dyson S out.sigma hlen mu i j k hi hj hk, hbeta]
  rfl

include I in
/-- **C152 (a).** A run gets through the figures of the main program exactly if the run without them returns, its box has ten bosonic frequencies, the grid four momenta along x and four
    along y and, if polynomial fits are asked for, one along z.  What it returns is the same. -/
theorem plotted_iff (P : Plan) (saveFq : Bool) (F : Option (Nat × Nat)) (fit : Fitter) (contour : Contour) (C : ContPlan) (T : Tools) (X : Chance S.nx S.ny S.nz)
    (x : OneOut S.nx S.ny S.nz) (fits : Option PolyFits) (c : ContsOut) :
    (∃ p, mainPlotted fs ty path f1 f2 S P saveFq F fit contour C T X = .ok (x, fits, c, p)) ↔
      mainConts fs ty path f1 f2 S P saveFq F fit C T X = .ok (x, fits, c) ∧ PlotsFit S I.w (F ≠ none) := by
  have hx : 0 < S.nx := Nat.pos_of_ne_zero (NeZero.ne _)
  have hy : 0 < S.ny := Nat.pos_of_ne_zero (NeZero.ne _)
  have hz : 0 < S.nz := Nat.pos_of_ne_zero (NeZero.ne _)
  unfold mainPlotted
  rw [I.load]
  simp only [I.build]
  rcases h : mainConts fs ty path f1 f2 S P saveFq F fit C T X with e | ⟨x', fits', c'⟩
  · simp
  simp only
  obtain ⟨h1, -⟩ := (conts_split I P saveFq F fit C T X x' fits' c').1 h
  obtain ⟨h2, -⟩ := (poly_iff I P saveFq F fit X x').1 ⟨_, h1⟩
  obtain ⟨a, ha, o, mu, -, hmu, hcalc⟩ := one_parts I P saveFq X x' h2
  obtain ⟨-, g, hg, hq⟩ := fermi_value I a ha x'.main mu hcalc
  have key : (plotsFrom S X.newton contour F.isSome I.d ⟨"dens", tab I.w I.c (used S.symVVp I.D), (I.beta : ℂ), (I.u : ℂ), none⟩
      ⟨"magn", tab I.w I.c (used S.symVVp I.M), (I.beta : ℂ), (I.u : ℂ), none⟩ x'.main).isSome ↔ PlotsFit S I.w (F ≠ none) := by
    unfold plotsFrom PlotsFit
    rw [I.d_n]
    simp only [numOf, Complex.ofReal_re, Option.bind_some, hmu, hg]
    have e1 := (defaultG2_iff I.w I.c (used S.symVVp I.D) (used S.symVVp I.M) (I.beta : ℂ) (I.u : ℂ)).1
    have e2 := extrapShape_iff S.nx S.ny S.nz hx hy hz
    have e3 : (fermiFigure S contour g).isSome ↔ 2 ≤ S.nx / 2 ∧ 2 ≤ S.ny / 2 := by
      unfold fermiFigure
      rw [hq, Option.bind_some, findZeros_iff, Option.isSome_map]
      split_ifs with hh <;> simp [hh]
    rcases p1 : defaultG2 ⟨"dens", tab I.w I.c (used S.symVVp I.D), (I.beta : ℂ), (I.u : ℂ), none⟩
      ⟨"magn", tab I.w I.c (used S.symVVp I.M), (I.beta : ℂ), (I.u : ℂ), none⟩ with _ | g2
    · rw [p1] at e1
      simp only [Option.isSome_none, Bool.false_eq_true, false_iff] at e1
      simp only [Option.bind_none, Option.isSome_none, Bool.false_eq_true, false_iff]
      exact fun hh => e1 hh.1
    · rw [p1] at e1
      have hw := e1.1 rfl
      rw [Option.bind_some]
      rcases F with _ | F0
      · simp only [Option.isSome_none, ifAsked, Bool.false_eq_true, if_false, Option.bind_some, Option.isSome_map, ne_eq, not_true_eq_false, false_implies, and_true]
        rw [e3]
        omega
      · rcases p2 : extrapShape S.nx S.ny S.nz with _ | sh
        · rw [p2] at e2
          simp only [Option.isSome_none, Bool.false_eq_true, false_iff] at e2
          simp [ifAsked]
          intro _ _ _
          omega
        · rw [p2] at e2
          have := e2.1 rfl
          simp only [Option.isSome_some, ifAsked, if_true, Option.map_some, Option.bind_some, Option.isSome_map]
          rw [e3]
          simp
          omega
  show (∃ p, (match plotsFrom S X.newton contour F.isSome I.d _ _ x'.main with
    | none => Except.error "failed"
    | some p => Except.ok (x', fits', c', p)) = Except.ok (x, fits, c, p)) ↔ _
  rcases hp : plotsFrom S X.newton contour F.isSome I.d ⟨"dens", tab I.w I.c (used S.symVVp I.D), (I.beta : ℂ), (I.u : ℂ), none⟩
      ⟨"magn", tab I.w I.c (used S.symVVp I.M), (I.beta : ℂ), (I.u : ℂ), none⟩ x'.main with _ | p
  · rw [hp] at key
    simp only [Option.isSome_none, Bool.false_eq_true, false_iff] at key
    simp [key]
  · rw [hp] at key
    have := key.1 rfl
    simp [this]

include I in
/-- **C152 (b).** What is drawn: the planes of the two-particle Green's functions used in the run at the frequencies 0, 0, 10 and -10, in the core box; for the Fermi surface, zeros of the real
    part of Dyson's Green's function with the final self-energy at the first positive frequency, searched where both momenta are below π (`z[j][i]` belongs to `(2 π i / nx, 2 π j / ny)`),
    and of the points found the first half. -/
theorem plotted_values (P : Plan) (saveFq : Bool) (F : Option (Nat × Nat)) (fit : Fitter) (contour : Contour) (C : ContPlan) (T : Tools) (X : Chance S.nx S.ny S.nz)
    (x : OneOut S.nx S.ny S.nz) (fits : Option PolyFits) (c : ContsOut) (p : MainPlots)
    (h : mainPlotted fs ty path f1 f2 S P saveFq F fit contour C T X = .ok (x, fits, c, p)) :
    (ShowsPlane p.g2.dens0 I.c (used S.symVVp I.D 0) ∧ ShowsPlane p.g2.magn0 I.c (used S.symVVp I.M 0) ∧ ShowsPlane p.g2.magnP I.c (used S.symVVp I.M 10) ∧
      ShowsPlane p.g2.magnM I.c (used S.symVVp I.M (-10))) ∧ (p.extrap = if F = none then none else some (S.ny, S.nx)) ∧
    ∃ mu, gfMu X.newton x.main.sigma (bandOf S) I.n 0 = some mu ∧
      let z := (List.range (S.ny / 2)).map fun j => (List.range (S.nx / 2)).map fun i => (dyson S I.beta mu (sigmaAt S x.main.sigma) i j 0 0).re
      let found := (contour z).flatten.map fun v => (truncR v.1, truncR v.2)
      p.fermi.ind = found.take (found.length / 2) := by
  have hx : 0 < S.nx := Nat.pos_of_ne_zero (NeZero.ne _)
  have hy : 0 < S.ny := Nat.pos_of_ne_zero (NeZero.ne _)
  have hz : 0 < S.nz := Nat.pos_of_ne_zero (NeZero.ne _)
  obtain ⟨h0, hfitp⟩ := (plotted_iff I P saveFq F fit contour C T X x fits c).1 ⟨p, h⟩
  obtain ⟨h1, -⟩ := (conts_split I P saveFq F fit C T X x fits c).1 h0
  obtain ⟨h2, -⟩ := (poly_iff I P saveFq F fit X x).1 ⟨_, h1⟩
  obtain ⟨a, ha, o, mu, -, hmu, hcalc⟩ := one_parts I P saveFq X x h2
  obtain ⟨-, g, hg, hq⟩ := fermi_value I a ha x.main mu hcalc
  unfold mainPlotted at h
  rw [I.load] at h
  simp only [I.build, h0] at h
  rcases hp : plotsFrom S X.newton contour F.isSome I.d ⟨"dens", tab I.w I.c (used S.symVVp I.D), (I.beta : ℂ), (I.u : ℂ), none⟩
      ⟨"magn", tab I.w I.c (used S.symVVp I.M), (I.beta : ℂ), (I.u : ℂ), none⟩ x.main with _ | p'
  · rw [hp] at h; simp at h
  rw [hp] at h
  simp only [Except.ok.injEq, Prod.mk.injEq, true_and] at h
  subst h
  unfold plotsFrom at hp
  rw [I.d_n] at hp
  simp only [numOf, Complex.ofReal_re, Option.bind_some, hmu, hg, Option.bind_eq_some_iff, Option.map_eq_some_iff] at hp
  obtain ⟨g2, hg2, e, he, f, hf, rfl⟩ := hp
  refine ⟨(defaultG2_iff I.w I.c (used S.symVVp I.D) (used S.symVVp I.M) (I.beta : ℂ) (I.u : ℂ)).2 g2 hg2, ?_, mu, hmu, ?_⟩
  · rcases F with _ | F0
    · simp [ifAsked] at he
      simp [he]
    · obtain ⟨q1, q2, q3, q4⟩ := hfitp
      have q5 := q4 (by simp)
      have : extrapShape S.nx S.ny S.nz = some (S.ny, S.nx) := by
        unfold extrapShape
        rw [q5]
        have a1 : S.nx ≠ 1 := by omega
        have a2 : S.ny ≠ 1 := by omega
        simp [a1, a2]
      simp only [Option.isSome_some, ifAsked, if_true, this, Option.map_some, Option.some.injEq] at he
      simp [he]
  · unfold fermiFigure at hf
    rw [hq, Option.bind_some, findZeros_iff, if_pos (by obtain ⟨q1, q2, q3, -⟩ := hfitp; omega)] at hf
    simp only [Option.map_some, Option.some.injEq] at hf
    subst hf
    rfl

/-- the points are momenta of the grid, as many as indices, if matplotlib's lines stay inside the array -/
theorem fermi_points (S : Settings) (contour : Contour) (g : Gf) (m : List (List ℂ)) (hm : gQuarter S g = some m) (f : FermiFig) (h : fermiFigure S contour g = some f)
    (hin : ∀ z line v, line ∈ contour z → v ∈ line → 0 ≤ v.1 ∧ v.1 < S.nx ∧ 0 ≤ v.2 ∧ v.2 < S.ny) :
    (∀ p ∈ f.ind, 0 ≤ p.1 ∧ p.1 < S.nx ∧ 0 ≤ p.2 ∧ p.2 < S.ny) ∧
    (f.points = none ∨ f.points = some (f.ind.map fun p => ((p.1 : ℝ) * (2 * Real.pi / S.nx), (p.2 : ℝ) * (2 * Real.pi / S.ny)))) := by
  unfold fermiFigure at h
  rw [hm, Option.bind_some, Option.map_eq_some_iff] at h
  obtain ⟨zs, hzs, rfl⟩ := h
  have hall : ∀ p ∈ zs, 0 ≤ p.1 ∧ p.1 < (S.nx : Int) ∧ 0 ≤ p.2 ∧ p.2 < (S.ny : Int) := by
    unfold findZeros at hzs
    simp only at hzs
    split_ifs at hzs
    cases hzs
    intro p hp
    rw [List.mem_map] at hp
    obtain ⟨v, hv, rfl⟩ := hp
    rw [List.mem_flatten] at hv
    obtain ⟨line, hl, hv⟩ := hv
    obtain ⟨b1, b2, b3, b4⟩ := hin _ _ _ hl hv
    unfold truncR
    rw [if_pos b1, if_pos b3]
    exact ⟨Int.floor_nonneg.2 b1, Int.floor_lt.2 (by exact_mod_cast b2), Int.floor_nonneg.2 b3, Int.floor_lt.2 (by exact_mod_cast b4)⟩
  have hind : ∀ p ∈ zs.take (zs.length / 2), 0 ≤ p.1 ∧ p.1 < (S.nx : Int) ∧ 0 ≤ p.2 ∧ p.2 < (S.ny : Int) := fun p hp => hall p (List.mem_of_mem_take hp)
  refine ⟨hind, ?_⟩
  simp only
  split_ifs
  · exact Or.inl rfl
  · right
    refine Mf.mapM_some _ _ _ ?_
    intro p hp
    obtain ⟨b1, b2, b3, b4⟩ := hind p hp
    have key : ∀ (n : Nat) (i : Int), 0 ≤ i → i < n → Py.get? (Bz.kAxis Real.pi n) i = some ((i : ℝ) * (2 * Real.pi / n)) := by
      intro n i i1 i2
      unfold Py.get? Bz.kAxis
      rw [if_neg (by omega), List.getElem?_map, List.getElem?_range (by omega)]
      simp only [Option.map_some, Option.some.injEq, sub_zero, add_zero]
      congr 1
      exact_mod_cast Int.toNat_of_nonneg i1
    rw [key _ _ b1 b2, key _ _ b3 b4]
    rfl

include I in
/-- **C152 (c).** With fewer than ten bosonic frequencies in the box, with fewer than four momenta along x or y, and with polynomial fits on a three-dimensional grid, no run gets through its
    figures, whatever else the configuration asks for. -/
theorem never_plotted (P : Plan) (saveFq : Bool) (F : Option (Nat × Nat)) (fit : Fitter) (contour : Contour) (C : ContPlan) (T : Tools) (X : Chance S.nx S.ny S.nz)
    (hbad : I.w < 10 ∨ S.nx < 4 ∨ S.ny < 4 ∨ F ≠ none ∧ 2 ≤ S.nz) : ¬ ∃ r, mainPlotted fs ty path f1 f2 S P saveFq F fit contour C T X = .ok r := by
  rintro ⟨⟨x, fits, c, p⟩, h⟩
  obtain ⟨-, q1, q2, q3, q4⟩ := (plotted_iff I P saveFq F fit contour C T X x fits c).1 ⟨p, h⟩
  rcases hbad with hb | hb | hb | ⟨hb, hb'⟩
  · omega
  · omega
  · omega
  · have := q4 hb
    omega

end DGA.Whole
