/-
  C142: the continuations to real frequencies of a complete run: src/dga/dga_main.py:355-391 and src/dga/dga_max_ent.py.

  The optimisation, the minimiser of the filling and the cubic interpolation are any functions.  Plots, k-paths, log messages and the section `loc` (C112)
  are left out, as is the object `MaxEntConfig` (dga_max_ent.py:59), which only `loc` uses; the temperature is a float and `n_fit` a natural number (except
  for the `-1` of the optics section).
-/
import Verif.Whole.FitsProps
import Verif.AnaCont.Props4
import Verif.Optics.RealProps
import Verif.TwoPoint.RealModel

noncomputable section

namespace DGA.Whole

open DGA.Mf DGA.Bz DGA.Bubble DGA.Fp DGA.Two DGA.Inp DGA.Pipe DGA.Pairing DGA.Report DGA.Shared
open DGA.RankFiles (Str)

/-! ### Model -/

/-- analytic_continuation.py:228-266 the settings of a controller (defaults, `max_ent` section and its subsection merged) that the data handling uses -/
structure ContSet where
  nFit : Nat
  nwr : Nat
  wmin : ℝ
  wmax : ℝ
  bw : ℝ
  mesh : String
  cut : Option ℝ
  force : Bool

/-- analytic_continuation.py:228-276 `MaxEnt(beta, mode, …)` -/
def ContSet.init (K : ContSet) (mode : String) (beta : ℝ) : Option Ana.Cfg :=
  Ana.initMaxEnt mode beta K.nFit K.nwr K.wmin K.wmax K.bw K.mesh K.cut K.force

/-- the subsections `s_dga`, `g_dga`, `chi_d`, `chi_m` of the section `max_ent`, with `do_cont` -/
structure MaxEntPlan where
  s : Option (ContSet × Bool)
  g : Option (ContSet × Bool)
  d : Option (ContSet × Bool)
  m : Option (ContSet × Bool)

/-- the continuations asked for: subsection `max_ent` of `optics` (`true`: `n_fit` is `-1`) and section `max_ent` -/
structure ContPlan where
  cond : Option (ContSet × Bool)
  maxEnt : Option MaxEntPlan

/-- what is done by ana_cont and scipy: the optimisation of each section, the minimiser, the interpolation (which may refuse the points) -/
structure Tools where
  solve : String → Ana.Solver
  minimize : (ℝ → ℝ) → ℝ → ℝ
  interp : List (ℝ × ℝ) → Option (ℝ → ℝ)

/-- the files of `MaxEntSiwk`: `swk_dga_cont_fbz`, `gwk_dga_cont_fbz` (one row per momentum), `w`, `sigma_bub`, `w_bub` -/
structure SwkOut where
  swk : Bz.Arr3 (List ℂ)
  mu : ℝ
  gwk : List (List ℂ)
  w : List ℝ
  sigmaBub : List ℝ
  wBub : List ℝ

/-- the files of the other folders: the continued array and `w` -/
structure GridOut where
  mat : Bz.Arr3 (List ℂ)
  w : List ℝ

/-- the files of the optics folder: `sigma_bubble_cont`, `sigma_full_cont`, `w` -/
structure CondOut where
  bubble : List ℂ
  full : List ℂ
  w : List ℝ

/-- the files of dga_max_ent.py -/
structure MaxEntOut where
  mu : ℝ
  s : Option SwkOut
  g : Option GridOut
  d : Option GridOut
  m : Option GridOut

/-- dga_max_ent.py:94-104, 138-146, 158-165, 181-188: to the irreducible momenta, continuation on all ranks, back to the full zone -/
def contGrid (S : Settings) (solve : Ana.Solver) (c : Ana.Cfg) (f : List Nat) (mat : Bz.Arr3 (List ℂ)) : Option (Bz.Arr3 (List ℂ)) :=
  (fbz2irrkMesh f mat).bind fun rows => (Ana.mpiCont solve c S.ranks rows).bind fun cont => irrk2fbzMesh S.nx S.ny S.nz f cont

/-- a subsection: the controller is built whenever the subsection exists (dga_max_ent.py:90, 133, 153, 176) -/
def section_ {α : Type} (K : Option (ContSet × Bool)) (mode : String) (beta : ℝ) (run : Ana.Cfg → Option α) : Option (Option α) :=
  match K with
  | none => some none
  | some (K, doCont) => (K.init mode beta).bind fun c => ifAsked doCont (run c)

/-- dga_max_ent.py:67-73: the self-energy read from `siwk_dga.npy` (dga_io.py:221), with moments and core fitted anew -/
def loadedSigma (out : MainOut) (beta : ℝ) : SelfEnergy :=
  newSelfEnergy (out.sigma.getSiw (out.box.nivShell + out.box.nivCore)) beta false none none 1e-4 none

/-- dga_max_ent.py:92-125, optics.py:89-98: the continued self-energy, its Green's function and the bubble of the optical conductivity -/
def contSwk (S : Settings) (T : Tools) (n beta : ℝ) (f : List Nat) (sg : SelfEnergy) (c : Ana.Cfg) : Option SwkOut :=
  (contGrid S (T.solve "s_dga") c f (reshape3 ((sg.getSiw c.nFit).map fun r => r.map fun z => z - (sg.smom0 : ℂ)) S.nx S.ny S.nz)).bind fun t =>
    let rows := (flat3 t).map fun r => r.map fun z => z + (sg.smom0 : ℂ)
    (realGf T.minimize c.w rows (bandOf S) none (some n) 0.04).bind fun r => (c.w.getLast?).bind fun last =>
      let gwk := getGwk c.w (rows.map fun r => r.map fun z => z - Complex.I * ((0.04 : ℝ) : ℂ)) (bandOf S) r.1
      (Optics.chijjBubbleRealf c.w gwk ((flat3 (lightOf S 0)).map fun x => x * x) beta (last / 3)).bind fun q =>
        (T.interp (Optics.sigmaNodes q.1 q.2)).map fun h =>
          let o := Optics.sigmaFromChijj (fun _ => h) q.1 q.2
          ⟨reshape3 rows S.nx S.ny S.nz, r.1, gwk, c.w, o.1, o.2⟩

/-- dga_max_ent.py:31-198.  The box of the newly read configuration is the configured one, `-1` where nothing was configured; the Green's function gets its
    `niv_full` as asymptotic range (73). -/
def maxEntMain (S : Settings) (T : Tools) (newton : (ℝ → ℝ) → ℝ → Option ℂ) (d : Dict) (out : MainOut) (M : MaxEntPlan) : Option MaxEntOut :=
  match numOf d.n, numOf d.beta, fbz2irrk S.nx S.ny S.nz S.syms with
  | some n, some beta, some mp =>
    let sg := loadedSigma out beta
    let grid := fun (name : String) (mat : List (List ℂ)) (c : Ana.Cfg) =>
      (contGrid S (T.solve name) c (flat3 mp) (reshape3 mat S.nx S.ny S.nz)).map fun t => (⟨t, c.w⟩ : GridOut)
    (gfMu newton sg (bandOf S) n 0).bind fun mu => (newGf sg (bandOf S) mu (S.box.nivShell + S.box.nivCore)).bind fun g =>
      (section_ M.s "freq_fermionic" beta (contSwk S T n beta (flat3 mp) sg)).bind fun s =>
        (section_ M.g "freq_fermionic" beta (grid "g_dga" (gFullArr g.core g.asympt))).bind fun gg =>
          (section_ M.d "freq_bosonic" beta (grid "chi_d" out.run.chi.dens)).bind fun dd =>
            (section_ M.m "freq_bosonic" beta (grid "chi_m" out.run.chi.magn)).map fun mm => ⟨mu, s, gg, dd, mm⟩
  | _, _, _ => none

/-- dga_main.py:357-381: continuation of the optical conductivity on rank 0; the second continuation uses the same controller.  `n_fit = -1` becomes
    `niw_cond` (negative ranges are not modelled: the model does not return). -/
def condCont (T : Tools) (beta : ℝ) (O : Optical) (K : ContSet) (minusOne : Bool) : Option CondOut :=
  if minusOne = true ∧ O.ranges.niwCond < 0 then none else
  ((if minusOne then { K with nFit := O.ranges.niwCond.toNat } else K).init "freq_bosonic" beta).bind fun c =>
    let r1 := Ana.contSingle (T.solve "cond") c O.bubble
    let vert := match O.vertex with
      | some v => v.2
      | none => O.bubble.map fun _ => 0
    r1.1.bind fun b => (addBosonic (fun x y : ℂ => x + y) O.bubble vert).bind fun full =>
      let r2 := Ana.contSingle (T.solve "cond") r1.2 full
      r2.1.map fun f => ⟨b, f, r2.2.w⟩

/-- all the files of the continuations -/
structure ContsOut where
  cond : Option CondOut
  maxEnt : Option MaxEntOut

/-- dga_main.py:355-391 after everything else -/
def contsFrom (S : Settings) (C : ContPlan) (T : Tools) (newton : (ℝ → ℝ) → ℝ → Option ℂ) (d : Dict) (out : MainOut) (optics : Option Optical) :
    Option ContsOut :=
  (match optics, C.cond with
    | some O, some (K, m1) => (numOf d.beta).bind fun beta => (condCont T beta O K m1).map some
    | _, _ => some none).bind fun c =>
    (match C.maxEnt with
      | some M => (maxEntMain S T newton d out M).map some
      | none => some none).map fun m => ⟨c, m⟩

/-- dga_main.py:41-397: the whole program -/
def mainConts (fs : Fs) (ty path f1 : String) (f2 : Option String) (S : Settings) [NeZero S.nx] [NeZero S.ny] [NeZero S.nz] (P : Plan) (saveFq : Bool)
    (F : Option (Nat × Nat)) (fit : Fitter) (C : ContPlan) (T : Tools) (X : Chance S.nx S.ny S.nz) :
    Except String (OneOut S.nx S.ny S.nz × Option PolyFits × ContsOut) :=
  match load1p fs ty path f1 f2 with
  | none => .error "failed"
  | some d =>
    match mainPoly fs ty path f1 f2 S P saveFq F fit X with
    | .error e => .error e
    | .ok (x, fits) =>
      match contsFrom S C T X.newton d x.main x.optics with
      | none => .error "failed"
      | some c => .ok (x, fits, c)

/-! ### Specification -/

/-- the non-negative bosonic frequencies `2 π m / β`, `m ≤ n` -/
def bfreqs (beta : ℝ) (n : Nat) : List ℝ := (List.range (n + 1)).map fun m : Nat => 2 * (m : ℝ) * Real.pi / beta

/-- the constant default model of the given weight -/
def flatModel (w : List ℝ) (weight : ℝ) : List ℝ := w.map fun _ => weight / Ana.trapzOne w

/-- the continuation of a fermionic function, from its first `n` positive frequencies: the Kramers–Kronig transform of the spectrum found -/
def fermiCont (solve : Ana.Solver) (beta : ℝ) (w : List ℝ) (n : Nat) (F : Int → ℂ) : Option (List ℂ) :=
  (solve (freqs beta n) w (valsAt n F) (flatModel w 1)).bind fun A => Ana.kkt A w "fermionic"

/-- the continuation of a bosonic function given up to the frequency number `N`, from its values at `0 … n`: the spectrum found, times `π/2`.  The weight of
    the default model is the value at the most negative frequency. -/
def boseCont (solve : Ana.Solver) (beta : ℝ) (w : List ℝ) (n N : Nat) (F : Int → ℂ) : Option (List ℂ) :=
  (solve (bfreqs beta n) w (valsAt (n + 1) F) (flatModel w (F (-(N : Int))).re)).map fun A => A.map fun x => ((x * Real.pi / 2 : ℝ) : ℂ)

/-- a continuation that failed leaves zeros -/
def orZeros (w : List ℝ) (r : Option (List ℂ)) : List ℂ := r.getD (w.map fun _ => 0)

end DGA.Whole
