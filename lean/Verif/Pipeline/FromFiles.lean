/-
  C129: the complete run of dga_main.py from the files on disk to the self-energy it saves.

  The pieces are those of Input/Model.lean (loading, box sizes, vertex objects), TwoPoint/Model.lean (self-energy objects),
  SquareLattice.lean (band, Green's function, bubble generator) and LamRun.lean (local part, ladder, lambda correction,
  Schwinger–Dyson equation); here they are put together in the order of the main program.
-/
import Verif.Pipeline.LamRunProps
import Verif.Pipeline.SquareLattice
import Verif.Input.Props

noncomputable section

namespace DGA.Pipe

open DGA.Mf DGA.Bz DGA.Bubble DGA.Fp DGA.Two DGA.Inp

/-- a scalar entry of the input dictionary (dga_main.py:56, config.py:654-656); the numbers written by the solvers are real -/
def numOf : DS → Option ℝ
  | .num x => some x.re
  | _ => none

/-- an entry with one axis; dga_main.py:89 `siw[None, None, None, :]` of anything else is refused by two_point.py:88-93 -/
def arrOf : DS → Option (List ℂ)
  | .a1 l => some l
  | _ => none

/-- a vertex object on lists as one with square planes of size `n` (language construct).  Planes of another size make the first
    elementwise operation with the Green's function or the bubble raise (local_four_point.py:240, 298). -/
def toFour (n : Nat) (o : G2) : Option (FourP n ℂ) :=
  if ∀ p ∈ o.mat, p.length = n ∧ ∀ r ∈ p, r.length = n then
    some ⟨o.channel, o.mat.map fun p => Matrix.of fun i j => (p.getD i.val []).getD j.val 0, o.beta, o.u, o.wnSel⟩
  else none

/-- dga_main.py:89, two_point.py:76 `SelfEnergy(sigma=siw[None, None, None, :], beta)` with the default arguments -/
def siwObj (siw : List ℂ) (beta : ℝ) : SelfEnergy := newSelfEnergy [siw] beta false none none 1e-4 none

/-- the settings of the config file the calculation depends on: box sizes, `do_sym_v_vp`, lattice (momentum grid of the Green's function and of
    the ladder are the same; `hr` is the table of hopping elements config.py:271-282 `set_hr` builds, with `nb + 1` orbitals), `lambda_corr`;
    and the number of ranks -/
structure Settings where
  box : Cfg.Box
  symVVp : Bool
  nx : Nat
  ny : Nat
  nz : Nat
  nb : Nat
  hr : Wan.Hr (nb + 1)
  syms : List Sym
  lambdaCorr : String
  ranks : Nat

/-- what the run leaves behind: the box sizes used, the results of `dgaRun`, the self-energy object saved as `siwk_dga` -/
structure MainOut where
  box : Cfg.Box
  run : RunOut
  sigma : SelfEnergy

/-- dga_main.py:87-259 with the input objects at hand; negative box sizes count as zero -/
def calcFrom (S : Settings) (d : Dict) (b : Cfg.Box) (gd gm : G2) : Except String MainOut :=
  match arrOf d.siw, numOf d.n, numOf d.beta, numOf d.u, numOf d.mu with
  | some siw, some n, some beta, some u, some mu =>
    match toFour (2 * b.nivCore.toNat) gd, toFour (2 * b.nivCore.toNat) gm, fbz2irrk S.nx S.ny S.nz S.syms with
    | some g2D, some g2M, some mp =>
      match dgaRun b.nivShell.toNat S.ranks S.nx S.ny S.nz (flat3 mp) g2D g2M
          (genDmft S.nx S.ny S.nz S.hr mu (siwObj siw beta) b.nivAsympt.toNat b.niwCore.toNat) beta S.lambdaCorr (u : ℂ) (n : ℂ) siw with
      | .error e => .error e
      | .ok out =>
        match createDga out.sigma (siwObj siw beta) b.nivShell.toNat 1e-4 with
        | none => .error "failed"
        | some sg => .ok ⟨b, out, sg⟩
    | _, _, _ => .error "failed"
  | _, _, _, _, _ => .error "failed"

/-- dga_main.py:41-259: load the DMFT data (46), build the vertex objects and fix the box sizes (48), run -/
def mainRun (fs : Fs) (ty path f1 : String) (f2 : Option String) (S : Settings) : Except String MainOut :=
  match load1p fs ty path f1 f2 with
  | none => .error "failed"
  | some d =>
    match buildG2 S.box S.symVVp d with
    | none => .error "failed"
    | some (b, gd, gm) => calcFrom S d b gd gm

/-! ### the objects as functions of the Matsubara indices -/

/-- values of `F w v v'` on the box of `2 c` fermionic frequencies -/
def onBox2 (c : Nat) (F : Int → Int → Int → ℂ) (w : Int) : Matrix (Fin (2 * c)) (Fin (2 * c)) ℂ :=
  Matrix.of fun i j => F w ((i.val : Int) - c) ((j.val : Int) - c)

theorem toFour_tab (dens : Bool) (w c : Nat) (F : Int → Int → Int → ℂ) (b u : ℂ) :
    toFour (2 * c) ⟨chName dens, tab w c F, b, u, none⟩ = some (objOf dens w b u (onBox2 c F)) := by
  unfold toFour
  rw [if_pos]
  · unfold objOf
    congr 2
    unfold tab Mf.wn Py.arange
    simp only [Bool.false_eq_true, if_false, List.map_map]
    apply List.ext_getElem
    · simp; omega
    · intro k h1 h2
      simp only [List.getElem_map, List.getElem_range, Function.comp]
      ext i j
      simp only [onBox2, Matrix.of_apply]
      have hi := i.isLt
      have hj := j.isLt
      simp only [List.getD_eq_getElem?_getD, List.getElem?_map, List.getElem?_range hi, Option.map_some, Option.getD_some,
        List.getElem?_range hj]
      congr 1
      omega
  · intro p hp
    simp only [tab, List.mem_map, List.mem_range] at hp
    obtain ⟨x, _, rfl⟩ := hp
    refine ⟨by simp, ?_⟩
    intro r hr
    simp only [List.mem_map, List.mem_range] at hr
    obtain ⟨y, _, rfl⟩ := hr
    simp

/-- the stored half of a self-energy given on the full axis -/
def posHalf (Sg : Int → ℂ) (N : Nat) : List ℂ := (List.range N).map fun m : Nat => Sg m

theorem siwObj_sigma (Sg : Int → ℂ) (N : Nat) (beta : ℝ) :
    (siwObj (samplesF Sg N) beta).sigma = [posHalf Sg N] ∧ (siwObj (samplesF Sg N) beta).beta = beta := by
  have h : positiveHalf [samplesF Sg N] = [posHalf Sg N] := by
    have := congrArg SelfEnergy.sigma (newSelfEnergy_full [Sg] N beta 0 0 0 0)
    simpa [newSelfEnergy, posHalf] using this
  unfold siwObj newSelfEnergy
  simp only [Bool.false_eq_true, if_false, h, and_self]

/-- The self-energy the run uses on the lattice: the input inside the core, conjugate at opposite frequencies, the fitted tail outside. -/
theorem sigma_inside (Sg : Int → ℂ) (N : Nat) (beta : ℝ) (hN : (siwObj (samplesF Sg N) beta).nivCore ≤ N)
    (hsym : ∀ m : Int, -(N : Int) ≤ m → m < N → Sg (-m - 1) = (starRingEnd ℂ) (Sg m))
    (m : Int) (h1 : -((siwObj (samplesF Sg N) beta).nivCore : Int) ≤ m) (h2 : m < (siwObj (samplesF Sg N) beta).nivCore) :
    sigmaSpec (siwObj (samplesF Sg N) beta) (posHalf Sg N) m = Sg m := by
  generalize (siwObj (samplesF Sg N) beta) = o at *
  have hget : ∀ k : Nat, k < N → (posHalf Sg N).getD k 0 = Sg k := by
    intro k hk
    simp [posHalf, List.getD_eq_getElem?_getD, hk]
  unfold sigmaSpec
  by_cases h0 : 0 ≤ m
  · rw [if_pos h0, if_pos h2, hget _ (by omega), Int.toNat_of_nonneg h0]
  · rw [if_neg h0, if_pos (by omega), hget _ (by omega), Int.toNat_of_nonneg (by omega), hsym m (by omega) (by omega), Complex.conj_conj]

/-- the sizes the run uses always fit if the number of asymptotic frequencies was left to the program and the core sizes were given -/
theorem default_box_fits (c w sh : Nat) (hw : 0 < c + w) (lfpNiv lfpNw : Nat) (b' : Cfg.Box)
    (h : (Cfg.newBox (some w) (some c) (some sh) none).setFromLfp lfpNiv lfpNw = some b') (k : Nat) :
    b'.niwCore.toNat + (b'.nivCore.toNat + b'.nivShell.toNat) ≤ k + b'.nivAsympt.toNat := by
  have h1 := setFromLfp_asympt _ _ _ _ h
  obtain ⟨_, hs⟩ := Cfg.setFromLfp_sizes (Cfg.newBox (some w) (some c) (some sh) none) lfpNiv lfpNw
  obtain ⟨k1, k2, k3, -, -⟩ := hs b' h
  simp only [Cfg.newBox, Option.getD_some, Option.getD_none, Cfg.Box.nivFull, if_true] at h1 k1 k2 k3
  rw [if_neg (by omega)] at k1 k2
  rw [k1, k2, k3, h1, if_neg (by omega)]
  omega

end DGA.Pipe
