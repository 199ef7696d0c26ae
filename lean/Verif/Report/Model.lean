/-
  C132: the numbers a run writes to its text files `lambda.txt`, `UniformStaticSusceptibility.txt` and `energies.txt`.

  The run of Pipeline/FromFiles.lean (C129) is continued up to the energies.
-/
import Verif.TwoPoint.Energies
import Verif.Pairing.FromFilesChain
import Verif.Bubble.AsymptProps

noncomputable section

namespace DGA.Report

open DGA.Mf DGA.Bz DGA.Bubble DGA.Two DGA.Inp DGA.Pipe DGA.Pairing

/-- dga_main.py:88 `ek` on the mesh (bubble.py:121-122; real part, C44) -/
def ekMesh (S : Settings) : Arr3 ℝ := table S.nx S.ny S.nz fun i j k => (Wan.getEk S.hr S.nx S.ny S.nz i j k).re

/-- dga_main.py:171-172: asymptotic correction of the bubble at the irreducible momenta, expanded to the full mesh -/
def chi0Correction (S : Settings) (mu : ℝ) (s : SelfEnergy) (nivFull niw : Nat) (f : List Nat) : Option (Arr3 (List ℂ)) :=
  (irrqList S.nx S.ny S.nz f).bind fun irr =>
    (irr.mapM fun q => asymptCorrectionQ s.beta (facsQ mu s.smom0 s.smom1 (ekMesh S) (momOf q)) nivFull (wn niw) "minus").bind fun rows =>
      irrk2fbzMesh S.nx S.ny S.nz f rows

/-- dga_main.py:173-174 (175-176 for the magnetic channel): entry `[0, 0, 0, niw_core]` of the corrected susceptibility (first row of the
    flattened mesh) plus that of the correction -/
def uniformStatic (niw : Nat) (chi : List (List ℂ)) (corr : Arr3 (List ℂ)) : Option ℝ :=
  (chi[0]?.bind (·[niw]?)).bind fun a => ((Bz.at3 corr 0 0 0).bind (·[niw]?)).map fun b => a.re + b.re

/-- the three text files: `lambda.txt`, `UniformStaticSusceptibility.txt` (both `dens magn`) and `energies.txt` (`kin-dga kin-dmft pot-dga
    pot-dmft`); the rounding to six digits is not modelled -/
structure TextFiles where
  lambda : ℝ × ℝ
  chi : ℝ × ℝ
  energies : ℝ × ℝ × ℝ × ℝ

/-- dga_main.py:90, 166-178, 261, 272-279 for a run that has arrived at the result `out`; `newton` is the root finder of scipy.
    Line 277 assigns `giwk_dga.e_pot` to the fourth column. -/
def reportFrom (S : Settings) (newton : (ℝ → ℝ) → ℝ → Option ℂ) (d : Dict) (b : Cfg.Box) (out : MainOut) : Except String TextFiles :=
  match arrOf d.siw, numOf d.n, numOf d.beta, numOf d.mu, fbz2irrk S.nx S.ny S.nz S.syms with
  | some siw, some n, some beta, some mu, some mp =>
    match newGf (siwObj siw beta) (bandOf S) mu b.nivAsympt,
        chi0Correction S mu (siwObj siw beta) (b.nivCore.toNat + b.nivShell.toNat) b.niwCore.toNat (flat3 mp), gfMu newton out.sigma (bandOf S) n 0 with
    | some gDmft, some corr, some muDga =>
      match uniformStatic b.niwCore.toNat out.run.chi.dens corr, uniformStatic b.niwCore.toNat out.run.chi.magn corr,
          newGf out.sigma (bandOf S) muDga b.nivAsympt with
      | some cd, some cm, some gDga =>
        match gDga.eKin, gDmft.eKin, gDga.ePot n, gDga.ePot n with
        | some e1, some e2, some e3, some e4 => .ok ⟨(out.run.chi.lamDens, out.run.chi.lamMagn), (cd, cm), (e1, e2, e3, e4)⟩
        | _, _, _, _ => .error "failed"
      | _, _, _ => .error "failed"
    | _, _, _ => .error "failed"
  | _, _, _, _, _ => .error "failed"

/-- dga_main.py:41-279 -/
def mainReport (fs : Fs) (ty path f1 : String) (f2 : Option String) (S : Settings) (newton : (ℝ → ℝ) → ℝ → Option ℂ) :
    Except String (MainOut × TextFiles) :=
  match load1p fs ty path f1 f2 with
  | none => .error "failed"
  | some d =>
    match buildG2 S.box S.symVVp d with
    | none => .error "failed"
    | some (b, gd, gm) =>
      match calcFrom S d b gd gm with
      | .error e => .error e
      | .ok out =>
        match reportFrom S newton d b out with
        | .error e => .error e
        | .ok r => .ok (out, r)

/-! ### Specification -/

/-- the band energy at a grid point -/
def band (S : Settings) (i j k : Nat) : ℝ := (bloch S.hr (kPt S.nx S.ny S.nz i j k)).re

/-- mean over the grid, `1/beta` times the sum over the `2 N` fermionic frequencies around zero -/
def trace (S : Settings) (beta : ℝ) (N : Nat) (f : Nat → Nat → Nat → Int → ℂ) : ℂ :=
  1 / (beta : ℂ) * ((kSum S.nx S.ny S.nz fun i j k => ∑ m ∈ Finset.Ico (-(N : Int)) N, f i j k m) / ((S.nx * S.ny * S.nz : Nat) : ℂ))

/-- the self-energy of an object with one row per grid point (inside: the rows, conjugate at negative frequencies; outside: its tail) -/
def sigmaAt (S : Settings) (s : SelfEnergy) (i j k : Nat) (m : Int) : ℂ := sigmaSpec s (s.sigma.getD ((i * S.ny + j) * S.nz + k) []) m

/-- Dyson's equation -/
def dyson (S : Settings) (beta mu : ℝ) (sig : Nat → Nat → Nat → Int → ℂ) (i j k : Nat) (m : Int) : ℂ :=
  1 / (iv beta m + (mu : ℂ) - (band S i j k : ℂ) - sig i j k m)

/-- kinetic energy: `1/(beta Nk) sum_{k,v} e(k) G(k,v)` -/
def kinetic (S : Settings) (beta : ℝ) (N : Nat) (G : Nat → Nat → Nat → Int → ℂ) : ℝ := (trace S beta N fun i j k m => (band S i j k : ℂ) * G i j k m).re

/-- potential energy: `1/(beta Nk) sum_{k,v} (Sigma(k,v) - s0) G(k,v) + s0 n / 2` -/
def potential (S : Settings) (beta : ℝ) (N : Nat) (s0 n : ℝ) (sig G : Nat → Nat → Nat → Int → ℂ) : ℝ :=
  (trace S beta N fun i j k m => (sig i j k m - (s0 : ℂ)) * G i j k m).re + s0 * n / 2

/-- mean square of the band energy -/
def bandSq (S : Settings) : ℝ := (kSum S.nx S.ny S.nz fun i j k => band S i j k ^ 2) / ((S.nx * S.ny * S.nz : Nat) : ℝ)

/-- contribution of the frequencies outside a window of `2 N` to the uniform static bubble, `-1/beta sum_v <G(k,v)^2>_k` with `G` expanded
    to fourth order in `1/(iv)` for a band with mean zero (like the built-in one on a grid of at least 3 x 3 points; the program uses this form for every
    band): moments `s0`, `s1` of the self-energy -/
def uniformTail (S : Settings) (beta mu s0 s1 : ℝ) (N : Nat) : ℝ :=
  (outside N fun n : ℤ => -1 / (beta : ℂ) * ((1 / iv beta n) ^ 2 - 2 * ((mu - s0 : ℝ) : ℂ) * (1 / iv beta n) ^ 3 +
    ((3 * ((mu - s0) ^ 2 + bandSq S) - 2 * s1 : ℝ) : ℂ) * (1 / iv beta n) ^ 4)).re

end DGA.Report
