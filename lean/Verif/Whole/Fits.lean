/-
  C141: the complete main program with the polynomial fits: src/dga/dga_main.py:96, 283 and src/dga/dga_io.py:149-179, 252-264.

  `fit nFit order v y` is the outcome of `get_gamma_bandshift_z(v, y, order, n_fit)` (analytic_continuation.py:66-72, C66), any function.
  Plots and log messages are left out; the temperature is a float.
-/
import Verif.Whole.OneProgram
import Verif.PolyFit.Props
import Verif.Matsubara.Sums

noncomputable section

namespace DGA.Whole

open DGA.Mf DGA.Bz DGA.Bubble DGA.Fp DGA.Two DGA.Inp DGA.Pipe DGA.Pairing DGA.Report DGA.Shared
open DGA.RankFiles (Str)

/-! ### Model -/

/-- the fit of one row: number of frequencies, order, frequencies, values; result `(gamma, bandshift, z)` -/
abbrev Fitter := Nat → Nat → List ℝ → List ℂ → ℝ × ℝ × EReal

/-- dga_io.py:173-177 the saved dictionary (`re_fs`, `im_fs`, `Z`) -/
abbrev Maps := Bz.Arr3 ℝ × Bz.Arr3 ℝ × Bz.Arr3 EReal

/-- the files of the folder `PolyFits`: `Giwk_dmft_poly_cont_`, `Siw_DMFT_polyfit.txt` (`bandshift gamma Z`), `Siwk_poly_cont_`,
    `Giwk_dga_poly_cont_` -/
structure PolyFits where
  giwDmft : Maps
  siwDmft : ℝ × ℝ × EReal
  siw : Maps
  giw : Maps

/-- dga_io.py:163-179 `poly_fit` of an array with one row per momentum, shifted by π or not (`f` is the irreducible map of the grid) -/
def fitRows (S : Settings) (fit : List ℝ → List ℂ → ℝ × ℝ × EReal) (beta : ℝ) (f : List Nat) (piShift : Bool) (mat : List (List ℂ)) : Option Maps :=
  let nv := (mat.getD 0 []).length
  let ext := fit (vnBeta beta (nv / 2 : Nat) 0 true)
  let m3 := reshape3 mat S.nx S.ny S.nz
  if piShift then Pf.dgaPolyFit S.nx S.ny S.nz nv f ext m3 else Pf.polyFit S.nx S.ny S.nz nv f ext m3

/-- dga_io.py:149-160 `dmft_poly_fit`, with the Green's function of dga_main.py:90 -/
def dmftFits (S : Settings) (fit : List ℝ → List ℂ → ℝ × ℝ × EReal) (d : Dict) (b : Cfg.Box) : Option (Maps × ℝ × ℝ × EReal) :=
  match arrOf d.siw, numOf d.beta, numOf d.mu, fbz2irrk S.nx S.ny S.nz S.syms with
  | some siw, some beta, some mu, some mp =>
    (newGf (siwObj siw beta) (bandOf S) mu b.nivAsympt).bind fun g =>
      (fitRows S fit beta (flat3 mp) false (gFullArr g.core g.asympt)).map fun maps =>
        let niv := siw.length / 2
        let c := fit (vnBeta beta niv 0 true) (siw.drop niv)
        (maps, c.2.1, c.1, c.2.2)
  | _, _, _, _ => none

/-- dga_io.py:252-264 `dga_poly_fit`, with the Green's function of dga_main.py:261 -/
def dgaFits (S : Settings) (fit : List ℝ → List ℂ → ℝ × ℝ × EReal) (newton : (ℝ → ℝ) → ℝ → Option ℂ) (d : Dict) (b : Cfg.Box) (out : MainOut) :
    Option (Maps × Maps) :=
  match numOf d.n, numOf d.beta, fbz2irrk S.nx S.ny S.nz S.syms with
  | some n, some beta, some mp =>
    (gfMu newton out.sigma (bandOf S) n 0).bind fun mu => (newGf out.sigma (bandOf S) mu b.nivAsympt).bind fun g =>
      (fitRows S fit beta (flat3 mp) true (out.sigma.getSiw (b.nivShell + b.nivCore))).bind fun siw =>
        (fitRows S fit beta (flat3 mp) true (gFullArr g.core g.asympt)).map fun giw => (siw, giw)
  | _, _, _ => none

/-- the files of the fits for a run that has arrived at the result `out` -/
def fitsFrom (S : Settings) (fit : List ℝ → List ℂ → ℝ × ℝ × EReal) (newton : (ℝ → ℝ) → ℝ → Option ℂ) (d : Dict) (b : Cfg.Box) (out : MainOut) :
    Option PolyFits :=
  (dmftFits S fit d b).bind fun x => (dgaFits S fit newton d b out).map fun y => ⟨x.1, x.2, y.1, y.2⟩

/-- dga_main.py:41-360: the whole program, without the continuations to real frequencies; `F` are `n_fit` and `o_fit` if there is a section
    `poly_fitting`.  The fits of the DMFT Green's function come before the calculation (96), the others after the text files (283). -/
def mainPoly (fs : Fs) (ty path f1 : String) (f2 : Option String) (S : Settings) [NeZero S.nx] [NeZero S.ny] [NeZero S.nz] (P : Plan) (saveFq : Bool)
    (F : Option (Nat × Nat)) (fit : Fitter) (X : Chance S.nx S.ny S.nz) : Except String (OneOut S.nx S.ny S.nz × Option PolyFits) :=
  match load1p fs ty path f1 f2 with
  | none => .error "failed"
  | some d =>
    match buildG2 S.box S.symVVp d with
    | none => .error "failed"
    | some (b, gd, gm) =>
      match P.o.setRanges b with
      | none => .error "failed"
      | some (o, b) =>
        match ifAsked F.isSome (F.bind fun p => dmftFits S (fit p.1 p.2) d b) with
        | none => .error "failed"
        | some fits1 =>
          match calcFrom S d b gd gm with
          | .error e => .error e
          | .ok out =>
            match builtFrom S P saveFq o d b gd gm out with
            | none => .error "failed"
            | some B =>
              match reportFrom S X.newton d b out with
              | .error e => .error e
              | .ok text =>
                match ifAsked F.isSome (F.bind fun p => dgaFits S (fit p.1 p.2) X.newton d b out) with
                | none => .error "failed"
                | some fits2 =>
                  match eliPart S P X d b out B.pv, condPart S P o X.newton d b out B.cond with
                  | some pr, some op => .ok (⟨out, text, B.pv, B.fq, pr, op⟩, fits1.bind fun x => fits2.map fun y => ⟨x.1, x.2, y.1, y.2⟩)
                  | _, _ => .error "failed"

/-! ### Specification -/

/-- the positive fermionic frequencies `π (2 m + 1) / β`, `m < n` -/
def freqs (beta : ℝ) (n : Nat) : List ℝ := (List.range n).map fun m : Nat => (2 * (m : ℝ) + 1) * Real.pi / beta

/-- the values of a function of the Matsubara index at these frequencies -/
def valsAt (n : Nat) (f : Int → ℂ) : List ℂ := (List.range n).map fun m : Nat => f m

/-- the maps hold at `p` the band shift, scattering rate and `Z` -/
def MapsAt (m : Maps) (p : Pt) (c : ℝ × ℝ × EReal) : Prop :=
  Bz.at3 m.1 p.1 p.2.1 p.2.2 = some c.2.1 ∧ Bz.at3 m.2.1 p.1 p.2.1 p.2.2 = some c.1 ∧ Bz.at3 m.2.2 p.1 p.2.1 p.2.2 = some c.2.2

/-! ### Theorems -/

theorem vnBeta_freqs (beta : ℝ) (n : Nat) : vnBeta beta n 0 true = freqs beta n := by
  unfold vnBeta freqs
  simp [vnI, Py.arange]
  intro a _
  ring

theorem posHalf_samplesF (f : Int → ℂ) (n : Nat) : Pf.posHalf (samplesF f n) = valsAt n f := by
  unfold Pf.posHalf valsAt
  rw [samplesF_length, samplesF, vn_range, show 2 * n / 2 = n by omega]
  apply List.ext_getElem?
  intro m
  rw [List.getElem?_drop, List.map_map, List.getElem?_map, List.getElem?_map]
  by_cases h : m < n
  · rw [List.getElem?_range (by omega), List.getElem?_range h]
    simp
  · rw [List.getElem?_eq_none (by simp; omega), List.getElem?_eq_none (by simp; omega)]
    rfl

section Rows

variable (S : Settings) (fit : List ℝ → List ℂ → ℝ × ℝ × EReal) (beta : ℝ) (mp : Bz.Arr3 Nat) (hmp : fbz2irrk S.nx S.ny S.nz S.syms = some mp)
variable (mat : List (List ℂ)) (n : Nat) (G : Pt → Int → ℂ) (hmat : reshape3 mat S.nx S.ny S.nz = table S.nx S.ny S.nz fun i j k => samplesF (G (i, j, k)) n)
variable (hnv : (mat.getD 0 []).length = 2 * n)

include hnv in
theorem fitRows_none (sh : Bool) (h : S.nx * S.ny * S.nz = 1 ∨ n = 1) : fitRows S fit beta (flat3 mp) sh mat = none := by
  unfold fitRows Pf.dgaPolyFit
  simp only [hnv]
  cases sh
  · exact Pf.polyFit_raises _ _ _ _ _ _ _ (by omega)
  · exact Pf.polyFit_raises _ _ _ _ _ _ _ (by omega)

include hmp hmat hnv in
theorem fitRows_plain (h1 : S.nx * S.ny * S.nz ≠ 1) (h2 : n ≠ 1) (hG : ∀ σ ∈ S.syms, ∀ p, InGrid S.nx S.ny S.nz p → G (Bz.image S.nx S.ny S.nz σ p) = G p) :
    ∃ maps, fitRows S fit beta (flat3 mp) false mat = some maps ∧
      ∀ p, InGrid S.nx S.ny S.nz p → MapsAt maps p (fit (freqs beta n) (valsAt n (G p))) := by
  obtain ⟨re, im, z, h, hv⟩ := Pf.polyFit_symmetric S.nx S.ny S.nz (2 * n) S.syms mp hmp h1 (by omega) (fit (freqs beta n)) (fun p => samplesF (G p) n)
    (by intro σ hσ p hp; show samplesF _ n = samplesF _ n; rw [hG σ hσ p hp])
  refine ⟨(re, im, z), ?_, fun p hp => ?_⟩
  · unfold fitRows
    simp only [hnv, hmat, show 2 * n / 2 = n by omega, vnBeta_freqs]
    exact h
  · have := hv p hp
    rw [posHalf_samplesF] at this
    exact this

include hmp hmat hnv in
theorem fitRows_even (h1 : S.nx * S.ny * S.nz ≠ 1) (h2 : n ≠ 1) (ex : S.nx % 2 = 0) (ey : S.ny % 2 = 0)
    (hG : ∀ σ ∈ S.syms, ∀ p, InGrid S.nx S.ny S.nz p → G (Bz.image S.nx S.ny S.nz σ p) = G p) :
    ∃ maps, fitRows S fit beta (flat3 mp) true mat = some maps ∧
      ∀ p, InGrid S.nx S.ny S.nz p → MapsAt maps p (fit (freqs beta n) (valsAt n (G (Pf.back S.nx S.ny p)))) := by
  obtain ⟨re, im, z, h, hv⟩ := Pf.dgaPolyFit_even S.nx S.ny S.nz (2 * n) ex ey S.syms mp hmp h1 (by omega) (fit (freqs beta n)) (fun p => samplesF (G p) n)
    (by intro σ hσ p hp; show samplesF _ n = samplesF _ n; rw [hG σ hσ p hp])
  refine ⟨(re, im, z), ?_, fun p hp => ?_⟩
  · unfold fitRows
    simp only [hnv, hmat, show 2 * n / 2 = n by omega, vnBeta_freqs]
    exact h
  · have := hv p hp
    rw [posHalf_samplesF] at this
    exact this

include hmp hmat hnv in
theorem fitRows_any (h1 : S.nx * S.ny * S.nz ≠ 1) (h2 : n ≠ 1) :
    ∃ maps, fitRows S fit beta (flat3 mp) true mat = some maps ∧
      ∀ p, InGrid S.nx S.ny S.nz p → ∃ r, InGrid S.nx S.ny S.nz r ∧ Related S.nx S.ny S.nz S.syms p r ∧
        MapsAt maps p (fit (freqs beta n) (valsAt n (G (Pf.back S.nx S.ny r)))) := by
  obtain ⟨re, im, z, h, hv⟩ := Pf.polyFit_value_any S.nx S.ny S.nz (2 * n) S.syms mp hmp h1 (by omega) (fit (freqs beta n))
    (fun p => samplesF (G (Pf.back S.nx S.ny p)) n)
  refine ⟨(re, im, z), ?_, fun p hp => ?_⟩
  · unfold fitRows Pf.dgaPolyFit
    simp only [hnv, hmat, show 2 * n / 2 = n by omega, vnBeta_freqs, if_true]
    rw [Pf.shiftByPi2_table S.nx S.ny S.nz fun p => samplesF (G p) n]
    exact h
  · obtain ⟨r, hr, hrel, -, -, hval⟩ := hv p hp
    rw [posHalf_samplesF] at hval
    exact ⟨r, hr, hrel, hval⟩

end Rows

theorem gOpt_dyson (S : Settings) (s : SelfEnergy) (hlen : s.sigma.length = S.nx * S.ny * S.nz) (mu : ℝ) (i j k : Nat) (hi : i < S.nx) (hj : j < S.ny)
    (hk : k < S.nz) : gOpt S s mu i j k = dyson S s.beta mu (sigmaAt S s) i j k := by
  funext m
  have hl : lin S.ny S.nz i j k < S.nx * S.ny * S.nz := Bz.lin_lt S.nx S.ny S.nz i j k hi hj hk
  have hd := lin_div S.ny S.nz i j k hj hk
  unfold gOpt gVal dyson sigmaAt
  rw [ekOf_band S _ hl]
  have hrw : rowOf s (lin S.ny S.nz i j k) = s.sigma.getD (lin S.ny S.nz i j k) [] := by
    unfold rowOf
    split_ifs with h1
    · rw [hlen] at h1
      rw [show lin S.ny S.nz i j k = 0 by omega]
    · rfl
  rw [hrw]
  simp only [pt, Prod.mk.injEq] at hd
  rw [hd.1, hd.2.1, hd.2.2]
  rfl

/-- the Green's function of a local self-energy -/
theorem newGf_local (S : Settings) (hk : 0 < S.nx * S.ny * S.nz) (s : SelfEnergy) (r : List ℂ) (hr : s.sigma = [r]) (hrow : s.nivCore ≤ r.length) (mu : ℝ) (n : Int) :
    ∃ g, newGf s (bandOf S) mu n = some g ∧
      reshape3 (gFullArr g.core g.asympt) S.nx S.ny S.nz =
        table S.nx S.ny S.nz (fun i j k => samplesF (dyson S s.beta mu (fun _ _ _ => sigmaSpec s r) i j k) (s.nivCore + n.toNat)) ∧
      ((gFullArr g.core g.asympt).getD 0 []).length = 2 * (s.nivCore + n.toNat) := by
  have hnK : nK s (bandOf S) = S.nx * S.ny * S.nz := by
    unfold nK
    rw [bandOf_length, hr]
    simp only [List.length_singleton]
    split_ifs with h1
    · exact h1.symm
    · rfl
  have hrw : ∀ l, rowOf s l = r := by
    intro l
    unfold rowOf
    rw [hr]
    simp
  obtain ⟨a, ha, hb⟩ := newGf_state s (bandOf S) mu n (Or.inr (Or.inl (by rw [hr]; rfl))) (by rw [hr]; simpa using hrow) (by rw [hnK]; exact hk)
  refine ⟨_, ha, ?_, ?_⟩
  · simp only
    rw [hb, hnK, reshape3_range (fun k => samplesF (gVal s (bandOf S) mu k) (s.nivCore + n.toNat))]
    apply table_congr
    intro i j k hi hj hk'
    congr 1
    funext m
    have hl : lin S.ny S.nz i j k < S.nx * S.ny * S.nz := Bz.lin_lt S.nx S.ny S.nz i j k hi hj hk'
    have hd := lin_div S.ny S.nz i j k hj hk'
    simp only [pt, Prod.mk.injEq] at hd
    unfold gVal dyson
    rw [ekOf_band S _ hl, hrw, hd.1, hd.2.1, hd.2.2]
  · simp only
    rw [hb, hnK, List.getD_eq_getElem?_getD, List.getElem?_map, List.getElem?_range hk]
    simp [samplesF_length]

end DGA.Whole
