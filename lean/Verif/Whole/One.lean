/-
  C140: the complete main program with one rank file per rank for everything that is asked for, with `save_fq`, and with the pairing vertex also when the
  Eliashberg equation is not solved.

  C136 gives every vertex component a file of its own; here the file is the one of C137, dataset by dataset.
-/
import Verif.Whole.Props
import Verif.Shared.FullProps

noncomputable section

namespace DGA.Whole

open DGA.Mf DGA.Bz DGA.Bubble DGA.Fp DGA.Two DGA.Inp DGA.Pipe DGA.Pairing DGA.Report DGA.Shared DGA.RankFiles
open DGA.Eli (Grid elCfg linearEliashberg)

/-- the files `F_sing_pp.npy`, `F_trip_pp.npy` of the folder of the Eliashberg section and the size of their frequency box -/
structure PairVertex (nx ny nz : Nat) where
  npp : Nat
  fSing : Grid nx ny nz → Fin (2 * npp) → Fin (2 * npp) → ℂ
  fTrip : Grid nx ny nz → Fin (2 * npp) → Fin (2 * npp) → ℂ

/-- everything a complete run leaves behind; `fq` are `F_dens`, `F_magn` -/
structure OneOut (nx ny nz : Nat) where
  main : MainOut
  text : TextFiles
  pv : Option (PairVertex nx ny nz)
  fq : Option (List (List (List (List ℂ))) × List (List (List (List ℂ))))
  pairing : Option (EliOut nx ny nz)
  optics : Option Optical

/-- pairing_vertex.py:140-152: the arrays `f_sing`, `f_trip` at one momentum from the four loaded arrays -/
def pairAt {nx ny nz : Nat} (fb : List Nat) (npp : Nat) (a : Four Pairing.Arr3) (chiM chiD : Grid nx ny nz → List ℂ) (u : ℂ) (q : Grid nx ny nz) :
    Option (Mat2 × Mat2) :=
  (Mf.reshapeChi (chiM q) npp).bind fun cM => (Mf.reshapeChi (chiD q) npp).bind fun cD => (irrOf fb q).map fun iq =>
    let st : Nat → Nat → ℂ × ℂ := fun i j => singTrip u (a.f1m iq i j) (a.f2m iq i j) (a.f1d iq i j) (a.f2d iq i j)
      (((cM[i]?).bind (·[j]?)).getD 0) (((cD[i]?).bind (·[j]?)).getD 0)
    (fun i j => (st i j).1, fun i j => (st i j).2)

/-- the array saved for one of the channels (pairing_vertex.py:168-169), as the solver loads it -/
def pairSaved {nx ny nz : Nat} (sing : Bool) (fb : List Nat) (npp : Nat) (a : Four Pairing.Arr3) (chiM chiD : Grid nx ny nz → List ℂ) (u : ℂ) :
    Grid nx ny nz → Fin (2 * npp) → Fin (2 * npp) → ℂ := fun q v v' =>
  match pairAt fb npp a chiM chiD u q with
  | some (fS, fT) => if sing then fS v v' else fT v v'
  | none => 0

open Classical in
/-- pairing_vertex.py:135-169 `build_pairing_vertex` from the shared rank files.  The plots read the entry `niv_pp` of arrays of size `2 niv_pp` (154-158): an
    empty box raises. -/
def pairVertex {nx ny nz : Nat} (fb : List Nat) (npp : Nat) (files : List (H5 (List (List ℂ)))) (chiM chiD : Grid nx ny nz → List ℂ) (u : ℂ) :
    Option (PairVertex nx ny nz) :=
  (loadPv4 (uniq fb).length npp files).bind fun a =>
    if (∀ q, (pairAt fb npp a chiM chiD u q).isSome) ∧ 0 < npp then
      some ⟨npp, pairSaved true fb npp a chiM chiD u, pairSaved false fb npp a chiM chiD u⟩
    else none

/-- optics.py:162-202 `build_vertex_for_optical_conductivity` from the shared rank files -/
def condVertex (nk niwV niwC nivV : Nat) (f : List Nat) (files : List (H5 (List (List ℂ)))) (chiM chiD : List (List ℂ)) (u : ℂ) :
    Option (List (List (List (List ℂ)))) :=
  (load4 "f_".toList (List.replicate (niwC + 1) (List.replicate (2 * nivV) 0)) (uniq f).length niwV files).bind fun a =>
    (toFbz f niwV a.f1m).bind fun f1m => (toFbz f niwV a.f2m).bind fun f2m => (toFbz f niwV a.f1d).bind fun f1d => (toFbz f niwV a.f2d).map fun f2d =>
      buildFcond nk niwV niwC nivV f1m f2m f1d f2d chiM chiD u

/-- what the master rank assembles from the rank files (dga_main.py:183-197) -/
structure Built (nx ny nz : Nat) where
  pv : Option (PairVertex nx ny nz)
  cond : Option (List (List (List (List ℂ))))
  fq : Option (List (List (List (List ℂ))) × List (List (List (List ℂ))))

/-- what the flags ask of the rank files: without an optics section `do_vertex` is not set (config.py:433-434) -/
def flagsOf (P : Plan) (saveFq : Bool) : Flags := ⟨P.pairing, P.hasOptics && P.vertex, saveFq⟩

/-- a part that is only done if asked for (language construct) -/
def ifAsked {α : Type} (b : Bool) (x : Option α) : Option (Option α) := if b then x.map some else some none

/-- dga_main.py:99-136, 183-197: the rank files of the run and what is assembled from them after the lambda correction.  The local quantities and the ladder
    are those of the run (the same deterministic calls). -/
def builtFrom (S : Settings) (P : Plan) (saveFq : Bool) (o : Cfg.Optics) (d : Dict) (b : Cfg.Box) (gd gm : G2) (out : MainOut) :
    Option (Built S.nx S.ny S.nz) :=
  let c := b.nivCore.toNat
  let niw := b.niwCore.toNat
  let niwV := o.niwVert.toNat
  let niwC := o.niwCond.toNat
  let nivV := o.nivVert.toNat
  if P.hasOptics && P.vertex && (decide (o.niwVert < 0 ∨ o.niwCond < 0 ∨ o.nivVert ≤ 0)) then none else
  match arrOf d.siw, numOf d.n, numOf d.beta, numOf d.u, numOf d.mu with
  | some siw, some n, some beta, some u, some mu =>
    match toFour (2 * c) gd, toFour (2 * c) gm, fbz2irrk S.nx S.ny S.nz S.syms with
    | some g2D, some g2M, some mp =>
      let gen := genDmft S.nx S.ny S.nz S.hr mu (siwObj siw beta) b.nivAsympt.toNat niw
      (localSde b.nivShell.toNat g2D g2M gen (n : ℂ)).bind fun loc =>
        (runFiles (flagsOf P saveFq) b.nivShell.toNat S.ranks S.nx S.ny S.nz (flat3 mp) niw niwV niwC nivV loc.1.gam loc.2.1.gam gen (beta : ℂ) (u : ℂ)).bind fun files =>
          (ifAsked P.pairing (pairVertex (flat3 mp) (nivPP niw c) files (rowQ out.run.chi.magn) (rowQ out.run.chi.dens) (u : ℂ))).bind fun pv =>
            (ifAsked (P.hasOptics && P.vertex)
              (condVertex (S.nx * S.ny * S.nz) niwV niwC nivV (flat3 mp) files out.run.chi.magn out.run.chi.dens (u : ℂ))).bind fun cond =>
              (ifAsked saveFq (buildFq (S.nx * S.ny * S.nz) niw c (flat3 mp) files out.run.chi.magn out.run.chi.dens (u : ℂ))).map fun fq =>
                ⟨pv, cond, fq⟩
    | _, _, _ => none
  | _, _, _, _, _ => none

/-- dga_main.py:261, 287-303: Green's function of the self-energy and Eliashberg equation in both channels, with the pairing vertex loaded -/
def eliWith (S : Settings) [NeZero S.nx] [NeZero S.ny] [NeZero S.nz] (E : EliSettings) (X : Chance S.nx S.ny S.nz) (d : Dict) (b : Cfg.Box) (out : MainOut)
    (V : PairVertex S.nx S.ny S.nz) : Option (EliOut S.nx S.ny S.nz) :=
  (numOf d.n).bind fun n => (numOf d.beta).bind fun beta => (gfMu X.newton out.sigma (bandOf S) n 0).bind fun mu =>
    (newGf out.sigma (bandOf S) mu b.nivAsympt).bind fun g =>
      let el := fun (ch : String) (F : Grid S.nx S.ny S.nz → Fin (2 * V.npp) → Fin (2 * V.npp) → ℂ) =>
        linearEliashberg (elCfg E.kSym E.symSing E.symTrip E.eps E.maxCount E.nEig) V.npp beta F (rowQ g.core) ch E.shiftMat (X.rk ch) (X.rv ch) (X.gap0s ch V.npp)
      (el "sing" V.fSing).bind fun ls => (el "trip" V.fTrip).map fun lt => ⟨out, V.npp, V.fSing, V.fTrip, mu, ls, lt⟩

/-- dga_main.py:261, 323-353: bubble and vertex contribution of the optical conductivity, with `F_cond` loaded -/
def optWith (S : Settings) (o : Cfg.Optics) (derA derB : Fin 3) (newton : (ℝ → ℝ) → ℝ → Option ℂ) (d : Dict) (b : Cfg.Box) (out : MainOut)
    (fc : List (List (List (List ℂ)))) : Option Optical :=
  if o.niwBubble < 0 ∨ o.nivBubble < 0 then none else
  (numOf d.n).bind fun n => (gfMu newton out.sigma (bandOf S) n 0).bind fun mu => (newGf out.sigma (bandOf S) mu b.nivAsympt).bind fun g =>
    let full := gFullArr g.core g.asympt
    let giwk := reshape3 full S.nx S.ny S.nz
    let nv := (full.getD 0 []).length
    (Opt.chijjBubbleMain giwk nv (lightOf S derA) (lightOf S derB) (out.sigma.beta : ℂ) o.niwBubble.toNat o.nivBubble.toNat).bind fun bub =>
      (vertRanks S.ranks S.nx S.ny S.nz o.niwVert.toNat o.niwCond.toNat o.nivVert.toNat fc giwk nv (lightOf S derA) (lightOf S derB) (out.sigma.beta : ℂ)).map
        fun vert => ⟨o, mu, bub, some (fc, bosonicFull star vert)⟩

/-- dga_main.py:287-303: the Eliashberg part; without the pairing vertex the file it loads does not exist -/
def eliPart (S : Settings) [NeZero S.nx] [NeZero S.ny] [NeZero S.nz] (P : Plan) (X : Chance S.nx S.ny S.nz) (d : Dict) (b : Cfg.Box) (out : MainOut)
    (pv : Option (PairVertex S.nx S.ny S.nz)) : Option (Option (EliOut S.nx S.ny S.nz)) :=
  ifAsked P.eliash (pv.bind (eliWith S P.E X d b out))

/-- dga_main.py:317-360: the optics part; the plot at the end raises without the bubble (optics.py:281) -/
def condPart (S : Settings) (P : Plan) (o : Cfg.Optics) (newton : (ℝ → ℝ) → ℝ → Option ℂ) (d : Dict) (b : Cfg.Box) (out : MainOut)
    (cond : Option (List (List (List (List ℂ))))) : Option (Option Optical) :=
  ifAsked P.hasOptics (if P.bubble then
    if P.vertex then cond.bind (optWith S o P.derA P.derB newton d b out)
    else match bubFrom S o P.derA P.derB newton d b out with
      | .ok r => some ⟨o, r.1, r.2, none⟩
      | .error _ => none
  else none)

/-- dga_main.py:41-360: the whole program, without the polynomial fits and the continuations to real frequencies -/
def mainOne (fs : Fs) (ty path f1 : String) (f2 : Option String) (S : Settings) [NeZero S.nx] [NeZero S.ny] [NeZero S.nz] (P : Plan) (saveFq : Bool)
    (X : Chance S.nx S.ny S.nz) : Except String (OneOut S.nx S.ny S.nz) :=
  match load1p fs ty path f1 f2 with
  | none => .error "failed"
  | some d =>
    match buildG2 S.box S.symVVp d with
    | none => .error "failed"
    | some (b, gd, gm) =>
      match P.o.setRanges b with
      | none => .error "failed"
      | some (o, b) =>
        match calcFrom S d b gd gm with
        | .error e => .error e
        | .ok out =>
          match builtFrom S P saveFq o d b gd gm out with
          | none => .error "failed"
          | some B =>
            match reportFrom S X.newton d b out with
            | .error e => .error e
            | .ok text =>
              match eliPart S P X d b out B.pv, condPart S P o X.newton d b out B.cond with
              | some pr, some op => .ok ⟨out, text, B.pv, B.fq, pr, op⟩
              | _, _ => .error "failed"

end DGA.Whole
