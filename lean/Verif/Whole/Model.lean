/-
  C136: the complete main program: self-energy, text files, Eliashberg equation and optical conductivity in one run.
-/
import Verif.Optics.FromFilesProps
import Verif.Report.Props
import Verif.Pairing.FromFilesProps

noncomputable section

namespace DGA.Whole

open DGA.Mf DGA.Bz DGA.Bubble DGA.Fp DGA.Two DGA.Inp DGA.Pipe DGA.Pairing DGA.Report

/-- what the sections `pairing` and `optics` ask for: the flags `do_pairing_vertex`, `do_eliash`, whether there is an optics section, `do_bubble`,
    `do_vertex`, and their options -/
structure Plan where
  pairing : Bool
  eliash : Bool
  hasOptics : Bool
  bubble : Bool
  vertex : Bool
  E : EliSettings
  o : Cfg.Optics
  derA : Fin 3
  derB : Fin 3

/-- files of the optics folder: the ranges used, the chemical potential of the Green's function, `chijj_bubble` and, if asked for, `F_cond` and
    `chijj_vert` -/
structure Optical where
  ranges : Cfg.Optics
  mu : ℝ
  bubble : List ℂ
  vertex : Option (List (List (List (List ℂ))) × List ℂ)

/-- everything a complete run leaves behind -/
structure AllOut (nx ny nz : Nat) where
  main : MainOut
  text : TextFiles
  pairing : Option (EliOut nx ny nz)
  optics : Option Optical

/-- dga_main.py:261, 323-331 with `do_bubble` set: the bubble of the optical conductivity of a run that has arrived at the result `out`.  Negative
    ranges are not modelled (the model does not return). -/
def bubFrom (S : Settings) (o : Cfg.Optics) (derA derB : Fin 3) (newton : (ℝ → ℝ) → ℝ → Option ℂ) (d : Dict) (b : Cfg.Box) (out : MainOut) :
    Except String (ℝ × List ℂ) :=
  if o.niwBubble < 0 ∨ o.nivBubble < 0 then .error "failed" else
  match numOf d.n with
  | none => .error "failed"
  | some n =>
    match gfMu newton out.sigma (bandOf S) n 0 with
    | none => .error "failed"
    | some muDga =>
      match newGf out.sigma (bandOf S) muDga b.nivAsympt with
      | none => .error "failed"
      | some g =>
        let full := gFullArr g.core g.asympt
        match Opt.chijjBubbleMain (reshape3 full S.nx S.ny S.nz) (full.getD 0 []).length (lightOf S derA) (lightOf S derB) (out.sigma.beta : ℂ)
            o.niwBubble.toNat o.nivBubble.toNat with
        | none => .error "failed"
        | some bub => .ok (muDga, bub)

/-- dga_main.py:317-360: the optics part.  Without a section the flags are not set (config.py:433-434).  With a section the results are plotted at
    the end (360), which raises if the bubble is `None` (optics.py:281, C99). -/
def opticsPart (S : Settings) (P : Plan) (o : Cfg.Optics) (newton : (ℝ → ℝ) → ℝ → Option ℂ) (d : Dict) (b : Cfg.Box) (gd gm : G2) (out : MainOut) :
    Except String (Option Optical) :=
  if P.hasOptics then
    if P.bubble then
      if P.vertex then
        match optFrom S o P.derA P.derB newton d b gd gm out with
        | .error e => .error e
        | .ok r => .ok (some ⟨r.ranges, r.mu, r.bubble, some (r.fCond, r.vert)⟩)
      else
        match bubFrom S o P.derA P.derB newton d b out with
        | .error e => .error e
        | .ok r => .ok (some ⟨o, r.1, r.2, none⟩)
    else .error "failed"
  else .ok none

/-- dga_main.py:183-185, 287-303: the pairing part.  Without the pairing vertex the file the Eliashberg equation reads does not exist (C99); the
    pairing vertex without the Eliashberg equation is outside the model. -/
def pairingPart (S : Settings) [NeZero S.nx] [NeZero S.ny] [NeZero S.nz] (P : Plan) (X : Chance S.nx S.ny S.nz) (d : Dict) (b : Cfg.Box) (gd gm : G2)
    (out : MainOut) : Except String (Option (EliOut S.nx S.ny S.nz)) :=
  if P.eliash then
    if P.pairing then
      match eliFrom S P.E X d b gd gm out with
      | .error e => .error e
      | .ok r => .ok (some r)
    else .error "failed"
  else if P.pairing then .error "outside" else .ok none

/-- dga_main.py:41-360: the whole program, without the polynomial fits and the continuations to real frequencies.  The ranges of the optics section are
    fixed (52) before the calculation starts and may enlarge the asymptotic range of the box. -/
def mainAll (fs : Fs) (ty path f1 : String) (f2 : Option String) (S : Settings) [NeZero S.nx] [NeZero S.ny] [NeZero S.nz] (P : Plan)
    (X : Chance S.nx S.ny S.nz) : Except String (AllOut S.nx S.ny S.nz) :=
  match load1p fs ty path f1 f2 with
  | none => .error "failed"
  | some d =>
    match buildG2 S.box S.symVVp d with
    | none => .error "failed"
    | some (b, gd, gm) =>
      match P.o.setRanges b with
      | none => .error "failed"
      | some (o, b) =>
        match calcFrom S d b gd gm with
        | .error e => .error e
        | .ok out =>
          match reportFrom S X.newton d b out with
          | .error e => .error e
          | .ok text =>
            match pairingPart S P X d b gd gm out with
            | .error e => .error e
            | .ok pr =>
              match opticsPart S P o X.newton d b gd gm out with
              | .error e => .error e
              | .ok op => .ok ⟨out, text, pr, op⟩

end DGA.Whole
