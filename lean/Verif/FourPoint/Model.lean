/-
  Model of src/dga/local_four_point.py and of the algebraic part of src/dga/four_point.py.

  One bosonic slice of a four-point function on a fermionic box of `n` frequencies is a matrix over `Fin n`, one slice of
  a three-point function a vector over `Fin n`; the bosonic axis is a list.  `K` is the field of the entries (ℂ in the
  code).  Division by a zero entry, which numpy turns into `inf` with a warning, is not modelled: the theorems assume
  non-zero denominators.  `np.linalg.inv` of a singular matrix raises (`none`).
-/
import Verif.Matsubara.Model
import Mathlib.LinearAlgebra.Matrix.NonsingularInverse

namespace DGA.Fp

open DGA.Mf

variable {K : Type} [Field K]

/-- square matrices over a box of `n` frequencies -/
abbrev Mat (n : Nat) (K : Type) := Matrix (Fin n) (Fin n) K
/-- vectors over a box of `n` frequencies -/
abbrev Vec (n : Nat) (K : Type) := Fin n → K

/-- local_four_point.py:13-24 `get_ur` -/
def getUr (u : K) (ch : String) : Option K :=
  if ch = "magn" then some (u * -1)
  else if ch = "dens" then some (u * 1)
  else if ch = "updo" then some (u * 1)
  else if ch = "upup" then some (u * -1)
  else none

/-- local_four_point.py:27-33 `get_sign` -/
def getSign (ch : String) : Option K :=
  if ch = "magn" then some (-1) else if ch = "dens" then some 1 else none

/-- local_four_point.py:95 `KNOWN_CHANNELS` -/
def knownChannels : List String := ["dens", "magn", "trip", "sing", "updo", "upup"]

/-- local_four_point.py:98-115 the attributes of `LocalNPoint`; `wnSel = none` stands for `is_full_w = True`. -/
structure NPoint (K α : Type) where
  channel : String
  mat : List α
  beta : K
  u : K
  wnSel : Option (List Int)

/-- a local four-point object with `n` fermionic frequencies (local_four_point.py:158-165) -/
abbrev FourP (n : Nat) (K : Type) := NPoint K (Mat n K)
/-- a local three-point object with `n` fermionic frequencies (local_four_point.py:185-195) -/
abbrev ThreeP (n : Nat) (K : Type) := NPoint K (Vec n K)

/-- local_four_point.py:102-115 `LocalNPoint.__init__`.  The first assertion is
    `np.size(mat.shape[0]) % 2 == 1`; `np.size` of an integer is 1, so it never fails.  A missing `wn` together with
    `is_full_w=False` and an unknown channel raise. -/
def newNPoint {α : Type} (channel : String) (mat : List α) (beta u : K) (wn : Option (List Int)) (isFull : Bool) :
    Option (NPoint K α) :=
  if channel ∈ knownChannels then
    if isFull then some ⟨channel, mat, beta, u, none⟩
    else match wn with
      | none => none
      | some w => some ⟨channel, mat, beta, u, some w⟩
  else none

/-- local_four_point.py:134-139 property `wn` -/
def NPoint.wn {α : Type} (o : NPoint K α) : List Int :=
  match o.wnSel with
  | none => Mf.wn (nFromMat o.mat)
  | some w => w

/-- local_four_point.py:126-128 property `u_r` -/
def NPoint.ur {α : Type} (o : NPoint K α) : Option K := getUr o.u o.channel

/-- local_four_point.py:209-214, 217-222 `construct_lfp_from_lnp` / `construct_ltp_from_lnp` -/
def construct {α β : Type} (o : NPoint K α) (mat : List β) : Option (NPoint K β) :=
  match o.wnSel with
  | none => newNPoint o.channel mat o.beta o.u none true
  | some w => newNPoint o.channel mat o.beta o.u (some w) false

/-- local_four_point.py:148-150 `cut_iw`: the assertion needs the full range -/
def cutIw {α : Type} (o : NPoint K α) (niwCut : Int) : Option (NPoint K α) :=
  match o.wnSel with
  | none => some { o with mat := cutW o.mat niwCut }
  | some _ => none

/-- local_four_point.py:152-155 `contract_legs` of a four-point object (`n = 2`) -/
def contract4 {n : Nat} (o : FourP n K) : List K := o.mat.map fun m => 1 / o.beta ^ 2 * ∑ i, ∑ j, m i j

/-- local_four_point.py:174-176 `symmetrize_v_vp` -/
def symmetrizeVVp {n : Nat} (o : FourP n K) : FourP n K :=
  { o with mat := o.mat.map fun m => Matrix.of fun i j => (1 / 2) * (m i j + m j i) }

/-- a one-dimensional array of the expected length as a vector (`none`: the shapes cannot be combined) -/
def toVec (n : Nat) (l : List K) : Option (Vec n K) :=
  if h : l.length = n then some fun i => l[i.val]'(by rw [h]; exact i.isLt) else none

/-- local_four_point.py:225-232 `get_ggv`, combined with an `n × n` array afterwards -/
def getGgv (n : Nat) (giw : List K) (nivGgv : Int) : Option (Mat n K) :=
  let niv : Int := ((giw.length / 2 : Nat) : Int)
  let c := if nivGgv = -1 then niv else nivGgv
  (toVec n (Py.slice giw (niv - c) (niv + c))).map fun g => Matrix.of fun i j => g i * g j

/-- numpy boolean row mask `chir_mat[wn == 0] = f(mat[wn == 0])`; a mask of another length raises -/
def atZero {α : Type} (wn : List Int) (mat : List α) (f g : α → α) : Option (List α) :=
  if wn.length = mat.length then some (List.zipWith (fun w m => if w = 0 then f m else g m) wn mat) else none

/-- local_four_point.py:235-242 `gchir_from_g2` -/
def gchirFromG2 {n : Nat} (g2 : FourP n K) (giw : List K) : Option (FourP n K) :=
  if g2.channel = "dens" ∧ 0 ∈ g2.wn then
    (getGgv n giw ((n / 2 : Nat) : Int)).bind fun ggv =>
      (atZero g2.wn g2.mat (fun m => Matrix.of fun i j => g2.beta * (m i j - 2 * ggv i j))
        (fun m => Matrix.of fun i j => g2.beta * m i j)).bind fun l => construct g2 l
  else construct g2 (g2.mat.map fun m => Matrix.of fun i j => g2.beta * m i j)

/-- local_four_point.py:245-252 `g2_from_chir` -/
def g2FromChir {n : Nat} (chir : FourP n K) (giw : List K) : Option (FourP n K) :=
  if chir.channel = "dens" ∧ 0 ∈ chir.wn then
    (getGgv n giw ((n / 2 : Nat) : Int)).bind fun ggv =>
      (atZero chir.wn chir.mat (fun m => Matrix.of fun i j => 1 / chir.beta * m i j + 2 * ggv i j)
        (fun m => Matrix.of fun i j => 1 / chir.beta * m i j)).bind fun l => construct chir l
  else construct chir (chir.mat.map fun m => Matrix.of fun i j => 1 / chir.beta * m i j)

/-- elementwise combination along the bosonic axis; different lengths raise (numpy would broadcast an axis of length one;
    not modelled) -/
def zipW {α β γ : Type} (f : α → β → γ) (a : List α) (b : List β) : Option (List γ) :=
  if a.length = b.length then some (List.zipWith f a b) else none

/-- `[f(a[i], b[i]) for i in wn_lin]` with checked indices (local_four_point.py:130-132 `wn_lin`) -/
def overWn {α β γ δ : Type} (o : NPoint K α) (a : List β) (b : List γ) (f : β → γ → Option δ) : Option (List δ) :=
  (List.range o.wn.length).mapM fun i => (a[i]?).bind fun x => (b[i]?).bind fun y => f x y

/-- local_four_point.py:255-257 `get_gchi0_full`: `np.diag` -/
def diag {n : Nat} (v : Vec n K) : Mat n K := Matrix.of fun i j => if i = j then v i else 0

open Classical in
/-- `np.linalg.inv`; a singular matrix raises `LinAlgError` -/
noncomputable def inv? {n : Nat} (A : Mat n K) : Option (Mat n K) := if A.det = 0 then none else some A⁻¹

/-- adding a scalar to an array -/
def addC {n : Nat} (A : Mat n K) (c : K) : Mat n K := Matrix.of fun i j => A i j + c

/-- local_four_point.py:260-267 `fob2_from_gchir`, one slice -/
def fob2Slice {n : Nat} (g0 : Vec n K) (chi : Mat n K) : Mat n K :=
  Matrix.of fun i j => diag (fun i => 1 / g0 i) i j - 1 / g0 i * chi i j * 1 / g0 j

/-- local_four_point.py:260-267 `fob2_from_gchir` -/
def fob2FromGchir {n : Nat} (gchir : FourP n K) (gchi0 : List (Vec n K)) : Option (FourP n K) :=
  (zipW (fun m g0 => fob2Slice g0 m) gchir.mat gchi0).bind fun l => construct gchir l

/-- local_four_point.py:270-277 `gchir_from_fob2`, one slice -/
def gchirFobSlice {n : Nat} (g0 : Vec n K) (f : Mat n K) : Mat n K :=
  Matrix.of fun i j => diag g0 i j - g0 i * f i j * g0 j

/-- local_four_point.py:270-277 `gchir_from_fob2` -/
def gchirFromFob2 {n : Nat} (fob2 : FourP n K) (gchi0 : List (Vec n K)) : Option (FourP n K) :=
  (zipW (fun m g0 => gchirFobSlice g0 m) fob2.mat gchi0).bind fun l => construct fob2 l

/-- local_four_point.py:297-299 `gamob2_from_gchir_wn` -/
noncomputable def gamob2W {n : Nat} (chir : Mat n K) (g0 : Vec n K) : Option (Mat n K) :=
  (inv? chir).map fun ci => -(diag (fun i => 1 / g0 i) - ci)

/-- local_four_point.py:291-294 `gamob2_from_gchir` -/
noncomputable def gamob2FromGchir {n : Nat} (gchir : FourP n K) (gchi0 : List (Vec n K)) : Option (FourP n K) :=
  (overWn gchir gchir.mat gchi0 fun m g0 => gamob2W m g0).bind fun l => construct gchir l

/-- local_four_point.py:308-309 `gchir_from_gamob2_wn` -/
noncomputable def gchirGamW {n : Nat} (gam : Mat n K) (g0 : Vec n K) : Option (Mat n K) :=
  inv? (diag (fun i => 1 / g0 i) + gam)

/-- local_four_point.py:302-305 `gchir_from_gamob2` -/
noncomputable def gchirFromGamob2 {n : Nat} (gam : FourP n K) (gchi0 : List (Vec n K)) : Option (FourP n K) :=
  (overWn gam gam.mat gchi0 fun m g0 => gchirGamW m g0).bind fun l => construct gam l

/-! ### boxes with a shell: core `2c`, full `2(c+s)` frequencies -/

/-- position of a core index in the full box -/
def emb (c s : Nat) (i : Fin (2 * c)) : Fin (2 * (c + s)) := ⟨i.val + s, by omega⟩

/-- matsubara_frequencies.py:140-159 `cut_v` of a full-box vector to the core box (`Link.lean` relates it to the
    list model `cutV`) -/
def cut1 {α : Type} {c s : Nat} (v : Fin (2 * (c + s)) → α) : Fin (2 * c) → α := fun i => v (emb c s i)

/-- matsubara_frequencies.py:140-159 `cut_v(..., axes=(-2, -1))` of a full-box matrix to the core box -/
def cut2 {c s : Nat} (A : Mat (2 * (c + s)) K) : Mat (2 * c) K := Matrix.of fun i j => A (emb c s i) (emb c s j)

/-- matsubara_frequencies.py:44-53 `append_v_vp_shell` of one slice (`Link.lean` relates it to `appendShell`) -/
def shell2 {c : Nat} (s : Nat) (A : Mat (2 * c) K) (val : K) : Mat (2 * (c + s)) K := Matrix.of fun i j =>
  if h : (s ≤ i.val ∧ i.val < s + 2 * c) ∧ (s ≤ j.val ∧ j.val < s + 2 * c) then
    A ⟨i.val - s, by omega⟩ ⟨j.val - s, by omega⟩
  else val

/-- local_four_point.py:312-315 `get_urange` -/
def getUrange {c : Nat} (s : Nat) (o : FourP (2 * c) K) (val : K) : Option (FourP (2 * (c + s)) K) :=
  construct o (o.mat.map fun m => shell2 s m val)

/-- local_four_point.py:318-327 `fob2_from_gamob2_urange`, one slice of the extended vertex:
    `gamma @ inv(eye + gamma * gchi0[:, None])` -/
noncomputable def fob2GamSlice {n : Nat} (gam : Mat n K) (g0 : Vec n K) : Option (Mat n K) :=
  (inv? (1 + Matrix.of fun i j => gam i j * g0 i)).map fun x => gam * x

/-- local_four_point.py:318-327 `fob2_from_gamob2_urange` -/
noncomputable def fob2FromGamob2Urange {c : Nat} (s : Nat) (gam : FourP (2 * c) K)
    (gchi0 : List (Vec (2 * (c + s)) K)) : Option (FourP (2 * (c + s)) K) :=
  gam.ur.bind fun ur => (getUrange s gam (ur / gam.beta ^ 2)).bind fun gu =>
    (overWn gam gu.mat gchi0 fun m g0 => fob2GamSlice m g0).bind fun l => construct gam l

/-- local_four_point.py:473-490 `gamob2_from_gchir_urange_wn` -/
noncomputable def gamUrangeW {c s : Nat} (gchir : Mat (2 * c) K) (g0 : Vec (2 * (c + s)) K) (beta u : K) :
    Option (Mat (2 * c) K) :=
  (inv? (addC (diag fun i => 1 / g0 i) (u / (beta * beta)))).bind fun tilde =>
    (inv? (cut2 (c := c) (s := s) tilde)).bind fun core => (inv? gchir).map fun ci => addC (ci - core) (u / (beta * beta))

/-- local_four_point.py:465-470 `gamob2_from_gchir_urange` -/
noncomputable def gamob2FromGchirUrange {c s : Nat} (gchir : FourP (2 * c) K) (gchi0 : List (Vec (2 * (c + s)) K)) :
    Option (FourP (2 * c) K) :=
  gchir.ur.bind fun ur =>
    (overWn gchir gchir.mat gchi0 fun m g0 => gamUrangeW m g0 gchir.beta ur).bind fun l => construct gchir l

/-- local_four_point.py:504-507 `gchi_aux_core`, one slice -/
noncomputable def auxW {n : Nat} (chi : Mat n K) (beta ur : K) : Option (Mat n K) :=
  (inv? chi).bind fun ci => inv? (addC ci (-(ur / beta ^ 2)))

/-- local_four_point.py:504-507 `gchi_aux_core` -/
noncomputable def gchiAuxCore {n : Nat} (gchir : FourP n K) : Option (FourP n K) :=
  ((List.range gchir.wn.length).mapM fun i => (gchir.mat[i]?).bind fun m => gchir.ur.bind fun ur =>
    auxW m gchir.beta ur).bind fun l => construct gchir l

/-- local_four_point.py:510-514, 541-544 `gchi_aux_core_from_gammar`, `local_gchi_aux_from_gammar_wn`, one slice -/
noncomputable def auxGamW {n : Nat} (gam : Mat n K) (g0 : Vec n K) (beta ur : K) : Option (Mat n K) :=
  inv? (addC (diag (fun i => 1 / g0 i) + gam) (-(ur / beta ^ 2)))

/-- local_four_point.py:510-514 `gchi_aux_core_from_gammar` -/
noncomputable def gchiAuxFromGammar {n : Nat} (gam : FourP n K) (gchi0 : List (Vec n K)) : Option (FourP n K) :=
  (overWn gam gam.mat gchi0 fun m g0 => gam.ur.bind fun ur => auxGamW m g0 gam.beta ur).bind fun l => construct gam l

/-- local_four_point.py:517-525 `gchi_aux_core_from_gammar_urange` -/
noncomputable def gchiAuxFromGammarUrange {c : Nat} (s : Nat) (gam : FourP (2 * c) K)
    (gchi0 : List (Vec (2 * (c + s)) K)) : Option (FourP (2 * (c + s)) K) :=
  gam.ur.bind fun ur => (getUrange s gam (ur / gam.beta ^ 2)).bind fun gu =>
    (overWn gam gu.mat gchi0 fun m g0 => auxGamW m g0 gam.beta ur).bind fun l => construct gam l

/-- local_four_point.py:493-496, four_point.py:156-160 `chi_phys_urange` / `chi_phys_from_chi_aux_q`, one frequency -/
def chiPhysUrange (aux chi0Core chi0Urange ur : K) : K := 1 / (1 / (aux + chi0Urange - chi0Core) + ur)

/-- local_four_point.py:499-501, four_point.py:163-165 `chi_phys_asympt`, one frequency -/
def chiPhysAsympt (chiUrange chi0Urange chi0Asympt : K) : K := chiUrange + chi0Asympt - chi0Urange

/-- `np.sum(mat, axis=sum_axis)` of one slice, `sum_axis = -1` (last index) or `-2` -/
def sumAxis {n : Nat} (last : Bool) (A : Mat n K) : Vec n K := fun i => if last then ∑ j, A i j else ∑ j, A j i

/-- local_four_point.py:554-558, four_point.py:184-195 `vrg_from_gchi_aux`, one slice (the `np.squeeze` would also drop a
    bosonic axis of length one; not modelled) -/
def vrgSlice {n : Nat} (last : Bool) (aux : Mat n K) (g0 : Vec n K) : Vec n K := fun i => 1 / g0 i * sumAxis last aux i

/-- local_four_point.py:547-551, four_point.py:168-181 `vrg_from_gchi_aux_asympt`, one slice -/
def vrgAsymptSlice {n : Nat} (last : Bool) (aux : Mat n K) (g0 : Vec n K) (chiUrange chiAsympt ur : K) : Vec n K :=
  fun i => 1 / g0 i * sumAxis last aux i * (1 - ur * chiUrange) / (1 - ur * chiAsympt)

/-- local_four_point.py:280-288 `fob2_from_vrg_and_chir`, one slice -/
def fob2VrgSlice {n : Nat} (aux : Mat n K) (vrgV vrgVp : Vec n K) (chi : K) (g0 : Vec n K) (beta ur : K) : Mat n K :=
  Matrix.of fun i j => 1 / beta ^ 2 *
    ((beta ^ 2 * 1 / g0 i * ((if i = j then 1 else 0) - aux i j * 1 / g0 j)) + ur * (1 - ur * chi) * vrgV i * vrgVp j)

/-- four_point.py:281-294 `ladder_vertex_from_chi_aux_components`, one slice: `(f1, f2)` -/
def ladderComponents {n : Nat} (aux : Mat n K) (vrg : Vec n K) (g0 : Vec n K) (beta ur : K) : Mat n K × Mat n K :=
  (Matrix.of fun i j => beta ^ 2 * 1 / g0 i * ((if i = j then 1 else 0) - aux i j * 1 / g0 j),
   Matrix.of fun i j => ur * vrg i * vrg j)

/-- four_point.py:338-370 `build_vertex_fq`: the magnetic vertex is `f1 + (1 + u chi) f2`, the density vertex
    `f1 + (1 - u chi) f2` (one slice) -/
def buildF {n : Nat} (magn : Bool) (f : Mat n K × Mat n K) (u chi : K) : Mat n K :=
  Matrix.of fun i j => f.1 i j + (if magn then 1 + u * chi else 1 - u * chi) * f.2 i j

/-- local_four_point.py:422-428 `get_f_dc_asympt`, one slice -/
def fDcSlice {n : Nat} (aux : Mat n K) (vrg : Vec n K) (chi : K) (g0 : Vec n K) (beta ur : K) : Mat n K :=
  Matrix.of fun i j => beta ^ 2 * 1 / g0 i * ((if i = j then 1 else 0) - aux i j * 1 / g0 j)
    + ur * (1 - ur * chi) * vrg i * vrg j

/-- local_four_point.py:330-334, four_point.py:198-202 `lam_from_chir`, one slice -/
def lamSlice {n : Nat} (sign : K) (chi : Mat n K) (g0 : Vec n K) : Vec n K :=
  fun i => -sign * (1 - ∑ j, chi i j * (1 / g0 i))

/-- local_four_point.py:337-340, four_point.py:222-225 `vrg_from_lam` / `vrg_q_tilde`, one slice -/
def vrgLamSlice {n : Nat} (sign ur : K) (lam : Vec n K) (chi : K) : Vec n K :=
  fun i => (1 + sign * lam i) / (1 - ur * chi)

/-- local_four_point.py:343-347, four_point.py:210-214 `get_chir_shell`, one frequency -/
def chirShell {n : Nat} (sign u beta : K) (lamTilde : Vec n K) (chi0Shell : K) (g0 : Vec n K) : K :=
  -sign * u * chi0Shell ^ 2 + chi0Shell * (1 - 2 * u * 1 / beta ^ 2 * ∑ i, (lamTilde i + sign) * g0 i)

/-- local_four_point.py:350-352, four_point.py:217-219 `get_chir_tilde` / `chir_tilde`, one frequency -/
def chirTilde {n : Nat} (sign u beta : K) (lamTilde : Vec n K) (chirCore chi0Shell : K) (g0 : Vec n K) : K :=
  (chirCore + chirShell sign u beta lamTilde chi0Shell g0) / (1 - (u * chi0Shell) ^ 2)

/-- local_four_point.py:355-363, four_point.py:205-207 `get_lam_tilde`, one slice -/
def lamTildeSlice {n : Nat} (u ur : K) (lamCore : Vec n K) (chi0Shell : K) : Vec n K :=
  fun i => (lamCore i - u * chi0Shell) / (1 + ur * chi0Shell)

/-- `a * A + b * B` of two arrays of columns; different shapes raise (numpy would broadcast an axis of length one, which an
    even-sized box never has) -/
def linComb2 (a b : K) (A B : List (List K)) : Option (List (List K)) :=
  if A.length = B.length then
    (List.range A.length).mapM fun i => (A[i]?).bind fun x => (B[i]?).bind fun y =>
      if x.length = y.length then some (List.zipWith (fun s t => a * s + b * t) x y) else none
  else none

/-- local_four_point.py:606-613 `get_f_diag`; arrays as lists of columns like `wToVmvp` (subtracting `0.5 * m` is adding
    `-0.5 * m`) -/
def getFDiag (chiD chiM : List K) (ch : String) : Option (List (List K)) :=
  if ch = "magn" then
    (wToVmvp chiD).bind fun d => (wToVmvp chiM).bind fun m => linComb2 (1 / 2) (-(1 / 2)) d m
  else if ch = "dens" then
    (wToVmvp chiD).bind fun d => (wToVmvp chiM).bind fun m => linComb2 (1 / 2) (3 / 2) d m
  else none

end DGA.Fp
