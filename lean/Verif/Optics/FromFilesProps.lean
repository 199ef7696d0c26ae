/-
  C133: what a user gets out of the complete run, from the files to the current-current correlation function.
-/
import Verif.Optics.FromFilesChain

noncomputable section

namespace DGA.Pairing

open DGA.RankFiles DGA.Mpi DGA.Pipe DGA.Fp DGA.Mf DGA.Bz DGA.Bubble DGA.Two DGA.Inp
open DGA.Eli (Grid)

local notation "conj" => starRingEnd ℂ

/-! ### Specification -/

/-- The settings with another asymptotic range. -/
abbrev withAs (S : Settings) (a : Nat) : Settings := { S with box := { S.box with nivAsympt := a } }

/-- a momentum of the grid -/
def kPoint (S : Settings) (i j k : Nat) : Fin 3 → ℝ := kPt S.nx S.ny S.nz i j k

/-- the band of the calculation: the Fourier sum of the hopping elements (real, `LatticeOk.real`) -/
def bandAt (S : Settings) (q : Fin 3 → ℝ) : ℝ := (bloch S.hr q).re

/-- `A` is the derivative of the band with respect to the momentum component `der`, at the points of the grid -/
def IsVelocity (S : Settings) (der : Fin 3) (A : Nat → Nat → Nat → ℝ) : Prop :=
  ∀ i j k, i < S.nx → j < S.ny → k < S.nz → HasDerivAt (fun x => bandAt S (Function.update (kPoint S i j k) der x)) (A i j k) (kPoint S i j k der)

/-- the Green's function of the saved self-energy: Dyson's equation at the chemical potential of the run -/
def gCond (S : Settings) (r : OptOut) (i j k : Nat) (m : Int) : ℂ :=
  1 / (iv r.main.sigma.beta m + (r.mu : ℂ) - (bandAt S (kPoint S i j k) : ℂ) - sigmaSpec r.main.sigma (rowOf r.main.sigma (lin S.ny S.nz i j k)) m)

/-- the entry of `F_cond` at momentum `(i, j, k)`, bosonic frequency `w'`, external frequency `w` and fermionic frequency `v` -/
def condAt (S : Settings) (r : OptOut) (i j k : Nat) (w' w v : Int) : ℂ :=
  e4 r.fCond (lin S.ny S.nz i j k) (w' + r.ranges.niwVert).toNat w.toNat (v + r.ranges.nivVert).toNat

/-! ### Helpers -/

theorem bandOf_lin (S : Settings) (i j k : Nat) (hi : i < S.nx) (hj : j < S.ny) (hk : k < S.nz) :
    ekOf (bandOf S) (lin S.ny S.nz i j k) = bandAt S (kPoint S i j k) := by
  have : NeZero S.nx := ⟨by omega⟩
  have : NeZero S.ny := ⟨by omega⟩
  have : NeZero S.nz := ⟨by omega⟩
  have := bandOf_at S ((i : ZMod S.nx), (j : ZMod S.ny), (k : ZMod S.nz))
  unfold flatQ at this
  simp only [ZMod.val_natCast_of_lt hi, ZMod.val_natCast_of_lt hj, ZMod.val_natCast_of_lt hk] at this
  exact this

theorem light_velocity (S : Settings) (hr : ∀ q, (bloch S.hr q).im = 0) (der : Fin 3) (A : Nat → Nat → Nat → ℝ) (h : IsVelocity S der A) (i j k : Nat) (hi : i < S.nx) (hj : j < S.ny)
    (hk : k < S.nz) : lightAt S der i j k = (A i j k : ℂ) := by
  have h1 := Wan.getLightVertex_is_derivative S.hr S.nx S.ny S.nz i j k hj hk der 0 0
  simp only at h1
  have h2 := (h i j k hi hj hk).ofReal_comp
  have e : (fun x : ℝ => Wan.convham S.hr (fun c (_ : Unit) => if c = der then x else kPoint S i j k c) () 0 0) =
      fun x : ℝ => ((bandAt S (Function.update (kPoint S i j k) der x) : ℝ) : ℂ) := by
    funext x
    have e1 : (fun c => if c = der then x else kPoint S i j k c) = Function.update (kPoint S i j k) der x := by
      funext c
      unfold Function.update
      simp only [eq_rec_constant, dite_eq_ite]
    rw [← e1]
    unfold bandAt
    apply Complex.ext
    · rfl
    · rw [Complex.ofReal_im]
      exact hr fun c => if c = der then x else kPoint S i j k c
  have h3 : HasDerivAt (fun x : ℝ => ((bandAt S (Function.update (kPoint S i j k) der x) : ℝ) : ℂ)) (lightAt S der i j k) (kPoint S i j k der) := by
    rw [← e]; exact h1
  exact h3.unique h2

theorem spec_congr (nx ny nz : Nat) (G G' : Nat → Nat → Nat → Int → ℂ) (A A' B B' : Nat → Nat → Nat → ℂ) (beta : ℂ) (niv : Nat) (w : Int)
    (hG : ∀ i j k, i < nx → j < ny → k < nz → G i j k = G' i j k) (hA : ∀ i j k, i < nx → j < ny → k < nz → A i j k = A' i j k)
    (hB : ∀ i j k, i < nx → j < ny → k < nz → B i j k = B' i j k) :
    Opt.chijjBubbleSpec nx ny nz G A B beta niv w = Opt.chijjBubbleSpec nx ny nz G' A' B' beta niv w := by
  unfold Opt.chijjBubbleSpec
  congr 2
  apply Opt.kSum_congr
  intro i j k hi hj hk
  rw [hG i j k hi hj hk, hA i j k hi hj hk, hB i j k hi hj hk]

theorem per_lt (n i : Nat) (q : Int) (h : i < n) : Opt.per n i q < n := by
  unfold Opt.per
  have := Int.emod_lt_of_pos ((i : Int) + q) (show (0 : Int) < n by omega)
  have := Int.emod_nonneg ((i : Int) + q) (show (n : Int) ≠ 0 by omega)
  omega

theorem term_congr (nx ny nz niv : Nat) (G G' : Nat → Nat → Nat → Int → ℂ) (A A' B B' : Nat → Nat → Nat → ℂ) (w : Int) (wpn : List Int)
    (F F' : Int → Int → ℂ) (q : Mom)
    (hG : ∀ i j k, i < nx → j < ny → k < nz → G i j k = G' i j k) (hA : ∀ i j k, i < nx → j < ny → k < nz → A i j k = A' i j k)
    (hB : ∀ i j k, i < nx → j < ny → k < nz → B i j k = B' i j k)
    (hF : ∀ w' ∈ wpn, ∀ v : Int, -(niv : Int) ≤ v → v < niv → F w' v = F' w' v) :
    Opt.vertexTerm nx ny nz niv G A B w wpn F q = Opt.vertexTerm nx ny nz niv G' A' B' w wpn F' q := by
  unfold Opt.vertexTerm Opt.vSum
  congr 1
  apply List.map_congr_left
  intro v hv
  rw [mem_vn] at hv
  congr 1
  apply Opt.kSum_congr
  intro i j k hi hj hk
  have p1 := per_lt nx i q.1 hi
  have p2 := per_lt ny j q.2.1 hj
  have p3 := per_lt nz k q.2.2 hk
  rw [hG i j k hi hj hk, hA i j k hi hj hk, hB _ _ _ p1 p2 p3, hG _ _ _ p1 p2 p3]
  congr 2
  apply List.map_congr_left
  intro w' hw'
  rw [hF w' hw' v hv.1 hv.2]

theorem e4_list (Ig : Ingr) (inv : List Nat) (nk niwV niwC nivV : Nat) (q j i v : Nat) (hq : q < nk)
    (hj : j < 2 * niwV + 1) (hi : i < niwC + 1) (hv : v < 2 * nivV) :
    e4 (fCondList Ig inv nk niwV niwC nivV) q j i v = storedCond Ig (inv.getD q 0) ((j : Int) - niwV) ((v : Int) - nivV) ((v : Int) - nivV - i) := by
  unfold e4 fCondList
  simp only [sliceOf_range, wn_range, List.getD_eq_getElem?_getD, List.getElem?_map, List.getElem?_range hq, List.getElem?_range hj, List.getElem?_range hi,
    List.getElem?_range hv, Option.map_some, Option.getD_some]

/-- the vertex of one channel at an irreducible momentum -/
def chanOf (Ig : Ingr) (dens : Bool) (iq : Nat) (w v v' : Int) : ℂ :=
  if dens then Ig.f1D iq w v v' + (1 - Ig.u * Ig.chiD iq w) * Ig.f2D iq w v v' else Ig.f1M iq w v v' + (1 + Ig.u * Ig.chiM iq w) * Ig.f2M iq w v v'

theorem condOf_chan (Ig : Ingr) (iq : Nat) (w v v' : Int) : condOf Ig iq w v v' = -(1 / 2) * chanOf Ig true iq w v v' - 3 / 2 * chanOf Ig false iq w v v' := by
  unfold condOf Opt.fCond chanOf
  simp only [if_true, Bool.false_eq_true, if_false]
  ring

theorem lin_lt (nx ny nz i j k : Nat) (hi : i < nx) (hj : j < ny) (hk : k < nz) : lin ny nz i j k < nx * ny * nz := by
  unfold lin
  have a : i * ny + j < nx * ny := by
    calc i * ny + j < i * ny + ny := by omega
      _ = (i + 1) * ny := by ring
      _ ≤ nx * ny := Nat.mul_le_mul_right _ hi
  calc (i * ny + j) * nz + k < (i * ny + j) * nz + nz := by omega
    _ = (i * ny + j + 1) * nz := by ring
    _ ≤ nx * ny * nz := Nat.mul_le_mul_right _ a

namespace Files

variable {fs : Fs} {ty path f1 : String} {f2 : Option String} {S : Settings} (I : Files fs ty path f1 f2 S)

/-- the same files with a larger asymptotic range -/
def enlarge (a : Nat) (h : I.as ≤ a) : Files fs ty path f1 f2 (withAs S a) where
  d := I.d
  load := I.load
  N := I.N
  hN := I.hN
  Sg := I.Sg
  siw := I.siw
  Sg_conj := I.Sg_conj
  n := I.n
  beta := I.beta
  u := I.u
  mu := I.mu
  beta_pos := I.beta_pos
  d_n := I.d_n
  d_beta := I.d_beta
  d_u := I.d_u
  d_mu := I.d_mu
  wD := I.wD
  vD := I.vD
  wM := I.wM
  vM := I.vM
  D := I.D
  M := I.M
  dens := I.dens
  magn := I.magn
  D_conj := I.D_conj
  M_conj := I.M_conj
  c := I.c
  w := I.w
  sh := I.sh
  as := a
  box_c := I.box_c
  box_w := I.box_w
  box_sh := I.box_sh
  box_as := by
    have h1 := I.box_as
    have h2 := I.box_sh
    have h3 := I.c_pos
    have : 0 < a := by
      split at h1 <;> omega
    simp only
    rw [if_neg (by omega)]
  c_pos := I.c_pos
  cD := I.cD
  cM := I.cM
  wwD := I.wwD
  wwM := I.wwM
  cN := I.cN
  fit := le_trans I.fit (by omega)
  ranks := I.ranks
  syms := I.syms
  lat := I.lat
  pp := I.pp

variable [NeZero S.nx] [NeZero S.ny] [NeZero S.nz]

/-- a run that has arrived at the optics part: what is asked for, the enlarged range, the run of C129 in it -/
theorem opt_eq (o : Cfg.Optics) (derA derB : Fin 3) (newton : (ℝ → ℝ) → ℝ → Option ℂ) (hfit : I.w ≤ I.sh + I.as) :
    (∀ R, 0 < R → mainOptics fs ty path f1 f2 { S with ranks := R } o derA derB newton = .error "failed") ∨
    ∃ (a : Nat) (ha : I.as ≤ a) (o' : Cfg.Optics), o.setRanges ⟨I.w, I.c, I.sh, I.as⟩ = some (o', ⟨I.w, I.c, I.sh, a⟩) ∧
      ((∃ e, mainRun fs ty path f1 f2 (withAs S a) = .error e ∧ ∀ R, 0 < R → mainOptics fs ty path f1 f2 { S with ranks := R } o derA derB newton = .error e) ∨
      ∃ (niwV niwC nivV niwB nivB : Nat) (out : MainOut), mainRun fs ty path f1 f2 (withAs S a) = .ok out ∧
        (o'.niwVert = niwV ∧ o'.niwCond = niwC ∧ o'.nivVert = nivV ∧ o'.niwBubble = niwB ∧ o'.nivBubble = nivB) ∧
        niwV ≤ I.w ∧ 0 < nivV ∧ nivV + niwC = I.c ∧
        ∃ V : (I.enlarge a ha).VertexOf out, ∀ R, 0 < R → mainOptics fs ty path f1 f2 { S with ranks := R } o derA derB newton =
          match gfMu newton out.sigma (bandOf S) I.n 0 with
          | none => .error "failed"
          | some mu => .ok ((I.enlarge a ha).optResult V o' niwV niwC nivV niwB nivB derA derB mu)) := by
  have hopt : ∀ R, mainOptics fs ty path f1 f2 { S with ranks := R } o derA derB newton =
      match o.setRanges ⟨I.w, I.c, I.sh, I.as⟩ with
      | none => .error "failed"
      | some (o', b') =>
        match calcFrom { S with ranks := R } I.d b' (I.obj "dens" I.D) (I.obj "magn" I.M) with
        | .error e => .error e
        | .ok out => optFrom { S with ranks := R } o' derA derB newton I.d b' (I.obj "dens" I.D) (I.obj "magn" I.M) out := by
    intro R
    unfold mainOptics
    simp only [I.load, I.build]
    rfl
  cases hs : o.setRanges ⟨I.w, I.c, I.sh, I.as⟩ with
  | none =>
    refine Or.inl fun R _ => ?_
    rw [hopt, hs]
  | some ob =>
    obtain ⟨o', b'⟩ := ob
    obtain ⟨p1, p2, p3, p4, p5, p6, p7, -⟩ := Cfg.setRanges_spec _ _ _ _ hs
    obtain ⟨b1, b2, b3, b4⟩ := b'
    simp only at p1 p2 p3 p4 p5 p6 p7
    obtain ⟨a, rfl⟩ : ∃ a : Nat, b4 = (a : Int) := ⟨b4.toNat, by omega⟩
    subst p5 p6 p7
    have ha : I.as ≤ a := by omega
    rw [hs] at hopt
    simp only at hopt
    have hcalc : ∀ R, 0 < R → calcFrom { S with ranks := R } I.d ⟨I.w, I.c, I.sh, a⟩ (I.obj "dens" I.D) (I.obj "magn" I.M) =
        mainRun fs ty path f1 f2 (withAs S a) := by
      intro R hR
      rw [(I.enlarge a ha).mainRun_eq]
      exact (I.enlarge a ha).calcFrom_ranks R hR
    cases hr : mainRun fs ty path f1 f2 (withAs S a) with
    | error e =>
      refine Or.inr ⟨a, ha, o', rfl, Or.inl ⟨e, hr, fun R hR => ?_⟩⟩
      rw [hopt, hcalc R hR, hr]
    | ok out =>
      have hopt' : ∀ R, 0 < R → mainOptics fs ty path f1 f2 { S with ranks := R } o derA derB newton =
          optFrom { S with ranks := R } o' derA derB newton I.d ⟨I.w, I.c, I.sh, a⟩ (I.obj "dens" I.D) (I.obj "magn" I.M) out := by
        intro R hR
        rw [hopt, hcalc R hR, hr]
      by_cases hneg : o'.niwVert < 0 ∨ o'.niwCond < 0 ∨ o'.nivVert ≤ 0 ∨ o'.niwBubble < 0 ∨ o'.nivBubble < 0
      · refine Or.inl fun R hR => ?_
        rw [hopt' R hR]
        unfold optFrom
        simp only [if_pos hneg]
      · refine Or.inr ⟨a, ha, o', rfl, Or.inr ⟨o'.niwVert.toNat, o'.niwCond.toNat, o'.nivVert.toNat, o'.niwBubble.toNat, o'.nivBubble.toNat, out, hr,
          by omega, by omega, by omega, by omega, ?_⟩⟩
        have hc := hr
        rw [(I.enlarge a ha).mainRun_eq] at hc
        obtain ⟨V, hV⟩ := (I.enlarge a ha).optFrom_on o' o'.niwVert.toNat o'.niwCond.toNat o'.nivVert.toNat o'.niwBubble.toNat o'.nivBubble.toNat
          (by omega) (show o'.niwVert.toNat ≤ I.w by omega) (by omega) (show o'.nivVert.toNat + o'.niwCond.toNat ≤ I.c by omega)
          (show o'.niwBubble.toNat + o'.nivBubble.toNat ≤ I.c + I.sh + a by omega) (show o'.niwVert.toNat ≤ I.sh + a by omega) derA derB newton out hc
        refine ⟨V, fun R hR => ?_⟩
        rw [hopt' R hR]
        exact hV R hR

/-- a run that returns, taken apart -/
theorem opt_chain (o : Cfg.Optics) (derA derB : Fin 3) (newton : (ℝ → ℝ) → ℝ → Option ℂ) (hfit : I.w ≤ I.sh + I.as) (r : OptOut)
    (h : mainOptics fs ty path f1 f2 S o derA derB newton = .ok r) :
    ∃ (a : Nat) (ha : I.as ≤ a) (o' : Cfg.Optics) (niwV niwC nivV niwB nivB : Nat) (out : MainOut) (V : (I.enlarge a ha).VertexOf out) (mu : ℝ),
      o.setRanges ⟨I.w, I.c, I.sh, I.as⟩ = some (o', ⟨I.w, I.c, I.sh, a⟩) ∧ mainRun fs ty path f1 f2 (withAs S a) = .ok out ∧
      (o'.niwVert = niwV ∧ o'.niwCond = niwC ∧ o'.nivVert = nivV ∧ o'.niwBubble = niwB ∧ o'.nivBubble = nivB) ∧
      niwV ≤ I.w ∧ 0 < nivV ∧ nivV + niwC = I.c ∧ gfMu newton out.sigma (bandOf S) I.n 0 = some mu ∧
      r = (I.enlarge a ha).optResult V o' niwV niwC nivV niwB nivB derA derB mu := by
  rcases I.opt_eq o derA derB newton hfit with he | ⟨a, ha, o', hs, ⟨e, -, he⟩ | ⟨niwV, niwC, nivV, niwB, nivB, out, hr, ho, b1, b2, b3, V, hV⟩⟩
  · have := (he S.ranks I.ranks).symm.trans h
    cases this
  · have := (he S.ranks I.ranks).symm.trans h
    cases this
  · have := (hV S.ranks I.ranks).symm.trans h
    cases hmu : gfMu newton out.sigma (bandOf S) I.n 0 with
    | none => rw [hmu] at this; cases this
    | some mu =>
      rw [hmu] at this
      exact ⟨a, ha, o', niwV, niwC, nivV, niwB, nivB, out, V, mu, hs, hr, ho, b1, b2, b3, hmu, (Except.ok.inj this).symm⟩

/-- the same, in terms of the result -/
theorem opt_parts (o : Cfg.Optics) (derA derB : Fin 3) (newton : (ℝ → ℝ) → ℝ → Option ℂ) (hfit : I.w ≤ I.sh + I.as) (r : OptOut)
    (h : mainOptics fs ty path f1 f2 S o derA derB newton = .ok r) :
    ∃ (a : Nat) (ha : I.as ≤ a) (niwV niwC nivV niwB nivB : Nat) (V : (I.enlarge a ha).VertexOf r.main),
      mainRun fs ty path f1 f2 (withAs S a) = .ok r.main ∧
      (r.ranges.niwVert = niwV ∧ r.ranges.niwCond = niwC ∧ r.ranges.nivVert = nivV ∧ r.ranges.niwBubble = niwB ∧ r.ranges.nivBubble = nivB) ∧
      niwV ≤ I.w ∧ 0 < nivV ∧ nivV + niwC = I.c ∧
      r.fCond = fCondList V.Sv.C.ingr (irrkInv (flat3 V.Sv.m)) (S.nx * S.ny * S.nz) niwV niwC nivV ∧
      r.bubble = samplesB (Opt.chijjBubbleSpec S.nx S.ny S.nz (gOpt S r.main.sigma r.mu) (lightAt S derA) (lightAt S derB) (I.beta : ℂ) nivB) niwB ∧
      ∃ vert, vert = vertSum S.nx S.ny S.nz nivV (gOpt S r.main.sigma r.mu) (lightAt S derA) (lightAt S derB) (I.beta : ℂ) (wn niwV)
          (fun q w' w v => storedCond V.Sv.C.ingr ((irrkInv (flat3 V.Sv.m)).getD (posOf S.ny S.nz q) 0) w' v (v - w)) ∧
        r.vert = samplesB (fun w => if w < 0 then star (vert (-w)) else vert w) niwC := by
  obtain ⟨a, ha, o', niwV, niwC, nivV, niwB, nivB, out, V, mu, hs, hr, ho, b1, b2, b3, hmu, rfl⟩ := I.opt_chain o derA derB newton hfit r h
  exact ⟨a, ha, niwV, niwC, nivV, niwB, nivB, V, hr, ho, b1, b2, b3, rfl, rfl, _, rfl, rfl⟩

omit [NeZero S.nx] [NeZero S.ny] [NeZero S.nz] in
/-- the box of a run -/
theorem box_of (out : MainOut) (h : mainRun fs ty path f1 f2 S = .ok out) : out.box = ⟨I.w, I.c, I.sh, I.as⟩ := by
  rw [I.mainRun_eq] at h
  obtain ⟨mp, hmp, hbx, -⟩ := calcFrom_eq S I.d I.n I.beta I.u I.mu I.N I.Sg I.siw I.d_n I.d_beta I.d_u I.d_mu I.w I.c I.sh I.as I.hN
    (used S.symVVp I.D) (used S.symVVp I.M) out h
  exact hbx

variable (o : Cfg.Optics) (derA derB : Fin 3) (newton : (ℝ → ℝ) → ℝ → Option ℂ)

/-- **C133 (a).** Whenever the complete run returns, the self-energy, susceptibilities and shifts are those of the run without optics in the
    asymptotic range of its box, which is at least the requested one; the ranges are those of `set_frequency_ranges`; and the arrays have
    the announced sizes. -/
theorem opt_run (hfit : I.w ≤ I.sh + I.as) (r : OptOut) (h : mainOptics fs ty path f1 f2 S o derA derB newton = .ok r) :
    ∃ a : Nat, I.as ≤ a ∧ r.main.box = ⟨I.w, I.c, I.sh, a⟩ ∧ mainRun fs ty path f1 f2 (withAs S a) = .ok r.main ∧
      o.setRanges ⟨I.w, I.c, I.sh, I.as⟩ = some (r.ranges, r.main.box) ∧ gfMu newton r.main.sigma (bandOf S) I.n 0 = some r.mu ∧
      0 ≤ r.ranges.niwVert ∧ 0 < r.ranges.nivVert ∧ 0 ≤ r.ranges.niwCond ∧ 0 ≤ r.ranges.niwBubble ∧ 0 ≤ r.ranges.nivBubble ∧
      (r.bubble.length : Int) = 2 * r.ranges.niwBubble + 1 ∧ (r.vert.length : Int) = 2 * r.ranges.niwCond + 1 ∧
      r.fCond.length = S.nx * S.ny * S.nz ∧ ∀ x ∈ r.fCond, (x.length : Int) = 2 * r.ranges.niwVert + 1 ∧
        ∀ y ∈ x, (y.length : Int) = r.ranges.niwCond + 1 ∧ ∀ z ∈ y, (z.length : Int) = 2 * r.ranges.nivVert := by
  obtain ⟨a, ha, o', niwV, niwC, nivV, niwB, nivB, out, V, mu, hs, hr, ⟨o1, o2, o3, o4, o5⟩, b1, b2, b3, hmu, rfl⟩ := I.opt_chain o derA derB newton hfit r h
  have hbx := (I.enlarge a ha).box_of out hr
  refine ⟨a, ha, hbx, hr, ?_, hmu, ?_⟩
  · rw [show ((I.enlarge a ha).optResult V o' niwV niwC nivV niwB nivB derA derB mu).main.box = out.box from rfl, hbx]
    exact hs
  · simp only [optResult, o1, o2, o3, o4, o5]
    refine ⟨by omega, by omega, by omega, by omega, by omega, ?_, ?_, ?_, ?_⟩
    · rw [samplesB_length]; push_cast; rfl
    · rw [samplesB_length]; push_cast; rfl
    · simp [fCondList]
    · intro x hx
      unfold fCondList at hx
      rw [List.mem_map] at hx
      obtain ⟨l, -, rfl⟩ := hx
      refine ⟨by rw [List.length_map, wn_length]; push_cast; rfl, ?_⟩
      intro y hy
      rw [List.mem_map] at hy
      obtain ⟨w', -, rfl⟩ := hy
      unfold sliceOf
      refine ⟨by rw [List.length_map, wnPos_length]; push_cast; rfl, ?_⟩
      intro z hz
      rw [List.mem_map] at hz
      obtain ⟨w, -, rfl⟩ := hz
      rw [samplesF_length]; push_cast; rfl

/-- With the default ranges the asymptotic range stays what it is: the self-energy is that of the run without optics. -/
theorem opt_default (hfit : I.w ≤ I.sh + I.as) (r : OptOut) (h : mainOptics fs ty path f1 f2 S {} derA derB newton = .ok r) :
    mainRun fs ty path f1 f2 S = .ok r.main := by
  obtain ⟨a, ha, h1, h2, h3, -⟩ := I.opt_run {} derA derB newton hfit r h
  have e : a = I.as := by
    rw [h1] at h3
    unfold Cfg.Optics.setRanges at h3
    simp only [if_true, Option.bind_some, Option.some.injEq, Prod.mk.injEq] at h3
    have h4 := congrArg Cfg.Box.nivAsympt h3.2
    split at h4
    · simp only at h4; omega
    · simp only at h4; omega
  subst e
  rw [(I.enlarge I.as ha).mainRun_eq] at h2
  rw [I.mainRun_eq]
  exact h2

include I in
/-- **C133 (b).** The complete run does not depend on the number of ranks: the assembled vertex, the bubble and the vertex contribution are the
    same, and it fails on one number of ranks exactly if it fails on every other, with the same error. -/
theorem opt_ranks (hfit : I.w ≤ I.sh + I.as) (R : Nat) (hR : 0 < R) :
    mainOptics fs ty path f1 f2 { S with ranks := R } o derA derB newton = mainOptics fs ty path f1 f2 S o derA derB newton := by
  rcases I.opt_eq o derA derB newton hfit with he | ⟨a, ha, o', hs, ⟨e, -, he⟩ | ⟨niwV, niwC, nivV, niwB, nivB, out, hr, ho, b1, b2, b3, V, hV⟩⟩
  · exact (he R hR).trans (he S.ranks I.ranks).symm
  · exact (he R hR).trans (he S.ranks I.ranks).symm
  · exact (hV R hR).trans (hV S.ranks I.ranks).symm

/-- **C133 (c).** The optics part adds no way to fail other than a chemical potential that is not found: with ranges that are not negative the complete
    run returns. -/
theorem opt_returns (hfit : I.w ≤ I.sh + I.as) (o' : Cfg.Optics) (a : Nat)
    (hs : o.setRanges ⟨I.w, I.c, I.sh, I.as⟩ = some (o', ⟨I.w, I.c, I.sh, a⟩))
    (hneg : 0 ≤ o'.niwVert ∧ 0 ≤ o'.niwCond ∧ 0 < o'.nivVert ∧ 0 ≤ o'.niwBubble ∧ 0 ≤ o'.nivBubble)
    (out : MainOut) (hr : mainRun fs ty path f1 f2 (withAs S a) = .ok out) (mu : ℝ) (hmu : gfMu newton out.sigma (bandOf S) I.n 0 = some mu) :
    ∃ r, mainOptics fs ty path f1 f2 S o derA derB newton = .ok r ∧ r.main = out ∧ r.mu = mu ∧ r.ranges = o' := by
  obtain ⟨p1, p2, p3, p4, -⟩ := Cfg.setRanges_spec _ _ _ _ hs
  simp only at p1 p2 p3 p4
  have ha : I.as ≤ a := by omega
  have hc := hr
  rw [(I.enlarge a ha).mainRun_eq] at hc
  obtain ⟨V, hV⟩ := (I.enlarge a ha).optFrom_on o' o'.niwVert.toNat o'.niwCond.toNat o'.nivVert.toNat o'.niwBubble.toNat o'.nivBubble.toNat
    (by omega) (show o'.niwVert.toNat ≤ I.w by omega) (by omega) (show o'.nivVert.toNat + o'.niwCond.toNat ≤ I.c by omega)
    (show o'.niwBubble.toNat + o'.nivBubble.toNat ≤ I.c + I.sh + a by omega) (show o'.niwVert.toNat ≤ I.sh + a by omega) derA derB newton out hc
  have hv := hV S.ranks I.ranks
  rw [show bandOf (withAs S a) = bandOf S from rfl, show (I.enlarge a ha).n = I.n from rfl, hmu] at hv
  refine ⟨(I.enlarge a ha).optResult V o' o'.niwVert.toNat o'.niwCond.toNat o'.nivVert.toNat o'.niwBubble.toNat o'.nivBubble.toNat derA derB mu, ?_,
    rfl, rfl, rfl⟩
  · unfold mainOptics
    simp only [I.load, I.build, hs]
    have hc' : calcFrom S I.d ⟨I.w, I.c, I.sh, a⟩ (I.obj "dens" I.D) (I.obj "magn" I.M) = .ok out := hc
    unfold obj at hc'
    rw [hc']
    exact hv

omit [NeZero S.nx] [NeZero S.ny] [NeZero S.nz] in
theorem gOpt_eq (r : OptOut) (i j k : Nat) (hi : i < S.nx) (hj : j < S.ny) (hk : k < S.nz) : gOpt S r.main.sigma r.mu i j k = gCond S r i j k := by
  funext m
  unfold gOpt gVal gCond
  rw [bandOf_lin S i j k hi hj hk]

/-- **C133 (d).** The bubble written is, at every frequency of its range, `-2/β` times the mean over the zone of
    `v_a(k) v_b(k) Σ_v G(k,v) G(k,v-w)` over the frequencies of its range, with Dyson's equation for the saved self-energy and the derivatives of
    the band. -/
theorem opt_bubble (hfit : I.w ≤ I.sh + I.as) (A B : Nat → Nat → Nat → ℝ) (hA : IsVelocity S derA A) (hB : IsVelocity S derB B) (r : OptOut)
    (h : mainOptics fs ty path f1 f2 S o derA derB newton = .ok r) :
    ∀ w : Int, -r.ranges.niwBubble ≤ w → w ≤ r.ranges.niwBubble → atB r.bubble w =
      some (-2 / (I.beta : ℂ) * (Opt.kSum S.nx S.ny S.nz (fun i j k => (A i j k : ℂ) * (B i j k : ℂ) *
        Opt.vSum r.ranges.nivBubble.toNat fun v => gCond S r i j k v * gCond S r i j k (v - w)) / ((S.nx * S.ny * S.nz : Nat) : ℂ))) := by
  obtain ⟨a, ha, niwV, niwC, nivV, niwB, nivB, V, hr, ⟨o1, o2, o3, o4, o5⟩, b1, b2, b3, -, hbub, -⟩ := I.opt_parts o derA derB newton hfit r h
  intro w h1 h2
  rw [o4] at h1 h2
  rw [hbub, samplesB_atB _ _ _ h1 h2, o5, Int.toNat_natCast,
    spec_congr S.nx S.ny S.nz _ (gCond S r) _ (fun i j k => (A i j k : ℂ)) _ (fun i j k => (B i j k : ℂ)) _ nivB w
    (fun i j k hi hj hk => gOpt_eq r i j k hi hj hk) (fun i j k => light_velocity S I.lat.real derA A hA i j k) (fun i j k => light_velocity S I.lat.real derB B hB i j k)]
  rfl

/-- **C133 (e).** The vertex contribution written is, for the external frequencies `0 ≤ w` of its range, `-2/(β² N_k)` times the sum over all momenta `q` and the
    frequencies `v` of the mean over `k` of `v_a(k) v_b(k+q) G(k,v-w) G(k,v) Σ_w' G(k+q,v-w') G(k+q,v-w'-w) F_cond(q,w',w,v)` — with the transfers
    `0 ≤ w' ≤ niw_vert` only; the negative external frequencies hold the complex conjugates. -/
theorem opt_vert (hfit : I.w ≤ I.sh + I.as) (A B : Nat → Nat → Nat → ℝ) (hA : IsVelocity S derA A) (hB : IsVelocity S derB B) (r : OptOut)
    (h : mainOptics fs ty path f1 f2 S o derA derB newton = .ok r) :
    ∃ X : Int → ℂ,
      (∀ w : Int, 0 ≤ w → w ≤ r.ranges.niwCond → X w = -2 / ((I.beta : ℂ) ^ 2 * ((S.nx * S.ny * S.nz : Nat) : ℂ)) *
        Opt.kSum S.nx S.ny S.nz (fun qx qy qz => Opt.vSum r.ranges.nivVert.toNat fun v =>
          Opt.kSum S.nx S.ny S.nz (fun i j k =>
            (A i j k : ℂ) * (B ((i + qx) % S.nx) ((j + qy) % S.ny) ((k + qz) % S.nz) : ℂ) * (gCond S r i j k (v - w) * gCond S r i j k v) *
            ((wn r.ranges.niwVert.toNat 0 true).map fun w' => gCond S r ((i + qx) % S.nx) ((j + qy) % S.ny) ((k + qz) % S.nz) (v - w') *
              gCond S r ((i + qx) % S.nx) ((j + qy) % S.ny) ((k + qz) % S.nz) (v - w' - w) * condAt S r qx qy qz w' w v).sum) /
            ((S.nx * S.ny * S.nz : Nat) : ℂ))) ∧
      ∀ w : Int, 0 ≤ w → w ≤ r.ranges.niwCond → atB r.vert w = some (X w) ∧ (0 < w → atB r.vert (-w) = some (conj (X w))) := by
  obtain ⟨a, ha, niwV, niwC, nivV, niwB, nivB, V, hr, ⟨o1, o2, o3, o4, o5⟩, b1, b2, b3, hfc, -, vert, hvert, hv⟩ := I.opt_parts o derA derB newton hfit r h
  refine ⟨vert, ?_, ?_⟩
  · intro w h1 h2
    rw [o2] at h2
    rw [hvert, o1, o3, Int.toNat_natCast, Int.toNat_natCast]
    unfold vertSum
    congr 1
    rw [qList_range, List.map_map, List.map_map, ← Opt.flat3_sum, flat3_table]
    congr 1
    apply List.map_congr_left
    intro l hl
    rw [List.mem_range] at hl
    have hy : 0 < S.ny := Nat.pos_of_ne_zero (NeZero.ne _)
    have hz : 0 < S.nz := Nat.pos_of_ne_zero (NeZero.ne _)
    have hlin : lin S.ny S.nz (l / S.nz / S.ny) (l / S.nz % S.ny) (l % S.nz) = l := by
      have := posOf_pt S.ny S.nz l
      unfold posOf momOf pt at this
      simpa only [Int.toNat_natCast] using this
    simp only [Function.comp, posOf_pt]
    rw [vertexTerm_pos S.nx S.ny S.nz nivV niwV _ _ _ w _ (fun w' v => storedCond V.Sv.C.ingr ((irrkInv (flat3 V.Sv.m)).getD l 0) w' v (v - w)) _
      (fun w' v hw' => by unfold storedCond; rw [if_neg (by omega)]) (fun w' v _ => rfl)]
    rw [term_congr S.nx S.ny S.nz nivV _ (gCond S r) _ (fun i j k => (A i j k : ℂ)) _ (fun i j k => (B i j k : ℂ)) w _ _
      (fun w' v => condAt S r (l / S.nz / S.ny) (l / S.nz % S.ny) (l % S.nz) w' w v) _
      (fun i j k hi hj hk => gOpt_eq r i j k hi hj hk) (fun i j k => light_velocity S I.lat.real derA A hA i j k) (fun i j k => light_velocity S I.lat.real derB B hB i j k)]
    · unfold Opt.vertexTerm
      have hper : ∀ n i q : Nat, Opt.per n i (q : Int) = (i + q) % n := by
        intro n i q
        unfold Opt.per
        rw [← Nat.cast_add, ← Int.natCast_mod, Int.toNat_natCast]
      simp only [momOf, pt, hper]
    · intro w' hw' v hv1 hv2
      rw [mem_wnPos] at hw'
      unfold condAt
      rw [hlin, hfc, o1, o3, e4_list _ _ _ _ _ _ _ _ _ _ hl (by omega) (by omega) (by omega)]
      congr 1 <;> omega
  · intro w h1 h2
    rw [o2] at h2
    refine ⟨?_, fun h0 => ?_⟩
    · rw [hv, samplesB_atB _ _ _ (by omega) h2, if_neg (by omega)]
    · rw [hv, samplesB_atB _ _ _ (by omega) (by omega), if_pos (by omega), _root_.neg_neg]
      rfl

/-- the regular case: irreducible vertices that reproduce the data, and the calculation is regular for every solution of the lattice ladder with them -/
theorem regular_each {out : MainOut} (V : I.VertexOf out) (h1 : mainRun fs ty path f1 f2 S = .ok out) (hcausal : ∀ m : Nat, m < I.N → (I.Sg m).im ≤ 0)
    (hB0 : ∀ i j k, i < S.nx → j < S.ny → k < S.nz → ∀ x ∈ Finset.Icc (-(I.w : Int)) I.w, ∀ a,
      Pipe.onBox (I.c + I.sh) (bubQ S.nx S.ny S.nz (I.beta : ℂ) (runG S I.mu I.beta I.Sg I.N) (i, j, k) x) a ≠ 0)
    (hDs : S.symVVp = true ∨ ∀ w v v', I.D w v v' = I.D w v' v) (hMs : S.symVVp = true ∨ ∀ w v v', I.M w v v' = I.M w v' v) :
    ∃ (ΓD ΓM : Int → Matrix (Fin (2 * I.c)) (Fin (2 * I.c)) ℂ) (χD0 χM0 : Int → Matrix (Fin (2 * (I.c + I.sh))) (Fin (2 * (I.c + I.sh))) ℂ),
      (∀ x ∈ Finset.Icc (-(I.w : Int)) I.w,
        Ladder (I.beta : ℂ) I.u (Pipe.onBox (I.c + I.sh) (bubLoc (I.beta : ℂ) (runGloc S I.mu I.beta I.Sg I.N) x)) (ΓD x) (χD0 x) ∧
        (∀ i j, χD0 x (core I.c I.sh i) (core I.c I.sh j) =
          gchiOf (I.beta : ℂ) (runGloc S I.mu I.beta I.Sg I.N) true (onBox2 I.c (used S.symVVp I.D)) x i j) ∧
        Ladder (I.beta : ℂ) (-I.u) (Pipe.onBox (I.c + I.sh) (bubLoc (I.beta : ℂ) (runGloc S I.mu I.beta I.Sg I.N) x)) (ΓM x) (χM0 x) ∧
        (∀ i j, χM0 x (core I.c I.sh i) (core I.c I.sh j) =
          gchiOf (I.beta : ℂ) (runGloc S I.mu I.beta I.Sg I.N) false (onBox2 I.c (used S.symVVp I.M)) x i j)) ∧
      ∀ χD χM : Nat → Nat → Nat → Int → Matrix (Fin (2 * (I.c + I.sh))) (Fin (2 * (I.c + I.sh))) ℂ,
        (∀ i j k, i < S.nx → j < S.ny → k < S.nz → ∀ x ∈ Finset.Icc (-(I.w : Int)) I.w,
          Ladder (I.beta : ℂ) I.u (Pipe.onBox (I.c + I.sh) (bubQ S.nx S.ny S.nz (I.beta : ℂ) (runG S I.mu I.beta I.Sg I.N) (i, j, k) x)) (ΓD x) (χD i j k x) ∧
            phys (I.beta : ℂ) (χD i j k x) ≠ 0 ∧
          Ladder (I.beta : ℂ) (-I.u) (Pipe.onBox (I.c + I.sh) (bubQ S.nx S.ny S.nz (I.beta : ℂ) (runG S I.mu I.beta I.Sg I.N) (i, j, k) x)) (ΓM x) (χM i j k x) ∧
            phys (I.beta : ℂ) (χM i j k x) ≠ 0) →
        ∀ (q : Grid S.nx S.ny S.nz) (iq : Nat), irrOf (flat3 V.Sv.m) q = some iq →
          ∀ x : Int, -(I.w : Int) ≤ x → x ≤ I.w → ∀ y y' : Int, -(I.c : Int) ≤ y → y < I.c → -(I.c : Int) ≤ y' → y' < I.c →
          chanOf V.Sv.C.ingr true iq x y y' =
            atFreq (vertexLam I.beta I.u (lamOf S.lambdaCorr out.run.chi).1
              (Pipe.onBox (I.c + I.sh) (bubQ S.nx S.ny S.nz (I.beta : ℂ) (runG S I.mu I.beta I.Sg I.N) (q.1.val, q.2.1.val, q.2.2.val) x))
              (χD q.1.val q.2.1.val q.2.2.val x)) y y' ∧
          chanOf V.Sv.C.ingr false iq x y y' =
            atFreq (vertexLam I.beta (-I.u) (lamOf S.lambdaCorr out.run.chi).2
              (Pipe.onBox (I.c + I.sh) (bubQ S.nx S.ny S.nz (I.beta : ℂ) (runG S I.mu I.beta I.Sg I.N) (q.1.val, q.2.1.val, q.2.2.val) x))
              (χM q.1.val q.2.1.val q.2.2.val x)) y y' ∧
          ∀ dens, chanOf V.Sv.C.ingr dens iq (-x) (-y' - 1) (-y - 1) = conj (chanOf V.Sv.C.ingr dens iq x y y') := by
  have hc := h1
  rw [I.mainRun_eq] at hc
  obtain ⟨mp, hmp, hbx, hrun, hcr⟩ := calcFrom_eq S I.d I.n I.beta I.u I.mu I.N I.Sg I.siw I.d_n I.d_beta I.d_u I.d_mu I.w I.c I.sh I.as I.hN
    (used S.symVVp I.D) (used S.symVVp I.M) out hc
  have hinv := gBand_invariant I.lat I.mu (siwObj (samplesF I.Sg I.N) I.beta) (posHalf I.Sg I.N)
  obtain ⟨label, hlab, hsymB⟩ := bubble_labels S.nx S.ny S.nz (I.c + I.sh) I.w (I.beta : ℂ) S.syms mp hmp _ hinv
  rw [hlab] at hrun
  have hk : 0 < S.nx * S.ny * S.nz :=
    Nat.mul_pos (Nat.mul_pos (Nat.pos_of_ne_zero (NeZero.ne _)) (Nat.pos_of_ne_zero (NeZero.ne _))) (Nat.pos_of_ne_zero (NeZero.ne _))
  obtain ⟨d, m, loc, ΓD, ΓM, χD0, χM0, c1, c2, c3, c4, -⟩ := dga_run_core I.sh S.nx S.ny S.nz I.NG I.N I.w I.beta (I.u : ℂ) (I.n : ℂ) I.beta_pos.ne' I.G I.gloc I.Sg
    (fun m _ _ => I.gloc_conj m) (fun m _ _ => gLoc_ne_zero S.nx S.ny S.nz hk S.hr I.mu I.Sg I.N I.beta I.beta_pos I.hN hcausal m)
    (fun i j k m _ _ => I.G_conj i j k m) I.fit I.cN _ _ label hB0 hsymB _ S.ranks I.ranks _ hrun
  have hloc := V.hloc
  unfold localRun at hloc
  rw [hloc] at c1
  simp only [Option.some.injEq, Prod.mk.injEq] at c1
  obtain ⟨rfl, rfl, rfl⟩ := c1
  have eD : ∀ x ∈ wn I.w, V.ΓD x = ΓD x := fun x hx => objOf_inj (V.gamD.symm.trans c2) x hx
  have eM : ∀ x ∈ wn I.w, V.ΓM x = ΓM x := fun x hx => objOf_inj (V.gamM.symm.trans c3) x hx
  have mem : ∀ x : Int, -(I.w : Int) ≤ x ∧ x ≤ I.w → x ∈ wn I.w := fun x hx => (mem_wn I.w x).2 hx
  refine ⟨ΓD, ΓM, χD0, χM0, c4, ?_⟩
  intro χD χM hχ q iq hq
  have q1 := ZMod.val_lt q.1
  have q2 := ZMod.val_lt q.2.1
  have q3 := ZMod.val_lt q.2.2
  obtain ⟨hok, hbub⟩ := V.hrep q iq hq
  have hmom : momOf (ptOf q) = ((q.1.val : Int), (q.2.1.val : Int), (q.2.2.val : Int)) := rfl
  rw [hmom] at hbub
  have sM : ∀ x : Int, -(I.w : Int) ≤ x ∧ x ≤ I.w → ∀ i j, V.ΓM x i j = V.ΓM x j i := fun x hx a b =>
    gamUrange_symm _ _ _ _ _ (V.invM x (mem x hx)) (fun a b => gchiOf_symm _ _ _ _ (used_symm _ _ hMs) _ a b) a b
  have sD : ∀ x : Int, -(I.w : Int) ≤ x ∧ x ≤ I.w → ∀ i j, V.ΓD x i j = V.ΓD x j i := fun x hx a b =>
    gamUrange_symm _ _ _ _ _ (V.invD x (mem x hx)) (fun a b => gchiOf_symm _ _ _ _ (used_symm _ _ hDs) _ a b) a b
  have RM : (I.theCalc (lamReal S.lambdaCorr out.run.chi) V.ΓD V.ΓM V.hD V.hM V.rep).Regular (-(I.u : ℝ) : ℂ) V.ΓM (V.rep iq)
      (χM q.1.val q.2.1.val q.2.2.val) := by
    refine ⟨by exact_mod_cast I.beta_pos.ne', ?_, sM, ?_, ?_, ?_⟩
    · intro x hx a
      show Pipe.onBox (I.c + I.sh) (bubQ S.nx S.ny S.nz (I.beta : ℂ) I.G (V.rep iq) x) a ≠ 0
      rw [hbub]
      exact hB0 _ _ _ q1 q2 q3 x (Finset.mem_Icc.2 hx) a
    · intro x hx
      exact hok.2 x (mem x hx)
    · intro x hx
      show Ladder (I.beta : ℂ) (-I.u) (Pipe.onBox (I.c + I.sh) (bubQ S.nx S.ny S.nz (I.beta : ℂ) I.G (V.rep iq) x)) (V.ΓM x) _
      rw [hbub, eM x (mem x hx)]
      exact (hχ _ _ _ q1 q2 q3 x (Finset.mem_Icc.2 hx)).2.2.1
    · intro x hx
      exact (hχ _ _ _ q1 q2 q3 x (Finset.mem_Icc.2 hx)).2.2.2
  have RD : (I.theCalc (lamReal S.lambdaCorr out.run.chi) V.ΓD V.ΓM V.hD V.hM V.rep).Regular ((I.u : ℝ) : ℂ) V.ΓD (V.rep iq)
      (χD q.1.val q.2.1.val q.2.2.val) := by
    refine ⟨by exact_mod_cast I.beta_pos.ne', ?_, sD, ?_, ?_, ?_⟩
    · intro x hx a
      show Pipe.onBox (I.c + I.sh) (bubQ S.nx S.ny S.nz (I.beta : ℂ) I.G (V.rep iq) x) a ≠ 0
      rw [hbub]
      exact hB0 _ _ _ q1 q2 q3 x (Finset.mem_Icc.2 hx) a
    · intro x hx
      exact hok.1 x (mem x hx)
    · intro x hx
      show Ladder (I.beta : ℂ) I.u (Pipe.onBox (I.c + I.sh) (bubQ S.nx S.ny S.nz (I.beta : ℂ) I.G (V.rep iq) x)) (V.ΓD x) _
      rw [hbub, eD x (mem x hx)]
      exact (hχ _ _ _ q1 q2 q3 x (Finset.mem_Icc.2 hx)).1
    · intro x hx
      exact (hχ _ _ _ q1 q2 q3 x (Finset.mem_Icc.2 hx)).2.1
  intro x x1 x2 y y' y1 y2 y3 y4
  rw [V.hC]
  set C := I.theCalc (lamReal S.lambdaCorr out.run.chi) V.ΓD V.ΓM V.hD V.hM V.rep with hCd
  refine ⟨?_, ?_, ?_⟩
  · have d1 := Calc.comp_value RD ((lamReal S.lambdaCorr out.run.chi).1.map (↑)) x ⟨x1, x2⟩ y y' ⟨y1, y2⟩ ⟨y3, y4⟩
    have hb2 : C.B (V.rep iq) = bubQ S.nx S.ny S.nz (I.beta : ℂ) (runG S I.mu I.beta I.Sg I.N) (q.1.val, q.2.1.val, q.2.2.val) := hbub
    rw [hb2] at d1
    rw [lamOf_real]
    simp only
    refine Eq.trans ?_ d1
    unfold chanOf Calc.ingr
    simp only [hCd, theCalc, if_true]
  · have m1 := Calc.comp_value RM ((lamReal S.lambdaCorr out.run.chi).2.map (↑)) x ⟨x1, x2⟩ y y' ⟨y1, y2⟩ ⟨y3, y4⟩
    have hb2 : C.B (V.rep iq) = bubQ S.nx S.ny S.nz (I.beta : ℂ) (runG S I.mu I.beta I.Sg I.N) (q.1.val, q.2.1.val, q.2.2.val) := hbub
    rw [hb2] at m1
    rw [lamOf_real]
    simp only
    refine Eq.trans ?_ m1
    unfold chanOf Calc.ingr
    simp only [hCd, theCalc, Bool.false_eq_true, if_false]
    ring
  · have f1M := fun second => C.comp_conj (-C.u) (Calc.starR' _) C.ΓM C.hM second iq x
    have f1D := fun second => C.comp_conj C.u (Calc.starR _) C.ΓD C.hD second iq x
    have cM := C.chiIrr_conj (-C.u) (Calc.starR' _) C.lamM C.ΓM C.hM iq x
    have cD := C.chiIrr_conj C.u (Calc.starR _) C.lamD C.ΓD C.hD iq x
    have tM := fun second y y' => Calc.comp_symm (C := C) (ur := -C.u) (rep := C.rep) (iq := iq) sM second (-x) y y'
    have tD := fun second y y' => Calc.comp_symm (C := C) (ur := C.u) (rep := C.rep) (iq := iq) sD second (-x) y y'
    unfold chanOf Calc.ingr
    simp only
    rw [show C.ΓM = V.ΓM from rfl] at f1M cM ⊢
    rw [show C.ΓD = V.ΓD from rfl] at f1D cD ⊢
    have gM := fun second => (tM second (-y' - 1) (-y - 1)).trans (f1M second y y')
    have gD := fun second => (tD second (-y' - 1) (-y - 1)).trans (f1D second y y')
    intro dens
    cases dens
    · simp only [Bool.false_eq_true, if_false]
      rw [cM, gM, gM]
      simp only [map_add, map_mul, map_one, Complex.conj_ofReal]
    · simp only [if_true]
      rw [cD, gD, gD]
      simp only [map_sub, map_add, map_mul, map_one, Complex.conj_ofReal]

/-- the regular case, combination of the channels: irreducible vertices that reproduce the data, and the calculation is regular for every solution of the lattice ladder with them -/
theorem regular_pair {out : MainOut} (V : I.VertexOf out) (h1 : mainRun fs ty path f1 f2 S = .ok out) (hcausal : ∀ m : Nat, m < I.N → (I.Sg m).im ≤ 0)
    (hB0 : ∀ i j k, i < S.nx → j < S.ny → k < S.nz → ∀ x ∈ Finset.Icc (-(I.w : Int)) I.w, ∀ a,
      Pipe.onBox (I.c + I.sh) (bubQ S.nx S.ny S.nz (I.beta : ℂ) (runG S I.mu I.beta I.Sg I.N) (i, j, k) x) a ≠ 0)
    (hDs : S.symVVp = true ∨ ∀ w v v', I.D w v v' = I.D w v' v) (hMs : S.symVVp = true ∨ ∀ w v v', I.M w v v' = I.M w v' v) :
    ∃ (ΓD ΓM : Int → Matrix (Fin (2 * I.c)) (Fin (2 * I.c)) ℂ) (χD0 χM0 : Int → Matrix (Fin (2 * (I.c + I.sh))) (Fin (2 * (I.c + I.sh))) ℂ),
      (∀ x ∈ Finset.Icc (-(I.w : Int)) I.w,
        Ladder (I.beta : ℂ) I.u (Pipe.onBox (I.c + I.sh) (bubLoc (I.beta : ℂ) (runGloc S I.mu I.beta I.Sg I.N) x)) (ΓD x) (χD0 x) ∧
        (∀ i j, χD0 x (core I.c I.sh i) (core I.c I.sh j) =
          gchiOf (I.beta : ℂ) (runGloc S I.mu I.beta I.Sg I.N) true (onBox2 I.c (used S.symVVp I.D)) x i j) ∧
        Ladder (I.beta : ℂ) (-I.u) (Pipe.onBox (I.c + I.sh) (bubLoc (I.beta : ℂ) (runGloc S I.mu I.beta I.Sg I.N) x)) (ΓM x) (χM0 x) ∧
        (∀ i j, χM0 x (core I.c I.sh i) (core I.c I.sh j) =
          gchiOf (I.beta : ℂ) (runGloc S I.mu I.beta I.Sg I.N) false (onBox2 I.c (used S.symVVp I.M)) x i j)) ∧
      ∀ χD χM : Nat → Nat → Nat → Int → Matrix (Fin (2 * (I.c + I.sh))) (Fin (2 * (I.c + I.sh))) ℂ,
        (∀ i j k, i < S.nx → j < S.ny → k < S.nz → ∀ x ∈ Finset.Icc (-(I.w : Int)) I.w,
          Ladder (I.beta : ℂ) I.u (Pipe.onBox (I.c + I.sh) (bubQ S.nx S.ny S.nz (I.beta : ℂ) (runG S I.mu I.beta I.Sg I.N) (i, j, k) x)) (ΓD x) (χD i j k x) ∧
            phys (I.beta : ℂ) (χD i j k x) ≠ 0 ∧
          Ladder (I.beta : ℂ) (-I.u) (Pipe.onBox (I.c + I.sh) (bubQ S.nx S.ny S.nz (I.beta : ℂ) (runG S I.mu I.beta I.Sg I.N) (i, j, k) x)) (ΓM x) (χM i j k x) ∧
            phys (I.beta : ℂ) (χM i j k x) ≠ 0) →
        ∀ (q : Grid S.nx S.ny S.nz) (iq : Nat), irrOf (flat3 V.Sv.m) q = some iq →
          ∀ x : Int, -(I.w : Int) ≤ x → x ≤ I.w → ∀ y y' : Int, -(I.c : Int) ≤ y → y < I.c → -(I.c : Int) ≤ y' → y' < I.c →
          condOf V.Sv.C.ingr iq x y y' = -(1 / 2) *
            atFreq (vertexLam I.beta I.u (lamOf S.lambdaCorr out.run.chi).1
              (Pipe.onBox (I.c + I.sh) (bubQ S.nx S.ny S.nz (I.beta : ℂ) (runG S I.mu I.beta I.Sg I.N) (q.1.val, q.2.1.val, q.2.2.val) x))
              (χD q.1.val q.2.1.val q.2.2.val x)) y y' -
            3 / 2 * atFreq (vertexLam I.beta (-I.u) (lamOf S.lambdaCorr out.run.chi).2
              (Pipe.onBox (I.c + I.sh) (bubQ S.nx S.ny S.nz (I.beta : ℂ) (runG S I.mu I.beta I.Sg I.N) (q.1.val, q.2.1.val, q.2.2.val) x))
              (χM q.1.val q.2.1.val q.2.2.val x)) y y' ∧
          condOf V.Sv.C.ingr iq (-x) (-y' - 1) (-y - 1) = conj (condOf V.Sv.C.ingr iq x y y') := by
  obtain ⟨ΓD, ΓM, χD0, χM0, c4, hreg⟩ := I.regular_each V h1 hcausal hB0 hDs hMs
  refine ⟨ΓD, ΓM, χD0, χM0, c4, ?_⟩
  intro χD χM hχ q iq hq x x1 x2 y y' y1 y2 y3 y4
  obtain ⟨d, m, c⟩ := hreg χD χM hχ q iq hq x x1 x2 y y' y1 y2 y3 y4
  refine ⟨?_, ?_⟩
  · rw [condOf_chan, d, m]
  · rw [condOf_chan, condOf_chan, c, c]
    simp only [map_sub, map_mul, map_div₀, map_neg, map_one, map_ofNat]

/-- **C133 (f).** The assembled vertex.  For a causal self-energy, non-vanishing bubbles and two-particle data that are symmetric in the two fermionic
    frequencies (or symmetrised by the program) there are irreducible vertices that reproduce the data of the files through the impurity's ladder,
    and for every solution of the lattice ladder with these vertices and non-vanishing susceptibilities, with the lambda-corrected full
    vertices at `(w', v, v-w)`: `F_cond = -1/2 F_dens - 3/2 F_magn` at the transfers `w' ≥ 0`, but 0 at the transfers `w' < 0`, where the same
    combination is the complex conjugate of the entry at `-w'`, frequency `w - v - 1`.  (The array is not the vertex unless it vanishes.) -/
theorem opt_vertex (hfit : I.w ≤ I.sh + I.as) (hcausal : ∀ m : Nat, m < I.N → (I.Sg m).im ≤ 0)
    (hB0 : ∀ i j k, i < S.nx → j < S.ny → k < S.nz → ∀ x ∈ Finset.Icc (-(I.w : Int)) I.w, ∀ a,
      Pipe.onBox (I.c + I.sh) (bubQ S.nx S.ny S.nz (I.beta : ℂ) (runG S I.mu I.beta I.Sg I.N) (i, j, k) x) a ≠ 0)
    (hDs : S.symVVp = true ∨ ∀ w v v', I.D w v v' = I.D w v' v) (hMs : S.symVVp = true ∨ ∀ w v v', I.M w v v' = I.M w v' v)
    (r : OptOut) (h : mainOptics fs ty path f1 f2 S o derA derB newton = .ok r) :
    ∃ (ΓD ΓM : Int → Matrix (Fin (2 * I.c)) (Fin (2 * I.c)) ℂ) (χD0 χM0 : Int → Matrix (Fin (2 * (I.c + I.sh))) (Fin (2 * (I.c + I.sh))) ℂ),
      (∀ x ∈ Finset.Icc (-(I.w : Int)) I.w,
        Ladder (I.beta : ℂ) I.u (Pipe.onBox (I.c + I.sh) (bubLoc (I.beta : ℂ) (runGloc S I.mu I.beta I.Sg I.N) x)) (ΓD x) (χD0 x) ∧
        (∀ i j, χD0 x (core I.c I.sh i) (core I.c I.sh j) =
          gchiOf (I.beta : ℂ) (runGloc S I.mu I.beta I.Sg I.N) true (onBox2 I.c (used S.symVVp I.D)) x i j) ∧
        Ladder (I.beta : ℂ) (-I.u) (Pipe.onBox (I.c + I.sh) (bubLoc (I.beta : ℂ) (runGloc S I.mu I.beta I.Sg I.N) x)) (ΓM x) (χM0 x) ∧
        (∀ i j, χM0 x (core I.c I.sh i) (core I.c I.sh j) =
          gchiOf (I.beta : ℂ) (runGloc S I.mu I.beta I.Sg I.N) false (onBox2 I.c (used S.symVVp I.M)) x i j)) ∧
      ∀ χD χM : Nat → Nat → Nat → Int → Matrix (Fin (2 * (I.c + I.sh))) (Fin (2 * (I.c + I.sh))) ℂ,
        (∀ i j k, i < S.nx → j < S.ny → k < S.nz → ∀ x ∈ Finset.Icc (-(I.w : Int)) I.w,
          Ladder (I.beta : ℂ) I.u (Pipe.onBox (I.c + I.sh) (bubQ S.nx S.ny S.nz (I.beta : ℂ) (runG S I.mu I.beta I.Sg I.N) (i, j, k) x)) (ΓD x) (χD i j k x) ∧
            phys (I.beta : ℂ) (χD i j k x) ≠ 0 ∧
          Ladder (I.beta : ℂ) (-I.u) (Pipe.onBox (I.c + I.sh) (bubQ S.nx S.ny S.nz (I.beta : ℂ) (runG S I.mu I.beta I.Sg I.N) (i, j, k) x)) (ΓM x) (χM i j k x) ∧
            phys (I.beta : ℂ) (χM i j k x) ≠ 0) →
        ∀ i j k : Nat, i < S.nx → j < S.ny → k < S.nz → ∀ w' w v : Int, -r.ranges.niwVert ≤ w' → w' ≤ r.ranges.niwVert → 0 ≤ w → w ≤ r.ranges.niwCond →
          -r.ranges.nivVert ≤ v → v < r.ranges.nivVert →
          ∀ B FM FD, B = Pipe.onBox (I.c + I.sh) (bubQ S.nx S.ny S.nz (I.beta : ℂ) (runG S I.mu I.beta I.Sg I.N) (i, j, k) w') →
            FM = atFreq (vertexLam I.beta (-I.u) (lamOf S.lambdaCorr r.main.run.chi).2 B (χM i j k w')) v (v - w) →
            FD = atFreq (vertexLam I.beta I.u (lamOf S.lambdaCorr r.main.run.chi).1 B (χD i j k w')) v (v - w) →
            (0 ≤ w' → condAt S r i j k w' w v = -(1 / 2) * FD - 3 / 2 * FM) ∧
            (w' < 0 → condAt S r i j k w' w v = 0 ∧
              (w - v - 1 < r.ranges.nivVert → conj (condAt S r i j k (-w') w (w - v - 1)) = -(1 / 2) * FD - 3 / 2 * FM)) := by
  obtain ⟨a, ha, niwV, niwC, nivV, niwB, nivB, V, hr, ⟨o1, o2, o3, o4, o5⟩, b1, b2, b3, hfc, -⟩ := I.opt_parts o derA derB newton hfit r h
  obtain ⟨ΓD, ΓM, χD0, χM0, c4, hreg⟩ := (I.enlarge a ha).regular_pair V hr hcausal hB0 hDs hMs
  refine ⟨ΓD, ΓM, χD0, χM0, c4, ?_⟩
  intro χD χM hχ i j k hi hj hk w' w v w1 w2 w3 w4 v1 v2 B FM FD hB hFM hFD
  rw [o1] at w1 w2
  rw [o2] at w4
  rw [o3] at v1 v2
  set q : Grid S.nx S.ny S.nz := ((i : ZMod S.nx), (j : ZMod S.ny), (k : ZMod S.nz)) with hqd
  have e1 : q.1.val = i := ZMod.val_natCast_of_lt hi
  have e2 : q.2.1.val = j := ZMod.val_natCast_of_lt hj
  have e3 : q.2.2.val = k := ZMod.val_natCast_of_lt hk
  have hfl : flatQ q = lin S.ny S.nz i j k := by
    unfold flatQ lin
    rw [e1, e2, e3]
  obtain ⟨_, _, _, _, _, _, _, _, hinp⟩ := V.onRanks 1 one_pos
  have hinv : (irrkInv (flat3 V.Sv.m)).length = S.nx * S.ny * S.nz := by
    rw [← hinp.flen]
    simp [irrkInv]
  have hl := lin_lt S.nx S.ny S.nz i j k hi hj hk
  set iq := (irrkInv (flat3 V.Sv.m)).getD (lin S.ny S.nz i j k) 0 with hiq
  have hq : irrOf (flat3 V.Sv.m) q = some iq := by
    unfold irrOf
    rw [hfl, hiq, List.getElem?_eq_getElem (by omega), List.getD_eq_getElem?_getD, List.getElem?_eq_getElem (by omega)]
    rfl
  have hval := hreg χD χM hχ q iq hq
  rw [e1, e2, e3] at hval
  have hat : ∀ x y : Int, -(niwV : Int) ≤ x → x ≤ niwV → -(nivV : Int) ≤ y → y < nivV →
      condAt S r i j k x w y = storedCond V.Sv.C.ingr iq x y (y - w) := by
    intro x y x1 x2 y1 y2
    unfold condAt
    rw [hfc, o1, o3, e4_list _ _ _ _ _ _ _ _ _ _ hl (by omega) (by omega) (by omega)]
    congr 1 <;> omega
  have b1' : (niwV : Int) ≤ I.w := by exact_mod_cast b1
  have b3' : (nivV : Int) + niwC = I.c := by exact_mod_cast b3
  obtain ⟨hv1, hv2⟩ := hval w' (show -(I.w : Int) ≤ w' by omega) (show w' ≤ (I.w : Int) by omega) v (v - w) (show -(I.c : Int) ≤ v by omega)
    (show v < (I.c : Int) by omega) (show -(I.c : Int) ≤ v - w by omega) (show v - w < (I.c : Int) by omega)
  have hT : condOf V.Sv.C.ingr iq w' v (v - w) = -(1 / 2) * FD - 3 / 2 * FM := by
    rw [hv1, hFM, hFD, hB]
    rfl
  refine ⟨fun h0 => ?_, fun h0 => ⟨?_, fun hv => ?_⟩⟩
  · rw [hat w' v w1 w2 v1 v2, storedCond, if_pos h0, hT]
  · rw [hat w' v w1 w2 v1 v2, storedCond, if_neg (by omega)]
  · rw [o3] at hv
    rw [hat (-w') (w - v - 1) (by omega) (by omega) (by omega) hv, storedCond, if_pos (by omega), ← hT]
    rw [show w - v - 1 = -(v - w) - 1 by ring, show -(v - w) - 1 - w = -v - 1 by ring, hv2, Complex.conj_conj]

end Files

end DGA.Pairing
