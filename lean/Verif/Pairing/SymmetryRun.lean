import Verif.Pairing.Symmetry
import Verif.Eliash.Converge2

/-
  C117: from the quantities of the ladder calculation over the saved pairing vertex to the eigenvalues of the Eliashberg equation.
-/

noncomputable section

namespace DGA.Pairing

open DGA.RankFiles DGA.Mpi DGA.Pipe DGA.Fp
open DGA.Eli (Grid Run)

local notation "conj" => starRingEnd ℂ

/-! ### The components the program writes -/

theorem ladder_cm {n : Nat} (X : Mat n ℂ) (vrg g0 : Vec n ℂ) (beta ur : ℂ) (hb : star beta = beta) (hu : star ur = ur) :
    ladderComponents (cm X) (cv vrg) (cv g0) beta ur = (cm (ladderComponents X vrg g0 beta ur).1, cm (ladderComponents X vrg g0 beta ur).2) := by
  refine Prod.ext ?_ ?_
  · ext i j
    simp only [ladderComponents, cm, cv, Matrix.of_apply, Fin.rev_inj, star_mulC, star_divC, star_sub, star_pow, star_one, hb]
    by_cases h : i = j <;> simp [h]
  · ext i j
    simp only [ladderComponents, cm, cv, Matrix.of_apply, star_mulC, hu]

/-- the entry of a box matrix at two Matsubara indices (0 outside) -/
def atMx {n : Nat} (M : Mat (2 * n) ℂ) (v v' : Int) : ℂ := atV (fun i => atV (fun j => M i j) v') v

theorem atMx_cm {n : Nat} (M : Mat (2 * n) ℂ) (v v' : Int) : atMx (cm M) (-v - 1) (-v' - 1) = conj (atMx M v v') := by
  have h1 : ∀ i, atV (fun j => cm M i j) (-v' - 1) = star (atV (fun j => M i.rev j) v') := by
    intro i
    rw [← atV_cv]; rfl
  unfold atMx
  simp only [h1]
  exact atV_cv (fun i => atV (fun j => M i j) v') v

/-- pairing_vertex.py:79-95: the two components handed to `get_pp_slice_4pt` for the irreducible momentum `iq` (at `rep iq`) and the bosonic
    frequency `w`, from the irreducible vertex `Γ` and the bubble `B` of the calculation (high_level_routines.py
    `construct_vrg_and_chi_q_urange`); zero outside the boxes -/
def comp {c : Nat} (second : Bool) (niw : Nat) (beta ur : ℂ) (Γ : Int → Mat (2 * c) ℂ) (B : Mom → Int → Int → ℂ) (rep : Nat → Mom) (iq : Nat)
    (w v v' : Int) : ℂ :=
  if -(niw : Int) ≤ w ∧ w ≤ niw then
    let X := XQ beta ur Γ B (rep iq) w
    let g0 := Pipe.onBox c (B (rep iq) w)
    let f := ladderComponents X (vrgSlice true X g0) g0 beta ur
    atMx (if second then f.2 else f.1) v v'
  else 0

/-- susceptibility of a channel after the lambda correction, at an irreducible momentum -/
def chiIrr {c : Nat} (s niw : Nat) (beta ur : ℂ) (lam : Option ℂ) (Γ : Int → Mat (2 * c) ℂ) (B : Mom → Int → Int → ℂ) (rep : Nat → Mom) (iq : Nat)
    (w : Int) : ℂ := if -(niw : Int) ≤ w ∧ w ≤ niw then corrected lam (CQ s beta ur Γ B (rep iq) w) else 0

/-- the data of a ladder calculation that enter the pairing vertex -/
structure Calc (nx ny nz c : Nat) where
  s : Nat
  niw : Nat
  N : Nat
  beta : ℝ
  u : ℝ
  lamD : Option ℝ
  lamM : Option ℝ
  ΓD : Int → Mat (2 * c) ℂ
  ΓM : Int → Mat (2 * c) ℂ
  G : Nat → Nat → Nat → Int → ℂ
  rep : Nat → Mom
  /-- the Green's function reaches far enough -/
  fit : niw + (c + s) ≤ N
  /-- `G(k,-v) = conj G(k,v)` -/
  hG : ∀ i j k, ∀ m : Int, -(N : Int) ≤ m → m < N → G i j k (-m - 1) = conj (G i j k m)
  /-- conjugation symmetry of the irreducible vertices (`gam_conj`: holds if the two-particle Green's functions have it) -/
  hD : ∀ x : Int, -(niw : Int) ≤ x ∧ x ≤ niw → ΓD (-x) = cm (ΓD x)
  hM : ∀ x : Int, -(niw : Int) ≤ x ∧ x ≤ niw → ΓM (-x) = cm (ΓM x)

namespace Calc

variable {nx ny nz c : Nat} (C : Calc nx ny nz c)

/-- the lattice bubble -/
def B : Mom → Int → Int → ℂ := bubQ nx ny nz (C.beta : ℂ) C.G

/-- what goes into the pairing vertex -/
def ingr : Ingr where
  f1M := comp false C.niw C.beta (-C.u) C.ΓM C.B C.rep
  f2M := comp true C.niw C.beta (-C.u) C.ΓM C.B C.rep
  f1D := comp false C.niw C.beta C.u C.ΓD C.B C.rep
  f2D := comp true C.niw C.beta C.u C.ΓD C.B C.rep
  chiM := chiIrr C.s C.niw C.beta (-C.u) (C.lamM.map (↑)) C.ΓM C.B C.rep
  chiD := chiIrr C.s C.niw C.beta C.u (C.lamD.map (↑)) C.ΓD C.B C.rep
  u := C.u

theorem starR (x : ℝ) : star (x : ℂ) = x := Complex.conj_ofReal x

theorem starR' (x : ℝ) : star (-(x : ℂ)) = -x := by rw [star_neg, starR]

theorem hB (q : Mom) (x : Int) (hx : -(C.niw : Int) ≤ x ∧ x ≤ C.niw) (n : Nat) (hn : n ≤ c + C.s) :
    Pipe.onBox n (C.B q (-x)) = cv (Pipe.onBox n (C.B q x)) :=
  bubQ_conj nx ny nz (C.beta : ℂ) (starR _) C.G C.N C.niw n C.hG (by have := C.fit; omega) q x hx

theorem comp_conj (ur : ℂ) (hu : star ur = ur) (Γ : Int → Mat (2 * c) ℂ)
    (hΓ : ∀ x : Int, -(C.niw : Int) ≤ x ∧ x ≤ C.niw → Γ (-x) = cm (Γ x)) (second : Bool) :
    ConjSymm (comp second C.niw C.beta ur Γ C.B C.rep) := by
  intro iq w v v'
  unfold comp
  by_cases hw : -(C.niw : Int) ≤ w ∧ w ≤ C.niw
  · rw [if_pos hw, if_pos ⟨by omega, by omega⟩]
    simp only
    have hX := XQ_conj C.s (C.beta : ℂ) ur (starR _) hu Γ C.B (C.rep iq) w (hΓ w hw) (fun n hn => C.hB (C.rep iq) w hw n hn)
    rw [hX, C.hB (C.rep iq) w hw c (by omega), vrg_cm, ladder_cm _ _ _ _ _ (starR _) hu]
    cases second <;> exact atMx_cm _ _ _
  · rw [if_neg hw, if_neg (by omega), map_zero]

theorem chiIrr_conj (ur : ℂ) (hu : star ur = ur) (lam : Option ℝ) (Γ : Int → Mat (2 * c) ℂ)
    (hΓ : ∀ x : Int, -(C.niw : Int) ≤ x ∧ x ≤ C.niw → Γ (-x) = cm (Γ x)) (iq : Nat) (w : Int) :
    chiIrr C.s C.niw C.beta ur (lam.map (↑)) Γ C.B C.rep iq (-w) = conj (chiIrr C.s C.niw C.beta ur (lam.map (↑)) Γ C.B C.rep iq w) := by
  unfold chiIrr
  by_cases hw : -(C.niw : Int) ≤ w ∧ w ≤ C.niw
  · rw [if_pos hw, if_pos ⟨by omega, by omega⟩,
      CQ_conj C.s (C.beta : ℂ) ur (starR _) hu Γ C.B (C.rep iq) w (hΓ w hw) (fun n hn => C.hB (C.rep iq) w hw n hn), corrected_star]
    · rfl
    · intro l hl
      cases lam with
      | none => simp at hl
      | some r =>
        simp only [Option.map_some, Option.some.injEq] at hl
        rw [← hl]; exact starR r
  · rw [if_neg hw, if_neg (by omega), map_zero]

/-- Hermitian and reversal symmetry of the assembled vertex -/
theorem ingr_symm (sing : Bool) (iq : Nat) (v v' : Int) :
    conj (C.ingr.pp sing iq v v') = C.ingr.pp sing iq v' v ∧
    C.ingr.pp sing iq (-v - 1) (-v' - 1) = conj (C.ingr.pp sing iq v v') := by
  have hu : conj C.ingr.u = C.ingr.u := Complex.conj_ofReal C.u
  have hM : ∀ q w, C.ingr.chiM q (-w) = conj (C.ingr.chiM q w) := C.chiIrr_conj (-C.u) (starR' _) C.lamM C.ΓM C.hM
  have hD : ∀ q w, C.ingr.chiD q (-w) = conj (C.ingr.chiD q w) := C.chiIrr_conj C.u (starR _) C.lamD C.ΓD C.hD
  exact ⟨pp_herm C.ingr hu hM hD sing iq v v', pp_rev C.ingr hu hM hD (C.comp_conj _ (starR' _) _ C.hM _) (C.comp_conj _ (starR' _) _ C.hM _)
    (C.comp_conj _ (starR _) _ C.hD _) (C.comp_conj _ (starR _) _ C.hD _) sing iq v v'⟩

end Calc

/-! ### The saved arrays -/

section saved

variable {nx ny nz : Nat} [NeZero nx] [NeZero ny] [NeZero nz]

/-- the file `F_sing_pp.npy` (`F_trip_pp.npy`) as the array the solver loads (pairing_vertex.py:168-169, eliashberg_equation.py:107-110) -/
def savedF (sing : Bool) (fb : List Nat) (nivpp : Nat) (f1M f2M f1D f2D : List (File PvGroup)) (chiM chiD : Grid nx ny nz → List ℂ) (u : ℂ) :
    Grid nx ny nz → Fin (2 * nivpp) → Fin (2 * nivpp) → ℂ := fun q v v' =>
  match buildPairing fb nivpp f1M f2M f1D f2D chiM chiD u q with
  | some (fS, fT) => if sing then fS v v' else fT v v'
  | none => 0

theorem savedF_value (I : Ingr) (fb : List Nat) (R niw niv : Nat) (f1M f2M f1D f2D : List (File PvGroup))
    (chiM chiD : Grid nx ny nz → List ℂ) (h : Inputs I fb R niw niv f1M f2M f1D f2D chiM chiD) (sing : Bool) (q : Grid nx ny nz) :
    ∃ iq, irrOf fb q = some iq ∧ ∀ v v' : Fin (2 * nivPP niw niv), savedF sing fb (nivPP niw niv) f1M f2M f1D f2D chiM chiD I.u q v v' =
      I.pp sing iq ((v : Nat) - (nivPP niw niv : Int)) ((v' : Nat) - (nivPP niw niv : Int)) := by
  obtain ⟨iq, fS, fT, h1, -, h2, h3⟩ := buildPairing_value I fb R niw niv f1M f2M f1D f2D chiM chiD h q
  refine ⟨iq, h1, fun v v' => ?_⟩
  obtain ⟨e1, e2⟩ := h3 v v' v.isLt v'.isLt
  unfold savedF
  rw [h2]
  cases sing
  · simpa using e2
  · simpa using e1

theorem rev_idx {n : Nat} (v : Fin (2 * n)) : (((v.rev : Fin (2 * n)) : Nat) : Int) - n = -(((v : Nat) : Int) - n) - 1 := by
  rw [Fin.val_rev]; have := v.isLt; omega

/-- The run of the program up to the saved pairing vertex: a calculation, a zone map, and the rank files it wrote. -/
structure Saved (nx ny nz c : Nat) [NeZero nx] [NeZero ny] [NeZero nz] where
  C : Calc nx ny nz c
  syms : List Bz.Sym
  hs : syms ∈ Bz.predefined
  m : Bz.Arr3 Nat
  hm : Bz.fbz2irrk nx ny nz syms = some m
  R : Nat
  f1M : List (File PvGroup)
  f2M : List (File PvGroup)
  f1D : List (File PvGroup)
  f2D : List (File PvGroup)
  chiM : Grid nx ny nz → List ℂ
  chiD : Grid nx ny nz → List ℂ
  inp : Inputs C.ingr (Bz.flat3 m) R C.niw c f1M f2M f1D f2D chiM chiD

namespace Saved

variable {c : Nat} (S : Saved nx ny nz c)

/-- pairing box -/
def npp : Nat := nivPP S.C.niw c

/-- the saved vertex -/
def F (sing : Bool) : Grid nx ny nz → Fin (2 * S.npp) → Fin (2 * S.npp) → ℂ :=
  savedF sing (Bz.flat3 S.m) (nivPP S.C.niw c) S.f1M S.f2M S.f1D S.f2D S.chiM S.chiD S.C.u

theorem value (sing : Bool) (q : Grid nx ny nz) : ∃ iq, irrOf (Bz.flat3 S.m) q = some iq ∧ ∀ v v' : Fin (2 * S.npp),
    S.F sing q v v' = S.C.ingr.pp sing iq ((v : Nat) - (S.npp : Int)) ((v' : Nat) - (S.npp : Int)) :=
  savedF_value S.C.ingr _ S.R S.C.niw c _ _ _ _ _ _ S.inp sing q

/-- **C117 (b).** Whatever the number of ranks, the box and the zone map: the saved vertices are Hermitian in the two frequencies at every
    momentum, reversing both frequencies conjugates them, and they take the same values at momenta related by the symmetries of
    the zone map. -/
theorem symmetries (sing : Bool) (q q' : Grid nx ny nz) (v v' : Fin (2 * S.npp)) :
    conj (S.F sing q v v') = S.F sing q v' v ∧ S.F sing q v.rev v'.rev = conj (S.F sing q v v') ∧
    (Bz.Related nx ny nz S.syms (ptOf q) (ptOf q') → S.F sing q v v' = S.F sing q' v v') := by
  obtain ⟨iq, h1, h2⟩ := S.value sing q
  refine ⟨?_, ?_, ?_⟩
  · rw [h2, h2]; exact (S.C.ingr_symm sing iq _ _).1
  · rw [h2, h2, rev_idx, rev_idx]; exact (S.C.ingr_symm sing iq _ _).2
  · intro hr
    obtain ⟨iq', h1', h2'⟩ := S.value sing q'
    have e := irrOf_related S.syms S.hs S.m S.hm q q' hr
    rw [h1, h1', Option.some.injEq] at e
    rw [h2, h2', e]

theorem related_one {σ : Bz.Sym} (h : σ ∈ S.syms) (q : Grid nx ny nz) (q' : Grid nx ny nz)
    (e : ptOf q' = Bz.image nx ny nz σ (ptOf q)) : Bz.Related nx ny nz S.syms (ptOf q) (ptOf q') := by
  rw [e]; exact .step h .refl

omit [NeZero nx] [NeZero ny] [NeZero nz] in
theorem ptOf_neg [NeZero nx] [NeZero ny] [NeZero nz] (q : Grid nx ny nz) :
    ptOf (-q.1, q.2.1, q.2.2) = Bz.image nx ny nz .xInv (ptOf q) ∧ ptOf (q.1, -q.2.1, q.2.2) = Bz.image nx ny nz .yInv (ptOf q) ∧
    ptOf (q.1, q.2.1, -q.2.2) = Bz.image nx ny nz .zInv (ptOf q) := by
  simp [ptOf, Bz.image, ZMod.neg_val']

/-- the inversion is among the symmetries -/
def Inversion : Prop := Bz.Sym.xInv ∈ S.syms ∧ Bz.Sym.yInv ∈ S.syms ∧ (Bz.Sym.zInv ∈ S.syms ∨ nz = 1)

theorem inversion_related (h : S.Inversion) (q : Grid nx ny nz) : Bz.Related nx ny nz S.syms (ptOf q) (ptOf (-q)) := by
  obtain ⟨hx, hy, hz⟩ := h
  have h1 : Bz.Related nx ny nz S.syms (ptOf q) (ptOf (-q.1, q.2.1, q.2.2)) := S.related_one hx q _ (ptOf_neg q).1
  have h2 : Bz.Related nx ny nz S.syms (ptOf q) (ptOf (-q.1, -q.2.1, q.2.2)) := by
    have := Bz.Related.step hy h1
    rwa [← (ptOf_neg (-q.1, q.2.1, q.2.2)).2.1] at this
  rcases hz with hz | hz
  · have := Bz.Related.step hz h2
    rwa [← (ptOf_neg (-q.1, -q.2.1, q.2.2)).2.2] at this
  · subst hz
    have : (-q : Grid nx ny 1) = (-q.1, -q.2.1, q.2.2) := by
      refine Prod.ext rfl (Prod.ext rfl (Subsingleton.elim _ _))
    rw [this]; exact h2

/-- a run of the solver on the saved vertex -/
def Loads (r : Run nx ny nz S.npp) : Prop := r.F = S.F (r.channel = "sing")

/-- **C117 (d).** The whole chain: a calculation with conjugation-symmetric Green's function and irreducible vertices, real `u` and `lambda`,
    written by any number of ranks, loaded, assembled, saved and handed to the Eliashberg solver.  For a named start gap and without
    shift all eigenvalues it reports are real and all gaps obey `Delta(k,-v) = ± conj Delta(k,v)`, symmetrised or not, in both
    channels. -/
theorem reported_eigenvalues_real (r : Run nx ny nz S.npp) (hl : S.Loads r) (hk : r.kSym ∈ Eli.namedK)
    (hG : ∀ k n, r.G k (-n - 1) = conj (r.G k n)) (hshift : r.shiftMat = false)
    (l : List (ℂ × (Grid nx ny nz × Fin (2 * S.npp) → ℂ))) (hres : r.result = some l) : ∀ p ∈ l, p.1.im = 0 ∧
      ∀ (k : Grid nx ny nz) (v : Fin (2 * S.npp)), p.2 (k, v.rev) = Eli.startSign r.kSym r.channel * conj (p.2 (k, v)) :=
  Eli.eigenvalues_real r hk (fun q v v' => by rw [hl]; exact (S.symmetries _ q q v v').2.1) hG (Or.inl hshift) l hres

end Saved

end saved

/-- **C117 (e).** On a square grid with the square-lattice symmetries and a Green's function that has them, d-wave gaps calculated from the
    saved vertex keep the d-wave form: even under `kx → -kx` and `ky → -ky`, odd under exchange of `kx` and `ky`. -/
theorem saved_d_wave {n nz c : Nat} [NeZero n] [NeZero nz] (S : Saved n n nz c) (hsq : Bz.Sym.xInv ∈ S.syms ∧ Bz.Sym.yInv ∈ S.syms ∧ Bz.Sym.xySym ∈ S.syms)
    (r : Run n n nz S.npp) (hl : S.Loads r) (hk : r.kSym = "d-wave")
    (hG : ∀ k m, r.G (-k.1, k.2.1, k.2.2) m = r.G k m ∧ r.G (k.1, -k.2.1, k.2.2) m = r.G k m ∧ r.G (k.2.1, k.1, k.2.2) m = r.G k m)
    (l : List (ℂ × (Grid n n nz × Fin (2 * S.npp) → ℂ))) (hres : r.result = some l) : ∀ p ∈ l, ∀ (k : Grid n n nz) (v : Fin (2 * S.npp)),
      p.2 ((-k.1, k.2.1, k.2.2), v) = p.2 (k, v) ∧ p.2 ((k.1, -k.2.1, k.2.2), v) = p.2 (k, v) ∧
      p.2 ((k.2.1, k.1, k.2.2), v) = -p.2 (k, v) := by
  refine Eli.d_wave_stays r hk (fun q v v' => ?_) hG l hres
  rw [hl]
  refine ⟨((S.symmetries _ q _ v v').2.2 (S.related_one hsq.1 q _ (Saved.ptOf_neg q).1)).symm,
    ((S.symmetries _ q _ v v').2.2 (S.related_one hsq.2.1 q _ (Saved.ptOf_neg q).2.1)).symm,
    ((S.symmetries _ q _ v v').2.2 (S.related_one hsq.2.2 q _ ?_)).symm⟩
  simp [ptOf, Bz.image]

/-- **C117 (f).** With the inversion among the symmetries, the vertex of the solver (not symmetrised in frequency) fulfils the condition under
    which the power iteration finds the leading eigenvalue (C101). -/
theorem saved_leading {nx ny nz c : Nat} [NeZero nx] [NeZero ny] [NeZero nz] (S : Saved nx ny nz c) (hinv : S.Inversion) (sing : Bool)
    (q : Grid nx ny nz) (v v' : Fin (2 * S.npp)) : conj (-S.F sing q v v') = -S.F sing (-q) v' v := by
  rw [map_neg, (S.symmetries sing q q v v').1, (S.symmetries sing q (-q) v' v).2.2 (S.inversion_related hinv q)]

/-! ### Every calculation gives such a run -/

/-- for every number of ranks, every task number, box and component there are rank files written that way -/
theorem pvWritten_exists (n R niw niv : Nat) (hR : 0 < R) (F : Nat → Int → Int → Int → ℂ) : ∃ files, PvWritten n R niw niv F files := by
  obtain ⟨parts, hlen, hparts, hflat⟩ := tasks_concat n R hR
  have hnd : ∀ ts ∈ parts, ts.Nodup := by
    have h : parts.flatten.Nodup := by rw [hflat]; exact List.nodup_range
    exact (List.nodup_flatten.mp h).1
  refine ⟨parts.map fun ts => [] ++ entries "pv_".toList ts (wnPP (nivPP niw niv) (wnRange niw))
    (pvGroup niv (nivPP niw niv) fun q w => onBox niv (F q w)), by simp [hlen], ?_⟩
  intro r f hf
  rw [List.getElem?_map, Option.map_eq_some_iff] at hf
  obtain ⟨ts, hts, rfl⟩ := hf
  have hr : r < R := by
    have := (List.getElem?_eq_some_iff.mp hts).1; omega
  have hloc : ∀ i q, ts[i]? = some q → ∀ j w, (wnRange niw)[j]? = some w →
      (fun (i j : Nat) => onBox niv (F (ts.getD i 0) ((wnRange niw).getD j 0))) i j = onBox niv (F q w) := by
    intro i q hq j w hw
    simp [List.getD_eq_getElem?_getD, hq, hw]
  exact ⟨ts, _, [], by rw [hparts r hr, hts], hloc, by simp, by simp,
    writePairing_eq niv _ ts (wnRange niw) _ (fun q w => onBox niv (F q w)) [] (hnd ts (List.mem_of_getElem? hts)) (Py.nodup_arange _ _)
      (by simp) (by simp) hloc⟩

/-- **C117 (g).** No calculation is excluded: for every one with a pairing box, every number of ranks and every predefined symmetry set, the
    files exist and the chain above applies. -/
theorem saved_exists {nx ny nz c : Nat} [NeZero nx] [NeZero ny] [NeZero nz] (C : Calc nx ny nz c) (hbox : 0 < nivPP C.niw c) (R : Nat) (hR : 0 < R)
    (syms : List Bz.Sym) (hs : syms ∈ Bz.predefined) : ∃ S : Saved nx ny nz c, S.C = C ∧ S.syms = syms ∧ S.R = R := by
  obtain ⟨bx, bY, bz, bxy, e, hc⟩ := Bz.predefined_family syms hs
  obtain ⟨m, hm, hme⟩ := Bz.fbz2irrk_at nx ny nz bx bY bz bxy hc
  rw [← e] at hm
  obtain ⟨f1, h1⟩ := pvWritten_exists (Bz.uniq (Bz.flat3 m)).length R C.niw c hR C.ingr.f1M
  obtain ⟨f2, h2⟩ := pvWritten_exists (Bz.uniq (Bz.flat3 m)).length R C.niw c hR C.ingr.f2M
  obtain ⟨f3, h3⟩ := pvWritten_exists (Bz.uniq (Bz.flat3 m)).length R C.niw c hR C.ingr.f1D
  obtain ⟨f4, h4⟩ := pvWritten_exists (Bz.uniq (Bz.flat3 m)).length R C.niw c hR C.ingr.f2D
  refine ⟨⟨C, syms, hs, m, hm, R, f1, f2, f3, f4, fun q => Bubble.samplesB (C.ingr.chiM ((irrOf (Bz.flat3 m) q).getD 0)) C.niw,
    fun q => Bubble.samplesB (C.ingr.chiD ((irrOf (Bz.flat3 m) q).getD 0)) C.niw, ⟨hR, h1, h2, h3, h4, ?_, ?_, hbox, ?_⟩⟩, rfl, rfl, rfl⟩
  · intro q iq h; rw [h]; rfl
  · intro q iq h; rw [h]; rfl
  · rw [hme, Bz.flat3_table]; simp

/-- a calculation: 4x4 grid, free electrons, constant irreducible vertices -/
def exCalc : Calc 4 4 1 2 where
  s := 0
  niw := 2
  N := 4
  beta := 10
  u := 2
  lamD := none
  lamM := some 1
  ΓD := fun _ => Matrix.of fun _ _ => 1
  ΓM := fun _ => Matrix.of fun _ _ => -1
  G := fun i j _ n => 1 / (((i : ℝ) - (j : ℝ) : ℝ) + Complex.I * ((2 * (n : ℝ) + 1 : ℝ) : ℂ))
  rep := fun _ => (0, 0, 0)
  fit := by decide
  hG := by
    intro i j k m _ _
    simp only [map_div₀, map_one, map_add, map_mul, Complex.conj_ofReal, Complex.conj_I]
    push_cast
    ring_nf
  hD := fun x _ => by ext i j; simp [cm]
  hM := fun x _ => by ext i j; simp [cm]

example : ∃ S : Saved 4 4 1 2, S.C = exCalc ∧ S.syms = Bz.square ∧ S.R = 3 ∧ S.Inversion ∧ S.npp = 1 := by
  obtain ⟨S, h1, h2, h3⟩ := saved_exists exCalc (by decide) 3 (by decide) Bz.square (by simp [Bz.predefined])
  refine ⟨S, h1, h2, h3, ?_, ?_⟩
  · unfold Saved.Inversion; rw [h2]; decide
  · unfold Saved.npp; rw [h1]; decide

end DGA.Pairing
