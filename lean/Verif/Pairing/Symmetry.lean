import Verif.Pairing.Props
import Verif.Matsubara.Props2
import Verif.Bz.Props2
import Verif.Pipeline.Conj
import Verif.Eliash.ConjSector

/-
  C117: `build_pairing_vertex` (pairing_vertex.py:135-169) and the symmetries of the vertex it saves, up to the Eliashberg solver.
-/

noncomputable section

namespace DGA.Pairing

open DGA.RankFiles DGA.Mpi
open DGA.Eli (Grid)

local notation "conj" => starRingEnd ℂ

/-- position of a momentum in the flattened zone (C order) -/
def flatQ {nx ny nz : Nat} (q : Grid nx ny nz) : Nat := (q.1.val * ny + q.2.1.val) * nz + q.2.2.val

/-- brillouin_zone.py:248-256 `map_irrk2fbz(mat, shape='mesh')` of a momentum-first array: the entry at `q` is the one of its
    irreducible point -/
def irrOf {nx ny nz : Nat} (f : List Nat) (q : Grid nx ny nz) : Option Nat := (Bz.irrkInv f)[flatQ q]?

/-- pairing_vertex.py:135-152 `build_pairing_vertex`: the arrays `f_sing`, `f_trip` at the momentum `q`.  `fb` is the flattened
    zone map of the q grid, the four lists are the rank files (one vertex component each), `chiM`, `chiD` the corrected
    susceptibilities on the zone.  Plots and the final `save_data` are left out. -/
def buildPairing {nx ny nz : Nat} (fb : List Nat) (nivpp : Nat) (f1M f2M f1D f2D : List (File PvGroup)) (chiM chiD : Grid nx ny nz → List ℂ)
    (u : ℂ) (q : Grid nx ny nz) : Option (Mat2 × Mat2) :=
  let nq := (Bz.uniq fb).length
  (loadPairing nq nivpp f1M).bind fun a1M => (loadPairing nq nivpp f2M).bind fun a2M =>
    (loadPairing nq nivpp f1D).bind fun a1D => (loadPairing nq nivpp f2D).bind fun a2D =>
      (Mf.reshapeChi (chiM q) nivpp).bind fun cM => (Mf.reshapeChi (chiD q) nivpp).bind fun cD =>
        (irrOf fb q).map fun iq =>
          let st : Nat → Nat → ℂ × ℂ := fun i j => singTrip u (a1M iq i j) (a2M iq i j) (a1D iq i j) (a2D iq i j)
            (((cM[i]?).bind (·[j]?)).getD 0) (((cD[i]?).bind (·[j]?)).getD 0)
          (fun i j => (st i j).1, fun i j => (st i j).2)

/-! ### Specification -/

/-- Hermitian average of the pairing-channel value -/
def H (F : Nat → Int → Int → Int → ℂ) (q : Nat) (v v' : Int) : ℂ := (P F q v v' + conj (P F q v' v)) / 2

/-- the four components and the susceptibilities that enter as functions of the irreducible momentum and of
    Matsubara indices (the susceptibilities too are calculated on the irreducible momenta, dga_main.py:147-153) -/
structure Ingr where
  f1M : Nat → Int → Int → Int → ℂ
  f2M : Nat → Int → Int → Int → ℂ
  f1D : Nat → Int → Int → Int → ℂ
  f2D : Nat → Int → Int → Int → ℂ
  chiM : Nat → Int → ℂ
  chiD : Nat → Int → ℂ
  u : ℂ

/-- magnetic vertex in the pairing channel -/
def Ingr.magn (I : Ingr) (iq : Nat) (v v' : Int) : ℂ :=
  H I.f1M iq v v' + (1 + I.u * I.chiM iq (v - v')) * H I.f2M iq v v'

/-- density vertex in the pairing channel -/
def Ingr.dens (I : Ingr) (iq : Nat) (v v' : Int) : ℂ :=
  H I.f1D iq v v' + (1 - I.u * I.chiD iq (v - v')) * H I.f2D iq v v'

/-- singlet and triplet combination -/
def Ingr.pp (I : Ingr) (sing : Bool) (iq : Nat) (v v' : Int) : ℂ :=
  if sing then 3 / 2 * I.magn iq v v' - 1 / 2 * I.dens iq v v' else 1 / 2 * I.magn iq v v' + 1 / 2 * I.dens iq v v'

theorem samplesB_length (X : Int → ℂ) (N : Nat) : (Bubble.samplesB X N).length = 2 * N + 1 := by
  simp [Bubble.samplesB, Mf.wn_length]

theorem samplesB_atB (X : Int → ℂ) (N : Nat) (n : Int) (h1 : -(N : Int) ≤ n) (h2 : n ≤ N) : Mf.atB (Bubble.samplesB X N) n = some (X n) := by
  rw [Mf.atB_eq _ _ (samplesB_length X N), if_pos ⟨by omega, by omega⟩]
  unfold Bubble.samplesB
  rw [List.getElem?_map, Mf.wn_get? _ _ (by omega), Option.map_some]
  congr 2
  omega

theorem reshape_entry (chi : List ℂ) (niw niv : Nat) (X : Int → ℂ) (hchi : chi = Bubble.samplesB X niw) (i j : Nat)
    (hi : i < 2 * nivPP niw niv) (hj : j < 2 * nivPP niw niv) :
    ∃ m, Mf.reshapeChi chi (nivPP niw niv) = some m ∧ ((m[i]?).bind (·[j]?)).getD 0 = X ((i : Int) - j) := by
  have hpp : nivPP niw niv ≤ niw / 2 := by unfold nivPP; omega
  have hlen : chi.length = 2 * niw + 1 := by rw [hchi, samplesB_length]
  obtain ⟨m, hm, h1, h2, h3⟩ := Mf.reshapeChi_value chi niw (nivPP niw niv) hlen (by omega)
  refine ⟨m, hm, ?_⟩
  obtain ⟨e, -⟩ := h3 ((i : Int) - nivPP niw niv) ((j : Int) - nivPP niw niv) (by omega) (by omega) (by omega) (by omega)
  unfold Mf.at2 at e
  rw [Mf.atF_eq m _ h1, if_pos ⟨by omega, by omega⟩, show ((i : Int) - nivPP niw niv + nivPP niw niv).toNat = i by omega] at e
  have hrow : i < m.length := by omega
  rw [List.getElem?_eq_getElem hrow, Option.bind_some, Mf.atF_eq _ _ (h2 _ (List.getElem_mem hrow)), if_pos ⟨by omega, by omega⟩,
    show ((j : Int) - nivPP niw niv + nivPP niw niv).toNat = j by omega] at e
  rw [List.getElem?_eq_getElem hrow, Option.bind_some, e, hchi,
    show ((i : Int) - nivPP niw niv - ((j : Int) - nivPP niw niv)) = (i : Int) - j by omega, samplesB_atB _ _ _ (by omega) (by omega)]
  rfl

/-- the files hold the components, the arrays the susceptibilities -/
structure Inputs {nx ny nz : Nat} (I : Ingr) (fb : List Nat) (R niw niv : Nat) (f1M f2M f1D f2D : List (File PvGroup))
    (chiM chiD : Grid nx ny nz → List ℂ) : Prop where
  hR : 0 < R
  w1M : PvWritten (Bz.uniq fb).length R niw niv I.f1M f1M
  w2M : PvWritten (Bz.uniq fb).length R niw niv I.f2M f2M
  w1D : PvWritten (Bz.uniq fb).length R niw niv I.f1D f1D
  w2D : PvWritten (Bz.uniq fb).length R niw niv I.f2D f2D
  cM : ∀ q iq, irrOf fb q = some iq → chiM q = Bubble.samplesB (I.chiM iq) niw
  cD : ∀ q iq, irrOf fb q = some iq → chiD q = Bubble.samplesB (I.chiD iq) niw
  box : 0 < nivPP niw niv
  flen : fb.length = nx * ny * nz

theorem flatQ_lt {nx ny nz : Nat} [NeZero nx] [NeZero ny] [NeZero nz] (q : Grid nx ny nz) : flatQ q < nx * ny * nz := by
  unfold flatQ
  have h1 := ZMod.val_lt q.1
  have h2 := ZMod.val_lt q.2.1
  have h3 := ZMod.val_lt q.2.2
  have a : q.1.val * ny + q.2.1.val < nx * ny := by
    calc q.1.val * ny + q.2.1.val < q.1.val * ny + ny := by omega
      _ = (q.1.val + 1) * ny := by ring
      _ ≤ nx * ny := Nat.mul_le_mul_right _ h1
  calc (q.1.val * ny + q.2.1.val) * nz + q.2.2.val < (q.1.val * ny + q.2.1.val) * nz + nz := by omega
    _ = (q.1.val * ny + q.2.1.val + 1) * nz := by ring
    _ ≤ nx * ny * nz := Nat.mul_le_mul_right _ a

variable {nx ny nz : Nat} [NeZero nx] [NeZero ny] [NeZero nz]

/-- **C117 (a).** The saved vertices: for every number of ranks, box, zone map and set of components, the routine succeeds at every
    momentum and the entry at `(v, v')` is the singlet (triplet) combination of the Hermitian averages of the components and
    the susceptibilities at `w = v - v'`. -/
theorem buildPairing_value (I : Ingr) (fb : List Nat) (R niw niv : Nat) (f1M f2M f1D f2D : List (File PvGroup))
    (chiM chiD : Grid nx ny nz → List ℂ) (h : Inputs I fb R niw niv f1M f2M f1D f2D chiM chiD) (q : Grid nx ny nz) :
    ∃ iq fS fT, irrOf fb q = some iq ∧ iq < (Bz.uniq fb).length ∧
      buildPairing fb (nivPP niw niv) f1M f2M f1D f2D chiM chiD I.u q = some (fS, fT) ∧
      ∀ i j, i < 2 * nivPP niw niv → j < 2 * nivPP niw niv →
        fS i j = I.pp true iq ((i : Int) - nivPP niw niv) ((j : Int) - nivPP niw niv) ∧
        fT i j = I.pp false iq ((i : Int) - nivPP niw niv) ((j : Int) - nivPP niw niv) := by
  have hlen : (Bz.irrkInv fb).length = nx * ny * nz := by rw [← h.flen]; simp [Bz.irrkInv]
  have hlt : flatQ q < (Bz.irrkInv fb).length := by rw [hlen]; exact flatQ_lt q
  have hq : irrOf fb q = some (Bz.irrkInv fb)[flatQ q] := List.getElem?_eq_getElem hlt
  obtain ⟨a1M, l1, e1⟩ := pairing_entry _ R niw niv h.hR I.f1M f1M h.w1M
  obtain ⟨a2M, l2, e2⟩ := pairing_entry _ R niw niv h.hR I.f2M f2M h.w2M
  obtain ⟨a1D, l3, e3⟩ := pairing_entry _ R niw niv h.hR I.f1D f1D h.w1D
  obtain ⟨a2D, l4, e4⟩ := pairing_entry _ R niw niv h.hR I.f2D f2D h.w2D
  have hb := h.box
  obtain ⟨cM, m1, -⟩ := reshape_entry (chiM q) niw niv (I.chiM (Bz.irrkInv fb)[flatQ q]) (h.cM q _ hq) 0 0 (by omega) (by omega)
  obtain ⟨cD, m2, -⟩ := reshape_entry (chiD q) niw niv (I.chiD (Bz.irrkInv fb)[flatQ q]) (h.cD q _ hq) 0 0 (by omega) (by omega)
  have hiq : (Bz.irrkInv fb)[flatQ q] < (Bz.uniq fb).length := Bz.irrkInv_lt fb _ (List.getElem_mem hlt)
  refine ⟨(Bz.irrkInv fb)[flatQ q],
    fun i j => (singTrip I.u (a1M (Bz.irrkInv fb)[flatQ q] i j) (a2M (Bz.irrkInv fb)[flatQ q] i j) (a1D (Bz.irrkInv fb)[flatQ q] i j)
      (a2D (Bz.irrkInv fb)[flatQ q] i j) (((cM[i]?).bind (·[j]?)).getD 0) (((cD[i]?).bind (·[j]?)).getD 0)).1,
    fun i j => (singTrip I.u (a1M (Bz.irrkInv fb)[flatQ q] i j) (a2M (Bz.irrkInv fb)[flatQ q] i j) (a1D (Bz.irrkInv fb)[flatQ q] i j)
      (a2D (Bz.irrkInv fb)[flatQ q] i j) (((cM[i]?).bind (·[j]?)).getD 0) (((cD[i]?).bind (·[j]?)).getD 0)).2, List.getElem?_eq_getElem hlt, hiq, ?_, ?_⟩
  · unfold buildPairing irrOf
    simp only [l1, l2, l3, l4, m1, m2, List.getElem?_eq_getElem hlt, Option.bind_some, Option.map_some]
  · intro i j hi hj
    have t : ∀ (k : Nat), (((k : Int) - nivPP niw niv) + nivPP niw niv).toNat = k := fun k => by omega
    have g1 := e1 _ hiq ((i : Int) - nivPP niw niv) ((j : Int) - nivPP niw niv) (by omega) (by omega) (by omega) (by omega)
    have g2 := e2 _ hiq ((i : Int) - nivPP niw niv) ((j : Int) - nivPP niw niv) (by omega) (by omega) (by omega) (by omega)
    have g3 := e3 _ hiq ((i : Int) - nivPP niw niv) ((j : Int) - nivPP niw niv) (by omega) (by omega) (by omega) (by omega)
    have g4 := e4 _ hiq ((i : Int) - nivPP niw niv) ((j : Int) - nivPP niw niv) (by omega) (by omega) (by omega) (by omega)
    rw [t, t] at g1 g2 g3 g4
    obtain ⟨cM', m1', k1⟩ := reshape_entry (chiM q) niw niv (I.chiM (Bz.irrkInv fb)[flatQ q]) (h.cM q _ hq) i j hi hj
    obtain ⟨cD', m2', k2⟩ := reshape_entry (chiD q) niw niv (I.chiD (Bz.irrkInv fb)[flatQ q]) (h.cD q _ hq) i j hi hj
    rw [m1, Option.some.injEq] at m1'
    rw [m2, Option.some.injEq] at m2'
    subst m1' m2'
    have ew : ((i : Int) - nivPP niw niv) - ((j : Int) - nivPP niw niv) = (i : Int) - j := by omega
    simp only [singTrip, g1, g2, g3, g4, k1, k2, Ingr.pp, Ingr.magn, Ingr.dens, H, ew, if_true, Bool.false_eq_true, if_false, and_self]

/-! ### Symmetries -/

omit [NeZero nx] [NeZero ny] [NeZero nz] in
theorem H_herm (F : Nat → Int → Int → Int → ℂ) (q : Nat) (v v' : Int) : conj (H F q v v') = H F q v' v := by
  unfold H
  rw [map_div₀, map_add, Complex.conj_conj, map_ofNat]; ring

/-- Hermitian for every vertex, if the susceptibilities obey `chi(q,-w) = conj chi(q,w)` and `u` is real -/
theorem pp_herm (I : Ingr) (hu : conj I.u = I.u) (hM : ∀ q w, I.chiM q (-w) = conj (I.chiM q w))
    (hD : ∀ q w, I.chiD q (-w) = conj (I.chiD q w)) (sing : Bool) (iq : Nat) (v v' : Int) :
    conj (I.pp sing iq v v') = I.pp sing iq v' v := by
  have e : v' - v = -(v - v') := by ring
  have h1 : conj (I.magn iq v v') = I.magn iq v' v := by
    unfold Ingr.magn
    rw [map_add, map_mul, map_add, map_mul, map_one, hu, H_herm, H_herm, e, hM]
  have h2 : conj (I.dens iq v v') = I.dens iq v' v := by
    unfold Ingr.dens
    rw [map_add, map_mul, map_sub, map_mul, map_one, hu, H_herm, H_herm, e, hD]
  unfold Ingr.pp
  split_ifs
  · rw [map_sub, map_mul, map_mul, h1, h2]; simp [map_ofNat]
  · rw [map_add, map_mul, map_mul, h1, h2]; simp [map_ofNat]

/-- conjugation symmetry of a component -/
def ConjSymm (F : Nat → Int → Int → Int → ℂ) : Prop := ∀ q w v v', F q (-w) (-v - 1) (-v' - 1) = conj (F q w v v')

omit [NeZero nx] [NeZero ny] [NeZero nz] in
theorem H_rev (F : Nat → Int → Int → Int → ℂ) (hF : ConjSymm F) (q : Nat) (v v' : Int) :
    H F q (-v - 1) (-v' - 1) = conj (H F q v v') := by
  have key : ∀ a b : Int, P F q (-a - 1) (-b - 1) = conj (P F q a b) := by
    intro a b
    unfold P
    rw [map_neg, ← hF q (a - b) a (-b - 1)]
    congr 2
    ring
  unfold H
  rw [key, key, map_div₀, map_add, map_ofNat]

/-- reversal of both frequencies conjugates the vertex -/
theorem pp_rev (I : Ingr) (hu : conj I.u = I.u) (hM : ∀ q w, I.chiM q (-w) = conj (I.chiM q w))
    (hD : ∀ q w, I.chiD q (-w) = conj (I.chiD q w)) (h1M : ConjSymm I.f1M) (h2M : ConjSymm I.f2M) (h1D : ConjSymm I.f1D)
    (h2D : ConjSymm I.f2D) (sing : Bool) (iq : Nat) (v v' : Int) :
    I.pp sing iq (-v - 1) (-v' - 1) = conj (I.pp sing iq v v') := by
  have e : -v - 1 - (-v' - 1) = -(v - v') := by ring
  have h1 : I.magn iq (-v - 1) (-v' - 1) = conj (I.magn iq v v') := by
    unfold Ingr.magn
    rw [map_add, map_mul, map_add, map_mul, map_one, hu, H_rev _ h1M, H_rev _ h2M, e, hM]
  have h2 : I.dens iq (-v - 1) (-v' - 1) = conj (I.dens iq v v') := by
    unfold Ingr.dens
    rw [map_add, map_mul, map_sub, map_mul, map_one, hu, H_rev _ h1D, H_rev _ h2D, e, hD]
  unfold Ingr.pp
  split_ifs
  · rw [map_sub, map_mul, map_mul, h1, h2]; simp [map_ofNat]
  · rw [map_add, map_mul, map_mul, h1, h2]; simp [map_ofNat]

/-- grid point of a momentum -/
def ptOf (q : Grid nx ny nz) : Nat × Nat × Nat := (q.1.val, q.2.1.val, q.2.2.val)

theorem ptOf_inGrid (q : Grid nx ny nz) : Bz.InGrid nx ny nz (ptOf q) := ⟨ZMod.val_lt _, ZMod.val_lt _, ZMod.val_lt _⟩

/-- momenta mapped to each other by a symmetry of the zone map have the same irreducible point -/
theorem irrOf_related (syms : List Bz.Sym) (hs : syms ∈ Bz.predefined) (m : Bz.Arr3 Nat) (hm : Bz.fbz2irrk nx ny nz syms = some m)
    (q q' : Grid nx ny nz) (hr : Bz.Related nx ny nz syms (ptOf q) (ptOf q')) : irrOf (Bz.flat3 m) q = irrOf (Bz.flat3 m) q' := by
  obtain ⟨label, hl, -⟩ := Pipe.label_of nx ny nz syms m hm
  have h1 := (Bz.irrk_share_iff nx ny nz syms hs m hm (ptOf q) (ptOf q') (ptOf_inGrid q) (ptOf_inGrid q')).mpr hr
  have key : ∀ p : Grid nx ny nz, (Bz.flat3 m)[flatQ p]? = Bz.at3 m (ptOf p).1 (ptOf p).2.1 (ptOf p).2.2 := by
    intro p
    have hp := ptOf_inGrid p
    subst hl
    rw [Bz.at3_table nx ny nz label _ _ _ hp.1 hp.2.1 hp.2.2, Bz.flat3_table, List.getElem?_map, List.getElem?_range (flatQ_lt p),
      Option.map_some]
    have h2 := hp.2.1
    have h3 := hp.2.2
    simp only [ptOf] at h2 h3
    have d1 : flatQ p / nz = p.1.val * ny + p.2.1.val := by
      unfold flatQ; rw [mul_comm, Nat.mul_add_div (by omega), Nat.div_eq_of_lt h3, add_zero]
    have d2 : flatQ p % nz = p.2.2.val := by unfold flatQ; rw [mul_comm, Nat.mul_add_mod, Nat.mod_eq_of_lt h3]
    have d3 : (p.1.val * ny + p.2.1.val) / ny = p.1.val := by rw [mul_comm, Nat.mul_add_div (by omega), Nat.div_eq_of_lt h2, add_zero]
    have d4 : (p.1.val * ny + p.2.1.val) % ny = p.2.1.val := by rw [mul_comm, Nat.mul_add_mod, Nat.mod_eq_of_lt h2]
    rw [d1, d2, d3, d4]; rfl
  unfold irrOf Bz.irrkInv
  rw [List.getElem?_map, List.getElem?_map, key q, key q', h1]

end DGA.Pairing
