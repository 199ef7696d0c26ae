import Verif.Eliash.Sector
import Verif.Config.Model

/-
  C116: the symmetry of the gap functions written by the program (`eliashberg.npy`), from the configured `k_sym` on.
-/

noncomputable section

namespace DGA.Eli

variable {nx ny nz : Nat} [NeZero nx] [NeZero ny] [NeZero nz]

/-- the options as `EliashbergConfig.__init__` sets them (config.py:384-425): the start gaps follow from `k_sym` -/
def elCfg (kSym : String) (symSing symTrip : Bool) (eps : ℝ) (maxCount nEig : Nat) : ElCfg :=
  ⟨(kSym, Cfg.gap0Sing kSym), (kSym, Cfg.gap0Trip kSym), symSing, symTrip, eps, maxCount, nEig⟩

/-- frequency parity of the start gap of a channel: singlet d-wave even, triplet d-wave odd, p-wave the other way round -/
def startSign (kSym channel : String) : ℂ :=
  if kSym = "d-wave" then (if channel = "sing" then 1 else -1) else (if channel = "sing" then -1 else 1)

/-- the start gap of a channel, as an array over (k, v) -/
def gap0Of (niv : Nat) (kSym channel : String) (rk rv : Nat → Nat → Nat → Nat → ℂ) : Grid nx ny nz × Fin (2 * niv) → ℂ := fun i =>
  gapStart nx ny niv kSym (if channel = "sing" then Cfg.gap0Sing kSym else Cfg.gap0Trip kSym) rk rv i.1.1.val i.1.2.1.val i.1.2.2.val i.2.val

/-- the vertex of the kernel -/
def gammaOf (niv : Nat) (F : Grid nx ny nz → Fin (2 * niv) → Fin (2 * niv) → ℂ) (sym : Bool) (channel : String) :
    Grid nx ny nz → Fin (2 * niv) → Fin (2 * niv) → ℂ :=
  if sym then symGamma (fun q v v' => -F q v v') (chanSign channel) else fun q v v' => -F q v v'

/-- the Green's function at the positions of the pairing box -/
def gkOf (niv : Nat) (G : Grid nx ny nz → Int → ℂ) : Grid nx ny nz → Fin (2 * niv) → ℂ := fun k v => G k (((v : Nat) : Int) - niv)

theorem driver_eq (kSym : String) (symSing symTrip : Bool) (eps : ℝ) (maxCount nEig : Nat) (niv : Nat) (beta : ℝ)
    (F : Grid nx ny nz → Fin (2 * niv) → Fin (2 * niv) → ℂ) (core : Grid nx ny nz → List ℂ) (G : Grid nx ny nz → Int → ℂ) (nivCore : Nat)
    (hn : niv ≤ nivCore) (hcore : ∀ k, core k = Bubble.samplesF (G k) nivCore) (channel : String) (hc : channel = "sing" ∨ channel = "trip")
    (shiftMat : Bool) (rk rv : Nat → Nat → Nat → Nat → ℂ) (gap0s : Grid nx ny nz × Fin (2 * niv) → ℂ) :
    linearEliashberg (elCfg kSym symSing symTrip eps maxCount nEig) niv beta F core channel shiftMat rk rv gap0s = some (getEig
      (kernel (gammaOf niv F (if channel = "sing" then symSing else symTrip) channel) (gkOf niv G) (((nx * ny * nz : Nat) : ℂ) * beta))
      shiftMat eps maxCount (gap0Of niv kSym channel rk rv) gap0s nEig) := by
  rw [linearEliashberg_eq _ niv beta F core G nivCore hn hcore channel hc]
  rcases hc with rfl | rfl <;> rfl

theorem startType (kSym channel : String) (hk : kSym ∈ namedK) (hc : channel = "sing" ∨ channel = "trip") :
    ((if channel = "sing" then Cfg.gap0Sing kSym else Cfg.gap0Trip kSym) = "even" ∧ startSign kSym channel = 1) ∨
    ((if channel = "sing" then Cfg.gap0Sing kSym else Cfg.gap0Trip kSym) = "odd" ∧ startSign kSym channel = -1) := by
  simp only [namedK, List.mem_cons, List.not_mem_nil, or_false] at hk
  rcases hk with rfl | rfl | rfl <;> rcases hc with rfl | rfl <;> simp [Cfg.gap0Sing, Cfg.gap0Trip, startSign]

omit [NeZero nx] [NeZero ny] [NeZero nz] in
theorem gap0_parity (niv : Nat) (kSym channel : String) (hk : kSym ∈ namedK) (hc : channel = "sing" ∨ channel = "trip")
    (rk rv : Nat → Nat → Nat → Nat → ℂ) : Sym revV (startSign kSym channel) (gap0Of (nx := nx) (ny := ny) (nz := nz) niv kSym channel rk rv) := by
  rintro ⟨k, v⟩
  have hp := gapStart_parity nx ny niv rk rv kSym hk k.1.val k.2.1.val k.2.2.val v.val v.isLt
  have hv : (v.rev : Nat) = 2 * niv - 1 - v := by rw [Fin.val_rev]; omega
  rcases startType kSym channel hk hc with ⟨h1, h2⟩ | ⟨h1, h2⟩
  · simp only [gap0Of, revV, h1, h2, hv, hp.1, one_mul]
  · simp only [gap0Of, revV, h1, h2, hv, hp.2, neg_one_mul]

theorem zmod_neg_val {n : Nat} [NeZero n] (a : ZMod n) : (-a).val = (n - a.val) % n := ZMod.neg_val' a

omit [NeZero nz] in
theorem gap0_lattice (niv : Nat) (channel : String) (hc : channel = "sing" ∨ channel = "trip") (rk rv : Nat → Nat → Nat → Nat → ℂ) :
    Sym (mapK negX) 1 (gap0Of (nx := nx) (ny := ny) (nz := nz) niv "d-wave" channel rk rv) ∧
    Sym (mapK negY) 1 (gap0Of (nx := nx) (ny := ny) (nz := nz) niv "d-wave" channel rk rv) ∧
    Sym (mapK negX) (-1) (gap0Of (nx := nx) (ny := ny) (nz := nz) niv "p-wave-x" channel rk rv) ∧
    Sym (mapK negY) (-1) (gap0Of (nx := nx) (ny := ny) (nz := nz) niv "p-wave-y" channel rk rv) ∧
    Sym (mapK swapXY) (-1) (gap0Of (nx := nx) (ny := nx) (nz := nz) niv "d-wave" channel rk rv) := by
  have ht : ∀ kt ∈ namedK, (if channel = "sing" then Cfg.gap0Sing kt else Cfg.gap0Trip kt) = "even" ∨
      (if channel = "sing" then Cfg.gap0Sing kt else Cfg.gap0Trip kt) = "odd" := fun kt hk =>
    (startType kt channel hk hc).imp And.left And.left
  have hd := ht "d-wave" (by simp [namedK])
  have hx := ht "p-wave-x" (by simp [namedK])
  have hy := ht "p-wave-y" (by simp [namedK])
  refine ⟨?_, ?_, ?_, ?_, ?_⟩ <;> rintro ⟨k, v⟩
  · have := (gapStart_momentum_symmetry nx ny niv rk rv _ hd k.1.val k.2.1.val k.2.2.val v.val (ZMod.val_lt _) (ZMod.val_lt _)).2.1
    simp only [gap0Of, mapK, negX, AddEquiv.coe_mk, Equiv.coe_fn_mk, zmod_neg_val, one_mul]
    exact this
  · have := (gapStart_momentum_symmetry nx ny niv rk rv _ hd k.1.val k.2.1.val k.2.2.val v.val (ZMod.val_lt _) (ZMod.val_lt _)).2.2.1
    simp only [gap0Of, mapK, negY, AddEquiv.coe_mk, Equiv.coe_fn_mk, zmod_neg_val, one_mul]
    exact this
  · have := (gapStart_momentum_symmetry nx ny niv rk rv _ hx k.1.val k.2.1.val k.2.2.val v.val (ZMod.val_lt _) (ZMod.val_lt _)).2.2.2.1
    simp only [gap0Of, mapK, negX, AddEquiv.coe_mk, Equiv.coe_fn_mk, zmod_neg_val, neg_one_mul]
    exact this
  · have := (gapStart_momentum_symmetry nx ny niv rk rv _ hy k.1.val k.2.1.val k.2.2.val v.val (ZMod.val_lt _) (ZMod.val_lt _)).2.2.2.2
    simp only [gap0Of, mapK, negY, AddEquiv.coe_mk, Equiv.coe_fn_mk, zmod_neg_val, neg_one_mul]
    exact this
  · have := (gapStart_momentum_symmetry nx nx niv rk rv _ hd k.1.val k.2.1.val k.2.2.val v.val (ZMod.val_lt _) (ZMod.val_lt _)).1 rfl
    simp only [gap0Of, mapK, swapXY, AddEquiv.coe_mk, Equiv.coe_fn_mk, neg_one_mul]
    exact this

omit [NeZero nx] [NeZero ny] [NeZero nz] in
theorem gammaOf_lattice (niv : Nat) (F : Grid nx ny nz → Fin (2 * niv) → Fin (2 * niv) → ℂ) (sym : Bool) (channel : String)
    (φ : Grid nx ny nz → Grid nx ny nz) (hF : ∀ q v v', F (φ q) v v' = F q v v') (q : Grid nx ny nz) (v v' : Fin (2 * niv)) :
    gammaOf niv F sym channel (φ q) v v' = gammaOf niv F sym channel q v v' := by
  unfold gammaOf
  split_ifs <;> simp only [symGamma, hF]

omit [NeZero nx] [NeZero ny] [NeZero nz] in
theorem gammaOf_rev (niv : Nat) (F : Grid nx ny nz → Fin (2 * niv) → Fin (2 * niv) → ℂ) (sym : Bool) (channel : String)
    (hF : ∀ q v v', F q v.rev v'.rev = F q v v') (q : Grid nx ny nz) (v v' : Fin (2 * niv)) :
    gammaOf niv F sym channel q v.rev v'.rev = gammaOf niv F sym channel q v v' := by
  unfold gammaOf
  have h2 : ∀ q v v', F q v.rev v' = F q v v'.rev := fun q v v' => by
    have := hF q v v'.rev; rwa [Fin.rev_rev] at this
  split_ifs
  · simp only [symGamma, hF, h2, Fin.rev_rev]
  · simp only [hF]

omit [NeZero nx] [NeZero ny] [NeZero nz] in
theorem gkOf_rev (niv : Nat) (G : Grid nx ny nz → Int → ℂ) (hG : ∀ k n, G k (-n - 1) = (starRingEnd ℂ) (G k n)) (k : Grid nx ny nz)
    (v : Fin (2 * niv)) : ‖gkOf niv G k v.rev‖ = ‖gkOf niv G k v‖ := by
  unfold gkOf
  have : (((v.rev : Nat) : Int) - niv) = -(((v : Nat) : Int) - niv) - 1 := by
    rw [Fin.val_rev]; have := v.isLt; omega
  rw [this, hG]
  exact RCLike.norm_conj _

/-- A run of the driver: the vertex of the channel, the Green's function, and what is returned. -/
structure Run (nx ny nz niv : Nat) [NeZero nx] [NeZero ny] [NeZero nz] where
  kSym : String
  symSing : Bool
  symTrip : Bool
  eps : ℝ
  maxCount : Nat
  nEig : Nat
  beta : ℝ
  F : Grid nx ny nz → Fin (2 * niv) → Fin (2 * niv) → ℂ
  G : Grid nx ny nz → Int → ℂ
  nivCore : Nat
  hn : niv ≤ nivCore
  channel : String
  shiftMat : Bool
  rk : Nat → Nat → Nat → Nat → ℂ
  rv : Nat → Nat → Nat → Nat → ℂ
  gap0s : Grid nx ny nz × Fin (2 * niv) → ℂ

/-- the result of the driver for a run -/
def Run.result {nx ny nz niv : Nat} [NeZero nx] [NeZero ny] [NeZero nz] (r : Run nx ny nz niv) :
    Option (List (ℂ × (Grid nx ny nz × Fin (2 * niv) → ℂ))) :=
  linearEliashberg (elCfg r.kSym r.symSing r.symTrip r.eps r.maxCount r.nEig) niv r.beta r.F (fun k => Bubble.samplesF (r.G k) r.nivCore)
    r.channel r.shiftMat r.rk r.rv r.gap0s

/-- the kernel of the run -/
def Run.A {nx ny nz niv : Nat} [NeZero nx] [NeZero ny] [NeZero nz] (r : Run nx ny nz niv) :
    (Grid nx ny nz × Fin (2 * niv) → ℂ) → Grid nx ny nz × Fin (2 * niv) → ℂ :=
  kernel (gammaOf niv r.F (if r.channel = "sing" then r.symSing else r.symTrip) r.channel) (gkOf niv r.G) (((nx * ny * nz : Nat) : ℂ) * r.beta)

theorem Run.result_eq {niv : Nat} (r : Run nx ny nz niv) (hc : r.channel = "sing" ∨ r.channel = "trip") :
    r.result = some (getEig r.A r.shiftMat r.eps r.maxCount (gap0Of niv r.kSym r.channel r.rk r.rv) r.gap0s r.nEig) :=
  driver_eq r.kSym r.symSing r.symTrip r.eps r.maxCount r.nEig niv r.beta r.F _ r.G r.nivCore r.hn (fun _ => rfl) r.channel hc
    r.shiftMat r.rk r.rv r.gap0s

/-- **C116 (c).** The driver raises exactly for a channel that is neither `sing` nor `trip`; otherwise it returns `n_eig` pairs. -/
theorem driver_total {niv : Nat} (r : Run nx ny nz niv) :
    (r.result = none ↔ r.channel ≠ "sing" ∧ r.channel ≠ "trip") ∧ ∀ l, r.result = some l → l.length = r.nEig := by
  by_cases hc : r.channel = "sing" ∨ r.channel = "trip"
  · rw [Run.result_eq r hc]
    refine ⟨by simp; tauto, ?_⟩
    intro l hl
    rw [Option.some.injEq] at hl
    subst hl
    exact getEig_length _ _ _ _ _ _ _
  · have : r.result = none := by
      rw [not_or] at hc
      unfold Run.result linearEliashberg
      simp only [if_neg hc.1, if_neg hc.2, Option.bind_none]
    rw [this]
    exact ⟨by rw [not_or] at hc; simpa using hc, by simp⟩

theorem lattice_sector {niv : Nat} (r : Run nx ny nz niv) (hc : r.channel = "sing" ∨ r.channel = "trip")
    (φ : Grid nx ny nz ≃+ Grid nx ny nz) (χ : ℂ) (hF : ∀ q v v', r.F (φ q) v v' = r.F q v v') (hG : ∀ k n, r.G (φ k) n = r.G k n)
    (h0 : Sym (mapK φ) χ (gap0Of niv r.kSym r.channel r.rk r.rv)) (l : List (ℂ × (Grid nx ny nz × Fin (2 * niv) → ℂ)))
    (hl : r.result = some l) : ∀ p ∈ l, Sym (mapK φ) χ p.2 := by
  rw [Run.result_eq r hc, Option.some.injEq] at hl
  subst hl
  refine getEig_sym _ (mapK φ) χ (fun x hx => ?_) _ _ _ _ _ h0 _
  exact kernel_momentum_sym φ χ _ _ _ (gammaOf_lattice niv r.F _ r.channel φ hF) (fun k v => by simp only [gkOf, hG]) x hx

/-- **C116 (d).** d-wave in, d-wave out.  With `k_sym = 'd-wave'`, a vertex and a Green's function with the symmetries of the square
    lattice, every gap function the program writes — each eigenvalue, both channels, symmetrised or not, with or without shift —
    is even under inversion of `kx` and of `ky` and changes sign under exchange of `kx` and `ky`. -/
theorem d_wave_stays {n nz niv : Nat} [NeZero n] [NeZero nz] (r : Run n n nz niv) (hk : r.kSym = "d-wave")
    (hF : ∀ q v v', r.F (-q.1, q.2.1, q.2.2) v v' = r.F q v v' ∧ r.F (q.1, -q.2.1, q.2.2) v v' = r.F q v v' ∧
      r.F (q.2.1, q.1, q.2.2) v v' = r.F q v v')
    (hG : ∀ k m, r.G (-k.1, k.2.1, k.2.2) m = r.G k m ∧ r.G (k.1, -k.2.1, k.2.2) m = r.G k m ∧ r.G (k.2.1, k.1, k.2.2) m = r.G k m)
    (l : List (ℂ × (Grid n n nz × Fin (2 * niv) → ℂ))) (hl : r.result = some l) : ∀ p ∈ l, ∀ (k : Grid n n nz) (v : Fin (2 * niv)),
      p.2 ((-k.1, k.2.1, k.2.2), v) = p.2 (k, v) ∧ p.2 ((k.1, -k.2.1, k.2.2), v) = p.2 (k, v) ∧
      p.2 ((k.2.1, k.1, k.2.2), v) = -p.2 (k, v) := by
  have hc : r.channel = "sing" ∨ r.channel = "trip" := by
    by_contra h
    rw [not_or] at h
    rw [(driver_total r).1.mpr h] at hl
    simp at hl
  obtain ⟨h1, h2, -, -, h5⟩ := gap0_lattice (nx := n) (ny := n) (nz := nz) niv r.channel hc r.rk r.rv
  rw [← hk] at h1 h2 h5
  intro p hp k v
  have e1 := lattice_sector r hc negX 1 (fun q v v' => (hF q v v').1) (fun k m => (hG k m).1) h1 l hl p hp (k, v)
  have e2 := lattice_sector r hc negY 1 (fun q v v' => (hF q v v').2.1) (fun k m => (hG k m).2.1) h2 l hl p hp (k, v)
  have e3 := lattice_sector r hc swapXY (-1) (fun q v v' => (hF q v v').2.2) (fun k m => (hG k m).2.2) h5 l hl p hp (k, v)
  rw [one_mul] at e1 e2
  rw [neg_one_mul] at e3
  exact ⟨e1, e2, e3⟩

/-- Nodes: such a gap vanishes on both diagonals `kx = ±ky`. -/
theorem d_wave_nodes {n nz niv : Nat} [NeZero n] [NeZero nz] (r : Run n n nz niv) (hk : r.kSym = "d-wave")
    (hF : ∀ q v v', r.F (-q.1, q.2.1, q.2.2) v v' = r.F q v v' ∧ r.F (q.1, -q.2.1, q.2.2) v v' = r.F q v v' ∧
      r.F (q.2.1, q.1, q.2.2) v v' = r.F q v v')
    (hG : ∀ k m, r.G (-k.1, k.2.1, k.2.2) m = r.G k m ∧ r.G (k.1, -k.2.1, k.2.2) m = r.G k m ∧ r.G (k.2.1, k.1, k.2.2) m = r.G k m)
    (l : List (ℂ × (Grid n n nz × Fin (2 * niv) → ℂ))) (hl : r.result = some l) : ∀ p ∈ l, ∀ (k : ZMod n) (kz : ZMod nz) (v : Fin (2 * niv)),
      p.2 ((k, k, kz), v) = 0 ∧ p.2 ((k, -k, kz), v) = 0 := by
  intro p hp k kz v
  have h := d_wave_stays r hk hF hG l hl p hp (k, k, kz) v
  have h0 : p.2 ((k, k, kz), v) = 0 := by
    have : p.2 ((k, k, kz), v) = -p.2 ((k, k, kz), v) := h.2.2
    linear_combination this / 2
  exact ⟨h0, h.2.1.trans h0⟩

/-- p-wave: odd in its own component. -/
theorem p_wave_stays {niv : Nat} (r : Run nx ny nz niv) (l : List (ℂ × (Grid nx ny nz × Fin (2 * niv) → ℂ))) (hl : r.result = some l) :
    (r.kSym = "p-wave-x" → (∀ q v v', r.F (-q.1, q.2.1, q.2.2) v v' = r.F q v v') → (∀ k m, r.G (-k.1, k.2.1, k.2.2) m = r.G k m) →
      ∀ p ∈ l, ∀ (k : Grid nx ny nz) (v : Fin (2 * niv)), p.2 ((-k.1, k.2.1, k.2.2), v) = -p.2 (k, v)) ∧
    (r.kSym = "p-wave-y" → (∀ q v v', r.F (q.1, -q.2.1, q.2.2) v v' = r.F q v v') → (∀ k m, r.G (k.1, -k.2.1, k.2.2) m = r.G k m) →
      ∀ p ∈ l, ∀ (k : Grid nx ny nz) (v : Fin (2 * niv)), p.2 ((k.1, -k.2.1, k.2.2), v) = -p.2 (k, v)) := by
  have hc : r.channel = "sing" ∨ r.channel = "trip" := by
    by_contra h
    rw [not_or] at h
    rw [(driver_total r).1.mpr h] at hl
    simp at hl
  obtain ⟨-, -, h3, h4, -⟩ := gap0_lattice (nx := nx) (ny := ny) (nz := nz) niv r.channel hc r.rk r.rv
  constructor
  · intro hk hF hG p hp k v
    rw [← hk] at h3
    have := lattice_sector r hc negX (-1) hF hG h3 l hl p hp (k, v)
    rwa [neg_one_mul] at this
  · intro hk hF hG p hp k v
    rw [← hk] at h4
    have := lattice_sector r hc negY (-1) hF hG h4 l hl p hp (k, v)
    rwa [neg_one_mul] at this

/-- **C116 (e).** Frequency parity: with a vertex unchanged under reversal of both frequencies and `G(-iv) = conj G(iv)`, every gap
    written for a named `k_sym` has the parity of its start gap: even for singlet d-wave and triplet p-wave, odd for triplet d-wave
    and singlet p-wave. -/
theorem frequency_parity_stays {niv : Nat} (r : Run nx ny nz niv) (hk : r.kSym ∈ namedK)
    (hF : ∀ q v v', r.F q v.rev v'.rev = r.F q v v') (hG : ∀ k n, r.G k (-n - 1) = (starRingEnd ℂ) (r.G k n))
    (l : List (ℂ × (Grid nx ny nz × Fin (2 * niv) → ℂ))) (hl : r.result = some l) : ∀ p ∈ l, ∀ (k : Grid nx ny nz) (v : Fin (2 * niv)),
      p.2 (k, v.rev) = startSign r.kSym r.channel * p.2 (k, v) := by
  have hc : r.channel = "sing" ∨ r.channel = "trip" := by
    by_contra h
    rw [not_or] at h
    rw [(driver_total r).1.mpr h] at hl
    simp at hl
  rw [Run.result_eq r hc, Option.some.injEq] at hl
  subst hl
  intro p hp k v
  exact getEig_sym _ revV (startSign r.kSym r.channel) (fun x hx =>
    kernel_frequency_sym _ _ _ _ (gammaOf_rev niv r.F _ r.channel hF) (gkOf_rev niv r.G hG) x hx) _ _ _ _ _
    (gap0_parity niv r.kSym r.channel hk hc r.rk r.rv) _ p hp (k, v)

/-- **C116 (f).** For d-wave the options `sym_sing`, `sym_trip` make no difference (without the shift run): same eigenvalues, same gaps. -/
theorem d_wave_symmetrisation_irrelevant {niv : Nat} (r r' : Run nx ny nz niv) (hr : r' = { r with symSing := r'.symSing, symTrip := r'.symTrip })
    (hk : r.kSym = "d-wave") (hs : r.shiftMat = false) (hF : ∀ q v v', r.F q v.rev v'.rev = r.F q v v')
    (hG : ∀ k n, r.G k (-n - 1) = (starRingEnd ℂ) (r.G k n)) : r'.result = r.result := by
  by_cases hc : r.channel = "sing" ∨ r.channel = "trip"
  · have hnamed : r.kSym ∈ namedK := by simp [namedK, hk]
    have h0 := gap0_parity (nx := nx) (ny := ny) (nz := nz) niv r.kSym r.channel hnamed hc r.rk r.rv
    have hsign : startSign r.kSym r.channel = chanSign r.channel := by simp [startSign, chanSign, hk]
    have hss : chanSign r.channel * chanSign r.channel = 1 := by unfold chanSign; split_ifs <;> norm_num
    rw [hsign] at h0
    -- every choice of the flag gives the runs of the plain kernel
    have key : ∀ sym : Bool, eigRuns (kernel (gammaOf niv r.F sym r.channel) (gkOf niv r.G) (((nx * ny * nz : Nat) : ℂ) * r.beta))
        none r.eps r.maxCount (gap0Of niv r.kSym r.channel r.rk r.rv) r.nEig =
        eigRuns (kernel (gammaOf niv r.F false r.channel) (gkOf niv r.G) (((nx * ny * nz : Nat) : ℂ) * r.beta))
        none r.eps r.maxCount (gap0Of niv r.kSym r.channel r.rk r.rv) r.nEig := by
      intro sym
      cases sym
      · rfl
      · refine eigRuns_agree _ _ revV (chanSign r.channel) (fun x hx => ?_) (fun x hx => ?_) none _ _ _ h0 _
        · exact kernel_frequency_sym _ _ _ _ (gammaOf_rev niv r.F false r.channel hF) (gkOf_rev niv r.G hG) x hx
        · show kernel (symGamma (gammaOf niv r.F false r.channel) (chanSign r.channel)) _ _ x = _
          rw [kernel_symGamma _ _ _ _ (gkOf_rev niv r.G hG), parityPart_of_sym _ hss x hx]
    have e1 := Run.result_eq r hc
    have e2 := Run.result_eq r' (by rw [hr]; exact hc)
    rw [e1, e2]
    have hA' : r'.A = kernel (gammaOf niv r.F (if r.channel = "sing" then r'.symSing else r'.symTrip) r.channel) (gkOf niv r.G)
        (((nx * ny * nz : Nat) : ℂ) * r.beta) := by rw [hr]; rfl
    rw [hA']
    have hrest : r'.shiftMat = false ∧ r'.eps = r.eps ∧ r'.maxCount = r.maxCount ∧ r'.kSym = r.kSym ∧ r'.channel = r.channel ∧
        r'.rk = r.rk ∧ r'.rv = r.rv ∧ r'.nEig = r.nEig := by rw [hr]; exact ⟨hs, rfl, rfl, rfl, rfl, rfl, rfl, rfl⟩
    obtain ⟨a1, a2, a3, a4, a5, a6, a7, a8⟩ := hrest
    rw [a1, a2, a3, a4, a5, a6, a7, a8, hs]
    unfold getEig shiftOf
    simp only [Bool.false_eq_true, if_false]
    rw [key, ← key (if r.channel = "sing" then r.symSing else r.symTrip)]
    rfl
  · rw [not_or] at hc
    rw [(driver_total r).1.mpr hc, (driver_total r').1.mpr (by rw [hr]; exact hc)]

/-- **C116 (g).** p-wave with the default flags: the symmetrisation of the channel removes exactly the parity the start gap has.  The
    kernel maps the start gap to zero whatever the vertex is: with a negative shift the program reports the eigenvalue 0 together
    with the start gap, without shift (or with the shift 0) the first step divides 0 by 0. -/
theorem p_wave_default_is_annihilated {niv : Nat} (r : Run nx ny nz niv) (hc : r.channel = "sing" ∨ r.channel = "trip")
    (hk : r.kSym = "p-wave-x" ∨ r.kSym = "p-wave-y") (hd : r.symSing = true ∧ r.symTrip = true)
    (hF : ∀ q v v', r.F q v.rev v'.rev = r.F q v v') (hG : ∀ k n, r.G k (-n - 1) = (starRingEnd ℂ) (r.G k n)) :
    (r.A (gap0Of niv r.kSym r.channel r.rk r.rv) = fun _ => 0) ∧
    (∀ s, (s = none ∨ s = some 0) → rayleigh r.A s (gap0Of niv r.kSym r.channel r.rk r.rv) = 0) ∧
    (r.nEig = 1 → (gap0Of (nx := nx) (ny := ny) (nz := nz) niv r.kSym r.channel r.rk r.rv) ≠ 0 →
      (shiftOf r.A r.shiftMat r.eps r.maxCount r.gap0s).getD 0 ≠ 0 →
      r.result = some [(0, gap0Of niv r.kSym r.channel r.rk r.rv)]) := by
  have hnamed : r.kSym ∈ namedK := by rcases hk with h | h <;> simp [namedK, h]
  have h0 := gap0_parity (nx := nx) (ny := ny) (nz := nz) niv r.kSym r.channel hnamed hc r.rk r.rv
  have hsign : startSign r.kSym r.channel = -chanSign r.channel := by
    rcases hk with h | h <;> rcases hc with h' | h' <;> simp [startSign, chanSign, h, h']
  rw [hsign] at h0
  have hss : chanSign r.channel * chanSign r.channel = 1 := by unfold chanSign; split_ifs <;> norm_num
  have hA0 : r.A (gap0Of niv r.kSym r.channel r.rk r.rv) = fun _ => 0 := by
    have hflag : (if r.channel = "sing" then r.symSing else r.symTrip) = true := by rw [hd.1, hd.2, ite_self]
    unfold Run.A
    rw [hflag]
    show kernel (symGamma (gammaOf niv r.F false r.channel) (chanSign r.channel)) _ _ _ = _
    exact (symmetrised_spectrum _ _ _ _ hss (gammaOf_rev niv r.F false r.channel hF) (gkOf_rev niv r.G hG) _ 1 one_ne_zero).2 h0
  refine ⟨hA0, ?_, ?_⟩
  · rintro s (rfl | rfl) <;> unfold rayleigh <;> rw [shifted_eq, hA0] <;> simp [dot]
  · intro hn hne hsh
    rw [Run.result_eq r hc, hn, getEig_eigenvector r.A r.shiftMat r.eps r.maxCount _ r.gap0s 0 hne (by rw [hA0]; simp) (Ne.symm hsh)]

/-! ### Satisfiable -/

/-- a vertex with all the symmetries and a local Green's function -/
def demoRun (kSym channel : String) : Run 4 4 1 2 where
  kSym := kSym
  symSing := true
  symTrip := true
  eps := 1 / 1000
  maxCount := 50
  nEig := 2
  beta := 5
  F := fun q v v' => (if q.1 = 2 ∧ q.2.1 = 2 then 3 else 1) * (if v = v' then 2 else if v = v'.rev then 1 else 0)
  G := fun _ n => -(Complex.I / (2 * n + 1))
  nivCore := 3
  hn := by norm_num
  channel := channel
  shiftMat := true
  rk := fun _ _ _ _ => 0
  rv := fun _ _ _ _ => 0
  gap0s := fun _ => 1

example : let r := demoRun "d-wave" "sing"
    (∀ q v v', r.F (-q.1, q.2.1, q.2.2) v v' = r.F q v v' ∧ r.F (q.1, -q.2.1, q.2.2) v v' = r.F q v v' ∧
      r.F (q.2.1, q.1, q.2.2) v v' = r.F q v v') ∧ (∀ q v v', r.F q v.rev v'.rev = r.F q v v') ∧
    (∀ k n, r.G k (-n - 1) = (starRingEnd ℂ) (r.G k n)) ∧ ∃ l, r.result = some l ∧ l.length = 2 := by
  intro r
  refine ⟨fun q v v' => ?_, fun q v v' => ?_, fun k n => ?_, ?_⟩
  · have hneg : ∀ a : ZMod 4, -a = 2 ↔ a = 2 := by decide
    simp only [r, demoRun, hneg, and_comm (a := q.2.1 = 2), and_self]
  · simp only [r, demoRun, Fin.rev_inj, Fin.rev_rev]
    congr 1
    by_cases h : v = v'
    · simp [h]
    · simp only [h, if_false]
      have : v.rev = v' ↔ v = v'.rev := by
        constructor <;> intro e
        · rw [← e, Fin.rev_rev]
        · rw [e, Fin.rev_rev]
      simp only [this]
  · simp only [r, demoRun, map_neg, map_div₀, Complex.conj_I, map_add, map_mul, map_one, map_ofNat, map_intCast]
    push_cast
    have : (2 * (-(n : ℂ) - 1) + 1) = -(2 * (n : ℂ) + 1) := by ring
    rw [this, div_neg, neg_div]
  · have h := driver_total r
    cases hr : r.result with
    | none => exact absurd (h.1.mp hr).1 (by simp [r, demoRun])
    | some l => exact ⟨l, rfl, h.2 l hr⟩

/-- the p-wave start gap is not the zero array -/
example : gap0Of (nx := 4) (ny := 4) (nz := 1) 2 "p-wave-x" "sing" (fun _ _ _ _ => 0) (fun _ _ _ _ => 0) ≠ 0 := by
  intro h
  have := congrFun h ((1, 0, 0), 2)
  have hv := (gapStart_value 4 4 2 (fun _ _ _ _ => 0) (fun _ _ _ _ => 0) "odd" (Or.inr rfl) 1 0 0 2 (le_refl _)).2.1
  have e : gap0Of (nx := 4) (ny := 4) (nz := 1) 2 "p-wave-x" "sing" (fun _ _ _ _ => 0) (fun _ _ _ _ => 0) ((1, 0, 0), 2) =
      gapStart 4 4 2 "p-wave-x" "odd" (fun _ _ _ _ => 0) (fun _ _ _ _ => 0) 1 0 0 2 := by
    simp only [gap0Of, Cfg.gap0Sing]
    rfl
  rw [e, hv] at this
  have h2 : Real.sin (2 * Real.pi * (1 : Nat) / (4 : Nat)) = 1 := by
    rw [← Real.sin_pi_div_two]; congr 1; push_cast; ring
  rw [h2] at this
  simp at this

end DGA.Eli
