import Verif.PolyFit.Model

/-
  C105: maps of extrapolated coefficients over the Brillouin zone.
-/

noncomputable section

namespace DGA.Pf

open DGA.Bz

theorem flat_index (nx ny nz : Nat) (syms : List Sym) (m : Arr3 Nat)
    (hm : fbz2irrk nx ny nz syms = some m) :
    (flat3 m).length = nx * ny * nz ∧ ∀ p, InGrid nx ny nz p → (flat3 m)[linP ny nz p]? = at3 m p.1 p.2.1 p.2.2 := by
  obtain ⟨label, he, -⟩ := label_any nx ny nz syms m hm
  subst he
  rw [flat3_table]
  refine ⟨by simp, ?_⟩
  rintro ⟨i, j, k⟩ ⟨h1, h2, h3⟩
  have hl : linP ny nz (i, j, k) < nx * ny * nz := lin_lt nx ny nz i j k h1 h2 h3
  rw [range_map_get?, if_pos hl, at3_table _ _ _ _ _ _ _ h1 h2 h3]
  have := lin_div ny nz i j k h2 h3
  simp only [pt] at this
  show some _ = some _
  congr 1
  show _ = _
  have e : linP ny nz (i, j, k) = lin ny nz i j k := rfl
  simp only [e]
  simp only [Prod.mk.injEq] at this
  obtain ⟨a, b, c⟩ := this
  rw [a, b, c]

/-- the entry of an expanded array at `p` is the entry of the class of `p` -/
theorem irrk2fbzMesh_at {α : Type} (nx ny nz : Nat) (f : List Nat) (hf : f.length = nx * ny * nz) (mat : List α)
    (h : mat.length = (irrkInd f).length) :
    ∃ ms, irrk2fbzMesh nx ny nz f mat = some ms ∧ ∀ p, InGrid nx ny nz p → ∀ x, f[linP ny nz p]? = some x →
      at3 ms p.1 p.2.1 p.2.2 = mat[(uniq f).idxOf x]? := by
  obtain ⟨ms, ls, h1, h2, _, h4⟩ := mesh_list_agree nx ny nz f hf mat h
  obtain ⟨r, h5, _, h7⟩ := irrk2fbzList_value f mat h
  rw [h2] at h5
  cases h5
  refine ⟨ms, h1, fun p hp x hx => ?_⟩
  rw [h4 p hp, h7 _ x hx]

theorem linP_pt (nx ny nz : Nat) (l : Nat) (h : l < nx * ny * nz) : linP ny nz (pt ny nz l) = l := (pt_bounds nx ny nz l h).2.2.2

/-- **C105.** For any list of symmetry names that the grid accepts the map saved by the polynomial fit is defined on the whole grid and holds at
    every momentum `p` the coefficients fitted to the positive frequencies at one symmetry-equivalent momentum `r`: the first of those that share
    its value in the irreducible map. -/
theorem polyFit_value_any (nx ny nz nv : Nat) (syms : List Sym) (m : Arr3 Nat) (hm : fbz2irrk nx ny nz syms = some m)
    (h1 : nx * ny * nz ≠ 1) (h2 : nv - nv / 2 ≠ 1) (ext : List ℂ → ℝ × ℝ × EReal) (G : Pt → List ℂ) :
    ∃ re im z, polyFit nx ny nz nv (flat3 m) ext (table nx ny nz fun i j k => G (i, j, k)) = some (re, im, z) ∧
      ∀ p, InGrid nx ny nz p → ∃ r, InGrid nx ny nz r ∧ Related nx ny nz syms p r ∧ at3 m r.1 r.2.1 r.2.2 = at3 m p.1 p.2.1 p.2.2 ∧
        (∀ q, InGrid nx ny nz q → at3 m q.1 q.2.1 q.2.2 = at3 m p.1 p.2.1 p.2.2 → linP ny nz r ≤ linP ny nz q) ∧
        at3 re p.1 p.2.1 p.2.2 = some (ext (posHalf (G r))).2.1 ∧
        at3 im p.1 p.2.1 p.2.2 = some (ext (posHalf (G r))).1 ∧
        at3 z p.1 p.2.1 p.2.2 = some (ext (posHalf (G r))).2.2 := by
  obtain ⟨hlen, hflat⟩ := flat_index nx ny nz syms m hm
  set f := flat3 m with hf
  have hflatG : flat3 (table nx ny nz fun i j k => G (i, j, k)) = (List.range (nx * ny * nz)).map fun l => G (pt ny nz l) := flat3_table ..
  set rows := (flat3 (table nx ny nz fun i j k => G (i, j, k))).map posHalf with hrows
  have hrl : rows.length = nx * ny * nz := by rw [hrows, hflatG]; simp
  obtain ⟨cs, hcs⟩ := DGA.Mf.mapM_isSome (irrkInd f) (fun i => rows[i]?.map fun row => coefImaxis (ext row)) (by
    intro i hi
    have := irrkInd_lt f i hi
    rw [List.getElem?_eq_getElem (by omega)]; rfl)
  obtain ⟨c1, c2⟩ := DGA.Mf.mapM_getElem? _ _ _ hcs
  obtain ⟨re, hre, hre'⟩ := irrk2fbzMesh_at nx ny nz f hlen (cs.map (·.1)) (by simp [c1])
  obtain ⟨im, him, him'⟩ := irrk2fbzMesh_at nx ny nz f hlen (cs.map (·.2.1)) (by simp [c1])
  obtain ⟨z, hz, hz'⟩ := irrk2fbzMesh_at nx ny nz f hlen (cs.map (·.2.2)) (by simp [c1])
  refine ⟨re, im, z, ?_, ?_⟩
  · unfold polyFit
    rw [if_neg (by tauto)]
    unfold coeffOnInd
    rw [hcs]
    simp only [Option.bind_some, hre, him, hz, Option.map_some]
  · intro p hp
    have hpl : linP ny nz p < f.length := by
      rw [hlen]
      obtain ⟨i, j, k⟩ := p
      exact lin_lt nx ny nz i j k hp.1 hp.2.1 hp.2.2
    obtain ⟨lab, hlab⟩ : ∃ lab, f[linP ny nz p]? = some lab := ⟨_, List.getElem?_eq_getElem hpl⟩
    have hap : at3 m p.1 p.2.1 p.2.2 = some lab := by rw [← hflat p hp, hlab]
    have hmem : lab ∈ f := List.mem_of_getElem? hlab
    have hlt : f.idxOf lab < nx * ny * nz := hlen ▸ List.idxOf_lt_length_of_mem hmem
    have hv := idxOf_get f _ hmem
    have hr : InGrid nx ny nz (pt ny nz (f.idxOf lab)) := by
      obtain ⟨b1, b2, b3, _⟩ := pt_bounds nx ny nz _ hlt
      exact ⟨b1, b2, b3⟩
    have hpos := linP_pt nx ny nz (f.idxOf lab) hlt
    obtain ⟨r, hrdef⟩ : ∃ r, r = pt ny nz (f.idxOf lab) := ⟨_, rfl⟩
    rw [← hrdef] at hr hpos
    have har : at3 m r.1 r.2.1 r.2.2 = some lab := by rw [← hflat r hr, hpos, hv]
    refine ⟨r, hr, irrk_share_related nx ny nz syms m hm p r hp hr (by rw [hap, har]), by rw [hap, har], ?_, ?_⟩
    · intro q hq haq
      rw [hap] at haq
      have hfq : f[linP ny nz q]? = some lab := by rw [hflat q hq, haq]
      rw [hpos]
      by_contra hh
      have h5 := List.not_of_lt_findIdx (p := (· == lab)) (xs := f) (i := linP ny nz q) (by simpa [List.idxOf] using not_le.1 hh)
      rw [List.getElem?_eq_getElem (by omega)] at hfq
      simp only [Option.some.injEq] at hfq
      simp [hfq] at h5
    have hu := idxOf_get (uniq f) lab ((mem_uniq _ f).2 hmem)
    have hind : (irrkInd f)[(uniq f).idxOf lab]? = some (f.idxOf lab) := by
      unfold irrkInd; rw [List.getElem?_map, hu, Option.map_some]
    have hrow : rows[f.idxOf lab]? = some (posHalf (G r)) := by
      rw [hrows, hflatG, List.map_map, range_map_get?, if_pos hlt, hrdef]; rfl
    have hc := c2 _ _ hind
    rw [hrow, Option.map_some] at hc
    refine ⟨?_, ?_, ?_⟩
    · rw [hre' p hp _ hlab, List.getElem?_map, ← hc]; rfl
    · rw [him' p hp _ hlab, List.getElem?_map, ← hc]; rfl
    · rw [hz' p hp _ hlab, List.getElem?_map, ← hc]; rfl

/-- **C105.** For a predefined symmetry set this momentum is the representative in the irreducible zone, whose index the irreducible map holds. -/
theorem polyFit_value (nx ny nz nv : Nat) (syms : List Sym) (hs : syms ∈ predefined) (m : Arr3 Nat) (hm : fbz2irrk nx ny nz syms = some m)
    (h1 : nx * ny * nz ≠ 1) (h2 : nv - nv / 2 ≠ 1) (ext : List ℂ → ℝ × ℝ × EReal) (G : Pt → List ℂ) :
    ∃ re im z, polyFit nx ny nz nv (flat3 m) ext (table nx ny nz fun i j k => G (i, j, k)) = some (re, im, z) ∧
      ∀ p, InGrid nx ny nz p → ∃ r, InGrid nx ny nz r ∧ Related nx ny nz syms p r ∧ at3 m p.1 p.2.1 p.2.2 = some (linP ny nz r) ∧
        at3 re p.1 p.2.1 p.2.2 = some (ext (posHalf (G r))).2.1 ∧
        at3 im p.1 p.2.1 p.2.2 = some (ext (posHalf (G r))).1 ∧
        at3 z p.1 p.2.1 p.2.2 = some (ext (posHalf (G r))).2.2 := by
  obtain ⟨m', hm', hrep⟩ := irrk_representative nx ny nz syms hs
  rw [hm] at hm'
  cases hm'
  obtain ⟨re, im, z, h, hv⟩ := polyFit_value_any nx ny nz nv syms m hm h1 h2 ext G
  refine ⟨re, im, z, h, fun p hp => ?_⟩
  obtain ⟨r, hr, ha, hrel, hmin, hself⟩ := hrep p hp
  obtain ⟨r', hr', hrel', ha', hmin', hval⟩ := hv p hp
  have h3 : linP ny nz r' ≤ linP ny nz r := hmin' r hr (by rw [hself, ha])
  have h4 : linP ny nz r ≤ linP ny nz r' := hmin r' hrel'
  obtain rfl : r = r' := linP_inj nx ny nz r r' hr hr' (le_antisymm h4 h3)
  exact ⟨r, hr, hrel, ha, hval⟩

/-- specification: the function on the grid is invariant under the symmetry operations -/
def Invariant (nx ny nz : Nat) (syms : List Sym) (G : Pt → List ℂ) : Prop :=
  ∀ s ∈ syms, ∀ p, InGrid nx ny nz p → G (image nx ny nz s p) = G p

theorem invariant_related {nx ny nz : Nat} {syms : List Sym} {G : Pt → List ℂ} (hG : Invariant nx ny nz syms G) {p q : Pt}
    (hp : InGrid nx ny nz p) (h : Related nx ny nz syms p q) : G q = G p := by
  induction h with
  | refl => rfl
  | step hs hpq ih => rw [hG _ hs _ (related_inGrid hp hpq), ih]

/-- **C105.** If the input has the symmetry of the lattice, the map holds at every momentum the coefficients fitted to the input at that
    momentum. -/
theorem polyFit_symmetric (nx ny nz nv : Nat) (syms : List Sym) (m : Arr3 Nat) (hm : fbz2irrk nx ny nz syms = some m)
    (h1 : nx * ny * nz ≠ 1) (h2 : nv - nv / 2 ≠ 1) (ext : List ℂ → ℝ × ℝ × EReal) (G : Pt → List ℂ) (hG : Invariant nx ny nz syms G) :
    ∃ re im z, polyFit nx ny nz nv (flat3 m) ext (table nx ny nz fun i j k => G (i, j, k)) = some (re, im, z) ∧
      ∀ p, InGrid nx ny nz p →
        at3 re p.1 p.2.1 p.2.2 = some (ext (posHalf (G p))).2.1 ∧
        at3 im p.1 p.2.1 p.2.2 = some (ext (posHalf (G p))).1 ∧
        at3 z p.1 p.2.1 p.2.2 = some (ext (posHalf (G p))).2.2 := by
  obtain ⟨re, im, z, h, hv⟩ := polyFit_value_any nx ny nz nv syms m hm h1 h2 ext G
  refine ⟨re, im, z, h, fun p hp => ?_⟩
  obtain ⟨r, _, hrel, _, _, hval⟩ := hv p hp
  rw [invariant_related hG hp hrel] at hval
  exact hval

/-- **C105.** A single momentum or a single positive frequency raises. -/
theorem polyFit_raises (nx ny nz nv : Nat) (f : List Nat) (ext : List ℂ → ℝ × ℝ × EReal) (mat : Arr3 (List ℂ))
    (h : nx * ny * nz = 1 ∨ nv - nv / 2 = 1) : polyFit nx ny nz nv f ext mat = none := by
  unfold polyFit; rw [if_pos h]

/-! ### the fits of the DΓA self-energy and Green's function -/

/-- the grid point that the shift by π puts at `p`: `p - (nx/2, ny/2, 0)` modulo the grid -/
def back (nx ny : Nat) (p : Pt) : Pt := ((p.1 + (nx - nx / 2)) % nx, (p.2.1 + (ny - ny / 2)) % ny, p.2.2)

theorem roll_table {α : Type} (n s : Nat) (hs : s ≤ n) (g : Nat → α) :
    roll ((List.range n).map g) (s : Int) = (List.range n).map fun i => g ((i + (n - s)) % n) := by
  rcases Nat.eq_zero_or_pos n with rfl | hn
  · simp [roll]
  apply List.ext_getElem?
  intro i
  by_cases hi : i < n
  · have := roll_get? ((List.range n).map g) (s : Int) (i : Int) (by simpa using hn)
    simp only [List.length_map, List.length_range] at this
    rw [Int.emod_eq_of_lt (by omega) (by omega), Int.toNat_natCast] at this
    rw [this, range_map_get?, range_map_get?, if_pos hi]
    have e : (((i : Int) - (s : Int)) % (n : Int)).toNat = (i + (n - s)) % n := by
      have : ((i : Int) - s) % n = (((i + (n - s) : Nat) : Int)) % n := by
        rw [← Int.add_emod_right]; congr 1; omega
      rw [this, ← Int.natCast_emod, Int.toNat_natCast]
    rw [e, if_pos (Nat.mod_lt _ hn)]
  · rw [List.getElem?_eq_none (by rw [roll_length]; simp; omega), List.getElem?_eq_none (by simp; omega)]

theorem shiftByPi2_table {α : Type} (nx ny nz : Nat) (G : Pt → α) :
    shiftByPi2 (table nx ny nz fun i j k => G (i, j, k)) nx ny = table nx ny nz fun i j k => G (back nx ny (i, j, k)) := by
  have e0 : ∀ l : List α, roll l 0 = l := by intro l; unfold roll; simp
  unfold shiftByPi2 shiftByInd table
  simp only [e0, List.map_map]
  rw [roll_table nx (nx / 2) (by omega)]
  apply List.map_congr_left
  intro i _
  simp only [Function.comp, List.map_map]
  rw [show ((fun r : List α => r) ∘ fun j => (List.range nz).map fun k => G ((i + (nx - nx / 2)) % nx, j, k)) =
    fun j => (List.range nz).map fun k => G ((i + (nx - nx / 2)) % nx, j, k) from rfl]
  rw [roll_table ny (ny / 2) (by omega)]
  rfl

theorem neg_shift (n i : Nat) (he : n % 2 = 0) (hi : i < n) :
    ((n - i) % n + (n - n / 2)) % n = (n - (i + (n - n / 2)) % n) % n := by
  obtain ⟨h, rfl⟩ : ∃ h, n = 2 * h := ⟨n / 2, by omega⟩
  have h1 : 2 * h / 2 = h := by omega
  rw [h1, show 2 * h - h = h by omega]
  by_cases hi0 : i = 0
  · subst hi0
    rw [Nat.sub_zero, Nat.mod_self, Nat.zero_add, Nat.mod_eq_of_lt (show h < 2 * h by omega), show 2 * h - h = h by omega,
      Nat.mod_eq_of_lt (show h < 2 * h by omega)]
  · rw [Nat.mod_eq_of_lt (show 2 * h - i < 2 * h by omega)]
    by_cases hlt : i < h
    · rw [Nat.mod_eq_of_lt (show i + h < 2 * h by omega), Nat.mod_eq_sub_mod (by omega), Nat.mod_eq_of_lt (by omega), Nat.mod_eq_of_lt (by omega)]
      omega
    · rw [Nat.mod_eq_sub_mod (show 2 * h ≤ i + h by omega), Nat.mod_eq_of_lt (show i + h - 2 * h < 2 * h by omega)]
      rcases Nat.eq_or_lt_of_le (not_lt.1 hlt) with he | hg
      · subst he
        rw [show 2 * h - h + h = 2 * h by omega, show 2 * h - (h + h - 2 * h) = 2 * h by omega]
      · rw [Nat.mod_eq_of_lt (by omega), Nat.mod_eq_of_lt (by omega)]
        omega

theorem back_inGrid (nx ny nz : Nat) (p : Pt) (hp : InGrid nx ny nz p) : InGrid nx ny nz (back nx ny p) :=
  ⟨Nat.mod_lt _ (lt_of_le_of_lt (Nat.zero_le _) hp.1), Nat.mod_lt _ (lt_of_le_of_lt (Nat.zero_le _) hp.2.1), hp.2.2⟩

/-- on grids with even nkx and nky the shift by π commutes with every symmetry operation -/
theorem back_image (nx ny nz : Nat) (ex : nx % 2 = 0) (ey : ny % 2 = 0) (s : Sym) (p : Pt) (hp : InGrid nx ny nz p) :
    back nx ny (image nx ny nz s p) = image nx ny nz s (back nx ny p) := by
  obtain ⟨i, j, k⟩ := p
  obtain ⟨h1, h2, h3⟩ := hp
  simp only at h1 h2 h3
  cases s with
  | xInv => simp only [image, back, neg_shift nx i ex h1]
  | yInv => simp only [image, back, neg_shift ny j ey h2]
  | zInv => simp only [image, back]
  | xyInv => simp only [image, back, neg_shift nx i ex h1, neg_shift ny j ey h2]
  | xySym =>
    by_cases h : nx = ny
    · subst h; simp only [image, back, if_true]
    · simp only [image, back, h, if_false]
  | other => rfl

theorem invariant_shift (nx ny nz : Nat) (ex : nx % 2 = 0) (ey : ny % 2 = 0) (syms : List Sym) (G : Pt → List ℂ)
    (hG : Invariant nx ny nz syms G) : Invariant nx ny nz syms fun p => G (back nx ny p) := by
  intro s hs p hp
  show G (back nx ny (image nx ny nz s p)) = G (back nx ny p)
  rw [back_image nx ny nz ex ey s p hp, hG s hs _ (back_inGrid nx ny nz p hp)]

/-- **C105.** The fits of the DΓA self-energy and Green's function: if nkx and nky are even and the input has the symmetry of the lattice,
    the saved maps hold at index `p` the coefficients fitted at the momentum `p - (nx/2, ny/2, 0)`, i.e. the maps are centred at Γ. -/
theorem dgaPolyFit_even (nx ny nz nv : Nat) (ex : nx % 2 = 0) (ey : ny % 2 = 0) (syms : List Sym) (m : Arr3 Nat)
    (hm : fbz2irrk nx ny nz syms = some m) (h1 : nx * ny * nz ≠ 1) (h2 : nv - nv / 2 ≠ 1) (ext : List ℂ → ℝ × ℝ × EReal)
    (G : Pt → List ℂ) (hG : Invariant nx ny nz syms G) :
    ∃ re im z, dgaPolyFit nx ny nz nv (flat3 m) ext (table nx ny nz fun i j k => G (i, j, k)) = some (re, im, z) ∧
      ∀ p, InGrid nx ny nz p →
        at3 re p.1 p.2.1 p.2.2 = some (ext (posHalf (G (back nx ny p)))).2.1 ∧
        at3 im p.1 p.2.1 p.2.2 = some (ext (posHalf (G (back nx ny p)))).1 ∧
        at3 z p.1 p.2.1 p.2.2 = some (ext (posHalf (G (back nx ny p)))).2.2 := by
  unfold dgaPolyFit
  rw [shiftByPi2_table]
  exact polyFit_symmetric nx ny nz nv syms m hm h1 h2 ext (fun p => G (back nx ny p)) (invariant_shift nx ny nz ex ey syms G hG)

/-- **C105.** For odd nkx the maps are wrong: for every odd nkx ≥ 3, every predefined symmetry set with x inversion and every fit that tells
    two rows apart there is a symmetric input for which the map differs at some momentum from the fit at that momentum. -/
theorem dgaPolyFit_odd_wrong (nx ny nz nv : Nat) (ho : nx % 2 = 1) (h3 : 3 ≤ nx) (hy : 0 < ny) (hz : 0 < nz) (syms : List Sym)
    (hs : syms ∈ predefined) (hx : Sym.xInv ∈ syms) (m : Arr3 Nat) (hm : fbz2irrk nx ny nz syms = some m) (h2 : nv - nv / 2 ≠ 1)
    (ext : List ℂ → ℝ × ℝ × EReal) (rowΓ row : List ℂ) (hext : (ext (posHalf rowΓ)).2.1 ≠ (ext (posHalf row)).2.1) :
    ∃ G, Invariant nx ny nz syms G ∧ ∃ re im z, dgaPolyFit nx ny nz nv (flat3 m) ext (table nx ny nz fun i j k => G (i, j, k)) = some (re, im, z) ∧
      ∃ p, InGrid nx ny nz p ∧ at3 re p.1 p.2.1 p.2.2 ≠ some (ext (posHalf (G (back nx ny p)))).2.1 := by
  classical
  let G : Pt → List ℂ := fun p => if p = (0, 0, 0) then rowΓ else row
  have im0 : ∀ s, image nx ny nz s (0, 0, 0) = (0, 0, 0) := by
    intro s
    cases s <;> simp [image, Nat.mod_self]
  have hG : Invariant nx ny nz syms G := by
    intro s _ p hp
    have : image nx ny nz s p = (0, 0, 0) ↔ p = (0, 0, 0) := by
      constructor
      · intro h
        have h' := image_image nx ny nz s p hp
        rw [h, im0] at h'
        exact h'.symm
      · rintro rfl; exact im0 s
    simp only [G, this]
  have h1 : nx * ny * nz ≠ 1 := by
    intro h
    have := Nat.eq_one_of_mul_eq_one_right (Nat.eq_one_of_mul_eq_one_right h)
    omega
  obtain ⟨re, im, z, hr, hv⟩ := polyFit_value nx ny nz nv syms hs m hm h1 h2 ext fun p => G (back nx ny p)
  refine ⟨G, hG, re, im, z, ?_, ?_⟩
  · unfold dgaPolyFit; rw [shiftByPi2_table]; exact hr
  have hp : InGrid nx ny nz (nx / 2 + 1, ny / 2, 0) := ⟨by simp only; omega, by simp only; omega, hz⟩
  have hq : InGrid nx ny nz (nx / 2, ny / 2, 0) := ⟨by simp only; omega, by simp only; omega, hz⟩
  have hpq : Related nx ny nz syms (nx / 2 + 1, ny / 2, 0) (nx / 2, ny / 2, 0) := by
    have := Related.step (nx := nx) (ny := ny) (nz := nz) hx (Related.refl (p := (nx / 2 + 1, ny / 2, 0)))
    have e : (nx - (nx / 2 + 1)) % nx = nx / 2 := by
      rw [Nat.mod_eq_of_lt (by omega)]; omega
    simp only [image, e] at this
    exact this
  have bp : back nx ny (nx / 2 + 1, ny / 2, 0) = (1, 0, 0) := by
    unfold back
    have e1 : nx / 2 + 1 + (nx - nx / 2) = 1 + nx := by omega
    have e2 : ny / 2 + (ny - ny / 2) = ny := by omega
    simp only [e1, e2, Nat.mod_self, Nat.add_mod_right]
    rw [Nat.mod_eq_of_lt (by omega)]
  have bq : back nx ny (nx / 2, ny / 2, 0) = (0, 0, 0) := by
    unfold back
    have e1 : nx / 2 + (nx - nx / 2) = nx := by omega
    have e2 : ny / 2 + (ny - ny / 2) = ny := by omega
    simp only [e1, e2, Nat.mod_self]
  obtain ⟨r, gr, _, ar, vr, _⟩ := hv _ hp
  obtain ⟨r', gr', _, ar', vr', _⟩ := hv _ hq
  have hsh := (irrk_share_iff nx ny nz syms hs m hm _ _ hp hq).2 hpq
  rw [ar, ar'] at hsh
  have hrr : r = r' := linP_inj nx ny nz _ _ gr gr' (by injection hsh)
  subst hrr
  by_cases hne : (ext (posHalf (G (back nx ny r)))).2.1 = (ext (posHalf row)).2.1
  · refine ⟨_, hq, ?_⟩
    rw [vr', bq, hne]
    intro h
    injection h with h
    exact hext (by simpa [G] using h.symm)
  · refine ⟨_, hp, ?_⟩
    rw [vr, bp]
    intro h
    injection h with h
    exact hne (by simpa [G] using h)

/-- **C105.** What is saved for a self-energy that is polynomial on the imaginary axis, `Re Σ(k, iv) = b_k(v)`, `Im Σ(k, iv) = p_k(v)`:
    `re_fs` is `Re Σ(k, 0)`, `im_fs` is the scattering rate `- Im Σ(k, 0)`. -/
theorem dmft_map_exact (nx ny nz : Nat) (syms : List Sym) (m : Arr3 Nat) (hm : fbz2irrk nx ny nz syms = some m)
    (h1 : nx * ny * nz ≠ 1) (wn : List ℝ) (hwn : wn.length ≠ 1) (hnd : wn.Nodup) (order nFit : Nat) (hlen : order < nFit) (hlen2 : nFit ≤ wn.length)
    (ext : List ℂ → ℝ × ℝ × EReal)
    (b p : Pt → Polynomial ℝ)
    (hext : ∀ k, InGrid nx ny nz k → ∀ row : List ℂ, row = wn.map (fun v => ⟨(b k).eval v, (p k).eval v⟩) →
      DGA.Ana.isGammaBandshiftZ wn (row.map Complex.re) (row.map Complex.im) order nFit (ext row).1 (ext row).2.1 (ext row).2.2) (hb : ∀ k, (b k).degree ≤ order) (hp : ∀ k, (p k).degree ≤ order) (neg : Pt → List ℂ) (hneg : ∀ k, (neg k).length = wn.length)
    (hG : Invariant nx ny nz syms fun k => neg k ++ wn.map fun v => ⟨(b k).eval v, (p k).eval v⟩) :
    ∃ re im z, polyFit nx ny nz (2 * wn.length) (flat3 m) ext
        (table nx ny nz fun i j k => neg (i, j, k) ++ wn.map fun v => ⟨(b (i, j, k)).eval v, (p (i, j, k)).eval v⟩) = some (re, im, z) ∧
      ∀ k, InGrid nx ny nz k → at3 re k.1 k.2.1 k.2.2 = some ((b k).eval 0) ∧ at3 im k.1 k.2.1 k.2.2 = some (-(p k).eval 0) := by
  obtain ⟨re, im, z, h, hv⟩ := polyFit_symmetric nx ny nz (2 * wn.length) syms m hm h1 (by omega) ext _ hG
  refine ⟨re, im, z, h, fun k hk => ?_⟩
  obtain ⟨v1, v2, _⟩ := hv k hk
  have hhalf : posHalf (neg k ++ wn.map fun v => (⟨(b k).eval v, (p k).eval v⟩ : ℂ)) = wn.map fun v => ⟨(b k).eval v, (p k).eval v⟩ := by
    unfold posHalf
    have : (neg k ++ wn.map fun v => (⟨(b k).eval v, (p k).eval v⟩ : ℂ)).length / 2 = (neg k).length := by
      simp [hneg k]; omega
    rw [this, List.drop_left]
  rw [hhalf] at v1 v2
  have hx := hext k hk _ rfl
  rw [List.map_map, List.map_map] at hx
  have := DGA.Ana.scattering_rate (b k) (p k) order nFit (hb k) (hp k) wn hnd hlen hlen2 _ _ _ hx
  rw [v1, v2, this.1, this.2]
  exact ⟨rfl, rfl⟩

/-- non-vacuity: a 4×4 square grid, a function of the distance from Γ -/
example : Invariant 4 4 1 square fun p => [(((min p.1 (4 - p.1) + min p.2.1 (4 - p.2.1) : Nat) : ℂ)), 0, 1, 2] := by
  intro s hs p hp
  obtain ⟨i, j, k⟩ := p
  obtain ⟨h1, h2, h3⟩ := hp
  simp only at h1 h2 h3
  simp only [square, List.mem_cons, List.not_mem_nil, or_false] at hs
  rcases hs with rfl | rfl | rfl
  · have : min ((4 - i) % 4) (4 - (4 - i) % 4) = min i (4 - i) := by omega
    simp only [image, this]
  · have : min ((4 - j) % 4) (4 - (4 - j) % 4) = min j (4 - j) := by omega
    simp only [image, this]
  · simp only [image, if_true, Nat.add_comm]

open Polynomial in
/-- non-vacuity of `dmft_map_exact`: `Re Σ = 3`, `Im Σ = -v` at every momentum, fitted with order 1 to three frequencies -/
example : ∃ re im z, polyFit 2 2 1 6 (flat3 [[[0], [1]], [[1], [3]]]) (fun _ => (0, 3, ((1 / (1 - (-1)) : ℝ) : EReal)))
      (table 2 2 1 fun _ _ _ => [0, 0, 0] ++ [1, 3, 5].map fun v : ℝ => (⟨(C (3 : ℝ)).eval v, (X * C (-1 : ℝ)).eval v⟩ : ℂ)) = some (re, im, z) ∧
    ∀ k, InGrid 2 2 1 k → at3 re k.1 k.2.1 k.2.2 = some ((C (3 : ℝ)).eval 0) ∧ at3 im k.1 k.2.1 k.2.2 = some (-(X * C (-1 : ℝ)).eval 0) := by
  have hd : (X * C (-1 : ℝ)).degree ≤ ((1 : Nat) : WithBot Nat) := by
    rw [mul_comm]; exact (degree_C_mul_X_le _).trans (by exact_mod_cast le_rfl)
  have hc : ∀ c : ℝ, (C c).degree ≤ ((1 : Nat) : WithBot Nat) := fun c => degree_C_le.trans (by exact_mod_cast Nat.zero_le _)
  refine dmft_map_exact 2 2 1 square _ (by decide) (by omega) [1, 3, 5] (by simp) (by norm_num) 1 3 (by omega) (by simp) _ (fun _ => C 3)
    (fun _ => X * C (-1)) ?_ (fun _ => hc 3) (fun _ => hd) (fun _ => [0, 0, 0]) (fun _ => rfl) (fun _ _ _ _ => rfl)
  rintro k _ row rfl
  have := (DGA.Ana.fermi_liquid (C 3) (C (-1)) 1 3 (hc 3) (hc (-1)) hd [1, 3, 5] (by simp) (by norm_num) (by omega) (by simp) (by simp)).1
  simpa [List.map_map] using this

/-- non-vacuity of `dgaPolyFit_odd_wrong`: the symmetry sets with x inversion -/
example : square ∈ predefined ∧ Sym.xInv ∈ square ∧ nematic ∈ predefined ∧ Sym.xInv ∈ nematic := by decide

end DGA.Pf
