/-
  C24, C25, C26, C28, C29: conversions between two-particle functions.
-/
import Verif.FourPoint.Lemmas
import Mathlib.Tactic.NormNum

namespace DGA.Fp

open DGA.Mf DGA.Bubble

variable {K : Type} [Field K]

/-! ### C28 — channel tables -/

/-- C28.  `get_ur`: `+u` in the density and up-down channels, `-u` in the magnetic and up-up channels, otherwise an
    exception. -/
theorem getUr_table (u : K) (ch : String) :
    getUr u ch = if ch = "dens" ∨ ch = "updo" then some u else if ch = "magn" ∨ ch = "upup" then some (-u) else none := by
  unfold getUr
  by_cases h1 : ch = "magn"
  · subst h1; simp
  · by_cases h2 : ch = "dens"
    · subst h2; simp
    · by_cases h3 : ch = "updo"
      · subst h3; simp
      · by_cases h4 : ch = "upup"
        · subst h4; simp
        · simp [h1, h2, h3, h4]

/-- C28.  `get_sign`: defined exactly for the density and magnetic channels. -/
theorem getSign_table (ch : String) :
    (getSign ch : Option K) = if ch = "dens" then some 1 else if ch = "magn" then some (-1) else none := by
  unfold getSign
  by_cases h1 : ch = "magn"
  · subst h1; simp
  · by_cases h2 : ch = "dens"
    · subst h2; simp
    · simp [h1, h2]

/-- C28.  Where both exist, `u_r` is the sign times `u`. -/
theorem ur_eq_sign_mul (u s : K) (ch : String) (h : getSign ch = some s) : getUr u ch = some (s * u) := by
  rw [getSign_table] at h
  rw [getUr_table]
  split at h
  · rename_i hc; cases h; simp [hc]
  · split at h
    · rename_i hc; cases h; simp [hc]
    · cases h

omit [Field K] in
/-- C28.  Constructing an n-point object fails exactly for unknown channels and when neither the full range nor a list
    of frequencies is given; otherwise it stores what was passed. -/
theorem newNPoint_spec {α : Type} (channel : String) (mat : List α) (beta u : K) (wn : Option (List Int)) (full : Bool) :
    newNPoint channel mat beta u wn full =
      if channel ∈ ["dens", "magn", "trip", "sing", "updo", "upup"] ∧ (full = true ∨ wn.isSome = true) then
        some ⟨channel, mat, beta, u, if full then none else wn⟩ else none := by
  unfold newNPoint knownChannels
  by_cases h : channel ∈ ["dens", "magn", "trip", "sing", "updo", "upup"]
  · cases full <;> cases wn <;> simp [h]
  · simp [h]

/-- singlet and triplet objects can be constructed but have no `u_r` -/
example : newNPoint (K := ℚ) "sing" [()] 1 2 none true ≠ none ∧ getUr (2 : ℚ) "sing" = none := by
  constructor
  · simp [newNPoint_spec]
  · rw [getUr_table]; simp

/-! ### C29 — symmetrization in (v, v') -/

/-- C29.  The result is the arithmetic mean of the entry and its transpose; all other attributes are kept. -/
theorem symmetrizeVVp_value {n : Nat} (o : FourP n K) (k : Nat) (m : Mat n K) (h : o.mat[k]? = some m) :
    ∃ m', (symmetrizeVVp o).mat[k]? = some m' ∧ ∀ i j, m' i j = (m i j + m j i) / 2 := by
  refine ⟨_, by unfold symmetrizeVVp; rw [List.getElem?_map, h]; rfl, ?_⟩
  intro i j
  simp only [Matrix.of_apply]
  ring

/-- C29.  The result is symmetric. -/
theorem symmetrizeVVp_symm {n : Nat} (o : FourP n K) (m : Mat n K) (h : m ∈ (symmetrizeVVp o).mat) (i j : Fin n) :
    m i j = m j i := by
  unfold symmetrizeVVp at h
  rw [List.mem_map] at h
  obtain ⟨m', _, rfl⟩ := h
  simp only [Matrix.of_apply]
  ring

/-- C29.  Symmetric objects are unchanged. -/
theorem symmetrizeVVp_fixed {n : Nat} (o : FourP n K) (h2 : (2 : K) ≠ 0)
    (h : ∀ m ∈ o.mat, ∀ i j, m i j = m j i) : symmetrizeVVp o = o := by
  unfold symmetrizeVVp
  have : (o.mat.map fun m => (Matrix.of fun i j => (1 / 2) * (m i j + m j i) : Mat n K)) = o.mat := by
    conv_rhs => rw [← List.map_id o.mat]
    apply List.map_congr_left
    intro m hm
    ext i j
    simp only [Matrix.of_apply, id]
    rw [h m hm j i]
    field_simp
    ring
  rw [this]

/-- C29.  Idempotent. -/
theorem symmetrizeVVp_idem {n : Nat} (o : FourP n K) (h2 : (2 : K) ≠ 0) :
    symmetrizeVVp (symmetrizeVVp o) = symmetrizeVVp o :=
  symmetrizeVVp_fixed _ h2 fun m hm i j => symmetrizeVVp_symm o m hm i j

/-! ### C24 — generalized susceptibility and two-particle Green's function -/

/-- C24.  `gchir_from_g2`: beta times G2, minus `2 beta G(v) G(v')` in the density channel at w = 0 only. -/
theorem gchirFromG2_value (c : Nat) (g2 : FourP (2 * c) K) (hk : g2.channel ∈ knownChannels)
    (hl : g2.mat.length = g2.wn.length) (G : Int → K) (N : Nat) (hN : c ≤ N) :
    ∃ r, gchirFromG2 g2 (samplesF G N) = some r ∧ r.channel = g2.channel ∧ r.beta = g2.beta ∧ r.u = g2.u ∧ r.wnSel = g2.wnSel ∧ r.wn = g2.wn ∧
      r.mat.length = g2.mat.length ∧
      ∀ (k : Nat) w m, g2.wn[k]? = some w → g2.mat[k]? = some m → ∃ m', r.mat[k]? = some m' ∧ ∀ i j,
        m' i j = g2.beta * m i j - if g2.channel = "dens" ∧ w = 0 then
          2 * g2.beta * (G ((i.val : Int) - c) * G ((j.val : Int) - c)) else 0 := by
  unfold gchirFromG2
  by_cases hd : g2.channel = "dens" ∧ 0 ∈ g2.wn
  · rw [if_pos hd, show 2 * c / 2 = c by omega, getGgv_value G N c hN]
    simp only [Option.bind_some, atZero, hl.symm, if_true]
    rw [construct_eq g2 hk]
    refine ⟨_, rfl, rfl, rfl, rfl, rfl, wn_congr g2 _ ?_, ?_, ?_⟩
    · rw [List.length_zipWith]; omega
    · rw [List.length_zipWith]; omega
    · intro k w m hw hm
      simp only [zipWith_get?, hw, hm, Option.bind_some, Option.map_some]
      refine ⟨_, rfl, ?_⟩
      intro i j
      by_cases h0 : w = 0
      · simp only [h0, if_true, Matrix.of_apply, hd.1, and_self]; ring
      · simp [h0]
  · rw [if_neg hd, construct_eq g2 hk]
    refine ⟨_, rfl, rfl, rfl, rfl, rfl, wn_congr g2 _ (by simp), by simp, ?_⟩
    intro k w m hw hm
    simp only [List.getElem?_map, hm, Option.map_some]
    refine ⟨_, rfl, ?_⟩
    intro i j
    have : ¬ (g2.channel = "dens" ∧ w = 0) := by
      rintro ⟨h1, rfl⟩
      exact hd ⟨h1, List.mem_of_getElem? hw⟩
    simp [this]

/-- C24.  `g2_from_chir`: chi / beta, plus `2 G(v) G(v')` in the density channel at w = 0 only. -/
theorem g2FromChir_value (c : Nat) (x : FourP (2 * c) K) (hk : x.channel ∈ knownChannels)
    (hl : x.mat.length = x.wn.length) (G : Int → K) (N : Nat) (hN : c ≤ N) :
    ∃ r, g2FromChir x (samplesF G N) = some r ∧ r.channel = x.channel ∧ r.beta = x.beta ∧ r.u = x.u ∧ r.wnSel = x.wnSel ∧ r.wn = x.wn ∧
      r.mat.length = x.mat.length ∧
      ∀ (k : Nat) w m, x.wn[k]? = some w → x.mat[k]? = some m → ∃ m', r.mat[k]? = some m' ∧ ∀ i j,
        m' i j = m i j / x.beta + if x.channel = "dens" ∧ w = 0 then
          2 * (G ((i.val : Int) - c) * G ((j.val : Int) - c)) else 0 := by
  unfold g2FromChir
  by_cases hd : x.channel = "dens" ∧ 0 ∈ x.wn
  · rw [if_pos hd, show 2 * c / 2 = c by omega, getGgv_value G N c hN]
    simp only [Option.bind_some, atZero, hl.symm, if_true]
    rw [construct_eq x hk]
    refine ⟨_, rfl, rfl, rfl, rfl, rfl, wn_congr x _ ?_, ?_, ?_⟩
    · rw [List.length_zipWith]; omega
    · rw [List.length_zipWith]; omega
    · intro k w m hw hm
      simp only [zipWith_get?, hw, hm, Option.bind_some, Option.map_some]
      refine ⟨_, rfl, ?_⟩
      intro i j
      by_cases h0 : w = 0
      · simp only [h0, if_true, Matrix.of_apply, hd.1, and_self]; ring
      · simp only [h0, if_false, Matrix.of_apply, and_false]; ring
  · rw [if_neg hd, construct_eq x hk]
    refine ⟨_, rfl, rfl, rfl, rfl, rfl, wn_congr x _ (by simp), by simp, ?_⟩
    intro k w m hw hm
    simp only [List.getElem?_map, hm, Option.map_some]
    refine ⟨_, rfl, ?_⟩
    intro i j
    have : ¬ (x.channel = "dens" ∧ w = 0) := by
      rintro ⟨h1, rfl⟩
      exact hd ⟨h1, List.mem_of_getElem? hw⟩
    simp only [this, if_false, Matrix.of_apply]; ring

omit [Field K] in
/-- objects with the same attributes and the same slices are equal -/
theorem npoint_ext {n : Nat} (a b : FourP n K) (h1 : a.channel = b.channel) (h2 : a.beta = b.beta) (h3 : a.u = b.u)
    (h4 : a.wnSel = b.wnSel) (hl : a.mat.length = b.mat.length)
    (h : ∀ (k : Nat) x y, a.mat[k]? = some x → b.mat[k]? = some y → ∀ i j, x i j = y i j) : a = b := by
  obtain ⟨_, ma, _, _, _⟩ := a
  obtain ⟨_, mb, _, _, _⟩ := b
  simp only at h1 h2 h3 h4 hl h
  subst h1 h2 h3 h4
  congr 1
  apply List.ext_getElem?
  intro k
  by_cases hk : k < ma.length
  · have e1 := List.getElem?_eq_getElem hk
    have e2 := List.getElem?_eq_getElem (l := mb) (i := k) (by omega)
    rw [e1, e2]
    congr 1
    ext i j
    exact h k _ _ e1 e2 i j
  · rw [List.getElem?_eq_none (by omega), List.getElem?_eq_none (by omega)]

/-- C24.  Converting to the generalized susceptibility and back returns the two-particle Green's function. -/
theorem g2_of_gchir_of_g2 (c : Nat) (g2 : FourP (2 * c) K) (hk : g2.channel ∈ knownChannels)
    (hl : g2.mat.length = g2.wn.length) (hb : g2.beta ≠ 0) (G : Int → K) (N : Nat) (hN : c ≤ N) :
    (gchirFromG2 g2 (samplesF G N)).bind (g2FromChir · (samplesF G N)) = some g2 := by
  obtain ⟨r, h1, h2, h3, h4, h5, h6, h7, h8⟩ := gchirFromG2_value c g2 hk hl G N hN
  obtain ⟨q, p1, p2, p3, p4, p5, p6, p7, p8⟩ := g2FromChir_value c r (h2 ▸ hk) (by rw [h6, h7, hl]) G N hN
  rw [h1, Option.bind_some, p1]
  congr 1
  apply npoint_ext q g2 (p2.trans h2) (p3.trans h3) (p4.trans h4) (p5.trans h5) (p7.trans h7)
  intro k x y hx hy i j
  have hkl : k < g2.mat.length := by
    by_contra hc
    rw [List.getElem?_eq_none (by omega)] at hy; cases hy
  have hw : g2.wn[k]? = some (g2.wn[k]'(by omega)) := List.getElem?_eq_getElem _
  obtain ⟨m', e1, e2⟩ := h8 k _ y hw hy
  obtain ⟨m'', e3, e4⟩ := p8 k _ m' (by rw [h6]; exact hw) e1
  rw [hx] at e3
  cases e3
  rw [e4, e2, h2, h3]
  split <;> field_simp <;> ring

/-- C24.  Converting to the two-particle Green's function and back returns the generalized susceptibility. -/
theorem gchir_of_g2_of_gchir (c : Nat) (x : FourP (2 * c) K) (hk : x.channel ∈ knownChannels)
    (hl : x.mat.length = x.wn.length) (hb : x.beta ≠ 0) (G : Int → K) (N : Nat) (hN : c ≤ N) :
    (g2FromChir x (samplesF G N)).bind (gchirFromG2 · (samplesF G N)) = some x := by
  obtain ⟨r, h1, h2, h3, h4, h5, h6, h7, h8⟩ := g2FromChir_value c x hk hl G N hN
  obtain ⟨q, p1, p2, p3, p4, p5, p6, p7, p8⟩ := gchirFromG2_value c r (h2 ▸ hk) (by rw [h6, h7, hl]) G N hN
  rw [h1, Option.bind_some, p1]
  congr 1
  apply npoint_ext q x (p2.trans h2) (p3.trans h3) (p4.trans h4) (p5.trans h5) (p7.trans h7)
  intro k a b ha hb' i j
  have hkl : k < x.mat.length := by
    by_contra hc
    rw [List.getElem?_eq_none (by omega)] at hb'; cases hb'
  have hw : x.wn[k]? = some (x.wn[k]'(by omega)) := List.getElem?_eq_getElem _
  obtain ⟨m', e1, e2⟩ := h8 k _ b hw hb'
  obtain ⟨m'', e3, e4⟩ := p8 k _ m' (by rw [h6]; exact hw) e1
  rw [ha] at e3
  cases e3
  rw [e4, e2, h2, h3]
  split <;> field_simp <;> ring

/-- hypotheses of C24 are met by a density object on three bosonic and two fermionic frequencies -/
example : ∃ g2 : FourP (2 * 1) ℚ, g2.channel ∈ knownChannels ∧ g2.mat.length = g2.wn.length ∧ g2.beta ≠ 0 ∧
    g2.mat.length = 3 ∧ (0 : Int) ∈ g2.wn :=
  ⟨⟨"dens", [1, 2, 3], 10, 8, none⟩, by decide, rfl, by norm_num, rfl, by decide⟩

/-! ### C25 — full and irreducible vertex -/

/-- C25.  `gchir_from_fob2 (fob2_from_gchir chi) = chi`. -/
theorem gchir_of_fob2_of_gchir {n : Nat} (x : FourP n K) (hk : x.channel ∈ knownChannels) (gchi0 : List (Vec n K))
    (hl : gchi0.length = x.mat.length) (h0 : ∀ g ∈ gchi0, ∀ i, g i ≠ 0) :
    (fob2FromGchir x gchi0).bind (gchirFromFob2 · gchi0) = some x := by
  unfold fob2FromGchir gchirFromFob2 zipW
  rw [if_pos hl.symm, Option.bind_some, construct_eq x hk, Option.bind_some]
  rw [if_pos (by simp [hl]), Option.bind_some, construct_eq _ (by exact hk)]
  congr 1
  refine npoint_ext _ x ?_ ?_ ?_ ?_ (by simp [hl]) ?_
  · rfl
  · rfl
  · rfl
  · rfl
  intro k a b ha hb i j
  simp only [zipWith_get?, hb, Option.bind_some] at ha
  cases hg : gchi0[k]? with
  | none => rw [hg] at ha; simp at ha
  | some g =>
    rw [hg] at ha
    simp only [Option.map_some, Option.bind_some, Option.some.injEq] at ha
    have hg0 := h0 g (List.mem_of_getElem? hg)
    rw [← ha]
    simp only [gchirFobSlice, fob2Slice, diag, Matrix.of_apply]
    have h1 := hg0 i
    have h2 := hg0 j
    by_cases hij : i = j
    · subst hij; simp only [if_true]; field_simp; ring
    · simp only [hij, if_false]; field_simp; ring

/-- C25.  `fob2_from_gchir (gchir_from_fob2 F) = F`. -/
theorem fob2_of_gchir_of_fob2 {n : Nat} (f : FourP n K) (hk : f.channel ∈ knownChannels) (gchi0 : List (Vec n K))
    (hl : gchi0.length = f.mat.length) (h0 : ∀ g ∈ gchi0, ∀ i, g i ≠ 0) :
    (gchirFromFob2 f gchi0).bind (fob2FromGchir · gchi0) = some f := by
  unfold fob2FromGchir gchirFromFob2 zipW
  rw [if_pos hl.symm, Option.bind_some, construct_eq f hk, Option.bind_some]
  rw [if_pos (by simp [hl]), Option.bind_some, construct_eq _ (by exact hk)]
  congr 1
  refine npoint_ext _ f ?_ ?_ ?_ ?_ (by simp [hl]) ?_
  · rfl
  · rfl
  · rfl
  · rfl
  intro k a b ha hb i j
  simp only [zipWith_get?, hb, Option.bind_some] at ha
  cases hg : gchi0[k]? with
  | none => rw [hg] at ha; simp at ha
  | some g =>
    rw [hg] at ha
    simp only [Option.map_some, Option.bind_some, Option.some.injEq] at ha
    have hg0 := h0 g (List.mem_of_getElem? hg)
    rw [← ha]
    simp only [gchirFobSlice, fob2Slice, diag, Matrix.of_apply]
    have h1 := hg0 i
    have h2 := hg0 j
    by_cases hij : i = j
    · subst hij; simp only [if_true]; field_simp; ring
    · simp only [hij, if_false]; field_simp; ring

/-- one slice: Gamma is obtained from chi iff chi is obtained from Gamma -/
theorem gamob2W_iff {n : Nat} (chi gam : Mat n K) (g0 : Vec n K) :
    gamob2W chi g0 = some gam ↔ gchirGamW gam g0 = some chi := by
  unfold gamob2W gchirGamW
  rw [inv?_iff]
  constructor
  · intro h
    cases hc : inv? chi with
    | none => rw [hc] at h; cases h
    | some ci =>
      rw [hc] at h
      have hg : gam = -(diag (fun i => 1 / g0 i) - ci) := (Option.some.inj h).symm
      have : diag (fun i => 1 / g0 i) + gam = ci := by rw [hg]; abel
      rw [this]
      exact inv?_left hc
  · intro h
    have : inv? chi = some (diag (fun i => 1 / g0 i) + gam) := (inv?_iff _ _).mpr (mul_eq_one_comm.mp h)
    rw [this, Option.map_some]
    congr 1
    abel

/-- C25.  The irreducible vertex and the generalized susceptibility determine each other: `gamob2_from_gchir` returns
    `Gamma` exactly if `gchir_from_gamob2` applied to it returns the susceptibility. -/
theorem gamob2_iff_gchir {n : Nat} (x gam : FourP n K) (gchi0 : List (Vec n K))
    (hx : x.mat.length = x.wn.length) (hg : gam.mat.length = gam.wn.length) :
    gamob2FromGchir x gchi0 = some gam ↔ gchirFromGamob2 gam gchi0 = some x := by
  have key : ∀ (a b : FourP n K) (f g : Mat n K → Vec n K → Option (Mat n K)), a.mat.length = a.wn.length →
      (∀ p q g0, f p g0 = some q → g q g0 = some p) →
      ((overWn a a.mat gchi0 f).bind fun l => construct a l) = some b →
      ((overWn b b.mat gchi0 g).bind fun l => construct b l) = some a := by
    intro a b f g ha hfg h
    cases ho : overWn a a.mat gchi0 f with
    | none => rw [ho] at h; cases h
    | some l =>
      rw [ho, Option.bind_some] at h
      have hk : a.channel ∈ knownChannels := by
        by_contra hk
        have : construct a l = none := by
          unfold construct newNPoint
          cases a.wnSel <;> simp [hk]
        rw [this] at h; cases h
      rw [construct_eq a hk] at h
      have hb : b = ⟨a.channel, l, a.beta, a.u, a.wnSel⟩ := (Option.some.inj h).symm
      obtain ⟨h1, h2⟩ := overWn_get a a.mat gchi0 f l ho
      have hbw : b.wn = a.wn := by rw [hb]; exact wn_congr a l (by rw [h1, ha])
      have hbm : b.mat = l := by rw [hb]
      have hgl : a.wn.length ≤ gchi0.length := by
        by_contra hc
        obtain ⟨_, y, _, _, hy, _⟩ := h2 (gchi0.length) (by omega)
        rw [List.getElem?_eq_none (le_refl _)] at hy; cases hy
      have : overWn b b.mat gchi0 g = some a.mat := by
        apply overWn_some b b.mat gchi0 g (by rw [hbw, hbm, h1]) (by rw [hbw]; exact hgl) a.mat (by rw [hbw, ha])
        intro k x y z hx hy hz
        have hkl : k < a.wn.length := by
          by_contra hc
          rw [List.getElem?_eq_none (by omega)] at hz; cases hz
        obtain ⟨x', y', z', e1, e2, e3, e4⟩ := h2 k hkl
        rw [hz] at e1; rw [hy] at e2; rw [hbm, e4] at hx
        cases e1; cases e2; cases hx
        exact hfg _ _ _ e3
      rw [this, Option.bind_some, hb, construct_eq _ (by exact hk)]
  constructor
  · exact key x gam _ _ hx fun p q g0 => (gamob2W_iff p q g0).mp
  · exact key gam x _ _ hg fun p q g0 => (gamob2W_iff q p g0).mpr

/-- C25.  A singular susceptibility slice raises. -/
theorem gamob2_singular {n : Nat} (x : FourP n K) (gchi0 : List (Vec n K)) (k : Nat) (hk : k < x.wn.length)
    (m : Mat n K) (g : Vec n K) (hm : x.mat[k]? = some m) (hg : gchi0[k]? = some g) (hs : m.det = 0) :
    gamob2FromGchir x gchi0 = none := by
  unfold gamob2FromGchir
  rw [overWn_none x x.mat gchi0 _ k hk m g hm hg (by unfold gamob2W; rw [(inv?_none_iff m).mpr hs]; rfl)]
  rfl

/-- C25.  If every slice is invertible (and shapes agree), the irreducible vertex exists. -/
theorem gamob2_exists {n : Nat} (x : FourP n K) (hk : x.channel ∈ knownChannels) (gchi0 : List (Vec n K))
    (hx : x.mat.length = x.wn.length) (hl : gchi0.length = x.mat.length) (hd : ∀ m ∈ x.mat, m.det ≠ 0) :
    ∃ gam, gamob2FromGchir x gchi0 = some gam ∧ gam.mat.length = gam.wn.length := by
  have : overWn x x.mat gchi0 (fun m g0 => gamob2W m g0) =
      some (List.zipWith (fun (m : Mat n K) (g0 : Vec n K) => -(diag (fun i => 1 / g0 i) - m⁻¹)) x.mat gchi0) := by
    apply overWn_some x _ _ _ (by omega) (by omega)
    · rw [List.length_zipWith]; omega
    · intro k a b c ha hb hc
      simp only [zipWith_get?, ha, hb, Option.bind_some, Option.map_some, Option.some.injEq] at hc
      have := hd a (List.mem_of_getElem? ha)
      unfold gamob2W inv?
      rw [if_neg this, Option.map_some, hc]
  unfold gamob2FromGchir
  rw [this, Option.bind_some, construct_eq x hk]
  refine ⟨_, rfl, ?_⟩
  rw [wn_congr x _ (by rw [List.length_zipWith]; omega)]
  simp only [List.length_zipWith]
  omega

/-- hypotheses of C25 are met -/
example : ∃ (x : FourP 2 ℚ) (g : List (Vec 2 ℚ)), x.channel ∈ knownChannels ∧ x.mat.length = x.wn.length ∧
    g.length = x.mat.length ∧ (∀ m ∈ x.mat, m.det ≠ 0) ∧ (∀ v ∈ g, ∀ i, v i ≠ 0) ∧ x.mat.length = 1 := by
  refine ⟨⟨"magn", [1], 10, 8, none⟩, [fun _ => 3], by decide, rfl, rfl, ?_, ?_, rfl⟩
  · simp
  · simp

end DGA.Fp
