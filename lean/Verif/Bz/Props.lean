/-
  C08: the irreducible-zone index map.
-/
import Verif.Bz.Fold

namespace DGA.Bz

/-- the predefined symmetry sets for which the fold is a fundamental domain, and "no symmetry" -/
def predefined : List (List Sym) := [square, nematic, quasi2d, quasi1d, []]

theorem predefined_family (syms : List Sym) (h : syms ∈ predefined) :
    ∃ bx bY bz bxy, syms = family bx bY bz bxy ∧ (bxy = true → bx = bY) := by
  simp only [predefined, List.mem_cons, List.not_mem_nil, or_false] at h
  rcases h with rfl | rfl | rfl | rfl | rfl
  · exact ⟨true, true, false, true, rfl, by simp⟩
  · exact ⟨true, true, false, false, rfl, by simp⟩
  · exact ⟨true, true, true, true, rfl, by simp⟩
  · exact ⟨true, true, false, false, rfl, by simp⟩
  · exact ⟨false, false, false, false, rfl, by simp⟩

/-- C08.  For every grid and every predefined symmetry set the map is defined, and the value stored at a grid point `p`
    is the linear index of a point `r` that is symmetry equivalent to `p` and has the smallest linear index of all
    points equivalent to `p`; `r` is its own representative (idempotence). -/
theorem irrk_representative (nx ny nz : Nat) (syms : List Sym) (hs : syms ∈ predefined) :
    ∃ m, fbz2irrk nx ny nz syms = some m ∧ ∀ p, InGrid nx ny nz p → ∃ r, InGrid nx ny nz r ∧
      at3 m p.1 p.2.1 p.2.2 = some (linP ny nz r) ∧ Related nx ny nz syms p r ∧
      (∀ q, Related nx ny nz syms p q → linP ny nz r ≤ linP ny nz q) ∧
      at3 m r.1 r.2.1 r.2.2 = some (linP ny nz r) := by
  obtain ⟨bx, bY, bz, bxy, rfl, hc⟩ := predefined_family syms hs
  obtain ⟨m, hm, rfl⟩ := fbz2irrk_at nx ny nz bx bY bz bxy hc
  refine ⟨_, hm, ?_⟩
  intro p hp
  have hr := rp_inGrid nx ny nz bx bY bz bxy p hp
  have hrel := rp_related nx ny nz bx bY bz bxy p hp
  refine ⟨rp nx ny nz bx bY bz bxy p, hr, at3_table nx ny nz _ _ _ _ hp.1 hp.2.1 hp.2.2, hrel, ?_, ?_⟩
  · intro q hq
    rw [← rp_of_related nx ny nz bx bY bz bxy hc p q hp hq]
    exact lin_rp_le nx ny nz bx bY bz bxy q (related_inGrid hp hq)
  · rw [at3_table nx ny nz _ _ _ _ hr.1 hr.2.1 hr.2.2]
    congr 2
    exact rp_of_related nx ny nz bx bY bz bxy hc p _ hp hrel

/-- C08.  Two grid points get the same representative exactly when a sequence of the symmetry operations maps one to
    the other. -/
theorem irrk_share_iff (nx ny nz : Nat) (syms : List Sym) (hs : syms ∈ predefined) (m : Arr3 Nat)
    (hm : fbz2irrk nx ny nz syms = some m) (p q : Pt) (hp : InGrid nx ny nz p) (hq : InGrid nx ny nz q) :
    at3 m p.1 p.2.1 p.2.2 = at3 m q.1 q.2.1 q.2.2 ↔ Related nx ny nz syms p q := by
  obtain ⟨bx, bY, bz, bxy, rfl, hc⟩ := predefined_family syms hs
  obtain ⟨m', hm', he⟩ := fbz2irrk_at nx ny nz bx bY bz bxy hc
  rw [hm] at hm'
  injection hm' with hm'
  subst hm'
  subst he
  rw [at3_table nx ny nz _ _ _ _ hp.1 hp.2.1 hp.2.2, at3_table nx ny nz _ _ _ _ hq.1 hq.2.1 hq.2.2]
  constructor
  · intro h
    injection h with h
    have := linP_inj nx ny nz _ _ (rp_inGrid nx ny nz bx bY bz bxy p hp) (rp_inGrid nx ny nz bx bY bz bxy q hq) h
    have h1 := rp_related nx ny nz bx bY bz bxy p hp
    have h2 := related_symm hq (rp_related nx ny nz bx bY bz bxy q hq)
    rw [show rp nx ny nz bx bY bz bxy p = rp nx ny nz bx bY bz bxy q from this] at h1
    exact related_trans h1 h2
  · intro h
    congr 2
    exact (rp_of_related nx ny nz bx bY bz bxy hc p q hp h).symm

/-- non-vacuity: on the 4×4 square lattice (1,3) and (3,1) are related and share the representative (1,1) -/
example : square ∈ predefined ∧ InGrid 4 4 1 (1, 3, 0) ∧ InGrid 4 4 1 (3, 1, 0) ∧
    Related 4 4 1 square (1, 3, 0) (3, 1, 0) ∧
    (fbz2irrk 4 4 1 square).bind (fun m => at3 m 1 3 0) = some (linP 4 1 (1, 1, 0)) := by
  refine ⟨by decide, ⟨by decide, by decide, by decide⟩, ⟨by decide, by decide, by decide⟩, ?_, by decide⟩
  exact Related.step (s := .xySym) (q := (1, 3, 0)) (by decide) .refl

/-- C08, simultaneous x-y inversion: every point is mapped to itself or to its inverted partner; precisely the points
    with `ix > nx/2` and `iy ≥ 1` are mapped to their partner.  The map is idempotent. -/
theorem xyInversion_value (nx ny nz : Nat) :
    ∃ m, fbz2irrk nx ny nz xyInversion = some m ∧ ∀ p, InGrid nx ny nz p → ∃ r, InGrid nx ny nz r ∧
      at3 m p.1 p.2.1 p.2.2 = some (linP ny nz r) ∧
      (r = if nx / 2 < p.1 ∧ 1 ≤ p.2.1 then image nx ny nz .xyInv p else p) ∧
      at3 m r.1 r.2.1 r.2.2 = some (linP ny nz r) := by
  have hm : fbz2irrk nx ny nz xyInversion = some (table nx ny nz fun i j k =>
      if nx / 2 < i ∧ 1 ≤ j then lin ny nz (nx - i) (ny - j) k else lin ny nz i j k) := by
    unfold fbz2irrk
    rw [start_table]
    simp [applySyms, xyInversion, applySym, xyInv_table]
  refine ⟨_, hm, ?_⟩
  rintro ⟨i, j, k⟩ ⟨h1, h2, h3⟩
  simp only at h1 h2 h3
  by_cases hc : nx / 2 < i ∧ 1 ≤ j
  · refine ⟨(nx - i, ny - j, k), ⟨by simp only; omega, by simp only; omega, h3⟩, ?_, ?_, ?_⟩
    · simp only
      rw [at3_table nx ny nz _ _ _ _ h1 h2 h3, if_pos hc]; rfl
    · simp only [hc, and_self, if_true, image]
      rw [Nat.mod_eq_of_lt (by omega), Nat.mod_eq_of_lt (by omega)]
    · simp only
      rw [at3_table nx ny nz _ _ _ _ (by omega) (by omega) h3, if_neg (by omega)]; rfl
  · refine ⟨(i, j, k), ⟨h1, h2, h3⟩, ?_, by simp only [hc, if_false], ?_⟩
    · simp only; rw [at3_table nx ny nz _ _ _ _ h1 h2 h3, if_neg hc]; rfl
    · simp only; rw [at3_table nx ny nz _ _ _ _ h1 h2 h3, if_neg hc]; rfl

/-- C08 (limit of the x-y inversion set): points with `iy = 0` are never identified with their inverted partner,
    although they are symmetry equivalent. -/
theorem xyInversion_incomplete (nx ny nz i k : Nat) (hi : i < nx) (h0 : 0 < i) (hne : i ≠ nx - i) (hy : 0 < ny)
    (hk : k < nz) :
    ∃ m, fbz2irrk nx ny nz xyInversion = some m ∧ Related nx ny nz xyInversion (i, 0, k) (nx - i, 0, k) ∧
      at3 m i 0 k ≠ at3 m (nx - i) 0 k := by
  obtain ⟨m, hm, hv⟩ := xyInversion_value nx ny nz
  refine ⟨m, hm, ?_, ?_⟩
  · have := Related.step (nx := nx) (ny := ny) (nz := nz) (s := .xyInv) (syms := xyInversion) (by decide)
      (Related.refl (p := (i, 0, k)))
    simp only [image, Nat.sub_zero, Nat.mod_self] at this
    rw [Nat.mod_eq_of_lt (by omega)] at this
    exact this
  · obtain ⟨r1, g1, v1, e1, _⟩ := hv (i, 0, k) ⟨hi, hy, hk⟩
    obtain ⟨r2, g2, v2, e2, _⟩ := hv (nx - i, 0, k) ⟨by simp only; omega, hy, hk⟩
    simp only at v1 v2 e1 e2
    rw [if_neg (by omega)] at e1 e2
    rw [v1, v2]
    intro h
    injection h with h
    have := linP_inj nx ny nz _ _ g1 g2 h
    rw [e1, e2] at this
    injection this with this
    exact hne this

/-- non-vacuity of `xyInversion_incomplete` -/
example : (1 : Nat) < 4 ∧ (1 : Nat) ≠ 4 - 1 := by decide

/-- C08 (why the claim is restricted to the predefined sets): for the list `['x-inv', 'x-y-sym']` on a 4×4 grid the map
    is not idempotent: point 15 is sent to 7, point 7 to 5. -/
theorem fold_not_idempotent : ∃ m, fbz2irrk 4 4 1 [.xInv, .xySym] = some m ∧
    at3 m 3 3 0 = some 7 ∧ at3 m 1 3 0 = some 5 ∧ linP 4 1 (1, 3, 0) = 7 := by
  refine ⟨_, rfl, by decide, by decide, by decide⟩

/-- C49/C08: an unknown symmetry name raises, wherever it stands in the list. -/
theorem unknown_symmetry_raises (nx ny nz : Nat) (pre post : List Sym) (name : String) :
    fbz2irrk nx ny nz (pre ++ .other name :: post) = none := by
  unfold fbz2irrk applySyms
  rw [List.foldlM_append]
  cases h : List.foldlM (applySym nx ny) (reshape3 (List.range (nx * ny * nz)) nx ny nz) pre with
  | none => rfl
  | some m => simp [applySym]

end DGA.Bz
