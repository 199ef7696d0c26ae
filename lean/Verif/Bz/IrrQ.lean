/-
  C51, C111 for any list of symmetry names: the irreducible q list, computing a symmetric quantity only on it, and the size of the
  irreducible zone of the x-y inversion set.
-/
import Verif.Bz.AnyList
import Verif.Bz.Count

namespace DGA.Bz

theorem flat_at (nx ny nz : Nat) (syms : List Sym) (m : Arr3 Nat) (hm : fbz2irrk nx ny nz syms = some m) :
    (flat3 m).length = nx * ny * nz ∧ ∀ p, InGrid nx ny nz p → (flat3 m)[linP ny nz p]? = at3 m p.1 p.2.1 p.2.2 := by
  obtain ⟨label, he, -⟩ := label_any nx ny nz syms m hm
  subst he
  rw [flat3_table]
  refine ⟨by simp, ?_⟩
  rintro ⟨i, j, k⟩ ⟨h1, h2, h3⟩
  have hl : linP ny nz (i, j, k) < nx * ny * nz := lin_lt nx ny nz i j k h1 h2 h3
  rw [range_map_get?, if_pos hl, at3_table _ _ _ _ _ _ _ h1 h2 h3]
  have := lin_div ny nz i j k h2 h3
  simp only [pt, lin] at this
  show some _ = some _
  unfold linP
  simp only [Prod.mk.injEq] at this ⊢
  rw [this.1, this.2.1, this.2.2]

/-- C51, for any list of symmetry names the grid accepts: the irreducible q list holds distinct grid points, and the row that the expansion
    assigns to a grid point `p` is a symmetry-equivalent point with the same value in the irreducible map. -/
theorem irrqList_any (nx ny nz : Nat) (syms : List Sym) (m : Arr3 Nat) (hm : fbz2irrk nx ny nz syms = some m) :
    ∃ qs, irrqList nx ny nz (flat3 m) = some qs ∧ qs.Nodup ∧ nkIrr nx ny nz syms = some qs.length ∧ (∀ q ∈ qs, InGrid nx ny nz q) ∧
      ∀ p, InGrid nx ny nz p → ∃ a q, (irrkInv (flat3 m))[linP ny nz p]? = some a ∧ qs[a]? = some q ∧ Related nx ny nz syms p q ∧
        at3 m q.1 q.2.1 q.2.2 = at3 m p.1 p.2.1 p.2.2 := by
  obtain ⟨hlen, hflat⟩ := flat_at nx ny nz syms m hm
  obtain ⟨hq1, hq2⟩ := qList_value nx ny nz
  obtain ⟨qs, hqs, hl, hv⟩ := take?_some (qList nx ny nz) (irrkInd (flat3 m)) (by
    intro i hi; rw [hq1, ← hlen]; exact irrkInd_lt _ i hi)
  have hrow : ∀ x ∈ flat3 m, ∃ q, qs[(uniq (flat3 m)).idxOf x]? = some q ∧ InGrid nx ny nz q ∧ at3 m q.1 q.2.1 q.2.2 = some x := by
    intro x hx
    have hu := idxOf_get (uniq (flat3 m)) x ((mem_uniq _ _).2 hx)
    have hind : (irrkInd (flat3 m))[(uniq (flat3 m)).idxOf x]? = some ((flat3 m).idxOf x) := by
      unfold irrkInd; rw [List.getElem?_map, hu, Option.map_some]
    have hlt : (flat3 m).idxOf x < nx * ny * nz := hlen ▸ List.idxOf_lt_length_of_mem hx
    obtain ⟨b1, b2, b3, b4⟩ := pt_bounds nx ny nz _ hlt
    have hg : InGrid nx ny nz (pt ny nz ((flat3 m).idxOf x)) := ⟨b1, b2, b3⟩
    have b4' : linP ny nz (pt ny nz ((flat3 m).idxOf x)) = (flat3 m).idxOf x := b4
    refine ⟨pt ny nz ((flat3 m).idxOf x), ?_, hg, ?_⟩
    · rw [hv _ _ hind]
      have := hq2 _ hg
      rw [b4'] at this
      exact this
    · rw [← hflat _ hg, b4']
      exact idxOf_get _ _ hx
  have hall : ∀ b q, qs[b]? = some q → ∃ x ∈ flat3 m, b = (uniq (flat3 m)).idxOf x := by
    intro b q hb
    have hb' : b < (uniq (flat3 m)).length := by
      have := (List.getElem?_eq_some_iff.1 hb).1
      rw [hl] at this
      simpa [irrkInd] using this
    refine ⟨(uniq (flat3 m))[b], (mem_uniq _ _).1 (List.getElem_mem hb'), ?_⟩
    exact ((uniq_nodup (flat3 m)).idxOf_getElem b hb').symm
  refine ⟨qs, hqs, ?_, ?_, ?_, ?_⟩
  · rw [List.nodup_iff_getElem?_ne_getElem?]
    intro b c hbc hc heq
    obtain ⟨x, hx, rfl⟩ := hall b _ (List.getElem?_eq_getElem (by omega))
    obtain ⟨y, hy, rfl⟩ := hall c _ (List.getElem?_eq_getElem hc)
    obtain ⟨q, e1, -, v1⟩ := hrow x hx
    obtain ⟨q', e2, -, v2⟩ := hrow y hy
    rw [e1, e2, Option.some.injEq] at heq
    subst heq
    rw [v1, Option.some.injEq] at v2
    subst v2
    omega
  · unfold nkIrr
    rw [hm, Option.map_some, hl]
  · intro q hq
    obtain ⟨b, hb⟩ := List.mem_iff_getElem?.1 hq
    obtain ⟨x, hx, rfl⟩ := hall b q hb
    obtain ⟨q', e1, g1, -⟩ := hrow x hx
    rw [hb, Option.some.injEq] at e1
    exact e1 ▸ g1
  · intro p hp
    have hpl : linP ny nz p < (flat3 m).length := by
      rw [hlen]
      obtain ⟨i, j, k⟩ := p
      exact lin_lt nx ny nz i j k hp.1 hp.2.1 hp.2.2
    obtain ⟨x, hx⟩ : ∃ x, (flat3 m)[linP ny nz p]? = some x := ⟨_, List.getElem?_eq_getElem hpl⟩
    obtain ⟨q, e1, g1, v1⟩ := hrow x (List.mem_of_getElem? hx)
    have ha : at3 m p.1 p.2.1 p.2.2 = some x := by rw [← hflat p hp, hx]
    refine ⟨(uniq (flat3 m)).idxOf x, q, ?_, e1, irrk_share_related nx ny nz syms m hm p q hp g1 (by rw [ha, v1]), by rw [ha, v1]⟩
    unfold irrkInv
    rw [List.getElem?_map, hx, Option.map_some]

/-- C51/C09: a quantity with the symmetry of the lattice needs to be computed only at the points of the irreducible q list: expanding the
    results gives its value at every grid point, for any list of symmetry names the grid accepts. -/
theorem compute_on_irrq {α : Type} (nx ny nz : Nat) (syms : List Sym) (m : Arr3 Nat) (hm : fbz2irrk nx ny nz syms = some m) (G : Pt → α)
    (hG : ∀ s ∈ syms, ∀ p, InGrid nx ny nz p → G (image nx ny nz s p) = G p) :
    ∃ qs ms, irrqList nx ny nz (flat3 m) = some qs ∧ irrk2fbzMesh nx ny nz (flat3 m) (qs.map G) = some ms ∧
      ∀ p, InGrid nx ny nz p → at3 ms p.1 p.2.1 p.2.2 = some (G p) := by
  obtain ⟨hlen, hflat⟩ := flat_at nx ny nz syms m hm
  obtain ⟨qs, hqs, -, hn, hin, hp⟩ := irrqList_any nx ny nz syms m hm
  have hl : (qs.map G).length = (irrkInd (flat3 m)).length := by
    unfold nkIrr at hn
    rw [hm, Option.map_some, Option.some.injEq] at hn
    rw [List.length_map, hn]
  obtain ⟨ms, ls, h1, h2, -, h4⟩ := mesh_list_agree nx ny nz (flat3 m) hlen (qs.map G) hl
  refine ⟨qs, ms, hqs, h1, fun p hgp => ?_⟩
  obtain ⟨a, q, e1, e2, hrel, -⟩ := hp p hgp
  obtain ⟨r, hr, -, h7⟩ := irrk2fbzList_value (flat3 m) (qs.map G) hl
  rw [h2, Option.some.injEq] at hr
  subst hr
  have hx : ∃ x, (flat3 m)[linP ny nz p]? = some x ∧ (uniq (flat3 m)).idxOf x = a := by
    unfold irrkInv at e1
    rw [List.getElem?_map] at e1
    cases h : (flat3 m)[linP ny nz p]? with
    | none => rw [h] at e1; cases e1
    | some x => rw [h, Option.map_some, Option.some.injEq] at e1; exact ⟨x, rfl, e1⟩
  obtain ⟨x, hx1, rfl⟩ := hx
  rw [h4 p hgp, h7 _ x hx1, List.getElem?_map, e2, Option.map_some]
  congr 1
  clear e2 e1 hx1 h7
  induction hrel with
  | refl => rfl
  | step hs hpq ih => rw [hG _ hs _ (related_inGrid hgp hpq), ih]

/-- C111 (a), x-y inversion set: the number of irreducible points. Only the points with `ix > nx/2` and `iy ≥ 1` are removed, so it exceeds half
    of the grid by the lines that are never identified. -/
theorem nkIrr_xyInversion (nx ny nz : Nat) :
    nkIrr nx ny nz xyInversion = some ((nx * ny - (nx - nx / 2 - 1) * (ny - 1)) * nz) := by
  obtain ⟨m, hm, hv⟩ := xyInversion_value nx ny nz
  obtain ⟨hlen, hflat⟩ := flat_at nx ny nz xyInversion m hm
  unfold nkIrr
  rw [hm, Option.map_some]
  congr 1
  unfold irrkInd
  rw [List.length_map, uniq_card]
  have key : (flat3 m).toFinset = (((Finset.range nx ×ˢ Finset.range ny) \ (Finset.Ico (nx / 2 + 1) nx ×ˢ Finset.Ico 1 ny)) ×ˢ Finset.range nz).image
      fun p => linP ny nz (p.1.1, p.1.2, p.2) := by
    ext x
    simp only [List.mem_toFinset, Finset.mem_image, Finset.mem_product, Finset.mem_sdiff, Finset.mem_range, Finset.mem_Ico]
    constructor
    · intro hx
      obtain ⟨l, hl⟩ := List.mem_iff_getElem?.1 hx
      have hl' : l < nx * ny * nz := hlen ▸ (List.getElem?_eq_some_iff.1 hl).1
      obtain ⟨b1, b2, b3, b4⟩ := pt_bounds nx ny nz _ hl'
      have hg : InGrid nx ny nz (pt ny nz l) := ⟨b1, b2, b3⟩
      have b4' : linP ny nz (pt ny nz l) = l := b4
      obtain ⟨r, hr, ha, hre, hself⟩ := hv _ hg
      rw [← hflat _ hg, b4', hl, Option.some.injEq] at ha
      subst ha
      refine ⟨((r.1, r.2.1), r.2.2), ⟨⟨⟨hr.1, hr.2.1⟩, ?_⟩, hr.2.2⟩, rfl⟩
      obtain ⟨⟨i, j, k⟩, hpt⟩ : ∃ p, p = pt ny nz l := ⟨_, rfl⟩
      rw [← hpt] at b1 b2 b3 hre
      simp only at b1 b2 b3 hre
      by_cases hc : nx / 2 < i ∧ 1 ≤ j
      · rw [if_pos hc] at hre
        subst hre
        simp only [image]
        rw [Nat.mod_eq_of_lt (by omega), Nat.mod_eq_of_lt (by omega)]
        omega
      · rw [if_neg hc] at hre
        subst hre
        simp only
        omega
    · rintro ⟨⟨⟨i, j⟩, k⟩, ⟨⟨⟨h1, h2⟩, h3⟩, h4⟩, rfl⟩
      simp only at h1 h2 h3 h4
      obtain ⟨r, hr, ha, hre, -⟩ := hv (i, j, k) ⟨h1, h2, h4⟩
      rw [if_neg (by simp only; omega)] at hre
      subst hre
      exact List.mem_of_getElem? (by rw [hflat _ hr, ha])
  rw [key, Finset.card_image_of_injOn]
  · rw [Finset.card_product, Finset.card_range, Finset.card_sdiff_of_subset, Finset.card_product, Finset.card_product, Finset.card_range,
      Finset.card_range, Nat.card_Ico, Nat.card_Ico, show nx - (nx / 2 + 1) = nx - nx / 2 - 1 by omega]
    intro p
    simp only [Finset.mem_product, Finset.mem_Ico, Finset.mem_range]
    omega
  · rintro ⟨⟨i, j⟩, k⟩ hp ⟨⟨i', j'⟩, k'⟩ hq h
    simp only [Finset.mem_coe, Finset.mem_product, Finset.mem_sdiff, Finset.mem_range] at hp hq
    have := linP_inj nx ny nz (i, j, k) (i', j', k') ⟨hp.1.1.1, hp.1.1.2, hp.2⟩ ⟨hq.1.1.1, hq.1.1.2, hq.2⟩ h
    simp only [Prod.mk.injEq] at this
    obtain ⟨rfl, rfl, rfl⟩ := this
    rfl

/-- non-vacuity: the 4×4 grid with x-y inversion keeps 13 of 16 points, three more than there are classes -/
example : nkIrr 4 4 1 xyInversion = some 13 ∧ (4 * 4 - (4 - 4 / 2 - 1) * (4 - 1)) * 1 = 13 := by decide +kernel

/-- non-vacuity: a mixed list and a function with its symmetry -/
example : (fbz2irrk 3 3 1 [.yInv, .xInv]).isSome ∧
    ∀ s ∈ [Sym.yInv, .xInv], ∀ p, InGrid 3 3 1 p → (fun q : Pt => min q.1 1 + 2 * min q.2.1 1) (image 3 3 1 s p) = min p.1 1 + 2 * min p.2.1 1 := by
  refine ⟨by decide, ?_⟩
  rintro s hs ⟨i, j, k⟩ ⟨h1, h2, h3⟩
  simp only at h1 h2 h3
  simp only [List.mem_cons, List.not_mem_nil, or_false] at hs
  rcases hs with rfl | rfl
  · have : min ((3 - j) % 3) 1 = min j 1 := by omega
    simp only [image, this]
  · have : min ((3 - i) % 3) 1 = min i 1 := by omega
    simp only [image, this]

end DGA.Bz
