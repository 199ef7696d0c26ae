/-
  Closed form of `fbz2irrk` for the inversion / reflection symmetry families (helper lemmas for C08).
-/
import Verif.Bz.Lemmas
import Verif.Bz.Spec

namespace DGA.Bz

/-- symmetry list made of axis inversions followed by an optional x-y reflection -/
def family (bx bY bz bxy : Bool) : List Sym :=
  (if bx then [.xInv] else []) ++ (if bY then [.yInv] else []) ++ (if bz then [.zInv] else []) ++
    (if bxy then [.xySym] else [])

/-- fold an index if `b` -/
def foldB (b : Bool) (n i : Nat) : Nat := if b then fold n i else i

/-- representative of a grid point -/
def rp (nx ny nz : Nat) (bx bY bz bxy : Bool) (p : Pt) : Pt :=
  let a := foldB bx nx p.1
  let b := foldB bY ny p.2.1
  let c := foldB bz nz p.2.2
  if bxy = true ∧ nx = ny then (min a b, max a b, c) else (a, b, c)

theorem foldB_lt (b : Bool) (n i : Nat) (h : i < n) : foldB b n i < n := by
  unfold foldB fold; split <;> (try split) <;> omega

theorem foldB_le (b : Bool) (n i : Nat) : foldB b n i ≤ i ∨ n < i := by
  unfold foldB fold; split <;> (try split) <;> omega

theorem foldB_foldB (b : Bool) (n i : Nat) (h : i < n) : foldB b n (foldB b n i) = foldB b n i := by
  unfold foldB fold; cases b <;> simp; split <;> rename_i h1
  · omega
  · intro; omega

theorem fold_neg (n i : Nat) (h : i < n) : fold n ((n - i) % n) = fold n i := by
  unfold fold
  rcases Nat.eq_zero_or_pos i with h0 | h0
  · subst h0; simp
  · rw [Nat.mod_eq_of_lt (by omega)]; split <;> split <;> omega

theorem neg_lt (n i : Nat) (h : i < n) : (n - i) % n < n := Nat.mod_lt _ (by omega)

theorem neg_neg (n i : Nat) (h : i < n) : (n - (n - i) % n) % n = i := by
  rcases Nat.eq_zero_or_pos i with h0 | h0
  · subst h0; simp
  · rw [Nat.mod_eq_of_lt (show n - i < n by omega), show n - (n - i) = i by omega, Nat.mod_eq_of_lt h]

theorem fold_eq_or (n i : Nat) (h : i < n) : fold n i = i ∨ fold n i = (n - i) % n := by
  unfold fold; split
  · exact .inl rfl
  · right; rw [Nat.mod_eq_of_lt (by omega)]

theorem image_inGrid (nx ny nz : Nat) (s : Sym) (p : Pt) (h : InGrid nx ny nz p) :
    InGrid nx ny nz (image nx ny nz s p) := by
  obtain ⟨i, j, k⟩ := p
  obtain ⟨h1, h2, h3⟩ := h
  simp only at h1 h2 h3
  cases s <;> simp only [image, InGrid]
  · exact ⟨neg_lt _ _ h1, h2, h3⟩
  · exact ⟨h1, neg_lt _ _ h2, h3⟩
  · exact ⟨h1, h2, neg_lt _ _ h3⟩
  · split <;> refine ⟨?_, ?_, ?_⟩ <;> simp only <;> omega
  · exact ⟨neg_lt _ _ h1, neg_lt _ _ h2, h3⟩
  · exact ⟨h1, h2, h3⟩

theorem image_image (nx ny nz : Nat) (s : Sym) (p : Pt) (h : InGrid nx ny nz p) :
    image nx ny nz s (image nx ny nz s p) = p := by
  obtain ⟨i, j, k⟩ := p
  obtain ⟨h1, h2, h3⟩ := h
  simp only at h1 h2 h3
  cases s <;> simp only [image]
  · rw [neg_neg _ _ h1]
  · rw [neg_neg _ _ h2]
  · rw [neg_neg _ _ h3]
  · split <;> simp [*]
  · rw [neg_neg _ _ h1, neg_neg _ _ h2]

theorem related_inGrid {nx ny nz : Nat} {syms : List Sym} {p q : Pt} (h : InGrid nx ny nz p)
    (hr : Related nx ny nz syms p q) : InGrid nx ny nz q := by
  induction hr with
  | refl => exact h
  | step _ _ ih => exact image_inGrid nx ny nz _ _ ih

theorem related_trans {nx ny nz : Nat} {syms : List Sym} {p q r : Pt} (h1 : Related nx ny nz syms p q)
    (h2 : Related nx ny nz syms q r) : Related nx ny nz syms p r := by
  induction h2 with
  | refl => exact h1
  | step hs _ ih => exact .step hs ih

theorem related_symm {nx ny nz : Nat} {syms : List Sym} {p q : Pt} (h : InGrid nx ny nz p)
    (hr : Related nx ny nz syms p q) : Related nx ny nz syms q p := by
  induction hr with
  | refl => exact .refl
  | @step q s hs hpq ih =>
    refine related_trans ?_ ih
    have := Related.step (nx := nx) (ny := ny) (nz := nz) hs
      (Related.refl (syms := syms) (p := image nx ny nz s q))
    rw [image_image nx ny nz s q (related_inGrid h hpq)] at this
    exact this

theorem mem_family (bx bY bz bxy : Bool) (s : Sym) : s ∈ family bx bY bz bxy ↔
    (s = .xInv ∧ bx = true) ∨ (s = .yInv ∧ bY = true) ∨ (s = .zInv ∧ bz = true) ∨ (s = .xySym ∧ bxy = true) := by
  unfold family
  cases bx <;> cases bY <;> cases bz <;> cases bxy <;> simp

theorem rp_image (nx ny nz : Nat) (bx bY bz bxy : Bool) (hc : bxy = true → bx = bY) (s : Sym)
    (hs : s ∈ family bx bY bz bxy) (p : Pt) (h : InGrid nx ny nz p) :
    rp nx ny nz bx bY bz bxy (image nx ny nz s p) = rp nx ny nz bx bY bz bxy p := by
  obtain ⟨i, j, k⟩ := p
  obtain ⟨h1, h2, h3⟩ := h
  simp only at h1 h2 h3
  rw [mem_family] at hs
  rcases hs with ⟨rfl, hb⟩ | ⟨rfl, hb⟩ | ⟨rfl, hb⟩ | ⟨rfl, hb⟩
  · subst hb; simp only [rp, image, foldB, if_true, fold_neg nx i h1]
  · subst hb; simp only [rp, image, foldB, if_true, fold_neg ny j h2]
  · subst hb; simp only [rp, image, foldB, if_true, fold_neg nz k h3]
  · simp only [image]
    by_cases hn : nx = ny
    · subst hn
      have := hc hb
      subst this
      simp only [rp, hb, if_true, true_and]
      rw [Nat.min_comm, Nat.max_comm]
    · rw [if_neg hn]

theorem rp_related (nx ny nz : Nat) (bx bY bz bxy : Bool) (p : Pt) (h : InGrid nx ny nz p) :
    Related nx ny nz (family bx bY bz bxy) p (rp nx ny nz bx bY bz bxy p) := by
  obtain ⟨i, j, k⟩ := p
  obtain ⟨h1, h2, h3⟩ := h
  simp only at h1 h2 h3
  have s1 : Related nx ny nz (family bx bY bz bxy) (i, j, k) (foldB bx nx i, j, k) := by
    cases bx with
    | false => simpa [foldB] using Related.refl
    | true =>
      simp only [foldB, if_true]
      rcases fold_eq_or nx i h1 with e | e <;> rw [e]
      · exact .refl
      · exact Related.step (s := .xInv) (by rw [mem_family]; simp) .refl
  have s2 : Related nx ny nz (family bx bY bz bxy) (i, j, k) (foldB bx nx i, foldB bY ny j, k) := by
    refine related_trans s1 ?_
    cases bY with
    | false => simpa [foldB] using Related.refl
    | true =>
      simp only [foldB, if_true]
      rcases fold_eq_or ny j h2 with e | e <;> rw [e]
      · exact .refl
      · exact Related.step (s := .yInv) (q := (_, j, k)) (by rw [mem_family]; simp) .refl
  have s3 : Related nx ny nz (family bx bY bz bxy) (i, j, k) (foldB bx nx i, foldB bY ny j, foldB bz nz k) := by
    refine related_trans s2 ?_
    cases bz with
    | false => simpa [foldB] using Related.refl
    | true =>
      simp only [foldB, if_true]
      rcases fold_eq_or nz k h3 with e | e <;> rw [e]
      · exact .refl
      · exact Related.step (s := .zInv) (q := (_, _, k)) (by rw [mem_family]; simp) .refl
  simp only [rp]
  split
  · rename_i hxy
    by_cases hle : foldB bx nx i ≤ foldB bY ny j
    · rw [Nat.min_eq_left hle, Nat.max_eq_right hle]; exact s3
    · rw [Nat.min_eq_right (by omega), Nat.max_eq_left (by omega)]
      have := Related.step (s := .xySym) (by rw [mem_family]; simp [hxy.1]) s3
      simp only [image, hxy.2, if_true] at this
      simpa [hxy.2] using this
  · exact s3

theorem rp_inGrid (nx ny nz : Nat) (bx bY bz bxy : Bool) (p : Pt) (h : InGrid nx ny nz p) :
    InGrid nx ny nz (rp nx ny nz bx bY bz bxy p) := related_inGrid h (rp_related nx ny nz bx bY bz bxy p h)

theorem rp_of_related (nx ny nz : Nat) (bx bY bz bxy : Bool) (hc : bxy = true → bx = bY) (p q : Pt)
    (h : InGrid nx ny nz p) (hr : Related nx ny nz (family bx bY bz bxy) p q) :
    rp nx ny nz bx bY bz bxy q = rp nx ny nz bx bY bz bxy p := by
  induction hr with
  | refl => rfl
  | step hs hpq ih => rw [rp_image nx ny nz bx bY bz bxy hc _ hs _ (related_inGrid h hpq), ih]

theorem lin_rp_le (nx ny nz : Nat) (bx bY bz bxy : Bool) (p : Pt) (h : InGrid nx ny nz p) :
    linP ny nz (rp nx ny nz bx bY bz bxy p) ≤ linP ny nz p := by
  obtain ⟨i, j, k⟩ := p
  obtain ⟨h1, h2, h3⟩ := h
  simp only at h1 h2 h3
  have a1 : foldB bx nx i ≤ i := (foldB_le bx nx i).resolve_right (by omega)
  have a2 : foldB bY ny j ≤ j := (foldB_le bY ny j).resolve_right (by omega)
  have a3 : foldB bz nz k ≤ k := (foldB_le bz nz k).resolve_right (by omega)
  have b1 := foldB_lt bx nx i h1
  have b2 := foldB_lt bY ny j h2
  have hm := lin_mono ny nz i j k _ _ _ a1 a2 a3
  simp only [rp]
  split
  · rename_i hxy
    obtain ⟨_, rfl⟩ := hxy
    have := lin_swap nx nz (foldB bx nx i) (foldB bY nx j) (foldB bz nz k) b1 b2
    simp only [linP]
    simp only [lin] at this hm
    omega
  · exact hm

/-- closed form of the index map for the family -/
theorem fbz2irrk_family (nx ny nz : Nat) (bx bY bz bxy : Bool) :
    fbz2irrk nx ny nz (family bx bY bz bxy) =
      some (table nx ny nz fun i j k =>
        if bxy = true ∧ nx = ny then
          min (lin ny nz (foldB bx nx i) (foldB bY ny j) (foldB bz nz k))
            (lin ny nz (foldB bx nx j) (foldB bY ny i) (foldB bz nz k))
        else lin ny nz (foldB bx nx i) (foldB bY ny j) (foldB bz nz k)) := by
  unfold fbz2irrk
  rw [start_table]
  unfold applySyms family
  cases bx <;> cases bY <;> cases bz <;> cases bxy <;> by_cases hn : nx = ny <;>
    simp [applySym, inv0_table, invA1_table, invA2_table, xySym_table, foldB, hn]

theorem fbz2irrk_at (nx ny nz : Nat) (bx bY bz bxy : Bool) (hc : bxy = true → bx = bY) :
    ∃ m, fbz2irrk nx ny nz (family bx bY bz bxy) = some m ∧
      m = table nx ny nz (fun i j k => linP ny nz (rp nx ny nz bx bY bz bxy (i, j, k))) := by
  refine ⟨_, fbz2irrk_family nx ny nz bx bY bz bxy, ?_⟩
  unfold table
  apply List.map_congr_left
  intro i hi
  apply List.map_congr_left
  intro j hj
  apply List.map_congr_left
  intro k hk
  rw [List.mem_range] at hi hj hk
  simp only [rp]
  by_cases hxy : bxy = true ∧ nx = ny
  · rw [if_pos hxy, if_pos hxy]
    obtain ⟨hb, rfl⟩ := hxy
    have := hc hb
    subst this
    rw [lin_swap _ _ _ _ _ (foldB_lt bx nx i hi) (foldB_lt bx nx j hj)]
    rfl
  · rw [if_neg hxy, if_neg hxy]; rfl

theorem linP_inj (nx ny nz : Nat) (p q : Pt) (hp : InGrid nx ny nz p) (hq : InGrid nx ny nz q)
    (h : linP ny nz p = linP ny nz q) : p = q := by
  obtain ⟨i, j, k⟩ := p
  obtain ⟨i', j', k'⟩ := q
  have e1 := lin_div ny nz i j k hp.2.1 hp.2.2
  have e2 := lin_div ny nz i' j' k' hq.2.1 hq.2.2
  have : lin ny nz i j k = lin ny nz i' j' k' := h
  rw [← e1, ← e2, this]

end DGA.Bz
