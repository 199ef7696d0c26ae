/-
  C09: maps between irreducible and full zone.  C12: momentum shifts.  C51: q lists.
-/
import Verif.Bz.Props
import Verif.Bz.AnyList
import Verif.Bz.Uniq

namespace DGA.Bz

open DGA.Mf

variable {α : Type}

/-! ### C09 -/

theorem take?_some (mat : List α) (ind : List Nat) (h : ∀ i ∈ ind, i < mat.length) :
    ∃ r, take? mat ind = some r ∧ r.length = ind.length ∧ ∀ (k i : Nat), ind[k]? = some i → r[k]? = mat[i]? := by
  obtain ⟨r, hr⟩ := mapM_isSome ind (fun i => mat[i]?) (by
    intro i hi; rw [List.getElem?_eq_getElem (h i hi)]; rfl)
  obtain ⟨h1, h2⟩ := mapM_getElem? _ _ _ hr
  exact ⟨r, hr, h1, fun k i hk => (h2 k i hk).symm⟩

theorem irrkInd_lt (f : List Nat) : ∀ i ∈ irrkInd f, i < f.length := by
  intro i hi
  unfold irrkInd at hi
  rw [List.mem_map] at hi
  obtain ⟨u, hu, rfl⟩ := hi
  exact List.idxOf_lt_length_of_mem ((mem_uniq u f).1 hu)

theorem irrkInv_lt (f : List Nat) : ∀ i ∈ irrkInv f, i < (uniq f).length := by
  intro i hi
  unfold irrkInv at hi
  rw [List.mem_map] at hi
  obtain ⟨u, hu, rfl⟩ := hi
  exact List.idxOf_lt_length_of_mem ((mem_uniq u f).2 hu)

/-- expansion of an irreducible array: the value at flat position `l` is the entry of the class of `l` -/
theorem irrk2fbzList_value (f : List Nat) (mat : List α) (h : mat.length = (irrkInd f).length) :
    ∃ r, irrk2fbzList f mat = some r ∧ r.length = f.length ∧
      ∀ (l x : Nat), f[l]? = some x → r[l]? = mat[(uniq f).idxOf x]? := by
  have hl : mat.length = (uniq f).length := by rw [h]; simp [irrkInd]
  obtain ⟨r, hr, h1, h2⟩ := take?_some mat (irrkInv f) (by intro i hi; rw [hl]; exact irrkInv_lt f i hi)
  refine ⟨r, hr, by rw [h1]; simp [irrkInv], ?_⟩
  intro l x hx
  rw [h2 l ((uniq f).idxOf x)]
  unfold irrkInv
  rw [List.getElem?_map, hx]; rfl

/-- C09 (list shape).  `f` is the flattened index map of the grid (any map).  Expanding a function given on the
    irreducible points and reducing it again returns it. -/
theorem reduce_expand (f : List Nat) (mat : List α) (h : mat.length = (irrkInd f).length) :
    (irrk2fbzList f mat).bind (fbz2irrkList f) = some mat := by
  obtain ⟨r, hr, h1, h2⟩ := irrk2fbzList_value f mat h
  obtain ⟨s, hs, h3, h4⟩ := take?_some r (irrkInd f) (by intro i hi; rw [h1]; exact irrkInd_lt f i hi)
  rw [hr, Option.bind_some]
  unfold fbz2irrkList
  rw [hs]
  congr 1
  apply List.ext_getElem?
  intro a
  by_cases ha : a < (uniq f).length
  · have hu : (uniq f)[a]? = some (uniq f)[a] := List.getElem?_eq_getElem ha
    have hmem : (uniq f)[a] ∈ f := (mem_uniq _ f).1 (List.getElem_mem ha)
    have e1 : (irrkInd f)[a]? = some (f.idxOf (uniq f)[a]) := by
      unfold irrkInd; rw [List.getElem?_map, hu]; rfl
    rw [h4 a _ e1, h2 _ (uniq f)[a] (idxOf_get f _ hmem), idxOf_nodup _ (uniq_nodup f) a _ hu]
  · have e : (irrkInd f).length = (uniq f).length := by simp [irrkInd]
    rw [List.getElem?_eq_none (by omega), List.getElem?_eq_none (by omega)]

/-- C09 (list shape).  A function on the full zone that has equal values at points with equal representative is
    recovered from its irreducible part. -/
theorem expand_reduce (f : List Nat) (g : List α) (h : g.length = f.length)
    (hsym : ∀ a b : Nat, a < f.length → b < f.length → f[a]? = f[b]? → g[a]? = g[b]?) :
    (fbz2irrkList f g).bind (irrk2fbzList f) = some g := by
  obtain ⟨s, hs, h3, h4⟩ := take?_some g (irrkInd f) (by intro i hi; rw [h]; exact irrkInd_lt f i hi)
  have e0 : fbz2irrkList f g = some s := hs
  rw [e0, Option.bind_some]
  obtain ⟨r, hr, h1, h2⟩ := irrk2fbzList_value f s h3
  rw [hr]
  congr 1
  apply List.ext_getElem?
  intro l
  by_cases hl : l < f.length
  · have hx : f[l]? = some f[l] := List.getElem?_eq_getElem hl
    have hmem : f[l] ∈ f := List.getElem_mem hl
    have hu := idxOf_get (uniq f) f[l] ((mem_uniq _ f).2 hmem)
    have e1 : (irrkInd f)[(uniq f).idxOf f[l]]? = some (f.idxOf f[l]) := by
      unfold irrkInd; rw [List.getElem?_map, hu]; rfl
    rw [h2 l _ hx, h4 _ _ e1]
    exact hsym _ _ (List.idxOf_lt_length_of_mem hmem) hl (by rw [idxOf_get f _ hmem, hx])
  · rw [List.getElem?_eq_none (by omega), List.getElem?_eq_none (by omega)]

theorem exists_range_map (l : List α) (n : Nat) (h : l.length = n) (a : α) :
    ∃ g : Nat → α, l = (List.range n).map g := by
  refine ⟨fun i => (l[i]?).getD a, eq_range_map _ _ _ h ?_⟩
  intro i hi
  rw [List.getElem?_eq_getElem (by omega)]; rfl

/-- reshaping to the mesh and flattening again is the identity -/
theorem flat3_reshape3 (l : List α) (nx ny nz : Nat) (h : l.length = nx * ny * nz) : flat3 (reshape3 l nx ny nz) = l := by
  cases l with
  | nil =>
    have h0 : nx * ny * nz = 0 := by simpa using h.symm
    apply List.eq_nil_of_length_eq_zero
    unfold reshape3 unflat flat3
    simp only [List.drop_nil, List.take_nil, List.map_map]
    apply List.length_eq_zero_iff.2
    rw [List.flatten_eq_nil_iff]
    intro r hr
    rw [List.mem_flatten] at hr
    obtain ⟨p, hp, hr⟩ := hr
    rw [List.mem_map] at hp
    obtain ⟨i, _, rfl⟩ := hp
    simp only [Function.comp, List.drop_nil, List.take_nil, List.mem_map] at hr
    obtain ⟨_, _, rfl⟩ := hr
    rfl
  | cons x l =>
    obtain ⟨g, hg⟩ := exists_range_map (x :: l) _ h x
    rw [hg, reshape3_range, flat3_table]
    apply List.map_congr_left
    intro l hl
    rw [List.mem_range] at hl
    congr 1
    exact (pt_bounds nx ny nz l hl).2.2.2

/-- C09 (mesh shape).  `f` is the flattened index map of an `nx×ny×nz` grid. -/
theorem reduce_expand_mesh (nx ny nz : Nat) (f : List Nat) (hf : f.length = nx * ny * nz) (mat : List α)
    (h : mat.length = (irrkInd f).length) :
    (irrk2fbzMesh nx ny nz f mat).bind (fbz2irrkMesh f) = some mat := by
  have := reduce_expand f mat h
  obtain ⟨r, hr, h1, _⟩ := irrk2fbzList_value f mat h
  rw [hr, Option.bind_some] at this
  unfold irrk2fbzMesh
  rw [show take? mat (irrkInv f) = some r from hr, Option.map_some, Option.bind_some]
  unfold fbz2irrkMesh
  rw [flat3_reshape3 r nx ny nz (by omega)]
  exact this

/-- C09 (mesh and list shape agree): the mesh expansion at `(i, j, k)` is the list expansion at the linear index. -/
theorem mesh_list_agree (nx ny nz : Nat) (f : List Nat) (hf : f.length = nx * ny * nz) (mat : List α)
    (h : mat.length = (irrkInd f).length) :
    ∃ ms ls, irrk2fbzMesh nx ny nz f mat = some ms ∧ irrk2fbzList f mat = some ls ∧ flat3 ms = ls ∧
      ∀ p, InGrid nx ny nz p → at3 ms p.1 p.2.1 p.2.2 = ls[linP ny nz p]? := by
  obtain ⟨r, hr, h1, _⟩ := irrk2fbzList_value f mat h
  refine ⟨reshape3 r nx ny nz, r, ?_, hr, flat3_reshape3 r nx ny nz (by omega), ?_⟩
  · unfold irrk2fbzMesh
    rw [show take? mat (irrkInv f) = some r from hr, Option.map_some]
  · rintro ⟨i, j, k⟩ ⟨a1, a2, a3⟩
    have hlt := lin_lt nx ny nz i j k a1 a2 a3
    have hlt' : lin ny nz i j k < r.length := by omega
    obtain ⟨g, hg⟩ := exists_range_map r (nx * ny * nz) (by omega) (r[lin ny nz i j k])
    rw [hg, reshape3_range, at3_table _ _ _ _ _ _ _ a1 a2 a3, range_map_get?]
    rw [if_pos (show linP ny nz (i, j, k) < nx * ny * nz from hlt)]
    rfl

/-- C09, in terms of the grid: a function on the full zone that is invariant under every operation of a list of symmetry names (any list
    the grid accepts) is recovered from its irreducible part. -/
theorem symmetric_function_recovered (nx ny nz : Nat) (syms : List Sym) (m : Arr3 Nat)
    (hm : fbz2irrk nx ny nz syms = some m) (G : Pt → α)
    (hG : ∀ s ∈ syms, ∀ p, InGrid nx ny nz p → G (image nx ny nz s p) = G p) :
    (fbz2irrkMesh (flat3 m) (table nx ny nz fun i j k => G (i, j, k))).bind (irrk2fbzMesh nx ny nz (flat3 m)) =
      some (table nx ny nz fun i j k => G (i, j, k)) := by
  have hflat : (flat3 m).length = nx * ny * nz ∧ ∀ l, l < nx * ny * nz →
      (flat3 m)[l]? = at3 m (pt ny nz l).1 (pt ny nz l).2.1 (pt ny nz l).2.2 := by
    obtain ⟨label, he, -⟩ := label_any nx ny nz syms m hm
    subst he
    rw [flat3_table]
    refine ⟨by simp, ?_⟩
    intro l hl
    obtain ⟨b1, b2, b3, _⟩ := pt_bounds nx ny nz l hl
    rw [range_map_get?, if_pos hl, at3_table _ _ _ _ _ _ _ b1 b2 b3]
    rfl
  obtain ⟨hlen, hval⟩ := hflat
  have hrel : ∀ p q, InGrid nx ny nz p → Related nx ny nz syms p q → G q = G p := by
    intro p q hp hpq
    induction hpq with
    | refl => rfl
    | step hs hpq ih => rw [hG _ hs _ (related_inGrid hp hpq), ih]
  have key := expand_reduce (flat3 m) (flat3 (table nx ny nz fun i j k => G (i, j, k)))
    (by rw [hlen, flat3_table]; simp) (by
      intro a b ha hb hab
      rw [hlen] at ha hb
      rw [hval a ha, hval b hb] at hab
      obtain ⟨a1, a2, a3, _⟩ := pt_bounds nx ny nz a ha
      obtain ⟨b1, b2, b3, _⟩ := pt_bounds nx ny nz b hb
      have := irrk_share_related nx ny nz syms m hm (pt ny nz a) (pt ny nz b) ⟨a1, a2, a3⟩ ⟨b1, b2, b3⟩ hab
      rw [flat3_table, range_map_get?, range_map_get?, if_pos ha, if_pos hb]
      congr 1
      exact (hrel _ _ ⟨a1, a2, a3⟩ this).symm)
  unfold fbz2irrkList at key
  unfold fbz2irrkMesh
  cases ht : take? (flat3 (table nx ny nz fun i j k => G (i, j, k))) (irrkInd (flat3 m)) with
  | none => rw [ht] at key; exact absurd key (by simp)
  | some s =>
    rw [ht, Option.bind_some] at key
    rw [Option.bind_some]
    unfold irrk2fbzMesh
    rw [show take? s (irrkInv (flat3 m)) = some _ from key, Option.map_some]
    congr 1
    rw [flat3_table, reshape3_range]
    unfold table
    apply List.map_congr_left
    intro i hi
    apply List.map_congr_left
    intro j hj
    apply List.map_congr_left
    intro k hk
    rw [List.mem_range] at hi hj hk
    have := lin_div ny nz i j k hj hk
    unfold pt at this
    simp only [this]

/-- non-vacuity: the 2×2 square grid has three irreducible points and the function |kx+ky| is symmetric -/
example : (fbz2irrk 2 2 1 square).map (fun m => irrkInd (flat3 m)) = some [0, 1, 3] := by decide

/-! ### C51 — q lists -/

/-- C51.  Row `linP p` of the q list is the grid point `p`, and the list has one row per grid point. -/
theorem qList_value (nx ny nz : Nat) : (qList nx ny nz).length = nx * ny * nz ∧
    ∀ p, InGrid nx ny nz p → (qList nx ny nz)[linP ny nz p]? = some p := by
  have h : qList nx ny nz = flat3 (table nx ny nz fun i j k => (i, j, k)) := rfl
  rw [h, flat3_table]
  refine ⟨by simp, ?_⟩
  rintro ⟨i, j, k⟩ ⟨a1, a2, a3⟩
  rw [range_map_get?, if_pos (show linP ny nz (i, j, k) < nx * ny * nz from lin_lt nx ny nz i j k a1 a2 a3)]
  congr 1
  exact lin_div ny nz i j k a2 a3

/-- C51.  For a predefined symmetry set the irreducible q list consists of exactly the representatives, each once:
    row `a` is a grid point that is its own representative, and every grid point is equivalent to exactly one row. -/
theorem irrqList_value (nx ny nz : Nat) (syms : List Sym) (hs : syms ∈ predefined) (m : Arr3 Nat)
    (hm : fbz2irrk nx ny nz syms = some m) :
    ∃ qs, irrqList nx ny nz (flat3 m) = some qs ∧ qs.length = (irrkInd (flat3 m)).length ∧
      (∀ q ∈ qs, InGrid nx ny nz q ∧ at3 m q.1 q.2.1 q.2.2 = some (linP ny nz q)) ∧
      ∀ p, InGrid nx ny nz p → ∃ a, ∀ b q, qs[b]? = some q → (Related nx ny nz syms p q ↔ b = a) ∧ a < qs.length := by
  obtain ⟨bx, bY, bz, bxy, rfl, hc⟩ := predefined_family syms hs
  obtain ⟨m', hm', he⟩ := fbz2irrk_at nx ny nz bx bY bz bxy hc
  have hmm := hm
  rw [hm] at hm'
  injection hm' with hm'
  subst hm'
  -- flat map
  let rl : Nat → Nat := fun l => linP ny nz (rp nx ny nz bx bY bz bxy (pt ny nz l))
  have hf : flat3 m = (List.range (nx * ny * nz)).map rl := by rw [he, flat3_table]; rfl
  have hidem : ∀ l, l < nx * ny * nz → rl l < nx * ny * nz ∧ rl (rl l) = rl l ∧ rl l ≤ l := by
    intro l hl
    obtain ⟨b1, b2, b3, b4⟩ := pt_bounds nx ny nz l hl
    have hg := rp_inGrid nx ny nz bx bY bz bxy (pt ny nz l) ⟨b1, b2, b3⟩
    refine ⟨lin_lt nx ny nz _ _ _ hg.1 hg.2.1 hg.2.2, ?_, ?_⟩
    · simp only [rl]
      have hd : pt ny nz (linP ny nz (rp nx ny nz bx bY bz bxy (pt ny nz l))) = rp nx ny nz bx bY bz bxy (pt ny nz l) :=
        lin_div ny nz _ _ _ hg.2.1 hg.2.2
      rw [hd, rp_of_related nx ny nz bx bY bz bxy hc (pt ny nz l) _ ⟨b1, b2, b3⟩
        (rp_related nx ny nz bx bY bz bxy _ ⟨b1, b2, b3⟩)]
    · have := lin_rp_le nx ny nz bx bY bz bxy (pt ny nz l) ⟨b1, b2, b3⟩
      have h4 : linP ny nz (pt ny nz l) = l := b4
      rw [h4] at this
      exact this
  have hfg : ∀ l, l < nx * ny * nz → (flat3 m)[l]? = some (rl l) := by
    intro l hl; rw [hf, range_map_get?, if_pos hl]
  have hfl : (flat3 m).length = nx * ny * nz := by rw [hf]; simp
  -- first occurrence of a representative is itself
  have hfirst : ∀ u, u ∈ uniq (flat3 m) → u < nx * ny * nz ∧ (flat3 m).idxOf u = u ∧ rl u = u := by
    intro u hu
    rw [mem_uniq] at hu
    have hu' := hu
    rw [hf, List.mem_map] at hu
    obtain ⟨l, hl, rfl⟩ := hu
    rw [List.mem_range] at hl
    obtain ⟨c1, c2, c3⟩ := hidem l hl
    refine ⟨c1, ?_, c2⟩
    have hi := List.idxOf_lt_length_of_mem hu'
    have hv := idxOf_get _ _ hu'
    rw [hfl] at hi
    rw [hfg _ hi] at hv
    injection hv with hv
    have h3 := (hidem _ hi).2.2
    -- rl l ≤ idxOf; and idxOf ≤ rl l as the value occurs at rl l
    have hle : (flat3 m).idxOf (rl l) ≤ rl l := by
      apply Classical.byContradiction
      intro hcon
      have hcon : rl l < (flat3 m).idxOf (rl l) := by omega
      have h5 := List.not_of_lt_findIdx hcon
      have h6 : (flat3 m)[rl l]? = some (rl l) := by rw [hfg _ c1, c2]
      have h7 : rl l < (flat3 m).length := by omega
      rw [List.getElem?_eq_getElem h7] at h6
      injection h6 with h6
      rw [h6] at h5
      simp at h5
    omega
  obtain ⟨qs, hqs, hql, hqv⟩ := take?_some (qList nx ny nz) (irrkInd (flat3 m)) (by
    intro i hi; rw [(qList_value nx ny nz).1, ← hfl]; exact irrkInd_lt _ i hi)
  have hrow : ∀ (b : Nat) q, qs[b]? = some q → ∃ u, (uniq (flat3 m))[b]? = some u ∧ q = pt ny nz u ∧ u < nx * ny * nz ∧ rl u = u := by
    intro b q hb
    have hbl : b < (uniq (flat3 m)).length := by
      have := (List.getElem?_eq_some_iff.1 hb).1
      rw [hql] at this
      simpa [irrkInd] using this
    have hu : (uniq (flat3 m))[b]? = some (uniq (flat3 m))[b] := List.getElem?_eq_getElem hbl
    obtain ⟨d1, d2, d3⟩ := hfirst _ (List.getElem_mem hbl)
    refine ⟨_, hu, ?_, d1, d3⟩
    have e1 : (irrkInd (flat3 m))[b]? = some (uniq (flat3 m))[b] := by
      unfold irrkInd; rw [List.getElem?_map, hu, Option.map_some, d2]
    rw [hqv b _ e1] at hb
    obtain ⟨p1, p2, p3, p4⟩ := pt_bounds nx ny nz _ d1
    have := (qList_value nx ny nz).2 (pt ny nz (uniq (flat3 m))[b]) ⟨p1, p2, p3⟩
    rw [show linP ny nz (pt ny nz (uniq (flat3 m))[b]) = (uniq (flat3 m))[b] from p4] at this
    rw [this] at hb
    injection hb with hb
    exact hb.symm
  refine ⟨qs, hqs, hql, ?_, ?_⟩
  · intro q hq
    obtain ⟨b, hb, rfl⟩ := List.getElem_of_mem hq
    obtain ⟨u, _, e2, e3, e4⟩ := hrow b _ (List.getElem?_eq_getElem hb)
    obtain ⟨p1, p2, p3, p4⟩ := pt_bounds nx ny nz u e3
    rw [e2]
    refine ⟨⟨p1, p2, p3⟩, ?_⟩
    rw [he, at3_table nx ny nz _ _ _ _ p1 p2 p3]
    congr 1
    rw [show linP ny nz (pt ny nz u) = u from p4]
    exact e4
  · intro p hp
    refine ⟨(uniq (flat3 m)).idxOf (linP ny nz (rp nx ny nz bx bY bz bxy p)), ?_⟩
    intro b q hb
    obtain ⟨u, e1, e2, e3, e4⟩ := hrow b q hb
    obtain ⟨p1, p2, p3, p4⟩ := pt_bounds nx ny nz u e3
    have hmemu : linP ny nz (rp nx ny nz bx bY bz bxy p) ∈ uniq (flat3 m) := by
      rw [mem_uniq, hf, List.mem_map]
      refine ⟨linP ny nz p, by rw [List.mem_range]; exact lin_lt nx ny nz _ _ _ hp.1 hp.2.1 hp.2.2, ?_⟩
      simp only [rl]
      rw [show pt ny nz (linP ny nz p) = p from lin_div ny nz _ _ _ hp.2.1 hp.2.2]
    refine ⟨?_, ?_⟩
    · have hu : u = linP ny nz (rp nx ny nz bx bY bz bxy q) := by rw [e2]; exact e4.symm
      have hq : InGrid nx ny nz q := by rw [e2]; exact ⟨p1, p2, p3⟩
      constructor
      · intro hr
        have := rp_of_related nx ny nz bx bY bz bxy hc p q hp hr
        rw [← this, ← hu]
        exact (idxOf_nodup _ (uniq_nodup _) b u e1).symm
      · intro hba
        have h1 := idxOf_get (uniq (flat3 m)) _ hmemu
        rw [← hba, e1] at h1
        injection h1 with h1
        rw [hu] at h1
        have h2 := linP_inj nx ny nz _ _ (rp_inGrid nx ny nz bx bY bz bxy q hq) (rp_inGrid nx ny nz bx bY bz bxy p hp) h1
        have h3 := rp_related nx ny nz bx bY bz bxy p hp
        rw [← h2] at h3
        exact related_trans h3 (related_symm hq (rp_related nx ny nz bx bY bz bxy q hq))
    · rw [hql]
      have := List.idxOf_lt_length_of_mem hmemu
      simpa [irrkInd] using this

/-- non-vacuity: irreducible points of the 4×4 square lattice -/
example : (fbz2irrk 4 4 1 square).bind (fun m => irrqList 4 4 1 (flat3 m)) =
    some [(0, 0, 0), (0, 1, 0), (0, 2, 0), (1, 1, 0), (1, 2, 0), (2, 2, 0)] := by decide

/-! ### C12 — momentum shifts -/

/-- shape of a three-dimensional array -/
def Shaped (m : Arr3 α) (nx ny nz : Nat) : Prop :=
  m.length = nx ∧ ∀ p ∈ m, p.length = ny ∧ ∀ r ∈ p, r.length = nz

/-- value at an arbitrary integer momentum index, periodic in every axis -/
def atPer (m : Arr3 α) (nx ny nz : Nat) (i j k : Int) : Option α :=
  at3 m (i % nx).toNat (j % ny).toNat (k % nz).toNat

theorem roll_length (l : List α) (s : Int) : (roll l s).length = l.length := by
  unfold roll; simp

theorem roll_get? (l : List α) (s i : Int) (h : 0 < l.length) :
    (roll l s)[(i % l.length).toNat]? = l[((i - s) % l.length).toNat]? := by
  unfold roll
  simp only []
  generalize hn : (l.length : Int) = n
  have hn0 : 0 < n := by omega
  have hs1 := Int.emod_nonneg s (show n ≠ 0 by omega)
  have hs2 := Int.emod_lt_of_pos s hn0
  have hi1 := Int.emod_nonneg i (show n ≠ 0 by omega)
  have hi2 := Int.emod_lt_of_pos i hn0
  have hd : (i - s) % n = (i % n - s % n) % n := Int.sub_emod i s n
  generalize s % n = a at *
  generalize i % n = b at *
  rw [hd]
  by_cases hlt : b < a
  · rw [List.getElem?_append_left (by rw [List.length_drop]; omega), List.getElem?_drop]
    have : (b - a) % n = b - a + n := by
      rw [← Int.add_emod_right, Int.emod_eq_of_lt (by omega) (by omega)]
    rw [this]
    congr 1; omega
  · rw [List.getElem?_append_right (by rw [List.length_drop]; omega), List.getElem?_take, List.length_drop]
    have : (b - a) % n = b - a := Int.emod_eq_of_lt (by omega) (by omega)
    rw [this, if_pos (by omega)]
    congr 1; omega

theorem roll_mem (l : List α) (s : Int) (x : α) : x ∈ roll l s ↔ x ∈ l := by
  unfold roll
  rw [List.mem_append]
  constructor
  · rintro (h | h)
    · exact List.mem_of_mem_drop h
    · exact List.mem_of_mem_take h
  · intro h
    rw [← List.take_append_drop (l.length - (s % (l.length : Int)).toNat) l, List.mem_append] at h
    exact h.symm

/-- C12.  The shape is unchanged and, with all indices taken modulo the grid, the shifted array at `k` is the original
    at `k - ind`: so shifting by `-q` evaluates at `k + q`. -/
theorem shift_value (m : Arr3 α) (nx ny nz : Nat) (hm : Shaped m nx ny nz) (hx : 0 < nx) (hy : 0 < ny) (hz : 0 < nz)
    (s0 s1 s2 : Int) : Shaped (shiftByInd m s0 s1 s2) nx ny nz ∧ ∀ i j k : Int,
      atPer (shiftByInd m s0 s1 s2) nx ny nz i j k = atPer m nx ny nz (i - s0) (j - s1) (k - s2) := by
  obtain ⟨hl, hp⟩ := hm
  constructor
  · refine ⟨by unfold shiftByInd; rw [roll_length]; simpa using hl, ?_⟩
    intro p hpm
    unfold shiftByInd at hpm
    rw [roll_mem, List.mem_map] at hpm
    obtain ⟨q, hq, rfl⟩ := hpm
    refine ⟨by rw [roll_length]; simpa using (hp q hq).1, ?_⟩
    intro r hr
    rw [roll_mem, List.mem_map] at hr
    obtain ⟨r', hr', rfl⟩ := hr
    rw [roll_length]; exact (hp q hq).2 r' hr'
  · intro i j k
    unfold atPer at3 shiftByInd
    have e0 := roll_get? (m.map fun p => roll (p.map fun r => roll r s2) s1) s0 i (by simp; omega)
    rw [List.length_map, hl] at e0
    rw [e0, List.getElem?_map]
    cases hq : m[((i - s0) % (nx : Int)).toNat]? with
    | none => rfl
    | some p =>
      have hpl := (hp p (List.mem_of_getElem? hq)).1
      simp only [Option.map_some, Option.bind_some]
      have e1 := roll_get? (p.map fun r => roll r s2) s1 j (by simp; omega)
      rw [List.length_map, hpl] at e1
      rw [e1, List.getElem?_map]
      cases hr : p[((j - s1) % (ny : Int)).toNat]? with
      | none => rfl
      | some r =>
        have hrl := (hp p (List.mem_of_getElem? hq)).2 r (List.mem_of_getElem? hr)
        simp only [Option.map_some, Option.bind_some]
        have e2 := roll_get? r s2 k (by omega)
        rw [hrl] at e2
        exact e2

/-- Arrays of the same shape with equal periodic values are equal. -/
theorem ext_atPer (m m' : Arr3 α) (nx ny nz : Nat) (h : Shaped m nx ny nz) (h' : Shaped m' nx ny nz)
    (hv : ∀ i j k : Int, atPer m nx ny nz i j k = atPer m' nx ny nz i j k) : m = m' := by
  apply List.ext_getElem?
  intro i
  by_cases hi : i < nx
  · have hi1 : i < m.length := by rw [h.1]; exact hi
    have hi2 : i < m'.length := by rw [h'.1]; exact hi
    rw [List.getElem?_eq_getElem hi1, List.getElem?_eq_getElem hi2]
    congr 1
    have hm := h.2 _ (List.getElem_mem hi1)
    have hm' := h'.2 _ (List.getElem_mem hi2)
    apply List.ext_getElem?
    intro j
    by_cases hj : j < ny
    · have hj1 : j < m[i].length := by rw [hm.1]; exact hj
      have hj2 : j < m'[i].length := by rw [hm'.1]; exact hj
      rw [List.getElem?_eq_getElem hj1, List.getElem?_eq_getElem hj2]
      congr 1
      have hmr := hm.2 _ (List.getElem_mem hj1)
      have hmr' := hm'.2 _ (List.getElem_mem hj2)
      apply List.ext_getElem?
      intro k
      by_cases hk : k < nz
      · have := hv i j k
        unfold atPer at3 at this
        rw [Int.emod_eq_of_lt (by omega) (by omega), Int.emod_eq_of_lt (by omega) (by omega),
          Int.emod_eq_of_lt (by omega) (by omega)] at this
        simp only [Int.toNat_natCast, List.getElem?_eq_getElem hi1, List.getElem?_eq_getElem hi2, Option.bind_some,
          List.getElem?_eq_getElem hj1, List.getElem?_eq_getElem hj2] at this
        exact this
      · rw [List.getElem?_eq_none (by omega), List.getElem?_eq_none (by omega)]
    · rw [List.getElem?_eq_none (by omega), List.getElem?_eq_none (by omega)]
  · rw [List.getElem?_eq_none (by rw [h.1]; omega), List.getElem?_eq_none (by rw [h'.1]; omega)]

/-- C12.  Shifts compose additively. -/
theorem shift_shift (m : Arr3 α) (nx ny nz : Nat) (hm : Shaped m nx ny nz) (hx : 0 < nx) (hy : 0 < ny) (hz : 0 < nz)
    (s0 s1 s2 t0 t1 t2 : Int) :
    shiftByInd (shiftByInd m s0 s1 s2) t0 t1 t2 = shiftByInd m (s0 + t0) (s1 + t1) (s2 + t2) := by
  obtain ⟨a1, a2⟩ := shift_value m nx ny nz hm hx hy hz s0 s1 s2
  obtain ⟨b1, b2⟩ := shift_value _ nx ny nz a1 hx hy hz t0 t1 t2
  obtain ⟨c1, c2⟩ := shift_value m nx ny nz hm hx hy hz (s0 + t0) (s1 + t1) (s2 + t2)
  apply ext_atPer _ _ nx ny nz b1 c1
  intro i j k
  rw [b2, a2, c2]
  congr 1 <;> omega

/-- C12.  Shifts by multiples of the grid size do nothing (periodicity). -/
theorem shift_period (m : Arr3 α) (nx ny nz : Nat) (hm : Shaped m nx ny nz) (hx : 0 < nx) (hy : 0 < ny) (hz : 0 < nz)
    (a b c : Int) : shiftByInd m (a * nx) (b * ny) (c * nz) = m := by
  obtain ⟨a1, a2⟩ := shift_value m nx ny nz hm hx hy hz (a * nx) (b * ny) (c * nz)
  apply ext_atPer _ _ nx ny nz a1 hm
  intro i j k
  rw [a2]
  unfold atPer
  simp only [Int.sub_mul_emod_self_right]

/-- C12.  Shifting by `-q` undoes shifting by `q`. -/
theorem shift_inverse (m : Arr3 α) (nx ny nz : Nat) (hm : Shaped m nx ny nz) (hx : 0 < nx) (hy : 0 < ny) (hz : 0 < nz)
    (s0 s1 s2 : Int) : shiftByInd (shiftByInd m s0 s1 s2) (-s0) (-s1) (-s2) = m := by
  rw [shift_shift m nx ny nz hm hx hy hz]
  have := shift_period m nx ny nz hm hx hy hz 0 0 0
  simpa [Int.add_right_neg] using this

/-- C12.  Shifting by π (half the grid along every axis) twice is the identity on even grids. -/
theorem shiftByPi_twice (m : Arr3 α) (nx ny nz : Nat) (hm : Shaped m nx ny nz) (hx : 0 < nx) (hy : 0 < ny)
    (hz : 0 < nz) (ex : nx % 2 = 0) (ey : ny % 2 = 0) (ez : nz % 2 = 0) :
    shiftByPi (shiftByPi m nx ny nz) nx ny nz = m := by
  unfold shiftByPi
  rw [shift_shift m nx ny nz hm hx hy hz]
  have := shift_period m nx ny nz hm hx hy hz 1 1 1
  rw [show ((nx / 2 : Nat) : Int) + ((nx / 2 : Nat) : Int) = 1 * (nx : Int) by omega,
    show ((ny / 2 : Nat) : Int) + ((ny / 2 : Nat) : Int) = 1 * (ny : Int) by omega,
    show ((nz / 2 : Nat) : Int) + ((nz / 2 : Nat) : Int) = 1 * (nz : Int) by omega]
  exact this

/-- C12.  The same for the module-level function that shifts the first two axes only. -/
theorem shiftByPi2_twice (m : Arr3 α) (nx ny nz : Nat) (hm : Shaped m nx ny nz) (hx : 0 < nx) (hy : 0 < ny)
    (hz : 0 < nz) (ex : nx % 2 = 0) (ey : ny % 2 = 0) : shiftByPi2 (shiftByPi2 m nx ny) nx ny = m := by
  unfold shiftByPi2
  rw [shift_shift m nx ny nz hm hx hy hz]
  have := shift_period m nx ny nz hm hx hy hz 1 1 0
  rw [show ((nx / 2 : Nat) : Int) + ((nx / 2 : Nat) : Int) = 1 * (nx : Int) by omega,
    show ((ny / 2 : Nat) : Int) + ((ny / 2 : Nat) : Int) = 1 * (ny : Int) by omega]
  simpa using this

/-- C12.  A shift only reorders the entries of the flattened zone, so every k sum or k mean is unchanged. -/
theorem shift_perm (m : Arr3 α) (s0 s1 s2 : Int) :
    (flat3 (shiftByInd m s0 s1 s2)).Perm (flat3 m) := by
  have hroll : ∀ {β : Type} (l : List β) (s : Int), (roll l s).Perm l := by
    intro β l s
    unfold roll
    refine List.perm_append_comm.trans ?_
    rw [List.take_append_drop]
  have hfl : ∀ {β : Type} (l : List (List β)) (s : Int), (roll l s).flatten.Perm l.flatten :=
    fun l s => (hroll l s).flatten
  have hmap : ∀ {β : Type} (l : List (List β)) (g : List β → List β), (∀ x, (g x).Perm x) →
      (l.map g).flatten.Perm l.flatten := by
    intro β l g hg
    induction l with
    | nil => exact .refl _
    | cons a l ih => simp only [List.map_cons, List.flatten_cons]; exact (hg a).append ih
  unfold flat3 shiftByInd
  refine (hfl _ s0).flatten.trans ?_
  have h1 : (m.map fun p => roll (p.map fun r => roll r s2) s1).flatten.Perm
      (m.map fun p => p.map fun r => roll r s2).flatten := by
    have := hmap (m.map fun p => p.map fun r => roll r s2) (fun x => roll x s1) (fun x => hroll x s1)
    rw [List.map_map] at this
    exact this
  refine h1.flatten.trans ?_
  have h2 : (m.map fun p => p.map fun r => roll r s2).flatten = m.flatten.map fun r => roll r s2 := by
    rw [List.map_flatten]
  rw [h2]
  exact hmap m.flatten (fun r => roll r s2) (fun x => hroll x s2)

/-- non-vacuity: a 2×2×1 array shifted by one in x -/
example : Shaped [[[1], [2]], [[3], [4]]] 2 2 1 ∧
    shiftByInd [[[1], [2]], [[3], [4]]] (-1) 0 0 = [[[3], [4]], [[1], [2]]] := by
  refine ⟨⟨rfl, by decide⟩, by decide⟩

end DGA.Bz
