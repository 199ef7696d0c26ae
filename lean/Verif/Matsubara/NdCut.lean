import Verif.Matsubara.Props
import Mathlib.Data.List.Forall2
import Mathlib.Tactic.SplitIfs
import Mathlib.Data.Nat.Basic

/-
  C115: cutting frequency boxes of arrays with any number of axes (`cut_v`, `inv_cut_v`, `cut_w`,
  `cut_iv_with_iw_shift` with a tuple of axes, matsubara_frequencies.py:104-109, 150-178, 260-268).
-/

namespace DGA.Mf

/-- an n-dimensional array: shape and entries (only the entries at indices below the shape mean anything) -/
structure Nd (α : Type) where
  shape : List Nat
  val : List Nat → α

/-- the indices of an array of the given shape -/
def Valid (shape idx : List Nat) : Prop := List.Forall₂ (fun i n => i < n) idx shape

/-- the one-dimensional slice through `idx` along axis `ax` (language construct) -/
def Nd.row {α : Type} (a : Nd α) (ax : Nat) (idx : List Nat) : List α :=
  (List.range (a.shape.getD ax 0)).map fun j => a.val (idx.set ax j)

/-- `np.apply_along_axis(f, axis=ax, arr=a)` (language construct): the length of the new axis is that of the first slice. -/
def Nd.along {α : Type} [Inhabited α] (f : List α → List α) (a : Nd α) (ax : Nat) : Nd α :=
  ⟨a.shape.set ax (f (a.row ax (a.shape.map fun _ => 0))).length, fun idx => (f (a.row ax idx)).getD (idx.getD ax 0) default⟩

/-- numpy's `normalize_axis_index`: negative axes count from the end, others raise -/
def normAxis (ndim : Nat) (ax : Int) : Option Nat :=
  if 0 ≤ ax ∧ ax < ndim then some ax.toNat else if ax < 0 ∧ 0 ≤ ax + ndim then some (ax + ndim).toNat else none

/-- the loop `for axis in axes: tmp = np.apply_along_axis(...)` -/
def Nd.alongAll {α : Type} [Inhabited α] (f : List α → List α) (a : Nd α) (axes : List Int) : Option (Nd α) :=
  axes.foldlM (fun t ax => (normAxis t.shape.length ax).map fun k => t.along f k) a

/-- `np.flip(np.sort(axes))` (language construct) -/
def sortFlip (axes : List Int) : List Int := (axes.mergeSort).reverse

/-- matsubara_frequencies.py:150-159 `cut_v` -/
def Nd.cutV {α : Type} [Inhabited α] (a : Nd α) (nivCut : Int) (axes : List Int) : Option (Nd α) :=
  a.alongAll (fun l => Mf.cutV l nivCut) (sortFlip axes)

/-- matsubara_frequencies.py:172-178 `inv_cut_v` -/
def Nd.invCutV {α : Type} [Inhabited α] (a : Nd α) (nivCore nivShell : Int) (axes : List Int) : Option (Nd α) :=
  a.alongAll (fun l => Mf.invCutV l nivCore nivShell) (sortFlip axes)

/-- matsubara_frequencies.py:260-268 `cut_w` with a tuple of axes -/
def Nd.cutW {α : Type} [Inhabited α] (a : Nd α) (niwCut : Int) (axes : List Int) : Option (Nd α) :=
  a.alongAll (fun l => Mf.cutW l niwCut) (sortFlip axes)

/-- matsubara_frequencies.py:104-109 `cut_iv_with_iw_shift` (axes in the given order) -/
def Nd.cutIvShift {α : Type} [Inhabited α] (a : Nd α) (nivCut iwn : Int) (axes : List Int) : Option (Nd α) :=
  a.alongAll (fun l => Mf.cutIvShift l nivCut iwn) axes

/-! ### the loop over axes -/

/-- `f` picks entries: from a list of length `L` it makes one of length `m` whose entry `j` is the entry `g j` -/
def Picks {α : Type} (f : List α → List α) (L m : Nat) (g : Nat → Nat) : Prop :=
  ∀ l : List α, l.length = L → (f l).length = m ∧ ∀ j < m, g j < L ∧ (f l)[j]? = l[g j]?

theorem along_value {α : Type} [Inhabited α] (f : List α → List α) (a : Nd α) (ax : Nat) (h : ax < a.shape.length) (m : Nat)
    (g : Nat → Nat) (hf : Picks f (a.shape.getD ax 0) m g) :
    (a.along f ax).shape = a.shape.set ax m ∧ ∀ idx, Valid (a.shape.set ax m) idx →
      Valid a.shape (idx.set ax (g (idx.getD ax 0))) ∧ (a.along f ax).val idx = a.val (idx.set ax (g (idx.getD ax 0))) := by
  have hl : ∀ idx, (a.row ax idx).length = a.shape.getD ax 0 := fun idx => by simp [Nd.row]
  refine ⟨by unfold Nd.along; rw [(hf _ (hl _)).1], fun idx hv => ?_⟩
  have hlen : idx.length = a.shape.length := by
    have := List.Forall₂.length_eq hv; simpa using this
  have hi : ax < idx.length := by omega
  have hlt : idx.getD ax 0 < m := by
    have := List.Forall₂.get hv hi (by simpa using h)
    simpa [List.getD, List.getElem?_eq_getElem hi] using this
  obtain ⟨hg, hval⟩ := (hf _ (hl idx)).2 _ hlt
  constructor
  · rw [Valid, List.forall₂_iff_get] at hv ⊢
    refine ⟨by simpa using hlen, fun i h1 h2 => ?_⟩
    have h3 := hv.2 i (by simpa using h1) (by simpa using h2)
    simp only [List.get_eq_getElem, List.getElem_set] at h3 ⊢
    split_ifs with he
    · subst he
      simpa [List.getD, List.getElem?_eq_getElem h2] using hg
    · simpa [he] using h3
  · unfold Nd.along
    simp only
    rw [List.getD, hval]
    unfold Nd.row
    rw [List.getElem?_map, List.getElem?_range hg]; rfl

/-- the indices read by the loop: at the cut axes `g`, elsewhere unchanged -/
def pickIdx (axes : List Nat) (g : Nat → Nat → Nat) (idx : List Nat) : List Nat :=
  idx.mapIdx fun i j => if i ∈ axes then g i j else j

/-- the new shape -/
def pickShape (axes : List Nat) (m : Nat → Nat) (shape : List Nat) : List Nat := shape.mapIdx fun i n => if i ∈ axes then m i else n

theorem alongAll_value {α : Type} [Inhabited α] (f : List α → List α) (m : Nat → Nat) (g : Nat → Nat → Nat) (axes : List Int)
    (ks : List Nat) (a : Nd α) (hn : axes.map (normAxis a.shape.length) = ks.map some) (hd : ks.Nodup)
    (hf : ∀ k ∈ ks, Picks f (a.shape.getD k 0) (m k) (g k)) :
    ∃ b, a.alongAll f axes = some b ∧ b.shape = pickShape ks m a.shape ∧
      ∀ idx, Valid b.shape idx → Valid a.shape (pickIdx ks g idx) ∧ b.val idx = a.val (pickIdx ks g idx) := by
  induction axes generalizing ks a with
  | nil =>
    obtain rfl : ks = [] := by cases ks <;> simp at hn ⊢
    refine ⟨a, rfl, ?_, fun idx h => ?_⟩
    · unfold pickShape; apply List.ext_getElem? ; intro i; simp
    · have : pickIdx [] g idx = idx := by unfold pickIdx; apply List.ext_getElem?; intro i; simp
      rw [this]; exact ⟨h, rfl⟩
  | cons ax t ih =>
    cases ks with
    | nil => simp at hn
    | cons k ks =>
      simp only [List.map_cons, List.cons.injEq] at hn
      obtain ⟨hk, ht⟩ := hn
      have hkl : k < a.shape.length := by
        unfold normAxis at hk
        split_ifs at hk with h1 h2
        · injection hk; omega
        · injection hk; omega
      rw [List.nodup_cons] at hd
      obtain ⟨hs1, hv1⟩ := along_value f a k hkl (m k) (g k) (hf k (List.mem_cons_self ..))
      have hslen : (a.along f k).shape.length = a.shape.length := by rw [hs1]; simp
      obtain ⟨b, hb, hbs, hbv⟩ := ih ks (a.along f k) (by rw [hslen]; exact ht) hd.2 (by
        intro q hq
        have hne : k ≠ q := fun h => hd.1 (h ▸ hq)
        have : (a.along f k).shape.getD q 0 = a.shape.getD q 0 := by
          rw [hs1]; simp [List.getD, List.getElem?_set_ne hne]
        rw [this]
        exact hf q (List.mem_cons_of_mem _ hq))
      refine ⟨b, ?_, ?_, ?_⟩
      · simp only [Nd.alongAll, List.foldlM_cons]
        rw [hk]
        exact hb
      · rw [hbs, hs1]
        unfold pickShape
        apply List.ext_getElem?
        intro i
        rw [List.getElem?_mapIdx, List.getElem?_mapIdx]
        by_cases he : k = i
        · subst he
          rw [List.getElem?_set_self hkl, List.getElem?_eq_getElem hkl]
          simp [hd.1]
        · rw [List.getElem?_set_ne he]
          simp [Ne.symm he]
      · intro idx hv
        obtain ⟨h1, h2⟩ := hbv idx hv
        rw [hs1] at h1
        obtain ⟨h3, h4⟩ := hv1 _ h1
        have hlen : idx.length = a.shape.length := by
          have := List.Forall₂.length_eq hv; rw [hbs] at this; simpa [pickShape, hs1] using this
        have e : (pickIdx ks g idx).set k (g k ((pickIdx ks g idx).getD k 0)) = pickIdx (k :: ks) g idx := by
          unfold pickIdx
          have hki : k < idx.length := by omega
          apply List.ext_getElem?
          intro i
          by_cases he : k = i
          · subst he
            rw [List.getElem?_set_self (by simpa using hki)]
            simp [List.getD, List.getElem?_eq_getElem hki, hd.1]
          · rw [List.getElem?_set_ne he]
            simp [Ne.symm he]
        rw [e] at h3 h4
        exact ⟨h3, by rw [h2, h4]⟩

theorem pickIdx_congr (ks ks' : List Nat) (h : ∀ k, k ∈ ks ↔ k ∈ ks') (g : Nat → Nat → Nat) (idx : List Nat) :
    pickIdx ks g idx = pickIdx ks' g idx := by unfold pickIdx; simp only [h]

theorem pickShape_congr (ks ks' : List Nat) (h : ∀ k, k ∈ ks ↔ k ∈ ks') (m : Nat → Nat) (sh : List Nat) :
    pickShape ks m sh = pickShape ks' m sh := by unfold pickShape; simp only [h]

/-- the order of the axes does not matter -/
theorem alongAll_perm {α : Type} [Inhabited α] (f : List α → List α) (m : Nat → Nat) (g : Nat → Nat → Nat) (axes axes' : List Int)
    (hp : axes'.Perm axes) (ks : List Nat) (a : Nd α) (hn : axes.map (normAxis a.shape.length) = ks.map some) (hd : ks.Nodup)
    (hf : ∀ k ∈ ks, Picks f (a.shape.getD k 0) (m k) (g k)) :
    ∃ b, a.alongAll f axes' = some b ∧ b.shape = pickShape ks m a.shape ∧
      ∀ idx, Valid b.shape idx → Valid a.shape (pickIdx ks g idx) ∧ b.val idx = a.val (pickIdx ks g idx) := by
  have h1 : (axes'.map (normAxis a.shape.length)).Perm (ks.map some) := hn ▸ hp.map _
  obtain ⟨ks', hk, hk'⟩ : ∃ ks' : List Nat, axes'.map (normAxis a.shape.length) = ks'.map some ∧ ks'.Perm ks := by
    refine ⟨(axes'.map (normAxis a.shape.length)).filterMap id, ?_, ?_⟩
    · have : ∀ x ∈ axes'.map (normAxis a.shape.length), x.isSome := by
        intro x hx
        have := h1.mem_iff.mp hx
        rw [List.mem_map] at this
        obtain ⟨y, _, rfl⟩ := this; rfl
      generalize axes'.map (normAxis a.shape.length) = l at this
      induction l with
      | nil => rfl
      | cons x t ih =>
        obtain ⟨y, rfl⟩ := Option.isSome_iff_exists.mp (this x (List.mem_cons_self ..))
        rw [List.filterMap_cons_some (by rfl), List.map_cons, ← ih fun z hz => this z (List.mem_cons_of_mem _ hz)]
    · have := h1.filterMap id
      have e : (ks.map some).filterMap id = ks := by
        rw [List.filterMap_map]; exact List.filterMap_some
      rwa [e] at this
  obtain ⟨b, hb, hs, hv⟩ := alongAll_value f m g axes' ks' a hk (hk'.nodup_iff.mpr hd) (fun k hkk => hf k (hk'.mem_iff.mp hkk))
  refine ⟨b, hb, by rw [hs, pickShape_congr ks' ks fun k => hk'.mem_iff], fun idx h => ?_⟩
  have := hv idx h
  rwa [pickIdx_congr ks' ks fun k => hk'.mem_iff] at this

theorem sortFlip_perm (axes : List Int) : (sortFlip axes).Perm axes := (List.reverse_perm _).trans (List.mergeSort_perm _ _)

/-! ### which entries the one-dimensional functions pick -/

theorem cutV_picks {α : Type} (niv c : Nat) (h : c ≤ niv) :
    Picks (fun l : List α => cutV l c) (2 * niv) (2 * c) fun j => j + niv - c := by
  intro l hl
  unfold cutV
  simp only [nFromMat_eq l niv hl]
  rw [if_neg (by omega)]
  refine ⟨by rw [Py.length_slice_in _ _ _ (by omega) (by omega) (by omega)]; omega, fun j hj => ⟨by omega, ?_⟩⟩
  rw [Py.slice_get?_in _ _ _ (by omega) (by omega) _ (by omega)]
  congr 1; omega

theorem cutW_picks {α : Type} (niw c : Nat) (h : c ≤ niw) :
    Picks (fun l : List α => cutW l c) (2 * niw + 1) (2 * c + 1) fun j => j + niw - c := by
  intro l hl
  unfold cutW nFromMat
  simp only [hl]
  refine ⟨by rw [Py.length_slice_in _ _ _ (by omega) (by omega) (by omega)]; omega, fun j hj => ⟨by omega, ?_⟩⟩
  rw [Py.slice_get?_in _ _ _ (by omega) (by omega) _ (by omega)]
  congr 1; omega

theorem invCutV_picks {α : Type} (niv core shell : Nat) (h : core + shell ≤ niv) :
    Picks (fun l : List α => invCutV l core shell) (2 * niv) (2 * shell)
      fun j => if j < shell then j + niv - shell - core else j + niv - shell + core := by
  intro l hl
  unfold invCutV
  simp only [nFromMat_eq l niv hl]
  rw [if_neg (by omega)]
  have h1 : (Py.slice l ((niv : Int) - shell - core) ((niv : Int) - core)).length = shell := by
    rw [Py.length_slice_in _ _ _ (by omega) (by omega) (by omega)]; omega
  refine ⟨?_, fun j hj => ⟨by split_ifs <;> omega, ?_⟩⟩
  · rw [List.length_append, h1, Py.length_slice_in _ _ _ (by omega) (by omega) (by omega)]; omega
  · by_cases hjs : j < shell
    · rw [if_pos hjs, List.getElem?_append_left (by omega), Py.slice_get?_in _ _ _ (by omega) (by omega) _ (by omega)]
      congr 1; omega
    · rw [if_neg hjs, List.getElem?_append_right (by omega), h1, Py.slice_get?_in _ _ _ (by omega) (by omega) _ (by omega)]
      congr 1; omega

theorem cutIvShift_picks {α : Type} (niv c : Nat) (w : Int) (h : w.natAbs + c ≤ niv) :
    Picks (fun l : List α => cutIvShift l c w) (2 * niv) (2 * c) fun j => ((j : Int) + niv - c - w).toNat := by
  intro l hl
  unfold cutIvShift
  simp only [nFromMat_eq l niv hl]
  rw [if_neg (by omega)]
  refine ⟨by rw [Py.length_slice_in _ _ _ (by omega) (by omega) (by omega)]; omega, fun j hj => ⟨by omega, ?_⟩⟩
  rw [Py.slice_get?_in _ _ _ (by omega) (by omega) _ (by omega)]
  congr 1; omega

/-! ### C115 -/

/-- the axes are named without repetition and lie in the array; `ks` are their positions from the left -/
def AxesAre (ndim : Nat) (axes : List Int) (ks : List Nat) : Prop :=
  ks.Nodup ∧ List.Forall₂ (fun (ax : Int) (k : Nat) => k < ndim ∧ (ax = k ∨ ax = (k : Int) - ndim)) axes ks

theorem AxesAre.norm {ndim : Nat} {axes : List Int} {ks : List Nat} (h : AxesAre ndim axes ks) :
    axes.map (normAxis ndim) = ks.map some := by
  have h2 := h.2
  clear h
  induction h2 with
  | nil => rfl
  | cons hx _ ih =>
    rw [List.map_cons, List.map_cons, ih]
    congr 1
    obtain ⟨hk, hx | hx⟩ := hx
    · subst hx; unfold normAxis; rw [if_pos (by omega), Int.toNat_natCast]
    · subst hx; unfold normAxis; rw [if_neg (by omega), if_pos (by omega)]; congr 1; omega

/-- `b` has the size `m k` along the axes `k ∈ ks`, and its entry at any index is the entry of `a` where the index along the
    axis `k` is replaced by `g k` of it, the others unchanged. -/
def Reads {α : Type} (a b : Nd α) (ks : List Nat) (m : Nat → Nat) (g : Nat → Nat → Nat) : Prop :=
  b.shape.length = a.shape.length ∧
  (∀ i, i < a.shape.length → b.shape[i]? = if i ∈ ks then some (m i) else a.shape[i]?) ∧
  ∀ idx, Valid b.shape idx → ∃ src, Valid a.shape src ∧ b.val idx = a.val src ∧
    ∀ i, i < a.shape.length → src[i]? = if i ∈ ks then (idx[i]?).map (g i) else idx[i]?

theorem reads_of {α : Type} (a b : Nd α) (ks : List Nat) (m : Nat → Nat) (g : Nat → Nat → Nat) (hs : b.shape = pickShape ks m a.shape)
    (hv : ∀ idx, Valid b.shape idx → Valid a.shape (pickIdx ks g idx) ∧ b.val idx = a.val (pickIdx ks g idx)) : Reads a b ks m g := by
  refine ⟨by rw [hs]; simp [pickShape], ?_, ?_⟩
  · intro i hi
    rw [hs]
    unfold pickShape
    rw [List.getElem?_mapIdx, List.getElem?_eq_getElem hi]
    split_ifs <;> simp_all
  · intro idx hidx
    obtain ⟨h1, h2⟩ := hv idx hidx
    refine ⟨_, h1, h2, fun i _ => ?_⟩
    unfold pickIdx
    rw [List.getElem?_mapIdx]
    split_ifs with h
    · simp
    · cases idx[i]? <;> simp

/-- **C115 (a).** `cut_v` with any list of (positive or negative) axes keeps, on each of them, the Matsubara indices
    `-c … c-1`: position `j` (index `j - c`) is position `j - c + niv` of the input, `2 niv` being the size of that axis. -/
theorem cutV_nd {α : Type} [Inhabited α] (a : Nd α) (axes : List Int) (ks : List Nat) (h : AxesAre a.shape.length axes ks) (c : Nat)
    (niv : Nat → Nat) (hn : ∀ k ∈ ks, a.shape[k]? = some (2 * niv k) ∧ c ≤ niv k) :
    ∃ b, a.cutV c axes = some b ∧ Reads a b ks (fun _ => 2 * c) fun k j => j + niv k - c := by
  obtain ⟨b, hb, hs, hv⟩ := alongAll_perm (fun l : List α => cutV l c) (fun _ => 2 * c) (fun k j => j + niv k - c) axes (sortFlip axes)
    (sortFlip_perm axes) ks a h.norm h.1 (fun k hk => by
      rw [show a.shape.getD k 0 = 2 * niv k by simp [List.getD, (hn k hk).1]]
      exact cutV_picks _ _ (hn k hk).2)
  exact ⟨b, hb, reads_of _ _ _ _ _ hs hv⟩

/-- **C115 (b).** `inv_cut_v` keeps on each axis the indices outside the core, up to the shell size. -/
theorem invCutV_nd {α : Type} [Inhabited α] (a : Nd α) (axes : List Int) (ks : List Nat) (h : AxesAre a.shape.length axes ks)
    (core shell : Nat) (niv : Nat → Nat) (hn : ∀ k ∈ ks, a.shape[k]? = some (2 * niv k) ∧ core + shell ≤ niv k) :
    ∃ b, a.invCutV core shell axes = some b ∧
      Reads a b ks (fun _ => 2 * shell) fun k j => if j < shell then j + niv k - shell - core else j + niv k - shell + core := by
  obtain ⟨b, hb, hs, hv⟩ := alongAll_perm (fun l : List α => invCutV l core shell) (fun _ => 2 * shell)
    (fun k j => if j < shell then j + niv k - shell - core else j + niv k - shell + core) axes (sortFlip axes)
    (sortFlip_perm axes) ks a h.norm h.1 (fun k hk => by
      rw [show a.shape.getD k 0 = 2 * niv k by simp [List.getD, (hn k hk).1]]
      exact invCutV_picks _ _ _ (hn k hk).2)
  exact ⟨b, hb, reads_of _ _ _ _ _ hs hv⟩

/-- **C115 (c).** `cut_w` keeps the bosonic indices `-c … c`. -/
theorem cutW_nd {α : Type} [Inhabited α] (a : Nd α) (axes : List Int) (ks : List Nat) (h : AxesAre a.shape.length axes ks) (c : Nat)
    (niw : Nat → Nat) (hn : ∀ k ∈ ks, a.shape[k]? = some (2 * niw k + 1) ∧ c ≤ niw k) :
    ∃ b, a.cutW c axes = some b ∧ Reads a b ks (fun _ => 2 * c + 1) fun k j => j + niw k - c := by
  obtain ⟨b, hb, hs, hv⟩ := alongAll_perm (fun l : List α => cutW l c) (fun _ => 2 * c + 1) (fun k j => j + niw k - c) axes (sortFlip axes)
    (sortFlip_perm axes) ks a h.norm h.1 (fun k hk => by
      rw [show a.shape.getD k 0 = 2 * niw k + 1 by simp [List.getD, (hn k hk).1]]
      exact cutW_picks _ _ (hn k hk).2)
  exact ⟨b, hb, reads_of _ _ _ _ _ hs hv⟩

/-- **C115 (d).** `cut_iv_with_iw_shift` reads on each axis the index `v - w` where the result has `v`. -/
theorem cutIvShift_nd {α : Type} [Inhabited α] (a : Nd α) (axes : List Int) (ks : List Nat) (h : AxesAre a.shape.length axes ks) (c : Nat)
    (w : Int) (niv : Nat → Nat) (hn : ∀ k ∈ ks, a.shape[k]? = some (2 * niv k) ∧ w.natAbs + c ≤ niv k) :
    ∃ b, a.cutIvShift c w axes = some b ∧ Reads a b ks (fun _ => 2 * c) fun k j => ((j : Int) - c - w + niv k).toNat := by
  obtain ⟨b, hb, hs, hv⟩ := alongAll_value (fun l : List α => cutIvShift l c w) (fun _ => 2 * c)
    (fun k j => ((j : Int) - c - w + niv k).toNat) axes ks a h.norm h.1 (fun k hk => by
      rw [show a.shape.getD k 0 = 2 * niv k by simp [List.getD, (hn k hk).1],
        show (fun j : Nat => ((j : Int) - c - w + niv k).toNat) = fun j : Nat => ((j : Int) + niv k - c - w).toNat by
          funext j; congr 1; omega]
      exact cutIvShift_picks _ _ _ (hn k hk).2)
  exact ⟨b, hb, reads_of _ _ _ _ _ hs hv⟩

/-- two arrays agree -/
def Nd.Same {α : Type} (a b : Nd α) : Prop := a.shape = b.shape ∧ ∀ idx, Valid a.shape idx → a.val idx = b.val idx

theorem reads_unique {α : Type} (a b b' : Nd α) (ks ks' : List Nat) (hk : ∀ k, k ∈ ks ↔ k ∈ ks') (m : Nat → Nat) (g : Nat → Nat → Nat)
    (h : Reads a b ks m g) (h' : Reads a b' ks' m g) : b.Same b' := by
  have hs : b.shape = b'.shape := by
    apply List.ext_getElem?
    intro i
    by_cases hi : i < a.shape.length
    · rw [h.2.1 i hi, h'.2.1 i hi]; simp only [hk]
    · rw [List.getElem?_eq_none (by rw [h.1]; omega), List.getElem?_eq_none (by rw [h'.1]; omega)]
  refine ⟨hs, fun idx hv => ?_⟩
  obtain ⟨s, h1, h2, h3⟩ := h.2.2 idx hv
  obtain ⟨s', h1', h2', h3'⟩ := h'.2.2 idx (hs ▸ hv)
  rw [h2, h2']
  congr 1
  apply List.ext_getElem?
  intro i
  by_cases hi : i < a.shape.length
  · rw [h3 i hi, h3' i hi]; simp only [hk]
  · rw [List.getElem?_eq_none (by rw [List.Forall₂.length_eq h1]; omega), List.getElem?_eq_none (by rw [List.Forall₂.length_eq h1']; omega)]

/-- **C115 (e).** The order of the axes and whether they are counted from the left or from the right make no difference. -/
theorem cutV_axes_irrelevant {α : Type} [Inhabited α] (a : Nd α) (axes axes' : List Int) (ks ks' : List Nat)
    (h : AxesAre a.shape.length axes ks) (h' : AxesAre a.shape.length axes' ks') (hk : ∀ k, k ∈ ks ↔ k ∈ ks') (c : Nat) (niv : Nat → Nat)
    (hn : ∀ k ∈ ks, a.shape[k]? = some (2 * niv k) ∧ c ≤ niv k) :
    ∃ b b', a.cutV c axes = some b ∧ a.cutV c axes' = some b' ∧ b.Same b' := by
  obtain ⟨b, hb, hr⟩ := cutV_nd a axes ks h c niv hn
  obtain ⟨b', hb', hr'⟩ := cutV_nd a axes' ks' h' c niv fun k hk' => hn k ((hk k).mpr hk')
  exact ⟨b, b', hb, hb', reads_unique a b b' ks ks' hk _ _ hr hr'⟩

/-- **C115 (f).** An axis outside the array raises, for all of these functions. -/
theorem alongAll_bad_axis {α : Type} [Inhabited α] (f : List α → List α) (axes : List Int) (ax : Int) (hm : ax ∈ axes) (a : Nd α)
    (h : (a.shape.length : Int) ≤ ax ∨ ax < -(a.shape.length : Int)) : a.alongAll f axes = none := by
  induction axes generalizing a with
  | nil => cases hm
  | cons x t ih =>
    simp only [Nd.alongAll, List.foldlM_cons]
    cases hx : normAxis a.shape.length x with
    | none => rfl
    | some k =>
      rw [List.mem_cons] at hm
      rcases hm with rfl | hm
      · unfold normAxis at hx
        rw [if_neg (by omega), if_neg (by omega)] at hx
        cases hx
      · have := ih hm (a.along f k) (by simpa [Nd.along] using h)
        exact this

/-- non-trivial case: the two fermionic axes of a `[w, v, v']` array, counted from the right -/
example : AxesAre 3 [-1, -2] [2, 1] ∧ ∀ k ∈ [2, 1], ([5, 8, 6] : List Nat)[k]? = some (2 * (if k = 1 then 4 else 3)) ∧ 2 ≤ (if k = 1 then 4 else 3) := by
  refine ⟨⟨by decide, ?_⟩, by decide⟩
  exact .cons ⟨by decide, by decide⟩ (.cons ⟨by decide, by decide⟩ .nil)

end DGA.Mf
