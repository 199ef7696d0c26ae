/- Helper lemmas for the pairing vertex (not claims). -/
import Verif.Pairing.Model
import Verif.RankFiles.Lemmas2
import Mathlib.Tactic.Ring
import Mathlib.Data.List.Perm.Basic
import Mathlib.Algebra.BigOperators.Group.List.Basic

namespace DGA.Pairing
open DGA.RankFiles DGA.Mpi

/-- explicit diagonal `v - v' = w` -/
def diag (N : Nat) (w : Int) : List (Nat × Nat) :=
  (List.range (N - w.natAbs)).map fun k => (k + w.toNat, k + (-w).toNat)

theorem row_filter (N i : Nat) (w : Int) :
    ((List.range N).filterMap fun j : Nat => if ((i : Int) - (j : Int) == w) then some (i, j) else none) =
      if 0 ≤ (i : Int) - w ∧ (i : Int) - w < N then [(i, ((i : Int) - w).toNat)] else [] := by
  induction N with
  | zero => simp
  | succ N ih =>
    rw [List.range_succ, List.filterMap_append, ih]
    by_cases h : (i : Int) - N = w
    · have h1 : ¬ (0 ≤ (i : Int) - w ∧ (i : Int) - w < N) := by omega
      have h2 : (0 ≤ (i : Int) - w ∧ (i : Int) - w < (N + 1 : Nat)) := by omega
      rw [if_neg h1, if_pos h2]
      have h3 : ((i : Int) - w).toNat = N := by omega
      simp [h, h3]
    · have h2 : (0 ≤ (i : Int) - w ∧ (i : Int) - w < (N + 1 : Nat)) ↔ (0 ≤ (i : Int) - w ∧ (i : Int) - w < N) := by
        omega
      simp only [h2]
      simp [h]

theorem flatMap_eq_nil {α β : Type} (l : List α) (f : α → List β) (h : ∀ a ∈ l, f a = []) : l.flatMap f = [] := by
  induction l with
  | nil => rfl
  | cons a l ih => rw [List.flatMap_cons, h a (by simp), ih (fun a ha => h a (by simp [ha]))]; rfl

theorem flatMap_eq_map {α β : Type} (l : List α) (f : α → List β) (g : α → β) (h : ∀ a ∈ l, f a = [g a]) :
    l.flatMap f = l.map g := by
  induction l with
  | nil => rfl
  | cons a l ih => rw [List.flatMap_cons, h a (by simp), ih (fun a ha => h a (by simp [ha]))]; rfl

theorem positions_diff (N : Nat) (w : Int) :
    positions N (fun i j => (i : Int) - (j : Int) == w) = diag N w := by
  unfold positions
  simp only [row_filter]
  unfold diag
  by_cases hw : 0 ≤ w
  · by_cases hN : w.toNat ≤ N
    · have hr : List.range N = List.range w.toNat ++ (List.range (N - w.natAbs)).map (w.toNat + ·) := by
        rw [← List.range_add]; congr 1; omega
      rw [hr, List.flatMap_append, flatMap_eq_nil, List.nil_append, List.flatMap_map, flatMap_eq_map]
      · intro k hk
        rw [List.mem_range] at hk
        rw [if_pos (by omega)]
        congr 1
        ext <;> simp <;> omega
      · intro i hi; rw [List.mem_range] at hi; rw [if_neg (by omega)]
    · rw [flatMap_eq_nil]
      · have : N - w.natAbs = 0 := by omega
        rw [this]; rfl
      · intro i hi; rw [List.mem_range] at hi; rw [if_neg (by omega)]
  · by_cases hN : w.natAbs ≤ N
    · have hr : List.range N = List.range (N - w.natAbs) ++ (List.range w.natAbs).map (N - w.natAbs + ·) := by
        rw [← List.range_add]; congr 1; omega
      rw [hr, List.flatMap_append, flatMap_eq_nil ((List.range w.natAbs).map _), List.append_nil, flatMap_eq_map]
      · intro k hk
        rw [List.mem_range] at hk
        rw [if_pos (by omega)]
        congr 1
        ext <;> simp <;> omega
      · intro i hi
        rw [List.mem_map] at hi
        obtain ⟨a, ha, rfl⟩ := hi
        rw [List.mem_range] at ha; rw [if_neg (by omega)]
    · rw [flatMap_eq_nil]
      · have : N - w.natAbs = 0 := by omega
        rw [this]; rfl
      · intro i hi; rw [List.mem_range] at hi; rw [if_neg (by omega)]

theorem positions_condition (N nivpp : Nat) (w : Int) : positions N (condition nivpp w) = diag N w := by
  rw [← positions_diff]
  congr 1; funext i j
  unfold condition
  have : ((i : Int) - nivpp) - ((j : Int) - nivpp) = (i : Int) - j := by omega
  rw [this]

theorem positions_conditionT (N nivpp : Nat) (w : Int) :
    positions N (maskT (condition nivpp w)) = (diag N w).map Prod.swap := by
  have : positions N (maskT (condition nivpp w)) = positions N (fun i j => (i : Int) - (j : Int) == -w) := by
    congr 1; funext i j
    unfold maskT condition
    rw [Bool.eq_iff_iff]
    simp only [beq_iff_eq]
    omega
  rw [this, positions_diff]
  unfold diag
  rw [List.map_map]
  simp only [Int.natAbs_neg, Int.neg_neg]
  rfl

theorem mem_diag (N : Nat) (w : Int) (p : Nat × Nat) :
    p ∈ diag N w ↔ p.1 < N ∧ p.2 < N ∧ (p.1 : Int) - p.2 = w := by
  unfold diag
  simp only [List.mem_map, List.mem_range]
  constructor
  · rintro ⟨k, hk, rfl⟩; simp only []; omega
  · rintro ⟨h1, h2, h3⟩
    refine ⟨p.1 - w.toNat, by omega, ?_⟩
    ext <;> simp only [] <;> omega

theorem find_zip_map {γ : Type} (L : List γ) (pos : γ → Nat × Nat) (g : γ → ℂ) (p : Nat × Nat)
    (hinj : ∀ a ∈ L, ∀ b ∈ L, pos a = pos b → a = b) :
    ((L.map pos).zip (L.map g)).find? (fun e => e.1 == p) =
      (L.find? (fun a => pos a == p)).map fun a => (pos a, g a) := by
  induction L with
  | nil => rfl
  | cons a L ih =>
    have ih' := ih (fun x hx y hy => hinj x (by simp [hx]) y (by simp [hy]))
    simp only [List.map_cons, List.zip_cons_cons, List.find?_cons]
    cases h : (pos a == p) with
    | true => rfl
    | false => exact ih'

/-- masked addition of the values taken from the diagonal -/
theorem addMasked_diag (N nivpp : Nat) (arr : Mat2) (w : Int) (g : Nat × Nat → ℂ) :
    ∃ a, addMasked N arr (condition nivpp w) ((diag N w).map g) = some a ∧
      ∀ i j, i < N → j < N → a i j = arr i j + if (i : Int) - j = w then g (i, j) else 0 := by
  unfold addMasked
  rw [positions_condition, if_pos (by simp)]
  refine ⟨_, rfl, ?_⟩
  · intro i j hi hj
    have hz := find_zip_map (diag N w) id g (i, j) (by intros; assumption)
    rw [List.map_id] at hz
    simp only [hz]
    by_cases h : (i : Int) - j = w
    · have hm : (i, j) ∈ diag N w := (mem_diag N w _).mpr ⟨hi, hj, h⟩
      cases hf : List.find? (fun a => id a == (i, j)) (diag N w) with
      | none =>
        rw [List.find?_eq_none] at hf
        exact absurd (by simp) (hf _ hm)
      | some a =>
        have := List.find?_some hf
        simp at this; subst this
        simp [h]
    · have : List.find? (fun a => id a == (i, j)) (diag N w) = none := by
        rw [List.find?_eq_none]
        intro x hx
        have := (mem_diag N w x).mp hx
        simp only [id, beq_iff_eq]
        rintro rfl
        exact h this.2.2
      rw [this]; simp [h]

/-- masked addition at the transposed mask -/
theorem addMasked_diagT (N nivpp : Nat) (arr : Mat2) (w : Int) (g : Nat × Nat → ℂ) :
    ∃ a, addMasked N arr (maskT (condition nivpp w)) ((diag N w).map g) = some a ∧
      ∀ i j, i < N → j < N → a i j = arr i j + if (j : Int) - i = w then g (j, i) else 0 := by
  unfold addMasked
  rw [positions_conditionT, if_pos (by simp)]
  refine ⟨_, rfl, ?_⟩
  · intro i j hi hj
    have hz := find_zip_map (diag N w) Prod.swap g (i, j) (by
      intro a _ b _ h; exact Prod.swap_injective h)
    simp only [hz]
    by_cases h : (j : Int) - i = w
    · have hm : (j, i) ∈ diag N w := (mem_diag N w _).mpr ⟨hj, hi, h⟩
      cases hf : List.find? (fun a => Prod.swap a == (i, j)) (diag N w) with
      | none =>
        rw [List.find?_eq_none] at hf
        exact absurd (by simp) (hf _ hm)
      | some a =>
        have := List.find?_some hf
        rw [beq_iff_eq] at this
        have ha : a = (j, i) := by rw [← Prod.swap_swap a, this]; rfl
        subst ha
        simp [h]
    · have : List.find? (fun a => Prod.swap a == (i, j)) (diag N w) = none := by
        rw [List.find?_eq_none]
        intro x hx
        have hx' := (mem_diag N w x).mp hx
        rw [beq_iff_eq]
        intro he
        have ha : x = (j, i) := by rw [← Prod.swap_swap x, he]; rfl
        subst ha
        exact h hx'.2.2
      rw [this]; simp [h]

/-- value `P(v, v')` the writer extracts at box positions `(i, j)` -/
def pval (niv nivpp : Nat) (mat : Mat2) (i j : Nat) : ℂ := - mat (niv - nivpp + i) (2 * niv - 1 - (niv - nivpp + j))

theorem ppSlice_eq (niv nivpp : Nat) (mat : Mat2) (w : Int) :
    ppSlice niv nivpp mat (condition nivpp w) = (diag (2 * nivpp) w).map fun p => pval niv nivpp mat p.1 p.2 := by
  unfold ppSlice
  rw [positions_condition]
  rfl

/-- payload of the group (q, w) -/
def pvGroup (niv nivpp : Nat) (data : Nat → Int → Mat2) (q : Nat) (w : Int) : PvGroup :=
  { cond := condition nivpp w, vals := ppSlice niv nivpp (data q w) (condition nivpp w) }

/-- frequencies that are written -/
def wnPP (nivpp : Nat) (wn : List Int) : List Int := wn.filter fun w => decide (w.natAbs < 2 * nivpp)

theorem hpv : ∀ c ∈ "pv_".toList, isDigit c = false := by decide

theorem writePairing_eq (niv nivpp : Nat) (tasks : List Nat) (wn : List Int) (loc : Nat → Nat → Mat2)
    (data : Nat → Int → Mat2) (f0 : File PvGroup) (ht : tasks.Nodup) (hw : wn.Nodup)
    (hf0 : ∀ e ∈ f0, "pv_".toList.isPrefixOf e.1 = false) (hf0n : (f0.map (·.1)).Nodup)
    (hloc : ∀ i q, tasks[i]? = some q → ∀ j w, wn[j]? = some w → loc i j = data q w) :
    writePairing niv nivpp tasks wn loc f0 =
      some (f0 ++ entries "pv_".toList tasks (wnPP nivpp wn) (pvGroup niv nivpp data)) := by
  let g : Nat × Nat → Int × Nat → List (Str × PvGroup) := fun x y =>
    if y.1.natAbs < 2 * nivpp then [(groupName "pv_".toList x.1 y.1,
      { cond := condition nivpp y.1, vals := ppSlice niv nivpp (loc x.2 y.2) (condition nivpp y.1) })] else []
  have h1 : writePairing niv nivpp tasks wn loc f0 =
      (tasks.zipIdx.flatMap fun x => wn.zipIdx.flatMap (g x)).foldlM (fun f e => putGroup f e.1 e.2) f0 := by
    rw [← foldlM_flatMap]
    unfold writePairing
    congr 1; funext f x
    rw [← foldlM_flatMap]
    show List.foldlM _ f wn.zipIdx = _
    congr 1; funext f y
    simp only [g]
    split
    · simp [List.foldlM]
    · rfl
  have h2 : (tasks.zipIdx.flatMap fun x => wn.zipIdx.flatMap (g x)) =
      entries "pv_".toList tasks (wnPP nivpp wn) (pvGroup niv nivpp data) := by
    unfold entries
    apply zipIdx_flatMap_aux
    intro i q hq
    rw [zipIdx_flatMap_aux wn 0 _ (fun w => if w.natAbs < 2 * nivpp then
      [(groupName "pv_".toList q w, pvGroup niv nivpp data q w)] else [])]
    · clear hloc hw h1 g
      unfold wnPP
      induction wn with
      | nil => rfl
      | cons w wn ih =>
        rw [List.flatMap_cons, ih, List.filter_cons]
        by_cases h : w.natAbs < 2 * nivpp
        · simp [h]
        · simp [h]
    · intro j w hw
      simp only [g, Nat.zero_add]
      rw [hloc i q hq j w hw]
      rfl
  rw [h1, h2, foldlM_put]
  rw [List.map_append, List.nodup_append]
  refine ⟨hf0n, nodup_keys_entries _ hpv tasks _ _ ht (hw.filter _), ?_⟩
  intro a ha b hb hab
  subst hab
  rw [List.mem_map] at ha hb
  obtain ⟨e, he, rfl⟩ := ha
  obtain ⟨e', he', h⟩ := hb
  have := hf0 e he
  rw [← h] at this
  rw [mem_entries] at he'
  obtain ⟨q, _, w, _, rfl⟩ := he'
  rw [groupName_prefix] at this
  cases this

/-- contribution of the group (q', w) to entry (i, j) of q -/
noncomputable def contrib (niv nivpp : Nat) (data : Nat → Int → Mat2) (q i j : Nat) (x : Nat × Int) : ℂ :=
  if x.1 = q then
    (if (i : Int) - j = x.2 then (1 / 2) * pval niv nivpp (data q x.2) i j else 0) +
    (if (j : Int) - i = x.2 then (1 / 2) * (starRingEnd ℂ) (pval niv nivpp (data q x.2) j i) else 0)
  else 0

theorem loadPvGroup_eq (nq niv nivpp : Nat) (data : Nat → Int → Mat2) (arr : Arr3) (q' : Nat) (w : Int) (hq : q' < nq) :
    ∃ arr', loadPvGroup nq nivpp arr (groupName "pv_".toList q' w, pvGroup niv nivpp data q' w) = some arr' ∧
      ∀ q i j, i < 2 * nivpp → j < 2 * nivpp → arr' q i j = arr q i j + contrib niv nivpp data q i j (q', w) := by
  unfold loadPvGroup
  rw [parse_groupName _ hpv]
  simp only [hq, if_true, pvGroup, ppSlice_eq, List.map_map]
  obtain ⟨a1, h1, h1'⟩ := addMasked_diag (2 * nivpp) nivpp (arr q') w
    ((fun x => (1 / 2 : ℂ) * x) ∘ fun p => pval niv nivpp (data q' w) p.1 p.2)
  obtain ⟨a2, h2, h2'⟩ := addMasked_diagT (2 * nivpp) nivpp a1 w
    ((fun x => (1 / 2 : ℂ) * (starRingEnd ℂ) x) ∘ fun p => pval niv nivpp (data q' w) p.1 p.2)
  rw [h1, Option.bind_some, h2, Option.map_some]
  refine ⟨_, rfl, ?_⟩
  intro q i j hi hj
  unfold contrib
  by_cases h : q' = q
  · subst h
    rw [Function.update_self, h2' i j hi hj, h1' i j hi hj, if_pos rfl]
    simp only [Function.comp]
    ring
  · rw [Function.update_of_ne (Ne.symm h), if_neg h, add_zero]

theorem foldlM_loadPv (nq niv nivpp : Nat) (data : Nat → Int → Mat2) (M : List (Nat × Int)) (arr : Arr3)
    (hM : ∀ x ∈ M, x.1 < nq) :
    ∃ arr', (M.map fun x => (groupName "pv_".toList x.1 x.2, pvGroup niv nivpp data x.1 x.2)).foldlM
        (loadPvGroup nq nivpp) arr = some arr' ∧
      ∀ q i j, i < 2 * nivpp → j < 2 * nivpp →
        arr' q i j = arr q i j + (M.map (contrib niv nivpp data q i j)).sum := by
  induction M generalizing arr with
  | nil => exact ⟨arr, rfl, by simp⟩
  | cons x M ih =>
    obtain ⟨a1, h1, h1'⟩ := loadPvGroup_eq nq niv nivpp data arr x.1 x.2 (hM x (by simp))
    obtain ⟨a2, h2, h2'⟩ := ih a1 (fun y hy => hM y (by simp [hy]))
    refine ⟨a2, ?_, ?_⟩
    · rw [List.map_cons, List.foldlM_cons, h1]; exact h2
    · intro q i j hi hj
      rw [h2' q i j hi hj, h1' q i j hi hj, List.map_cons, List.sum_cons, add_assoc]

def pairs (ts : List Nat) (wn : List Int) : List (Nat × Int) := ts.flatMap fun q => wn.map fun w => (q, w)

theorem entries_eq_map {β : Type} (pre : Str) (ts : List Nat) (wn : List Int) (data : Nat → Int → β) :
    entries pre ts wn data = (pairs ts wn).map fun x => (groupName pre x.1 x.2, data x.1 x.2) := by
  unfold entries pairs
  rw [List.map_flatMap]
  simp [Function.comp_def]

theorem loadPvFile_eq (nq niv nivpp : Nat) (data : Nat → Int → Mat2) (f0 : File PvGroup) (ts : List Nat) (wn : List Int)
    (hf0 : ∀ e ∈ f0, "pv_".toList.isPrefixOf e.1 = false) (hts : ∀ q ∈ ts, q < nq) (arr : Arr3) :
    ∃ arr', ((listGroups (f0 ++ entries "pv_".toList ts wn (pvGroup niv nivpp data))).filter
        fun e => "pv_".toList.isPrefixOf e.1).foldlM (loadPvGroup nq nivpp) arr = some arr' ∧
      ∀ q i j, i < 2 * nivpp → j < 2 * nivpp →
        arr' q i j = arr q i j + ((pairs ts wn).map (contrib niv nivpp data q i j)).sum := by
  let F : Nat × Int → Str × PvGroup := fun x => (groupName "pv_".toList x.1 x.2, pvGroup niv nivpp data x.1 x.2)
  have hF : Function.Injective F := by
    intro x y hxy
    have := congrArg Prod.fst hxy
    have := groupName_inj _ hpv this
    exact Prod.ext this.1 this.2
  let L := (listGroups (f0 ++ entries "pv_".toList ts wn (pvGroup niv nivpp data))).filter
        fun e => "pv_".toList.isPrefixOf e.1
  have hperm : L.Perm ((pairs ts wn).map F) := by
    have h1 : L.Perm ((f0 ++ entries "pv_".toList ts wn (pvGroup niv nivpp data)).filter
        fun e => "pv_".toList.isPrefixOf e.1) := (List.mergeSort_perm _ _).filter _
    have h2 : (f0 ++ entries "pv_".toList ts wn (pvGroup niv nivpp data)).filter
        (fun e => "pv_".toList.isPrefixOf e.1) = (pairs ts wn).map F := by
      rw [List.filter_append, entries_eq_map]
      have h3 : f0.filter (fun e => "pv_".toList.isPrefixOf e.1) = [] := by
        rw [List.filter_eq_nil_iff]; intro e he; rw [hf0 e he]; simp
      rw [h3, List.nil_append, List.filter_eq_self]
      intro e he
      rw [List.mem_map] at he
      obtain ⟨x, _, rfl⟩ := he
      exact groupName_prefix _ _ _
    rw [h2] at h1; exact h1
  obtain ⟨M, hM, _⟩ := exists_preimage F (fun _ => True) L (by
    intro x hx
    obtain ⟨y, _, hy⟩ := List.mem_map.mp (hperm.mem_iff.mp hx)
    exact ⟨y, trivial, hy⟩)
  rw [← hM] at hperm
  have hMp : M.Perm (pairs ts wn) := (List.map_perm_map_iff hF).mp hperm
  obtain ⟨arr', h1, h2⟩ := foldlM_loadPv nq niv nivpp data M arr (by
    intro x hx
    have := hMp.mem_iff.mp hx
    simp only [pairs, List.mem_flatMap, List.mem_map] at this
    obtain ⟨q, hq, w, _, rfl⟩ := this
    exact hts q hq)
  refine ⟨arr', ?_, ?_⟩
  · show L.foldlM (loadPvGroup nq nivpp) arr = _
    rw [← hM]; exact h1
  · intro q i j hi hj
    rw [h2 q i j hi hj, (hMp.map _).sum_eq]

theorem sum_indicator {γ : Type} [DecidableEq γ] (l : List γ) (h : l.Nodup) (a : γ) (f : γ → ℂ) :
    (l.map fun x => if a = x then f x else 0).sum = if a ∈ l then f a else 0 := by
  induction l with
  | nil => simp
  | cons x l ih =>
    rw [List.nodup_cons] at h
    rw [List.map_cons, List.sum_cons, ih h.2]
    by_cases hx : a = x
    · subst hx; simp [h.1]
    · simp [hx]

theorem sum_pairs (ts : List Nat) (wn : List Int) (c : Nat × Int → ℂ) :
    ((pairs ts wn).map c).sum = (ts.map fun q => (wn.map fun w => c (q, w)).sum).sum := by
  unfold pairs
  induction ts with
  | nil => rfl
  | cons q ts ih =>
    rw [List.flatMap_cons, List.map_append, List.sum_append, ih, List.map_cons, List.sum_cons, List.map_map]
    rfl

theorem sum_contrib (niv nivpp : Nat) (data : Nat → Int → Mat2) (ts : List Nat) (wn : List Int) (hw : wn.Nodup)
    (ht : ts.Nodup) (q i j : Nat) (h1 : (i : Int) - j ∈ wn) (h2 : (j : Int) - i ∈ wn) (hq : q ∈ ts) :
    ((pairs ts wn).map (contrib niv nivpp data q i j)).sum =
      (1 / 2) * pval niv nivpp (data q (i - j)) i j +
      (1 / 2) * (starRingEnd ℂ) (pval niv nivpp (data q (j - i)) j i) := by
  rw [sum_pairs]
  have hin : ∀ q', (wn.map fun w => contrib niv nivpp data q i j (q', w)).sum = if q = q' then
      ((1 / 2) * pval niv nivpp (data q (i - j)) i j +
      (1 / 2) * (starRingEnd ℂ) (pval niv nivpp (data q (j - i)) j i)) else 0 := by
    intro q'
    by_cases h : q' = q
    · subst h
      simp only [contrib, if_true]
      rw [List.sum_map_add,
        sum_indicator wn hw ((i : Int) - j) (fun w => (1 / 2) * pval niv nivpp (data q' w) i j),
        sum_indicator wn hw ((j : Int) - i) (fun w => (1 / 2) * (starRingEnd ℂ) (pval niv nivpp (data q' w) j i)),
        if_pos h1, if_pos h2]
    · simp [contrib, h, Ne.symm h]
  simp only [hin]
  rw [sum_indicator ts ht q (fun _ => _), if_pos hq]

theorem pairs_append (a b : List Nat) (wn : List Int) : pairs (a ++ b) wn = pairs a wn ++ pairs b wn := by
  simp [pairs]

theorem loadPvFiles_eq (nq niv nivpp : Nat) (data : Nat → Int → Mat2) (wn : List Int) (files : List (File PvGroup))
    (parts : List (List Nat)) (hl : files.length = parts.length)
    (hf : ∀ (r : Nat) f ts, files[r]? = some f → parts[r]? = some ts → (∀ q ∈ ts, q < nq) ∧
      ∃ f0 : File PvGroup, (∀ e ∈ f0, "pv_".toList.isPrefixOf e.1 = false) ∧
        f = f0 ++ entries "pv_".toList ts wn (pvGroup niv nivpp data)) (arr : Arr3) :
    ∃ arr', files.foldlM (fun arr f => ((listGroups f).filter fun e => "pv_".toList.isPrefixOf e.1).foldlM
        (loadPvGroup nq nivpp) arr) arr = some arr' ∧
      ∀ q i j, i < 2 * nivpp → j < 2 * nivpp →
        arr' q i j = arr q i j + ((pairs parts.flatten wn).map (contrib niv nivpp data q i j)).sum := by
  induction files generalizing parts arr with
  | nil =>
    have : parts = [] := List.length_eq_zero_iff.mp hl.symm
    subst this
    exact ⟨arr, rfl, by simp [pairs]⟩
  | cons f files ih =>
    cases parts with
    | nil => simp at hl
    | cons ts parts =>
      obtain ⟨hts, f0, hf0, rfl⟩ := hf 0 f ts rfl rfl
      obtain ⟨a1, h1, h2⟩ := loadPvFile_eq nq niv nivpp data f0 ts wn hf0 hts arr
      obtain ⟨a2, g1, g2⟩ := ih parts (by simpa using hl)
        (fun r f ts hr hp => hf (r + 1) f ts (by simpa using hr) (by simpa using hp)) a1
      refine ⟨a2, ?_, ?_⟩
      · rw [List.foldlM_cons, h1]; exact g1
      · intro q i j hi hj
        rw [g2 q i j hi hj, h2 q i j hi hj, List.flatten_cons, pairs_append, List.map_append, List.sum_append,
          add_assoc]

end DGA.Pairing
