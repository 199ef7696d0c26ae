/-
  C137: properties of the shared rank file.
-/
import Verif.Shared.Lemmas
import Mathlib.Data.List.Dedup

noncomputable section

namespace DGA.Shared

open DGA.RankFiles DGA.Pairing

/-! ### nothing collides -/

/-- C137.  Whatever of the three outputs is asked for, no rank tries to create a dataset that exists: the files of all ranks are written. -/
theorem shared_written {β : Type} (fl : Flags) (Ds : List (RankData β)) (hD : ∀ D ∈ Ds, Ok D) : ∃ files, rankFiles fl Ds = some files := by
  refine ⟨Ds.map fun D => chPart fl D false ++ chPart fl D true, ?_⟩
  unfold rankFiles
  induction Ds with
  | nil => rfl
  | cons D Ds ih =>
    rw [List.mapM_cons, rankFile_eq fl D (hD D (by simp)), ih (fun D h => hD D (by simp [h]))]
    rfl

/-! ### looking up datasets -/

theorem putDs_nodup {β : Type} (f f' : H5 β) (k : Str × Str) (v : DS β) (h : (f.map (·.1)).Nodup) (hp : putDs f k v = some f') : (f'.map (·.1)).Nodup := by
  unfold putDs at hp
  split at hp
  · cases hp
  · rename_i hn
    rw [← Option.some.inj hp, List.map_append, List.nodup_append]
    refine ⟨h, by simp, ?_⟩
    intro a ha b hb hab
    simp only [List.map_cons, List.map_nil, List.mem_singleton] at hb
    subst hab; subst hb
    rw [List.mem_map] at ha
    obtain ⟨e, he, hek⟩ := ha
    apply hn
    rw [List.any_eq_true]
    exact ⟨e, he, by simpa using hek⟩

theorem foldlM_inv {σ α : Type} (P : σ → Prop) (step : σ → α → Option σ) (hs : ∀ s a s', P s → step s a = some s' → P s') (l : List α) (s s' : σ) (h : P s)
    (hl : l.foldlM step s = some s') : P s' := by
  induction l generalizing s with
  | nil => cases hl; exact h
  | cons a l ih =>
    rw [List.foldlM_cons] at hl
    cases h1 : step s a with
    | none => rw [h1] at hl; cases hl
    | some t => rw [h1] at hl; exact ih t (hs s a t h h1) hl

theorem bind_inv {σ : Type} (P : σ → Prop) {x : Option σ} {g : σ → Option σ} {s' : σ} (h : x.bind g = some s') (hx : ∀ s, x = some s → P s)
    (hg : ∀ s, P s → g s = some s' → P s') : P s' := by
  cases x with
  | none => cases h
  | some s => exact hg s (hx s rfl) h

theorem writeTwo_nodup {β : Type} (pre : Str) (magn : Bool) (ts : List Nat) (wn : List Int) (l : Bool → Nat → Nat → β) (f f' : H5 β)
    (h : (f.map (·.1)).Nodup) (hw : writeTwo pre magn ts wn l f = some f') : (f'.map (·.1)).Nodup := by
  unfold writeTwo at hw
  refine foldlM_inv (fun f : H5 β => (f.map (·.1)).Nodup) _ ?_ _ _ _ h hw
  intro s a s' hs h1
  refine foldlM_inv (fun f : H5 β => (f.map (·.1)).Nodup) _ ?_ _ _ _ hs h1
  intro s a s' hs h1
  exact bind_inv (fun f : H5 β => (f.map (·.1)).Nodup) h1 (fun t ht => putDs_nodup _ _ _ _ hs ht) (fun t ht h2 => putDs_nodup _ _ _ _ ht h2)

theorem writePv_nodup {β : Type} (niv npp : Nat) (magn : Bool) (ts : List Nat) (wn : List Int) (l : Bool → Nat → Nat → Mat2) (f f' : H5 β)
    (h : (f.map (·.1)).Nodup) (hw : writePv niv npp magn ts wn l f = some f') : (f'.map (·.1)).Nodup := by
  unfold writePv at hw
  refine foldlM_inv (fun f : H5 β => (f.map (·.1)).Nodup) _ ?_ _ _ _ h hw
  intro s a s' hs h1
  refine foldlM_inv (fun f : H5 β => (f.map (·.1)).Nodup) _ ?_ _ _ _ hs h1
  intro s a s' hs h1
  simp only at h1
  split at h1
  · refine bind_inv (fun f : H5 β => (f.map (·.1)).Nodup) h1 (fun t ht => putDs_nodup _ _ _ _ hs ht) (fun t ht h2 => ?_)
    refine bind_inv (fun f : H5 β => (f.map (·.1)).Nodup) h2 (fun t' ht' => putDs_nodup _ _ _ _ ht ht') (fun t' ht' h3 => ?_)
    split at h3
    · cases h3; exact ht'
    · exact putDs_nodup _ _ _ _ ht' h3
  · cases h1; exact hs

theorem writeChannel_nodup {β : Type} (fl : Flags) (D : RankData β) (magn : Bool) (f f' : H5 β) (h : (f.map (·.1)).Nodup)
    (hw : writeChannel fl D magn f = some f') : (f'.map (·.1)).Nodup := by
  unfold writeChannel at hw
  refine bind_inv (fun f : H5 β => (f.map (·.1)).Nodup) hw (fun t ht => ?_) (fun t ht h2 => ?_)
  · split at ht
    · exact writePv_nodup _ _ _ _ _ _ _ _ h ht
    · cases ht; exact h
  · refine bind_inv (fun f : H5 β => (f.map (·.1)).Nodup) h2 (fun t' ht' => ?_) (fun t' ht' h3 => ?_)
    · split at ht'
      · exact writeTwo_nodup _ _ _ _ _ _ _ ht ht'
      · cases ht'; exact ht
    · split at h3
      · exact writeTwo_nodup _ _ _ _ _ _ _ ht' h3
      · cases h3; exact ht'

/-- the file of one rank -/
def fileOf {β : Type} (fl : Flags) (D : RankData β) : H5 β := chPart fl D false ++ chPart fl D true

theorem fileOf_nodup {β : Type} (fl : Flags) (D : RankData β) (hD : Ok D) : ((fileOf fl D).map (·.1)).Nodup := by
  have h := rankFile_eq fl D hD
  unfold rankFile at h
  exact bind_inv (fun f : H5 β => (f.map (·.1)).Nodup) h (fun t ht => writeChannel_nodup fl D false [] t (by simp) ht)
    (fun t ht h2 => writeChannel_nodup fl D true t _ ht h2)

theorem getDs_mem {β : Type} (f : H5 β) (h : (f.map (·.1)).Nodup) (k : Str × Str) (v : DS β) (hm : (k, v) ∈ f) : getDs f k = some v := by
  unfold getDs
  induction f with
  | nil => cases hm
  | cons e f ih =>
    rw [List.map_cons, List.nodup_cons] at h
    rw [List.find?_cons]
    rw [List.mem_cons] at hm
    rcases hm with rfl | hm
    · simp
    · have : (e.1 == k) = false := by
        rw [beq_eq_false_iff_ne]
        rintro rfl
        exact h.1 (List.mem_map_of_mem (f := fun x => x.1) hm)
      rw [this]
      exact ih h.2 hm

/-! ### the order of the groups -/

theorem strLe_antisymm (a b : Str) : strLe a b = true → strLe b a = true → a = b := by
  induction a generalizing b with
  | nil => cases b with
    | nil => simp
    | cons c cs => simp [strLe]
  | cons c cs ih => cases b with
    | nil => simp [strLe]
    | cons d ds =>
      simp only [strLe, Bool.or_eq_true, decide_eq_true_eq, Bool.and_eq_true, beq_iff_eq]
      intro h1 h2
      have hcd : c.toNat = d.toNat := by omega
      have hc : c = d := Char.toNat_inj.mp hcd
      subst hc
      rw [ih ds (h1.resolve_left (by omega)).2 (h2.resolve_left (by omega)).2]

theorem sorted_eq (l l' : List Str) (h : l.Pairwise fun a b => strLe a b = true) (h' : l'.Pairwise fun a b => strLe a b = true) (hn : l.Nodup) (hn' : l'.Nodup)
    (hm : ∀ x, x ∈ l ↔ x ∈ l') : l = l' := by
  have hp : l.Perm l' := (List.perm_ext_iff_of_nodup hn hn').2 hm
  exact hp.eq_of_pairwise (fun a b _ _ h1 h2 => strLe_antisymm a b h1 h2) h h'

/-- names in order -/
def sortedNames (pre : Str) (ts : List Nat) (wn : List Int) : List Str := (names pre ts wn).mergeSort strLe

theorem sortedNames_sorted (pre : Str) (ts : List Nat) (wn : List Int) : (sortedNames pre ts wn).Pairwise fun a b => strLe a b = true :=
  List.pairwise_mergeSort (fun a b c => strLe_trans a b c) (fun a b => strLe_total a b) _

theorem mem_sortedNames (pre : Str) (ts : List Nat) (wn : List Int) (n : Str) : n ∈ sortedNames pre ts wn ↔ n ∈ names pre ts wn :=
  (List.mergeSort_perm _ _).mem_iff

theorem sortedNames_nodup (pre : Str) (hpre : ∀ c ∈ pre, isDigit c = false) (ts : List Nat) (wn : List Int) (ht : ts.Nodup) (hw : wn.Nodup) :
    (sortedNames pre ts wn).Nodup := (List.mergeSort_perm _ _).nodup_iff.2 (names_nodup pre hpre ts wn ht hw)

/-- the groups a loader of the prefix visits in the shared file -/
theorem keys_filter {β : Type} (pre : Str) (hpre : ∀ c ∈ pre, isDigit c = false) (ts : List Nat) (wn : List Int) (ht : ts.Nodup) (hw : wn.Nodup) (f : H5 β)
    (hin : ∀ n ∈ names pre ts wn, ∃ e ∈ f, e.1.1 = n) (hout : ∀ e ∈ f, pre.isPrefixOf e.1.1 = true → e.1.1 ∈ names pre ts wn) :
    (keys f).filter (fun k => pre.isPrefixOf k) = sortedNames pre ts wn := by
  apply sorted_eq
  · exact (List.pairwise_mergeSort (fun a b c => strLe_trans a b c) (fun a b => strLe_total a b) _).filter _
  · exact sortedNames_sorted pre ts wn
  · exact ((List.mergeSort_perm _ _).nodup_iff.2 (List.nodup_dedup _)).filter _
  · exact sortedNames_nodup pre hpre ts wn ht hw
  · intro x
    unfold keys
    rw [List.mem_filter, (List.mergeSort_perm _ _).mem_iff, List.mem_dedup, List.mem_map, mem_sortedNames]
    constructor
    · rintro ⟨⟨e, he, rfl⟩, hx⟩
      exact hout e he hx
    · intro hx
      refine ⟨hin x hx, ?_⟩
      rw [mem_names] at hx
      obtain ⟨q, _, w, _, rfl⟩ := hx
      exact groupName_prefix _ _ _

/-- the groups of a file with one payload per group -/
theorem listGroups_names {β : Type} (pre : Str) (hpre : ∀ c ∈ pre, isDigit c = false) (ts : List Nat) (wn : List Int) (ht : ts.Nodup) (hw : wn.Nodup)
    (d : Nat → Int → β) : ((listGroups (entries pre ts wn d)).filter fun e => pre.isPrefixOf e.1).map (·.1) = sortedNames pre ts wn := by
  have hp : ((listGroups (entries pre ts wn d)).filter fun e => pre.isPrefixOf e.1) = listGroups (entries pre ts wn d) := by
    rw [List.filter_eq_self]
    intro e he
    unfold listGroups at he
    rw [(List.mergeSort_perm _ _).mem_iff, mem_entries] at he
    obtain ⟨q, _, w, _, rfl⟩ := he
    exact groupName_prefix _ _ _
  rw [hp]
  have hperm : ((listGroups (entries pre ts wn d)).map (·.1)).Perm (names pre ts wn) := by
    rw [← entries_names pre ts wn d]
    exact (List.mergeSort_perm _ _).map _
  apply sorted_eq
  · unfold listGroups
    rw [List.pairwise_map]
    exact List.pairwise_mergeSort (fun a b c => strLe_trans a.1 b.1 c.1) (fun a b => strLe_total a.1 b.1) _
  · exact sortedNames_sorted pre ts wn
  · exact hperm.nodup_iff.2 (names_nodup pre hpre ts wn ht hw)
  · exact sortedNames_nodup pre hpre ts wn ht hw
  · intro x
    rw [hperm.mem_iff, mem_sortedNames]

/-- a loop over the groups with one payload as a loop over the names with a lookup -/
theorem fold_lookup {β σ : Type} (L : List (Str × β)) (look : Str → Option β) (step : σ → Str × β → Option σ) (h : ∀ e ∈ L, look e.1 = some e.2) (s : σ) :
    L.foldlM step s = (L.map (·.1)).foldlM (fun s n => (look n).bind fun v => step s (n, v)) s := by
  induction L generalizing s with
  | nil => rfl
  | cons e L ih =>
    rw [List.map_cons, List.foldlM_cons, List.foldlM_cons, h e (by simp), Option.bind_some]
    congr 1; funext s'
    exact ih (fun e he => h e (by simp [he])) s'

theorem single_fold {β σ : Type} (pre : Str) (hpre : ∀ c ∈ pre, isDigit c = false) (ts : List Nat) (wn : List Int) (ht : ts.Nodup) (hw : wn.Nodup)
    (d : Nat → Int → β) (look : Str → Option β) (step : σ → Str × β → Option σ) (h : ∀ q ∈ ts, ∀ w ∈ wn, look (groupName pre q w) = some (d q w)) (s : σ) :
    ((listGroups (entries pre ts wn d)).filter fun e => pre.isPrefixOf e.1).foldlM step s =
      (sortedNames pre ts wn).foldlM (fun s n => (look n).bind fun v => step s (n, v)) s := by
  rw [← listGroups_names pre hpre ts wn ht hw d]
  apply fold_lookup
  intro e he
  rw [List.mem_filter] at he
  unfold listGroups at he
  rw [(List.mergeSort_perm _ _).mem_iff, mem_entries] at he
  obtain ⟨⟨q, hq, w, hw, rfl⟩, _⟩ := he
  exact h q hq w hw

/-! ### four loops in one -/

theorem fold4 {α γ : Type} (step : Four α → γ → Option (Four α)) (s1 s2 s3 s4 : α → γ → Option α) (l : List γ)
    (h : ∀ A, ∀ n ∈ l, step A n = opt4 (s1 A.f1m n) (s2 A.f2m n) (s3 A.f1d n) (s4 A.f2d n)) (A : Four α) :
    l.foldlM step A = opt4 (l.foldlM s1 A.f1m) (l.foldlM s2 A.f2m) (l.foldlM s3 A.f1d) (l.foldlM s4 A.f2d) := by
  induction l generalizing A with
  | nil => rfl
  | cons n l ih =>
    simp only [List.foldlM_cons]
    rw [h A n (by simp)]
    have ih' := ih (fun A n hn => h A n (by simp [hn]))
    cases h1 : s1 A.f1m n with
    | none => rfl
    | some a =>
      cases h2 : s2 A.f2m n with
      | none => simp [opt4]
      | some b =>
        cases h3 : s3 A.f1d n with
        | none => simp [opt4]
        | some c =>
          cases h4 : s4 A.f2d n with
          | none => simp [opt4]
          | some d => exact ih' ⟨a, b, c, d⟩

theorem loadKey_eq {β : Type} (nq niw : Nat) (f : H5 β) (A : Four (Arr2 β)) (n : Str) :
    loadKey nq niw f A n = opt4 ((getMat f (n, dsName false true)).bind fun v => loadGroup nq niw A.f1m (n, v))
      ((getMat f (n, dsName true true)).bind fun v => loadGroup nq niw A.f2m (n, v))
      ((getMat f (n, dsName false false)).bind fun v => loadGroup nq niw A.f1d (n, v))
      ((getMat f (n, dsName true false)).bind fun v => loadGroup nq niw A.f2d (n, v)) := by
  unfold loadKey loadGroup
  simp only
  rcases (findDigits n).map parseDec with _ | ⟨q, _ | ⟨w, r⟩⟩
  · cases getMat f (n, dsName false true) <;> rfl
  · cases getMat f (n, dsName false true) <;> rfl
  · simp only
    cases getMat f (n, dsName false true) with
    | none => rfl
    | some v1 =>
      simp only [Option.bind_some]
      cases setArr nq (2 * niw + 1) A.f1m q (w + niw) v1 with
      | none => rfl
      | some a =>
        simp only [Option.bind_some, opt4]
        cases getMat f (n, dsName true false) with
        | none => simp
        | some v2 =>
          simp only [Option.bind_some]
          cases setArr nq (2 * niw + 1) A.f2d q (w + niw) v2 with
          | none => simp
          | some b =>
            simp only [Option.bind_some]
            cases getMat f (n, dsName false false) with
            | none => simp
            | some v3 =>
              simp only [Option.bind_some]
              cases setArr nq (2 * niw + 1) A.f1d q (w + niw) v3 with
              | none => simp
              | some c => simp only [Option.bind_some, Option.bind_assoc]

theorem addAt_two (npp : Nat) (arr : Arr3) (q : Nat) (m m' : Mask) (v v' : List ℂ) :
    ((addAt npp arr q m v).bind fun a => addAt npp a q m' v') =
      (addMasked (2 * npp) (arr q) m v).bind fun a1 => (addMasked (2 * npp) a1 m' v').map fun a2 => Function.update arr q a2 := by
  unfold addAt
  cases addMasked (2 * npp) (arr q) m v with
  | none => rfl
  | some a1 =>
    simp only [Option.map_some, Option.bind_some, Function.update_self]
    cases addMasked (2 * npp) a1 m' v' with
    | none => rfl
    | some a2 => simp

theorem loadPvGroup_two (nq npp : Nat) (arr : Arr3) (n : Str) (m : Mask) (v : List ℂ) (q : Nat) (r : List Nat) (hq : (findDigits n).map parseDec = q :: r) :
    loadPvGroup nq npp arr (n, ⟨m, v⟩) = if q < nq then (addAt npp arr q m (v.map fun x => (1 / 2 : ℂ) * x)).bind fun a =>
      addAt npp a q (maskT m) (v.map fun x => (1 / 2 : ℂ) * (starRingEnd ℂ) x) else none := by
  unfold loadPvGroup
  simp only [hq, addAt_two]

/-- what the pairing loader reads for one component of a group -/
def pvLook {β : Type} (f : H5 β) (s magn : Bool) (n : Str) : Option PvGroup :=
  (getMask f (n, condName)).bind fun m => (getVals f (n, dsName s magn)).map fun v => (⟨m, v⟩ : PvGroup)

theorem loadPvKey_eq {β : Type} (nq npp : Nat) (f : H5 β) (A : Four Arr3) (n : Str) :
    loadPvKey nq npp f A n =
      opt4 ((pvLook f false true n).bind fun v => loadPvGroup nq npp A.f1m (n, v)) ((pvLook f true true n).bind fun v => loadPvGroup nq npp A.f2m (n, v))
        ((pvLook f false false n).bind fun v => loadPvGroup nq npp A.f1d (n, v)) ((pvLook f true false n).bind fun v => loadPvGroup nq npp A.f2d (n, v)) := by
  unfold loadPvKey pvLook
  cases hm : getMask f (n, condName) with
  | none => rcases (findDigits n).map parseDec with _ | ⟨q, r⟩ <;> rfl
  | some m =>
    generalize getVals f (n, dsName false true) = g1
    generalize getVals f (n, dsName true false) = g2
    generalize getVals f (n, dsName false false) = g3
    generalize getVals f (n, dsName true true) = g4
    rcases hq : (findDigits n).map parseDec with _ | ⟨q, r⟩
    · have : ∀ (arr : Arr3) (g : PvGroup), loadPvGroup nq npp arr (n, g) = none := by
        intro arr g; unfold loadPvGroup; simp only [hq]
      cases g1 with
      | none => rfl
      | some v => simp only [Option.bind_some, Option.map_some, this]; rfl
    · by_cases hlt : q < nq
      · show (if q < nq then _ else none) = _
        rw [if_pos hlt]
        cases g1 with
        | none => rfl
        | some v1 =>
          cases g2 with
          | none => simp [opt4]
          | some v2 =>
            cases g3 with
            | none => simp [opt4]
            | some v3 =>
              cases g4 with
              | none => simp [opt4]
              | some v4 =>
                simp only [Option.bind_some, Option.map_some, loadPvGroup_two nq npp _ n m _ q r hq, if_pos hlt]
                generalize (addAt npp A.f1m q m (v1.map fun x => (1 / 2 : ℂ) * x)) = x1
                generalize (addAt npp A.f2d q m (v2.map fun x => (1 / 2 : ℂ) * x)) = x2
                generalize (addAt npp A.f1d q m (v3.map fun x => (1 / 2 : ℂ) * x)) = x3
                generalize (addAt npp A.f2m q m (v4.map fun x => (1 / 2 : ℂ) * x)) = x4
                rcases x1 with _ | a1
                · rfl
                rcases x2 with _ | a2
                · simp [opt4]
                rcases x3 with _ | a3
                · simp [opt4]
                rcases x4 with _ | a4
                · simp [opt4]
                simp only [Option.bind_some, opt4]
      · have : ∀ (arr : Arr3) (g : PvGroup), loadPvGroup nq npp arr (n, g) = none := by
          intro arr g; rw [loadPvGroup_two nq npp arr n g.cond g.vals q r hq, if_neg hlt]
        show (if q < nq then _ else none) = _
        rw [if_neg hlt]
        cases g1 with
        | none => rfl
        | some v => simp only [Option.map_some, Option.bind_some, this]; rfl

/-! ### the loaders on the shared files -/

theorem mem_fileOf {β : Type} (fl : Flags) (D : RankData β) (e) : e ∈ fileOf fl D ↔ ∃ magn, e ∈ pvPart fl D magn ∨ e ∈ optPart fl D magn ∨ e ∈ fqPart fl D magn := by
  unfold fileOf chPart
  simp only [List.mem_append, Bool.exists_bool, or_assoc]

theorem opt_in {β : Type} (fl : Flags) (h : fl.vertex = true) (D : RankData β) (magn s : Bool) (q : Nat) (hq : q ∈ D.tasks) (w : Int) (hw : w ∈ D.wnV) :
    ((groupName "f_".toList q w, dsName s magn), optV D magn s q w) ∈ fileOf fl D := by
  rw [mem_fileOf]
  refine ⟨magn, Or.inr (Or.inl ?_)⟩
  unfold optPart
  rw [if_pos h, mem_outOf]
  exact ⟨q, hq, w, hw, Or.inl ⟨s, rfl⟩⟩

theorem fq_in {β : Type} (fl : Flags) (h : fl.fq = true) (D : RankData β) (magn s : Bool) (q : Nat) (hq : q ∈ D.tasks) (w : Int) (hw : w ∈ D.wn) :
    ((groupName "fq_".toList q w, dsName s magn), fqV D magn s q w) ∈ fileOf fl D := by
  rw [mem_fileOf]
  refine ⟨magn, Or.inr (Or.inr ?_)⟩
  unfold fqPart
  rw [if_pos h, mem_outOf]
  exact ⟨q, hq, w, hw, Or.inl ⟨s, rfl⟩⟩

theorem pv_in {β : Type} (fl : Flags) (h : fl.pairing = true) (D : RankData β) (magn s : Bool) (q : Nat) (hq : q ∈ D.tasks) (w : Int) (hw : w ∈ wnPP D.npp D.wn) :
    ((groupName "pv_".toList q w, dsName s magn), pvV D magn s q w) ∈ fileOf fl D ∧
    ((groupName "pv_".toList q w, condName), DS.mask (condition D.npp w)) ∈ fileOf fl D := by
  constructor
  · rw [mem_fileOf]
    refine ⟨magn, Or.inl ?_⟩
    unfold pvPart
    rw [if_pos h, mem_outOf]
    exact ⟨q, hq, w, hw, Or.inl ⟨s, rfl⟩⟩
  · rw [mem_fileOf]
    refine ⟨false, Or.inl ?_⟩
    unfold pvPart
    rw [if_pos h, mem_outOf]
    exact ⟨q, hq, w, hw, Or.inr ⟨_, rfl, rfl, rfl⟩⟩

theorem keys_opt {β : Type} (fl : Flags) (h : fl.vertex = true) (D : RankData β) (hD : Ok D) :
    (keys (fileOf fl D)).filter (fun k => "f_".toList.isPrefixOf k) = sortedNames "f_".toList D.tasks D.wnV := by
  apply keys_filter _ hf _ _ hD.1 hD.2.2
  · intro n hn
    rw [mem_names] at hn
    obtain ⟨q, hq, w, hw, rfl⟩ := hn
    exact ⟨_, opt_in fl h D true true q hq w hw, rfl⟩
  · intro e he hp
    rw [mem_fileOf] at he
    obtain ⟨magn, he | he | he⟩ := he
    · obtain ⟨q, w, h3, _⟩ := pvPart_prefix he
      rw [h3, other_prefix _ _ (by simp)] at hp; cases hp
    · obtain ⟨q, hq, w, hw, h3, _⟩ := outOf_name (mem_if he).2
      rw [mem_names]; exact ⟨q, hq, w, hw, h3⟩
    · obtain ⟨q, w, h3, _⟩ := fqPart_prefix he
      rw [h3, other_prefix _ _ (by simp)] at hp; cases hp

theorem keys_fq {β : Type} (fl : Flags) (h : fl.fq = true) (D : RankData β) (hD : Ok D) :
    (keys (fileOf fl D)).filter (fun k => "fq_".toList.isPrefixOf k) = sortedNames "fq_".toList D.tasks D.wn := by
  apply keys_filter _ hfq _ _ hD.1 hD.2.1
  · intro n hn
    rw [mem_names] at hn
    obtain ⟨q, hq, w, hw, rfl⟩ := hn
    exact ⟨_, fq_in fl h D true true q hq w hw, rfl⟩
  · intro e he hp
    rw [mem_fileOf] at he
    obtain ⟨magn, he | he | he⟩ := he
    · obtain ⟨q, w, h3, _⟩ := pvPart_prefix he
      rw [h3, other_prefix _ _ (by simp)] at hp; cases hp
    · obtain ⟨q, w, h3, _⟩ := optPart_prefix he
      rw [h3, other_prefix _ _ (by simp)] at hp; cases hp
    · obtain ⟨q, hq, w, hw, h3, _⟩ := outOf_name (mem_if he).2
      rw [mem_names]; exact ⟨q, hq, w, hw, h3⟩

theorem keys_pv {β : Type} (fl : Flags) (h : fl.pairing = true) (D : RankData β) (hD : Ok D) :
    (keys (fileOf fl D)).filter (fun k => "pv_".toList.isPrefixOf k) = sortedNames "pv_".toList D.tasks (wnPP D.npp D.wn) := by
  apply keys_filter _ hpv _ _ hD.1 (hD.2.1.filter _)
  · intro n hn
    rw [mem_names] at hn
    obtain ⟨q, hq, w, hw, rfl⟩ := hn
    exact ⟨_, (pv_in fl h D true true q hq w hw).1, rfl⟩
  · intro e he hp
    rw [mem_fileOf] at he
    obtain ⟨magn, he | he | he⟩ := he
    · obtain ⟨q, hq, w, hw, h3, _⟩ := outOf_name (mem_if he).2
      rw [mem_names]; exact ⟨q, hq, w, hw, h3⟩
    · obtain ⟨q, w, h3, _⟩ := optPart_prefix he
      rw [h3, other_prefix _ _ (by simp)] at hp; cases hp
    · obtain ⟨q, w, h3, _⟩ := fqPart_prefix he
      rw [h3, other_prefix _ _ (by simp)] at hp; cases hp

theorem files_eq {β : Type} (fl : Flags) (Ds : List (RankData β)) (hD : ∀ D ∈ Ds, Ok D) : rankFiles fl Ds = some (Ds.map (fileOf fl)) := by
  unfold rankFiles
  induction Ds with
  | nil => rfl
  | cons D Ds ih =>
    rw [List.mapM_cons, rankFile_eq fl D (hD D (by simp)), ih (fun D h => hD D (by simp [h]))]
    rfl

theorem mapM_some' {α γ : Type} (l : List α) (f : α → Option γ) (g : α → γ) (h : ∀ a ∈ l, f a = some (g a)) : l.mapM f = some (l.map g) := by
  induction l with
  | nil => rfl
  | cons a l ih => rw [List.mapM_cons, h a (by simp), ih (fun a ha => h a (by simp [ha]))]; rfl

/-- one component of one kind in files of its own: the model of C05, C07, C130, C133 -/
def ownVertex {β : Type} (pre : Str) (zero : β) (nq niw : Nat) (Ds : List (RankData β)) (wn : RankData β → List Int) (l : RankData β → Nat → Nat → β) :
    Option (Arr2 β) := (Ds.mapM fun D => writeVertex pre D.tasks (wn D) (l D) []).bind (loadVertex pre zero nq niw)

/-- one component of the pairing slices in files of its own (C07, C130) -/
def ownPairing {β : Type} (nq npp : Nat) (Ds : List (RankData β)) (magn second : Bool) : Option Arr3 :=
  (Ds.mapM fun D => writePairing D.niv D.npp D.tasks D.wn (D.pv magn second) []).bind (loadPairing nq npp)

theorem own_eq {β : Type} (pre : Str) (hpre : ∀ c ∈ pre, isDigit c = false) (zero : β) (nq niw : Nat) (Ds : List (RankData β)) (wn : RankData β → List Int)
    (hD : ∀ D ∈ Ds, D.tasks.Nodup ∧ (wn D).Nodup) (l : RankData β → Nat → Nat → β) :
    ownVertex pre zero nq niw Ds wn l = Ds.foldlM (fun a D =>
      ((listGroups (entries pre D.tasks (wn D) fun q w => l D (D.tasks.idxOf q) ((wn D).idxOf w))).filter fun e => pre.isPrefixOf e.1).foldlM (loadGroup nq niw) a)
      (fun _ _ => zero) := by
  unfold ownVertex
  rw [mapM_some' Ds _ (fun D => entries pre D.tasks (wn D) fun q w => l D (D.tasks.idxOf q) ((wn D).idxOf w)) ?_, Option.bind_some]
  · unfold loadVertex
    rw [List.foldlM_map]
    rfl
  · intro D hm
    rw [writeVertex_eq pre hpre D.tasks (wn D) (l D) (fun q w => l D (D.tasks.idxOf q) ((wn D).idxOf w)) [] (hD D hm).1 (hD D hm).2 (by simp) (by simp)]
    · rfl
    · intro i q hq j w hw
      simp only [idx_of _ (hD D hm).1 i q hq, idx_of _ (hD D hm).2 j w hw]

theorem ownPairing_eq {β : Type} (nq npp : Nat) (Ds : List (RankData β)) (hD : ∀ D ∈ Ds, Ok D) (magn second : Bool) :
    ownPairing nq npp Ds magn second = Ds.foldlM (fun a D =>
      ((listGroups (entries "pv_".toList D.tasks (wnPP D.npp D.wn) (pvGroup D.niv D.npp fun q w => D.pv magn second (D.tasks.idxOf q) (D.wn.idxOf w)))).filter
        fun e => "pv_".toList.isPrefixOf e.1).foldlM (loadPvGroup nq npp) a) (fun _ _ _ => 0) := by
  unfold ownPairing
  rw [mapM_some' Ds _ (fun D => entries "pv_".toList D.tasks (wnPP D.npp D.wn) (pvGroup D.niv D.npp fun q w => D.pv magn second (D.tasks.idxOf q) (D.wn.idxOf w))) ?_,
    Option.bind_some]
  · unfold loadPairing
    rw [List.foldlM_map]
  · intro D hm
    rw [writePairing_eq D.niv D.npp D.tasks D.wn (D.pv magn second) (fun q w => D.pv magn second (D.tasks.idxOf q) (D.wn.idxOf w)) [] (hD D hm).1 (hD D hm).2.1
      (by simp) (by simp)]
    · rfl
    · intro i q hq j w hw
      simp only [idx_of _ (hD D hm).1 i q hq, idx_of _ (hD D hm).2.1 j w hw]

/-- loading from the shared files: the general argument -/
theorem load4_eq {β : Type} (pre : Str) (hpre : ∀ c ∈ pre, isDigit c = false) (zero : β) (nq niw : Nat) (fl : Flags) (Ds : List (RankData β)) (hD : ∀ D ∈ Ds, Ok D)
    (wn : RankData β → List Int) (hwn : ∀ D ∈ Ds, (wn D).Nodup) (l : RankData β → Bool → Bool → Nat → Nat → β)
    (hk : ∀ D ∈ Ds, (keys (fileOf fl D)).filter (fun k => pre.isPrefixOf k) = sortedNames pre D.tasks (wn D))
    (hin : ∀ D ∈ Ds, ∀ magn s, ∀ q ∈ D.tasks, ∀ w ∈ wn D, ((groupName pre q w, dsName s magn), DS.mat (l D magn s (D.tasks.idxOf q) ((wn D).idxOf w))) ∈ fileOf fl D) :
    (rankFiles fl Ds).bind (load4 pre zero nq niw) =
      opt4 (ownVertex pre zero nq niw Ds wn fun D => l D true false) (ownVertex pre zero nq niw Ds wn fun D => l D true true)
        (ownVertex pre zero nq niw Ds wn fun D => l D false false) (ownVertex pre zero nq niw Ds wn fun D => l D false true) := by
  have hD' : ∀ D ∈ Ds, D.tasks.Nodup ∧ (wn D).Nodup := fun D h => ⟨(hD D h).1, hwn D h⟩
  rw [files_eq fl Ds hD, Option.bind_some, own_eq pre hpre zero nq niw Ds wn hD', own_eq pre hpre zero nq niw Ds wn hD',
    own_eq pre hpre zero nq niw Ds wn hD', own_eq pre hpre zero nq niw Ds wn hD']
  unfold load4
  rw [List.foldlM_map]
  refine fold4 _ _ _ _ _ Ds ?_ _
  intro A D hm
  have hs : ∀ (magn s : Bool) (a : Arr2 β),
      ((listGroups (entries pre D.tasks (wn D) fun q w => l D magn s (D.tasks.idxOf q) ((wn D).idxOf w))).filter fun e => pre.isPrefixOf e.1).foldlM
        (loadGroup nq niw) a = (sortedNames pre D.tasks (wn D)).foldlM (fun a n => (getMat (fileOf fl D) (n, dsName s magn)).bind fun v => loadGroup nq niw a (n, v)) a := by
    intro magn s a
    apply single_fold pre hpre D.tasks (wn D) (hD D hm).1 (hwn D hm) _ (fun n => getMat (fileOf fl D) (n, dsName s magn))
    intro q hq w hw
    unfold getMat
    rw [getDs_mem _ (fileOf_nodup fl D (hD D hm)) _ _ (hin D hm magn s q hq w hw)]
  rw [hs true false, hs true true, hs false false, hs false true, hk D hm]
  refine fold4 _ _ _ _ _ _ ?_ A
  intro A n _
  exact loadKey_eq nq niw (fileOf fl D) A n

/-- C137.  The optics loader finds in the shared files, in all four components, what it would find in files holding this component alone, whether or not the
    pairing vertex and the full vertex are written into the same files: groups and channels do not get mixed up. -/
theorem shared_optics {β : Type} (fl : Flags) (h : fl.vertex = true) (zero : β) (nq niw : Nat) (Ds : List (RankData β)) (hD : ∀ D ∈ Ds, Ok D) :
    (rankFiles fl Ds).bind (load4 "f_".toList zero nq niw) =
      opt4 (ownVertex "f_".toList zero nq niw Ds (·.wnV) fun D => D.opt true false) (ownVertex "f_".toList zero nq niw Ds (·.wnV) fun D => D.opt true true)
        (ownVertex "f_".toList zero nq niw Ds (·.wnV) fun D => D.opt false false) (ownVertex "f_".toList zero nq niw Ds (·.wnV) fun D => D.opt false true) :=
  load4_eq _ hf zero nq niw fl Ds hD (·.wnV) (fun D hm => (hD D hm).2.2) (fun D => D.opt) (fun D hm => keys_opt fl h D (hD D hm))
    (fun D _ magn s q hq w hw => opt_in fl h D magn s q hq w hw)

/-- C137.  The same for the full ladder vertex (`save_fq`). -/
theorem shared_fq {β : Type} (fl : Flags) (h : fl.fq = true) (zero : β) (nq niw : Nat) (Ds : List (RankData β)) (hD : ∀ D ∈ Ds, Ok D) :
    (rankFiles fl Ds).bind (load4 "fq_".toList zero nq niw) =
      opt4 (ownVertex "fq_".toList zero nq niw Ds (·.wn) fun D => D.fq true false) (ownVertex "fq_".toList zero nq niw Ds (·.wn) fun D => D.fq true true)
        (ownVertex "fq_".toList zero nq niw Ds (·.wn) fun D => D.fq false false) (ownVertex "fq_".toList zero nq niw Ds (·.wn) fun D => D.fq false true) :=
  load4_eq _ hfq zero nq niw fl Ds hD (·.wn) (fun D hm => (hD D hm).2.1) (fun D => D.fq) (fun D hm => keys_fq fl h D (hD D hm))
    (fun D _ magn s q hq w hw => fq_in fl h D magn s q hq w hw)

/-- C137.  The same for the slices of the pairing vertex; the mask is written by the density channel only and serves both. -/
theorem shared_pairing {β : Type} (fl : Flags) (h : fl.pairing = true) (nq npp : Nat) (Ds : List (RankData β)) (hD : ∀ D ∈ Ds, Ok D) :
    (rankFiles fl Ds).bind (loadPv4 nq npp) =
      opt4 (ownPairing nq npp Ds true false) (ownPairing nq npp Ds true true) (ownPairing nq npp Ds false false) (ownPairing nq npp Ds false true) := by
  rw [files_eq fl Ds hD, Option.bind_some, ownPairing_eq nq npp Ds hD, ownPairing_eq nq npp Ds hD, ownPairing_eq nq npp Ds hD, ownPairing_eq nq npp Ds hD]
  unfold loadPv4
  rw [List.foldlM_map]
  refine fold4 _ _ _ _ _ Ds ?_ _
  intro A D hm
  have hs : ∀ (magn s : Bool) (a : Arr3),
      ((listGroups (entries "pv_".toList D.tasks (wnPP D.npp D.wn) (pvGroup D.niv D.npp fun q w => D.pv magn s (D.tasks.idxOf q) (D.wn.idxOf w)))).filter
        fun e => "pv_".toList.isPrefixOf e.1).foldlM (loadPvGroup nq npp) a =
      (sortedNames "pv_".toList D.tasks (wnPP D.npp D.wn)).foldlM (fun a n => (pvLook (fileOf fl D) s magn n).bind fun v => loadPvGroup nq npp a (n, v)) a := by
    intro magn s a
    apply single_fold _ hpv D.tasks (wnPP D.npp D.wn) (hD D hm).1 ((hD D hm).2.1.filter _) _ (pvLook (fileOf fl D) s magn)
    intro q hq w hw
    obtain ⟨h1, h2⟩ := pv_in fl h D magn s q hq w hw
    unfold pvLook getMask getVals
    rw [getDs_mem _ (fileOf_nodup fl D (hD D hm)) _ _ h1, getDs_mem _ (fileOf_nodup fl D (hD D hm)) _ _ h2]
    rfl
  rw [hs true false, hs true true, hs false false, hs false true, keys_pv fl h D (hD D hm)]
  refine fold4 _ _ _ _ _ _ ?_ A
  intro A n _
  exact loadPvKey_eq nq npp (fileOf fl D) A n

end DGA.Shared
