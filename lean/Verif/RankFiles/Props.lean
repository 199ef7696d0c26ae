/-
  Properties of the rank files (C05, C06).
-/
import Verif.RankFiles.Lemmas2

namespace DGA.RankFiles
open DGA.Mpi

/-! ### C06 — group names -/

/-- C06.  The first number the loaders extract from a group name is the irreducible q index, for every index (also
    with more digits than the padding) and every bosonic index, negative ones included. -/
theorem irrq_recovered (pre : Str) (hpre : ∀ c ∈ pre, isDigit c = false) (q : Nat) (w : Int) :
    ((findDigits (groupName pre q w)).map parseDec)[0]? = some q := by
  rw [parse_groupName pre hpre]; rfl

/-- C06.  Different (q, w) have different group names. -/
theorem groupName_injective (pre : Str) (hpre : ∀ c ∈ pre, isDigit c = false) (q q' : Nat) (w w' : Int)
    (h : groupName pre q w = groupName pre q' w') : q = q' ∧ w = w' := groupName_inj pre hpre h

/-- C06.  The second number is the *absolute value* of the bosonic index: the sign is lost (see C05). -/
theorem wn_recovered_up_to_sign (pre : Str) (hpre : ∀ c ∈ pre, isDigit c = false) (q : Nat) (w : Int) :
    ((findDigits (groupName pre q w)).map parseDec)[1]? = some w.natAbs := by
  rw [parse_groupName pre hpre]; rfl

/-- the three prefixes in use contain no digit, so the hypothesis `hpre` is met -/
example : (∀ c ∈ "fq_".toList, isDigit c = false) ∧ (∀ c ∈ "f_".toList, isDigit c = false) ∧
    (∀ c ∈ "pv_".toList, isDigit c = false) := by decide

/-- Groups of one kind are not picked up by the loader of another kind. -/
theorem prefixes_disjoint (q : Nat) (w : Int) :
    "f_".toList.isPrefixOf (groupName "fq_".toList q w) = false ∧
    "pv_".toList.isPrefixOf (groupName "fq_".toList q w) = false ∧
    "fq_".toList.isPrefixOf (groupName "f_".toList q w) = false ∧
    "pv_".toList.isPrefixOf (groupName "f_".toList q w) = false ∧
    "fq_".toList.isPrefixOf (groupName "pv_".toList q w) = false ∧
    "f_".toList.isPrefixOf (groupName "pv_".toList q w) = false := by
  refine ⟨?_, ?_, ?_, ?_, ?_, ?_⟩ <;>
    simp [groupName, List.isPrefixOf]

/-- Different ranks use different files (any number of ranks, also beyond five digits). -/
theorem rankFileName_injective (path name : Str) (r r' : Nat)
    (h : rankFileName path name r = rankFileName path name r') : r = r' := by
  unfold rankFileName at h
  simp only [List.append_cancel_left_eq, List.append_cancel_right_eq] at h
  rw [fmtD_nat, fmtD_nat] at h
  have := congrArg parseDec h
  rwa [parseDec_padZero, parseDec_padZero, parseDec_decDigits, parseDec_decDigits] at this

example : String.ofList (groupName "fq_".toList 1234 (-12)) = "fq_irrq1234wn-012" := by decide +kernel
example : String.ofList (rankFileName "out/".toList "Q".toList 3) = "out/QRank00003.hdf5" := by decide +kernel

/-! ### C05 — write / load round trip -/

/-- C05, first half: writing never fails (no name clash), for every number of ranks and every previous content of the
    rank files that does not use the prefix. -/
theorem write_succeeds {β : Type} (pre : Str) (hpre : ∀ c ∈ pre, isDigit c = false) (n R niw : Nat) (hR : 0 < R)
    (r : Nat) (ts : List Nat) (hts : myTasks n R r = some ts) (loc : Nat → Nat → β) (f0 : File β)
    (h0 : (f0.map (·.1)).Nodup) (h1 : ∀ e ∈ f0, pre.isPrefixOf e.1 = false) :
    ∃ f, writeVertex pre ts (wnRange niw) loc f0 = some f := by
  have hr : r < R := by
    by_contra hc
    unfold myTasks mySlice at hts
    rw [slices_get? n R r hR] at hts; simp [hc] at hts
  have hnd : ts.Nodup := by
    rw [myTasks_eq n R r hR hr] at hts
    cases hts
    rw [List.Nodup, List.pairwise_map]
    exact List.nodup_range.imp (by intro x y h; omega)
  -- any local array is the restriction of a global one because the tasks and frequencies are distinct
  let data : Nat → Int → β := fun q w => loc (ts.idxOf q) ((wnRange niw).idxOf w)
  refine ⟨_, writeVertex_eq pre hpre ts (wnRange niw) loc data f0 hnd (Py.nodup_arange _ _) h1 h0 ?_⟩
  intro i q hq j w hw
  obtain ⟨hi, rfl⟩ := List.getElem?_eq_some_iff.mp hq
  obtain ⟨hj, rfl⟩ := List.getElem?_eq_some_iff.mp hw
  have hwnd : (wnRange niw).Nodup := Py.nodup_arange _ _
  simp only [data, hnd.idxOf_getElem, hwnd.idxOf_getElem]

/-- The full property C05: after a distributed write the loader returns at `(q, niw + w)` the slice written for
    `(q, w)`, for every `-niw ≤ w ≤ niw`. -/
def LoadsBack (pre : Str) : Prop :=
  ∀ (n R niw : Nat), 0 < R → ∀ (data : Nat → Int → Int) (files : List (File Int)), Written pre n R niw data files →
    ∃ arr, loadVertex pre 0 n niw files = some arr ∧
      ∀ q, q < n → ∀ w : Int, -(niw : Int) ≤ w → w ≤ niw → arr q (niw + w).toNat = data q w

/-- C05 (partial).  The loader succeeds and returns the written slice for every q and every bosonic index `w ≥ 0`.
    Missing: `w < 0` — there the property is false, see `negative_frequencies_lost` and `loadsBack_refuted`. -/
theorem load_nonneg_partial {β : Type} (pre : Str) (hpre : ∀ c ∈ pre, isDigit c = false) (n R niw : Nat) (hR : 0 < R)
    (data : Nat → Int → β) (zero : β) (files : List (File β)) (hw : Written pre n R niw data files) :
    ∃ arr, loadVertex pre zero n niw files = some arr ∧
      ∀ q, q < n → ∀ w : Int, 0 ≤ w → w ≤ niw → arr q (niw + w).toNat = data q w := by
  obtain ⟨arr, h1, h2, _⟩ := load_core pre hpre n R niw hR data zero files hw
  refine ⟨arr, h1, ?_⟩
  intro q hq w h0 hle
  have := h2 q hq w.toNat (by omega)
  rw [show ((w.toNat : Nat) : Int) = w by omega] at this
  rw [← this]; congr 1; omega

/-- C05, what the code does instead: every slot of a negative bosonic index is left at its initial zero. -/
theorem negative_frequencies_lost {β : Type} (pre : Str) (hpre : ∀ c ∈ pre, isDigit c = false) (n R niw : Nat)
    (hR : 0 < R) (data : Nat → Int → β) (zero : β) (files : List (File β)) (hw : Written pre n R niw data files) :
    ∃ arr, loadVertex pre zero n niw files = some arr ∧
      ∀ q w, w < niw → arr q w = zero := by
  obtain ⟨arr, h1, _, h3⟩ := load_core pre hpre n R niw hR data zero files hw
  exact ⟨arr, h1, h3⟩

/-- non-vacuity: one q point, one rank, three bosonic frequencies, vertex value 1 everywhere -/
theorem written_example (pre : Str) (hpre : ∀ c ∈ pre, isDigit c = false) :
    ∃ files : List (File Int), Written pre 1 1 1 (fun _ _ => 1) files := by
  obtain ⟨f, hf⟩ := write_succeeds pre hpre 1 1 1 (by omega) 0 [0] (by decide) (fun _ _ => (1 : Int)) []
    (by simp) (by simp)
  refine ⟨[f], rfl, ?_⟩
  intro r f' hr
  have : r = 0 := by
    have := (List.getElem?_eq_some_iff.mp hr).1; simpa using this
  subst this
  simp at hr; subst hr
  exact ⟨[0], fun _ _ => 1, [], by decide, by simp, by simp, by simp, hf⟩

/-- C05 is false of the code: the round trip loses the negative bosonic frequencies. -/
theorem loadsBack_refuted (pre : Str) (hpre : ∀ c ∈ pre, isDigit c = false) : ¬ LoadsBack pre := by
  intro h
  obtain ⟨files, hw⟩ := written_example pre hpre
  obtain ⟨arr, h1, h2⟩ := h 1 1 1 (by omega) (fun _ _ => 1) files hw
  obtain ⟨arr', h3, h4⟩ := negative_frequencies_lost pre hpre 1 1 1 (by omega) (fun _ _ => (1 : Int)) 0 files hw
  rw [h1] at h3
  injection h3 with h3; subst h3
  have e1 := h2 0 (by omega) (-1) (by omega) (by omega)
  have e2 := h4 0 0 (by omega)
  simp at e1
  rw [e2] at e1; cases e1

end DGA.RankFiles
