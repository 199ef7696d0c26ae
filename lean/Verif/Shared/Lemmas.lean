/- Helper lemmas for the shared rank file (not claims). -/
import Verif.Shared.Model
import Verif.Pairing.Lemmas
import Verif.RankFiles.Props
import Mathlib.Data.List.Sort

noncomputable section

namespace DGA.Shared

open DGA.RankFiles DGA.Pairing

/-- one pass of a writer loop -/
structure Row (β : Type) where
  g : Str
  v : Bool → DS β
  om : Option Mask

def rowStep {β : Type} (magn : Bool) (f : H5 β) (r : Row β) : Option (H5 β) :=
  (putDs f (r.g, dsName false magn) (r.v false)).bind fun f => (putDs f (r.g, dsName true magn) (r.v true)).bind fun f =>
    match r.om with
    | none => some f
    | some m => if hasDs f (r.g, condName) then some f else putDs f (r.g, condName) (.mask m)

def rowOut {β : Type} (magn c : Bool) (r : Row β) : H5 β :=
  [((r.g, dsName false magn), r.v false), ((r.g, dsName true magn), r.v true)] ++
    match r.om with
    | none => []
    | some m => if c then [((r.g, condName), .mask m)] else []

theorem putDs_new {β : Type} (f : H5 β) (k : Str × Str) (v : DS β) (h : ∀ e ∈ f, e.1 ≠ k) : putDs f k v = some (f ++ [(k, v)]) := by
  unfold putDs
  rw [if_neg]
  simp only [List.any_eq_true, beq_iff_eq, not_exists, not_and]
  exact h

theorem ds_ne (s s' m m' : Bool) : dsName s m = dsName s' m' ↔ s = s' ∧ m = m' := by
  cases s <;> cases s' <;> cases m <;> cases m' <;> decide

theorem ds_ne_cond (s m : Bool) : dsName s m ≠ condName := by
  cases s <;> cases m <;> decide

theorem hasDs_append {β : Type} (f g : H5 β) (k : Str × Str) : hasDs (f ++ g) k = (hasDs f k || hasDs g k) := by
  unfold hasDs; rw [List.any_append]

theorem hasDs_iff {β : Type} (f : H5 β) (k : Str × Str) : hasDs f k = true ↔ ∃ e ∈ f, e.1 = k := by
  unfold hasDs; simp only [List.any_eq_true, beq_iff_eq]

theorem rowStep_eq {β : Type} (magn c : Bool) (f : H5 β) (r : Row β) (h : ∀ e ∈ f, ∀ s, e.1 ≠ (r.g, dsName s magn))
    (hc : r.om.isSome → hasDs f (r.g, condName) = !c) : rowStep magn f r = some (f ++ rowOut magn c r) := by
  unfold rowStep rowOut
  rw [putDs_new f _ _ (fun e he => h e he false), Option.bind_some, putDs_new]
  · rw [Option.bind_some]
    rcases hr : r.om with _ | m
    · simp
    · have hh : hasDs (f ++ [((r.g, dsName false magn), r.v false)] ++ [((r.g, dsName true magn), r.v true)]) (r.g, condName) = !c := by
        rw [hasDs_append, hasDs_append, hc (by simp [hr])]
        have e1 : ∀ s, (hasDs [((r.g, dsName s magn), r.v s)] (r.g, condName)) = false := by
          intro s
          rw [Bool.eq_false_iff, Ne, hasDs_iff]
          rintro ⟨e, he, h2⟩
          rw [List.mem_singleton] at he
          subst he
          simp only [Prod.mk.injEq] at h2
          exact ds_ne_cond _ _ h2.2
        rw [e1 false, e1 true]; simp
      show (if hasDs _ _ = true then _ else _) = _
      rw [hh]
      cases c
      · simp
      · rw [if_neg (by simp), putDs_new]
        · simp
        · intro e he h2
          have : hasDs (f ++ [((r.g, dsName false magn), r.v false)] ++ [((r.g, dsName true magn), r.v true)]) (r.g, condName) = true :=
            (hasDs_iff _ _).2 ⟨e, he, h2⟩
          rw [hh] at this; cases this
  · intro e he
    rw [List.mem_append, List.mem_singleton] at he
    rcases he with he | rfl
    · exact h e he true
    · simp [ds_ne]

theorem rowOut_group {β : Type} (magn c : Bool) (r : Row β) (e) (he : e ∈ rowOut magn c r) : e.1.1 = r.g := by
  unfold rowOut at he
  rw [List.mem_append] at he
  rcases he with he | he
  · simp at he; rcases he with rfl | rfl <;> rfl
  · cases ho : r.om with
    | none => simp [ho] at he
    | some m => cases c <;> simp [ho] at he; subst he; rfl

theorem rows_fold {β : Type} (magn c : Bool) (M : List (Row β)) (f : H5 β) (hM : (M.map (·.g)).Nodup)
    (h : ∀ r ∈ M, ∀ e ∈ f, ∀ s, e.1 ≠ (r.g, dsName s magn)) (hc : ∀ r ∈ M, r.om.isSome → hasDs f (r.g, condName) = !c) :
    M.foldlM (rowStep magn) f = some (f ++ M.flatMap (rowOut magn c)) := by
  induction M generalizing f with
  | nil => simp
  | cons r M ih =>
    rw [List.map_cons, List.nodup_cons] at hM
    have hne : ∀ r' ∈ M, ∀ e ∈ rowOut magn c r, e.1.1 ≠ r'.g := by
      intro r' hr' e he h2
      rw [rowOut_group magn c r e he] at h2
      exact hM.1 (h2 ▸ List.mem_map_of_mem hr')
    rw [List.foldlM_cons, rowStep_eq magn c f r (h r (by simp)) (hc r (by simp))]
    show List.foldlM (rowStep magn) (f ++ rowOut magn c r) M = _
    rw [ih _ hM.2]
    · simp
    · intro r' hr' e he s
      rw [List.mem_append] at he
      rcases he with he | he
      · exact h r' (by simp [hr']) e he s
      · intro h2; exact hne r' hr' e he (by rw [h2])
    · intro r' hr' ho
      rw [hasDs_append, hc r' (by simp [hr']) ho]
      have : hasDs (rowOut magn c r) (r'.g, condName) = false := by
        rw [Bool.eq_false_iff, Ne, hasDs_iff]
        rintro ⟨e, he, h2⟩
        exact hne r' hr' e he (by rw [h2])
      rw [this, Bool.or_false]

/-- the rows one writer loop goes through -/
def rowsOf {β : Type} (pre : Str) (ts : List Nat) (wn : List Int) (V : Bool → Nat → Int → DS β) (om : Int → Option Mask) : List (Row β) :=
  ts.flatMap fun q => wn.map fun w => ⟨groupName pre q w, fun s => V s q w, om w⟩

/-- the names of the groups of one writer -/
def names (pre : Str) (ts : List Nat) (wn : List Int) : List Str := ts.flatMap fun q => wn.map fun w => groupName pre q w

theorem mem_names (pre : Str) (ts : List Nat) (wn : List Int) (n : Str) : n ∈ names pre ts wn ↔ ∃ q ∈ ts, ∃ w ∈ wn, n = groupName pre q w := by
  unfold names
  simp only [List.mem_flatMap, List.mem_map, eq_comm]

theorem rowsOf_names {β : Type} (pre : Str) (ts : List Nat) (wn : List Int) (V : Bool → Nat → Int → DS β) (om : Int → Option Mask) :
    (rowsOf pre ts wn V om).map (·.g) = names pre ts wn := by
  unfold rowsOf names
  rw [List.map_flatMap]
  simp only [List.map_map, Function.comp_def]

theorem entries_names {β : Type} (pre : Str) (ts : List Nat) (wn : List Int) (d : Nat → Int → β) :
    (entries pre ts wn d).map (·.1) = names pre ts wn := by
  unfold entries names
  rw [List.map_flatMap]
  simp only [List.map_map, Function.comp_def]

theorem names_nodup (pre : Str) (hpre : ∀ c ∈ pre, isDigit c = false) (ts : List Nat) (wn : List Int) (ht : ts.Nodup) (hw : wn.Nodup) :
    (names pre ts wn).Nodup := by
  rw [← entries_names pre ts wn (fun _ _ => ())]
  exact nodup_keys_entries pre hpre ts wn _ ht hw

theorem idx_of {α : Type} [DecidableEq α] (l : List α) (h : l.Nodup) (i : Nat) (a : α) (ha : l[i]? = some a) : l.idxOf a = i := by
  obtain ⟨hi, rfl⟩ := List.getElem?_eq_some_iff.mp ha
  exact h.idxOf_getElem i hi

theorem zipIdx_filterMap_aux {γ : Type} (l : List Int) (s : Nat) (keep : Int → Bool) (g : Int × Nat → γ) (g' : Int → γ)
    (h : ∀ i b, l[i]? = some b → g (b, s + i) = g' b) :
    ((l.zipIdx s).filterMap fun y => if keep y.1 then some (g y) else none) = (l.filter keep).map g' := by
  induction l generalizing s with
  | nil => rfl
  | cons b l ih =>
    have ih' := ih (s + 1) (by
      intro i c hc
      rw [show s + 1 + i = s + (i + 1) by omega]
      exact h (i + 1) c (by simpa using hc))
    rw [List.zipIdx_cons, List.filterMap_cons, List.filter_cons]
    cases hk : keep b
    · simpa [hk] using ih'
    · simp only [if_true, List.map_cons, ih']
      rw [show g (b, s) = g' b from h 0 b (by simp)]

theorem writeTwo_rows {β : Type} (pre : Str) (magn : Bool) (ts : List Nat) (wn : List Int) (ht : ts.Nodup) (hw : wn.Nodup) (l : Bool → Nat → Nat → β) (f : H5 β) :
    writeTwo pre magn ts wn l f =
      (rowsOf pre ts wn (fun s q w => .mat (l s (ts.idxOf q) (wn.idxOf w))) fun _ => none).foldlM (rowStep magn) f := by
  have h2 : (rowsOf pre ts wn (fun s q w => DS.mat (l s (ts.idxOf q) (wn.idxOf w))) fun _ => none) =
      ts.zipIdx.flatMap fun x => wn.zipIdx.map fun y => (⟨groupName pre x.1 y.1, fun s => .mat (l s x.2 y.2), none⟩ : Row β) := by
    unfold rowsOf
    symm
    apply zipIdx_flatMap_aux
    intro i q hq
    apply zipIdx_map_aux
    intro j w hw'
    simp only [Nat.zero_add, idx_of ts ht i q hq, idx_of wn hw j w hw']
  rw [h2, ← foldlM_flatMap]
  unfold writeTwo
  congr 1; funext f x
  rw [List.foldlM_map]
  show List.foldlM _ f wn.zipIdx = _
  congr 1; funext f y
  obtain ⟨w, j⟩ := y
  unfold rowStep
  simp only [Option.bind_fun_some]

theorem foldlM_filterMap {α γ σ : Type} (p : α → Bool) (g : α → γ) (step : σ → γ → Option σ) (l : List α) (s : σ) :
    (l.filterMap fun a => if p a then some (g a) else none).foldlM step s = l.foldlM (fun s a => if p a then step s (g a) else some s) s := by
  induction l generalizing s with
  | nil => rfl
  | cons a l ih =>
    rw [List.filterMap_cons, List.foldlM_cons]
    cases h : p a
    · simpa using ih s
    · simp only [if_true, List.foldlM_cons]
      congr 1; funext s'; exact ih s'

theorem writePv_rows {β : Type} (niv npp : Nat) (magn : Bool) (ts : List Nat) (wn : List Int) (ht : ts.Nodup) (hw : wn.Nodup) (l : Bool → Nat → Nat → Mat2) (f : H5 β) :
    writePv niv npp magn ts wn l f =
      (rowsOf "pv_".toList ts (wnPP npp wn) (fun s q w => .vals (ppSlice niv npp (l s (ts.idxOf q) (wn.idxOf w)) (condition npp w)))
        fun w => some (condition npp w)).foldlM (rowStep magn) f := by
  have h2 : (rowsOf "pv_".toList ts (wnPP npp wn) (fun s q w => (DS.vals (ppSlice niv npp (l s (ts.idxOf q) (wn.idxOf w)) (condition npp w)) : DS β))
      fun w => some (condition npp w)) =
      ts.zipIdx.flatMap fun x => wn.zipIdx.filterMap fun y => if decide (y.1.natAbs < 2 * npp) = true then some
        (⟨groupName "pv_".toList x.1 y.1, fun s => .vals (ppSlice niv npp (l s x.2 y.2) (condition npp y.1)), some (condition npp y.1)⟩ : Row β) else none := by
    unfold rowsOf wnPP
    symm
    apply zipIdx_flatMap_aux
    intro i q hq
    apply zipIdx_filterMap_aux wn 0 (fun w => decide (w.natAbs < 2 * npp))
    intro j w hw'
    simp only [Nat.zero_add, idx_of ts ht i q hq, idx_of wn hw j w hw']
  rw [h2, ← foldlM_flatMap]
  unfold writePv
  congr 1; funext f x
  rw [foldlM_filterMap]
  show List.foldlM _ f wn.zipIdx = _
  congr 1; funext f y
  by_cases hy : y.1.natAbs < 2 * npp
  · simp only [hy, decide_true, if_true]; rfl
  · simp only [hy, decide_false, if_false]; rfl

/-! ### the complete file -/

/-- what one writer leaves behind -/
def outOf {β : Type} (magn c : Bool) (pre : Str) (ts : List Nat) (wn : List Int) (V : Bool → Nat → Int → DS β) (om : Int → Option Mask) : H5 β :=
  (rowsOf pre ts wn V om).flatMap (rowOut magn c)

theorem mem_outOf {β : Type} (magn c : Bool) (pre : Str) (ts : List Nat) (wn : List Int) (V : Bool → Nat → Int → DS β) (om : Int → Option Mask) (e) :
    e ∈ outOf magn c pre ts wn V om ↔ ∃ q ∈ ts, ∃ w ∈ wn, (∃ s, e = ((groupName pre q w, dsName s magn), V s q w)) ∨
      ∃ m, om w = some m ∧ c = true ∧ e = ((groupName pre q w, condName), .mask m) := by
  unfold outOf rowsOf
  simp only [List.mem_flatMap, List.mem_map]
  constructor
  · rintro ⟨r, ⟨q, hq, w, hw, rfl⟩, he⟩
    refine ⟨q, hq, w, hw, ?_⟩
    unfold rowOut at he
    rw [List.mem_append] at he
    rcases he with he | he
    · left
      simp only [List.mem_cons, List.not_mem_nil, or_false] at he
      rcases he with he | he
      · exact ⟨false, he⟩
      · exact ⟨true, he⟩
    · right
      simp only at he
      rcases ho : om w with _ | m
      · rw [ho] at he; simp at he
      · rw [ho] at he
        cases c
        · simp at he
        · simp at he; exact ⟨m, rfl, rfl, he⟩
  · rintro ⟨q, hq, w, hw, h⟩
    refine ⟨_, ⟨q, hq, w, hw, rfl⟩, ?_⟩
    unfold rowOut
    rw [List.mem_append]
    rcases h with ⟨s, rfl⟩ | ⟨m, hm, rfl, rfl⟩
    · left; cases s <;> simp
    · right; simp [hm]

/-- data of the three writers as functions of momentum number and frequency -/
def pvV {β : Type} (D : RankData β) (magn s : Bool) (q : Nat) (w : Int) : DS β :=
  .vals (ppSlice D.niv D.npp (D.pv magn s (D.tasks.idxOf q) (D.wn.idxOf w)) (condition D.npp w))
def optV {β : Type} (D : RankData β) (magn s : Bool) (q : Nat) (w : Int) : DS β := .mat (D.opt magn s (D.tasks.idxOf q) (D.wnV.idxOf w))
def fqV {β : Type} (D : RankData β) (magn s : Bool) (q : Nat) (w : Int) : DS β := .mat (D.fq magn s (D.tasks.idxOf q) (D.wn.idxOf w))

def pvPart {β : Type} (fl : Flags) (D : RankData β) (magn : Bool) : H5 β :=
  if fl.pairing then outOf magn (!magn) "pv_".toList D.tasks (wnPP D.npp D.wn) (pvV D magn) (fun w => some (condition D.npp w)) else []
def optPart {β : Type} (fl : Flags) (D : RankData β) (magn : Bool) : H5 β :=
  if fl.vertex then outOf magn (!magn) "f_".toList D.tasks D.wnV (optV D magn) (fun _ => none) else []
def fqPart {β : Type} (fl : Flags) (D : RankData β) (magn : Bool) : H5 β :=
  if fl.fq then outOf magn (!magn) "fq_".toList D.tasks D.wn (fqV D magn) (fun _ => none) else []

/-- one channel -/
def chPart {β : Type} (fl : Flags) (D : RankData β) (magn : Bool) : H5 β := pvPart fl D magn ++ optPart fl D magn ++ fqPart fl D magn

/-- the sizes and lists of a rank are sensible: no momentum and no frequency twice -/
def Ok {β : Type} (D : RankData β) : Prop := D.tasks.Nodup ∧ D.wn.Nodup ∧ D.wnV.Nodup

theorem hf : ∀ c ∈ "f_".toList, isDigit c = false := by decide
theorem hfq : ∀ c ∈ "fq_".toList, isDigit c = false := by decide

/-- one writer appends its part -/
theorem writer_eq {β : Type} (magn : Bool) (pre : Str) (hpre : ∀ c ∈ pre, isDigit c = false) (ts : List Nat) (wn : List Int) (ht : ts.Nodup) (hw : wn.Nodup)
    (V : Bool → Nat → Int → DS β) (om : Int → Option Mask) (f : H5 β)
    (h : ∀ e ∈ f, pre.isPrefixOf e.1.1 = true → ∀ s, e.1.2 ≠ dsName s magn)
    (hc : ∀ q ∈ ts, ∀ w ∈ wn, (om w).isSome → hasDs f (groupName pre q w, condName) = magn) :
    (rowsOf pre ts wn V om).foldlM (rowStep magn) f = some (f ++ outOf magn (!magn) pre ts wn V om) := by
  unfold outOf
  have hm : ∀ r ∈ rowsOf pre ts wn V om, ∃ q ∈ ts, ∃ w ∈ wn, r = ⟨groupName pre q w, fun s => V s q w, om w⟩ := by
    intro r hr
    unfold rowsOf at hr
    simp only [List.mem_flatMap, List.mem_map] at hr
    obtain ⟨q, hq, w, hw, rfl⟩ := hr
    exact ⟨q, hq, w, hw, rfl⟩
  apply rows_fold
  · rw [rowsOf_names]; exact names_nodup pre hpre ts wn ht hw
  · intro r hr e he s h2
    obtain ⟨q, hq, w, hw, rfl⟩ := hm r hr
    have h3 : pre.isPrefixOf e.1.1 = true := by rw [h2]; exact groupName_prefix _ _ _
    exact h e he h3 s (by rw [h2])
  · intro r hr ho
    obtain ⟨q, hq, w, hw, rfl⟩ := hm r hr
    simp only at ho ⊢
    rw [hc q hq w hw ho, Bool.not_not]

theorem outOf_name {β : Type} {magn c : Bool} {pre : Str} {ts : List Nat} {wn : List Int} {V : Bool → Nat → Int → DS β} {om : Int → Option Mask} {e}
    (he : e ∈ outOf magn c pre ts wn V om) : ∃ q ∈ ts, ∃ w ∈ wn, e.1.1 = groupName pre q w ∧ ((∃ s, e.1.2 = dsName s magn) ∨ e.1.2 = condName) := by
  rw [mem_outOf] at he
  obtain ⟨q, hq, w, hw, ⟨s, rfl⟩ | ⟨m, _, _, rfl⟩⟩ := he
  · exact ⟨q, hq, w, hw, rfl, Or.inl ⟨s, rfl⟩⟩
  · exact ⟨q, hq, w, hw, rfl, Or.inr rfl⟩

theorem mem_if {α : Type} {b : Bool} {l : List α} {e : α} (h : e ∈ (if b then l else [])) : b = true ∧ e ∈ l := by
  cases b
  · simp at h
  · exact ⟨rfl, h⟩

theorem other_prefix (pre pre' : Str) (hp : (pre, pre') ∈ [("pv_".toList, "f_".toList), ("pv_".toList, "fq_".toList), ("f_".toList, "pv_".toList),
    ("f_".toList, "fq_".toList), ("fq_".toList, "pv_".toList), ("fq_".toList, "f_".toList)]) (q : Nat) (w : Int) :
    pre.isPrefixOf (groupName pre' q w) = false := by
  obtain ⟨h1, h2, h3, h4, h5, h6⟩ := prefixes_disjoint q w
  simp only [List.mem_cons, Prod.mk.injEq, List.not_mem_nil, or_false] at hp
  rcases hp with ⟨rfl, rfl⟩ | ⟨rfl, rfl⟩ | ⟨rfl, rfl⟩ | ⟨rfl, rfl⟩ | ⟨rfl, rfl⟩ | ⟨rfl, rfl⟩ <;> assumption

theorem pvPart_prefix {β : Type} {fl : Flags} {D : RankData β} {magn : Bool} {e} (he : e ∈ pvPart fl D magn) :
    ∃ q w, e.1.1 = groupName "pv_".toList q w ∧ ((∃ s, e.1.2 = dsName s magn) ∨ e.1.2 = condName) := by
  obtain ⟨q, _, w, _, h⟩ := outOf_name (mem_if he).2
  exact ⟨q, w, h⟩

theorem optPart_prefix {β : Type} {fl : Flags} {D : RankData β} {magn : Bool} {e} (he : e ∈ optPart fl D magn) :
    ∃ q w, e.1.1 = groupName "f_".toList q w ∧ ((∃ s, e.1.2 = dsName s magn) ∨ e.1.2 = condName) := by
  obtain ⟨q, _, w, _, h⟩ := outOf_name (mem_if he).2
  exact ⟨q, w, h⟩

theorem fqPart_prefix {β : Type} {fl : Flags} {D : RankData β} {magn : Bool} {e} (he : e ∈ fqPart fl D magn) :
    ∃ q w, e.1.1 = groupName "fq_".toList q w ∧ ((∃ s, e.1.2 = dsName s magn) ∨ e.1.2 = condName) := by
  obtain ⟨q, _, w, _, h⟩ := outOf_name (mem_if he).2
  exact ⟨q, w, h⟩

/-- a dataset that is not one of the channel `magn` -/
theorem not_ds {d : Str} {magn magn' : Bool} (hne : magn' ≠ magn) (h : (∃ s, d = dsName s magn') ∨ d = condName) (s : Bool) : d ≠ dsName s magn := by
  rintro rfl
  rcases h with ⟨s', h⟩ | h
  · rw [ds_ne] at h; exact hne h.2.symm
  · exact ds_ne_cond _ _ h

/-- A channel appends its part to a file that holds nothing of this channel; the masks are there in the second channel only. -/
theorem writeChannel_eq {β : Type} (fl : Flags) (D : RankData β) (hD : Ok D) (magn : Bool) (f : H5 β)
    (h : ∀ e ∈ f, ∀ s, e.1.2 ≠ dsName s magn)
    (hc : fl.pairing = true → ∀ q ∈ D.tasks, ∀ w ∈ wnPP D.npp D.wn, hasDs f (groupName "pv_".toList q w, condName) = magn) :
    writeChannel fl D magn f = some (f ++ chPart fl D magn) := by
  obtain ⟨ht, hw, hv⟩ := hD
  unfold writeChannel
  have h1 : (if fl.pairing then writePv D.niv D.npp magn D.tasks D.wn (D.pv magn) f else some f) = some (f ++ pvPart fl D magn) := by
    unfold pvPart
    cases hp : fl.pairing
    · simp
    · rw [if_pos rfl, if_pos rfl, writePv_rows D.niv D.npp magn D.tasks D.wn ht hw]
      exact writer_eq magn _ hpv D.tasks (wnPP D.npp D.wn) ht (hw.filter _) (pvV D magn) _ f (fun e he _ s => h e he s) (fun q hq w hw _ => hc hp q hq w hw)
  rw [h1, Option.bind_some]
  have h2 : (if fl.vertex then writeTwo "f_".toList magn D.tasks D.wnV (D.opt magn) (f ++ pvPart fl D magn) else some (f ++ pvPart fl D magn)) =
      some (f ++ pvPart fl D magn ++ optPart fl D magn) := by
    unfold optPart
    cases hp : fl.vertex
    · simp
    · rw [if_pos rfl, if_pos rfl, writeTwo_rows _ magn D.tasks D.wnV ht hv]
      refine writer_eq magn _ hf D.tasks D.wnV ht hv (optV D magn) _ _ ?_ (fun q _ w _ ho => by simp at ho)
      intro e he hpre s
      rw [List.mem_append] at he
      rcases he with he | he
      · exact h e he s
      · obtain ⟨q, w, h3, _⟩ := pvPart_prefix he
        rw [h3, other_prefix _ _ (by simp)] at hpre; cases hpre
  rw [h2, Option.bind_some]
  unfold chPart fqPart
  cases hp : fl.fq
  · simp
  · rw [if_pos rfl, if_pos rfl, writeTwo_rows _ magn D.tasks D.wn ht hw]
    have h4 := writer_eq magn _ hfq D.tasks D.wn ht hw (fqV D magn) (fun _ => none) (f ++ pvPart fl D magn ++ optPart fl D magn) ?_
      (fun q _ w _ ho => by simp at ho)
    · refine h4.trans ?_
      simp
    · intro e he hpre s
      rw [List.mem_append, List.mem_append] at he
      rcases he with (he | he) | he
      · exact h e he s
      · obtain ⟨q, w, h3, _⟩ := pvPart_prefix he
        rw [h3, other_prefix _ _ (by simp)] at hpre; cases hpre
      · obtain ⟨q, w, h3, _⟩ := optPart_prefix he
        rw [h3, other_prefix _ _ (by simp)] at hpre; cases hpre

theorem chPart_ds {β : Type} {fl : Flags} {D : RankData β} {magn : Bool} {e} (he : e ∈ chPart fl D magn) : (∃ s, e.1.2 = dsName s magn) ∨ e.1.2 = condName := by
  unfold chPart at he
  rw [List.mem_append, List.mem_append] at he
  rcases he with (he | he) | he
  · obtain ⟨q, w, _, h⟩ := pvPart_prefix he; exact h
  · obtain ⟨q, w, _, h⟩ := optPart_prefix he; exact h
  · obtain ⟨q, w, _, h⟩ := fqPart_prefix he; exact h

theorem rankFile_eq {β : Type} (fl : Flags) (D : RankData β) (hD : Ok D) : rankFile fl D = some (chPart fl D false ++ chPart fl D true) := by
  unfold rankFile
  rw [writeChannel_eq fl D hD false [] (by simp) (fun _ _ _ _ _ => rfl), Option.bind_some, List.nil_append]
  rw [writeChannel_eq fl D hD true]
  · intro e he s
    exact not_ds (by simp) (chPart_ds he) s
  · intro hp q hq w hw
    rw [hasDs_iff]
    refine ⟨((groupName "pv_".toList q w, condName), .mask (condition D.npp w)), ?_, rfl⟩
    unfold chPart
    rw [List.mem_append, List.mem_append]
    left; left
    unfold pvPart
    rw [if_pos hp, mem_outOf]
    exact ⟨q, hq, w, hw, Or.inr ⟨_, rfl, rfl, rfl⟩⟩

end DGA.Shared
