/- Helper lemmas for the rank files (not claims). -/
import Verif.RankFiles.Model
import Verif.Mpi.Props
import Mathlib.Data.List.Nodup

namespace DGA.RankFiles

theorem digitChar_toNat (d : Nat) (h : d < 10) : (digitChar d).toNat = 48 + d := by
  have : ∀ d : Fin 10, (digitChar d.val).toNat = 48 + d.val := by decide
  exact this ⟨d, h⟩

theorem isDigit_digitChar (d : Nat) (h : d < 10) : isDigit (digitChar d) = true := by
  unfold isDigit; rw [digitChar_toNat d h]; simp; omega

theorem decDigits_all (n : Nat) : ∀ c ∈ decDigits n, isDigit c = true := by
  fun_induction decDigits n with
  | case1 n h => intro c hc; simp at hc; subst hc; exact isDigit_digitChar n h
  | case2 n h ih =>
    intro c hc
    rcases List.mem_append.mp hc with hc | hc
    · exact ih c hc
    · simp at hc; subst hc; exact isDigit_digitChar _ (Nat.mod_lt _ (by omega))

theorem decDigits_ne_nil (n : Nat) : decDigits n ≠ [] := by
  unfold decDigits; split <;> simp

theorem parseDec_append_one (s : Str) (c : Char) : parseDec (s ++ [c]) = 10 * parseDec s + (c.toNat - 48) := by
  simp [parseDec]

theorem parseDec_decDigits (n : Nat) : parseDec (decDigits n) = n := by
  fun_induction decDigits n with
  | case1 n h => simp [parseDec, digitChar_toNat n h]
  | case2 n h ih =>
    rw [parseDec_append_one, ih, digitChar_toNat _ (Nat.mod_lt _ (by omega))]; omega

theorem parseDec_padZero (w : Nat) (s : Str) : parseDec (padZero w s) = parseDec s := by
  unfold padZero
  generalize w - s.length = k
  induction k with
  | zero => simp
  | succ k ih =>
    rw [List.replicate_succ, List.cons_append]
    have : parseDec ('0' :: (List.replicate k '0' ++ s)) = parseDec (List.replicate k '0' ++ s) := by
      simp [parseDec]
    rw [this, ih]

theorem padZero_all (w : Nat) (s : Str) (h : ∀ c ∈ s, isDigit c = true) : ∀ c ∈ padZero w s, isDigit c = true := by
  intro c hc
  rcases List.mem_append.mp hc with hc | hc
  · rw [List.eq_of_mem_replicate hc]; decide
  · exact h c hc

theorem padZero_ne_nil (w : Nat) (s : Str) (h : s ≠ []) : padZero w s ≠ [] := by
  unfold padZero; simp [h]

theorem findDigitsAux_digits (cur ds rest : Str) (h : ∀ c ∈ ds, isDigit c = true) :
    findDigitsAux cur (ds ++ rest) = findDigitsAux (cur ++ ds) rest := by
  induction ds generalizing cur with
  | nil => simp
  | cons d ds ih =>
    have hd := h d (by simp)
    simp only [List.cons_append, findDigitsAux, hd, if_true]
    rw [ih _ (fun c hc => h c (by simp [hc]))]
    simp

theorem findDigitsAux_nondigits (ns rest : Str) (h : ∀ c ∈ ns, isDigit c = false) :
    findDigitsAux [] (ns ++ rest) = findDigitsAux [] rest := by
  induction ns with
  | nil => rfl
  | cons d ds ih =>
    have hd := h d (by simp)
    simp only [List.cons_append, findDigitsAux, hd]
    rw [← ih (fun c hc => h c (by simp [hc]))]
    simp

theorem findDigitsAux_close (cur ns rest : Str) (hcur : cur ≠ []) (hns : ns ≠ []) (h : ∀ c ∈ ns, isDigit c = false) :
    findDigitsAux cur (ns ++ rest) = cur :: findDigitsAux [] rest := by
  cases ns with
  | nil => exact absurd rfl hns
  | cons d ds =>
    have hd := h d (by simp)
    have := findDigitsAux_nondigits ds rest (fun c hc => h c (by simp [hc]))
    simp only [List.cons_append, findDigitsAux, hd]
    rw [this]
    simp [hcur]

/-- unsigned part of the formatted bosonic index -/
def absPart (w : Nat) (i : Int) : Str := if i < 0 then padZero (w - 1) (decDigits i.natAbs) else padZero w (decDigits i.natAbs)

theorem absPart_all (w i) : ∀ c ∈ absPart w i, isDigit c = true := by
  unfold absPart; split <;> exact padZero_all _ _ (decDigits_all _)

theorem absPart_ne_nil (w i) : absPart w i ≠ [] := by
  unfold absPart; split <;> exact padZero_ne_nil _ _ (decDigits_ne_nil _)

theorem parse_absPart (w i) : parseDec (absPart w i) = i.natAbs := by
  unfold absPart; split <;> rw [parseDec_padZero, parseDec_decDigits]

theorem fmtD_nat (w n : Nat) : fmtD w (n : Int) = padZero w (decDigits n) := by
  unfold fmtD; simp; omega

theorem findDigits_groupName (pre : Str) (hpre : ∀ c ∈ pre, isDigit c = false) (iq : Nat) (iw : Int) :
    findDigits (groupName pre iq iw) = [fmtD 3 iq, absPart 4 iw] := by
  have hall3 : ∀ c ∈ fmtD 3 (iq : Int), isDigit c = true := by
    rw [fmtD_nat]; exact padZero_all _ _ (decDigits_all _)
  have hne3 : fmtD 3 (iq : Int) ≠ [] := by rw [fmtD_nat]; exact padZero_ne_nil _ _ (decDigits_ne_nil _)
  have hend : findDigitsAux [] (absPart 4 iw) = [absPart 4 iw] := by
    have := findDigitsAux_digits [] (absPart 4 iw) [] (absPart_all 4 iw)
    rw [List.append_nil] at this
    rw [this]; simp [findDigitsAux, absPart_ne_nil]
  unfold findDigits groupName
  rw [findDigitsAux_nondigits _ _ hpre, findDigitsAux_nondigits _ _ (by decide),
    findDigitsAux_digits _ _ _ hall3, List.nil_append]
  by_cases hneg : iw < 0
  · have hf : fmtD 4 iw = "-".toList ++ absPart 4 iw := by
      unfold fmtD absPart; simp [hneg]
    rw [hf, ← List.append_assoc, findDigitsAux_close _ _ _ hne3 (by simp) (by decide), hend]
  · have hf : fmtD 4 iw = absPart 4 iw := by
      unfold fmtD absPart; simp [hneg]
    rw [hf, findDigitsAux_close _ _ _ hne3 (by simp) (by decide), hend]

theorem parse_groupName (pre : Str) (hpre : ∀ c ∈ pre, isDigit c = false) (iq : Nat) (iw : Int) :
    (findDigits (groupName pre iq iw)).map parseDec = [iq, iw.natAbs] := by
  rw [findDigits_groupName pre hpre]
  simp only [List.map_cons, List.map_nil, parse_absPart]
  rw [fmtD_nat, parseDec_padZero, parseDec_decDigits]

theorem head_absPart (w i) : ∃ c cs, absPart w i = c :: cs ∧ 48 ≤ c.toNat := by
  have h1 := absPart_ne_nil w i
  cases h : absPart w i with
  | nil => exact absurd h h1
  | cons c cs =>
    refine ⟨c, cs, rfl, ?_⟩
    have := absPart_all w i c (by rw [h]; simp)
    unfold isDigit at this; simp at this; exact this.1

theorem fmtD_neg_ne (w : Nat) (k : Nat) (hk : 0 < k) : fmtD w (-(k : Int)) ≠ fmtD w k := by
  obtain ⟨c, cs, h, hc⟩ := head_absPart w (k : Int)
  have h1 : fmtD w (k : Int) = c :: cs := by rw [← h]; unfold fmtD absPart; rfl
  have h2 : ∃ t, fmtD w (-(k : Int)) = '-' :: t := by
    unfold fmtD; rw [if_pos (by omega)]; exact ⟨_, rfl⟩
  obtain ⟨t, h2⟩ := h2
  rw [h1, h2]
  intro he
  injection he with he _
  subst he
  revert hc; decide

theorem groupName_inj (pre : Str) (hpre : ∀ c ∈ pre, isDigit c = false) {q q' : Nat} {w w' : Int}
    (h : groupName pre q w = groupName pre q' w') : q = q' ∧ w = w' := by
  have hp := congrArg (fun s => (findDigits s).map parseDec) h
  simp only [parse_groupName pre hpre] at hp
  injection hp with h1 hp
  injection hp with h2 _
  refine ⟨h1, ?_⟩
  subst h1
  unfold groupName at h
  simp only [List.append_cancel_left_eq] at h
  rcases Int.natAbs_eq_natAbs_iff.mp h2 with e | e
  · exact e
  · by_cases h0 : w' = 0
    · omega
    · exfalso
      by_cases hpos : 0 < w'
      · have := fmtD_neg_ne 4 w'.natAbs (by omega)
        apply this
        have e1 : (w'.natAbs : Int) = w' := by omega
        rw [e1, ← e]; exact h
      · have := fmtD_neg_ne 4 w.natAbs (by omega)
        apply this
        have e1 : (w.natAbs : Int) = w := by omega
        rw [e1]
        have e2 : -w = w' := by omega
        rw [e2]; exact h.symm

theorem strLe_refl (a : Str) : strLe a a = true := by
  induction a with
  | nil => rfl
  | cons a as ih => simp [strLe, ih]

theorem strLe_append (p a b : Str) : strLe (p ++ a) (p ++ b) = strLe a b := by
  induction p with
  | nil => rfl
  | cons c cs ih => simp [strLe, ih]

theorem strLe_total (a b : Str) : (strLe a b || strLe b a) = true := by
  induction a generalizing b with
  | nil => simp [strLe]
  | cons x xs ih =>
    cases b with
    | nil => simp [strLe]
    | cons y ys =>
      have := ih ys
      simp only [strLe, Bool.or_eq_true, Bool.and_eq_true, decide_eq_true_eq, beq_iff_eq] at this ⊢
      rcases Nat.lt_trichotomy x.toNat y.toNat with h | h | h
      · exact Or.inl (Or.inl h)
      · rcases this with t | t
        · exact Or.inl (Or.inr ⟨h, t⟩)
        · exact Or.inr (Or.inr ⟨h.symm, t⟩)
      · exact Or.inr (Or.inl h)

theorem strLe_trans (a b c : Str) : strLe a b = true → strLe b c = true → strLe a c = true := by
  induction a generalizing b c with
  | nil => simp [strLe]
  | cons x xs ih =>
    cases b with
    | nil => simp [strLe]
    | cons y ys =>
      cases c with
      | nil => simp [strLe]
      | cons z zs =>
        simp only [strLe, Bool.or_eq_true, Bool.and_eq_true, decide_eq_true_eq, beq_iff_eq]
        rintro (h1 | ⟨h1, h2⟩) (h3 | ⟨h3, h4⟩)
        · exact Or.inl (by omega)
        · exact Or.inl (by omega)
        · exact Or.inl (by omega)
        · exact Or.inr ⟨by omega, ih _ _ h2 h4⟩

/-- the group of a negative frequency is listed strictly before the group of the positive one -/
theorem strLe_neg (pre : Str) (q k : Nat) (hk : 0 < k) :
    strLe (groupName pre q k) (groupName pre q (-(k : Int))) = false := by
  unfold groupName
  rw [strLe_append, strLe_append, strLe_append, strLe_append]
  obtain ⟨c, cs, h, hc⟩ := head_absPart 4 (k : Int)
  have h1 : fmtD 4 (k : Int) = c :: cs := by rw [← h]; unfold fmtD absPart; rfl
  have h2 : ∃ t, fmtD 4 (-(k : Int)) = '-' :: t := by
    unfold fmtD; rw [if_pos (by omega)]; exact ⟨_, rfl⟩
  obtain ⟨t, h2⟩ := h2
  rw [h1, h2]
  have h45 : '-'.toNat = 45 := by decide
  simp only [strLe, h45]
  have e1 : decide (c.toNat < 45) = false := by simp; omega
  have e2 : (c.toNat == 45) = false := by simp; omega
  rw [e1, e2]; rfl

/-! ### writers -/

theorem foldlM_put {β : Type} (L : List (Str × β)) (f : File β) (h : ((f ++ L).map (·.1)).Nodup) :
    L.foldlM (fun f e => putGroup f e.1 e.2) f = some (f ++ L) := by
  induction L generalizing f with
  | nil => simp
  | cons e L ih =>
    have hput : putGroup f e.1 e.2 = some (f ++ [e]) := by
      unfold putGroup
      rw [if_neg]
      simp only [List.any_eq_true, beq_iff_eq, not_exists, not_and]
      intro x hx hxe
      rw [List.map_append, List.nodup_append] at h
      exact h.2.2 x.1 (List.mem_map_of_mem hx) e.1 (by simp) hxe
    rw [List.foldlM_cons, hput]
    have hb : f ++ e :: L = (f ++ [e]) ++ L := by simp
    show List.foldlM _ (f ++ [e]) L = _
    rw [ih (f ++ [e]) (by rw [← hb]; exact h), ← hb]

theorem foldlM_flatMap {α γ σ : Type} (g : α → List γ) (step : σ → γ → Option σ) (l : List α) (s : σ) :
    l.foldlM (fun s a => (g a).foldlM step s) s = (l.flatMap g).foldlM step s := by
  induction l generalizing s with
  | nil => rfl
  | cons a l ih =>
    rw [List.foldlM_cons, List.flatMap_cons, List.foldlM_append]
    congr 1; funext s'; exact ih s'

/-- the groups one rank writes -/
def entries {β : Type} (pre : Str) (tasks : List Nat) (wn : List Int) (data : Nat → Int → β) : List (Str × β) :=
  tasks.flatMap fun q => wn.map fun w => (groupName pre q w, data q w)

theorem zipIdx_flatMap_aux {β γ : Type} (l : List β) (s : Nat) (g : β × Nat → List γ) (g' : β → List γ)
    (h : ∀ i b, l[i]? = some b → g (b, s + i) = g' b) : (l.zipIdx s).flatMap g = l.flatMap g' := by
  induction l generalizing s with
  | nil => rfl
  | cons b l ih =>
    rw [List.zipIdx_cons, List.flatMap_cons, List.flatMap_cons, show g (b, s) = g' b from h 0 b (by simp), ih]
    intro i c hc
    rw [show s + 1 + i = s + (i + 1) by omega]
    exact h (i + 1) c (by simpa using hc)

theorem zipIdx_map_aux {β γ : Type} (l : List β) (s : Nat) (g : β × Nat → γ) (g' : β → γ)
    (h : ∀ i b, l[i]? = some b → g (b, s + i) = g' b) : (l.zipIdx s).map g = l.map g' := by
  induction l generalizing s with
  | nil => rfl
  | cons b l ih =>
    rw [List.zipIdx_cons, List.map_cons, List.map_cons, show g (b, s) = g' b from h 0 b (by simp), ih]
    intro i c hc
    rw [show s + 1 + i = s + (i + 1) by omega]
    exact h (i + 1) c (by simpa using hc)

theorem nodup_keys_entries {β : Type} (pre : Str) (hpre : ∀ c ∈ pre, isDigit c = false) (tasks : List Nat)
    (wn : List Int) (data : Nat → Int → β) (ht : tasks.Nodup) (hw : wn.Nodup) :
    ((entries pre tasks wn data).map (·.1)).Nodup := by
  unfold entries
  rw [List.map_flatMap]
  simp only [List.map_map]
  induction tasks with
  | nil => simp
  | cons q ts ih =>
    rw [List.flatMap_cons, List.nodup_append]
    rw [List.nodup_cons] at ht
    refine ⟨?_, ih ht.2, ?_⟩
    · refine List.Nodup.map_on ?_ hw
      intro x _ y _ hxy
      exact (groupName_inj pre hpre hxy).2
    · intro a ha b hb hab
      subst hab
      simp only [List.mem_map, Function.comp] at ha
      obtain ⟨w, _, rfl⟩ := ha
      rw [List.mem_flatMap] at hb
      obtain ⟨q', hq', hb⟩ := hb
      simp only [List.mem_map, Function.comp] at hb
      obtain ⟨w', _, he⟩ := hb
      have := (groupName_inj pre hpre he).1
      subst this
      exact ht.1 hq'

theorem groupName_prefix (pre : Str) (q : Nat) (w : Int) : pre.isPrefixOf (groupName pre q w) = true := by
  unfold groupName; rw [List.isPrefixOf_iff_prefix]; exact List.prefix_append _ _

theorem writeVertex_eq {β : Type} (pre : Str) (hpre : ∀ c ∈ pre, isDigit c = false) (tasks : List Nat)
    (wn : List Int) (loc : Nat → Nat → β) (data : Nat → Int → β) (f0 : File β) (ht : tasks.Nodup) (hw : wn.Nodup)
    (hf0 : ∀ e ∈ f0, pre.isPrefixOf e.1 = false) (hf0n : (f0.map (·.1)).Nodup)
    (hloc : ∀ i q, tasks[i]? = some q → ∀ j w, wn[j]? = some w → loc i j = data q w) :
    writeVertex pre tasks wn loc f0 = some (f0 ++ entries pre tasks wn data) := by
  have h1 : writeVertex pre tasks wn loc f0 =
      (tasks.zipIdx.flatMap fun x => wn.zipIdx.map fun y => (groupName pre x.1 y.1, loc x.2 y.2)).foldlM
        (fun f e => putGroup f e.1 e.2) f0 := by
    rw [← foldlM_flatMap]
    unfold writeVertex
    congr 1; funext f x
    rw [List.foldlM_map]
  have h2 : (tasks.zipIdx.flatMap fun x => wn.zipIdx.map fun y => (groupName pre x.1 y.1, loc x.2 y.2)) =
      entries pre tasks wn data := by
    unfold entries
    apply zipIdx_flatMap_aux
    intro i q hq
    apply zipIdx_map_aux
    intro j w hw
    simp only [Nat.zero_add]
    rw [hloc i q hq j w hw]
  rw [h1, h2, foldlM_put]
  rw [List.map_append, List.nodup_append]
  refine ⟨hf0n, nodup_keys_entries pre hpre tasks wn data ht hw, ?_⟩
  intro a ha b hb hab
  subst hab
  rw [List.mem_map] at ha hb
  obtain ⟨e, he, rfl⟩ := ha
  obtain ⟨e', he', h⟩ := hb
  have := hf0 e he
  rw [← h] at this
  simp only [entries, List.mem_flatMap, List.mem_map] at he'
  obtain ⟨q, _, w, _, rfl⟩ := he'
  rw [groupName_prefix] at this
  cases this

/-! ### loaders -/

/-- slot addressed by a group name -/
def slot (niw : Nat) (e : Nat × Int) : Nat × Nat := (e.1, e.2.natAbs + niw)

/-- pure assignment -/
def upd {β : Type} (niw : Nat) (arr : Arr2 β) (e : (Nat × Int) × β) : Arr2 β :=
  fun q' w' => if q' = e.1.1 ∧ w' = e.1.2.natAbs + niw then e.2 else arr q' w'

theorem loadGroup_eq {β : Type} (pre : Str) (hpre : ∀ c ∈ pre, isDigit c = false) (nq niw : Nat) (arr : Arr2 β)
    (q : Nat) (w : Int) (v : β) (hq : q < nq) (hw : w.natAbs ≤ niw) :
    loadGroup nq niw arr (groupName pre q w, v) = some (upd niw arr ((q, w), v)) := by
  unfold loadGroup
  rw [parse_groupName pre hpre]
  simp only [setArr]
  rw [if_pos (by omega)]
  rfl

theorem foldlM_load {β : Type} (pre : Str) (hpre : ∀ c ∈ pre, isDigit c = false) (nq niw : Nat)
    (L : List ((Nat × Int) × β)) (arr : Arr2 β) (h : ∀ e ∈ L, e.1.1 < nq ∧ e.1.2.natAbs ≤ niw) :
    (L.map fun e => (groupName pre e.1.1 e.1.2, e.2)).foldlM (loadGroup nq niw) arr = some (L.foldl (upd niw) arr) := by
  induction L generalizing arr with
  | nil => rfl
  | cons e L ih =>
    have he := h e (by simp)
    rw [List.map_cons, List.foldlM_cons, loadGroup_eq pre hpre nq niw arr _ _ _ he.1 he.2, List.foldl_cons]
    exact ih _ (fun e' h' => h e' (by simp [h']))

/-- a slot no entry addresses keeps its value -/
theorem foldl_upd_other {β : Type} (niw : Nat) (L : List ((Nat × Int) × β)) (arr : Arr2 β) (q w : Nat)
    (h : ∀ e ∈ L, slot niw e.1 ≠ (q, w)) : L.foldl (upd niw) arr q w = arr q w := by
  induction L generalizing arr with
  | nil => rfl
  | cons e L ih =>
    rw [List.foldl_cons, ih _ (fun e' h' => h e' (by simp [h']))]
    have := h e (by simp)
    unfold upd
    rw [if_neg]
    rintro ⟨h1, h2⟩
    exact this (by simp [slot, h1, h2])

/-- the last assignment to a slot wins -/
theorem foldl_upd_last {β : Type} (niw : Nat) (L : List ((Nat × Int) × β)) (arr : Arr2 β) (q w : Nat)
    (P : (Nat × Int) × β → (Nat × Int) × β → Prop) (hs : L.Pairwise P) (e : (Nat × Int) × β) (he : e ∈ L)
    (hslot : slot niw e.1 = (q, w)) (hlast : ∀ e' ∈ L, slot niw e'.1 = (q, w) → e' = e ∨ ¬ P e e') :
    L.foldl (upd niw) arr q w = e.2 := by
  induction L generalizing arr with
  | nil => cases he
  | cons x L ih =>
    rw [List.pairwise_cons] at hs
    rw [List.foldl_cons]
    by_cases hmem : e ∈ L
    · exact ih _ hs.2 hmem (fun e' h' => hlast e' (by simp [h']))
    · have hx : x = e := by
        rcases List.mem_cons.mp he with h | h
        · exact h.symm
        · exact absurd h hmem
      subst hx
      rw [foldl_upd_other]
      · unfold upd
        rw [if_pos]
        simp only [slot, Prod.mk.injEq] at hslot
        exact ⟨hslot.1.symm, hslot.2.symm⟩
      · intro e' h' hsl
        rcases hlast e' (by simp [h']) hsl with h | h
        · subst h; exact hmem h'
        · exact h (hs.1 e' h')

end DGA.RankFiles
