/- General facts about the concurrent semantics of `Verif.Spmd.Sem`. -/
import Verif.Spmd.Sem
import Mathlib.Data.Finset.Max
import Mathlib.Algebra.Order.BigOperators.Group.Finset

namespace DGA.Spmd

variable {A W : Type} {L : Lib} {n : Nat} {prog : Nat → List (Act A)} {eff : Nat → A → W → Option W} {w0 : W}

theorem colls_append (l m : List (Act A)) : colls (l ++ m) = colls l ++ colls m := by
  induction l with
  | nil => rfl
  | cons a l ih => cases a <;> simp [colls, ih]

theorem take_succ_of_getElem? {α : Type} {l : List α} {i : Nat} {a : α} (h : l[i]? = some a) :
    l.take (i + 1) = l.take i ++ [a] := by
  rw [List.take_add_one, h]; rfl

theorem colls_take_mono (p : List (Act A)) {i j : Nat} (h : i ≤ j) :
    (colls (p.take i)).length ≤ (colls (p.take j)).length := by
  have : p.take j = p.take i ++ (p.take j).drop i := by
    conv_lhs => rw [← List.take_append_drop i (p.take j)]
    rw [List.take_take, Nat.min_eq_left h]
  rw [this, colls_append]; simp

theorem colls_take_le (p : List (Act A)) (i : Nat) : (colls (p.take i)).length ≤ (colls p).length := by
  conv_rhs => rw [← List.take_append_drop i p, colls_append]
  simp

theorem colls_getElem (p : List (Act A)) {i : Nat} {c : Coll} (h : p[i]? = some (.coll c)) :
    (colls p)[(colls (p.take i)).length]? = some c := by
  have hp : p = p.take i ++ .coll c :: p.drop (i + 1) := by
    have := List.take_append_drop (i + 1) p
    rw [take_succ_of_getElem? h] at this
    simpa using this.symm
  have h2 : colls p = colls (p.take i) ++ c :: colls (p.drop (i + 1)) := by
    conv_lhs => rw [hp, colls_append]
    simp [colls]
  rw [h2]; simp

/-- Invariant of the control states. -/
structure Ctl (L : Lib) (n : Nat) (prog : Nat → List (Act A)) (rk : Nat → Rk) : Prop where
  bound : ∀ r, (rk r).pc ≤ (prog r).length
  inn : ∀ r, (rk r).inside = true → ∃ c, (prog r)[(rk r).pc]? = some (.coll c)
  order : ∀ r < n, ∀ s < n, ∀ k c, (colls (prog r))[k]? = some c → k < left (prog r) (rk r) → L.waits c r s →
    k < entered (prog s) (rk s)

theorem setRk_same (rk : Nat → Rk) (r : Nat) (k : Rk) : setRk rk r k r = k := by simp [setRk]
theorem setRk_other (rk : Nat → Rk) {r s : Nat} (k : Rk) (h : s ≠ r) : setRk rk r k s = rk s := by simp [setRk, h]

theorem left_le_entered (p : List (Act A)) (k : Rk) : left p k ≤ entered p k := by simp [left, entered]

/-- A step of rank `r` keeps the other ranks' control states; its own counters do not decrease. -/
theorem step_cases {st st' : St W} (h : Step L n prog eff st st') :
    ∃ r < n, (∃ k, st'.rk = setRk st.rk r k) ∧
      left (prog r) (st.rk r) ≤ left (prog r) (st'.rk r) ∧
      entered (prog r) (st.rk r) ≤ entered (prog r) (st'.rk r) := by
  cases h with
  | loc r a w' hr hi ha he =>
    refine ⟨r, hr, ⟨_, rfl⟩, ?_, ?_⟩
    · simp only [setRk_same, left]; exact colls_take_mono _ (Nat.le_succ _)
    · simp only [setRk_same, entered, hi]; simpa using colls_take_mono (prog r) (Nat.le_succ (st.rk r).pc)
  | enter r c hr hi ha =>
    refine ⟨r, hr, ⟨_, rfl⟩, ?_, ?_⟩
    · simp [setRk_same, left]
    · simp [setRk_same, entered, hi]
  | leave r c hr hi ha hw =>
    refine ⟨r, hr, ⟨_, rfl⟩, ?_, ?_⟩
    · simp only [setRk_same, left]; exact colls_take_mono _ (Nat.le_succ _)
    · simp only [setRk_same, entered, hi, take_succ_of_getElem? ha, colls_append]; simp [colls]

theorem entered_mono {st st' : St W} (h : Step L n prog eff st st') (s : Nat) :
    entered (prog s) (st.rk s) ≤ entered (prog s) (st'.rk s) := by
  obtain ⟨r, _, ⟨k, hk⟩, _, h2⟩ := step_cases h
  by_cases e : s = r
  · subst e; exact h2
  · rw [hk, setRk_other _ _ e]

theorem ctl_step {st st' : St W} (hc : Ctl L n prog st.rk) (h : Step L n prog eff st st') : Ctl L n prog st'.rk := by
  have hm := entered_mono h
  have hlt : ∀ r a, (prog r)[(st.rk r).pc]? = some a → (st.rk r).pc < (prog r).length := fun r a ha => by
    rcases List.getElem?_eq_some_iff.mp ha with ⟨h, _⟩; exact h
  cases h with
  | loc r a w' hr hi ha he =>
    refine ⟨fun s => ?_, fun s hs => ?_, fun s hs t ht k c hk hl hw => ?_⟩
    · by_cases e : s = r
      · subst e; simp only [setRk_same]; exact hlt _ _ ha
      · simpa [setRk_other _ _ e] using hc.bound s
    · by_cases e : s = r
      · subst e; simp [setRk_same] at hs
      · simpa [setRk_other _ _ e] using hc.inn s (by simpa [setRk_other _ _ e] using hs)
    · refine lt_of_lt_of_le (hc.order s hs t ht k c hk ?_ hw) (hm t)
      by_cases e : s = r
      · subst e
        simp only [setRk_same, left, take_succ_of_getElem? ha, colls_append] at hl
        simpa [colls, left] using hl
      · simpa [setRk_other _ _ e] using hl
  | enter r c hr hi ha =>
    refine ⟨fun s => ?_, fun s hs => ?_, fun s hs t ht k c hk hl hw => ?_⟩
    · by_cases e : s = r
      · subst e; simp only [setRk_same]; exact (hlt _ _ ha).le
      · simpa [setRk_other _ _ e] using hc.bound s
    · by_cases e : s = r
      · subst e; simp only [setRk_same]; exact ⟨c, ha⟩
      · simpa [setRk_other _ _ e] using hc.inn s (by simpa [setRk_other _ _ e] using hs)
    · refine lt_of_lt_of_le (hc.order s hs t ht k c hk ?_ hw) (hm t)
      by_cases e : s = r
      · subst e
        simpa [setRk_same, left] using hl
      · simpa [setRk_other _ _ e] using hl
  | leave r c hr hi ha hw' =>
    refine ⟨fun s => ?_, fun s hs => ?_, fun s hs t ht k c' hk hl hw => ?_⟩
    · by_cases e : s = r
      · subst e; simp only [setRk_same]; exact hlt _ _ ha
      · simpa [setRk_other _ _ e] using hc.bound s
    · by_cases e : s = r
      · subst e; simp [setRk_same] at hs
      · simpa [setRk_other _ _ e] using hc.inn s (by simpa [setRk_other _ _ e] using hs)
    · refine lt_of_lt_of_le ?_ (hm t)
      by_cases e : s = r
      · subst e
        simp only [setRk_same, left, take_succ_of_getElem? ha, colls_append] at hl
        simp only [colls, List.length_append, List.length_cons, List.length_nil] at hl
        rcases Nat.lt_or_eq_of_le (Nat.lt_succ_iff.mp hl) with hlt' | heq
        · exact hc.order s hs t ht k c' hk hlt' hw
        · subst heq
          have := colls_getElem _ ha
          rw [this] at hk
          obtain rfl := Option.some.inj hk
          exact (hw' t ht hw).1
      · refine hc.order s hs t ht k c' hk ?_ hw
        simpa [setRk_other _ _ e] using hl

theorem ctl_reach {st : St W} (h : Reach L n prog eff w0 st) : Ctl L n prog st.rk := by
  induction h with
  | refl => exact ⟨fun r => Nat.zero_le _, fun r h => by simp [start] at h, fun r _ s _ k c _ h => by
      simp [start, left, colls] at h⟩
  | tail _ hs ih => exact ctl_step ih hs

/-- Happens-before: once rank `r` has left its `k`-th collective `c`, a rank it has to wait for in `c` has completed every
    action before its own `k`-th collective. -/
theorem happens_before {st : St W} (h : Reach L n prog eff w0 st) {r s : Nat} (hr : r < n) (hs : s < n) {c c' : Coll}
    {P Q P' Q' : List (Act A)} (hP : prog r = P ++ .coll c :: Q) (hP' : prog s = P' ++ .coll c' :: Q')
    (hk : (colls P).length = (colls P').length) (hw : mustWait c r s) (hpc : P.length < (st.rk r).pc) :
    P'.length ≤ (st.rk s).pc := by
  have hc := ctl_reach h
  have hk1 : (colls (prog r))[(colls P).length]? = some c := by rw [hP, colls_append]; simp [colls]
  have hl : (colls P).length < left (prog r) (st.rk r) := by
    have h1 : (prog r).take (P.length + 1) = P ++ [.coll c] := by
      rw [hP, List.take_append]; simp
    have h2 := colls_take_mono (prog r) (show P.length + 1 ≤ (st.rk r).pc from hpc)
    rw [h1, colls_append] at h2
    simp only [colls, List.length_append, List.length_cons, List.length_nil] at h2
    exact h2
  have he := hc.order r hr s hs _ c hk1 hl (L.std c r s hw)
  by_contra hlt
  push Not at hlt
  have hle : entered (prog s) (st.rk s) ≤ (colls P').length := by
    have hsub : (prog s).take ((st.rk s).pc + 1) = P'.take ((st.rk s).pc + 1) := by
      rw [hP', List.take_append_of_le_length hlt]
    have h3 : (colls ((prog s).take ((st.rk s).pc + 1))).length ≤ (colls P').length := by
      rw [hsub]; exact colls_take_le _ _
    by_cases hi : (st.rk s).inside = true
    · obtain ⟨d, hd⟩ := hc.inn s hi
      rw [take_succ_of_getElem? hd, colls_append] at h3
      simpa [entered, hi, colls] using h3
    · have h4 := colls_take_mono (prog s) (Nat.le_succ (st.rk s).pc)
      simp only [entered, Bool.not_eq_true] at hi ⊢
      rw [hi]
      simp only [Bool.false_eq_true, if_false, Nat.add_zero]
      exact le_trans h4 h3
  omega

/-- Progress: if the ranks agree on their collectives, and the next local action of every rank succeeds, then a state in
    which not every rank has finished has a successor. -/
theorem progress (hm : Matched n prog) {st : St W} (h : Reach L n prog eff w0 st)
    (hok : ∀ r < n, ∀ a, (prog r)[(st.rk r).pc]? = some (.loc a) → ∃ w', eff r a st.w = some w') :
    Done n prog st ∨ ∃ st', Step L n prog eff st st' := by
  classical
  by_cases hd : Done n prog st
  · exact Or.inl hd
  right
  have hc := ctl_reach h
  have hunf : ∃ r < n, (st.rk r).pc ≠ (prog r).length := by
    unfold Done at hd; push Not at hd; exact hd
  -- a rank that is not inside a collective and not finished can move
  by_cases hfree : ∃ r < n, (st.rk r).pc ≠ (prog r).length ∧ (st.rk r).inside = false
  · obtain ⟨r, hr, hne, hi⟩ := hfree
    have hlt : (st.rk r).pc < (prog r).length := lt_of_le_of_ne (hc.bound r) hne
    have hget : (prog r)[(st.rk r).pc]? = some (prog r)[(st.rk r).pc] := List.getElem?_eq_getElem hlt
    cases hx : (prog r)[(st.rk r).pc] with
    | loc a =>
      rw [hx] at hget
      obtain ⟨w', hw'⟩ := hok r hr a hget
      exact ⟨_, Step.loc st r a w' hr hi hget hw'⟩
    | coll c =>
      rw [hx] at hget
      exact ⟨_, Step.enter st r c hr hi hget⟩
  · push Not at hfree
    -- all unfinished ranks are inside; take the one that has entered the fewest collectives
    let U := (Finset.range n).filter fun r => (st.rk r).pc ≠ (prog r).length
    have hU : U.Nonempty := by
      obtain ⟨r, hr, hne⟩ := hunf
      exact ⟨r, by simp [U, hr, hne]⟩
    obtain ⟨r, hrU, hmin⟩ := U.exists_min_image (fun r => entered (prog r) (st.rk r)) hU
    have hrU' : r < n ∧ (st.rk r).pc ≠ (prog r).length := by simpa [U] using hrU
    have hi : (st.rk r).inside = true := by simpa using hfree r hrU'.1 hrU'.2
    obtain ⟨c, hcr⟩ := hc.inn r hi
    have hget := colls_getElem _ hcr
    refine ⟨_, Step.leave st r c hrU'.1 hi hcr ?_⟩
    intro s hs _
    have he : left (prog r) (st.rk r) + 1 = entered (prog r) (st.rk r) := by simp [left, entered, hi]
    refine ⟨?_, by rw [hm s hs r hrU'.1]; exact hget⟩
    by_cases hsf : (st.rk s).pc = (prog s).length
    · have : (colls (prog r)).length ≤ entered (prog s) (st.rk s) := by
        rw [hm r hrU'.1 s hs, entered, hsf, List.take_length]; omega
      have h5 : left (prog r) (st.rk r) < (colls (prog r)).length := by
        rcases List.getElem?_eq_some_iff.mp hget with ⟨h, _⟩; exact h
      omega
    · have := hmin s (by simp [U, hs, hsf])
      omega

/-- Work left. -/
def todo (n : Nat) (prog : Nat → List (Act A)) (st : St W) : Nat :=
  ∑ r ∈ Finset.range n, (2 * (prog r).length - (2 * (st.rk r).pc + if (st.rk r).inside then 1 else 0))

theorem todo_step {st st' : St W} (h : Step L n prog eff st st') :
    todo n prog st' < todo n prog st := by
  have key : ∀ r < n, ∀ k : Rk, st'.rk = setRk st.rk r k →
      2 * (st.rk r).pc + (if (st.rk r).inside then 1 else 0) < 2 * k.pc + (if k.inside then 1 else 0) →
      (st.rk r).pc < (prog r).length → todo n prog st' < todo n prog st := by
    intro r hr k hk hlt hb
    unfold todo
    refine Finset.sum_lt_sum (fun s _ => ?_) ⟨r, by simpa using hr, ?_⟩
    · by_cases e : s = r
      · subst e; rw [hk, setRk_same]; omega
      · rw [hk, setRk_other _ _ e]
    · rw [hk, setRk_same]
      have : (if (st.rk r).inside then 1 else 0) ≤ 1 := by split <;> simp
      omega
  have hlt : ∀ r a, (prog r)[(st.rk r).pc]? = some a → (st.rk r).pc < (prog r).length := fun r a ha => by
    rcases List.getElem?_eq_some_iff.mp ha with ⟨h, _⟩; exact h
  cases h with
  | loc r a w' hr hi ha he => exact key r hr _ rfl (by simp [hi]) (hlt _ _ ha)
  | enter r c hr hi ha => exact key r hr _ rfl (by simp [hi]) (hlt _ _ ha)
  | leave r c hr hi ha hw => exact key r hr _ rfl (by simp only [hi]; simp; omega) (hlt _ _ ha)

theorem steps_reach {m : Nat} {st : St W} (h : Steps L n prog eff m (start w0) st) : Reach L n prog eff w0 st := by
  generalize hs : start w0 = s0 at h
  induction h with
  | nil => subst hs; exact Relation.ReflTransGen.refl
  | cons _ s ih => exact (ih hs).tail s

/-- Every schedule is finite: at most two steps per action of every rank. -/
theorem steps_bounded {m : Nat} {st : St W} (h : Steps L n prog eff m (start w0) st) :
    m ≤ ∑ r ∈ Finset.range n, 2 * (prog r).length := by
  have gen : m + todo n prog st ≤ todo n prog (start w0 : St W) := by
    generalize hs : start w0 = s0 at h
    induction h with
    | nil => subst hs; simp
    | cons h' s ih =>
      have := ih hs
      subst hs
      have := todo_step s
      omega
  have h0 : todo n prog (start w0 : St W) = ∑ r ∈ Finset.range n, 2 * (prog r).length := by
    simp [todo, start]
  omega

/-- A reachable state is reached by some schedule with a definite number of steps. -/
theorem reach_steps {st : St W} (h : Reach L n prog eff w0 st) : ∃ m, Steps L n prog eff m (start w0) st := by
  induction h with
  | refl => exact ⟨0, .nil _⟩
  | tail _ s ih => obtain ⟨m, hm⟩ := ih; exact ⟨m + 1, .cons hm s⟩

end DGA.Spmd
