import Verif.Paths.Model
import Verif.RankFiles.Lemmas
import Mathlib.Order.Interval.Finset.Nat
import Mathlib.Tactic.Push
import Mathlib.Tactic.Ring

/-
  C41: `uniquify` and the creation of output folders.
-/

namespace DGA.Paths

open DGA.RankFiles (Str decDigits decDigits_all isDigit parseDec parseDec_decDigits)

/-! ### specification -/

/-- What is assumed of the operating system's path resolution: a trailing slash does not matter (the
    path of the root folder, a single slash, is not an empty path with a trailing slash), and two different proper
    names in one directory are two different entries. -/
structure PathSem {K : Type} (res : Str → K) : Prop where
  trailing : ∀ p, p ≠ [] → res (p ++ ['/']) = res p
  names : ∀ (dir s s' : Str), (dir = [] ∨ dir.getLast? = some '/') → '/' ∉ s → '/' ∉ s' → s ∉ [[], ['.'], ['.', '.']] →
    s' ∉ [[], ['.'], ['.', '.']] → res (dir ++ s) = res (dir ++ s') → s = s'

/-! ### string lemmas -/

theorem rfind_ge (c : Char) (s : Str) : -1 ≤ rfind c s := by
  induction s with
  | nil => simp [rfind]
  | cons x xs ih => unfold rfind; split <;> [omega; (split <;> omega)]

theorem rfind_lt (c : Char) (s : Str) : rfind c s < s.length := by
  induction s with
  | nil => simp [rfind]
  | cons x xs ih => unfold rfind; simp only [List.length_cons]; split <;> [omega; (split <;> omega)]

/-- nothing after the last occurrence -/
theorem not_mem_drop_rfind (c : Char) (s : Str) (n : Nat) (h : rfind c s < n) : c ∉ s.drop n := by
  induction s generalizing n with
  | nil => simp
  | cons x xs ih =>
    unfold rfind at h
    cases n with
    | zero =>
      have := rfind_ge c xs
      by_cases h0 : 0 ≤ rfind c xs
      · rw [if_pos h0] at h; omega
      · rw [if_neg h0] at h
        by_cases hx : x = c
        · rw [if_pos hx] at h; simp at h
        · intro hm
          rw [List.drop_zero, List.mem_cons] at hm
          rcases hm with hm | hm
          · exact hx hm.symm
          · exact ih 0 (by omega) (by simpa using hm)
    | succ n =>
      rw [List.drop_succ_cons]
      apply ih
      by_cases h0 : 0 ≤ rfind c xs
      · rw [if_pos h0] at h; omega
      · omega

theorem take_getLast_rfind (c : Char) (s : Str) : s.take (rfind c s + 1).toNat = [] ∨
    (s.take (rfind c s + 1).toNat).getLast? = some c := by
  induction s with
  | nil => simp
  | cons x xs ih =>
    unfold rfind
    by_cases h0 : 0 ≤ rfind c xs
    · rw [if_pos h0]
      right
      rw [show (rfind c xs + 1 + 1).toNat = (rfind c xs + 1).toNat + 1 by omega, List.take_succ_cons]
      rcases ih with h | h
      · exfalso
        have := congrArg List.length h
        have := rfind_lt c xs
        simp only [List.length_take, List.length_nil] at *
        omega
      · rw [List.getLast?_cons, h]; rfl
    · rw [if_neg h0]
      by_cases hx : x = c
      · right; rw [if_pos hx]; simp [hx]
      · left; rw [if_neg hx]; simp

theorem decDigits_no_slash (n : Nat) : '/' ∉ decDigits n := by
  intro h; have := decDigits_all n _ h; simp [isDigit] at this

/-- `filename + extension` is the path. -/
theorem splitext_append (p : Str) : (splitext p).1 ++ (splitext p).2 = p := by
  unfold splitext; split <;> simp

/-- the file name is a directory part (empty or ending in a slash) and a last component without slash, and there is no
    slash in the extension -/
theorem splitext_parts (p : Str) : ∃ dir base, (splitext p).1 = dir ++ base ∧ (dir = [] ∨ dir.getLast? = some '/') ∧
    '/' ∉ base ∧ '/' ∉ (splitext p).2 := by
  have hsl := not_mem_drop_rfind '/' p (rfind '/' p + 1).toNat (by have := rfind_ge '/' p; omega)
  unfold splitext
  split
  · next h =>
    have hd : (rfind '/' p + 1).toNat ≤ (rfind '.' p).toNat := by have := rfind_ge '/' p; omega
    refine ⟨p.take (rfind '/' p + 1).toNat, (p.take (rfind '.' p).toNat).drop (rfind '/' p + 1).toNat, ?_,
      take_getLast_rfind _ _, ?_, ?_⟩
    · have := List.take_append_drop (rfind '/' p + 1).toNat (p.take (rfind '.' p).toNat)
      rw [List.take_take, min_eq_left hd] at this
      exact this.symm
    · intro hm
      rw [List.drop_take] at hm
      exact hsl (List.mem_of_mem_take hm)
    · exact not_mem_drop_rfind '/' p _ (by have := rfind_ge '/' p; omega)
  · refine ⟨p.take (rfind '/' p + 1).toNat, p.drop (rfind '/' p + 1).toNat, (List.take_append_drop _ _).symm,
      take_getLast_rfind _ _, hsl, by simp⟩

theorem decDigits_injective : Function.Injective decDigits := fun a b h => by
  rw [← parseDec_decDigits a, ← parseDec_decDigits b, h]

/-- different counters are different file-system entries -/
theorem candidate_res_injective {K : Type} {res : Str → K} (hres : PathSem res) (p : Str) :
    Function.Injective fun n => res (candidate (splitext p).1 (splitext p).2 n) := by
  intro m n h
  obtain ⟨dir, base, hf, hdir, hb, he⟩ := splitext_parts p
  simp only [candidate, hf, List.append_assoc] at h
  have hn : ∀ k : Nat, '/' ∉ base ++ '_' :: (decDigits k ++ (splitext p).2) ∧
      base ++ '_' :: (decDigits k ++ (splitext p).2) ∉ ([[], ['.'], ['.', '.']] : List Str) := by
    intro k
    constructor
    · simp only [List.mem_append, List.mem_cons, not_or]
      exact ⟨hb, by decide, decDigits_no_slash k, he⟩
    · intro hm
      have hu : '_' ∈ base ++ '_' :: (decDigits k ++ (splitext p).2) := by simp
      simp only [List.mem_cons, List.not_mem_nil, or_false] at hm
      rcases hm with hm | hm | hm <;> rw [hm] at hu <;> simp at hu
  have := hres.names dir _ _ hdir (hn m).1 (hn n).1 (hn m).2 (hn n).2 h
  have := List.append_cancel_left this
  rw [List.cons.injEq] at this
  exact decDigits_injective (List.append_cancel_right this.2)

/-! ### C41 -/

/-- The counters tried by the loop, from `c` on. -/
theorem uniqLoop_spec (ex : Str → Bool) (f e : Str) (fuel c : Nat) (p : Str) (q : Str)
    (h : uniqLoop ex f e fuel c p = some q) :
    ex q = false ∧ (q = p ∨ (ex p = true ∧ ∃ n, c ≤ n ∧ q = candidate f e n ∧ ∀ m, c ≤ m → m < n → ex (candidate f e m) = true)) := by
  induction fuel generalizing c p with
  | zero => simp [uniqLoop] at h
  | succ fuel ih =>
    unfold uniqLoop at h
    by_cases hp : ex p = true
    · rw [if_pos hp] at h
      obtain ⟨h1, h2⟩ := ih _ _ h
      refine ⟨h1, Or.inr ⟨hp, ?_⟩⟩
      rcases h2 with rfl | ⟨hc, n, hn, rfl, hm⟩
      · exact ⟨c, le_refl _, rfl, fun m h3 h4 => by omega⟩
      · refine ⟨n, by omega, rfl, fun m h3 h4 => ?_⟩
        by_cases hmc : m = c
        · subst hmc; exact hc
        · exact hm m (by omega) h4
    · rw [if_neg hp] at h
      simp only [Option.some.injEq] at h
      subst h
      exact ⟨by simpa using hp, Or.inl rfl⟩

/-- the loop ends as soon as one candidate is free -/
theorem uniqLoop_stops (ex : Str → Bool) (f e : Str) (n c : Nat) (p : Str) (hcn : c ≤ n)
    (hfree : ex (candidate f e n) = false) (fuel : Nat) (hfuel : n + 2 - c ≤ fuel) :
    ∃ q, uniqLoop ex f e fuel c p = some q := by
  induction fuel generalizing c p with
  | zero => omega
  | succ fuel ih =>
    unfold uniqLoop
    by_cases hp : ex p = true
    · rw [if_pos hp]
      by_cases hcn' : c = n
      · subst hcn'
        cases fuel with
        | zero => omega
        | succ fuel => exact ⟨_, by rw [uniqLoop, hfree]; rfl⟩
      · exact ih (c + 1) _ (by omega) (by omega)
    · exact ⟨p, by rw [if_neg hp]⟩

/-- C41. For every finite file system with `N` entries the loop ends after at most `N + 2` tests; the returned path
    (without the final slash) does not exist; it is the given path if that is free and otherwise the candidate with the
    smallest free counter `n ≥ 1`. -/
theorem uniquify_spec {K : Type} [DecidableEq K] {res : Str → K} (hres : PathSem res) (fs : Fs K) (path : Str)
    (fuel : Nat) (hfuel : fs.card + 2 ≤ fuel) :
    ∃ q, uniquify (exist res fs) fuel path = some (q ++ ['/']) ∧ res q ∉ fs ∧
      ((res path ∉ fs ∧ q = path) ∨
       (res path ∈ fs ∧ ∃ n, 1 ≤ n ∧ q = (splitext path).1 ++ '_' :: (decDigits n ++ (splitext path).2) ∧
          ∀ m, 1 ≤ m → m < n → res ((splitext path).1 ++ '_' :: (decDigits m ++ (splitext path).2)) ∈ fs)) := by
  -- one of the counters 1 … card+1 is free
  have hfree : ∃ n, 1 ≤ n ∧ n ≤ fs.card + 1 ∧ res (candidate (splitext path).1 (splitext path).2 n) ∉ fs := by
    by_contra hcon
    push Not at hcon
    have hsub : (Finset.Icc 1 (fs.card + 1)).image (fun n => res (candidate (splitext path).1 (splitext path).2 n)) ⊆ fs := by
      intro k hk
      obtain ⟨n, hn, rfl⟩ := Finset.mem_image.mp hk
      rw [Finset.mem_Icc] at hn
      exact hcon n hn.1 hn.2
    have := Finset.card_le_card hsub
    rw [Finset.card_image_of_injective _ (candidate_res_injective hres path)] at this
    simp at this
  -- the path itself counts as one test
  obtain ⟨n, hn1, hn2, hn⟩ := hfree
  obtain ⟨q, hq⟩ := uniqLoop_stops (exist res fs) (splitext path).1 (splitext path).2 n 1 path hn1 (by simpa [exist] using hn)
    fuel (by omega)
  obtain ⟨h1, h2⟩ := uniqLoop_spec _ _ _ _ _ _ _ hq
  refine ⟨q, by rw [uniquify, hq]; rfl, by simpa [exist] using h1, ?_⟩
  rcases h2 with rfl | ⟨hp, n, hn, rfl, hm⟩
  · exact Or.inl ⟨by simpa [exist] using h1, rfl⟩
  · refine Or.inr ⟨by simpa [exist] using hp, n, hn, rfl, fun m h3 h4 => ?_⟩
    have := hm m h3 h4
    rwa [exist, candidate, decide_eq_true_eq] at this

/-- the path found is not empty -/
theorem uniquify_ne_nil {K : Type} {res : Str → K} {fs : Fs K} {path q : Str} (hp : path ≠ [])
    (h : (res path ∉ fs ∧ q = path) ∨
       (res path ∈ fs ∧ ∃ n, 1 ≤ n ∧ q = (splitext path).1 ++ '_' :: (decDigits n ++ (splitext path).2) ∧
          ∀ m, 1 ≤ m → m < n → res ((splitext path).1 ++ '_' :: (decDigits m ++ (splitext path).2)) ∈ fs)) : q ≠ [] := by
  rcases h with ⟨_, rfl⟩ | ⟨_, n, _, rfl, _⟩
  · exact hp
  · simp

/-- With no dot in the last component the candidates are the path followed by `_1`, `_2`, … (this is the case of the
    folder names of a DGA run, also with a trailing slash). -/
theorem splitext_no_extension (dir base : Str) (hb : '.' ∉ base) (hs : '/' ∉ base) :
    splitext (dir ++ '/' :: base) = (dir ++ '/' :: base, []) := by
  have key : ∀ (c : Char) (d b : Str), c ∉ b → rfind c (d ++ c :: b) = d.length := by
    intro c d b hcb
    have hneg : ∀ b : Str, c ∉ b → rfind c b = -1 := by
      intro b
      induction b with
      | nil => intro _; rfl
      | cons x b ih =>
        intro h
        rw [List.mem_cons, not_or] at h
        unfold rfind
        rw [ih h.2, if_neg (by omega), if_neg (fun e => h.1 e.symm)]
    induction d with
    | nil => simp [rfind, hneg b hcb]
    | cons x d ih =>
      rw [List.cons_append, rfind, ih, if_pos (by omega), List.length_cons]; push_cast; rfl
  have hle : rfind '.' (dir ++ '/' :: base) ≤ dir.length := by
    by_contra hcon
    push Not at hcon
    have h1 : ∀ (d b : Str), '.' ∉ b → rfind '.' (d ++ b) < d.length := by
      intro d b hdb
      induction d with
      | nil =>
        by_contra hc
        push Not at hc
        have : ∀ b : Str, 0 ≤ rfind '.' b → '.' ∈ b := by
          intro b
          induction b with
          | nil => simp [rfind]
          | cons x b ih =>
            intro h
            unfold rfind at h
            by_cases h0 : 0 ≤ rfind '.' b
            · exact List.mem_cons_of_mem _ (ih h0)
            · rw [if_neg h0] at h
              by_cases hx : x = '.'
              · simp [hx]
              · rw [if_neg hx] at h; omega
        exact hdb (this b (by simpa using hc))
      | cons x d ih =>
        rw [List.cons_append, rfind, List.length_cons]
        split
        · push_cast; omega
        · split <;> (push_cast; omega)
    have := h1 (dir ++ ['/']) base hb
    rw [List.append_assoc, List.singleton_append, List.length_append] at this
    simp only [List.length_cons, List.length_nil] at this
    push_cast at this
    omega
  unfold splitext
  rw [if_neg]
  rintro ⟨h, _⟩
  rw [key '/' dir base hs] at h
  omega

/-- `set_output_path` never fails on the existence test, returns a path that did not exist, creates exactly that one
    entry and leaves all others. -/
theorem setOutputPath_spec {K : Type} [DecidableEq K] {res : Str → K} (hres : PathSem res) (fs : Fs K) (base : Str)
    (hbase : base ≠ []) (fuel : Nat) (hfuel : fs.card + 2 ≤ fuel) :
    ∃ p, setOutputPath res fuel fs base = some (p, insert (res p) fs) ∧ res p ∉ fs := by
  obtain ⟨q, h1, h2, h3⟩ := uniquify_spec hres fs base fuel hfuel
  have hp : res (q ++ ['/']) ∉ fs := by rw [hres.trailing _ (uniquify_ne_nil hbase h3)]; exact h2
  refine ⟨q ++ ['/'], ?_, hp⟩
  simp [setOutputPath, h1, exist, mkdir, hp]

/-- Any history of runs (any base names, any other entries created in between are allowed as members of the initial
    file system of the next run): the folders returned by the runs are pairwise different entries, none of them existed
    before, and nothing that existed is removed. -/
theorem runs_distinct {K : Type} [DecidableEq K] {res : Str → K} (hres : PathSem res) (bases : List Str)
    (hbases : ∀ b ∈ bases, b ≠ []) (fs : Fs K) (fuel : Nat) (hfuel : fs.card + bases.length + 2 ≤ fuel) :
    ∃ (ps : List Str) (fs' : Fs K), bases.foldlM (fun (st : List Str × Fs K) b =>
        (setOutputPath res fuel st.2 b).map fun r => (st.1 ++ [r.1], r.2)) ([], fs) = some (ps, fs') ∧
      ps.length = bases.length ∧ (ps.map res).Nodup ∧ (∀ p ∈ ps, res p ∉ fs) ∧
      fs' = fs ∪ (ps.map res).toFinset := by
  have gen : ∀ (bases : List Str) (ps0 : List Str) (fs0 : Fs K), (∀ b ∈ bases, b ≠ []) → fs0.card + bases.length + 2 ≤ fuel →
      (ps0.map res).Nodup → (∀ p ∈ ps0, res p ∉ fs) → fs0 = fs ∪ (ps0.map res).toFinset →
      ∃ (ps : List Str) (fs' : Fs K), bases.foldlM (fun (st : List Str × Fs K) b =>
        (setOutputPath res fuel st.2 b).map fun r => (st.1 ++ [r.1], r.2)) (ps0, fs0) = some (ps, fs') ∧
      ps.length = ps0.length + bases.length ∧ (ps.map res).Nodup ∧ (∀ p ∈ ps, res p ∉ fs) ∧
      fs' = fs ∪ (ps.map res).toFinset := by
    intro bases
    induction bases with
    | nil => intro ps0 fs0 _ _ h1 h2 h3; exact ⟨ps0, fs0, rfl, rfl, h1, h2, h3⟩
    | cons b bases ih =>
      intro ps0 fs0 hne hf h1 h2 h3
      rw [List.length_cons] at hf
      obtain ⟨p, hp, hnot⟩ := setOutputPath_spec hres fs0 b (hne b List.mem_cons_self) fuel (by omega)
      rw [List.foldlM_cons]
      simp only [hp, Option.map_some, Option.bind_eq_bind, Option.bind_some]
      obtain ⟨ps, fs', e1, e2, e3, e4, e5⟩ := ih (ps0 ++ [p]) (insert (res p) fs0)
        (fun b hb => hne b (List.mem_cons_of_mem _ hb))
        (by rw [Finset.card_insert_of_notMem hnot]; omega)
        (by
          rw [List.map_append, List.map_singleton, List.nodup_append]
          refine ⟨h1, by simp, fun a ha b hb => ?_⟩
          rw [List.mem_singleton] at hb
          subst hb
          intro e
          subst e
          exact hnot (by rw [h3]; simp only [Finset.mem_union, List.mem_toFinset]; exact Or.inr ha))
        (by
          intro q hq
          rw [List.mem_append, List.mem_singleton] at hq
          rcases hq with hq | rfl
          · exact h2 q hq
          · intro hm; exact hnot (by rw [h3]; simp [hm]))
        (by
          rw [h3]
          ext x
          simp only [Finset.mem_insert, Finset.mem_union, List.mem_toFinset, List.map_append, List.map_singleton,
            List.mem_append, List.mem_singleton]
          tauto)
      exact ⟨ps, fs', e1, by rw [e2]; simp; omega, e3, e4, e5⟩
  obtain ⟨ps, fs', e1, e2, e3, e4, e5⟩ := gen bases [] fs hbases hfuel (by simp) (by simp) (by simp)
  exact ⟨ps, fs', e1, by simpa using e2, e3, e4, e5⟩

/-- After the broadcast the folder is created exactly once, for every number of ranks and every order in which they run
    (each rank once, rank 0 among them), and no rank fails. -/
theorem mkdir_any_schedule {K : Type} [DecidableEq K] (res : Str → K) (p : Str) (fs : Fs K) (hp : res p ∉ fs)
    (sched : List Nat) (h0 : 0 ∈ sched) :
    runAfterBcast res p fs sched = some (insert (res p) fs) := by
  have after : ∀ sched : List Nat, runAfterBcast res p (insert (res p) fs) sched = some (insert (res p) fs) := by
    intro sched
    induction sched with
    | nil => rfl
    | cons r sched ih =>
      unfold runAfterBcast at *
      rw [List.foldlM_cons]
      simpa [afterBcast, exist] using ih
  induction sched with
  | nil => simp at h0
  | cons r sched ih =>
    unfold runAfterBcast
    rw [List.foldlM_cons]
    by_cases hr : r = 0
    · subst hr
      simp only [afterBcast, exist, hp, decide_false, Bool.false_eq_true, if_false, if_true, mkdir, Option.bind_eq_bind,
        Option.bind_some]
      exact after sched
    · have hm : 0 ∈ sched := by
        rcases List.mem_cons.mp h0 with h | h
        · exact absurd h.symm hr
        · exact h
      simp only [afterBcast, exist, hp, decide_false, Bool.false_eq_true, if_false, hr, Option.bind_eq_bind, Option.bind_some]
      exact ih hm

/-- `create_poly_fit_folder` lets every rank call `uniquify` without a broadcast: a rank that runs after rank 0 has
    created the folder stores a different path.  So the stored path depends on the schedule. -/
theorem polyFit_schedule_dependent {K : Type} [DecidableEq K] {res : Str → K} (hres : PathSem res) (fs : Fs K)
    (base : Str) (hbase : base ≠ []) (hb : res base ∉ fs) (fuel : Nat) (hfuel : fs.card + 3 ≤ fuel) (r : Nat) (hr : r ≠ 0) :
    ∃ fs1 fs2 p1, polyFitTurn res fuel base fs 0 = some (base ++ ['/'], fs1) ∧
      polyFitTurn res fuel base fs r = some (base ++ ['/'], fs2) ∧
      (polyFitTurn res fuel base fs1 r).map Prod.fst = some p1 ∧ res p1 ≠ res base := by
  obtain ⟨q, h1, h2, h3⟩ := uniquify_spec hres fs base fuel (by omega)
  have hq : q = base := by
    rcases h3 with ⟨_, h⟩ | ⟨h, _⟩
    · exact h
    · exact absurd h hb
  subst hq
  have hb' : res (q ++ ['/']) ∉ fs := by rw [hres.trailing _ hbase]; exact hb
  obtain ⟨q', g1, g2, g3⟩ := uniquify_spec hres (insert (res (q ++ ['/'])) fs) q fuel
    (by rw [Finset.card_insert_of_notMem hb']; omega)
  have hq' := uniquify_ne_nil hbase g3
  refine ⟨insert (res (q ++ ['/'])) fs, fs, q' ++ ['/'], ?_, ?_, ?_, ?_⟩
  · simp [polyFitTurn, h1, afterBcast, exist, hb', mkdir]
  · simp [polyFitTurn, h1, afterBcast, exist, hr]
  · have g2' : res (q' ++ ['/']) ∉ insert (res (q ++ ['/'])) fs := by rw [hres.trailing q' hq']; exact g2
    simp only [polyFitTurn, g1, Option.bind_eq_bind, Option.bind_some, afterBcast, exist, decide_eq_true_eq, g2', if_false,
      hr]
    simp
  · rw [hres.trailing _ hq']
    intro e
    apply g2
    rw [hres.trailing _ hbase, e]
    exact Finset.mem_insert_self _ _

/-! ### non-vacuity: a concrete path semantics and a concrete clash -/

/-- strip trailing slashes (reversed string) -/
def stripKey (p : Str) : Str := p.reverse.dropWhile (· = '/')

theorem stripKey_sem : PathSem stripKey where
  trailing p _ := by simp [stripKey]
  names dir s s' _ hs hs' hn hn' h := by
    have key : ∀ s : Str, '/' ∉ s → s ∉ ([[], ['.'], ['.', '.']] : List Str) → stripKey (dir ++ s) = (dir ++ s).reverse := by
      intro s hs hn
      have hne : s.reverse ≠ [] := by
        intro e; rw [List.reverse_eq_nil_iff] at e; subst e; simp at hn
      obtain ⟨x, t, hxt⟩ := List.exists_cons_of_ne_nil hne
      have hx : x ≠ '/' := by
        intro e; apply hs; rw [← List.mem_reverse, hxt, e]; simp
      rw [stripKey, List.reverse_append, hxt, List.cons_append, List.dropWhile_cons]
      simp [hx]
    rw [key s hs hn, key s' hs' hn'] at h
    exact List.append_cancel_left (List.reverse_injective h)

example : uniquify (exist stripKey {stripKey "./run".toList, stripKey "./run_1".toList}) 10 "./run".toList =
    some "./run_2/".toList := by decide +kernel

example : splitext "a.b/x.tar.gz".toList = ("a.b/x.tar".toList, ".gz".toList) ∧
    splitext "a.b/.x".toList = ("a.b/.x".toList, []) := by decide +kernel

end DGA.Paths
