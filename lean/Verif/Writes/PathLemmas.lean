/- Path resolution and the folder strings of a run. -/
import Verif.Writes.Model
import Verif.Paths.Props
import Verif.RankFiles.Props

namespace DGA.Wr

open DGA.RankFiles (Str decDigits decDigits_all isDigit)
open DGA.Paths (uniquify uniqLoop uniqLoop_spec candidate splitext splitext_no_extension decDigits_no_slash PathSem)
open DGA.Spmd (Dir)

/-! ### specification of path resolution -/

/-- a file name that is a name: no slash, not empty, not `.` or `..` -/
def Proper (s : Str) : Prop := '/' ∉ s ∧ s ∉ ([[], ['.'], ['.', '.']] : List Str)

/-- What is assumed of the resolution of path strings to absolute components (no symbolic links below the folder of the run): an
    additional trailing slash does not matter, and a name in a folder is one more component.  Relative paths, `.` and `..` in front
    are allowed. -/
structure PathTree (res : Str → List Str) : Prop where
  slash : ∀ p, p ≠ [] → res (p ++ ['/']) = res p
  child : ∀ dir s, (dir = [] ∨ dir.getLast? = some '/') → Proper s → res (dir ++ s) = res dir ++ [s]

theorem PathTree.sem {res : Str → List Str} (h : PathTree res) : PathSem res where
  trailing := h.slash
  names dir s s' hd hs hs' hn hn' e := by
    rw [h.child dir s hd ⟨hs, hn⟩, h.child dir s' hd ⟨hs', hn'⟩] at e
    simpa using e

/-- the name at the end of what is appended to a folder path -/
def relName (rel : Str) : Str := rel.dropWhile (· = '/')

variable {res : Str → List Str}

theorem res_rel (h : PathTree res) (out rel : Str) (ho : out.getLast? = some '/') (hp : Proper (relName rel)) :
    res (out ++ rel) = res out ++ [relName rel] := by
  induction rel generalizing out with
  | nil => exact absurd (by simp [relName]) hp.2
  | cons c rel ih =>
    by_cases hc : c = '/'
    · subst hc
      have e : relName ('/' :: rel) = relName rel := by simp [relName]
      rw [e] at hp ⊢
      have hne : out ≠ [] := by intro e; simp [e] at ho
      have := ih (out ++ ['/']) (by simp) hp
      rw [List.append_assoc, List.singleton_append, h.slash out hne] at this
      exact this
    · have e : relName (c :: rel) = c :: rel := by simp [relName, hc]
      rw [e] at hp ⊢
      exact h.child out _ (Or.inr ho) hp

/-- `uniquify` returns the path itself or a candidate, and a slash. -/
theorem uniquify_form {ex : Str → Bool} {fuel : Nat} {base p : Str} (h : uniquify ex fuel base = some p) :
    p = base ++ ['/'] ∨ ∃ n, p = candidate (splitext base).1 (splitext base).2 n ++ ['/'] := by
  simp only [uniquify, Option.map_eq_some_iff] at h
  obtain ⟨q, hq, rfl⟩ := h
  rcases (uniqLoop_spec _ _ _ _ _ _ _ hq).2 with rfl | ⟨_, n, _, rfl, _⟩
  · exact Or.inl rfl
  · exact Or.inr ⟨n, rfl⟩

/-- the name of a folder below the output folder -/
def dirName : Dir → String
  | .out => ""
  | .plots => "Plots"
  | .poly => "PolyFits"
  | .eliash => "Eliashberg"
  | .optics => "Optics"
  | .meLoc => "MaxEnt"
  | .meSiwk => "MaxEntSiwk"
  | .meGiwk => "MaxEntGiwk"
  | .meDens => "MaxEntChiDens"
  | .meMagn => "MaxEntChiMagn"

theorem dirName_inj {x y : Dir} (h : dirName x = dirName y) : x = y := by
  cases x <;> cases y <;> first | rfl | (exact absurd h (by decide))

theorem proper_of (s : Str) (h : '/' ∉ s) (hl : 3 ≤ s.length) : Proper s := by
  refine ⟨h, ?_⟩
  intro hm
  simp only [List.mem_cons, List.not_mem_nil, or_false] at hm
  rcases hm with rfl | rfl | rfl <;> simp at hl

theorem counter_proper (n : Nat) : Proper ('_' :: decDigits n) := by
  refine ⟨?_, ?_⟩
  · simp only [List.mem_cons, not_or]
    exact ⟨by decide, decDigits_no_slash n⟩
  · intro hm
    simp at hm

/-- a folder that is made from a base ending with a slash -/
theorem slash_base (h : PathTree res) {out : Str} (ho : out.getLast? = some '/') {ex : Str → Bool} {fuel : Nat} {name p : Str}
    (pre : Str) (hpre : pre = [] ∨ pre = ['/']) (hn : '/' ∉ name) (hl : 3 ≤ name.length)
    (hu : uniquify ex fuel (out ++ (pre ++ (name ++ ['/']))) = some p) :
    p.getLast? = some '/' ∧ (res p = res out ++ [name] ∨ ∃ n, res p = res out ++ [name, '_' :: decDigits n]) := by
  have hs : splitext (out ++ (pre ++ (name ++ ['/']))) = (out ++ (pre ++ (name ++ ['/'])), []) := by
    have := splitext_no_extension (out ++ (pre ++ name)) [] (by simp) (by simp)
    simpa using this
  have hname : res (out ++ (pre ++ name)) = res out ++ [name] := by
    have e : relName (pre ++ name) = name := by
      have hh : ∀ c, name.head? = some c → c ≠ '/' := by
        intro c hc e; subst e
        exact hn (List.mem_of_head? hc)
      have e0 : relName name = name := by
        cases name with
        | nil => rfl
        | cons c t => simp [relName, hh c rfl]
      rcases hpre with rfl | rfl
      · simpa using e0
      · simpa [relName] using e0
    rw [res_rel h out (pre ++ name) ho (by rw [e]; exact proper_of _ hn hl), e]
  have hne : out ++ (pre ++ name) ≠ [] := by
    intro e
    have := congrArg List.length e
    simp at this
    have : name.length = 0 := by simp [this]
    omega
  have h1 : res (out ++ (pre ++ (name ++ ['/']))) = res out ++ [name] := by
    rw [← hname, ← h.slash _ hne]; simp
  rcases uniquify_form hu with rfl | ⟨n, rfl⟩
  · refine ⟨by simp, Or.inl ?_⟩
    rw [h.slash _ (by intro e; have := congrArg List.length e; simp at this), h1]
  · refine ⟨by simp, Or.inr ⟨n, ?_⟩⟩
    rw [hs, h.slash _ (by simp [candidate])]
    simp only [candidate, List.append_nil]
    rw [h.child _ _ (Or.inr (by simp)) (counter_proper n), h1]
    simp

/-- a folder that is made from a base without trailing slash -/
theorem name_base (h : PathTree res) {out : Str} (ho : out.getLast? = some '/') {ex : Str → Bool} {fuel : Nat} {name p : Str}
    (hn : '/' ∉ name) (hd : '.' ∉ name) (hl : 3 ≤ name.length) (hu : uniquify ex fuel (out ++ name) = some p) :
    p.getLast? = some '/' ∧ (res p = res out ++ [name] ∨ ∃ n, res p = res out ++ [name ++ '_' :: decDigits n]) := by
  obtain ⟨o, rfl⟩ : ∃ o, out = o ++ ['/'] := by
    rw [List.getLast?_eq_some_iff] at ho; exact ho
  have hs : splitext (o ++ ['/'] ++ name) = (o ++ ['/'] ++ name, []) := by
    have := splitext_no_extension o name hd hn
    simpa using this
  rcases uniquify_form hu with rfl | ⟨n, rfl⟩
  · refine ⟨by rw [List.getLast?_append]; rfl, Or.inl ?_⟩
    rw [h.slash _ (by simp), h.child _ _ (Or.inr (by simp)) (proper_of _ hn hl)]
  · refine ⟨by simp, Or.inr ⟨n, ?_⟩⟩
    rw [hs, h.slash _ (by simp [candidate])]
    simp only [candidate, List.append_nil]
    rw [List.append_assoc (o ++ ['/']), h.child _ _ (Or.inr (by simp))]
    refine proper_of _ ?_ (by simp; omega)
    simp only [List.mem_append, List.mem_cons, not_or]
    exact ⟨hn, by decide, decDigits_no_slash n⟩

/-- first component of a folder below the output folder, and at most one more -/
theorem dir_key (h : PathTree res) {out : Str} (ho : out.getLast? = some '/') {d : Dirs} (hd : DirsOk out d) (x : Dir) (hx : x ≠ .out) :
    (d x).getLast? = some '/' ∧ ∃ a rest, res (d x) = res out ++ a :: rest ∧ a.takeWhile (· ≠ '_') = (dirName x).toList ∧ 'Q' ∉ a := by
  obtain ⟨ex, fuel, hu⟩ := hd.2 x hx
  have dQ : ∀ n, 'Q' ∉ decDigits n := by
    intro n hm; have := decDigits_all n _ hm; simp [isDigit] at this
  have A : ∀ name : Str, '_' ∉ name → 'Q' ∉ name →
      ((res (d x) = res out ++ [name] ∨ ∃ n, res (d x) = res out ++ [name, '_' :: decDigits n]) ∨
       (res (d x) = res out ++ [name] ∨ ∃ n, res (d x) = res out ++ [name ++ '_' :: decDigits n])) →
      ∃ a rest, res (d x) = res out ++ a :: rest ∧ a.takeWhile (· ≠ '_') = name ∧ 'Q' ∉ a := by
    intro name hn hQ hh
    have t1 : name.takeWhile (· ≠ '_') = name := by
      have := List.takeWhile_append_of_pos (p := fun c => decide (c ≠ '_')) (l₁ := name) (l₂ := [])
        (by intro c hc; simp; rintro rfl; exact hn hc)
      simpa using this
    rcases hh with (e | ⟨n, e⟩) | (e | ⟨n, e⟩)
    · exact ⟨name, [], e, t1, hQ⟩
    · exact ⟨name, ['_' :: decDigits n], e, t1, hQ⟩
    · exact ⟨name, [], e, t1, hQ⟩
    · refine ⟨name ++ '_' :: decDigits n, [], e, ?_, ?_⟩
      · rw [List.takeWhile_append_of_pos (by intro c hc; simp; rintro rfl; exact hn hc)]
        simp
      · simp only [List.mem_append, List.mem_cons, not_or]
        exact ⟨hQ, by decide, dQ n⟩
  cases x with
  | out => exact absurd rfl hx
  | plots =>
    obtain ⟨h1, h2⟩ := slash_base h ho (name := "Plots".toList) ['/'] (Or.inr rfl) (by decide) (by decide) hu
    exact ⟨h1, A _ (by decide) (by decide) (Or.inl h2)⟩
  | poly =>
    obtain ⟨h1, h2⟩ := slash_base h ho (name := "PolyFits".toList) ['/'] (Or.inr rfl) (by decide) (by decide) hu
    exact ⟨h1, A _ (by decide) (by decide) (Or.inl h2)⟩
  | eliash =>
    obtain ⟨h1, h2⟩ := slash_base h ho (name := "Eliashberg".toList) [] (Or.inl rfl) (by decide) (by decide) hu
    exact ⟨h1, A _ (by decide) (by decide) (Or.inl h2)⟩
  | optics =>
    obtain ⟨h1, h2⟩ := slash_base h ho (name := "Optics".toList) [] (Or.inl rfl) (by decide) (by decide) hu
    exact ⟨h1, A _ (by decide) (by decide) (Or.inl h2)⟩
  | meLoc =>
    obtain ⟨h1, h2⟩ := slash_base h ho (name := "MaxEnt".toList) [] (Or.inl rfl) (by decide) (by decide) hu
    exact ⟨h1, A _ (by decide) (by decide) (Or.inl h2)⟩
  | meSiwk =>
    obtain ⟨h1, h2⟩ := name_base h ho (name := "MaxEntSiwk".toList) (by decide) (by decide) (by decide) hu
    exact ⟨h1, A _ (by decide) (by decide) (Or.inr h2)⟩
  | meGiwk =>
    obtain ⟨h1, h2⟩ := name_base h ho (name := "MaxEntGiwk".toList) (by decide) (by decide) (by decide) hu
    exact ⟨h1, A _ (by decide) (by decide) (Or.inr h2)⟩
  | meDens =>
    obtain ⟨h1, h2⟩ := name_base h ho (name := "MaxEntChiDens".toList) (by decide) (by decide) (by decide) hu
    exact ⟨h1, A _ (by decide) (by decide) (Or.inr h2)⟩
  | meMagn =>
    obtain ⟨h1, h2⟩ := name_base h ho (name := "MaxEntChiMagn".toList) (by decide) (by decide) (by decide) hu
    exact ⟨h1, A _ (by decide) (by decide) (Or.inr h2)⟩

theorem dir_slash (h : PathTree res) {out : Str} (ho : out.getLast? = some '/') {d : Dirs} (hd : DirsOk out d) (x : Dir) :
    (d x).getLast? = some '/' := by
  by_cases hx : x = .out
  · subst hx; rw [hd.1]; exact ho
  · exact (dir_key h ho hd x hx).1

theorem dir_prefix (h : PathTree res) {out : Str} (ho : out.getLast? = some '/') {d : Dirs} (hd : DirsOk out d) (x : Dir) :
    res out <+: res (d x) := by
  by_cases hx : x = .out
  · subst hx; rw [hd.1]
  · obtain ⟨_, a, rest, e, _⟩ := dir_key h ho hd x hx
    rw [e]; exact List.prefix_append _ _

/-- different folders are different entries -/
theorem dir_inj (h : PathTree res) {out : Str} (ho : out.getLast? = some '/') {d : Dirs} (hd : DirsOk out d) {x y : Dir}
    (e : res (d x) = res (d y)) : x = y := by
  by_cases hx : x = .out <;> by_cases hy : y = .out
  · rw [hx, hy]
  · exfalso
    obtain ⟨_, a, rest, e2, _⟩ := dir_key h ho hd y hy
    rw [hx, hd.1, e2] at e
    simp at e
  · exfalso
    obtain ⟨_, a, rest, e2, _⟩ := dir_key h ho hd x hx
    rw [hy, hd.1, e2] at e
    simp at e
  · obtain ⟨_, a, rest, e1, t1, _⟩ := dir_key h ho hd x hx
    obtain ⟨_, a', rest', e2, t2, _⟩ := dir_key h ho hd y hy
    rw [e1, e2] at e
    have := List.append_cancel_left e
    rw [List.cons.injEq] at this
    rw [this.1, t2] at t1
    exact (dirName_inj (String.toList_injective t1)).symm

end DGA.Wr
