/- C125, second part: no access of a run fails, and what has been written is found under its name. -/
import Verif.Writes.Props

namespace DGA.Wr

open DGA.RankFiles (Str decDigits rankFileName rankFileName_injective)
open DGA.Paths (uniquify uniqLoop_spec)
open DGA.Spmd (Dir Flags MeFlags)

variable {V : Type} {res : Str → List Str}

/-! ### specification -/

/-- The folder strings in a new output folder: nothing exists yet, so `uniquify` returns the base path and a slash. -/
def freshDirs (out : Str) : Dirs := fun x => if x = .out then out else baseOf out x ++ ['/']

theorem freshDirs_ok (out : Str) : DirsOk out (freshDirs out) := by
  refine ⟨rfl, fun x hx => ⟨fun _ => false, 1, ?_⟩⟩
  simp [uniquify, DGA.Paths.uniqLoop, freshDirs, hx]

/-- An execution up to some moment: every rank has done an initial part of its program, in order, and no rank other than 0 has done
    anything before the output folder was made (the barrier at the end of `create_folders`, config.py:647). -/
structure Execution (p : Par) (evs : List (Event V)) : Prop where
  program : ∀ r, (evs.filter (fun e => e.1 = r)).map (fun e => e.2.1) <+: cmds p r
  barrier : ∀ l e l', evs = l ++ e :: l' → e.1 ≠ 0 → ∃ v, (0, Cmd.mkdir .out, v) ∈ l

/-! ### program order -/

/-- every folder is made once and before it is used, the output folder first; `made`: folders made before -/
def okFrom (made : List Dir) : List Cmd → Prop
  | [] => True
  | .mkdir x :: cs => x ∉ made ∧ (x = .out ∨ .out ∈ made) ∧ okFrom (x :: made) cs
  | .put x _ _ :: cs => x ∈ made ∧ okFrom made cs
  | .del x _ :: cs => x ∈ made ∧ okFrom made cs

/-- the folders made by a list -/
def made : List Cmd → List Dir
  | [] => []
  | .mkdir x :: cs => x :: made cs
  | _ :: cs => made cs

instance (m : List Dir) (cs : List Cmd) : Decidable (okFrom m cs) := by
  induction cs generalizing m with
  | nil => exact isTrue trivial
  | cons c cs ih =>
    cases c with
    | mkdir x => exact @instDecidableAnd _ _ _ (@instDecidableAnd _ _ _ (ih _))
    | put x rel v => exact @instDecidableAnd _ _ _ (ih _)
    | del x rel => exact @instDecidableAnd _ _ _ (ih _)

theorem okFrom_congr {m m' : List Dir} (h : ∀ x, x ∈ m ↔ x ∈ m') (cs : List Cmd) : okFrom m cs → okFrom m' cs := by
  induction cs generalizing m m' with
  | nil => exact id
  | cons c cs ih =>
    cases c with
    | mkdir x => exact fun ⟨a, b, c⟩ => ⟨by rwa [← h], by rwa [← h], ih (by intro y; simp [h]) c⟩
    | put x rel v => exact fun ⟨a, b⟩ => ⟨by rwa [← h], ih h b⟩
    | del x rel => exact fun ⟨a, b⟩ => ⟨by rwa [← h], ih h b⟩

theorem okFrom_append {m : List Dir} {a b : List Cmd} (ha : okFrom m a) (hb : okFrom (made a ++ m) b) : okFrom m (a ++ b) := by
  induction a generalizing m with
  | nil => exact hb
  | cons c a ih =>
    cases c with
    | mkdir x => exact ⟨ha.1, ha.2.1, ih ha.2.2 (okFrom_congr (by intro y; simp [made]; tauto) _ hb)⟩
    | put x rel v => exact ⟨ha.1, ih ha.2 hb⟩
    | del x rel => exact ⟨ha.1, ih ha.2 hb⟩

theorem okFrom_prefix {m : List Dir} {a b : List Cmd} (h : okFrom m (a ++ b)) : okFrom m a := by
  induction a generalizing m with
  | nil => trivial
  | cons c a ih =>
    cases c with
    | mkdir x => exact ⟨h.1, h.2.1, ih h.2.2⟩
    | put x rel v => exact ⟨h.1, ih h.2⟩
    | del x rel => exact ⟨h.1, ih h.2⟩

/-- no folder is made, and only the folders in `D` are used -/
def usesOnly (D : List Dir) : Cmd → Bool
  | .mkdir _ => false
  | .put x _ _ => decide (x ∈ D)
  | .del x _ => decide (x ∈ D)

theorem okFrom_uses {D m : List Dir} (hD : ∀ x ∈ D, x ∈ m) (cs : List Cmd) (h : ∀ c ∈ cs, usesOnly D c = true) :
    okFrom m cs ∧ made cs = [] := by
  induction cs with
  | nil => exact ⟨trivial, rfl⟩
  | cons c cs ih =>
    have hc := h c List.mem_cons_self
    have ih := ih (fun c hc => h c (List.mem_cons_of_mem _ hc))
    cases c with
    | mkdir x => simp [usesOnly] at hc
    | put x rel v => exact ⟨⟨hD x (by simpa [usesOnly] using hc), ih.1⟩, ih.2⟩
    | del x rel => exact ⟨⟨hD x (by simpa [usesOnly] using hc), ih.1⟩, ih.2⟩

theorem okFrom_skip {D m : List Dir} (hD : ∀ x ∈ D, x ∈ m) {a b : List Cmd} (h : ∀ c ∈ a, usesOnly D c = true) (hb : okFrom m b) :
    okFrom m (a ++ b) := by
  obtain ⟨h1, h2⟩ := okFrom_uses hD a h
  exact okFrom_append h1 (by rw [h2]; exact hb)

theorem all_ite {P : Cmd → Prop} (b : Prop) [Decidable b] (l l' : List Cmd) (h : b → ∀ c ∈ l, P c) (h' : ¬ b → ∀ c ∈ l', P c) :
    ∀ c ∈ (if b then l else l'), P c := by
  split
  · next hb => exact h hb
  · next hb => exact h' hb

theorem all_append {P : Cmd → Prop} {l l' : List Cmd} (h : ∀ c ∈ l, P c) (h' : ∀ c ∈ l', P c) : ∀ c ∈ l ++ l', P c := by
  intro c hc
  rcases List.mem_append.mp hc with hc | hc
  · exact h c hc
  · exact h' c hc

theorem all_nil {P : Cmd → Prop} : ∀ c ∈ ([] : List Cmd), P c := by simp

/-- one section of the continuation -/
theorem okFrom_sec {m : List Dir} (s : Option Bool) (x : Dir) (body rest : List Cmd) (hx : x ∉ m) (hout : .out ∈ m)
    (hbody : ∀ c ∈ body, usesOnly [.out, x] c = true) (h1 : okFrom m rest) (h2 : okFrom (x :: m) rest) : okFrom m (secC s x body ++ rest) := by
  cases s with
  | none => exact h1
  | some b =>
    refine ⟨hx, Or.inr hout, ?_⟩
    refine okFrom_skip (D := [.out, x]) ?_ ?_ h2
    · intro y hy; simp only [List.mem_cons, List.not_mem_nil, or_false] at hy; rcases hy with rfl | rfl <;> simp [hout]
    · cases b
      · simp
      · exact hbody

/-- the main program of rank 0 makes every folder before it uses it, for all parameters -/
theorem program_order (p : Par) : okFrom [] (cmds p 0) := by
  simp only [cmds, if_true, List.append_assoc]
  -- the part without new folders, given the folders `m` made at the start
  have main : ∀ m : List Dir, .out ∈ m → .plots ∈ m → .eliash ∈ m → .optics ∈ m → (p.flags.polyFit = true → .poly ∈ m) →
      (∀ x ∈ [Dir.meLoc, .meSiwk, .meGiwk, .meDens, .meMagn], x ∉ m) →
      okFrom m (startC ++ (dmftPolyC p.flags ++ (localC p ++ (ladderC p 0 ++ (lambdaC ++ (buildC p.flags ++ (sdeC p 0 ++
        (eliashC p ++ (opticsC p.flags ++ (maxEntC p ++ [logC])))))))))) := by
    intro m ho hp he hopt hpoly hme
    have D1 : ∀ x ∈ [Dir.out, .plots, .eliash, .optics], x ∈ m := by
      intro x hx; simp only [List.mem_cons, List.not_mem_nil, or_false] at hx; rcases hx with rfl | rfl | rfl | rfl <;> assumption
    have poly : ∀ l : List Cmd, (∀ c ∈ l, usesOnly [.poly] c = true) → ∀ b, okFrom m b →
        okFrom m ((if p.flags.polyFit then l else []) ++ b) := by
      intro l hl b hb
      by_cases hf : p.flags.polyFit = true
      · rw [if_pos hf]
        exact okFrom_skip (D := [.poly]) (by intro x hx; simp at hx; subst hx; exact hpoly hf) hl hb
      · rw [if_neg hf]; exact hb
    refine okFrom_skip D1 (by decide +kernel) ?_
    rw [dmftPolyC]
    refine poly _ (by decide +kernel) _ ?_
    refine okFrom_skip D1 ?_ ?_
    · rw [localC]
      refine all_ite _ _ _ (fun _ => all_append (all_append (by decide +kernel) ?_) (by decide +kernel)) (fun _ => by decide +kernel)
      intro c hc
      simp only [gammaC, fig4, List.mem_cons, List.not_mem_nil, or_false] at hc
      rcases hc with rfl | rfl | rfl | rfl | rfl <;> rfl
    refine okFrom_skip D1 ?_ ?_
    · rw [ladderC]
      refine all_append (all_append (all_append ?_ (by decide +kernel)) ?_) ?_
      · intro c hc; simp at hc; subst hc; rfl
      · refine all_ite _ _ _ (fun _ => ?_) (fun _ => all_nil)
        intro c hc; simp at hc; subst hc; rfl
      · exact all_ite _ _ _ (fun _ => by decide +kernel) (fun _ => all_nil)
    refine okFrom_skip D1 (by decide +kernel) ?_
    refine okFrom_skip D1 ?_ ?_
    · rw [buildC]
      refine all_append (all_append (all_append ?_ ?_) ?_) (by decide +kernel) <;>
        exact all_ite _ _ _ (fun _ => by decide +kernel) (fun _ => all_nil)
    · simp only [sdeC, if_true, List.append_assoc]
      refine okFrom_skip D1 (all_ite _ _ _ (fun _ => by decide +kernel) (fun _ => all_nil)) ?_
      refine okFrom_skip D1 (by decide +kernel) ?_
      refine okFrom_skip D1 (all_ite _ _ _ (fun _ => by decide +kernel) (fun _ => all_nil)) ?_
      refine okFrom_skip D1 ?_ ?_
      · refine all_ite _ _ _ (fun _ => all_nil) (fun _ => ?_)
        intro c hc; simp at hc; subst hc; rfl
      refine okFrom_skip D1 (by decide +kernel) ?_
      refine poly _ (by decide +kernel) _ ?_
      refine okFrom_skip D1 ?_ ?_
      · rw [eliashC]
        refine all_ite _ _ _ (fun _ => ?_) (fun _ => all_nil)
        refine all_append (all_append (all_append (all_append (by decide +kernel) ?_) (by decide +kernel)) ?_) ?_
        · exact all_ite _ _ _ (fun _ => by decide +kernel) (fun _ => all_nil)
        · intro c hc
          rw [List.mem_flatMap] at hc
          obtain ⟨i, _, hc⟩ := hc
          simp only [List.mem_cons, List.not_mem_nil, or_false] at hc
          rcases hc with rfl | rfl <;> rfl
        · exact all_ite _ _ _ (fun _ => all_nil) (fun _ => by decide +kernel)
      refine okFrom_skip D1 ?_ ?_
      · rw [opticsC]
        refine all_append (all_append (all_append ?_ ?_) ?_) ?_
        · exact all_ite _ _ _ (fun _ => by decide +kernel) (fun _ => all_nil)
        · exact all_ite _ _ _ (fun _ => by decide +kernel) (fun _ => all_nil)
        · exact all_ite _ _ _ (fun _ => by decide +kernel) (fun _ => all_nil)
        · refine all_ite _ _ _ (fun _ => all_append (by decide +kernel) ?_) (fun _ => all_nil)
          refine all_ite _ _ _ (fun _ => all_append (by decide +kernel) ?_) (fun _ => all_nil)
          exact all_ite _ _ _ (fun _ => all_nil) (fun _ => by decide +kernel)
      · -- continuation
        rw [maxEntC]
        cases p.flags.maxEnt with
        | none => exact ⟨ho, trivial⟩
        | some f =>
          simp only [List.append_assoc]
          have secs : ∀ m : List Dir, .out ∈ m → (∀ x ∈ [Dir.meSiwk, .meGiwk, .meDens, .meMagn], x ∉ m) →
              okFrom m (secC f.sDga .meSiwk (contC .meSiwk "swk_dga" ++ (contC .meSiwk "gwk_dga" ++
                (kpaths.flatMap (fun k => [kfig .meSiwk ("gwk_dga_" ++ k) ("gwk_dga " ++ k), kfig .meSiwk ("gwk_dga_wfull_" ++ k) ("gwk_dga full " ++ k)]) ++
                [putAs .meSiwk "sigma_bub.npy" "sigma_bub", putAs .meSiwk "w_bub.npy" "w_bub", kfig .meSiwk "sigma_bub" "sigma_bub plot", meLogC]))) ++
                (secC f.gDga .meGiwk (contC .meGiwk "gwk_dga" ++ [meLogC]) ++
                (secC f.chiD .meDens (contC .meDens "chi_dens" ++ (kpaths.map (fun k => kfig .meDens ("chi_dens_" ++ k) ("chi_dens " ++ k)) ++ [meLogC])) ++
                (secC f.chiM .meMagn (contC .meMagn "chi_magn" ++ (kpaths.map (fun k => kfig .meMagn ("chi_dens_" ++ k) ("chi_magn " ++ k)) ++ [meLogC])) ++ [logC])))) := by
            intro m ho hx
            have last : ∀ m : List Dir, .out ∈ m → okFrom m [logC] := fun m h => ⟨h, trivial⟩
            have nm : ∀ m : List Dir, .out ∈ m → .meMagn ∉ m → okFrom m (secC f.chiM .meMagn (contC .meMagn "chi_magn" ++
                (kpaths.map (fun k => kfig .meMagn ("chi_dens_" ++ k) ("chi_magn " ++ k)) ++ [meLogC])) ++ [logC]) := by
              intro m h1 h2
              exact okFrom_sec _ _ _ _ h2 h1 (by decide +kernel) (last m h1) (last _ (by simp [h1]))
            have nd : ∀ m : List Dir, .out ∈ m → .meMagn ∉ m → .meDens ∉ m → okFrom m (secC f.chiD .meDens (contC .meDens "chi_dens" ++ (kpaths.map (fun k => kfig .meDens ("chi_dens_" ++ k) ("chi_dens " ++ k)) ++ [meLogC])) ++ (secC f.chiM .meMagn (contC .meMagn "chi_magn" ++
                (kpaths.map (fun k => kfig .meMagn ("chi_dens_" ++ k) ("chi_magn " ++ k)) ++ [meLogC])) ++ [logC])) := by
              intro m h1 h2 h3
              exact okFrom_sec _ _ _ _ h3 h1 (by decide +kernel) (nm m h1 h2) (nm _ (by simp [h1]) (by simp [h2]))
            have ng : ∀ m : List Dir, .out ∈ m → .meMagn ∉ m → .meDens ∉ m → .meGiwk ∉ m → okFrom m (secC f.gDga .meGiwk (contC .meGiwk "gwk_dga" ++ [meLogC]) ++ (secC f.chiD .meDens (contC .meDens "chi_dens" ++ (kpaths.map (fun k => kfig .meDens ("chi_dens_" ++ k) ("chi_dens " ++ k)) ++ [meLogC])) ++ (secC f.chiM .meMagn (contC .meMagn "chi_magn" ++
                (kpaths.map (fun k => kfig .meMagn ("chi_dens_" ++ k) ("chi_magn " ++ k)) ++ [meLogC])) ++ [logC]))) := by
              intro m h1 h2 h3 h4
              exact okFrom_sec _ _ _ _ h4 h1 (by decide +kernel) (nd m h1 h2 h3) (nd _ (by simp [h1]) (by simp [h2]) (by simp [h3]))
            have a1 := hx .meSiwk (by decide)
            have a2 := hx .meGiwk (by decide)
            have a3 := hx .meDens (by decide)
            have a4 := hx .meMagn (by decide)
            exact okFrom_sec _ _ _ _ a1 ho (by decide +kernel) (ng m ho a4 a3 a2) (ng _ (by simp [ho]) (by simp [a4]) (by simp [a3]) (by simp [a2]))
          have a0 := hme .meLoc (by decide)
          have rest : ∀ x ∈ [Dir.meSiwk, .meGiwk, .meDens, .meMagn], x ∉ m := fun x hx => hme x (List.mem_cons_of_mem _ hx)
          have locU : ∀ name bws fit, ∀ c ∈ locC name bws fit, usesOnly [.meLoc] c = true := by
            intro name bws fit
            refine all_append ?_ ?_
            · intro c hc
              rw [List.mem_flatMap] at hc
              obtain ⟨bw, _, hc⟩ := hc
              simp only [List.mem_cons, List.not_mem_nil, or_false] at hc
              rcases hc with rfl | rfl | rfl <;> rfl
            · refine all_ite _ _ _ (fun _ => ?_) (fun _ => all_nil)
              intro c hc
              simp only [List.mem_cons, List.not_mem_nil, or_false] at hc
              rcases hc with rfl | rfl <;> rfl
          refine ⟨ho, ?_⟩
          by_cases hl : f.loc = true
          · simp only [hl, if_true]
            refine ⟨a0, Or.inr ho, ?_⟩
            refine okFrom_skip (D := [.meLoc]) (by simp) (locU _ _ _) ?_
            refine okFrom_skip (D := [.meLoc]) (by simp) (locU _ _ _) ?_
            refine secs _ (by simp [ho]) ?_
            intro x hx hm
            rcases List.mem_cons.mp hm with rfl | hm
            · exact absurd hx (by decide)
            · exact rest x hx hm
          · simp only [hl]
            exact secs m ho rest
  by_cases hf : p.flags.polyFit = true
  · have : foldersC p.flags = [.mkdir .out, .mkdir .plots, .mkdir .poly, .mkdir .eliash, .mkdir .optics] := by simp [foldersC, hf]
    rw [this]
    refine okFrom_append (by decide) (main _ (by decide) (by decide) (by decide) (by decide) (fun _ => by decide) (by decide))
  · have : foldersC p.flags = [.mkdir .out, .mkdir .plots, .mkdir .eliash, .mkdir .optics] := by simp [foldersC, hf]
    rw [this]
    refine okFrom_append (by decide) (main _ (by decide) (by decide) (by decide) (by decide) (fun h => absurd h hf) (by decide))

/-! ### names that are no folders -/

theorem fixed_no_dir : ∀ c ∈ fixedC, ∀ e ∈ c.rel?, e.1 = .out → ∀ y ∈ [Dir.out, .plots, .poly, .eliash, .optics, .meLoc, .meSiwk, .meGiwk, .meDens, .meMagn],
    relName e.2 ≠ (dirName y).toList := by decide +kernel

theorem name_no_dir (p : Par) (r : Nat) (c : Cmd) (hc : c ∈ cmds p r) (rel : Str) (he : c.rel? = some (.out, rel)) (y : Dir) :
    relName rel ≠ (dirName y).toList := by
  rcases cmds_known p r c hc with h | ⟨rfl, h | h | ⟨i, h⟩ | ⟨bw, hb, h⟩⟩
  · simp only [rankC, List.mem_cons, List.not_mem_nil, or_false] at h
    have : rel = rankRel r := by rcases h with rfl | rfl <;> simp [Cmd.rel?] at he <;> exact he.symm
    subst this
    obtain ⟨t, ht, _, _, h4⟩ := rankRel_eq r
    rw [h4, ht]
    intro e
    cases y <;> simp [dirName] at e
  · exact fixed_no_dir c h (.out, rel) he rfl y (by cases y <;> decide)
  · exfalso
    simp only [gammaC, fig4, List.mem_cons, List.not_mem_nil, or_false] at h
    rcases h with rfl | rfl | rfl | rfl | rfl <;> simp [Cmd.rel?] at he
  · exfalso
    rcases h with rfl | rfl <;> simp [Cmd.rel?, gapC] at he
  · exfalso
    simp only [bwC, List.mem_cons, List.not_mem_nil, or_false] at h
    rcases h with (rfl | rfl) | (rfl | rfl) <;> simp [Cmd.rel?] at he

/-- entry of a folder in a new output folder -/
theorem fresh_key (h : PathTree res) {out : Str} (ho : out.getLast? = some '/') (x : Dir) (hx : x ≠ .out) :
    res (freshDirs out x) = res out ++ [(dirName x).toList] := by
  have hne : out ≠ [] := by intro e; simp [e] at ho
  have key : ∀ rel : Str, Proper (relName rel) → res (out ++ rel) = res out ++ [relName rel] := fun rel hp => res_rel h out rel ho hp
  have key2 : ∀ (pre name : Str), relName (pre ++ name) = name → Proper name →
      res (out ++ (pre ++ (name ++ ['/'])) ++ ['/']) = res out ++ [name] := by
    intro pre name hr hp
    have e : out ++ (pre ++ (name ++ ['/'])) = (out ++ (pre ++ name)) ++ ['/'] := by simp
    rw [h.slash _ (by simp [hne]), e, h.slash _ (by simp [hne]), key _ (by rw [hr]; exact hp), hr]
  have key3 : ∀ (name : Str), relName name = name → Proper name → res (out ++ name ++ ['/']) = res out ++ [name] := by
    intro name hr hp
    rw [h.slash _ (by simp [hne]), key _ (by rw [hr]; exact hp), hr]
  cases x with
  | out => exact absurd rfl hx
  | plots => exact key2 ['/'] "Plots".toList (by decide) (proper_of _ (by decide) (by decide))
  | poly => exact key2 ['/'] "PolyFits".toList (by decide) (proper_of _ (by decide) (by decide))
  | eliash => exact key2 [] "Eliashberg".toList (by decide) (proper_of _ (by decide) (by decide))
  | optics => exact key2 [] "Optics".toList (by decide) (proper_of _ (by decide) (by decide))
  | meLoc => exact key2 [] "MaxEnt".toList (by decide) (proper_of _ (by decide) (by decide))
  | meSiwk => exact key3 "MaxEntSiwk".toList (by decide) (proper_of _ (by decide) (by decide))
  | meGiwk => exact key3 "MaxEntGiwk".toList (by decide) (proper_of _ (by decide) (by decide))
  | meDens => exact key3 "MaxEntChiDens".toList (by decide) (proper_of _ (by decide) (by decide))
  | meMagn => exact key3 "MaxEntChiMagn".toList (by decide) (proper_of _ (by decide) (by decide))

/-- a file of a run is not one of its folders -/
theorem file_no_dir (h : PathTree res) {out : Str} (ho : out.getLast? = some '/') {p : Par} (hp : p.Ok)
    {r : Nat} {c : Cmd} (hc : c ∈ cmds p r) {x : Dir} {rel : Str} (he : c.rel? = some (x, rel)) (y : Dir) :
    target res (freshDirs out) c ≠ res (freshDirs out y) := by
  rw [target_file h ho (freshDirs_ok out) hp hc he]
  intro e
  by_cases hx : x = .out
  · subst hx
    by_cases hy : y = .out
    · subst hy; simp at e
    · rw [fresh_key h ho y hy] at e
      have : relName rel = (dirName y).toList := by simpa [freshDirs] using e
      exact name_no_dir p r c hc rel he y this
  · rw [fresh_key h ho x hx] at e
    by_cases hy : y = .out
    · subst hy
      have := congrArg List.length e
      simp [freshDirs] at this
    · rw [fresh_key h ho y hy] at e
      have := congrArg List.length e
      simp at this

/-! ### no access fails -/

/-- state of the disk when the folders in `m` have been made -/
structure Made (res : Str → List Str) (out : Str) (m : List Dir) (s : Disk V) : Prop where
  top : res out ≠ [] ∧ s (res out).dropLast = some .dir
  have' : ∀ x ∈ m, s (res (freshDirs out x)) = some .dir
  not : ∀ x, x ∉ m → s (res (freshDirs out x)) = none
  only : ∀ k, res out <+: k → s k = some .dir → ∃ x, k = res (freshDirs out x)

theorem hasParent_of {s : Disk V} {k : List Str} (hk : k ≠ []) (h : s k.dropLast = some .dir) : hasParent s k := ⟨hk, .dir, h, rfl⟩

theorem not_under_top {k : List Str} (hk : k ≠ []) : ¬ k <+: k.dropLast := by
  intro h
  have := h.length_le
  have := List.length_pos_iff.mpr hk
  rw [List.length_dropLast] at *
  omega

theorem run_from (h : PathTree res) {out : Str} (ho : out.getLast? = some '/') {p : Par} (hp : p.Ok) (evs : List (Event V))
    (hev : PartOfRun p evs) (m : List Dir) (s : Disk V) (hm : Made res out m s) (hok : okFrom m (evs.map (fun e => e.2.1))) :
    ∃ s', runCmds res (freshDirs out) s (evs.map Prod.snd) = some s' := by
  induction evs generalizing m s with
  | nil => exact ⟨s, rfl⟩
  | cons e evs ih =>
    have hev' : PartOfRun p evs := fun e he => hev e (List.mem_cons_of_mem _ he)
    have hc := hev e List.mem_cons_self
    obtain ⟨r, c, v⟩ := e
    have hd := freshDirs_ok out
    -- a file access leaves the folders alone
    have file : ∀ {s1 : Disk V}, (∀ y, target res (freshDirs out) c ≠ res (freshDirs out y)) →
        doCmd res (freshDirs out) s c v = some s1 → (s1 (target res (freshDirs out) c) ≠ some .dir) → Made res out m s1 := by
      intro s1 hne h1 hnd
      have fr := doCmd_frame h1
      refine ⟨⟨hm.top.1, ?_⟩, ?_, ?_, ?_⟩
      · rw [fr _ ?_]
        · exact hm.top.2
        · intro e
          have := target_under h ho hd hp hc
          rw [← e] at this
          exact not_under_top hm.top.1 this
      · intro x hx; rw [fr _ (fun e => hne x e.symm)]; exact hm.have' x hx
      · intro x hx; rw [fr _ (fun e => hne x e.symm)]; exact hm.not x hx
      · intro k hk hs
        by_cases hkt : k = target res (freshDirs out) c
        · subst hkt; exact absurd hs hnd
        · rw [fr k hkt] at hs; exact hm.only k hk hs
    have under := target_under h ho hd hp hc
    cases c with
    | mkdir x =>
      obtain ⟨hx, hxo, hrest⟩ := hok
      have hpar : hasParent s (res (freshDirs out x)) := by
        by_cases hx0 : x = .out
        · subst hx0; exact hasParent_of hm.top.1 hm.top.2
        · have e := fresh_key h ho x hx0
          rw [e]
          refine hasParent_of (by simp) ?_
          rw [List.dropLast_concat]
          rcases hxo with rfl | hxo
          · exact absurd rfl hx0
          · simpa [freshDirs] using hm.have' .out hxo
      have h1 : doCmd res (freshDirs out) s (.mkdir x) v = some (setKey s (res (freshDirs out x)) (some .dir)) := by
        have hn : s (target res (freshDirs out) (.mkdir x)) = none := hm.not x hx
        have hpar' : hasParent s (target res (freshDirs out) (.mkdir x)) := hpar
        simp only [doCmd]
        unfold doMkdir
        rw [hn]
        dsimp only
        rw [if_pos hpar']
        rfl
      have hm1 : Made res out (x :: m) (setKey s (res (freshDirs out x)) (some .dir)) := by
        refine ⟨⟨hm.top.1, ?_⟩, ?_, ?_, ?_⟩
        · rw [doCmd_frame h1]
          · exact hm.top.2
          · intro e
            rw [← e] at under
            exact not_under_top hm.top.1 under
        · intro y hy
          simp only [setKey]
          split
          · rfl
          · next hne =>
            rcases List.mem_cons.mp hy with rfl | hy
            · exact absurd rfl hne
            · exact hm.have' y hy
        · intro y hy
          rw [List.mem_cons, not_or] at hy
          simp only [setKey]
          rw [if_neg]
          · exact hm.not y hy.2
          · intro e; exact hy.1 (dir_inj h ho hd e)
        · intro k hk hs
          simp only [setKey] at hs
          split at hs
          · next e => exact ⟨x, e⟩
          · exact hm.only k hk hs
      obtain ⟨s', hs'⟩ := ih hev' (x :: m) _ hm1 hrest
      exact ⟨s', runCmds_cons.mpr ⟨_, h1, hs'⟩⟩
    | put x rel val =>
      obtain ⟨hx, hrest⟩ := hok
      have hne := fun y => file_no_dir h ho hp hc (x := x) (rel := rel) rfl y
      have t := target_file h ho hd hp hc (x := x) (rel := rel) rfl
      have hpar : hasParent s (target res (freshDirs out) (.put x rel val)) := by
        rw [t]
        refine hasParent_of (by simp) ?_
        rw [List.dropLast_concat]; exact hm.have' x hx
      have hnd : s (target res (freshDirs out) (.put x rel val)) ≠ some .dir := by
        intro e
        obtain ⟨y, hy⟩ := hm.only _ under e
        exact hne y hy
      have h1 : doCmd res (freshDirs out) s (.put x rel val) v =
          some (setKey s (target res (freshDirs out) (.put x rel val)) (some (.file v))) := by
        simp only [doCmd]
        unfold doWrite
        rw [if_pos hpar]
        split
        · next e => exact absurd e hnd
        · rfl
      obtain ⟨s', hs'⟩ := ih hev' m _ (file hne h1 (by simp [setKey])) hrest
      exact ⟨s', runCmds_cons.mpr ⟨_, h1, hs'⟩⟩
    | del x rel =>
      obtain ⟨hx, hrest⟩ := hok
      have hne := fun y => file_no_dir h ho hp hc (x := x) (rel := rel) rfl y
      have hnd : s (target res (freshDirs out) (.del x rel)) ≠ some .dir := by
        intro e
        obtain ⟨y, hy⟩ := hm.only _ under e
        exact hne y hy
      obtain ⟨s1, h1⟩ : ∃ s1, doCmd res (freshDirs out) s (.del x rel) v = some s1 := by
        simp only [doCmd, doRemove]
        split
        · next e => exact absurd e hnd
        · exact ⟨_, rfl⟩
        · exact ⟨_, rfl⟩
      have := doCmd_effect h1
      obtain ⟨s', hs'⟩ := ih hev' m _ (file hne h1 (by rw [this]; simp [effect])) hrest
      exact ⟨s', runCmds_cons.mpr ⟨_, h1, hs'⟩⟩

/-- what a rank other than 0 does -/
theorem other_rank {p : Par} {r : Nat} {c : Cmd} (hc : c ∈ cmds p r) (h0 : r ≠ 0) : c ∈ rankC r := by
  rcases cmds_known p r c hc with h | ⟨h, _⟩
  · exact h
  · exact absurd h h0

/-- the order of all events follows from the order on rank 0 and the barrier -/
theorem order_of_rank0 {p : Par} (evs : List (Event V)) (hev : PartOfRun p evs) (m : List Dir)
    (h0 : okFrom m ((evs.filter (fun e => e.1 = 0)).map (fun e => e.2.1)))
    (hb : ∀ l e l', evs = l ++ e :: l' → e.1 ≠ 0 → .out ∈ m ∨ ∃ v, (0, Cmd.mkdir .out, v) ∈ l) : okFrom m (evs.map (fun e => e.2.1)) := by
  induction evs generalizing m with
  | nil => trivial
  | cons e evs ih =>
    have hev' : PartOfRun p evs := fun e he => hev e (List.mem_cons_of_mem _ he)
    have hc := hev e List.mem_cons_self
    obtain ⟨r, c, v⟩ := e
    by_cases hr : r = 0
    · subst hr
      rw [List.filter_cons_of_pos (by simp), List.map_cons] at h0
      rw [List.map_cons]
      cases c with
      | mkdir x =>
        refine ⟨h0.1, h0.2.1, ih hev' _ h0.2.2 ?_⟩
        intro l e l' he hne
        rcases hb ((0, .mkdir x, v) :: l) e l' (by rw [he]; rfl) hne with h | ⟨w, h⟩
        · exact Or.inl (List.mem_cons_of_mem _ h)
        · rcases List.mem_cons.mp h with h | h
          · left
            simp only [Prod.mk.injEq, Cmd.mkdir.injEq, true_and] at h
            rw [← h.1]; exact List.mem_cons_self
          · exact Or.inr ⟨w, h⟩
      | put x rel val =>
        refine ⟨h0.1, ih hev' _ h0.2 ?_⟩
        intro l e l' he hne
        rcases hb ((0, .put x rel val, v) :: l) e l' (by rw [he]; rfl) hne with h | ⟨w, h⟩
        · exact Or.inl h
        · rcases List.mem_cons.mp h with h | h
          · simp at h
          · exact Or.inr ⟨w, h⟩
      | del x rel =>
        refine ⟨h0.1, ih hev' _ h0.2 ?_⟩
        intro l e l' he hne
        rcases hb ((0, .del x rel, v) :: l) e l' (by rw [he]; rfl) hne with h | ⟨w, h⟩
        · exact Or.inl h
        · rcases List.mem_cons.mp h with h | h
          · simp at h
          · exact Or.inr ⟨w, h⟩
    · rw [List.filter_cons_of_neg (by simpa using hr)] at h0
      have hm : .out ∈ m := by
        rcases hb [] (r, c, v) evs rfl hr with h | ⟨w, h⟩
        · exact h
        · simp at h
      have rest := ih hev' m h0 (fun l e l' _ _ => Or.inl hm)
      have hk := other_rank hc hr
      simp only [rankC, List.mem_cons, List.not_mem_nil, or_false] at hk
      rcases hk with rfl | rfl
      · exact ⟨hm, rest⟩
      · exact ⟨hm, rest⟩

theorem Execution.part {p : Par} {evs : List (Event V)} (h : Execution p evs) : PartOfRun p evs := by
  intro e he
  have : e.2.1 ∈ (evs.filter (fun e' => e'.1 = e.1)).map (fun e => e.2.1) :=
    List.mem_map.mpr ⟨e, by simp [he], rfl⟩
  exact (h.program e.1).subset this

/-- C125.  No access fails: in every execution (any parameters, any number of ranks, any interleaving allowed by the barrier, stopped
    anywhere), started where the output folder does not exist and its parent folder does, every folder can be made and every file can
    be written and deleted. -/
theorem run_succeeds (h : PathTree res) {out : Str} (ho : out.getLast? = some '/') {p : Par} (hp : p.Ok) (evs : List (Event V))
    (hex : Execution p evs) {s : Disk V} (hs : s.WF) (hnew : s (res out) = none) (hne : res out ≠ [])
    (hpar : s (res out).dropLast = some .dir) : ∃ s', runCmds res (freshDirs out) s (evs.map Prod.snd) = some s' := by
  have below : ∀ k, res out <+: k → s k = none := fun k hk => fresh_below hs hnew k hk
  refine run_from h ho hp evs hex.part [] s ⟨⟨hne, hpar⟩, by simp, fun x _ => below _ (dir_prefix h ho (freshDirs_ok out) x), ?_⟩ ?_
  · intro k hk e; rw [below k hk] at e; simp at e
  · refine order_of_rank0 evs hex.part [] ?_ (fun l e l' he hn => Or.inr (hex.barrier l e l' he hn))
    obtain ⟨t, ht⟩ := hex.program 0
    exact okFrom_prefix (b := t) (by rw [ht]; exact program_order p)

/-! ### what is written is found under its name -/

theorem fixed_none : ∀ c ∈ fixedC, ∀ e ∈ c.rel?, e.1 = .out → c.val? = none → relName e.2 ∈ ["dga.log".toList, "max_ent.log".toList] := by
  decide +kernel

theorem fixed_none_out : ∀ c ∈ fixedC, ∀ e ∈ c.rel?, c.val? = none → e.1 = .out ∨ c = .del .eliash "/F_sing_pp.npy".toList ∨
    c = .del .eliash "/F_trip_pp.npy".toList ∨ c = .del .optics "/F_cond.npy".toList := by decide +kernel

theorem fixed_some : ∀ c ∈ fixedC, ∀ e ∈ c.val?, e.1 = .out → relName e.2.1 ∉ ["dga.log".toList, "max_ent.log".toList] := by decide +kernel

/-- files that are rewritten on purpose: the two logs and the rank files -/
theorem rewritten {p : Par} {r : Nat} {x : Dir} {rel : Str} (hc : Cmd.put x rel none ∈ cmds p r) :
    x = .out ∧ (relName rel ∈ ["dga.log".toList, "max_ent.log".toList] ∨ rel = rankRel r) := by
  rcases cmds_known p r _ hc with h | ⟨rfl, h | h | ⟨i, h⟩ | ⟨bw, hb, h⟩⟩
  · simp [rankC] at h; exact ⟨h.1, Or.inr h.2⟩
  · have ho : x = .out := by
      rcases fixed_none_out _ h (x, rel) rfl rfl with h | h | h | h
      · exact h
      · simp at h
      · simp at h
      · simp at h
    exact ⟨ho, Or.inl (fixed_none _ h (x, rel) rfl ho rfl)⟩
  · simp [gammaC, fig4] at h
  · simp [gapC] at h
  · simp [bwC] at h

/-- C125.  What a run deletes: the file of the deleting rank, and on rank 0 the pairing vertices and the conductivity vertex if they
    are not to be kept. -/
theorem deletes_only {p : Par} {r : Nat} {x : Dir} {rel : Str} (hc : Cmd.del x rel ∈ cmds p r) :
    (x = .out ∧ rel = rankRel r ∧ p.flags.keepRank = false) ∨
    (r = 0 ∧ x = .eliash ∧ rel ∈ ["/F_sing_pp.npy".toList, "/F_trip_pp.npy".toList] ∧ p.flags.eliash = true ∧ p.flags.keepPairing = false) ∨
    (r = 0 ∧ x = .optics ∧ rel = "/F_cond.npy".toList ∧ p.flags.opticsSec = true ∧ p.flags.keepFq = false) := by
  have noDel : ∀ {l : List Cmd}, (∀ c ∈ l, c.rel? = none ∨ c matches .put _ _ _) → Cmd.del x rel ∉ l := by
    intro l hl hm
    rcases hl _ hm with h | h
    · simp [Cmd.rel?] at h
    · simp at h
  have hite : ∀ {b : Prop} [Decidable b] {l : List Cmd} {c : Cmd}, c ∈ (if b then l else []) → b ∧ c ∈ l := by
    intro b _ l c h
    by_cases hb : b
    · rw [if_pos hb] at h; exact ⟨hb, h⟩
    · rw [if_neg hb] at h; simp at h
  simp only [cmds, List.mem_append] at hc
  rcases hc with (((hc | hc) | hc) | hc) | hc
  · exfalso
    have hc := (hite hc).2
    simp only [List.mem_append] at hc
    rcases hc with ((hc | hc) | hc) | hc
    · simp only [foldersC, List.mem_append] at hc
      rcases hc with (hc | hc) | hc
      · simp at hc
      · simpa using (hite hc).2
      · simp at hc
    · exact noDel (by decide +kernel) hc
    · exact noDel (by decide +kernel) (hite hc).2
    · rw [localC] at hc
      split at hc
      · simp only [List.mem_append] at hc
        rcases hc with (hc | hc) | hc
        · exact noDel (by decide +kernel) hc
        · simp [gammaC, fig4] at hc
        · exact noDel (by decide +kernel) hc
      · exact noDel (by decide +kernel) hc
  · exfalso
    simp only [ladderC, List.mem_append] at hc
    rcases hc with ((hc | hc) | hc) | hc
    · simp at hc
    · simpa using (hite hc).2
    · simpa using (hite hc).2
    · exact noDel (by decide +kernel) (hite hc).2
  · exfalso
    have hc := (hite hc).2
    rw [List.mem_append] at hc
    rcases hc with hc | hc
    · exact noDel (by decide +kernel) hc
    · simp only [buildC, List.mem_append] at hc
      rcases hc with ((hc | hc) | hc) | hc
      · exact noDel (by decide +kernel) (hite hc).2
      · exact noDel (by decide +kernel) (hite hc).2
      · exact noDel (by decide +kernel) (hite hc).2
      · exact noDel (by decide +kernel) hc
  · simp only [sdeC, List.mem_append] at hc
    rcases hc with (hc | hc) | hc
    · exfalso
      have hc := (hite hc).2
      simp only [List.mem_append] at hc
      rcases hc with (hc | hc) | hc
      · exact noDel (by decide +kernel) (hite hc).2
      · exact noDel (by decide +kernel) hc
      · exact noDel (by decide +kernel) (hite hc).2
    · left
      cases hk : p.flags.keepRank <;> simp [hk] at hc
      exact ⟨hc.1, hc.2, rfl⟩
    · exfalso
      have hc := (hite hc).2
      rw [List.mem_append] at hc
      rcases hc with hc | hc
      · exact noDel (by decide +kernel) hc
      · exact noDel (by decide +kernel) (hite hc).2
  · obtain ⟨rfl, hc'⟩ := hite hc
    replace hc := hc'
    simp only [List.mem_append] at hc
    rcases hc with ((hc | hc) | hc) | hc
    · obtain ⟨he, hc⟩ := hite hc
      simp only [List.mem_append] at hc
      rcases hc with (((hc | hc) | hc) | hc) | hc
      · exact absurd hc (noDel (by decide +kernel))
      · exact absurd (hite hc).2 (noDel (by decide +kernel))
      · exact absurd hc (noDel (by decide +kernel))
      · simp [gapC] at hc
      · right; left
        cases hk : p.flags.keepPairing <;> simp [hk, cleanData] at hc
        rcases hc with ⟨rfl, rfl⟩ | ⟨rfl, rfl⟩ <;> exact ⟨rfl, rfl, by decide, he, rfl⟩
    · simp only [opticsC, List.mem_append] at hc
      rcases hc with ((hc | hc) | hc) | hc
      · exact absurd (hite hc).2 (noDel (by decide +kernel))
      · exact absurd (hite hc).2 (noDel (by decide +kernel))
      · exact absurd (hite hc).2 (noDel (by decide +kernel))
      · obtain ⟨hs, hc⟩ := hite hc
        rw [List.mem_append] at hc
        rcases hc with hc | hc
        · exact absurd hc (noDel (by decide +kernel))
        · have hc := (hite hc).2
          rw [List.mem_append] at hc
          rcases hc with hc | hc
          · exact absurd hc (noDel (by decide +kernel))
          · right; right
            cases hk : p.flags.keepFq <;> simp [hk, cleanData] at hc
            obtain ⟨rfl, rfl⟩ := hc
            exact ⟨rfl, rfl, by decide, hs, rfl⟩
    · exfalso
      rw [maxEntC] at hc
      split at hc
      · simp at hc
      · simp only [List.mem_append] at hc
        have loc : ∀ name bws fit, Cmd.del x rel ∉ locC name bws fit := by
          intro name bws fit hm
          simp only [locC, List.mem_append, List.mem_flatMap] at hm
          rcases hm with ⟨bw, _, hm⟩ | hm
          · simp [putAs] at hm
          · simpa using (hite hm).2
        have sec : ∀ s d body, (∀ c ∈ body, c.rel? = none ∨ c matches .put _ _ _) → Cmd.del x rel ∉ secC s d body := by
          intro s d body hb hm
          cases s with
          | none => simp [secC] at hm
          | some b =>
            cases b
            · simp [secC] at hm
            · simp only [secC, if_true, List.mem_cons, reduceCtorEq, false_or] at hm
              exact noDel hb hm
        rcases hc with ((((((hc | hc) | hc) | hc) | hc) | hc) | hc)
        · exact noDel (by decide +kernel) hc
        · have := (hite hc).2
          rw [List.mem_cons] at this
          rcases this with h | h
          · simp at h
          · exact loc _ _ _ h
        · exact loc _ _ _ (hite hc).2
        · exact sec _ _ _ (by decide +kernel) hc
        · exact sec _ _ _ (by decide +kernel) hc
        · exact sec _ _ _ (by decide +kernel) hc
        · exact sec _ _ _ (by decide +kernel) hc
    · exact absurd hc (noDel (by decide +kernel))

/-- C125.  Once a result `v` has been written, its file holds that result for the rest of the execution — the content of the last
    write of `v` — unless the run deletes the file itself; the one exception is the check plot `chi_dens_magn_lad_q_tilde.png`. -/
theorem written_stays (h : PathTree res) {out : Str} (ho : out.getLast? = some '/') {d : Dirs} (hd : DirsOk out d) {p : Par} (hp : p.Ok)
    (l l' : List (Event V)) {r : Nat} {x : Dir} {rel : Str} {v : String} {w : V}
    (hev : PartOfRun p (l ++ (r, .put x rel (some v), w) :: l')) {s s' : Disk V}
    (hrun : runCmds res d s ((l ++ (r, .put x rel (some v), w) :: l').map Prod.snd) = some s')
    (hdel : ∀ e ∈ l', ∀ y rel', e.2.1 = Cmd.del y rel' → res (d y ++ rel') ≠ res (d x ++ rel))
    (hname : res (d x ++ rel) ≠ res (d .plots) ++ ["chi_dens_magn_lad_q_tilde.png".toList]) :
    ∃ w', s' (res (d x ++ rel)) = some (.file w') ∧
      (w' = w ∨ ∃ r' x' rel', (r', Cmd.put x' rel' (some v), w') ∈ l') := by
  have hc0 : Cmd.put x rel (some v) ∈ cmds p r := hev (r, .put x rel (some v), w) (by simp)
  -- what later accesses to the file can be
  have later : ∀ e ∈ l', target res d e.2.1 = res (d x ++ rel) →
      (∃ y, e.2.1 = Cmd.mkdir y) ∨ ∃ x' rel', e.2.1 = Cmd.put x' rel' (some v) := by
    intro e he ht
    have hc : e.2.1 ∈ cmds p e.1 := hev e (by simp [he])
    have hr : e.1 = r := by
      by_contra hne
      exact ranks_disjoint h ho hd hp hne hc hc0 ht
    have h0 : r = 0 := by
      rcases cmds_known p r _ hc0 with hk | ⟨h0, _⟩
      · simp [rankC] at hk
      · exact h0
    subst h0
    rw [hr] at hc
    have t0 := target_file h ho hd hp hc0 (x := x) (rel := rel) rfl
    simp only [target] at t0
    generalize hce : e.2.1 = c at *
    cases c with
    | mkdir y => exact Or.inl ⟨y, rfl⟩
    | put y rel' val =>
      cases val with
      | some v' =>
        rcases one_value_per_file h ho hd hp hc0 hc (by rw [← ht]; rfl) with rfl | ht'
        · exact Or.inr ⟨y, rel', rfl⟩
        · exact absurd ht' hname
      | none =>
        exfalso
        obtain ⟨rfl, hn⟩ := rewritten hc
        rw [target_file h ho hd hp hc (x := .out) (rel := rel') rfl, t0] at ht
        have e2 := file_file h ho hd ht
        obtain ⟨rfl, e2⟩ := e2
        rcases hn with hn | rfl
        · rcases cmds_known p 0 _ hc0 with hk | ⟨_, hk | hk | ⟨i, hk⟩ | ⟨bw, hb, hk⟩⟩
          · simp [rankC] at hk
          · exact fixed_some _ hk (.out, rel, v) rfl rfl (by rw [← e2]; exact hn)
          · simp [gammaC, fig4] at hk
          · simp [gapC] at hk
          · simp [bwC] at hk
        · rcases (cmds_names p hp 0 _ hc0 .out rel rfl).2 with ⟨_, rfl⟩ | ⟨_, hq⟩
          · rcases cmds_known p 0 _ hc0 with hk | ⟨_, hk | hk | ⟨i, hk⟩ | ⟨bw, hb, hk⟩⟩
            · simp [rankC] at hk
            · have := fixed_names _ hk (.out, rankRel 0) rfl
              exact this.2.2 rfl (by rw [(rankRel_eq 0).choose_spec.2.2.2, (rankRel_eq 0).choose_spec.1]; rfl)
            · simp [gammaC, fig4] at hk
            · simp [gapC] at hk
            · simp [bwC] at hk
          · refine hq rfl ?_
            rw [← e2, (rankRel_eq 0).choose_spec.2.2.2, (rankRel_eq 0).choose_spec.1]; rfl
    | del y rel' => exact absurd ht (hdel e he y rel' hce)
  clear hev hdel
  -- the remaining accesses keep a file that holds `v`
  have gen : ∀ (s1 : Disk V) (w0 : V), s1 (res (d x ++ rel)) = some (.file w0) → runCmds res d s1 (l'.map Prod.snd) = some s' →
      ∃ w', s' (res (d x ++ rel)) = some (.file w') ∧ (w' = w0 ∨ ∃ r' x' rel', (r', Cmd.put x' rel' (some v), w') ∈ l') := by
    clear hrun
    induction l' with
    | nil => exact fun s1 w0 h0 hr => ⟨w0, by simp [runCmds] at hr; rw [← hr]; exact h0, Or.inl rfl⟩
    | cons e l' ih =>
      intro s1 w0 h0 hr
      have ih := ih (fun e he => later e (List.mem_cons_of_mem _ he))
      rw [List.map_cons] at hr
      obtain ⟨s2, h1, h2⟩ := runCmds_cons.mp hr
      by_cases ht : target res d e.2.1 = res (d x ++ rel)
      · rcases later e List.mem_cons_self ht with ⟨y, hce⟩ | ⟨x', rel', hce⟩
        · exfalso
          rw [hce] at h1 ht
          simp only [doCmd, ht, doMkdir, h0] at h1
          simp at h1
        · have := doCmd_effect h1
          rw [ht, hce] at this
          obtain ⟨w', g1, g2⟩ := ih s2 e.2.2 this h2
          refine ⟨w', g1, ?_⟩
          rcases g2 with rfl | ⟨r', x'', rel'', hm⟩
          · exact Or.inr ⟨e.1, x', rel', by rw [← hce]; simp⟩
          · exact Or.inr ⟨r', x'', rel'', List.mem_cons_of_mem _ hm⟩
      · obtain ⟨w', g1, g2⟩ := ih s2 w0 (by rw [doCmd_frame h1 _ (fun e => ht e.symm)]; exact h0) h2
        refine ⟨w', g1, ?_⟩
        rcases g2 with rfl | ⟨r', x'', rel'', hm⟩
        · exact Or.inl rfl
        · exact Or.inr ⟨r', x'', rel'', List.mem_cons_of_mem _ hm⟩
  -- split at the write
  rw [List.map_append, runCmds, List.foldlM_append] at hrun
  simp only [Option.bind_eq_bind, Option.bind_eq_some_iff] at hrun
  obtain ⟨s0, _, hrun⟩ := hrun
  rw [List.map_cons] at hrun
  obtain ⟨s1, h1, h2⟩ := runCmds_cons.mp hrun
  exact gen s1 w (doCmd_effect h1) h2

end DGA.Wr
