/-
  C08, C09, C51 for every list of known symmetry names, in any order and with repetitions (not only the predefined sets).
-/
import Verif.Bz.Props
import Mathlib.Order.MinMax
import Mathlib.Order.Nat

namespace DGA.Bz

theorem fold_le (n i : Nat) : fold n i ≤ i := by unfold fold; split <;> omega

/-- the value stored at every grid point is the index of a point symmetry equivalent to it, and not larger than its own -/
def Labels (nx ny nz : Nat) (syms : List Sym) (F : Nat → Nat → Nat → Nat) : Prop :=
  ∀ p, InGrid nx ny nz p → F p.1 p.2.1 p.2.2 ≤ linP ny nz p ∧ ∃ r, Related nx ny nz syms p r ∧ F p.1 p.2.1 p.2.2 = linP ny nz r

theorem labels_step (nx ny nz : Nat) (syms : List Sym) (F : Nat → Nat → Nat → Nat) (hF : Labels nx ny nz syms F) (s : Sym) (hs : s ∈ syms)
    (hk : ∀ name, s ≠ .other name) :
    ∃ F', applySym nx ny (table nx ny nz F) s = some (table nx ny nz F') ∧ Labels nx ny nz syms F' := by
  -- the new value at `p` is the old one at `q`, where `q` is `p` or its image and not behind `p` in the list
  have key : ∀ p q, InGrid nx ny nz p → (q = p ∨ q = image nx ny nz s p) → linP ny nz q ≤ linP ny nz p →
      F q.1 q.2.1 q.2.2 ≤ linP ny nz p ∧ ∃ r, Related nx ny nz syms p r ∧ F q.1 q.2.1 q.2.2 = linP ny nz r := by
    intro p q hp hq hle
    have hrel : Related nx ny nz syms p q := by
      rcases hq with rfl | rfl
      · exact .refl
      · exact .step hs .refl
    obtain ⟨h1, r, h2, h3⟩ := hF q (related_inGrid hp hrel)
    exact ⟨h1.trans hle, r, related_trans hrel h2, h3⟩
  cases s with
  | xInv =>
    refine ⟨_, inv0_table nx ny nz F, ?_⟩
    rintro ⟨i, j, k⟩ hp
    obtain ⟨h1, h2, h3⟩ := hp
    simp only at h1 h2 h3
    refine key (i, j, k) (fold nx i, j, k) ⟨h1, h2, h3⟩ ?_ (lin_mono ny nz _ _ _ _ _ _ (fold_le nx i) (le_refl _) (le_refl _))
    rcases fold_eq_or nx i h1 with e | e <;> rw [e]
    · exact .inl rfl
    · exact .inr rfl
  | yInv =>
    refine ⟨_, invA1_table nx ny nz F, ?_⟩
    rintro ⟨i, j, k⟩ hp
    obtain ⟨h1, h2, h3⟩ := hp
    simp only at h1 h2 h3
    refine key (i, j, k) (i, fold ny j, k) ⟨h1, h2, h3⟩ ?_ (lin_mono ny nz _ _ _ _ _ _ (le_refl _) (fold_le ny j) (le_refl _))
    rcases fold_eq_or ny j h2 with e | e <;> rw [e]
    · exact .inl rfl
    · exact .inr rfl
  | zInv =>
    refine ⟨_, invA2_table nx ny nz F, ?_⟩
    rintro ⟨i, j, k⟩ hp
    obtain ⟨h1, h2, h3⟩ := hp
    simp only at h1 h2 h3
    refine key (i, j, k) (i, j, fold nz k) ⟨h1, h2, h3⟩ ?_ (lin_mono ny nz _ _ _ _ _ _ (le_refl _) (le_refl _) (fold_le nz k))
    rcases fold_eq_or nz k h3 with e | e <;> rw [e]
    · exact .inl rfl
    · exact .inr rfl
  | xySym =>
    by_cases hn : nx = ny
    · subst hn
      refine ⟨_, (xySym_table nx nx nz F).trans (by rw [if_pos rfl]), ?_⟩
      rintro ⟨i, j, k⟩ hp
      obtain ⟨h1, r1, h2, h3⟩ := hF (i, j, k) hp
      have himg : image nx nx nz .xySym (i, j, k) = (j, i, k) := by simp [image]
      have hrel : Related nx nx nz syms (i, j, k) (j, i, k) := himg ▸ Related.step hs .refl
      obtain ⟨g1, r2, g2, g3⟩ := hF (j, i, k) (related_inGrid hp hrel)
      simp only at h1 h3 g1 g3 ⊢
      refine ⟨(min_le_left _ _).trans h1, ?_⟩
      rcases min_choice (F i j k) (F j i k) with e | e <;> rw [e]
      · exact ⟨r1, h2, h3⟩
      · exact ⟨r2, related_trans hrel g2, g3⟩
    · exact ⟨F, (xySym_table nx ny nz F).trans (by rw [if_neg hn]), hF⟩
  | xyInv =>
    refine ⟨_, xyInv_table nx ny nz F, ?_⟩
    rintro ⟨i, j, k⟩ hp
    obtain ⟨h1, h2, h3⟩ := hp
    simp only at h1 h2 h3
    by_cases hc : nx / 2 < i ∧ 1 ≤ j
    · simp only [if_pos hc]
      refine key (i, j, k) (nx - i, ny - j, k) ⟨h1, h2, h3⟩ (.inr ?_) ?_
      · simp only [image]
        rw [Nat.mod_eq_of_lt (by omega), Nat.mod_eq_of_lt (by omega)]
      · unfold linP
        have a1 : nx - i + 1 ≤ i := by omega
        have a2 := Nat.mul_le_mul_right ny a1
        rw [Nat.add_mul, Nat.one_mul] at a2
        have a3 := Nat.mul_le_mul_right nz (show (nx - i) * ny + (ny - j) ≤ i * ny + j by omega)
        simp only
        omega
    · simp only [if_neg hc]
      exact hF (i, j, k) ⟨h1, h2, h3⟩
  | other name => exact absurd rfl (hk name)

theorem labels_fold (nx ny nz : Nat) (syms : List Sym) : ∀ (l : List Sym), (∀ s ∈ l, s ∈ syms) → (∀ name, .other name ∉ l) →
    ∀ F, Labels nx ny nz syms F → ∃ F', applySyms nx ny (table nx ny nz F) l = some (table nx ny nz F') ∧ Labels nx ny nz syms F'
  | [], _, _, F, hF => ⟨F, rfl, hF⟩
  | s :: l, hl, hn, F, hF => by
    obtain ⟨F1, h1, h2⟩ := labels_step nx ny nz syms F hF s (hl s (by simp)) fun name e => hn name (by simp [e])
    obtain ⟨F2, h3, h4⟩ := labels_fold nx ny nz syms l (fun t ht => hl t (by simp [ht])) (fun name ht => hn name (by simp [ht])) F1 h2
    refine ⟨F2, ?_, h4⟩
    unfold applySyms at h3 ⊢
    rw [List.foldlM_cons, h1]
    exact h3

theorem labels_exist (nx ny nz : Nat) (syms : List Sym) (hn : ∀ name, .other name ∉ syms) :
    ∃ F, fbz2irrk nx ny nz syms = some (table nx ny nz F) ∧ Labels nx ny nz syms F := by
  unfold fbz2irrk
  rw [start_table]
  exact labels_fold nx ny nz syms syms (fun _ h => h) hn _ fun p _ => ⟨le_refl _, p, .refl, rfl⟩

theorem no_other_of_some (nx ny nz : Nat) (syms : List Sym) (m : Arr3 Nat) (hm : fbz2irrk nx ny nz syms = some m) :
    ∀ name, Sym.other name ∉ syms := by
  intro name h
  obtain ⟨a, b, rfl⟩ := List.append_of_mem h
  rw [unknown_symmetry_raises] at hm
  cases hm

/-- C08, for any list of symmetry names: the map exists exactly when every name is known, on every grid; the value stored at a grid point is the
    index of a point that the listed operations reach from it, never larger than the index of the point itself. -/
theorem irrk_any_list (nx ny nz : Nat) (syms : List Sym) :
    ((∃ m, fbz2irrk nx ny nz syms = some m) ↔ ∀ name, .other name ∉ syms) ∧
    ∀ m, fbz2irrk nx ny nz syms = some m → ∀ p, InGrid nx ny nz p →
      ∃ r, Related nx ny nz syms p r ∧ at3 m p.1 p.2.1 p.2.2 = some (linP ny nz r) ∧ linP ny nz r ≤ linP ny nz p := by
  refine ⟨⟨fun ⟨m, hm⟩ => no_other_of_some nx ny nz syms m hm, fun h => ?_⟩, fun m hm p hp => ?_⟩
  · obtain ⟨F, hF, -⟩ := labels_exist nx ny nz syms h
    exact ⟨_, hF⟩
  · obtain ⟨F, hF, hL⟩ := labels_exist nx ny nz syms (no_other_of_some nx ny nz syms m hm)
    rw [hF, Option.some.injEq] at hm
    subst hm
    obtain ⟨h1, r, h2, h3⟩ := hL p hp
    exact ⟨r, h2, by rw [at3_table _ _ _ _ _ _ _ hp.1 hp.2.1 hp.2.2, h3], h3 ▸ h1⟩

/-- the index map as a function of the grid point: points with equal value are equivalent -/
theorem label_any (nx ny nz : Nat) (syms : List Sym) (m : Arr3 Nat) (hm : fbz2irrk nx ny nz syms = some m) :
    ∃ label : Nat → Nat → Nat → Nat, m = table nx ny nz label ∧
      ∀ p q, InGrid nx ny nz p → InGrid nx ny nz q → label p.1 p.2.1 p.2.2 = label q.1 q.2.1 q.2.2 → Related nx ny nz syms p q := by
  obtain ⟨F, hF, hL⟩ := labels_exist nx ny nz syms (no_other_of_some nx ny nz syms m hm)
  rw [hF, Option.some.injEq] at hm
  refine ⟨F, hm.symm, fun p q hp hq he => ?_⟩
  obtain ⟨-, r, h2, h3⟩ := hL p hp
  obtain ⟨-, r', h2', h3'⟩ := hL q hq
  have : r = r' := linP_inj nx ny nz r r' (related_inGrid hp h2) (related_inGrid hq h2') (by rw [← h3, ← h3', he])
  subst this
  exact related_trans h2 (related_symm hq h2')

/-- C08, for any list of symmetry names: points with the same value are symmetry equivalent (so nothing that has the symmetry is lost by
    identifying them). The converse holds for the predefined sets (`irrk_share_iff`) and fails for others (`xyInversion_incomplete`). -/
theorem irrk_share_related (nx ny nz : Nat) (syms : List Sym) (m : Arr3 Nat) (hm : fbz2irrk nx ny nz syms = some m) (p q : Pt)
    (hp : InGrid nx ny nz p) (hq : InGrid nx ny nz q) (h : at3 m p.1 p.2.1 p.2.2 = at3 m q.1 q.2.1 q.2.2) : Related nx ny nz syms p q := by
  obtain ⟨F, rfl, hF⟩ := label_any nx ny nz syms m hm
  rw [at3_table _ _ _ _ _ _ _ hp.1 hp.2.1 hp.2.2, at3_table _ _ _ _ _ _ _ hq.1 hq.2.1 hq.2.2, Option.some.injEq] at h
  exact hF p q hp hq h

/-- non-vacuity: an unusual list, with a repetition; on the 4×4 grid the points (3,3), (1,3) and (3,1) share the value of (1,1) -/
example : ∃ m, fbz2irrk 4 4 1 [.xInv, .xySym, .xInv, .xyInv] = some m ∧ at3 m 3 3 0 = some 5 ∧ at3 m 1 3 0 = some 5 ∧ at3 m 3 1 0 = some 5 := by
  refine ⟨_, rfl, by decide, by decide, by decide⟩

end DGA.Bz
