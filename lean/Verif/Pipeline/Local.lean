/-
  The impurity part of the calculation (C61).
-/
import Verif.Pipeline.Lemmas

namespace DGA.Pipe

open DGA.Mf DGA.Bz DGA.Bubble DGA.Fp

variable {K : Type} [Field K]

/-! ### specification -/

/-- generalized susceptibility of the two-particle Green's function `G2` at bosonic frequency `x`: `beta G2`, in the density channel
    minus `2 beta g g` at `x = 0` -/
def gchiOf {c : Nat} (beta : K) (g : Int → K) (dens : Bool) (G2 : Int → Matrix (Fin (2 * c)) (Fin (2 * c)) K) (x : Int)
    (i j : Fin (2 * c)) : K :=
  beta * G2 x i j - if dens = true ∧ x = 0 then 2 * beta * (g ((i.val : Int) - c) * g ((j.val : Int) - c)) else 0

/-- interaction in a channel: `u` for density, `-u` for magnetic -/
def urOf (dens : Bool) (u : K) : K := if dens then u else -u

/-- the channel names of the program -/
def chName (dens : Bool) : String := if dens then "dens" else "magn"

/-- a two-particle object as the program receives it: all bosonic frequencies `-niw..niw` -/
def objOf {c : Nat} (dens : Bool) (niw : Nat) (beta u : K) (A : Int → Mat (2 * c) K) : FourP (2 * c) K :=
  ⟨chName dens, (wn niw).map A, beta, u, none⟩

/-! ### plumbing -/

omit [Field K] in
theorem objWn {α : Type} (ch : String) (niw : Nat) (beta u : K) (A : Int → α) :
    (⟨ch, (wn niw).map A, beta, u, none⟩ : NPoint K α).wn = wn niw := by
  unfold NPoint.wn
  simp only
  rw [nFromMat_eq' _ niw (by rw [List.length_map, wn_length])]

omit [Field K] in
theorem overWn_map {α β γ δ : Type} (o : NPoint K α) (w : List Int) (ho : o.wn = w) (A : Int → β) (B : Int → γ) (f : β → γ → Option δ) :
    overWn o (w.map A) (w.map B) f = w.mapM fun (x : Int) => f (A x) (B x) := by
  unfold overWn
  rw [ho]
  apply mapM_range_congr
  intro j x hx
  simp only [List.getElem?_map, hx, Option.map_some, Option.bind_some]

omit [Field K] in
theorem chName_known (dens : Bool) : chName dens ∈ knownChannels := by cases dens <;> simp [chName, knownChannels]

theorem ur_obj {α : Type} (dens : Bool) (mat : List α) (beta u : K) (w : Option (List Int)) :
    (⟨chName dens, mat, beta, u, w⟩ : NPoint K α).ur = some (urOf dens u) := by
  cases dens <;> simp [NPoint.ur, chName, urOf, getUr]

theorem gchir_obj {c : Nat} (dens : Bool) (niw N : Nat) (beta u : K) (g : Int → K) (G2 : Int → Mat (2 * c) K) (hc : c ≤ N) :
    gchirFromG2 (objOf dens niw beta u G2) (samplesF g N) =
      some (objOf dens niw beta u fun x => Matrix.of (gchiOf beta g dens G2 x)) := by
  have hwn : (objOf dens niw beta u G2).wn = wn niw := objWn _ _ _ _ _
  obtain ⟨r, h1, h2, h3, h4, h5, h6, h7, h8⟩ := gchirFromG2_value c (objOf dens niw beta u G2) (chName_known dens)
    (by rw [hwn]; simp [objOf]) g N hc
  rw [h1]
  congr 1
  have hmat : r.mat = (wn niw).map fun x => Matrix.of (gchiOf beta g dens G2 x) := by
    apply List.ext_getElem?
    intro k
    rw [List.getElem?_map]
    cases hx : (wn niw)[k]? with
    | none =>
      rw [List.getElem?_eq_none_iff] at hx
      rw [List.getElem?_eq_none (by rw [h7]; simpa [objOf] using hx)]
      rfl
    | some x =>
      obtain ⟨m', e1, e2⟩ := h8 k x (G2 x) (by rw [hwn]; exact hx) (by simp [objOf, hx])
      rw [e1]
      simp only [Option.map_some]
      congr 1
      ext i j
      rw [e2 i j, Matrix.of_apply]
      unfold gchiOf
      cases dens <;> simp [objOf, chName]
  cases r
  simp only at h2 h3 h4 h5 hmat
  subst hmat
  simp only [objOf] at h2 h3 h4 h5 ⊢
  subst h2 h3 h4 h5
  rfl

theorem gam_obj {c s : Nat} (dens : Bool) (niw : Nat) (beta u : K) (A : Int → Mat (2 * c) K) (B : Int → Vec (2 * (c + s)) K) :
    gamob2FromGchirUrange (objOf dens niw beta u A) ((wn niw).map B) =
      ((wn niw).mapM fun (x : Int) => gamUrangeW (A x) (B x) beta (urOf dens u)).map fun l => ⟨chName dens, l, beta, u, none⟩ := by
  unfold gamob2FromGchirUrange objOf
  rw [ur_obj, Option.bind_some, overWn_map _ (wn niw) (objWn ..)]
  cases (wn niw).mapM fun (x : Int) => gamUrangeW (A x) (B x) beta (urOf dens u) with
  | none => rfl
  | some l => rw [Option.bind_some, construct_eq _ (chName_known dens), Option.map_some]

theorem aux_obj {n : Nat} (dens : Bool) (niw : Nat) (beta u : K) (A : Int → Mat n K) (B : Int → Vec n K) :
    gchiAuxFromGammar (⟨chName dens, (wn niw).map A, beta, u, none⟩ : FourP n K) ((wn niw).map B) =
      ((wn niw).mapM fun (x : Int) => auxGamW (A x) (B x) beta (urOf dens u)).map fun l => ⟨chName dens, l, beta, u, none⟩ := by
  unfold gchiAuxFromGammar
  rw [overWn_map _ (wn niw) (objWn ..)]
  simp only [ur_obj, Option.bind_some]
  cases (wn niw).mapM fun (x : Int) => auxGamW (A x) (B x) beta (urOf dens u) with
  | none => rfl
  | some l => rw [Option.bind_some, construct_eq _ (chName_known dens), Option.map_some]

omit [Field K] in
theorem zipW_map {α β γ δ : Type} (w : List δ) (f : α → β → γ) (A : δ → α) (B : δ → β) :
    zipW f (w.map A) (w.map B) = some (w.map fun x => f (A x) (B x)) := by
  unfold zipW
  rw [if_pos (by simp), List.zipWith_map, List.zipWith_self]

omit [Field K] in
theorem zip3_map {α β γ ε δ : Type} (w : List δ) (f : α → β → γ → ε) (A : δ → α) (B : δ → β) (C : δ → γ) :
    zip3 f (w.map A) (w.map B) (w.map C) = some (w.map fun x => f (A x) (B x) (C x)) := by
  unfold zip3
  rw [zipW_map, Option.bind_some, zipW_map]

theorem contract_physical {n : Nat} (beta : K) (A : Mat n K) : 1 / beta ^ 2 * ∑ i, ∑ j, A i j = physical beta A := by
  unfold physical
  rw [one_div, mul_comm, div_eq_mul_inv]

variable [StarRing K]

/-- one channel: the vertex solves the Bethe–Salpeter equation, and the auxiliary problem is solvable at every frequency -/
theorem localChannel_spec {c s : Nat} (nx ny nz N niw : Nat) (dens : Bool) (beta u : K) (hb : star beta = beta) (hb0 : beta ≠ 0)
    (G : Nat → Nat → Nat → Int → K) (g : Int → K) (hg : ∀ n : Int, -(N : Int) ≤ n → n < N → g (-n - 1) = star (g n))
    (hfit : niw + (c + s) ≤ N) (G2 : Int → Mat (2 * c) K) (ch : Chan (2 * c) K)
    (h : localChannel s (objOf dens niw beta u G2) (genOf nx ny nz N niw beta G g)
      ((wn niw).map fun (x : Int) => onBox (c + s) (bubLoc beta g x)) = some ch) :
    ∃ Γ X : Int → Mat (2 * c) K,
      (∀ x ∈ wn niw, gamUrangeW (s := s) (Matrix.of (gchiOf beta g dens G2 x)) (onBox (c + s) (bubLoc beta g x)) beta (urOf dens u) =
        some (Γ x)) ∧
      (∀ x ∈ wn niw, auxGamW (Γ x) (onBox c (bubLoc beta g x)) beta (urOf dens u) = some (X x)) ∧
      ch = ⟨objOf dens niw beta u Γ,
        ⟨chName dens, (wn niw).map fun (x : Int) => vrgSlice true (X x) (onBox c (bubLoc beta g x)), beta, u, none⟩,
        (wn niw).map fun (x : Int) => chiPhysUrange (physical beta (X x)) (physicalBubble beta (onBox c (bubLoc beta g x)))
          (physicalBubble beta (onBox (c + s) (bubLoc beta g x))) (urOf dens u)⟩ := by
  unfold localChannel at h
  rw [show (genOf nx ny nz N niw beta G g).gloc = samplesF g N from rfl, gchir_obj dens niw N beta u g G2 (by omega),
    Option.bind_some, gam_obj] at h
  cases h1 : (wn niw).mapM fun (x : Int) => gamUrangeW (s := s) (Matrix.of (gchiOf beta g dens G2 x))
      (onBox (c + s) (bubLoc beta g x)) beta (urOf dens u) with
  | none =>
    rw [h1] at h
    simp at h
  | some l =>
    rw [h1, Option.map_some, Option.bind_some] at h
    obtain ⟨Γ, hΓ, rfl⟩ := mapM_ex 0 _ _ _ h1
    unfold vrgChiUrange at h
    rw [chi0_gen nx ny nz N niw beta hb hb0 G g hg c (by omega), Option.bind_some,
      chi0_gen nx ny nz N niw beta hb hb0 G g hg (c + s) (by omega), Option.bind_some,
      gchi0_gen nx ny nz N niw beta hb G g hg c (by omega), Option.bind_some, mapM_toVec,
      Option.bind_some, aux_obj] at h
    cases h2 : (wn niw).mapM fun (x : Int) => auxGamW (Γ x) (onBox c (bubLoc beta g x)) beta (urOf dens u) with
    | none => rw [h2] at h; simp at h
    | some l =>
      rw [h2, Option.map_some, Option.bind_some] at h
      obtain ⟨X, hX, rfl⟩ := mapM_ex 0 _ _ _ h2
      rw [ur_obj, Option.bind_some] at h
      unfold contract4 at h
      simp only [List.map_map] at h
      rw [zip3_map, Option.bind_some, zipW_map, Option.bind_some, construct_eq _ (chName_known dens)] at h
      simp only [Option.map_some, Function.comp, contract_physical] at h
      exact ⟨Γ, X, hΓ, hX, (Option.some.inj h).symm⟩

omit [StarRing K] in
/-- the ladder of the impurity: the vertex `Γ` of the program, inserted in the Bethe–Salpeter equation on the large box, reproduces the
    generalized susceptibility on the core -/
theorem local_ladder {c s : Nat} (beta ur : K) (B : Vec (2 * (c + s)) K) (chi0 Γ : Mat (2 * c) K)
    (h : gamUrangeW chi0 B beta ur = some Γ) :
    ∃ chi, Ladder beta ur B Γ chi ∧ ∀ i j, chi (core c s i) (core c s j) = chi0 i j := by
  obtain ⟨full, h1, h2⟩ := gamUrange_slice chi0 Γ B beta ur h
  refine ⟨full, (ladder_iff beta ur B Γ full).2 h1, ?_⟩
  intro i j
  rw [← h2]
  rfl

omit [StarRing K] in
theorem bubLoc_ne_zero (beta : K) (hb0 : beta ≠ 0) (g : Int → K) (N niw n : Nat) (hg0 : ∀ m : Int, -(N : Int) ≤ m → m < N → g m ≠ 0)
    (hfit : niw + n ≤ N) (x : Int) (hx : -(niw : Int) ≤ x ∧ x ≤ niw) (a : Fin (2 * n)) : onBox n (bubLoc beta g x) a ≠ 0 := by
  unfold onBox bubLoc
  have := a.isLt
  exact mul_ne_zero (neg_ne_zero.2 hb0) (mul_ne_zero (hg0 _ (by omega) (by omega)) (hg0 _ (by omega) (by omega)))

/-- C61.  Impurity part.  Whenever `local_sde_from_g2` returns, there are irreducible vertices `ΓD`, `ΓM` (the ones it hands on) and
    solutions `χD`, `χM` of the impurity Bethe–Salpeter equation on the box with shell whose core blocks are the input
    generalized susceptibilities; if no physical susceptibility vanishes, the returned physical susceptibilities are the
    contractions of `χ`, and the returned self-energy is the Hartree term plus `u/(2 beta) sum_x sum_v' (F_D - F_M)(v,v') B(v') g(v-x)` in the
    core and `u^2/(2 beta) sum_x (chi_D + chi_M)(x) g(v-x)` in the shell. -/
theorem local_sde_is_equation_of_motion {c s : Nat} (nx ny nz N niw : Nat) (beta u n : K) (hb : star beta = beta) (hb0 : beta ≠ 0)
    (G : Nat → Nat → Nat → Int → K) (g : Int → K) (hg : ∀ m : Int, -(N : Int) ≤ m → m < N → g (-m - 1) = star (g m))
    (hg0 : ∀ m : Int, -(N : Int) ≤ m → m < N → g m ≠ 0)
    (hfit : niw + (c + s) ≤ N) (G2D G2M : Int → Mat (2 * c) K) (d m : Chan (2 * c) K) (siw : List K)
    (h : localSde s (objOf true niw beta u G2D) (objOf false niw beta u G2M) (genOf nx ny nz N niw beta G g) n = some (d, m, siw)) :
    ∃ (ΓD ΓM : Int → Mat (2 * c) K) (χD χM : Int → Mat (2 * (c + s)) K),
      d.gam = objOf true niw beta u ΓD ∧ m.gam = objOf false niw beta u ΓM ∧
      (∀ x ∈ Finset.Icc (-(niw : Int)) niw,
        Ladder beta u (onBox (c + s) (bubLoc beta g x)) (ΓD x) (χD x) ∧
        (∀ i j, χD x (core c s i) (core c s j) = gchiOf beta g true G2D x i j) ∧
        Ladder beta (-u) (onBox (c + s) (bubLoc beta g x)) (ΓM x) (χM x) ∧
        (∀ i j, χM x (core c s i) (core c s j) = gchiOf beta g false G2M x i j) ∧
        1 - u * phys beta (χD x) ≠ 0 ∧ 1 - -u * phys beta (χM x) ≠ 0) ∧
      ((∀ x ∈ Finset.Icc (-(niw : Int)) niw, phys beta (χD x) ≠ 0 ∧ phys beta (χM x) ≠ 0) →
        d.chi = (wn niw).map (fun x => phys beta (χD x)) ∧ m.chi = (wn niw).map (fun x => phys beta (χM x)) ∧
        siw.length = 2 * (c + s) ∧
        (∀ a : Fin (2 * c), siw[a.val + s]? = some (u * n / 2 + u / (2 * beta) * ∑ x ∈ Finset.Icc (-(niw : Int)) niw,
          (∑ b, (vertexF (onBox (c + s) (bubLoc beta g x)) (χD x) (core c s a) b -
              vertexF (onBox (c + s) (bubLoc beta g x)) (χM x) (core c s a) b) * onBox (c + s) (bubLoc beta g x) b) *
            g ((a.val : Int) - c - x))) ∧
        (∀ a : Fin (2 * (c + s)), (a.val < s ∨ s + 2 * c ≤ a.val) → siw[a.val]? = some (u * n / 2 + u ^ 2 / (2 * beta) *
          ∑ x ∈ Finset.Icc (-(niw : Int)) niw, (phys beta (χD x) + phys beta (χM x)) * g ((a.val : Int) - (c + s : Nat) - x)))) := by
  unfold localSde at h
  rw [gchi0_gen nx ny nz N niw beta hb G g hg (c + s) (by omega), Option.bind_some, mapM_toVec,
      Option.bind_some] at h
  cases hd : localChannel s (objOf true niw beta u G2D) (genOf nx ny nz N niw beta G g)
      ((wn niw).map fun (x : Int) => onBox (c + s) (bubLoc beta g x)) with
  | none => rw [hd] at h; simp at h
  | some d' =>
  rw [hd, Option.bind_some] at h
  cases hm : localChannel s (objOf false niw beta u G2M) (genOf nx ny nz N niw beta G g)
      ((wn niw).map fun (x : Int) => onBox (c + s) (bubLoc beta g x)) with
  | none => rw [hm] at h; simp at h
  | some m' =>
  rw [hm, Option.bind_some] at h
  obtain ⟨ΓD, XD, hΓD, hXD, hdv⟩ := localChannel_spec nx ny nz N niw true beta u hb hb0 G g hg hfit G2D d' hd
  obtain ⟨ΓM, XM, hΓM, hXM, hmv⟩ := localChannel_spec nx ny nz N niw false beta u hb hb0 G g hg hfit G2M m' hm
  have hmem : ∀ x, x ∈ wn niw ↔ x ∈ Finset.Icc (-(niw : Int)) niw := fun x => by rw [mem_wn, Finset.mem_Icc]
  have hB : ∀ x ∈ wn niw, ∀ a, onBox (c + s) (bubLoc beta g x) a ≠ 0 := fun x hx =>
    bubLoc_ne_zero beta hb0 g N niw (c + s) hg0 hfit x ((mem_wn _ _).1 hx)
  have hD : ∀ x, ∃ chi, x ∈ wn niw → Ladder beta u (onBox (c + s) (bubLoc beta g x)) (ΓD x) chi ∧
      ∀ i j, chi (core c s i) (core c s j) = gchiOf beta g true G2D x i j := by
    intro x
    by_cases hx : x ∈ wn niw
    · obtain ⟨chi, h1, h2⟩ := local_ladder beta _ _ _ _ (hΓD x hx)
      exact ⟨chi, fun _ => ⟨h1, h2⟩⟩
    · exact ⟨0, fun h => absurd h hx⟩
  have hM : ∀ x, ∃ chi, x ∈ wn niw → Ladder beta (-u) (onBox (c + s) (bubLoc beta g x)) (ΓM x) chi ∧
      ∀ i j, chi (core c s i) (core c s j) = gchiOf beta g false G2M x i j := by
    intro x
    by_cases hx : x ∈ wn niw
    · obtain ⟨chi, h1, h2⟩ := local_ladder beta _ _ _ _ (hΓM x hx)
      exact ⟨chi, fun _ => ⟨h1, h2⟩⟩
    · exact ⟨0, fun h => absurd h hx⟩
  choose χD hχD using hD
  choose χM hχM using hM
  subst hdv hmv
  simp only at h
  rw [objWn, List.map_map, List.map_map] at h
  have eD : (List.ofFn ∘ fun (x : Int) => vrgSlice true (XD x) (onBox c (bubLoc beta g x))) =
      fun x => samplesF (atV (vrgSlice true (XD x) (onBox c (bubLoc beta g x)))) c := by
    funext x; exact ofFn_samplesF _
  have eM : (List.ofFn ∘ fun (x : Int) => vrgSlice true (XM x) (onBox c (bubLoc beta g x))) =
      fun x => samplesF (atV (vrgSlice true (XM x) (onBox c (bubLoc beta g x)))) c := by
    funext x; exact ofFn_samplesF _
  rw [eD, eM, show (genOf nx ny nz N niw beta G g).gloc = samplesF g N from rfl,
    Sde.sdeFull_value _ _ c _ _ g N s beta u n (wn niw) (by intro x hx; rw [mem_wn] at hx; omega), Option.map_some] at h
  have h' := Option.some.inj h
  rw [Prod.mk.injEq, Prod.mk.injEq] at h'
  obtain ⟨rfl, rfl, rfl⟩ := h'
  have sD : ∀ x ∈ wn niw, _ := fun x hx => slice_value (s := s) (ΓD x) (XD x) (onBox (c + s) (bubLoc beta g x)) (hB x hx) beta u hb0
    (by rw [cut1_box]; exact hXD x hx) (χD x) (hχD x hx).1
  have sM : ∀ x ∈ wn niw, _ := fun x hx => slice_value (s := s) (ΓM x) (XM x) (onBox (c + s) (bubLoc beta g x)) (hB x hx) beta (-u) hb0
    (by rw [cut1_box]; exact hXM x hx) (χM x) (hχM x hx).1
  simp only [cut1_box] at sD sM
  refine ⟨ΓD, ΓM, χD, χM, rfl, rfl, ?_, ?_⟩
  · intro x hx
    rw [← hmem] at hx
    exact ⟨(hχD x hx).1, (hχD x hx).2, (hχM x hx).1, (hχM x hx).2, (sD x hx).1, (sM x hx).1⟩
  · intro hp
    have cD : ∀ x ∈ wn niw, chiPhysUrange (physical beta (XD x)) (physicalBubble beta (onBox c (bubLoc beta g x)))
        (physicalBubble beta (onBox (c + s) (bubLoc beta g x))) (urOf true u) = phys beta (χD x) := fun x hx =>
      (sD x hx).2.2 (hp x ((hmem x).1 hx)).1
    have cM : ∀ x ∈ wn niw, chiPhysUrange (physical beta (XM x)) (physicalBubble beta (onBox c (bubLoc beta g x)))
        (physicalBubble beta (onBox (c + s) (bubLoc beta g x))) (urOf false u) = phys beta (χM x) := fun x hx =>
      (sM x hx).2.2 (hp x ((hmem x).1 hx)).2
    refine ⟨List.map_congr_left cD, List.map_congr_left cM, samplesF_length _ _, ?_, ?_⟩
    · intro a
      rw [samplesF_get? _ _ _ (by omega)]
      congr 1
      unfold Sde.sdeSpec
      rw [sum_wn, sum_wn, add_assoc]
      congr 1
      rw [Finset.mul_sum, Finset.mul_sum, Finset.mul_sum, ← Finset.sum_add_distrib]
      apply Finset.sum_congr rfl
      intro x hx
      rw [← hmem] at hx
      unfold Sde.extendOne
      have hin : -(c : Int) ≤ ((a.val + s : Nat) : Int) - ((c + s : Nat) : Int) ∧ ((a.val + s : Nat) : Int) - ((c + s : Nat) : Int) < c := by
        omega
      have hix : (⟨(((a.val + s : Nat) : Int) - ((c + s : Nat) : Int) + c).toNat, by omega⟩ : Fin (2 * c)) = a := by
        apply Fin.ext; simp only; omega
      rw [if_pos hin, if_pos hin]
      beta_reduce
      rw [atV_of _ _ hin, atV_of _ _ hin, hix, (sD x hx).2.1 a, (sM x hx).2.1 a, cD x hx, cM x hx]
      have e1 : ((a.val + s : Nat) : Int) - ((c + s : Nat) : Int) - x = (a.val : Int) - c - x := by omega
      rw [e1, mul_div_cancel₀ _ (sD x hx).1, mul_div_cancel₀ _ (sM x hx).1]
      have e2 : ∀ (p q r : Fin (2 * (c + s)) → K), ∑ b, (p b - q b) * r b = ∑ b, p b * r b - ∑ b, q b * r b := by
        intro p q r
        rw [← Finset.sum_sub_distrib]
        exact Finset.sum_congr rfl fun b _ => sub_mul _ _ _
      rw [e2, vertexF_row _ (hB x hx), vertexF_row _ (hB x hx)]
      ring
    · intro a ha
      rw [samplesF_get? _ _ _ a.isLt]
      congr 1
      unfold Sde.sdeSpec
      rw [sum_wn, sum_wn, add_assoc]
      congr 1
      rw [Finset.mul_sum, Finset.mul_sum, Finset.mul_sum, ← Finset.sum_add_distrib]
      apply Finset.sum_congr rfl
      intro x hx
      rw [← hmem] at hx
      unfold Sde.extendOne
      rw [if_neg (by omega), if_neg (by omega)]
      beta_reduce
      rw [cD x hx, cM x hx]
      ring

end DGA.Pipe
