/-
  C70: complex conjugation.  The negative fermionic frequencies of the self-energy are the conjugates of the positive ones.
-/
import Verif.Pipeline.Symmetry
import Mathlib.Algebra.Star.BigOperators

namespace DGA.Pipe

open DGA.Mf DGA.Bz DGA.Bubble DGA.Fp

variable {K : Type} [Field K] [StarRing K]

/-! ### frequency reversal with conjugation, and how the routines commute with it -/

/-- `v(i) → conj v(-i)` -/
def cv {n : Nat} (v : Vec n K) : Vec n K := fun i => star (v i.rev)
/-- `A(i,j) → conj A(-i,-j)` -/
def cm {n : Nat} (A : Mat n K) : Mat n K := Matrix.of fun i j => star (A i.rev j.rev)

theorem cm_cm {n : Nat} (A : Mat n K) : cm (cm A) = A := by
  ext i j
  simp [cm]

theorem star_mulC (a b : K) : star (a * b) = star a * star b := by rw [star_mul, mul_comm]

theorem star_divC (a b : K) : star (a / b) = star a / star b := by
  rw [div_eq_mul_inv, div_eq_mul_inv, star_mulC, star_inv₀]

omit [StarRing K] in
theorem sum_rev {n : Nat} (f : Fin n → K) : ∑ i : Fin n, f i.rev = ∑ i, f i := Equiv.sum_comp Fin.revPerm f

theorem cm_mul {n : Nat} (A B : Mat n K) : cm (A * B) = cm A * cm B := by
  ext i j
  simp only [cm, Matrix.of_apply, Matrix.mul_apply]
  rw [star_sum, ← sum_rev]
  apply Finset.sum_congr rfl
  intro k _
  rw [star_mulC]

theorem cm_one {n : Nat} : cm (1 : Mat n K) = 1 := by
  ext i j
  simp only [cm, Matrix.of_apply, Matrix.one_apply, Fin.rev_inj]
  split <;> simp

theorem inv_cm {n : Nat} (A : Mat n K) : inv? (cm A) = (inv? A).map cm := by
  cases h : inv? A with
  | some B =>
    rw [inv?_iff] at h
    rw [Option.map_some, inv?_iff, ← cm_mul, h, cm_one]
  | none =>
    cases h2 : inv? (cm A) with
    | none => rfl
    | some B =>
      rw [inv?_iff] at h2
      have : inv? A = some (cm B) := by
        rw [inv?_iff, ← cm_cm (A * cm B), cm_mul, cm_cm, h2, cm_one]
      rw [h] at this
      cases this

theorem cm_addC {n : Nat} (A : Mat n K) (a : K) (ha : star a = a) : cm (addC A a) = addC (cm A) a := by
  ext i j
  simp [cm, addC, ha]

theorem cm_add {n : Nat} (A B : Mat n K) : cm (A + B) = cm A + cm B := by
  ext i j
  simp [cm]

theorem cm_sub {n : Nat} (A B : Mat n K) : cm (A - B) = cm A - cm B := by
  ext i j
  simp [cm]

theorem cm_diag {n : Nat} (v : Vec n K) : cm (diag fun i => 1 / v i) = diag fun i => 1 / cv v i := by
  ext i j
  simp only [cm, diag, cv, Matrix.of_apply, Fin.rev_inj]
  split
  · rw [star_divC, star_one]
  · exact star_zero K

theorem rev_emb (c s : Nat) (i : Fin (2 * c)) : (emb c s i).rev = emb c s i.rev := by
  apply Fin.ext
  simp only [emb, Fin.val_rev]
  omega

theorem cm_cut2 {c s : Nat} (A : Mat (2 * (c + s)) K) : cm (cut2 (c := c) (s := s) A) = cut2 (cm A) := by
  ext i j
  simp only [cm, cut2, Matrix.of_apply, rev_emb]

theorem cm_shell2 {c : Nat} (s : Nat) (A : Mat (2 * c) K) (val : K) (hv : star val = val) : cm (shell2 s A val) = shell2 s (cm A) val := by
  ext i j
  simp only [cm, shell2, Matrix.of_apply, Fin.val_rev]
  have hi := i.isLt
  have hj := j.isLt
  by_cases h : (s ≤ i.val ∧ i.val < s + 2 * c) ∧ (s ≤ j.val ∧ j.val < s + 2 * c)
  · rw [dif_pos h, dif_pos (by omega)]
    congr 2 <;> (apply Fin.ext; simp only [Fin.val_rev]; omega)
  · rw [dif_neg h, dif_neg (by omega), hv]

section slices

variable (beta u : K) (hb : star beta = beta) (hu : star u = u)
include hb hu

theorem star_urat : star (u / beta ^ 2) = u / beta ^ 2 := by rw [star_divC, star_pow, hb, hu]

theorem gamUrange_cm {c s : Nat} (chi : Mat (2 * c) K) (g0 : Vec (2 * (c + s)) K) :
    gamUrangeW (cm chi) (cv g0) beta u = (gamUrangeW chi g0 beta u).map cm := by
  have hr : star (u / (beta * beta)) = u / (beta * beta) := by rw [star_divC, star_mulC, hb, hu]
  unfold gamUrangeW
  rw [← cm_diag, ← cm_addC _ _ hr, inv_cm]
  cases inv? (addC (diag fun i => 1 / g0 i) (u / (beta * beta))) with
  | none => rfl
  | some T =>
    simp only [Option.map_some, Option.bind_some]
    rw [← cm_cut2, inv_cm]
    cases inv? (cut2 (c := c) (s := s) T) with
    | none => rfl
    | some C =>
      simp only [Option.map_some, Option.bind_some]
      rw [inv_cm]
      cases inv? chi with
      | none => rfl
      | some I =>
        simp only [Option.map_some]
        rw [← cm_sub, ← cm_addC _ _ hr]

theorem auxGam_cm {n : Nat} (gam : Mat n K) (g0 : Vec n K) : auxGamW (cm gam) (cv g0) beta u = (auxGamW gam g0 beta u).map cm := by
  unfold auxGamW
  rw [← cm_diag, ← cm_add, ← cm_addC _ _ (by rw [star_neg, star_urat beta u hb hu]), inv_cm]

omit hb hu in
theorem fob2Gam_cm {n : Nat} (gam : Mat n K) (g0 : Vec n K) : fob2GamSlice (cm gam) (cv g0) = (fob2GamSlice gam g0).map cm := by
  unfold fob2GamSlice
  have e : (1 + Matrix.of fun i j => cm gam i j * cv g0 i : Mat n K) = cm (1 + Matrix.of fun i j => gam i j * g0 i) := by
    rw [cm_add, cm_one]
    congr 1
    ext i j
    simp only [cm, cv, Matrix.of_apply, star_mulC]
  rw [e, inv_cm]
  cases inv? (1 + Matrix.of fun i j => gam i j * g0 i : Mat n K) with
  | none => rfl
  | some B => simp only [Option.map_some, cm_mul]

omit hb hu in
theorem vrg_cm {n : Nat} (X : Mat n K) (g0 : Vec n K) : vrgSlice true (cm X) (cv g0) = cv (vrgSlice true X g0) := by
  funext i
  simp only [vrgSlice, sumAxis, if_true, cv]
  rw [star_mulC, star_divC, star_one, star_sum, ← sum_rev]
  simp only [cm, Matrix.of_apply, Fin.rev_rev]

omit hu in
theorem physical_cm {n : Nat} (X : Mat n K) : physical beta (cm X) = star (physical beta X) := by
  unfold physical
  rw [star_divC, star_pow, hb, star_sum, ← sum_rev]
  congr 1
  apply Finset.sum_congr rfl
  intro i _
  rw [star_sum, ← sum_rev]
  simp only [cm, Matrix.of_apply, Fin.rev_rev]

omit hu in
theorem physicalBubble_cv {n : Nat} (v : Vec n K) : physicalBubble beta (cv v) = star (physicalBubble beta v) := by
  unfold physicalBubble
  rw [star_divC, star_pow, hb, star_sum, ← sum_rev]
  simp only [cv, Fin.rev_rev]

omit hb in
theorem chiPhys_star (a b c : K) : chiPhysUrange (star a) (star b) (star c) u = star (chiPhysUrange a b c u) := by
  unfold chiPhysUrange
  rw [star_divC, star_add, star_divC, star_sub, star_add, star_one, hu]

end slices

theorem atV_cv {n : Nat} (v : Vec (2 * n) K) (x : Int) : atV (cv v) (-x - 1) = star (atV v x) := by
  unfold atV
  by_cases h : -(n : Int) ≤ x ∧ x < n
  · rw [dif_pos h, dif_pos (by omega)]
    unfold cv
    congr 2
    apply Fin.ext
    simp only [Fin.val_rev]
    omega
  · rw [dif_neg h, dif_neg (by omega), star_zero]

/-! ### the quantities of the calculation -/

theorem box_cv (n : Nat) (f f' : Int → K) (h : ∀ v : Int, -(n : Int) ≤ v → v < n → f' (-v - 1) = star (f v)) :
    onBox n f' = cv (onBox n f) := by
  funext a
  have := a.isLt
  unfold onBox cv
  rw [← h _ (by rw [Fin.val_rev]; omega) (by rw [Fin.val_rev]; omega), Fin.val_rev]
  congr 1
  omega

theorem bubLoc_conj (beta : K) (hb : star beta = beta) (g : Int → K) (N niw n : Nat)
    (hg : ∀ m : Int, -(N : Int) ≤ m → m < N → g (-m - 1) = star (g m)) (hfit : niw + n ≤ N) (x : Int)
    (hx : -(niw : Int) ≤ x ∧ x ≤ niw) : onBox n (bubLoc beta g (-x)) = cv (onBox n (bubLoc beta g x)) := by
  apply box_cv
  intro v h1 h2
  unfold bubLoc
  rw [star_mulC, star_mulC, star_neg, hb, ← hg v (by omega) (by omega), ← hg (v - x) (by omega) (by omega)]
  congr 3
  omega

theorem bubQ_conj (nx ny nz : Nat) (beta : K) (hb : star beta = beta) (G : Nat → Nat → Nat → Int → K) (N niw n : Nat)
    (hG : ∀ i j k, ∀ m : Int, -(N : Int) ≤ m → m < N → G i j k (-m - 1) = star (G i j k m)) (hfit : niw + n ≤ N) (q : Mom) (x : Int)
    (hx : -(niw : Int) ≤ x ∧ x ≤ niw) : onBox n (bubQ nx ny nz beta G q (-x)) = cv (onBox n (bubQ nx ny nz beta G q x)) := by
  apply box_cv
  intro v h1 h2
  unfold bubQ kSum
  rw [star_mulC, star_neg, hb, star_divC, star_natCast]
  congr 2
  rw [star_sum]; apply Finset.sum_congr rfl; intro i _
  rw [star_sum]; apply Finset.sum_congr rfl; intro j _
  rw [star_sum]; apply Finset.sum_congr rfl; intro k _
  rw [star_mulC, ← hG _ _ _ v (by omega) (by omega), ← hG _ _ _ (v - x) (by omega) (by omega),
    show -(v - x) - 1 = -v - 1 - -x by omega]

section conj

variable {c : Nat} (s : Nat) (beta ur : K) (hb : star beta = beta) (hu : star ur = ur) (Γ : Int → Mat (2 * c) K)
  (B : Mom → Int → Int → K) (Bl : Int → Int → K) (q : Mom) (x : Int) (hΓ : Γ (-x) = cm (Γ x))
  (hB : ∀ n, n ≤ c + s → onBox n (B q (-x)) = cv (onBox n (B q x))) (hBl : onBox (c + s) (Bl (-x)) = cv (onBox (c + s) (Bl x)))

include hb hu hΓ in
theorem FL_conj (hBl : onBox (c + s) (Bl (-x)) = cv (onBox (c + s) (Bl x))) : FL s beta ur Γ Bl (-x) = cm (FL s beta ur Γ Bl x) := by
  unfold FL
  rw [hΓ, hBl, ← cm_shell2 s _ _ (star_urat beta ur hb hu), fob2Gam_cm]
  cases fob2GamSlice (shell2 s (Γ x) (ur / beta ^ 2)) (onBox (c + s) (Bl x)) with
  | none =>
    ext i j
    simp [cm]
  | some F => rfl

include hb hu hΓ hB

theorem XQ_conj : XQ beta ur Γ B q (-x) = cm (XQ beta ur Γ B q x) := by
  unfold XQ
  rw [hΓ, hB c (by omega), auxGam_cm beta ur hb hu]
  cases auxGamW (Γ x) (onBox c (B q x)) beta ur with
  | none =>
    ext i j
    simp [cm]
  | some X => rfl

theorem VQ_conj (v : Int) : VQ beta ur Γ B q (-x) (-v - 1) = star (VQ beta ur Γ B q x v) := by
  unfold VQ
  rw [XQ_conj s beta ur hb hu Γ B q x hΓ hB, hB c (by omega), vrg_cm, atV_cv]

theorem CQ_conj : CQ s beta ur Γ B q (-x) = star (CQ s beta ur Γ B q x) := by
  unfold CQ
  rw [XQ_conj s beta ur hb hu Γ B q x hΓ hB, hB c (by omega), hB (c + s) (by omega), physical_cm beta hb, physicalBubble_cv beta hb,
    physicalBubble_cv beta hb, chiPhys_star ur hu]

include hBl in
theorem DQ_conj (v : Int) : DQ s beta ur Γ B Bl q (-x) (-v - 1) = star (DQ s beta ur Γ B Bl q x v) := by
  unfold DQ
  have e : ∀ f : Int → K, Opt.vSum (c + s) f = ∑ b, onBox (c + s) f b := fun f => sum_box f (c + s)
  rw [star_mulC, hu, e, e, star_sum, ← sum_rev, FL_conj s beta ur hb hu Γ Bl x hΓ hBl]
  congr 1
  apply Finset.sum_congr rfl
  intro b _
  have hbl := b.isLt
  have hBb := congrFun (hB (c + s) (le_refl _)) b.rev
  unfold cv at hBb
  rw [Fin.rev_rev] at hBb
  unfold onBox at hBb ⊢
  beta_reduce
  rw [star_mulC, hBb]
  congr 1
  have h1 : ((b.rev.val : Int) - (c + s : Nat)) = -((b.val : Int) - (c + s : Nat)) - 1 := by rw [Fin.val_rev]; omega
  rw [h1]
  have h2 : ∀ y z : Int, atV (fun j => atV (fun i => cm (FL s beta ur Γ Bl x) i j) (-y - 1)) (-z - 1) =
      star (atV (fun j => atV (fun i => FL s beta ur Γ Bl x i j) y) z) := by
    intro y z
    rw [← atV_cv]
    congr 1
    funext j
    unfold cv
    rw [← atV_cv]
    congr 1
  exact h2 _ _

end conj

theorem corrected_star (lam : Option K) (hl : ∀ l, lam = some l → star l = l) (y : K) : corrected lam (star y) = star (corrected lam y) := by
  cases lam with
  | none => rfl
  | some l =>
    simp only [corrected]
    rw [star_divC, star_add, star_divC, star_one, hl l rfl]

theorem kerQ_conj {c : Nat} (s : Nat) (beta u : K) (hb : star beta = beta) (hu : star u = u) (lamD lamM : Option K)
    (hlD : ∀ l, lamD = some l → star l = l) (hlM : ∀ l, lamM = some l → star l = l) (ΓD ΓM : Int → Mat (2 * c) K)
    (B : Mom → Int → Int → K) (Bl : Int → Int → K) (q : Mom) (x : Int) (hD : ΓD (-x) = cm (ΓD x)) (hM : ΓM (-x) = cm (ΓM x))
    (hB : ∀ n, n ≤ c + s → onBox n (B q (-x)) = cv (onBox n (B q x))) (hBl : onBox (c + s) (Bl (-x)) = cv (onBox (c + s) (Bl x)))
    (v : Int) :
    kerQ s beta u lamD lamM ΓD ΓM B Bl q (-x) (-v - 1) = star (kerQ s beta u lamD lamM ΓD ΓM B Bl q x v) := by
  have hu' : star (-u) = -u := by rw [star_neg, hu]
  unfold kerQ
  rw [CQ_conj s beta u hb hu ΓD B q x hD hB, CQ_conj s beta (-u) hb hu' ΓM B q x hM hB, VQ_conj s beta u hb hu ΓD B q x hD hB,
    VQ_conj s beta (-u) hb hu' ΓM B q x hM hB, DQ_conj s beta (-u) hb hu' ΓM B Bl q x hM hB hBl v, corrected_star _ hlD, corrected_star _ hlM]
  simp only [star_sub, star_add, star_mulC, star_divC, star_one, star_ofNat, star_neg, hu]

omit [StarRing K] in
/-- sums over the bosonic frequencies -/
theorem sum_wn_neg (niw : Nat) (f : Int → K) :
    ∑ x ∈ Finset.Icc (-(niw : Int)) niw, f (-x) = ∑ x ∈ Finset.Icc (-(niw : Int)) niw, f x := by
  apply Finset.sum_nbij' (fun x => -x) (fun x => -x)
  · intro x hx; rw [Finset.mem_Icc] at hx ⊢; omega
  · intro x hx; rw [Finset.mem_Icc] at hx ⊢; omega
  · intro x _; omega
  · intro x _; omega
  · intro x _; rfl

/-- closed form of the impurity part -/
theorem localSde_closed {c s : Nat} (nx ny nz N niw : Nat) (beta u n : K) (hb : star beta = beta) (hb0 : beta ≠ 0)
    (G : Nat → Nat → Nat → Int → K) (g : Int → K) (hg : ∀ m : Int, -(N : Int) ≤ m → m < N → g (-m - 1) = star (g m))
    (hfit : niw + (c + s) ≤ N) (G2D G2M : Int → Mat (2 * c) K) (d m : Chan (2 * c) K) (siw : List K)
    (h : localSde s (objOf true niw beta u G2D) (objOf false niw beta u G2M) (genOf nx ny nz N niw beta G g) n = some (d, m, siw)) :
    ∃ ΓD ΓM : Int → Mat (2 * c) K, d.gam = objOf true niw beta u ΓD ∧ m.gam = objOf false niw beta u ΓM ∧
      (∀ x ∈ wn niw, gamUrangeW (s := s) (Matrix.of (gchiOf beta g true G2D x)) (onBox (c + s) (bubLoc beta g x)) beta u = some (ΓD x)) ∧
      (∀ x ∈ wn niw, gamUrangeW (s := s) (Matrix.of (gchiOf beta g false G2M x)) (onBox (c + s) (bubLoc beta g x)) beta (-u) = some (ΓM x)) ∧
      siw = samplesF (fun v => u * n / 2 +
        Sde.sdeSpec u beta (wn niw) (Sde.extendOne c (VQ beta u ΓD (fun _ => bubLoc beta g) (0, 0, 0))) (CQ s beta u ΓD (fun _ => bubLoc beta g) (0, 0, 0)) g v +
        Sde.sdeSpec (-u) beta (wn niw) (Sde.extendOne c (VQ beta (-u) ΓM (fun _ => bubLoc beta g) (0, 0, 0))) (CQ s beta (-u) ΓM (fun _ => bubLoc beta g) (0, 0, 0)) g v)
        (c + s) := by
  unfold localSde at h
  rw [gchi0_gen nx ny nz N niw beta hb G g hg (c + s) (by omega), Option.bind_some, mapM_toVec, Option.bind_some] at h
  cases hd : localChannel s (objOf true niw beta u G2D) (genOf nx ny nz N niw beta G g)
      ((wn niw).map fun (x : Int) => onBox (c + s) (bubLoc beta g x)) with
  | none => rw [hd] at h; simp at h
  | some d' =>
  rw [hd, Option.bind_some] at h
  cases hm : localChannel s (objOf false niw beta u G2M) (genOf nx ny nz N niw beta G g)
      ((wn niw).map fun (x : Int) => onBox (c + s) (bubLoc beta g x)) with
  | none => rw [hm] at h; simp at h
  | some m' =>
  rw [hm, Option.bind_some] at h
  obtain ⟨ΓD, XD, hΓD, hXD, hdv⟩ := localChannel_spec nx ny nz N niw true beta u hb hb0 G g hg hfit G2D d' hd
  obtain ⟨ΓM, XM, hΓM, hXM, hmv⟩ := localChannel_spec nx ny nz N niw false beta u hb hb0 G g hg hfit G2M m' hm
  refine ⟨ΓD, ΓM, ?_⟩
  have eX : ∀ (ur : K) (Γ X : Int → Mat (2 * c) K), (∀ x ∈ wn niw, auxGamW (Γ x) (onBox c (bubLoc beta g x)) beta ur = some (X x)) →
      ∀ x ∈ wn niw, X x = XQ beta ur Γ (fun _ => bubLoc beta g) (0, 0, 0) x := by
    intro ur Γ X hX x hx
    unfold XQ
    rw [hX x hx]
    rfl
  subst hdv hmv
  simp only at h
  rw [objWn, List.map_map, List.map_map] at h
  have eV : ∀ (ur : K) (Γ X : Int → Mat (2 * c) K), (∀ x ∈ wn niw, auxGamW (Γ x) (onBox c (bubLoc beta g x)) beta ur = some (X x)) →
      (wn niw).map (List.ofFn ∘ fun (x : Int) => vrgSlice true (X x) (onBox c (bubLoc beta g x))) =
      (wn niw).map fun x => samplesF (VQ beta ur Γ (fun _ => bubLoc beta g) (0, 0, 0) x) c := by
    intro ur Γ X hX
    apply List.map_congr_left
    intro x hx
    simp only [Function.comp]
    rw [eX ur Γ X hX x hx]
    exact ofFn_samplesF _
  have eC : ∀ (ur : K) (Γ X : Int → Mat (2 * c) K), (∀ x ∈ wn niw, auxGamW (Γ x) (onBox c (bubLoc beta g x)) beta ur = some (X x)) →
      ((wn niw).map fun (x : Int) => chiPhysUrange (physical beta (X x)) (physicalBubble beta (onBox c (bubLoc beta g x)))
          (physicalBubble beta (onBox (c + s) (bubLoc beta g x))) ur) = (wn niw).map (CQ s beta ur Γ (fun _ => bubLoc beta g) (0, 0, 0)) := by
    intro ur Γ X hX
    apply List.map_congr_left
    intro x hx
    rw [eX ur Γ X hX x hx]
    rfl
  rw [eV _ ΓD XD hXD, eV _ ΓM XM hXM, eC _ ΓD XD hXD, eC _ ΓM XM hXM, show (genOf nx ny nz N niw beta G g).gloc = samplesF g N from rfl,
    Sde.sdeFull_value _ _ c _ _ g N s beta u n (wn niw) (by intro x hx; rw [mem_wn] at hx; omega), Option.map_some] at h
  have h' := Option.some.inj h
  rw [Prod.mk.injEq, Prod.mk.injEq] at h'
  obtain ⟨rfl, rfl, rfl⟩ := h'
  exact ⟨rfl, rfl, hΓD, hΓM, rfl⟩

theorem gchiOf_conj {c : Nat} (beta : K) (hb : star beta = beta) (g : Int → K) (N : Nat) (hc : c ≤ N)
    (hg : ∀ m : Int, -(N : Int) ≤ m → m < N → g (-m - 1) = star (g m)) (dens : Bool) (G2 : Int → Mat (2 * c) K) (x : Int)
    (h : ∀ i j, G2 (-x) i.rev j.rev = star (G2 x i j)) :
    (Matrix.of (gchiOf beta g dens G2 (-x)) : Mat (2 * c) K) = cm (Matrix.of (gchiOf beta g dens G2 x)) := by
  have hgr : ∀ i : Fin (2 * c), g ((i.val : Int) - c) = star (g ((i.rev.val : Int) - c)) := by
    intro i
    have hi := i.isLt
    rw [← hg _ (by rw [Fin.val_rev]; omega) (by rw [Fin.val_rev]; omega)]
    congr 1
    rw [Fin.val_rev]
    omega
  ext i j
  have := h i.rev j.rev
  rw [Fin.rev_rev, Fin.rev_rev] at this
  simp only [Matrix.of_apply, cm, gchiOf]
  rw [this, star_sub, star_mulC, hb, hgr i, hgr j]
  simp only [neg_eq_zero]
  split
  · rw [star_mulC, star_mulC, star_mulC, star_ofNat, hb]
  · rw [star_zero]

theorem gam_conj {c s : Nat} (beta ur : K) (hb : star beta = beta) (hu : star ur = ur) (g : Int → K) (N niw : Nat) (hfit : niw + (c + s) ≤ N)
    (hg : ∀ m : Int, -(N : Int) ≤ m → m < N → g (-m - 1) = star (g m)) (dens : Bool) (G2 Γ : Int → Mat (2 * c) K)
    (hG2 : ∀ x ∈ Finset.Icc (-(niw : Int)) niw, ∀ i j, G2 (-x) i.rev j.rev = star (G2 x i j))
    (hΓ : ∀ x ∈ wn niw, gamUrangeW (s := s) (Matrix.of (gchiOf beta g dens G2 x)) (onBox (c + s) (bubLoc beta g x)) beta ur = some (Γ x))
    (x : Int) (hx : -(niw : Int) ≤ x ∧ x ≤ niw) : Γ (-x) = cm (Γ x) := by
  have h1 := hΓ (-x) (by rw [mem_wn]; omega)
  rw [gchiOf_conj beta hb g N (by omega) hg dens G2 x (hG2 x (Finset.mem_Icc.2 hx)), bubLoc_conj beta hb g N niw (c + s) hg hfit x hx,
    gamUrange_cm beta ur hb hu, hΓ x (by rw [mem_wn]; omega), Option.map_some] at h1
  exact (Option.some.inj h1).symm

theorem sdeSpec_conj {c : Nat} (s : Nat) (beta ur : K) (hb : star beta = beta) (hu : star ur = ur) (g : Int → K) (N niw : Nat)
    (hfit : niw + (c + s) ≤ N) (hg : ∀ m : Int, -(N : Int) ≤ m → m < N → g (-m - 1) = star (g m)) (Γ : Int → Mat (2 * c) K)
    (hΓ : ∀ x : Int, -(niw : Int) ≤ x ∧ x ≤ niw → Γ (-x) = cm (Γ x)) (v : Int) (hv : -((c + s : Nat) : Int) ≤ v ∧ v < (c + s : Nat)) :
    Sde.sdeSpec ur beta (wn niw) (Sde.extendOne c (VQ beta ur Γ (fun _ => bubLoc beta g) (0, 0, 0))) (CQ s beta ur Γ (fun _ => bubLoc beta g) (0, 0, 0)) g (-v - 1) =
      star (Sde.sdeSpec ur beta (wn niw) (Sde.extendOne c (VQ beta ur Γ (fun _ => bubLoc beta g) (0, 0, 0)))
        (CQ s beta ur Γ (fun _ => bubLoc beta g) (0, 0, 0)) g v) := by
  unfold Sde.sdeSpec
  rw [sum_wn, sum_wn, star_mulC, star_divC, star_mulC, hb, hu, star_ofNat, star_sum, ← sum_wn_neg]
  congr 1
  apply Finset.sum_congr rfl
  intro x hx
  rw [Finset.mem_Icc] at hx
  have hB : ∀ n, n ≤ c + s → onBox n (bubLoc beta g (-x)) = cv (onBox n (bubLoc beta g x)) := fun n hn =>
    bubLoc_conj beta hb g N niw n hg (by omega) x hx
  have hV : Sde.extendOne c (VQ beta ur Γ (fun _ => bubLoc beta g) (0, 0, 0)) (-x) (-v - 1) =
      star (Sde.extendOne c (VQ beta ur Γ (fun _ => bubLoc beta g) (0, 0, 0)) x v) := by
    unfold Sde.extendOne
    by_cases h : -(c : Int) ≤ v ∧ v < c
    · rw [if_pos h, if_pos (by omega)]
      exact VQ_conj s beta ur hb hu Γ (fun _ => bubLoc beta g) (0, 0, 0) x (hΓ x hx) hB v
    · rw [if_neg h, if_neg (by omega), star_one]
  rw [hV, CQ_conj s beta ur hb hu Γ (fun _ => bubLoc beta g) (0, 0, 0) x (hΓ x hx) hB, star_mulC, star_sub, star_mulC, star_sub, star_mulC,
    star_one, hu, ← hg (v - x) (by omega) (by omega)]
  congr 2
  omega

/-- C70.  Conjugation symmetry of the complete calculation: if the two-particle data obey `G2(-w,-v,-v') = conj G2(w,v,v')`, the Green's
    functions and the DMFT self-energy obey `f(-v) = conj f(v)` and `beta`, `u`, `n`, `lambda` are real, then the returned self-energy
    obeys `Sigma(k,-v) = conj Sigma(k,v)` (Matsubara index `-v-1` is the frequency `-v`). -/
theorem dga_conj_symmetric {c : Nat} (s nx ny nz N Ns niw : Nat) (beta u n : K) (hb : star beta = beta) (hb0 : beta ≠ 0)
    (hu : star u = u) (hn : star n = n)
    (G : Nat → Nat → Nat → Int → K) (g S : Int → K) (hg : ∀ n : Int, -(N : Int) ≤ n → n < N → g (-n - 1) = star (g n))
    (hG : ∀ i j k, ∀ n : Int, -(N : Int) ≤ n → n < N → G i j k (-n - 1) = star (G i j k n))
    (hSc : ∀ n : Int, -(Ns : Int) ≤ n → n < Ns → S (-n - 1) = star (S n))
    (hfit : niw + (c + s) ≤ N) (hS : c ≤ Ns) (G2D G2M : Int → Matrix (Fin (2 * c)) (Fin (2 * c)) K)
    (hD : ∀ x ∈ Finset.Icc (-(niw : Int)) niw, ∀ i j, G2D (-x) i.rev j.rev = star (G2D x i j))
    (hM : ∀ x ∈ Finset.Icc (-(niw : Int)) niw, ∀ i j, G2M (-x) i.rev j.rev = star (G2M x i j))
    (label : Nat → Nat → Nat → Nat) (lamD lamM : Option K) (hlD : ∀ l, lamD = some l → star l = l) (hlM : ∀ l, lamM = some l → star l = l)
    (R : Nat) (hR : 0 < R) (sig : List (List K))
    (h : dgaSelfEnergy s R nx ny nz (flat3 (table nx ny nz label)) (objOf true niw beta u G2D) (objOf false niw beta u G2M)
        (genOf nx ny nz N niw beta G g) lamD lamM u n (samplesF S Ns) = some sig) :
    ∃ Sig : Nat → Nat → Nat → Int → K, sig = flat3 (table nx ny nz fun i j k => samplesF (Sig i j k) c) ∧
      ∀ i j k, ∀ v : Int, -(c : Int) ≤ v → v < c → Sig i j k (-v - 1) = star (Sig i j k v) := by
  unfold dgaSelfEnergy at h
  cases hl : localSde s (objOf true niw beta u G2D) (objOf false niw beta u G2M) (genOf nx ny nz N niw beta G g) n with
  | none => rw [hl] at h; cases h
  | some r =>
  obtain ⟨d, m, loc⟩ := r
  rw [hl, Option.bind_some] at h
  obtain ⟨ΓD, ΓM, e1, e2, e3, e4, e5⟩ := localSde_closed nx ny nz N niw beta u n hb hb0 G g hg hfit G2D G2M d m loc hl
  obtain ⟨irr, rep, _, hlat⟩ := latticeSde_eq s nx ny nz N niw beta u hb G g hg hG hfit ΓD ΓM label lamD lamM
  simp only [e1, e2] at h
  rw [hlat R hR] at h
  split at h
  case isFalse => cases h
  case isTrue =>
  rw [Option.bind_some, e5] at h
  simp only [cutV_samplesF S Ns c hS, cutV_samplesF _ (c + s) c (by omega : c ≤ c + s)] at h
  rw [flat3_table, List.mapM_map] at h
  have hu' : star (-u) = -u := by rw [star_neg, hu]
  have gD : ∀ x : Int, -(niw : Int) ≤ x ∧ x ≤ niw → ΓD (-x) = cm (ΓD x) := gam_conj beta u hb hu g N niw hfit hg true G2D ΓD hD e3
  have gM : ∀ x : Int, -(niw : Int) ≤ x ∧ x ≤ niw → ΓM (-x) = cm (ΓM x) := gam_conj beta (-u) hb hu' g N niw hfit hg false G2M ΓM hM e4
  let lat := fun (i j k : Nat) (v : Int) => 1 / (((nx * ny * nz : Nat) : K) * beta) *
    kSum nx ny nz fun q1 q2 q3 => ∑ x ∈ Finset.Icc (-(niw : Int)) niw,
      kerQ s beta u lamD lamM ΓD ΓM (bubQ nx ny nz beta G) (bubLoc beta g) (rep (momOf (q1, q2, q3))) x v *
        G (shiftG nx i q1) (shiftG ny j q2) (shiftG nz k q3) (v - x)
  let L := fun v : Int => u * n / 2 +
        Sde.sdeSpec u beta (wn niw) (Sde.extendOne c (VQ beta u ΓD (fun _ => bubLoc beta g) (0, 0, 0))) (CQ s beta u ΓD (fun _ => bubLoc beta g) (0, 0, 0)) g v +
        Sde.sdeSpec (-u) beta (wn niw) (Sde.extendOne c (VQ beta (-u) ΓM (fun _ => bubLoc beta g) (0, 0, 0))) (CQ s beta (-u) ΓM (fun _ => bubLoc beta g) (0, 0, 0)) g v
  refine ⟨fun i j k v => lat i j k v + (S v - L v) + u * n / 2, ?_, ?_⟩
  · rw [mapM_some _ _ (fun l => samplesF (fun v => lat (l / nz / ny) (l / nz % ny) (l % nz) v + (S v - L v) + u * n / 2) c)] at h
    · rw [flat3_table]
      exact (Option.some.inj h).symm
    · intro l _
      simp only [Function.comp]
      unfold assemble
      rw [if_pos (by simp [samplesF_length])]
      congr 1
      apply List.ext_getElem?
      intro k
      by_cases hk : k < 2 * c
      · rw [List.getElem?_zipWith, List.getElem?_zipWith, samplesF_get? _ _ _ hk, samplesF_get? _ _ _ hk, samplesF_get? _ _ _ hk,
          samplesF_get? _ _ _ hk]
      · rw [List.getElem?_eq_none (by simp only [List.length_zipWith, samplesF_length]; omega),
          List.getElem?_eq_none (by simp only [samplesF_length]; omega)]
  · intro i j k v h1 h2
    have hun : star (u * n / 2) = u * n / 2 := by rw [star_divC, star_mulC, hu, hn, star_ofNat]
    have hL : L (-v - 1) = star (L v) := by
      simp only [L]
      rw [star_add, star_add, hun, sdeSpec_conj s beta u hb hu g N niw hfit hg ΓD gD v (by omega),
        sdeSpec_conj s beta (-u) hb hu' g N niw hfit hg ΓM gM v (by omega)]
    have hlatc : lat i j k (-v - 1) = star (lat i j k v) := by
      simp only [lat]
      rw [star_mulC, star_divC, star_one, star_mulC, star_natCast, hb]
      congr 1
      unfold kSum
      rw [star_sum]; apply Finset.sum_congr rfl; intro q1 _
      rw [star_sum]; apply Finset.sum_congr rfl; intro q2 _
      rw [star_sum]; apply Finset.sum_congr rfl; intro q3 _
      rw [star_sum]
      refine (sum_wn_neg niw _).symm.trans (Finset.sum_congr rfl ?_)
      intro x hx
      rw [Finset.mem_Icc] at hx
      rw [kerQ_conj s beta u hb hu lamD lamM hlD hlM ΓD ΓM _ _ _ x (gD x hx) (gM x hx)
        (fun n hn => bubQ_conj nx ny nz beta hb G N niw n hG (by omega) _ x hx) (bubLoc_conj beta hb g N niw (c + s) hg hfit x hx) v,
        star_mulC, ← hG _ _ _ (v - x) (by omega) (by omega), show -(v - x) - 1 = -v - 1 - -x by omega]
    show lat i j k (-v - 1) + (S (-v - 1) - L (-v - 1)) + u * n / 2 = star (lat i j k v + (S v - L v) + u * n / 2)
    rw [star_add (lat i j k v + (S v - L v)), star_add (lat i j k v), star_sub, hun, hlatc, hL, hSc v (by omega) (by omega)]

end DGA.Pipe
