/-
  When the calculation returns a result: exactly the inversions have to be possible.  Used to show that the hypotheses of C61–C63
  are met by concrete inputs.
-/
import Verif.Pipeline.Props

namespace DGA.Pipe

open DGA.Mf DGA.Bz DGA.Bubble DGA.Fp

variable {K : Type} [Field K] [StarRing K]

omit [Field K] [StarRing K] in
theorem mapM_total {α β : Type} (l : List α) (f : α → Option β) (h : ∀ a ∈ l, ∃ b, f a = some b) : ∃ r, l.mapM f = some r := by
  induction l with
  | nil => exact ⟨[], rfl⟩
  | cons a l ih =>
    obtain ⟨b, hb⟩ := h a (by simp)
    obtain ⟨r, hr⟩ := ih fun x hx => h x (by simp [hx])
    exact ⟨b :: r, by simp [List.mapM_cons, hb, hr]⟩

theorem localChannel_of {c s : Nat} (nx ny nz N niw : Nat) (dens : Bool) (beta u : K) (hb : star beta = beta) (hb0 : beta ≠ 0)
    (G : Nat → Nat → Nat → Int → K) (g : Int → K) (hg : ∀ n : Int, -(N : Int) ≤ n → n < N → g (-n - 1) = star (g n))
    (hfit : niw + (c + s) ≤ N) (G2 Γ X : Int → Mat (2 * c) K)
    (hΓ : ∀ x ∈ wn niw, gamUrangeW (s := s) (Matrix.of (gchiOf beta g dens G2 x)) (onBox (c + s) (bubLoc beta g x)) beta (urOf dens u) =
      some (Γ x))
    (hX : ∀ x ∈ wn niw, auxGamW (Γ x) (onBox c (bubLoc beta g x)) beta (urOf dens u) = some (X x)) :
    localChannel s (objOf dens niw beta u G2) (genOf nx ny nz N niw beta G g)
      ((wn niw).map fun (x : Int) => onBox (c + s) (bubLoc beta g x)) =
      some ⟨objOf dens niw beta u Γ,
        ⟨chName dens, (wn niw).map fun (x : Int) => vrgSlice true (X x) (onBox c (bubLoc beta g x)), beta, u, none⟩,
        (wn niw).map fun (x : Int) => chiPhysUrange (physical beta (X x)) (physicalBubble beta (onBox c (bubLoc beta g x)))
          (physicalBubble beta (onBox (c + s) (bubLoc beta g x))) (urOf dens u)⟩ := by
  unfold localChannel
  rw [show (genOf nx ny nz N niw beta G g).gloc = samplesF g N from rfl, gchir_obj dens niw N beta u g G2 (by omega),
    Option.bind_some, gam_obj, mapM_some _ _ Γ hΓ, Option.map_some, Option.bind_some]
  unfold vrgChiUrange
  rw [chi0_gen nx ny nz N niw beta hb hb0 G g hg c (by omega), Option.bind_some,
      chi0_gen nx ny nz N niw beta hb hb0 G g hg (c + s) (by omega), Option.bind_some,
      gchi0_gen nx ny nz N niw beta hb G g hg c (by omega), Option.bind_some, mapM_toVec,
      Option.bind_some, aux_obj, mapM_some _ _ X hX, Option.map_some, Option.bind_some, ur_obj, Option.bind_some]
  unfold contract4
  simp only [List.map_map]
  rw [zip3_map, Option.bind_some, zipW_map, Option.bind_some, construct_eq _ (chName_known dens)]
  simp only [Option.map_some, Function.comp, contract_physical]
  rfl

theorem localSde_of {c s : Nat} (nx ny nz N niw : Nat) (beta u n : K) (hb : star beta = beta) (hb0 : beta ≠ 0)
    (G : Nat → Nat → Nat → Int → K) (g : Int → K) (hg : ∀ n : Int, -(N : Int) ≤ n → n < N → g (-n - 1) = star (g n))
    (hfit : niw + (c + s) ≤ N) (G2D G2M ΓD ΓM XD XM : Int → Mat (2 * c) K)
    (hΓD : ∀ x ∈ wn niw, gamUrangeW (s := s) (Matrix.of (gchiOf beta g true G2D x)) (onBox (c + s) (bubLoc beta g x)) beta u = some (ΓD x))
    (hXD : ∀ x ∈ wn niw, auxGamW (ΓD x) (onBox c (bubLoc beta g x)) beta u = some (XD x))
    (hΓM : ∀ x ∈ wn niw, gamUrangeW (s := s) (Matrix.of (gchiOf beta g false G2M x)) (onBox (c + s) (bubLoc beta g x)) beta (-u) = some (ΓM x))
    (hXM : ∀ x ∈ wn niw, auxGamW (ΓM x) (onBox c (bubLoc beta g x)) beta (-u) = some (XM x)) :
    ∃ d m siw, localSde s (objOf true niw beta u G2D) (objOf false niw beta u G2M) (genOf nx ny nz N niw beta G g) n = some (d, m, siw) ∧
      d.gam = objOf true niw beta u ΓD ∧ m.gam = objOf false niw beta u ΓM ∧ siw.length = 2 * (c + s) := by
  unfold localSde
  rw [gchi0_gen nx ny nz N niw beta hb G g hg (c + s) (by omega), Option.bind_some, mapM_toVec, Option.bind_some,
    localChannel_of nx ny nz N niw true beta u hb hb0 G g hg hfit G2D ΓD XD hΓD hXD, Option.bind_some,
    localChannel_of nx ny nz N niw false beta u hb hb0 G g hg hfit G2M ΓM XM hΓM hXM, Option.bind_some]
  simp only
  rw [objWn, List.map_map, List.map_map]
  have e : ∀ X : Int → Mat (2 * c) K, (List.ofFn ∘ fun (x : Int) => vrgSlice true (X x) (onBox c (bubLoc beta g x))) =
      fun x => samplesF (atV (vrgSlice true (X x) (onBox c (bubLoc beta g x)))) c := by
    intro X; funext x; exact ofFn_samplesF _
  rw [e, e, show (genOf nx ny nz N niw beta G g).gloc = samplesF g N from rfl,
    Sde.sdeFull_value _ _ c _ _ g N s beta u n (wn niw) (by intro x hx; rw [mem_wn] at hx; omega), Option.map_some]
  exact ⟨_, _, _, rfl, rfl, rfl, samplesF_length _ _⟩

/-- the calculation returns a result whenever the inversions are possible -/
theorem dga_of {c : Nat} (s nx ny nz N Ns niw : Nat) (beta u n : K) (hb : star beta = beta) (hb0 : beta ≠ 0)
    (G : Nat → Nat → Nat → Int → K) (g S : Int → K) (hg : ∀ n : Int, -(N : Int) ≤ n → n < N → g (-n - 1) = star (g n))
    (hG : ∀ i j k, ∀ n : Int, -(N : Int) ≤ n → n < N → G i j k (-n - 1) = star (G i j k n))
    (hfit : niw + (c + s) ≤ N) (hS : c ≤ Ns) (G2D G2M ΓD ΓM XD XM : Int → Mat (2 * c) K)
    (label : Nat → Nat → Nat → Nat) (lamD lamM : Option K) (R : Nat) (hR : 0 < R)
    (hΓD : ∀ x ∈ wn niw, gamUrangeW (s := s) (Matrix.of (gchiOf beta g true G2D x)) (onBox (c + s) (bubLoc beta g x)) beta u = some (ΓD x))
    (hXD : ∀ x ∈ wn niw, auxGamW (ΓD x) (onBox c (bubLoc beta g x)) beta u = some (XD x))
    (hΓM : ∀ x ∈ wn niw, gamUrangeW (s := s) (Matrix.of (gchiOf beta g false G2M x)) (onBox (c + s) (bubLoc beta g x)) beta (-u) = some (ΓM x))
    (hXM : ∀ x ∈ wn niw, auxGamW (ΓM x) (onBox c (bubLoc beta g x)) beta (-u) = some (XM x))
    (hF : ∀ x ∈ wn niw, (fob2GamSlice (shell2 s (ΓM x) (-u / beta ^ 2)) (onBox (c + s) (bubLoc beta g x))).isSome)
    (hQ : ∀ q : Mom, ∀ x ∈ wn niw, (auxGamW (ΓD x) (onBox c (bubQ nx ny nz beta G q x)) beta u).isSome ∧
      (auxGamW (ΓM x) (onBox c (bubQ nx ny nz beta G q x)) beta (-u)).isSome) :
    ∃ sig, dgaSelfEnergy s R nx ny nz (flat3 (table nx ny nz label)) (objOf true niw beta u G2D) (objOf false niw beta u G2M)
      (genOf nx ny nz N niw beta G g) lamD lamM u n (samplesF S Ns) = some sig := by
  obtain ⟨d, m, loc, h1, h2, h3, h4⟩ := localSde_of (s := s) nx ny nz N niw beta u n hb hb0 G g hg hfit G2D G2M ΓD ΓM XD XM hΓD hXD hΓM hXM
  obtain ⟨irr, rep, _, hlat⟩ := latticeSde_eq s nx ny nz N niw beta u hb G g hg hG hfit ΓD ΓM label lamD lamM
  unfold dgaSelfEnergy
  rw [h1, Option.bind_some]
  simp only [h2, h3]
  rw [hlat R hR, if_pos ⟨hF, fun q _ => ⟨fun x hx => (hQ q x hx).1, fun x hx => (hQ q x hx).2⟩⟩, Option.bind_some]
  have hloc : loc = samplesF (fun v => (loc[(v + (c + s : Nat)).toNat]?).getD 0) (c + s) := by
    apply eq_samplesF _ _ _ h4
    intro k hk
    rw [show (k : Int) - (c + s : Nat) + (c + s : Nat) = k by omega, Int.toNat_natCast, List.getElem?_eq_getElem (by omega), Option.getD_some]
  have hcl : cutV loc (c : Int) = samplesF (fun v => (loc[(v + (c + s : Nat)).toNat]?).getD 0) c := by
    rw [hloc, cutV_samplesF _ _ _ (by omega), ← hloc]
  simp only [hcl, cutV_samplesF S Ns c hS]
  rw [flat3_table, List.mapM_map]
  unfold assemble
  apply mapM_total
  intro l _
  simp only [Function.comp]
  exact ⟨_, if_pos (by simp [samplesF_length])⟩

end DGA.Pipe
