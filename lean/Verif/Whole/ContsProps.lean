/-
  C142: the continuations of a complete run.
-/
import Verif.Whole.Conts

noncomputable section

namespace DGA.Whole

open DGA.Mf DGA.Bz DGA.Bubble DGA.Fp DGA.Two DGA.Inp DGA.Pipe DGA.Pairing DGA.Report DGA.Shared
open DGA.RankFiles (Str)

/-! ### one row -/

theorem contSingle_fermi (solve : Ana.Solver) (c : Ana.Cfg) (h : c.mode = "freq_fermionic") (F : Int → ℂ) (N : Nat) :
    (Ana.contSingle solve c (samplesF F N)).1 = fermiCont solve c.beta c.w (min c.nFit N) F := by
  obtain ⟨model, h1, h2⟩ := (Ana.contSingle_aligned solve c F N).1 h
  simp only [Ana.getModel, h, if_true, Option.some.injEq] at h1
  rw [h2, ← h1]
  unfold fermiCont flatModel freqs valsAt
  have e : (List.range (min c.nFit N)).map (fun k : Nat => Real.pi / c.beta * (2 * (k : ℝ) + 1)) = (List.range (min c.nFit N)).map fun k : Nat => (2 * (k : ℝ) + 1) * Real.pi / c.beta :=
    List.map_congr_left fun k _ => by ring
  rw [e]

theorem contSingle_bose (solve : Ana.Solver) (c : Ana.Cfg) (h : c.mode = "freq_bosonic") (F : Int → ℂ) (N : Nat) :
    (Ana.contSingle solve c (samplesB F N)).1 = boseCont solve c.beta c.w (min c.nFit N) N F := by
  obtain ⟨model, h1, h2⟩ := (Ana.contSingle_aligned solve c F N).2 h
  have hh : (samplesB F N).head? = some (F (-(N : Int))) := by
    rw [List.head?_eq_getElem?, samplesB, List.getElem?_map]
    simp only [wn, Bool.false_eq_true, if_false]
    rw [Py.arange_get? _ _ _ (by omega)]
    simp
  simp only [Ana.getModel, h, String.reduceEq, if_true, if_false, hh, Option.map_some, Option.some.injEq, one_mul] at h1
  rw [h2, ← h1]
  unfold boseCont flatModel bfreqs valsAt
  have e : (List.range (min c.nFit N + 1)).map (fun k : Nat => Real.pi / c.beta * (2 * (k : ℝ))) = (List.range (min c.nFit N + 1)).map fun k : Nat => 2 * (k : ℝ) * Real.pi / c.beta :=
    List.map_congr_left fun k _ => by ring
  rw [e]

/-! ### the grid -/

/-- reducing to the irreducible momenta, applying a function to every row and expanding again -/
theorem irr_map {α β : Type} (nx ny nz : Nat) (syms : List Sym) (mp : Bz.Arr3 Nat) (hmp : fbz2irrk nx ny nz syms = some mp) (G : Pt → α) (f : α → β) :
    ∃ rows ms, fbz2irrkMesh (flat3 mp) (table nx ny nz fun i j k => G (i, j, k)) = some rows ∧ rows.length = (uniq (flat3 mp)).length ∧
      (∀ x ∈ rows, ∃ p, InGrid nx ny nz p ∧ x = G p) ∧ irrk2fbzMesh nx ny nz (flat3 mp) (rows.map f) = some ms ∧
      ∀ p, InGrid nx ny nz p → ∃ r, InGrid nx ny nz r ∧ Bz.at3 mp r.1 r.2.1 r.2.2 = Bz.at3 mp p.1 p.2.1 p.2.2 ∧ Bz.at3 ms p.1 p.2.1 p.2.2 = some (f (G r)) := by
  obtain ⟨hlen, hflat⟩ := Pf.flat_index nx ny nz syms mp hmp
  set fl := flat3 mp with hf
  have hflatG : flat3 (table nx ny nz fun i j k => G (i, j, k)) = (List.range (nx * ny * nz)).map fun l => G (pt ny nz l) := flat3_table ..
  obtain ⟨rows, hrows⟩ := DGA.Mf.mapM_isSome (irrkInd fl) (fun i => (flat3 (table nx ny nz fun i j k => G (i, j, k)))[i]?) (by
    intro i hi
    have := irrkInd_lt fl i hi
    rw [hflatG, List.getElem?_map, List.getElem?_range (by omega)]; rfl)
  obtain ⟨c1, c2⟩ := DGA.Mf.mapM_getElem? _ _ _ hrows
  obtain ⟨ms, hms, hms'⟩ := Pf.irrk2fbzMesh_at nx ny nz fl hlen (rows.map f) (by simp [c1])
  have hval : ∀ p, InGrid nx ny nz p → ∃ r, InGrid nx ny nz r ∧ Bz.at3 mp r.1 r.2.1 r.2.2 = Bz.at3 mp p.1 p.2.1 p.2.2 ∧
      Bz.at3 ms p.1 p.2.1 p.2.2 = some (f (G r)) := by
    intro p hp
    have hpl : linP ny nz p < fl.length := by
      rw [hlen]
      obtain ⟨i, j, k⟩ := p
      exact Bz.lin_lt nx ny nz i j k hp.1 hp.2.1 hp.2.2
    obtain ⟨lab, hlab⟩ : ∃ lab, fl[linP ny nz p]? = some lab := ⟨_, List.getElem?_eq_getElem hpl⟩
    have hap : Bz.at3 mp p.1 p.2.1 p.2.2 = some lab := by rw [← hflat p hp, hlab]
    have hmem : lab ∈ fl := List.mem_of_getElem? hlab
    have hlt : fl.idxOf lab < nx * ny * nz := hlen ▸ List.idxOf_lt_length_of_mem hmem
    have hv := idxOf_get fl _ hmem
    have hr : InGrid nx ny nz (pt ny nz (fl.idxOf lab)) := by
      obtain ⟨b1, b2, b3, _⟩ := pt_bounds nx ny nz _ hlt
      exact ⟨b1, b2, b3⟩
    have hpos := Pf.linP_pt nx ny nz (fl.idxOf lab) hlt
    obtain ⟨r, hrdef⟩ : ∃ r, r = pt ny nz (fl.idxOf lab) := ⟨_, rfl⟩
    rw [← hrdef] at hr hpos
    have har : Bz.at3 mp r.1 r.2.1 r.2.2 = some lab := by rw [← hflat r hr, hpos, hv]
    refine ⟨r, hr, by rw [hap, har], ?_⟩
    have hu := idxOf_get (uniq fl) lab ((mem_uniq _ fl).2 hmem)
    have hind : (irrkInd fl)[(uniq fl).idxOf lab]? = some (fl.idxOf lab) := by
      unfold irrkInd; rw [List.getElem?_map, hu, Option.map_some]
    have hc := c2 _ _ hind
    rw [hflatG, range_map_get?, if_pos hlt] at hc
    rw [hms' p hp _ hlab, List.getElem?_map, ← hc, hrdef]
    rfl
  refine ⟨rows, ms, hrows, by rw [c1]; simp [irrkInd], ?_, hms, hval⟩
  · intro x hx
    obtain ⟨i, hi⟩ := List.mem_iff_getElem?.1 hx
    obtain ⟨i', hi'⟩ : ∃ i', (irrkInd fl)[i]? = some i' := ⟨_, List.getElem?_eq_getElem (by
      have := (List.getElem?_eq_some_iff.1 hi).1
      omega)⟩
    have hlt := irrkInd_lt fl i' (List.mem_of_getElem? hi')
    have hc := c2 _ _ hi'
    rw [hflatG, range_map_get?, if_pos (by omega), hi] at hc
    obtain ⟨b1, b2, b3, _⟩ := pt_bounds nx ny nz i' (by omega)
    exact ⟨_, ⟨b1, b2, b3⟩, (Option.some.inj hc).symm⟩

/-- continuing an array over the zone -/
theorem contGrid_table (S : Settings) (hR : 0 < S.ranks) (mp : Bz.Arr3 Nat) (hmp : fbz2irrk S.nx S.ny S.nz S.syms = some mp) (hpos : 0 < S.nx * S.ny * S.nz)
    (solve : Ana.Solver) (c : Ana.Cfg) (G : Pt → List ℂ) (L : Nat) (hL : ∀ p, (G p).length = L) :
    (∀ t, contGrid S solve c (flat3 mp) (table S.nx S.ny S.nz fun i j k => G (i, j, k)) = some t →
      S.ranks ≤ (uniq (flat3 mp)).length ∧ contGrid { S with ranks := 1 } solve c (flat3 mp) (table S.nx S.ny S.nz fun i j k => G (i, j, k)) = some t ∧
      ∀ p, InGrid S.nx S.ny S.nz p → ∃ r, InGrid S.nx S.ny S.nz r ∧ Bz.at3 mp r.1 r.2.1 r.2.2 = Bz.at3 mp p.1 p.2.1 p.2.2 ∧
        Bz.at3 t p.1 p.2.1 p.2.2 = some (orZeros c.w (Ana.contSingle solve c (G r)).1)) ∧
    (S.ranks ≤ (uniq (flat3 mp)).length → (S.ranks = 1 ∨ c.mode = "freq_bosonic" ∨ ∀ p, InGrid S.nx S.ny S.nz p → (Ana.contSingle solve c (G p)).1.isSome) →
      ∃ t, contGrid S solve c (flat3 mp) (table S.nx S.ny S.nz fun i j k => G (i, j, k)) = some t) := by
  obtain ⟨rows, ms, h1, h2, h3, h4, h5⟩ := irr_map S.nx S.ny S.nz S.syms mp hmp G fun r => orZeros c.w (Ana.contSingle solve c r).1
  have hrows : ∀ m ∈ rows, m.length = L := by
    intro m hm
    obtain ⟨p, -, rfl⟩ := h3 m hm
    exact hL p
  have hall : (Ana.contAll solve c rows).1 = rows.map fun r => orZeros c.w (Ana.contSingle solve c r).1 := Ana.contAll_independent solve L rows c hrows
  have hser : contGrid { S with ranks := 1 } solve c (flat3 mp) (table S.nx S.ny S.nz fun i j k => G (i, j, k)) = some ms := by
    unfold contGrid
    simp only [h1, Option.bind_some]
    rw [Ana.mpiCont_eq_serial solve c 1 Nat.one_pos L rows hrows ?_ (Or.inl rfl), Option.bind_some, hall, h4]
    rw [h2]
    by_contra hc
    obtain ⟨hlen, -⟩ := Pf.flat_index S.nx S.ny S.nz S.syms mp hmp
    have h0 : uniq (flat3 mp) = [] := List.length_eq_zero_iff.1 (by omega)
    obtain ⟨x, hx⟩ : ∃ x, x ∈ flat3 mp := List.exists_mem_of_length_pos (by omega)
    have := (mem_uniq x (flat3 mp)).2 hx
    rw [h0] at this
    cases this
  constructor
  · intro t ht
    have ht' := ht
    unfold contGrid at ht
    rw [h1, Option.bind_some, Option.bind_eq_some_iff] at ht
    obtain ⟨x, hx, ht⟩ := ht
    obtain ⟨hle, hx'⟩ := Ana.mpiCont_serial solve c S.ranks hR L rows hrows x hx
    rw [hx', hall, h4] at ht
    cases ht
    exact ⟨h2 ▸ hle, hser, h5⟩
  · intro hle ht
    refine ⟨ms, ?_⟩
    unfold contGrid
    simp only [h1, Option.bind_some]
    rw [Ana.mpiCont_eq_serial solve c S.ranks hR L rows hrows (by rw [h2]; exact hle) ?_, Option.bind_some, hall, h4]
    rcases ht with h | h | h
    · exact Or.inl h
    · exact Or.inr (Or.inl h)
    · right; right; left
      intro m hm
      obtain ⟨p, hp, rfl⟩ := h3 m hm
      exact h p hp

end DGA.Whole
