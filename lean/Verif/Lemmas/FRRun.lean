import Verif.Lemmas.FRStep

/-! # Facial reduction: the recursion -/

namespace PW
open Classical Matrix
variable {m n : ℕ}

/-- No index in `[xdim, gi)` has a certificate. -/
def NoCertBelow (s : FRResult ℝ n) (xdim gi : ℕ) : Prop :=
  ∀ l : Fin s.c, xdim ≤ l.val → l.val < gi → ¬ HasCert s.A s.b xdim l

/-- If the earlier indices have no certificate, a certificate vanishes there. -/
theorem certificate_zero_below {A : Matrix (Fin m) (Fin n) ℝ} {b : Fin m → ℝ} {xdim : ℕ} {i : Fin n}
    {y : Fin m → ℝ} (hy : Certifies A b xdim i y) {a : Fin n} (ha : ¬ HasCert A b xdim a) :
    (Aᵀ *ᵥ y) a ≤ 0 := by
  by_contra hpos
  push Not at hpos
  refine ha ⟨((Aᵀ *ᵥ y) a)⁻¹ • y, ?_, ?_, ?_, ?_⟩
  · intro c hc
    rw [Matrix.mulVec_smul, Pi.smul_apply, hy.free c hc, smul_zero]
  · intro c hc
    rw [Matrix.mulVec_smul, Pi.smul_apply, smul_eq_mul]
    exact mul_nonneg (inv_nonneg.2 hpos.le) (hy.nonneg c hc)
  · rw [Matrix.mulVec_smul, Pi.smul_apply, smul_eq_mul, inv_mul_cancel₀ hpos.ne']
  · rw [dotProduct_smul, hy.orth, smul_zero]

/-- After a round the search may resume at the index just treated. -/
theorem noCertBelow_round {E : Eigen ℝ} {err : ℝ} (herr : 0 < err) {xdim : ℕ} {s : FRResult ℝ n}
    {j : Fin s.c} {y : Fin s.r → ℝ} (hy : Certifies s.A s.b xdim j y)
    (hno : NoCertBelow s xdim j.val) :
    j.val ≤ (pickV err (s.Aᵀ *ᵥ y) xdim).length ∧
      NoCertBelow (frRound E err xdim s (s.Aᵀ *ᵥ y)) xdim j.val := by
  have hmem : ∀ a : Fin s.c, a.val < j.val → a ∈ pickV err (s.Aᵀ *ᵥ y) xdim := by
    intro a ha
    rw [mem_pickV]
    by_cases hx : a.val < xdim
    · exact .inl hx
    · right
      exact lt_of_le_of_lt (certificate_zero_below hy (hno a (by omega) ha)) herr
  have hsm := pickV_strictMono err (s.Aᵀ *ᵥ y) xdim
  have hpre := strictMono_prefix hsm j.val (fun a ha => List.get_of_mem (hmem a ha))
  have hpre' := strictMono_prefix' hsm j.val (fun a ha => List.get_of_mem (hmem a ha))
  constructor
  · by_contra hlt
    push Not at hlt
    obtain ⟨t, ht, -⟩ := hpre ⟨(pickV err (s.Aᵀ *ᵥ y) xdim).length, lt_trans hlt j.isLt⟩ hlt
    have := t.isLt
    simp at ht
    omega
  · intro l hx hl hc
    have e := hpre' l hl
    exact hno ((pickV err (s.Aᵀ *ᵥ y) xdim).get l) (by rw [e]; exact hx) (by rw [e]; exact hl)
      (hasCert_round herr hy l hx hc)

/-- The recursion with the search restarted from the first constrained coordinate in every round. -/
noncomputable def fullSearchStep (glp : Glpk ℝ) (E : Eigen ℝ) (err : ℝ) (xdim : ℕ) :
    (fuel : ℕ) → FRResult ℝ n → Out (FRResult ℝ n × ℕ)
  | 0, _ => .timeout
  | fuel + 1, s =>
    (findZ glp xdim s.A s.b xdim).bind fun zg =>
    match zg.1 with
    | none => .ok (s, zg.2)
    | some z => fullSearchStep glp E err xdim fuel (frRound E err xdim s z)

section
variable {glp : Glpk ℝ} (hg : glp.Exact) (hz : glp.ZeroIfInfeasible) {E : Eigen ℝ} {err : ℝ} (herr : 0 < err)
  {xdim : ℕ}
include hg hz

/-- What one call of `findZ` can give. -/
theorem findZ_cases {s : FRResult ℝ n} {gi : ℕ} (hx : xdim ≤ gi) (hc : gi ≤ s.c) (hr : s.r ≠ 0)
    (hno : NoCertBelow s xdim gi) :
    (∃ (j : Fin s.c) (y : Fin s.r → ℝ), xdim ≤ j.val ∧ Certifies s.A s.b xdim j y ∧
      NoCertBelow s xdim j.val ∧ findZ glp gi s.A s.b xdim = .ok (some (s.Aᵀ *ᵥ y), j.val)) ∨
    (NoCertBelow s xdim s.c ∧ findZ glp gi s.A s.b xdim = .ok (none, s.c)) := by
  have e : findZ glp gi s.A s.b xdim =
      findZLoop glp s.A s.b (s.c - gi) gi (findZRel s.c xdim) fun _ => 0 := by
    unfold findZ; rw [if_neg hr]
  rw [e]
  rcases findZLoop_spec hg hz hr (A := s.A) (b := s.b) (xdim := xdim) (s.c - gi) gi (by omega) hx with
    ⟨j, y, h1, h2, h3, h4⟩ | ⟨h1, h2⟩
  · refine .inl ⟨j, y, by omega, h2, fun l hl1 hl2 => ?_, h4⟩
    by_cases h : gi ≤ l.val
    · exact h3 l h hl2
    · exact hno l hl1 (by omega)
  · refine .inr ⟨fun l hl1 hl2 => ?_, h2⟩
    by_cases h : gi ≤ l.val
    · exact h1 l h
    · exact hno l hl1 (by omega)

include herr

/-- Everything about the recursion: for any property `I` of states kept by rounds, a returned state has `I`
and no certificate at all; it equals the recursion that always searches from the start; with enough fuel
it returns, or stops at a state without rows. -/
theorem step_spec (I : FRResult ℝ n → Prop)
    (hI : ∀ (s : FRResult ℝ n) (i : Fin s.c) (y : Fin s.r → ℝ), I s → xdim ≤ i.val →
      Certifies s.A s.b xdim i y → I (frRound E err xdim s (s.Aᵀ *ᵥ y))) :
    ∀ (fuel gi : ℕ) (s : FRResult ℝ n), I s → xdim ≤ gi → gi ≤ s.c → NoCertBelow s xdim gi →
      (∀ s' g', entireFacialReductionStep glp E err xdim fuel gi s = .ok (s', g') →
        I s' ∧ s'.r ≠ 0 ∧ NoCertBelow s' xdim s'.c) ∧
      entireFacialReductionStep glp E err xdim fuel gi s = fullSearchStep glp E err xdim fuel s ∧
      (err ≤ 1 → s.c - xdim < fuel →
        (∃ s' g', entireFacialReductionStep glp E err xdim fuel gi s = .ok (s', g')) ∨
        (entireFacialReductionStep glp E err xdim fuel gi s = .ub .indexOutOfRange ∧
          ∃ s', I s' ∧ s'.r = 0)) := by
  intro fuel
  induction fuel with
  | zero =>
    intro gi s _ _ _ _
    refine ⟨fun s' g' h => ?_, rfl, fun _ h => absurd h (Nat.not_lt_zero _)⟩
    exact absurd h (by simp [entireFacialReductionStep])
  | succ fuel ih =>
    intro gi s hs hx hc hno
    by_cases hr : s.r = 0
    · have e1 : ∀ g, findZ glp g s.A s.b xdim = .ub .indexOutOfRange := by
        intro g; unfold findZ; rw [if_pos hr]
      have e2 : entireFacialReductionStep glp E err xdim (fuel + 1) gi s = .ub .indexOutOfRange := by
        show (findZ glp gi s.A s.b xdim).bind _ = _
        rw [e1]; rfl
      refine ⟨fun s' g' h => ?_, ?_, fun _ _ => .inr ⟨e2, s, hs, hr⟩⟩
      · rw [e2] at h; cases h
      · rw [e2]
        show _ = (findZ glp xdim s.A s.b xdim).bind _
        rw [e1]; rfl
    · have hskip : findZ glp gi s.A s.b xdim = findZ glp xdim s.A s.b xdim :=
        findZ_skip hg hz hr gi hx hc hno
      rcases findZ_cases hg hz hx hc hr hno with ⟨j, y, h1, h2, h3, h4⟩ | ⟨h1, h2⟩
      · have e1 : entireFacialReductionStep glp E err xdim (fuel + 1) gi s =
            entireFacialReductionStep glp E err xdim fuel j.val (frRound E err xdim s (s.Aᵀ *ᵥ y)) := by
          show (findZ glp gi s.A s.b xdim).bind _ = _
          rw [h4]; rfl
        have e2 : fullSearchStep glp E err xdim (fuel + 1) s =
            fullSearchStep glp E err xdim fuel (frRound E err xdim s (s.Aᵀ *ᵥ y)) := by
          show (findZ glp xdim s.A s.b xdim).bind _ = _
          rw [← hskip, h4]; rfl
        have hn := noCertBelow_round (E := E) herr h2 h3
        obtain ⟨i1, i2, i3⟩ := ih j.val (frRound E err xdim s (s.Aᵀ *ᵥ y)) (hI s j y hs h1 h2) h1 hn.1 hn.2
        rw [e1, e2]
        refine ⟨i1, i2, fun he hf => i3 he ?_⟩
        have : (pickV err (s.Aᵀ *ᵥ y) xdim).length < s.c := pickV_lt h1 (by rw [h2.one]; exact he)
        have h5 : (frRound E err xdim s (s.Aᵀ *ᵥ y)).c = (pickV err (s.Aᵀ *ᵥ y) xdim).length := rfl
        have := j.isLt
        omega
      · have e1 : entireFacialReductionStep glp E err xdim (fuel + 1) gi s = .ok (s, s.c) := by
          show (findZ glp gi s.A s.b xdim).bind _ = _
          rw [h2]; rfl
        have e2 : fullSearchStep glp E err xdim (fuel + 1) s = .ok (s, s.c) := by
          show (findZ glp xdim s.A s.b xdim).bind _ = _
          rw [← hskip, h2]; rfl
        refine ⟨fun s' g' h => ?_, e1.trans e2.symm, fun _ _ => .inl ⟨_, _, e1⟩⟩
        rw [e1] at h
        cases h
        exact ⟨hs, hr, h1⟩
end

/-- Without certificates a non-empty polytope has a strictly feasible point. -/
theorem strictly_feasible {A : Matrix (Fin m) (Fin n) ℝ} {b : Fin m → ℝ} {xdim : ℕ}
    (hne : (PolyFrom A b xdim).Nonempty) (hno : ∀ l : Fin n, xdim ≤ l.val → ¬ HasCert A b xdim l) :
    ∃ v ∈ PolyFrom A b xdim, ∀ j : Fin n, xdim ≤ j.val → 0 < v j := by
  have hex : ∀ l : Fin n, ∃ v ∈ PolyFrom A b xdim, xdim ≤ l.val → 0 < v l := by
    intro l
    by_cases hl : xdim ≤ l.val
    · by_contra hcon
      push Not at hcon
      obtain ⟨v0, h1, h2⟩ := hne
      obtain ⟨y, y1, y2, y3, y4⟩ := exists_certificate A b (fun j => xdim ≤ j.val) l hl v0 h1 h2
        (fun v hv hv' => (hcon v ⟨hv, hv'⟩).2)
      refine hno l hl ⟨y, ?_, ?_, ?_, y4⟩
      · intro j hj; rw [Matrix.mulVec_transpose]; exact y1 j (by omega)
      · intro j hj; rw [Matrix.mulVec_transpose]; exact y2 j hj
      · rw [Matrix.mulVec_transpose]; exact y3
    · obtain ⟨v0, h⟩ := hne
      exact ⟨v0, h, fun h => absurd h hl⟩
  by_cases hn : n = 0
  · subst hn
    obtain ⟨v0, h⟩ := hne
    exact ⟨v0, h, fun j => j.elim0⟩
  choose w hw hpos using hex
  have hn' : (0 : ℝ) < n := by exact_mod_cast Nat.pos_of_ne_zero hn
  refine ⟨(n : ℝ)⁻¹ • ∑ l, w l, ⟨?_, ?_⟩, ?_⟩
  · rw [Matrix.mulVec_smul]
    have : A *ᵥ (∑ l, w l) = ∑ l : Fin n, A *ᵥ w l := by
      exact map_sum (Matrix.mulVecLin A) w Finset.univ
    rw [this]
    have e : ∀ l, A *ᵥ w l = b := fun l => (hw l).1
    simp only [e, Finset.sum_const, Finset.card_univ, Fintype.card_fin]
    rw [← Nat.cast_smul_eq_nsmul ℝ, smul_smul, inv_mul_cancel₀ hn'.ne', one_smul]
  · intro j hj
    rw [Pi.smul_apply, smul_eq_mul, Finset.sum_apply]
    exact mul_nonneg (inv_nonneg.2 hn'.le) (Finset.sum_nonneg fun l _ => (hw l).2 j hj)
  · intro j hj
    rw [Pi.smul_apply, smul_eq_mul, Finset.sum_apply]
    refine mul_pos (inv_pos.2 hn') (Finset.sum_pos' (fun l _ => (hw l).2 j hj) ⟨j, Finset.mem_univ _, hpos j hj⟩)

end PW
