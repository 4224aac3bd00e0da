import Verif.Props.ToleranceRun
import Verif.Props.EndToEnd

/-!
# C89: where the separation is needed, and a solver and polytopes to which the theorems apply
-/

namespace PW
open Classical Matrix

/-- A solver with tolerance `δ` that is not exact: when a problem is infeasible but has a point feasible up to `δ`, it takes such a point for a
solution. -/
noncomputable def looseGlpk (δ : ℝ) : Glpk ℝ where
  solve lp := if ∃ x, lp.Feasible x then exactGlpk.solve lp else if h : ∃ x, lp.FeasibleUpTo δ x then h.choose else fun _ => 0

theorem looseGlpk_infeasible {δ : ℝ} {lp : LP ℝ} (h : ¬ ∃ x, lp.Feasible x) (h' : ∃ x, lp.FeasibleUpTo δ x) :
    lp.FeasibleUpTo δ ((looseGlpk δ).solve lp) := by
  show lp.FeasibleUpTo δ (if ∃ x, lp.Feasible x then exactGlpk.solve lp else if h : ∃ x, lp.FeasibleUpTo δ x then h.choose else fun _ => 0)
  rw [if_neg h, dif_pos h']
  exact h'.choose_spec

theorem looseGlpk_within {δ : ℝ} (hδ : 0 ≤ δ) : (looseGlpk δ).Within δ where
  feasible lp h := by
    show lp.FeasibleUpTo δ (if ∃ x, lp.Feasible x then exactGlpk.solve lp else if h : ∃ x, lp.FeasibleUpTo δ x then h.choose else fun _ => 0)
    rw [if_pos h]
    exact (exactGlpk_exact.feasible lp h).upTo hδ
  optimal lp x hx := by
    show _ ≤ lp.obj ⬝ᵥ (if ∃ x, lp.Feasible x then exactGlpk.solve lp else if h : ∃ x, lp.FeasibleUpTo δ x then h.choose else fun _ => 0)
    rw [if_pos ⟨x, hx.1⟩]
    have := (exactGlpk_exact.optimal lp ⟨x, hx⟩).2 x hx.1
    linarith
  infeasible lp h := by
    by_cases h' : ∃ x, lp.FeasibleUpTo δ x
    · exact .inr (looseGlpk_infeasible h h')
    · left
      show (if ∃ x, lp.Feasible x then exactGlpk.solve lp else if h : ∃ x, lp.FeasibleUpTo δ x then h.choose else fun _ => 0) = _
      rw [if_neg h, dif_neg h']

/-! ## A thin polytope -/

/-- A state `x1 + x2 = ε`. -/
def ThinState {d : ℕ} (ε : ℝ) (s : FRResult ℝ d) : Prop := s.c = 2 ∧ s.r = 1 ∧ (∀ i j, s.A i j = 1) ∧ ∀ i, s.b i = ε

theorem thin_step {d : ℕ} {δ err ε : ℝ} {E : Eigen ℝ} (hE : E.SparseQRExact) (hδ : 0 ≤ δ) (herr : 0 < err) (hle : δ + err ≤ 1) (h0 : 0 < ε)
    (hε : ε ≤ δ) {fuel : ℕ} (hf : 1 < fuel) {s : FRResult ℝ d} (hs : ThinState ε s) :
    entireFacialReductionStep (looseGlpk δ) E err 0 fuel 0 s = .ub .indexOutOfRange := by
  obtain ⟨r, c, A, b, V⟩ := s
  obtain ⟨hc, hr, hA, hb⟩ := hs
  simp only at hc hr hA hb
  subst hc hr
  obtain ⟨fuel, rfl⟩ : ∃ f, fuel = f + 2 := ⟨fuel - 2, by omega⟩
  have hz : ∀ (y : Fin 1 → ℝ) j, (Aᵀ *ᵥ y) j = y 0 := by
    intro y j
    show ∑ i, Aᵀ j i * y i = _
    rw [Fin.sum_univ_one, Matrix.transpose_apply, hA, one_mul]
  have hby : ∀ y : Fin 1 → ℝ, b ⬝ᵥ y = ε * y 0 := by
    intro y
    show ∑ i, b i * y i = _
    rw [Fin.sum_univ_one, hb]
  set lp := findZLP A b (findZRelAt 2 0 0) (findZBndAt 2 0) with hlp
  have hno : ¬ ∃ x, lp.Feasible x := by
    rintro ⟨y, hy⟩
    have h1 := (C38_findZ A b 0 (0 : Fin 2) (Nat.zero_le _) y).1 hy
    have h2 := h1.one
    have h3 := h1.orth
    have h2 : y (0 : Fin 1) = 1 := (hz y 0).symm.trans h2
    have h3 : ε * y (0 : Fin 1) = 0 := (hby y).symm.trans h3
    rw [h2, mul_one] at h3
    exact h0.ne' h3
  have hyes : lp.FeasibleUpTo δ fun _ => 1 := by
    refine ⟨fun i => ?_, fun j => trivial⟩
    have hrow : ∀ i : Fin 3, ((lp.mat : Matrix (Fin 3) (Fin 1) ℝ) *ᵥ fun _ => (1 : ℝ)) i = if i.val < 2 then 1 else ε := by
      intro i
      show ∑ l : Fin 1, (if h : i.val < 2 then A l ⟨i.val, h⟩ else b l) * 1 = _
      rw [Fin.sum_univ_one, mul_one]
      split
      · exact hA _ _
      · exact hb _
    refine (congrArg (fun t => Kind.HoldsUpTo δ _ t _) (hrow i)).mpr ?_
    revert i
    show ∀ i : Fin 3, Kind.HoldsUpTo δ (findZRelAt 2 0 0 i) (if i.val < 2 then 1 else ε) (findZBndAt 2 0 i)
    intro i
    fin_cases i
    · simpa [findZRelAt, findZBndAt, findZRel, setAt, Kind.HoldsUpTo] using hδ
    · simp [findZRelAt, findZBndAt, findZRel, setAt, Kind.HoldsUpTo]
      linarith
    · simp [findZRelAt, findZBndAt, findZRel, setAt, Kind.HoldsUpTo]
      rw [abs_of_pos h0]
      exact hε
  have hcert := nearCert_of_feasible (i := (0 : Fin 2)) (Nat.zero_le _) (looseGlpk_infeasible hno ⟨_, hyes⟩)
  let y : Fin 1 → ℝ := (looseGlpk δ).solve lp
  have hy0 : err ≤ y (0 : Fin 1) := by
    have h1 : 1 - δ ≤ y 0 := (hz y 0) ▸ hcert.one
    linarith
  have hsum : ¬ (∑ j, |y j|) = 0 := by
    intro h
    have := (Finset.sum_eq_zero_iff_of_nonneg (fun j _ => abs_nonneg _)).1 h (0 : Fin 1) (Finset.mem_univ _)
    have := abs_eq_zero.1 this
    linarith
  have hfz : findZ (looseGlpk δ) 0 A b 0 = .ok (some (Aᵀ *ᵥ y), 0) := by
    have e : findZ (looseGlpk δ) 0 A b 0 = findZLoop (looseGlpk δ) A b 2 0 (findZRel 2 0) fun _ => 0 := by
      unfold findZ; rw [if_neg (by omega)]
    rw [e]
    exact (findZLoop_succ (glp := looseGlpk δ) (A := A) (b := b) (by omega) (left := 1) (i := (0 : Fin 2)) (Nat.zero_le _)).trans (if_neg hsum)
  have e1 : entireFacialReductionStep (looseGlpk δ) E err 0 (fuel + 2) 0 ⟨1, 2, A, b, V⟩ =
      entireFacialReductionStep (looseGlpk δ) E err 0 (fuel + 1) 0 (frRound E err 0 ⟨1, 2, A, b, V⟩ (Aᵀ *ᵥ y)) := by
    show (findZ (looseGlpk δ) 0 A b 0).bind _ = _
    rw [hfz]; rfl
  rw [e1]
  have hpick : (pickV err (Aᵀ *ᵥ y) 0).length = 0 := by
    rw [List.length_eq_zero_iff, List.eq_nil_iff_forall_not_mem]
    intro a ha
    rw [mem_pickV] at ha
    rcases ha with h | h
    · exact absurd h (Nat.not_lt_zero _)
    · rw [hz] at h; linarith
  have hr0 : (frRound E err 0 ⟨1, 2, A, b, V⟩ (Aᵀ *ᵥ y)).r = 0 := by
    show (pickP E err (FRResult.selectCols ⟨1, 2, A, b, V⟩ (pickV err (Aᵀ *ᵥ y) 0)).A).length = 0
    have hgap : GapAt E err (FRResult.selectCols ⟨1, 2, A, b, V⟩ (pickV err (Aᵀ *ᵥ y) 0)).A := by
      intro i
      have h1 : i.val < (pickV err (Aᵀ *ᵥ y) 0).length := i.isLt
      omega
    have h1 := indepRows_le (pickP_indep hE herr.le hgap)
    have h2 : (pickP E err (FRResult.selectCols ⟨1, 2, A, b, V⟩ (pickV err (Aᵀ *ᵥ y) 0)).A).length ≤ (pickV err (Aᵀ *ᵥ y) 0).length := h1
    omega
  generalize frRound E err 0 ⟨1, 2, A, b, V⟩ (Aᵀ *ᵥ y) = s' at hr0
  have e2 : findZ (looseGlpk δ) 0 s'.A s'.b 0 = .ub .indexOutOfRange := by unfold findZ; rw [if_pos hr0]
  show (findZ (looseGlpk δ) 0 s'.A s'.b 0).bind _ = _
  rw [e2]; rfl

/-- **C89, the separation is needed**: for every tolerance `δ > 0` there is a solver within that tolerance for which facial reduction of the
segment `{x ≥ 0 | x1 + x2 = ε}` ends in an out-of-range access for every `ε ≤ δ`: the solver takes the whole segment for the origin. An exact
solver returns the segment. -/
theorem C89_thin {δ err : ℝ} {E : Eigen ℝ} (hE : E.SparseQRExact) (hδ : 0 < δ) (herr : 0 < err) (hle : δ + err ≤ 1) :
    ∃ glp : Glpk ℝ, glp.Within δ ∧ ∀ ε, 0 < ε → ε ≤ δ → ∀ fuel, 2 < fuel → ∀ (gi : Int) (sparse : Bool),
      (∃ x ∈ PolyEq segA.val (fun _ => ε) 2, ∀ i, 0 < x i) ∧
      FacialReduction.reduce glp E err fuel gi segA ⟨1, fun _ => ε⟩ 2 sparse = .ub .indexOutOfRange ∧
      ∀ glp' : Glpk ℝ, FRSetting glp' E err segA →
        ∃ out gi', FacialReduction.reduce glp' E err fuel gi segA ⟨1, fun _ => ε⟩ 2 sparse = .ok (out, gi') := by
  refine ⟨looseGlpk δ, looseGlpk_within hδ.le, fun ε h0 hε fuel hf gi sparse => ?_⟩
  have hsum : ∀ (x : Fin 2 → ℝ) (i : Fin 1), (segA.val *ᵥ x) i = x 0 + x 1 := by
    intro x i
    show ∑ j : Fin 2, (1 : ℝ) * x j = _
    rw [Fin.sum_univ_two, one_mul, one_mul]
  have hmem : (fun _ => ε / 2 : Fin 2 → ℝ) ∈ PolyEq segA.val (fun _ => ε) 2 := by
    refine ⟨?_, fun _ _ => by positivity⟩
    funext i
    exact (hsum _ i).trans (by ring)
  refine ⟨⟨_, hmem, fun _ => by positivity⟩, ?_, ?_⟩
  · have e : FacialReduction.reduce (looseGlpk δ) E err fuel gi segA ⟨1, fun _ => ε⟩ 2 sparse =
        (entireFacialReductionStep (looseGlpk δ) E err 0 fuel 0 (frStart E err segA.val fun _ => ε)).bind fun sg =>
        (frFinish E sg.1 0 sparse).bind fun out => .ok (out, (sg.2 : Int)) := rfl
    rw [e, thin_step hE hδ.le herr hle h0 hε (by omega)]
    · rfl
    · have h1 : err < 1 := by linarith
      have h2 : err * err < 2 := by nlinarith
      refine ⟨rfl, ?_, fun _ _ => rfl, fun _ => rfl⟩
      show (pickP E err segA.val).length = 1
      have h3 : (pickP E err segA.val).length ≤ 1 := pickP_length_le hE
      have h4 : 0 < (pickP E err segA.val).length := by
        refine pickP_ne_nil (u := fun _ => 1) hE herr.le (ones_gap hE h2 fun _ _ => rfl) ?_
        intro h
        have : (1 : ℝ) + 1 = 0 := (hsum (fun _ => 1) (0 : Fin 1)).symm.trans (congrFun h (0 : Fin 1))
        norm_num at this
      omega
  · intro glp' hS
    refine (C69_returns hS (by linarith) (fun _ => ε) (k := 2) (by decide) ⟨_, hmem⟩ (by simpa using hf) gi sparse).1 ?_
    apply not_coordCone_of_zero
    intro h
    have h1 : (0 : ℝ) + 0 = ε := (hsum 0 (0 : Fin 1)).symm.trans (congrFun h.1 (0 : Fin 1))
    linarith

/-! ## A polytope and an inexact solver to which the theorems apply -/

/-- `{x ≥ 0 | x1 + x2 = 1, x3 = 0}` is separated at a positive tolerance, with a solver that is not exact. -/
theorem face_tol : ∃ err δ : ℝ, 0 < δ ∧ err ≤ 1 / 2 ∧ FRTolSetting (looseGlpk δ) exactEigen err δ faceA faceB 3 := by
  obtain ⟨ε, h1, h2, h3⟩ := exists_pivotGap exactEigen faceA.val
  have hp : 0 < min ε (1 / 2) := lt_min h1 (by norm_num)
  have hle : min ε (1 / 2) ≤ 1 / 2 := min_le_right _ _
  refine ⟨min ε (1 / 2), min ε (1 / 2) / 8, by positivity, hle, ?_⟩
  refine ⟨looseGlpk_within (by positivity), by positivity, exactEigen_sparseQR, hp, by linarith, h3 _ (min_le_left _ _), ?_⟩
  refine ⟨![1 / 2, 1 / 2, 0], face_pos, ?_⟩
  have hs : ∑ i : Fin 3, |(![1 / 2, 1 / 2, 0] : Fin 3 → ℝ) i| = 1 := by
    rw [Fin.sum_univ_three]
    show |(1 / 2 : ℝ)| + |(1 / 2 : ℝ)| + |(0 : ℝ)| = 1
    norm_num [abs_of_pos]
  show ∀ j : Fin 3, 0 ≤ j.val → (∃ w ∈ PolyEq faceA.val faceB 3, 0 < w j) →
    min ε (1 / 2) / 8 * (1 + ∑ i : Fin 3, |(![1 / 2, 1 / 2, 0] : Fin 3 → ℝ) i|) < min ε (1 / 2) * (![1 / 2, 1 / 2, 0] : Fin 3 → ℝ) j
  rw [hs]
  intro j _ hw
  have hj : j ≠ 2 := by
    rintro rfl
    obtain ⟨w, hw, hw0⟩ := hw
    have := (faceA_mem.1 hw).2.1
    linarith
  have hv : (![1 / 2, 1 / 2, 0] : Fin 3 → ℝ) j = 1 / 2 := by
    have : ∀ j : Fin 3, j ≠ 2 → (![1 / 2, 1 / 2, 0] : Fin 3 → ℝ) j = 1 / 2 := by intro j; fin_cases j <;> simp
    exact this j hj
  rw [hv]
  linarith

/-- C89 on it: the inexact solver makes the reduction drop the third coordinate and only that one. -/
example : ∃ err δ : ℝ, ∃ out gi', 0 < δ ∧
    FacialReduction.reduce (looseGlpk δ) exactEigen err 4 0 faceA ⟨_, faceB⟩ 3 true = .ok (out, gi') ∧
    IndepRows out.sparse.A ∧ out.sparse.c = survivorCount faceA.val faceB 3 ∧
    Set.BijOn (fun v => out.sparse.V *ᵥ v) (PolyFrom out.sparse.A out.sparse.b 0) (PolyEq faceA.val faceB 3) := by
  obtain ⟨err, δ, hδ, -, hS⟩ := face_tol
  obtain ⟨out, gi', h⟩ := (C89_returns (k := 3) hS (by decide) (fuel := 4) (by decide) 0 true).1 face_not_cone
  exact ⟨err, δ, out, gi', hδ, h, (C89_dimensions (k := 3) hS h).1, (C89_dimensions (k := 3) hS h).2.1, C89_bijection (k := 3) hS h⟩

/-- `{x ≥ 0 | x1 + x2 = 1}` is separated at a positive tolerance, with a solver that is not exact. -/
theorem seg_tol : ∃ err δ : ℝ, 0 < δ ∧ err ≤ 1 / 2 ∧ FRTolSetting (looseGlpk δ) exactEigen err δ segA segB 2 := by
  obtain ⟨ε, h1, h2, h3⟩ := exists_pivotGap exactEigen segA.val
  have hp : 0 < min ε (1 / 2) := lt_min h1 (by norm_num)
  have hle : min ε (1 / 2) ≤ 1 / 2 := min_le_right _ _
  refine ⟨min ε (1 / 2), min ε (1 / 2) / 8, by positivity, hle, ?_⟩
  refine ⟨looseGlpk_within (by positivity), by positivity, exactEigen_sparseQR, hp, by linarith, h3 _ (min_le_left _ _), ?_⟩
  refine ⟨fun _ => 1 / 2, segA_mid, fun j _ _ => ?_⟩
  have hs : ∑ i : Fin 2, |(fun _ => 1 / 2 : Fin 2 → ℝ) i| = 1 := by
    rw [Fin.sum_univ_two]
    norm_num [abs_of_pos]
  show min ε (1 / 2) / 8 * (1 + ∑ i : Fin 2, |(fun _ => 1 / 2 : Fin 2 → ℝ) i|) < min ε (1 / 2) * (1 / 2)
  rw [hs]
  linarith

/-- C89 on it: the dense driver returns, and the rows of every walk that stays inside are on the segment. -/
example : ∃ err δ : ℝ, ∃ rows, 0 < δ ∧
    denseFullWalkRun (looseGlpk δ) exactEigen err 3 0 (fun _ x M _ _ _ _ => .ok ⟨x.n, [x.val]⟩) 1 segA ⟨_, segB⟩ 2 0 1 (-1) = .ok rows ∧
    ∀ x ∈ rows, x ∈ PolyEq segA.val segB 2 := by
  obtain ⟨err, δ, hδ, he, hS⟩ := seg_tol
  have hbd : ∃ M, ∀ x ∈ PolyEq segA.val segB 2, ∀ i, |x i| ≤ M := by
    refine ⟨1, fun x hx i => ?_⟩
    obtain ⟨h1, h2, h3⟩ := segA_mem.1 hx
    have : ∀ i : Fin 2, |x i| ≤ 1 := by
      intro i
      fin_cases i <;> (rw [abs_le]; constructor <;> simp <;> linarith)
    exact this i
  obtain ⟨rows, hr⟩ := (C89_dense_returns (k := 2) hS (by decide) (walk := fun _ x M _ _ _ _ => .ok ⟨x.n, [x.val]⟩)
    1 0 1 (-1) (fun x M _ hx _ _ _ _ => ⟨_, rfl, hx, by simp⟩) (fuel := 3) (by decide) 0).1.2
      ⟨segA_not_cone, fun i _ => ⟨_, segA_mid, by norm_num⟩⟩
  refine ⟨err, δ, rows, hδ, hr, ?_⟩
  refine C89_dense_rows (k := 2) hS he exactEigen_householderQR exactEigen_exact.inv hbd ?_ (by constructor <;> norm_num [intMax]) hr
  intro niter burnin thin seed A b x S _ hx h
  cases h
  refine ⟨rfl, fun row hrow => ?_⟩
  rw [List.mem_singleton.1 hrow]
  exact hx

/-- C89 on it: the sparse driver returns, and the rows satisfy the equation up to the tolerance. -/
example : ∃ err δ : ℝ, ∃ rows, 0 < δ ∧
    sparseFullWalkRun (looseGlpk δ) exactEigen err 3 0 (fun _ x M _ _ _ _ _ => .ok ⟨x.n, [x.val]⟩) 1 segA ⟨_, segB⟩ 2 0 1 (-1) = .ok rows ∧
    ∀ x ∈ rows, x ∈ TailNonneg 2 2 ∧ ∀ i, |(segA.val *ᵥ x) i - segB i| ≤ δ := by
  obtain ⟨err, δ, hδ, he, hS⟩ := seg_tol
  have hbd : ∃ M, ∀ x ∈ PolyEq segA.val segB 2, ∀ i, |x i| ≤ M := by
    refine ⟨1, fun x hx i => ?_⟩
    obtain ⟨h1, h2, h3⟩ := segA_mem.1 hx
    have : ∀ i : Fin 2, |x i| ≤ 1 := by
      intro i
      fin_cases i <;> (rw [abs_le]; constructor <;> simp <;> linarith)
    exact this i
  have hall : ∀ i : Fin segA.c, Survives segA.val segB 2 i := fun i => .inr ⟨_, segA_mid, by norm_num⟩
  obtain ⟨rows, hr⟩ := C89_sparse_returns (k := 2) hS (by decide) segA_indep hall segA_not_cone
    (walk := fun _ x M _ _ _ _ _ => .ok ⟨x.n, [x.val]⟩)
    1 0 1 (-1) (fun x M _ hx _ _ _ => ⟨_, rfl, hx⟩) (fuel := 3) (by decide) 0
  refine ⟨err, δ, rows, hδ, hr, ?_⟩
  refine C89_sparse_rows (k := 2) hS he segA_indep hall hbd ?_ (by constructor <;> norm_num [intMax]) hr
  intro niter burnin thin seed A b k x S _ _ _ _ hx h
  cases h
  refine ⟨rfl, fun row hrow => ?_⟩
  rw [List.mem_singleton.1 hrow]
  exact ⟨rfl, hx⟩

end PW
