import Verif.Lemmas.FRTol
import Verif.Props.FRExact

/-!
# C89: facial reduction with an LP solver that has a tolerance
-/

namespace PW
open Classical Matrix

/-- The LP solver has tolerance `δ`, the polytope is well separated at that tolerance, the QR decomposition is exact and the threshold `err`
separates its non-zero pivots from zero. -/
structure FRTolSetting (glp : Glpk ℝ) (E : Eigen ℝ) (err δ : ℝ) (A : DMat ℝ) (b : Fin A.r → ℝ) (k : ℕ) : Prop where
  lp : glp.Within δ
  tol : 0 ≤ δ
  qr : E.SparseQRExact
  pos : 0 < err
  le : δ + err ≤ 1
  gap : E.PivotGap err A.val
  sep : Separated A.val b (A.c - k) δ err

section
variable {glp : Glpk ℝ} {E : Eigen ℝ} {err δ : ℝ} {A : DMat ℝ} {b : Fin A.r → ℝ}

theorem FRTolSetting.nonempty {k : ℕ} (hS : FRTolSetting glp E err δ A b k) : (PolyEq A.val b k).Nonempty := by
  obtain ⟨v, hv, -⟩ := hS.sep
  exact ⟨v, hv⟩

theorem run_tol {k : ℕ} (hS : FRTolSetting glp E err δ A b k) (fuel : ℕ) :
    (∀ s' g', entireFacialReductionStep glp E err (A.c - k) fuel (A.c - k) (frStart E err A.val b) = .ok (s', g') →
        FRInv A.val b (A.c - k) s' ∧ s'.r ≠ 0 ∧ NoCertBelow s' (A.c - k) s'.c) ∧
      (A.c - (A.c - k) < fuel →
        (∃ s' g', entireFacialReductionStep glp E err (A.c - k) fuel (A.c - k) (frStart E err A.val b) = .ok (s', g')) ∨
        (entireFacialReductionStep glp E err (A.c - k) fuel (A.c - k) (frStart E err A.val b) = .ub .indexOutOfRange ∧
          ∃ s', FRInv A.val b (A.c - k) s' ∧ s'.r = 0)) :=
  step_tol hS.lp hS.tol hS.pos hS.le hS.qr hS.gap hS.sep fuel (A.c - k) (frStart E err A.val b)
    (FRInv.start hS.qr hS.pos.le (Nat.sub_le _ _) hS.gap) le_rfl (Nat.sub_le _ _) (fun l h1 h2 => by omega)

theorem reduce_inv_tol {k : Int} (hS : FRTolSetting glp E err δ A b k.toNat) {fuel : ℕ} {gi gi' : Int}
    {sparse : Bool} {out : FROutput ℝ A.c}
    (h : FacialReduction.reduce glp E err fuel gi A ⟨A.r, b⟩ k sparse = .ok (out, gi')) :
    FRInv A.val b (A.c - k.toNat) out.sparse ∧ out.sparse.r ≠ 0 ∧
      NoCertBelow out.sparse (A.c - k.toNat) out.sparse.c := by
  obtain ⟨-, -, g', h1, -⟩ := reduce_ok h
  exact (run_tol hS fuel).1 _ _ h1

/-- **C89**: with a tolerant LP solver on a well separated polytope, `v ↦ saved_V v` still is a bijection from the reduced polytope onto the
original one. -/
theorem C89_bijection {k : Int} (hS : FRTolSetting glp E err δ A b k.toNat) {fuel : ℕ} {gi gi' : Int} {sparse : Bool} {out : FROutput ℝ A.c}
    (h : FacialReduction.reduce glp E err fuel gi A ⟨A.r, b⟩ k sparse = .ok (out, gi')) :
    Set.BijOn (fun v => out.sparse.V *ᵥ v) (PolyFrom out.sparse.A out.sparse.b (A.c - k.toNat)) (PolyEq A.val b k.toNat) := by
  obtain ⟨hi, -, -⟩ := reduce_inv_tol hS h
  refine ⟨fun v hv => hi.sub hS.nonempty v hv, hi.injective.injOn, fun x hx => ?_⟩
  obtain ⟨v, hv, e⟩ := hi.sup x hx
  exact ⟨v, hv, e⟩

/-- **C89**: the reduced polytope has a point whose constrained coordinates are all positive. -/
theorem C89_strict {k : Int} (hS : FRTolSetting glp E err δ A b k.toNat) {fuel : ℕ} {gi gi' : Int} {sparse : Bool} {out : FROutput ℝ A.c}
    (h : FacialReduction.reduce glp E err fuel gi A ⟨A.r, b⟩ k sparse = .ok (out, gi')) :
    ∃ v ∈ PolyFrom out.sparse.A out.sparse.b (A.c - k.toNat), ∀ j : Fin out.sparse.c, A.c - k.toNat ≤ j.val → 0 < v j := by
  obtain ⟨hi, -, hn⟩ := reduce_inv_tol hS h
  refine strictly_feasible ?_ (fun l hl => hn l hl l.isLt)
  obtain ⟨x, hx⟩ := hS.nonempty
  obtain ⟨v, hv, -⟩ := hi.sup x hx
  exact ⟨v, hv⟩

/-- **C89**: `saved_V` selects the free coordinates and exactly the constrained ones that are positive somewhere on the polytope: the tolerance
makes the solver drop nothing it should keep, and keep nothing it should drop. -/
theorem C89_dropped {k : Int} (hS : FRTolSetting glp E err δ A b k.toNat) {fuel : ℕ} {gi gi' : Int} {sparse : Bool} {out : FROutput ℝ A.c}
    (h : FacialReduction.reduce glp E err fuel gi A ⟨A.r, b⟩ k sparse = .ok (out, gi')) :
    ∃ g : Fin out.sparse.c → Fin A.c, StrictMono g ∧
      (∀ i j, out.sparse.V i j = if g j = i then 1 else 0) ∧
      ∀ i : Fin A.c, Survives A.val b k.toNat i ↔ ∃ j, g j = i := by
  have hb := C89_bijection hS h
  obtain ⟨v, hv, hpos⟩ := C89_strict hS h
  obtain ⟨hi, -, -⟩ := reduce_inv_tol hS h
  obtain ⟨g, hg, hg1, hV, -⟩ := hi.sel
  refine ⟨g, hg, hV, fun i => ?_⟩
  by_cases hx : i.val < A.c - k.toNat
  · have hdim := hi.dim
    exact ⟨fun _ => ⟨⟨i.val, by omega⟩, Fin.ext (hg1 _ hx)⟩, fun _ => .inl hx⟩
  · constructor
    · rintro (h1 | ⟨x, hx, hxi⟩)
      · exact absurd h1 hx
      obtain ⟨w, -, rfl⟩ := hb.surjOn hx
      by_contra hno
      push Not at hno
      exact hxi (selV_mulVec_off hV w i hno)
    · rintro ⟨j, rfl⟩
      refine .inr ⟨_, hb.mapsTo hv, ?_⟩
      show (out.sparse.V *ᵥ v) (g j) ≠ 0
      rw [selV_mulVec hg.injective hV]
      refine (hpos j ?_).ne'
      by_contra hlt
      push Not at hlt
      have := hg1 j hlt
      omega

/-- **C89**: the returned system has linearly independent rows, one column per surviving coordinate and as many rows as the rank of `A` on
those columns. -/
theorem C89_dimensions {k : Int} (hS : FRTolSetting glp E err δ A b k.toNat) {fuel : ℕ} {gi gi' : Int} {sparse : Bool} {out : FROutput ℝ A.c}
    (h : FacialReduction.reduce glp E err fuel gi A ⟨A.r, b⟩ k sparse = .ok (out, gi')) :
    IndepRows out.sparse.A ∧ out.sparse.c = survivorCount A.val b k.toNat ∧ out.sparse.r = survivorRank A.val b k.toNat := by
  obtain ⟨hinv, -, -⟩ := reduce_inv_tol hS h
  obtain ⟨g, hg, hgx, hV, f, hf, hA⟩ := hinv.sel
  obtain ⟨g', hg', hV', hs⟩ := C89_dropped hS h
  have hgg : g' = g := by
    funext j
    have h1 := hV' (g j) j
    have h2 := hV (g j) j
    rw [if_pos rfl] at h2
    rw [h2] at h1
    by_contra hne
    rw [if_neg hne] at h1
    exact one_ne_zero h1
  rw [hgg] at hs
  refine ⟨hinv.indep, (survivorCount_eq hg.injective hs).symm, ?_⟩
  rw [survivorRank_eq hs, ← hinv.indep.rank]
  obtain ⟨v, hv, hpos⟩ := C89_strict hS h
  apply le_antisymm
  · have : out.sparse.A = (A.val.submatrix id g).submatrix f id := by rw [hA]; rfl
    rw [this]
    exact Matrix.rank_submatrix_le _ f id
  · refine rank_le_of_ker_le fun u hu => ?_
    rw [← mulVec_selV hV]
    exact hinv.ker hS.nonempty hv hpos u hu

theorem reduce_outcome_tol {k : Int} (hS : FRTolSetting glp E err δ A b k.toNat)
    (hk : 0 < k ∧ k ≤ A.c) {fuel : ℕ} (hf : k.toNat < fuel) (gi : Int) (sparse : Bool) :
    (∃ out gi', FacialReduction.reduce glp E err fuel gi A ⟨A.r, b⟩ k sparse = .ok (out, gi')) ∨
    (FacialReduction.reduce glp E err fuel gi A ⟨A.r, b⟩ k sparse = .ub .indexOutOfRange ∧
      ∃ s', FRInv A.val b (A.c - k.toNat) s' ∧ s'.r = 0) := by
  have e : FacialReduction.reduce glp E err fuel gi A ⟨A.r, b⟩ k sparse =
      (entireFacialReductionStep glp E err (A.c - k.toNat) fuel (A.c - k.toNat)
        (frStart E err A.val b)).bind fun sg =>
      (frFinish E sg.1 (A.c - k.toNat) sparse).bind fun out => .ok (out, (sg.2 : Int)) := by
    unfold FacialReduction.reduce
    rw [if_neg (by omega), dif_pos rfl]
    rfl
  rw [e]
  obtain ⟨r1, r3⟩ := run_tol hS fuel
  rcases r3 (by omega) with ⟨s', g', hs⟩ | ⟨hs, hs'⟩
  · left
    obtain ⟨hi, -, -⟩ := r1 _ _ hs
    obtain ⟨out, ho⟩ := frFinish_ok (E := E) s' (A.c - k.toNat) sparse (indepRows_le hi.indep) hi.dim
    refine ⟨out, g', ?_⟩
    rw [hs, Out.ok_bind, ho, Out.ok_bind]
  · right
    refine ⟨?_, hs'⟩
    rw [hs]; rfl

/-- **C89**: with `k` in range, facial reduction returns unless the polytope is a coordinate cone, and for every coordinate cone it ends in an
out-of-range access: exactly as with an exact solver. -/
theorem C89_returns {k : Int} (hS : FRTolSetting glp E err δ A b k.toNat) (hk : 0 < k ∧ k ≤ A.c) {fuel : ℕ} (hf : k.toNat < fuel) (gi : Int)
    (sparse : Bool) :
    (¬ CoordCone (PolyEq A.val b k.toNat) k.toNat →
      ∃ out gi', FacialReduction.reduce glp E err fuel gi A ⟨A.r, b⟩ k sparse = .ok (out, gi')) ∧
    (CoordCone (PolyEq A.val b k.toNat) k.toNat →
      FacialReduction.reduce glp E err fuel gi A ⟨A.r, b⟩ k sparse = .ub .indexOutOfRange) := by
  have hne := hS.nonempty
  rw [coordCone_iff hne]
  rcases reduce_outcome_tol hS hk hf gi sparse with ⟨out, gi', h⟩ | ⟨hub, s', hi, hr⟩
  · refine ⟨fun _ => ⟨out, gi', h⟩, fun hc => ?_⟩
    exfalso
    obtain ⟨hinv, hr0, -⟩ := reduce_inv_tol hS h
    obtain ⟨g, hg, hgx, hV, f, hf, hA⟩ := hinv.sel
    have hz : out.sparse.A = 0 := by
      obtain ⟨v, hv, hpos⟩ := C89_strict hS h
      ext r j
      rw [hA]
      refine hc (g j) ?_ (f r)
      by_cases hj : j.val < A.c - k.toNat
      · exact .inl (by rw [hgx j hj]; exact hj)
      · refine .inr ⟨_, (C89_bijection hS h).mapsTo hv, ?_⟩
        show (out.sparse.V *ᵥ v) (g j) ≠ 0
        rw [selV_mulVec hg.injective hV]
        exact (hpos j (by omega)).ne'
    have := hinv.indep (fun _ => 1) (by rw [hz]; exact Matrix.vecMul_zero _)
    have h2 := congrFun this ⟨0, Nat.pos_of_ne_zero hr0⟩
    exact one_ne_zero h2
  · refine ⟨fun hc => ?_, fun _ => hub⟩
    exfalso
    apply hc
    obtain ⟨g, hg, hgx, hV, -⟩ := hi.sel
    have hall : ∀ v : Fin s'.c → ℝ, (∀ j, 0 ≤ v j) → A.val *ᵥ (s'.V *ᵥ v) = b := by
      intro v hv
      refine (hi.sub hne v ⟨?_, fun j _ => hv j⟩).1
      funext i
      exact (Fin.cast hr i).elim0
    have hb : b = 0 := by
      rw [← hall 0 fun _ => le_rfl, Matrix.mulVec_zero, Matrix.mulVec_zero]
    have hcol : ∀ j r, A.val r (g j) = 0 := by
      intro j r
      have h2 := hall (Pi.single j 1) fun l => by
        by_cases e : l = j
        · subst e; simp
        · simp [Pi.single_eq_of_ne e]
      rw [mulVec_selV hV, Matrix.mulVec_single_one, hb] at h2
      exact congrFun h2 r
    intro i hiS r
    have : ∃ j, g j = i := by
      rcases hiS with h2 | ⟨x, hx, hx0⟩
      · have hdim := hi.dim
        exact ⟨⟨i.val, by omega⟩, Fin.ext (hgx _ h2)⟩
      · obtain ⟨v, -, rfl⟩ := hi.sup x hx
        by_contra hno
        push Not at hno
        exact hx0 (selV_mulVec_off hV v i hno)
    obtain ⟨j, rfl⟩ := this
    exact hcol j r

end

/-! ## Centres -/

section
variable {m n : ℕ}

theorem denseCenter_upTo (A : Matrix (Fin m) (Fin n) ℝ) (b : Fin m → ℝ) {δ : ℝ} (p : Fin (n + 1) → ℝ)
    (h : (denseCenterLP A ⟨m, b⟩).FeasibleUpTo δ p) :
    ∀ i, (A *ᵥ fun j => p j.castSucc) i + p (Fin.last n) ≤ b i + δ := by
  intro i
  have hrow : ((denseCenterLP A ⟨m, b⟩).mat *ᵥ p) i = (A *ᵥ fun j => p j.castSucc) i + p (Fin.last n) := by
    refine (mulVec_snoc _ _ _).trans ?_
    show ∑ j : Fin n, (if h : j.val < n then A i ⟨j.val, h⟩ else 1) * p j.castSucc +
      (if h : n < n then A i ⟨n, h⟩ else 1) * p (Fin.last n) = _
    simp [Matrix.mulVec, dotProduct]
  have := (congrArg (fun t => Kind.HoldsUpTo δ _ t _) hrow).mp (h.1 i)
  simpa [denseCenterLP, Kind.HoldsUpTo] using this

/-- **C89**: if the polytope has a point of depth `τ` (all slacks at least `τ`) and the LP attains its optimum, the point returned by
`DenseCenter` has depth `τ - 2δ`. -/
theorem C89_denseCenter {glp : Glpk ℝ} {δ : ℝ} (hg : glp.Within δ) (A : DMat ℝ) (b : Fin A.r → ℝ) (hr : 0 < A.r)
    (hopt : ∃ p, (denseCenterLP A.val ⟨A.r, b⟩).Optimal p) {x' : Fin A.c → ℝ} {τ : ℝ} (hτ : 0 ≤ τ) (hx' : ∀ i, τ ≤ b i - (A.val *ᵥ x') i) :
    ∃ x, DenseCenter.getInitialPoint glp A ⟨A.r, b⟩ = .ok x ∧ ∀ i, τ - 2 * δ ≤ b i - (A.val *ᵥ x) i := by
  set lp := denseCenterLP A.val ⟨A.r, b⟩ with hlp
  have hfeas : lp.Feasible (Fin.snoc (α := fun _ => ℝ) x' τ) := by
    refine (C38_denseCenter A.val b _).2 ⟨fun i => ?_, ?_⟩
    · have e : (fun j : Fin A.c => (Fin.snoc (α := fun _ => ℝ) x' τ : Fin (A.c + 1) → ℝ) j.castSucc) = x' := by
        funext j; exact Fin.snoc_castSucc (α := fun _ => ℝ) _ _ _
      rw [e, Fin.snoc_last]
      linarith [hx' i]
    · rw [Fin.snoc_last]; exact hτ
  have hsol := denseCenter_upTo A.val b _ (hg.feasible lp ⟨_, hfeas⟩)
  refine ⟨fun j => glp.solve lp j.castSucc, ?_, fun i => ?_⟩
  · unfold DenseCenter.getInitialPoint
    rw [if_neg (by rintro (h | h) <;> [omega; exact lt_irrefl _ h])]
  · obtain ⟨p, hp⟩ := hopt
    have h1 := hg.optimal lp p hp
    have h2 := hp.2 _ hfeas
    have e1 : lp.obj ⬝ᵥ (Fin.snoc (α := fun _ => ℝ) x' τ : Fin (A.c + 1) → ℝ) = τ :=
      (denseCenter_obj A.val _ _).trans (Fin.snoc_last (α := fun _ => ℝ) _ _)
    have e2 : lp.obj ⬝ᵥ glp.solve lp = glp.solve lp (Fin.last A.c) := denseCenter_obj A.val _ _
    rw [e1] at h2
    rw [e2] at h1
    have := hsol i
    linarith

theorem sparseCenter_upTo (A : Matrix (Fin m) (Fin n) ℝ) (b : Fin m → ℝ) (k : ℕ) (hk : k ≤ n) {δ : ℝ} (p : Fin (n + 1) → ℝ)
    (h : (sparseCenterLP A ⟨m, b⟩ k).FeasibleUpTo δ p) :
    (∀ i, |(A *ᵥ fun j => p j.castSucc) i - b i| ≤ δ) ∧
      ∀ j : Fin n, n - k ≤ j.val → p (Fin.last n) - δ ≤ p j.castSucc := by
  have hrow1 : ∀ i : Fin m, ((sparseCenterLP A ⟨m, b⟩ k).mat *ᵥ p) (Fin.castAdd k i) =
      (A *ᵥ fun j => p j.castSucc) i := by
    intro i
    refine (mulVec_snoc _ _ _).trans ?_
    show ∑ j : Fin n, (if hi : i.val < m then if hj : j.val < n then A ⟨i.val, hi⟩ ⟨j.val, hj⟩ else 0
      else if j.val = n - k + (i.val - m) then 1 else if j.val = n then -1 else 0) * p j.castSucc +
      (if hi : i.val < m then if hj : n < n then A ⟨i.val, hi⟩ ⟨n, hj⟩ else 0
      else if n = n - k + (i.val - m) then 1 else if n = n then -1 else 0) * p (Fin.last n) = _
    simp [Matrix.mulVec, dotProduct]
  have hrow2 : ∀ i : Fin k, ((sparseCenterLP A ⟨m, b⟩ k).mat *ᵥ p) (Fin.natAdd m i) =
      p (⟨n - k + i.val, by omega⟩ : Fin n).castSucc - p (Fin.last n) := by
    intro i
    refine (mulVec_snoc _ _ _).trans ?_
    show ∑ j : Fin n, (if hi : m + i.val < m then
        if hj : j.val < n then A ⟨m + i.val, hi⟩ ⟨j.val, hj⟩ else 0
      else if j.val = n - k + (m + i.val - m) then 1 else if j.val = n then -1 else 0) * p j.castSucc +
      (if hi : m + i.val < m then if hj : n < n then A ⟨m + i.val, hi⟩ ⟨n, hj⟩ else 0
      else if n = n - k + (m + i.val - m) then 1 else if n = n then -1 else 0) * p (Fin.last n) = _
    have h1 : ¬ (m + i.val < m) := by omega
    have h2 : m + i.val - m = i.val := by omega
    have h3 : n ≠ n - k + i.val := by omega
    simp only [h1, dif_neg, not_false_iff, h2, if_neg h3, if_true]
    rw [Finset.sum_eq_single (⟨n - k + i.val, by omega⟩ : Fin n)]
    · simp; ring
    · intro j _ hj
      have : j.val ≠ n - k + i.val := fun h => hj (Fin.ext h)
      have h5 : j.val ≠ n := j.isLt.ne
      simp [this, h5]
    · simp
  refine ⟨fun i => ?_, fun j hj => ?_⟩
  · have := (congrArg (fun t => Kind.HoldsUpTo δ _ t _) (hrow1 i)).mp (h.1 (Fin.castAdd k i))
    simpa [sparseCenterLP, Kind.HoldsUpTo] using this
  · have := (congrArg (fun t => Kind.HoldsUpTo δ _ t _) (hrow2 ⟨j.val - (n - k), by omega⟩)).mp
      (h.1 (Fin.natAdd m ⟨j.val - (n - k), by omega⟩))
    have e : (⟨n - k + (j.val - (n - k)), by omega⟩ : Fin n) = j := Fin.ext (by simp; omega)
    simp only [e] at this
    have h1 : ¬ (m + (j.val - (n - k)) < m) := by omega
    simp only [sparseCenterLP, Fin.val_natAdd, h1, if_false, dif_neg, not_false_iff, Kind.HoldsUpTo] at this
    linarith

/-- **C89**: if the constrained polytope has a point with its last `k` coordinates at least `τ` and the LP attains its optimum, the point
returned by `SparseCenter` satisfies every equation up to `δ` and has its last `k` coordinates at least `τ - 2δ`. -/
theorem C89_sparseCenter {glp : Glpk ℝ} {δ : ℝ} (hg : glp.Within δ) (A : DMat ℝ) (b : Fin A.r → ℝ) (k : ℕ) (hk : 1 ≤ k) (hkc : k ≤ A.c)
    (hopt : ∃ p, (sparseCenterLP A.val ⟨A.r, b⟩ k).Optimal p) {x' : Fin A.c → ℝ} {τ : ℝ} (hτ : 0 ≤ τ)
    (hx' : A.val *ᵥ x' = b) (hx'' : ∀ j : Fin A.c, A.c - k ≤ j.val → τ ≤ x' j) :
    ∃ x, SparseCenter.getInitialPoint glp A ⟨A.r, b⟩ k = .ok x ∧ (∀ i, |(A.val *ᵥ x) i - b i| ≤ δ) ∧
      ∀ j : Fin A.c, A.c - k ≤ j.val → τ - 2 * δ ≤ x j := by
  set lp := sparseCenterLP A.val ⟨A.r, b⟩ k with hlp
  have hfeas : lp.Feasible (Fin.snoc (α := fun _ => ℝ) x' τ) := by
    have e : ∀ j : Fin A.c, (Fin.snoc (α := fun _ => ℝ) x' τ : Fin (A.c + 1) → ℝ) j.castSucc = x' j :=
      fun j => Fin.snoc_castSucc (α := fun _ => ℝ) _ _ _
    refine (C38_sparseCenter A.val b k hkc _).2 ⟨?_, fun j hj => ?_, fun j hj => ?_, ?_⟩
    · simp only [e]; exact hx'
    · rw [e, Fin.snoc_last]; exact hx'' j hj
    · rw [e]; exact hτ.trans (hx'' j hj)
    · rw [Fin.snoc_last]; exact hτ
  obtain ⟨hs1, hs2⟩ := sparseCenter_upTo A.val b k hkc _ (hg.feasible lp ⟨_, hfeas⟩)
  refine ⟨fun j => glp.solve lp j.castSucc, ?_, hs1, fun j hj => ?_⟩
  · unfold SparseCenter.getInitialPoint
    rw [if_neg (by rintro (h | h) <;> omega), if_neg (by simp), Int.toNat_natCast]
    unfold findOptimalVector
    have h1 : lp.r ≠ 0 := by show A.r + k ≠ 0; omega
    have h2 : lp.c ≠ 0 := by show A.c + 1 ≠ 0; omega
    rw [if_neg (by rintro (h | h) <;> contradiction)]
    rfl
  · obtain ⟨p, hp⟩ := hopt
    have h1 := hg.optimal lp p hp
    have h2 := hp.2 _ hfeas
    have e1 : lp.obj ⬝ᵥ (Fin.snoc (α := fun _ => ℝ) x' τ : Fin (A.c + 1) → ℝ) = τ :=
      (sparseCenter_obj A.val _ _ _).trans (Fin.snoc_last (α := fun _ => ℝ) _ _)
    have e2 : lp.obj ⬝ᵥ glp.solve lp = glp.solve lp (Fin.last A.c) := sparseCenter_obj A.val _ _ _
    rw [e1] at h2
    rw [e2] at h1
    have := hs2 j hj
    linarith

end
end PW
