import Verif.Spec.LP
import Verif.Lemmas.Real

/-!
# C38, C46, C47: the linear programs and the initial points
-/

namespace PW
open Classical Matrix
variable {m n : ℕ}

/-- Rows of a product with a matrix that has one extra column. -/
theorem mulVec_snoc {r : ℕ} (M : Matrix (Fin r) (Fin (n + 1)) ℝ) (x : Fin (n + 1) → ℝ) (i : Fin r) :
    (M *ᵥ x) i = ∑ j : Fin n, M i j.castSucc * x j.castSucc + M i (Fin.last n) * x (Fin.last n) := by
  rw [Matrix.mulVec, dotProduct, Fin.sum_univ_castSucc]

/-! ## The LP of facial reduction -/

/-- The bound kinds / values of the LP for index `i`. -/
def findZRelAt (n xdim i : ℕ) : Fin (n + 1) → Kind := setAt (findZRel n xdim) i .FX
/-- The bounds of the LP for index `i`. -/
noncomputable def findZBndAt (n i : ℕ) : Fin (n + 1) → ℝ := setAt (fun _ => 0) i 1

/-- **C38** (facial reduction): the feasible points of the LP built for index `i` are exactly the
certificates for `i`. -/
theorem C38_findZ (A : Matrix (Fin m) (Fin n) ℝ) (b : Fin m → ℝ) (xdim : ℕ) (i : Fin n)
    (hi : xdim ≤ i.val) (y : Fin m → ℝ) :
    (findZLP A b (findZRelAt n xdim i) (findZBndAt n i)).Feasible y ↔ Certifies A b xdim i y := by
  have hrow : ∀ j : Fin n, ((findZLP A b (findZRelAt n xdim i) (findZBndAt n i)).mat *ᵥ y) j.castSucc =
      (Aᵀ *ᵥ y) j := by
    intro j
    show ∑ l, (if h : j.val < n then A l ⟨j.val, h⟩ else b l) * y l = ∑ l, A l j * y l
    simp [j.isLt]
  have hlast : ((findZLP A b (findZRelAt n xdim i) (findZBndAt n i)).mat *ᵥ y) (Fin.last n) = b ⬝ᵥ y := by
    show ∑ l, (if h : n < n then A l ⟨n, h⟩ else b l) * y l = ∑ l, b l * y l
    simp
  unfold LP.Feasible
  have hcol : (∀ j, ((findZLP A b (findZRelAt n xdim i) (findZBndAt n i)).colKind j).Holds (y j)
      ((findZLP A b (findZRelAt n xdim i) (findZBndAt n i)).colBnd j)) ↔ True :=
    ⟨fun _ => trivial, fun _ _ => trivial⟩
  rw [hcol, and_true]
  constructor
  · intro h
    have hk : ∀ j : Fin n, Kind.Holds (findZRelAt n xdim i j.castSucc) ((Aᵀ *ᵥ y) j)
        (findZBndAt n i j.castSucc) := fun j => by rw [← hrow j]; exact h j.castSucc
    have hkl : Kind.Holds (findZRelAt n xdim i (Fin.last n)) (b ⬝ᵥ y) (findZBndAt n i (Fin.last n)) := by
      rw [← hlast]; exact h (Fin.last n)
    refine ⟨fun j hj => ?_, fun j hj => ?_, ?_, ?_⟩
    · have := hk j
      have hne : j.val ≠ i.val := by omega
      have hn : j.val ≠ n := j.isLt.ne
      simpa [findZRelAt, findZBndAt, setAt, findZRel, hne, hn, hj, Kind.Holds] using this
    · have := hk j
      by_cases hne : j.val = i.val
      · simp only [findZRelAt, findZBndAt, setAt, Fin.val_castSucc, hne, if_true, Kind.Holds] at this
        rw [this]; norm_num
      · have hn : j.val ≠ n := j.isLt.ne
        simpa [findZRelAt, findZBndAt, setAt, findZRel, hne, hn, Nat.not_lt.2 hj, Kind.Holds] using this
    · simpa [findZRelAt, findZBndAt, setAt, Kind.Holds] using hk i
    · have hne : n ≠ i.val := i.isLt.ne'
      simpa [findZRelAt, findZBndAt, setAt, findZRel, hne, Kind.Holds] using hkl
  · intro h j
    show Kind.Holds (findZRelAt n xdim i j) _ (findZBndAt n i j)
    refine Fin.lastCases ?_ (fun j => ?_) j
    · have hne : n ≠ i.val := i.isLt.ne'
      rw [hlast]
      simpa [findZRelAt, findZBndAt, setAt, findZRel, hne, Kind.Holds] using h.orth
    · rw [hrow]
      have hn : j.val ≠ n := j.isLt.ne
      by_cases hne : j.val = i.val
      · have : j = i := Fin.ext hne
        subst this
        simpa [findZRelAt, findZBndAt, setAt, Kind.Holds] using h.one
      · by_cases hj : j.val < xdim
        · simpa [findZRelAt, findZBndAt, setAt, findZRel, hne, hn, hj, Kind.Holds] using h.free j hj
        · simpa [findZRelAt, findZBndAt, setAt, findZRel, hne, hn, hj, Kind.Holds] using
            h.nonneg j (Nat.not_lt.1 hj)

/-! ## Dense centre -/

/-- **C38** (`DenseCenter`): feasible points are the `(x, δ)` with `A x + δ ≤ b`, `δ ≥ 0`. -/
theorem C38_denseCenter (A : Matrix (Fin m) (Fin n) ℝ) (b : Fin m → ℝ) (p : Fin (n + 1) → ℝ) :
    (denseCenterLP A ⟨m, b⟩).Feasible p ↔
      (∀ i, (A *ᵥ fun j => p j.castSucc) i + p (Fin.last n) ≤ b i) ∧ 0 ≤ p (Fin.last n) := by
  have hrow : ∀ i : Fin m, ((denseCenterLP A ⟨m, b⟩).mat *ᵥ p) i =
      (A *ᵥ fun j => p j.castSucc) i + p (Fin.last n) := by
    intro i
    refine (mulVec_snoc _ _ _).trans ?_
    show ∑ j : Fin n, (if h : j.val < n then A i ⟨j.val, h⟩ else 1) * p j.castSucc +
      (if h : n < n then A i ⟨n, h⟩ else 1) * p (Fin.last n) = _
    simp [Matrix.mulVec, dotProduct]
  unfold LP.Feasible
  constructor
  · rintro ⟨h1, h2⟩
    refine ⟨fun i => ?_, ?_⟩
    · have := (congrArg (fun t => Kind.Holds _ t _) (hrow i)).mp (h1 i)
      simpa [denseCenterLP, Kind.Holds] using this
    · have := h2 (Fin.last n)
      simpa [denseCenterLP, Kind.Holds] using this
  · rintro ⟨h1, h2⟩
    refine ⟨fun i => ?_, fun j => ?_⟩
    · refine (congrArg (fun t => Kind.Holds _ t _) (hrow i)).mpr ?_
      have hi : i.val < m := i.isLt
      simpa [denseCenterLP, Kind.Holds, hi] using h1 i
    · revert j
      show ∀ j : Fin (n + 1), _
      intro j
      refine Fin.lastCases ?_ (fun j => ?_) j
      · simpa [denseCenterLP, Kind.Holds] using h2
      · simp [denseCenterLP, Kind.Holds]

theorem denseCenter_obj (A : Matrix (Fin m) (Fin n) ℝ) (b : DVec ℝ) (p : Fin (n + 1) → ℝ) :
    (denseCenterLP A b).obj ⬝ᵥ p = p (Fin.last n) := by
  show ∑ j : Fin (n + 1), (if j.val < n then (0 : ℝ) else 1) * p j = _
  rw [Fin.sum_univ_castSucc]
  simp

/-- **C46**: for an exact LP solver, if the polytope is not empty the point returned is in it, and if the LP
attains its optimum no other point of the polytope has a larger minimal slack. -/
theorem C46_denseCenter (glp : Glpk ℝ) (hg : glp.Exact) (A : DMat ℝ) (b : Fin A.r → ℝ) (hr : 0 < A.r)
    (hne : (Poly A.val b).Nonempty) :
    ∃ x, DenseCenter.getInitialPoint glp A ⟨A.r, b⟩ = .ok x ∧ x ∈ Poly A.val b ∧
      ((∃ p, (denseCenterLP A.val ⟨A.r, b⟩).Optimal p) →
        (∀ x' ∈ Poly A.val b, ∀ δ, (∀ i, δ ≤ b i - (A.val *ᵥ x') i) → ∀ i, δ ≤ b i - (A.val *ᵥ x) i) ∧
        ((Interior A.val b).Nonempty → x ∈ Interior A.val b)) := by
  set lp := denseCenterLP A.val ⟨A.r, b⟩ with hlp
  have hfeas : ∀ x' ∈ Poly A.val b, ∀ δ, 0 ≤ δ → (∀ i, δ ≤ b i - (A.val *ᵥ x') i) →
      lp.Feasible (Fin.snoc (α := fun _ => ℝ) x' δ) := by
    intro x' hx' δ hδ h
    refine (C38_denseCenter A.val b _).2 ⟨fun i => ?_, ?_⟩
    · have e : (fun j : Fin A.c => (Fin.snoc (α := fun _ => ℝ) x' δ : Fin (A.c + 1) → ℝ) j.castSucc) = x' := by
        funext j; exact Fin.snoc_castSucc (α := fun _ => ℝ) _ _ _
      rw [e, Fin.snoc_last]
      linarith [h i]
    · rw [Fin.snoc_last]; exact hδ
  have hsol : lp.Feasible (glp.solve lp) := by
    obtain ⟨x', hx'⟩ := hne
    exact hg.feasible lp ⟨_, hfeas x' hx' 0 le_rfl fun i => by have := hx' i; linarith⟩
  have hsol' := (C38_denseCenter A.val b _).1 hsol
  refine ⟨fun j => glp.solve lp j.castSucc, ?_, ?_, ?_⟩
  · unfold DenseCenter.getInitialPoint
    rw [if_neg (by rintro (h | h) <;> [omega; exact lt_irrefl _ h])]
  · intro i
    have := hsol'.1 i
    linarith [hsol'.2]
  · intro hopt
    have hO := (hg.optimal lp hopt).2
    have key : ∀ x' ∈ Poly A.val b, ∀ δ, (∀ i, δ ≤ b i - (A.val *ᵥ x') i) →
        ∀ i, δ ≤ b i - (A.val *ᵥ fun j => glp.solve lp j.castSucc) i := by
      intro x' hx' δ hδ i
      by_cases h0 : 0 ≤ δ
      · have := hO _ (hfeas x' hx' δ h0 hδ)
        have e1 : lp.obj ⬝ᵥ (Fin.snoc (α := fun _ => ℝ) x' δ : Fin (A.c + 1) → ℝ) = δ :=
          (denseCenter_obj A.val _ _).trans (Fin.snoc_last (α := fun _ => ℝ) _ _)
        have e2 : lp.obj ⬝ᵥ glp.solve lp = glp.solve lp (Fin.last A.c) := denseCenter_obj A.val _ _
        rw [e1, e2] at this
        have := hsol'.1 i
        linarith
      · have := hsol'.1 i
        linarith [hsol'.2]
    refine ⟨key, ?_⟩
    rintro ⟨x', hx'⟩ i
    have : Nonempty (Fin A.r) := ⟨⟨0, hr⟩⟩
    obtain ⟨i0, _, hi0⟩ := Finset.exists_min_image Finset.univ (fun i => b i - (A.val *ᵥ x') i)
      Finset.univ_nonempty
    have := key x' (fun i => (hx' i).le) (b i0 - (A.val *ᵥ x') i0) (fun i => hi0 i (Finset.mem_univ _)) i
    have := hx' i0
    linarith

/-! ## Sparse centre -/

/-- **C38** (`SparseCenter`): feasible points are the `(x, δ)` with `A x = b`, `x_j ≥ δ` and `x_j ≥ 0` on the
last `k` coordinates, `δ ≥ 0`. -/
theorem C38_sparseCenter (A : Matrix (Fin m) (Fin n) ℝ) (b : Fin m → ℝ) (k : ℕ) (hk : k ≤ n)
    (p : Fin (n + 1) → ℝ) :
    (sparseCenterLP A ⟨m, b⟩ k).Feasible p ↔
      (A *ᵥ fun j => p j.castSucc) = b ∧
      (∀ j : Fin n, n - k ≤ j.val → p (Fin.last n) ≤ p j.castSucc) ∧
      (∀ j : Fin n, n - k ≤ j.val → 0 ≤ p j.castSucc) ∧ 0 ≤ p (Fin.last n) := by
  have hrow1 : ∀ i : Fin m, ((sparseCenterLP A ⟨m, b⟩ k).mat *ᵥ p) (Fin.castAdd k i) =
      (A *ᵥ fun j => p j.castSucc) i := by
    intro i
    refine (mulVec_snoc _ _ _).trans ?_
    show ∑ j : Fin n, (if hi : i.val < m then if hj : j.val < n then A ⟨i.val, hi⟩ ⟨j.val, hj⟩ else 0
      else if j.val = n - k + (i.val - m) then 1 else if j.val = n then -1 else 0) * p j.castSucc +
      (if hi : i.val < m then if hj : n < n then A ⟨i.val, hi⟩ ⟨n, hj⟩ else 0
      else if n = n - k + (i.val - m) then 1 else if n = n then -1 else 0) * p (Fin.last n) = _
    simp [Matrix.mulVec, dotProduct]
  have hrow2 : ∀ i : Fin k, ((sparseCenterLP A ⟨m, b⟩ k).mat *ᵥ p) (Fin.natAdd m i) =
      p (⟨n - k + i.val, by omega⟩ : Fin n).castSucc - p (Fin.last n) := by
    intro i
    refine (mulVec_snoc _ _ _).trans ?_
    show ∑ j : Fin n, (if hi : m + i.val < m then
        if hj : j.val < n then A ⟨m + i.val, hi⟩ ⟨j.val, hj⟩ else 0
      else if j.val = n - k + (m + i.val - m) then 1 else if j.val = n then -1 else 0) * p j.castSucc +
      (if hi : m + i.val < m then if hj : n < n then A ⟨m + i.val, hi⟩ ⟨n, hj⟩ else 0
      else if n = n - k + (m + i.val - m) then 1 else if n = n then -1 else 0) * p (Fin.last n) = _
    have h1 : ¬ (m + i.val < m) := by omega
    have h2 : m + i.val - m = i.val := by omega
    have h3 : n ≠ n - k + i.val := by omega
    simp only [h1, dif_neg, not_false_iff, h2, if_neg h3, if_true]
    rw [Finset.sum_eq_single (⟨n - k + i.val, by omega⟩ : Fin n)]
    · simp; ring
    · intro j _ hj
      have : j.val ≠ n - k + i.val := fun h => hj (Fin.ext h)
      have h5 : j.val ≠ n := j.isLt.ne
      simp [this, h5]
    · simp
  unfold LP.Feasible
  constructor
  · rintro ⟨h1, h2⟩
    have h2' : ∀ j : Fin n, n - k ≤ j.val → 0 ≤ p j.castSucc := by
      intro j hj
      have := h2 j.castSucc
      have hj' : ¬ (j.val < n - k) := by omega
      simpa [sparseCenterLP, Kind.Holds, hj'] using this
    refine ⟨?_, ?_, h2', ?_⟩
    · funext i
      have := (congrArg (fun t => Kind.Holds _ t _) (hrow1 i)).mp (h1 (Fin.castAdd k i))
      simpa [sparseCenterLP, Kind.Holds] using this
    · intro j hj
      have := (congrArg (fun t => Kind.Holds _ t _) (hrow2 ⟨j.val - (n - k), by omega⟩)).mp
        (h1 (Fin.natAdd m ⟨j.val - (n - k), by omega⟩))
      have e : (⟨n - k + (j.val - (n - k)), by omega⟩ : Fin n) = j := Fin.ext (by simp; omega)
      simp only [e] at this
      have h1 : ¬ (m + (j.val - (n - k)) < m) := by omega
      simp only [sparseCenterLP, Fin.val_natAdd, h1, if_false, dif_neg, not_false_iff, Kind.Holds] at this
      linarith
    · have := h2 (Fin.last n)
      have hj' : ¬ (n < n - k) := by omega
      simpa [sparseCenterLP, Kind.Holds, hj'] using this
  · rintro ⟨h1, h2, h3, h4⟩
    refine ⟨fun i => ?_, fun j => ?_⟩
    · revert i
      show ∀ i : Fin (m + k), _
      intro i
      refine Fin.addCases (fun i => ?_) (fun i => ?_) i
      · refine (congrArg (fun t => Kind.Holds _ t _) ((hrow1 i).trans (congrFun h1 i))).mpr ?_
        simp [sparseCenterLP, Kind.Holds]
      · refine (congrArg (fun t => Kind.Holds _ t _) (hrow2 i)).mpr ?_
        have h5 : ¬ (m + i.val < m) := by omega
        simp only [sparseCenterLP, Fin.val_natAdd, h5, if_false, dif_neg, not_false_iff, Kind.Holds]
        have := h2 ⟨n - k + i.val, by omega⟩ (by simp)
        linarith
    · revert j
      show ∀ j : Fin (n + 1), _
      intro j
      refine Fin.lastCases ?_ (fun j => ?_) j
      · have hj' : ¬ (n < n - k) := by omega
        simpa [sparseCenterLP, Kind.Holds, hj'] using h4
      · by_cases hj : j.val < n - k
        · simp [sparseCenterLP, Kind.Holds, hj]
        · simpa [sparseCenterLP, Kind.Holds, hj] using h3 j (by omega)

theorem sparseCenter_obj (A : Matrix (Fin m) (Fin n) ℝ) (b : DVec ℝ) (k : ℕ) (p : Fin (n + 1) → ℝ) :
    (sparseCenterLP A b k).obj ⬝ᵥ p = p (Fin.last n) := by
  show ∑ j : Fin (n + 1), (if j.val < n then (0 : ℝ) else 1) * p j = _
  rw [Fin.sum_univ_castSucc]
  simp

/-- **C47**: for an exact LP solver, if the polytope is not empty the point returned is in it, and if the LP
attains its optimum no other point of the polytope has a larger minimum of its last `k` coordinates. -/
theorem C47_sparseCenter (glp : Glpk ℝ) (hg : glp.Exact) (A : DMat ℝ) (b : Fin A.r → ℝ) (k : ℕ)
    (hk : 1 ≤ k) (hkc : k ≤ A.c) (hne : (PolyEq A.val b k).Nonempty) :
    ∃ x, SparseCenter.getInitialPoint glp A ⟨A.r, b⟩ k = .ok x ∧ x ∈ PolyEq A.val b k ∧
      ((∃ p, (sparseCenterLP A.val ⟨A.r, b⟩ k).Optimal p) →
        (∀ x' ∈ PolyEq A.val b k, ∀ δ, (∀ j : Fin A.c, A.c - k ≤ j.val → δ ≤ x' j) →
          ∀ j : Fin A.c, A.c - k ≤ j.val → δ ≤ x j) ∧
        ((∃ x' ∈ PolyEq A.val b k, x' ∈ TailPos A.c k) → x ∈ TailPos A.c k)) := by
  set lp := sparseCenterLP A.val ⟨A.r, b⟩ k with hlp
  have hfeas : ∀ x' ∈ PolyEq A.val b k, ∀ δ, 0 ≤ δ →
      (∀ j : Fin A.c, A.c - k ≤ j.val → δ ≤ x' j) →
      lp.Feasible (Fin.snoc (α := fun _ => ℝ) x' δ) := by
    intro x' hx' δ hδ h
    have e : ∀ j : Fin A.c, (Fin.snoc (α := fun _ => ℝ) x' δ : Fin (A.c + 1) → ℝ) j.castSucc = x' j :=
      fun j => Fin.snoc_castSucc (α := fun _ => ℝ) _ _ _
    refine (C38_sparseCenter A.val b k hkc _).2 ⟨?_, fun j hj => ?_, fun j hj => ?_, ?_⟩
    · simp only [e]; exact hx'.1
    · rw [e, Fin.snoc_last]; exact h j hj
    · rw [e]; exact hx'.2 j hj
    · rw [Fin.snoc_last]; exact hδ
  have hsol : lp.Feasible (glp.solve lp) := by
    obtain ⟨x', hx'⟩ := hne
    exact hg.feasible lp ⟨_, hfeas x' hx' 0 le_rfl fun i hi => hx'.2 i hi⟩
  have hsol' := (C38_sparseCenter A.val b k hkc _).1 hsol
  refine ⟨fun j => glp.solve lp j.castSucc, ?_, ?_, ?_⟩
  · unfold SparseCenter.getInitialPoint
    rw [if_neg (by rintro (h | h) <;> omega), if_neg (by simp), Int.toNat_natCast]
    unfold findOptimalVector
    have h1 : lp.r ≠ 0 := by show A.r + k ≠ 0; omega
    have h2 : lp.c ≠ 0 := by show A.c + 1 ≠ 0; omega
    rw [if_neg (by rintro (h | h) <;> contradiction)]
    rfl
  · exact ⟨hsol'.1, hsol'.2.2.1⟩
  · intro hopt
    have hO := (hg.optimal lp hopt).2
    have key : ∀ x' ∈ PolyEq A.val b k, ∀ δ, (∀ j : Fin A.c, A.c - k ≤ j.val → δ ≤ x' j) →
        ∀ j : Fin A.c, A.c - k ≤ j.val → δ ≤ glp.solve lp j.castSucc := by
      intro x' hx' δ hδ j hj
      by_cases h0 : 0 ≤ δ
      · have := hO _ (hfeas x' hx' δ h0 hδ)
        have e1 : lp.obj ⬝ᵥ (Fin.snoc (α := fun _ => ℝ) x' δ : Fin (A.c + 1) → ℝ) = δ :=
          (sparseCenter_obj A.val _ _ _).trans (Fin.snoc_last (α := fun _ => ℝ) _ _)
        have e2 : lp.obj ⬝ᵥ glp.solve lp = glp.solve lp (Fin.last A.c) := sparseCenter_obj A.val _ _ _
        rw [e1, e2] at this
        exact this.trans (hsol'.2.1 j hj)
      · have := hsol'.2.2.1 j hj
        linarith
    refine ⟨key, ?_⟩
    rintro ⟨x', hx', hpos⟩ j hj
    obtain ⟨i0, hi0, hmin⟩ := Finset.exists_min_image
      (Finset.univ.filter fun i : Fin A.c => A.c - k ≤ i.val) x' ⟨j, by simpa using hj⟩
    have := key x' hx' (x' i0) (fun i hi => hmin i (by simpa using hi)) j hj
    have h0 : 0 < x' i0 := hpos i0 (by simpa using hi0)
    exact lt_of_lt_of_le h0 this

end PW
