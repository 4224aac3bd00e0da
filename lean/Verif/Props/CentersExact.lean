import Verif.Props.CentersBounded
import Verif.Lemmas.LPDuality
import Verif.Lemmas.ContractsSat
import Mathlib.LinearAlgebra.Matrix.Notation

/-!
# C77: exactly when the centre classes give a usable starting point

The deepest-point program of a non-empty polytope has a solution exactly when no direction moves away from
every wall at once. When it has, the returned point is a deepest point; when it has not, the polytope has a
strict interior, and still a correct LP solver may return a point on the boundary.
-/

namespace PW
open Classical Matrix

/-- A direction moving away from every wall of `{x | A x ≤ b}` at once. -/
def Escapes {m n : ℕ} (A : Matrix (Fin m) (Fin n) ℝ) (z : Fin n → ℝ) : Prop := ∀ i, (A *ᵥ z) i < 0

/-- A direction inside the equations of `{x | A x = b, last k ≥ 0}` moving away from every sign wall at
once. -/
def EscapesEq {m n : ℕ} (A : Matrix (Fin m) (Fin n) ℝ) (k : ℕ) (z : Fin n → ℝ) : Prop :=
  A *ᵥ z = 0 ∧ z ∈ TailPos n k

/-- One row of a matrix, as a functional of the first `n` of `n + 1` coordinates. -/
noncomputable def rowFun {m n : ℕ} (A : Matrix (Fin m) (Fin n) ℝ) (i : Fin m) : (Fin (n + 1) → ℝ) →ₗ[ℝ] ℝ where
  toFun p := (A *ᵥ fun j => p j.castSucc) i
  map_add' p q := by
    have : (fun j : Fin n => (p + q) j.castSucc) = (fun j => p j.castSucc) + fun j => q j.castSucc := rfl
    rw [this, Matrix.mulVec_add]; rfl
  map_smul' t p := by
    have : (fun j : Fin n => (t • p) j.castSucc) = t • fun j => p j.castSucc := rfl
    rw [this, Matrix.mulVec_smul]; rfl

theorem rowFun_ap {m n : ℕ} (A : Matrix (Fin m) (Fin n) ℝ) (i : Fin m) (p : Fin (n + 1) → ℝ) :
    rowFun A i p = (A *ᵥ fun j => p j.castSucc) i := rfl

/-- One coordinate. -/
def coordFun {n : ℕ} (j : Fin n) : (Fin n → ℝ) →ₗ[ℝ] ℝ where
  toFun p := p j
  map_add' _ _ := rfl
  map_smul' _ _ := rfl

theorem coordFun_ap {n : ℕ} (j : Fin n) (p : Fin n → ℝ) : coordFun j p = p j := rfl

theorem snoc_init {n : ℕ} (x : Fin n → ℝ) (δ : ℝ) :
    (fun j : Fin n => (Fin.snoc (α := fun _ => ℝ) x δ : Fin (n + 1) → ℝ) j.castSucc) = x := by
  funext j; exact Fin.snoc_castSucc (α := fun _ => ℝ) _ _ _

/-- **C77** (dense): the deepest-point program of a non-empty polytope has an optimal solution exactly when
no direction moves away from every wall at once. -/
theorem C77_dense_attains {m n : ℕ} (A : Matrix (Fin m) (Fin n) ℝ) (b : Fin m → ℝ)
    (hne : (Poly A b).Nonempty) :
    (∃ p, (denseCenterLP A ⟨m, b⟩).Optimal p) ↔ ¬ ∃ z, Escapes A z := by
  constructor
  · rintro ⟨p, hp, hopt⟩ ⟨z, hz⟩
    obtain ⟨h1, h2⟩ := (C38_denseCenter A b p).1 hp
    -- a uniform rate
    obtain ⟨ε, hε, hε'⟩ : ∃ ε > 0, ∀ i, (A *ᵥ z) i ≤ -ε := by
      rcases isEmpty_or_nonempty (Fin m) with he | he
      · exact ⟨1, one_pos, fun i => he.elim i⟩
      · obtain ⟨i0, _, hi0⟩ := Finset.exists_max_image Finset.univ (fun i => (A *ᵥ z) i)
          Finset.univ_nonempty
        exact ⟨-(A *ᵥ z) i0, by have := hz i0; linarith, fun i => by
          have := hi0 i (Finset.mem_univ _); linarith⟩
    let q : Fin (n + 1) → ℝ := Fin.snoc (α := fun _ => ℝ) (fun j => p j.castSucc + z j) (p (Fin.last n) + ε)
    have hq : (denseCenterLP A ⟨m, b⟩).Feasible q := by
      refine (C38_denseCenter A b q).2 ⟨fun i => ?_, ?_⟩
      · have e : (fun j : Fin n => q j.castSucc) = (fun j => p j.castSucc) + z := snoc_init _ _
        rw [e, Matrix.mulVec_add, Pi.add_apply]
        have e2 : q (Fin.last n) = p (Fin.last n) + ε := Fin.snoc_last (α := fun _ => ℝ) _ _
        rw [e2]
        have := h1 i
        have := hε' i
        linarith
      · have e2 : q (Fin.last n) = p (Fin.last n) + ε := Fin.snoc_last (α := fun _ => ℝ) _ _
        rw [e2]; linarith
    have := hopt q hq
    rw [denseCenter_obj A ⟨m, b⟩ q, denseCenter_obj A ⟨m, b⟩ p] at this
    have e2 : q (Fin.last n) = p (Fin.last n) + ε := Fin.snoc_last (α := fun _ => ℝ) _ _
    rw [e2] at this
    linarith
  · intro hz
    let a : Fin m ⊕ Unit → (Fin (n + 1) → ℝ) →ₗ[ℝ] ℝ := fun
      | .inl i => rowFun A i + coordFun (Fin.last n)
      | .inr _ => - coordFun (Fin.last n)
    let h : Fin m ⊕ Unit → ℝ := fun | .inl i => b i | .inr _ => 0
    have hiff : ∀ p : Fin (n + 1) → ℝ, (denseCenterLP A ⟨m, b⟩).Feasible p ↔ ∀ i, a i p ≤ h i := by
      intro p
      rw [C38_denseCenter A b p]
      constructor
      · rintro ⟨h1, h2⟩ (i | i)
        · exact h1 i
        · show -(p (Fin.last n)) ≤ 0
          linarith
      · intro h1
        refine ⟨fun i => h1 (.inl i), ?_⟩
        have : -(p (Fin.last n)) ≤ 0 := h1 (.inr ())
        linarith
    -- Gordan: a non-negative combination of the rows vanishes
    obtain ⟨u, hu, hb⟩ := farkas (fun i : Fin m => rowFun A i + coordFun (Fin.last n))
      (coordFun (Fin.last n)) (by
        intro p hp
        show p (Fin.last n) ≤ 0
        by_contra hpos
        push Not at hpos
        refine hz ⟨fun j => p j.castSucc, fun i => ?_⟩
        have : (A *ᵥ fun j => p j.castSucc) i + p (Fin.last n) ≤ 0 := hp i
        linarith)
    obtain ⟨p, hp, hopt⟩ := lp_attains a h (coordFun (Fin.last n)) (by
        obtain ⟨x0, hx0⟩ := hne
        refine ⟨Fin.snoc (α := fun _ => ℝ) x0 0, (hiff _).1 ((C38_denseCenter A b _).2 ⟨fun i => ?_, ?_⟩)⟩
        · rw [snoc_init, Fin.snoc_last, add_zero]; exact hx0 i
        · rw [Fin.snoc_last])
      ⟨∑ i, u i * b i, fun p hp => by
        rw [hb p]
        exact Finset.sum_le_sum fun i _ => mul_le_mul_of_nonneg_left (hp (.inl i)) (hu i)⟩
    refine ⟨p, (hiff p).2 hp, fun p' hp' => ?_⟩
    rw [denseCenter_obj A ⟨m, b⟩ p', denseCenter_obj A ⟨m, b⟩ p]
    exact hopt p' ((hiff p').1 hp')

/-- **C77** (sparse): the deepest-point program of a non-empty constrained polytope has an optimal solution
exactly when no direction inside the equations moves away from every sign wall at once. -/
theorem C77_sparse_attains {m n : ℕ} (A : Matrix (Fin m) (Fin n) ℝ) (b : Fin m → ℝ) (k : ℕ) (hk : k ≤ n)
    (hne : (PolyEq A b k).Nonempty) :
    (∃ p, (sparseCenterLP A ⟨m, b⟩ k).Optimal p) ↔ ¬ ∃ z, EscapesEq A k z := by
  constructor
  · rintro ⟨p, hp, hopt⟩ ⟨z, hz0, hz⟩
    obtain ⟨h1, h2, h3, h4⟩ := (C38_sparseCenter A b k hk p).1 hp
    obtain ⟨ε, hε, hε'⟩ : ∃ ε > 0, ∀ j : Fin n, n - k ≤ j.val → ε ≤ z j := by
      by_cases he : ∃ j : Fin n, n - k ≤ j.val
      · obtain ⟨j, hj⟩ := he
        obtain ⟨i0, hi0, hmin⟩ := Finset.exists_min_image
          (Finset.univ.filter fun i : Fin n => n - k ≤ i.val) z ⟨j, by simpa using hj⟩
        exact ⟨z i0, hz i0 (by simpa using hi0), fun i hi => hmin i (by simpa using hi)⟩
      · exact ⟨1, one_pos, fun j hj => absurd ⟨j, hj⟩ he⟩
    let q : Fin (n + 1) → ℝ := Fin.snoc (α := fun _ => ℝ) (fun j => p j.castSucc + z j) (p (Fin.last n) + ε)
    have e : (fun j : Fin n => q j.castSucc) = (fun j => p j.castSucc) + z := snoc_init _ _
    have e' : ∀ j : Fin n, q j.castSucc = p j.castSucc + z j := fun j => congrFun e j
    have e2 : q (Fin.last n) = p (Fin.last n) + ε := Fin.snoc_last (α := fun _ => ℝ) _ _
    have hq : (sparseCenterLP A ⟨m, b⟩ k).Feasible q := by
      refine (C38_sparseCenter A b k hk q).2 ⟨?_, fun j hj => ?_, fun j hj => ?_, ?_⟩
      · rw [e, Matrix.mulVec_add, h1, hz0, add_zero]
      · rw [e', e2]; linarith [h2 j hj, hε' j hj]
      · rw [e']; linarith [h3 j hj, hε' j hj]
      · rw [e2]; linarith
    have := hopt q hq
    rw [sparseCenter_obj A ⟨m, b⟩ k q, sparseCenter_obj A ⟨m, b⟩ k p, e2] at this
    linarith
  · intro hz
    let tail : Fin n → (Fin (n + 1) → ℝ) →ₗ[ℝ] ℝ := fun j =>
      if n - k ≤ j.val then coordFun (Fin.last n) - coordFun j.castSucc else 0
    let a : (Fin m ⊕ Fin m) ⊕ (Fin n ⊕ Unit) → (Fin (n + 1) → ℝ) →ₗ[ℝ] ℝ := fun
      | .inl (.inl i) => rowFun A i
      | .inl (.inr i) => - rowFun A i
      | .inr (.inl j) => tail j
      | .inr (.inr _) => - coordFun (Fin.last n)
    let h : (Fin m ⊕ Fin m) ⊕ (Fin n ⊕ Unit) → ℝ := fun
      | .inl (.inl i) => b i
      | .inl (.inr i) => - b i
      | .inr _ => 0
    have htail : ∀ (j : Fin n), n - k ≤ j.val → ∀ p, tail j p = p (Fin.last n) - p j.castSucc := by
      intro j hj p
      simp only [tail, if_pos hj]; rfl
    have htail0 : ∀ (j : Fin n), ¬ n - k ≤ j.val → ∀ p, tail j p = 0 := by
      intro j hj p
      simp only [tail, if_neg hj]; rfl
    have hiff : ∀ p : Fin (n + 1) → ℝ, (sparseCenterLP A ⟨m, b⟩ k).Feasible p ↔ ∀ i, a i p ≤ h i := by
      intro p
      rw [C38_sparseCenter A b k hk p]
      constructor
      · rintro ⟨h1, h2, h3, h4⟩ ((i | i) | (j | j))
        · exact (congrFun h1 i).le
        · show -((A *ᵥ fun j => p j.castSucc) i) ≤ - b i
          rw [h1]
        · show tail j p ≤ 0
          by_cases hj : n - k ≤ j.val
          · rw [htail j hj]; linarith [h2 j hj]
          · rw [htail0 j hj]
        · show -(p (Fin.last n)) ≤ 0
          linarith
      · intro h1
        have h4 : 0 ≤ p (Fin.last n) := by
          have : -(p (Fin.last n)) ≤ 0 := h1 (.inr (.inr ()))
          linarith
        have h2 : ∀ j : Fin n, n - k ≤ j.val → p (Fin.last n) ≤ p j.castSucc := by
          intro j hj
          have : tail j p ≤ 0 := h1 (.inr (.inl j))
          rw [htail j hj] at this
          linarith
        refine ⟨funext fun i => ?_, h2, fun j hj => h4.trans (h2 j hj), h4⟩
        have h5 : (A *ᵥ fun j => p j.castSucc) i ≤ b i := h1 (.inl (.inl i))
        have h6 : -((A *ᵥ fun j => p j.castSucc) i) ≤ - b i := h1 (.inl (.inr i))
        linarith
    let a' : (Fin m ⊕ Fin m) ⊕ Fin n → (Fin (n + 1) → ℝ) →ₗ[ℝ] ℝ := fun
      | .inl (.inl i) => rowFun A i
      | .inl (.inr i) => - rowFun A i
      | .inr j => tail j
    obtain ⟨u, hu, hb⟩ := farkas a' (coordFun (Fin.last n)) (by
        intro p hp
        show p (Fin.last n) ≤ 0
        by_contra hpos
        push Not at hpos
        refine hz ⟨fun j => p j.castSucc, funext fun i => ?_, fun j hj => ?_⟩
        · have h5 : (A *ᵥ fun j => p j.castSucc) i ≤ 0 := hp (.inl (.inl i))
          have h6 : -((A *ᵥ fun j => p j.castSucc) i) ≤ 0 := hp (.inl (.inr i))
          show (A *ᵥ fun j => p j.castSucc) i = 0
          linarith
        · have : tail j p ≤ 0 := hp (.inr j)
          rw [htail j hj] at this
          show 0 < p j.castSucc
          linarith)
    let h' : (Fin m ⊕ Fin m) ⊕ Fin n → ℝ := fun
      | .inl (.inl i) => b i
      | .inl (.inr i) => - b i
      | .inr _ => 0
    obtain ⟨p, hp, hopt⟩ := lp_attains a h (coordFun (Fin.last n)) (by
        obtain ⟨x0, hx0⟩ := hne
        have e : ∀ j : Fin n, (Fin.snoc (α := fun _ => ℝ) x0 0 : Fin (n + 1) → ℝ) j.castSucc = x0 j :=
          fun j => Fin.snoc_castSucc (α := fun _ => ℝ) _ _ _
        refine ⟨Fin.snoc (α := fun _ => ℝ) x0 0, (hiff _).1 ((C38_sparseCenter A b k hk _).2 ⟨?_, ?_, ?_, ?_⟩)⟩
        · rw [snoc_init]; exact hx0.1
        · intro j hj; rw [e, Fin.snoc_last]; exact hx0.2 j hj
        · intro j hj; rw [e]; exact hx0.2 j hj
        · rw [Fin.snoc_last])
      ⟨∑ i, u i * h' i, fun p hp => by
        rw [hb p]
        refine Finset.sum_le_sum fun i _ => mul_le_mul_of_nonneg_left ?_ (hu i)
        rcases i with (i | i) | j
        · exact hp (.inl (.inl i))
        · exact hp (.inl (.inr i))
        · exact hp (.inr (.inl j))⟩
    refine ⟨p, (hiff p).2 hp, fun p' hp' => ?_⟩
    rw [sparseCenter_obj A ⟨m, b⟩ k p', sparseCenter_obj A ⟨m, b⟩ k p]
    exact hopt p' ((hiff p').1 hp')

/-- A correct solver is free to return any feasible point of a program without optimum. -/
theorem exists_exact_solver (L : LP ℝ) (hno : ¬ ∃ p, L.Optimal p) (p : Fin L.c → ℝ) (hp : L.Feasible p) :
    ∃ glp : Glpk ℝ, glp.Exact ∧ glp.solve L = p := by
  refine ⟨⟨fun lp => if h : lp = L then h ▸ p else exactGlpk.solve lp⟩, ⟨fun lp hlp => ?_, fun lp hlp => ?_⟩, ?_⟩
  · by_cases h : lp = L
    · subst h
      simpa using hp
    · simpa [h] using exactGlpk_exact.feasible lp hlp
  · by_cases h : lp = L
    · subst h
      exact absurd hlp hno
    · simpa [h] using exactGlpk_exact.optimal lp hlp
  · simp

/-- **C77** (dense): for a polytope with a strictly interior point, every correct LP solver makes
`DenseCenter` return a strictly interior point exactly when no direction moves away from every wall. -/
theorem C77_dense_interior (A : DMat ℝ) (b : Fin A.r → ℝ) (hr : 0 < A.r)
    (hint : (Interior A.val b).Nonempty) :
    (∀ glp : Glpk ℝ, glp.Exact →
        ∃ x ∈ Interior A.val b, DenseCenter.getInitialPoint glp A ⟨A.r, b⟩ = .ok x) ↔
      ¬ ∃ z, Escapes A.val z := by
  have hne : (Poly A.val b).Nonempty := by
    obtain ⟨x, hx⟩ := hint; exact ⟨x, fun i => (hx i).le⟩
  constructor
  · rintro hall ⟨z, hz⟩
    -- walk against `z` until the first wall
    obtain ⟨x, hx⟩ := hint
    have : Nonempty (Fin A.r) := ⟨⟨0, hr⟩⟩
    obtain ⟨i0, _, hi0⟩ := Finset.exists_min_image Finset.univ
      (fun i => (b i - (A.val *ᵥ x) i) / (-(A.val *ᵥ z) i)) Finset.univ_nonempty
    set t := (b i0 - (A.val *ᵥ x) i0) / (-(A.val *ᵥ z) i0) with ht
    have hsl : ∀ i, (A.val *ᵥ (x - t • z)) i = (A.val *ᵥ x) i - t * (A.val *ᵥ z) i := by
      intro i
      rw [Matrix.mulVec_sub, Matrix.mulVec_smul]; rfl
    have hmem : x - t • z ∈ Poly A.val b := by
      intro i
      have h1 := hi0 i (Finset.mem_univ _)
      have h2 : 0 < -(A.val *ᵥ z) i := by have := hz i; linarith
      rw [le_div_iff₀ h2] at h1
      show (A.val *ᵥ (x - t • z)) i ≤ b i
      rw [hsl]
      linarith
    have hbd : (A.val *ᵥ (x - t • z)) i0 = b i0 := by
      have h2 : -(A.val *ᵥ z) i0 ≠ 0 := by have := hz i0; linarith
      have : t * (-(A.val *ᵥ z) i0) = b i0 - (A.val *ᵥ x) i0 := div_mul_cancel₀ _ h2
      rw [hsl]; linarith
    obtain ⟨glp, hg, hs⟩ := exists_exact_solver (denseCenterLP A.val ⟨A.r, b⟩)
      (fun h => (C77_dense_attains A.val b hne).1 h ⟨z, hz⟩) (Fin.snoc (α := fun _ => ℝ) (x - t • z) 0)
      ((C38_denseCenter A.val b _).2 ⟨fun i => by
        rw [snoc_init, Fin.snoc_last, add_zero]; exact hmem i, by rw [Fin.snoc_last]⟩)
    obtain ⟨y, hy, hy'⟩ := hall glp hg
    unfold DenseCenter.getInitialPoint at hy'
    rw [if_neg (by rintro (h | h) <;> [omega; exact lt_irrefl _ h]), hs] at hy'
    have e : x - t • z = y := by
      rw [← Out.ok.inj hy']
      exact (snoc_init _ _).symm
    have := hy i0
    rw [← e] at this
    exact absurd hbd this.ne
  · intro hz glp hg
    obtain ⟨x, h1, h2, h3⟩ := C46_denseCenter glp hg A b hr hne
    exact ⟨x, (h3 ((C77_dense_attains A.val b hne).2 hz)).2 hint, h1⟩

/-- **C77** (sparse): for a constrained polytope with a point whose last `k` coordinates are positive, every
correct LP solver makes `SparseCenter` return such a point exactly when no direction inside the equations
moves away from every sign wall. -/
theorem C77_sparse_interior (A : DMat ℝ) (b : Fin A.r → ℝ) (k : ℕ) (hk : 1 ≤ k) (hkc : k ≤ A.c)
    (hint : ∃ x ∈ PolyEq A.val b k, x ∈ TailPos A.c k) :
    (∀ glp : Glpk ℝ, glp.Exact → ∃ x ∈ PolyEq A.val b k, x ∈ TailPos A.c k ∧
        SparseCenter.getInitialPoint glp A ⟨A.r, b⟩ k = .ok x) ↔
      ¬ ∃ z, EscapesEq A.val k z := by
  have hne : (PolyEq A.val b k).Nonempty := by
    obtain ⟨x, hx, _⟩ := hint; exact ⟨x, hx⟩
  constructor
  · rintro hall ⟨z, hz0, hz⟩
    obtain ⟨x, hx, hxp⟩ := hint
    obtain ⟨i0, hi0, hmin⟩ := Finset.exists_min_image
      (Finset.univ.filter fun i : Fin A.c => A.c - k ≤ i.val) (fun i => x i / z i)
      ⟨⟨A.c - 1, by omega⟩, by simp; omega⟩
    have hi0' : A.c - k ≤ i0.val := by simpa using hi0
    set t := x i0 / z i0 with ht
    have hmem : x - t • z ∈ PolyEq A.val b k := by
      refine ⟨?_, fun j hj => ?_⟩
      · show A.val *ᵥ (x - t • z) = b
        rw [Matrix.mulVec_sub, Matrix.mulVec_smul, hz0, smul_zero, sub_zero]; exact hx.1
      · have h1 := hmin j (by simpa using hj)
        rw [le_div_iff₀ (hz j hj)] at h1
        show 0 ≤ x j - t * z j
        linarith
    have hbd : (x - t • z) i0 = 0 := by
      show x i0 - t * z i0 = 0
      rw [ht, div_mul_cancel₀ _ (hz i0 hi0').ne', sub_self]
    have e : ∀ j : Fin A.c, (Fin.snoc (α := fun _ => ℝ) (x - t • z) 0 : Fin (A.c + 1) → ℝ) j.castSucc =
        (x - t • z) j := fun j => Fin.snoc_castSucc (α := fun _ => ℝ) _ _ _
    obtain ⟨glp, hg, hs⟩ := exists_exact_solver (sparseCenterLP A.val ⟨A.r, b⟩ k)
      (fun h => (C77_sparse_attains A.val b k hkc hne).1 h ⟨z, hz0, hz⟩)
      (Fin.snoc (α := fun _ => ℝ) (x - t • z) 0)
      ((C38_sparseCenter A.val b k hkc _).2 ⟨by rw [snoc_init]; exact hmem.1,
        fun j hj => by rw [e, Fin.snoc_last]; exact hmem.2 j hj,
        fun j hj => by rw [e]; exact hmem.2 j hj, by rw [Fin.snoc_last]⟩)
    obtain ⟨y, _, hy, hy'⟩ := hall glp hg
    unfold SparseCenter.getInitialPoint at hy'
    rw [if_neg (by rintro (h | h) <;> omega), if_neg (by simp), Int.toNat_natCast] at hy'
    unfold findOptimalVector at hy'
    rw [if_neg (by
      rintro (h | h)
      · change A.r + k = 0 at h; omega
      · change A.c + 1 = 0 at h; omega), hs] at hy'
    have e3 : x - t • z = y := by
      rw [← Out.ok.inj hy']
      exact (snoc_init _ _).symm
    have := hy i0 hi0'
    rw [← e3] at this
    exact absurd hbd this.ne'
  · intro hz glp hg
    obtain ⟨x, h1, h2, h3⟩ := C47_sparseCenter glp hg A b k hk hkc hne
    exact ⟨x, h2, (h3 ((C77_sparse_attains A.val b k hkc hne).2 hz)).2 hint, h1⟩

/-- The interval `-1 ≤ x ≤ 1`: no direction leaves both walls, so every correct solver gives an interior
point. -/
example (glp : Glpk ℝ) (hg : glp.Exact) :
    ∃ x ∈ Interior (Matrix.of ![![(1 : ℝ)], ![-1]]) ![1, 1],
      DenseCenter.getInitialPoint glp ⟨2, 1, Matrix.of ![![1], ![-1]]⟩ ⟨2, ![1, 1]⟩ = .ok x := by
  refine (C77_dense_interior ⟨2, 1, Matrix.of ![![1], ![-1]]⟩ ![1, 1] (by decide)
    ⟨fun _ => 0, fun i => ?_⟩).2 ?_ glp hg
  · fin_cases i <;> simp [Matrix.mulVec, dotProduct]
  · rintro ⟨z, hz⟩
    have h0 := hz 0
    have h1 := hz 1
    simp [Matrix.mulVec, dotProduct] at h0 h1
    linarith

/-- The orthant `x ≤ 0` in the plane: `(-1, -1)` leaves both walls, so some correct solver gives a boundary
point. -/
example : ¬ ∀ glp : Glpk ℝ, glp.Exact → ∃ x ∈ Interior (1 : Matrix (Fin 2) (Fin 2) ℝ) 0,
      DenseCenter.getInitialPoint glp ⟨2, 2, 1⟩ ⟨2, 0⟩ = .ok x := by
  rw [C77_dense_interior ⟨2, 2, 1⟩ 0 (by decide) ⟨fun _ => -1, fun i => by simp⟩]
  exact fun h => h ⟨fun _ => -1, fun i => by simp⟩

/-- The simplex `x₁ + x₂ = 1, x ≥ 0`: no kernel direction is positive. -/
example (glp : Glpk ℝ) (hg : glp.Exact) :
    ∃ x ∈ PolyEq (Matrix.of ![![(1 : ℝ), 1]]) ![1] 2, x ∈ TailPos 2 2 ∧
      SparseCenter.getInitialPoint glp ⟨1, 2, Matrix.of ![![1, 1]]⟩ ⟨1, ![1]⟩ (2 : ℕ) = .ok x := by
  refine (C77_sparse_interior ⟨1, 2, Matrix.of ![![1, 1]]⟩ ![1] 2 (by decide) (le_refl _)
    ⟨fun _ => 1 / 2, ⟨?_, fun j _ => ?_⟩, fun j _ => ?_⟩).2 ?_ glp hg
  · funext i; fin_cases i
    simp [Matrix.mulVec, dotProduct, Fin.sum_univ_two]
    norm_num
  · norm_num
  · norm_num
  · rintro ⟨z, hz, hp⟩
    have h0 := congrFun hz 0
    have h1 := hp 0 (by simp)
    have h2 := hp 1 (by simp)
    simp [Matrix.mulVec, dotProduct, Fin.sum_univ_two] at h0
    linarith

/-- The ray `x₁ = x₂, x ≥ 0`: `(1, 1)` leaves both sign walls. -/
example : ¬ ∀ glp : Glpk ℝ, glp.Exact → ∃ x ∈ PolyEq (Matrix.of ![![(1 : ℝ), -1]]) ![0] 2, x ∈ TailPos 2 2 ∧
      SparseCenter.getInitialPoint glp ⟨1, 2, Matrix.of ![![1, -1]]⟩ ⟨1, ![0]⟩ (2 : ℕ) = .ok x := by
  rw [C77_sparse_interior ⟨1, 2, Matrix.of ![![1, -1]]⟩ ![0] 2 (by decide) (le_refl _)
    ⟨fun _ => 1, ⟨by funext i; fin_cases i; simp [Matrix.mulVec, dotProduct], fun j _ => zero_le_one⟩,
      fun j _ => zero_lt_one⟩]
  refine fun h => h ⟨fun _ => 1, by funext i; fin_cases i; simp [Matrix.mulVec, dotProduct], fun j _ => zero_lt_one⟩

end PW
