import Verif.Model.Ctor
import Verif.Props.Sampling
import Verif.Props.Completes
import Verif.Props.DensePolytope
import Verif.Props.SparsePolytope
import Verif.Props.Examples

/-!
# Default arguments: what a user who gives none gets (C56), and C++ against Python (C57)
-/

namespace PW
open Matrix

section
variable {F : Type} [Scalar F]

/-- The dense Metropolis walks of the Python module constructed without arguments. -/
inductive PyDenseDefault (E : Eigen F) (junk : F) : Walk F → Prop
  | ball : PyDenseDefault E junk Py.ballWalk
  | dikin : PyDenseDefault E junk (Py.dikinWalk E junk)
  | vaidya : PyDenseDefault E junk (Py.vaidyaWalk E junk)
  | john : PyDenseDefault E junk (Py.johnWalk E junk)
  | dikinLS : PyDenseDefault E junk (Py.dikinLSWalk E junk)

/-- The sparse Metropolis walks of the Python module constructed without arguments. -/
inductive PySparseDefault (E : Eigen F) (junk : F) : Walk F → Prop
  | ball : PySparseDefault E junk (Py.sparseBallWalk E)
  | dikin : PySparseDefault E junk (Py.sparseDikinWalk E junk)
  | vaidya : PySparseDefault E junk (Py.sparseVaidyaWalk E junk)
  | john : PySparseDefault E junk (Py.sparseJohnWalk E junk)
  | dikinLS : PySparseDefault E junk (Py.sparseDikinLSWalk E junk)

theorem goodInts_default {niter : Int} (h0 : 0 ≤ niter) (h1 : niter < intMax) : GoodInts niter 0 1 :=
  ⟨le_rfl, le_rfl, h0, h1, by norm_num [intMax]⟩

/-- **C56**: with the default `burnin`, `thin` and `seed`, `generateCompleteWalk(niter, init, A, b)` of any dense walk returns every
iterate: `niter` rows, row `j` the position after `j + 1` iterations, the generator seeded from the entropy source. Any arithmetic. -/
theorem C56_every_iterate (w : Walk F) (e : Env F) (niter : Int) (h0 : 0 ≤ niter) (h1 : niter < intMax) (init : DVec F) (A : DMat F)
    (b : DVec F) (rows : List (Fin A.c → F)) (h : Py.generateCompleteWalk w e niter init A b = .ok rows) :
    (rows.length : Int) = niter ∧
    ∃ hd : (⟨niter, init, A, b, 0, 0, 1, -1⟩ : Args F).DimsOk, ∀ j (hj : j < rows.length),
      w.PosAt e ⟨niter, init, A, b, 0, 0, 1, -1⟩ hd (j + 1) rows[j] := by
  have hg := goodInts_default h0 h1
  have hs := C01_shape w e ⟨niter, init, A, b, 0, 0, 1, -1⟩ hg rows h
  obtain ⟨hd, hr⟩ := C02_rows w e ⟨niter, init, A, b, 0, 0, 1, -1⟩ hg rows h
  refine ⟨by rw [hs]; simp, hd, fun j hj => ?_⟩
  have := hr j hj
  have e1 : (0 + ((j : Int) + 1) * 1).toNat = j + 1 := by omega
  simp only [e1] at this
  exact this

/-- The same for a sparse walk. -/
theorem C56_every_iterate_sparse (w : Walk F) (e : Env F) (niter : Int) (h0 : 0 ≤ niter) (h1 : niter < intMax) (init : DVec F)
    (A : DMat F) (b : DVec F) (k : Int) (rows : List (Fin A.c → F))
    (h : Py.sparseGenerateCompleteWalk w e niter init A b k = .ok rows) :
    (rows.length : Int) = niter ∧
    ∃ hd : (⟨niter, init, A, b, k, 0, 1, -1⟩ : Args F).DimsOk, ∀ j (hj : j < rows.length),
      w.PosAt e ⟨niter, init, A, b, k, 0, 1, -1⟩ hd (j + 1) rows[j] := by
  have hg := goodInts_default h0 h1
  have hs := C01_shape w e ⟨niter, init, A, b, k, 0, 1, -1⟩ hg rows h
  obtain ⟨hd, hr⟩ := C02_rows w e ⟨niter, init, A, b, k, 0, 1, -1⟩ hg rows h
  refine ⟨by rw [hs]; simp, hd, fun j hj => ?_⟩
  have := hr j hj
  have e1 : (0 + ((j : Int) + 1) * 1).toNat = j + 1 := by omega
  simp only [e1] at this
  exact this

/-- **C56**: a default-constructed dense walk called with default arguments returns. Any arithmetic and back end. -/
theorem C56_returns (E : Eigen F) (junk : F) (w : Walk F) (hw : PyDenseDefault E junk w) (e : Env F) (niter : Int) (h0 : 0 ≤ niter)
    (h1 : niter < intMax) {m n : ℕ} (hm : 1 ≤ m) (hn : 1 ≤ n) (hmn : IsInt ((n : Int) * m)) (x : Fin n → F)
    (A : Matrix (Fin m) (Fin n) F) (b : Fin m → F) :
    ∃ rows, Py.generateCompleteWalk w e niter ⟨n, x⟩ ⟨m, n, A⟩ ⟨m, b⟩ = .ok rows := by
  have hg := goodInts_default h0 h1
  cases hw with
  | ball => exact C54_returns _ e ⟨niter, ⟨n, x⟩, ⟨m, n, A⟩, ⟨m, b⟩, 0, 0, 1, -1⟩ (.ball _ hm) hg ⟨rfl, rfl⟩ (fun h => by cases h)
  | dikin => exact C54_returns _ e ⟨niter, ⟨n, x⟩, ⟨m, n, A⟩, ⟨m, b⟩, 0, 0, 1, -1⟩ (.dikin _ _ _ hm) hg ⟨rfl, rfl⟩ (fun h => by cases h)
  | vaidya =>
    exact C54_returns _ e ⟨niter, ⟨n, x⟩, ⟨m, n, A⟩, ⟨m, b⟩, 0, 0, 1, -1⟩ (.vaidya _ _ _ hm hmn) hg ⟨rfl, rfl⟩ (fun h => by cases h)
  | john =>
    exact C54_returns _ e ⟨niter, ⟨n, x⟩, ⟨m, n, A⟩, ⟨m, b⟩, 0, 0, 1, -1⟩ (.john _ _ _ _ _ hm hn) hg ⟨rfl, rfl⟩ (fun h => by cases h)
  | dikinLS =>
    exact C54_returns _ e ⟨niter, ⟨n, x⟩, ⟨m, n, A⟩, ⟨m, b⟩, 0, 0, 1, -1⟩ (.dikinLS _ _ _ _ _ _ hm) hg ⟨rfl, rfl⟩ (fun h => by cases h)

/-- The same for a default-constructed sparse walk. -/
theorem C56_returns_sparse (E : Eigen F) (junk : F) (w : Walk F) (hw : PySparseDefault E junk w) (e : Env F) (niter : Int)
    (h0 : 0 ≤ niter) (h1 : niter < intMax) {m n : ℕ} (hmn : m < n) (k : Int) (hk : 1 ≤ k) (hkn : k ≤ n)
    (hint : IsInt (k * ((n : Int) - m))) (x : Fin n → F) (A : Matrix (Fin m) (Fin n) F) (b : Fin m → F) :
    ∃ rows, Py.sparseGenerateCompleteWalk w e niter ⟨n, x⟩ ⟨m, n, A⟩ ⟨m, b⟩ k = .ok rows := by
  have hg := goodInts_default h0 h1
  have hK : (⟨niter, ⟨n, x⟩, ⟨m, n, A⟩, ⟨m, b⟩, k, 0, 1, -1⟩ : Args F).KOk := ⟨hk, hkn⟩
  cases hw with
  | ball => exact C54_returns _ e ⟨niter, ⟨n, x⟩, ⟨m, n, A⟩, ⟨m, b⟩, k, 0, 1, -1⟩ (.sparseBall _ _) hg ⟨rfl, rfl⟩ (fun _ => hK)
  | dikin => exact C54_returns _ e ⟨niter, ⟨n, x⟩, ⟨m, n, A⟩, ⟨m, b⟩, k, 0, 1, -1⟩ (.sparseDikin _ _ _ _) hg ⟨rfl, rfl⟩ (fun _ => hK)
  | vaidya =>
    exact C54_returns _ e ⟨niter, ⟨n, x⟩, ⟨m, n, A⟩, ⟨m, b⟩, k, 0, 1, -1⟩ (.sparseVaidya _ _ _ _ hint) hg ⟨rfl, rfl⟩ (fun _ => hK)
  | john =>
    exact C54_returns _ e ⟨niter, ⟨n, x⟩, ⟨m, n, A⟩, ⟨m, b⟩, k, 0, 1, -1⟩ (.sparseJohn _ _ _ _ _ _ hmn) hg ⟨rfl, rfl⟩ (fun _ => hK)
  | dikinLS =>
    exact C54_returns _ e ⟨niter, ⟨n, x⟩, ⟨m, n, A⟩, ⟨m, b⟩, k, 0, 1, -1⟩ (.sparseDikinLS _ _ _ _ _ _ _ hmn) hg ⟨rfl, rfl⟩
      (fun _ => hK)

end

/-- **C56**: in exact arithmetic, all rows a default call returns are in the polytope if the initial point is. -/
theorem C56_feasible (E : Eigen ℝ) (junk : ℝ) (w : Walk ℝ) (hw : PyDenseDefault E junk w) (e : Env ℝ) (niter : Int) (h0 : 0 ≤ niter)
    (h1 : niter < intMax) {m n : ℕ} (hm : 1 ≤ m) (hn : 1 ≤ n) (hmn : IsInt ((n : Int) * m)) (x : Fin n → ℝ)
    (A : Matrix (Fin m) (Fin n) ℝ) (b : Fin m → ℝ) (hx : x ∈ Poly A b) :
    ∃ rows, Py.generateCompleteWalk w e niter ⟨n, x⟩ ⟨m, n, A⟩ ⟨m, b⟩ = .ok rows ∧ (rows.length : Int) = niter ∧
      ∀ y ∈ rows, y ∈ Poly A b := by
  obtain ⟨rows, h⟩ := C56_returns E junk w hw e niter h0 h1 hm hn hmn x A b
  refine ⟨rows, h, (C56_every_iterate w e niter h0 h1 _ _ _ rows h).1, ?_⟩
  have hMH : w.DenseMH := by
    cases hw <;> first | exact .ball _ | exact .barrier _ _ _
  exact C10_feasible w hMH e ⟨niter, ⟨n, x⟩, ⟨m, n, A⟩, ⟨m, b⟩, 0, 0, 1, -1⟩ (goodInts_default h0 h1).sane ⟨rfl, rfl⟩ hx rows h

/-- The same for the sparse walks and the sign constraints. -/
theorem C56_nonneg (E : Eigen ℝ) (junk : ℝ) (w : Walk ℝ) (hw : PySparseDefault E junk w) (e : Env ℝ) (niter : Int) (h0 : 0 ≤ niter)
    (h1 : niter < intMax) {m n : ℕ} (hmn : m < n) (k : ℕ) (hk : 1 ≤ k) (hkn : k ≤ n) (hint : IsInt ((k : Int) * ((n : Int) - m)))
    (x : Fin n → ℝ) (A : Matrix (Fin m) (Fin n) ℝ) (b : Fin m → ℝ) (hx : x ∈ TailNonneg n k) :
    ∃ rows, Py.sparseGenerateCompleteWalk w e niter ⟨n, x⟩ ⟨m, n, A⟩ ⟨m, b⟩ k = .ok rows ∧ (rows.length : Int) = niter ∧
      ∀ y ∈ rows, y ∈ TailNonneg n k := by
  obtain ⟨rows, h⟩ := C56_returns_sparse E junk w hw e niter h0 h1 hmn k (by exact_mod_cast hk) (by exact_mod_cast hkn) hint x A b
  refine ⟨rows, h, (C56_every_iterate_sparse w e niter h0 h1 _ _ _ _ rows h).1, ?_⟩
  have hMH : w.SparseMH := by
    cases hw <;> first | exact .ball _ _ | exact .barrier _ _ _ _
  have e1 : ((k : Int)).toNat = k := by omega
  have := C17_nonneg w hMH e ⟨niter, ⟨n, x⟩, ⟨m, n, A⟩, ⟨m, b⟩, k, 0, 1, -1⟩ (goodInts_default h0 h1).sane ⟨rfl, rfl⟩
    (by rw [e1]; exact hx) rows h
  rw [e1] at this
  exact this

/-- **C56**: the default tolerances are the documented numbers, all positive, the facial reduction's at most 1 (as C41 and C52 need).
`hERR`-type hypotheses of the other theorems are met by default-constructed objects. -/
theorem C56_tolerances :
    (Cpp.facialReduction : ℝ) = 1 / 100000 ∧ (Py.facialReduction : ℝ) = 1 / 1000000 ∧
    (∀ r : ℝ, Cpp.hitAndRun r = .hitRun r (1 / 1000000)) ∧ (Py.hitAndRun : Walk ℝ) = .hitRun (1 / 2) (1 / 100) ∧
    (∀ E : Eigen ℝ, Py.sparseHitAndRun E = .sparseHitRun (1 / 2) (1 / 100) E) ∧
    (∀ (E : Eigen ℝ) (j : ℝ), Py.johnWalk E j = .barrier (johnClass E (1 / 2) (1 / 100000) 1000) E (BState.fresh j)) ∧
    (∀ (E : Eigen ℝ) (j : ℝ), Py.dikinLSWalk E j = .barrier (dikinLSClass E (1 / 2) (1 / 100) (1 / 10) 1000) E (BState.fresh j)) ∧
    (∀ (E : Eigen ℝ) (j : ℝ), Py.sparseJohnWalk E j =
      .sparseBarrier (sparseJohnClass E (1 / 1000000) (1 / 2) (1 / 100000) 1000) (1 / 1000000) E (BState.fresh j)) ∧
    (∀ (E : Eigen ℝ) (j : ℝ), Py.sparseDikinLSWalk E j =
      .sparseBarrier (sparseDikinLSClass E (1 / 1000000) (1 / 2) (1 / 100) (1 / 10) 1000) (1 / 1000000) E (BState.fresh j)) := by
  have d : ∀ e : ℕ, (dec 1 e : ℝ) = 1 / 10 ^ e := fun e => by simp [dec]
  have h : (half : ℝ) = 1 / 2 := by simp [half]
  refine ⟨?_, ?_, ?_, ?_, ?_, ?_, ?_, ?_, ?_⟩ <;>
    simp only [Cpp.facialReduction, Py.facialReduction, Cpp.hitAndRun, Py.hitAndRun, Py.sparseHitAndRun, Cpp.sparseHitAndRun, Py.johnWalk,
      Cpp.johnWalk, Py.dikinLSWalk, Cpp.dikinLSWalk, Py.sparseJohnWalk, Cpp.sparseJohnWalk, Py.sparseDikinLSWalk, Cpp.sparseDikinLSWalk,
      d, h] <;> norm_num

/-- Concrete case: ten default John steps on the triangle. -/
example : ∃ rows, Py.generateCompleteWalk (Py.johnWalk exactEigen 0) RealToy.env 10 ⟨2, RealToy.triX⟩ ⟨3, 2, RealToy.triA⟩
    ⟨3, RealToy.triB⟩ = .ok rows ∧ (rows.length : Int) = 10 ∧ ∀ y ∈ rows, y ∈ Poly RealToy.triA RealToy.triB :=
  C56_feasible exactEigen 0 _ .john RealToy.env 10 (by norm_num) (by norm_num [intMax]) (by norm_num) (by norm_num)
    (by norm_num [IsInt, intMin, intMax]) _ _ _ RealToy.triX_mem

/-- Concrete case: ten default Vaidya steps on the segment. -/
example : ∃ rows, Py.sparseGenerateCompleteWalk (Py.sparseVaidyaWalk exactEigen 0) RealToy.env 10 ⟨2, midpoint2⟩ ⟨1, 2, rowOnes⟩
    ⟨1, fun _ => 1⟩ 2 = .ok rows ∧ (rows.length : Int) = 10 ∧ ∀ y ∈ rows, y ∈ TailNonneg 2 2 :=
  C56_nonneg exactEigen 0 _ .vaidya RealToy.env 10 (by norm_num) (by norm_num [intMax]) (by norm_num) 2 (by norm_num) (by norm_num)
    (by norm_num [IsInt, intMin, intMax]) _ _ _ (fun i hi => (midpoint2_pos i hi).le)

/-- Concrete case of `C56_every_iterate`. -/
example : ∃ rows, Py.generateCompleteWalk Py.ballWalk RealToy.env 10 ⟨2, RealToy.triX⟩ ⟨3, 2, RealToy.triA⟩ ⟨3, RealToy.triB⟩ =
    .ok rows ∧ (rows.length : Int) = 10 := by
  obtain ⟨rows, h⟩ := C56_returns exactEigen 0 _ .ball RealToy.env 10 (by norm_num) (by norm_num [intMax]) (by norm_num) (by norm_num)
    (by norm_num [IsInt, intMin, intMax]) RealToy.triX RealToy.triA RealToy.triB
  exact ⟨rows, h, (C56_every_iterate _ _ _ (by norm_num) (by norm_num [intMax]) _ _ _ _ h).1⟩

/-! ## C57: the same call from C++ and from Python -/

/-- **C57** (true part): with `r` given and everything else left to its default, these nine classes are constructed with the same
parameters from C++ and from Python, so every run gives the same result. Missing, because it is false (`C57_differs`):
`HitAndRun`, `SparseHitAndRun`, `SparseJohnWalk`, `FacialReduction`. -/
theorem C57_same_partial {F : Type} [Scalar F] (E : Eigen F) (junk r : F) :
    Cpp.ballWalk r = Py.ballWalk r ∧ Cpp.dikinWalk E junk r = Py.dikinWalk E junk r ∧ Cpp.vaidyaWalk E junk r = Py.vaidyaWalk E junk r ∧
    Cpp.johnWalk E junk r = Py.johnWalk E junk r ∧ Cpp.dikinLSWalk E junk r = Py.dikinLSWalk E junk r ∧
    Cpp.sparseBallWalk E r = Py.sparseBallWalk E r ∧ Cpp.sparseDikinWalk E junk r = Py.sparseDikinWalk E junk r ∧
    Cpp.sparseVaidyaWalk E junk r = Py.sparseVaidyaWalk E junk r ∧
    Cpp.sparseDikinLSWalk E junk r = Py.sparseDikinLSWalk E junk r :=
  ⟨rfl, rfl, rfl, rfl, rfl, rfl, rfl, rfl, rfl⟩

/-- With all arguments given the two languages always agree. -/
theorem C57_explicit {F : Type} [Scalar F] (E : Eigen F) (junk r err lim g s : F) (M : Int) :
    Cpp.hitAndRun r err = Py.hitAndRun r err ∧ Cpp.sparseHitAndRun E r err = Py.sparseHitAndRun E r err ∧
    Cpp.johnWalk E junk r lim M = Py.johnWalk E junk r lim M ∧ Cpp.dikinLSWalk E junk r g s M = Py.dikinLSWalk E junk r g s M ∧
    Cpp.sparseJohnWalk E junk r lim M err = Py.sparseJohnWalk E junk r lim M err ∧
    Cpp.sparseDikinLSWalk E junk r g s M err = Py.sparseDikinLSWalk E junk r g s M err ∧
    Cpp.facialReduction err = Py.facialReduction err := ⟨rfl, rfl, rfl, rfl, rfl, rfl, rfl⟩

/-- The interval `[-4/5, 4/5]`. -/
def gapA : Matrix (Fin 2) (Fin 1) ℝ := !![1; -1]
/-- Its right-hand side. -/
noncomputable def gapB : Fin 2 → ℝ := fun _ => 4 / 5

theorem gap_ray (u : Fin 1 → ℝ) (hu : IsUnitVec u) (t : ℝ) : ray 0 u t ∈ Poly gapA gapB ↔ |t| ≤ 4 / 5 := by
  have hu1 : u 0 = 1 ∨ u 0 = -1 := by
    have : u 0 * u 0 = 1 := by simpa [IsUnitVec] using hu
    exact mul_self_eq_one_iff.1 this
  have h : ray 0 u t ∈ Poly gapA gapB ↔ t * u 0 ≤ 4 / 5 ∧ -(t * u 0) ≤ 4 / 5 := by
    constructor
    · intro h
      have h0 := h 0
      have h1 := h 1
      simp [gapA, gapB, ray, Matrix.mulVec, dotProduct] at h0 h1
      exact ⟨h0, by linarith⟩
    · intro h i
      fin_cases i <;> simp [gapA, gapB, ray, Matrix.mulVec, dotProduct]
      · exact h.1
      · linarith [h.2]
  rw [h, abs_le]
  rcases hu1 with h1 | h1 <;> rw [h1] <;> constructor <;> rintro ⟨_, _⟩ <;> constructor <;> linarith

theorem gap_search (u : Fin 1 → ℝ) (hu : IsUnitVec u) (ERR : ℝ) (fuel : ℕ) :
    HitRun.binarySearch (1 / 2) ERR fuel gapA gapB u 0 = (chordR (fun t => |t| ≤ 4 / 5) (1 / 2) ERR fuel).map fun t => |t| := by
  rw [chord_dense (by norm_num) gapA gapB 0 u hu]
  simp only [gap_ray u hu]

theorem gap_coarse (fuel : ℕ) (hf : 20 ≤ fuel) : chordR (fun t => |t| ≤ 4 / 5) (1 / 2) (1 / 100) fuel = .ok (409 / 512) := by
  have h1 : expandR (fun t => |t| ≤ 4 / 5) 20 (1 / 2) = .ok 1 := by
    rw [expandR, if_neg (by norm_num [abs_le])]; norm_num
  have h2 : bisectR (fun t => |t| ≤ 4 / 5) (1 / 100) 20 0 1 (1 / 2) = .ok (409 / 512) := by
    rw [bisectR, if_pos (by norm_num [abs_le, abs_of_pos, abs_of_neg]), if_pos (by norm_num [abs_le])]
    rw [bisectR, if_pos (by norm_num [abs_le, abs_of_pos, abs_of_neg]), if_pos (by norm_num [abs_le])]
    rw [bisectR, if_pos (by norm_num [abs_le, abs_of_pos, abs_of_neg]), if_neg (by norm_num [abs_le])]
    rw [bisectR, if_pos (by norm_num [abs_le, abs_of_pos, abs_of_neg]), if_neg (by norm_num [abs_le])]
    rw [bisectR, if_pos (by norm_num [abs_le, abs_of_pos, abs_of_neg]), if_pos (by norm_num [abs_le])]
    rw [bisectR, if_pos (by norm_num [abs_le, abs_of_pos, abs_of_neg]), if_pos (by norm_num [abs_le])]
    rw [bisectR, if_pos (by norm_num [abs_le, abs_of_pos, abs_of_neg]), if_neg (by norm_num [abs_le])]
    rw [bisectR, if_pos (by norm_num [abs_le, abs_of_pos, abs_of_neg]), if_neg (by norm_num [abs_le])]
    rw [bisectR, if_pos (by norm_num [abs_le, abs_of_pos, abs_of_neg]), if_pos (by norm_num [abs_le])]
    rw [bisectR, if_neg (by norm_num [abs_le])]; norm_num
  rw [chordR, expandR_mono _ hf h1, Out.ok_bind]
  exact bisectR_mono _ _ hf h2

theorem gap_fine : ∃ f0 t, 4 / 5 - 1 / 1000000 ≤ t ∧ t ≤ 4 / 5 ∧ ∀ f ≥ f0, chordR (fun t => |t| ≤ 4 / 5) (1 / 2) (1 / 1000000) f = .ok t := by
  obtain ⟨f0, t, h⟩ := chordR_terminates (fun t => |t| ≤ 4 / 5) (1 / 2) (1 / 1000000) (by norm_num) (by norm_num) (4 / 5) (by norm_num)
    (fun t h0 h1 => by rw [abs_of_nonneg h0]; exact h1.le) (fun t h1 h2 => by have := abs_le.1 h2; linarith [this.2])
    (fun i j h => by
      rw [abs_of_pos (by norm_num), div_eq_iff (by positivity)] at h
      have h' : (5 * i : ℝ) = ((8 * 2 ^ j : ℕ) : ℝ) := by push_cast; linarith
      have h'' : 5 * i = 8 * 2 ^ j := by exact_mod_cast h'
      have : 5 ∣ 2 ^ (j + 3) := ⟨i, by rw [h'']; ring⟩
      have := (Nat.Prime.dvd_of_dvd_pow (by decide : Nat.Prime 5) this)
      omega)
  obtain ⟨h1, h2, s, h3, h4, h5⟩ := chordR_spec _ (by norm_num) _ _ f0 (h f0 le_rfl)
  have h2' := (abs_le.1 h2).2
  refine ⟨f0, t, ?_, h2', h⟩
  rw [abs_le] at h5
  by_contra h6
  apply h5
  constructor <;> linarith

/-- One step from the middle of the interval. -/
noncomputable def gapArgs : Args ℝ := ⟨1, ⟨1, 0⟩, ⟨2, 1, gapA⟩, ⟨2, gapB⟩, 0, 0, 1, 42⟩

theorem gap_run (e : Env ℝ) (hn : ∀ g, IsUnitVec (e.r.gaussianNorm 1 g).1) (hu : ∀ g, (e.r.uniform g).1 = 0) (ERR t : ℝ) (ht : 0 ≤ t)
    (h : chordR (fun t => |t| ≤ 4 / 5) (1 / 2) ERR e.fuel = .ok t) :
    (Walk.hitRun (1 / 2) ERR).run e gapArgs = .ok [fun i => -t * (e.r.gaussianNorm 1 (e.r.initRng 42 e.rd)).1 i] := by
  have hs : HitRun.step (1 / 2) ERR e.fuel e.r gapA gapB (0, e.r.initRng 42 e.rd) =
      .ok (fun i => -t * (e.r.gaussianNorm 1 (e.r.initRng 42 e.rd)).1 i,
        (e.r.uniform (e.r.gaussianNorm 1 (e.r.initRng 42 e.rd)).2).2) := by
    have hneg : IsUnitVec (fun i => (e.r.gaussianNorm 1 (e.r.initRng 42 e.rd)).1 i * Scalar.ofInt (-1)) := by
      have := hn (e.r.initRng 42 e.rd)
      simp [IsUnitVec] at this ⊢
      exact this
    simp only [HitRun.step]
    rw [gap_search _ (hn _), gap_search _ hneg, h]
    simp only [Out.map_ok, Out.ok_bind, hu, abs_of_nonneg ht]
    congr 2
    funext i
    simp
  have hI : ∀ z : Int, -5 ≤ z → z ≤ 5 → IsInt z := fun z h1 h2 => ⟨by simp [intMin]; omega, by simp [intMax]; omega⟩
  show (checkDims gapArgs.init gapArgs.A gapArgs.b fun x b =>
    (runLoop (HitRun.step (1 / 2) ERR e.fuel e.r gapA b) Prod.fst 1 0 1 (x, e.r.initRng 42 e.rd)).map Prod.fst) = _
  unfold checkDims
  rw [dif_pos ⟨rfl, rfl⟩]
  show (runLoop (HitRun.step (1 / 2) ERR e.fuel e.r gapA gapB) Prod.fst 1 0 1 (0, e.r.initRng 42 e.rd)).map Prod.fst = _
  simp only [runLoop, loopFrom, record, writeRow, toInt, intDiv, intMod]
  norm_num [hI, hs, loopFrom, record, writeRow, toInt, intDiv, intMod]
  rfl

/-- **C57** is false in general: `HitAndRun(0.5)` built from C++ and `HitAndRun(0.5)` built from Python return different samples for the
same generator and arguments, because the default `err` is `1e-6` there and `0.01` here. -/
theorem C57_differs : ∃ (e : Env ℝ) (a : Args ℝ) (hd : a.DimsOk) (rows rows' : List (Fin a.A.c → ℝ)),
    a.x0 hd ∈ Interior a.A.val (a.rhs hd) ∧
    (Cpp.hitAndRun (1 / 2)).run e a = .ok rows ∧ (Py.hitAndRun (1 / 2)).run e a = .ok rows' ∧ rows ≠ rows' := by
  obtain ⟨f0, t, h1, h2, h3⟩ := gap_fine
  obtain ⟨-, -, hc, -⟩ := C56_tolerances
  have d : (dec 1 2 : ℝ) = 1 / 100 := by norm_num [dec]
  let e : Env ℝ := ⟨RealToy.rng, 0, fun _ _ => 0, max 20 f0⟩
  have hn : ∀ g, IsUnitVec (e.r.gaussianNorm 1 g).1 := by
    intro g
    have hsq := RealToy.draw_sq 1 g 0
    have hne : (RealToy.rng.gaussian 1 g).1 0 ≠ 0 := by
      intro h0; rw [h0] at hsq; norm_num at hsq
    exact normalize_unit _ fun h => hne (congrFun h 0)
  have hgap : gapArgs.x0 ⟨rfl, rfl⟩ ∈ Interior gapArgs.A.val (gapArgs.rhs ⟨rfl, rfl⟩) := by
    intro i
    show (gapA *ᵥ 0) i < gapB i
    rw [Matrix.mulVec_zero]
    show (0 : ℝ) < 4 / 5
    norm_num
  refine ⟨e, gapArgs, ⟨rfl, rfl⟩, [fun i => -t * (e.r.gaussianNorm 1 (e.r.initRng 42 e.rd)).1 i],
    [fun i => -(409 / 512) * (e.r.gaussianNorm 1 (e.r.initRng 42 e.rd)).1 i], hgap, ?_, ?_, ?_⟩
  · rw [hc]
    exact gap_run e hn (fun _ => rfl) _ t (by linarith) (h3 _ (le_max_right _ _))
  · show (Walk.hitRun (1 / 2) (dec 1 2)).run e gapArgs = _
    rw [d]
    exact gap_run e hn (fun _ => rfl) _ _ (by norm_num) (gap_coarse _ (le_max_left _ _))
  · intro h
    have h' := congrFun (List.cons.inj h).1 (0 : Fin 1)
    have hd := hn (e.r.initRng 42 e.rd)
    have hd0 : (e.r.gaussianNorm 1 (e.r.initRng 42 e.rd)).1 0 ≠ 0 := by
      intro h0
      simp [IsUnitVec, h0] at hd
    have := mul_right_cancel₀ hd0 h'
    linarith

end PW
