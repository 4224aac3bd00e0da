import Verif.Props.DensePolytope
import Verif.Props.SparsePolytope
import Verif.Lemmas.Rounding
import Verif.Lemmas.Ieee
import Verif.Props.Completes

/-!
# C62, C63: the membership tests in floating-point arithmetic
-/

namespace PW
open Finset

section
variable {F : Type} [Scalar F] {ext : F → Option EReal} {u θ Ω : ℝ} {m n : ℕ}

/-- **C62** (one constraint, any order of summation). If the computed value of `∑ⱼ aⱼ xⱼ - b` is at most 0, the constraint holds up to
rounding; if the constraint holds with that much to spare, the computed value is at most 0. -/
theorem C62_any_order (R : Rounding F ext u θ Ω) {d : ℕ} {a x : Fin n → F} {b : F} {α ξ : Fin n → ℝ} {β : ℝ}
    (ha : HasValues ext a α) (hx : HasValues ext x ξ) (hb : ext b = some (β : EReal)) (hΩ : NoOverflow u θ Ω d α ξ β)
    {s : F} (hs : SumOf (fun j => a j * x j) univ d s) :
    ∃ q : ℝ, ext (s - b) = some (q : EReal) ∧ (q ≤ 0 → ∑ j, α j * ξ j ≤ β + dotError u θ d α ξ) ∧
      (∑ j, α j * ξ j + dotError u θ d α ξ ≤ β → q ≤ 0) := by
  unfold NoOverflow at hΩ
  obtain ⟨r, hr, he, hb'⟩ := dot_finite R ha hx hs (by linarith [abs_nonneg β])
  have h1 : |r - β| ≤ Ω := by
    have := abs_sub r β
    linarith
  obtain ⟨q, hq, hiff⟩ := sub_le_zero_iff R hr hb h1
  have := abs_le.1 he
  refine ⟨q, hq, fun h => ?_, fun h => hiff.2 ?_⟩
  · have := hiff.1 h
    unfold dotError
    linarith
  · unfold dotError at h
    linarith

/-- **C62** (the dense walks). Every row of a Ball or barrier walk is the initial point or satisfies every constraint up to the
rounding error of evaluating it: `∑ⱼ Aᵢⱼ xⱼ ≤ bᵢ + ((1+u)ⁿ⁺¹ - 1) ∑ⱼ |Aᵢⱼ xⱼ| + n (1+u)ⁿ θ`, in exact arithmetic on the stored numbers. -/
theorem C62_dense (R : Rounding F ext u θ Ω) (w : Walk F) (hw : w.DenseMH) (e : Env F) (a : Args F)
    (hi : SaneInts a.niter a.burnin a.thin) (rows : List (Fin a.A.c → F)) (h : w.run e a = .ok rows) :
    ∃ hd : a.DimsOk, ∀ x ∈ rows, x = a.x0 hd ∨ ∀ (i : Fin a.A.r) (α ξ : Fin a.A.c → ℝ) (β : ℝ), HasValues ext (a.A.val i) α →
      HasValues ext x ξ → ext (a.rhs hd i) = some (β : EReal) → NoOverflow u θ Ω a.A.c α ξ β →
        ∑ j, α j * ξ j ≤ β + dotError u θ a.A.c α ξ := by
  obtain ⟨hd, hr⟩ := C09_rows_tested w hw e a hi rows h
  refine ⟨hd, fun x hx => (hr x hx).imp_right ?_⟩
  rintro ⟨c, hl, hc⟩ i α ξ β hα hξ hβ hΩ
  obtain ⟨_, h2⟩ := largest_le_zero R hl hc
  obtain ⟨q, hq, h3, _⟩ := C62_any_order R hα hξ hβ hΩ (sumOf_dot (a.A.val i) x)
  have := h2 _ (by rw [List.mem_ofFn]; exact ⟨i, rfl⟩) q hq
  exact h3 (by exact_mod_cast this)

/-- **C62** (the converse). A finite point that satisfies every constraint with the rounding error to spare passes the dense test. -/
theorem C62_accepts (R : Rounding F ext u θ Ω) (hm : 0 < m) (A : Matrix (Fin m) (Fin n) F) (b : Fin m → F) (x : Fin n → F)
    (α : Matrix (Fin m) (Fin n) ℝ) (β : Fin m → ℝ) (ξ : Fin n → ℝ) (hα : ∀ i, HasValues ext (A i) (α i)) (hβ : HasValues ext b β)
    (hξ : HasValues ext x ξ) (hΩ : ∀ i, NoOverflow u θ Ω n (α i) ξ (β i))
    (hin : ∀ i, ∑ j, α i j * ξ j + dotError u θ n (α i) ξ ≤ β i) : inPolytope x A b = .ok true := by
  rw [inPolytope_iff_passes]
  refine largest_le_zero' R (fun h => ?_) fun v hv => ?_
  · have := congrArg List.length h
    simp at this
    omega
  · rw [List.mem_ofFn] at hv
    obtain ⟨i, rfl⟩ := hv
    obtain ⟨q, hq, _, h4⟩ := C62_any_order R (hα i) hξ (hβ i) (hΩ i) (sumOf_dot (A i) x)
    exact ⟨q, hq, by exact_mod_cast h4 (hin i)⟩

/-- **C62** (the sparse walks). The sparse test involves no rounding: in every row of a sparse Ball or barrier walk other than the
initial point, a constrained coordinate that is not NaN is at least 0. -/
theorem C62_sparse (R : Rounding F ext u θ Ω) (w : Walk F) (hw : w.SparseMH) (e : Env F) (a : Args F)
    (hi : SaneInts a.niter a.burnin a.thin) (rows : List (Fin a.A.c → F)) (h : w.run e a = .ok rows) :
    ∃ hd : a.DimsOk, ∀ x ∈ rows, x = a.x0 hd ∨ ∀ j : Fin a.A.c, a.A.c ≤ j + a.k.toNat → ∀ y, ext (x j) = some y → 0 ≤ y := by
  obtain ⟨hd, hr⟩ := C17_rows_tested w hw e a hi rows h
  refine ⟨hd, fun x hx => (hr x hx).imp_right ?_⟩
  rintro ⟨c, hl, hc⟩ j hj y hy
  refine (smallest_ge_zero R hl hc).2 (x j) ?_ y hy
  rw [List.mem_iff_getElem]
  refine ⟨j.1 - (a.A.c - a.k.toNat), by simp; omega, ?_⟩
  have : a.A.c - a.k.toNat + (j.1 - (a.A.c - a.k.toNat)) = j.1 := by omega
  simp [this]

/-- A point with a NaN coordinate fails the dense test. -/
theorem not_passesDense_nan (R : Rounding F ext u θ Ω) {A : Matrix (Fin m) (Fin n) F} {b : Fin m → F} {x : Fin n → F} {j : Fin n}
    (hj : ext (x j) = none) : ¬ Spec.PassesDense A b x := by
  rintro ⟨c, hl, hc⟩
  obtain ⟨⟨v, y, hv, hy⟩, _⟩ := largest_le_zero R hl hc
  have : v ∈ List.ofFn fun i => Spec.dot (A i) x - b i := List.mem_of_head? hv
  rw [List.mem_ofFn] at this
  obtain ⟨i, rfl⟩ := this
  rw [R.sub_nan _ _ (.inl ((sumOf_dot (A i) x).nan R (mem_univ j) (R.mul_nan _ _ (.inr hj))))] at hy
  cases hy

/-- **C63.** Ball and barrier walks never return a NaN: if no coordinate of the initial point is NaN, no coordinate of a returned row is. -/
theorem C63_no_nan (R : Rounding F ext u θ Ω) (w : Walk F) (hw : w.DenseMH) (e : Env F) (a : Args F)
    (hi : SaneInts a.niter a.burnin a.thin) (hd : a.DimsOk) (h0 : ∀ j, ext (a.x0 hd j) ≠ none) (rows : List (Fin a.A.c → F))
    (h : w.run e a = .ok rows) : ∀ x ∈ rows, ∀ j, ext (x j) ≠ none := by
  obtain ⟨hd', hr⟩ := C09_rows_tested w hw e a hi rows h
  intro x hx j
  rcases hr x hx with rfl | hp
  · exact h0 j
  · intro hj
    exact not_passesDense_nan R hj hp

/-- **C63** (the sparse walks). The first constrained coordinate of a returned row is never NaN. -/
theorem C63_sparse_first (R : Rounding F ext u θ Ω) (w : Walk F) (hw : w.SparseMH) (e : Env F) (a : Args F)
    (hi : SaneInts a.niter a.burnin a.thin) (hd : a.DimsOk) (rows : List (Fin a.A.c → F)) (h : w.run e a = .ok rows)
    (j : Fin a.A.c) (hj : j.1 + a.k.toNat = a.A.c) (h0 : ext (a.x0 hd j) ≠ none) : ∀ x ∈ rows, ext (x j) ≠ none := by
  obtain ⟨hd', hr⟩ := C17_rows_tested w hw e a hi rows h
  intro x hx
  rcases hr x hx with rfl | ⟨c, hl, hc⟩
  · exact h0
  · obtain ⟨⟨v, y, hv, hy⟩, _⟩ := smallest_ge_zero R hl hc
    have e1 : a.A.c - a.k.toNat = j.1 := by omega
    rw [e1, List.head?_drop] at hv
    simp at hv
    rw [hv, hy]
    simp

end

/-! ## Binary64 -/

section
open Ieee

/-- **C62** (`double`). Rows of a Ball or barrier walk run in IEEE binary64 satisfy every constraint up to relative error
`(1 + 2⁻⁵³)ⁿ⁺¹ - 1` and an underflow term below `n · 2⁻¹⁰⁷⁴`. -/
theorem C62_binary64 (w : Walk Binary64) (hw : w.DenseMH) (e : Env Binary64) (a : Args Binary64)
    (hi : SaneInts a.niter a.burnin a.thin) (rows : List (Fin a.A.c → Binary64)) (h : w.run e a = .ok rows) :
    ∃ hd : a.DimsOk, ∀ x ∈ rows, x = a.x0 hd ∨ ∀ (i : Fin a.A.r) (α ξ : Fin a.A.c → ℝ) (β : ℝ), HasValues Ieee.ext (a.A.val i) α →
      HasValues Ieee.ext x ξ → Ieee.ext (a.rhs hd i) = some (β : EReal) →
      NoOverflow (2 ^ (-53 : ℤ)) (2 ^ (-1075 : ℤ)) (2 ^ (1023 : ℤ)) a.A.c α ξ β →
        ∑ j, α j * ξ j ≤ β + dotError (2 ^ (-53 : ℤ)) (2 ^ (-1075 : ℤ)) a.A.c α ξ :=
  C62_dense binary64 w hw e a hi rows h

/-- **C63** (`double`). -/
theorem C63_binary64 (w : Walk Binary64) (hw : w.DenseMH) (e : Env Binary64) (a : Args Binary64)
    (hi : SaneInts a.niter a.burnin a.thin) (hd : a.DimsOk) (h0 : ∀ j, a.x0 hd j ≠ .nan) (rows : List (Fin a.A.c → Binary64))
    (h : w.run e a = .ok rows) : ∀ x ∈ rows, ∀ j, x j ≠ .nan := by
  intro x hx j hj
  refine C63_no_nan binary64 w hw e a hi hd (fun j hj => h0 j ?_) rows h x hx j (by rw [hj]; rfl)
  cases hn : a.x0 hd j with
  | nan => rfl
  | num y hy => rw [hn] at hj; cases hj
  | inf s => rw [hn] at hj; cases hj

/-! ### Concrete cases -/

theorem rnd_exact {p : ℕ} {emin : ℤ} {x : ℝ} (z : ℤ) (h : x = z * 2 ^ ulpExp p emin x) : rnd p emin x = x := by
  unfold rnd
  have h2 : x / 2 ^ ulpExp p emin x = z := by
    rw [div_eq_iff (by positivity)]; exact h
  rw [h2, rint_int]; exact h.symm

theorem rnd_pow {p : ℕ} {emin k : ℤ} (hp : 1 ≤ p) (hk : emin ≤ k) : rnd p emin (2 ^ k) = 2 ^ k := by
  have h1 : ulpExp p emin (2 ^ k) = max (k - (p - 1)) emin := by
    unfold ulpExp
    rw [abs_of_pos (by positivity)]
    congr 2
    exact_mod_cast Int.log_zpow (R := ℝ) (b := 2) (by norm_num) k
  have h2 : max (k - ((p : ℤ) - 1)) emin ≤ k := max_le (by omega) hk
  refine rnd_exact (2 ^ (k - max (k - ((p : ℤ) - 1)) emin).toNat) ?_
  rw [h1]
  push_cast
  rw [← zpow_natCast, Int.toNat_of_nonneg (by omega), ← zpow_add₀ (by norm_num)]
  congr 1; ring

theorem rnd_one : rnd 53 (-1074) 1 = 1 := by
  have := rnd_pow (p := 53) (emin := -1074) (k := 0) (by norm_num) (by norm_num)
  simpa using this

/-- `1 + 2⁻⁵⁴` rounds to 1. -/
theorem rnd_absorb : rnd 53 (-1074) (1 + 2 ^ (-54 : ℤ)) = 1 := by
  have hlog : Int.log 2 (1 + (2 : ℝ) ^ (-54 : ℤ)) = 0 := by
    refine le_antisymm ?_ ?_
    · have : Int.log 2 (1 + (2 : ℝ) ^ (-54 : ℤ)) < 1 := by
        rw [Int.lt_iff_add_one_le]
        by_contra hc
        have h1 : (1 : ℤ) ≤ Int.log 2 (1 + (2 : ℝ) ^ (-54 : ℤ)) := by omega
        have h2 := (Int.zpow_le_iff_le_log (R := ℝ) (b := 2) (by norm_num) (by positivity)).2 h1
        norm_num at h2
      omega
    · refine (Int.zpow_le_iff_le_log (R := ℝ) (b := 2) (by norm_num) (by positivity)).1 ?_
      norm_num
  have hu : ulpExp 53 (-1074) (1 + (2 : ℝ) ^ (-54 : ℤ)) = -52 := by
    unfold ulpExp
    rw [abs_of_pos (by positivity), hlog]
    norm_num
  have hf : ⌊(1 + (2 : ℝ) ^ (-54 : ℤ)) / 2 ^ (-52 : ℤ)⌋ = 2 ^ 52 := by
    rw [Int.floor_eq_iff]
    norm_num
  have hr : rint ((1 + (2 : ℝ) ^ (-54 : ℤ)) / 2 ^ (-52 : ℤ)) = 2 ^ 52 := by
    unfold rint
    rw [if_pos]
    · exact hf
    · rw [Int.fract, hf]; norm_num
  unfold rnd
  rw [hu, hr]
  norm_num

theorem round_eq {x y : ℝ} (h : rnd 53 (-1074) x = y) (hy : |y| ≤ 1) :
    ∃ hg, (Ieee.round x : Binary64) = .num y hg := by
  subst h
  refine ⟨Ieee.rnd_grid _ _ _, ?_⟩
  unfold Ieee.round
  rw [if_pos (hy.trans_lt (one_lt_zpow₀ (by norm_num) (by norm_num)))]

theorem grid_pow {k : ℤ} (hk : -1074 ≤ k) : OnGrid (-1074) ((2 : ℝ) ^ k) := by
  refine ⟨2 ^ (k + 1074).toNat, ?_⟩
  push_cast
  rw [← zpow_natCast, Int.toNat_of_nonneg (by omega), ← zpow_add₀ (by norm_num)]
  congr 1; ring

/-- The double 1. -/
noncomputable def dOne : Binary64 := .num 1 (by simpa using grid_pow (k := 0) (by norm_num))

/-- The double `2⁻⁵⁴`. -/
noncomputable def dTiny : Binary64 := .num (2 ^ (-54 : ℤ)) (grid_pow (by norm_num))

/-- **C62** (the error term is needed). In binary64 the point `(1, 2⁻⁵⁴)` passes the test of `x + y ≤ 1`, which it violates. -/
theorem C62_bound_needed :
    inPolytope (n := 2) ![dOne, dTiny] (Matrix.of fun (_ : Fin 1) _ => dOne) (fun _ => dOne) = .ok true ∧
      HasValues Ieee.ext ![dOne, dTiny] ![1, 2 ^ (-54 : ℤ)] ∧ ¬ ((1 : ℝ) * 1 + 1 * 2 ^ (-54 : ℤ) ≤ 1) := by
  refine ⟨?_, ?_, by norm_num⟩
  · rw [inPolytope_iff_passes]
    obtain ⟨g1, h1⟩ := round_eq (x := 1 * 1) (y := 1) (by rw [mul_one]; exact rnd_one) (by norm_num)
    obtain ⟨g2, h2⟩ := round_eq (x := 1 * 2 ^ (-54 : ℤ)) (y := 2 ^ (-54 : ℤ)) (by rw [one_mul]; exact rnd_pow (by norm_num) (by norm_num)) (by norm_num)
    obtain ⟨g3, h3⟩ := round_eq (x := 0 + 1) (y := 1) (by rw [zero_add]; exact rnd_one) (by norm_num)
    obtain ⟨g4, h4⟩ := round_eq (x := 1 + 2 ^ (-54 : ℤ)) (y := 1) rnd_absorb (by norm_num)
    obtain ⟨g5, h5⟩ := round_eq (x := 1 + -1) (y := 0) (by rw [add_neg_cancel]; exact rnd_zero _ _) (by norm_num)
    have e1 : dOne * dOne = dOne := h1
    have e2 : dOne * dTiny = dTiny := h2
    have e3 : (0 : Binary64) + dOne = dOne := h3
    have e4 : dOne + dTiny = dOne := h4
    have e5 : dOne - dOne = (0 : Binary64) := h5
    refine ⟨0, ?_, (binary64.le_iff _ _).2 ⟨0, 0, binary64.zero, binary64.zero, le_rfl⟩⟩
    simp [Spec.largest, Spec.dot, List.ofFn_succ, e1, e2, e3, e4, e5]
  · intro j
    fin_cases j <;> rfl

/-- **C62** (a case that meets the hypotheses of `C62_accepts`: one constraint `x ≤ 1`, the point `2⁻⁵⁴`). -/
example : inPolytope (n := 1) ![dTiny] (Matrix.of fun (_ : Fin 1) _ => dOne) (fun _ => dOne) = .ok true := by
  refine C62_accepts binary64 (by norm_num) _ _ _ (fun _ _ => 1) (fun _ => 1) ![2 ^ (-54 : ℤ)] (fun i j => rfl) (fun i => rfl)
    (fun j => ?_) (fun i => ?_) fun i => ?_
  · fin_cases j; rfl
  · have h1 : ((2 : ℝ) ^ (-1075 : ℤ)) ≤ 1 := zpow_le_one_of_nonpos₀ (by norm_num) (by norm_num)
    have h2 : (3 : ℝ) ≤ 2 ^ (1023 : ℤ) :=
      le_trans (by norm_num) (zpow_le_zpow_right₀ (a := (2 : ℝ)) (m := 2) (n := 1023) (by norm_num) (by norm_num))
    simp only [NoOverflow, univ_unique, sum_singleton]
    refine le_trans ?_ h2
    generalize (2 : ℝ) ^ (-1075 : ℤ) = t at h1
    norm_num
    linarith
  · have h1 : ((2 : ℝ) ^ (-1075 : ℤ)) ≤ 2 ^ (-1 : ℤ) := zpow_le_zpow_right₀ (by norm_num) (by norm_num)
    simp only [dotError, univ_unique, sum_singleton]
    generalize (2 : ℝ) ^ (-1075 : ℤ) = t at h1
    norm_num at h1 ⊢
    linarith

/-- **C62**, **C63** (a case that meets the hypotheses): a Ball walk in binary64 on `x ≤ 1` from `2⁻⁵⁴` with any generator returns, so
its rows satisfy the conclusions. -/
example (r : Rng Binary64) :
    ∃ rows, (Walk.ball dOne).run ⟨r, 0, fun _ _ => dOne, 5⟩ ⟨10, ⟨1, ![dTiny]⟩, ⟨1, 1, fun _ _ => dOne⟩, ⟨1, fun _ => dOne⟩, 1, 0, 1, 3⟩ = .ok rows ∧
      ∀ x ∈ rows, ∀ j, x j ≠ .nan := by
  have hd : Args.DimsOk (⟨10, ⟨1, ![dTiny]⟩, ⟨1, 1, fun _ _ => dOne⟩, ⟨1, fun _ => dOne⟩, 1, 0, 1, 3⟩ : Args Binary64) := ⟨rfl, rfl⟩
  obtain ⟨rows, h⟩ := C54_returns (Walk.ball dOne) ⟨r, 0, fun _ _ => dOne, 5⟩
    ⟨10, ⟨1, ![dTiny]⟩, ⟨1, 1, fun _ _ => dOne⟩, ⟨1, fun _ => dOne⟩, 1, 0, 1, 3⟩ (.ball _ le_rfl)
    (by constructor <;> simp [intMax]) hd (by simp [Walk.isSparse])
  refine ⟨rows, h, C63_binary64 _ (.ball _) _ _ (by constructor <;> simp [intMax]) hd (fun j => ?_) rows h⟩
  have : j = 0 := Subsingleton.elim (α := Fin 1) _ _
  subst this
  show dTiny ≠ Ieee.nan
  unfold dTiny
  simp

/-- `c · ∞` for a non-zero number `c`. -/
theorem num_mul_inf {c : ℝ} (h) (hc : c ≠ 0) : (Ieee.num c h : Binary64) * Ieee.inf False = Ieee.inf (c < 0) := by
  show (if c = 0 then Ieee.nan else Ieee.inf (¬ (c < 0 ↔ False)) : Binary64) = _
  rw [if_neg hc]
  simp

/-- **C63** (limit). Infinities are not excluded: `(∞, ∞)` passes the test of the triangle `-x - y ≤ 1`, `2x - y ≤ 1`, `2y - x ≤ 1`, because
`∞ - ∞` is a NaN in a later row. -/
theorem C63_infinite_accepted (h1 : OnGrid (-1074) (-1)) (h2 : OnGrid (-1074) 2) :
    inPolytope (n := 2) (fun _ => (Ieee.inf False : Binary64))
      (Matrix.of ![![.num (-1) h1, .num (-1) h1], ![.num 2 h2, .num (-1) h1], ![.num (-1) h1, .num 2 h2]]) (fun _ => dOne) = .ok true := by
  rw [inPolytope_iff_passes]
  have e1 := num_mul_inf h1 (by norm_num)
  have e2 := num_mul_inf h2 (by norm_num)
  rw [show ((-1 : ℝ) < 0) = True by simp] at e1
  rw [show ((2 : ℝ) < 0) = False by simp] at e2
  have a1 : ∀ P : Prop, (0 : Binary64) + Ieee.inf P = Ieee.inf P := fun P => rfl
  have a2 : (Ieee.inf True : Binary64) + Ieee.inf True = Ieee.inf True := if_pos rfl
  have a3 : (Ieee.inf True : Binary64) + Ieee.inf False = Ieee.nan := if_neg (by simp)
  have a4 : (Ieee.inf False : Binary64) + Ieee.inf True = Ieee.nan := if_neg (by simp)
  have s1 : (Ieee.inf True : Binary64) - dOne = Ieee.inf True := rfl
  have s2 : (Ieee.nan : Binary64) - dOne = Ieee.nan := rfl
  have l1 : Scalar.lt (Ieee.inf True : Binary64) Ieee.nan = false := rfl
  refine ⟨Ieee.inf True, ?_, (binary64.le_iff _ _).2 ⟨⊥, 0, by simp [Ieee.ext], binary64.zero, bot_le⟩⟩
  simp [Spec.largest, Spec.dot, List.ofFn_succ, e1, e2, a1, a2, a3, a4, s1, s2, l1]

/-- **C63** (limit). The sparse test only looks at NaN in first position: a NaN in a later constrained coordinate passes. -/
theorem C63_sparse_nan_accepted : inPolytopeK ![dOne, (Ieee.nan : Binary64)] 2 = .ok true := by
  rw [inPolytopeK_iff_passes _ (by norm_num)]
  have h1 : Scalar.lt (Ieee.nan : Binary64) dOne = false := rfl
  refine ⟨dOne, ?_, (binary64.le_iff _ _).2 ⟨0, ((1 : ℝ) : EReal), binary64.zero, rfl, by norm_num⟩⟩
  simp [Spec.smallest, List.ofFn_succ, h1]

end
end PW
