import Verif.Lemmas.FRRun
import Verif.Lemmas.ContractsSat

/-!
# Facial reduction: C39, C40, C41, C42, C43, C45

`reduce` on `{x | A x = b, last k coordinates ≥ 0}` with an exact LP solver (`Glpk.Exact`,
`Glpk.ZeroIfInfeasible`), an exact pivoted QR decomposition and a threshold `err` that separates its non-zero
pivots from zero (`Eigen.PivotGap`).
-/

namespace PW
open Classical Matrix
variable {m n : ℕ}

/-- The assumptions on the LP solver, the QR decomposition and the threshold for input matrix `A`. -/
structure FRSetting (glp : Glpk ℝ) (E : Eigen ℝ) (err : ℝ) (A : DMat ℝ) : Prop where
  lp : glp.Exact
  lp0 : glp.ZeroIfInfeasible
  qr : E.SparseQRExact
  pos : 0 < err
  gap : E.PivotGap err A.val

/-- Every input matrix has thresholds for which the assumptions hold. -/
theorem exists_frSetting (A : DMat ℝ) :
    ∃ err, err ≤ 1 ∧ FRSetting exactGlpk exactEigen err A := by
  obtain ⟨ε, h1, h2, h3⟩ := exists_pivotGap exactEigen A.val
  exact ⟨ε, h2, exactGlpk_exact, exactGlpk_zero, exactEigen_sparseQR, h1, h3 ε le_rfl⟩

theorem reduce_ok {glp : Glpk ℝ} {E : Eigen ℝ} {err : ℝ} {fuel : ℕ} {gi : Int} {A : DMat ℝ} {b : Fin A.r → ℝ}
    {k : Int} {sparse : Bool} {out : FROutput ℝ A.c} {gi' : Int}
    (h : FacialReduction.reduce glp E err fuel gi A ⟨A.r, b⟩ k sparse = .ok (out, gi')) :
    0 < k ∧ k ≤ A.c ∧ ∃ g', entireFacialReductionStep glp E err (A.c - k.toNat) fuel (A.c - k.toNat)
      (frStart E err A.val b) = .ok (out.sparse, g') ∧
      frFinish E out.sparse (A.c - k.toNat) sparse = .ok out := by
  unfold FacialReduction.reduce at h
  split at h
  · cases h
  · rename_i hk
    push Not at hk
    rw [dif_pos rfl] at h
    obtain ⟨sg, h1, h2⟩ := Out.bind_eq_ok.1 h
    obtain ⟨o, h3, h4⟩ := Out.bind_eq_ok.1 h2
    have e : o = out := congrArg Prod.fst (Out.ok.inj h4)
    subst e
    have hs : o.sparse = sg.1 := by
      unfold frFinish at h3
      split at h3
      · rw [← Out.ok.inj h3]
      · split at h3
        · split at h3
          · rw [← Out.ok.inj h3]
          · cases h3
        · cases h3
    refine ⟨by omega, by omega, sg.2, ?_, ?_⟩
    · rw [hs]; exact h1
    · rw [hs]; exact h3

section
variable {glp : Glpk ℝ} {E : Eigen ℝ} {err : ℝ} {A : DMat ℝ}

/-- The recursion as `reduce` starts it. -/
theorem run_spec (hS : FRSetting glp E err A) (b : Fin A.r → ℝ) (xdim : ℕ) (hx : xdim ≤ A.c) (fuel : ℕ) :
    (∀ s' g', entireFacialReductionStep glp E err xdim fuel xdim (frStart E err A.val b) = .ok (s', g') →
        FRInv A.val b xdim s' ∧ s'.r ≠ 0 ∧ NoCertBelow s' xdim s'.c) ∧
      entireFacialReductionStep glp E err xdim fuel xdim (frStart E err A.val b) =
        fullSearchStep glp E err xdim fuel (frStart E err A.val b) ∧
      (err ≤ 1 → A.c - xdim < fuel →
        (∃ s' g', entireFacialReductionStep glp E err xdim fuel xdim (frStart E err A.val b) = .ok (s', g')) ∨
        (entireFacialReductionStep glp E err xdim fuel xdim (frStart E err A.val b) = .ub .indexOutOfRange ∧
          ∃ s', FRInv A.val b xdim s' ∧ s'.r = 0)) :=
  step_spec hS.lp hS.lp0 hS.pos (FRInv A.val b xdim)
    (fun _ _ _ hs _ hy => FRInv.round hS.qr hS.pos hS.gap hs hy) fuel xdim (frStart E err A.val b)
    (FRInv.start hS.qr hS.pos.le hx hS.gap) le_rfl hx (fun l h1 h2 => by omega)

theorem reduce_inv (hS : FRSetting glp E err A) {b : Fin A.r → ℝ} {k : Int} {fuel : ℕ} {gi gi' : Int}
    {sparse : Bool} {out : FROutput ℝ A.c}
    (h : FacialReduction.reduce glp E err fuel gi A ⟨A.r, b⟩ k sparse = .ok (out, gi')) :
    FRInv A.val b (A.c - k.toNat) out.sparse ∧ out.sparse.r ≠ 0 ∧
      NoCertBelow out.sparse (A.c - k.toNat) out.sparse.c := by
  obtain ⟨-, -, g', h1, -⟩ := reduce_ok h
  exact (run_spec hS b _ (by omega) fuel).1 _ _ h1

/-- **C39**: for a non-empty polytope, `v ↦ saved_V v` is a bijection from the reduced polytope (first
`cols - k` coordinates free, the others non-negative) onto the original one. -/
theorem C39_facialReduction (hS : FRSetting glp E err A) {b : Fin A.r → ℝ} {k : Int} {fuel : ℕ}
    {gi gi' : Int} {sparse : Bool} {out : FROutput ℝ A.c} (hne : (PolyEq A.val b k.toNat).Nonempty)
    (h : FacialReduction.reduce glp E err fuel gi A ⟨A.r, b⟩ k sparse = .ok (out, gi')) :
    Set.BijOn (fun v => out.sparse.V *ᵥ v) (PolyFrom out.sparse.A out.sparse.b (A.c - k.toNat))
      (PolyEq A.val b k.toNat) := by
  obtain ⟨hi, -, -⟩ := reduce_inv hS h
  refine ⟨fun v hv => hi.sub hne v hv, hi.injective.injOn, fun x hx => ?_⟩
  obtain ⟨v, hv, e⟩ := hi.sup x hx
  exact ⟨v, hv, e⟩

/-- **C40**: for a non-empty polytope the reduced polytope has a point whose constrained coordinates are all
positive. -/
theorem C40_facialReduction (hS : FRSetting glp E err A) {b : Fin A.r → ℝ} {k : Int} {fuel : ℕ}
    {gi gi' : Int} {sparse : Bool} {out : FROutput ℝ A.c} (hne : (PolyEq A.val b k.toNat).Nonempty)
    (h : FacialReduction.reduce glp E err fuel gi A ⟨A.r, b⟩ k sparse = .ok (out, gi')) :
    ∃ v ∈ PolyFrom out.sparse.A out.sparse.b (A.c - k.toNat),
      ∀ j : Fin out.sparse.c, A.c - k.toNat ≤ j.val → 0 < v j := by
  obtain ⟨hi, -, hn⟩ := reduce_inv hS h
  refine strictly_feasible ?_ (fun l hl => hn l hl l.isLt)
  obtain ⟨x, hx⟩ := hne
  obtain ⟨v, hv, -⟩ := hi.sup x hx
  exact ⟨v, hv⟩

/-- The dropped coordinates are exactly those that vanish on the polytope: `saved_V` selects the free
coordinates and the constrained ones that are positive somewhere on the polytope. -/
theorem C40_dropped (hS : FRSetting glp E err A) {b : Fin A.r → ℝ} {k : Int} {fuel : ℕ}
    {gi gi' : Int} {sparse : Bool} {out : FROutput ℝ A.c} (hne : (PolyEq A.val b k.toNat).Nonempty)
    (h : FacialReduction.reduce glp E err fuel gi A ⟨A.r, b⟩ k sparse = .ok (out, gi')) :
    ∃ g : Fin out.sparse.c → Fin A.c, StrictMono g ∧
      (∀ i j, out.sparse.V i j = if g j = i then 1 else 0) ∧
      ∀ i : Fin A.c, A.c - k.toNat ≤ i.val →
        ((∃ j, g j = i) ↔ ∃ x ∈ PolyEq A.val b k.toNat, 0 < x i) := by
  have hb := C39_facialReduction hS hne h
  obtain ⟨v, hv, hpos⟩ := C40_facialReduction hS hne h
  obtain ⟨hi, -, -⟩ := reduce_inv hS h
  obtain ⟨g, hg, hg1, hV, -⟩ := hi.sel
  refine ⟨g, hg, hV, fun i hx => ⟨?_, ?_⟩⟩
  · rintro ⟨j, rfl⟩
    refine ⟨_, hb.mapsTo hv, ?_⟩
    show 0 < (out.sparse.V *ᵥ v) (g j)
    rw [selV_mulVec hg.injective hV]
    apply hpos
    by_contra hlt
    push Not at hlt
    have := hg1 j hlt
    omega
  · rintro ⟨x, hx, hxi⟩
    obtain ⟨w, -, rfl⟩ := hb.surjOn hx
    by_contra hno
    push Not at hno
    have : (out.sparse.V *ᵥ w) i = 0 := selV_mulVec_off hV w i hno
    exact (ne_of_gt hxi) this

/-! ## Termination -/

/-- A state without rows describes a non-empty polytope only if it is unbounded or `{0}`. -/
theorem no_rows {b : Fin A.r → ℝ} {xdim : ℕ} {s : FRResult ℝ A.c} (hi : FRInv A.val b xdim s)
    (hr : s.r = 0) (hne : (PolyFrom A.val b xdim).Nonempty)
    (hbd : ∃ M, ∀ x ∈ PolyFrom A.val b xdim, ∀ i, x i ≤ M) : PolyFrom A.val b xdim = {0} := by
  have hall : ∀ v : Fin s.c → ℝ, (∀ j, 0 ≤ v j) → v ∈ PolyFrom s.A s.b xdim := by
    intro v hv
    refine ⟨?_, fun j _ => hv j⟩
    funext i
    exact (Fin.cast hr i).elim0
  obtain ⟨M, hM⟩ := hbd
  obtain ⟨g, hg, -, hV, -⟩ := hi.sel
  have hc : s.c = 0 := by
    by_contra hc
    let j : Fin s.c := ⟨0, Nat.pos_of_ne_zero hc⟩
    have h1 := hi.sub hne (fun _ => |M| + 1) (hall _ fun _ => by positivity)
    have h2 := hM _ h1 (g j)
    rw [selV_mulVec hg.injective hV] at h2
    have := le_abs_self M
    linarith
  apply Set.eq_of_subset_of_subset
  · intro x hx
    obtain ⟨v, -, rfl⟩ := hi.sup x hx
    rw [Set.mem_singleton_iff]
    funext i
    exact selV_mulVec_off hV v i (fun j => (Fin.cast hc j).elim0)
  · rintro _ rfl
    obtain ⟨x, hx⟩ := hne
    obtain ⟨v, -, rfl⟩ := hi.sup x hx
    have : s.V *ᵥ v = 0 := by
      funext i
      exact selV_mulVec_off hV v i (fun j => (Fin.cast hc j).elim0)
    rw [← this]; exact hx

theorem indepRows_le {m n : ℕ} {B : Matrix (Fin m) (Fin n) ℝ} (h : IndepRows B) : m ≤ n := by
  have hinj := h.injective
  have := LinearMap.finrank_le_finrank_of_injective (f := Matrix.vecMulLinear B) hinj
  simpa using this

theorem frFinish_ok (s : FRResult ℝ n) (xdim : ℕ) (sparse : Bool) (h1 : s.r ≤ s.c) (h2 : xdim ≤ s.c) :
    ∃ out, frFinish E s xdim sparse = .ok out := by
  unfold frFinish
  split
  · exact ⟨_, rfl⟩
  · exact ⟨_, rfl⟩

/-- Outcomes of `reduce` on well-formed arguments. -/
theorem reduce_outcome (hS : FRSetting glp E err A) (h1 : err ≤ 1) (b : Fin A.r → ℝ) {k : Int}
    (hk : 0 < k ∧ k ≤ A.c) {fuel : ℕ} (hf : k.toNat < fuel) (gi : Int) (sparse : Bool) :
    (∃ out gi', FacialReduction.reduce glp E err fuel gi A ⟨A.r, b⟩ k sparse = .ok (out, gi')) ∨
    (FacialReduction.reduce glp E err fuel gi A ⟨A.r, b⟩ k sparse = .ub .indexOutOfRange ∧
      ∃ s', FRInv A.val b (A.c - k.toNat) s' ∧ s'.r = 0) := by
  have e : FacialReduction.reduce glp E err fuel gi A ⟨A.r, b⟩ k sparse =
      (entireFacialReductionStep glp E err (A.c - k.toNat) fuel (A.c - k.toNat)
        (frStart E err A.val b)).bind fun sg =>
      (frFinish E sg.1 (A.c - k.toNat) sparse).bind fun out => .ok (out, (sg.2 : Int)) := by
    unfold FacialReduction.reduce
    rw [if_neg (by omega), dif_pos rfl]
    rfl
  rw [e]
  obtain ⟨r1, -, r3⟩ := run_spec hS b (A.c - k.toNat) (by omega) fuel
  rcases r3 h1 (by omega) with ⟨s', g', hs⟩ | ⟨hs, hs'⟩
  · left
    obtain ⟨hi, -, -⟩ := r1 _ _ hs
    obtain ⟨out, ho⟩ := frFinish_ok (E := E) s' (A.c - k.toNat) sparse (indepRows_le hi.indep) hi.dim
    refine ⟨out, g', ?_⟩
    rw [hs, Out.ok_bind, ho, Out.ok_bind]
  · right
    refine ⟨?_, hs'⟩
    rw [hs]; rfl

/-- **C41 (partial)**: with a threshold `err ≤ 1`, `reduce` returns within `k + 1` rounds for every bounded
polytope that contains a non-zero point. Missing: other inputs, see `C41_zero_polytope`, `C41_large_err`. -/
theorem C41_terminates_partial (hS : FRSetting glp E err A) (h1 : err ≤ 1) (b : Fin A.r → ℝ) {k : Int}
    (hk : 0 < k ∧ k ≤ A.c) {x : Fin A.c → ℝ} (hx : x ∈ PolyEq A.val b k.toNat) (hx0 : x ≠ 0)
    (hbd : ∃ M, ∀ x ∈ PolyEq A.val b k.toNat, ∀ i, x i ≤ M)
    {fuel : ℕ} (hf : k.toNat < fuel) (gi : Int) (sparse : Bool) :
    ∃ out gi', FacialReduction.reduce glp E err fuel gi A ⟨A.r, b⟩ k sparse = .ok (out, gi') := by
  rcases reduce_outcome hS h1 b hk hf gi sparse with h | ⟨-, s', hi, hr⟩
  · exact h
  · have := no_rows hi hr ⟨x, hx⟩ hbd
    have hx' : x ∈ PolyFrom A.val b (A.c - k.toNat) := hx
    rw [this] at hx'
    exact absurd hx' hx0

/-- For `err ≤ 1` the recursion never runs for ever, whatever the input. -/
theorem C41_no_timeout (hS : FRSetting glp E err A) (h1 : err ≤ 1) (b : Fin A.r → ℝ) (k : Int)
    {fuel : ℕ} (hf : k.toNat < fuel) (gi : Int) (sparse : Bool) :
    FacialReduction.reduce glp E err fuel gi A ⟨A.r, b⟩ k sparse ≠ .timeout := by
  by_cases hk : 0 < k ∧ k ≤ A.c
  · rcases reduce_outcome hS h1 b hk hf gi sparse with ⟨o, g, h⟩ | ⟨h, -⟩ <;> rw [h] <;> simp
  · unfold FacialReduction.reduce
    rw [if_pos (by omega)]; simp

/-- **C41 fails**: if the polytope is `{0}` and all coordinates are constrained, `reduce` always ends in an
out-of-range access (`obj_vec(-1)`): the last round removes every row. -/
theorem C41_zero_polytope (hS : FRSetting glp E err A) (h1 : err ≤ 1) (b : Fin A.r → ℝ) (hc : 0 < A.c)
    (h0 : PolyEq A.val b A.c = {0}) {fuel : ℕ} (hf : A.c < fuel) (gi : Int) (sparse : Bool) :
    FacialReduction.reduce glp E err fuel gi A ⟨A.r, b⟩ A.c sparse = .ub .indexOutOfRange := by
  rcases reduce_outcome (k := A.c) hS h1 b ⟨by omega, le_rfl⟩ (by simpa using hf) gi sparse with
    ⟨out, gi', h⟩ | ⟨h, -⟩
  · exfalso
    have hne : (PolyEq A.val b (A.c : Int).toNat).Nonempty := by
      rw [Int.toNat_natCast, h0]; exact ⟨0, rfl⟩
    obtain ⟨hi, hr, -⟩ := reduce_inv hS h
    obtain ⟨v, hv, hpos⟩ := C40_facialReduction hS hne h
    have hm := (C39_facialReduction hS hne h).mapsTo hv
    rw [Int.toNat_natCast, h0, Set.mem_singleton_iff] at hm
    obtain ⟨g, hg, -, hV, -⟩ := hi.sel
    have hle := indepRows_le hi.indep
    have hc' : 0 < out.sparse.c := by omega
    have h2 := hpos ⟨0, hc'⟩ (by simp)
    have h3 := selV_mulVec hg.injective hV v ⟨0, hc'⟩
    have h4 := congrFun hm (g ⟨0, hc'⟩)
    have h5 : v ⟨0, hc'⟩ = 0 := h3.symm.trans h4
    rw [h5] at h2
    exact lt_irrefl _ h2
  · exact h

/-! ## Resuming the search -/

/-- `reduce` with every round searching from the first constrained coordinate (`global_index = x_dim` at
the start of each `findZ`). -/
noncomputable def reduceFullSearch (glp : Glpk ℝ) (E : Eigen ℝ) (err : ℝ) (fuel : ℕ) (A : DMat ℝ)
    (b : DVec ℝ) (k : Int) (sparse : Bool) : Out (FROutput ℝ A.c × Int) :=
  if k ≤ 0 ∨ (A.c : Int) < k then .throws .badK
  else if h : b.n = A.r then
    let xdim := A.c - k.toNat
    (fullSearchStep glp E err xdim fuel (frStart E err A.val (b.at h))).bind fun sg =>
    (frFinish E sg.1 xdim sparse).bind fun out => .ok (out, (sg.2 : Int))
  else .ub .sizeMismatch

/-- **C42**: for every input, resuming at the saved index gives the same outcome as a full search in every
round. -/
theorem C42_resume (hS : FRSetting glp E err A) (b : DVec ℝ) (k : Int) (fuel : ℕ) (gi : Int)
    (sparse : Bool) :
    FacialReduction.reduce glp E err fuel gi A b k sparse =
      reduceFullSearch glp E err fuel A b k sparse := by
  unfold FacialReduction.reduce reduceFullSearch
  split
  · rfl
  · split
    · rename_i hb
      have := (run_spec hS (b.at hb) (A.c - k.toNat) (by omega) fuel).2.1
      simp only [this]
    · rfl

/-! ## Rows -/

/-- **C43 (partial)**: the returned system has linearly independent rows. The second half (infeasible stays
infeasible) is false, see `C43_inconsistent`. -/
theorem C43_indepRows_partial (hS : FRSetting glp E err A) {b : Fin A.r → ℝ} {k : Int} {fuel : ℕ}
    {gi gi' : Int} {sparse : Bool} {out : FROutput ℝ A.c}
    (h : FacialReduction.reduce glp E err fuel gi A ⟨A.r, b⟩ k sparse = .ok (out, gi')) :
    IndepRows out.sparse.A := (reduce_inv hS h).1.indep

/-! ## Histories -/

/-- One call of `reduce`. -/
structure FRCall (F : Type) where
  A : DMat F
  b : DVec F
  k : Int
  sparse : Bool

/-- The value of the member `global_index` after a call (unchanged if it throws before using it). -/
def giAfter {F : Type} [Scalar F] (glp : Glpk F) (E : Eigen F) (err : F) (fuel : ℕ) (gi : Int)
    (c : FRCall F) : Int :=
  match FacialReduction.reduce glp E err fuel gi c.A c.b c.k c.sparse with
  | .ok (_, gi') => gi'
  | _ => gi

/-- **C45**: in any arithmetic, whatever calls were made before on the same object and whatever value the
uninitialised member had, a call gives the outcome of a call on any other object. -/
theorem C45_history {F : Type} [Scalar F] (glp : Glpk F) (E : Eigen F) (err : F) (fuel : ℕ) (gi0 gi1 : Int)
    (history : List (FRCall F)) (c : FRCall F) :
    FacialReduction.reduce glp E err fuel (history.foldl (giAfter glp E err fuel) gi0) c.A c.b c.k c.sparse =
      FacialReduction.reduce glp E err fuel gi1 c.A c.b c.k c.sparse := rfl

end

/-! ## Where C41 and C43 fail; examples -/

section
variable {glp : Glpk ℝ} {E : Eigen ℝ} {err : ℝ}

theorem pickP_length_le {B : Matrix (Fin m) (Fin n) ℝ} (hE : E.SparseQRExact) :
    (pickP E err B).length ≤ m := by
  obtain ⟨rk, h⟩ := hE Bᵀ
  simpa using (pickP_nodup (err := err) h.perm).length_le_card

theorem pickP_ne_nil {B : Matrix (Fin m) (Fin n) ℝ} (hE : E.SparseQRExact) (herr : 0 ≤ err)
    (hgap : GapAt E err B) {u : Fin n → ℝ} (hu : B *ᵥ u ≠ 0) : 0 < (pickP E err B).length := by
  by_contra hl
  push Not at hl
  refine hu (pickP_span hE herr hgap u ?_)
  funext i
  exact absurd i.isLt (by omega)

theorem gapAt_of_pivotGap {A : DMat ℝ} (h : E.PivotGap err A.val) : GapAt E err A.val := by
  intro i j hij
  exact h id id Function.injective_id Function.injective_id i j hij

/-- `{x | x = 1, x = 2}`: two inconsistent rows. -/
def inconsistentA : DMat ℝ := ⟨2, 1, fun _ _ => 1⟩
/-- Its right hand side. -/
def inconsistentB : Fin inconsistentA.r → ℝ := fun i => i.val + 1

theorem inconsistentA_mulVec (x : Fin 1 → ℝ) (i : Fin 2) : (inconsistentA.val *ᵥ x) i = x 0 := by
  show ∑ j : Fin 1, (1 : ℝ) * x j = _
  rw [Fin.sum_univ_one, one_mul]

/-- **C43 fails**: on the empty polytope `{x ≥ 0 | x = 1, x = 2}` `reduce` drops one of the rows and returns a
non-empty polytope. -/
theorem C43_inconsistent (hS : FRSetting glp E err inconsistentA) (h1 : err ≤ 1) (gi : Int)
    {fuel : ℕ} (hf : 1 < fuel) :
    PolyEq inconsistentA.val inconsistentB 1 = ∅ ∧
    ∃ out gi', FacialReduction.reduce glp E err fuel gi inconsistentA ⟨_, inconsistentB⟩ 1 true =
      .ok (out, gi') ∧ (PolyFrom out.sparse.A out.sparse.b 0).Nonempty := by
  have hempty : PolyEq inconsistentA.val inconsistentB 1 = ∅ := by
    rw [Set.eq_empty_iff_forall_notMem]
    rintro x ⟨hx, -⟩
    have e0 : x (0 : Fin 1) = ((0 : Fin 2).val : ℝ) + 1 := (inconsistentA_mulVec x 0).symm.trans (congrFun hx (0 : Fin 2))
    have e1 : x (0 : Fin 1) = ((1 : Fin 2).val : ℝ) + 1 := (inconsistentA_mulVec x 1).symm.trans (congrFun hx (1 : Fin 2))
    rw [e0] at e1
    norm_num at e1
  refine ⟨hempty, ?_⟩
  let I : FRResult ℝ 1 → Prop := fun s => s.c = 1 ∧ s.r = 1 ∧ (∀ i j, s.A i j = 1) ∧ ∀ i, 0 < s.b i
  -- such a state has no certificate
  have hI : ∀ (s : FRResult ℝ 1) (i : Fin s.c) (y : Fin s.r → ℝ), I s → 0 ≤ i.val →
      Certifies s.A s.b 0 i y → I (frRound E err 0 s (s.Aᵀ *ᵥ y)) := by
    rintro ⟨r, c, A, b, V⟩ i y ⟨hc, hr, hA, hb⟩ _ hy
    exfalso
    simp only at hc hr hA hb i y hy
    subst hc hr
    have e1 : y 0 = 1 := by
      have := hy.one
      simp only [Matrix.mulVec, dotProduct, Matrix.transpose_apply, Finset.univ_unique,
        Finset.sum_singleton, hA, one_mul] at this
      exact this
    have e2 := hy.orth
    simp only [dotProduct, Finset.univ_unique, Finset.sum_singleton] at e2
    have : b 0 * y 0 = 0 := e2
    rw [e1, mul_one] at this
    exact (hb 0).ne' this
  -- the start
  have hgap : GapAt E err inconsistentA.val := gapAt_of_pivotGap hS.gap
  have hstart : I (frStart E err inconsistentA.val inconsistentB) := by
    refine ⟨rfl, ?_, fun _ _ => rfl, fun i => ?_⟩
    · have h2 := indepRows_le (FRInv.start (xdim := 0) (b0 := inconsistentB) hS.qr hS.pos.le (Nat.zero_le _) hS.gap).indep
      have h3 : 0 < (pickP E err inconsistentA.val).length := by
        refine pickP_ne_nil (u := fun _ => 1) hS.qr hS.pos.le hgap ?_
        intro h0
        have := (inconsistentA_mulVec (fun _ => 1) 0).symm.trans (congrFun h0 (0 : Fin 2))
        exact one_ne_zero this
      have h4 : (pickP E err inconsistentA.val).length ≤ 1 := h2
      show (pickP E err inconsistentA.val).length = 1
      omega
    · show (0 : ℝ) < ((((pickP E err inconsistentA.val).get i : Fin 2).val : ℕ) : ℝ) + 1
      positivity
  obtain ⟨r1, -, r3⟩ := step_spec (E := E) hS.lp hS.lp0 hS.pos I hI fuel 0
    (frStart E err inconsistentA.val inconsistentB) hstart le_rfl (Nat.zero_le _)
    (fun l _ h => absurd h (Nat.not_lt_zero _))
  rcases r3 h1 hf with ⟨s', g', hs⟩ | ⟨-, s', hs', hr'⟩
  · refine ⟨⟨s', ⟨0, 0, fun _ _ => 0⟩, ⟨0, fun _ => 0⟩, ⟨0, 0, fun _ _ => 0⟩, ⟨0, fun _ => 0⟩⟩, g', ?_, ?_⟩
    · have e : FacialReduction.reduce glp E err fuel gi inconsistentA ⟨_, inconsistentB⟩ 1 true =
          (entireFacialReductionStep glp E err 0 fuel 0
            (frStart E err inconsistentA.val inconsistentB)).bind fun sg =>
          (frFinish E sg.1 0 true).bind fun out => .ok (out, (sg.2 : Int)) := rfl
      exact e.trans ((congrArg (fun o => o.bind fun sg : FRResult ℝ 1 × ℕ =>
        (frFinish E sg.1 0 true).bind fun out => Out.ok (out, (sg.2 : Int))) hs).trans rfl)
    · obtain ⟨⟨hc, hr, hA, hb⟩, -, -⟩ := r1 _ _ hs
      show (PolyFrom s'.A s'.b 0).Nonempty
      obtain ⟨r, c, A', b', V'⟩ := s'
      simp only at hc hr hA hb
      subst hc hr
      refine ⟨fun _ => b' 0, ?_, fun j _ => (hb 0).le⟩
      funext i
      simp only [Matrix.mulVec, dotProduct, Finset.univ_unique, Finset.sum_singleton, hA, one_mul]
      rw [Subsingleton.elim i 0]
  · exact absurd hr' (by rw [hs'.2.1]; exact one_ne_zero)

/-- `{x ≥ 0 | x1 + x2 = 0}`. -/
def zeroA : DMat ℝ := ⟨1, 2, fun _ _ => 1⟩

theorem zeroA_poly : PolyEq zeroA.val (fun _ => 0) zeroA.c = {0} := by
  ext x
  rw [Set.mem_singleton_iff]
  have hs : ∀ i : Fin 1, (zeroA.val *ᵥ x) i = x (0 : Fin 2) + x (1 : Fin 2) := by
    intro i
    show ∑ j : Fin 2, (1 : ℝ) * x j = _
    rw [Fin.sum_univ_two, one_mul, one_mul]
  constructor
  · rintro ⟨h1, h2⟩
    have e := (hs 0).symm.trans (congrFun h1 (0 : Fin 1))
    have p0 : 0 ≤ x (0 : Fin 2) := h2 (0 : Fin 2) (by simp)
    have p1 : 0 ≤ x (1 : Fin 2) := h2 (1 : Fin 2) (by simp)
    funext i
    show x i = 0
    have hi : i = (0 : Fin 2) ∨ i = (1 : Fin 2) := by
      have : ∀ i : Fin 2, i = 0 ∨ i = 1 := by decide
      exact this i
    rcases hi with rfl | rfl <;> linarith
  · rintro rfl
    refine ⟨?_, fun i _ => le_rfl⟩
    funext i
    exact (hs i).trans (show (0 : ℝ) + 0 = 0 from add_zero 0)

/-- The hypotheses of `C41_zero_polytope` are met by `x1 + x2 = 0`. -/
example : ∃ err, FRSetting exactGlpk exactEigen err zeroA ∧
    FacialReduction.reduce exactGlpk exactEigen err 3 0 zeroA ⟨1, fun _ => 0⟩ 2 true =
      .ub .indexOutOfRange := by
  obtain ⟨err, h1, hS⟩ := exists_frSetting zeroA
  exact ⟨err, hS, C41_zero_polytope hS h1 _ (by decide) zeroA_poly (by decide) 0 true⟩

/-! ### A threshold above 1 -/

/-- A state `x1 + x2 = 0`. -/
def OnesState {d : ℕ} (s : FRResult ℝ d) : Prop :=
  s.c = 2 ∧ s.r = 1 ∧ (∀ i j, s.A i j = 1) ∧ ∀ i, s.b i = 0

/-- The pivot of a row of two ones is `±√2`. -/
theorem ones_gap (hE : E.SparseQRExact) (h2 : err * err < 2) {B : Matrix (Fin 1) (Fin 2) ℝ}
    (hB : ∀ i j, B i j = 1) : GapAt E err B := by
  intro i j hij _
  obtain ⟨rk, h⟩ := hE Bᵀ
  obtain rfl : j = 0 := Subsingleton.elim _ _
  obtain rfl : i = 0 := Fin.ext hij
  have hR1 : (E.sparseQR Bᵀ).R 1 0 = 0 := h.upper 1 0 (by simp)
  have hperm : ∀ j, (E.sparseQR Bᵀ).perm j = 0 := fun j => Subsingleton.elim _ _
  have hM : ∀ i : Fin 2, ((E.sparseQR Bᵀ).Q * (E.sparseQR Bᵀ).R) i 0 = 1 := by
    intro i
    rw [← h.mul_eq, Matrix.transpose_apply, hB]
  have hq : ∀ i : Fin 2, (E.sparseQR Bᵀ).Q i 0 * (E.sparseQR Bᵀ).R 0 0 = 1 := by
    intro i
    have := hM i
    rw [Matrix.mul_apply, Fin.sum_univ_two, hR1, mul_zero, add_zero] at this
    exact this
  have horth : (E.sparseQR Bᵀ).Q 0 0 * (E.sparseQR Bᵀ).Q 0 0 +
      (E.sparseQR Bᵀ).Q 1 0 * (E.sparseQR Bᵀ).Q 1 0 = 1 := by
    have := congrFun (congrFun h.orth 0) 0
    rw [Matrix.mul_apply, Fin.sum_univ_two] at this
    simpa [Matrix.transpose_apply] using this
  have hsq : (E.sparseQR Bᵀ).R 0 0 * (E.sparseQR Bᵀ).R 0 0 = 2 := by
    have a := hq 0
    have b := hq 1
    calc _ = ((E.sparseQR Bᵀ).Q 0 0 * (E.sparseQR Bᵀ).Q 0 0 +
        (E.sparseQR Bᵀ).Q 1 0 * (E.sparseQR Bᵀ).Q 1 0) *
          ((E.sparseQR Bᵀ).R 0 0 * (E.sparseQR Bᵀ).R 0 0) := by rw [horth, one_mul]
      _ = ((E.sparseQR Bᵀ).Q 0 0 * (E.sparseQR Bᵀ).R 0 0) * ((E.sparseQR Bᵀ).Q 0 0 * (E.sparseQR Bᵀ).R 0 0) +
          ((E.sparseQR Bᵀ).Q 1 0 * (E.sparseQR Bᵀ).R 0 0) * ((E.sparseQR Bᵀ).Q 1 0 * (E.sparseQR Bᵀ).R 0 0) := by ring
      _ = 2 := by rw [a, b]; norm_num
  by_contra hle
  push Not at hle
  have h3 := abs_nonneg ((E.sparseQR Bᵀ).R 0 0)
  have h4 : |(E.sparseQR Bᵀ).R 0 0| * |(E.sparseQR Bᵀ).R 0 0| ≤ err * err :=
    mul_le_mul hle hle h3 (le_trans h3 hle)
  rw [abs_mul_abs_self, hsq] at h4
  linarith

theorem ones_rows {d : ℕ} (hE : E.SparseQRExact) (h0 : 0 ≤ err) (h2 : err * err < 2) {s : FRResult ℝ d}
    (hs : OnesState s) : OnesState (s.selectRows (pickP E err s.A)) := by
  obtain ⟨hc, hr, hA, hb⟩ := hs
  refine ⟨hc, ?_, fun _ _ => hA _ _, fun _ => hb _⟩
  obtain ⟨r, c, A, b, V⟩ := s
  simp only at hc hr hA hb
  subst hc hr
  show (pickP E err A).length = 1
  have h3 : (pickP E err A).length ≤ 1 := pickP_length_le hE
  have h4 : 0 < (pickP E err A).length := by
    refine pickP_ne_nil (u := fun _ => 1) hE h0 (ones_gap hE h2 hA) ?_
    intro h
    have := congrFun h 0
    simp only [Matrix.mulVec, dotProduct, hA, Fin.sum_univ_two, Pi.zero_apply] at this
    norm_num at this
  omega

theorem ones_timeout {d : ℕ} (hg : glp.Exact) (hz : glp.ZeroIfInfeasible) (hE : E.SparseQRExact)
    (h1 : 1 < err) (h2 : err * err < 2) :
    ∀ (fuel : ℕ) (s : FRResult ℝ d), OnesState s →
      entireFacialReductionStep glp E err 0 fuel 0 s = .timeout := by
  intro fuel
  induction fuel with
  | zero => intro s _; rfl
  | succ fuel ih =>
    intro s hs
    have hs' := hs
    obtain ⟨hc, hr, hA, hb⟩ := hs
    have hcert : ∀ i : Fin s.c, Certifies s.A s.b 0 i fun _ => 1 := by
      obtain ⟨r, c, A, b, V⟩ := s
      simp only at hc hr hA hb
      subst hc hr
      intro i
      have e : ∀ j, (Aᵀ *ᵥ fun _ => (1 : ℝ)) j = 1 := by
        intro j
        simp [Matrix.mulVec, dotProduct, Matrix.transpose_apply, hA]
      exact ⟨fun j hj => absurd hj (Nat.not_lt_zero _), fun j _ => by rw [e]; exact zero_le_one, e i,
        by simp [dotProduct, hb]⟩
    rcases findZ_cases (xdim := 0) hg hz (s := s) (gi := 0) le_rfl (Nat.zero_le _) (by omega)
      (fun l _ h => absurd h (Nat.not_lt_zero _)) with ⟨j, y, -, hy, hno, he⟩ | ⟨hno, -⟩
    · have hj : j.val = 0 := by
        by_contra hj
        exact hno ⟨0, by omega⟩ (Nat.zero_le _) (Nat.pos_of_ne_zero hj) ⟨_, hcert _⟩
      have hz1 : ∀ a, (s.Aᵀ *ᵥ y) a = 1 := by
        intro a
        have e : ∀ a, (s.Aᵀ *ᵥ y) a = ∑ t, y t := by
          intro a; simp [Matrix.mulVec, dotProduct, Matrix.transpose_apply, hA]
        rw [e, ← e j, hy.one]
      have e1 : entireFacialReductionStep glp E err 0 (fuel + 1) 0 s =
          entireFacialReductionStep glp E err 0 fuel 0 (frRound E err 0 s (s.Aᵀ *ᵥ y)) := by
        show (findZ glp 0 s.A s.b 0).bind _ = _
        rw [he, hj]; rfl
      rw [e1]
      apply ih
      have hall : pickV err (s.Aᵀ *ᵥ y) 0 = List.finRange s.c := by
        unfold pickV
        rw [List.filter_eq_self]
        intro a _
        simp [hz1, h1]
      refine ones_rows (s := s.selectCols (pickV err (s.Aᵀ *ᵥ y) 0)) hE (by linarith) h2
        ⟨?_, hr, fun _ _ => hA _ _, hb⟩
      show (pickV err (s.Aᵀ *ᵥ y) 0).length = 2
      rw [hall, List.length_finRange, hc]
    · exact absurd ⟨_, hcert ⟨0, by omega⟩⟩ (hno ⟨0, by omega⟩ (Nat.zero_le _) (by simp; omega))

/-- **C41 fails for thresholds above 1**: a certified coordinate has `z_i = 1`, which is not above the
threshold, so nothing is removed and the recursion never ends. -/
theorem C41_large_err (hg : glp.Exact) (hz : glp.ZeroIfInfeasible) (hE : E.SparseQRExact)
    (h1 : 1 < err) (h2 : err * err < 2) (fuel : ℕ) (gi : Int) (sparse : Bool) :
    FacialReduction.reduce glp E err fuel gi zeroA ⟨1, fun _ => 0⟩ 2 sparse = .timeout := by
  have e : FacialReduction.reduce glp E err fuel gi zeroA ⟨1, fun _ => 0⟩ 2 sparse =
      (entireFacialReductionStep glp E err 0 fuel 0 (frStart E err zeroA.val fun _ => 0)).bind fun sg =>
      (frFinish E sg.1 0 sparse).bind fun out => .ok (out, (sg.2 : Int)) := rfl
  rw [e, ones_timeout hg hz hE h1 h2]
  · rfl
  · exact ones_rows (s := ⟨1, 2, zeroA.val, fun _ => 0, fun i j => if i = j then 1 else 0⟩) hE
      (by linarith) h2 ⟨rfl, rfl, fun _ _ => rfl, fun _ => rfl⟩

/-! ### An input for which the theorems apply -/

/-- `{x ≥ 0 | x1 + x2 = 1, x3 = 0}`: a segment inside a face. -/
def faceA : DMat ℝ := ⟨2, 3, !![1, 1, 0; 0, 0, 1]⟩
/-- Its right hand side. -/
def faceB : Fin faceA.r → ℝ := ![1, 0]

theorem faceA_mem {x : Fin 3 → ℝ} : x ∈ PolyEq faceA.val faceB 3 ↔
    x 0 + x 1 = 1 ∧ x 2 = 0 ∧ 0 ≤ x 0 ∧ 0 ≤ x 1 := by
  have hs : ∀ i : Fin 2, (faceA.val *ᵥ x) i = ![x 0 + x 1, x 2] i := by
    intro i
    show (!![1, 1, 0; 0, 0, 1] *ᵥ x) i = _
    fin_cases i <;> simp [Matrix.mulVec, dotProduct, Fin.sum_univ_three]
  constructor
  · rintro ⟨h1, h2⟩
    have e0 := (hs 0).symm.trans (congrFun h1 (0 : Fin 2))
    have e1 := (hs 1).symm.trans (congrFun h1 (1 : Fin 2))
    exact ⟨by simpa [faceB] using e0, by simpa [faceB] using e1, h2 (0 : Fin 3) (by decide),
      h2 (1 : Fin 3) (by decide)⟩
  · rintro ⟨h1, h2, h3, h4⟩
    refine ⟨?_, ?_⟩
    · funext i
      refine (hs i).trans ?_
      have : ∀ i : Fin 2, ![x 0 + x 1, x 2] i = (![1, 0] : Fin 2 → ℝ) i := by
        intro i; fin_cases i <;> simp [h1, h2]
      exact this i
    · intro i _
      have : ∀ i : Fin 3, 0 ≤ x i := by intro i; fin_cases i <;> simp [*]
      exact this i

theorem face_reduce : ∃ err out gi', FRSetting exactGlpk exactEigen err faceA ∧
    (PolyEq faceA.val faceB 3).Nonempty ∧
    FacialReduction.reduce exactGlpk exactEigen err 4 0 faceA ⟨_, faceB⟩ 3 false = .ok (out, gi') := by
  obtain ⟨err, h1, hS⟩ := exists_frSetting faceA
  have hx : (![1, 0, 0] : Fin 3 → ℝ) ∈ PolyEq faceA.val faceB 3 := by
    rw [faceA_mem]; simp
  obtain ⟨out, gi', h⟩ := C41_terminates_partial hS h1 faceB (k := 3) (by decide) hx
    (fun h => one_ne_zero (α := ℝ) (congrFun h (0 : Fin 3)))
    ⟨1, by
      intro x hx i
      have hx' := faceA_mem.1 hx
      have : ∀ i : Fin 3, x i ≤ 1 := by
        intro i; fin_cases i
        · show x (0 : Fin 3) ≤ 1; linarith [hx'.2.2.2, hx'.1]
        · show x (1 : Fin 3) ≤ 1; linarith [hx'.2.2.1, hx'.1]
        · show x (2 : Fin 3) ≤ 1; linarith [hx'.2.1]
      exact this i⟩
    (fuel := 4) (by decide) 0 false
  exact ⟨err, out, gi', hS, ⟨_, hx⟩, h⟩

/-- C39, C40 and C43 on it; the third coordinate, and only it, is dropped. -/
example : ∃ out : FROutput ℝ 3, (∃ err gi', FacialReduction.reduce exactGlpk exactEigen err 4 0 faceA
      ⟨_, faceB⟩ 3 false = .ok (out, gi')) ∧ IndepRows out.sparse.A ∧
    Set.BijOn (fun v => out.sparse.V *ᵥ v) (PolyFrom out.sparse.A out.sparse.b 0)
      (PolyEq faceA.val faceB 3) ∧
    (∃ v ∈ PolyFrom out.sparse.A out.sparse.b 0, ∀ j : Fin out.sparse.c, 0 ≤ j.val → 0 < v j) ∧
    ∃ g : Fin out.sparse.c → Fin 3, StrictMono g ∧ ∀ i : Fin 3, (∃ j, g j = i) ↔ i ≠ 2 := by
  obtain ⟨err, out, gi', hS, hne, h⟩ := face_reduce
  refine ⟨out, ⟨err, gi', h⟩, C43_indepRows_partial hS h, C39_facialReduction hS hne h,
    C40_facialReduction hS hne h, ?_⟩
  obtain ⟨g, hg, -, hd⟩ := C40_dropped hS hne h
  refine ⟨g, hg, fun i => ?_⟩
  have hd' : (∃ j, g j = i) ↔ ∃ x ∈ PolyEq faceA.val faceB 3, 0 < x i := hd i (Nat.zero_le _)
  refine hd'.trans ?_
  constructor
  · rintro ⟨x, hx, hpos⟩ rfl
    have := (faceA_mem.1 hx).2.1
    exact hpos.ne' this
  · intro hi
    refine ⟨![1/2, 1/2, 0], faceA_mem.2 (by norm_num [Matrix.cons_val_two, Matrix.tail_cons]), ?_⟩
    have : ∀ i : Fin 3, i ≠ 2 → 0 < (![1/2, 1/2, 0] : Fin 3 → ℝ) i := by
      intro i; fin_cases i <;> simp
    exact this i hi
end
end PW
