import Verif.Props.FullRunCompletes
import Verif.Props.Args
import Verif.Spec.Survivors

/-!
# C68, C69: exactly what facial reduction returns, and when
-/

namespace PW
open Classical Matrix

section
variable {glp : Glpk ℝ} {E : Eigen ℝ} {err : ℝ} {A : DMat ℝ}

/-- Directions of the reduced system are directions of the original system. -/
theorem FRInv.ker {b : Fin A.r → ℝ} {xdim : ℕ} {s : FRResult ℝ A.c} (hi : FRInv A.val b xdim s)
    (hne : (PolyFrom A.val b xdim).Nonempty) {v : Fin s.c → ℝ} (hv : v ∈ PolyFrom s.A s.b xdim)
    (hvpos : ∀ j : Fin s.c, xdim ≤ j.val → 0 < v j) (u : Fin s.c → ℝ) (hu : s.A *ᵥ u = 0) :
    A.val *ᵥ (s.V *ᵥ u) = 0 := by
  obtain ⟨t, ht, hstep⟩ : ∃ t : ℝ, 0 < t ∧ ∀ j : Fin s.c, xdim ≤ j.val → 0 ≤ v j + t * u j := by
    have hev : ∀ j : Fin s.c, ∃ t : ℝ, 0 < t ∧ ∀ s, 0 < s → s ≤ t → xdim ≤ j.val → 0 ≤ v j + s * u j := by
      intro j
      by_cases hj : xdim ≤ j.val
      · have hp := hvpos j hj
        refine ⟨v j / (|u j| + 1), by positivity, fun s hs hst _ => ?_⟩
        have h3 : s * (|u j| + 1) ≤ v j := (le_div_iff₀ (by positivity)).1 hst
        have h4 := neg_abs_le (u j)
        nlinarith
      · exact ⟨1, one_pos, fun s _ _ h => absurd h hj⟩
    choose T hT1 hT2 using hev
    by_cases hcz : s.c = 0
    · exact ⟨1, one_pos, fun j => absurd j.isLt (by omega)⟩
    · haveI : Nonempty (Fin s.c) := ⟨⟨0, by omega⟩⟩
      obtain ⟨j0, -, hj0⟩ := Finset.exists_min_image Finset.univ T ⟨⟨0, by omega⟩, Finset.mem_univ _⟩
      exact ⟨T j0, hT1 j0, fun j hj => hT2 j _ (hT1 j0) (hj0 j (Finset.mem_univ _)) hj⟩
  have hmem : (v + t • u) ∈ PolyFrom s.A s.b xdim := by
    refine ⟨?_, fun j hj => hstep j hj⟩
    rw [Matrix.mulVec_add, Matrix.mulVec_smul, hu, smul_zero, add_zero]
    exact hv.1
  have hz := (hi.sub hne _ hmem).1
  have hz0 := (hi.sub hne _ hv).1
  rw [Matrix.mulVec_add, Matrix.mulVec_smul, Matrix.mulVec_add, hz0, Matrix.mulVec_smul] at hz
  have h5 : t • (A.val *ᵥ (s.V *ᵥ u)) = 0 := by
    have := congrArg (fun w => w - b) hz
    simpa using this
  exact (smul_eq_zero.1 h5).resolve_left ht.ne'

theorem mulVec_selV {m n c : ℕ} {g : Fin c → Fin n} {V : Matrix (Fin n) (Fin c) ℝ}
    (hV : ∀ i j, V i j = if g j = i then 1 else 0) (M : Matrix (Fin m) (Fin n) ℝ) (u : Fin c → ℝ) :
    M *ᵥ (V *ᵥ u) = M.submatrix id g *ᵥ u := by
  rw [Matrix.mulVec_mulVec]
  congr 1
  ext i j
  rw [Matrix.mul_apply, Finset.sum_eq_single (g j)]
  · rw [hV, if_pos rfl, mul_one]; rfl
  · intro l _ hl
    rw [hV, if_neg (fun e => hl e.symm), mul_zero]
  · simp

theorem rank_le_of_ker_le {m r c : ℕ} {B : Matrix (Fin m) (Fin c) ℝ} {C : Matrix (Fin r) (Fin c) ℝ}
    (h : ∀ u, C *ᵥ u = 0 → B *ᵥ u = 0) : B.rank ≤ C.rank := by
  have h1 := LinearMap.finrank_range_add_finrank_ker B.mulVecLin
  have h2 := LinearMap.finrank_range_add_finrank_ker C.mulVecLin
  have h3 : LinearMap.ker C.mulVecLin ≤ LinearMap.ker B.mulVecLin := fun u hu => h u hu
  have h4 := Submodule.finrank_mono h3
  unfold Matrix.rank
  omega

theorem IndepRows.rank {m n : ℕ} {B : Matrix (Fin m) (Fin n) ℝ} (h : IndepRows B) : B.rank = m := by
  have h1 : LinearIndependent ℝ B.row := by
    rw [Fintype.linearIndependent_iff]
    intro g hg
    have : Matrix.vecMul g B = 0 := by
      rw [← hg]
      funext j
      rw [Finset.sum_apply]
      rfl
    exact fun i => congrFun (h g this) i
  simpa using LinearIndependent.rank_matrix h1

/-- The columns kept by a completed reduction of a non-empty polytope are the survivors. -/
theorem reduce_survivors (hS : FRSetting glp E err A) {b : Fin A.r → ℝ} {k : Int} {fuel : ℕ}
    {gi gi' : Int} {sparse : Bool} {out : FROutput ℝ A.c} (hne : (PolyEq A.val b k.toNat).Nonempty)
    (h : FacialReduction.reduce glp E err fuel gi A ⟨A.r, b⟩ k sparse = .ok (out, gi'))
    {g : Fin out.sparse.c → Fin A.c} (hg : StrictMono g)
    (hg1 : ∀ j, j.val < A.c - k.toNat → (g j).val = j.val)
    (hV : ∀ i j, out.sparse.V i j = if g j = i then 1 else 0) (i : Fin A.c) :
    Survives A.val b k.toNat i ↔ ∃ j, g j = i := by
  obtain ⟨hinv, -, -⟩ := reduce_inv hS h
  obtain ⟨g', hg', hV', hd⟩ := C40_dropped hS hne h
  have hgg : g' = g := by
    funext j
    have h1 := hV' (g j) j
    have h2 := hV (g j) j
    rw [if_pos rfl] at h2
    rw [h2] at h1
    by_contra hne
    rw [if_neg hne] at h1
    exact one_ne_zero h1
  rw [hgg] at hd
  by_cases hi : i.val < A.c - k.toNat
  · have hdim := hinv.dim
    exact ⟨fun _ => ⟨⟨i.val, by omega⟩, Fin.ext (hg1 _ hi)⟩, fun _ => .inl hi⟩
  · rw [hd i (by omega)]
    constructor
    · rintro (h1 | ⟨x, hx, hx0⟩)
      · exact absurd h1 hi
      · exact ⟨x, hx, lt_of_le_of_ne (hx.2 i (by omega)) (Ne.symm hx0)⟩
    · rintro ⟨x, hx, hx0⟩
      exact .inr ⟨x, hx, hx0.ne'⟩

theorem survivorRank_eq {m n c : ℕ} {M : Matrix (Fin m) (Fin n) ℝ} {b : Fin m → ℝ} {k : ℕ} {g : Fin c → Fin n}
    (hg : ∀ i, Survives M b k i ↔ ∃ j, g j = i) : survivorRank M b k = (M.submatrix id g).rank := by
  rw [Matrix.rank_eq_finrank_span_cols]
  unfold survivorRank
  have : (Set.range fun i : {i : Fin n // Survives M b k i} => M.col i) = Set.range (M.submatrix id g).col := ?_
  · rw [this]
  ext v
  constructor
  · rintro ⟨⟨i, hi⟩, rfl⟩
    obtain ⟨j, rfl⟩ := (hg i).1 hi
    exact ⟨j, rfl⟩
  · rintro ⟨j, rfl⟩
    exact ⟨⟨g j, (hg _).2 ⟨j, rfl⟩⟩, rfl⟩

theorem survivorCount_eq {m n c : ℕ} {M : Matrix (Fin m) (Fin n) ℝ} {b : Fin m → ℝ} {k : ℕ} {g : Fin c → Fin n}
    (hinj : Function.Injective g) (hg : ∀ i, Survives M b k i ↔ ∃ j, g j = i) : survivorCount M b k = c := by
  unfold survivorCount
  have e : Fin c ≃ {i : Fin n // Survives M b k i} :=
    Equiv.ofBijective (fun j => ⟨g j, (hg _).2 ⟨j, rfl⟩⟩)
      ⟨fun a b hab => hinj (congrArg Subtype.val hab), fun ⟨i, hi⟩ => by
        obtain ⟨j, rfl⟩ := (hg i).1 hi
        exact ⟨j, rfl⟩⟩
  rw [← Nat.card_congr e, Nat.card_eq_fintype_card, Fintype.card_fin]

/-- **C68**: on a non-empty polytope the returned system has exactly one column for every coordinate that is free
or does not vanish on the polytope, and as many rows as the rank of `A` on those columns. -/
theorem C68_dimensions (hS : FRSetting glp E err A) {b : Fin A.r → ℝ} {k : Int} {fuel : ℕ}
    {gi gi' : Int} {sparse : Bool} {out : FROutput ℝ A.c} (hne : (PolyEq A.val b k.toNat).Nonempty)
    (h : FacialReduction.reduce glp E err fuel gi A ⟨A.r, b⟩ k sparse = .ok (out, gi')) :
    out.sparse.c = survivorCount A.val b k.toNat ∧ out.sparse.r = survivorRank A.val b k.toNat := by
  obtain ⟨hinv, -, -⟩ := reduce_inv hS h
  obtain ⟨g, hg, hgx, hV, f, hf, hA⟩ := hinv.sel
  have hs := reduce_survivors hS hne h hg hgx hV
  refine ⟨(survivorCount_eq hg.injective hs).symm, ?_⟩
  rw [survivorRank_eq hs, ← hinv.indep.rank]
  obtain ⟨v, hv, hpos⟩ := C40_facialReduction hS hne h
  apply le_antisymm
  · have : out.sparse.A = (A.val.submatrix id g).submatrix f id := by rw [hA]; rfl
    rw [this]
    exact Matrix.rank_submatrix_le _ f id
  · refine rank_le_of_ker_le fun u hu => ?_
    rw [← mulVec_selV hV]
    exact hinv.ker hne hv hpos u hu

/-- Coordinate cones are the polytopes on whose surviving columns the matrix vanishes. -/
theorem coordCone_iff {m n : ℕ} {M : Matrix (Fin m) (Fin n) ℝ} {b : Fin m → ℝ} {k : ℕ}
    (hne : (PolyEq M b k).Nonempty) :
    CoordCone (PolyEq M b k) k ↔ ∀ i, Survives M b k i → ∀ r, M r i = 0 := by
  constructor
  · rintro ⟨Z, hZ1, hZ⟩ i hi r
    have h0 : (0 : Fin n → ℝ) ∈ PolyEq M b k := by rw [hZ]; exact ⟨fun _ _ => rfl, fun _ _ => le_rfl⟩
    have hb : b = 0 := by rw [← h0.1]; exact Matrix.mulVec_zero M
    have hiZ : i ∉ Z := by
      intro hiZ
      rcases hi with h1 | ⟨x, hx, hx0⟩
      · have := hZ1 i hiZ; omega
      · rw [hZ] at hx
        exact hx0 (hx.1 i hiZ)
    have h1 : (Pi.single i 1 : Fin n → ℝ) ∈ PolyEq M b k := by
      rw [hZ]
      refine ⟨fun j hj => ?_, fun j _ => ?_⟩
      · rw [Pi.single_eq_of_ne]
        rintro rfl
        exact hiZ hj
      · by_cases e : j = i
        · subst e; simp
        · simp [Pi.single_eq_of_ne e]
    have h2 := congrFun h1.1 r
    rw [Matrix.mulVec_single_one, hb] at h2
    exact h2
  · intro h
    have hker : ∀ x : Fin n → ℝ, (∀ i, ¬ Survives M b k i → x i = 0) → M *ᵥ x = 0 := by
      intro x hx
      funext r
      show ∑ i, M r i * x i = 0
      refine Finset.sum_eq_zero fun i _ => ?_
      by_cases hi : Survives M b k i
      · rw [h i hi r, zero_mul]
      · rw [hx i hi, mul_zero]
    have hvan : ∀ x ∈ PolyEq M b k, ∀ i, ¬ Survives M b k i → x i = 0 := by
      intro x hx i hi
      by_contra h0
      exact hi (.inr ⟨x, hx, h0⟩)
    have hb : b = 0 := by
      obtain ⟨x, hx⟩ := hne
      rw [← hx.1]
      exact hker x (hvan x hx)
    refine ⟨{i | ¬ Survives M b k i}, fun i hi => ?_, ?_⟩
    · by_contra hc
      exact hi (.inl (by omega))
    · apply Set.eq_of_subset_of_subset
      · intro x hx
        exact ⟨fun i hi => hvan x hx i hi, fun i hi => hx.2 i hi⟩
      · rintro x ⟨h1, h2⟩
        exact ⟨by rw [hb]; exact hker x h1, h2⟩

/-- **C69**: on a non-empty polytope, with `err ≤ 1` and `k` in range, facial reduction returns unless the
polytope is a coordinate cone (such as `{0}`, or all of `x ≥ 0`), and for every coordinate cone it ends in an
out-of-range access. -/
theorem C69_returns (hS : FRSetting glp E err A) (h1 : err ≤ 1) (b : Fin A.r → ℝ) {k : Int}
    (hk : 0 < k ∧ k ≤ A.c) (hne : (PolyEq A.val b k.toNat).Nonempty) {fuel : ℕ} (hf : k.toNat < fuel) (gi : Int)
    (sparse : Bool) :
    (¬ CoordCone (PolyEq A.val b k.toNat) k.toNat →
      ∃ out gi', FacialReduction.reduce glp E err fuel gi A ⟨A.r, b⟩ k sparse = .ok (out, gi')) ∧
    (CoordCone (PolyEq A.val b k.toNat) k.toNat →
      FacialReduction.reduce glp E err fuel gi A ⟨A.r, b⟩ k sparse = .ub .indexOutOfRange) := by
  rw [coordCone_iff hne]
  rcases reduce_outcome hS h1 b hk hf gi sparse with ⟨out, gi', h⟩ | ⟨hub, s', hi, hr⟩
  · refine ⟨fun _ => ⟨out, gi', h⟩, fun hc => ?_⟩
    exfalso
    obtain ⟨hinv, hr0, -⟩ := reduce_inv hS h
    obtain ⟨g, hg, hgx, hV, f, hf, hA⟩ := hinv.sel
    have hs := reduce_survivors hS hne h hg hgx hV
    have hz : out.sparse.A = 0 := by
      ext r j
      rw [hA]
      exact hc (g j) ((hs _).2 ⟨j, rfl⟩) (f r)
    have := hinv.indep (fun _ => 1) (by rw [hz]; exact Matrix.vecMul_zero _)
    have h2 := congrFun this ⟨0, Nat.pos_of_ne_zero hr0⟩
    exact one_ne_zero h2
  · refine ⟨fun hc => ?_, fun _ => hub⟩
    exfalso
    apply hc
    -- without rows every non-negative vector is in the reduced polytope
    obtain ⟨g, hg, hgx, hV, -⟩ := hi.sel
    have hall : ∀ v : Fin s'.c → ℝ, (∀ j, 0 ≤ v j) → A.val *ᵥ (s'.V *ᵥ v) = b := by
      intro v hv
      refine (hi.sub hne v ⟨?_, fun j _ => hv j⟩).1
      funext i
      exact (Fin.cast hr i).elim0
    have hb : b = 0 := by
      rw [← hall 0 fun _ => le_rfl, Matrix.mulVec_zero, Matrix.mulVec_zero]
    have hcol : ∀ j r, A.val r (g j) = 0 := by
      intro j r
      have h2 := hall (Pi.single j 1) fun l => by
        by_cases e : l = j
        · subst e; simp
        · simp [Pi.single_eq_of_ne e]
      rw [mulVec_selV hV, Matrix.mulVec_single_one, hb] at h2
      exact congrFun h2 r
    intro i hiS r
    have : ∃ j, g j = i := by
      rcases hiS with h2 | ⟨x, hx, hx0⟩
      · have hdim := hi.dim
        exact ⟨⟨i.val, by omega⟩, Fin.ext (hgx _ h2)⟩
      · obtain ⟨v, -, rfl⟩ := hi.sup x hx
        by_contra hno
        push Not at hno
        exact hx0 (selV_mulVec_off hV v i hno)
    obtain ⟨j, rfl⟩ := this
    exact hcol j r

/-! ## The two drivers -/

theorem reduce_nk {fuel : ℕ} {gi gi' : Int} {b : Fin A.r → ℝ} {k : Int} {sparse : Bool} {out : FROutput ℝ A.c}
    (h : FacialReduction.reduce glp E err fuel gi A ⟨A.r, b⟩ k sparse = .ok (out, gi')) :
    ¬ (k ≤ 0 ∨ (A.c : Int) < k) := by
  obtain ⟨h1, h2, -⟩ := reduce_ok h
  omega

/-- The surviving coordinates are the unconstrained ones and those counted by `rightK`. -/
theorem survivorCount_split (A : DMat ℝ) (b : Fin A.r → ℝ) (k : ℕ) : survivorCount A.val b k = (A.c - k) + rightK A.val b k := by
  unfold survivorCount rightK
  have e : {i : Fin A.c // Survives A.val b k i} ≃
      {i : Fin A.c // i.val < A.c - k} ⊕
      {i : Fin A.c // A.c - k ≤ i.val ∧ ∃ x ∈ PolyEq A.val b k, x i ≠ 0} := by
    refine (Equiv.subtypeEquivRight fun i => ?_).trans (subtypeOrEquiv (fun i : Fin A.c => i.val < A.c - k)
      (fun i => A.c - k ≤ i.val ∧ ∃ x ∈ PolyEq A.val b k, x i ≠ 0) ?_)
    · unfold Survives
      constructor
      · rintro (h | h)
        · exact .inl h
        · by_cases hi : i.val < A.c - k
          · exact .inl hi
          · exact .inr ⟨by omega, h⟩
      · rintro (h | h)
        · exact .inl h
        · exact .inr h.2
    · rw [Pi.disjoint_iff]
      intro i
      rw [Prop.disjoint_iff]
      rintro ⟨h2, h3, -⟩
      omega
  rw [Nat.card_congr e, Nat.card_sum]
  congr 1
  have e2 : {i : Fin A.c // i.val < A.c - k} ≃ Fin (A.c - k) :=
    ⟨fun i => ⟨i.1.val, i.2⟩, fun j => ⟨⟨j.val, by omega⟩, j.isLt⟩, fun _ => rfl, fun _ => rfl⟩
  rw [Nat.card_congr e2, Nat.card_eq_fintype_card, Fintype.card_fin]

/-- **C70**: on a non-empty polytope, for a walk that returns at least one row with the right number of columns on the problem it is handed
(as many inequalities as constrained coordinates survive, in as many variables as the polytope has dimensions), `denseFullWalkRun` returns
exactly when the polytope is not a coordinate cone and no constrained coordinate vanishes on it; in all other cases it is undefined behaviour
(never an exception or divergence). -/
theorem C70_dense (hS : FRSetting glp E err A) (h1 : err ≤ 1) {b : Fin A.r → ℝ} {k : Int}
    (hk : 0 < k ∧ k ≤ A.c) (hne : (PolyEq A.val b k.toNat).Nonempty) {walk : DenseWalk ℝ} (niter burnin thin seed : Int)
    (hwalk : ∀ (init : DVec ℝ) (M : DMat ℝ) (c : DVec ℝ), init.n = M.c → M.r = c.n → 1 ≤ M.r → M.r = rightK A.val b k.toNat →
      M.c + survivorRank A.val b k.toNat = survivorCount A.val b k.toNat →
      ∃ S, walk niter init M c burnin thin seed = .ok S ∧ S.c = M.c ∧ S.rows ≠ [])
    {fuel : ℕ} (hf : k.toNat < fuel) (gi : Int) :
    ((∃ rows, denseFullWalkRun glp E err fuel gi walk niter A ⟨A.r, b⟩ k burnin thin seed = .ok rows) ↔
      ¬ CoordCone (PolyEq A.val b k.toNat) k.toNat ∧
      ∀ i : Fin A.c, A.c - k.toNat ≤ i.val → ∃ x ∈ PolyEq A.val b k.toNat, 0 < x i) ∧
    ((∃ rows, denseFullWalkRun glp E err fuel gi walk niter A ⟨A.r, b⟩ k burnin thin seed = .ok rows) ∨
      ∃ u, denseFullWalkRun glp E err fuel gi walk niter A ⟨A.r, b⟩ k burnin thin seed = .ub u) := by
  obtain ⟨r1, r2⟩ := C69_returns hS h1 b hk hne hf gi false
  by_cases hc : CoordCone (PolyEq A.val b k.toNat) k.toNat
  · have e : denseFullWalkRun glp E err fuel gi walk niter A ⟨A.r, b⟩ k burnin thin seed =
        .ub .indexOutOfRange := by
      unfold denseFullWalkRun
      rw [if_neg (by omega), r2 hc]
      rfl
    rw [e]
    refine ⟨⟨?_, fun h => absurd hc h.1⟩, .inr ⟨_, rfl⟩⟩
    rintro ⟨rows, h⟩
    cases h
  · obtain ⟨out, gi', hr⟩ := r1 hc
    obtain ⟨hrc, hxd, hout⟩ := reduce_dense_ok hr
    have e1 : out.denseA.r = out.sparse.c - (A.c - k.toNat) := by rw [hout]
    have e2 : out.denseb.n = out.sparse.c - (A.c - k.toNat) := by rw [hout]
    have e3 : out.denseA.c = out.sparse.c - out.sparse.r := by rw [hout]
    have e4 : out.Q.r = out.sparse.c := by rw [hout]
    have e5 : out.Q.c = out.sparse.c := by rw [hout]
    have e6 : out.z1.n = out.sparse.r := by rw [hout]
    obtain ⟨hinv, -, -⟩ := reduce_inv hS hr
    obtain ⟨g, hg, hgx, hV, -⟩ := hinv.sel
    have hs := reduce_survivors hS hne hr hg hgx hV
    have hle : out.sparse.c ≤ A.c := by simpa using Fintype.card_le_of_injective g hg.injective
    -- all columns are kept iff no constrained coordinate vanishes
    have hfull : A.c ≤ out.sparse.c ↔
        ∀ i : Fin A.c, A.c - k.toNat ≤ i.val → ∃ x ∈ PolyEq A.val b k.toNat, 0 < x i := by
      constructor
      · intro hcc i hi
        have hsur : Function.Surjective g := by
          have h2 : Function.Bijective g :=
            (Fintype.bijective_iff_injective_and_card g).2 ⟨hg.injective, by simp; omega⟩
          exact h2.2
        rcases (hs i).2 (hsur i) with h2 | ⟨x, hx, hx0⟩
        · omega
        · exact ⟨x, hx, lt_of_le_of_ne (hx.2 i hi) (Ne.symm hx0)⟩
      · intro hall
        have hsur : Function.Surjective g := by
          intro i
          apply (hs i).1
          by_cases hi : i.val < A.c - k.toNat
          · exact .inl hi
          · obtain ⟨x, hx, hx0⟩ := hall i (by omega)
            exact .inr ⟨x, hx, hx0.ne'⟩
        simpa using Fintype.card_le_of_surjective g hsur
    rw [← hfull]
    have e : denseFullWalkRun glp E err fuel gi walk niter A ⟨A.r, b⟩ k burnin thin seed =
        (DenseCenter.getInitialPoint glp out.denseA out.denseb).bind fun x =>
        (walk niter ⟨_, x⟩ out.denseA out.denseb burnin thin seed).bind fun steps =>
        mapRows (denseBack out A.c) steps.rows := by
      unfold denseFullWalkRun
      rw [if_neg (by omega), hr, Out.ok_bind]
    rw [e]
    unfold DenseCenter.getInitialPoint
    by_cases hz : out.denseA.r = 0 ∨ out.denseA.r < out.denseb.n
    · rw [if_pos hz]
      refine ⟨⟨?_, fun h => ?_⟩, .inr ⟨_, rfl⟩⟩
      · rintro ⟨rows, h⟩; cases h
      · have := h.2; omega
    · rw [if_neg hz, Out.ok_bind]
      obtain ⟨hd1, hd2⟩ := C68_dimensions hS hne hr
      have hcount := survivorCount_split A b k.toNat
      obtain ⟨S, hSok, hSc, hSne⟩ := hwalk
        ⟨_, fun j => glp.solve (denseCenterLP out.denseA.val out.denseb) j.castSucc⟩
        out.denseA out.denseb rfl (by omega) (by omega) (by omega) (by omega)
      rw [hSok, Out.ok_bind]
      by_cases hcc : A.c ≤ out.sparse.c
      · obtain ⟨l, hl⟩ : ∃ l, mapRows (denseBack out A.c) S.rows = .ok l := by
          apply mapRows_ok
          intro row _
          unfold denseBack
          rw [dif_pos (by omega)]
          simp only
          rw [dif_pos (by omega)]
          exact ⟨_, rfl⟩
        rw [hl]
        exact ⟨⟨fun _ => ⟨hc, hcc⟩, fun _ => ⟨_, rfl⟩⟩, .inl ⟨_, rfl⟩⟩
      · have hub : mapRows (denseBack out A.c) S.rows = .ub .indexOutOfRange := by
          generalize S.rows = l at hSne
          cases l with
          | nil => exact absurd rfl hSne
          | cons row l =>
            show (denseBack out A.c row).bind _ = _
            unfold denseBack
            rw [dif_pos (by omega)]
            simp only
            rw [dif_neg (by omega)]
            rfl
        rw [hub]
        refine ⟨⟨?_, fun h => absurd h.2 hcc⟩, .inr ⟨_, rfl⟩⟩
        rintro ⟨rows, h⟩
        cases h

/-- **C70** for the Ball and barrier walks of the library: with the documented integers and at least one row requested, and with what the walk
needs of the dimensions of the problem it is handed, `denseFullWalkRun` returns in exactly the same cases. -/
theorem C70_library (hS : FRSetting glp E err A) (h1 : err ≤ 1) {b : Fin A.r → ℝ} {k : Int}
    (hk : 0 < k ∧ k ≤ A.c) (hne : (PolyEq A.val b k.toNat).Nonempty) (w : Walk ℝ) (hd : w.isSparse = false) (e : Env ℝ)
    (niter burnin thin seed : Int) (hg : GoodInts niter burnin thin) (h1r : thin ≤ niter - burnin)
    (hw : ∀ (init : DVec ℝ) (M : DMat ℝ) (c : DVec ℝ), 1 ≤ M.r → M.r = rightK A.val b k.toNat →
      M.c + survivorRank A.val b k.toNat = survivorCount A.val b k.toNat → w.NeedsMet ⟨niter, init, M, c, 0, burnin, thin, seed⟩)
    {fuel : ℕ} (hf : k.toNat < fuel) (gi : Int) :
    ((∃ rows, denseFullWalkRun glp E err fuel gi (w.toDense e) niter A ⟨A.r, b⟩ k burnin thin seed = .ok rows) ↔
      ¬ CoordCone (PolyEq A.val b k.toNat) k.toNat ∧
      ∀ i : Fin A.c, A.c - k.toNat ≤ i.val → ∃ x ∈ PolyEq A.val b k.toNat, 0 < x i) ∧
    ((∃ rows, denseFullWalkRun glp E err fuel gi (w.toDense e) niter A ⟨A.r, b⟩ k burnin thin seed = .ok rows) ∨
      ∃ u, denseFullWalkRun glp E err fuel gi (w.toDense e) niter A ⟨A.r, b⟩ k burnin thin seed = .ub u) := by
  refine C70_dense hS h1 hk hne niter burnin thin seed ?_ hf gi
  intro init M c h2 h3 h4 h5 h6
  obtain ⟨rows, hr⟩ := C54_returns w e ⟨niter, init, M, c, 0, burnin, thin, seed⟩ (hw init M c h4 h5 h6) hg ⟨h2, h3⟩
    (fun h => by rw [hd] at h; cases h)
  refine ⟨_, by rw [Walk.toDense, hr]; rfl, rfl, fun h0 => ?_⟩
  have hlen : (rows.length : Int) = (niter - burnin) / thin := C01_shape w e ⟨niter, init, M, c, 0, burnin, thin, seed⟩ hg rows hr
  have h0' : rows = [] := h0
  rw [h0'] at hlen
  have := Int.le_ediv_of_mul_le (a := 1) (b := niter - burnin) (c := thin) (by have := hg.thin_pos; omega) (by omega)
  simp at hlen
  omega

/-- **C71**: on a non-empty polytope `sparseFullWalkRun` consults the walk only with the parameter `handedK` (two
walks that agree for that parameter give the same result). -/
theorem C71_only_handedK (hS : FRSetting glp E err A) {b : Fin A.r → ℝ} {k : Int}
    (hne : (PolyEq A.val b k.toNat).Nonempty) {walk walk' : SparseWalk ℝ}
    (hw : ∀ niter init M c burnin thin seed, walk niter init M c (handedK A.val b k) burnin thin seed =
      walk' niter init M c (handedK A.val b k) burnin thin seed)
    (niter burnin thin seed : Int) (fuel : ℕ) (gi : Int) :
    sparseFullWalkRun glp E err fuel gi walk niter A ⟨A.r, b⟩ k burnin thin seed =
      sparseFullWalkRun glp E err fuel gi walk' niter A ⟨A.r, b⟩ k burnin thin seed := by
  unfold sparseFullWalkRun
  split
  · rfl
  · rcases hr : FacialReduction.reduce glp E err fuel gi A ⟨A.r, b⟩ k true with ⟨out, gi'⟩ | _ | _ | _
    · rw [Out.ok_bind, Out.ok_bind]
      have hd := (C68_dimensions hS hne hr).2
      have hK : ((out.sparse.r : Int) - ((A.r : Int) - k)) = handedK A.val b k := by
        unfold handedK; omega
      simp only [hK, hw]
    all_goals rfl

/-- **C71**: it throws for a valid `k` exactly when `handedK` is not in `1 … ` number of surviving columns, for
every walk that throws nothing (bounded by the cases where facial reduction itself returns). -/
theorem C71_throws_iff (hS : FRSetting glp E err A) (h1 : err ≤ 1) {b : Fin A.r → ℝ} {k : Int}
    (hk : 0 < k ∧ k ≤ A.c) (hne : (PolyEq A.val b k.toNat).Nonempty)
    (hcone : ¬ CoordCone (PolyEq A.val b k.toNat) k.toNat) {walk : SparseWalk ℝ}
    (hw : ∀ niter init M c k burnin thin seed ex, init.n = M.c → M.r = c.n → 1 ≤ k → k ≤ M.c →
      walk niter init M c k burnin thin seed ≠ .throws ex)
    (niter burnin thin seed : Int) {fuel : ℕ} (hf : k.toNat < fuel) (gi : Int) :
    (∃ ex, sparseFullWalkRun glp E err fuel gi walk niter A ⟨A.r, b⟩ k burnin thin seed = .throws ex) ↔
      ¬ (1 ≤ handedK A.val b k ∧ handedK A.val b k ≤ survivorCount A.val b k.toNat) := by
  obtain ⟨out, gi', hr⟩ := (C69_returns hS h1 b hk hne hf gi true).1 hcone
  obtain ⟨hdc, hdr⟩ := C68_dimensions hS hne hr
  have hK : ((out.sparse.r : Int) - ((A.r : Int) - k)) = handedK A.val b k := by
    unfold handedK; omega
  have e : sparseFullWalkRun glp E err fuel gi walk niter A ⟨A.r, b⟩ k burnin thin seed =
      (SparseCenter.getInitialPoint glp ⟨_, _, out.sparse.A⟩ ⟨_, out.sparse.b⟩ (handedK A.val b k)).bind fun x =>
      (walk niter ⟨_, x⟩ ⟨_, _, out.sparse.A⟩ ⟨_, out.sparse.b⟩ (handedK A.val b k) burnin thin seed).bind fun steps =>
      mapRows (sparseBack out.sparse) steps.rows := by
    unfold sparseFullWalkRun
    rw [if_neg (by omega), hr, Out.ok_bind]
    simp only [hK]
  rw [e, ← hdc]
  generalize handedK A.val b k = K
  by_cases hKr : 1 ≤ K ∧ K ≤ out.sparse.c
  · constructor
    · rintro ⟨ex, h⟩
      exfalso
      refine (Out.NoThrow.bind (f := fun x : Fin out.sparse.c → ℝ =>
        (walk niter ⟨_, x⟩ ⟨_, _, out.sparse.A⟩ ⟨_, out.sparse.b⟩ K burnin thin seed).bind fun steps =>
          mapRows (sparseBack out.sparse) steps.rows) ?_ fun x => Out.NoThrow.bind ?_ fun S => ?_).ne ex h
      · unfold SparseCenter.getInitialPoint findOptimalVector
        simp only
        rw [if_neg (by omega), if_neg (by omega)]
        split
        · exact Out.NoThrow.ub _
        · exact Out.NoThrow.ok _
      · have := fun ex => hw niter ⟨_, x⟩ ⟨_, _, out.sparse.A⟩ ⟨_, out.sparse.b⟩ K burnin thin seed ex rfl rfl
          hKr.1 (by exact hKr.2)
        revert this
        generalize walk niter ⟨_, x⟩ ⟨_, _, out.sparse.A⟩ ⟨_, out.sparse.b⟩ K burnin thin seed = o
        intro this
        rcases o with _ | ex | _ | _
        · exact Out.NoThrow.ok _
        · exact absurd rfl (this ex)
        · exact Out.NoThrow.ub _
        · exact Out.NoThrow.timeout
      · apply mapRows_noThrow
        intro row
        unfold sparseBack
        split
        · exact Out.NoThrow.ok _
        · exact Out.NoThrow.ub _
    · intro h; exact absurd hKr h
  · refine ⟨fun _ => hKr, fun _ => ⟨.badK, ?_⟩⟩
    unfold SparseCenter.getInitialPoint
    rw [if_pos (by show K ≤ 0 ∨ (out.sparse.c : Int) < K; omega)]
    rfl

/-- **C71**: the walk is told the right number of constrained coordinates exactly when facial reduction drops as
many rows as columns: `rows - rank = number of vanishing coordinates`. -/
theorem C71_right_iff (A : DMat ℝ) (b : Fin A.r → ℝ) {k : Int} (hk : 0 < k ∧ k ≤ A.c) :
    handedK A.val b k = rightK A.val b k.toNat ↔
      (A.r : Int) - survivorRank A.val b k.toNat = A.c - survivorCount A.val b k.toNat := by
  have hcount := survivorCount_split A b k.toNat
  unfold handedK
  omega

end
end PW

/-! ## Examples -/

namespace PW
open Classical Matrix

theorem not_coordCone_of_zero {n k : ℕ} {P : Set (Fin n → ℝ)} (h : (0 : Fin n → ℝ) ∉ P) : ¬ CoordCone P k := by
  rintro ⟨Z, -, hZ⟩
  apply h
  rw [hZ]
  exact ⟨fun _ _ => rfl, fun _ _ => le_rfl⟩

theorem segA_not_cone : ¬ CoordCone (PolyEq segA.val segB 2) 2 := by
  apply not_coordCone_of_zero
  intro h
  have h1 : (0 : ℝ) + 0 = 1 := (segA_mem.1 h).1
  norm_num at h1

/-- C69, C70 on the segment: the reduction and the dense driver return. -/
example : ∃ err, FRSetting exactGlpk exactEigen err segA ∧
    (∀ sparse, ∃ out gi', FacialReduction.reduce exactGlpk exactEigen err 3 0 segA ⟨_, segB⟩ 2 sparse = .ok (out, gi')) ∧
    ∃ rows, denseFullWalkRun exactGlpk exactEigen err 3 0 (fun _ _ M _ _ _ _ => .ok ⟨M.c, [fun _ => 0]⟩) 1 segA
      ⟨_, segB⟩ 2 0 1 (-1) = .ok rows := by
  obtain ⟨err, h1, hS⟩ := exists_frSetting segA
  refine ⟨err, hS, fun sparse => ?_, ?_⟩
  · exact (C69_returns hS h1 segB (k := 2) (by decide) ⟨_, segA_mid⟩ (fuel := 3) (by decide) 0 sparse).1 segA_not_cone
  · refine (C70_dense hS h1 (b := segB) (k := 2) (by decide) ⟨_, segA_mid⟩
      (walk := fun _ _ M _ _ _ _ => .ok ⟨M.c, [fun _ => 0]⟩) 1 0 1 (-1) (fun _ M _ _ _ _ _ _ => ⟨_, rfl, rfl, by simp⟩)
      (fuel := 3) (by decide) 0).1.2 ⟨segA_not_cone, fun i _ => ⟨_, segA_mid, by norm_num⟩⟩

/-- C69 on the point `{0}`: `{x ≥ 0 | x = 0}` is a coordinate cone. -/
example : CoordCone (PolyEq (1 : Matrix (Fin 1) (Fin 1) ℝ) 0 1) 1 := by
  refine (coordCone_iff ⟨0, by simp, fun _ _ => le_rfl⟩).2 ?_
  rintro i (h | ⟨x, hx, hx0⟩) r
  · simp at h
  · have h1 : x = 0 := by simpa using hx.1
    exact absurd (by rw [h1]; rfl) hx0

/-- C71 on `{x ≥ 0 | x1 + x2 + x3 = 1}` with the equation given twice: the walk is told 2 instead of 3. -/
example : handedK twiceA.val twiceB 3 = 2 ∧ rightK twiceA.val twiceB 3 = 3 := by
  have hx : (fun _ => 1 / 3 : Fin 3 → ℝ) ∈ PolyEq twiceA.val twiceB 3 :=
    twiceA_mem.2 ⟨by norm_num, fun i => by norm_num⟩
  have hsur : ∀ i : Fin 3, Survives twiceA.val twiceB 3 i := fun i => .inr ⟨_, hx, by norm_num⟩
  constructor
  · have hr : survivorRank twiceA.val twiceB 3 = 1 := by
      unfold survivorRank
      have : (Set.range fun i : {i : Fin 3 // Survives twiceA.val twiceB 3 i} => twiceA.val.col i.1) =
          {fun _ : Fin 2 => (1 : ℝ)} := by
        ext v
        constructor
        · rintro ⟨i, rfl⟩; rfl
        · intro hv
          exact ⟨⟨0, hsur 0⟩, by rw [Set.mem_singleton_iff.1 hv]; rfl⟩
      refine (congrArg (fun s => Module.finrank ℝ (Submodule.span ℝ s)) this).trans ?_
      exact finrank_span_singleton (fun h => one_ne_zero (congrFun h (0 : Fin 2)))
    unfold handedK
    rw [show ((3 : Int).toNat) = 3 from rfl, hr]
    rfl
  · unfold rightK
    have e : {i : Fin 3 // 3 - 3 ≤ i.val ∧ ∃ x ∈ PolyEq twiceA.val twiceB 3, x i ≠ 0} ≃ Fin 3 :=
      ⟨fun i => i.1, fun i => ⟨i, by simp, _, hx, by norm_num⟩, fun _ => rfl, fun _ => rfl⟩
    exact (Nat.card_congr e).trans (by simp)

end PW
