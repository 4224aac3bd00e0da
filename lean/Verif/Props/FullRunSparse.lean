import Verif.Props.FullRun

/-!
# `sparseFullWalkRun` (C49), completion of `denseFullWalkRun` (C52), LP solver assumptions (C51)
-/

namespace PW
open Classical Matrix

section
variable {glp : Glpk ℝ} {E : Eigen ℝ} {err : ℝ} {A : DMat ℝ}

/-- **C49 (partial)**: if facial reduction removes as many rows as columns, `sparseFullWalkRun` hands the walk
the reduced polytope with exactly the remaining constrained coordinates, and for a walk that stays in its
polytope every returned row is in the original polytope. Missing: other inputs, for which the claim is false,
see `C49_redundant_row`, `C49_valid_k_rejected`. -/
theorem C49_sparse_partial (hS : FRSetting glp E err A) {b : Fin A.r → ℝ} {k : Int}
    (hne : (PolyEq A.val b k.toNat).Nonempty) {walk : SparseWalk ℝ}
    (hw : walk.StaysInside) {niter burnin thin seed : Int} (hi : SaneInts niter burnin thin) {fuel : ℕ}
    {gi : Int} {rows : List (Fin A.c → ℝ)}
    (h : sparseFullWalkRun glp E err fuel gi walk niter A ⟨A.r, b⟩ k burnin thin seed = .ok rows)
    (hdrop : ∀ out gi', FacialReduction.reduce glp E err fuel gi A ⟨A.r, b⟩ k true = .ok (out, gi') →
      (A.r : Int) - out.sparse.r = A.c - out.sparse.c) :
    (∀ x ∈ rows, x ∈ PolyEq A.val b k.toNat) ∧
    ∃ out gi' S, ∃ x : Fin out.sparse.c → ℝ,
      FacialReduction.reduce glp E err fuel gi A ⟨A.r, b⟩ k true = .ok (out, gi') ∧
      walk niter ⟨_, x⟩ ⟨_, _, out.sparse.A⟩ ⟨_, out.sparse.b⟩
        ((out.sparse.c - (A.c - k.toNat) : ℕ) : Int) burnin thin seed = .ok S := by
  unfold sparseFullWalkRun at h
  split at h
  · cases h
  rename_i hk
  push Not at hk
  obtain ⟨⟨out, gi'⟩, h1, h⟩ := Out.bind_eq_ok.1 h
  obtain ⟨x, h2, h⟩ := Out.bind_eq_ok.1 h
  obtain ⟨S, h3, h⟩ := Out.bind_eq_ok.1 h
  have hd := hdrop out gi' h1
  obtain ⟨hinv, -, -⟩ := reduce_inv hS h1
  have hdim := hinv.dim
  have hbij := C39_facialReduction hS hne h1
  simp only at h2 h3 h x
  generalize hK : ((out.sparse.r : Int) - ((A.r : Int) - k)) = K at h2 h3
  have hK' : K = ((out.sparse.c - (A.c - k.toNat) : ℕ) : Int) := by omega
  subst hK'
  generalize hk' : out.sparse.c - (A.c - k.toNat) = k' at *
  have hpoly : PolyEq out.sparse.A out.sparse.b k' = PolyFrom out.sparse.A out.sparse.b (A.c - k.toNat) := by
    rw [polyEq_eq_polyFrom]
    congr 1
    omega
  have hk1 : 1 ≤ k' := by
    by_contra hc
    unfold SparseCenter.getInitialPoint at h2
    rw [if_pos (Or.inl (by omega))] at h2
    cases h2
  have hrne : (PolyEq out.sparse.A out.sparse.b k').Nonempty := by
    rw [hpoly]
    obtain ⟨x0, hx0⟩ := hne
    obtain ⟨v, hv, -⟩ := hbij.surjOn hx0
    exact ⟨v, hv⟩
  have hx : x ∈ PolyEq out.sparse.A out.sparse.b k' := by
    obtain ⟨x', h2', hx', -⟩ := C47_sparseCenter glp hS.lp ⟨_, _, out.sparse.A⟩ out.sparse.b k' hk1
      (by show k' ≤ out.sparse.c; omega) hrne
    rw [h2] at h2'
    cases h2'
    exact hx'
  refine ⟨?_, out, gi', S, x, h1, by rw [hk']; exact h3⟩
  obtain ⟨hSc, hrows⟩ := hw niter burnin thin seed ⟨_, _, out.sparse.A⟩ out.sparse.b k' x S hi (by omega)
    (by show (k' : Int) ≤ (out.sparse.c : Int); omega) hinv.indep (by simpa using hx) h3
  intro p hp
  obtain ⟨row, hrow, hback⟩ := mapRows_mem h p hp
  have hy := hrows row hrow
  rw [Int.toNat_natCast] at hy
  have hy' : (row ∘ Fin.cast hSc) ∈ PolyFrom out.sparse.A out.sparse.b (A.c - k.toNat) := by
    rw [← hpoly]; exact hy
  have hz := hbij.mapsTo hy'
  unfold sparseBack at hback
  rw [dif_pos hSc] at hback
  have e := Out.ok.inj hback
  rw [mulVec_real] at e
  rw [← e]
  exact hz

/-! ### When rows and columns are dropped equally -/

/-- If `B u = 0` implies `A u = 0` and the rows of `A` are independent, `B` has at least as many rows. -/
theorem rows_le_of_ker {m r n : ℕ} {B : Matrix (Fin r) (Fin n) ℝ} {M : Matrix (Fin m) (Fin n) ℝ}
    (hM : IndepRows M) (hker : ∀ u, B *ᵥ u = 0 → M *ᵥ u = 0) : m ≤ r := by
  have hdet := PosDef.isUnit_det hM.posDef
  -- `w ↦ B Mᵀ w` is injective
  have hinj : Function.Injective (B * Mᵀ).mulVecLin := by
    rw [← LinearMap.ker_eq_bot, LinearMap.ker_eq_bot']
    intro w hw
    have h1 : B *ᵥ (Mᵀ *ᵥ w) = 0 := by rw [Matrix.mulVec_mulVec]; exact hw
    have h2 := hker _ h1
    rw [Matrix.mulVec_mulVec] at h2
    have h3 := congrArg (fun v => (M * Mᵀ)⁻¹ *ᵥ v) h2
    simpa [Matrix.mulVec_mulVec, Matrix.nonsing_inv_mul _ hdet] using h3
  have := LinearMap.finrank_le_finrank_of_injective hinj
  simpa using this

/-- With a strictly feasible point nothing is dropped but dependent rows; with independent rows nothing at
all. -/
theorem reduce_keeps (hS : FRSetting glp E err A) {b : Fin A.r → ℝ} {k : Int} {x : Fin A.c → ℝ}
    (hx : x ∈ PolyEq A.val b k.toNat) (hpos : x ∈ TailPos A.c k.toNat) {fuel : ℕ} {gi gi' : Int}
    {sparse : Bool} {out : FROutput ℝ A.c}
    (h : FacialReduction.reduce glp E err fuel gi A ⟨A.r, b⟩ k sparse = .ok (out, gi')) :
    out.sparse.c = A.c ∧ (IndepRows A.val → out.sparse.r = A.r) := by
  have hne : (PolyEq A.val b k.toNat).Nonempty := ⟨x, hx⟩
  have hbij := C39_facialReduction hS hne h
  obtain ⟨hinv, -, -⟩ := reduce_inv hS h
  obtain ⟨g', hg', hV', hd⟩ := C40_dropped hS hne h
  obtain ⟨g, hg, hgx, hV, f, hf, hA⟩ := hinv.sel
  have hgg : g' = g := by
    funext j
    have h1 := hV' (g j) j
    have h2 := hV (g j) j
    rw [if_pos rfl] at h2
    rw [h2] at h1
    by_contra hne
    rw [if_neg hne] at h1
    exact one_ne_zero h1
  rw [hgg] at hd
  have hsurj : Function.Surjective g := by
    intro i
    by_cases hi : i.val < A.c - k.toNat
    · have hdim := hinv.dim
      exact ⟨⟨i.val, by omega⟩, Fin.ext (hgx _ hi)⟩
    · exact (hd i (by omega)).2 ⟨x, hx, hpos i (by omega)⟩
  have h1 : out.sparse.c ≤ A.c := by simpa using Fintype.card_le_of_injective g hg.injective
  have h2 : A.c ≤ out.sparse.c := by simpa using Fintype.card_le_of_surjective g hsurj
  have hc : out.sparse.c = A.c := le_antisymm h1 h2
  refine ⟨hc, fun hInd => le_antisymm (by simpa using Fintype.card_le_of_injective f hf) ?_⟩
  have hinj : Function.Bijective g := ⟨hg.injective, hsurj⟩
  -- directions of the reduced system are directions of the original one
  obtain ⟨v, hv, hvx⟩ := hbij.surjOn hx
  have hvpos : ∀ j : Fin out.sparse.c, A.c - k.toNat ≤ j.val → 0 < v j := by
    intro j hj
    have e : (out.sparse.V *ᵥ v) (g j) = v j := selV_mulVec hg.injective hV v j
    rw [← e]
    have hvx' : out.sparse.V *ᵥ v = x := hvx
    rw [hvx']
    apply hpos
    rw [strictMono_id hg h2]
    exact hj
  refine rows_le_of_ker (B := out.sparse.A.submatrix id (Fin.cast hc.symm)) hInd fun u hu => ?_
  let u' : Fin out.sparse.c → ℝ := fun j => u (Fin.cast hc j)
  have hu' : out.sparse.A *ᵥ u' = 0 := by
    funext i
    refine Eq.trans ?_ (congrFun hu i)
    show ∑ j, out.sparse.A i j * u (Fin.cast hc j) = ∑ j, out.sparse.A i (Fin.cast hc.symm j) * u j
    exact Fintype.sum_equiv (finCongr hc) _ _ fun j => rfl
  -- a small step along `u'`
  obtain ⟨t, ht, hstep⟩ : ∃ t : ℝ, 0 < t ∧ ∀ j : Fin out.sparse.c, A.c - k.toNat ≤ j.val →
      0 ≤ v j + t * u' j := by
    have hev : ∀ j : Fin out.sparse.c, ∃ t : ℝ, 0 < t ∧ ∀ s, 0 < s → s ≤ t → A.c - k.toNat ≤ j.val →
        0 ≤ v j + s * u' j := by
      intro j
      by_cases hj : A.c - k.toNat ≤ j.val
      · have hp := hvpos j hj
        refine ⟨v j / (|u' j| + 1), by positivity, fun s hs hst _ => ?_⟩
        have h3 : s * (|u' j| + 1) ≤ v j := (le_div_iff₀ (by positivity)).1 hst
        have h4 := neg_abs_le (u' j)
        nlinarith
      · exact ⟨1, one_pos, fun s _ _ h => absurd h hj⟩
    choose T hT1 hT2 using hev
    by_cases hcz : out.sparse.c = 0
    · exact ⟨1, one_pos, fun j => absurd j.isLt (by omega)⟩
    · haveI : Nonempty (Fin out.sparse.c) := ⟨⟨0, by omega⟩⟩
      obtain ⟨j0, -, hj0⟩ := Finset.exists_min_image Finset.univ T ⟨⟨0, by omega⟩, Finset.mem_univ _⟩
      exact ⟨T j0, hT1 j0, fun j hj => hT2 j _ (hT1 j0) (hj0 j (Finset.mem_univ _)) hj⟩
  have hmem : (v + t • u') ∈ PolyFrom out.sparse.A out.sparse.b (A.c - k.toNat) := by
    refine ⟨?_, fun j hj => hstep j hj⟩
    rw [Matrix.mulVec_add, Matrix.mulVec_smul, hu', smul_zero, add_zero]
    exact hv.1
  have hz := (hbij.mapsTo hmem).1
  have hz0 := hx.1
  have hVu : out.sparse.V *ᵥ u' = u := by
    funext i
    obtain ⟨j, rfl⟩ := hsurj i
    rw [selV_mulVec hg.injective hV]
    show u (Fin.cast hc j) = u (g j)
    congr 1
    apply Fin.ext
    rw [strictMono_id hg h2]
    rfl
  have e : out.sparse.V *ᵥ (v + t • u') = x + t • u := by
    have hvx' : out.sparse.V *ᵥ v = x := hvx
    rw [Matrix.mulVec_add, Matrix.mulVec_smul, hvx', hVu]
  have hz' : A.val *ᵥ (x + t • u) = b := by rw [← e]; exact hz
  have hz0' : A.val *ᵥ x = b := hz0
  rw [Matrix.mulVec_add, Matrix.mulVec_smul, hz0'] at hz'
  have h5 : t • (A.val *ᵥ u) = 0 := by
    have := congrArg (fun w => w - b) hz'
    simpa using this
  exact (smul_eq_zero.1 h5).resolve_left ht.ne'

/-- **C49**, the regular case: independent rows and a strictly feasible point. -/
theorem C49_regular (hS : FRSetting glp E err A) {b : Fin A.r → ℝ} {k : Int} (hA : IndepRows A.val)
    {x : Fin A.c → ℝ} (hx : x ∈ PolyEq A.val b k.toNat) (hpos : x ∈ TailPos A.c k.toNat)
    {walk : SparseWalk ℝ} (hw : walk.StaysInside) {niter burnin thin seed : Int}
    (hi : SaneInts niter burnin thin) {fuel : ℕ} {gi : Int} {rows : List (Fin A.c → ℝ)}
    (h : sparseFullWalkRun glp E err fuel gi walk niter A ⟨A.r, b⟩ k burnin thin seed = .ok rows) :
    ∀ x ∈ rows, x ∈ PolyEq A.val b k.toNat := by
  refine (C49_sparse_partial hS ⟨x, hx⟩ hw hi h fun out gi' hr => ?_).1
  obtain ⟨h1, h2⟩ := reduce_keeps hS hx hpos hr
  rw [h1, h2 hA]
  ring

/-! ## C52: completion -/

/-- **C52 fails**: if some constrained coordinate vanishes on the whole polytope, `denseFullWalkRun` is
undefined behaviour for every walk that returns at least one row on the problem it is handed (bounded polytopes with a non-zero point,
so that facial reduction itself returns). -/
theorem C52_face_crash (hS : FRSetting glp E err A) (h1 : err ≤ 1) {b : Fin A.r → ℝ} {k : Int}
    (hk : 0 < k ∧ k ≤ A.c) {x : Fin A.c → ℝ} (hx : x ∈ PolyEq A.val b k.toNat) (hx0 : x ≠ 0)
    (hbd : ∃ M, ∀ x ∈ PolyEq A.val b k.toNat, ∀ i, x i ≤ M) {i : Fin A.c} (hi : A.c - k.toNat ≤ i.val)
    (hvan : ∀ x ∈ PolyEq A.val b k.toNat, x i = 0) {walk : DenseWalk ℝ} (niter burnin thin seed : Int)
    (hwalk : ∀ (init : DVec ℝ) (M : DMat ℝ) (c : DVec ℝ), init.n = M.c → M.r = c.n → 1 ≤ M.r → (M.r : Int) ≤ k → M.c ≤ A.c →
      ∃ S, walk niter init M c burnin thin seed = .ok S ∧ S.rows ≠ [])
    {fuel : ℕ} (hf : k.toNat < fuel) (gi : Int) :
    ∃ u, denseFullWalkRun glp E err fuel gi walk niter A ⟨A.r, b⟩ k burnin thin seed = .ub u := by
  obtain ⟨out, gi', hr⟩ := C41_terminates_partial hS h1 b hk hx hx0 hbd hf gi false
  have hno : ∀ rows, denseFullWalkRun glp E err fuel gi walk niter A ⟨A.r, b⟩ k burnin thin seed = .ok rows →
      rows = [] := fun rows h => C48_face_no_rows hS ⟨x, hx⟩ hi hvan h
  have e : denseFullWalkRun glp E err fuel gi walk niter A ⟨A.r, b⟩ k burnin thin seed =
      (DenseCenter.getInitialPoint glp out.denseA out.denseb).bind fun x =>
      (walk niter ⟨_, x⟩ out.denseA out.denseb burnin thin seed).bind fun steps =>
      mapRows (denseBack out A.c) steps.rows := by
    unfold denseFullWalkRun
    rw [if_neg (by omega), hr, Out.ok_bind]
  rw [e] at hno ⊢
  unfold DenseCenter.getInitialPoint at hno ⊢
  split at hno
  · rename_i hc
    rw [if_pos hc]
    exact ⟨_, rfl⟩
  · rename_i hc
    rw [if_neg hc, Out.ok_bind] at *
    obtain ⟨hrc, hxd, hout⟩ := reduce_dense_ok hr
    have e1 : out.denseA.r = out.sparse.c - (A.c - k.toNat) := by rw [hout]
    have e2 : out.denseb.n = out.sparse.c - (A.c - k.toNat) := by rw [hout]
    have e3 : out.denseA.c = out.sparse.c - out.sparse.r := by rw [hout]
    obtain ⟨hinv, -, -⟩ := reduce_inv hS hr
    obtain ⟨g, hg, -⟩ := hinv.sel
    have hle : out.sparse.c ≤ A.c := by simpa using Fintype.card_le_of_injective g hg.injective
    obtain ⟨S, hSok, hSne⟩ := hwalk ⟨_, fun j => glp.solve (denseCenterLP out.denseA.val out.denseb) j.castSucc⟩
      out.denseA out.denseb rfl (by omega) (by omega) (by omega) (by omega)
    rw [hSok, Out.ok_bind] at *
    generalize hl : S.rows = l at hno hSne ⊢
    cases l with
    | nil => exact absurd rfl hSne
    | cons row l =>
      have hcases : (∃ y, denseBack out A.c row = .ok y) ∨ ∃ u, denseBack out A.c row = .ub u := by
        unfold denseBack
        split
        · simp only
          split
          · exact .inl ⟨_, rfl⟩
          · exact .inr ⟨_, rfl⟩
        · exact .inr ⟨_, rfl⟩
      rcases hcases with ⟨y, hy⟩ | ⟨u, hu⟩
      · exfalso
        -- one row would be enough to contradict `C48_face_no_rows`
        have := C48_face_no_rows (walk := fun _ _ _ _ _ _ _ => .ok ⟨S.c, [row]⟩) (niter := niter)
          (burnin := burnin) (thin := thin) (seed := seed) (rows := [y]) hS ⟨x, hx⟩ hi hvan (fuel := fuel)
          (gi := gi) (by
            unfold denseFullWalkRun
            rw [if_neg (by omega), hr, Out.ok_bind]
            unfold DenseCenter.getInitialPoint
            simp only
            rw [if_neg hc, Out.ok_bind, Out.ok_bind]
            show (denseBack out A.c row).bind _ = _
            rw [hy]; rfl)
        cases this
      · refine ⟨u, ?_⟩
        show (denseBack out A.c row).bind _ = _
        rw [hu]; rfl

end

/-! ## Where C49 fails -/

section
variable {glp : Glpk ℝ} {E : Eigen ℝ} {err : ℝ}

/-- `{x ≥ 0 | x1 + x2 + x3 = 1}`, with the equation given twice. -/
def twiceA : DMat ℝ := ⟨2, 3, fun _ _ => 1⟩
/-- Its right hand side. -/
def twiceB : Fin twiceA.r → ℝ := fun _ => 1

theorem twiceA_mem {x : Fin 3 → ℝ} : x ∈ PolyEq twiceA.val twiceB 3 ↔ x 0 + x 1 + x 2 = 1 ∧ ∀ i, 0 ≤ x i := by
  have hs : ∀ i : Fin 2, (twiceA.val *ᵥ x) i = x 0 + x 1 + x 2 := by
    intro i
    show ∑ j : Fin 3, (1 : ℝ) * x j = _
    simp [Fin.sum_univ_three]
  constructor
  · rintro ⟨h1, h2⟩
    exact ⟨(hs 0).symm.trans (congrFun h1 (0 : Fin 2)), fun i => h2 i (Nat.zero_le _)⟩
  · rintro ⟨h1, h2⟩
    exact ⟨funext fun i => (hs i).trans h1, fun i _ => h2 i⟩

/-- A walk that jumps to `(-1, 1, 1)` when the polytope it is given allows it, and stays put otherwise. -/
noncomputable def jumpWalk : SparseWalk ℝ := fun _ x M c k _ _ _ =>
  if ∃ (h : 3 = M.c) (h' : M.r = c.n),
      (![-1, 1, 1] : Fin 3 → ℝ) ∘ Fin.cast h.symm ∈ PolyEq M.val (c.val ∘ Fin.cast h') k.toNat then
    .ok ⟨3, [![-1, 1, 1]]⟩
  else .ok ⟨x.n, [x.val]⟩

theorem jumpWalk_stays : jumpWalk.StaysInside := by
  intro niter burnin thin seed M c k x S _ _ _ _ hx h
  unfold jumpWalk at h
  split at h
  · rename_i hc
    obtain ⟨h1, h2, h3⟩ := hc
    cases Out.ok.inj h
    refine ⟨h1.symm, fun row hrow => ?_⟩
    rw [List.mem_singleton.1 hrow]
    exact h3
  · cases Out.ok.inj h
    refine ⟨rfl, fun row hrow => ?_⟩
    rw [List.mem_singleton.1 hrow]
    exact hx

/-- **C49 fails** with a redundant row: `new_k` comes out one too small, the first coordinate of
`{x ≥ 0 | x1 + x2 + x3 = 1}` (equation given twice) is left unconstrained, and a walk that stays inside the
polytope it is given makes the run return a point with a negative coordinate. -/
theorem C49_redundant_row (hS : FRSetting glp E err twiceA) (h1 : err ≤ 1) {fuel : ℕ} (hf : 3 < fuel)
    (gi niter burnin thin seed : Int) :
    jumpWalk.StaysInside ∧
    ∃ rows x, sparseFullWalkRun glp E err fuel gi jumpWalk niter twiceA ⟨_, twiceB⟩ 3 burnin thin seed =
      .ok rows ∧ x ∈ rows ∧ x ∉ PolyEq twiceA.val twiceB 3 := by
  refine ⟨jumpWalk_stays, ?_⟩
  have hx : (fun _ => 1 / 3 : Fin 3 → ℝ) ∈ PolyEq twiceA.val twiceB 3 :=
    twiceA_mem.2 ⟨by norm_num, fun i => by norm_num⟩
  have hpos : (fun _ => 1 / 3 : Fin 3 → ℝ) ∈ TailPos 3 3 := fun i _ => by norm_num
  obtain ⟨out, gi', hr⟩ := C41_terminates_partial hS h1 twiceB (k := 3) (by decide) hx
    (fun h => by have h3 : (1 : ℝ) / 3 = 0 := congrFun h (0 : Fin 3); norm_num at h3)
    ⟨1, by
      intro x hx i
      obtain ⟨hs, hp⟩ := twiceA_mem.1 hx
      have : ∀ i : Fin 3, x i ≤ 1 := by
        have h0 := hp 0; have h1 := hp 1; have h2 := hp 2
        intro i; fin_cases i
        · show x (0 : Fin 3) ≤ 1; linarith
        · show x (1 : Fin 3) ≤ 1; linarith
        · show x (2 : Fin 3) ≤ 1; linarith
      exact this i⟩ (fuel := fuel) (by simpa using hf) gi true
  have hc : out.sparse.c = 3 := (reduce_keeps hS hx hpos hr).1
  have hbij := C39_facialReduction hS ⟨_, hx⟩ hr
  obtain ⟨hinv, hr0, -⟩ := reduce_inv hS hr
  obtain ⟨g, hg, -, hV, f, -, hA⟩ := hinv.sel
  have hA1 : ∀ i j, out.sparse.A i j = 1 := by intro i j; rw [hA]; rfl
  have hr1 : out.sparse.r = 1 := by
    by_contra hne
    have h2 : 1 < out.sparse.r := by omega
    have h3 := hinv.indep (fun i => if i.val = 0 then 1 else if i.val = 1 then -1 else 0) (by
      funext j
      show ∑ i, (if i.val = 0 then (1 : ℝ) else if i.val = 1 then -1 else 0) * out.sparse.A i j = 0
      simp only [hA1, mul_one]
      rw [Finset.sum_eq_add (⟨0, by omega⟩ : Fin out.sparse.r) ⟨1, h2⟩ (by simp)]
      · simp
      · rintro i - ⟨h4, h5⟩
        have h4' : i.val ≠ 0 := fun e => h4 (Fin.ext e)
        have h5' : i.val ≠ 1 := fun e => h5 (Fin.ext e)
        simp [h4', h5']
      · simp
      · simp)
    have h4 := congrFun h3 ⟨0, by omega⟩
    simp at h4
  have hb1 : ∀ i, out.sparse.b i = 1 := by
    obtain ⟨v, hv, hvx⟩ := hbij.surjOn hx
    have hsum : ∑ j, v j = 1 := by
      have e : ∀ j, v j = 1 / 3 := by
        intro j
        have := selV_mulVec hg.injective hV v j
        rw [← this]
        exact congrFun hvx (g j)
      simp only [e, Finset.sum_const, Finset.card_univ, Fintype.card_fin, hc]
      norm_num
    intro i
    have h2 : (out.sparse.A *ᵥ v) i = out.sparse.b i := congrFun hv.1 i
    rw [← h2, ← hsum]
    show ∑ j, out.sparse.A i j * v j = _
    simp [hA1]
  -- the target point, in the coordinates of the reduced system
  have hjump : (![-1, 1, 1] : Fin 3 → ℝ) ∘ Fin.cast hc ∈ PolyEq out.sparse.A out.sparse.b 2 := by
    refine ⟨?_, ?_⟩
    · funext i
      rw [hb1]
      show ∑ j, out.sparse.A i j * (![-1, 1, 1] : Fin 3 → ℝ) (Fin.cast hc j) = 1
      simp only [hA1, one_mul]
      refine (Fintype.sum_equiv (finCongr hc) _ (![-1, 1, 1] : Fin 3 → ℝ) fun j => rfl).trans ?_
      rw [Fin.sum_univ_three]
      norm_num [Matrix.cons_val_two, Matrix.tail_cons]
    · intro i hi
      have h2 : 1 ≤ (Fin.cast hc i).val := by
        show 1 ≤ i.val
        omega
      have : ∀ j : Fin 3, 1 ≤ j.val → 0 ≤ (![-1, 1, 1] : Fin 3 → ℝ) j := by
        intro j; fin_cases j <;> simp
      exact this _ h2
  have hcenter := C47_sparseCenter glp hS.lp ⟨_, _, out.sparse.A⟩ out.sparse.b 2 (by omega)
    (by show 2 ≤ out.sparse.c; omega) ⟨_, hjump⟩
  obtain ⟨x, hxc, -⟩ := hcenter
  have hback : sparseBack out.sparse (![-1, 1, 1] : Fin 3 → ℝ) =
      .ok (out.sparse.V *ᵥ ((![-1, 1, 1] : Fin 3 → ℝ) ∘ Fin.cast hc)) := by
    unfold sparseBack
    rw [dif_pos hc, mulVec_real]
    rfl
  refine ⟨[out.sparse.V *ᵥ ((![-1, 1, 1] : Fin 3 → ℝ) ∘ Fin.cast hc)],
    out.sparse.V *ᵥ ((![-1, 1, 1] : Fin 3 → ℝ) ∘ Fin.cast hc), ?_, List.mem_singleton.2 rfl, ?_⟩
  · unfold sparseFullWalkRun
    rw [if_neg (by decide), hr, Out.ok_bind]
    simp only
    have hK : ((out.sparse.r : Int) - ((twiceA.r : Int) - 3)) = ((2 : ℕ) : Int) := by
      rw [hr1]; decide
    rw [hK, hxc, Out.ok_bind]
    have hw : jumpWalk niter ⟨_, x⟩ ⟨_, _, out.sparse.A⟩ ⟨_, out.sparse.b⟩ ((2 : ℕ) : Int) burnin thin seed =
        .ok ⟨3, [![-1, 1, 1]]⟩ := by
      unfold jumpWalk
      rw [if_pos ⟨hc.symm, rfl, hjump⟩]
    rw [hw, Out.ok_bind]
    show (sparseBack out.sparse (![-1, 1, 1] : Fin 3 → ℝ)).bind _ = _
    rw [hback]; rfl
  · intro hmem
    have h2 := (twiceA_mem.1 hmem).2
    let j : Fin out.sparse.c := ⟨0, by omega⟩
    have e : (out.sparse.V *ᵥ ((![-1, 1, 1] : Fin 3 → ℝ) ∘ Fin.cast hc)) (g j) = -1 :=
      (selV_mulVec hg.injective hV _ j).trans rfl
    have h3 : 0 ≤ (out.sparse.V *ᵥ ((![-1, 1, 1] : Fin 3 → ℝ) ∘ Fin.cast hc)) (g j) := h2 (g j)
    rw [e] at h3
    norm_num at h3

/-- The hypotheses of `C49_redundant_row` are met. -/
example : ∃ err, FRSetting exactGlpk exactEigen err twiceA ∧ err ≤ 1 := by
  obtain ⟨err, h1, h2⟩ := exists_frSetting twiceA
  exact ⟨err, h2, h1⟩

/-- Right hand side of the single point `{x ≥ 0 | x1 + x2 = 0, x3 = 1}`, with the matrix `faceA`. -/
def pointB : Fin faceA.r → ℝ := ![0, 1]

theorem pointB_mem {x : Fin 3 → ℝ} : x ∈ PolyEq faceA.val pointB 3 ↔ x = ![0, 0, 1] := by
  have hs : ∀ i : Fin 2, (faceA.val *ᵥ x) i = ![x 0 + x 1, x 2] i := by
    intro i
    show (!![1, 1, 0; 0, 0, 1] *ᵥ x) i = _
    fin_cases i <;> simp [Matrix.mulVec, dotProduct, Fin.sum_univ_three]
  constructor
  · rintro ⟨h1, h2⟩
    have e0 : x 0 + x 1 = 0 := (hs 0).symm.trans (congrFun h1 (0 : Fin 2))
    have e1 : x 2 = 1 := (hs 1).symm.trans (congrFun h1 (1 : Fin 2))
    have p0 : 0 ≤ x 0 := h2 (0 : Fin 3) (by decide)
    have p1 : 0 ≤ x 1 := h2 (1 : Fin 3) (by decide)
    have : ∀ i : Fin 3, x i = (![0, 0, 1] : Fin 3 → ℝ) i := by
      intro i; fin_cases i
      · show x (0 : Fin 3) = 0; linarith
      · show x (1 : Fin 3) = 0; linarith
      · exact e1
    exact funext this
  · rintro rfl
    refine ⟨?_, ?_⟩
    · funext i
      refine (hs i).trans ?_
      have : ∀ i : Fin 2, ![(![0, 0, 1] : Fin 3 → ℝ) 0 + (![0, 0, 1] : Fin 3 → ℝ) 1,
          (![0, 0, 1] : Fin 3 → ℝ) 2] i = (![0, 1] : Fin 2 → ℝ) i := by
        intro i; fin_cases i <;> simp
      exact this i
    · intro i _
      have : ∀ i : Fin 3, 0 ≤ (![0, 0, 1] : Fin 3 → ℝ) i := by intro i; fin_cases i <;> simp
      exact this i

/-- **C49 and C05 fail** when facial reduction drops more columns than rows: on the non-empty polytope
`{x ≥ 0 | x1 + x2 = 0, x3 = 1}` with the valid `k = 3`, `sparseFullWalkRun` computes `new_k = 2` for a reduced
system with one column, and throws "Parameter k must be between 1 and the number of columns in A". -/
theorem C49_valid_k_rejected (hS : FRSetting glp E err faceA) (h1 : err ≤ 1) {fuel : ℕ} (hf : 3 < fuel)
    (gi niter burnin thin seed : Int) (walk : SparseWalk ℝ) :
    (PolyEq faceA.val pointB 3).Nonempty ∧
    sparseFullWalkRun glp E err fuel gi walk niter faceA ⟨_, pointB⟩ 3 burnin thin seed = .throws .badK := by
  have hx : (![0, 0, 1] : Fin 3 → ℝ) ∈ PolyEq faceA.val pointB 3 := pointB_mem.2 rfl
  refine ⟨⟨_, hx⟩, ?_⟩
  obtain ⟨out, gi', hr⟩ := C41_terminates_partial hS h1 pointB (k := 3) (by decide) hx
    (fun h => one_ne_zero (α := ℝ) (congrFun h (2 : Fin 3)))
    ⟨1, by
      intro x hx i
      have hx' : x = (![0, 0, 1] : Fin 3 → ℝ) := pointB_mem.1 hx
      rw [hx']
      have : ∀ i : Fin 3, (![0, 0, 1] : Fin 3 → ℝ) i ≤ 1 := by intro i; fin_cases i <;> simp
      exact this i⟩ (fuel := fuel) (by simpa using hf) gi true
  obtain ⟨hinv, hr0, -⟩ := reduce_inv hS hr
  obtain ⟨g, hg, -, hd⟩ := C40_dropped hS ⟨_, hx⟩ hr
  have hle := indepRows_le hinv.indep
  have hg2 : ∀ j, g j = (2 : Fin 3) := by
    intro j
    obtain ⟨y, hy, hpos⟩ := (hd (g j) (Nat.zero_le _)).1 ⟨j, rfl⟩
    have hy' : y = (![0, 0, 1] : Fin 3 → ℝ) := pointB_mem.1 hy
    rw [hy'] at hpos
    have : ∀ i : Fin 3, 0 < (![0, 0, 1] : Fin 3 → ℝ) i → i = 2 := by intro i; fin_cases i <;> simp
    exact this _ hpos
  have hc : out.sparse.c ≤ 1 := by
    by_contra hc
    have h2 := hg.injective ((hg2 ⟨0, by omega⟩).trans (hg2 ⟨1, by omega⟩).symm)
    simp at h2
  have hr1 : out.sparse.r = 1 := by omega
  unfold sparseFullWalkRun
  rw [if_neg (by decide), hr, Out.ok_bind]
  simp only
  have hK : ((out.sparse.r : Int) - ((faceA.r : Int) - 3)) = 2 := by rw [hr1]; decide
  rw [hK]
  unfold SparseCenter.getInitialPoint
  rw [if_pos (Or.inr (by show (out.sparse.c : Int) < 2; omega))]
  rfl

/-- The hypotheses are met. -/
example : ∃ err, FRSetting exactGlpk exactEigen err faceA ∧ err ≤ 1 := by
  obtain ⟨err, h1, h2⟩ := exists_frSetting faceA
  exact ⟨err, h2, h1⟩

/-! ## C51 -/

/-- A solver that is exact on feasible problems and reports all ones for infeasible ones. -/
noncomputable def onesGlpk : Glpk ℝ where
  solve lp := if ∃ x, lp.Feasible x then exactGlpk.solve lp else fun _ => 1

theorem onesGlpk_exact : onesGlpk.Exact where
  feasible lp h := by
    show lp.Feasible (if _ then _ else _)
    rw [if_pos h]
    exact exactGlpk_exact.feasible lp h
  optimal lp h := by
    obtain ⟨x, hx⟩ := h
    show lp.Optimal (if _ then _ else _)
    rw [if_pos ⟨x, hx.1⟩]
    exact exactGlpk_exact.optimal lp ⟨x, hx⟩

/-- `{x ≥ 0 | x = 1}`. -/
def oneA : DMat ℝ := ⟨1, 1, fun _ _ => 1⟩

theorem onesGlpk_step {d : ℕ} (h1 : err ≤ 1) (fuel : ℕ) (s : FRResult ℝ d) (hc : s.c = 1)
    (hr : s.r = 1) (hA : ∀ i j, s.A i j = 1) (hb : ∀ i, s.b i = 1) :
    entireFacialReductionStep onesGlpk E err 0 (fuel + 2) 0 s = .ub .indexOutOfRange := by
  obtain ⟨r, c, A, b, V⟩ := s
  simp only at hc hr hA hb
  subst hc hr
  have hinf : ¬ ∃ y, (findZLP A b (findZRelAt 1 0 0) (findZBndAt 1 0)).Feasible y := by
    rintro ⟨y, hy⟩
    have hc := (C38_findZ A b 0 0 (Nat.zero_le _) y).1 hy
    have e1 := hc.one
    have e2 := hc.orth
    simp only [Matrix.mulVec, dotProduct, Finset.univ_unique, Finset.sum_singleton, Matrix.transpose_apply,
      hA, hb, one_mul] at e1 e2
    rw [e1] at e2
    exact one_ne_zero e2
  have hfz : findZ onesGlpk 0 A b 0 = .ok (some (mulVec (transp A) fun _ => 1), 0) := by
    unfold findZ
    rw [if_neg (by decide)]
    show findZLoop onesGlpk A b 1 0 _ _ = _
    unfold findZLoop
    simp only
    have hsol : findOptimalVector onesGlpk (findZLP A b (findZRelAt 1 0 0) (findZBndAt 1 0)) =
        .ok fun _ => 1 := by
      unfold findOptimalVector
      have hno : ¬ ((findZLP A b (findZRelAt 1 0 0) (findZBndAt 1 0)).r = 0 ∨
        (findZLP A b (findZRelAt 1 0 0) (findZBndAt 1 0)).c = 0) := by
        show ¬ (1 + 1 = 0 ∨ 1 = 0)
        omega
      rw [if_neg hno]
      show Out.ok (if _ then _ else _) = _
      rw [if_neg hinf]
    have hsol' : findOptimalVector onesGlpk (findZLP A b (setAt (findZRel 1 0) 0 .FX)
        (setAt (fun _ => 0) 0 1)) = .ok fun _ => 1 := hsol
    rw [hsol', Out.ok_bind]
    have hv : (Scalar.eq (vsum fun j : Fin 1 => Scalar.abs ((fun _ => 1 : Fin 1 → ℝ) j)) 0) = false := by
      rw [vsum_real]
      simp
    have hv' : (Scalar.eq (vsum fun j : Fin (findZLP A b (setAt (findZRel 1 0) 0 .FX)
        (setAt (fun _ => 0) 0 1)).c => Scalar.abs ((1 : ℝ))) 0) = false := hv
    rw [hv']
    rfl
  have h2 : entireFacialReductionStep onesGlpk E err 0 (fuel + 2) 0 ⟨1, 1, A, b, V⟩ =
      entireFacialReductionStep onesGlpk E err 0 (fuel + 1) 0
        (frRound E err 0 ⟨1, 1, A, b, V⟩ (mulVec (transp A) fun _ => 1)) := by
    show (findZ onesGlpk 0 A b 0).bind _ = _
    rw [hfz]; rfl
  rw [h2]
  have hz : (mulVec (transp A) fun _ => 1) = fun _ : Fin 1 => (1 : ℝ) := by
    rw [mulVec_real]
    funext i
    simp [Matrix.mulVec, dotProduct, transp_eq, hA]
  have hV : pickV err (mulVec (transp A) fun _ => 1) 0 = [] := by
    rw [hz]
    unfold pickV
    rw [List.filter_eq_nil_iff]
    intro a _
    simp [h1]
  have hr : (frRound E err 0 ⟨1, 1, A, b, V⟩ (mulVec (transp A) fun _ => 1)).r = 0 := by
    show (pickP E err _).length = 0
    rw [List.length_eq_zero_iff]
    unfold pickP
    simp only
    rw [List.filterMap_eq_nil_iff]
    intro i _
    rw [dif_neg]
    show ¬ i.val < (pickV err (mulVec (transp A) fun _ => 1) 0).length
    rw [hV]; simp
  generalize frRound E err 0 ⟨1, 1, A, b, V⟩ (mulVec (transp A) fun _ => 1) = s' at hr
  show (findZ onesGlpk 0 s'.A s'.b 0).bind _ = _
  unfold findZ
  rw [if_pos hr]
  rfl

/-- **C51 fails**: exactness on feasible problems is not enough. With a solver that reports non-zero values
for infeasible problems (the code never asks for the solver's status), `reduce` takes the missing certificate
for a certificate, removes every coordinate of `{x ≥ 0 | x = 1}` and ends in an out-of-range access. -/
theorem C51_needs_zero_if_infeasible (hE : E.SparseQRExact) (h0 : 0 < err) (h1 : err ≤ 1)
    (hgap : E.PivotGap err oneA.val) (fuel : ℕ) (gi : Int) (sparse : Bool) :
    onesGlpk.Exact ∧ (PolyEq oneA.val (fun _ => 1) 1).Nonempty ∧
    FacialReduction.reduce onesGlpk E err (fuel + 2) gi oneA ⟨1, fun _ => 1⟩ 1 sparse =
      .ub .indexOutOfRange := by
  refine ⟨onesGlpk_exact, ⟨fun _ => 1, ?_, fun i _ => zero_le_one⟩, ?_⟩
  · funext i
    show ∑ j : Fin 1, (1 : ℝ) * 1 = 1
    simp
  have e : FacialReduction.reduce onesGlpk E err (fuel + 2) gi oneA ⟨1, fun _ => 1⟩ 1 sparse =
      (entireFacialReductionStep onesGlpk E err 0 (fuel + 2) 0 (frStart E err oneA.val fun _ => 1)).bind
        fun sg => (frFinish E sg.1 0 sparse).bind fun out => .ok (out, (sg.2 : Int)) := rfl
  have hr : (frStart E err oneA.val fun _ => (1 : ℝ)).r = 1 := by
    show (pickP E err oneA.val).length = 1
    have h3 : (pickP E err oneA.val).length ≤ 1 := pickP_length_le hE
    have h4 : 0 < (pickP E err oneA.val).length := by
      refine pickP_ne_nil (u := fun _ => 1) hE h0.le (gapAt_of_pivotGap hgap) ?_
      intro h
      have h5 : ∑ j : Fin 1, (1 : ℝ) * 1 = 0 := congrFun h (0 : Fin 1)
      simp at h5
    omega
  have h2 : entireFacialReductionStep onesGlpk E err 0 (fuel + 2) 0 (frStart E err oneA.val fun _ => 1) =
      .ub .indexOutOfRange :=
    onesGlpk_step (E := E) h1 fuel (frStart E err oneA.val fun _ => 1) rfl hr (fun _ _ => rfl) fun _ => rfl
  rw [e]
  exact congrArg (fun o => Out.bind o _) h2

/-- The hypotheses of `C51_needs_zero_if_infeasible` are met. -/
example : ∃ err, 0 < err ∧ err ≤ 1 ∧ exactEigen.SparseQRExact ∧ exactEigen.PivotGap err oneA.val := by
  obtain ⟨err, h1, h2⟩ := exists_frSetting oneA
  exact ⟨err, h2.pos, h1, h2.qr, h2.gap⟩

end
end PW
