import Verif.Props.Tolerance

/-!
# C89: the full runs with an LP solver that has a tolerance
-/

namespace PW
open Classical Matrix

section
variable {glp : Glpk ℝ} {E : Eigen ℝ} {err δ : ℝ} {A : DMat ℝ} {b : Fin A.r → ℝ}

/-- A deep point of the reduced polytope is a deep point of its dense form. -/
theorem dense_depth (hQ : E.HouseholderExact) (hI : E.InvExact) {k : Int} {fuel : ℕ}
    {gi gi' : Int} {out : FROutput ℝ A.c}
    (h : FacialReduction.reduce glp E err fuel gi A ⟨A.r, b⟩ k false = .ok (out, gi'))
    (hA : IndepRows out.sparse.A) {v : Fin out.sparse.c → ℝ} (hv : v ∈ PolyFrom out.sparse.A out.sparse.b (A.c - k.toNat)) {τ : ℝ}
    (hd : ∀ j : Fin out.sparse.c, A.c - k.toNat ≤ j.val → τ ≤ v j) :
    ∃ (hb : out.denseA.r = out.denseb.n) (y : Fin out.denseA.c → ℝ), ∀ i, τ ≤ out.denseb.val (Fin.cast hb i) - (out.denseA.val *ᵥ y) i := by
  obtain ⟨hrc, hx, e⟩ := reduce_dense_ok h
  obtain ⟨s, dA, db, Q, z1⟩ := out
  simp only at hrc hx e hA hv hd v
  obtain ⟨-, rfl, rfl, rfl, rfl⟩ := FROutput.mk.inj e
  obtain ⟨y, -, hy⟩ := (lift_bijOn hI (hQ _) hA hrc _).surjOn hv
  refine ⟨rfl, y, fun i => ?_⟩
  have h1 := lift_slack (E := E) hrc (A.c - k.toNat) y i
  have h2 := hd ⟨A.c - k.toNat + i.val, by have : i.val < s.c - (A.c - k.toNat) := i.isLt; show _ < s.c; omega⟩ (by simp)
  rw [← hy, h1] at h2
  exact h2

/-- The dense form of a bounded polytope is bounded. -/
theorem dense_bounded (hQ : E.HouseholderExact) (hI : E.InvExact) {k : Int} {fuel : ℕ}
    {gi gi' : Int} {out : FROutput ℝ A.c}
    (h : FacialReduction.reduce glp E err fuel gi A ⟨A.r, b⟩ k false = .ok (out, gi'))
    (hA : IndepRows out.sparse.A)
    (hbd : ∃ M, ∀ v ∈ PolyFrom out.sparse.A out.sparse.b (A.c - k.toNat), ∀ i, |v i| ≤ M) (hb : out.denseA.r = out.denseb.n) :
    ∃ M, ∀ y ∈ Poly out.denseA.val (out.denseb.val ∘ Fin.cast hb), ∀ j, |y j| ≤ M := by
  obtain ⟨hr, hc, hb', hlift, hdist⟩ := C44_denseForm hQ hI h hA
  obtain ⟨M, hM⟩ := hbd
  by_cases hne : (Poly out.denseA.val (out.denseb.val ∘ Fin.cast hb)).Nonempty
  · obtain ⟨y0, hy0⟩ := hne
    refine ⟨(∑ j, |y0 j|) + (1 + ∑ i : Fin out.Q.r, (2 * M) ^ 2), fun y hy j => ?_⟩
    have h0 : ∀ y ∈ Poly out.denseA.val (out.denseb.val ∘ Fin.cast hb), ∀ i,
        |(out.Q.val *ᵥ (Fin.append out.z1.val y ∘ Fin.cast hc)) i| ≤ M := by
      intro y hy i
      have := hM _ (hlift.mapsTo hy) (Fin.cast hr.symm i)
      exact this
    have h1 : (y j - y0 j) ^ 2 ≤ ∑ i : Fin out.Q.r, (2 * M) ^ 2 := by
      refine (Finset.single_le_sum (f := fun j => (y j - y0 j) ^ 2) (fun j _ => sq_nonneg _) (Finset.mem_univ j)).trans ?_
      refine (hdist y y0).symm.le.trans (Finset.sum_le_sum fun i _ => ?_)
      have a := abs_le.1 (h0 y hy i)
      have c := abs_le.1 (h0 y0 hy0 i)
      refine sq_le_sq' ?_ ?_ <;> linarith [a.1, a.2, c.1, c.2]
    have h2 : |y j - y0 j| ≤ 1 + (y j - y0 j) ^ 2 := by
      rw [← sq_abs (y j - y0 j)]
      nlinarith [sq_nonneg (|y j - y0 j| - 1), abs_nonneg (y j - y0 j)]
    have h3 : |y0 j| ≤ ∑ j, |y0 j| := Finset.single_le_sum (f := fun j => |y0 j|) (fun j _ => abs_nonneg _) (Finset.mem_univ j)
    have h4 := abs_sub_abs_le_abs_sub (y j) (y0 j)
    linarith
  · exact ⟨0, fun y hy => absurd ⟨y, hy⟩ hne⟩

/-- The reduced polytope of a bounded polytope is bounded. -/
theorem reduced_bounded {k : Int} (hS : FRTolSetting glp E err δ A b k.toNat) {fuel : ℕ} {gi gi' : Int} {sparse : Bool} {out : FROutput ℝ A.c}
    (h : FacialReduction.reduce glp E err fuel gi A ⟨A.r, b⟩ k sparse = .ok (out, gi'))
    (hbd : ∃ M, ∀ x ∈ PolyEq A.val b k.toNat, ∀ i, |x i| ≤ M) :
    ∃ M, ∀ v ∈ PolyFrom out.sparse.A out.sparse.b (A.c - k.toNat), ∀ i, |v i| ≤ M := by
  obtain ⟨M, hM⟩ := hbd
  obtain ⟨hinv, -, -⟩ := reduce_inv_tol hS h
  obtain ⟨g, hg, -, hV, -⟩ := hinv.sel
  refine ⟨M, fun v hv i => ?_⟩
  have := hM _ ((C89_bijection hS h).mapsTo hv) (g i)
  have e := selV_mulVec hg.injective hV v i
  rw [← e]
  exact this

/-- The reduced polytope has a point whose constrained coordinates are all above `2 δ`. -/
theorem reduced_depth {k : Int} (hS : FRTolSetting glp E err δ A b k.toNat) (he : err ≤ 1 / 2) {fuel : ℕ} {gi gi' : Int} {sparse : Bool}
    {out : FROutput ℝ A.c} (h : FacialReduction.reduce glp E err fuel gi A ⟨A.r, b⟩ k sparse = .ok (out, gi')) :
    ∃ v ∈ PolyFrom out.sparse.A out.sparse.b (A.c - k.toNat), ∃ τ, 2 * δ < τ ∧
      ∀ j : Fin out.sparse.c, A.c - k.toNat ≤ j.val → τ ≤ v j := by
  obtain ⟨hinv, -, -⟩ := reduce_inv_tol hS h
  obtain ⟨w, hw, hwp⟩ := C89_strict hS h
  obtain ⟨v, hv, hsep⟩ := hinv.separated hS.tol hS.sep
  have hgt : ∀ j : Fin out.sparse.c, A.c - k.toNat ≤ j.val → 2 * δ < v j := by
    intro j hj
    have h1 := hsep j hj ⟨w, hw, hwp j hj⟩
    have h2 : 0 ≤ ∑ i, |v i| := Finset.sum_nonneg fun i _ => abs_nonneg _
    have h3 := mul_nonneg hS.tol h2
    have h4 := hv.2 j hj
    have h5 : err * v j ≤ 1 / 2 * v j := mul_le_mul_of_nonneg_right he h4
    linarith
  refine ⟨v, hv, ?_⟩
  by_cases hne : (Finset.univ.filter fun j : Fin out.sparse.c => A.c - k.toNat ≤ j.val).Nonempty
  · obtain ⟨j0, hj0, hmin⟩ := Finset.exists_min_image _ v hne
    exact ⟨v j0, hgt j0 (by simpa using hj0), fun j hj => hmin j (by simpa using hj)⟩
  · refine ⟨2 * δ + 1, by linarith, fun j hj => ?_⟩
    exact absurd ⟨j, by simpa using hj⟩ hne

/-- **C89**: with a tolerant solver, on a bounded well separated polytope, `denseFullWalkRun` starts its walk strictly inside the dense
polytope. -/
theorem C89_dense_start {k : Int} (hS : FRTolSetting glp E err δ A b k.toNat) (he : err ≤ 1 / 2) (hQ : E.HouseholderExact) (hI : E.InvExact)
    (hbd : ∃ M, ∀ x ∈ PolyEq A.val b k.toNat, ∀ i, |x i| ≤ M) {fuel : ℕ} {gi gi' : Int} {out : FROutput ℝ A.c}
    (h : FacialReduction.reduce glp E err fuel gi A ⟨A.r, b⟩ k false = .ok (out, gi')) {x : Fin out.denseA.c → ℝ}
    (hx : DenseCenter.getInitialPoint glp out.denseA out.denseb = .ok x) :
    ∃ hb : out.denseA.r = out.denseb.n, x ∈ Interior out.denseA.val (out.denseb.val ∘ Fin.cast hb) := by
  obtain ⟨hinv, -, -⟩ := reduce_inv_tol hS h
  obtain ⟨v, hv, τ, hτ, hd⟩ := reduced_depth hS he h
  obtain ⟨hb, y, hy⟩ := dense_depth hQ hI h hinv.indep hv hd
  refine ⟨hb, ?_⟩
  have hdb := dense_bounded hQ hI h hinv.indep (reduced_bounded hS h hbd) hb
  obtain ⟨s, dA, ⟨dbn, db⟩, Q, z1⟩ := out
  simp only at hx hb y hy hdb x
  subst hb
  have hr0 : 0 < dA.r := by
    by_contra h0
    unfold DenseCenter.getInitialPoint at hx
    rw [if_pos (Or.inl (by omega))] at hx
    cases hx
  have hτ0 : 0 ≤ τ := by linarith [hS.tol]
  have hne : (Poly dA.val db).Nonempty := ⟨y, fun i => by have : τ ≤ db i - (dA.val *ᵥ y) i := hy i; linarith⟩
  obtain ⟨x', hx', hdeep⟩ := C89_denseCenter hS.lp dA db hr0 (denseCenter_attains hr0 hne hdb) hτ0 hy
  rw [hx] at hx'
  cases hx'
  intro i
  have := hdeep i
  show (dA.val *ᵥ x) i < db i
  linarith

/-- **C89**: with a tolerant solver, on a bounded well separated polytope, every row returned by `denseFullWalkRun` is a point of the original
polytope, for every dense walk that stays in the polytope it is given. The tolerance of the solver does not show in the samples. -/
theorem C89_dense_rows {k : Int} (hS : FRTolSetting glp E err δ A b k.toNat) (he : err ≤ 1 / 2) (hQ : E.HouseholderExact) (hI : E.InvExact)
    (hbd : ∃ M, ∀ x ∈ PolyEq A.val b k.toNat, ∀ i, |x i| ≤ M) {walk : DenseWalk ℝ}
    (hw : walk.StaysInside) {niter burnin thin seed : Int} (hi : SaneInts niter burnin thin) {fuel : ℕ}
    {gi : Int} {rows : List (Fin A.c → ℝ)}
    (h : denseFullWalkRun glp E err fuel gi walk niter A ⟨A.r, b⟩ k burnin thin seed = .ok rows) :
    ∀ x ∈ rows, x ∈ PolyEq A.val b k.toNat := by
  unfold denseFullWalkRun at h
  split at h
  · cases h
  obtain ⟨fr, h1, h⟩ := Out.bind_eq_ok.1 h
  obtain ⟨x, h2, h⟩ := Out.bind_eq_ok.1 h
  obtain ⟨S, h3, h⟩ := Out.bind_eq_ok.1 h
  obtain ⟨out, gi'⟩ := fr
  simp only at h2 h3 h x
  obtain ⟨hb0, hx0⟩ := C89_dense_start hS he hQ hI hbd h1 h2
  have hbij := C89_bijection hS h1
  obtain ⟨hinv, -, -⟩ := reduce_inv_tol hS h1
  obtain ⟨g, hg, -, hV, -⟩ := hinv.sel
  obtain ⟨hr, hc, hb, hlift, -⟩ := C44_denseForm hQ hI h1 hinv.indep
  obtain ⟨s, dA, ⟨dbn, db⟩, Q, z1⟩ := out
  simp only at h2 h3 h x hbij g hg hV hr hc hb hlift hx0
  subst hb
  have hx : x ∈ Poly dA.val db := fun i => (hx0 i).le
  obtain ⟨hSc, hrows⟩ := hw niter burnin thin seed dA db x S hi hx h3
  intro p hp
  obtain ⟨row, hrow, hback⟩ := mapRows_mem h p hp
  have hy := hlift.mapsTo (hrows row hrow)
  have hz := hbij.mapsTo hy
  unfold denseBack at hback
  split at hback
  · rename_i hcQ
    simp only at hback hcQ
    split at hback
    · rename_i hcols
      have e := Out.ok.inj hback
      have hV' : p = s.V *ᵥ fun i => (Q.val *ᵥ (Fin.append z1.val (row ∘ Fin.cast hSc) ∘ Fin.cast hc))
          (Fin.cast hr i) := by
        funext i
        have hgi : g ⟨i.val, by omega⟩ = i := Fin.ext (strictMono_id hg (by omega) _)
        have e1 := selV_mulVec hg.injective hV (fun i => (Q.val *ᵥ (Fin.append z1.val (row ∘ Fin.cast hSc) ∘
          Fin.cast hc)) (Fin.cast hr i)) ⟨i.val, by omega⟩
        rw [hgi] at e1
        rw [e1, ← congrFun e i, mulVec_real]
        show (Q.val *ᵥ _) (i.castLE hcols) = (Q.val *ᵥ _) (i.castLE hcols)
        congr 2
        funext j
        show _ = Fin.append z1.val (row ∘ Fin.cast hSc) (Fin.cast hc j)
        split
        · rename_i hj
          have : Fin.cast hc j = Fin.castAdd dA.c ⟨j.val, hj⟩ := Fin.ext rfl
          rw [this, Fin.append_left]
        · rename_i hj
          have : Fin.cast hc j = Fin.natAdd z1.n ⟨j.val - z1.n, by omega⟩ := Fin.ext (by simp; omega)
          rw [this, Fin.append_right]
          rfl
      rw [hV']
      exact hz
    · cases hback
  · cases hback

/-- **C89**: with a tolerant solver on a well separated polytope, for a walk that returns at least one row with the right number of
columns on the problem it is handed, `denseFullWalkRun` returns exactly when the polytope is not a coordinate cone and no constrained
coordinate vanishes on it; in all other cases it is undefined behaviour (never an exception or divergence). -/
theorem C89_dense_returns {k : Int} (hS : FRTolSetting glp E err δ A b k.toNat)
    (hk : 0 < k ∧ k ≤ A.c) {walk : DenseWalk ℝ} (niter burnin thin seed : Int)
    (hwalk : ∀ (init : DVec ℝ) (M : DMat ℝ) (c : DVec ℝ), init.n = M.c → M.r = c.n → 1 ≤ M.r → M.r = rightK A.val b k.toNat →
      M.c + survivorRank A.val b k.toNat = survivorCount A.val b k.toNat →
      ∃ S, walk niter init M c burnin thin seed = .ok S ∧ S.c = M.c ∧ S.rows ≠ [])
    {fuel : ℕ} (hf : k.toNat < fuel) (gi : Int) :
    ((∃ rows, denseFullWalkRun glp E err fuel gi walk niter A ⟨A.r, b⟩ k burnin thin seed = .ok rows) ↔
      ¬ CoordCone (PolyEq A.val b k.toNat) k.toNat ∧
      ∀ i : Fin A.c, A.c - k.toNat ≤ i.val → ∃ x ∈ PolyEq A.val b k.toNat, 0 < x i) ∧
    ((∃ rows, denseFullWalkRun glp E err fuel gi walk niter A ⟨A.r, b⟩ k burnin thin seed = .ok rows) ∨
      ∃ u, denseFullWalkRun glp E err fuel gi walk niter A ⟨A.r, b⟩ k burnin thin seed = .ub u) := by
  obtain ⟨r1, r2⟩ := C89_returns hS hk hf gi false
  by_cases hc : CoordCone (PolyEq A.val b k.toNat) k.toNat
  · have e : denseFullWalkRun glp E err fuel gi walk niter A ⟨A.r, b⟩ k burnin thin seed =
        .ub .indexOutOfRange := by
      unfold denseFullWalkRun
      rw [if_neg (by omega), r2 hc]
      rfl
    rw [e]
    refine ⟨⟨?_, fun h => absurd hc h.1⟩, .inr ⟨_, rfl⟩⟩
    rintro ⟨rows, h⟩
    cases h
  · obtain ⟨out, gi', hr⟩ := r1 hc
    obtain ⟨hrc, hxd, hout⟩ := reduce_dense_ok hr
    have e1 : out.denseA.r = out.sparse.c - (A.c - k.toNat) := by rw [hout]
    have e2 : out.denseb.n = out.sparse.c - (A.c - k.toNat) := by rw [hout]
    have e3 : out.denseA.c = out.sparse.c - out.sparse.r := by rw [hout]
    have e4 : out.Q.r = out.sparse.c := by rw [hout]
    have e5 : out.Q.c = out.sparse.c := by rw [hout]
    have e6 : out.z1.n = out.sparse.r := by rw [hout]
    obtain ⟨hinv, -, -⟩ := reduce_inv_tol hS hr
    obtain ⟨g, hg, hgx, hV, -⟩ := hinv.sel
    obtain ⟨g', hg', hV', hs⟩ := C89_dropped hS hr
    have hgg : g' = g := by
      funext j
      have h1 := hV' (g j) j
      have h2 := hV (g j) j
      rw [if_pos rfl] at h2
      rw [h2] at h1
      by_contra hne
      rw [if_neg hne] at h1
      exact one_ne_zero h1
    rw [hgg] at hs
    have hle : out.sparse.c ≤ A.c := by simpa using Fintype.card_le_of_injective g hg.injective
    -- all columns are kept iff no constrained coordinate vanishes
    have hfull : A.c ≤ out.sparse.c ↔
        ∀ i : Fin A.c, A.c - k.toNat ≤ i.val → ∃ x ∈ PolyEq A.val b k.toNat, 0 < x i := by
      constructor
      · intro hcc i hi
        have hsur : Function.Surjective g := by
          have h2 : Function.Bijective g :=
            (Fintype.bijective_iff_injective_and_card g).2 ⟨hg.injective, by simp; omega⟩
          exact h2.2
        rcases (hs i).2 (hsur i) with h2 | ⟨x, hx, hx0⟩
        · omega
        · exact ⟨x, hx, lt_of_le_of_ne (hx.2 i hi) (Ne.symm hx0)⟩
      · intro hall
        have hsur : Function.Surjective g := by
          intro i
          apply (hs i).1
          by_cases hi : i.val < A.c - k.toNat
          · exact .inl hi
          · obtain ⟨x, hx, hx0⟩ := hall i (by omega)
            exact .inr ⟨x, hx, hx0.ne'⟩
        simpa using Fintype.card_le_of_surjective g hsur
    rw [← hfull]
    have e : denseFullWalkRun glp E err fuel gi walk niter A ⟨A.r, b⟩ k burnin thin seed =
        (DenseCenter.getInitialPoint glp out.denseA out.denseb).bind fun x =>
        (walk niter ⟨_, x⟩ out.denseA out.denseb burnin thin seed).bind fun steps =>
        mapRows (denseBack out A.c) steps.rows := by
      unfold denseFullWalkRun
      rw [if_neg (by omega), hr, Out.ok_bind]
    rw [e]
    unfold DenseCenter.getInitialPoint
    by_cases hz : out.denseA.r = 0 ∨ out.denseA.r < out.denseb.n
    · rw [if_pos hz]
      refine ⟨⟨?_, fun h => ?_⟩, .inr ⟨_, rfl⟩⟩
      · rintro ⟨rows, h⟩; cases h
      · have := h.2; omega
    · rw [if_neg hz, Out.ok_bind]
      obtain ⟨-, hd1, hd2⟩ := C89_dimensions hS hr
      have hcount := survivorCount_split A b k.toNat
      obtain ⟨S, hSok, hSc, hSne⟩ := hwalk
        ⟨_, fun j => glp.solve (denseCenterLP out.denseA.val out.denseb) j.castSucc⟩
        out.denseA out.denseb rfl (by omega) (by omega) (by omega) (by omega)
      rw [hSok, Out.ok_bind]
      by_cases hcc : A.c ≤ out.sparse.c
      · obtain ⟨l, hl⟩ : ∃ l, mapRows (denseBack out A.c) S.rows = .ok l := by
          apply mapRows_ok
          intro row _
          unfold denseBack
          rw [dif_pos (by omega)]
          simp only
          rw [dif_pos (by omega)]
          exact ⟨_, rfl⟩
        rw [hl]
        exact ⟨⟨fun _ => ⟨hc, hcc⟩, fun _ => ⟨_, rfl⟩⟩, .inl ⟨_, rfl⟩⟩
      · have hub : mapRows (denseBack out A.c) S.rows = .ub .indexOutOfRange := by
          generalize S.rows = l at hSne
          cases l with
          | nil => exact absurd rfl hSne
          | cons row l =>
            show (denseBack out A.c row).bind _ = _
            unfold denseBack
            rw [dif_pos (by omega)]
            simp only
            rw [dif_neg (by omega)]
            rfl
        rw [hub]
        refine ⟨⟨?_, fun h => absurd h.2 hcc⟩, .inr ⟨_, rfl⟩⟩
        rintro ⟨rows, h⟩
        cases h

/-! ## The sparse run -/

/-- Sparse Ball walk keeps the fibre of its initial point. -/
theorem keepsFibre_sparseBall (R : ℝ) (hE : E.SparseLUExact) (e : Env ℝ) : ((Walk.sparseBall R E).toSparse e).KeepsFibre := by
  intro niter burnin thin seed A b k x S hi hk1 hk2 hA hx h
  obtain ⟨rows, h1, rfl⟩ := Out.map_eq_ok.1 h
  have hu := PosDef.isUnit_det hA.posDef
  refine ⟨rfl, fun row hrow => ⟨?_, ?_⟩⟩
  · obtain ⟨st, hP, rfl⟩ := Walk.rows_inv (a := ⟨niter, ⟨A.c, x⟩, A, ⟨A.r, b⟩, k, burnin, thin, seed⟩) hi h1 ⟨rfl, rfl⟩
      (fun s => A.val *ᵥ s.1 = A.val *ᵥ x) (by intro s0 h0; cases h0; rfl)
      (fun s s' hs hst => (SparseBallWalk.step_eq hE hu hst).trans hs) row hrow
    exact hP
  · exact C17_nonneg _ (.ball R E) e ⟨niter, ⟨A.c, x⟩, A, ⟨A.r, b⟩, k, burnin, thin, seed⟩ hi ⟨rfl, rfl⟩ hx rows h1 row hrow

/-- Sparse Hit-and-Run keeps the fibre of its initial point. -/
theorem keepsFibre_sparseHitRun (R ERR : ℝ) (hE : E.SparseLUExact) (e : Env ℝ) (hr : e.r.UnitDraws) :
    ((Walk.sparseHitRun R ERR E).toSparse e).KeepsFibre := by
  intro niter burnin thin seed A b k x S hi hk1 hk2 hA hx h
  obtain ⟨rows, h1, rfl⟩ := Out.map_eq_ok.1 h
  have hu := PosDef.isUnit_det hA.posDef
  refine ⟨rfl, fun row hrow => ?_⟩
  obtain ⟨st, ⟨hP1, hP2⟩, rfl⟩ := Walk.rows_inv (a := ⟨niter, ⟨A.c, x⟩, A, ⟨A.r, b⟩, k, burnin, thin, seed⟩) hi h1 ⟨rfl, rfl⟩
      (fun s => A.val *ᵥ s.1 = A.val *ᵥ x ∧ s.1 ∈ TailNonneg A.c k.toNat) (by intro s0 h0; cases h0; exact ⟨rfl, hx⟩)
      (fun s s' hs hst => ⟨(SparseHitRun.step_eq hE hu hst).trans hs.1, SparseHitRun.step_cases hr (by omega) (by omega) hs.2 hst⟩) row hrow
  exact ⟨hP1, hP2⟩

/-- Nothing is dropped when the rows are independent and no coordinate vanishes. -/
theorem reduce_keeps_tol {k : Int} (hS : FRTolSetting glp E err δ A b k.toNat) (hA : IndepRows A.val)
    (hall : ∀ i : Fin A.c, Survives A.val b k.toNat i) {fuel : ℕ} {gi gi' : Int} {sparse : Bool} {out : FROutput ℝ A.c}
    (h : FacialReduction.reduce glp E err fuel gi A ⟨A.r, b⟩ k sparse = .ok (out, gi')) :
    out.sparse.c = A.c ∧ out.sparse.r = A.r := by
  obtain ⟨hinv, -, -⟩ := reduce_inv_tol hS h
  have hdim := hinv.dim
  have hbij := C89_bijection hS h
  obtain ⟨g, hg, hgx, hV, f, hf, hsA⟩ := hinv.sel
  have hsurj : Function.Surjective g := by
    intro i
    rcases hall i with h4 | ⟨y, hy, hy0⟩
    · exact ⟨⟨i.val, by omega⟩, Fin.ext (hgx _ h4)⟩
    · obtain ⟨v, -, rfl⟩ := hbij.surjOn hy
      by_contra hno
      push Not at hno
      exact hy0 (selV_mulVec_off hV v i hno)
  refine ⟨le_antisymm (by simpa using Fintype.card_le_of_injective g hg.injective) (by simpa using Fintype.card_le_of_surjective g hsurj), ?_⟩
  refine le_antisymm (by simpa using Fintype.card_le_of_injective f hf) ?_
  obtain ⟨v, hv, hpos⟩ := C89_strict hS h
  have hker := fun u => hinv.ker hS.nonempty hv hpos u
  have hI : IndepRows (A.val.submatrix id g) := by
    intro y hy
    apply hA
    funext i
    obtain ⟨j, rfl⟩ := hsurj i
    exact congrFun hy j
  refine rows_le_of_ker (B := out.sparse.A) hI fun u hu => ?_
  rw [← mulVec_selV hV]
  exact hker u hu

/-- **C89**: and `sparseFullWalkRun` returns for every walk that does. -/
theorem C89_sparse_returns {k : Int} (hS : FRTolSetting glp E err δ A b k.toNat) (hk : 0 < k ∧ k ≤ A.c) (hA : IndepRows A.val)
    (hall : ∀ i : Fin A.c, Survives A.val b k.toNat i) (hcone : ¬ CoordCone (PolyEq A.val b k.toNat) k.toNat)
    {walk : SparseWalk ℝ} (niter burnin thin seed : Int)
    (hwalk : ∀ (init : DVec ℝ) (M : DMat ℝ) (c : DVec ℝ), init.n = M.c → M.r = c.n → M.c = A.c → M.r = A.r →
      ∃ S, walk niter init M c k burnin thin seed = .ok S ∧ S.c = M.c)
    {fuel : ℕ} (hf : k.toNat < fuel) (gi : Int) :
    ∃ rows, sparseFullWalkRun glp E err fuel gi walk niter A ⟨A.r, b⟩ k burnin thin seed = .ok rows := by
  obtain ⟨out, gi', hr⟩ := (C89_returns hS hk hf gi true).1 hcone
  obtain ⟨hc, hrr⟩ := reduce_keeps_tol hS hA hall hr
  unfold sparseFullWalkRun
  rw [if_neg (by omega), hr, Out.ok_bind]
  simp only
  have hK : ((out.sparse.r : Int) - ((A.r : Int) - k)) = k := by omega
  rw [hK]
  unfold SparseCenter.getInitialPoint findOptimalVector
  simp only
  rw [if_neg (by omega), if_neg (by omega)]
  have hno : ¬ ((sparseCenterLP out.sparse.A ⟨out.sparse.r, out.sparse.b⟩ k.toNat).r = 0 ∨
      (sparseCenterLP out.sparse.A ⟨out.sparse.r, out.sparse.b⟩ k.toNat).c = 0) := by
    show ¬ (out.sparse.r + k.toNat = 0 ∨ out.sparse.c + 1 = 0)
    omega
  rw [if_neg hno, Out.map_ok, Out.ok_bind]
  obtain ⟨S, hSok, hSc⟩ := hwalk
    ⟨_, fun j : Fin out.sparse.c =>
      glp.solve (sparseCenterLP out.sparse.A ⟨out.sparse.r, out.sparse.b⟩ k.toNat) j.castSucc⟩
    ⟨_, _, out.sparse.A⟩ ⟨_, out.sparse.b⟩ rfl rfl hc hrr
  have h2 := congrArg (fun o => Out.bind o fun steps => mapRows (sparseBack out.sparse) steps.rows) hSok
  refine (show ∃ l', mapRows (sparseBack out.sparse) S.rows = .ok l' from ?_).imp fun l' hl' => h2.trans hl'
  apply mapRows_ok
  intro row _
  unfold sparseBack
  rw [dif_pos hSc.symm]
  exact ⟨_, rfl⟩

/-- **C89**: with a tolerant solver, on a bounded well separated polytope given by independent rows and with no vanishing coordinate, every row
returned by `sparseFullWalkRun` has non-negative last `k` coordinates and satisfies every equation up to the tolerance of the solver, however
many steps the walk made: the error is made once, by the centre. -/
theorem C89_sparse_rows {k : Int} (hS : FRTolSetting glp E err δ A b k.toNat) (he : err ≤ 1 / 2) (hA : IndepRows A.val)
    (hall : ∀ i : Fin A.c, Survives A.val b k.toNat i)
    (hbd : ∃ M, ∀ x ∈ PolyEq A.val b k.toNat, ∀ i, |x i| ≤ M) {walk : SparseWalk ℝ}
    (hw : walk.KeepsFibre) {niter burnin thin seed : Int} (hi : SaneInts niter burnin thin) {fuel : ℕ}
    {gi : Int} {rows : List (Fin A.c → ℝ)}
    (h : sparseFullWalkRun glp E err fuel gi walk niter A ⟨A.r, b⟩ k burnin thin seed = .ok rows) :
    ∀ x ∈ rows, x ∈ TailNonneg A.c k.toNat ∧ ∀ i, |(A.val *ᵥ x) i - b i| ≤ δ := by
  unfold sparseFullWalkRun at h
  split at h
  · cases h
  rename_i hk
  push Not at hk
  obtain ⟨⟨out, gi'⟩, h1, h⟩ := Out.bind_eq_ok.1 h
  obtain ⟨x, h2, h⟩ := Out.bind_eq_ok.1 h
  obtain ⟨S, h3, h⟩ := Out.bind_eq_ok.1 h
  obtain ⟨hinv, -, -⟩ := reduce_inv_tol hS h1
  have hdim := hinv.dim
  have hbij := C89_bijection hS h1
  obtain ⟨g, hg, hgx, hV, f, hf, hsA⟩ := hinv.sel
  -- no column is dropped
  have hsurj : Function.Surjective g := by
    intro i
    rcases hall i with h4 | ⟨y, hy, hy0⟩
    · exact ⟨⟨i.val, by omega⟩, Fin.ext (hgx _ h4)⟩
    · obtain ⟨v, -, rfl⟩ := hbij.surjOn hy
      by_contra hno
      push Not at hno
      exact hy0 (selV_mulVec_off hV v i hno)
  have hc : out.sparse.c = A.c :=
    le_antisymm (by simpa using Fintype.card_le_of_injective g hg.injective) (by simpa using Fintype.card_le_of_surjective g hsurj)
  -- no row is dropped
  have hr : out.sparse.r = A.r := by
    refine le_antisymm (by simpa using Fintype.card_le_of_injective f hf) ?_
    obtain ⟨v, hv, hpos⟩ := C89_strict hS h1
    have hker := fun u => hinv.ker hS.nonempty hv hpos u
    have hI : IndepRows (A.val.submatrix id g) := by
      intro y hy
      apply hA
      funext i
      obtain ⟨j, rfl⟩ := hsurj i
      exact congrFun hy j
    refine rows_le_of_ker (B := out.sparse.A) hI fun u hu => ?_
    rw [← mulVec_selV hV]
    exact hker u hu
  have hfs : Function.Surjective f := by
    have : Function.Bijective f := (Fintype.bijective_iff_injective_and_card f).2 ⟨hf, by simp; omega⟩
    exact this.2
  -- right hand sides
  have hsb : ∀ i, out.sparse.b i = b (f i) := by
    obtain ⟨y, hy⟩ := hS.nonempty
    obtain ⟨v, hv, hvy⟩ := hbij.surjOn hy
    intro i
    rw [← hv.1, ← hy.1, ← hvy]
    show _ = (A.val *ᵥ (out.sparse.V *ᵥ v)) (f i)
    rw [mulVec_selV hV, hsA]
    rfl
  have hval : ∀ (v : Fin out.sparse.c → ℝ) i, (A.val *ᵥ (out.sparse.V *ᵥ v)) (f i) = (out.sparse.A *ᵥ v) i := by
    intro v i
    rw [mulVec_selV hV, hsA]
    rfl
  simp only at h2 h3 h x
  have hK : ((out.sparse.r : Int) - ((A.r : Int) - k)) = ((k.toNat : ℕ) : Int) := by omega
  rw [hK] at h2 h3
  have hpoly : PolyEq out.sparse.A out.sparse.b k.toNat = PolyFrom out.sparse.A out.sparse.b (A.c - k.toNat) := by
    rw [polyEq_eq_polyFrom]
    congr 1
    omega
  obtain ⟨v, hv, τ, hτ, hd⟩ := reduced_depth hS he h1
  have hτ0 : 0 ≤ τ := by linarith [hS.tol]
  have hcen : (∀ i, |(out.sparse.A *ᵥ x) i - out.sparse.b i| ≤ δ) ∧
      ∀ j : Fin out.sparse.c, out.sparse.c - k.toNat ≤ j.val → τ - 2 * δ ≤ x j := by
    obtain ⟨x', h2', hx', hx''⟩ := C89_sparseCenter hS.lp ⟨_, _, out.sparse.A⟩ out.sparse.b k.toNat (by omega)
      (by show k.toNat ≤ out.sparse.c; omega)
      (sparseCenter_attains (by omega) (by show k.toNat ≤ out.sparse.c; omega) (by rw [hpoly]; exact ⟨v, hv⟩)
        (by rw [hpoly]; exact reduced_bounded hS h1 hbd)) hτ0 hv.1
      (fun j hj => hd j (by have : out.sparse.c - k.toNat ≤ j.val := hj; omega))
    rw [h2] at h2'
    cases h2'
    exact ⟨hx', hx''⟩
  obtain ⟨hSc, hrows⟩ := hw niter burnin thin seed ⟨_, _, out.sparse.A⟩ out.sparse.b k.toNat x S hi (by omega)
    (by show ((k.toNat : ℕ) : Int) ≤ (out.sparse.c : Int); omega) hinv.indep
    (fun j hj => by
      rw [Int.toNat_natCast] at hj
      have := hcen.2 j hj
      linarith) h3
  intro p hp
  obtain ⟨row, hrow, hback⟩ := mapRows_mem h p hp
  obtain ⟨hy1, hy2⟩ := hrows row hrow
  rw [Int.toNat_natCast] at hy2
  unfold sparseBack at hback
  rw [dif_pos hSc] at hback
  have e := Out.ok.inj hback
  rw [mulVec_real] at e
  rw [← e]
  refine ⟨fun i hi => ?_, fun i => ?_⟩
  · obtain ⟨j, rfl⟩ := hsurj i
    have e1 := selV_mulVec hg.injective hV (fun j => row (j.cast hSc)) j
    refine e1.symm ▸ hy2 j ?_
    show out.sparse.c - k.toNat ≤ j.val
    have := strictMono_id hg hc.ge j
    omega
  · obtain ⟨j, rfl⟩ := hfs i
    have e1 := hval (fun j => row (j.cast hSc)) j
    rw [← hsb, e1]
    have e2 : (out.sparse.A *ᵥ fun j => row (j.cast hSc)) j = (out.sparse.A *ᵥ x) j := congrFun hy1 j
    rw [e2]
    exact hcen.1 j

end
end PW
