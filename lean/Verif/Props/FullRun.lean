import Verif.Lemmas.DenseForm
import Verif.Props.CentersBounded
import Verif.Props.DensePolytope
import Verif.Props.SparsePolytope
import Verif.Spec.FullRun

/-!
# The dense form and the full-run drivers: C44, C48, C49, C50
-/

namespace PW
open Classical Matrix

section
variable {glp : Glpk ℝ} {E : Eigen ℝ} {err : ℝ} {A : DMat ℝ}

/-- `reduce` with `sparse = false` stores the dense form of the reduced system. -/
theorem reduce_dense_ok {b : Fin A.r → ℝ} {k : Int} {fuel : ℕ} {gi gi' : Int} {out : FROutput ℝ A.c}
    (h : FacialReduction.reduce glp E err fuel gi A ⟨A.r, b⟩ k false = .ok (out, gi')) :
    ∃ hrc : out.sparse.r ≤ out.sparse.c, A.c - k.toNat ≤ out.sparse.c ∧
      out = ⟨out.sparse, ⟨_, _, denseAOf E out.sparse (A.c - k.toNat)⟩,
        ⟨_, densebOf E out.sparse (A.c - k.toNat) hrc⟩,
        ⟨_, _, (E.householderQR (transp out.sparse.A)).Q⟩, ⟨_, denseZ1 E out.sparse hrc⟩⟩ := by
  obtain ⟨-, -, g', -, h2⟩ := reduce_ok h
  unfold frFinish at h2
  rw [if_neg (by simp)] at h2
  split at h2
  · rename_i hrc
    split at h2
    · rename_i hx
      exact ⟨hrc, hx, (Out.ok.inj h2).symm⟩
    · cases h2
  · cases h2

/-- **C44**: after `reduce` with `sparse = false`, `y ↦ Q [z1; y]` is a bijection from
`{y | dense_A y ≤ dense_b}` onto the reduced constrained polytope, and preserves distances. -/
theorem C44_denseForm (hQ : E.HouseholderExact) (hI : E.InvExact) {b : Fin A.r → ℝ} {k : Int} {fuel : ℕ}
    {gi gi' : Int} {out : FROutput ℝ A.c}
    (h : FacialReduction.reduce glp E err fuel gi A ⟨A.r, b⟩ k false = .ok (out, gi'))
    (hA : IndepRows out.sparse.A) :
    ∃ (hr : out.sparse.c = out.Q.r) (hc : out.Q.c = out.z1.n + out.denseA.c)
      (hb : out.denseA.r = out.denseb.n),
      Set.BijOn
        (fun y i => (out.Q.val *ᵥ (Fin.append out.z1.val y ∘ Fin.cast hc)) (Fin.cast hr i))
        (Poly out.denseA.val (out.denseb.val ∘ Fin.cast hb))
        (PolyFrom out.sparse.A out.sparse.b (A.c - k.toNat)) ∧
      ∀ y y' : Fin out.denseA.c → ℝ,
        ∑ i, ((out.Q.val *ᵥ (Fin.append out.z1.val y ∘ Fin.cast hc)) i -
          (out.Q.val *ᵥ (Fin.append out.z1.val y' ∘ Fin.cast hc)) i) ^ 2 = ∑ j, (y j - y' j) ^ 2 := by
  obtain ⟨hrc, hx, e⟩ := reduce_dense_ok h
  obtain ⟨s, dA, db, Q, z1⟩ := out
  simp only at hrc hx e hA
  obtain ⟨-, rfl, rfl, rfl, rfl⟩ := FROutput.mk.inj e
  have hc : s.c = s.r + (s.c - s.r) := by omega
  refine ⟨rfl, hc, rfl, ?_, ?_⟩
  all_goals
    have e2 : ∀ y : Fin (s.c - s.r) → ℝ, Fin.append (denseZ1 E s hrc) y ∘ Fin.cast hc =
        joinVec (denseZ1 E s hrc) y := by
      intro y
      funext j
      unfold joinVec
      show Fin.append _ _ (Fin.cast hc j) = _
      split
      · rename_i hj
        have : Fin.cast hc j = Fin.castAdd (s.c - s.r) ⟨j.val, hj⟩ := Fin.ext rfl
        rw [this, Fin.append_left]
      · rename_i hj
        have : Fin.cast hc j = Fin.natAdd s.r ⟨j.val - s.r, by omega⟩ := Fin.ext (by simp; omega)
        rw [this, Fin.append_right]
    have e3 : ∀ y : Fin (s.c - s.r) → ℝ, (E.householderQR (transp s.A)).Q *ᵥ
        (Fin.append (denseZ1 E s hrc) y ∘ Fin.cast hc) = liftVec E s hrc y := by
      intro y
      rw [e2]; rfl
  · exact (lift_bijOn hI (hQ _) hA hrc _).congr fun y _ => (e3 y).symm
  · intro y y'
    refine Eq.trans ?_ (lift_dist (hQ _) hrc y y')
    exact Finset.sum_congr rfl fun i _ => by
      have a := congrFun (e3 y) i
      have b := congrFun (e3 y') i
      exact congrArg₂ (fun u v => (u - v) ^ 2) a b

/-! ## Walks that stay inside -/

/-- The dense Ball walk and every dense barrier walk stay inside. -/
theorem staysInside_denseMH (w : Walk ℝ) (hw : w.DenseMH) (e : Env ℝ) : (w.toDense e).StaysInside := by
  intro niter burnin thin seed A b x S hi hx h
  obtain ⟨rows, h1, rfl⟩ := Out.map_eq_ok.1 h
  exact ⟨rfl, C10_feasible w hw e ⟨niter, ⟨A.c, x⟩, A, ⟨A.r, b⟩, 0, burnin, thin, seed⟩ hi ⟨rfl, rfl⟩ hx
    rows h1⟩

/-- Dense Hit-and-Run stays inside. -/
theorem staysInside_hitRun (R ERR : ℝ) (e : Env ℝ) (hr : e.r.UnitDraws) :
    ((Walk.hitRun R ERR).toDense e).StaysInside := by
  intro niter burnin thin seed A b x S hi hx h
  obtain ⟨rows, h1, rfl⟩ := Out.map_eq_ok.1 h
  exact ⟨rfl, C11_feasible R ERR e hr ⟨niter, ⟨A.c, x⟩, A, ⟨A.r, b⟩, 0, burnin, thin, seed⟩ hi ⟨rfl, rfl⟩ hx
    rows h1⟩

/-- The sparse Ball walk stays inside. -/
theorem staysInside_sparseBall (R : ℝ) (hE : E.SparseLUExact) (e : Env ℝ) :
    ((Walk.sparseBall R E).toSparse e).StaysInside := by
  intro niter burnin thin seed A b k x S hi hk1 hk2 hA hx h
  obtain ⟨rows, h1, rfl⟩ := Out.map_eq_ok.1 h
  refine ⟨rfl, fun row hrow => ⟨?_, ?_⟩⟩
  · exact C16_ball R E hE e ⟨niter, ⟨A.c, x⟩, A, ⟨A.r, b⟩, k, burnin, thin, seed⟩
      (PosDef.isUnit_det hA.posDef) hi ⟨rfl, rfl⟩ hx.1 rows h1 row hrow
  · exact C17_nonneg _ (.ball R E) e ⟨niter, ⟨A.c, x⟩, A, ⟨A.r, b⟩, k, burnin, thin, seed⟩ hi ⟨rfl, rfl⟩
      hx.2 rows h1 row hrow

/-- Sparse Hit-and-Run stays inside. -/
theorem staysInside_sparseHitRun (R ERR : ℝ) (hE : E.SparseLUExact) (e : Env ℝ) (hr : e.r.UnitDraws) :
    ((Walk.sparseHitRun R ERR E).toSparse e).StaysInside := by
  intro niter burnin thin seed A b k x S hi hk1 hk2 hA hx h
  obtain ⟨rows, h1, rfl⟩ := Out.map_eq_ok.1 h
  exact ⟨rfl, C18_feasible R ERR E hE e hr ⟨niter, ⟨A.c, x⟩, A, ⟨A.r, b⟩, k, burnin, thin, seed⟩
      (PosDef.isUnit_det hA.posDef) hi ⟨rfl, rfl⟩ hx rows h1⟩

/-! ## Rows -/

theorem mapRows_length {α β : Type} {f : α → Out β} : ∀ {l : List α} {l' : List β},
    mapRows f l = .ok l' → l'.length = l.length
  | [], l', h => by cases h; rfl
  | a :: l, l', h => by
    obtain ⟨b, -, h2⟩ := Out.bind_eq_ok.1 h
    obtain ⟨bs, h3, h4⟩ := Out.bind_eq_ok.1 h2
    cases h4
    simp [mapRows_length h3]

/-- Row by row. -/
theorem mapRows_forall₂ {α β : Type} {f : α → Out β} : ∀ {l : List α} {l' : List β},
    mapRows f l = .ok l' → List.Forall₂ (fun x y => f x = .ok y) l l'
  | [], l', h => by cases h; exact .nil
  | a :: l, l', h => by
    obtain ⟨b, h1, h2⟩ := Out.bind_eq_ok.1 h
    obtain ⟨bs, h3, h4⟩ := Out.bind_eq_ok.1 h2
    cases h4
    exact .cons h1 (mapRows_forall₂ h3)

theorem mapRows_mem {α β : Type} {f : α → Out β} : ∀ {l : List α} {l' : List β},
    mapRows f l = .ok l' → ∀ y ∈ l', ∃ x ∈ l, f x = .ok y
  | [], l', h => by cases h; simp
  | a :: l, l', h => by
    obtain ⟨b, h1, h2⟩ := Out.bind_eq_ok.1 h
    obtain ⟨bs, h3, h4⟩ := Out.bind_eq_ok.1 h2
    cases h4
    intro y hy
    rcases List.mem_cons.1 hy with rfl | hy
    · exact ⟨a, by simp, h1⟩
    · obtain ⟨x, hx, hf⟩ := mapRows_mem h3 y hy
      exact ⟨x, by simp [hx], hf⟩

/-- **C50** (dense): in any arithmetic, a full run that returns has run the facial reduction, the centre
computation and the walk, and returns one row per row of the walk, in order, each the image of the walk's row. (That the rows have `A.cols()` columns is
part of the result type.) -/
theorem C50_dense {F : Type} [Scalar F] (glp : Glpk F) (E : Eigen F) (err : F) (fuel : ℕ) (gi : Int)
    (walk : DenseWalk F) (niter : Int) (A : DMat F) (b : DVec F) (k burnin thin seed : Int)
    (rows : List (Fin A.c → F))
    (h : denseFullWalkRun glp E err fuel gi walk niter A b k burnin thin seed = .ok rows) :
    ∃ fr x S, FacialReduction.reduce glp E err fuel gi A b k false = .ok fr ∧
      DenseCenter.getInitialPoint glp fr.1.denseA fr.1.denseb = .ok x ∧
      walk niter ⟨_, x⟩ fr.1.denseA fr.1.denseb burnin thin seed = .ok S ∧
      rows.length = S.rows.length ∧
      List.Forall₂ (fun y row => denseBack fr.1 A.c y = .ok row) S.rows rows := by
  unfold denseFullWalkRun at h
  split at h
  · cases h
  · obtain ⟨fr, h1, h⟩ := Out.bind_eq_ok.1 h
    obtain ⟨x, h2, h⟩ := Out.bind_eq_ok.1 h
    obtain ⟨S, h3, h⟩ := Out.bind_eq_ok.1 h
    exact ⟨fr, x, S, h1, h2, h3, mapRows_length h, mapRows_forall₂ h⟩

/-- **C50** (sparse). -/
theorem C50_sparse {F : Type} [Scalar F] (glp : Glpk F) (E : Eigen F) (err : F) (fuel : ℕ) (gi : Int)
    (walk : SparseWalk F) (niter : Int) (A : DMat F) (b : DVec F) (k burnin thin seed : Int)
    (rows : List (Fin A.c → F))
    (h : sparseFullWalkRun glp E err fuel gi walk niter A b k burnin thin seed = .ok rows) :
    ∃ fr x S newK, FacialReduction.reduce glp E err fuel gi A b k true = .ok fr ∧
      SparseCenter.getInitialPoint glp ⟨_, _, fr.1.sparse.A⟩ ⟨_, fr.1.sparse.b⟩ newK = .ok x ∧
      walk niter ⟨_, x⟩ ⟨_, _, fr.1.sparse.A⟩ ⟨_, fr.1.sparse.b⟩ newK burnin thin seed = .ok S ∧
      rows.length = S.rows.length ∧
      List.Forall₂ (fun y row => sparseBack fr.1.sparse y = .ok row) S.rows rows := by
  unfold sparseFullWalkRun at h
  split at h
  · cases h
  · obtain ⟨fr, h1, h⟩ := Out.bind_eq_ok.1 h
    obtain ⟨x, h2, h⟩ := Out.bind_eq_ok.1 h
    obtain ⟨S, h3, h⟩ := Out.bind_eq_ok.1 h
    exact ⟨fr, x, S, _, h1, h2, h3, mapRows_length h, mapRows_forall₂ h⟩

/-! ## C48 -/

/-- A strictly increasing map between initial segments of the same length is the identity. -/
theorem strictMono_id {c n : ℕ} {g : Fin c → Fin n} (hg : StrictMono g) (hc : n ≤ c) (j : Fin c) :
    (g j).val = j.val := by
  have hle : c ≤ n := by simpa using Fintype.card_le_of_injective g hg.injective
  obtain rfl : c = n := by omega
  have h1 : ∀ (j : ℕ) (hj : j < c), j ≤ (g ⟨j, hj⟩).val := by
    intro j
    induction j with
    | zero => intro _; omega
    | succ j ih =>
      intro hj
      have := ih (by omega)
      have h2 : g ⟨j, by omega⟩ < g ⟨j + 1, hj⟩ := hg (by simp [Fin.lt_def])
      have h3 : (g ⟨j, by omega⟩).val < (g ⟨j + 1, hj⟩).val := h2
      omega
  have h2 : ∀ (t j : ℕ) (hj : j < c), c - j = t → (g ⟨j, hj⟩).val ≤ j := by
    intro t
    induction t with
    | zero => intro j hj ht; omega
    | succ t ih =>
      intro j hj ht
      by_cases hj' : j + 1 < c
      · have := ih (j + 1) hj' (by omega)
        have h2 : g ⟨j, hj⟩ < g ⟨j + 1, hj'⟩ := hg (by simp [Fin.lt_def])
        have h3 : (g ⟨j, hj⟩).val < (g ⟨j + 1, hj'⟩).val := h2
        omega
      · have := (g ⟨j, hj⟩).isLt
        omega
  exact le_antisymm (h2 _ j.val j.isLt rfl) (h1 j.val j.isLt)

/-- **C48**: for a non-empty polytope and any dense walk that stays in the polytope it is given, every row
returned by `denseFullWalkRun` is a point of the original polytope. -/
theorem C48_dense (hS : FRSetting glp E err A) (hQ : E.HouseholderExact) (hI : E.InvExact)
    {b : Fin A.r → ℝ} {k : Int} (hne : (PolyEq A.val b k.toNat).Nonempty) {walk : DenseWalk ℝ}
    (hw : walk.StaysInside) {niter burnin thin seed : Int} (hi : SaneInts niter burnin thin) {fuel : ℕ}
    {gi : Int} {rows : List (Fin A.c → ℝ)}
    (h : denseFullWalkRun glp E err fuel gi walk niter A ⟨A.r, b⟩ k burnin thin seed = .ok rows) :
    ∀ x ∈ rows, x ∈ PolyEq A.val b k.toNat := by
  unfold denseFullWalkRun at h
  split at h
  · cases h
  obtain ⟨fr, h1, h⟩ := Out.bind_eq_ok.1 h
  obtain ⟨x, h2, h⟩ := Out.bind_eq_ok.1 h
  obtain ⟨S, h3, h⟩ := Out.bind_eq_ok.1 h
  obtain ⟨out, gi'⟩ := fr
  simp only at h2 h3 h x
  have hbij := C39_facialReduction hS hne h1
  obtain ⟨hinv, -, -⟩ := reduce_inv hS h1
  obtain ⟨g, hg, -, hV, -⟩ := hinv.sel
  obtain ⟨hr, hc, hb, hlift, -⟩ := C44_denseForm hQ hI h1 (C43_indepRows_partial hS h1)
  obtain ⟨s, dA, ⟨dbn, db⟩, Q, z1⟩ := out
  simp only at h2 h3 h x hbij g hg hV hr hc hb hlift
  subst hb
  -- the dense polytope is not empty, so the centre is inside it
  have hdne : (Poly dA.val db).Nonempty := by
    obtain ⟨x0, hx0⟩ := hne
    obtain ⟨v, hv, -⟩ := hbij.surjOn hx0
    obtain ⟨y, hy, -⟩ := hlift.surjOn hv
    exact ⟨y, hy⟩
  have hx : x ∈ Poly dA.val db := by
    have hr0 : 0 < dA.r := by
      by_contra h0
      unfold DenseCenter.getInitialPoint at h2
      rw [if_pos (Or.inl (by omega))] at h2
      cases h2
    obtain ⟨x', h2', hx', -⟩ := C46_denseCenter glp hS.lp dA db hr0 hdne
    rw [h2] at h2'
    cases h2'
    exact hx'
  obtain ⟨hSc, hrows⟩ := hw niter burnin thin seed dA db x S hi hx h3
  intro p hp
  obtain ⟨row, hrow, hback⟩ := mapRows_mem h p hp
  have hy := hlift.mapsTo (hrows row hrow)
  have hz := hbij.mapsTo hy
  unfold denseBack at hback
  split at hback
  · rename_i hcQ
    simp only at hback hcQ
    split at hback
    · rename_i hcols
      have e := Out.ok.inj hback
      have hV' : p = s.V *ᵥ fun i => (Q.val *ᵥ (Fin.append z1.val (row ∘ Fin.cast hSc) ∘ Fin.cast hc))
          (Fin.cast hr i) := by
        funext i
        have hgi : g ⟨i.val, by omega⟩ = i := Fin.ext (strictMono_id hg (by omega) _)
        have e1 := selV_mulVec hg.injective hV (fun i => (Q.val *ᵥ (Fin.append z1.val (row ∘ Fin.cast hSc) ∘
          Fin.cast hc)) (Fin.cast hr i)) ⟨i.val, by omega⟩
        rw [hgi] at e1
        rw [e1, ← congrFun e i, mulVec_real]
        show (Q.val *ᵥ _) (i.castLE hcols) = (Q.val *ᵥ _) (i.castLE hcols)
        congr 2
        funext j
        show _ = Fin.append z1.val (row ∘ Fin.cast hSc) (Fin.cast hc j)
        split
        · rename_i hj
          have : Fin.cast hc j = Fin.castAdd dA.c ⟨j.val, hj⟩ := Fin.ext rfl
          rw [this, Fin.append_left]
        · rename_i hj
          have : Fin.cast hc j = Fin.natAdd z1.n ⟨j.val - z1.n, by omega⟩ := Fin.ext (by simp; omega)
          rw [this, Fin.append_right]
          rfl
      rw [hV']
      exact hz
    · cases hback
  · cases hback

/-- A full dense run never returns a row when a constrained coordinate vanishes on the whole (non-empty)
polytope: the reduced `Q` has fewer rows than `A` has columns and `head(A.cols())` is out of range. -/
theorem C48_face_no_rows (hS : FRSetting glp E err A) {b : Fin A.r → ℝ} {k : Int}
    (hne : (PolyEq A.val b k.toNat).Nonempty) {i : Fin A.c} (hi : A.c - k.toNat ≤ i.val)
    (hvan : ∀ x ∈ PolyEq A.val b k.toNat, x i = 0) {walk : DenseWalk ℝ} {niter burnin thin seed : Int}
    {fuel : ℕ} {gi : Int} {rows : List (Fin A.c → ℝ)}
    (h : denseFullWalkRun glp E err fuel gi walk niter A ⟨A.r, b⟩ k burnin thin seed = .ok rows) :
    rows = [] := by
  unfold denseFullWalkRun at h
  split at h
  · cases h
  obtain ⟨fr, h1, h⟩ := Out.bind_eq_ok.1 h
  obtain ⟨x, h2, h⟩ := Out.bind_eq_ok.1 h
  obtain ⟨S, h3, h⟩ := Out.bind_eq_ok.1 h
  by_contra hne'
  obtain ⟨p, hp⟩ := List.exists_mem_of_ne_nil _ hne'
  obtain ⟨row, -, hback⟩ := mapRows_mem h p hp
  obtain ⟨out, gi'⟩ := fr
  obtain ⟨g, hg, -, hd⟩ := C40_dropped hS hne h1
  obtain ⟨hrc, -, hout⟩ := reduce_dense_ok h1
  have hQr : out.Q.r = out.sparse.c := by rw [hout]
  unfold denseBack at hback
  split at hback
  · simp only at hback
    split at hback
    · rename_i hcols
      have hg' : g ⟨i.val, by omega⟩ = i := Fin.ext (strictMono_id hg (by omega) _)
      obtain ⟨x, hx, hpos⟩ := (hd i hi).1 ⟨_, hg'⟩
      exact hpos.ne' (hvan x hx)
    · cases hback
  · cases hback

end
end PW
