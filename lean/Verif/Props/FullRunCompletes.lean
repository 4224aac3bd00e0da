import Verif.Props.Completes
import Verif.Props.FullRunSparse

/-!
# Completion of the full runs (C52), and a polytope on which all full-run theorems apply
-/

namespace PW
open Classical Matrix

section
variable {glp : Glpk ℝ} {E : Eigen ℝ} {err : ℝ} {A : DMat ℝ}

theorem mapRows_ok {α β : Type} {f : α → Out β} : ∀ {l : List α}, (∀ x ∈ l, ∃ y, f x = .ok y) →
    ∃ l', mapRows f l = .ok l'
  | [], _ => ⟨[], rfl⟩
  | a :: l, h => by
    obtain ⟨y, hy⟩ := h a (by simp)
    obtain ⟨l', hl'⟩ := mapRows_ok (f := f) (l := l) fun x hx => h x (by simp [hx])
    refine ⟨y :: l', ?_⟩
    show (f a).bind _ = _
    rw [hy, Out.ok_bind, hl']; rfl

theorem ne_zero_of_tailPos {n k : ℕ} (hk : 1 ≤ k) (hkn : k ≤ n) {x : Fin n → ℝ} (h : x ∈ TailPos n k) :
    x ≠ 0 := by
  intro h0
  have := h ⟨n - 1, by omega⟩ (by simp; omega)
  rw [h0] at this
  exact lt_irrefl _ this

/-- **C52 (partial)**: for a bounded polytope with a point whose constrained coordinates are all positive,
`denseFullWalkRun` returns normally for every walk that does on `k` inequalities in at most `A.c` variables (`A.c - A.r` when the rows
of `A` are independent), with the integers of the call. Missing: polytopes without such a point, for which it does not return, see
`C52_face_crash`. -/
theorem C52_completes_partial (hS : FRSetting glp E err A) (h1 : err ≤ 1) {b : Fin A.r → ℝ} {k : Int}
    (hk : 0 < k ∧ k ≤ A.c) {x : Fin A.c → ℝ} (hx : x ∈ PolyEq A.val b k.toNat)
    (hpos : x ∈ TailPos A.c k.toNat) (hbd : ∃ M, ∀ x ∈ PolyEq A.val b k.toNat, ∀ i, x i ≤ M)
    {walk : DenseWalk ℝ} (niter burnin thin seed : Int)
    (hwalk : ∀ (init : DVec ℝ) (M : DMat ℝ) (c : DVec ℝ), init.n = M.c → M.r = c.n → (M.r : Int) = k → M.c ≤ A.c →
      (IndepRows A.val → M.c + A.r = A.c) → ∃ S, walk niter init M c burnin thin seed = .ok S ∧ S.c = M.c)
    {fuel : ℕ} (hf : k.toNat < fuel) (gi : Int) :
    ∃ rows, denseFullWalkRun glp E err fuel gi walk niter A ⟨A.r, b⟩ k burnin thin seed = .ok rows := by
  obtain ⟨out, gi', hr⟩ := C41_terminates_partial hS h1 b hk hx
    (ne_zero_of_tailPos (by omega) (by omega) hpos) hbd hf gi false
  obtain ⟨hc, hri⟩ := reduce_keeps hS hx hpos hr
  obtain ⟨hrc, hxd, hout⟩ := reduce_dense_ok hr
  have e1 : out.denseA.r = out.sparse.c - (A.c - k.toNat) := by rw [hout]
  have e2 : out.denseb.n = out.sparse.c - (A.c - k.toNat) := by rw [hout]
  have e3 : out.denseA.c = out.sparse.c - out.sparse.r := by rw [hout]
  have e4 : out.Q.r = out.sparse.c := by rw [hout]
  have e5 : out.Q.c = out.sparse.c := by rw [hout]
  have e6 : out.z1.n = out.sparse.r := by rw [hout]
  unfold denseFullWalkRun
  rw [if_neg (by omega), hr, Out.ok_bind]
  simp only
  unfold DenseCenter.getInitialPoint
  rw [if_neg (by omega), Out.ok_bind]
  obtain ⟨S, hSok, hSc⟩ := hwalk
    ⟨_, fun j => glp.solve (denseCenterLP out.denseA.val out.denseb) j.castSucc⟩
    out.denseA out.denseb rfl (by omega) (by omega) (by omega) (fun hA => by have := hri hA; omega)
  rw [hSok, Out.ok_bind]
  apply mapRows_ok
  intro row _
  unfold denseBack
  rw [dif_pos (by omega)]
  simp only
  rw [dif_pos (by omega)]
  exact ⟨_, rfl⟩

/-- The sparse counterpart: independent rows and a strictly positive point. -/
theorem C52_sparse_completes_partial (hS : FRSetting glp E err A) (h1 : err ≤ 1) {b : Fin A.r → ℝ} {k : Int}
    (hk : 0 < k ∧ k ≤ A.c) (hA : IndepRows A.val) {x : Fin A.c → ℝ} (hx : x ∈ PolyEq A.val b k.toNat)
    (hpos : x ∈ TailPos A.c k.toNat) (hbd : ∃ M, ∀ x ∈ PolyEq A.val b k.toNat, ∀ i, x i ≤ M)
    {walk : SparseWalk ℝ} (niter burnin thin seed : Int)
    (hwalk : ∀ (init : DVec ℝ) (M : DMat ℝ) (c : DVec ℝ), init.n = M.c → M.r = c.n → M.c = A.c → M.r = A.r →
      ∃ S, walk niter init M c k burnin thin seed = .ok S ∧ S.c = M.c)
    {fuel : ℕ} (hf : k.toNat < fuel) (gi : Int) :
    ∃ rows, sparseFullWalkRun glp E err fuel gi walk niter A ⟨A.r, b⟩ k burnin thin seed = .ok rows := by
  obtain ⟨out, gi', hr⟩ := C41_terminates_partial hS h1 b hk hx
    (ne_zero_of_tailPos (by omega) (by omega) hpos) hbd hf gi true
  obtain ⟨hc, hrr⟩ := reduce_keeps hS hx hpos hr
  have hrr := hrr hA
  unfold sparseFullWalkRun
  rw [if_neg (by omega), hr, Out.ok_bind]
  simp only
  have hK : ((out.sparse.r : Int) - ((A.r : Int) - k)) = k := by omega
  rw [hK]
  unfold SparseCenter.getInitialPoint findOptimalVector
  simp only
  rw [if_neg (by omega), if_neg (by omega)]
  have hno : ¬ ((sparseCenterLP out.sparse.A ⟨out.sparse.r, out.sparse.b⟩ k.toNat).r = 0 ∨
      (sparseCenterLP out.sparse.A ⟨out.sparse.r, out.sparse.b⟩ k.toNat).c = 0) := by
    show ¬ (out.sparse.r + k.toNat = 0 ∨ out.sparse.c + 1 = 0)
    omega
  rw [if_neg hno, Out.map_ok, Out.ok_bind]
  obtain ⟨S, hSok, hSc⟩ := hwalk
    ⟨_, fun j : Fin out.sparse.c =>
      glp.solve (sparseCenterLP out.sparse.A ⟨out.sparse.r, out.sparse.b⟩ k.toNat) j.castSucc⟩
    ⟨_, _, out.sparse.A⟩ ⟨_, out.sparse.b⟩ rfl rfl hc hrr
  have h2 := congrArg (fun o => Out.bind o fun steps => mapRows (sparseBack out.sparse) steps.rows) hSok
  refine (show ∃ l', mapRows (sparseBack out.sparse) S.rows = .ok l' from ?_).imp fun l' hl' => h2.trans hl'
  apply mapRows_ok
  intro row _
  unfold sparseBack
  rw [dif_pos hSc.symm]
  exact ⟨_, rfl⟩

/-- **C52 (partial)**, for the walks of the library: with the documented integers, and with what the walk needs of the dimensions of the
problem it is handed, `denseFullWalkRun` returns. -/
theorem C52_library_partial (hS : FRSetting glp E err A) (h1 : err ≤ 1) {b : Fin A.r → ℝ} {k : Int}
    (hk : 0 < k ∧ k ≤ A.c) {x : Fin A.c → ℝ} (hx : x ∈ PolyEq A.val b k.toNat)
    (hpos : x ∈ TailPos A.c k.toNat) (hbd : ∃ M, ∀ x ∈ PolyEq A.val b k.toNat, ∀ i, x i ≤ M)
    (w : Walk ℝ) (hd : w.isSparse = false) (e : Env ℝ) (niter burnin thin seed : Int) (hg : GoodInts niter burnin thin)
    (hw : ∀ (init : DVec ℝ) (M : DMat ℝ) (c : DVec ℝ), (M.r : Int) = k → M.c ≤ A.c → (IndepRows A.val → M.c + A.r = A.c) →
      w.NeedsMet ⟨niter, init, M, c, 0, burnin, thin, seed⟩)
    {fuel : ℕ} (hf : k.toNat < fuel) (gi : Int) :
    ∃ rows, denseFullWalkRun glp E err fuel gi (w.toDense e) niter A ⟨A.r, b⟩ k burnin thin seed = .ok rows := by
  refine C52_completes_partial hS h1 hk hx hpos hbd niter burnin thin seed ?_ hf gi
  intro init M c h2 h3 h4 h5 h6
  obtain ⟨rows, hr⟩ := C54_returns w e ⟨niter, init, M, c, 0, burnin, thin, seed⟩ (hw init M c h4 h5 h6) hg ⟨h2, h3⟩
    (fun h => by rw [hd] at h; cases h)
  exact ⟨_, by rw [Walk.toDense, hr]; rfl, rfl⟩

/-- The sparse counterpart. -/
theorem C52_sparse_library_partial (hS : FRSetting glp E err A) (h1 : err ≤ 1) {b : Fin A.r → ℝ} {k : Int}
    (hk : 0 < k ∧ k ≤ A.c) (hA : IndepRows A.val) {x : Fin A.c → ℝ} (hx : x ∈ PolyEq A.val b k.toNat)
    (hpos : x ∈ TailPos A.c k.toNat) (hbd : ∃ M, ∀ x ∈ PolyEq A.val b k.toNat, ∀ i, x i ≤ M)
    (w : Walk ℝ) (e : Env ℝ) (niter burnin thin seed : Int) (hg : GoodInts niter burnin thin)
    (hw : ∀ (init : DVec ℝ) (M : DMat ℝ) (c : DVec ℝ), M.c = A.c → M.r = A.r → w.NeedsMet ⟨niter, init, M, c, k, burnin, thin, seed⟩)
    {fuel : ℕ} (hf : k.toNat < fuel) (gi : Int) :
    ∃ rows, sparseFullWalkRun glp E err fuel gi (w.toSparse e) niter A ⟨A.r, b⟩ k burnin thin seed = .ok rows := by
  refine C52_sparse_completes_partial hS h1 hk hA hx hpos hbd niter burnin thin seed ?_ hf gi
  intro init M c h2 h3 h4 h5
  obtain ⟨rows, hr⟩ := C54_returns w e ⟨niter, init, M, c, k, burnin, thin, seed⟩ (hw init M c h4 h5) hg ⟨h2, h3⟩
    (fun _ => ⟨by show 1 ≤ k; omega, by show k ≤ (M.c : Int); omega⟩)
  exact ⟨_, by rw [Walk.toSparse, hr]; rfl, rfl⟩

end

/-! ## The segment `{x ≥ 0 | x1 + x2 = 1}` -/

/-- Its matrix. -/
def segA : DMat ℝ := ⟨1, 2, fun _ _ => 1⟩
/-- Its right hand side. -/
def segB : Fin segA.r → ℝ := fun _ => 1

theorem segA_mem {x : Fin 2 → ℝ} : x ∈ PolyEq segA.val segB 2 ↔ x 0 + x 1 = 1 ∧ 0 ≤ x 0 ∧ 0 ≤ x 1 := by
  have hs : ∀ i : Fin 1, (segA.val *ᵥ x) i = x 0 + x 1 := by
    intro i
    show ∑ j : Fin 2, (1 : ℝ) * x j = _
    simp [Fin.sum_univ_two]
  constructor
  · rintro ⟨h1, h2⟩
    exact ⟨(hs 0).symm.trans (congrFun h1 (0 : Fin 1)), h2 (0 : Fin 2) (Nat.zero_le _),
      h2 (1 : Fin 2) (Nat.zero_le _)⟩
  · rintro ⟨h1, h2, h3⟩
    refine ⟨funext fun i => (hs i).trans h1, fun i _ => ?_⟩
    have : ∀ i : Fin 2, 0 ≤ x i := by intro i; fin_cases i <;> assumption
    exact this i

theorem segA_indep : IndepRows segA.val := by
  intro y hy
  have h1 : ∑ i : Fin 1, y i * 1 = 0 := congrFun hy (0 : Fin 2)
  have h2 : y (0 : Fin 1) = 0 := by
    have h3 := (Fin.sum_univ_one (fun i : Fin 1 => y i * 1)).symm.trans h1
    exact (mul_one _).symm.trans h3
  have : ∀ i : Fin 1, y i = 0 := by intro i; fin_cases i; exact h2
  exact funext this

theorem segA_mid : (fun _ => 1 / 2 : Fin 2 → ℝ) ∈ PolyEq segA.val segB 2 :=
  segA_mem.2 ⟨by norm_num, by norm_num, by norm_num⟩

theorem segA_bdd : ∃ M, ∀ x ∈ PolyEq segA.val segB 2, ∀ i, x i ≤ M := by
  refine ⟨1, fun x hx i => ?_⟩
  obtain ⟨h1, h2, h3⟩ := segA_mem.1 hx
  have : ∀ i : Fin 2, x i ≤ 1 := by
    intro i; fin_cases i
    · show x (0 : Fin 2) ≤ 1; linarith
    · show x (1 : Fin 2) ≤ 1; linarith
  exact this i

/-- The walk that returns its initial point. -/
def echoDense : DenseWalk ℝ := fun _ x _ _ _ _ _ => .ok ⟨x.n, [x.val]⟩
/-- The walk that returns its initial point. -/
def echoSparse : SparseWalk ℝ := fun _ x _ _ _ _ _ _ => .ok ⟨x.n, [x.val]⟩

theorem echoDense_stays : echoDense.StaysInside := by
  intro niter burnin thin seed M c x S _ hx h
  cases Out.ok.inj h
  refine ⟨rfl, fun row hrow => ?_⟩
  rw [List.mem_singleton.1 hrow]
  exact hx

theorem echoSparse_stays : echoSparse.StaysInside := by
  intro niter burnin thin seed M c k x S _ _ _ _ hx h
  cases Out.ok.inj h
  refine ⟨rfl, fun row hrow => ?_⟩
  rw [List.mem_singleton.1 hrow]
  exact hx

/-- The hypotheses of `C44_denseForm`, `C48_dense`, `C49_regular`, `C50_dense`, `C50_sparse`,
`C52_completes_partial` and `C52_sparse_completes_partial` are met by full runs on the segment, which return
one point of the segment. -/
example : ∃ err, FRSetting exactGlpk exactEigen err segA ∧
    (∃ x, denseFullWalkRun exactGlpk exactEigen err 3 0 echoDense 1 segA ⟨_, segB⟩ 2 0 1 7 = .ok [x] ∧
      x ∈ PolyEq segA.val segB 2) ∧
    (∃ x, sparseFullWalkRun exactGlpk exactEigen err 3 0 echoSparse 1 segA ⟨_, segB⟩ 2 0 1 7 = .ok [x] ∧
      x ∈ PolyEq segA.val segB 2) := by
  obtain ⟨err, h1, hS⟩ := exists_frSetting segA
  have hpos : (fun _ => 1 / 2 : Fin 2 → ℝ) ∈ TailPos 2 2 := fun i _ => by norm_num
  have hints : SaneInts 1 0 1 := ⟨by decide, by decide, by decide, by decide⟩
  refine ⟨err, hS, ?_, ?_⟩
  · obtain ⟨rows, hrows⟩ := C52_completes_partial hS h1 (k := 2) (by decide) segA_mid hpos segA_bdd
      (walk := echoDense) 1 0 1 7 (fun x _ _ h _ _ _ _ => ⟨_, rfl, h⟩) (fuel := 3) (by decide) 0
    have hmem := C48_dense hS exactEigen_householderQR exactEigen_exact.inv ⟨_, segA_mid⟩ echoDense_stays hints
      hrows
    obtain ⟨_, _, S, _, _, hw, hlen, -⟩ := C50_dense _ _ _ _ _ _ _ _ _ _ _ _ _ _ hrows
    rw [← Out.ok.inj hw] at hlen
    obtain ⟨x, hx⟩ := List.length_eq_one_iff.1 hlen
    subst hx
    exact ⟨x, hrows, hmem x (by simp)⟩
  · obtain ⟨rows, hrows⟩ := C52_sparse_completes_partial hS h1 (k := 2) (by decide) segA_indep segA_mid hpos
      segA_bdd (walk := echoSparse) 1 0 1 7 (fun x _ _ h _ _ _ => ⟨_, rfl, h⟩) (fuel := 3)
      (by decide) 0
    have hmem := C49_regular hS segA_indep segA_mid hpos echoSparse_stays hints hrows
    obtain ⟨_, _, S, _, _, _, hw, hlen, -⟩ := C50_sparse _ _ _ _ _ _ _ _ _ _ _ _ _ _ hrows
    rw [← Out.ok.inj hw] at hlen
    obtain ⟨x, hx⟩ := List.length_eq_one_iff.1 hlen
    subst hx
    exact ⟨x, hrows, hmem x (by simp)⟩

/-- The hypotheses of `C52_face_crash` and `C48_face_no_rows` are met by `faceA`. -/
example : ∃ err u, FRSetting exactGlpk exactEigen err faceA ∧
    denseFullWalkRun exactGlpk exactEigen err 4 0 echoDense 1 faceA ⟨_, faceB⟩ 3 0 1 7 = .ub u := by
  obtain ⟨err, h1, hS⟩ := exists_frSetting faceA
  have hx : (![1, 0, 0] : Fin 3 → ℝ) ∈ PolyEq faceA.val faceB 3 := by
    rw [faceA_mem]; simp
  obtain ⟨u, hu⟩ := C52_face_crash hS h1 (b := faceB) (k := 3) (by decide) hx
    (fun h => one_ne_zero (α := ℝ) (congrFun h (0 : Fin 3)))
    ⟨1, by
      intro x hx i
      have hx' := faceA_mem.1 hx
      have : ∀ i : Fin 3, x i ≤ 1 := by
        intro i; fin_cases i
        · show x (0 : Fin 3) ≤ 1; linarith [hx'.2.2.2, hx'.1]
        · show x (1 : Fin 3) ≤ 1; linarith [hx'.2.2.1, hx'.1]
        · show x (2 : Fin 3) ≤ 1; linarith [hx'.2.1]
      exact this i⟩
    (i := (2 : Fin 3)) (by decide) (fun x hx => (faceA_mem.1 hx).2.1) (walk := echoDense)
    1 0 1 7 (fun x _ _ _ _ _ _ _ => ⟨_, rfl, by simp⟩) (fuel := 4) (by decide) 0
  exact ⟨err, u, hS, hu⟩

end PW
