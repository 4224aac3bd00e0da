import Verif.Props.AcceptExact
import Verif.Props.Constants
import Verif.Props.SparseWeights

/-!
# C26, C27 along whole runs

The metric and the step constant at every state of every chain, whatever the members of the walk object were before.
-/

namespace PW
open Matrix
section
variable {F : Type} [Scalar F] {m n : ℕ}

/-- What every weight computation preserves, a step preserves (dense). -/
theorem BarrierWalk.step_obj {σ : Type} {cls : BarrierClass F σ} {E : Eigen F} {r : Rng F}
    {A : Matrix (Fin m) (Fin n) F} {b : Fin m → F} (J : σ → Prop)
    (hJ : ∀ o x wo, J o → cls.generateWeight o x A b = .ok wo → J wo.2) {s s' : (Fin n → F) × σ × r.G}
    (hs : J s.2.1) (h : BarrierWalk.step cls E r A b s = .ok s') : J s'.2.1 := by
  have hH : ∀ o x ho, J o → generateHessian cls o x A b = .ok ho → J ho.2 := by
    intro o x ho hJo hh
    unfold generateHessian at hh
    obtain ⟨wo, hw, hh⟩ := Out.bind_eq_ok.1 hh
    split at hh
    · cases hh; exact hJ _ _ _ hJo hw
    · cases hh
  simp only [BarrierWalk.step, BarrierWalk.generateSample] at h
  obtain ⟨ho, hH1, h⟩ := Out.bind_eq_ok.1 h
  have j1 := hH _ _ _ hs hH1
  obtain ⟨c, hc, h⟩ := Out.bind_eq_ok.1 h
  cases c
  · simp only [Bool.not_false, if_true, Out.ok.injEq] at h
    rw [← h]; exact j1
  · simp only [Bool.not_true, Bool.false_eq_true, if_false] at h
    obtain ⟨ho2, hH2, h⟩ := Out.bind_eq_ok.1 h
    have j2 := hH _ _ _ j1 hH2
    simp only [Out.ok.injEq] at h
    rw [← h]; exact j2

/-- What every weight computation preserves, a step preserves (sparse). -/
theorem SparseBarrier.step_obj {σ : Type} {cls : SparseBarrierClass F σ} {ERR : F} {E : Eigen F} {r : Rng F}
    {junk : Fin n → F} {A : Matrix (Fin m) (Fin n) F} {k : ℕ} (J : σ → Prop)
    (hJ : ∀ o x wo, J o → cls.generateWeight junk o x A k = .ok wo → J wo.2) {s s' : (Fin n → F) × σ × r.G}
    (hs : J s.2.1) (h : SparseBarrier.step cls ERR E r junk A k s = .ok s') : J s'.2.1 := by
  have hG : ∀ o x Go, J o → generateG cls ERR junk o x A k = .ok Go → J Go.2 := by
    intro o x ho hJo hh
    unfold generateG at hh
    obtain ⟨wo, hw, hh⟩ := Out.bind_eq_ok.1 hh
    split at hh
    · cases hh; exact hJ _ _ _ hJo hw
    · cases hh
  simp only [SparseBarrier.step, SparseBarrier.generateSample, SparseBarrier.generateProposalDensity] at h
  obtain ⟨zog, hz, h⟩ := Out.bind_eq_ok.1 h
  split at hz
  · cases hz
  obtain ⟨Go, hG1, hz⟩ := Out.bind_eq_ok.1 hz
  have j1 := hG _ _ _ hs hG1
  simp only [Out.ok.injEq] at hz
  subst hz
  obtain ⟨c, hc, h⟩ := Out.bind_eq_ok.1 h
  cases c
  · simp only [Bool.false_eq_true, if_false, Out.ok.injEq] at h
    rw [← h]; exact j1
  · simp only [if_true] at h
    obtain ⟨p, hp, h⟩ := Out.bind_eq_ok.1 h
    obtain ⟨G2, hG2, q⟩ := Out.bind_eq_ok.1 hp
    simp only [Out.ok.injEq] at q
    subst q
    obtain ⟨p', hp', h⟩ := Out.bind_eq_ok.1 h
    obtain ⟨G3, hG3, q'⟩ := Out.bind_eq_ok.1 hp'
    simp only [Out.ok.injEq] at q' h
    subst q'
    have j3 := hG _ _ _ (hG _ _ _ j1 hG2) hG3
    rw [← h]; exact j3

end

/-! ## C27: the constant in force during a run -/

/-- **C27** (dense runs): at every state of every run of a dense barrier walk of the library, whatever the members of the object were
before the call, the step constant is the documented one for `d = A.cols()` and `n = A.rows()`; recomputing the weights does not
change it. -/
theorem C27_dense_run (E : Eigen ℝ) (cls : BarrierClass ℝ (BState ℝ)) (o : BState ℝ) (e : Env ℝ) (a : Args ℝ) (hd : a.DimsOk)
    (c : ℝ) (hc : DocConst E a.A.c a.A.r cls c) (t : ℕ) (x : Fin a.A.c → ℝ) (o' : BState ℝ) (g : e.r.G)
    (h : (Walk.barrier cls E o).chain e a hd t = .ok (x, o', g)) :
    cls.distTerm o' = c ∧ ∀ z wo, cls.generateWeight o' z a.A.val (a.rhs hd) = .ok wo → cls.distTerm wo.2 = c := by
  have hpres : ∀ o z wo, cls.distTerm o = c → cls.generateWeight o z a.A.val (a.rhs hd) = .ok wo →
      cls.distTerm wo.2 = c := by
    intro o z wo ho hw
    cases hc with
    | dikin R => cases hw; exact ho
    | vaidya R => cases hw; exact ho
    | john R LIM M =>
      obtain ⟨wc, -, rfl⟩ := Out.map_eq_ok.1 (show (johnWeightConv E LIM M o.w z a.A.val (a.rhs hd)).map _ = .ok wo from hw)
      exact ho
    | leeSidford R GLIM STEP M =>
      obtain ⟨wc, -, rfl⟩ := Out.map_eq_ok.1
        (show (lsWeightConv E GLIM STEP M o.w z a.A.val (a.rhs hd)).map _ = .ok wo from hw)
      exact ho
  have hset : ∀ o1, cls.setDistTerm o a.A.c a.A.r = .ok o1 → cls.distTerm o1 = c := by
    intro o1 h1
    cases hc with
    | dikin R =>
      obtain ⟨o2, h2, h3⟩ := (C27_dense_partial E R 0 0 0 0 a.A.c a.A.r).1 o
      rw [h2] at h1; cases h1; exact h3
    | vaidya R =>
      by_cases hi : (a.A.c : Int) * a.A.r ≤ intMax
      · obtain ⟨o2, h2, h3⟩ := (C27_dense_partial E R 0 0 0 0 a.A.c a.A.r).2.1 hi o
        rw [h2] at h1; cases h1; exact h3
      · rw [(C27_overflow E 0 R o a.A.c a.A.r (by omega)).1] at h1; cases h1
    | john R LIM M =>
      obtain ⟨o2, h2, h3⟩ := (C27_dense_partial E R LIM 0 0 M a.A.c a.A.r).2.2.1 o
      rw [h2] at h1; cases h1; exact h3
    | leeSidford R GLIM STEP M =>
      obtain ⟨o2, h2, h3⟩ := (C27_dense_partial E R 0 GLIM STEP M a.A.c a.A.r).2.2.2 o
      rw [h2] at h1; cases h1; exact h3
  have key : cls.distTerm o' = c := by
    refine Walk.chain_inv (w := Walk.barrier cls E o) (e := e) (a := a) (hd := hd)
      (fun s => cls.distTerm s.2.1 = c) ?_ ?_ t (x, o', g) h
    · intro s0 h0
      obtain ⟨o1, h1, h0⟩ := Out.bind_eq_ok.1 h0
      cases h0
      exact hset o1 h1
    · intro t s s' _ hs hst
      exact BarrierWalk.step_obj (s := s) (s' := s') (fun o => cls.distTerm o = c) hpres hs hst
  exact ⟨key, fun z wo hw => hpres _ _ _ key hw⟩

/-- **C27** (sparse runs): the constant in force is the documented one for `d = A.cols() - A.rows()` and `n = k`. -/
theorem C27_sparse_run (E : Eigen ℝ) (ERR : ℝ) (cls : SparseBarrierClass ℝ (BState ℝ)) (o : BState ℝ) (e : Env ℝ)
    (a : Args ℝ) (hd : a.DimsOk) (hk : a.KOk) (hmn : a.A.r ≤ a.A.c)
    (c : ℝ) (hc : SparseDocConst E ERR (a.A.c - a.A.r) a.k.toNat cls c) (t : ℕ) (x : Fin a.A.c → ℝ) (o' : BState ℝ) (g : e.r.G)
    (h : (Walk.sparseBarrier cls ERR E o).chain e a hd t = .ok (x, o', g)) :
    cls.distTerm o' = c ∧ ∀ junk z wo, cls.generateWeight junk o' z a.A.val a.k.toNat = .ok wo → cls.distTerm wo.2 = c := by
  have hpres : ∀ junk o z wo, cls.distTerm o = c → cls.generateWeight junk o z a.A.val a.k.toNat = .ok wo →
      cls.distTerm wo.2 = c := by
    intro junk o z wo ho hw
    cases hc with
    | dikin R => cases hw; exact ho
    | vaidya R => cases hw; exact ho
    | john R LIM M =>
      obtain ⟨wc, -, rfl⟩ := Out.map_eq_ok.1
        (show (sparseJohnWeightConv E ERR LIM M o.w junk z a.A.val a.k.toNat).map _ = .ok wo from hw)
      exact ho
    | leeSidford R GLIM STEP M =>
      obtain ⟨wc, -, rfl⟩ := Out.map_eq_ok.1
        (show (sparseLSWeightConv E ERR GLIM STEP M o.w junk z a.A.val a.k.toNat).map _ = .ok wo from hw)
      exact ho
  have e1 : ((a.A.c - a.A.r : ℕ) : Int) = (a.A.c : Int) - a.A.r := by omega
  have e2 : ((a.k.toNat : ℕ) : Int) = a.k := by have := hk.1; omega
  have hset : ∀ o1, cls.setDistTerm o ((a.A.c : Int) - a.A.r) a.k = .ok o1 → cls.distTerm o1 = c := by
    intro o1 h1
    rw [← e1, ← e2] at h1
    cases hc with
    | dikin R =>
      obtain ⟨o2, h2, h3⟩ := (C27_sparse_partial E ERR R 0 0 0 0 (a.A.c - a.A.r) a.k.toNat).1 o
      rw [h2] at h1; cases h1; exact h3
    | vaidya R =>
      by_cases hi : ((a.k.toNat : ℕ) : Int) * ((a.A.c - a.A.r : ℕ) : Int) ≤ intMax
      · obtain ⟨o2, h2, h3⟩ := (C27_sparse_partial E ERR R 0 0 0 0 (a.A.c - a.A.r) a.k.toNat).2.1 hi o
        rw [h2] at h1; cases h1; exact h3
      · rw [(C27_overflow E ERR R o (a.A.c - a.A.r) a.k.toNat (by rw [mul_comm]; omega)).2] at h1; cases h1
    | john R LIM M =>
      obtain ⟨o2, h2, h3⟩ := (C27_sparse_partial E ERR R LIM 0 0 M (a.A.c - a.A.r) a.k.toNat).2.2.1 o
      rw [h2] at h1; cases h1; exact h3
    | leeSidford R GLIM STEP M =>
      obtain ⟨o2, h2, h3⟩ := (C27_sparse_partial E ERR R 0 GLIM STEP M (a.A.c - a.A.r) a.k.toNat).2.2.2 o
      rw [h2] at h1; cases h1; exact h3
  have key : cls.distTerm o' = c := by
    refine Walk.chain_inv (w := Walk.sparseBarrier cls ERR E o) (e := e) (a := a) (hd := hd)
      (fun s => cls.distTerm s.2.1 = c) ?_ ?_ t (x, o', g) h
    · intro s0 h0
      obtain ⟨o1, h1, h0⟩ := Out.bind_eq_ok.1 h0
      cases h0
      exact hset o1 h1
    · intro t s s' _ hs hst
      exact SparseBarrier.step_obj (s := s) (s' := s') (fun o => cls.distTerm o = c) (hpres _) hs hst
  exact ⟨key, fun junk z wo hw => hpres _ _ _ _ key hw⟩

/-! ## C26: the metric at every state of a run -/

section
variable {m n : ℕ}

theorem lsLoop_pos {m : ℕ} {grad : (Fin m → ℝ) → Fin m → ℝ} {update : (Fin m → ℝ) → (Fin m → ℝ) → Fin m → ℝ} {GLIM : ℝ}
    (hu : ∀ w g i, 0 < update w g i) (N : ℕ) {w : Fin m → ℝ} (hw : ∀ i, 0 < w i) :
    ∀ i, 0 < (lsLoop grad update GLIM N w).1 i := by
  induction N generalizing w with
  | zero => exact hw
  | succ N ih =>
    simp only [lsLoop]
    split
    · exact hw
    · exact ih (hu _ _)

theorem goodStart_of_pos {w : Fin m → ℝ} (hw : ∀ i, 0 < w i) : GoodStart ⟨m, w⟩ m := by
  intro w0 h
  have h := warmStart_iff.2 h
  unfold warmStart at h
  split at h
  · rw [dif_pos rfl] at h
    split at h
    · simp only [Out.ok.injEq] at h; subst h; intro i; norm_num
    · simp only [Out.ok.injEq] at h; subst h; exact hw
  · cases h

theorem johnWeight_pos {E : Eigen ℝ} {LIM : ℝ} {M : Int} {dw : DVec ℝ} {x : Fin n → ℝ} {A : Matrix (Fin m) (Fin n) ℝ}
    {b : Fin m → ℝ} (hn : 0 < n) (hm : 0 < m) (ho : GoodStart dw m) {wc : (Fin m → ℝ) × Bool}
    (hwc : johnWeightConv E LIM M dw x A b = .ok wc) : ∀ i, 0 < wc.1 i := by
  unfold johnWeightConv at hwc
  obtain ⟨α, _, hwc⟩ := Out.bind_eq_ok.1 hwc
  obtain ⟨w0, hw0, hwc⟩ := Out.bind_eq_ok.1 hwc
  have hβ : (0 : ℝ) < johnBeta m n := by
    simp only [johnBeta, rsc_ofInt, Int.cast_natCast]; push_cast; positivity
  have hst := ho w0 (warmStart_iff.1 hw0)
  rcases johnLoop_iterate (I := fun w : Fin m → ℝ => ∀ i, 0 < w i)
    (spec := johnNext E α (johnBeta m n) (scaledA x A b)) (fun _ _ => rfl)
    (by
      intro w _ i
      unfold johnNext
      rw [cmax_real, half_real]
      have := lt_of_lt_of_le hβ (le_max_right
        (w i + levScores E (powScaled α w (scaledA x A b)) i + johnBeta m n)
        (johnBeta (F := ℝ) m n))
      linarith) (fun _ _ _ => rfl) _ _ _ _ _ hst hst hwc with ⟨_, h, _⟩ | ⟨t, _, _, h, _⟩
  · rw [h]; exact hst
  · exact h

theorem lsWeight_pos {E : Eigen ℝ} {GLIM STEP : ℝ} {M : Int} {dw : DVec ℝ} {x : Fin n → ℝ} {A : Matrix (Fin m) (Fin n) ℝ}
    {b : Fin m → ℝ} (ho : GoodStart dw m) {wc : (Fin m → ℝ) × Bool}
    (hwc : lsWeightConv E GLIM STEP M dw x A b = .ok wc) : ∀ i, 0 < wc.1 i := by
  unfold lsWeightConv at hwc
  obtain ⟨w0, hw0, hwc⟩ := Out.bind_eq_ok.1 hwc
  simp only [Out.ok.injEq] at hwc
  rw [← hwc]
  refine lsLoop_pos (fun w g i => ?_) _ (ho w0 (warmStart_iff.1 hw0))
  rw [cmax_real]
  refine lt_of_lt_of_le ?_ (le_max_right _ _)
  simp [lsErr]

/-- Every weight computation of a dense library class, at any point whatsoever, leaves positive or unset weights behind, and returns
positive weights (interior points not needed for John and Lee-Sidford; for Vaidya see `C21_vaidya`). -/
theorem denseWeight_good {E : Eigen ℝ} {cls : BarrierClass ℝ (BState ℝ)} (hc : IsWeighted E cls) {o : BState ℝ} (hn : 0 < n)
    (hm : 0 < m) (ho : GoodStart o.w m) {x : Fin n → ℝ} {A : Matrix (Fin m) (Fin n) ℝ} {b : Fin m → ℝ} {wo : DVec ℝ × BState ℝ}
    (h : cls.generateWeight o x A b = .ok wo) : GoodStart wo.2.w m := by
  cases hc with
  | dikin R => cases h; exact ho
  | vaidya R => cases h; exact ho
  | john R LIM M =>
    obtain ⟨wc, hwc, rfl⟩ := Out.map_eq_ok.1 (show (johnWeightConv E LIM M o.w x A b).map _ = .ok wo from h)
    exact goodStart_of_pos (johnWeight_pos hn hm ho hwc)
  | leeSidford R GLIM STEP M =>
    obtain ⟨wc, hwc, rfl⟩ := Out.map_eq_ok.1 (show (lsWeightConv E GLIM STEP M o.w x A b).map _ = .ok wo from h)
    exact goodStart_of_pos (lsWeight_pos ho hwc)

/-- **C26** (dense runs): in every run of a dense barrier walk of the library on a polytope with independent columns, whatever the
members of the object were before the call, at every visited interior point `x` the matrix that is factorised is
`Σ wᵢ aᵢaᵢᵀ/(bᵢ - aᵢᵀx)²` for positive weights `w`; it is positive definite, and so is the one computed next at any interior proposal
`z`. -/
theorem C26_dense_run (E : Eigen ℝ) (hE : E.InvExact) (hL : E.LltExact) (cls : BarrierClass ℝ (BState ℝ)) (hc : IsWeighted E cls)
    (o : BState ℝ) (e : Env ℝ) (a : Args ℝ) (hd : a.DimsOk) (hA : IndepCols a.A.val) (hn : 0 < a.A.c) (t : ℕ)
    (x : Fin a.A.c → ℝ) (o' : BState ℝ) (g : e.r.G) (h : (Walk.barrier cls E o).chain e a hd t = .ok (x, o', g))
    (hx : x ∈ Interior a.A.val (a.rhs hd)) (H : Matrix _ _ ℝ) (o1 : BState ℝ)
    (hH : generateHessian cls o' x a.A.val (a.rhs hd) = .ok (H, o1)) :
    (∃ w, (∀ i, 0 < w i) ∧ H = barrierHess w a.A.val (a.rhs hd) x) ∧ H.PosDef ∧ IsCholesky (E.lltL H) H ∧
    ∀ z ∈ Interior a.A.val (a.rhs hd), ∀ Hz o2, generateHessian cls o1 z a.A.val (a.rhs hd) = .ok (Hz, o2) →
      (∃ w, (∀ i, 0 < w i) ∧ Hz = barrierHess w a.A.val (a.rhs hd) z) ∧ Hz.PosDef ∧ IsCholesky (E.lltL Hz) Hz := by
  have hm : 0 < a.A.r := lt_of_lt_of_le hn hA.le
  have hgood : GoodStart o'.w a.A.r ∨ ∀ o1 o2 z wo, cls.generateWeight o1 z a.A.val (a.rhs hd) = .ok wo →
      cls.generateWeight o2 z a.A.val (a.rhs hd) = .ok (wo.1, o2) := by
    by_cases hst : ∀ o1 o2 z wo, cls.generateWeight o1 z a.A.val (a.rhs hd) = .ok wo →
      cls.generateWeight o2 z a.A.val (a.rhs hd) = .ok (wo.1, o2)
    · exact .inr hst
    refine .inl ?_
    refine Walk.chain_inv (w := Walk.barrier cls E o) (e := e) (a := a) (hd := hd)
      (fun s => GoodStart s.2.1.w a.A.r) ?_ ?_ t (x, o', g) h
    · intro s0 h0
      obtain ⟨o1, h1, h0⟩ := Out.bind_eq_ok.1 h0
      cases h0
      show GoodStart o1.w _
      cases hc with
      | dikin R => exact absurd (fun o1 o2 z wo h => by cases h; rfl) hst
      | vaidya R => exact absurd (fun o1 o2 z wo h => by cases h; rfl) hst
      | john R LIM M =>
        simp only [johnClass] at h1
        rw [if_neg (by omega)] at h1
        cases h1
        exact goodStart_of_pos fun _ => one_pos
      | leeSidford R GLIM STEP M =>
        simp only [dikinLSClass] at h1
        rw [if_neg (by omega)] at h1
        cases h1
        exact goodStart_of_pos fun _ => one_pos
    · intro t s s' _ hs hst
      exact BarrierWalk.step_obj (s := s) (s' := s') (fun o => GoodStart o.w a.A.r)
        (fun o x wo ho hw => denseWeight_good hc hn hm ho hw) hs hst
  have key : ∀ o1 o2 : BState ℝ, (GoodStart o1.w a.A.r ∨ ∀ o1 o2 z wo, cls.generateWeight o1 z a.A.val (a.rhs hd) = .ok wo →
      cls.generateWeight o2 z a.A.val (a.rhs hd) = .ok (wo.1, o2)) → ∀ z ∈ Interior a.A.val (a.rhs hd), ∀ Hz,
      generateHessian cls o1 z a.A.val (a.rhs hd) = .ok (Hz, o2) →
      (∃ w, (∀ i, 0 < w i) ∧ Hz = barrierHess w a.A.val (a.rhs hd) z) ∧ Hz.PosDef ∧ IsCholesky (E.lltL Hz) Hz ∧
      (GoodStart o2.w a.A.r ∨ ∀ o1 o2 z wo, cls.generateWeight o1 z a.A.val (a.rhs hd) = .ok wo →
      cls.generateWeight o2 z a.A.val (a.rhs hd) = .ok (wo.1, o2)) := by
    intro o1 o2 hg z hz Hz hHz
    obtain ⟨o1', o2', hg', hHz'⟩ : ∃ o1' o2' : BState ℝ, GoodStart o1'.w a.A.r ∧
        generateHessian cls o1' z a.A.val (a.rhs hd) = .ok (Hz, o2') := by
      rcases hg with hg | hg
      · exact ⟨o1, o2, hg, hHz⟩
      · refine ⟨⟨0, ones a.A.r⟩, ⟨0, ones a.A.r⟩, goodStart_of_pos fun _ => one_pos, ?_⟩
        unfold generateHessian at hHz ⊢
        obtain ⟨wo, hw, hHz⟩ := Out.bind_eq_ok.1 hHz
        rw [hg _ ⟨0, ones a.A.r⟩ _ _ hw, Out.ok_bind]
        split at hHz
        · rename_i h1; rw [dif_pos h1]; cases hHz; rfl
        · cases hHz
    obtain ⟨p1, p2, -⟩ := C26_library E hE hL cls hc o1' o2' hg' z a.A.val (a.rhs hd) hA hn hz Hz hHz'
    obtain ⟨w, hw, hHw⟩ := generateHessian_ok hHz'
    have hwpos : ∀ i, 0 < w i := by
      cases hc with
      | dikin R =>
        rw [C20_weights] at hw
        cases hw; exact fun _ => one_pos
      | vaidya R =>
        obtain ⟨w', h1, _, h3, _⟩ := C21_vaidya E hE R o1' z a.A.val (a.rhs hd) hA hz
        rw [h1] at hw
        cases hw
        exact fun i => lt_of_lt_of_le (by positivity) (h3 i).1
      | john R LIM M =>
        obtain ⟨wc, hwc, e1⟩ := Out.map_eq_ok.1
          (show (johnWeightConv E LIM M o1'.w z a.A.val (a.rhs hd)).map
            (fun wc => ((⟨a.A.r, wc.1⟩, { o1' with w := ⟨a.A.r, wc.1⟩ }) : DVec ℝ × BState ℝ)) =
              .ok ((⟨a.A.r, w⟩, o2') : DVec ℝ × BState ℝ) from hw)
        simp only [Prod.mk.injEq, DVec.mk.injEq, heq_eq_eq, true_and] at e1
        rw [← e1.1]
        exact johnWeight_pos hn hm hg' hwc
      | leeSidford R GLIM STEP M =>
        obtain ⟨wc, hwc, e1⟩ := Out.map_eq_ok.1
          (show (lsWeightConv E GLIM STEP M o1'.w z a.A.val (a.rhs hd)).map
            (fun wc => ((⟨a.A.r, wc.1⟩, { o1' with w := ⟨a.A.r, wc.1⟩ }) : DVec ℝ × BState ℝ)) =
              .ok ((⟨a.A.r, w⟩, o2') : DVec ℝ × BState ℝ) from hw)
        simp only [Prod.mk.injEq, DVec.mk.injEq, heq_eq_eq, true_and] at e1
        rw [← e1.1]
        exact lsWeight_pos hg' hwc
    refine ⟨⟨w, hwpos, hHw⟩, p1, p2, ?_⟩
    rcases hg with hg | hg
    · obtain ⟨w2, hw2, -⟩ := generateHessian_ok hHz
      exact .inl (denseWeight_good hc hn hm hg hw2)
    · exact .inr hg
  obtain ⟨p1, p2, p3, p4⟩ := key _ _ hgood x hx H hH
  refine ⟨p1, p2, p3, fun z hz Hz o2 hHz => ?_⟩
  obtain ⟨q1, q2, q3, -⟩ := key _ _ p4 z hz Hz hHz
  exact ⟨q1, q2, q3⟩

/-- The metric `G` at `x` has the documented form with positive weights, is positive, and the matrix handed to the sparse Cholesky
solver (the Gram matrix of `A · diag(1/sqrt G)`) is `A G⁻¹ Aᵀ` and positive definite. -/
def MetricOk (ERR : ℝ) (k : ℕ) (A : Matrix (Fin m) (Fin n) ℝ) (x G : Fin n → ℝ) : Prop :=
  (∃ w : Fin n → ℝ, (∀ i : Fin n, n - k ≤ i.val → 0 < w i) ∧ G = Spec.sparseMetric ERR k w x) ∧ (∀ i, 0 < G i) ∧
  scaleCols A (invSqrt G) * (scaleCols A (invSqrt G))ᵀ = A * (diagonal G)⁻¹ * Aᵀ ∧ (A * (diagonal G)⁻¹ * Aᵀ).PosDef

/-- The metric does not depend on the members of the object. -/
def NoHist (cls : SparseBarrierClass ℝ (BState ℝ)) (ERR : ℝ) (junk : Fin n → ℝ) (A : Matrix (Fin m) (Fin n) ℝ) (k : ℕ) : Prop :=
  ∀ x o1 o2 Go, generateG cls ERR junk o1 x A k = .ok Go → generateG cls ERR junk o2 x A k = .ok (Go.1, o2)

/-- **C26** (sparse runs): in every run of a sparse barrier walk of the library on `{A x = b, last k coordinates ≥ 0}` with
independent rows, whatever the members of the object were before the call, at every visited point `x` with positive last `k`
coordinates the metric is `wᵢ / xᵢ²` on those coordinates, for positive weights, and `ERR` on the others; it is positive and the matrix
handed to the Cholesky solver is `A G⁻¹ Aᵀ`, positive definite. The same holds of the metric computed next at any such proposal
`z`. -/
theorem C26_sparse_run (E : Eigen ℝ) (hE : E.LdltExact) (ERR : ℝ) (hR : 0 < ERR) (cls : SparseBarrierClass ℝ (BState ℝ))
    (hc : IsSparseWeighted E ERR cls) (o : BState ℝ) (e : Env ℝ) (a : Args ℝ) (hd : a.DimsOk) (hA : IndepRows a.A.val)
    (hmn : a.A.r < a.A.c) (hk : 1 ≤ a.k) (hkn : a.k ≤ a.A.c) (t : ℕ) (x : Fin a.A.c → ℝ) (o' : BState ℝ) (g : e.r.G)
    (h : (Walk.sparseBarrier cls ERR E o).chain e a hd t = .ok (x, o', g)) (hx : x ∈ TailPos _ a.k.toNat)
    (G : Fin a.A.c → ℝ) (o1 : BState ℝ) (hG : generateG cls ERR (e.junk _) o' x a.A.val a.k.toNat = .ok (G, o1)) :
    MetricOk ERR a.k.toNat a.A.val x G ∧
    ∀ z ∈ TailPos _ a.k.toNat, ∀ Gz o2, generateG cls ERR (e.junk _) o1 z a.A.val a.k.toNat = .ok (Gz, o2) →
      MetricOk ERR a.k.toNat a.A.val z Gz := by
  have key : ∀ o1 o2 : BState ℝ, (GoodStartK o1.w a.A.c a.k.toNat ∨ NoHist cls ERR (e.junk _) a.A.val a.k.toNat) →
      ∀ z ∈ TailPos _ a.k.toNat, ∀ Gz, generateG cls ERR (e.junk _) o1 z a.A.val a.k.toNat = .ok (Gz, o2) →
      MetricOk ERR a.k.toNat a.A.val z Gz ∧ (GoodStartK o2.w a.A.c a.k.toNat ∨ NoHist cls ERR (e.junk _) a.A.val a.k.toNat) := by
    intro o1 o2 hg z hz Gz hGz
    obtain ⟨o1', o2', hg', hGz'⟩ : ∃ o1' o2' : BState ℝ, GoodStartK o1'.w a.A.c a.k.toNat ∧
        generateG cls ERR (e.junk _) o1' z a.A.val a.k.toNat = .ok (Gz, o2') := by
      rcases hg with hg | hg
      · exact ⟨o1, o2, hg, hGz⟩
      · exact ⟨⟨0, ones 1⟩, _, goodStartK_ones one_pos _ _, hg _ _ _ _ hGz⟩
    obtain ⟨p1, p2, p3⟩ := C26_sparse_library E hE ERR hR cls hc o1' a.k.toNat (by omega) (by omega) hmn hg' _ z a.A.val hA hz Gz o2'
      hGz'
    obtain ⟨w, -, hw⟩ := generateG_ok hGz'
    refine ⟨⟨⟨w, fun i hi => ?_, hw⟩, p1, ?_, ?_⟩, ?_⟩
    · have := p1 i
      rw [hw, Spec.sparseMetric, if_pos hi] at this
      exact (div_pos_iff_of_pos_right (pow_pos (hz i hi) 2)).1 this
    · exact scaled_gram p1
    · rw [← scaled_gram p1]; exact p2
    · rcases hg with hg | hg
      · exact .inl (generateG_good hR hc (by omega) hmn hg hGz)
      · exact .inr hg
  have hgood : GoodStartK o'.w a.A.c a.k.toNat ∨ NoHist cls ERR (e.junk _) a.A.val a.k.toNat := by
    by_cases hst : NoHist cls ERR (e.junk _) a.A.val a.k.toNat
    · exact .inr hst
    refine .inl ?_
    refine Walk.chain_inv (w := Walk.sparseBarrier cls ERR E o) (e := e) (a := a) (hd := hd)
      (fun s => GoodStartK s.2.1.w a.A.c a.k.toNat) ?_ ?_ t (x, o', g) h
    · intro s0 h0
      obtain ⟨o1, h1, h0⟩ := Out.bind_eq_ok.1 h0
      cases h0
      show GoodStartK o1.w _ _
      have hdp : ((a.A.c : Int) - a.A.r).toNat = a.A.c - a.A.r := by omega
      cases hc with
      | dikin R =>
        refine absurd (fun x o1 o2 Go h => ?_) hst
        simp only [generateG, sparseDikinClass, Out.ok_bind] at h ⊢
        rw [dif_pos (by rfl)] at h ⊢
        cases h; rfl
      | vaidya R =>
        refine absurd (fun x o1 o2 Go h => ?_) hst
        simp only [generateG, sparseVaidyaClass, Out.ok_bind] at h ⊢
        rw [dif_pos (by trivial)] at h ⊢
        cases h; rfl
      | john R LIM M =>
        simp only [sparseJohnClass] at h1
        rw [if_neg (by omega)] at h1
        cases h1
        simp only [hdp]
        exact goodStartK_ones (by omega) _ _
      | leeSidford R GLIM STEP M =>
        simp only [sparseDikinLSClass] at h1
        rw [if_neg (by omega)] at h1
        cases h1
        simp only [hdp]
        exact goodStartK_ones (by omega) _ _
    · intro t s s' _ hs hst
      exact SparseBarrier.step_good hR hc (by omega) hmn (s := s) (s' := s') hs hst
  obtain ⟨p1, p2⟩ := key _ _ hgood x hx G hG
  exact ⟨p1, fun z hz Gz o2 hGz => (key _ _ p2 z hz Gz hGz).1⟩

end
end PW
