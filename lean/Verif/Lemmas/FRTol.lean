import Verif.Lemmas.FRRun
import Verif.Spec.Tolerance

/-! # Facial reduction with an LP solver that has a tolerance -/

namespace PW
open Classical Matrix
variable {m n : ℕ}

theorem Kind.Holds.upTo {δ : ℝ} (hδ : 0 ≤ δ) {κ : Kind} {v β : ℝ} (h : κ.Holds v β) : κ.HoldsUpTo δ v β := by
  cases κ with
  | FR => trivial
  | LO => exact (by linarith : β - δ ≤ β).trans h
  | UP => exact le_trans h (by linarith)
  | FX =>
    have h : v = β := h
    show |v - β| ≤ δ
    rw [h, sub_self, abs_zero]
    exact hδ

theorem LP.Feasible.upTo {δ : ℝ} (hδ : 0 ≤ δ) {lp : LP ℝ} {x : Fin lp.c → ℝ} (h : lp.Feasible x) : lp.FeasibleUpTo δ x :=
  ⟨fun i => (h.1 i).upTo hδ, fun j => (h.2 j).upTo hδ⟩

/-- An exact solver is within every tolerance. -/
theorem Glpk.Exact.within {glp : Glpk ℝ} (hg : glp.Exact) (hz : glp.ZeroIfInfeasible) {δ : ℝ} (hδ : 0 ≤ δ) : glp.Within δ where
  feasible lp h := (hg.feasible lp h).upTo hδ
  optimal lp x hx := by
    have := (hg.optimal lp ⟨x, hx⟩).2 x hx.1
    linarith
  infeasible lp h := .inl (hz lp h)

/-- What a nonzero answer to the search LP satisfies. -/
structure NearCert (A : Matrix (Fin m) (Fin n) ℝ) (b : Fin m → ℝ) (xdim : ℕ) (δ : ℝ) (i : Fin n) (y : Fin m → ℝ) : Prop where
  free : ∀ j : Fin n, j.val < xdim → |(Aᵀ *ᵥ y) j| ≤ δ
  nonneg : ∀ j : Fin n, xdim ≤ j.val → -δ ≤ (Aᵀ *ᵥ y) j
  one : 1 - δ ≤ (Aᵀ *ᵥ y) i
  orth : |b ⬝ᵥ y| ≤ δ

theorem nearCert_of_feasible {A : Matrix (Fin m) (Fin n) ℝ} {b : Fin m → ℝ} {xdim : ℕ} {i : Fin n} {δ : ℝ}
    (hi : xdim ≤ i.val) {y : Fin m → ℝ} (h : (findZLP A b (findZRelAt n xdim i) (findZBndAt n i)).FeasibleUpTo δ y) :
    NearCert A b xdim δ i y := by
  have hrow : ∀ j : Fin n, ((findZLP A b (findZRelAt n xdim i) (findZBndAt n i)).mat *ᵥ y) j.castSucc = (Aᵀ *ᵥ y) j := by
    intro j
    show ∑ l, (if h : j.val < n then A l ⟨j.val, h⟩ else b l) * y l = ∑ l, A l j * y l
    simp [j.isLt]
  have hlast : ((findZLP A b (findZRelAt n xdim i) (findZBndAt n i)).mat *ᵥ y) (Fin.last n) = b ⬝ᵥ y := by
    show ∑ l, (if h : n < n then A l ⟨n, h⟩ else b l) * y l = ∑ l, b l * y l
    simp
  have hk : ∀ j : Fin n, Kind.HoldsUpTo δ (findZRelAt n xdim i j.castSucc) ((Aᵀ *ᵥ y) j) (findZBndAt n i j.castSucc) :=
    fun j => by rw [← hrow j]; exact h.1 j.castSucc
  have hkl : Kind.HoldsUpTo δ (findZRelAt n xdim i (Fin.last n)) (b ⬝ᵥ y) (findZBndAt n i (Fin.last n)) := by
    rw [← hlast]; exact h.1 (Fin.last n)
  have hone : |(Aᵀ *ᵥ y) i - 1| ≤ δ := by
    simpa [findZRelAt, findZBndAt, setAt, Kind.HoldsUpTo] using hk i
  refine ⟨fun j hj => ?_, fun j hj => ?_, ?_, ?_⟩
  · have := hk j
    have hne : j.val ≠ i.val := by omega
    have hn : j.val ≠ n := j.isLt.ne
    simpa [findZRelAt, findZBndAt, setAt, findZRel, hne, hn, hj, Kind.HoldsUpTo] using this
  · by_cases hne : j.val = i.val
    · have e : j = i := Fin.ext hne
      rw [e]
      linarith [(abs_le.1 hone).1]
    · have := hk j
      have hn : j.val ≠ n := j.isLt.ne
      simpa [findZRelAt, findZBndAt, setAt, findZRel, hne, hn, Nat.not_lt.2 hj, Kind.HoldsUpTo] using this
  · linarith [(abs_le.1 hone).1]
  · have hne : n ≠ i.val := i.isLt.ne'
    simpa [findZRelAt, findZBndAt, setAt, findZRel, hne, Kind.HoldsUpTo] using hkl

/-- A coordinate where an answer is not below the threshold vanishes on the polytope. -/
theorem nearCert_vanish {A : Matrix (Fin m) (Fin n) ℝ} {b : Fin m → ℝ} {xdim : ℕ} {δ err : ℝ} (hδ : 0 ≤ δ) (hsep : Separated A b xdim δ err)
    {i : Fin n} {y : Fin m → ℝ} (hy : NearCert A b xdim δ i y) {a : Fin n} (ha : xdim ≤ a.val) (hz : err ≤ (Aᵀ *ᵥ y) a) :
    ∀ w ∈ PolyFrom A b xdim, w a = 0 := by
  obtain ⟨v, hv, hsep⟩ := hsep
  intro w hw
  by_contra hne
  have hpos : 0 < w a := lt_of_le_of_ne (hw.2 a ha) (Ne.symm hne)
  have h1 := hsep a ha ⟨w, hw, hpos⟩
  have hsum : ∑ j, (Aᵀ *ᵥ y) j * v j = b ⬝ᵥ y := by
    have : (Aᵀ *ᵥ y) ⬝ᵥ v = b ⬝ᵥ y := by
      rw [Matrix.mulVec_transpose, ← Matrix.dotProduct_mulVec, hv.1, dotProduct_comm]
    exact this
  have hva := hv.2 a ha
  have hlow : ∀ j, -(δ * |v j|) ≤ (Aᵀ *ᵥ y) j * v j := by
    intro j
    by_cases hj : j.val < xdim
    · have := abs_le.1 (show |(Aᵀ *ᵥ y) j * v j| ≤ δ * |v j| by
        rw [abs_mul]; exact mul_le_mul_of_nonneg_right (hy.free j hj) (abs_nonneg _))
      exact this.1
    · have h0 := hv.2 j (by omega)
      rw [abs_of_nonneg h0]
      have := mul_le_mul_of_nonneg_right (hy.nonneg j (by omega)) h0
      linarith
  have h2 : ∑ j ∈ Finset.univ.erase a, -(δ * |v j|) ≤ ∑ j ∈ Finset.univ.erase a, (Aᵀ *ᵥ y) j * v j := Finset.sum_le_sum fun j _ => hlow j
  have h3 := Finset.add_sum_erase Finset.univ (fun j => (Aᵀ *ᵥ y) j * v j) (Finset.mem_univ a)
  have h4 := Finset.add_sum_erase Finset.univ (fun j => |v j|) (Finset.mem_univ a)
  rw [Finset.sum_neg_distrib, ← Finset.mul_sum] at h2
  have h5 : err * v a ≤ (Aᵀ *ᵥ y) a * v a := mul_le_mul_of_nonneg_right hz hva
  have h6 := (abs_le.1 hy.orth).2
  have h7 : 0 ≤ δ * |v a| := mul_nonneg hδ (abs_nonneg _)
  have h8 : δ * ∑ j, |v j| = δ * |v a| + δ * ∑ j ∈ Finset.univ.erase a, |v j| := by rw [← h4]; ring
  rw [hsum] at h3
  have h9 : δ * (1 + ∑ j, |v j|) = δ + δ * ∑ j, |v j| := by ring
  linarith

/-- Coordinates `xdim … gi - 1` are positive somewhere on the polytope of `s`. -/
def AliveBelow (s : FRResult ℝ n) (xdim gi : ℕ) : Prop :=
  ∀ l : Fin s.c, xdim ≤ l.val → l.val < gi → ∃ v ∈ PolyFrom s.A s.b xdim, 0 < v l

theorem alive_of_noCert {A : Matrix (Fin m) (Fin n) ℝ} {b : Fin m → ℝ} {xdim : ℕ} (hne : (PolyFrom A b xdim).Nonempty) {l : Fin n} (hl : xdim ≤ l.val)
    (hno : ¬ HasCert A b xdim l) : ∃ v ∈ PolyFrom A b xdim, 0 < v l := by
  by_contra hcon
  push Not at hcon
  obtain ⟨v0, h1, h2⟩ := hne
  obtain ⟨y, y1, y2, y3, y4⟩ := exists_certificate A b (fun j => xdim ≤ j.val) l hl v0 h1 h2 (fun v hv hv' => hcon v ⟨hv, hv'⟩)
  refine hno ⟨y, ?_, ?_, ?_, y4⟩
  · intro j hj; rw [Matrix.mulVec_transpose]; exact y1 j (by omega)
  · intro j hj; rw [Matrix.mulVec_transpose]; exact y2 j hj
  · rw [Matrix.mulVec_transpose]; exact y3

section
variable {glp : Glpk ℝ} {δ err : ℝ} (hg : glp.Within δ) (hδ : 0 ≤ δ) (herr : 0 < err) (hδe : δ + err ≤ 1) {A : Matrix (Fin m) (Fin n) ℝ}
  {b : Fin m → ℝ} {xdim : ℕ} (hm : m ≠ 0) (hsep : Separated A b xdim δ err)
include hg hδ herr hδe hm hsep

/-- Outcome of the search from index `i` on. -/
theorem findZLoop_tol : ∀ (left i : ℕ), i + left = n → xdim ≤ i →
    (∃ (j : Fin n) (y : Fin m → ℝ), i ≤ j.val ∧ NearCert A b xdim δ j y ∧
      (∀ l : Fin n, i ≤ l.val → l.val < j.val → ∃ v ∈ PolyFrom A b xdim, 0 < v l) ∧
      findZLoop glp A b left i (findZRel n xdim) (fun _ => 0) = .ok (some (Aᵀ *ᵥ y), j.val)) ∨
    ((∀ l : Fin n, i ≤ l.val → ∃ v ∈ PolyFrom A b xdim, 0 < v l) ∧
      findZLoop glp A b left i (findZRel n xdim) (fun _ => 0) = .ok (none, n)) := by
  have hne : (PolyFrom A b xdim).Nonempty := by obtain ⟨v, hv, -⟩ := hsep; exact ⟨v, hv⟩
  intro left
  induction left with
  | zero =>
    intro i hi hx
    right
    refine ⟨fun l hl => by omega, ?_⟩
    have : i = n := by omega
    subst this; rfl
  | succ left ih =>
    intro i hi hx
    have hin : i < n := by omega
    have he := findZLoop_succ (glp := glp) (A := A) (b := b) hm (left := left) (i := ⟨i, hin⟩) hx
    by_cases h0 : (∑ j, |glp.solve (findZLP A b (findZRelAt n xdim i) (findZBndAt n i)) j|) = 0
    · have hz : glp.solve (findZLP A b (findZRelAt n xdim i) (findZBndAt n i)) = fun _ => 0 := by
        funext j
        exact abs_eq_zero.1 ((Finset.sum_eq_zero_iff_of_nonneg (fun j _ => abs_nonneg _)).1 h0 j (Finset.mem_univ j))
      have hno : ¬ HasCert A b xdim ⟨i, hin⟩ := by
        rintro ⟨y, hy⟩
        have hf := hg.feasible (findZLP A b (findZRelAt n xdim i) (findZBndAt n i)) ⟨y, (C38_findZ A b xdim ⟨i, hin⟩ hx y).2 hy⟩
        have h1 := (nearCert_of_feasible (i := ⟨i, hin⟩) hx hf).one
        have h2 : (Aᵀ *ᵥ glp.solve (findZLP A b (findZRelAt n xdim i) (findZBndAt n i))) ⟨i, hin⟩ = 0 := by
          rw [hz]
          exact congrFun (Matrix.mulVec_zero _) _
        have h1 : 1 - δ ≤ (Aᵀ *ᵥ glp.solve (findZLP A b (findZRelAt n xdim i) (findZBndAt n i))) ⟨i, hin⟩ := h1
        rw [h2] at h1
        linarith
      have hal := alive_of_noCert hne hx hno
      have he : findZLoop glp A b (left + 1) i (findZRel n xdim) (fun _ => 0) = findZLoop glp A b left (i + 1) (findZRel n xdim) (fun _ => 0) := by
        refine he.trans ?_
        exact if_pos h0
      rcases ih (i + 1) (by omega) (by omega) with ⟨j, y, h1, h2, h3, h4⟩ | ⟨h1, h2⟩
      · refine .inl ⟨j, y, by omega, h2, fun l hl1 hl2 => ?_, he.trans h4⟩
        by_cases hli : l.val = i
        · have : l = ⟨i, hin⟩ := Fin.ext hli
          rw [this]; exact hal
        · exact h3 l (by omega) hl2
      · refine .inr ⟨fun l hl => ?_, he.trans h2⟩
        by_cases hli : l.val = i
        · have : l = ⟨i, hin⟩ := Fin.ext hli
          rw [this]; exact hal
        · exact h1 l (by omega)
    · have hf : (findZLP A b (findZRelAt n xdim i) (findZBndAt n i)).FeasibleUpTo δ (glp.solve (findZLP A b (findZRelAt n xdim i) (findZBndAt n i))) := by
        by_cases hfe : ∃ x, (findZLP A b (findZRelAt n xdim i) (findZBndAt n i)).Feasible x
        · exact hg.feasible _ hfe
        · refine (hg.infeasible _ hfe).resolve_left fun hz => h0 ?_
          rw [hz]
          exact Finset.sum_eq_zero fun j _ => abs_zero
      refine .inl ⟨⟨i, hin⟩, _, le_rfl, nearCert_of_feasible (i := ⟨i, hin⟩) hx hf, fun l h1 h2 => by simp at h2; omega, he.trans ?_⟩
      exact if_neg h0

end

/-- A round that drops coordinates vanishing on the polytope keeps the invariant. -/
theorem FRInv.round_of_vanish {E : Eigen ℝ} (hE : E.SparseQRExact) {err : ℝ} (herr : 0 < err)
    {A0 : Matrix (Fin m) (Fin n) ℝ} {b0 : Fin m → ℝ} {xdim : ℕ} {s : FRResult ℝ n}
    (hpg : E.PivotGap err A0) (h : FRInv A0 b0 xdim s) {z : Fin s.c → ℝ}
    (hz : ∀ a : Fin s.c, xdim ≤ a.val → err ≤ z a → ∀ w ∈ PolyFrom s.A s.b xdim, w a = 0) :
    FRInv A0 b0 xdim (frRound E err xdim s z) := by
  obtain ⟨g, hg, hg1, hV, f, hf, hA⟩ := h.sel
  have hsm := pickV_strictMono err z xdim
  have hpre := strictMono_prefix' hsm xdim (fun a ha => List.get_of_mem (pickV_first a ha))
  have hcp := cols_poly hsm (fun a ha => pickV_first a ha) (A := s.A) (b := s.b) (xdim := xdim) (by
    intro v hv a ha
    rw [mem_pickV] at ha
    push Not at ha
    exact hz a ha.1 ha.2 v hv)
  have eV : ∀ w : Fin (pickV err z xdim).length → ℝ,
      (s.selectCols (pickV err z xdim)).V *ᵥ w = s.V *ᵥ ((Sel (pickV err z xdim))ᵀ *ᵥ w) := by
    intro w
    rw [Matrix.mulVec_mulVec, ← mul_selT_eq]; rfl
  have eA : (s.selectCols (pickV err z xdim)).A = s.A * (Sel (pickV err z xdim))ᵀ := mul_selT_eq _ _
  show FRInv A0 b0 xdim ((s.selectCols (pickV err z xdim)).selectRows (pickP E err (s.selectCols (pickV err z xdim)).A))
  refine FRInv.of_rows hE herr.le hpg (pickV_dim h.dim) ?_ ?_ ?_
  · refine ⟨fun j => g ((pickV err z xdim).get j), hg.comp hsm, ?_, ?_, f, hf, ?_⟩
    · intro j hj
      have e := hpre j hj
      show (g _).val = _
      rw [hg1 _ (by rw [e]; exact hj), e]
    · intro i j
      exact hV _ _
    · funext i j
      exact congrFun (congrFun hA _) _
  · intro hne w hw
    refine (congrArg (· ∈ PolyFrom A0 b0 xdim) (eV w)).mpr ?_
    apply h.sub hne
    apply hcp.1
    rw [← eA]
    exact hw
  · intro x hx
    obtain ⟨v, hv, e⟩ := h.sup x hx
    obtain ⟨w, hw, e'⟩ := hcp.2 v hv
    refine ⟨w, ?_, ?_⟩
    · rw [eA]; exact hw
    · exact (eV w).trans (by rw [e', e])

/-- Every state of the reduction is as well separated as the input. -/
theorem FRInv.separated {A0 : Matrix (Fin m) (Fin n) ℝ} {b0 : Fin m → ℝ} {xdim : ℕ} {s : FRResult ℝ n} {δ err : ℝ} (hδ : 0 ≤ δ)
    (h : FRInv A0 b0 xdim s) (hsep : Separated A0 b0 xdim δ err) : Separated s.A s.b xdim δ err := by
  obtain ⟨x, hx, hsep⟩ := hsep
  obtain ⟨g, hg, hg1, hV, -⟩ := h.sel
  obtain ⟨v, hv, e⟩ := h.sup x hx
  have hval : ∀ w : Fin s.c → ℝ, ∀ j, (s.V *ᵥ w) (g j) = w j := fun w j => selV_mulVec hg.injective hV w j
  refine ⟨v, hv, fun j hj hw => ?_⟩
  obtain ⟨w, hw, hpos⟩ := hw
  have h1 := hsep (g j) (hj.trans (strictMono_le hg j)) ⟨_, h.sub ⟨x, hx⟩ w hw, by rw [hval]; exact hpos⟩
  have h2 : ∀ i, v i = x (g i) := fun i => by rw [← e, hval]
  have h3 : ∑ i, |v i| ≤ ∑ i, |x i| := by
    calc ∑ i, |v i| = ∑ i, |x (g i)| := Finset.sum_congr rfl fun i _ => by rw [h2]
      _ = ∑ i ∈ Finset.univ.map ⟨g, hg.injective⟩, |x i| := by rw [Finset.sum_map]; rfl
      _ ≤ _ := Finset.sum_le_sum_of_subset_of_nonneg (Finset.subset_univ _) fun i _ _ => abs_nonneg _
  rw [h2]
  refine lt_of_le_of_lt (mul_le_mul_of_nonneg_left ?_ hδ) h1
  linarith

/-- Aliveness of the polytope of a state, seen from the input. -/
theorem FRInv.alive_iff {A0 : Matrix (Fin m) (Fin n) ℝ} {b0 : Fin m → ℝ} {xdim : ℕ} {s : FRResult ℝ n} (h : FRInv A0 b0 xdim s)
    (hne : (PolyFrom A0 b0 xdim).Nonempty) {g : Fin s.c → Fin n} (hg : StrictMono g) (hV : ∀ i j, s.V i j = if g j = i then 1 else 0) (j : Fin s.c) :
    (∃ v ∈ PolyFrom s.A s.b xdim, 0 < v j) ↔ ∃ x ∈ PolyFrom A0 b0 xdim, 0 < x (g j) := by
  have hval : ∀ w : Fin s.c → ℝ, ∀ j, (s.V *ᵥ w) (g j) = w j := fun w j => selV_mulVec hg.injective hV w j
  constructor
  · rintro ⟨v, hv, hp⟩
    exact ⟨_, h.sub hne v hv, by rw [hval]; exact hp⟩
  · rintro ⟨x, hx, hp⟩
    obtain ⟨v, hv, e⟩ := h.sup x hx
    exact ⟨v, hv, by rw [← hval v j, e]; exact hp⟩

/-- The recursion with a tolerant solver: what it returns, and that it returns. -/
theorem step_tol {glp : Glpk ℝ} {δ err : ℝ} (hg : glp.Within δ) (hδ : 0 ≤ δ) (herr : 0 < err) (hδe : δ + err ≤ 1) {E : Eigen ℝ} (hE : E.SparseQRExact)
    {A0 : Matrix (Fin m) (Fin n) ℝ} {b0 : Fin m → ℝ} {xdim : ℕ} (hpg : E.PivotGap err A0) (hsep : Separated A0 b0 xdim δ err) :
    ∀ (fuel gi : ℕ) (s : FRResult ℝ n), FRInv A0 b0 xdim s → xdim ≤ gi → gi ≤ s.c → AliveBelow s xdim gi →
      (∀ s' g', entireFacialReductionStep glp E err xdim fuel gi s = .ok (s', g') →
        FRInv A0 b0 xdim s' ∧ s'.r ≠ 0 ∧ NoCertBelow s' xdim s'.c) ∧
      (s.c - xdim < fuel →
        (∃ s' g', entireFacialReductionStep glp E err xdim fuel gi s = .ok (s', g')) ∨
        (entireFacialReductionStep glp E err xdim fuel gi s = .ub .indexOutOfRange ∧ ∃ s', FRInv A0 b0 xdim s' ∧ s'.r = 0)) := by
  have hne : (PolyFrom A0 b0 xdim).Nonempty := by obtain ⟨v, hv, -⟩ := hsep; exact ⟨v, hv⟩
  intro fuel
  induction fuel with
  | zero =>
    intro gi s _ _ _ _
    refine ⟨fun s' g' h => ?_, fun h => absurd h (Nat.not_lt_zero _)⟩
    exact absurd h (by simp [entireFacialReductionStep])
  | succ fuel ih =>
    intro gi s hs hx hc hal
    by_cases hr : s.r = 0
    · have e2 : entireFacialReductionStep glp E err xdim (fuel + 1) gi s = .ub .indexOutOfRange := by
        have e1 : findZ glp gi s.A s.b xdim = .ub .indexOutOfRange := by unfold findZ; rw [if_pos hr]
        show (findZ glp gi s.A s.b xdim).bind _ = _
        rw [e1]; rfl
      refine ⟨fun s' g' h => ?_, fun _ => .inr ⟨e2, s, hs, hr⟩⟩
      rw [e2] at h; cases h
    · have hss := hs.separated hδ hsep
      have e : findZ glp gi s.A s.b xdim = findZLoop glp s.A s.b (s.c - gi) gi (findZRel s.c xdim) fun _ => 0 := by
        unfold findZ; rw [if_neg hr]
      rcases findZLoop_tol hg hδ herr hδe hr hss (s.c - gi) gi (by omega) hx with ⟨j, y, h1, h2, h3, h4⟩ | ⟨h1, h2⟩
      · have hxj : xdim ≤ j.val := by omega
        have hbelow : AliveBelow s xdim j.val := fun l hl1 hl2 => by
          by_cases h : gi ≤ l.val
          · exact h3 l h hl2
          · exact hal l hl1 (by omega)
        have hvan : ∀ a : Fin s.c, xdim ≤ a.val → err ≤ (s.Aᵀ *ᵥ y) a → ∀ w ∈ PolyFrom s.A s.b xdim, w a = 0 :=
          fun a ha hz => nearCert_vanish hδ hss h2 ha hz
        have hinv := FRInv.round_of_vanish hE herr hpg hs hvan
        have e1 : entireFacialReductionStep glp E err xdim (fuel + 1) gi s =
            entireFacialReductionStep glp E err xdim fuel j.val (frRound E err xdim s (s.Aᵀ *ᵥ y)) := by
          show (findZ glp gi s.A s.b xdim).bind _ = _
          rw [e, h4]; rfl
        have hsm := pickV_strictMono err (s.Aᵀ *ᵥ y) xdim
        have hmem : ∀ a : Fin s.c, a.val < j.val → a ∈ pickV err (s.Aᵀ *ᵥ y) xdim := by
          intro a ha
          rw [mem_pickV]
          by_cases hxa : a.val < xdim
          · exact .inl hxa
          · right
            by_contra hz
            obtain ⟨v, hv, hp⟩ := hbelow a (by omega) ha
            exact hp.ne' (hvan a (by omega) (not_lt.1 hz) v hv)
        have hpre := strictMono_prefix hsm j.val (fun a ha => List.get_of_mem (hmem a ha))
        have hpre' := strictMono_prefix' hsm j.val (fun a ha => List.get_of_mem (hmem a ha))
        have hlen : j.val ≤ (pickV err (s.Aᵀ *ᵥ y) xdim).length := by
          by_contra hlt
          push Not at hlt
          obtain ⟨t, ht, -⟩ := hpre ⟨(pickV err (s.Aᵀ *ᵥ y) xdim).length, lt_trans hlt j.isLt⟩ hlt
          have := t.isLt
          simp at ht
          omega
        have hal' : AliveBelow (frRound E err xdim s (s.Aᵀ *ᵥ y)) xdim j.val := by
          intro l hl1 hl2
          obtain ⟨g, hg0, -, hV, -⟩ := hs.sel
          have hV' : ∀ i (l : Fin (frRound E err xdim s (s.Aᵀ *ᵥ y)).c), (frRound E err xdim s (s.Aᵀ *ᵥ y)).V i l =
              if g ((pickV err (s.Aᵀ *ᵥ y) xdim).get l) = i then 1 else 0 := fun i l => hV i _
          have hsm' : StrictMono fun l : Fin (frRound E err xdim s (s.Aᵀ *ᵥ y)).c => g ((pickV err (s.Aᵀ *ᵥ y) xdim).get l) := hg0.comp hsm
          rw [hinv.alive_iff hne hsm' hV']
          have hl := hpre' l hl2
          exact (hs.alive_iff hne hg0 hV _).1 (hbelow ((pickV err (s.Aᵀ *ᵥ y) xdim).get l) (by rw [hl]; exact hl1) (by rw [hl]; exact hl2))
        obtain ⟨i1, i3⟩ := ih j.val (frRound E err xdim s (s.Aᵀ *ᵥ y)) hinv hxj hlen hal'
        rw [e1]
        refine ⟨i1, fun hf => i3 ?_⟩
        have : (pickV err (s.Aᵀ *ᵥ y) xdim).length < s.c := pickV_lt hxj (by linarith [h2.one])
        have h5 : (frRound E err xdim s (s.Aᵀ *ᵥ y)).c = (pickV err (s.Aᵀ *ᵥ y) xdim).length := rfl
        have := j.isLt
        omega
      · have e1 : entireFacialReductionStep glp E err xdim (fuel + 1) gi s = .ok (s, s.c) := by
          show (findZ glp gi s.A s.b xdim).bind _ = _
          rw [e, h2]; rfl
        refine ⟨fun s' g' h => ?_, fun _ => .inl ⟨_, _, e1⟩⟩
        rw [e1] at h
        cases h
        refine ⟨hs, hr, fun l hl1 _ => ?_⟩
        rintro ⟨y, hy⟩
        obtain ⟨v, hv, hp⟩ : ∃ v ∈ PolyFrom s.A s.b xdim, 0 < v l := by
          by_cases h : gi ≤ l.val
          · exact h1 l h
          · exact hal l hl1 (by omega)
        exact hp.ne' (certificate_zero hy hv l (by rw [hy.one]; exact one_ne_zero))

end PW
