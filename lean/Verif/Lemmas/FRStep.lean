import Verif.Lemmas.FR

/-! # Facial reduction: the invariant of the rounds -/

namespace PW
open Classical Matrix
variable {m n : ℕ}

/-- What every state of the reduction satisfies: `s` is obtained from `(A0, b0)` by selecting columns
(in order, keeping the first `xdim`) and independent rows, and `V` maps its polytope onto the original. -/
structure FRInv (A0 : Matrix (Fin m) (Fin n) ℝ) (b0 : Fin m → ℝ) (xdim : ℕ) (s : FRResult ℝ n) : Prop where
  dim : xdim ≤ s.c
  sel : ∃ g : Fin s.c → Fin n, StrictMono g ∧ (∀ j, j.val < xdim → (g j).val = j.val) ∧
    (∀ i j, s.V i j = if g j = i then 1 else 0) ∧
    ∃ f : Fin s.r → Fin m, Function.Injective f ∧ s.A = A0.submatrix f g
  sub : (PolyFrom A0 b0 xdim).Nonempty →
    ∀ v, v ∈ PolyFrom s.A s.b xdim → s.V *ᵥ v ∈ PolyFrom A0 b0 xdim
  sup : ∀ x, x ∈ PolyFrom A0 b0 xdim → ∃ v, v ∈ PolyFrom s.A s.b xdim ∧ s.V *ᵥ v = x
  indep : IndepRows s.A

theorem selV_mulVec {c : ℕ} {g : Fin c → Fin n} (hg : Function.Injective g) {V : Matrix (Fin n) (Fin c) ℝ}
    (hV : ∀ i j, V i j = if g j = i then 1 else 0) (v : Fin c → ℝ) (j : Fin c) : (V *ᵥ v) (g j) = v j := by
  simp only [Matrix.mulVec, dotProduct, hV]
  rw [Finset.sum_eq_single j]
  · simp
  · intro l _ hl
    rw [if_neg (fun e => hl (hg e)), zero_mul]
  · simp

theorem selV_mulVec_off {c : ℕ} {g : Fin c → Fin n} {V : Matrix (Fin n) (Fin c) ℝ}
    (hV : ∀ i j, V i j = if g j = i then 1 else 0) (v : Fin c → ℝ) (i : Fin n) (hi : ∀ j, g j ≠ i) :
    (V *ᵥ v) i = 0 := by
  simp only [Matrix.mulVec, dotProduct, hV]
  exact Finset.sum_eq_zero fun j _ => by rw [if_neg (hi j), zero_mul]

theorem FRInv.injective {A0 : Matrix (Fin m) (Fin n) ℝ} {b0 : Fin m → ℝ} {xdim : ℕ} {s : FRResult ℝ n}
    (h : FRInv A0 b0 xdim s) : Function.Injective fun v => s.V *ᵥ v := by
  obtain ⟨g, hg, -, hV, -⟩ := h.sel
  intro v w hvw
  funext j
  rw [← selV_mulVec hg.injective hV v j, ← selV_mulVec hg.injective hV w j]
  exact congrFun hvw (g j)

/-! ## Selecting rows -/

section rows
variable {E : Eigen ℝ} (hE : E.SparseQRExact) {err : ℝ} (herr : 0 ≤ err)

theorem sel_mul_eq {m' n' : ℕ} (l : List (Fin m')) (A : Matrix (Fin m') (Fin n') ℝ) :
    (fun i j => A (l.get i) j : Matrix (Fin l.length) (Fin n') ℝ) = Sel l * A := by
  funext i j; exact (sel_mul l A i j).symm

theorem sel_vec_eq {m' : ℕ} (l : List (Fin m')) (b : Fin m' → ℝ) :
    (fun i => b (l.get i)) = Sel l *ᵥ b := by
  funext i; exact (sel_mulVec l b i).symm

include hE herr in
/-- Keeping the rows picked by the pivoted QR does not change a non-empty polytope. -/
theorem pickP_poly {B : Matrix (Fin m) (Fin n) ℝ} {c : Fin m → ℝ} (hgap : GapAt E err B) (xdim : ℕ)
    (hne : (PolyFrom B c xdim).Nonempty) (v : Fin n → ℝ) :
    v ∈ PolyFrom (Sel (pickP E err B) * B) (Sel (pickP E err B) *ᵥ c) xdim ↔ v ∈ PolyFrom B c xdim := by
  obtain ⟨v0, hv0, -⟩ := hne
  constructor
  · rintro ⟨h1, h2⟩
    refine ⟨?_, h2⟩
    have : B *ᵥ (v - v0) = 0 := by
      apply pickP_span hE herr hgap
      rw [Matrix.mulVec_sub, Matrix.mulVec_sub, hv0, ← h1, Matrix.mulVec_mulVec, sub_self]
    rw [Matrix.mulVec_sub, hv0, sub_eq_zero] at this
    exact this
  · rintro ⟨h1, h2⟩
    refine ⟨?_, h2⟩
    rw [← Matrix.mulVec_mulVec, h1]

include hE herr in
/-- The row selection of a round keeps the invariant (weakened by independence of the rows). -/
theorem FRInv.of_rows {A0 : Matrix (Fin m) (Fin n) ℝ} {b0 : Fin m → ℝ} {xdim : ℕ} {s : FRResult ℝ n}
    (hpg : E.PivotGap err A0)
    (dim : xdim ≤ s.c)
    (sel : ∃ g : Fin s.c → Fin n, StrictMono g ∧ (∀ j, j.val < xdim → (g j).val = j.val) ∧
      (∀ i j, s.V i j = if g j = i then 1 else 0) ∧
      ∃ f : Fin s.r → Fin m, Function.Injective f ∧ s.A = A0.submatrix f g)
    (sub : (PolyFrom A0 b0 xdim).Nonempty →
      ∀ v, v ∈ PolyFrom s.A s.b xdim → s.V *ᵥ v ∈ PolyFrom A0 b0 xdim)
    (sup : ∀ x, x ∈ PolyFrom A0 b0 xdim → ∃ v, v ∈ PolyFrom s.A s.b xdim ∧ s.V *ᵥ v = x) :
    FRInv A0 b0 xdim (s.selectRows (pickP E err s.A)) := by
  obtain ⟨g, hg, hg1, hV, f, hf, hA⟩ := sel
  have hgap : GapAt E err s.A := by
    intro i j hij
    rw [hA]
    exact hpg f g hf hg.injective i j hij
  have eA : (s.selectRows (pickP E err s.A)).A = Sel (pickP E err s.A) * s.A := sel_mul_eq _ _
  have eb : (s.selectRows (pickP E err s.A)).b = Sel (pickP E err s.A) *ᵥ s.b := sel_vec_eq _ _
  have hpoly : (PolyFrom s.A s.b xdim).Nonempty → ∀ v : Fin s.c → ℝ, v ∈ PolyFrom (s.selectRows (pickP E err s.A)).A
      (s.selectRows (pickP E err s.A)).b xdim ↔ v ∈ PolyFrom s.A s.b xdim := by
    intro hne' v
    rw [eA, eb]
    exact pickP_poly hE herr hgap xdim hne' v
  refine ⟨dim, ⟨g, hg, hg1, hV, fun i => f ((pickP E err s.A).get i), ?_, ?_⟩, ?_, ?_, ?_⟩
  · intro i i' h
    obtain ⟨rk, hrk⟩ := hE s.Aᵀ
    exact (pickP_nodup (err := err) hrk.perm).injective_get (hf h)
  · funext i j
    exact congrFun (congrFun hA _) _
  · intro hne v hv
    obtain ⟨x, hx⟩ := hne
    obtain ⟨v0, hv0, -⟩ := sup x hx
    exact sub ⟨x, hx⟩ v ((hpoly ⟨v0, hv0⟩ v).1 hv)
  · intro x hx
    obtain ⟨v, hv, e⟩ := sup x hx
    exact ⟨v, (hpoly ⟨v, hv⟩ v).2 hv, e⟩
  · rw [eA]; exact pickP_indep hE herr hgap
end rows

/-! ## Selecting columns -/

theorem mul_selT_eq {m' n' : ℕ} (l : List (Fin n')) (A : Matrix (Fin m') (Fin n') ℝ) :
    (fun i j => A i (l.get j) : Matrix (Fin m') (Fin l.length) ℝ) = A * (Sel l)ᵀ := by
  funext i j; exact (mul_selT l A i j).symm

/-- Dropping columns whose coordinate vanishes on the polytope does not change it. -/
theorem cols_poly {A : Matrix (Fin m) (Fin n) ℝ} {b : Fin m → ℝ} {xdim : ℕ} {l : List (Fin n)}
    (hl : StrictMono l.get) (hfirst : ∀ a : Fin n, a.val < xdim → a ∈ l)
    (hz : ∀ v ∈ PolyFrom A b xdim, ∀ a, a ∉ l → v a = 0) :
    (∀ w, w ∈ PolyFrom (A * (Sel l)ᵀ) b xdim → (Sel l)ᵀ *ᵥ w ∈ PolyFrom A b xdim) ∧
    (∀ v, v ∈ PolyFrom A b xdim → ∃ w, w ∈ PolyFrom (A * (Sel l)ᵀ) b xdim ∧ (Sel l)ᵀ *ᵥ w = v) := by
  have hnd : l.Nodup := List.nodup_iff_injective_get.2 hl.injective
  have hpre := strictMono_prefix' hl xdim (fun a ha => List.get_of_mem (hfirst a ha))
  constructor
  · rintro w ⟨h1, h2⟩
    refine ⟨by rw [Matrix.mulVec_mulVec]; exact h1, fun a ha => ?_⟩
    by_cases hal : a ∈ l
    · obtain ⟨i, rfl⟩ := List.get_of_mem hal
      rw [selT_mulVec_get hnd]
      apply h2
      by_contra hi
      have := hpre i (by omega)
      omega
    · rw [selT_mulVec_notMem _ _ hal]
  · rintro v hv
    have e := selT_sel_mulVec hnd (hz v hv)
    refine ⟨Sel l *ᵥ v, ⟨?_, fun i hi => ?_⟩, e⟩
    · rw [← Matrix.mulVec_mulVec, e]; exact hv.1
    · rw [sel_mulVec]
      exact hv.2 _ (le_trans hi (strictMono_le hl i))

/-! ## Certificates -/

/-- Coordinates where a certificate is positive vanish on the polytope. -/
theorem certificate_zero {A : Matrix (Fin m) (Fin n) ℝ} {b : Fin m → ℝ} {xdim : ℕ} {i : Fin n}
    {y : Fin m → ℝ} (hy : Certifies A b xdim i y) {v : Fin n → ℝ} (hv : v ∈ PolyFrom A b xdim) (a : Fin n)
    (ha : (Aᵀ *ᵥ y) a ≠ 0) : v a = 0 := by
  have hsum : ∑ j, (Aᵀ *ᵥ y) j * v j = 0 := by
    have : (Aᵀ *ᵥ y) ⬝ᵥ v = 0 := by
      rw [Matrix.mulVec_transpose, ← Matrix.dotProduct_mulVec, hv.1, dotProduct_comm, hy.orth]
    exact this
  have hnn : ∀ j ∈ Finset.univ, 0 ≤ (Aᵀ *ᵥ y) j * v j := by
    intro j _
    by_cases hj : j.val < xdim
    · rw [hy.free j hj, zero_mul]
    · exact mul_nonneg (hy.nonneg j (by omega)) (hv.2 j (by omega))
  have := (Finset.sum_eq_zero_iff_of_nonneg hnn).1 hsum a (Finset.mem_univ a)
  exact (mul_eq_zero.1 this).resolve_left ha

/-! ## One round -/

theorem pickV_first {err : ℝ} {z : Fin n → ℝ} {xdim : ℕ} (a : Fin n) (ha : a.val < xdim) :
    a ∈ pickV err z xdim := mem_pickV.2 (.inl ha)

theorem pickV_dim {err : ℝ} {z : Fin n → ℝ} {xdim : ℕ} (h : xdim ≤ n) :
    xdim ≤ (pickV err z xdim).length := by
  by_contra hlt
  push Not at hlt
  have hn : (pickV err z xdim).length < n := by omega
  obtain ⟨t, ht, -⟩ := strictMono_prefix (pickV_strictMono err z xdim) xdim
    (fun a ha => List.get_of_mem (pickV_first a ha)) ⟨(pickV err z xdim).length, hn⟩ hlt
  have := t.isLt
  simp at ht
  omega

/-- The certified coordinate is dropped, so a round removes a column. -/
theorem pickV_lt {err : ℝ} {z : Fin n → ℝ} {xdim : ℕ} {i : Fin n} (hi : xdim ≤ i.val) (hz : err ≤ z i) :
    (pickV err z xdim).length < n := by
  have hnd := pickV_nodup err z xdim
  have hi' : i ∉ pickV err z xdim := by
    rw [mem_pickV]; push Not; exact ⟨hi, hz⟩
  have h := (List.nodup_cons.2 ⟨hi', hnd⟩).length_le_card
  simp at h
  omega

/-- The column selection of a round, with everything `FRInv` says except independence of rows. -/
theorem FRInv.round {E : Eigen ℝ} (hE : E.SparseQRExact) {err : ℝ} (herr : 0 < err)
    {A0 : Matrix (Fin m) (Fin n) ℝ} {b0 : Fin m → ℝ} {xdim : ℕ} {s : FRResult ℝ n}
    (hpg : E.PivotGap err A0) (h : FRInv A0 b0 xdim s)
    {i : Fin s.c} {y : Fin s.r → ℝ} (hy : Certifies s.A s.b xdim i y) :
    FRInv A0 b0 xdim (frRound E err xdim s (s.Aᵀ *ᵥ y)) := by
  obtain ⟨g, hg, hg1, hV, f, hf, hA⟩ := h.sel
  have hsm := pickV_strictMono err (s.Aᵀ *ᵥ y) xdim
  have hpre := strictMono_prefix' hsm xdim (fun a ha => List.get_of_mem (pickV_first a ha))
  have hcp := cols_poly hsm (fun a ha => pickV_first a ha) (A := s.A) (b := s.b) (xdim := xdim) (by
    intro v hv a ha
    rw [mem_pickV] at ha
    push Not at ha
    exact certificate_zero hy hv a (by linarith [ha.2]))
  have eV : ∀ w : Fin (pickV err (s.Aᵀ *ᵥ y) xdim).length → ℝ,
      (s.selectCols (pickV err (s.Aᵀ *ᵥ y) xdim)).V *ᵥ w =
      s.V *ᵥ ((Sel (pickV err (s.Aᵀ *ᵥ y) xdim))ᵀ *ᵥ w) := by
    intro w
    rw [Matrix.mulVec_mulVec, ← mul_selT_eq]; rfl
  have eA : (s.selectCols (pickV err (s.Aᵀ *ᵥ y) xdim)).A = s.A * (Sel (pickV err (s.Aᵀ *ᵥ y) xdim))ᵀ :=
    mul_selT_eq _ _
  show FRInv A0 b0 xdim ((s.selectCols (pickV err (s.Aᵀ *ᵥ y) xdim)).selectRows
    (pickP E err (s.selectCols (pickV err (s.Aᵀ *ᵥ y) xdim)).A))
  refine FRInv.of_rows hE herr.le hpg (pickV_dim h.dim) ?_ ?_ ?_
  · refine ⟨fun j => g ((pickV err (s.Aᵀ *ᵥ y) xdim).get j), hg.comp hsm, ?_, ?_, f, hf, ?_⟩
    · intro j hj
      have e := hpre j hj
      show (g _).val = _
      rw [hg1 _ (by rw [e]; exact hj), e]
    · intro i j
      exact hV _ _
    · funext i j
      exact congrFun (congrFun hA _) _
  · intro hne w hw
    refine (congrArg (· ∈ PolyFrom A0 b0 xdim) (eV w)).mpr ?_
    apply h.sub hne
    apply hcp.1
    rw [← eA]
    exact hw
  · intro x hx
    obtain ⟨v, hv, e⟩ := h.sup x hx
    obtain ⟨w, hw, e'⟩ := hcp.2 v hv
    refine ⟨w, ?_, ?_⟩
    · rw [eA]; exact hw
    · exact (eV w).trans (by rw [e', e])

/-- The start of `reduce` satisfies the invariant. -/
theorem FRInv.start {E : Eigen ℝ} (hE : E.SparseQRExact) {err : ℝ} (herr : 0 ≤ err)
    {A0 : Matrix (Fin m) (Fin n) ℝ} {b0 : Fin m → ℝ} {xdim : ℕ} (hx : xdim ≤ n)
    (hpg : E.PivotGap err A0) :
    FRInv A0 b0 xdim (frStart E err A0 b0) := by
  have e1 : ∀ v : Fin n → ℝ, (fun i j => if i = j then (1:ℝ) else 0 : Matrix (Fin n) (Fin n) ℝ) *ᵥ v = v := by
    intro v; funext i; simp [Matrix.mulVec, dotProduct]
  show FRInv A0 b0 xdim (FRResult.selectRows (⟨m, n, A0, b0, fun i j => if i = j then 1 else 0⟩ : FRResult ℝ n)
    (pickP E err A0))
  refine FRInv.of_rows (s := ⟨m, n, A0, b0, fun i j => if i = j then 1 else 0⟩) hE herr hpg hx ?_ ?_ ?_
  · refine ⟨id, strictMono_id, fun _ _ => rfl, ?_, id, Function.injective_id, rfl⟩
    intro i j
    simp [eq_comm]
  · intro _ v hv
    exact (e1 v).symm ▸ hv
  · intro x hx
    exact ⟨x, hx, e1 x⟩

/-! ## Certificates of later rounds -/

/-- A certificate for the state after a selection of rows `p` and columns `l`, at column `j`, gives one
before the selection at column `l_j`, if the dropped columns are strictly certified. -/
theorem hasCert_sel {err : ℝ} (herr : 0 < err) {xdim : ℕ} {A : Matrix (Fin m) (Fin n) ℝ} {b : Fin m → ℝ}
    {i : Fin n} {y : Fin m → ℝ} (hy : Certifies A b xdim i y) {l : List (Fin n)} (hsm : StrictMono l.get)
    (hfirst : ∀ a : Fin n, a.val < xdim → a ∈ l) (hdrop : ∀ a, a ∉ l → err ≤ (Aᵀ *ᵥ y) a)
    (p : List (Fin m)) {j : Fin l.length} (hj : xdim ≤ j.val)
    (h : HasCert (Sel p * (A * (Sel l)ᵀ)) (Sel p *ᵥ b) xdim j) : HasCert A b xdim (l.get j) := by
  obtain ⟨y', hy'⟩ := h
  have hpre := strictMono_prefix hsm xdim (fun a ha => List.get_of_mem (hfirst a ha))
  -- the certificate in terms of the rows of `A`
  let u : Fin m → ℝ := (Sel p)ᵀ *ᵥ y'
  have hu : ∀ t : Fin l.length, (Aᵀ *ᵥ u) (l.get t) = ((Sel p * (A * (Sel l)ᵀ))ᵀ *ᵥ y') t := by
    intro t
    rw [Matrix.transpose_mul, Matrix.transpose_mul, Matrix.transpose_transpose,
      ← Matrix.mulVec_mulVec, ← Matrix.mulVec_mulVec, sel_mulVec]
  have hbu : b ⬝ᵥ u = 0 := by
    show b ⬝ᵥ ((Sel p)ᵀ *ᵥ y') = 0
    rw [Matrix.dotProduct_mulVec, Matrix.vecMul_transpose]
    exact hy'.orth
  -- add a multiple of `y` to make the dropped coordinates non-negative
  obtain ⟨M, hM0, hM⟩ : ∃ M : ℝ, 0 ≤ M ∧ ∀ a, -(Aᵀ *ᵥ u) a ≤ M * err := by
    obtain ⟨B, hB⟩ := (Set.finite_range fun a => -(Aᵀ *ᵥ u) a).bddAbove
    refine ⟨max B 0 / err, div_nonneg (le_max_right _ _) herr.le, fun a => ?_⟩
    rw [div_mul_cancel₀ _ herr.ne']
    exact le_trans (hB ⟨a, rfl⟩) (le_max_left _ _)
  have hcomb : ∀ a, (Aᵀ *ᵥ (u + M • y)) a = (Aᵀ *ᵥ u) a + M * (Aᵀ *ᵥ y) a := by
    intro a
    rw [Matrix.mulVec_add, Matrix.mulVec_smul]; rfl
  have hfree : ∀ a : Fin n, a.val < xdim → (Aᵀ *ᵥ (u + M • y)) a = 0 := by
    intro a ha
    obtain ⟨t, ht, rfl⟩ := hpre a ha
    rw [hcomb, hu, hy'.free t (by omega), hy.free _ ha]
    ring
  have hnn : ∀ a : Fin n, xdim ≤ a.val → 0 ≤ (Aᵀ *ᵥ (u + M • y)) a := by
    intro a ha
    rw [hcomb]
    by_cases hal : a ∈ l
    · obtain ⟨t, rfl⟩ := List.get_of_mem hal
      rw [hu]
      have htx : xdim ≤ t.val := by
        by_contra hlt
        push Not at hlt
        have := strictMono_prefix' hsm xdim (fun a ha => List.get_of_mem (hfirst a ha)) t hlt
        omega
      exact add_nonneg (hy'.nonneg t htx) (mul_nonneg hM0 (hy.nonneg _ ha))
    · have h1 := hM a
      have h2 := mul_le_mul_of_nonneg_left (hdrop a hal) hM0
      linarith
  have hone : 1 ≤ (Aᵀ *ᵥ (u + M • y)) (l.get j) := by
    rw [hcomb, hu, hy'.one]
    have hja : xdim ≤ (l.get j).val := le_trans hj (strictMono_le hsm j)
    have := mul_nonneg hM0 (hy.nonneg _ hja)
    linarith
  refine ⟨((Aᵀ *ᵥ (u + M • y)) (l.get j))⁻¹ • (u + M • y), ?_, ?_, ?_, ?_⟩
  · intro a ha
    rw [Matrix.mulVec_smul, Pi.smul_apply, hfree a ha, smul_zero]
  · intro a ha
    rw [Matrix.mulVec_smul, Pi.smul_apply, smul_eq_mul]
    exact mul_nonneg (inv_nonneg.2 (by linarith)) (hnn a ha)
  · rw [Matrix.mulVec_smul, Pi.smul_apply, smul_eq_mul, inv_mul_cancel₀ (by linarith)]
  · rw [dotProduct_smul, dotProduct_add, dotProduct_smul, hbu, hy.orth]
    simp

/-- A column without certificate never acquires one. -/
theorem hasCert_round {E : Eigen ℝ} {err : ℝ} (herr : 0 < err) {xdim : ℕ} {s : FRResult ℝ n}
    {i : Fin s.c} {y : Fin s.r → ℝ} (hy : Certifies s.A s.b xdim i y)
    (j : Fin (pickV err (s.Aᵀ *ᵥ y) xdim).length) (hj : xdim ≤ j.val)
    (h : HasCert (frRound E err xdim s (s.Aᵀ *ᵥ y)).A (frRound E err xdim s (s.Aᵀ *ᵥ y)).b xdim j) :
    HasCert s.A s.b xdim ((pickV err (s.Aᵀ *ᵥ y) xdim).get j) := by
  refine hasCert_sel herr hy (pickV_strictMono _ _ _) (fun a ha => pickV_first a ha) (fun a ha => ?_)
    (pickP E err (s.selectCols (pickV err (s.Aᵀ *ᵥ y) xdim)).A) hj ?_
  · rw [mem_pickV] at ha
    push Not at ha
    exact ha.2
  · have e2 : (s.selectCols (pickV err (s.Aᵀ *ᵥ y) xdim)).A = s.A * (Sel (pickV err (s.Aᵀ *ᵥ y) xdim))ᵀ :=
      mul_selT_eq _ _
    let B : Matrix (Fin s.r) (Fin (pickV err (s.Aᵀ *ᵥ y) xdim).length) ℝ :=
      (s.selectCols (pickV err (s.Aᵀ *ᵥ y) xdim)).A
    have key : ∀ B' : Matrix (Fin s.r) (Fin (pickV err (s.Aᵀ *ᵥ y) xdim).length) ℝ, B' = B →
        HasCert (Sel (pickP E err B) * B') (Sel (pickP E err B) *ᵥ s.b) xdim j := by
      intro B' hB
      rw [hB, ← sel_mul_eq, ← sel_vec_eq]
      exact h
    exact key _ e2.symm

end PW
