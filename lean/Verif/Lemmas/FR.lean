import Verif.Props.Centers
import Verif.Lemmas.Select
import Verif.Lemmas.Farkas

/-! # Facial reduction: one search, one round -/

namespace PW
open Classical Matrix
variable {m n : ℕ}

/-! ## The search for a certificate -/

theorem setAt_setAt {α : Type} {n : ℕ} (v : Fin n → α) (i : ℕ) (a c : α) :
    setAt (setAt v i a) i c = setAt v i c := by
  funext j; unfold setAt; split <;> rfl

theorem setAt_self {α : Type} {n : ℕ} (v : Fin n → α) (i : ℕ) (a : α) (h : ∀ j : Fin n, j.val = i → v j = a) :
    setAt v i a = v := by
  funext j; unfold setAt; split
  · exact (h j ‹_›).symm
  · rfl

theorem findZRel_LO {n xdim i : ℕ} (hx : xdim ≤ i) (hi : i < n) (j : Fin (n + 1)) (hj : j.val = i) :
    findZRel n xdim j = .LO := by
  unfold findZRel
  rw [if_neg (by omega), if_neg (by omega)]

/-- There is a certificate for index `i`. -/
def HasCert (A : Matrix (Fin m) (Fin n) ℝ) (b : Fin m → ℝ) (xdim : ℕ) (i : Fin n) : Prop :=
  ∃ y, Certifies A b xdim i y

section
variable {glp : Glpk ℝ} (hg : glp.Exact) (hz : glp.ZeroIfInfeasible) {A : Matrix (Fin m) (Fin n) ℝ}
  {b : Fin m → ℝ} {xdim : ℕ} (hm : m ≠ 0)
include hm

/-- One iteration of the search, unfolded. -/
theorem findZLoop_succ {left : ℕ} {i : Fin n} (hx : xdim ≤ i.val) :
    findZLoop glp A b (left + 1) i.val (findZRel n xdim) (fun _ => 0) =
      if (∑ j, |glp.solve (findZLP A b (findZRelAt n xdim i) (findZBndAt n i)) j|) = 0 then
        findZLoop glp A b left (i.val + 1) (findZRel n xdim) (fun _ => 0)
      else .ok (some (Aᵀ *ᵥ glp.solve (findZLP A b (findZRelAt n xdim i) (findZBndAt n i))), i.val) := by
  have hsolve : findOptimalVector glp (findZLP A b (findZRelAt n xdim i) (findZBndAt n i)) =
      .ok (glp.solve (findZLP A b (findZRelAt n xdim i) (findZBndAt n i))) := by
    unfold findOptimalVector
    rw [if_neg]
    rintro (h | h)
    · exact absurd h (Nat.succ_ne_zero n)
    · exact hm h
  show ((findOptimalVector glp (findZLP A b (findZRelAt n xdim i) (findZBndAt n i))).bind fun sol =>
    if !(Scalar.eq (vsum fun j => Scalar.abs (sol j)) 0) then
      .ok (some (mulVec (transp A) sol), i.val)
    else findZLoop glp A b left (i.val + 1) (setAt (findZRelAt n xdim i) i .LO)
      (setAt (findZBndAt n i) i 0)) = _
  rw [hsolve, Out.ok_bind]
  have e1 : setAt (findZRelAt n xdim i) i.val .LO = findZRel n xdim := by
    unfold findZRelAt
    rw [setAt_setAt, setAt_self]
    exact fun j hj => findZRel_LO hx i.isLt j hj
  have e2 : setAt (findZBndAt n i) i.val 0 = fun _ => (0 : ℝ) := by
    unfold findZBndAt
    rw [setAt_setAt, setAt_self]
    exact fun j hj => rfl
  have e2' : setAt (findZBndAt n i) i.val (@OfNat.ofNat ℝ 0 _) = fun _ => (0 : ℝ) := e2
  rw [e1]
  rw [show (setAt (findZBndAt n i) (↑i) 0) = fun _ => (0 : ℝ) from e2]
  have key : ∀ (sol : Fin m → ℝ) (K : Out (Option (Fin n → ℝ) × ℕ)),
      (if !(Scalar.eq (vsum fun j => Scalar.abs (sol j)) 0) then
        .ok (some (mulVec (transp A) sol), i.val) else K) =
      if (∑ j, |sol j|) = 0 then K else .ok (some (Aᵀ *ᵥ sol), i.val) := by
    intro sol K
    rw [vsum_real, mulVec_real, transp_eq]
    simp only [rsc_eq, rsc_abs]
    by_cases h : (∑ j, |sol j|) = 0
    · rw [if_pos h, if_neg]; simp [h]
    · rw [if_neg h, if_pos]; simp [h]
  exact key _ _

include hg hz

/-- If index `i` has no certificate the search moves on. -/
theorem findZLoop_no {left : ℕ} {i : Fin n} (hx : xdim ≤ i.val) (h : ¬ HasCert A b xdim i) :
    findZLoop glp A b (left + 1) i.val (findZRel n xdim) (fun _ => 0) =
      findZLoop glp A b left (i.val + 1) (findZRel n xdim) (fun _ => 0) := by
  rw [findZLoop_succ hm hx, if_pos]
  have := hz (findZLP A b (findZRelAt n xdim i) (findZBndAt n i)) (by
    rintro ⟨y, hy⟩
    exact h ⟨y, (C38_findZ A b xdim i hx y).1 hy⟩)
  rw [this]; simp

/-- If it has one, one is returned. -/
theorem findZLoop_yes {left : ℕ} {i : Fin n} (hx : xdim ≤ i.val) (h : HasCert A b xdim i) :
    ∃ y, Certifies A b xdim i y ∧
      findZLoop glp A b (left + 1) i.val (findZRel n xdim) (fun _ => 0) = .ok (some (Aᵀ *ᵥ y), i.val) := by
  obtain ⟨y0, hy0⟩ := h
  have hf := hg.feasible (findZLP A b (findZRelAt n xdim i) (findZBndAt n i))
    ⟨y0, (C38_findZ A b xdim i hx y0).2 hy0⟩
  have hc := (C38_findZ A b xdim i hx _).1 hf
  refine ⟨_, hc, ?_⟩
  rw [findZLoop_succ hm hx, if_neg]
  intro hsum
  have h0 : glp.solve (findZLP A b (findZRelAt n xdim i) (findZBndAt n i)) = fun _ => 0 := by
    funext j
    have := (Finset.sum_eq_zero_iff_of_nonneg (fun j _ => abs_nonneg _)).1 hsum j (Finset.mem_univ j)
    exact abs_eq_zero.1 this
  have h1 := hc.one
  rw [h0] at h1
  have : (Aᵀ *ᵥ (fun _ => (0 : ℝ))) i = 0 := congrFun (Matrix.mulVec_zero _) i
  exact zero_ne_one (this.symm.trans h1)

/-- Outcome of the search from index `i` on: the first index with a certificate, if any. -/
theorem findZLoop_spec : ∀ (left i : ℕ), i + left = n → xdim ≤ i →
    (∃ (j : Fin n) (y : Fin m → ℝ), i ≤ j.val ∧ Certifies A b xdim j y ∧
      (∀ l : Fin n, i ≤ l.val → l.val < j.val → ¬ HasCert A b xdim l) ∧
      findZLoop glp A b left i (findZRel n xdim) (fun _ => 0) = .ok (some (Aᵀ *ᵥ y), j.val)) ∨
    ((∀ l : Fin n, i ≤ l.val → ¬ HasCert A b xdim l) ∧
      findZLoop glp A b left i (findZRel n xdim) (fun _ => 0) = .ok (none, n)) := by
  intro left
  induction left with
  | zero =>
    intro i hi hx
    right
    refine ⟨fun l hl => by omega, ?_⟩
    have : i = n := by omega
    subst this; rfl
  | succ left ih =>
    intro i hi hx
    have hin : i < n := by omega
    by_cases hc : HasCert A b xdim ⟨i, hin⟩
    · obtain ⟨y, hy, he⟩ := findZLoop_yes hg hz hm (left := left) (i := ⟨i, hin⟩) hx hc
      exact .inl ⟨⟨i, hin⟩, y, le_rfl, hy, fun l h1 h2 => by simp at h2; omega, he⟩
    · have he := findZLoop_no hg hz hm (left := left) (i := ⟨i, hin⟩) hx hc
      have he : findZLoop glp A b (left + 1) i (findZRel n xdim) (fun _ => 0) =
        findZLoop glp A b left (i + 1) (findZRel n xdim) (fun _ => 0) := he
      rcases ih (i + 1) (by omega) (by omega) with ⟨j, y, h1, h2, h3, h4⟩ | ⟨h1, h2⟩
      · refine .inl ⟨j, y, by omega, h2, fun l hl1 hl2 => ?_, he.trans h4⟩
        by_cases hli : l.val = i
        · have : l = ⟨i, hin⟩ := Fin.ext hli
          rw [this]; exact hc
        · exact h3 l (by omega) hl2
      · refine .inr ⟨fun l hl => ?_, he.trans h2⟩
        by_cases hli : l.val = i
        · have : l = ⟨i, hin⟩ := Fin.ext hli
          rw [this]; exact hc
        · exact h1 l (by omega)

/-- Starting later is the same as starting earlier when there is nothing to find in between. -/
theorem findZ_skip (i : ℕ) (hx : xdim ≤ i) (hin : i ≤ n)
    (hno : ∀ l : Fin n, xdim ≤ l.val → l.val < i → ¬ HasCert A b xdim l) :
    findZ glp i A b xdim = findZ glp xdim A b xdim := by
  unfold findZ
  rw [if_neg hm, if_neg hm]
  obtain ⟨t, rfl⟩ := Nat.exists_eq_add_of_le hx
  clear hx
  induction t with
  | zero => rfl
  | succ t ih =>
    rw [← ih (by omega) (fun l h1 h2 => hno l h1 (by omega))]
    have e : n - (xdim + t) = (n - (xdim + (t + 1))) + 1 := by omega
    rw [e]
    exact (findZLoop_no hg hz hm (i := ⟨xdim + t, by omega⟩) (by simp)
      (hno ⟨xdim + t, by omega⟩ (by simp) (by simp))).symm
end

/-! ## Selections of columns -/

theorem finFilter_strictMono (p : Fin n → Bool) :
    StrictMono ((List.finRange n).filter p).get := by
  intro i j hij
  have hs : ((List.finRange n).filter p).Pairwise (· < ·) :=
    List.Pairwise.filter _ (List.pairwise_lt_finRange n)
  exact List.pairwise_iff_get.1 hs i j hij

theorem strictMono_le {c : ℕ} {g : Fin c → Fin n} (hg : StrictMono g) (t : Fin c) : t.val ≤ (g t).val := by
  obtain ⟨t, ht⟩ := t
  induction t with
  | zero => exact Nat.zero_le _
  | succ t ih =>
    have h1 := ih (by omega)
    have h2 : g ⟨t, by omega⟩ < g ⟨t + 1, ht⟩ := hg (by simp [Fin.lt_def])
    rw [Fin.lt_def] at h2
    simp at h1 ⊢
    omega

/-- If a strictly increasing selection contains `0, …, i - 1`, these are its first entries. -/
theorem strictMono_prefix {c : ℕ} {g : Fin c → Fin n} (hg : StrictMono g) (i : ℕ)
    (hr : ∀ a : Fin n, a.val < i → ∃ t, g t = a) :
    ∀ a : Fin n, a.val < i → ∃ t : Fin c, t.val = a.val ∧ g t = a := by
  intro a
  obtain ⟨a, ha⟩ := a
  induction a using Nat.strong_induction_on with
  | _ a ih =>
    intro hai
    obtain ⟨t, ht⟩ := hr ⟨a, ha⟩ hai
    refine ⟨t, ?_, ht⟩
    have h1 := strictMono_le hg t
    rw [ht] at h1
    by_contra hne
    have hlt : t.val < a := by simp at h1 hne; omega
    obtain ⟨t', h2, h3⟩ := ih t.val hlt (by omega) (by simp at hai ⊢; omega)
    have : t' = t := Fin.ext h2
    subst this
    rw [ht] at h3
    simp only [Fin.mk.injEq] at h3
    omega

theorem strictMono_prefix' {c : ℕ} {g : Fin c → Fin n} (hg : StrictMono g) (i : ℕ)
    (hr : ∀ a : Fin n, a.val < i → ∃ t, g t = a) (t : Fin c) (ht : t.val < i) : (g t).val = t.val := by
  have h1 := strictMono_le hg t
  obtain ⟨t', h2, h3⟩ := strictMono_prefix hg i hr ⟨t.val, by omega⟩ ht
  have : t' = t := Fin.ext h2
  subst this
  rw [h3]

theorem mem_pickV {err : ℝ} {z : Fin n → ℝ} {xdim : ℕ} {i : Fin n} :
    i ∈ pickV err z xdim ↔ i.val < xdim ∨ z i < err := by
  simp [pickV]

theorem pickV_strictMono (err : ℝ) (z : Fin n → ℝ) (xdim : ℕ) : StrictMono (pickV err z xdim).get :=
  finFilter_strictMono _

theorem pickV_nodup (err : ℝ) (z : Fin n → ℝ) (xdim : ℕ) : (pickV err z xdim).Nodup :=
  (List.nodup_finRange n).filter _

end PW
