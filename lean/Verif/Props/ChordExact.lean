import Verif.Props.SparsePolytope
import Verif.Props.Recording
import Verif.Lemmas.Fuel
import Verif.Spec.ChordEnd

/-!
# C72: exactly when the chord searches of Hit-and-Run terminate (exact arithmetic)
-/

namespace PW
open Matrix
variable {m n : ℕ}

section
variable (P : ℝ → Prop) (ERR e : ℝ) (hP : ∀ t, 0 ≤ t → (P t ↔ t ≤ e))
include hP

/-- A bracket not wider than `ERR`. -/
theorem bisectR_iff_narrow {a c μ : ℝ} (ha : 0 ≤ a) (hae : a ≤ e) (hec : e < c) (hw : c - a ≤ ERR)
    (hμ : a ≤ μ) : (∃ f t, bisectR P ERR f a c μ = .ok t) ↔ P μ ∨ a ≠ e := by
  have habs : ∀ c, a < c → |a - c| = c - a := fun c h => by rw [abs_of_neg (by linarith)]; ring
  constructor
  · rintro ⟨f, t, h⟩
    by_contra hcon
    push Not at hcon
    obtain ⟨h1, rfl⟩ := hcon
    have hμa : a < μ := by
      by_contra hc
      exact h1 ((hP μ (ha.trans hμ)).2 (not_lt.1 hc))
    rw [bisectR_diverges P ERR f a c μ hec (fun t ht hPt => absurd ((hP t (by linarith)).1 hPt) (by linarith))
      (.inl hμa)] at h
    cases h
  · rintro (h | h)
    · refine ⟨0, μ, ?_⟩
      rw [bisectR, if_neg]
      rw [habs c (by linarith)]
      push Not
      exact ⟨hw, h⟩
    · have hlt : a < e := lt_of_le_of_ne hae h
      obtain ⟨N, hN⟩ := pow_unbounded_of_one_lt ((c - a) / (e - a)) (by norm_num : (1 : ℝ) < 2)
      rw [div_lt_iff₀ (by linarith)] at hN
      clear hμ
      induction N generalizing c μ with
      | zero => simp at hN; linarith
      | succ N ih =>
        by_cases hPμ : P μ
        · refine ⟨0, μ, ?_⟩
          rw [bisectR, if_neg]
          rw [habs c (by linarith)]
          push Not
          exact ⟨hw, hPμ⟩
        · by_cases hm : P ((a + c) / 2)
          · refine ⟨1, (a + c) / 2, ?_⟩
            rw [bisectR, if_pos (.inr hPμ), if_pos hm, bisectR, if_neg]
            rw [abs_of_neg (by linarith)]
            push Not
            exact ⟨by linarith, hm⟩
          · have hm' : e < (a + c) / 2 := by
              by_contra hc
              exact hm ((hP _ (by linarith)).2 (not_lt.1 hc))
            obtain ⟨f, t, hf⟩ := ih (c := (a + c) / 2) (μ := (a + c) / 2) hm' (by linarith)
              (by rw [pow_succ] at hN; linarith)
            exact ⟨f + 1, t, by rw [bisectR, if_pos (.inr hPμ), if_neg hm, hf]⟩

omit hP in
theorem bisectR_step {a c μ : ℝ} (hwide : ERR < |a - c|) :
    (∃ f t, bisectR P ERR f a c μ = .ok t) ↔
      (P ((a + c) / 2) → ∃ f t, bisectR P ERR f ((a + c) / 2) c ((a + c) / 2) = .ok t) ∧
      (¬ P ((a + c) / 2) → ∃ f t, bisectR P ERR f a ((a + c) / 2) ((a + c) / 2) = .ok t) := by
  constructor
  · rintro ⟨f, t, h⟩
    cases f with
    | zero => rw [bisectR, if_pos (.inl hwide)] at h; cases h
    | succ f =>
      rw [bisectR, if_pos (.inl hwide)] at h
      split_ifs at h with hm
      · exact ⟨fun _ => ⟨f, t, h⟩, fun h => absurd hm h⟩
      · exact ⟨fun h => absurd h hm, fun _ => ⟨f, t, h⟩⟩
  · rintro ⟨h1, h2⟩
    by_cases hm : P ((a + c) / 2)
    · obtain ⟨f, t, h⟩ := h1 hm
      exact ⟨f + 1, t, by rw [bisectR, if_pos (.inl hwide), if_pos hm, h]⟩
    · obtain ⟨f, t, h⟩ := h2 hm
      exact ⟨f + 1, t, by rw [bisectR, if_pos (.inl hwide), if_neg hm, h]⟩

/-- A bracket that takes `J + 1` halvings to reach `ERR`. -/
theorem bisectR_iff_wide (J : ℕ) : ∀ {a c μ : ℝ}, 0 ≤ a → a ≤ e → e < c → c - a ≤ ERR * 2 ^ (J + 1) →
    (∀ j, j < J + 1 → ERR * 2 ^ j < c - a) →
    ((∃ f t, bisectR P ERR f a c μ = .ok t) ↔ ¬ ∃ i : ℕ, e = a + i * (2 * (c - a) / 2 ^ (J + 1))) := by
  induction J with
  | zero =>
    intro a c μ ha hae hec hw hwide
    have h0 := hwide 0 (by omega)
    simp only [pow_zero, mul_one, zero_add, pow_one] at h0 hw ⊢
    have hcond : ERR < |a - c| := by rw [abs_of_neg (by linarith)]; linarith
    rw [bisectR_step P ERR hcond]
    by_cases hm : P ((a + c) / 2)
    · have hm' := (hP _ (by linarith)).1 hm
      have hR : (∃ f t, bisectR P ERR f ((a + c) / 2) c ((a + c) / 2) = .ok t) :=
        (bisectR_iff_narrow P ERR e hP (by linarith) hm' hec (by linarith) le_rfl).2 (.inl hm)
      refine ⟨fun _ => ?_, fun _ => ⟨fun _ => hR, fun h => absurd hm h⟩⟩
      rintro ⟨i, hi⟩
      have hi0 : i = 0 := by
        by_contra hne
        have : (1 : ℝ) ≤ i := by exact_mod_cast Nat.one_le_iff_ne_zero.2 hne
        have h3 : 2 * (c - a) / 2 = c - a := by ring
        rw [h3] at hi
        nlinarith
      rw [hi0] at hi
      simp at hi
      linarith
    · have hm' : e < (a + c) / 2 := by
        by_contra hc
        exact hm ((hP _ (by linarith)).2 (not_lt.1 hc))
      have hR := bisectR_iff_narrow P ERR e hP (a := a) (c := (a + c) / 2) (μ := (a + c) / 2) ha hae hm'
        (by linarith) (by linarith)
      have hR' : (∃ f t, bisectR P ERR f a ((a + c) / 2) ((a + c) / 2) = .ok t) ↔ a ≠ e := by
        rw [hR]
        exact ⟨fun h => h.resolve_left hm, .inr⟩
      constructor
      · rintro ⟨-, h⟩ ⟨i, hi⟩
        have hne := hR'.1 (h hm)
        have hi0 : i = 0 := by
          by_contra hne
          have : (1 : ℝ) ≤ i := by exact_mod_cast Nat.one_le_iff_ne_zero.2 hne
          have h3 : 2 * (c - a) / 2 = c - a := by ring
          rw [h3] at hi
          nlinarith
        rw [hi0] at hi
        simp at hi
        exact hne hi.symm
      · intro h
        refine ⟨fun hc => absurd hc hm, fun _ => hR'.2 fun hae => h ⟨0, by simp [hae]⟩⟩
  | succ J ih =>
    intro a c μ ha hae hec hw hwide
    have h0 := hwide 0 (by omega)
    simp only [pow_zero, mul_one] at h0
    have hcond : ERR < |a - c| := by rw [abs_of_neg (by linarith)]; linarith
    rw [bisectR_step P ERR hcond]
    have hhalf : ∀ j, j < J + 1 → ERR * 2 ^ j < (c - a) / 2 := by
      intro j hj
      have := hwide (j + 1) (by omega)
      rw [pow_succ] at this
      linarith
    have hw' : (c - a) / 2 ≤ ERR * 2 ^ (J + 1) := by
      rw [pow_succ] at hw
      linarith
    have hgrid : 2 * (c - a) / 2 ^ (J + 1 + 1) = 2 * ((c - a) / 2) / 2 ^ (J + 1) := by
      rw [pow_succ 2 (J + 1)]; field_simp
    rw [hgrid]
    by_cases hm : P ((a + c) / 2)
    · have hm' := (hP _ (by linarith)).1 hm
      have hR := ih (a := (a + c) / 2) (c := c) (μ := (a + c) / 2) (by linarith) hm' hec
        (by rw [show c - (a + c) / 2 = (c - a) / 2 by ring]; exact hw')
        (by rw [show c - (a + c) / 2 = (c - a) / 2 by ring]; exact hhalf)
      rw [show c - (a + c) / 2 = (c - a) / 2 by ring] at hR
      have hshift : (a + c) / 2 = a + (2 ^ J : ℕ) * (2 * ((c - a) / 2) / 2 ^ (J + 1)) := by
        push_cast
        rw [pow_succ]
        field_simp
        ring
      have hpos : 0 < 2 * ((c - a) / 2) / 2 ^ (J + 1) := by
        have : 0 < c - a := by linarith
        positivity
      generalize 2 * ((c - a) / 2) / 2 ^ (J + 1) = w at hR hshift hpos
      constructor
      · rintro ⟨h, -⟩ ⟨i, hi⟩
        refine hR.1 (h hm) ⟨i - 2 ^ J, ?_⟩
        have hle : 2 ^ J ≤ i := by
          by_contra hc
          have : ((i : ℕ) : ℝ) < ((2 ^ J : ℕ) : ℝ) := by exact_mod_cast not_le.1 hc
          nlinarith
        rw [Nat.cast_sub hle, hi, hshift]
        ring
      · intro h
        refine ⟨fun _ => hR.2 ?_, fun hc => absurd hm hc⟩
        rintro ⟨i, hi⟩
        refine h ⟨2 ^ J + i, ?_⟩
        rw [hi, hshift, Nat.cast_add]
        ring
    · have hm' : e < (a + c) / 2 := by
        by_contra hc
        exact hm ((hP _ (by linarith)).2 (not_lt.1 hc))
      have hR := ih (a := a) (c := (a + c) / 2) (μ := (a + c) / 2) ha hae hm'
        (by rw [show (a + c) / 2 - a = (c - a) / 2 by ring]; exact hw')
        (by rw [show (a + c) / 2 - a = (c - a) / 2 by ring]; exact hhalf)
      rw [show (a + c) / 2 - a = (c - a) / 2 by ring] at hR
      rw [← hR]
      exact ⟨fun h => h.2 hm, fun h => ⟨fun hc => absurd hc hm, fun _ => h⟩⟩

omit hP in
theorem exists_halvings {T : ℝ} (hE : 0 < ERR) : ∃ J : ℕ, T ≤ ERR * 2 ^ J ∧ ∀ j, j < J → ERR * 2 ^ j < T := by
  classical
  have hex : ∃ J : ℕ, T ≤ ERR * 2 ^ J := by
    obtain ⟨N, hN⟩ := pow_unbounded_of_one_lt (T / ERR) (by norm_num : (1 : ℝ) < 2)
    rw [div_lt_iff₀ hE] at hN
    exact ⟨N, by linarith⟩
  exact ⟨Nat.find hex, Nat.find_spec hex, fun j hj => not_le.1 (Nat.find_min hex hj)⟩

/-- The bisection from `[0, T]`. -/
theorem bisectR_start {T : ℝ} (h0 : 0 ≤ e) (heT : e < T) {J : ℕ} (hJ : T ≤ ERR * 2 ^ J)
    (hJ' : ∀ j, j < J → ERR * 2 ^ j < T) :
    (∃ f t, bisectR P ERR f 0 T (T / 2) = .ok t) ↔ ¬ ∃ i : ℕ, e = i * (2 * T / 2 ^ J) := by
  cases J with
  | zero =>
    rw [bisectR_iff_narrow P ERR e hP le_rfl h0 heT (by simpa using hJ) (by linarith)]
    simp only [pow_zero, div_one]
    constructor
    · rintro h ⟨i, hi⟩
      have hi0 : i = 0 := by
        by_contra hne
        have : (1 : ℝ) ≤ i := by exact_mod_cast Nat.one_le_iff_ne_zero.2 hne
        nlinarith
      rw [hi0] at hi
      simp at hi
      rcases h with h | h
      · have := (hP _ (by linarith)).1 h
        linarith
      · exact h hi.symm
    · intro h
      exact .inr fun he => h ⟨0, by simp [← he]⟩
  | succ J =>
    have := bisectR_iff_wide P ERR e hP J (a := 0) (c := T) (μ := T / 2) le_rfl h0 heT (by simpa using hJ)
      (by simpa using hJ')
    rw [this]
    simp

/-- The doubling loop stops at the first `2^p |R|` beyond the chord end. -/
theorem expandR_first {f : ℕ} {R c : ℝ} (h : expandR P f R = .ok c) :
    ∃ p : ℕ, 1 ≤ p ∧ c = 2 ^ p * |R| ∧ e < c ∧ ∀ q, 1 ≤ q → q < p → 2 ^ q * |R| ≤ e := by
  induction f generalizing R with
  | zero => cases h
  | succ f ih =>
    rw [expandR] at h
    split_ifs at h with hk
    · obtain ⟨p, hp, hc, he, hq⟩ := ih h
      have habs : abs (2 * |R|) = 2 * |R| := abs_of_nonneg (by positivity)
      rw [habs] at hc hq
      refine ⟨p + 1, by omega, by rw [hc, pow_succ]; ring, he, fun q h1 h2 => ?_⟩
      rcases Nat.eq_or_lt_of_le h1 with rfl | h3
      · rw [pow_one]; exact (hP _ (by positivity)).1 hk
      · obtain ⟨q', rfl⟩ : ∃ q', q = q' + 1 := ⟨q - 1, by omega⟩
        have := hq q' (by omega) (by omega)
        rw [pow_succ]; linarith
    · cases h
      refine ⟨1, le_rfl, by rw [pow_one], ?_, fun q h1 h2 => by omega⟩
      by_contra hc
      exact hk ((hP _ (by positivity)).2 (not_lt.1 hc))

omit hP in
theorem pow_first_unique {R : ℝ} {p q : ℕ} (hp : 1 ≤ p) (hq : 1 ≤ q) (hpe : e < 2 ^ p * |R|)
    (hqe : e < 2 ^ q * |R|) (hp' : ∀ r, 1 ≤ r → r < p → 2 ^ r * |R| ≤ e)
    (hq' : ∀ r, 1 ≤ r → r < q → 2 ^ r * |R| ≤ e) : p = q := by
  rcases lt_trichotomy p q with h | h | h
  · have := hq' p hp h; linarith
  · exact h
  · have := hp' q hq h; linarith

omit hP in
theorem halvings_unique {T : ℝ} {J K : ℕ} (hJ : T ≤ ERR * 2 ^ J) (hK : T ≤ ERR * 2 ^ K)
    (hJ' : ∀ j, j < J → ERR * 2 ^ j < T) (hK' : ∀ j, j < K → ERR * 2 ^ j < T) : J = K := by
  rcases lt_trichotomy J K with h | h | h
  · have := hK' J h; linarith
  · exact h
  · have := hJ' K h; linarith

/-- The bisection after the doubling loop. -/
theorem bisectR_trapped {R : ℝ} {p : ℕ} (h0 : 0 ≤ e) (hE : 0 < ERR) (hp : 1 ≤ p) (hpe : e < 2 ^ p * |R|)
    (hp' : ∀ r, 1 ≤ r → r < p → 2 ^ r * |R| ≤ e) :
    (∃ f t, bisectR P ERR f 0 (2 ^ p * |R|) (2 ^ p * |R| / 2) = .ok t) ↔ ¬ Trapped R ERR e := by
  obtain ⟨J, hJ, hJ'⟩ := exists_halvings ERR (T := 2 ^ p * |R|) hE
  rw [bisectR_start P ERR e hP h0 hpe hJ hJ']
  apply not_congr
  constructor
  · rintro ⟨i, hi⟩
    exact ⟨p, J, i, hp, hpe, hp', hJ, hJ', hi⟩
  · rintro ⟨p2, J2, i, h1, h2, h3, h4, h5, h6⟩
    obtain rfl := pow_first_unique e hp h1 hpe h2 hp' h3
    obtain rfl := halvings_unique ERR hJ h4 hJ' h5
    exact ⟨i, h6⟩

end

theorem bisectR_err_nonpos {P : ℝ → Prop} {ERR : ℝ} (hE : ERR ≤ 0) {c : ℝ} (hc : 0 < c) (hcP : ¬ P c) (f : ℕ) (t : ℝ) :
    bisectR P ERR f 0 c (c / 2) ≠ .ok t := by
  intro h
  obtain ⟨-, -, s, h1, h2, -⟩ := bisectR_spec P ERR f 0 c (c / 2) le_rfl hc (by linarith) (by linarith)
    (by linarith) hcP h
  linarith

/-- The dense search on ray parameters. -/
theorem chordR_iff {P : ℝ → Prop} {e : ℝ} (h0 : 0 ≤ e) (hP : ∀ t, 0 ≤ t → (P t ↔ t ≤ e)) (R ERR : ℝ) :
    (∃ f t, chordR P R ERR f = .ok t) ↔ R ≠ 0 ∧ 0 < ERR ∧ ¬ Trapped R ERR e := by
  constructor
  · rintro ⟨f, t, h⟩
    rw [chordR, Out.bind_eq_ok] at h
    obtain ⟨c, hc, h⟩ := h
    obtain ⟨p, hp, rfl, hec, hq⟩ := expandR_first P e hP hc
    have hcP : ¬ P (2 ^ p * |R|) := fun hc => absurd ((hP _ (by positivity)).1 hc) (not_le.2 hec)
    have hR : R ≠ 0 := by rintro rfl; simp at hec; linarith
    have hE : 0 < ERR := by
      by_contra hE
      exact bisectR_err_nonpos (not_lt.1 hE) (by linarith) hcP _ _ h
    exact ⟨hR, hE, (bisectR_trapped P ERR e hP h0 hE hp hec hq).1 ⟨f, t, h⟩⟩
  · rintro ⟨hR, hE, ht⟩
    obtain ⟨f1, c, hc⟩ := expandR_terminates P e
      (fun t ht hPt => absurd ((hP t (by linarith)).1 hPt) (not_le.2 ht)) R hR
    obtain ⟨p, hp, rfl, hec, hq⟩ := expandR_first P e hP hc
    obtain ⟨f2, t, h⟩ := (bisectR_trapped P ERR e hP h0 hE hp hec hq).2 ht
    refine ⟨max f1 f2, t, ?_⟩
    rw [chordR, expandR_mono P (le_max_left _ _) hc, Out.ok_bind]
    exact bisectR_mono P ERR (le_max_right _ _) h

/-- Every ray from a point of a polyhedron stays inside for ever or has an end. -/
theorem chordEnd_or {A : Matrix (Fin m) (Fin n) ℝ} {b : Fin m → ℝ} {x : Fin n → ℝ} (u : Fin n → ℝ)
    (hx : x ∈ Poly A b) : (∀ t, 0 ≤ t → ray x u t ∈ Poly A b) ∨ ∃ e, ChordEnd (Poly A b) x u e := by
  by_cases hS : ∃ i, 0 < A.mulVec u i
  · right
    let S := Finset.univ.filter fun i => 0 < A.mulVec u i
    have hSne : S.Nonempty := by
      obtain ⟨i, hi⟩ := hS; exact ⟨i, by simp [S, hi]⟩
    obtain ⟨i0, hi0, hmin⟩ := S.exists_min_image (fun i => (b i - A.mulVec x i) / A.mulVec u i) hSne
    have hi0' : 0 < A.mulVec u i0 := by simpa [S] using hi0
    refine ⟨(b i0 - A.mulVec x i0) / A.mulVec u i0, div_nonneg (by linarith [hx i0]) hi0'.le, fun t ht => ?_⟩
    constructor
    · intro h
      have := h i0
      rw [mulVec_ray] at this
      rw [le_div_iff₀ hi0']
      linarith
    · intro h i
      rw [mulVec_ray]
      rcases le_or_gt (A.mulVec u i) 0 with h1 | h1
      · have := hx i; nlinarith
      · have h2 := h.trans (hmin i (by simp [S, h1]))
        rw [le_div_iff₀ h1] at h2
        linarith
  · left
    push Not at hS
    intro t ht i
    rw [mulVec_ray]
    have := hx i
    have := hS i
    nlinarith

/-- **C72** (dense): from a point of the polytope, in a unit direction, the chord search terminates (for enough
fuel) exactly when `r ≠ 0`, `err > 0`, the ray leaves the polytope, and its end is not on the grid of the last
bisection step. -/
theorem C72_chord_iff (hm : 0 < m) (A : Matrix (Fin m) (Fin n) ℝ) (b : Fin m → ℝ) (x u : Fin n → ℝ)
    (hu : IsUnitVec u) (hx : x ∈ Poly A b) (R ERR : ℝ) :
    (∃ fuel t, HitRun.binarySearch R ERR fuel A b u x = .ok t) ↔
      R ≠ 0 ∧ 0 < ERR ∧ ∃ e, ChordEnd (Poly A b) x u e ∧ ¬ Trapped R ERR e := by
  have hmap : ∀ f, (∃ t, HitRun.binarySearch R ERR f A b u x = .ok t) ↔
      ∃ t, chordR (fun t => ray x u t ∈ Poly A b) R ERR f = .ok t := by
    intro f
    rw [chord_dense hm A b x u hu]
    constructor
    · rintro ⟨t, h⟩
      obtain ⟨t', h1, -⟩ := Out.map_eq_ok.1 h
      exact ⟨t', h1⟩
    · rintro ⟨t, h⟩
      exact ⟨_, by rw [h]; rfl⟩
  constructor
  · rintro ⟨f, h⟩
    rcases chordEnd_or u hx with hray | ⟨e, he⟩
    · obtain ⟨t, h⟩ := h
      rw [C14_unbounded_diverges A b hm x u hu hray] at h
      cases h
    · obtain ⟨h1, h2, h3⟩ := (chordR_iff he.1 he.2 R ERR).1 ⟨f, (hmap f).1 h⟩
      exact ⟨h1, h2, e, he, h3⟩
  · rintro ⟨h1, h2, e, he, h3⟩
    obtain ⟨f, h⟩ := (chordR_iff he.1 he.2 R ERR).2 ⟨h1, h2, h3⟩
    exact ⟨f, (hmap f).2 h⟩

/-! ## The sparse search -/

theorem sexpandR_none {P : ℝ → Prop} (f : ℕ) : ∀ R : ℝ,
    sexpandR P f R = none ↔ ∀ q : ℕ, 1 ≤ q → q ≤ f → P (2 ^ q * |R|) := by
  induction f with
  | zero => exact fun R => ⟨fun _ q h1 h2 => by omega, fun _ => rfl⟩
  | succ f ih =>
    intro R
    have habs : abs (2 * |R|) = 2 * |R| := abs_of_nonneg (by positivity)
    rw [sexpandR]
    split_ifs with hk
    · rw [ih, habs]
      constructor
      · intro h q h1 h2
        rcases Nat.eq_or_lt_of_le h1 with rfl | h3
        · rwa [pow_one]
        · obtain ⟨q', rfl⟩ : ∃ q', q = q' + 1 := ⟨q - 1, by omega⟩
          have := h q' (by omega) (by omega)
          rwa [pow_succ, mul_assoc]
      · intro h q h1 h2
        have := h (q + 1) (by omega) (by omega)
        rwa [pow_succ, mul_assoc] at this
    · refine ⟨fun h => absurd h (by simp), fun h => absurd ?_ hk⟩
      simpa using h 1 le_rfl (by omega)

theorem sexpandR_first {P : ℝ → Prop} {e : ℝ} (hP : ∀ t, 0 ≤ t → (P t ↔ t ≤ e)) {f : ℕ} {R c : ℝ}
    (h : sexpandR P f R = some c) :
    ∃ p : ℕ, 1 ≤ p ∧ c = 2 ^ p * |R| ∧ e < c ∧ ∀ q, 1 ≤ q → q < p → 2 ^ q * |R| ≤ e := by
  have : ∀ (f : ℕ) (R : ℝ), sexpandR P f R = some c → expandR P f R = .ok c := by
    intro f
    induction f with
    | zero => intro R h; cases h
    | succ f ih =>
      intro R h
      rw [sexpandR] at h
      rw [expandR]
      split_ifs at h ⊢ with hk
      · exact ih _ h
      · cases h; rfl
  exact expandR_first P e hP (this f R h)

theorem tail_chordEnd_or {k : ℕ} {x : Fin n → ℝ} (u : Fin n → ℝ) (hx : x ∈ TailNonneg n k) :
    (∀ t, 0 ≤ t → ray x u t ∈ TailNonneg n k) ∨ ∃ e, ChordEnd (TailNonneg n k) x u e := by
  let A : Matrix (Fin n) (Fin n) ℝ := fun i j => if i = j ∧ n - k ≤ i.val then -1 else 0
  have hA : ∀ (y : Fin n → ℝ) i, A.mulVec y i = if n - k ≤ i.val then -y i else 0 := by
    intro y i
    simp only [Matrix.mulVec, dotProduct, A]
    by_cases hi : n - k ≤ i.val <;> simp [hi]
  have hK : TailNonneg n k = Poly A fun _ => 0 := by
    ext y
    constructor
    · intro h i
      rw [hA]
      split_ifs with hi
      · linarith [h i hi]
      · exact le_rfl
    · intro h i hi
      have := h i
      rw [hA, if_pos hi] at this
      linarith
  rw [hK] at hx ⊢
  exact chordEnd_or u hx

/-- **C72** (sparse): from a point with non-negative last `k` coordinates, in a unit direction, the sparse chord
search terminates exactly when it gives up after its 10000 doublings or `err > 0` and the chord has an untrapped
end. -/
theorem C72_sparse_chord_iff {k : ℕ} (hk : 1 ≤ k) (hkn : k ≤ n) (x u : Fin n → ℝ) (hu : IsUnitVec u)
    (hx : x ∈ TailNonneg n k) (R ERR : ℝ) :
    (∃ fuel t, SparseHitRun.binarySearch R ERR fuel k u x = .ok t) ↔
      SparseSearchEnds (TailNonneg n k) R ERR x u := by
  have hmap : ∀ f, (∃ t, SparseHitRun.binarySearch R ERR f k u x = .ok t) ↔
      ∃ t, schordR (fun t => ray x u t ∈ TailNonneg n k) R ERR f = .ok t := by
    intro f
    rw [chord_sparse hk hkn x u hu]
    constructor
    · rintro ⟨t, h⟩
      obtain ⟨t', h1, -⟩ := Out.map_eq_ok.1 h
      exact ⟨t', h1⟩
    · rintro ⟨t, h⟩
      exact ⟨_, by rw [h]; rfl⟩
  simp only [hmap]
  have hnone := sexpandR_none (P := fun t => ray x u t ∈ TailNonneg n k) SparseHitRun.maxIter R
  rw [SparseSearchEnds]
  show _ ↔ (∀ q : ℕ, 1 ≤ q → q ≤ SparseHitRun.maxIter → ray x u (2 ^ q * |R|) ∈ TailNonneg n k) ∨ _
  rw [← hnone]
  unfold schordR
  rcases hs : sexpandR (fun t => ray x u t ∈ TailNonneg n k) SparseHitRun.maxIter R with _ | c
  · exact ⟨fun _ => .inl rfl, fun _ => ⟨0, 0, rfl⟩⟩
  · have hcP := (sexpandR_spec _ _ _ hs).2
    obtain ⟨⟨j, hj⟩, -⟩ := sexpandR_spec _ _ _ hs
    rcases tail_chordEnd_or u hx with hray | ⟨e, he⟩
    · exact absurd (hray c (by rw [hj]; positivity)) hcP
    · obtain ⟨p, hp, rfl, hec, hq⟩ := sexpandR_first he.2 hs
      have hpos : 0 < 2 ^ p * |R| := he.1.trans_lt hec
      constructor
      · rintro ⟨f, t, h⟩
        have hE : 0 < ERR := by
          by_contra hE
          exact bisectR_err_nonpos (not_lt.1 hE) hpos hcP _ _ h
        exact .inr ⟨hE, e, he, (bisectR_trapped _ ERR e he.2 he.1 hE hp hec hq).1 ⟨f, t, h⟩⟩
      · rintro (h | ⟨hE, e', he', ht⟩)
        · cases h
        · have hee : e' = e := by
            have h1 := (he.2 e' he'.1).1 ((he'.2 e' he'.1).2 le_rfl)
            have h2 := (he'.2 e he.1).1 ((he.2 e he.1).2 le_rfl)
            linarith
          subst hee
          exact (bisectR_trapped _ ERR e' he.2 he.1 hE hp hec hq).2 ht

/-! ## Steps and whole walks -/

theorem Out.Refines.ok {α : Type} {x y : Out α} {a : α} (h : x.Refines y) (hx : x = .ok a) : y = .ok a := by
  rcases h with h | h
  · rw [h] at hx; cases hx
  · rw [← h, hx]

/-- **C72**, one step of dense Hit-and-Run. -/
theorem C72_step_iff (hm : 0 < m) (R ERR : ℝ) (r : Rng ℝ) (A : Matrix (Fin m) (Fin n) ℝ) (b : Fin m → ℝ)
    (s : (Fin n → ℝ) × r.G) (hx : s.1 ∈ Poly A b) :
    (∃ fuel s', HitRun.step R ERR fuel r A b s = .ok s') ↔
      DrawEnds (Poly A b) R ERR s.1 (r.gaussian n s.2).1 := by
  have hstep : (∃ fuel s', HitRun.step R ERR fuel r A b s = .ok s') ↔
      (∃ fuel t, HitRun.binarySearch R ERR fuel A b
        (fun i => (r.gaussian n s.2).1 i / norm2 (r.gaussian n s.2).1) s.1 = .ok t) ∧
      ∃ fuel t, HitRun.binarySearch R ERR fuel A b
        (fun i => -((r.gaussian n s.2).1 i / norm2 (r.gaussian n s.2).1)) s.1 = .ok t := by
    have hneg : (fun i => (r.gaussian n s.2).1 i / norm2 (r.gaussian n s.2).1 * (Scalar.ofInt (-1) : ℝ)) =
        fun i => -((r.gaussian n s.2).1 i / norm2 (r.gaussian n s.2).1) := by
      funext i; simp
    simp only [HitRun.step, Rng.gaussianNorm, hneg]
    constructor
    · rintro ⟨f, s', h⟩
      obtain ⟨p, hp, h⟩ := Out.bind_eq_ok.1 h
      obtain ⟨q, hq, h⟩ := Out.bind_eq_ok.1 h
      exact ⟨⟨f, p, hp⟩, f, q, hq⟩
    · rintro ⟨⟨f, p, hp⟩, f', q, hq⟩
      refine ⟨max f f', ?_⟩
      rw [(binarySearch_refines R ERR A b _ _ (le_max_left f f')).ok hp, Out.ok_bind,
        (binarySearch_refines R ERR A b _ _ (le_max_right f f')).ok hq, Out.ok_bind]
      exact ⟨_, rfl⟩
  rw [hstep]
  generalize (r.gaussian n s.2).1 = v
  unfold DrawEnds
  rw [show Real.sqrt (∑ j, v j * v j) = norm2 v from (norm2_real v).symm]
  by_cases hv : v = 0
  · refine ⟨fun ⟨⟨f, t, h⟩, _⟩ => ?_, fun h => absurd hv h.1⟩
    rw [normalize_zero v hv, search_zero hm hx] at h
    cases h
  · have hu := normalize_unit v hv
    rw [C72_chord_iff hm A b s.1 _ hu hx, C72_chord_iff hm A b s.1 _ hu.neg hx]
    tauto

/-- **C72**, one step of sparse Hit-and-Run. -/
theorem C72_sparse_step_iff {k : ℕ} (hk : 1 ≤ k) (hkn : k ≤ n) (R ERR : ℝ) (E : Eigen ℝ) (r : Rng ℝ)
    (A : Matrix (Fin m) (Fin n) ℝ) (s : (Fin n → ℝ) × r.G) (hx : s.1 ∈ TailNonneg n k) :
    (∃ fuel s', SparseHitRun.step R ERR fuel E r A k s = .ok s') ↔
      SparseDrawEnds (TailNonneg n k) R ERR s.1 (kernelProject E A (r.gaussian n s.2).1) := by
  have hstep : (∃ fuel s', SparseHitRun.step R ERR fuel E r A k s = .ok s') ↔
      (∃ fuel t, SparseHitRun.binarySearch R ERR fuel k
        (normalize (kernelProject E A (r.gaussian n s.2).1)) s.1 = .ok t) ∧
      ∃ fuel t, SparseHitRun.binarySearch R ERR fuel k
        (fun i => -normalize (kernelProject E A (r.gaussian n s.2).1) i) s.1 = .ok t := by
    simp only [SparseHitRun.step]
    constructor
    · rintro ⟨f, s', h⟩
      obtain ⟨p, hp, h⟩ := Out.bind_eq_ok.1 h
      obtain ⟨q, hq, h⟩ := Out.bind_eq_ok.1 h
      exact ⟨⟨f, p, hp⟩, f, q, hq⟩
    · rintro ⟨⟨f, p, hp⟩, f', q, hq⟩
      refine ⟨max f f', ?_⟩
      rw [(sparseBinarySearch_refines R ERR k _ _ (le_max_left f f')).ok hp, Out.ok_bind,
        (sparseBinarySearch_refines R ERR k _ _ (le_max_right f f')).ok hq, Out.ok_bind]
      exact ⟨_, rfl⟩
  rw [hstep]
  generalize kernelProject E A (r.gaussian n s.2).1 = v
  unfold SparseDrawEnds
  rw [show Real.sqrt (∑ j, v j * v j) = norm2 v from (norm2_real v).symm]
  by_cases hv : v = 0
  · refine ⟨fun _ => .inl hv, fun _ => ?_⟩
    have h0 : normalize v = fun _ => (0 : ℝ) := normalize_zero v hv
    have h1 : (fun i => -normalize v i) = fun _ => (0 : ℝ) := by rw [h0]; simp
    rw [h0] at h1 ⊢
    rw [h1]
    exact ⟨⟨0, 0, ssearch_zero hk hkn hx R ERR 0⟩, ⟨0, 0, ssearch_zero hk hkn hx R ERR 0⟩⟩
  · have hu : IsUnitVec (normalize v) := normalize_unit v hv
    rw [C72_sparse_chord_iff hk hkn s.1 _ hu hx, C72_sparse_chord_iff hk hkn s.1 _ hu.neg hx]
    exact ⟨fun h => .inr h, fun h => h.resolve_left hv⟩

/-- Whole chains: with enough fuel the chain runs `N` steps iff every state it reaches can step. -/
theorem iter_exists_fuel {σ : Type} {step : ℕ → σ → Out σ} (hmono : ∀ {f f'}, f ≤ f' → ∀ s, (step f s).Refines (step f' s))
    (s0 : σ) (N : ℕ) :
    (∃ f st, iter (step f) N s0 = .ok st) ↔
      ∀ t < N, ∀ f s, iter (step f) t s0 = .ok s → ∃ f s', step f s = .ok s' := by
  have hdet : ∀ {t f f' s s'}, iter (step f) t s0 = .ok s → iter (step f') t s0 = .ok s' → s = s' := by
    intro t f f' s s' h h'
    have h1 := (iter_refines (hmono (le_max_left f f')) t s0).ok h
    have h2 := (iter_refines (hmono (le_max_right f f')) t s0).ok h'
    rw [h1] at h2
    cases h2
    rfl
  constructor
  · rintro ⟨f, st, h⟩ t ht f' s hs
    have hpre : ∀ d, ∃ u, iter (step f) (N - d) s0 = .ok u := by
      intro d
      induction d with
      | zero => exact ⟨st, h⟩
      | succ d ih =>
        obtain ⟨u, hu⟩ := ih
        rcases Nat.eq_zero_or_pos (N - d) with h0 | h0
        · exact ⟨u, by rw [← hu]; congr 1; omega⟩
        · rw [show N - d = (N - (d + 1)) + 1 by omega, iter] at hu
          obtain ⟨w, hw, -⟩ := Out.bind_eq_ok.1 hu
          exact ⟨w, hw⟩
    obtain ⟨u, hu⟩ := hpre (N - (t + 1))
    rw [show N - (N - (t + 1)) = t + 1 by omega, iter] at hu
    obtain ⟨w, hw, hu⟩ := Out.bind_eq_ok.1 hu
    obtain rfl := hdet hw hs
    exact ⟨f, u, hu⟩
  · intro h
    induction N with
    | zero => exact ⟨0, s0, rfl⟩
    | succ N ih =>
      obtain ⟨f, s, hs⟩ := ih fun t ht => h t (by omega)
      obtain ⟨f', s', hs'⟩ := h N (by omega) f s hs
      refine ⟨max f f', s', ?_⟩
      rw [iter, (iter_refines (hmono (le_max_left f f')) N s0).ok hs, Out.ok_bind]
      exact (hmono (le_max_right f f') s).ok hs'

theorem sparseHitRun_step_refines {F : Type} [Scalar F] (R ERR : F) (E : Eigen F) (r : Rng F) (A : Matrix (Fin m) (Fin n) F)
    (k : ℕ) {f f' : ℕ} (hf : f ≤ f') (s : (Fin n → F) × r.G) :
    (SparseHitRun.step R ERR f E r A k s).Refines (SparseHitRun.step R ERR f' E r A k s) :=
  (sparseBinarySearch_refines _ _ _ _ _ hf).bind fun _ => (sparseBinarySearch_refines _ _ _ _ _ hf).bind fun _ => .refl _

/-- **C72**, whole dense walks: from a feasible start with recordable integers, `generateCompleteWalk` returns (with
enough fuel) iff the draw at every state it reaches succeeds. -/
theorem C72_hitRun_returns_iff (R ERR : ℝ) (e : Env ℝ) (hr : e.r.UnitDraws) (a : Args ℝ) (hd : a.DimsOk)
    (hi : Recordable a.niter a.burnin a.thin) (hm : 0 < a.A.r) (hx : a.x0 hd ∈ Poly a.A.val (a.rhs hd)) :
    (∃ f rows, (Walk.hitRun R ERR).run { e with fuel := f } a = .ok rows) ↔
      ∀ t < a.niter.toNat, ∀ (f : ℕ) (s : (Fin a.A.c → ℝ) × e.r.G),
        (Walk.hitRun R ERR).chain { e with fuel := f } a hd t = .ok s →
          DrawEnds (Poly a.A.val (a.rhs hd)) R ERR s.1 (e.r.gaussian a.A.c s.2).1 := by
  have h1 : ∀ f, (∃ rows, (Walk.hitRun R ERR).run { e with fuel := f } a = .ok rows) ↔
      ∃ st, (Walk.hitRun R ERR).chain { e with fuel := f } a hd a.niter.toNat = .ok st := by
    intro f
    have := C67_outcome (Walk.hitRun R ERR) { e with fuel := f } a hd (by intro h; cases h) hi
    constructor
    · rintro ⟨rows, h⟩
      rw [h] at this
      obtain ⟨st, h2, -⟩ := Out.map_eq_ok.1 this.symm
      exact ⟨st, h2⟩
    · rintro ⟨st, h⟩
      rw [h] at this
      obtain ⟨rows, h2, -⟩ := Out.map_eq_ok.1 this
      exact ⟨rows, h2⟩
  simp only [h1]
  have hfeas : ∀ t f (s : (Fin a.A.c → ℝ) × e.r.G),
      iter (HitRun.step R ERR f e.r a.A.val (a.rhs hd)) t (a.x0 hd, e.r.initRng a.seed e.rd) = .ok s →
        s.1 ∈ Poly a.A.val (a.rhs hd) := by
    intro t f
    induction t with
    | zero => intro s h; cases h; exact hx
    | succ t ih =>
      intro s h
      rw [iter] at h
      obtain ⟨w, hw, h⟩ := Out.bind_eq_ok.1 h
      exact HitRun.step_feasible hr (ih w hw) h
  have := iter_exists_fuel (step := fun f => HitRun.step R ERR f e.r a.A.val (a.rhs hd))
    (fun hf s => hitRun_step_refines R ERR e.r _ _ hf s) (a.x0 hd, e.r.initRng a.seed e.rd) a.niter.toNat
  refine this.trans ?_
  constructor
  · intro h t ht f s hs
    exact (C72_step_iff hm R ERR e.r _ _ s (hfeas t f s hs)).1 (h t ht f s hs)
  · intro h t ht f s hs
    exact (C72_step_iff hm R ERR e.r _ _ s (hfeas t f s hs)).2 (h t ht f s hs)

/-- **C72**, whole sparse walks. -/
theorem C72_sparseHitRun_returns_iff (R ERR : ℝ) (E : Eigen ℝ) (e : Env ℝ) (hr : e.r.UnitDraws) (a : Args ℝ)
    (hd : a.DimsOk) (hk : a.KOk) (hi : Recordable a.niter a.burnin a.thin)
    (hx : a.x0 hd ∈ TailNonneg a.A.c a.k.toNat) :
    (∃ f rows, (Walk.sparseHitRun R ERR E).run { e with fuel := f } a = .ok rows) ↔
      ∀ t < a.niter.toNat, ∀ (f : ℕ) (s : (Fin a.A.c → ℝ) × e.r.G),
        (Walk.sparseHitRun R ERR E).chain { e with fuel := f } a hd t = .ok s →
          SparseDrawEnds (TailNonneg a.A.c a.k.toNat) R ERR s.1
            (kernelProject E a.A.val (e.r.gaussian a.A.c s.2).1) := by
  have h1 : ∀ f, (∃ rows, (Walk.sparseHitRun R ERR E).run { e with fuel := f } a = .ok rows) ↔
      ∃ st, (Walk.sparseHitRun R ERR E).chain { e with fuel := f } a hd a.niter.toNat = .ok st := by
    intro f
    have := C67_outcome (Walk.sparseHitRun R ERR E) { e with fuel := f } a hd (fun _ => hk) hi
    constructor
    · rintro ⟨rows, h⟩
      rw [h] at this
      obtain ⟨st, h2, -⟩ := Out.map_eq_ok.1 this.symm
      exact ⟨st, h2⟩
    · rintro ⟨st, h⟩
      rw [h] at this
      obtain ⟨rows, h2, -⟩ := Out.map_eq_ok.1 this
      exact ⟨rows, h2⟩
  simp only [h1]
  have hk1 : 1 ≤ a.k.toNat := by have h : 1 ≤ a.k := hk.1; omega
  have hkn : a.k.toNat ≤ a.A.c := by have h : a.k ≤ a.A.c := hk.2; omega
  have hfeas : ∀ t f (s : (Fin a.A.c → ℝ) × e.r.G),
      iter (SparseHitRun.step R ERR f E e.r a.A.val a.k.toNat) t (a.x0 hd, e.r.initRng a.seed e.rd) = .ok s →
        s.1 ∈ TailNonneg a.A.c a.k.toNat := by
    intro t f
    induction t with
    | zero => intro s h; cases h; exact hx
    | succ t ih =>
      intro s h
      rw [iter] at h
      obtain ⟨w, hw, h⟩ := Out.bind_eq_ok.1 h
      exact SparseHitRun.step_cases hr hk1 hkn (ih w hw) h
  have := iter_exists_fuel (step := fun f => SparseHitRun.step R ERR f E e.r a.A.val a.k.toNat)
    (fun hf s => sparseHitRun_step_refines R ERR E e.r _ _ hf s) (a.x0 hd, e.r.initRng a.seed e.rd) a.niter.toNat
  refine this.trans ?_
  constructor
  · intro h t ht f s hs
    exact (C72_sparse_step_iff hk1 hkn R ERR E e.r _ s (hfeas t f s hs)).1 (h t ht f s hs)
  · intro h t ht f s hs
    exact (C72_sparse_step_iff hk1 hkn R ERR E e.r _ s (hfeas t f s hs)).2 (h t ht f s hs)

/-- A trapped end: `r = 1`, `err = 1/2`, chord length 1 (`T = 2`, two halvings, grid spacing 1). -/
example : Trapped 1 (1 / 2) 1 :=
  ⟨1, 2, 1, le_rfl, by norm_num, fun q h1 h2 => by omega, by norm_num, fun j hj => by
    have : j = 0 ∨ j = 1 := by omega
    rcases this with rfl | rfl <;> norm_num, by norm_num⟩

/-- An end that is not trapped: chord length `2/3`, although `r` and `err` are the same. -/
example : ¬ Trapped 1 (1 / 2) (2 / 3) := by
  rintro ⟨p, J, i, hp, h1, h2, h3, h4, h5⟩
  have hp1 : p = 1 := by
    by_contra hc
    have := h2 1 le_rfl (by omega)
    norm_num at this
  subst hp1
  have hJ : J = 2 := by
    rcases lt_trichotomy J 2 with h | h | h
    · have : J = 0 ∨ J = 1 := by omega
      rcases this with rfl | rfl <;> norm_num at h3
    · exact h
    · have := h4 2 h
      norm_num at this
  subst hJ
  norm_num at h5
  rcases i with _ | i
  · norm_num at h5
  · push_cast at h5
    have : (0 : ℝ) ≤ i := by positivity
    linarith

end PW
