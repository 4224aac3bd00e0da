import Verif.Lemmas.Continue
import Verif.Lemmas.Ergodic
import Mathlib.MeasureTheory.MeasurableSpace.Pi

/-! # A chain with detailed balance, started from its balanced law, looks the same backwards -/

namespace PW
open MeasureTheory Set
open scoped ENNReal

section
variable {X W : Type} [MeasurableSpace X] [MeasurableSpace W] {π : Measure X} {ν : Measure W} [IsProbabilityMeasure ν] {T : X → W → X}

/-- Expected value after one move. -/
noncomputable def nextE (ν : Measure W) (T : X → W → X) (h : X → ℝ≥0∞) (x : X) : ℝ≥0∞ := ∫⁻ w, h (T x w) ∂ν

/-- Expected product of `h₀ (X₀) h₁ (X₁) …` from `x`. -/
noncomputable def prodE (ν : Measure W) (T : X → W → X) : List (X → ℝ≥0∞) → X → ℝ≥0∞
  | [] => fun _ => 1
  | h :: l => fun x => h x * nextE ν T (prodE ν T l) x

theorem measurable_nextE (hT : Measurable fun p : X × W => T p.1 p.2) {h : X → ℝ≥0∞} (hh : Measurable h) : Measurable (nextE ν T h) :=
  Measurable.lintegral_prod_right' (hh.comp hT)

theorem measurable_prodE (hT : Measurable fun p : X × W => T p.1 p.2) : ∀ {l : List (X → ℝ≥0∞)}, (∀ h ∈ l, Measurable h) → Measurable (prodE ν T l)
  | [], _ => measurable_const
  | _ :: _, hl => (hl _ List.mem_cons_self).mul
      (measurable_nextE hT (measurable_prodE hT fun h hh => hl h (List.mem_cons_of_mem _ hh)))

theorem nextE_adjoint (hT : Measurable fun p : X × W => T p.1 p.2) (hb : Balance π ν T) {f g : X → ℝ≥0∞} (hf : Measurable f) (hg : Measurable g) :
    ∫⁻ x, f x * nextE ν T g x ∂π = ∫⁻ x, nextE ν T f x * g x ∂π := by
  have h := hb (fun p => f p.1 * g p.2) ((hf.comp measurable_fst).mul (hg.comp measurable_snd))
  have e1 : ∀ x, ∫⁻ w, f x * g (T x w) ∂ν = f x * nextE ν T g x := fun x =>
    lintegral_const_mul _ (hg.comp (hT.comp measurable_prodMk_left))
  have e2 : ∀ x, ∫⁻ w, f (T x w) * g x ∂ν = nextE ν T f x * g x := fun x =>
    lintegral_mul_const _ (hf.comp (hT.comp measurable_prodMk_left))
  simp only [e1, e2] at h
  exact h

theorem prodE_shift (hT : Measurable fun p : X × W => T p.1 p.2) (hb : Balance π ν T) (b : List (X → ℝ≥0∞)) :
    ∀ (a : List (X → ℝ≥0∞)), (∀ h ∈ a, Measurable h) → (∀ h ∈ b, Measurable h) → b ≠ [] →
      ∫⁻ x, nextE ν T (prodE ν T a) x * prodE ν T b x ∂π = ∫⁻ x, prodE ν T (b.reverse ++ a) x ∂π := by
  induction b with
  | nil => intro a _ _ h; exact absurd rfl h
  | cons h b ih =>
    intro a ha hbm _
    have mh := hbm h List.mem_cons_self
    have hbm' : ∀ h ∈ b, Measurable h := fun h hh => hbm h (List.mem_cons_of_mem _ hh)
    have mQ := measurable_nextE hT (ν := ν) (measurable_prodE hT (ν := ν) ha)
    have e0 : ∀ x, nextE ν T (prodE ν T a) x * prodE ν T (h :: b) x = prodE ν T (h :: a) x * nextE ν T (prodE ν T b) x := fun x => by
      show nextE ν T (prodE ν T a) x * (h x * nextE ν T (prodE ν T b) x) = h x * nextE ν T (prodE ν T a) x * nextE ν T (prodE ν T b) x
      ring
    simp only [e0]
    have ha' : ∀ g ∈ h :: a, Measurable g := fun g hg => by
      rcases List.mem_cons.1 hg with rfl | hg
      · exact mh
      · exact ha g hg
    rw [List.reverse_cons, List.append_assoc, List.singleton_append]
    cases b with
    | nil =>
      refine lintegral_congr fun x => ?_
      have : nextE ν T (prodE ν T []) x = 1 := by
        show ∫⁻ _, (1 : ℝ≥0∞) ∂ν = 1
        rw [lintegral_const, measure_univ, one_mul]
      rw [this, mul_one]
      rfl
    | cons h' b =>
      rw [nextE_adjoint hT hb (measurable_prodE hT ha') (measurable_prodE hT hbm')]
      exact ih (h :: a) ha' hbm' (List.cons_ne_nil _ _)

/-- The functions may be applied in the opposite order. -/
theorem prodE_reverse (hT : Measurable fun p : X × W => T p.1 p.2) (hb : Balance π ν T) {l : List (X → ℝ≥0∞)} (hl : ∀ h ∈ l, Measurable h) :
    ∫⁻ x, prodE ν T l x ∂π = ∫⁻ x, prodE ν T l.reverse x ∂π := by
  cases l with
  | nil => rfl
  | cons h l =>
    have := prodE_shift (π := π) (ν := ν) hT hb (h :: l) [] (fun _ h => by cases h) hl (List.cons_ne_nil _ _)
    rw [List.append_nil] at this
    rw [← this]
    refine lintegral_congr fun x => ?_
    have : nextE ν T (prodE ν T []) x = 1 := by
      show ∫⁻ _, (1 : ℝ≥0∞) ∂ν = 1
      rw [lintegral_const, measure_univ, one_mul]
    rw [this, one_mul]

variable {G : Type} [MeasurableSpace G] {μ : Measure G} [IsProbabilityMeasure μ] {f : X → G → X × G}

/-- `h₀ (p 0) h₁ (p 1) …` -/
noncomputable def prodAlong : List (X → ℝ≥0∞) → (ℕ → X) → ℝ≥0∞
  | [], _ => 1
  | h :: l, p => h (p 0) * prodAlong l fun t => p (t + 1)

theorem prodAlong_ofFn {s : ℕ} (h : Fin s → X → ℝ≥0∞) (p : ℕ → X) : prodAlong (List.ofFn h) p = ∏ i : Fin s, h i (p i) := by
  induction s generalizing p with
  | zero => simp [prodAlong]
  | succ s ih =>
    rw [List.ofFn_succ, Fin.prod_univ_succ]
    show h 0 (p 0) * prodAlong (List.ofFn fun i : Fin s => h i.succ) (fun t => p (t + 1)) = _
    rw [ih]
    rfl

theorem measurable_prodAlong : ∀ {l : List (X → ℝ≥0∞)}, (∀ h ∈ l, Measurable h) → Measurable (prodAlong l)
  | [], _ => measurable_const
  | _ :: _, hl => ((hl _ List.mem_cons_self).comp (measurable_pi_apply 0)).mul
      ((measurable_prodAlong fun h hh => hl h (List.mem_cons_of_mem _ hh)).comp (measurable_pi_lambda _ fun t => measurable_pi_apply (t + 1)))

theorem prodAlong_mean (mf : Measurable fun p : X × G => f p.1 p.2) (hd : Drives μ ν f T) {l : List (X → ℝ≥0∞)} (hl : ∀ h ∈ l, Measurable h) (x : X) :
    ∫⁻ g, prodAlong l (fun t => posAt f x t g) ∂μ = prodE ν T l x := by
  induction l generalizing x with
  | nil =>
    show ∫⁻ _, (1 : ℝ≥0∞) ∂μ = 1
    rw [lintegral_const, measure_univ, one_mul]
  | cons h l ih =>
    have hl' : ∀ h ∈ l, Measurable h := fun h hh => hl h (List.mem_cons_of_mem _ hh)
    have m1 : Measurable fun p : X × G => prodAlong l fun t => posAt f p.1 t p.2 :=
      (measurable_prodAlong hl').comp (measurable_pi_lambda _ fun t => measurable_posAt_joint mf t)
    have m0 : Measurable fun g => prodAlong l fun t => posAt f (f x g).1 t (f x g).2 := m1.comp (mf.comp measurable_prodMk_left)
    show ∫⁻ g, h (posAt f x 0 g) * prodAlong l (fun t => posAt f x (t + 1) g) ∂μ = h x * nextE ν T (prodE ν T l) x
    simp only [posAt_succ]
    refine (lintegral_const_mul (h x) m0).trans ?_
    congr 1
    refine (hd _ m1 x).trans (lintegral_congr fun w => ?_)
    exact ih hl' (T x w)

/-- The law of the first positions of the chain, started from `π`, is that of the positions in the opposite order. -/
theorem backwards_law [IsFiniteMeasure π] (mf : Measurable fun p : X × G => f p.1 p.2) (hd : Drives μ ν f T)
    (hT : Measurable fun p : X × W => T p.1 p.2) (hb : Balance π ν T) (s : ℕ) {S : Set (Fin s → X)} (hS : MeasurableSet S) :
    ∫⁻ x, μ {g | (fun i : Fin s => posAt f x i g) ∈ S} ∂π = ∫⁻ x, μ {g | (fun i : Fin s => posAt f x (Fin.rev i) g) ∈ S} ∂π := by
  have m1 : Measurable fun (p : X × G) (i : Fin s) => posAt f p.1 i p.2 := measurable_pi_lambda _ fun i => measurable_posAt_joint mf i
  have m2 : Measurable fun (p : X × G) (i : Fin s) => posAt f p.1 (Fin.rev i) p.2 := measurable_pi_lambda _ fun i => measurable_posAt_joint mf _
  have key : (π.prod μ).map (fun (p : X × G) (i : Fin s) => posAt f p.1 i p.2) =
      (π.prod μ).map (fun (p : X × G) (i : Fin s) => posAt f p.1 (Fin.rev i) p.2) := by
    have box : ∀ B : Fin s → Set X, (∀ i, MeasurableSet (B i)) →
        (π.prod μ) {p : X × G | ∀ i, posAt f p.1 i p.2 ∈ B i} = ∫⁻ x, prodE ν T (List.ofFn fun i => (B i).indicator 1) x ∂π := by
      intro B hB
      have hl : ∀ h ∈ List.ofFn fun i => (B i).indicator (1 : X → ℝ≥0∞), Measurable h := fun h hh => by
        rw [List.mem_ofFn] at hh
        obtain ⟨i, rfl⟩ := hh
        exact measurable_one.indicator (hB i)
      have hm : MeasurableSet {p : X × G | ∀ i : Fin s, posAt f p.1 i p.2 ∈ B i} := by
        rw [setOf_forall]
        exact MeasurableSet.iInter fun i => measurable_posAt_joint mf i (hB i)
      rw [Measure.prod_apply hm]
      refine lintegral_congr fun x => ?_
      rw [← prodAlong_mean mf hd hl x, ← lintegral_indicator_one (measurable_prodMk_left hm)]
      refine lintegral_congr fun g => ?_
      rw [prodAlong_ofFn]
      by_cases h : ∀ i : Fin s, posAt f x i g ∈ B i
      · rw [indicator_of_mem (show g ∈ Prod.mk x ⁻¹' {p : X × G | ∀ i : Fin s, posAt f p.1 i p.2 ∈ B i} from h)]
        exact (Finset.prod_eq_one fun i _ => by rw [indicator_of_mem (h i)]; rfl).symm
      · rw [indicator_of_notMem (show g ∉ Prod.mk x ⁻¹' {p : X × G | ∀ i : Fin s, posAt f p.1 i p.2 ∈ B i} from h)]
        rw [not_forall] at h
        obtain ⟨i, hi⟩ := h
        exact (Finset.prod_eq_zero (Finset.mem_univ i) (indicator_of_notMem hi _)).symm
    refine ext_of_generate_finite _ generateFrom_pi.symm isPiSystem_pi ?_ ?_
    · rintro _ ⟨B, hB, rfl⟩
      have hB' : ∀ i, MeasurableSet (B i) := fun i => hB i (mem_univ i)
      have hbox : MeasurableSet (Set.pi univ B) := MeasurableSet.univ_pi hB'
      rw [Measure.map_apply m1 hbox, Measure.map_apply m2 hbox]
      have e1 : (fun (p : X × G) (i : Fin s) => posAt f p.1 i p.2) ⁻¹' Set.pi univ B = {p | ∀ i : Fin s, posAt f p.1 i p.2 ∈ B i} := by
        ext p; simp [Set.mem_pi]
      have e2 : (fun (p : X × G) (i : Fin s) => posAt f p.1 (Fin.rev i) p.2) ⁻¹' Set.pi univ B =
          {p | ∀ i : Fin s, posAt f p.1 i p.2 ∈ B (Fin.rev i)} := by
        ext p
        constructor
        · intro h i
          have := h (Fin.rev i) (mem_univ _)
          simp only [Fin.rev_rev] at this
          exact this
        · intro h i _
          have := h (Fin.rev i)
          rw [Fin.rev_rev] at this
          exact this
      rw [e1, e2, box B hB', box (fun i => B (Fin.rev i)) fun i => hB' _]
      have e3 : (List.ofFn fun i : Fin s => (B (Fin.rev i)).indicator (1 : X → ℝ≥0∞)) = (List.ofFn fun i => (B i).indicator 1).reverse := by
        refine List.ext_getElem (by simp) fun i h1 h2 => ?_
        simp only [List.getElem_ofFn, List.getElem_reverse, List.length_ofFn]
        congr 2
        refine Fin.ext ?_
        rw [Fin.val_rev]
        show s - (i + 1) = s - 1 - i
        omega
      rw [e3]
      refine prodE_reverse hT hb fun h hh => ?_
      rw [List.mem_ofFn] at hh
      obtain ⟨i, rfl⟩ := hh
      exact measurable_one.indicator (hB' i)
    · rw [Measure.map_apply m1 MeasurableSet.univ, Measure.map_apply m2 MeasurableSet.univ, preimage_univ, preimage_univ]
  have h := congrArg (fun m => m S) key
  simp only [Measure.map_apply m1 hS, Measure.map_apply m2 hS] at h
  rw [Measure.prod_apply (m1 hS), Measure.prod_apply (m2 hS)] at h
  exact h

end

theorem balance_smul {X W : Type} [MeasurableSpace X] [MeasurableSpace W] {π : Measure X} {ν : Measure W} {T : X → W → X} (c : ℝ≥0∞)
    (h : Balance π ν T) : Balance (c • π) ν T := fun F hF => by
  rw [lintegral_smul_measure, lintegral_smul_measure, h F hF]

end PW
