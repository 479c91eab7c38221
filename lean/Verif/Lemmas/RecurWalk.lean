import Verif.Lemmas.Recur
import Verif.Lemmas.ReachHMC
import Mathlib.Probability.Independence.InfinitePi

/-!
# Chains that repeat a list of transitions in detailed balance with a finite density
-/

namespace Stochopy
open Spec MeasureTheory Filter
open scoped ENNReal

section Regroup
variable {Ω : Type} [MeasurableSpace Ω]

/-- Consecutive groups of `m` inputs are independent and made of independent inputs. -/
theorem inputs_regroup (P : Measure Ω) [IsProbabilityMeasure P] {m : Nat} (hm : 0 < m) :
    (inputs P).map (fun ω k (j : Fin m) => ω (k * m + j)) = inputs (Measure.pi fun _ : Fin m => P) := by
  unfold inputs
  have hinj : Function.Injective fun p : Nat × Fin m => p.1 * m + p.2.val := by
    rintro ⟨k, i⟩ ⟨k', i'⟩ h
    have h' : k * m + i.val = k' * m + i'.val := h
    have h1 : k = k' := by
      have := congrArg (· / m) h'
      simpa [Nat.add_comm, Nat.add_mul_div_right _ _ hm, Nat.div_eq_of_lt i.isLt, Nat.div_eq_of_lt i'.isLt] using this
    subst h1
    have h2 : i = i' := Fin.ext (by omega)
    rw [h2]
  have h1 := Measure.map_infinitePi_infinitePi_of_inj (P := fun _ : Nat => P) hinj
  have h2 := Measure.infinitePi_map_curry (ι := Nat) (κ := Fin m) fun _ _ => P
  have hmi : Measurable fun (ω : Nat → Ω) (p : Nat × Fin m) => ω (p.1 * m + p.2.val) :=
    measurable_pi_lambda _ fun p => measurable_pi_apply _
  rw [← h1, Measure.map_map (MeasurableEquiv.measurable _) hmi] at h2
  rw [← Measure.infinitePi_eq_pi (μ := fun _ : Fin m => P), ← h2]
  rfl

end Regroup

variable {n : Nat} {Ω : Type} [MeasurableSpace Ω] {P : Measure Ω}

theorem measurable_walk : ∀ (l : List (Vec ℝ n → Ω → Vec ℝ n)), (∀ next ∈ l, Measurable fun e : Vec ℝ n × Ω => next e.1 e.2) →
    Measurable fun e : Vec ℝ n × (Fin l.length → Ω) => walk l e.1 e.2
  | [], _ => measurable_fst
  | next :: l, h => by
    have h1 := measurable_walk l fun k hk => h k (by simp [hk])
    have h2 : Measurable fun e : Vec ℝ n × (Fin (l.length + 1) → Ω) => (next e.1 (e.2 0), fun i : Fin l.length => e.2 i.succ) := by
      refine Measurable.prodMk ((h next (by simp)).comp (measurable_fst.prodMk ((measurable_pi_apply 0).comp measurable_snd))) ?_
      exact measurable_pi_lambda _ fun i => (measurable_pi_apply i.succ).comp measurable_snd
    exact h1.comp h2

/-- The measure with density `w`. -/
noncomputable def target (w : Vec ℝ n → ℝ) : Measure (Vec ℝ n) := volume.withDensity fun x => ENNReal.ofReal (w x)

/-- Transitions in detailed balance preserve the measure. -/
theorem reach_stationary [IsProbabilityMeasure P] {w : Vec ℝ n → ℝ} (hw : Measurable w) {B : Set (Vec ℝ n)}
    (hB : MeasurableSet B) : ∀ (l : List (Vec ℝ n → Ω → Vec ℝ n)),
      (∀ next ∈ l, Measurable fun e : Vec ℝ n × Ω => next e.1 e.2) → (∀ next ∈ l, DetailedBalance P next w) →
      ∫⁻ x, reach P B l x ∂(target w) = target w B
  | [], _, _ => by
    show ∫⁻ x, B.indicator 1 x ∂(target w) = target w B
    rw [lintegral_indicator_one hB]
  | next :: l, hm, hb => by
    have ih := reach_stationary hw hB l (fun k hk => hm k (by simp [hk])) fun k hk => hb k (by simp [hk])
    have hr := reach_measurable (P := P) hB l fun k hk => hm k (by simp [hk])
    have hn := hm next (by simp)
    rw [← ih]
    -- the law of the next state
    have hinv : ((target w).prod P).map (fun e => next e.1 e.2) = target w := by
      refine Measure.ext fun C hC => ?_
      have hd : Measurable fun x => ENNReal.ofReal (w x) := ENNReal.measurable_ofReal.comp hw
      rw [Measure.map_apply hn hC, Measure.prod_apply (hn hC)]
      have h1 := hb next (by simp) Set.univ C MeasurableSet.univ hC
      rw [Measure.restrict_univ] at h1
      have h2 : Measurable fun x => P {ω | next x ω ∈ C} := measurable_measure_prodMk_left (hn hC)
      show ∫⁻ x, P {ω | next x ω ∈ C} ∂(target w) = _
      rw [target, lintegral_withDensity_eq_lintegral_mul _ hd h2, withDensity_apply _ hC]
      refine Eq.trans h1 ?_
      refine lintegral_congr fun x => ?_
      rw [show {ω | next x ω ∈ Set.univ} = Set.univ from rfl, measure_univ, mul_one]
    have h3 := lintegral_map (μ := (target w).prod P) hr hn
    rw [hinv] at h3
    rw [h3]
    have : SFinite (target w) := by unfold target; infer_instance
    have hrn : Measurable fun e : Vec ℝ n × Ω => reach P B l (next e.1 e.2) := hr.comp hn
    rw [lintegral_prod _ hrn.aemeasurable]
    rfl

/-- A chain that repeats the transitions `l`, seen once per round. -/
theorem chain_rounds {l : List (Vec ℝ n → Ω → Vec ℝ n)} {next : Nat → Vec ℝ n → Ω → Vec ℝ n}
    (hnext : ∀ k i (h : i < l.length), next (k * l.length + i) = l[i]) (x : Vec ℝ n) (ω : Nat → Ω) (k : Nat) :
    chain next x ω (k * l.length) = chain (fun _ => walk l) x (fun k j => ω (k * l.length + j)) k := by
  have hw : ∀ (l' : List (Vec ℝ n → Ω → Vec ℝ n)) (j : Nat), (∀ i (h : i < l'.length), next (j + i) = l'[i]) →
      chain next x ω (j + l'.length) = walk l' (chain next x ω j) fun i => ω (j + i) := by
    intro l'
    induction l' with
    | nil => intro j _; rfl
    | cons nx l' ih =>
      intro j h
      have h0 := h 0 (by simp)
      have := ih (j + 1) fun i hi => by
        have := h (i + 1) (by simpa using hi)
        rw [show j + 1 + i = j + (i + 1) by omega, this]
        rfl
      rw [show j + (nx :: l').length = j + 1 + l'.length by rw [List.length_cons]; omega, this]
      show walk l' (next j (chain next x ω j) (ω j)) _ = walk l' (nx (chain next x ω j) (ω (j + 0))) fun i => ω (j + (i.val + 1))
      rw [show next j = nx from h0]
      simp only [Nat.add_zero, show ∀ i : Nat, j + 1 + i = j + (i + 1) from fun i => by omega]
  induction k with
  | zero => rw [Nat.zero_mul]; rfl
  | succ k ih =>
    rw [Nat.add_mul, one_mul, hw l (k * l.length) fun i hi => hnext k i hi, ih]
    rfl

/-- The chain that repeats transitions which are in detailed balance with a finite density, and which together can reach `B` from
everywhere, visits `B` infinitely often. -/
theorem rounds_recurrent [IsProbabilityMeasure P] {w : Vec ℝ n → ℝ} (hw : Measurable w)
    (hfin : ∫⁻ x, ENNReal.ofReal (w x) ≠ ∞) {l : List (Vec ℝ n → Ω → Vec ℝ n)} (hl : 0 < l.length)
    (hm : ∀ next ∈ l, Measurable fun e : Vec ℝ n × Ω => next e.1 e.2) (hb : ∀ next ∈ l, DetailedBalance P next w)
    {next : Nat → Vec ℝ n → Ω → Vec ℝ n} (hnext : ∀ k i (h : i < l.length), next (k * l.length + i) = l[i])
    {B : Set (Vec ℝ n)} (hB : MeasurableSet B) (hpos : ∀ x, reach P B l x ≠ 0) :
    ∀ᵐ x ∂(target w), ∀ᵐ ω ∂(inputs P), ∃ᶠ k in atTop, chain next x ω k ∈ B := by
  have : IsFiniteMeasure (target w) := isFiniteMeasure_withDensity hfin
  have hmw := measurable_walk l hm
  have h1 := chain_recurrent (π := target w) (P := Measure.pi fun _ : Fin l.length => P) hmw
    (by
      refine Measure.ext fun C hC => ?_
      rw [Measure.map_apply hmw hC, Measure.prod_apply (hmw hC), ← reach_stationary (P := P) hw hC l hm hb]
      refine lintegral_congr fun x => ?_
      rw [reach_eq_pi hC l hm x]
      rfl) hB
    (ae_of_all _ fun x => by rw [← reach_eq_pi hB l hm x]; exact hpos x)
  refine h1.mono fun x hx => ?_
  rw [← inputs_regroup P hl] at hx
  have hmr : Measurable fun (ω : Nat → Ω) (k : Nat) (j : Fin l.length) => ω (k * l.length + j) :=
    measurable_pi_lambda _ fun k => measurable_pi_lambda _ fun j => measurable_pi_apply _
  refine (ae_of_ae_map hmr.aemeasurable hx).mono fun ω hω => ?_
  rw [frequently_atTop] at hω ⊢
  intro N
  obtain ⟨k, hk, hkB⟩ := hω N
  refine ⟨k * l.length, hk.trans (Nat.le_mul_of_pos_right _ hl), ?_⟩
  rw [chain_rounds hnext]
  exact hkB

/-- `rounds_recurrent` for almost every start in the sense of volume. -/
theorem rounds_recurrent' [IsProbabilityMeasure P] {w : Vec ℝ n → ℝ} (hw : Measurable w) (hw0 : ∀ x, 0 < w x)
    (hfin : ∫⁻ x, ENNReal.ofReal (w x) ≠ ∞) {l : List (Vec ℝ n → Ω → Vec ℝ n)} (hl : 0 < l.length)
    (hm : ∀ next ∈ l, Measurable fun e : Vec ℝ n × Ω => next e.1 e.2) (hb : ∀ next ∈ l, DetailedBalance P next w)
    {next : Nat → Vec ℝ n → Ω → Vec ℝ n} (hnext : ∀ k i (h : i < l.length), next (k * l.length + i) = l[i])
    {B : Set (Vec ℝ n)} (hB : MeasurableSet B) (hpos : ∀ x, reach P B l x ≠ 0) :
    ∀ᵐ x, ∀ᵐ ω ∂(inputs P), ∃ᶠ k in atTop, chain next x ω k ∈ B := by
  have hd : Measurable fun x => ENNReal.ofReal (w x) := ENNReal.measurable_ofReal.comp hw
  have h1 := rounds_recurrent hw hfin hl hm hb hnext hB hpos
  rw [target, ae_withDensity_iff hd] at h1
  exact h1.mono fun x hx => hx (by rw [Ne, ENNReal.ofReal_eq_zero, not_le]; exact hw0 x)

/-! ## The random walk with the numbers that 'mcmc' draws -/

/-- The transition on block `b` with `per` normal numbers, one for each coordinate of the block. -/
noncomputable def blockStep (f : Vec ℝ n → ℝ) (scale : Vec ℝ n) {per : Nat} (hper : 0 < per) (b : Nat) (x : Vec ℝ n)
    (ω : Vec ℝ per × ℝ) : Vec ℝ n :=
  walkStep f scale per b x (fun c => ω.1 ⟨c.val % per, Nat.mod_lt _ hper⟩, ω.2)

theorem measurable_blockStep {f : Vec ℝ n → ℝ} (hf : Measurable f) (scale : Vec ℝ n) {per : Nat} (hper : 0 < per) (b : Nat) :
    Measurable fun e : Vec ℝ n × (Vec ℝ per × ℝ) => blockStep f scale hper b e.1 e.2 := by
  refine (measurable_walkStep hf scale per b).comp (measurable_fst.prodMk (Measurable.prodMk ?_ ?_))
  · exact measurable_pi_lambda _ fun c => (measurable_pi_apply _).comp (measurable_fst.comp measurable_snd)
  · exact measurable_snd.comp measurable_snd

/-- Only the coordinates of the block matter. -/
theorem blockStep_law {f : Vec ℝ n → ℝ} (hf : Measurable f) (scale : Vec ℝ n) {per : Nat} (hper : 0 < per) (b : Nat)
    (x : Vec ℝ n) {A : Set (Vec ℝ n)} (hA : MeasurableSet A) :
    ((gauss per).prod unifLaw) {ω | blockStep f scale hper b x ω ∈ A} =
      ((gauss n).prod unifLaw) {ω | walkStep f scale per b x ω ∈ A} := by
  let S := {c : Fin n // c.val / per = b}
  let ext : (S → ℝ) → Vec ℝ n := fun v c => if h : c.val / per = b then v ⟨c, h⟩ else 0
  have hext : Measurable ext := by
    refine measurable_pi_lambda _ fun c => ?_
    by_cases h : c.val / per = b
    · simp only [ext, dif_pos h]; exact measurable_pi_apply _
    · simp only [ext, dif_neg h]; exact measurable_const
  have hmove : ∀ z : Vec ℝ n, blockMove scale per b x (ext fun c => z c.1) = blockMove scale per b x z := by
    intro z
    funext c
    unfold blockMove
    by_cases h : c.val / per = b
    · simp only [ext, if_pos h, dif_pos h]
    · simp only [if_neg h]
  have hstep : ∀ (z : Vec ℝ n) (u : ℝ), walkStep f scale per b x (ext fun c => z c.1, u) = walkStep f scale per b x (z, u) := by
    intro z u
    unfold walkStep
    rw [hmove]
  let C : Set ((S → ℝ) × ℝ) := {v | walkStep f scale per b x (ext v.1, v.2) ∈ A}
  have hC : MeasurableSet C := by
    have : Measurable fun v : (S → ℝ) × ℝ => walkStep f scale per b x (ext v.1, v.2) :=
      (measurable_walkStep hf scale per b).comp (measurable_const.prodMk ((hext.comp measurable_fst).prodMk measurable_snd))
    exact this hA
  have hlaw : ∀ {m : Nat} (g : S → Fin m), Function.Injective g →
      ((gauss m).prod unifLaw) {ω | (fun c => ω.1 (g c), ω.2) ∈ C} =
        ((Measure.pi fun _ : S => ProbabilityTheory.gaussianReal 0 1).prod unifLaw) C := by
    intro m g hg
    have h1 := Measure.map_infinitePi_infinitePi_of_inj (P := fun _ : Fin m => ProbabilityTheory.gaussianReal 0 1) hg
    rw [Measure.infinitePi_eq_pi, Measure.infinitePi_eq_pi] at h1
    have hmg : Measurable fun (z : Vec ℝ m) (c : S) => z (g c) := measurable_pi_lambda _ fun c => measurable_pi_apply _
    rw [← h1]
    have h2 := Measure.map_prod_map (gauss m) unifLaw hmg measurable_id
    rw [Measure.map_id] at h2
    show _ = ((gauss m).map _ |>.prod unifLaw) C
    rw [h2, Measure.map_apply (hmg.prodMap measurable_id) hC]
    rfl
  have e1 := hlaw (m := n) (fun c => c.1) Subtype.val_injective
  have e2 := hlaw (m := per) (fun c => ⟨c.1.val % per, Nat.mod_lt _ hper⟩) (by
    rintro ⟨c, hc⟩ ⟨c', hc'⟩ h
    have h' : c.val % per = c'.val % per := congrArg Fin.val h
    refine Subtype.ext (Fin.ext ?_)
    show c.val = c'.val
    rw [← Nat.mod_add_div c.val per, ← Nat.mod_add_div c'.val per, h', hc, hc'])
  have s1 : {ω : Vec ℝ n × ℝ | ((fun c : S => ω.1 c.1), ω.2) ∈ C} = {ω | walkStep f scale per b x ω ∈ A} := by
    refine Set.ext fun ω => iff_of_eq (congrArg (· ∈ A) (hstep ω.1 ω.2))
  have s2 : {ω : Vec ℝ per × ℝ | ((fun c : S => ω.1 ⟨c.1.val % per, Nat.mod_lt _ hper⟩), ω.2) ∈ C} =
      {ω | blockStep f scale hper b x ω ∈ A} := by
    refine Set.ext fun ω => iff_of_eq (congrArg (· ∈ A) (hstep (fun c => ω.1 ⟨c.val % per, Nat.mod_lt _ hper⟩) ω.2))
  rw [s1] at e1
  rw [s2] at e2
  rw [e1, e2]

theorem blockStep_balance {f : Vec ℝ n → ℝ} (hf : Measurable f) (scale : Vec ℝ n) {per : Nat} (hper : 0 < per) (b : Nat) :
    DetailedBalance ((gauss per).prod unifLaw) (blockStep f scale hper b) fun x => Real.exp (- f x) := by
  intro A B hA hB
  have := walk_balance hf scale per b A B hA hB
  simpa only [blockStep_law hf scale hper b _ hA, blockStep_law hf scale hper b _ hB] using this

/-- Transitions with the same laws reach the same sets. -/
theorem reach_blockStep {f : Vec ℝ n → ℝ} (hf : Measurable f) (scale : Vec ℝ n) {per : Nat} (hper : 0 < per)
    {B : Set (Vec ℝ n)} (hB : MeasurableSet B) : ∀ (bs : List Nat) (x : Vec ℝ n),
    reach ((gauss per).prod unifLaw) B (bs.map (blockStep f scale hper)) x =
      reach ((gauss n).prod unifLaw) B (bs.map (walkStep f scale per)) x
  | [], _ => rfl
  | b :: bs, x => by
    have ih := reach_blockStep hf scale hper hB bs
    have hr : Measurable (reach ((gauss n).prod unifLaw) B (bs.map (walkStep f scale per))) :=
      reach_measurable hB _ fun k hk => by
        obtain ⟨i, -, rfl⟩ := List.mem_map.1 hk
        exact measurable_walkStep hf scale per i
    have m1 : Measurable fun ω => blockStep f scale hper b x ω := (measurable_blockStep hf scale hper b).comp measurable_prodMk_left
    have m2 : Measurable fun ω => walkStep f scale per b x ω := (measurable_walkStep hf scale per b).comp measurable_prodMk_left
    have hmap : ((gauss per).prod unifLaw).map (fun ω => blockStep f scale hper b x ω) =
        ((gauss n).prod unifLaw).map fun ω => walkStep f scale per b x ω := by
      refine Measure.ext fun A hA => ?_
      rw [Measure.map_apply m1 hA, Measure.map_apply m2 hA]
      exact blockStep_law hf scale hper b x hA
    show ∫⁻ ω, reach _ B _ (blockStep f scale hper b x ω) ∂_ = ∫⁻ ω, reach _ B _ (walkStep f scale per b x ω) ∂_
    simp only [ih]
    rw [← lintegral_map hr m1, ← lintegral_map hr m2, hmap]

end Stochopy
