import Verif.Spec.Ideal
import Verif.Lemmas.RecurWalk

/-!
# The numbers that a chain draws from an ideal generator
-/

namespace Stochopy
open Spec MeasureTheory ProbabilityTheory
open scoped ENNReal

instance (b : Bool) : IsProbabilityMeasure (drawLaw b) := by
  unfold drawLaw
  split <;> infer_instance

variable {σ : Type} {R : Rng σ ℝ}

/-- The draws of a chain whose iterations take `m` normal numbers and one uniform number. -/
def schedule (m k : Nat) : Bool := decide (k % (m + 1) ≠ m)

theorem schedule_at (m k i : Nat) (h : i < m + 1) : schedule m (k * (m + 1) + i) = decide (i ≠ m) := by
  unfold schedule
  rw [Nat.add_comm, Nat.add_mul_mod_self_right, Nat.mod_eq_of_lt h]

theorem stateAt_normals {K : Type} {R : Rng σ K} (m : Nat) (g : σ) (k : Nat) : ∀ i, i ≤ m →
    stateAt R (schedule m) g (k * (m + 1) + i) =
      (fun g => (R.randn g).2)^[i] (stateAt R (schedule m) g (k * (m + 1)))
  | 0, _ => rfl
  | i + 1, h => by
    show (if schedule m (k * (m + 1) + i) then (R.randn (stateAt R (schedule m) g (k * (m + 1) + i))).2 else _) = _
    rw [schedule_at m k i (by omega), if_pos (by simp; omega), stateAt_normals m g k i (by omega),
      Function.iterate_succ_apply']

theorem stateAt_genAt {K : Type} {R : Rng σ K} (m : Nat) (g : σ) : ∀ k, stateAt R (schedule m) g (k * (m + 1)) = genAt R m true g k
  | 0 => by rw [Nat.zero_mul]; rfl
  | k + 1 => by
    have h1 := stateAt_normals (R := R) m g k m (le_refl _)
    rw [stateAt_genAt m g k] at h1
    rw [Nat.add_mul, one_mul]
    show (if schedule m (k * (m + 1) + m) then _ else (R.rand (stateAt R (schedule m) g (k * (m + 1) + m))).2) = _
    rw [schedule_at m k m (by omega), if_neg (by simp), h1]
    rfl

theorem drawn_normal {K : Type} {R : Rng σ K} (m : Nat) (g : σ) (k i : Nat) (h : i < m) :
    drawn R (schedule m) g (k * (m + 1) + i) = normal R (genAt R m true g k) i := by
  unfold drawn
  rw [schedule_at m k i (by omega), if_pos (by simp; omega), stateAt_normals m g k i h.le, stateAt_genAt]
  rfl

theorem drawn_uniform {K : Type} {R : Rng σ K} (m : Nat) (g : σ) (k : Nat) :
    drawn R (schedule m) g (k * (m + 1) + m) = uniform R (genAt R m true g k) m := by
  unfold drawn
  rw [schedule_at m k m (by omega), if_neg (by simp), stateAt_normals m g k m (le_refl _), stateAt_genAt]
  rfl

/-- The numbers of iteration `k`. -/
def numbers {K : Type} (R : Rng σ K) (m : Nat) (g : σ) (k : Nat) : Vec K m × K :=
  (fun i => normal R (genAt R m true g k) i, uniform R (genAt R m true g k) m)

/-- One group of draws. -/
def group {K : Type} (m : Nat) (v : Fin (m + 1) → K) : Vec K m × K := (fun i => v i.castSucc, v (Fin.last m))

theorem measurable_group (m : Nat) : Measurable (group m : (Fin (m + 1) → ℝ) → Vec ℝ m × ℝ) :=
  (measurable_pi_lambda _ fun i => measurable_pi_apply i.castSucc).prodMk (measurable_pi_apply _)

theorem group_law (m : Nat) :
    (Measure.pi fun j : Fin (m + 1) => drawLaw (decide (j.val ≠ m))).map (group m) = (gauss m).prod unifLaw := by
  have h1 := (measurePreserving_piFinSuccAbove (fun j : Fin (m + 1) => drawLaw (decide (j.val ≠ m))) (Fin.last m)).map_eq
  have e1 : drawLaw (decide ((Fin.last m).val ≠ m)) = unifLaw := by simp [drawLaw]
  have e2 : (Measure.pi fun j : Fin m => drawLaw (decide (((Fin.last m).succAbove j).val ≠ m))) = gauss m := by
    unfold gauss
    congr 1
    funext j
    rw [Fin.succAbove_last]
    have := j.isLt
    simp [drawLaw, Nat.ne_of_lt this]
  rw [e1, e2] at h1
  have h2 := congrArg (Measure.map Prod.swap) h1
  rw [Measure.prod_swap, Measure.map_map measurable_swap (MeasurableEquiv.measurable _)] at h2
  rw [← h2]
  congr 1
  funext v
  refine Prod.ext (funext fun i => ?_) rfl
  show v i.castSucc = v ((Fin.last m).succAbove i)
  rw [Fin.succAbove_last]

/-- The numbers that a chain draws from an ideal generator. -/
theorem Spec.Ideal.numbers [MeasurableSpace σ] {Q : Measure σ} (h : Ideal R Q) (m : Nat) :
    Measurable (numbers R m) ∧ Q.map (numbers R m) = inputs ((gauss m).prod unifLaw) := by
  obtain ⟨hm, hlaw⟩ := h (schedule m)
  have hinj : Function.Injective fun p : Nat × Fin (m + 1) => p.1 * (m + 1) + p.2.val := by
    rintro ⟨k, i⟩ ⟨k', i'⟩ h
    have h' : k * (m + 1) + i.val = k' * (m + 1) + i'.val := h
    have h1 : k = k' := by
      have := congrArg (· / (m + 1)) h'
      simpa [Nat.add_comm, Nat.add_mul_div_right _ _ (Nat.succ_pos m), Nat.div_eq_of_lt i.isLt, Nat.div_eq_of_lt i'.isLt] using this
    subst h1
    have h2 : i = i' := Fin.ext (by omega)
    rw [h2]
  have h1 := Measure.map_infinitePi_infinitePi_of_inj (P := fun k : Nat => drawLaw (schedule m k)) hinj
  have h2 := Measure.infinitePi_map_curry (ι := Nat) (κ := Fin (m + 1)) fun _ j => drawLaw (decide (j.val ≠ m))
  have hmi : Measurable fun (ω : Nat → ℝ) (p : Nat × Fin (m + 1)) => ω (p.1 * (m + 1) + p.2.val) :=
    measurable_pi_lambda _ fun p => measurable_pi_apply _
  have e1 : (fun p : Nat × Fin (m + 1) => drawLaw (schedule m (p.1 * (m + 1) + p.2.val))) =
      fun p : Nat × Fin (m + 1) => drawLaw (decide (p.2.val ≠ m)) := by
    funext p
    rw [schedule_at m p.1 p.2 p.2.isLt]
  rw [show (Measure.infinitePi fun p : Nat × Fin (m + 1) => drawLaw (schedule m (p.1 * (m + 1) + p.2.val))) =
    Measure.infinitePi fun p : Nat × Fin (m + 1) => drawLaw (decide (p.2.val ≠ m)) by simp only [schedule_at m _ _ (Fin.isLt _)]] at h1
  rw [← h1, Measure.map_map (MeasurableEquiv.measurable _) hmi] at h2
  have h3 := Measure.infinitePi_map_pi (fun _ : Nat => Measure.infinitePi fun j : Fin (m + 1) => drawLaw (decide (j.val ≠ m)))
    (f := fun _ => group m) fun _ => measurable_group m
  rw [← h2, Measure.infinitePi_eq_pi (μ := fun j : Fin (m + 1) => drawLaw (decide (j.val ≠ m))), group_law] at h3
  have hmg : Measurable fun (v : Nat → Fin (m + 1) → ℝ) (k : Nat) => group m (v k) :=
    measurable_pi_lambda _ fun k => (measurable_group m).comp (measurable_pi_apply k)
  have hmc : Measurable (MeasurableEquiv.curry Nat (Fin (m + 1)) ℝ ∘ fun (ω : Nat → ℝ) (p : Nat × Fin (m + 1)) =>
      ω (p.1 * (m + 1) + p.2.val)) := (MeasurableEquiv.measurable _).comp hmi
  rw [Measure.map_map hmg hmc, ← hlaw, Measure.map_map (hmg.comp hmc) hm] at h3
  have e3 : ((fun (v : Nat → Fin (m + 1) → ℝ) (k : Nat) => group m (v k)) ∘
      (MeasurableEquiv.curry Nat (Fin (m + 1)) ℝ ∘ fun (ω : Nat → ℝ) (p : Nat × Fin (m + 1)) => ω (p.1 * (m + 1) + p.2.val))) ∘
        drawn R (schedule m) = Stochopy.numbers R m := by
    funext g k
    refine Prod.ext (funext fun i => ?_) ?_
    · exact drawn_normal m g k i i.isLt
    · exact drawn_uniform m g k
  rw [e3] at h3
  refine ⟨?_, h3⟩
  rw [← e3]
  exact (hmg.comp hmc).comp hm

/-! ## The first draws and the others -/

/-- A finite and an infinite sequence, one after the other. -/
def join {n : Nat} (z : (Fin n → ℝ) × (Nat → ℝ)) (k : Nat) : ℝ := if h : k < n then z.1 ⟨k, h⟩ else z.2 (k - n)

theorem measurable_join {n : Nat} : Measurable (join : (Fin n → ℝ) × (Nat → ℝ) → Nat → ℝ) := by
  refine measurable_pi_lambda _ fun k => ?_
  by_cases h : k < n
  · simp only [join, dif_pos h]; exact (measurable_pi_apply _).comp measurable_fst
  · simp only [join, dif_neg h]; exact (measurable_pi_apply _).comp measurable_snd

theorem infinitePi_join (μ : Nat → Measure ℝ) [∀ k, IsProbabilityMeasure (μ k)] (n : Nat) :
    ((Measure.pi fun i : Fin n => μ i).prod (Measure.infinitePi fun k => μ (n + k))).map join = Measure.infinitePi μ := by
  classical
  refine Measure.eq_infinitePi μ fun s t ht => ?_
  rw [Measure.map_apply measurable_join (MeasurableSet.pi s.countable_toSet fun i _ => ht i)]
  let s1 : Finset (Fin n) := Finset.univ.filter fun i => i.val ∈ s
  let s2 : Finset Nat := (s.filter fun k => n ≤ k).image fun k => k - n
  have hm2 : ∀ k, k ∈ s2 ↔ n + k ∈ s := by
    intro k
    simp only [s2, Finset.mem_image, Finset.mem_filter]
    constructor
    · rintro ⟨j, ⟨h1, h2⟩, rfl⟩
      rwa [show n + (j - n) = j by omega]
    · intro h
      exact ⟨n + k, ⟨h, by omega⟩, by omega⟩
  have hset : join ⁻¹' (Set.pi s t) =
      (Set.pi Set.univ fun i : Fin n => if i.val ∈ s then t i else Set.univ) ×ˢ (Set.pi (s2 : Set Nat) fun k => t (n + k)) := by
    ext z
    simp only [Set.mem_preimage, Set.mem_pi, Set.mem_prod, Finset.mem_coe, Set.mem_univ, true_implies]
    constructor
    · intro h
      refine ⟨fun i => ?_, fun k hk => ?_⟩
      · split
        · rename_i hi
          have := h i hi
          simpa only [join, dif_pos i.isLt] using this
        · trivial
      · have := h (n + k) ((hm2 k).1 hk)
        simpa only [join, dif_neg (show ¬ n + k < n by omega), Nat.add_sub_cancel_left] using this
    · rintro ⟨h1, h2⟩ k hk
      by_cases hkn : k < n
      · have := h1 ⟨k, hkn⟩
        rw [if_pos hk] at this
        simpa only [join, dif_pos hkn] using this
      · have := h2 (k - n) ((hm2 _).2 (by rwa [show n + (k - n) = k by omega]))
        rw [show n + (k - n) = k by omega] at this
        simpa only [join, dif_neg hkn] using this
  rw [hset, Measure.prod_prod, Measure.pi_pi, Measure.infinitePi_pi (fun k => μ (n + k)) fun i _ => ht (n + i)]
  have h1 : ∏ i : Fin n, μ i (if i.val ∈ s then t i else Set.univ) = ∏ k ∈ s.filter (fun k => k < n), μ k (t k) := by
    have : ∀ i : Fin n, μ i (if i.val ∈ s then t i else Set.univ) = if i.val ∈ s then μ i (t i) else 1 := by
      intro i
      split
      · rfl
      · exact measure_univ
    simp only [this]
    rw [← Finset.prod_filter]
    refine Finset.prod_bij (fun (i : Fin n) _ => i.val) ?_ ?_ ?_ ?_
    · intro i hi
      exact Finset.mem_filter.2 ⟨(Finset.mem_filter.1 hi).2, i.isLt⟩
    · intro i _ j _ h
      exact Fin.ext h
    · intro k hk
      obtain ⟨hk1, hk2⟩ := Finset.mem_filter.1 hk
      exact ⟨⟨k, hk2⟩, Finset.mem_filter.2 ⟨Finset.mem_univ _, hk1⟩, rfl⟩
    · intro i _
      rfl
  have h2 : ∏ k ∈ s2, μ (n + k) (t (n + k)) = ∏ k ∈ s.filter (fun k => ¬ k < n), μ k (t k) := by
    refine Finset.prod_bij (fun k _ => n + k) ?_ ?_ ?_ ?_
    · intro k hk
      exact Finset.mem_filter.2 ⟨(hm2 k).1 hk, by omega⟩
    · intro i _ j _ h
      omega
    · intro k hk
      obtain ⟨hk1, hk2⟩ := Finset.mem_filter.1 hk
      have : n + (k - n) = k := by omega
      exact ⟨k - n, (hm2 _).2 (by rwa [this]), this⟩
    · intro i _
      rfl
  rw [h1, h2, Finset.prod_filter_mul_prod_filter_not]

/-- `n` uniform numbers, then the numbers of a chain. -/
def startSchedule (n m k : Nat) : Bool := if k < n then false else schedule m (k - n)

theorem stateAt_start {K : Type} {R : Rng σ K} (n m : Nat) (g : σ) : ∀ k, k ≤ n →
    stateAt R (startSchedule n m) g k = (fun g => (R.rand g).2)^[k] g
  | 0, _ => rfl
  | k + 1, h => by
    show (if startSchedule n m k then _ else (R.rand (stateAt R (startSchedule n m) g k)).2) = _
    rw [if_neg (by rw [startSchedule, if_pos (by omega)]; decide), stateAt_start n m g k (by omega), Function.iterate_succ_apply']

theorem stateAt_later {K : Type} {R : Rng σ K} (n m : Nat) (g : σ) : ∀ k,
    stateAt R (startSchedule n m) g (n + k) = stateAt R (schedule m) ((fun g => (R.rand g).2)^[n] g) k
  | 0 => stateAt_start n m g n (le_refl n)
  | k + 1 => by
    show (if startSchedule n m (n + k) then (R.randn (stateAt R (startSchedule n m) g (n + k))).2 else
      (R.rand (stateAt R (startSchedule n m) g (n + k))).2) = _
    have hs : startSchedule n m (n + k) = schedule m k := by
      rw [startSchedule, if_neg (by omega), Nat.add_sub_cancel_left]
    rw [stateAt_later n m g k, hs]
    rfl

/-- `n` uniform numbers and the numbers that a chain draws afterwards, from an ideal generator. -/
theorem Spec.Ideal.start [MeasurableSpace σ] {Q : Measure σ} (h : Ideal R Q) (n m : Nat) :
    Measurable (fun g => ((drawVec R.rand n g).1, Stochopy.numbers R m ((fun g => (R.rand g).2)^[n] g))) ∧
    Q.map (fun g => ((drawVec R.rand n g).1, Stochopy.numbers R m ((fun g => (R.rand g).2)^[n] g))) =
      (Measure.pi fun _ : Fin n => unifLaw).prod (inputs ((gauss m).prod unifLaw)) := by
  obtain ⟨hm, hlaw⟩ := h (startSchedule n m)
  -- the numbers of a chain as a function of its draws
  let G : (Nat → ℝ) → Nat → Vec ℝ m × ℝ := fun d k => (fun i => d (k * (m + 1) + i), d (k * (m + 1) + m))
  have hG : Measurable G := measurable_pi_lambda _ fun k =>
    (measurable_pi_lambda _ fun i => measurable_pi_apply _).prodMk (measurable_pi_apply _)
  have hGn : ∀ g, Stochopy.numbers R m g = G (drawn R (schedule m) g) := by
    intro g
    funext k
    exact Prod.ext (funext fun i => (drawn_normal m g k i i.isLt).symm) (drawn_uniform m g k).symm
  have hGlaw : (Measure.infinitePi fun k => drawLaw (schedule m k)).map G = inputs ((gauss m).prod unifLaw) := by
    obtain ⟨hm', hlaw'⟩ := h (schedule m)
    rw [← hlaw', Measure.map_map hG hm', ← (h.numbers m).2]
    congr 1
    funext g
    exact (hGn g).symm
  let S : (Nat → ℝ) → (Fin n → ℝ) × (Nat → Vec ℝ m × ℝ) := fun d => (fun i => d i, G fun k => d (n + k))
  have hshift : Measurable fun (d : Nat → ℝ) (k : Nat) => d (n + k) := measurable_pi_lambda _ fun k => measurable_pi_apply _
  have hS : Measurable S := (measurable_pi_lambda _ fun i => measurable_pi_apply _).prodMk (hG.comp hshift)
  have he : (fun g => ((drawVec R.rand n g).1, Stochopy.numbers R m ((fun g => (R.rand g).2)^[n] g))) =
      S ∘ drawn R (startSchedule n m) := by
    funext g
    refine Prod.ext (funext fun i => ?_) ?_
    · show (R.rand ((fun g => (R.rand g).2)^[i.val] g)).1 = drawn R (startSchedule n m) g i
      unfold drawn
      rw [if_neg (by rw [startSchedule, if_pos i.isLt]; decide), stateAt_start n m g i i.isLt.le]
    · show Stochopy.numbers R m _ = G fun k => drawn R (startSchedule n m) g (n + k)
      rw [hGn]
      have hk : drawn R (schedule m) ((fun g => (R.rand g).2)^[n] g) = fun k => drawn R (startSchedule n m) g (n + k) := by
        funext k
        unfold drawn
        have hs : startSchedule n m (n + k) = schedule m k := by
          rw [startSchedule, if_neg (by omega), Nat.add_sub_cancel_left]
        rw [stateAt_later, hs]
      rw [hk]
  rw [he]
  refine ⟨hS.comp hm, ?_⟩
  rw [← Measure.map_map hS hm, hlaw, ← infinitePi_join _ n, Measure.map_map hS measurable_join]
  have e1 : S ∘ join = Prod.map (id : (Fin n → ℝ) → Fin n → ℝ) G := by
    funext z
    refine Prod.ext (funext fun i => ?_) ?_
    · show join z i = z.1 i
      simp only [join, dif_pos i.isLt]
    · show (G fun k => join z (n + k)) = G z.2
      have hk : (fun k => join z (n + k)) = z.2 := by
        funext k
        simp only [join, dif_neg (show ¬ n + k < n by omega), Nat.add_sub_cancel_left]
      rw [hk]
  have e2 : (fun i : Fin n => drawLaw (startSchedule n m i)) = fun _ => unifLaw := by
    funext i
    rw [startSchedule, if_pos i.isLt]
    rfl
  have e3 : (Measure.infinitePi fun k => drawLaw (startSchedule n m (n + k))) = Measure.infinitePi fun k => drawLaw (schedule m k) := by
    simp only [startSchedule, show ∀ k, ¬ n + k < n from fun k => by omega, if_false, Nat.add_sub_cancel_left]
  rw [e1, e2, e3, ← Measure.map_prod_map _ _ measurable_id hG, hGlaw, Measure.map_id]

/-! ## An ideal generator -/

/-- `x`, or zero if it is outside `[0, 1)`. -/
noncomputable def clip (x : ℝ) : ℝ := if 0 ≤ x ∧ x < 1 then x else 0

theorem clip_nonneg (x : ℝ) : 0 ≤ clip x := by
  unfold clip
  split
  · rename_i h; exact h.1
  · exact le_refl 0

theorem clip_lt_one (x : ℝ) : clip x < 1 := by
  unfold clip
  split
  · rename_i h; exact h.2
  · exact zero_lt_one

theorem measurable_clip : Measurable clip :=
  Measurable.ite (measurableSet_Ico (a := (0 : ℝ)) (b := 1)) measurable_id measurable_const

/-- The state of this generator is the list of the numbers to come, a uniform and a normal one for each draw. -/
noncomputable def streamRng : Rng (Nat → ℝ × ℝ) ℝ where
  seed _ := fun _ => (0, 0)
  rand g := (clip (g 0).1, fun k => g (k + 1))
  randn g := ((g 0).2, fun k => g (k + 1))
  randint n g := (⌊clip (g 0).1 * n⌋₊, fun k => g (k + 1))
  perm _ g := (1, fun k => g (k + 1))

theorem streamRng_ok : streamRng.Ok where
  rand_nonneg _ := clip_nonneg _
  rand_lt_one _ := clip_lt_one _
  randint_lt n g h := by
    show ⌊clip (g 0).1 * n⌋₊ < n
    have hn : (0 : ℝ) < n := by exact_mod_cast h
    rw [Nat.floor_lt (mul_nonneg (clip_nonneg _) hn.le)]
    have := clip_lt_one (g 0).1
    nlinarith

/-- The law of its initial state. -/
noncomputable def streamLaw : Measure (Nat → ℝ × ℝ) := inputs (unifLaw.prod (gaussianReal 0 1))

theorem stream_ideal : Ideal streamRng streamLaw := by
  intro s
  have hst : ∀ g k, stateAt streamRng s g k = fun i => g (k + i) := by
    intro g k
    induction k with
    | zero => funext i; rw [Nat.zero_add]; rfl
    | succ k ih =>
      show (if s k then _ else _) = _
      rw [ih]
      have : ∀ i, g (k + (i + 1)) = g (k + 1 + i) := fun i => by rw [show k + (i + 1) = k + 1 + i by omega]
      split <;> exact funext this
  let F : Nat → ℝ × ℝ → ℝ := fun k z => if s k then z.2 else clip z.1
  have hF : ∀ k, Measurable (F k) := by
    intro k
    simp only [F]
    split
    · exact measurable_snd
    · exact measurable_clip.comp measurable_fst
  have he : drawn streamRng s = fun g k => F k (g k) := by
    funext g k
    unfold drawn
    rw [hst]
    rfl
  rw [he]
  refine ⟨measurable_pi_lambda _ fun k => (hF k).comp (measurable_pi_apply k), ?_⟩
  unfold streamLaw inputs
  rw [Measure.infinitePi_map_pi _ hF]
  congr 1
  funext k
  simp only [F, drawLaw]
  split
  · exact (Measure.map_snd_prod).trans (by rw [measure_univ, one_smul])
  · have h1 : (unifLaw.prod (gaussianReal 0 1)).map Prod.fst = unifLaw :=
      (Measure.map_fst_prod).trans (by rw [measure_univ, one_smul])
    have h2 : (unifLaw.prod (gaussianReal 0 1)).map (fun z : ℝ × ℝ => clip z.1) =
        ((unifLaw.prod (gaussianReal 0 1)).map Prod.fst).map clip := by
      rw [Measure.map_map measurable_clip measurable_fst]
      rfl
    rw [h2, h1]
    have h3 : clip =ᵐ[unifLaw] (id : ℝ → ℝ) := by
      unfold unifLaw
      refine (ae_restrict_mem measurableSet_Ico).mono fun x hx => ?_
      exact if_pos ⟨hx.1, hx.2⟩
    rw [Measure.map_congr h3, Measure.map_id]

end Stochopy
