import Verif.Lemmas.Ideal
import Verif.Lemmas.Average
import Verif.Props.Reach

/-!
# C96: the samplers visit every region with probability one

An ideal generator is described in `Spec/Ideal.lean`: the numbers of any sequence of draws are independent, and standard normal or
uniform.  `chain` and `inputs` are defined in `Spec/Recur.lean`.
-/

set_option linter.unusedSectionVars false

namespace Stochopy
open Spec Sampling MeasureTheory ProbabilityTheory Filter Concrete
open scoped ENNReal

/-! ## Chains -/

theorem measurable_visits {X Ω : Type} [MeasurableSpace X] [MeasurableSpace Ω] {next : Nat → X → Ω → X}
    (h : ∀ k, Measurable fun e : X × Ω => next k e.1 e.2) {B : Set X} (hB : MeasurableSet B) :
    MeasurableSet {z : X × (Nat → Ω) | ∃ᶠ k in atTop, chain next z.1 z.2 k ∈ B} := by
  have : {z : X × (Nat → Ω) | ∃ᶠ k in atTop, chain next z.1 z.2 k ∈ B} =
      ⋂ n : Nat, ⋃ k : Nat, {z | n ≤ k ∧ chain next z.1 z.2 k ∈ B} := by
    ext z
    simp only [Set.mem_setOf_eq, Set.mem_iInter, Set.mem_iUnion, frequently_atTop, ge_iff_le]
  rw [this]
  refine MeasurableSet.iInter fun n => MeasurableSet.iUnion fun k => ?_
  have h1 : MeasurableSet {z : X × (Nat → Ω) | chain next z.1 z.2 k ∈ B} := measurable_chain h k hB
  by_cases h : n ≤ k
  · simpa [h] using h1
  · simp [h]

/-- A uniform point of a box with sides of any sign avoids null sets. -/
theorem box_ae {n : Nat} (l d : Vec ℝ n) (hd : ∀ c, d c ≠ 0) {p : Vec ℝ n → Prop} (h : ∀ᵐ x, p x) :
    ∀ᵐ u ∂(Measure.pi fun _ : Fin n => unifLaw), p fun j => l j + d j * u j := by
  have hr : (Measure.pi fun _ : Fin n => unifLaw) = (volume : Measure (Vec ℝ n)).restrict (Set.univ.pi fun _ => Set.Ico 0 1) := by
    unfold unifLaw
    rw [volume_pi, Measure.restrict_pi_pi]
  rw [hr]
  refine ae_restrict_of_ae ?_
  obtain ⟨t, ht, htm, ht0⟩ := exists_measurable_superset_of_null (ae_iff.1 h)
  rw [ae_iff]
  refine measure_mono_null (t := {u | (fun j => l j + d j * u j) ∈ t}) (fun u hu => ht hu) ?_
  have hdet : (Matrix.diagonal d).det ≠ 0 := by
    rw [Matrix.det_diagonal]
    exact Finset.prod_ne_zero_iff.2 fun c _ => hd c
  have h2 : MeasurableSet ((fun x : Vec ℝ n => l + x) ⁻¹' t) := (measurable_const_add l) htm
  have h3 := Real.map_matrix_volume_pi_eq_smul_volume_pi hdet
  have h4 := congrArg (fun μ => μ ((fun x : Vec ℝ n => l + x) ⁻¹' t)) h3
  rw [Measure.map_apply (by exact (LinearMap.continuous_of_finiteDimensional _).measurable) h2, Measure.smul_apply,
    measure_preimage_add, ht0, smul_zero] at h4
  refine Eq.trans ?_ h4
  congr 1
  ext u
  show (fun j => l j + d j * u j) ∈ t ↔ (l + Matrix.toLin' (Matrix.diagonal d) u) ∈ t
  have : (fun j => l j + d j * u j) = l + Matrix.toLin' (Matrix.diagonal d) u := by
    funext j
    show _ = l j + (Matrix.toLin' (Matrix.diagonal d) u) j
    rw [Matrix.toLin'_apply, Matrix.mulVec_diagonal]
  rw [this]

/-- The transitions of 'mcmc', with `per` normal numbers and one uniform number per iteration. -/
noncomputable def mcmcNext {n : Nat} (f : Vec ℝ n → ℝ) (scale : Vec ℝ n) {per : Nat} (hper : 0 < per) (k : Nat) (x : Vec ℝ n)
    (ω : Vec ℝ per × ℝ) : Vec ℝ n :=
  walkStep f scale per (k % blockCount n per) x (fun c => ω.1 ⟨c.val % per, Nat.mod_lt _ hper⟩, ω.2)

/-- The chain of 'mcmc' with independent normal and uniform numbers, for any measurable objective with a finite integral of
`exp (-f)`: from almost every starting point and with probability one it is infinitely often in any given set of positive volume. -/
theorem C96_mcmc_kernel {n : Nat} (hn : 0 < n) {f : Vec ℝ n → ℝ} (hf : Measurable f)
    (hint : ∫⁻ x, ENNReal.ofReal (Real.exp (-f x)) ≠ ∞) {scale : Vec ℝ n} (hs : ∀ c, scale c ≠ 0) {per : Nat}
    (hper : 0 < per) {B : Set (Vec ℝ n)} (hB : MeasurableSet B) (hv : 0 < volume B) :
    ∀ᵐ x, ∀ᵐ ω ∂(inputs ((gauss per).prod unifLaw)), ∃ᶠ k in atTop, chain (mcmcNext f scale hper) x ω k ∈ B := by
  have hbc : 0 < blockCount n per := by
    unfold blockCount
    exact Nat.div_pos (by omega) hper
  refine rounds_recurrent' (P := (gauss per).prod unifLaw) (w := fun x => Real.exp (-f x)) (Real.measurable_exp.comp hf.neg)
    (fun x => Real.exp_pos _) hint (l := (List.range (blockCount n per)).map (blockStep f scale hper)) (by simpa using hbc) ?_ ?_ ?_ hB ?_
  · intro next h
    obtain ⟨i, -, rfl⟩ := List.mem_map.1 h
    exact measurable_blockStep hf scale hper i
  · intro next h
    obtain ⟨i, -, rfl⟩ := List.mem_map.1 h
    exact blockStep_balance hf scale hper i
  · intro k i h
    have h' : i < blockCount n per := by simpa using h
    rw [List.getElem_map, List.getElem_range, List.length_map, List.length_range]
    unfold mcmcNext blockStep
    rw [Nat.add_comm, Nat.add_mul_mod_self_right, Nat.mod_eq_of_lt h']
  · intro x
    rw [reach_blockStep hf scale hper hB]
    have := C95_mcmc_kernel hf hs hper hB hv.ne' (blockCount n per) 0 (le_refl _) x
    have he : walkSteps f scale per 0 (blockCount n per) = (List.range (blockCount n per)).map (walkStep f scale per) := by
      unfold walkSteps
      refine List.map_congr_left fun i hi => ?_
      rw [Nat.zero_add, Nat.mod_eq_of_lt (List.mem_range.1 hi)]
    rw [he] at this
    exact this.ne'

/-! ## Runs -/

section Runs
variable {σ : Type} {R : Rng σ ℝ} {fuel : Nat} {g : σ}

theorem blockSize_pos (perc : ℝ) (n : Nat) : 0 < blockSize perc n := by
  unfold blockSize
  omega

/-- The samples of a run are the chain of `mcmcNext` driven by the numbers drawn. -/
theorem mcmc_chain (hR : R.Ok) {a : MCMC.Args ℝ} {o : Sampling.Output σ ℝ a.ndim} {fn : Vec (Val ℝ) a.ndim → Val ℝ}
    (hfn : a.fn = some fn) {φ : Vec ℝ a.ndim → ℝ} (hφ : ∀ x, fn (point x) = .fin (φ x))
    (hc : a.constraints ≠ some "Reject") (hall : a.returnAll = true) (h : (MCMC.sample R fuel a g).1 = .ok o)
    {xs : List (Vec (Val ℝ) a.ndim)} (hxs : o.xall = some xs) {q : Vec ℝ a.ndim} (h0 : xs[0]? = some (point q)) :
    ∀ k : Nat, (k : Int) < a.maxiter → xs[k]? = some (point (chain (mcmcNext φ (scaleOf a.toArgs) (blockSize_pos a.perc a.ndim)) q
      (numbers R (blockSize a.perc a.ndim) (genStart R a.toArgs g)) k)) := by
  obtain ⟨qs, h1, h2, h3⟩ := C45_mcmc hR hfn hφ hc h
  have hxq : xs = qs.map point := Option.some.inj (hxs.symm.trans (h1 hall))
  subst hxq
  have hinj : Function.Injective (point : Vec ℝ a.ndim → Vec (Val ℝ) a.ndim) := by
    intro u v huv
    funext j
    exact Val.fin.inj (congrFun huv j)
  have hget : ∀ (k : Nat) (x : Vec ℝ a.ndim), (qs.map point)[k]? = some (point x) → qs[k]? = some x := by
    intro k x hx
    rw [List.getElem?_map] at hx
    obtain ⟨y, hy, hyx⟩ := Option.map_eq_some_iff.1 hx
    rw [hy, hinj hyx]
  intro k
  induction k with
  | zero => intro _; exact h0
  | succ k ih =>
    intro hk
    have hk1 := ih (by omega)
    have hk2 := hget _ _ hk1
    have hlt : k + 1 < qs.length := by omega
    have hk3 : qs[k + 1]? = some qs[k + 1] := List.getElem?_eq_getElem hlt
    have hstep := h3 k _ _ hk2 hk3
    rw [List.getElem?_map, hk3]
    show some (point _) = some (point _)
    rw [hstep]
    rfl

/-- Infinitely many visits give any number of visits after finitely many steps. -/
theorem enough_visits {p : Nat → Prop} (h : ∃ᶠ k in atTop, p k) (m : Nat) :
    ∃ N : Nat, ∃ ks : Finset Nat, ks.card = m ∧ ∀ k ∈ ks, k < N ∧ p k := by
  have h1 := Nat.frequently_atTop_iff_infinite.1 h
  obtain ⟨ks, hks, hcard⟩ := h1.exists_subset_card_eq m
  refine ⟨ks.sup id + 1, ks, hcard, fun k hk => ⟨?_, hks hk⟩⟩
  have : k ≤ ks.sup id := Finset.le_sup (f := id) hk
  omega

/-- The first sample when none is given. -/
noncomputable def boxPoint (a : Sampling.Args ℝ) (u : Vec ℝ a.ndim) : Vec ℝ a.ndim := fun j =>
  a.bounds.get [j, 0] + (a.bounds.get [j, 1] - a.bounds.get [j, 0]) * u j

/-- The chain of a run of 'mcmc' with a random start in the box visits `B` infinitely often. -/
theorem mcmc_visits [MeasurableSpace σ] {Q : Measure σ} (hQ : Ideal R Q) {a : MCMC.Args ℝ} {φ : Vec ℝ a.ndim → ℝ}
    (hm : Measurable φ) (hint : ∫⁻ x, ENNReal.ofReal (Real.exp (-φ x)) ≠ ∞) (hs : ∀ c, scaleOf a.toArgs c ≠ 0)
    (hn : 0 < a.ndim) {B : Set (Vec ℝ a.ndim)} (hB : MeasurableSet B) (hv : 0 < volume B) :
    ∀ᵐ g ∂Q, ∃ᶠ k in atTop, chain (mcmcNext φ (scaleOf a.toArgs) (blockSize_pos a.perc a.ndim))
      (boxPoint a.toArgs (drawVec R.rand a.ndim g).1)
      (numbers R (blockSize a.perc a.ndim) ((fun g => (R.rand g).2)^[a.ndim] g)) k ∈ B := by
  have h1 := C96_mcmc_kernel hn hm hint hs (blockSize_pos a.perc a.ndim) hB hv
  have hd : ∀ c : Fin a.ndim, a.bounds.get [c, 1] - a.bounds.get [c, 0] ≠ 0 := by
    intro c hc
    refine hs c ?_
    unfold scaleOf
    rw [hc, zero_div, mul_zero]
  have h2 := box_ae (fun j : Fin a.ndim => a.bounds.get [j, 0]) (fun j => a.bounds.get [j, 1] - a.bounds.get [j, 0]) hd h1
  have hmb : Measurable (boxPoint a.toArgs) :=
    measurable_pi_lambda _ fun j => ((measurable_pi_apply j).const_mul _).const_add _
  have hmn : ∀ k, Measurable fun e : Vec ℝ a.ndim × (Vec ℝ (blockSize a.perc a.ndim) × ℝ) =>
      mcmcNext φ (scaleOf a.toArgs) (blockSize_pos a.perc a.ndim) k e.1 e.2 := fun k =>
    measurable_blockStep hm (scaleOf a.toArgs) (blockSize_pos a.perc a.ndim) _
  have h3 : ∀ᵐ z ∂((Measure.pi fun _ : Fin a.ndim => unifLaw).prod (inputs ((gauss (blockSize a.perc a.ndim)).prod unifLaw))),
      ∃ᶠ k in atTop, chain (mcmcNext φ (scaleOf a.toArgs) (blockSize_pos a.perc a.ndim)) (boxPoint a.toArgs z.1) z.2 k ∈ B := by
    have hms : MeasurableSet {z : Vec ℝ a.ndim × (Nat → Vec ℝ (blockSize a.perc a.ndim) × ℝ) |
        ∃ᶠ k in atTop, chain (mcmcNext φ (scaleOf a.toArgs) (blockSize_pos a.perc a.ndim)) (boxPoint a.toArgs z.1) z.2 k ∈ B} :=
      ((hmb.comp measurable_fst).prodMk measurable_snd) (measurable_visits hmn hB)
    exact (Measure.ae_prod_iff_ae_ae hms).2 h2
  obtain ⟨hmeas, hlaw⟩ := hQ.start a.ndim (blockSize a.perc a.ndim)
  rw [← hlaw] at h3
  exact ae_of_ae_map hmeas.aemeasurable h3

/-- 'mcmc' without constraints and with a random first sample, drawn like everything else from an ideal generator: with probability
one, every call with sufficiently many iterations has any wanted number of samples in `B`.  (`a.maxiter` is replaced by `m`.) -/
theorem C96_mcmc [MeasurableSpace σ] {Q : Measure σ} (hQ : Ideal R Q) (hR : R.Ok) {a : MCMC.Args ℝ}
    {fn : Vec (Val ℝ) a.ndim → Val ℝ} (hfn : a.fn = some fn) {φ : Vec ℝ a.ndim → ℝ} (hφ : ∀ x, fn (point x) = .fin (φ x))
    (hm : Measurable φ) (hint : ∫⁻ x, ENNReal.ofReal (Real.exp (-φ x)) ≠ ∞) (hc : a.constraints ≠ some "Reject")
    (hs : ∀ c, scaleOf a.toArgs c ≠ 0) (hn : 0 < a.ndim) (hx0 : a.x0 = none) (hseed : a.seed = none)
    (hall : a.returnAll = true) {B : Set (Vec ℝ a.ndim)} (hB : MeasurableSet B) (hv : 0 < volume B) :
    ∀ᵐ g ∂Q, ∀ visits : Nat, ∃ N : Nat, ∀ (m fuel : Nat) (o : Sampling.Output σ ℝ a.ndim), N ≤ m →
      (MCMC.sample R fuel { a with maxiter := m } g).1 = .ok o →
      ∃ xs, o.xall = some xs ∧ ∃ ks : Finset Nat, ks.card = visits ∧ ∀ k ∈ ks, ∃ q ∈ B, xs[k]? = some (point q) := by
  refine (mcmc_visits hQ hm hint hs hn hB hv).mono fun g hg visits => ?_
  obtain ⟨N, ks, hcard, hks⟩ := enough_visits hg visits
  refine ⟨N, fun m fuel o hNm h => ?_⟩
  obtain ⟨xs, ms, hrun, hx, -⟩ := C44_mcmc hR (a := { a with maxiter := m }) hfn h
  have hxs := hx hall
  refine ⟨xs, hxs, ks, hcard, fun k hk => ⟨_, (hks k hk).2, ?_⟩⟩
  have hkm : k < m := lt_of_lt_of_le (hks k hk).1 hNm
  have hlen : (xs.length : Int) = m := hrun.length
  have h0 : xs[0]? = some (point (boxPoint a.toArgs (drawVec R.rand a.ndim g).1)) := by
    rw [List.getElem?_eq_getElem (show 0 < xs.length by omega)]
    have := hrun.first _ (List.getElem?_eq_getElem (show 0 < xs.length by omega))
    unfold FirstSample at this
    simp only [hx0, hseed] at this
    rw [this]
    rfl
  have := mcmc_chain hR (a := { a with maxiter := m }) hfn hφ hc hall h hxs h0 k (by show (k : Int) < m; omega)
  have hg' : genStart R { a.toArgs with maxiter := m } g = (fun g => (R.rand g).2)^[a.ndim] g := by
    unfold genStart
    simp only [hx0, hseed]
  rw [this]
  show some (point (chain _ _ (numbers R _ (genStart R { a.toArgs with maxiter := m } g)) k)) = _
  rw [hg']
  rfl

/-- An array of shape `(n,)`. -/
noncomputable def asArray {n : Nat} (x : Vec ℝ n) : NdArr ℝ where
  shape := [n]
  get l := if h : l.getD 0 0 < n then x ⟨l.getD 0 0, h⟩ else 0

/-- The same for almost every given first sample. -/
theorem C96_mcmc_x0 [MeasurableSpace σ] {Q : Measure σ} (hQ : Ideal R Q) (hR : R.Ok) {a : MCMC.Args ℝ}
    {fn : Vec (Val ℝ) a.ndim → Val ℝ} (hfn : a.fn = some fn) {φ : Vec ℝ a.ndim → ℝ} (hφ : ∀ x, fn (point x) = .fin (φ x))
    (hm : Measurable φ) (hint : ∫⁻ x, ENNReal.ofReal (Real.exp (-φ x)) ≠ ∞) (hc : a.constraints ≠ some "Reject")
    (hs : ∀ c, scaleOf a.toArgs c ≠ 0) (hn : 0 < a.ndim) (hseed : a.seed = none) (hall : a.returnAll = true)
    {B : Set (Vec ℝ a.ndim)} (hB : MeasurableSet B) (hv : 0 < volume B) :
    ∀ᵐ x : Vec ℝ a.ndim, ∀ᵐ g ∂Q, ∀ visits : Nat, ∃ N : Nat, ∀ (m fuel : Nat) (o : Sampling.Output σ ℝ a.ndim), N ≤ m →
      (MCMC.sample R fuel { a with maxiter := m, x0 := some (asArray x) } g).1 = .ok o →
      ∃ xs, o.xall = some xs ∧ ∃ ks : Finset Nat, ks.card = visits ∧ ∀ k ∈ ks, ∃ q ∈ B, xs[k]? = some (point q) := by
  refine (C96_mcmc_kernel hn hm hint hs (blockSize_pos a.perc a.ndim) hB hv).mono fun x hx => ?_
  obtain ⟨hmeas, hlaw⟩ := hQ.numbers (blockSize a.perc a.ndim)
  rw [← hlaw] at hx
  refine (ae_of_ae_map hmeas.aemeasurable hx).mono fun g hg visits => ?_
  obtain ⟨N, ks, hcard, hks⟩ := enough_visits hg visits
  refine ⟨N, fun m fuel o hNm h => ?_⟩
  obtain ⟨xs, ms, hrun, hx, -⟩ := C44_mcmc hR (a := { a with maxiter := m, x0 := some (asArray x) }) hfn h
  have hxs := hx hall
  refine ⟨xs, hxs, ks, hcard, fun k hk => ⟨_, (hks k hk).2, ?_⟩⟩
  have hkm : k < m := lt_of_lt_of_le (hks k hk).1 hNm
  have hlen : (xs.length : Int) = m := hrun.length
  have h0 : xs[0]? = some (point x) := by
    rw [List.getElem?_eq_getElem (show 0 < xs.length by omega)]
    have := hrun.first _ (List.getElem?_eq_getElem (show 0 < xs.length by omega)) rfl
    rw [this]
    refine congrArg some (funext fun j => ?_)
    show Val.fin (if h : j.val < a.ndim then x ⟨j.val, h⟩ else 0) = Val.fin (x j)
    rw [dif_pos j.isLt]
  have := mcmc_chain hR (a := { a with maxiter := m, x0 := some (asArray x) }) hfn hφ hc hall h hxs h0 k (by show (k : Int) < m; omega)
  have hg' : genStart R { a.toArgs with maxiter := m, x0 := some (asArray x) } g = g := by
    unfold genStart
    simp only [hseed]
  rw [this]
  show some (point (chain _ _ (numbers R _ (genStart R { a.toArgs with maxiter := m, x0 := some (asArray x) } g)) k)) = _
  rw [hg']
  rfl

/-- Every point is left out by one of countably many parts of positive volume. -/
theorem part_without {n : Nat} (hn : 0 < n) {B : Set (Vec ℝ n)} (hv : 0 < volume B) (x : Vec ℝ n) :
    ∃ r : ℚ, (0 < volume (B ∩ {y | (r : ℝ) < y ⟨0, hn⟩}) ∧ x ⟨0, hn⟩ ≤ r) ∨
      (0 < volume (B ∩ {y | y ⟨0, hn⟩ < (r : ℝ)}) ∧ (r : ℝ) ≤ x ⟨0, hn⟩) := by
  by_contra hc
  push Not at hc
  have h1 : ∀ r : ℚ, x ⟨0, hn⟩ ≤ r → volume (B ∩ {y | (r : ℝ) < y ⟨0, hn⟩}) = 0 := by
    intro r hr
    by_contra h
    exact absurd hr (not_le.2 ((hc r).1 (pos_iff_ne_zero.2 h)))
  have h2 : ∀ r : ℚ, (r : ℝ) ≤ x ⟨0, hn⟩ → volume (B ∩ {y | y ⟨0, hn⟩ < (r : ℝ)}) = 0 := by
    intro r hr
    by_contra h
    exact absurd hr (not_le.2 ((hc r).2 (pos_iff_ne_zero.2 h)))
  refine hv.ne' ?_
  have hsub : B ⊆ {y | y ⟨0, hn⟩ = x ⟨0, hn⟩} ∪
      ((⋃ r : {r : ℚ // x ⟨0, hn⟩ ≤ r}, B ∩ {y | (r.1 : ℝ) < y ⟨0, hn⟩}) ∪
        ⋃ r : {r : ℚ // (r : ℝ) ≤ x ⟨0, hn⟩}, B ∩ {y | y ⟨0, hn⟩ < (r.1 : ℝ)}) := by
    intro y hy
    rcases lt_trichotomy (y ⟨0, hn⟩) (x ⟨0, hn⟩) with hlt | heq | hgt
    · obtain ⟨r, hr1, hr2⟩ := exists_rat_btwn hlt
      exact Or.inr (Or.inr (Set.mem_iUnion.2 ⟨⟨r, hr2.le⟩, hy, hr1⟩))
    · exact Or.inl heq
    · obtain ⟨r, hr1, hr2⟩ := exists_rat_btwn hgt
      exact Or.inr (Or.inl (Set.mem_iUnion.2 ⟨⟨r, hr1.le⟩, hy, hr2⟩))
  refine measure_mono_null hsub (measure_union_null ?_ (measure_union_null ?_ ?_))
  · exact Measure.pi_hyperplane (fun _ : Fin n => (volume : Measure ℝ)) ⟨0, hn⟩ (x ⟨0, hn⟩)
  · exact measure_iUnion_null fun r => h1 r.1 r.2
  · exact measure_iUnion_null fun r => h2 r.1 r.2

/-- A sample that differs from the first one was an accepted proposal. -/
theorem accepted_of_ne {X : Type} {xs : List X} {ms : List (Move X)} (h : Links xs ms) {x : X} (h0 : xs[0]? = some x) :
    ∀ (k : Nat) (y : X), xs[k]? = some y → y ≠ x → ∃ m ∈ ms, m.accepted = true ∧ m.prop = y := by
  intro k
  induction k with
  | zero =>
    intro y hy hne
    rw [h0] at hy
    exact absurd (Option.some.inj hy).symm hne
  | succ k ih =>
    intro y hy hne
    have hk : k < ms.length := by
      have := (List.getElem?_eq_some_iff.1 hy).1
      have := h.1
      omega
    obtain ⟨h1, h2⟩ := h.2 k _ (List.getElem?_eq_getElem hk)
    have hnext : ms[k].next = y := Option.some.inj (h2.symm.trans hy)
    unfold Move.next at hnext
    by_cases hacc : ms[k].accepted = true
    · rw [if_pos hacc] at hnext
      exact ⟨_, List.getElem_mem hk, hacc, hnext⟩
    · rw [if_neg hacc] at hnext
      rw [hnext] at h1
      exact ih y h1 hne

/-- The reported value: with probability one, every call with sufficiently many iterations reports a value below `c`, when the
points with a value below `c` have positive volume. -/
theorem C96_mcmc_value [MeasurableSpace σ] {Q : Measure σ} (hQ : Ideal R Q) (hR : R.Ok) {a : MCMC.Args ℝ}
    {fn : Vec (Val ℝ) a.ndim → Val ℝ} (hfn : a.fn = some fn) {φ : Vec ℝ a.ndim → ℝ} (hφ : ∀ x, fn (point x) = .fin (φ x))
    (hm : Measurable φ) (hint : ∫⁻ x, ENNReal.ofReal (Real.exp (-φ x)) ≠ ∞) (hc : a.constraints ≠ some "Reject")
    (hs : ∀ c, scaleOf a.toArgs c ≠ 0) (hn : 0 < a.ndim) (hx0 : a.x0 = none) (hseed : a.seed = none)
    (hall : a.returnAll = true) {c : ℝ} (hv : 0 < volume {x | φ x < c}) :
    ∀ᵐ g ∂Q, ∃ N : Nat, ∀ (m fuel : Nat) (o : Sampling.Output σ ℝ a.ndim), N ≤ m →
      (MCMC.sample R fuel { a with maxiter := m } g).1 = .ok o → ∃ v, o.fval = .fin v ∧ v < c := by
  have hB : MeasurableSet {x | φ x < c} := hm measurableSet_Iio
  have hi : Measurable fun y : Vec ℝ a.ndim => y ⟨0, hn⟩ := measurable_pi_apply _
  have hup : ∀ᵐ g ∂Q, ∀ r : ℚ, 0 < volume ({x | φ x < c} ∩ {y | (r : ℝ) < y ⟨0, hn⟩}) →
      ∃ᶠ k in atTop, chain (mcmcNext φ (scaleOf a.toArgs) (blockSize_pos a.perc a.ndim))
        (boxPoint a.toArgs (drawVec R.rand a.ndim g).1)
        (numbers R (blockSize a.perc a.ndim) ((fun g => (R.rand g).2)^[a.ndim] g)) k ∈
          {x | φ x < c} ∩ {y | (r : ℝ) < y ⟨0, hn⟩} := by
    rw [ae_all_iff]
    intro r
    by_cases h : 0 < volume ({x | φ x < c} ∩ {y | (r : ℝ) < y ⟨0, hn⟩})
    · exact (mcmc_visits hQ hm hint hs hn (hB.inter (hi measurableSet_Ioi)) h).mono fun g hg _ => hg
    · exact ae_of_all _ fun g hg => absurd hg h
  have hdown : ∀ᵐ g ∂Q, ∀ r : ℚ, 0 < volume ({x | φ x < c} ∩ {y | y ⟨0, hn⟩ < (r : ℝ)}) →
      ∃ᶠ k in atTop, chain (mcmcNext φ (scaleOf a.toArgs) (blockSize_pos a.perc a.ndim))
        (boxPoint a.toArgs (drawVec R.rand a.ndim g).1)
        (numbers R (blockSize a.perc a.ndim) ((fun g => (R.rand g).2)^[a.ndim] g)) k ∈
          {x | φ x < c} ∩ {y | y ⟨0, hn⟩ < (r : ℝ)} := by
    rw [ae_all_iff]
    intro r
    by_cases h : 0 < volume ({x | φ x < c} ∩ {y | y ⟨0, hn⟩ < (r : ℝ)})
    · exact (mcmc_visits hQ hm hint hs hn (hB.inter (hi measurableSet_Iio)) h).mono fun g hg _ => hg
    · exact ae_of_all _ fun g hg => absurd hg h
  refine (hup.and hdown).mono ?_
  rintro g ⟨hg1, hg2⟩
  set q0 := boxPoint a.toArgs (drawVec R.rand a.ndim g).1 with hq0
  set ω := numbers R (blockSize a.perc a.ndim) ((fun g => (R.rand g).2)^[a.ndim] g) with hω
  -- a visit away from the first sample
  obtain ⟨k, hk1, hk2⟩ : ∃ k, φ (chain (mcmcNext φ (scaleOf a.toArgs) (blockSize_pos a.perc a.ndim)) q0 ω k) < c ∧
      chain (mcmcNext φ (scaleOf a.toArgs) (blockSize_pos a.perc a.ndim)) q0 ω k ≠ q0 := by
    obtain ⟨r, ⟨h1, h2⟩ | ⟨h1, h2⟩⟩ := part_without hn hv q0
    · obtain ⟨k, hk⟩ := (hg1 r h1).exists
      refine ⟨k, hk.1, fun he => ?_⟩
      have h3 : (r : ℝ) < _ := hk.2
      rw [he] at h3
      exact absurd h3 (not_lt.2 h2)
    · obtain ⟨k, hk⟩ := (hg2 r h1).exists
      refine ⟨k, hk.1, fun he => ?_⟩
      have h3 : _ < (r : ℝ) := hk.2
      rw [he] at h3
      exact absurd h3 (not_lt.2 h2)
  refine ⟨k + 1, fun m fuel o hNm h => ?_⟩
  obtain ⟨xs, ms, hrun, hx, hxmem, hbest, hval⟩ := C48_mcmc_partial hR (a := { a with maxiter := m }) hfn h
  have hxs := hx hall
  have hlen : (xs.length : Int) = m := hrun.length
  have h0 : xs[0]? = some (point q0) := by
    rw [List.getElem?_eq_getElem (show 0 < xs.length by omega)]
    have := hrun.first _ (List.getElem?_eq_getElem (show 0 < xs.length by omega))
    unfold FirstSample at this
    simp only [hx0, hseed] at this
    rw [this]
    rfl
  have hat := mcmc_chain hR (a := { a with maxiter := m }) hfn hφ hc hall h hxs h0 k (by show (k : Int) < m; omega)
  have hg' : genStart R { a.toArgs with maxiter := m } g = (fun g => (R.rand g).2)^[a.ndim] g := by
    unfold genStart
    simp only [hx0, hseed]
  have hat' : xs[k]? = some (point (chain (mcmcNext φ (scaleOf a.toArgs) (blockSize_pos a.perc a.ndim)) q0 ω k)) := by
    rw [hat]
    show some (point (chain _ _ (numbers R _ (genStart R { a.toArgs with maxiter := m } g)) k)) = _
    rw [hg']
    rfl
  obtain ⟨mv, hmv, hacc, hprop⟩ := accepted_of_ne hrun.links h0 k _ hat' (by
    intro he
    refine hk2 (funext fun j => ?_)
    exact Val.fin.inj (congrFun he j))
  have hb := hbest mv hmv hacc
  rw [hprop, hφ] at hb
  rcases hval with hp | ⟨hf, -⟩
  · rw [hp] at hb
    exact absurd trivial hb
  · obtain ⟨j, hj⟩ := List.getElem?_of_mem hxmem
    have hjm : j < xs.length := (List.getElem?_eq_some_iff.1 hj).1
    have hox := mcmc_chain hR (a := { a with maxiter := m }) hfn hφ hc hall h hxs h0 j (by show (j : Int) < m; omega)
    rw [hj] at hox
    rw [Option.some.inj hox, hφ] at hf
    rw [hf] at hb
    exact ⟨_, hf, lt_of_le_of_lt (not_lt.1 fun hlt => hb hlt) hk1⟩

end Runs

end Stochopy
