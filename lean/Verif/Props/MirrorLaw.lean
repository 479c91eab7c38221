import Verif.Lemmas.Ideal
import Verif.Props.MirrorSampler
import Mathlib.MeasureTheory.Group.Measure
import Mathlib.MeasureTheory.Measure.Lebesgue.Basic

/-! # No direction is preferred: the laws of the results (C98)

Put the two runs of `Props/Mirror.lean` and `Props/MirrorSampler.lean` together with the symmetry of the normal and of the uniform law. -/

set_option linter.unusedSectionVars false

namespace Stochopy.Props
open Stochopy Sampling MeasureTheory ProbabilityTheory Spec

/-- Opposite normal numbers, and `1 - u` for the uniform numbers among the first `k`. -/
noncomputable def turnStream (k : Nat) (g : Nat → ℝ × ℝ) : Nat → ℝ × ℝ := fun i => (if i < k then 1 - (g i).1 else (g i).1, -(g i).2)

theorem turnStream_turnStream (k : Nat) (g : Nat → ℝ × ℝ) : turnStream k (turnStream k g) = g := by
  funext i
  unfold turnStream
  dsimp only
  split_ifs <;> simp

theorem unifLaw_flip : unifLaw.map (fun u => 1 - u) = unifLaw := by
  have h := (Measure.measurePreserving_sub_left (volume : Measure ℝ) 1).restrict_preimage (measurableSet_Ico (a := (0 : ℝ)) (b := 1))
  rw [Set.preimage_const_sub_Ico, sub_self, sub_zero] at h
  rw [Measure.restrict_congr_set (Ico_ae_eq_Ioc (μ := (volume : Measure ℝ)) (a := 0) (b := 1)).symm] at h
  exact h.map_eq

theorem turnStream_law (k : Nat) : streamLaw.map (turnStream k) = streamLaw := by
  let F : Nat → ℝ × ℝ → ℝ × ℝ := fun i => Prod.map (if i < k then fun u => 1 - u else id) Neg.neg
  have hm : ∀ i, Measurable (if i < k then fun u : ℝ => 1 - u else id) := fun i => by
    split_ifs
    · exact measurable_const.sub measurable_id
    · exact measurable_id
  have hF : ∀ i, Measurable (F i) := fun i => (hm i).prodMap measurable_neg
  have e : turnStream k = fun g i => F i (g i) := by
    funext g i
    simp only [turnStream, F, Prod.map]
    split_ifs <;> rfl
  unfold streamLaw inputs
  rw [e, Measure.infinitePi_map_pi _ hF]
  congr 1
  funext i
  simp only [F]
  have h2 : (gaussianReal 0 1).map Neg.neg = gaussianReal 0 1 := by
    have := gaussianReal_map_neg (μ := 0) (v := 1)
    rw [neg_zero] at this
    exact this
  rw [← Measure.map_prod_map _ _ (hm i) measurable_neg, h2]
  split_ifs
  · rw [unifLaw_flip]
  · rw [Measure.map_id]

theorem measurable_turnStream (k : Nat) : Measurable (turnStream k) := by
  refine measurable_pi_lambda _ fun i => ?_
  unfold turnStream
  have h1 : Measurable fun g : Nat → ℝ × ℝ => (g i).1 := measurable_fst.comp (measurable_pi_apply i)
  have h2 : Measurable fun g : Nat → ℝ × ℝ => (g i).2 := measurable_snd.comp (measurable_pi_apply i)
  split_ifs
  · exact (measurable_const.sub h1).prodMk h2.neg
  · exact h1.prodMk h2.neg

/-- Two maps that agree almost surely after the numbers have been turned have the same law. -/
theorem law_turn {α : Type} {F G : (Nat → ℝ × ℝ) → α} (k : Nat) (h : ∀ᵐ g ∂streamLaw, F (turnStream k g) = G g) (C : α → Prop) :
    streamLaw {g | C (F g)} = streamLaw {g | C (G g)} := by
  let e : (Nat → ℝ × ℝ) ≃ᵐ (Nat → ℝ × ℝ) := MeasurableEquiv.ofInvolutive (turnStream k) (turnStream_turnStream k) (measurable_turnStream k)
  have hp : MeasurePreserving e streamLaw streamLaw := ⟨e.measurable, turnStream_law k⟩
  rw [← hp.measure_preimage_equiv]
  refine measure_congr ?_
  filter_upwards [h] with g hg
  show C (F (turnStream k g)) = C (G g)
  rw [hg]

/-- Almost surely the uniform numbers are strictly between 0 and 1. -/
theorem stream_open (k : Nat) : ∀ᵐ g ∂streamLaw, ∀ i < k, 0 < (g i).1 ∧ (g i).1 < 1 := by
  rw [ae_all_iff]
  intro i
  have h1 : ∀ᵐ u ∂unifLaw, 0 < u ∧ u < 1 := by
    have : ∀ᵐ u ∂(volume : Measure ℝ), u ≠ 0 := by
      rw [ae_iff]; simp
    have h2 := ae_restrict_of_ae (s := Set.Ico (0 : ℝ) 1) this
    unfold unifLaw
    filter_upwards [h2, ae_restrict_mem (measurableSet_Ico (a := (0 : ℝ)) (b := 1))] with u a b
    exact ⟨lt_of_le_of_ne b.1 (Ne.symm a), b.2⟩
  have h3 : ∀ᵐ z ∂(unifLaw.prod (gaussianReal 0 1)), 0 < z.1 ∧ z.1 < 1 := Measure.quasiMeasurePreserving_fst.ae h1
  have h4 : ∀ᵐ g ∂streamLaw, 0 < (g i).1 ∧ (g i).1 < 1 :=
    (measurePreserving_eval_infinitePi (fun _ => unifLaw.prod (gaussianReal 0 1)) i).quasiMeasurePreserving.ae h3
  filter_upwards [h4] with g hg _
  exact hg

theorem turnStream_mirrors : streamRng.Mirrors (turnStream 0) id where
  randn g := rfl
  rand g := rfl

theorem stream_drawVec (n : Nat) (g : Nat → ℝ × ℝ) : drawVec streamRng.rand n g = (fun j : Fin n => clip (g j).1, fun i => g (n + i)) := by
  have h : ∀ m, (fun g => (streamRng.rand g).2)^[m] g = fun i => g (m + i) := by
    intro m
    induction m with
    | zero => funext i; rw [Nat.zero_add]; rfl
    | succ m ih =>
      rw [Function.iterate_succ_apply', ih]
      funext i
      show g (m + (i + 1)) = _
      congr 1
      omega
  refine Prod.ext ?_ (h n)
  funext j
  show (streamRng.rand ((fun g => (streamRng.rand g).2)^[(j : Nat)] g)).1 = _
  rw [h]
  rfl

theorem clip_flip {u : ℝ} (h : 0 < u ∧ u < 1) : clip (1 - u) = 1 - clip u := by
  unfold clip
  rw [if_pos ⟨by linarith, by linarith⟩, if_pos ⟨h.1.le, h.2⟩]

theorem stream_drawVec_turn {n : Nat} {g : Nat → ℝ × ℝ} (h : ∀ i < n, 0 < (g i).1 ∧ (g i).1 < 1) :
    drawVec streamRng.rand n (turnStream n g) =
      (fun j => 1 - (drawVec streamRng.rand n g).1 j, turnStream 0 (drawVec streamRng.rand n g).2) := by
  rw [stream_drawVec, stream_drawVec]
  refine Prod.ext ?_ ?_
  · funext j
    show clip (if (j : Nat) < n then 1 - (g j).1 else (g j).1) = _
    rw [if_pos j.2, clip_flip (h j j.2)]
  · funext i
    unfold turnStream
    dsimp only
    rw [if_neg (by omega), if_neg (by omega)]

/-- The mirror image of the first mean. -/
theorem firstMean_turn {a : Evo.Args ℝ} (t : Nat → ℝ) : ∃ k, ∀ᵐ g ∂streamLaw,
    (a.mirror t).firstMean streamRng (turnStream k g) = (a.firstMean streamRng g).map fun m => (fun j => -m.1 j, turnStream 0 m.2) := by
  by_cases hx : a.x0 = none
  · refine ⟨a.ndim, ?_⟩
    filter_upwards [stream_open a.ndim] with g hg
    obtain ⟨⟨b, fn, x0, _, _, _, _, _, _, _, _, _, _⟩, _, _, _⟩ := a
    cases hx
    have h := stream_drawVec_turn (n := b.len) hg
    show Except.ok (fun j : Fin b.len => unif (-1) 1 ((drawVec streamRng.rand b.len (turnStream b.len g)).1 j),
        (drawVec streamRng.rand b.len (turnStream b.len g)).2) =
      Except.ok (fun j : Fin b.len => -unif (-1) 1 ((drawVec streamRng.rand b.len g).1 j), turnStream 0 (drawVec streamRng.rand b.len g).2)
    rw [h]
    congr 2
    funext j
    dsimp only
    unfold unif
    ring
  · exact ⟨0, Filter.Eventually.of_forall fun g => Evo.firstMean_mirror turnStream_mirrors (fun h => absurd h hx) t g⟩

/-- C98 for `cmaes` with ideal random numbers: any event has the same probability for the run of the reflected problem as for the
mirror image of the run.  Missing: 'Penalize'. -/
theorem C98_cmaes_law_partial {env : Env} (he : env.Ok) {srt : Argsort ℝ} {eigh : CMAES.Eigh ℝ} {fuel : Nat} {a : Evo.Args ℝ}
    (hc : a.constraints = none) (hs : a.seed = none) (hf : 0 < fuel) (t : Nat → ℝ) (junk junk' : Vec ℝ a.ndim)
    (C : Except PyErr (Output (Nat → ℝ × ℝ) ℝ a.p a.ndim) → Prop) :
    streamLaw {g | C (CMAES.minimize env streamRng srt eigh fuel (a.mirror t) junk' g)} =
      streamLaw {g | C ((CMAES.minimize env streamRng srt eigh fuel a junk g).map fun o => o.mirror t (turnStream 0))} := by
  obtain ⟨k, hk⟩ := firstMean_turn (a := a) t
  refine law_turn (F := CMAES.minimize env streamRng srt eigh fuel (a.mirror t) junk') (G := fun g =>
    (CMAES.minimize env streamRng srt eigh fuel a junk g).map fun o => o.mirror t (turnStream 0)) k ?_ C
  filter_upwards [hk] with g hg
  exact cmaes_mirror he turnStream_mirrors hc hs hf t junk junk' hg

/-- Likewise for `vdcma`. -/
theorem C98_vdcma_law_partial {env : Env} (he : env.Ok) {srt : Argsort ℝ} {fuel : Nat} {a : Evo.Args ℝ}
    (hc : a.constraints = none) (hs : a.seed = none) (hf : 0 < fuel) (t : Nat → ℝ) (junk junk' : Vec ℝ a.ndim)
    (C : Except PyErr (Output (Nat → ℝ × ℝ) ℝ a.p a.ndim) → Prop) :
    streamLaw {g | C (VDCMA.minimize env streamRng srt fuel (a.mirror t) junk' g)} =
      streamLaw {g | C ((VDCMA.minimize env streamRng srt fuel a junk g).map fun o => o.mirror t (turnStream 0))} := by
  obtain ⟨k, hk⟩ := firstMean_turn (a := a) t
  refine law_turn (F := VDCMA.minimize env streamRng srt fuel (a.mirror t) junk') (G := fun g =>
    (VDCMA.minimize env streamRng srt fuel a junk g).map fun o => o.mirror t (turnStream 0)) k ?_ C
  filter_upwards [hk] with g hg
  exact vdcma_mirror he turnStream_mirrors hc hs hf t junk junk' hg

theorem first_turn (a : Sampling.Args ℝ) (t : Nat → ℝ) : ∃ k, ∀ᵐ g ∂streamLaw,
    ExRel (fun y y' => y'.1 = vmirror t y.1 ∧ y'.2 = turnStream 0 y.2) (a.first streamRng g)
      ((a.mirror t).first streamRng (turnStream k g) : Except PyErr (Vec (Val ℝ) a.ndim × (Nat → ℝ × ℝ))) := by
  by_cases hx : a.x0 = none
  · refine ⟨a.ndim, ?_⟩
    filter_upwards [stream_open a.ndim] with g hg
    obtain ⟨b, fn, x0, _, _, _, _, _, _⟩ := a
    cases hx
    have h := stream_drawVec_turn (n := b.len) hg
    show (fun j : Fin b.len => Val.fin (unif (t j - b.get [j, 1]) (t j - b.get [j, 0]) ((drawVec streamRng.rand b.len (turnStream b.len g)).1 j))) = _ ∧
      (drawVec streamRng.rand b.len (turnStream b.len g)).2 = _
    rw [h]
    refine ⟨?_, rfl⟩
    funext j
    refine Eq.trans ?_ (Val.fin_sub _ _).symm
    congr 1
    dsimp only
    unfold unif
    show _ = t j - (b.get [j, 0] + (b.get [j, 1] - b.get [j, 0]) * _)
    ring
  · exact ⟨0, Filter.Eventually.of_forall fun g => first_mirror a t streamRng (turnStream 0) g hx⟩

/-- C98 for `mcmc` with ideal random numbers: any event has the same probability for the chain of the reflected problem as for the
mirror image of the chain. -/
theorem C98_mcmc_law {fuel : Nat} {a : MCMC.Args ℝ} (hs : a.seed = none) (t : Nat → ℝ)
    (C : Except PyErr (Sampling.Output (Nat → ℝ × ℝ) ℝ a.ndim) → Prop) :
    streamLaw {g | C (MCMC.sample streamRng fuel (a.mirror t) g).1} =
      streamLaw {g | C ((MCMC.sample streamRng fuel a g).1.map (Sampling.Output.map (vmirror t) (turnStream 0)))} := by
  obtain ⟨k, hk⟩ := first_turn a.toArgs t
  refine law_turn (F := fun g => (MCMC.sample streamRng fuel (a.mirror t) g).1) (G := fun g =>
    (MCMC.sample streamRng fuel a g).1.map (Sampling.Output.map (vmirror t) (turnStream 0))) k ?_ C
  filter_upwards [hk] with g hg
  exact mcmc_mirror turnStream_mirrors t hs hg

/-- The output with the evaluated points as a multiset. -/
def unordered {σ K : Type} {n : Nat} (o : Sampling.Output σ K n) : Sampling.Output σ K n × Multiset (Vec (Val K) n) :=
  ({ o with evals := [] }, (o.evals : Multiset (Vec (Val K) n)))

/-- Likewise for `hmc`, where the evaluated points are compared without regard to their order. -/
theorem C98_hmc_law {a : HMC.Args ℝ} (hs : a.seed = none) (t : Nat → ℝ)
    (C : Except PyErr (Sampling.Output (Nat → ℝ × ℝ) ℝ a.ndim × Multiset (Vec (Val ℝ) a.ndim)) → Prop) :
    streamLaw {g | C ((HMC.sample streamRng (a.mirror t) g).1.map (unordered (n := a.ndim)))} =
      streamLaw {g | C (((HMC.sample streamRng a g).1.map (Sampling.Output.map (vmirror t) (turnStream 0))).map
        unordered)} := by
  obtain ⟨k, hk⟩ := first_turn a.toArgs t
  refine law_turn (F := fun g => (HMC.sample streamRng (a.mirror t) g).1.map (unordered (n := a.ndim)))
    (G := fun g => ((HMC.sample streamRng a g).1.map (Sampling.Output.map (vmirror t) (turnStream 0))).map
        unordered) k ?_ C
  filter_upwards [hk] with g hg
  have h := hmc_mirror turnStream_mirrors t hs hg
  cases h1 : (HMC.sample streamRng a g).1 with
  | error e => rw [h.2 e h1]; rfl
  | ok o =>
    obtain ⟨o', e1, e2, e3⟩ := h.1 o h1
    rw [e1]
    show Except.ok _ = Except.ok _
    congr 1
    refine Prod.ext ?_ (Multiset.coe_eq_coe.2 e3)
    rw [e2]
    rfl

end Stochopy.Props
