import Verif.Lemmas.CausalSampler
import Verif.Props.Noise
import Verif.Props.Chains

/-!
# C105: a request depends only on the answers before it

The objective is a black box that is asked one request after the other.  Two runs with the same arguments and the same generator
state whose objectives answer the first `N` requests alike make the same first `N + 1` requests; if they answer all requests of one
run alike, the other run returns the same `Output`: result, callbacks, requests, the caller's `x0` and the generator state.
For the samplers the objectives are functions.
-/

set_option linter.unusedSectionVars false

namespace Stochopy
open Spec Concrete
variable {K σ : Type} [AddZeroClass K] [One K] [Sub K] [Mul K] [Div K] [Neg K] [NatCast K] [IntCast K] [Pow K ℕ] [ArrayOps K] [LinearOrder K] [IntParts K]
variable {env : Env} {R : Rng σ K} {srt : Argsort K} {eigh : CMAES.Eigh K} {fuel : Nat} {g : σ} {N : Nat}

section
variable {X S V ε : Type} {ans ans' : Nat → X → V} {ev : S → List X} {c c' : Except ε S} {o o' : S}

theorem Causal.same (h : Causal N (SameAnswers ans ans' N) ev c c') (hc : c = .ok o) (hc' : c' = .ok o')
    (ha : SameAnswers ans ans' N (ev o)) : SameRequests N (ev o) (ev o') :=
  (h o hc ha).2 o' hc'

theorem Causal.all (h : ∀ N, Causal N (SameAnswers ans ans' N) ev c c') (hc : c = .ok o)
    (ha : ∀ k x, (ev o)[k]? = some x → ans k x = ans' k x) : c' = .ok o :=
  (h (ev o).length o hc fun k x _ hx => ha k x hx).1 le_rfl

end

/-! ## The requests -/

theorem C105_de {a : DE.Args K} {ans ans' : Nat → Vec K a.ndim → Val K} {o o' : Output σ K a.p a.ndim}
    (h : DE.minimizeAns env R fuel a ans g = .ok o) (h' : DE.minimizeAns env R fuel a ans' g = .ok o')
    (ha : SameAnswers ans ans' N o.evals) : SameRequests N o.evals o'.evals :=
  (DE.minimizeAns_causal env R fuel a g).same h h' ha

theorem C105_cpso [NumFns K] {a : CPSO.Args K} {ans ans' : Nat → Vec K a.ndim → Val K} {o o' : Output σ K a.p a.ndim}
    (h : CPSO.minimizeAns env R srt fuel a ans g = .ok o) (h' : CPSO.minimizeAns env R srt fuel a ans' g = .ok o')
    (ha : SameAnswers ans ans' N o.evals) : SameRequests N o.evals o'.evals :=
  (CPSO.minimizeAns_causal env R srt fuel a g).same h h' ha

theorem C105_pso [NumFns K] {a : PSO.Args K} {ans ans' : Nat → Vec K a.ndim → Val K} {o o' : Output σ K a.p a.ndim}
    (h : PSO.minimizeAns env R srt fuel a ans g = .ok o) (h' : PSO.minimizeAns env R srt fuel a ans' g = .ok o')
    (ha : SameAnswers ans ans' N o.evals) : SameRequests N o.evals o'.evals :=
  C105_cpso (a := a.toCPSO) h h' ha

theorem C105_na {a : NA.Args K} {ans ans' : Nat → Vec K a.ndim → Val K} {o o' : Output σ K a.p a.ndim}
    (h : NA.minimizeAns env R srt fuel a ans g = .ok o) (h' : NA.minimizeAns env R srt fuel a ans' g = .ok o')
    (ha : SameAnswers ans ans' N o.evals) : SameRequests N o.evals o'.evals :=
  (NA.minimizeAns_causal env R srt fuel a g).same h h' ha

theorem C105_cmaes [NumFns K] {a : Evo.Args K} {ans ans' : Nat → Vec K a.ndim → Val K} {junk : Vec K a.ndim} {o o' : Output σ K a.p a.ndim}
    (h : CMAES.minimizeAns env R srt eigh fuel a ans junk g = .ok o) (h' : CMAES.minimizeAns env R srt eigh fuel a ans' junk g = .ok o')
    (ha : SameAnswers ans ans' N o.evals) : SameRequests N o.evals o'.evals :=
  (CMAES.minimizeAns_causal env R srt eigh fuel a junk g).same h h' ha

theorem C105_vdcma [NumFns K] {a : Evo.Args K} {ans ans' : Nat → Vec K a.ndim → Val K} {junk : Vec K a.ndim} {o o' : Output σ K a.p a.ndim}
    (h : VDCMA.minimizeAns env R srt fuel a ans junk g = .ok o) (h' : VDCMA.minimizeAns env R srt fuel a ans' junk g = .ok o')
    (ha : SameAnswers ans ans' N o.evals) : SameRequests N o.evals o'.evals :=
  (VDCMA.minimizeAns_causal env R srt fuel a junk g).same h h' ha

/-! ## All answers alike -/

theorem C105_whole_de {a : DE.Args K} {ans ans' : Nat → Vec K a.ndim → Val K} {o : Output σ K a.p a.ndim}
    (h : DE.minimizeAns env R fuel a ans g = .ok o) (ha : ∀ k x, o.evals[k]? = some x → ans k x = ans' k x) :
    DE.minimizeAns env R fuel a ans' g = .ok o :=
  Causal.all (fun _ => DE.minimizeAns_causal env R fuel a g) h ha

theorem C105_whole_cpso [NumFns K] {a : CPSO.Args K} {ans ans' : Nat → Vec K a.ndim → Val K} {o : Output σ K a.p a.ndim}
    (h : CPSO.minimizeAns env R srt fuel a ans g = .ok o) (ha : ∀ k x, o.evals[k]? = some x → ans k x = ans' k x) :
    CPSO.minimizeAns env R srt fuel a ans' g = .ok o :=
  Causal.all (fun _ => CPSO.minimizeAns_causal env R srt fuel a g) h ha

theorem C105_whole_pso [NumFns K] {a : PSO.Args K} {ans ans' : Nat → Vec K a.ndim → Val K} {o : Output σ K a.p a.ndim}
    (h : PSO.minimizeAns env R srt fuel a ans g = .ok o) (ha : ∀ k x, o.evals[k]? = some x → ans k x = ans' k x) :
    PSO.minimizeAns env R srt fuel a ans' g = .ok o :=
  C105_whole_cpso (a := a.toCPSO) h ha

theorem C105_whole_na {a : NA.Args K} {ans ans' : Nat → Vec K a.ndim → Val K} {o : Output σ K a.p a.ndim}
    (h : NA.minimizeAns env R srt fuel a ans g = .ok o) (ha : ∀ k x, o.evals[k]? = some x → ans k x = ans' k x) :
    NA.minimizeAns env R srt fuel a ans' g = .ok o :=
  Causal.all (fun _ => NA.minimizeAns_causal env R srt fuel a g) h ha

theorem C105_whole_cmaes [NumFns K] {a : Evo.Args K} {ans ans' : Nat → Vec K a.ndim → Val K} {junk : Vec K a.ndim} {o : Output σ K a.p a.ndim}
    (h : CMAES.minimizeAns env R srt eigh fuel a ans junk g = .ok o) (ha : ∀ k x, o.evals[k]? = some x → ans k x = ans' k x) :
    CMAES.minimizeAns env R srt eigh fuel a ans' junk g = .ok o :=
  Causal.all (fun _ => CMAES.minimizeAns_causal env R srt eigh fuel a junk g) h ha

theorem C105_whole_vdcma [NumFns K] {a : Evo.Args K} {ans ans' : Nat → Vec K a.ndim → Val K} {junk : Vec K a.ndim} {o : Output σ K a.p a.ndim}
    (h : VDCMA.minimizeAns env R srt fuel a ans junk g = .ok o) (ha : ∀ k x, o.evals[k]? = some x → ans k x = ans' k x) :
    VDCMA.minimizeAns env R srt fuel a ans' junk g = .ok o :=
  Causal.all (fun _ => VDCMA.minimizeAns_causal env R srt fuel a junk g) h ha

/-! ## Functions: only the values at the points asked for matter -/

theorem optimizer_callable {T : Type} {n : Nat} {fn fn' : Vec K n → Val K} {sync : Bool} {workers : Int} {backend : Option String}
    {F F' : Obj K n → Except PyErr T} (h : ∀ obj obj', F obj = F' obj') :
    optimizer env fn sync workers backend F = optimizer env fn' sync workers backend F' := by
  have hw : ∀ (b : String) (par : Bool), (wrapper env fn sync b par >>= F) = (wrapper env fn' sync b par >>= F') := by
    intro b par
    unfold wrapper
    split_ifs
    all_goals first | rfl | exact h _ _
  unfold optimizer
  dsimp only
  split_ifs
  · exact hw _ _
  · exact hw _ _

/-- The objective stored in the parameters is not used when the answers are given. -/
theorem Evo.runAns_obj [NumFns K] {S : Type} {p n : Nat} {P P' : Evo.Par K n} {ans : Nat → Vec K n → Val K}
    (h : ({ P with obj := P'.obj } : Evo.Par K n) = P') (G : Evo.Gauss S K p n) (c : Cfg) (rng : S → σ) (fuel : Nat) (s0 : S) :
    Evo.runAns ans P' G c rng fuel s0 = Evo.runAns ans P G c rng fuel s0 := by
  have hb : Evo.bodyAns ans P' G c = Evo.bodyAns ans P G c := by rw [← h]; rfl
  have hl : ∀ fuel L, Evo.loopAns ans P' G c fuel L = Evo.loopAns ans P G c fuel L := by
    intro fuel
    induction fuel with
    | zero => intro L; rfl
    | succ k ih =>
      intro L
      unfold Evo.loopAns
      rw [hb]
      refine congrArg _ (funext fun r => ?_)
      rw [ih]
  unfold Evo.runAns
  rw [hl]

theorem answers_mem {X V : Type} {f f' : X → V} {l : List X} (h : ∀ x ∈ l, f x = f' x) (k : Nat) (x : X) (hx : l[k]? = some x) :
    (fun _ : Nat => f) k x = (fun _ : Nat => f') k x :=
  h x (List.mem_iff_getElem?.2 ⟨k, hx⟩)

theorem C105_function_de (he : env.Ok) {a : DE.Args K} {f f' : Vec K a.ndim → Val K} {o : Output σ K a.p a.ndim}
    (h : DE.minimize env R fuel { a with fn := some f } g = .ok o) (ha : ∀ x ∈ o.evals, f x = f' x) :
    DE.minimize env R fuel { a with fn := some f' } g = .ok o := by
  rw [← C93_same_de he (a := { a with fn := some f' }) rfl]
  rw [← C93_same_de he (a := { a with fn := some f }) rfl] at h
  have := C105_whole_de h (answers_mem ha)
  rw [← this]
  have hv : DE.validate { a with fn := some f' } = DE.validate { a with fn := some f } := by
    unfold DE.validate; dsimp only [CommonArgs.badX0Shape, CommonArgs.badX0Len, CommonArgs.badCallback, CommonArgs.p, CommonArgs.ndim, Option.isNone]
    cases DE.strategyMap (K := K) (p := a.popsize.toNat) (n := a.bounds.len) a.strategy <;> rfl
  unfold DE.minimizeAns
  refine congrArg₂ _ hv (funext fun strat => ?_)
  exact optimizer_callable fun obj obj' => rfl

theorem C105_function_cpso [NumFns K] (he : env.Ok) {a : CPSO.Args K} {f f' : Vec K a.ndim → Val K} {o : Output σ K a.p a.ndim}
    (h : CPSO.minimize env R srt fuel { a with fn := some f } g = .ok o) (ha : ∀ x ∈ o.evals, f x = f' x) :
    CPSO.minimize env R srt fuel { a with fn := some f' } g = .ok o := by
  rw [← C93_same_cpso he (a := { a with fn := some f' }) rfl]
  rw [← C93_same_cpso he (a := { a with fn := some f }) rfl] at h
  have := C105_whole_cpso h (answers_mem ha)
  rw [← this]
  unfold CPSO.minimizeAns
  refine congrArg₂ _ rfl (funext fun _ => ?_)
  exact optimizer_callable fun obj obj' => rfl

theorem C105_function_pso [NumFns K] (he : env.Ok) {a : PSO.Args K} {f f' : Vec K a.ndim → Val K} {o : Output σ K a.p a.ndim}
    (h : PSO.minimize env R srt fuel { a with fn := some f } g = .ok o) (ha : ∀ x ∈ o.evals, f x = f' x) :
    PSO.minimize env R srt fuel { a with fn := some f' } g = .ok o :=
  C105_function_cpso he (a := a.toCPSO) h ha

theorem C105_function_na (he : env.Ok) {a : NA.Args K} {f f' : Vec K a.ndim → Val K} {o : Output σ K a.p a.ndim}
    (h : NA.minimize env R srt fuel { a with fn := some f } g = .ok o) (ha : ∀ x ∈ o.evals, f x = f' x) :
    NA.minimize env R srt fuel { a with fn := some f' } g = .ok o := by
  rw [← C93_same_na he (a := { a with fn := some f' }) rfl]
  rw [← C93_same_na he (a := { a with fn := some f }) rfl] at h
  have := C105_whole_na h (answers_mem ha)
  rw [← this]
  unfold NA.minimizeAns
  refine congrArg₂ _ rfl (funext fun _ => ?_)
  exact optimizer_callable fun obj obj' => rfl

theorem C105_function_cmaes [NumFns K] (he : env.Ok) {a : Evo.Args K} {f f' : Vec K a.ndim → Val K} {junk : Vec K a.ndim} {o : Output σ K a.p a.ndim}
    (h : CMAES.minimize env R srt eigh fuel { a with fn := some f } junk g = .ok o) (ha : ∀ x ∈ o.evals, f x = f' x) :
    CMAES.minimize env R srt eigh fuel { a with fn := some f' } junk g = .ok o := by
  rw [← C93_same_cmaes he (a := { a with fn := some f' }) rfl]
  rw [← C93_same_cmaes he (a := { a with fn := some f }) rfl] at h
  have := C105_whole_cmaes h (answers_mem ha)
  rw [← this]
  unfold CMAES.minimizeAns
  refine congrArg₂ _ rfl (funext fun _ => ?_)
  refine optimizer_callable fun obj obj' => congrArg _ (funext fun _ => congrArg _ (funext fun pen => congrArg _ (funext fun m => ?_)))
  exact dite_congr rfl (fun hd => Evo.runAns_obj rfl _ _ _ _ _) (fun _ => rfl)

theorem C105_function_vdcma [NumFns K] (he : env.Ok) {a : Evo.Args K} {f f' : Vec K a.ndim → Val K} {junk : Vec K a.ndim} {o : Output σ K a.p a.ndim}
    (h : VDCMA.minimize env R srt fuel { a with fn := some f } junk g = .ok o) (ha : ∀ x ∈ o.evals, f x = f' x) :
    VDCMA.minimize env R srt fuel { a with fn := some f' } junk g = .ok o := by
  rw [← C93_same_vdcma he (a := { a with fn := some f' }) rfl]
  rw [← C93_same_vdcma he (a := { a with fn := some f }) rfl] at h
  have := C105_whole_vdcma h (answers_mem ha)
  rw [← this]
  unfold VDCMA.minimizeAns
  refine congrArg₂ _ rfl (funext fun _ => ?_)
  refine optimizer_callable fun obj obj' => congrArg _ (funext fun _ => congrArg _ (funext fun pen => congrArg _ (funext fun m => ?_)))
  exact dite_congr rfl (fun hd => Evo.runAns_obj rfl _ _ _ _ _) (fun _ => rfl)

/-! ## The samplers -/

section
variable [NumFns K]

theorem MCMC.sample_causal {a : MCMC.Args K} {f f' : Vec (Val K) a.ndim → Val K} :
    Causal N (SameAnswers (fun _ : Nat => f) (fun _ : Nat => f') N) Sampling.Output.evals
      (MCMC.sample R fuel { a with fn := some f } g).1 (MCMC.sample R fuel { a with fn := some f' } g).1 := by
  unfold MCMC.sample
  have h1 : ({ a with fn := some f } : MCMC.Args K).checkStart = ({ a with fn := some f' } : MCMC.Args K).checkStart := rfl
  dsimp only
  rw [h1]
  cases ({ a with fn := some f' } : MCMC.Args K).checkStart with
  | error e => exact Causal.refl _ _ _ _
  | ok u =>
    cases hs : a.stepsize.scale a.lower a.upper with
    | error e =>
      rw [show a.stepsize.scale ({ a with fn := some f } : MCMC.Args K).lower ({ a with fn := some f } : MCMC.Args K).upper = _ from hs,
        show a.stepsize.scale ({ a with fn := some f' } : MCMC.Args K).lower ({ a with fn := some f' } : MCMC.Args K).upper = _ from hs]
      exact Causal.refl _ _ _ _
    | ok step =>
      rw [show a.stepsize.scale ({ a with fn := some f } : MCMC.Args K).lower ({ a with fn := some f } : MCMC.Args K).upper = _ from hs,
        show a.stepsize.scale ({ a with fn := some f' } : MCMC.Args K).lower ({ a with fn := some f' } : MCMC.Args K).upper = _ from hs]
      exact MCMC.rest_causal R fuel { a with fn := some f } step g

theorem C105_mcmc {a : MCMC.Args K} {f f' : Vec (Val K) a.ndim → Val K} {o o' : Sampling.Output σ K a.ndim}
    (h : (MCMC.sample R fuel { a with fn := some f } g).1 = .ok o) (h' : (MCMC.sample R fuel { a with fn := some f' } g).1 = .ok o')
    (ha : SameAnswers (fun _ => f) (fun _ => f') N o.evals) : SameRequests N o.evals o'.evals :=
  MCMC.sample_causal.same h h' ha

theorem C105_function_mcmc {a : MCMC.Args K} {f f' : Vec (Val K) a.ndim → Val K} {o : Sampling.Output σ K a.ndim}
    (h : (MCMC.sample R fuel { a with fn := some f } g).1 = .ok o) (ha : ∀ x ∈ o.evals, f x = f' x) :
    (MCMC.sample R fuel { a with fn := some f' } g).1 = .ok o :=
  Causal.all (fun _ => MCMC.sample_causal (a := a) (f := f) (f' := f')) h (answers_mem ha)

theorem HMC.sample_causal {a : HMC.Args K} {f f' : Vec (Val K) a.ndim → Val K} :
    Causal N (SameAnswers (fun _ : Nat => f) (fun _ : Nat => f') N) Sampling.Output.evals
      (HMC.sample R { a with fn := some f } g).1 (HMC.sample R { a with fn := some f' } g).1 := by
  unfold HMC.sample
  have h1 : ({ a with fn := some f } : HMC.Args K).checkStart = ({ a with fn := some f' } : HMC.Args K).checkStart := rfl
  dsimp only
  rw [h1]
  cases ({ a with fn := some f' } : HMC.Args K).checkStart with
  | error e => exact Causal.refl _ _ _ _
  | ok u =>
    cases decide (a.nleap < 1) with
    | true => exact Causal.refl _ _ _ _
    | false =>
      cases hs : a.stepsize.scale a.lower a.upper with
      | error e =>
        rw [show a.stepsize.scale ({ a with fn := some f } : HMC.Args K).lower ({ a with fn := some f } : HMC.Args K).upper = _ from hs,
          show a.stepsize.scale ({ a with fn := some f' } : HMC.Args K).lower ({ a with fn := some f' } : HMC.Args K).upper = _ from hs]
        exact Causal.refl _ _ _ _
      | ok step =>
        rw [show a.stepsize.scale ({ a with fn := some f } : HMC.Args K).lower ({ a with fn := some f } : HMC.Args K).upper = _ from hs,
          show a.stepsize.scale ({ a with fn := some f' } : HMC.Args K).lower ({ a with fn := some f' } : HMC.Args K).upper = _ from hs]
        exact HMC.rest_causal R { a with fn := some f } step g

theorem C105_hmc {a : HMC.Args K} {f f' : Vec (Val K) a.ndim → Val K} {o o' : Sampling.Output σ K a.ndim}
    (h : (HMC.sample R { a with fn := some f } g).1 = .ok o) (h' : (HMC.sample R { a with fn := some f' } g).1 = .ok o')
    (ha : SameAnswers (fun _ => f) (fun _ => f') N o.evals) : SameRequests N o.evals o'.evals :=
  HMC.sample_causal.same h h' ha

theorem C105_function_hmc {a : HMC.Args K} {f f' : Vec (Val K) a.ndim → Val K} {o : Sampling.Output σ K a.ndim}
    (h : (HMC.sample R { a with fn := some f } g).1 = .ok o) (ha : ∀ x ∈ o.evals, f x = f' x) :
    (HMC.sample R { a with fn := some f' } g).1 = .ok o :=
  Causal.all (fun _ => HMC.sample_causal (a := a) (f := f) (f' := f')) h (answers_mem ha)

end

/-! ## Concrete runs

The objective stops answering sensibly at its tenth request. -/

/-- `drift` for the first nine requests, then 5. -/
def Concrete.broken (k : Nat) (x : Vec ℚ 2) : Val ℚ := if k < 9 then drift k x else .fin 5

theorem broken_same (l : List (Vec ℚ 2)) : SameAnswers drift broken 9 l := fun k x hk _ => (if_pos hk).symm

/-- The two runs return; the first ten requests are the same (by C105), and not all are. -/
theorem C105_runs :
    (∃ o o', DE.minimizeAns Concrete.env rng 10 deArgs drift 0 = .ok o ∧ DE.minimizeAns Concrete.env rng 10 deArgs broken 0 = .ok o' ∧
      o.evals.take 10 = o'.evals.take 10 ∧ ¬ o.evals = o'.evals) ∧
    (∃ o o', CPSO.minimizeAns Concrete.env rng stableArgsort 10 cpsoArgs drift 0 = .ok o ∧
      CPSO.minimizeAns Concrete.env rng stableArgsort 10 cpsoArgs broken 0 = .ok o' ∧
      o.evals.take 10 = o'.evals.take 10 ∧ ¬ o.evals = o'.evals) ∧
    (∃ o o', VDCMA.minimizeAns Concrete.env rng stableArgsort 10 evoArgs drift junk0 0 = .ok o ∧
      VDCMA.minimizeAns Concrete.env rng stableArgsort 10 evoArgs broken junk0 0 = .ok o' ∧
      o.evals.take 10 = o'.evals.take 10 ∧ ¬ o.evals = o'.evals) := by
  refine ⟨?_, ?_, ?_⟩
  · obtain ⟨o, h, t⟩ := returns_iff (r := DE.minimizeAns Concrete.env rng 10 deArgs drift 0) (t := fun o => match DE.minimizeAns Concrete.env rng 10 deArgs broken 0 with
      | .ok o' => decide (¬ o.evals = o'.evals) | .error _ => false) (by decide +kernel)
    cases h' : DE.minimizeAns Concrete.env rng 10 deArgs broken 0 with
    | error e => rw [h'] at t; cases t
    | ok o' => rw [h'] at t; exact ⟨o, o', h, rfl, C105_de h h' (broken_same _), of_decide_eq_true t⟩
  · obtain ⟨o, h, t⟩ := returns_iff (r := CPSO.minimizeAns Concrete.env rng stableArgsort 10 cpsoArgs drift 0) (t := fun o => match CPSO.minimizeAns Concrete.env rng stableArgsort 10 cpsoArgs broken 0 with
      | .ok o' => decide (¬ o.evals = o'.evals) | .error _ => false) (by decide +kernel)
    cases h' : CPSO.minimizeAns Concrete.env rng stableArgsort 10 cpsoArgs broken 0 with
    | error e => rw [h'] at t; cases t
    | ok o' => rw [h'] at t; exact ⟨o, o', h, rfl, C105_cpso h h' (broken_same _), of_decide_eq_true t⟩
  · obtain ⟨o, h, t⟩ := returns_iff (r := VDCMA.minimizeAns Concrete.env rng stableArgsort 10 evoArgs drift junk0 0) (t := fun o => match VDCMA.minimizeAns Concrete.env rng stableArgsort 10 evoArgs broken junk0 0 with
      | .ok o' => decide (¬ o.evals = o'.evals) | .error _ => false) (by decide +kernel)
    cases h' : VDCMA.minimizeAns Concrete.env rng stableArgsort 10 evoArgs broken junk0 0 with
    | error e => rw [h'] at t; cases t
    | ok o' => rw [h'] at t; exact ⟨o, o', h, rfl, C105_vdcma h h' (broken_same _), of_decide_eq_true t⟩

def Concrete.nearby (x : Vec (Val ℚ) 2) : Bool := decide (∀ j : Fin 2, .fin (-3) ≤ x j) && decide (∀ j : Fin 2, x j ≤ .fin 3)

/-- The sum of squares near the origin, 7 elsewhere. -/
def Concrete.walled (x : Vec (Val ℚ) 2) : Val ℚ := if nearby x = true then bowl x else .fin 7

theorem walled_ne : bowl ≠ walled := fun h => by
  have := congrFun h fun _ => .fin 4
  revert this
  decide +kernel

/-- Another objective, the same chains: it was never asked where it differs. -/
theorem C105_chains :
    (∃ o, (MCMC.sample rng 10 mcmcArgs 0).1 = .ok o ∧ (MCMC.sample rng 10 { mcmcArgs with fn := some walled } 0).1 = .ok o) ∧
    ∃ o, (HMC.sample rng hmcArgs 0).1 = .ok o ∧ (HMC.sample rng { hmcArgs with fn := some walled } 0).1 = .ok o := by
  constructor
  · obtain ⟨o, h, t⟩ := returns_iff (r := (MCMC.sample rng 10 mcmcArgs 0).1)
      (t := fun o => o.evals.all nearby) (by decide +kernel)
    exact ⟨o, h, C105_function_mcmc (a := mcmcArgs) (f := bowl) h fun x hx => (if_pos (List.all_eq_true.1 t x hx)).symm⟩
  · obtain ⟨o, h, t⟩ := returns_iff (r := (HMC.sample rng hmcArgs 0).1)
      (t := fun o => o.evals.all nearby) (by decide +kernel)
    exact ⟨o, h, C105_function_hmc (a := hmcArgs) (f := bowl) h fun x hx => (if_pos (List.all_eq_true.1 t x hx)).symm⟩

end Stochopy
