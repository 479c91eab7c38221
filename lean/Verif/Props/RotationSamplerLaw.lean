import Verif.Props.RotationSampler
import Verif.Props.RotationLaw
import Verif.Props.MirrorLaw

/-! # The samplers in turned coordinates: the laws of the chains (C100)

The normal numbers of every proposal are turned by a fixed orthonormal matrix, which does not change the law of the sequence of all numbers. -/

set_option linter.unusedSectionVars false

namespace Stochopy.Props
open Stochopy Sampling MeasureTheory ProbabilityTheory Spec Matrix
variable {n : Nat}

/-- The matrix `Q`, with one more coordinate that is left alone. -/
def extend (Q : Matrix (Fin n) (Fin n) ℝ) : Matrix (Fin (n + 1)) (Fin (n + 1)) ℝ :=
  fun i k => Fin.lastCases (Fin.lastCases 1 (fun _ => 0) k) (fun i => Fin.lastCases 0 (fun k => Q i k) k) i

theorem extend_orth {Q : Matrix (Fin n) (Fin n) ℝ} (hQ : Spec.Orthonormal Q) : Spec.Orthonormal (extend Q) := by
  intro i k
  rw [Fin.sum_univ_castSucc]
  induction i using Fin.lastCases with
  | last =>
    induction k using Fin.lastCases with
    | last => simp [extend]
    | cast k => simp [extend, (Fin.castSucc_lt_last k).ne']
  | cast i =>
    induction k using Fin.lastCases with
    | last => simp [extend, (Fin.castSucc_lt_last i).ne]
    | cast k => simpa [extend] using hQ i k

theorem extend_cast (Q : Matrix (Fin n) (Fin n) ℝ) (z : Fin (n + 1) → ℝ) (i : Fin n) :
    (extend Q *ᵥ z) i.castSucc = (Q *ᵥ fun k => z k.castSucc) i := by
  show ∑ k, extend Q i.castSucc k * z k = ∑ k, Q i k * z k.castSucc
  rw [Fin.sum_univ_castSucc]
  simp [extend]

theorem extend_last (Q : Matrix (Fin n) (Fin n) ℝ) (z : Fin (n + 1) → ℝ) : (extend Q *ᵥ z) (Fin.last n) = z (Fin.last n) := by
  show ∑ k, extend Q (Fin.last n) k * z k = _
  rw [Fin.sum_univ_castSucc]
  simp [extend]

theorem measurable_mulVec (U : Matrix (Fin n) (Fin n) ℝ) : Measurable fun z : Fin n → ℝ => U *ᵥ z :=
  measurable_pi_lambda _ fun i => by
    show Measurable fun z : Fin n → ℝ => ∑ k, U i k * z k
    exact Finset.measurable_sum _ fun k _ => (measurable_pi_apply k).const_mul _

/-- One block of numbers with the normal ones turned. -/
def turnBlock (U : Matrix (Fin n) (Fin n) ℝ) (x : Fin n → ℝ × ℝ) : Fin n → ℝ × ℝ := fun k => ((x k).1, (U *ᵥ fun l => (x l).2) k)

theorem measurable_turnBlock (U : Matrix (Fin n) (Fin n) ℝ) : Measurable (turnBlock U) := by
  refine measurable_pi_lambda _ fun k => ?_
  refine (measurable_fst.comp (measurable_pi_apply k)).prodMk ?_
  exact (measurable_pi_apply k).comp ((measurable_mulVec U).comp (measurable_pi_lambda _ fun l => measurable_snd.comp (measurable_pi_apply l)))

theorem turnBlock_law {U : Matrix (Fin n) (Fin n) ℝ} (hU : Spec.Orthonormal U) :
    (Measure.pi fun _ : Fin n => unifLaw.prod (gaussianReal 0 1)).map (turnBlock U) = Measure.pi fun _ : Fin n => unifLaw.prod (gaussianReal 0 1) := by
  have h1 := measurePreserving_arrowProdEquivProdArrow ℝ ℝ (Fin n) (fun _ => unifLaw) (fun _ => gaussianReal 0 1)
  have h2 := (MeasurePreserving.id (Measure.pi fun _ : Fin n => unifLaw)).prod (normal_turn hU)
  exact ((h1.symm.comp h2).comp h1).map_eq

/-- A block can be turned back. -/
def turnBlockEquiv {U : Matrix (Fin n) (Fin n) ℝ} (hU : Spec.Orthonormal U) : (Fin n → ℝ × ℝ) ≃ᵐ (Fin n → ℝ × ℝ) where
  toFun := turnBlock U
  invFun := turnBlock Uᵀ
  left_inv x := by
    funext k
    unfold turnBlock
    refine Prod.ext rfl ?_
    show (Uᵀ *ᵥ (U *ᵥ _)) k = _
    rw [mulVec_mulVec, CMAES.orthonormal_iff.1 hU, one_mulVec]
  right_inv x := by
    funext k
    unfold turnBlock
    refine Prod.ext rfl ?_
    show (U *ᵥ (Uᵀ *ᵥ _)) k = _
    rw [mulVec_mulVec, mul_eq_one_comm.1 (CMAES.orthonormal_iff.1 hU), one_mulVec]
  measurable_toFun := measurable_turnBlock U
  measurable_invFun := measurable_turnBlock Uᵀ

/-- The sequence cut into blocks of length `m`. -/
def cut (m : Nat) [NeZero m] : (Nat → ℝ × ℝ) ≃ᵐ (Nat → Fin m → ℝ × ℝ) :=
  (MeasurableEquiv.piCongrLeft (fun _ => ℝ × ℝ) (Nat.divModEquiv m)).trans (MeasurableEquiv.curry Nat (Fin m) (ℝ × ℝ))

theorem cut_apply (m : Nat) [NeZero m] (g : Nat → ℝ × ℝ) (q : Nat) (k : Fin m) : cut m g q k = g (q * m + k) := by
  show MeasurableEquiv.piCongrLeft (fun _ => ℝ × ℝ) (Nat.divModEquiv m) g (q, k) = _
  have h := MeasurableEquiv.piCongrLeft_apply_apply (Nat.divModEquiv m) (β := fun _ => ℝ × ℝ) g ((Nat.divModEquiv m).symm (q, k))
  rw [Equiv.apply_symm_apply] at h
  rw [h]
  rfl

theorem cut_law (m : Nat) [NeZero m] : streamLaw.map (cut m) =
    Measure.infinitePi fun _ : Nat => Measure.pi fun _ : Fin m => unifLaw.prod (gaussianReal 0 1) := by
  unfold cut streamLaw inputs
  rw [MeasurableEquiv.coe_trans, ← Measure.map_map (MeasurableEquiv.measurable _) (MeasurableEquiv.measurable _)]
  have h := Measure.infinitePi_map_piCongrLeft (μ := fun _ : Nat × Fin m => unifLaw.prod (gaussianReal 0 1)) (Nat.divModEquiv m)
  rw [h]
  refine (Measure.infinitePi_map_curry fun (_ : Nat) (_ : Fin m) => unifLaw.prod (gaussianReal 0 1)).trans ?_
  congr 1
  funext _
  exact Measure.infinitePi_eq_pi _

/-- The numbers with the normal ones of every block of `n + 1` numbers turned, the last one of each block left alone. -/
def turnNormals {Q : Matrix (Fin n) (Fin n) ℝ} (hQ : Spec.Orthonormal Q) : (Nat → ℝ × ℝ) ≃ᵐ (Nat → ℝ × ℝ) :=
  ((cut (n + 1)).trans (MeasurableEquiv.piCongrRight fun _ => turnBlockEquiv (extend_orth hQ))).trans (cut (n + 1)).symm

theorem turnNormals_law {Q : Matrix (Fin n) (Fin n) ℝ} (hQ : Spec.Orthonormal Q) :
    MeasurePreserving (turnNormals hQ) streamLaw streamLaw := by
  have h1 : MeasurePreserving (cut (n + 1)) streamLaw _ := ⟨MeasurableEquiv.measurable _, cut_law (n + 1)⟩
  have hm : Measurable fun (x : Nat → Fin (n + 1) → ℝ × ℝ) i => turnBlock (extend Q) (x i) :=
    measurable_pi_lambda _ fun i => (measurable_turnBlock _).comp (measurable_pi_apply i)
  have h2 : MeasurePreserving (fun (x : Nat → Fin (n + 1) → ℝ × ℝ) i => turnBlock (extend Q) (x i))
      (Measure.infinitePi fun _ : Nat => Measure.pi fun _ : Fin (n + 1) => unifLaw.prod (gaussianReal 0 1))
      (Measure.infinitePi fun _ : Nat => Measure.pi fun _ : Fin (n + 1) => unifLaw.prod (gaussianReal 0 1)) := by
    refine ⟨hm, ?_⟩
    rw [Measure.infinitePi_map_pi _ (fun _ => measurable_turnBlock (extend Q))]
    congr 1
    funext _
    exact turnBlock_law (extend_orth hQ)
  exact (h1.symm.comp h2).comp h1

theorem turnNormals_apply {Q : Matrix (Fin n) (Fin n) ℝ} (hQ : Spec.Orthonormal Q) (g : Nat → ℝ × ℝ) (q : Nat) (k : Fin (n + 1)) :
    turnNormals hQ g (q * (n + 1) + k) = turnBlock (extend Q) (fun l => g (q * (n + 1) + l)) k := by
  rw [← cut_apply (n + 1) (turnNormals hQ g)]
  have : cut (n + 1) (turnNormals hQ g) = fun q => turnBlock (extend Q) (cut (n + 1) g q) := by
    show cut (n + 1) ((cut (n + 1)).symm _) = _
    rw [MeasurableEquiv.apply_symm_apply]
    rfl
  rw [this]
  show turnBlock _ _ _ = _
  congr 1
  funext l
  exact cut_apply _ _ _ _

/-- The same, one number before the end of a block. -/
def turnLater {Q : Matrix (Fin n) (Fin n) ℝ} (hQ : Spec.Orthonormal Q) (h : Nat → ℝ × ℝ) : Nat → ℝ × ℝ
  | 0 => h 0
  | i + 1 => turnNormals hQ (fun i => h (i + 1)) i

theorem stream_normals (m : Nat) (g : Nat → ℝ × ℝ) : drawVec streamRng.randn m g = (fun j : Fin m => (g j).2, fun i => g (m + i)) := by
  have h : ∀ m, (fun g => (streamRng.randn g).2)^[m] g = fun i => g (m + i) := by
    intro m
    induction m with
    | zero => funext i; rw [Nat.zero_add]; rfl
    | succ m ih =>
      rw [Function.iterate_succ_apply', ih]
      funext i
      show g (m + (i + 1)) = _
      congr 1
      omega
  refine Prod.ext ?_ (h m)
  funext j
  show (streamRng.randn ((fun g => (streamRng.randn g).2)^[(j : Nat)] g)).1 = _
  rw [h]
  rfl

/-- `streamRng` after `turnNormals`: every group of `n` normal numbers is turned. -/
theorem stream_turns {Q : Matrix (Fin n) (Fin n) ℝ} (hQ : Spec.Orthonormal Q) : streamRng.Turns Q (turnNormals hQ) (turnLater hQ) where
  normals g := by
    rw [stream_normals, stream_normals]
    refine Prod.ext ?_ ?_
    · funext j
      have h := turnNormals_apply hQ g 0 j.castSucc
      rw [Nat.zero_mul, Nat.zero_add] at h
      show (turnNormals hQ g j).2 = _
      refine (congrArg Prod.snd h).trans ?_
      refine (extend_cast Q _ j).trans ?_
      simp
    · funext i
      cases i with
      | zero =>
        have h := turnNormals_apply hQ g 0 (Fin.last n)
        rw [Nat.zero_mul, Nat.zero_add] at h
        refine h.trans (Prod.ext ?_ ?_)
        · simp [turnBlock, turnLater]
        · refine (extend_last Q _).trans ?_
          simp [turnLater]
      | succ i =>
        show turnNormals hQ g (n + (i + 1)) = turnNormals hQ (fun i => g (n + (i + 1))) i
        have e : i = i / (n + 1) * (n + 1) + (⟨i % (n + 1), Nat.mod_lt _ n.succ_pos⟩ : Fin (n + 1)) := by
          show i = i / (n + 1) * (n + 1) + i % (n + 1)
          rw [Nat.mul_comm]
          exact (Nat.div_add_mod i (n + 1)).symm
        have e2 : n + (i + 1) = (i / (n + 1) + 1) * (n + 1) + (⟨i % (n + 1), Nat.mod_lt _ n.succ_pos⟩ : Fin (n + 1)) := by
          rw [Nat.succ_mul]
          show n + (i + 1) = i / (n + 1) * (n + 1) + (n + 1) + i % (n + 1)
          have : i = i / (n + 1) * (n + 1) + i % (n + 1) := e
          omega
        rw [e2]
        conv_rhs => rw [e]
        rw [turnNormals_apply, turnNormals_apply]
        congr 1
        funext l
        congr 1
        rw [Nat.succ_mul]
        omega
  rand g := rfl

/-- Two maps that agree after the normal numbers have been turned have the same law. -/
theorem law_turnNormals {α : Type} {F G : (Nat → ℝ × ℝ) → α} {Q : Matrix (Fin n) (Fin n) ℝ} (hQ : Spec.Orthonormal Q)
    (h : ∀ g, F (turnNormals hQ g) = G g) (C : α → Prop) : streamLaw {g | C (F g)} = streamLaw {g | C (G g)} := by
  rw [← (turnNormals_law hQ).measure_preimage_equiv]
  congr 1
  ext g
  show C (F (turnNormals hQ g)) ↔ C (G g)
  rw [h]

/-- C100 for `mcmc` with ideal random numbers: when all coordinates move at once, any event has the same probability for the chain of the
turned problem as for the turned chain. -/
theorem C100_mcmc_law {a : MCMC.Args ℝ} {Q : Matrix (Fin a.ndim) (Fin a.ndim) ℝ} (hQ : Spec.Orthonormal Q) {fuel : Nat}
    (hb : ∀ j, a.low j ≠ a.high j) (hp : a.perc = 1) (hc : a.constraints = none)
    (hseed : a.seed = none) {c : ℝ} (hstep : a.stepsize = .scalar false c) {x : NdArr ℝ} (hx : a.x0 = some x) (hsh : x.shape = [a.ndim])
    (C : Except PyErr (Sampling.Output (Nat → ℝ × ℝ) ℝ a.ndim) → Prop) :
    streamLaw {g | C (MCMC.sample streamRng fuel (a.turn Q) g).1} =
      streamLaw {g | C ((MCMC.sample streamRng fuel a g).1.map
        (Sampling.Output.map (onFinite (turn a.low a.high Q)) (turnNormals hQ)))} :=
  law_turnNormals (F := fun g => (MCMC.sample streamRng fuel (a.turn Q) g).1) (G := fun g => (MCMC.sample streamRng fuel a g).1.map
    (Sampling.Output.map (onFinite (turn a.low a.high Q)) (turnNormals hQ))) hQ
    (fun _ => C100_mcmc hQ (stream_turns hQ) hb hp hc hseed hstep hx hsh) C

/-- The output with the number of evaluated points instead of the points. -/
def counted {σ K : Type} {n : Nat} (o : Sampling.Output σ K n) : Sampling.Output σ K n × Nat := ({ o with evals := [] }, o.evals.length)

/-- Likewise for `hmc` and objectives of degree two; of the evaluated points only the number is compared. -/
theorem C100_hmc_law {a : HMC.Args ℝ} {Q : Matrix (Fin a.ndim) (Fin a.ndim) ℝ} (hQ : Spec.Orthonormal Q)
    (hb : ∀ j, a.low j ≠ a.high j) (hc : a.constraints = none) (hj : a.jac = none)
    (hseed : a.seed = none) {c : ℝ} (hstep : a.stepsize = .scalar false c) {x : NdArr ℝ} (hx : a.x0 = some x) (hsh : x.shape = [a.ndim])
    {fn : Vec (Val ℝ) a.ndim → Val ℝ} (hfn : a.fn = some fn) (hh : a.fdStep ≠ 0)
    (A : Fin a.ndim → Fin a.ndim → ℝ) (b : Fin a.ndim → ℝ) (d : ℝ)
    (hφ : ∀ x : Vec ℝ a.ndim, fn (point x) = .fin ((∑ i, ∑ k, A i k * x i * x k) + (∑ i, b i * x i) + d))
    (C : Except PyErr (Sampling.Output (Nat → ℝ × ℝ) ℝ a.ndim × Nat) → Prop) :
    streamLaw {g | C ((HMC.sample streamRng (a.turn Q) g).1.map (counted (n := a.ndim)))} =
      streamLaw {g | C (((HMC.sample streamRng a g).1.map
        (Sampling.Output.map (onFinite (turn a.low a.high Q)) (turnNormals hQ))).map counted)} := by
  refine law_turnNormals (F := fun g => (HMC.sample streamRng (a.turn Q) g).1.map (counted (n := a.ndim)))
    (G := fun g => ((HMC.sample streamRng a g).1.map
        (Sampling.Output.map (onFinite (turn a.low a.high Q)) (turnNormals hQ))).map counted) hQ (fun g => ?_) C
  have h := C100_hmc (g := g) hQ (stream_turns hQ) hb hc hj hseed hstep hx hsh hfn hh A b d hφ
  cases h1 : (HMC.sample streamRng a g).1 with
  | error e => rw [h.2 e h1]; rfl
  | ok o =>
    obtain ⟨o', e1, e2, e3⟩ := h.1 o h1
    rw [e1]
    show Except.ok _ = Except.ok _
    congr 1
    refine Prod.ext ?_ ?_
    · show { o' with evals := [] } = _
      rw [e2]
      rfl
    · refine Eq.trans e3 ?_
      show _ = (o.evals.map _).length
      rw [List.length_map]

/-! ## Concrete cases -/

/-- A long valley across the axes, in the box `[-1, 1] × [-2, 2]`. -/
noncomputable def valleyArgs : Sampling.Args ℝ :=
  { bounds := { shape := [2, 2], get := fun l => (if l.getD 1 0 = 0 then -1 else 1) * (1 + l.getD 0 0) },
    fn := some fun x => x ⟨0, by decide⟩ * x ⟨0, by decide⟩ + x ⟨0, by decide⟩ * x ⟨1, by decide⟩ + x ⟨1, by decide⟩ * x ⟨1, by decide⟩,
    x0 := some { shape := [2], get := fun l => if l.getD 0 0 = 0 then 1 / 2 else 1 / 4 },
    maxiter := 9, stepsize := .scalar false (1 / 10), seed := none, constraints := none, returnAll := true, callback := some true }

noncomputable def valleyMcmc : MCMC.Args ℝ := { valleyArgs with perc := 1 }
noncomputable def valleyHmc : HMC.Args ℝ := { valleyArgs with nleap := 3, jac := none, fdStep := 1 / 1000, extraArgs := false }

theorem valley_box (j : Fin 2) : valleyArgs.low j ≠ valleyArgs.high j := by
  show (if (0 : Nat) = 0 then (-1 : ℝ) else 1) * (1 + (j.val : ℝ)) ≠ (if (1 : Nat) = 0 then (-1 : ℝ) else 1) * (1 + (j.val : ℝ))
  have : (0 : ℝ) < 1 + (j.val : ℝ) := by positivity
  simp only [if_true, one_ne_zero, if_false]
  intro h
  linarith

theorem valley_valid : ValidSampler valleyArgs where
  objective := rfl
  bounds := rfl
  x0 := by intro x hx; cases hx; exact Or.inl rfl
  stepsize := rfl
  callback := nofun
  maxiter := by show (1 : Int) ≤ 9; norm_num

/-- The hypotheses of `C100_mcmc_law` are met, by a chain that is always returned. -/
example (C : Except PyErr (Sampling.Output (Nat → ℝ × ℝ) ℝ 2) → Prop) :
    (∀ g, ∃ o, (MCMC.sample streamRng 9 valleyMcmc g).1 = .ok o) ∧
    streamLaw {g | C (MCMC.sample streamRng 9 (valleyMcmc.turn quarter) g).1} =
      streamLaw {g | C ((MCMC.sample streamRng 9 valleyMcmc g).1.map
        (Sampling.Output.map (onFinite (turn valleyArgs.low valleyArgs.high quarter)) (turnNormals quarter_orth)))} := by
  refine ⟨fun g => ?_, C100_mcmc_law (a := valleyMcmc) quarter_orth valley_box rfl rfl rfl rfl rfl rfl C⟩
  refine (C62_mcmc streamRng_ok (le_refl _)).2 ⟨{ toValidSampler := valley_valid, perc := ?_ }, Or.inl ⟨?_, Or.inl ?_⟩⟩
  · exact ⟨zero_le_one, le_refl _⟩
  · show 0 < 2; norm_num
  · have : blockSize (1 : ℝ) 2 = 2 := by
      norm_num [blockSize]
    show blockSize (1 : ℝ) 2 ∣ 2
    rw [this]

/-- The hypotheses of `C100_hmc_law` are met, by a chain that is always returned. -/
example (C : Except PyErr (Sampling.Output (Nat → ℝ × ℝ) ℝ 2 × Nat) → Prop) :
    (∀ g, ∃ o, (HMC.sample streamRng valleyHmc g).1 = .ok o) ∧
    streamLaw {g | C ((HMC.sample streamRng (valleyHmc.turn quarter) g).1.map (counted (n := 2)))} =
      streamLaw {g | C (((HMC.sample streamRng valleyHmc g).1.map
        (Sampling.Output.map (onFinite (turn valleyArgs.low valleyArgs.high quarter)) (turnNormals quarter_orth))).map counted)} := by
  refine ⟨fun g => C62_hmc.2 ⟨{ toValidSampler := valley_valid, nleap := ?_, jac := nofun }, Or.inl rfl⟩,
    C100_hmc_law (a := valleyHmc) quarter_orth valley_box rfl rfl rfl rfl rfl rfl rfl ?_ ![![1, 1], ![0, 1]] (fun _ => 0) 0 ?_ C⟩
  · show (1 : Int) ≤ 3; norm_num
  · show (1 / 1000 : ℝ) ≠ 0; norm_num
  · have key : ∀ x : Fin 2 → ℝ, x 0 * x 0 + x 0 * x 1 + x 1 * x 1 =
        (∑ i, ∑ k, (![![1, 1], ![0, 1]] : Fin 2 → Fin 2 → ℝ) i k * x i * x k) + (∑ i, (0 : ℝ) * x i) + 0 := fun x => by
      simp [Fin.sum_univ_two]
    exact fun x => congrArg Val.fin (key x)

end Stochopy.Props
