import Verif.Lemmas.SwarmRun
import Verif.Props.PSORun
import Verif.Props.Validation

/-!
# C97: when a stagnating particle comes to rest
-/

set_option linter.unusedSectionVars false

namespace Stochopy
open Spec Concrete MeasureTheory Filter Topology

/-! ## One coordinate -/

/-- A particle whose best point is the best point `y` of the swarm, while neither changes: with probability one it comes to rest in `y`,
if inertia, cognitivity and sociability contract. -/
theorem C97_kernel_partial {w c1 c2 : ℝ} (hw : 0 ≤ w) (hw1 : w < 1) (h : Contracting w c1 c2) (y : ℝ) (s : ℝ × ℝ) :
    ∀ᵐ ω ∂(inputs (unifLaw.prod unifLaw)), Tendsto (chain (fun _ => pull w c1 c2 y y) s ω) atTop (𝓝 (y, 0)) :=
  pull_settles hw hw1 h y s

/-- With inertia one it does not. -/
theorem C97_inertia_kernel_violated {c1 c2 : ℝ} (hc : c1 ≠ 0 ∨ c2 ≠ 0) {y : ℝ} {s : ℝ × ℝ} (hs : s.1 ≠ y) :
    ∀ᵐ ω ∂(inputs (unifLaw.prod unifLaw)), ¬ Tendsto (fun k => (chain (fun _ => pull 1 c1 c2 y y) s ω k).1) atTop (𝓝 y) := by
  refine (pull_restless hc hs).mono fun ω hω h5 => hω (h5.prodMk_nhds ?_)
  have h6 : Tendsto (fun k => (chain (fun _ => pull 1 c1 c2 y y) s ω (k + 1)).1 - (chain (fun _ => pull 1 c1 c2 y y) s ω k).1)
      atTop (𝓝 (y - y)) := (h5.comp (tendsto_add_atTop_nat 1)).sub h5
  rw [sub_self] at h6
  refine (tendsto_add_atTop_iff_nat 1).1 (h6.congr fun k => ?_)
  show (pull 1 c1 c2 y y (chain (fun _ => pull 1 c1 c2 y y) s ω k) (ω k)).1 - _ =
    (pull 1 c1 c2 y y (chain (fun _ => pull 1 c1 c2 y y) s ω k) (ω k)).2
  unfold pull
  simp

/-- A particle whose best point is not the best point of the swarm comes to rest nowhere, whatever the parameters. -/
theorem C97_apart_kernel_violated {w c1 c2 p l : ℝ} (h1 : c1 ≠ 0) (h2 : c2 ≠ 0) (hpl : p ≠ l) (s : ℝ × ℝ) :
    ∀ᵐ ω ∂(inputs (unifLaw.prod unifLaw)), ∀ z, ¬ Tendsto (fun k => (chain (fun _ => pull w c1 c2 p l) s ω k).1) atTop (𝓝 z) :=
  pull_apart.mono fun _ hω z => hω w c1 c2 p l z s h1 h2 hpl

/-- Parameters that contract, for instance the default ones, a particle at distance 1 with velocity 3. -/
example : ∀ᵐ ω ∂(inputs (unifLaw.prod unifLaw)), Tendsto (chain (fun _ => pull 0.7298 1.49618 1.49618 2 2) (1, 3) ω) atTop (𝓝 (2, 0)) :=
  C97_kernel_partial (by norm_num) (by norm_num) (by unfold Contracting; norm_num) 2 (1, 3)

/-! ## Runs -/

section Runs
variable {σ : Type} {env : Env} {R : Rng σ ℝ} {srt : Argsort ℝ} {g : σ}

/-- `S k` is the swarm after generation `k` (counted from 0) of the call of `pso` that returned `o`. -/
def SwarmsOf (R : Rng σ ℝ) (srt : Argsort ℝ) (a : PSO.Args ℝ) (fn : Vec ℝ a.ndim → Val ℝ) (g : σ) (o : Output σ ℝ a.p a.ndim)
    (S : Nat → Spec.PSO.Swarm ℝ a.p a.ndim) : Prop :=
  ∃ M gs hs, Spec.PSO.Run (psoSetting R srt a fn) a.x0Pop (a.seeded R g) (reporting a.toCommonArgs) S M gs hs o.res.nit o.res.status o ∧
    ∀ k, k + 1 < o.res.nit → M k = S k ∧ hs k = gs k

/-- Every call has such swarms. -/
theorem swarmsOf (he : env.Ok) {a : PSO.Args ℝ} {fn : Vec ℝ a.ndim → Val ℝ} (hfn : a.fn = some fn) {fuel : Nat}
    {o : Output σ ℝ a.p a.ndim} (h : PSO.minimize env R srt fuel a g = .ok o) : ∃ S, SwarmsOf R srt a fn g o S := by
  obtain ⟨S, M, gs, hs, h1, h2⟩ := C79_pso_norestart he hfn h
  exact ⟨S, M, gs, hs, h1, h2⟩

/-- The generations of a run from a given population, with the states of the generator. -/
theorem swarms_generation {a : PSO.Args ℝ} {fn : Vec ℝ a.ndim → Val ℝ} {o : Output σ ℝ a.p a.ndim}
    {S : Nat → Spec.PSO.Swarm ℝ a.p a.ndim} (h : SwarmsOf R srt a fn g o S) {X : Pop ℝ a.p a.ndim} (hx0 : a.x0Pop = some X)
    (hseed : a.seed = none) :
    Spec.PSO.First fn X (S 0) ∧ ∀ k, k + 1 < o.res.nit →
      Spec.PSO.Generation (psoSetting R srt a fn) (k + 2) (S k) (genState R a.p a.ndim g k) (S (k + 1)) (genState R a.p a.ndim g (k + 1))
        (if k + 2 = o.res.nit then some o.res.status else none) := by
  obtain ⟨M, gs, hs, hr, hM⟩ := h
  obtain ⟨X', hX, hfirst⟩ := hr.start
  have hsd : a.seeded R g = g := by
    unfold CommonArgs.seeded
    rw [hseed]
  rw [hx0, hsd] at hX
  obtain ⟨hX', hg0⟩ : X' = X ∧ gs 0 = g := by
    rcases hX with ⟨h1, h2⟩ | ⟨h1, -⟩
    · exact ⟨(Option.some.inj h1).symm, h2⟩
    · cases h1
  subst hX'
  have hgs : ∀ k, k < o.res.nit → gs k = genState R a.p a.ndim g k := by
    intro k
    induction k with
    | zero => intro _; exact hg0
    | succ k ih =>
      intro hk
      have h1 := hr.generation k hk
      rw [(hM k hk).2, ih (by omega)] at h1
      rw [generation_rng h1]
      exact (Function.iterate_succ_apply' (fun g => (drawMat R.rand a.p a.ndim (drawMat R.rand a.p a.ndim g).2).2) k g).symm
  refine ⟨hfirst, fun k hk => ?_⟩
  have h1 := hr.generation k hk
  rw [(hM k hk).1, (hM k hk).2, hgs k (by omega), hgs (k + 1) hk] at h1
  exact h1

theorem swarms_pool {a : PSO.Args ℝ} {fn : Vec ℝ a.ndim → Val ℝ} {o : Output σ ℝ a.p a.ndim}
    {S : Nat → Spec.PSO.Swarm ℝ a.p a.ndim} (h : SwarmsOf R srt a fn g o S) {X : Pop ℝ a.p a.ndim} (hx0 : a.x0Pop = some X)
    (hseed : a.seed = none) : ∀ k, k < o.res.nit → PoolFacts (psoSetting R srt a fn) (S k).pool := by
  obtain ⟨h0, hg⟩ := swarms_generation h hx0 hseed
  intro k
  induction k with
  | zero => intro _; exact poolFacts_first (c := psoSetting R srt a fn) h0
  | succ k ih =>
    intro hk
    exact poolFacts_generation (hg k hk) (ih (by omega))

/-- `pso` without constraints and with contracting parameters, started from a given population with an ideal generator.  With probability
one: if at some generation `T` the best point `y` of the swarm is also the best point of particle `i`, and in the rest of the run (deferred
updating) neither changes, or (either updating) no point as good as `y` is found, then particle `i` comes to rest in `y`.  The number of generations after which it is closer than `ε` depends
only on `T`, `ε` and a bound `C` for its distance and velocity at `T`.  (`a.maxiter` is replaced by `m`.) -/
theorem C97_pso_partial [MeasurableSpace σ] {Q : Measure σ} (hQ : Ideal R Q) (he : env.Ok) {a : PSO.Args ℝ}
    {fn : Vec ℝ a.ndim → Val ℝ} (hfn : a.fn = some fn) (hw : 0 ≤ a.inertia) (hw1 : a.inertia < 1)
    (hc : Contracting a.inertia a.cognitivity a.sociability) (hcons : a.constraints = none) (hx0 : a.x0.isSome) (hseed : a.seed = none) :
    ∀ᵐ g ∂Q, ∀ (T : Nat) (C ε : ℝ), 0 < ε → ∃ N : Nat, ∀ (m : Int) (fuel : Nat) (o : Output σ ℝ a.p a.ndim),
      PSO.minimize env R srt fuel { a with maxiter := m } g = .ok o →
      ∃ S, SwarmsOf R srt { a with maxiter := m } fn g o S ∧ ∀ (i : Fin a.p) (y : Vec ℝ a.ndim),
        (S T).pool.X i = y → (S T).pool.best = y → (∀ j, |(S T).pos i j - y j| ≤ C ∧ |(S T).vel i j| ≤ C) →
        ((Deferred a.updating a.workers a.backend ∧ ∀ k, T < k → k < o.res.nit → (S k).pool.X i = y ∧ (S k).pool.best = y) ∨
          ∀ k, T < k → k < o.res.nit → ∀ q, ¬ fn ((S k).pos q) ≤ fn y) →
        ∀ k, T + N ≤ k → k < o.res.nit → ∀ j, |(S k).pos i j - y j| < ε ∧ |(S k).vel i j| < ε := by
  have hae : ∀ᵐ g ∂Q, ∀ (i : Fin a.p) (j : Fin a.ndim) (T : Nat) (C ε : ℝ), 0 < ε → ∃ N : Nat, ∀ (y : ℝ) (s : ℝ × ℝ),
      |s.1 - y| ≤ C → |s.2| ≤ C → ∀ k, N ≤ k →
      |(chain (fun _ => pull a.inertia a.cognitivity a.sociability y y) s (fun t => pairs R a.p a.ndim i j g (T + t)) k).1 - y| < ε ∧
      |(chain (fun _ => pull a.inertia a.cognitivity a.sociability y y) s (fun t => pairs R a.p a.ndim i j g (T + t)) k).2| < ε := by
    refine ae_all_iff.2 fun i => ae_all_iff.2 fun j => ?_
    obtain ⟨hm, hlaw⟩ := hQ.pairs i j
    have h1 := pull_settles_uniform hw hw1 hc
    rw [← hlaw] at h1
    exact ae_of_ae_map hm.aemeasurable h1
  refine hae.mono fun g hg T C ε hε => ?_
  choose N hN using fun i j => hg i j T C ε hε
  refine ⟨Finset.univ.sup fun i => Finset.univ.sup fun j => N i j, fun m fuel o h => ?_⟩
  obtain ⟨S, hS⟩ := swarmsOf (a := { a with maxiter := m }) he hfn h
  refine ⟨S, hS, fun i y hX hb hC hno k hk hkn j => ?_⟩
  obtain ⟨x0, hx⟩ := Option.isSome_iff_exists.1 hx0
  have hx0' : ({ a with maxiter := m } : PSO.Args ℝ).x0Pop = some fun (i : Fin a.p) (j : Fin a.ndim) => x0.get [i, j] := by
    show a.x0.map _ = _
    rw [hx]
    rfl
  obtain ⟨-, hgen⟩ := swarms_generation hS hx0' hseed
  have hshrink : ¬ (psoSetting R srt { a with maxiter := m } fn).shrink := by
    show ¬ a.constraints = some "Shrink"
    rw [hcons]
    rintro ⟨⟩
  have key : ∀ d, T + d < o.res.nit → (S (T + d)).pool.X i = y ∧ (S (T + d)).pool.best = y ∧ ∀ j,
      ((S (T + d)).pos i j, (S (T + d)).vel i j) = chain (fun _ => pull a.inertia a.cognitivity a.sociability (y j) (y j))
        ((S T).pos i j, (S T).vel i j) (fun t => pairs R a.p a.ndim i j g (T + t)) d := by
    intro d
    induction d with
    | zero => intro _; exact ⟨hX, hb, fun j => rfl⟩
    | succ d ih =>
      intro hd
      obtain ⟨k1, k2, k3⟩ := ih (by omega)
      obtain ⟨e1, e2, e3⟩ : (S (T + d + 1)).pool.X i = y ∧ (S (T + d + 1)).pool.best = y ∧ ∀ j,
          ((S (T + d + 1)).pos i j, (S (T + d + 1)).vel i j) = pull a.inertia a.cognitivity a.sociability (y j) (y j)
            ((S (T + d)).pos i j, (S (T + d)).vel i j) (pairs R a.p a.ndim i j g (T + d)) := by
        rcases hno with ⟨hdef, hno⟩ | hno
        · refine ⟨(hno _ (by omega) hd).1, (hno _ (by omega) hd).2, fun j => ?_⟩
          have h := generation_pull (hgen (T + d) hd) hshrink hdef i j
          rw [k1, k2] at h
          exact h
        · exact generation_stagnates (hgen (T + d) hd) hshrink (swarms_pool hS hx0' hseed (T + d) (by omega)) k1 k2
            (hno (T + d + 1) (by omega) hd)
      refine ⟨e1, e2, fun j => ?_⟩
      show ((S (T + d + 1)).pos i j, (S (T + d + 1)).vel i j) = pull a.inertia a.cognitivity a.sociability (y j) (y j) _ _
      rw [e3 j, k3 j]
  obtain ⟨d, rfl⟩ : ∃ d, k = T + d := ⟨k - T, by omega⟩
  have h1 := (key d hkn).2.2 j
  have hNd : N i j ≤ d := by
    have h2 : N i j ≤ Finset.univ.sup fun j => N i j := Finset.le_sup (f := fun j => N i j) (Finset.mem_univ j)
    have h3 : (Finset.univ.sup fun j => N i j) ≤ Finset.univ.sup fun i => Finset.univ.sup fun j => N i j :=
      Finset.le_sup (f := fun i => Finset.univ.sup fun j => N i j) (Finset.mem_univ i)
    omega
  have h2 := hN i j (y j) ((S T).pos i j, (S T).vel i j) (hC j).1 (hC j).2 d hNd
  rw [← h1] at h2
  exact h2

/-- A run that never reaches `ftol` uses all of its generations (deferred updating). -/
theorem swarms_all {a : PSO.Args ℝ} {fn : Vec ℝ a.ndim → Val ℝ} {o : Output σ ℝ a.p a.ndim}
    {S : Nat → Spec.PSO.Swarm ℝ a.p a.ndim} (h : SwarmsOf R srt a fn g o S) (hd : Deferred a.updating a.workers a.backend)
    (hft : ∀ k, k < o.res.nit → ¬ (S k).pool.bestfit ≤ a.ftol) : a.maxiter ≤ o.res.nit := by
  obtain ⟨M, gs, hs, hr, hM⟩ := h
  have h2 := hr.atleast
  obtain ⟨n, hn⟩ : ∃ n, o.res.nit = n + 2 := ⟨o.res.nit - 2, by omega⟩
  have h3 := hr.generation n (by omega)
  rw [if_pos (by omega)] at h3
  rcases h3 with ⟨-, -, hst⟩ | ⟨hnd, -⟩
  · rcases hst with ⟨⟨-, h4⟩, -⟩ | ⟨-, hst⟩
    · exact absurd h4 (hft (n + 1) (by omega))
    · rcases hst with ⟨h4, -⟩ | ⟨-, hst⟩
      · exact absurd h4 (hft (n + 1) (by omega))
      · rcases hst with ⟨h4, -⟩ | ⟨-, hst⟩
        · have h4' : a.maxiter ≤ ((n + 2 : Nat) : Int) := h4
          rw [hn]
          exact h4'
        · cases hst
  · exact absurd hd hnd

/-- A sequence that does not converge to `z` is away from it again and again. -/
theorem away_often {x : Nat → ℝ} {z : ℝ} (h : ¬ Tendsto x atTop (𝓝 z)) : ∃ ε, 0 < ε ∧ ∃ᶠ k in atTop, ε ≤ |x k - z| := by
  rw [Metric.tendsto_atTop] at h
  push Not at h
  obtain ⟨ε, hε, h⟩ := h
  exact ⟨ε, hε, frequently_atTop.2 fun N => by
    obtain ⟨k, hk, h1⟩ := h N
    exact ⟨k, hk, by rwa [Real.dist_eq] at h1⟩⟩

/-- A constant objective with a value above `ftol`, deferred updating, no constraints, cognitivity and sociability not zero: the best points
never change.  With probability one a particle that does not start with the coordinate of the first particle comes to rest
nowhere: for every `z` it is again and again farther than some `ε` from `z`. -/
theorem C97_apart_violated [MeasurableSpace σ] {Q : Measure σ} (hQ : Ideal R Q) (he : env.Ok) {a : PSO.Args ℝ} {v : ℝ}
    (hfn : a.fn = some fun _ => .fin v) (hv : ¬ Val.fin v ≤ a.ftol) (h1 : a.cognitivity ≠ 0) (h2 : a.sociability ≠ 0)
    (hcons : a.constraints = none) (hd : Deferred a.updating a.workers a.backend) {X : Pop ℝ a.p a.ndim} (hx0 : a.x0Pop = some X)
    (hseed : a.seed = none) {i i0 : Fin a.p} (hi0 : i0.val = 0) {j : Fin a.ndim} (hX : X i j ≠ X i0 j) :
    ∀ᵐ g ∂Q, ∀ z, ∃ ε, 0 < ε ∧ ∃ᶠ k in atTop, ∀ (m : Nat) (fuel : Nat) (o : Output σ ℝ a.p a.ndim), k < m →
      PSO.minimize env R srt fuel { a with maxiter := m } g = .ok o →
      ∃ S, SwarmsOf R srt { a with maxiter := m } (fun _ => .fin v) g o S ∧ k < o.res.nit ∧
        (∀ k' < o.res.nit, (S k').pool.X = X ∧ (S k').pool.best = X i0) ∧ ε ≤ |(S k).pos i j - z| := by
  obtain ⟨hm, hlaw⟩ := hQ.pairs (p := a.p) (n := a.ndim) i j
  have hae := C97_apart_kernel_violated (w := a.inertia) h1 h2 hX (X i j, 0)
  rw [← hlaw] at hae
  refine (ae_of_ae_map hm.aemeasurable hae).mono fun g hg z => ?_
  obtain ⟨ε, hε, hf⟩ := away_often (hg z)
  refine ⟨ε, hε, hf.mono fun k hk m fuel o hkm h => ?_⟩
  obtain ⟨S, hS⟩ := swarmsOf (a := { a with maxiter := m }) he hfn h
  obtain ⟨hfirst, hgen⟩ := swarms_generation (a := { a with maxiter := m }) hS hx0 hseed
  have hshrink : ¬ (psoSetting R srt { a with maxiter := m } fun _ => .fin v).shrink := by
    show ¬ a.constraints = some "Shrink"
    rw [hcons]
    rintro ⟨⟩
  have hbest : ∀ {f : Fin a.p → Val ℝ} {q : Fin a.p}, (∀ q, f q = .fin v) → FirstBest f q → q = i0 := by
    intro f q hc hq
    refine hq.unique (Or.inr ⟨fun q => ?_, fun q hq => ?_⟩)
    · rw [hc, hc]
      exact Val.fin_le_fin.2 le_rfl
    · have : q.val < i0.val := hq
      omega
  have key : ∀ k', k' < o.res.nit → (S k').pool.X = X ∧ (∀ q, (S k').pool.fit q = .fin v) ∧ (S k').pool.best = X i0 ∧
      (S k').pool.bestfit = .fin v ∧ ((S k').pos i j, (S k').vel i j) =
        chain (fun _ => pull a.inertia a.cognitivity a.sociability (X i j) (X i0 j)) (X i j, 0) (pairs R a.p a.ndim i j g) k' := by
    intro k'
    induction k' with
    | zero =>
      intro _
      obtain ⟨q, e1, e2, e3⟩ := hfirst.pool.best
      have hq := hbest (fun q => hfirst.pool.fit q) e1
      refine ⟨hfirst.pool.pop, fun q => hfirst.pool.fit q, by rw [e2, hq], by rw [e3]; exact hfirst.pool.fit q, ?_⟩
      show (_, _) = (X i j, (0 : ℝ))
      rw [hfirst.pos, hfirst.vel]
    | succ k' ih =>
      intro hk'
      obtain ⟨k1, k2, k3, k4, k5⟩ := ih (by omega)
      rcases hgen k' hk' with ⟨-, ⟨r1, r2, g1, d1, d2, hmv, ho⟩, -⟩ | ⟨hnd, -⟩
      · have hsame : ∀ q, (S (k' + 1)).pool.X q = (S k').pool.X q ∧ (S (k' + 1)).pool.fit q = (S k').pool.fit q := fun q =>
          ho.refused q fun hl => by
            rw [k2] at hl
            exact lt_irrefl v (Val.fin_lt_fin.1 hl)
        obtain ⟨q, e1, e2, e3⟩ := ho.best
        have hfit : ∀ q, (S (k' + 1)).pool.fit q = .fin v := fun q => (hsame q).2.trans (k2 q)
        have hq := hbest hfit e1
        have hpop : (S (k' + 1)).pool.X = X := funext fun q => ((hsame q).1).trans (congrFun k1 q)
        refine ⟨hpop, hfit, by rw [e2, hpop, hq], by rw [e3, hfit], ?_⟩
        have hmp := move_pull hshrink (hmv i) j
        have e1 : r1 = (drawMat R.rand a.p a.ndim (genState R a.p a.ndim g k')).1 := congrArg Prod.fst d1
        have e1' : g1 = (drawMat R.rand a.p a.ndim (genState R a.p a.ndim g k')).2 := congrArg Prod.snd d1
        have e2 : r2 = (drawMat R.rand a.p a.ndim g1).1 := congrArg Prod.fst d2
        rw [hmp, k1, k3, k5, e1, e2, e1']
        rfl
      · exact absurd hd hnd
  have hnit : k < o.res.nit := by
    have h3 := swarms_all (a := { a with maxiter := m }) hS hd fun k' hk' hle => hv (by rw [(key k' hk').2.2.2.1] at hle; exact hle)
    have h4 : (m : Int) ≤ o.res.nit := h3
    omega
  refine ⟨S, hS, hnit, fun k' hk' => ⟨(key k' hk').1, (key k' hk').2.2.1⟩, ?_⟩
  have h5 := congrArg Prod.fst (key k hnit).2.2.2.2
  have h6 : (S k).pos i j = _ := h5
  rw [h6]
  exact hk

/-! ### Inertia one -/

/-- 3 at 1, 2 at 0 and 1 elsewhere. -/
noncomputable def hole (x : Vec ℝ 1) : Val ℝ := if x 0 = 0 then .fin 2 else if x 0 = 1 then .fin 3 else .fin 1

/-- Two particles with inertia 1, cognitivity 2 and sociability 2 (Kennedy and Eberhart) that start in 1 and 0. -/
noncomputable def oldArgs : PSO.Args ℝ where
  bounds := { shape := [1, 2], get := fun l => if l.getD 1 0 = 0 then -5 else 5 }
  fn := some hole
  x0 := some { shape := [2, 1], get := fun l => if l.getD 0 0 = 0 then 1 else 0 }
  maxiter := 100
  popsize := 2
  seed := none
  xtol := 1 / 10 ^ 8
  ftol := .fin (1 / 10 ^ 8)
  workers := 1
  backend := none
  returnAll := true
  verbosity := 1
  callback := none
  inertia := 1
  cognitivity := 2
  sociability := 2
  constraints := none
  updating := "deferred"

theorem hole_ge (x : Vec ℝ 1) : ¬ hole x < .fin 1 := by
  unfold hole
  split
  · rw [Val.fin_lt_fin]
    norm_num
  · split
    · rw [Val.fin_lt_fin]
      norm_num
    · rw [Val.fin_lt_fin]
      norm_num

theorem oldArgs_returns (he : env.Ok) {f : Vec ℝ 1 → Val ℝ} {m : Nat} (hm : 2 ≤ m) {w c1 c2 : ℝ} (hw : 0 ≤ w ∧ w ≤ 1) (h1 : 0 ≤ c1 ∧ c1 ≤ 4) (h2 : 0 ≤ c2 ∧ c2 ≤ 4) :
    ∃ o, PSO.minimize env R srt m { oldArgs with fn := some f, inertia := w, cognitivity := c1, sociability := c2, maxiter := m } g = .ok o := by
  refine (C32_pso (a := { oldArgs with fn := some f, inertia := w, cognitivity := c1, sociability := c2, maxiter := m }) he (by omega) (by show (m : Int) ≤ 1 + m; omega)).2
    { objective := rfl, bounds := rfl, x0 := ?_, popsize := le_refl _, callback := ?_, history := ?_, mpi := ?_
      inertia := ?_, cognitivity := ?_, sociability := ?_, competitivity := ?_, updating := ?_, constraints := ?_ }
  · intro x hx
    have : x = { shape := [2, 1], get := fun l => if l.getD 0 0 = 0 then 1 else 0 } := (Option.some.inj hx).symm
    rw [this]
    rfl
  · rintro ⟨⟩
  · intro _
    refine ⟨?_, le_refl _⟩
    show (2 : Int) ≤ m
    omega
  · rintro ⟨⟩
  · exact hw
  · exact h1
  · exact h2
  · rintro gm ⟨⟩
  · exact List.mem_cons_of_mem _ (List.mem_singleton.2 rfl)
  · exact List.mem_cons_self

/-- The swarms of such a run. -/
theorem old_swarms {c : Spec.PSO.Setting σ ℝ 1} {S : Nat → Spec.PSO.Swarm ℝ 2 1} {nit : Nat} {st : Nat → Option Int} (hfn : c.fn = hole)
    (hs : ¬ c.shrink) (hd : c.deferred)
    (h0 : Spec.PSO.First hole (fun i _ => if i.val = 0 then 1 else 0) (S 0))
    (hg : ∀ k, k + 1 < nit → Spec.PSO.Generation c (k + 2) (S k) (genState c.R 2 1 g k) (S (k + 1)) (genState c.R 2 1 g (k + 1)) (st k))
    (hr0 : c.sociability * (pairs c.R 2 1 0 0 g 0).2 ≠ 0) (hr1 : c.sociability * (pairs c.R 2 1 0 0 g 0).2 ≠ 1) :
    (S 0).pool.bestfit = .fin 2 ∧ (∀ k, 0 < k → k < nit → (S k).pool.X 0 = (fun _ => 1 - c.sociability * (pairs c.R 2 1 0 0 g 0).2) ∧
      (S k).pool.best = (fun _ => 1 - c.sociability * (pairs c.R 2 1 0 0 g 0).2) ∧ (S k).pool.bestfit = .fin 1 ∧
      ∀ d, k = d + 2 → (S k).pos 0 0 - (1 - c.sociability * (pairs c.R 2 1 0 0 g 0).2) =
        -c.sociability * (pairs c.R 2 1 0 0 g 0).2 * (chain (fun _ => pull c.inertia c.cognitivity c.sociability 0 0) (c.inertia, c.inertia) (fun i => pairs c.R 2 1 0 0 g (2 + i)) d).1) ∧
      (1 < nit → ((S 1).pos 0 0, (S 1).vel 0 0) = (1 - c.sociability * (pairs c.R 2 1 0 0 g 0).2, -c.sociability * (pairs c.R 2 1 0 0 g 0).2)) := by
  set u := (pairs c.R 2 1 0 0 g 0).2 with hu
  have hfit0 : (S 0).pool.fit 0 = .fin 3 := by
    rw [h0.pool.fit]
    simp [hole]
  have hfit1 : (S 0).pool.fit 1 = .fin 2 := by
    rw [h0.pool.fit]
    simp [hole]
  obtain ⟨q, e1, e2, e3⟩ := h0.pool.best
  have hq : q = 1 := by
    refine e1.unique (Or.inr ⟨fun q => ?_, fun q hq => ?_⟩)
    · match q with
      | 0 => rw [hfit0, hfit1, Val.fin_le_fin]; norm_num
      | 1 => rw [hfit1, Val.fin_le_fin]
    · match q with
      | 0 => rw [hfit0, hfit1, Val.fin_lt_fin]; norm_num
      | 1 => exact absurd hq (lt_irrefl _)
  subst hq
  have hbest0 : (S 0).pool.best 0 = 0 := by
    rw [e2]
    rfl
  refine ⟨by rw [e3, hfit1], ?_⟩
  -- the generations
  have hmove : ∀ k, k + 1 < nit → ∀ i j, ((S (k + 1)).pos i j, (S (k + 1)).vel i j) = pull c.inertia c.cognitivity c.sociability ((S k).pool.X i j) ((S k).pool.best j)
      ((S k).pos i j, (S k).vel i j) (pairs c.R 2 1 i j g k) := by
    intro k hk i j
    exact generation_pull (hg k hk) hs hd i j
  have hoffer : ∀ k, k + 1 < nit → Pool.OfferAll hole (S k).pool (S (k + 1)).pos (S (k + 1)).pool := by
    intro k hk
    rcases hg k hk with ⟨-, ⟨r1, r2, g1, d1, d2, -, ho⟩, -⟩ | ⟨hnd, -⟩
    · rwa [hfn] at ho
    · exact absurd hd hnd
  -- after the first generation nothing changes
  have hlead : ∀ k, k + 1 < nit → ((S (k + 1)).pool.X 0 = fun _ => 1 - c.sociability * u) ∧ (S (k + 1)).pool.fit 0 = .fin 1 ∧
      (∀ q, ¬ (S (k + 1)).pool.fit q < .fin 1 ∧ (S (k + 1)).pool.fit q ≠ .nan) ∧
      ((S (k + 1)).pool.best = fun _ => 1 - c.sociability * u) ∧ (S (k + 1)).pool.bestfit = .fin 1 := by
    have hfin : ∀ x, hole x ≠ .nan := by
      intro x
      unfold hole
      split
      · rintro ⟨⟩
      · split <;> rintro ⟨⟩
    have hval : ∀ k, k < nit → ∀ q, ¬ (S k).pool.fit q < .fin 1 ∧ (S k).pool.fit q ≠ .nan := by
      intro k
      induction k with
      | zero =>
        intro _ q
        rw [h0.pool.fit]
        exact ⟨hole_ge _, hfin _⟩
      | succ k ih =>
        intro hk q
        by_cases hl : hole ((S (k + 1)).pos q) < (S k).pool.fit q
        · rw [((hoffer k hk).taken q hl).2]
          exact ⟨hole_ge _, hfin _⟩
        · rw [((hoffer k hk).refused q hl).2]
          exact ih (by omega) q
    have hfirst0 : ∀ k, k + 1 < nit → ((S (k + 1)).pool.X 0 = fun _ => 1 - c.sociability * u) → (S (k + 1)).pool.fit 0 = .fin 1 →
        ((S (k + 1)).pool.best = fun _ => 1 - c.sociability * u) ∧ (S (k + 1)).pool.bestfit = .fin 1 := by
      intro k hk hX hf
      obtain ⟨q, e1, e2, e3⟩ := (hoffer k hk).best
      have hq : q = 0 := by
        refine e1.unique (Or.inr ⟨fun q => ?_, fun q hq => absurd hq (Fin.not_lt_zero q)⟩)
        obtain ⟨n1, n2⟩ := hval (k + 1) hk q
        rw [hf]
        rcases Val.le_or_lt' (a := .fin 1) (by rintro ⟨⟩) n2 with h | h
        · exact h
        · exact absurd h n1
      rw [e2, e3, hq]
      exact ⟨hX, hf⟩
    intro k
    induction k with
    | zero =>
      intro hk
      have hp : (S 1).pos 0 = fun _ => 1 - c.sociability * u := by
        funext j
        have hj : j = 0 := Subsingleton.elim _ _
        subst hj
        have := congrArg Prod.fst (hmove 0 hk 0 0)
        have hx : (S 1).pos 0 0 = _ := this
        rw [hx]
        unfold pull
        dsimp only
        rw [hbest0, h0.vel, h0.pos, h0.pool.pop]
        show (1 : ℝ) + (c.inertia * 0 + c.cognitivity * (pairs c.R 2 1 0 0 g 0).1 * (1 - 1) + c.sociability * u * (0 - 1)) = 1 - c.sociability * u
        ring
      have hv : hole ((S 1).pos 0) = .fin 1 := by
        rw [hp]
        unfold hole
        rw [if_neg (fun h => hr1 (by linarith)), if_neg (fun h => hr0 (by linarith))]
      have hl : hole ((S 1).pos 0) < (S 0).pool.fit 0 := by
        rw [hv, hfit0, Val.fin_lt_fin]
        norm_num
      obtain ⟨t1, t2⟩ := (hoffer 0 hk).taken 0 hl
      have hX := t1.trans hp
      have hf := t2.trans hv
      exact ⟨hX, hf, hval 1 hk, hfirst0 0 hk hX hf⟩
    | succ k ih =>
      intro hk
      obtain ⟨k1, k2, k3, k4, k5⟩ := ih (by omega)
      obtain ⟨t1, t2⟩ := (hoffer (k + 1) hk).refused 0 (by rw [k2]; exact hole_ge _)
      have hX := t1.trans k1
      have hf := t2.trans k2
      exact ⟨hX, hf, hval _ hk, hfirst0 _ hk hX hf⟩
  have hstate1 : 1 < nit → ((S 1).pos 0 0, (S 1).vel 0 0) = (1 - c.sociability * u, -c.sociability * u) := by
    intro hn
    rw [hmove 0 hn 0 0]
    unfold pull
    rw [hbest0, h0.vel, h0.pos, h0.pool.pop]
    refine Prod.ext ?_ ?_
    · show (1 : ℝ) + (c.inertia * 0 + c.cognitivity * (pairs c.R 2 1 0 0 g 0).1 * (1 - 1) + c.sociability * u * (0 - 1)) = 1 - c.sociability * u
      ring
    · show (c.inertia * 0 + c.cognitivity * (pairs c.R 2 1 0 0 g 0).1 * (1 - 1) + c.sociability * u * (0 - 1) : ℝ) = -c.sociability * u
      ring
  refine ⟨?_, hstate1⟩
  intro k hk0 hk
  obtain ⟨k, rfl⟩ : ∃ k', k = k' + 1 := ⟨k - 1, by omega⟩
  obtain ⟨k1, k2, k3, k4, k5⟩ := hlead k hk
  refine ⟨k1, k4, k5, fun d hd => ?_⟩
  obtain rfl : k = d + 1 := by omega
  -- the motion of the first particle
  have hchain : ∀ d, d + 2 < nit → ((S (d + 2)).pos 0 0, (S (d + 2)).vel 0 0) =
      chain (fun _ => pull c.inertia c.cognitivity c.sociability (1 - c.sociability * u) (1 - c.sociability * u)) (1 - c.sociability * u - c.inertia * (c.sociability * u), -(c.inertia * (c.sociability * u))) (fun i => pairs c.R 2 1 0 0 g (2 + i)) d := by
    intro d
    induction d with
    | zero =>
      intro hd'
      obtain ⟨l1, -, -, l4, -⟩ := hlead 0 (by omega)
      rw [hmove 1 hd' 0 0, hstate1 (by omega), l1, l4]
      show _ = (1 - c.sociability * u - c.inertia * (c.sociability * u), -(c.inertia * (c.sociability * u)))
      unfold pull
      refine Prod.ext ?_ ?_ <;> dsimp only <;> ring
    | succ d ih =>
      intro hd'
      obtain ⟨l1, -, -, l4, -⟩ := hlead (d + 1) (by omega)
      rw [hmove (d + 2) hd' 0 0, ih (by omega), l1, l4, Nat.add_comm d 2]
      rfl
  have h3 := congrArg Prod.fst (hchain d hk)
  have h4 : (S (d + 1 + 1)).pos 0 0 = _ := h3
  have h5 := pull_linear (w := c.inertia) (c1 := c.cognitivity) (c2 := c.sociability) 0 (c.inertia, c.inertia) (fun i => pairs c.R 2 1 0 0 g (2 + i)) d
  rw [h4, pull_linear, h5]
  dsimp only
  ring

/-- Inertia 1 is accepted and documented.  With probability one the first particle has the best point of the swarm from the second generation on,
this point never changes, and the particle does not come to rest in it: again and again it is farther than some `ε` away. -/
theorem C97_inertia_violated [MeasurableSpace σ] {Q : Measure σ} (hQ : Ideal R Q) (he : env.Ok) :
    ∀ᵐ g ∂Q, ∃ (y : Vec ℝ 1) (ε : ℝ), 0 < ε ∧ ∃ᶠ k in atTop, ∀ m : Nat, k < m → 2 ≤ m →
      ∃ o S, PSO.minimize env R srt m { oldArgs with maxiter := m } g = .ok o ∧
        SwarmsOf R srt { oldArgs with maxiter := m } hole g o S ∧ k < o.res.nit ∧
        (∀ k', 0 < k' → k' < o.res.nit → (S k').pool.X (0 : Fin 2) = y ∧ (S k').pool.best = y) ∧
        ε ≤ |(S k).pos (0 : Fin 2) (0 : Fin 1) - y 0| := by
  obtain ⟨hm, hlaw⟩ := hQ.pairs (p := 2) (n := 1) 0 0
  have hae1 : ∀ᵐ ω ∂(inputs pairLaw), ¬ Tendsto (fun k => (chain (fun _ => pull 1 2 2 0 0) (1, 1) (fun i => ω (2 + i)) k).1) atTop (𝓝 0) := by
    have h := C97_inertia_kernel_violated (c1 := 2) (c2 := 2) (y := 0) (s := (1, 1)) (Or.inl two_ne_zero) one_ne_zero
    rw [← inputs_shift pairLaw 2] at h
    exact ae_of_ae_map (measurable_pi_lambda _ fun k => measurable_pi_apply _).aemeasurable h
  have hae2 : ∀ b : ℝ, ∀ᵐ ω ∂(inputs pairLaw), (ω 0).2 ≠ b := by
    intro b
    have h1 : ∀ᵐ r ∂pairLaw, r.2 ≠ b := by
      rw [ae_iff]
      have := pair_line_null (c1 := 0) (c2 := 1) (Or.inr one_ne_zero) b
      simpa using this
    exact (measurePreserving_eval_infinitePi (fun _ : Nat => pairLaw) 0).quasiMeasurePreserving.ae h1
  have hae : ∀ᵐ ω ∂(inputs pairLaw), ¬ Tendsto (fun k => (chain (fun _ => pull 1 2 2 0 0) (1, 1) (fun i => ω (2 + i)) k).1) atTop (𝓝 0) ∧
      (ω 0).2 ≠ 0 ∧ (ω 0).2 ≠ 1 / 2 := by
    filter_upwards [hae1, hae2 0, hae2 (1 / 2)] with ω h1 h2 h3
    exact ⟨h1, h2, h3⟩
  rw [← hlaw] at hae
  refine (ae_of_ae_map hm.aemeasurable hae).mono fun g ⟨hg, hr0, hr1⟩ => ?_
  set ω := pairs R 2 1 0 0 g with hω
  set u := (ω 0).2 with hu
  obtain ⟨ε, hε, hf⟩ := away_often hg
  have hpos : 0 < 2 * |u| := by
    have := abs_pos.2 hr0
    linarith
  refine ⟨fun _ => 1 - 2 * u, 2 * |u| * ε, by positivity, ?_⟩
  have hf2 : ∃ᶠ k in atTop, 2 ≤ k ∧ ε ≤ |(chain (fun _ => pull 1 2 2 0 0) (1, 1) (fun i => ω (2 + i)) (k - 2)).1| := by
    rw [frequently_atTop] at hf ⊢
    intro N
    obtain ⟨k, hk, h1⟩ := hf N
    rw [sub_zero] at h1
    exact ⟨k + 2, by omega, by omega, by rwa [Nat.add_sub_cancel]⟩
  refine hf2.mono fun k ⟨hk2, hk⟩ m hkm hm2 => ?_
  obtain ⟨o, ho⟩ := oldArgs_returns (R := R) (srt := srt) (g := g) he (f := hole) hm2 (w := 1) (c1 := 2) (c2 := 2) (by norm_num) (by norm_num) (by norm_num)
  obtain ⟨S, hS⟩ := swarmsOf (a := { oldArgs with maxiter := m }) (fn := hole) he rfl ho
  obtain ⟨hfirst, hgen⟩ := swarms_generation (a := { oldArgs with maxiter := m }) hS (X := fun i _ => if i.val = 0 then 1 else 0) rfl rfl
  refine ⟨o, S, ho, hS, ?_⟩
  have h2 : 2 ≤ o.res.nit := by
    obtain ⟨M, gs, hs, hr, -⟩ := hS
    exact hr.atleast
  have key := old_swarms (c := psoSetting R srt { oldArgs with maxiter := m } hole) (S := S) (g := g) (nit := o.res.nit)
    (st := fun k => if k + 2 = o.res.nit then some o.res.status else none) rfl (by rintro ⟨⟩) (Or.inl rfl) hfirst hgen (mul_ne_zero two_ne_zero hr0) (fun h => hr1 (by
      have h' : 2 * u = 1 := h
      linarith))
  have hnit : k < o.res.nit := by
    have h3 := swarms_all (a := { oldArgs with maxiter := m }) hS (Or.inl rfl) fun k' hk' hle => by
      have h5 : (S k').pool.bestfit ≤ .fin (1 / 10 ^ 8) := hle
      rcases Nat.eq_zero_or_pos k' with rfl | hpos'
      · rw [key.1, Val.fin_le_fin] at h5
        norm_num at h5
      · rw [(key.2.1 k' hpos' hk').2.2.1, Val.fin_le_fin] at h5
        norm_num at h5
    have h4 : (m : Int) ≤ o.res.nit := h3
    omega
  refine ⟨hnit, fun k' h1 h2 => ⟨(key.2.1 k' h1 h2).1, (key.2.1 k' h1 h2).2.1⟩, ?_⟩
  obtain ⟨d, rfl⟩ : ∃ d, k = d + 2 := ⟨k - 2, by omega⟩
  have h6 := (key.2.1 (d + 2) (by omega) hnit).2.2.2 d rfl
  have h7 : (S (d + 2)).pos (0 : Fin 2) (0 : Fin 1) - (1 - 2 * u) = -2 * u * (chain (fun _ => pull 1 2 2 0 0) (1, 1) (fun i => ω (2 + i)) d).1 := h6
  show 2 * |u| * ε ≤ |(S (d + 2)).pos (0 : Fin 2) (0 : Fin 1) - (1 - 2 * u)|
  rw [h7, abs_mul, abs_mul, abs_neg, abs_two]
  rw [Nat.add_sub_cancel] at hk
  exact mul_le_mul_of_nonneg_left hk (by positivity)

/-- The same two particles with the default parameters: the first one does come to rest in its best point, which is not where it started, and
it leaves that point with a velocity that is not zero. -/
example [MeasurableSpace σ] {Q : Measure σ} (hQ : Ideal R Q) (he : env.Ok) :
    ∀ᵐ g ∂Q, ∃ y : Vec ℝ 1, y 0 ≠ 1 ∧ ∀ ε : ℝ, 0 < ε → ∃ N : Nat, ∀ m : Nat, 2 ≤ m →
      ∃ o S, PSO.minimize env R srt m { oldArgs with inertia := 0.7298, cognitivity := 1.49618, sociability := 1.49618, maxiter := m } g = .ok o ∧
        SwarmsOf R srt { oldArgs with inertia := 0.7298, cognitivity := 1.49618, sociability := 1.49618, maxiter := m } hole g o S ∧
        (m : Int) ≤ o.res.nit ∧
        ∀ k, N ≤ k → k < o.res.nit → |(S k).pos (0 : Fin 2) (0 : Fin 1) - y 0| < ε ∧ |(S k).vel (0 : Fin 2) (0 : Fin 1)| < ε := by
  obtain ⟨hm, hlaw⟩ := hQ.pairs (p := 2) (n := 1) 0 0
  have hae2 : ∀ b : ℝ, ∀ᵐ ω ∂(inputs pairLaw), (ω 0).2 ≠ b := by
    intro b
    have h1 : ∀ᵐ r ∂pairLaw, r.2 ≠ b := by
      rw [ae_iff]
      have := pair_line_null (c1 := 0) (c2 := 1) (Or.inr one_ne_zero) b
      simpa using this
    exact (measurePreserving_eval_infinitePi (fun _ : Nat => pairLaw) 0).quasiMeasurePreserving.ae h1
  have hae : ∀ᵐ ω ∂(inputs pairLaw), (ω 0).2 ≠ 0 ∧ (ω 0).2 ≠ 1 / 1.49618 := by
    filter_upwards [hae2 0, hae2 (1 / 1.49618)] with ω h2 h3
    exact ⟨h2, h3⟩
  rw [← hlaw] at hae
  have hrest := C97_pso_partial (srt := srt) hQ he (a := { oldArgs with inertia := 0.7298, cognitivity := 1.49618, sociability := 1.49618 })
    (fn := hole) rfl (by show (0 : ℝ) ≤ 0.7298; norm_num) (by show (0.7298 : ℝ) < 1; norm_num)
    (by show Contracting 0.7298 1.49618 1.49618; unfold Contracting; norm_num) rfl rfl rfl
  filter_upwards [ae_of_ae_map hm.aemeasurable hae, hrest] with g hg hrest
  obtain ⟨hr0, hr1⟩ := hg
  set u := (pairs R 2 1 0 0 g 0).2 with hu
  refine ⟨fun _ => 1 - 1.49618 * u, fun h => hr0 (by linarith), fun ε hε => ?_⟩
  obtain ⟨N, hN⟩ := hrest 1 |1.49618 * u| ε hε
  refine ⟨1 + N, fun m hm2 => ?_⟩
  obtain ⟨o, ho⟩ := oldArgs_returns (R := R) (srt := srt) (g := g) he (f := hole) hm2 (w := 0.7298) (c1 := 1.49618) (c2 := 1.49618)
    (by norm_num) (by norm_num) (by norm_num)
  obtain ⟨S, hS, hconv⟩ := hN m m o ho
  obtain ⟨hfirst, hgen⟩ := swarms_generation
    (a := { oldArgs with inertia := 0.7298, cognitivity := 1.49618, sociability := 1.49618, maxiter := m }) hS
    (X := fun i _ => if i.val = 0 then 1 else 0) rfl rfl
  have key := old_swarms
    (c := psoSetting R srt { oldArgs with inertia := 0.7298, cognitivity := 1.49618, sociability := 1.49618, maxiter := m } hole)
    (S := S) (g := g) (nit := o.res.nit) (st := fun k => if k + 2 = o.res.nit then some o.res.status else none)
    rfl (by rintro ⟨⟩) (Or.inl rfl) hfirst hgen
    (mul_ne_zero (by show (1.49618 : ℝ) ≠ 0; norm_num) hr0) (fun h => hr1 (by
      have h' : 1.49618 * u = 1 := h
      rw [eq_div_iff (by norm_num)]
      linarith))
  have h3 := swarms_all (a := { oldArgs with inertia := 0.7298, cognitivity := 1.49618, sociability := 1.49618, maxiter := m })
    hS (Or.inl rfl) fun k' hk' hle => by
      have h5 : (S k').pool.bestfit ≤ .fin (1 / 10 ^ 8) := hle
      rcases Nat.eq_zero_or_pos k' with rfl | hpos'
      · rw [key.1, Val.fin_le_fin] at h5
        norm_num at h5
      · rw [(key.2.1 k' hpos' hk').2.2.1, Val.fin_le_fin] at h5
        norm_num at h5
  have h4 : (m : Int) ≤ o.res.nit := h3
  have hn : 1 < o.res.nit := by omega
  refine ⟨o, S, ho, hS, h4, fun k hk hkn => ?_⟩
  have e := key.2.2 hn
  have e1 : (S 1).pos (0 : Fin 2) (0 : Fin 1) = 1 - 1.49618 * u := congrArg Prod.fst e
  have e2 : (S 1).vel (0 : Fin 2) (0 : Fin 1) = -1.49618 * u := congrArg Prod.snd e
  exact hconv (0 : Fin 2) (fun _ => 1 - 1.49618 * u) (key.2.1 1 one_pos hn).1 (key.2.1 1 one_pos hn).2.1
    (fun j => by
      have hj : j = (0 : Fin 1) := Subsingleton.elim (α := Fin 1) _ _
      subst hj
      refine ⟨?_, ?_⟩
      · rw [show (S 1).pos (0 : Fin 2) (0 : Fin 1) = _ from e1, sub_self, abs_zero]
        exact abs_nonneg _
      · rw [show (S 1).vel (0 : Fin 2) (0 : Fin 1) = _ from e2, neg_mul, abs_neg])
    (Or.inl ⟨Or.inl rfl, fun k h1 h2 => ⟨(key.2.1 k (by omega) h2).1, (key.2.1 k (by omega) h2).2.1⟩⟩) k hk hkn (0 : Fin 1)

/-- Ideal generators exist, and a constant objective with two particles in different points meets the hypotheses of `C97_apart_violated`. -/
example (he : env.Ok) : ∀ᵐ g ∂streamLaw, ∀ z, ∃ ε, 0 < ε ∧ ∃ᶠ k in atTop, ∀ m : Nat, k < m → 2 ≤ m → ∃ o S,
    PSO.minimize env streamRng srt m { oldArgs with fn := some fun _ => .fin 1, inertia := 0.7298, maxiter := m } g = .ok o ∧
    SwarmsOf streamRng srt { oldArgs with fn := some fun _ => .fin 1, inertia := 0.7298, maxiter := m } (fun _ => .fin 1) g o S ∧
    k < o.res.nit ∧ ε ≤ |(S k).pos (1 : Fin 2) (0 : Fin 1) - z| := by
  have h := C97_apart_violated (srt := srt) stream_ideal he (a := { oldArgs with fn := some fun _ => .fin 1, inertia := 0.7298 }) (v := 1) rfl
    (by show ¬ Val.fin (1 : ℝ) ≤ .fin (1 / 10 ^ 8); rw [Val.fin_le_fin]; norm_num) (two_ne_zero (α := ℝ)) (two_ne_zero (α := ℝ)) rfl (Or.inl rfl)
    (X := fun i _ => if i.val = 0 then 1 else 0) rfl rfl (i := (1 : Fin 2)) (i0 := (0 : Fin 2)) rfl (j := (0 : Fin 1))
    (by show (0 : ℝ) ≠ 1; norm_num)
  refine h.mono fun g hg z => ?_
  obtain ⟨ε, hε, hf⟩ := hg z
  refine ⟨ε, hε, hf.mono fun k hk m hkm hm2 => ?_⟩
  obtain ⟨o, ho⟩ := oldArgs_returns (R := streamRng) (srt := srt) (g := g) he (f := fun _ => .fin 1) hm2 (w := 0.7298) (c1 := 2) (c2 := 2)
    (by norm_num) (by norm_num) (by norm_num)
  obtain ⟨S, h1, h2, -, h4⟩ := hk m m o hkm ho
  exact ⟨o, S, ho, h1, h2, h4⟩

end Runs

end Stochopy
