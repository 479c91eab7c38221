import Verif.Lemmas.Sampler
import Verif.Lemmas.Evolution
import Verif.Props.Concrete

/-!
# C31, C43, C44, C46–C49, C51, C52, C54–C56, C62–C64: the samplers
-/

set_option linter.unusedSectionVars false

namespace Stochopy
open Spec Sampling
variable {K σ : Type} [Field K] [LinearOrder K] [IsStrictOrderedRing K] [FloorRing K] [NumFns K] [LawfulNumFns K]
variable {R : Rng σ K} {fuel : Nat} {g : σ}

/-! ## Concrete chains -/

namespace Concrete

/-- Sum of squares of two coordinates. -/
def bowl (x : Vec (Val ℚ) 2) : Val ℚ := x 0 * x 0 + x 1 * x 1

/-- The point `(1/2, 0)`. -/
def start2 : NdArr ℚ := { shape := [2], get := fun l => if l.getD 0 0 = 0 then 1 / 2 else 0 }

/-- Arguments of both samplers: 5 samples in the box `[-1, 1]^2`. -/
def samplerArgs : Sampling.Args ℚ :=
  { bounds := bounds2, fn := some bowl, x0 := some start2, maxiter := 5, stepsize := .scalar false (1 / 2), seed := some 1,
    constraints := none, returnAll := true, callback := some true }

def mcmcArgs : MCMC.Args ℚ := { samplerArgs with perc := 1 / 2 }

def hmcArgs : HMC.Args ℚ := { samplerArgs with nleap := 2, jac := none, fdStep := 1 / 100, extraArgs := false }

/-- Some but not all of the proposals are accepted. -/
def mixed {n : Nat} (o : Sampling.Output Nat ℚ n) : Bool := decide (0 < o.acceptRatio) && decide (o.acceptRatio < 4 / 5)

theorem mcmc_run : ∃ o, (MCMC.sample rng 10 mcmcArgs 0).1 = .ok o ∧ mixed o = true := returns_iff (by decide +kernel)

theorem hmc_run : ∃ o, (HMC.sample rng hmcArgs 0).1 = .ok o ∧ mixed o = true := returns_iff (by decide +kernel)

/-- The samples recorded by a chain. -/
def samples {n : Nat} (r : Except PyErr (Sampling.Output Nat ℚ n)) : Option (List (List (Val ℚ))) :=
  match r with
  | .ok o => o.xall.map fun l => l.map List.ofFn
  | .error _ => none

theorem mcmc_valid : ValidMCMC mcmcArgs where
  objective := rfl
  bounds := rfl
  x0 := by intro x hx; cases hx; exact Or.inl rfl
  stepsize := rfl
  callback := by decide
  maxiter := by decide
  perc := by simp only [mcmcArgs]; norm_num

theorem hmc_valid : ValidHMC hmcArgs where
  objective := rfl
  bounds := rfl
  x0 := by intro x hx; cases hx; exact Or.inl rfl
  stepsize := rfl
  callback := by decide
  maxiter := by decide
  nleap := by decide
  jac := by intro h; cases h

end Concrete
open Concrete

/-! ## C31 -/

/-- With a seed a chain does not depend on the previous state of the generator. -/
theorem C31_mcmc {a : MCMC.Args K} {s : Int} (hs : a.seed = some s) (g' : σ) :
    MCMC.sample R fuel a g = MCMC.sample R fuel a g' := by
  have : a.seeded R g = a.seeded R g' := by unfold Sampling.Args.seeded; rw [hs]
  unfold MCMC.sample MCMC.rest
  rw [this]

theorem C31_hmc {a : HMC.Args K} {s : Int} (hs : a.seed = some s) (g' : σ) : HMC.sample R a g = HMC.sample R a g' := by
  have : a.seeded R g = a.seeded R g' := by unfold Sampling.Args.seeded; rw [hs]
  unfold HMC.sample HMC.rest
  rw [this]

/-- Without a seed it does. -/
example : samples (MCMC.sample rng 10 { mcmcArgs with seed := none } 0).1 ≠
    samples (MCMC.sample rng 10 { mcmcArgs with seed := none } 1).1 := by decide +kernel

/-! ## C43 -/

/-- The recorded values are the values of the recorded samples; there are `maxiter` of each; the first sample is the given
one, or the one drawn from the box. -/
theorem C43_mcmc (hR : R.Ok) {a : MCMC.Args K} {o : Sampling.Output σ K a.ndim} {fn : Vec (Val K) a.ndim → Val K}
    (hfn : a.fn = some fn) (h : (MCMC.sample R fuel a g).1 = .ok o) :
    o.nit = a.maxiter ∧ (a.returnAll = false → o.xall = none ∧ o.funall = none) ∧
    (a.returnAll = true → ∃ xs x1, o.xall = some xs ∧ o.funall = some (xs.map fn) ∧ (xs.length : Int) = a.maxiter ∧
      xs[0]? = some x1 ∧ FirstSample R a.toArgs g x1 ∧
      (a.x0 = none → (∀ j : Fin a.ndim, a.bounds.get [j, 0] ≤ a.bounds.get [j, 1]) →
        Inside (fun j => a.bounds.get [j, 0]) (fun j => a.bounds.get [j, 1]) x1)) := by
  obtain ⟨xs, ms, s, x1, hrun, rfl, rfl, hI, hfs, hg, hev, _⟩ := MCMC.run_of_ok hR hfn h
  refine ⟨rfl, ?_, ?_⟩
  · intro hr
    show Sampling.attach a.returnAll _ = _ ∧ Sampling.attach a.returnAll _ = _
    rw [hr]; exact ⟨rfl, rfl⟩
  · intro hr
    refine ⟨s.xs, x1, ?_, ?_, hrun.length, hI.first, hfs, ?_⟩
    · show Sampling.attach a.returnAll _ = _
      rw [hr]; rfl
    · show Sampling.attach a.returnAll _ = _
      rw [hr, hI.vals]; rfl
    · intro hx hb
      obtain ⟨fn', st, s', x, g', h1, h2, h3, h4, h5, h6, h7, _⟩ := MCMC.sample_ok h
      obtain ⟨hfs', _⟩ := first_spec h7
      have e1 : x1 = x := by
        unfold FirstSample at hfs hfs'
        rw [hx] at hfs hfs'
        exact hfs.trans hfs'.symm
      rw [e1]
      exact first_inside hR h7 hx hb

theorem C43_hmc (hR : R.Ok) {a : HMC.Args K} {o : Sampling.Output σ K a.ndim} {fn : Vec (Val K) a.ndim → Val K}
    (hfn : a.fn = some fn) (h : (HMC.sample R a g).1 = .ok o) :
    o.nit = a.maxiter ∧ (a.returnAll = false → o.xall = none ∧ o.funall = none) ∧
    (a.returnAll = true → ∃ xs x1, o.xall = some xs ∧ o.funall = some (xs.map fn) ∧ (xs.length : Int) = a.maxiter ∧
      xs[0]? = some x1 ∧ FirstSample R a.toArgs g x1 ∧
      (a.x0 = none → (∀ j : Fin a.ndim, a.bounds.get [j, 0] ≤ a.bounds.get [j, 1]) →
        Inside (fun j => a.bounds.get [j, 0]) (fun j => a.bounds.get [j, 1]) x1)) := by
  obtain ⟨ms, s, x1, hI, hfs, _, hfin, hlen, hg, hev, _⟩ := HMC.run_of_ok hfn h
  unfold HMC.finish at hfin
  obtain ⟨idx, _, hfin⟩ := bind_ok_iff.1 hfin
  cases hfin
  refine ⟨rfl, ?_, ?_⟩
  · intro hr
    show Sampling.attach a.returnAll _ = _ ∧ Sampling.attach a.returnAll _ = _
    rw [hr]; exact ⟨rfl, rfl⟩
  · intro hr
    refine ⟨s.xs, x1, ?_, ?_, hlen, hI.first, hfs, ?_⟩
    · show Sampling.attach a.returnAll _ = _
      rw [hr]; rfl
    · show Sampling.attach a.returnAll _ = _
      rw [hr, hI.vals]; rfl
    · intro hx hb
      obtain ⟨fn', st, s', x, g', h1, h2, h3, h4, h5, h6, h7, h8, _⟩ := HMC.sample_ok h
      obtain ⟨hfs', _⟩ := first_spec h8
      have e1 : x1 = x := by
        unfold FirstSample at hfs hfs'
        rw [hx] at hfs hfs'
        exact hfs.trans hfs'.symm
      rw [e1]
      exact first_inside hR h8 hx hb

/-- Chains meeting the hypotheses. -/
example : ∃ o, (MCMC.sample rng 10 mcmcArgs 0).1 = .ok o ∧ (HMC.sample rng hmcArgs 0).1.isOk = true := by
  obtain ⟨o, h, _⟩ := mcmc_run
  obtain ⟨o', h', _⟩ := hmc_run
  exact ⟨o, h, by rw [h']; rfl⟩

/-! ## C44 -/

/-- A completed 'mcmc' chain: moves link the samples, each proposal perturbs the next block of coordinates with fresh
scaled normal numbers, the test decides (`McmcRun`); each block is full and inside the vector. The objective is called
once on the first sample and once per tested proposal, and the generator is left where the last iteration put it. -/
theorem C44_mcmc (hR : R.Ok) {a : MCMC.Args K} {o : Sampling.Output σ K a.ndim} {fn : Vec (Val K) a.ndim → Val K}
    (hfn : a.fn = some fn) (h : (MCMC.sample R fuel a g).1 = .ok o) :
    ∃ xs ms, McmcRun R a g fn xs ms ∧ (a.returnAll = true → o.xall = some xs) ∧
      o.rng = genAt R (blockSize a.perc a.ndim) (!decide (a.constraints = some "Reject")) (genStart R a.toArgs g)
        (a.maxiter.toNat - 1) ∧
      o.evals = xs.take 1 ++ (if a.constraints = some "Reject" then [] else ms.map Move.prop) ∧
      (∀ k, k + 1 < a.maxiter.toNat →
        (k % blockCount a.ndim (blockSize a.perc a.ndim) + 1) * blockSize a.perc a.ndim ≤ a.ndim) := by
  obtain ⟨xs, ms, s, x1, hrun, rfl, rfl, hI, hfs, hg, hev, hfit⟩ := MCMC.run_of_ok hR hfn h
  refine ⟨s.xs, ms, hrun, ?_, hg, ?_, ?_⟩
  · intro hr
    show Sampling.attach a.returnAll _ = _
    rw [hr]; rfl
  · show s.evals = _
    rw [hev]
    have := hI.first
    cases hx : s.xs with
    | nil => rw [hx] at this; simp at this
    | cons y l => rw [hx] at this; simp at this; rw [this]; rfl
  · intro k hk
    have hk' : k < ms.length := by rw [hI.moves]; omega
    have := hfit k _ (List.getElem?_eq_getElem hk')
    rw [Nat.add_mul, Nat.one_mul]
    exact this

/-- The blocks visited in one sweep are disjoint and cover every coordinate. -/
theorem C44_cover {n per : Nat} (hp : 0 < per) (c : Fin n) :
    ∃! b, b < blockCount n per ∧ ∃ k, k < n ∧ k % blockCount n per = b ∧ c.val / per = b := by
  have hc := c.isLt
  have hb : c.val / per < blockCount n per := by
    unfold blockCount
    rw [Nat.div_lt_iff_lt_mul hp]
    have h1 := Nat.div_add_mod (n + per - 1) per
    have h2 := Nat.mod_lt (n + per - 1) hp
    rw [Nat.mul_comm] at h1
    omega
  refine ⟨c.val / per, ⟨hb, c.val / per, lt_of_le_of_lt (Nat.div_le_self _ _) hc, Nat.mod_eq_of_lt hb, rfl⟩, ?_⟩
  rintro b ⟨_, k, _, _, h⟩
  exact h.symm

/-! ## C46 -/

/-- Every tested proposal whose value is NaN is accepted. -/
theorem C46_mcmc_violated (hR : R.Ok) {a : MCMC.Args K} {o : Sampling.Output σ K a.ndim}
    {fn : Vec (Val K) a.ndim → Val K} (hfn : a.fn = some fn) (hc : a.constraints ≠ some "Reject")
    (h : (MCMC.sample R fuel a g).1 = .ok o) :
    ∃ xs ms, McmcRun R a g fn xs ms ∧ (a.returnAll = true → o.xall = some xs) ∧
      ∀ m ∈ ms, fn m.prop = .nan → m.accepted = true := by
  obtain ⟨xs, ms, hrun, hx, _⟩ := C44_mcmc hR hfn h
  refine ⟨xs, ms, hrun, hx, ?_⟩
  intro m hm hnan
  obtain ⟨k, hk⟩ := List.getElem?_of_mem hm
  rw [hrun.test k m hk, hnan]
  refine ⟨hc, ?_⟩
  cases fn m.old <;> trivial

namespace Concrete

/-- The bowl, undefined on the left half plane. -/
def half (x : Vec (Val ℚ) 2) : Val ℚ := if x 0 < .fin (1 / 2) then .nan else bowl x

def nanArgs : MCMC.Args ℚ := { mcmcArgs with bounds := bounds2, fn := some half }

/-- A NaN is recorded after the first sample. -/
def hasNan {n : Nat} (o : Sampling.Output Nat ℚ n) : Bool :=
  match o.funall with
  | some fs => decide (Val.nan ∈ fs) && decide (fs.head? ≠ some .nan)
  | none => false

/-- Nothing was accepted. -/
def stuck {n : Nat} (o : Sampling.Output Nat ℚ n) : Bool := decide (o.acceptRatio = 0)

/-- +inf is reported for a point with value 1/4. -/
def wrongBest (o : Sampling.Output Nat ℚ 2) : Bool := decide (o.fval = .pinf) && decide (bowl o.x = .fin (1 / 4))

end Concrete

/-- A chain that visits a point with value NaN. -/
theorem C46_violated : ∃ (a : MCMC.Args ℚ) (o : Sampling.Output Nat ℚ a.ndim) (fs : List (Val ℚ)),
    (MCMC.sample rng 10 a 0).1 = .ok o ∧ o.funall = some fs ∧ .nan ∈ fs ∧ fs.head? ≠ some .nan := by
  obtain ⟨o, h, ht⟩ := returns_iff (r := (MCMC.sample rng 10 nanArgs 0).1) (t := hasNan) (by decide +kernel)
  unfold hasNan at ht
  cases hf : o.funall with
  | none => rw [hf] at ht; cases ht
  | some fs =>
    rw [hf, Bool.and_eq_true] at ht
    exact ⟨_, o, fs, h, hf, of_decide_eq_true ht.1, of_decide_eq_true ht.2⟩

/-- What is true: a proposal with value +inf is never accepted from a sample with a finite value. -/
theorem C46_mcmc_partial (hR : R.Ok) {a : MCMC.Args K} {o : Sampling.Output σ K a.ndim}
    {fn : Vec (Val K) a.ndim → Val K} (hfn : a.fn = some fn) (h : (MCMC.sample R fuel a g).1 = .ok o) :
    ∃ xs ms, McmcRun R a g fn xs ms ∧ (a.returnAll = true → o.xall = some xs) ∧
      ∀ m ∈ ms, fn m.prop = .pinf → (∃ v, fn m.old = .fin v) → m.accepted = false := by
  obtain ⟨xs, ms, hrun, hx, _⟩ := C44_mcmc hR hfn h
  refine ⟨xs, ms, hrun, hx, ?_⟩
  rintro m hm hinf ⟨v, hv⟩
  obtain ⟨k, hk⟩ := List.getElem?_of_mem hm
  rw [← Bool.not_eq_true, hrun.test k m hk, hinf, hv]
  exact fun h => h.2

/-! ## C47 -/

theorem constant_of_none {X : Type} {xs : List X} {ms : List (Move X)} (hl : Links xs ms)
    (hm : ∀ m ∈ ms, m.accepted = false) {x1 : X} (h1 : xs[0]? = some x1) : ∀ x ∈ xs, x = x1 := by
  have key : ∀ (k : Nat) (x : X), xs[k]? = some x → x = x1 := by
    intro k
    induction k with
    | zero => intro x hx; rw [h1] at hx; exact (Option.some.inj hx).symm
    | succ k ih =>
      intro x hx
      obtain ⟨hlt, _⟩ := List.getElem?_eq_some_iff.1 hx
      have hk : k < ms.length := by have := hl.1; omega
      obtain ⟨h2, h3⟩ := hl.2 k _ (List.getElem?_eq_getElem hk)
      rw [hx] at h3
      have := hm _ (List.getElem_mem hk)
      unfold Move.next at h3
      rw [this, if_neg (by simp)] at h3
      rw [Option.some.inj h3]
      exact ih _ h2
  intro x hx
  obtain ⟨k, hk⟩ := List.getElem?_of_mem hx
  exact key k x hk

/-- With constraints="Reject" every proposal is rejected, feasible or not: the chain never moves. -/
theorem C47_mcmc_violated (hR : R.Ok) {a : MCMC.Args K} {o : Sampling.Output σ K a.ndim}
    (hc : a.constraints = some "Reject") (h : (MCMC.sample R fuel a g).1 = .ok o) :
    o.acceptRatio = 0 ∧ ∀ xs, o.xall = some xs → ∃ x1, ∀ x ∈ xs, x = x1 := by
  obtain ⟨fn, _, _, _, _, hfn, _⟩ := MCMC.sample_ok h
  obtain ⟨xs, ms, s, x1, hrun, rfl, rfl, hI, _⟩ := MCMC.run_of_ok hR hfn h
  have hm : ∀ m ∈ ms, m.accepted = false := by
    intro m hm
    obtain ⟨k, hk⟩ := List.getElem?_of_mem hm
    rw [← Bool.not_eq_true, hrun.test k m hk]
    exact fun h => h.1 hc
  refine ⟨?_, ?_⟩
  · show (s.nacc : K) / _ = 0
    rw [hI.nacc]
    unfold accepted
    rw [List.filter_eq_nil_iff.2 (by intro m h; simp [hm m h])]
    simp
  · intro xs hx
    have hx' : Sampling.attach a.returnAll s.xs = some xs := hx
    unfold Sampling.attach at hx'
    split_ifs at hx'
    cases hx'
    exact ⟨x1, constant_of_none hI.links hm hI.first⟩

theorem C47_hmc_violated {a : HMC.Args K} {o : Sampling.Output σ K a.ndim}
    (hc : a.constraints = some "Reject") (h : (HMC.sample R a g).1 = .ok o) :
    o.acceptRatio = 0 ∧ ∀ xs, o.xall = some xs → ∃ x1, ∀ x ∈ xs, x = x1 := by
  obtain ⟨fn, _, _, _, _, hfn, _⟩ := HMC.sample_ok h
  obtain ⟨ms, s, x1, hI, hfs, _, hfin, hlen, hg, hev, hmv⟩ := HMC.run_of_ok hfn h
  have hm : ∀ m ∈ ms, m.accepted = false := by
    intro m hm
    obtain ⟨k, hk⟩ := List.getElem?_of_mem hm
    obtain ⟨r, _, _, h3⟩ := hmv k m hk
    rw [h3, truthy_inSearchSpace]
    have : (HMC.par R a fn (scaleOf a.toArgs)).constraints = some "Reject" := hc
    rw [this]
    rfl
  unfold HMC.finish at hfin
  obtain ⟨idx, _, hfin⟩ := bind_ok_iff.1 hfin
  cases hfin
  refine ⟨?_, ?_⟩
  · show (s.nacc : K) / _ = 0
    rw [hI.nacc]
    unfold accepted
    rw [List.filter_eq_nil_iff.2 (by intro m h; simp [hm m h])]
    simp
  · intro xs hx
    have hx' : Sampling.attach a.returnAll s.xs = some xs := hx
    unfold Sampling.attach at hx'
    split_ifs at hx'
    cases hx'
    exact ⟨x1, constant_of_none hI.links hm hI.first⟩

/-- Without the constraint the same calls do move, to feasible points. -/
theorem C47_violated :
    (∃ o o', (MCMC.sample rng 10 { mcmcArgs with constraints := some "Reject" } 0).1 = .ok o ∧ o.acceptRatio = 0 ∧
      (MCMC.sample rng 10 mcmcArgs 0).1 = .ok o' ∧ 0 < o'.acceptRatio) ∧
    ∃ o o', (HMC.sample rng { hmcArgs with constraints := some "Reject" } 0).1 = .ok o ∧ o.acceptRatio = 0 ∧
      (HMC.sample rng hmcArgs 0).1 = .ok o' ∧ 0 < o'.acceptRatio := by
  obtain ⟨o1, h1, t1⟩ := mcmc_run
  obtain ⟨o2, h2, t2⟩ := hmc_run
  unfold mixed at t1 t2
  rw [Bool.and_eq_true] at t1 t2
  have r1 := returns_iff (r := (MCMC.sample rng 10 { mcmcArgs with constraints := some "Reject" } 0).1) (t := stuck)
    (by decide +kernel)
  have r2 := returns_iff (r := (HMC.sample rng { hmcArgs with constraints := some "Reject" } 0).1) (t := stuck)
    (by decide +kernel)
  obtain ⟨p1, q1, s1⟩ := r1
  obtain ⟨p2, q2, s2⟩ := r2
  exact ⟨⟨p1, o1, q1, of_decide_eq_true s1, h1, of_decide_eq_true t1.1⟩,
    p2, o2, q2, of_decide_eq_true s2, h2, of_decide_eq_true t2.1⟩

/-- What is true: with constraints="Reject" no infeasible proposal is accepted, so that all samples lie in the box if the
first one does. -/
theorem C47_mcmc_partial (hR : R.Ok) {a : MCMC.Args K} {o : Sampling.Output σ K a.ndim}
    (hc : a.constraints = some "Reject") (h : (MCMC.sample R fuel a g).1 = .ok o) {xs : List (Vec (Val K) a.ndim)}
    (hx : o.xall = some xs) {lower upper : Vec K a.ndim} (h1 : ∀ x, xs[0]? = some x → Inside lower upper x) :
    ∀ x ∈ xs, Inside lower upper x := by
  obtain ⟨x1, hall⟩ := (C47_mcmc_violated hR hc h).2 xs hx
  intro x hxm
  cases xs with
  | nil => cases hxm
  | cons y l =>
    rw [hall x hxm, ← hall y (by simp)]
    exact h1 y rfl

theorem C47_hmc_partial {a : HMC.Args K} {o : Sampling.Output σ K a.ndim}
    (hc : a.constraints = some "Reject") (h : (HMC.sample R a g).1 = .ok o) {xs : List (Vec (Val K) a.ndim)}
    (hx : o.xall = some xs) {lower upper : Vec K a.ndim} (h1 : ∀ x, xs[0]? = some x → Inside lower upper x) :
    ∀ x ∈ xs, Inside lower upper x := by
  obtain ⟨x1, hall⟩ := (C47_hmc_violated hc h).2 xs hx
  intro x hxm
  cases xs with
  | nil => cases hxm
  | cons y l =>
    rw [hall x hxm, ← hall y (by simp)]
    exact h1 y rfl

/-! ## C48 -/

/-- 'hmc' returns a best sample: its value is the reported one, and no recorded value is smaller (with a NaN among the
recorded values the result is NaN). -/
theorem C48_hmc {a : HMC.Args K} {o : Sampling.Output σ K a.ndim} {fn : Vec (Val K) a.ndim → Val K}
    (hfn : a.fn = some fn) (hra : a.returnAll = true) (h : (HMC.sample R a g).1 = .ok o) :
    ∃ xs fs, o.xall = some xs ∧ o.funall = some fs ∧ o.x ∈ xs ∧ o.fval = fn o.x ∧ o.fval ∈ fs ∧
      (.nan ∉ fs → ∀ v ∈ fs, o.fval ≤ v) := by
  obtain ⟨ms, s, x1, hI, hfs, _, hfin, hlen, hg, hev, hmv⟩ := HMC.run_of_ok hfn h
  unfold HMC.finish at hfin
  obtain ⟨idx, hidx, hfin⟩ := bind_ok_iff.1 hfin
  cases hfin
  have hl : idx.val < s.xs.length := by
    have h1 := idx.isLt
    have h2 : s.fs.length = s.xs.length := by rw [hI.vals, List.length_map]
    omega
  have hx : s.xs.getD idx.val s.xcur = s.xs[idx.val] := by
    rw [List.getD_eq_getElem?_getD, List.getElem?_eq_getElem hl]; rfl
  have hf : s.fs.get idx = fn s.xs[idx.val] := by
    have h2 : ∀ i (hi : i < s.xs.length), s.fs[i]? = some (fn s.xs[i]) := by
      intro i hi
      rw [hI.vals, List.getElem?_map, List.getElem?_eq_getElem hi]; rfl
    have h3 := h2 idx.val hl
    rw [List.getElem?_eq_getElem idx.isLt] at h3
    exact Option.some.inj h3
  refine ⟨s.xs, s.fs, ?_, ?_, ?_, ?_, ?_, ?_⟩
  · show Sampling.attach a.returnAll _ = _
    rw [hra]; rfl
  · show Sampling.attach a.returnAll _ = _
    rw [hra]; rfl
  · show s.xs.getD idx.val s.xcur ∈ s.xs
    rw [hx]; exact List.getElem_mem hl
  · show s.fs.get idx = fn (s.xs.getD idx.val s.xcur)
    rw [hx, hf]
  · show s.fs.get idx ∈ s.fs
    exact List.get_mem _ _
  · intro hnan v hv
    obtain ⟨i, rfl⟩ := List.get_of_mem hv
    refine argmin_le hidx ?_ i
    intro hn
    exact hnan (hn ▸ List.get_mem _ _)

/-- 'mcmc' ignores the first sample: a chain of one sample reports +inf. -/
theorem C48_mcmc_violated : ∃ o, (MCMC.sample rng 10 { mcmcArgs with maxiter := 1 } 0).1 = .ok o ∧
    o.fval = .pinf ∧ bowl o.x = .fin (1 / 4) := by
  obtain ⟨o, h, ht⟩ := returns_iff (r := (MCMC.sample rng 10 { mcmcArgs with maxiter := 1 } 0).1) (t := wrongBest)
    (by decide +kernel)
  unfold wrongBest at ht
  rw [Bool.and_eq_true] at ht
  exact ⟨o, h, of_decide_eq_true ht.1, of_decide_eq_true ht.2⟩

/-- In general: whenever no proposal was accepted, 'mcmc' reports +inf. -/
theorem C48_mcmc_violated_none (hR : R.Ok) {a : MCMC.Args K} {o : Sampling.Output σ K a.ndim}
    (h : (MCMC.sample R fuel a g).1 = .ok o) (h0 : o.acceptRatio = 0) : o.fval = .pinf := by
  obtain ⟨fn, _, _, _, _, hfn, _, _, _, _, hm0, _⟩ := MCMC.sample_ok h
  obtain ⟨xs, ms, s, x1, hrun, rfl, rfl, hI, _⟩ := MCMC.run_of_ok hR hfn h
  have hz : (s.nacc : K) / (a.maxiter : K) = 0 := h0
  have hm1 : (a.maxiter : K) ≠ 0 := by
    have : (0 : K) < a.maxiter := by exact_mod_cast hm0
    exact this.ne'
  rw [div_eq_zero_iff] at hz
  have hn : s.nacc = 0 := by
    rcases hz with hz | hz
    · exact_mod_cast hz
    · exact absurd hz hm1
  rcases hI.best' with h1 | ⟨m, hm, hacc, _⟩
  · exact h1
  · rw [hI.nacc] at hn
    unfold accepted at hn
    have := List.eq_nil_of_length_eq_zero hn
    have hmem : m ∈ ms.filter Move.accepted := List.mem_filter.2 ⟨hm, hacc⟩
    rw [this] at hmem
    cases hmem

/-- What is true: unless it is +inf the reported value is the value of the reported point, a recorded sample, and is
smallest among the accepted proposals. -/
theorem C48_mcmc_partial (hR : R.Ok) {a : MCMC.Args K} {o : Sampling.Output σ K a.ndim}
    {fn : Vec (Val K) a.ndim → Val K} (hfn : a.fn = some fn) (h : (MCMC.sample R fuel a g).1 = .ok o) :
    ∃ xs ms, McmcRun R a g fn xs ms ∧ (a.returnAll = true → o.xall = some xs) ∧ o.x ∈ xs ∧
      (∀ m ∈ ms, m.accepted = true → ¬ fn m.prop < o.fval) ∧
      (o.fval = .pinf ∨ o.fval = fn o.x ∧ ∃ m ∈ ms, m.accepted = true ∧ fn m.prop = o.fval) := by
  obtain ⟨xs, ms, s, x1, hrun, rfl, rfl, hI, _⟩ := MCMC.run_of_ok hR hfn h
  have hlast : s.xcur ∈ s.xs := List.mem_of_getElem? hI.last
  refine ⟨s.xs, ms, hrun, ?_, ?_, hI.best, ?_⟩
  · intro hr
    show Sampling.attach a.returnAll _ = _
    rw [hr]; rfl
  · show s.xs.getD s.imin s.xcur ∈ s.xs
    rw [List.getD_eq_getElem?_getD]
    cases hx : s.xs[s.imin]? with
    | none => exact hlast
    | some y => exact List.mem_of_getElem? hx
  · rcases hI.imin with ⟨h1, h2⟩ | ⟨_, h2⟩
    · right
      refine ⟨?_, ?_⟩
      · show s.fmin = fn (s.xs.getD s.imin s.xcur)
        rw [hI.vals, List.getElem?_map] at h1
        obtain ⟨y, hy, hy'⟩ := Option.map_eq_some_iff.1 h1
        rw [List.getD_eq_getElem?_getD, hy]
        exact hy'.symm
      · rcases hI.best' with h3 | h3
        · rw [h3] at h2; exact absurd h2 (fun h => Val.lt_irrefl' h)
        · exact h3
    · exact Or.inl h2

/-! ## C49, C62 -/

/-- A valid call of 'mcmc' (on a non-empty vector) returns exactly when the blocks have equal size, or the chain is over
before the short block is reached; otherwise it raises ValueError. -/
theorem C49_mcmc_partial {a : MCMC.Args K} (hR : R.Ok) (hv : ValidMCMC a) (hn : 0 < a.ndim)
    (hf : a.maxiter.toNat ≤ fuel) :
    ((∃ o, (MCMC.sample R fuel a g).1 = .ok o) ↔
      (blockSize a.perc a.ndim ∣ a.ndim ∨ a.maxiter ≤ (a.ndim / blockSize a.perc a.ndim : Nat) + 1)) ∧
    ((∃ o, (MCMC.sample R fuel a g).1 = .ok o) ∨ (MCMC.sample R fuel a g).1 = .error .valueError) := by
  refine ⟨⟨?_, MCMC.sample_total hv hn hf⟩, MCMC.sample_dichotomy hv hn hf⟩
  rintro ⟨o, h⟩
  obtain ⟨fn, hfn⟩ := Option.isSome_iff_exists.1 hv.objective
  obtain ⟨xs, ms, s, x1, hrun, rfl, rfl, hI, _, _, _, hfit⟩ := MCMC.run_of_ok hR hfn h
  have hp : 0 < blockSize a.perc a.ndim := lt_of_lt_of_le Nat.zero_lt_one (le_max_left _ _)
  have := (MCMC.fits_iff (N := a.maxiter.toNat - 1) hp hn (MCMC.blockSize_le hv.perc.2 hn)).1 (by
    intro i hi
    have hi' : i < ms.length := by rw [hI.moves]; exact hi
    exact hfit i _ (List.getElem?_eq_getElem hi'))
  have hm := hv.maxiter
  refine this.imp id ?_
  generalize a.ndim / blockSize a.perc a.ndim = q
  intro h
  omega

/-- Full statement of C49 fails: in three dimensions with perc = 0.7 the third sample is never drawn. -/
theorem C49_violated : ∃ a : MCMC.Args ℚ, ValidMCMC a ∧ a.ndim = 3 ∧ a.perc = 7 / 10 ∧
    (MCMC.sample rng 10 a 0).1.toOption.isNone = true ∧
    ∀ fuel, 3 ≤ fuel → (MCMC.sample rng fuel a 0).1 = .error .valueError := by
  let f : Vec (Val ℚ) 3 → Val ℚ := fun x => x 0 * x 0
  let a : MCMC.Args ℚ :=
    { bounds := { shape := [3, 2], get := fun l => if l.getD 1 0 = 0 then -1 else 1 }, fn := some f,
      x0 := none, maxiter := 3, stepsize := .scalar false (1 / 2), seed := some 1, constraints := none, returnAll := true,
      callback := none, perc := 7 / 10 }
  have hv : ValidMCMC a :=
    { objective := rfl, bounds := rfl, x0 := (by intro x hx; cases hx), stepsize := rfl, callback := by decide,
      maxiter := by decide, perc := by show (0 : ℚ) ≤ 7 / 10 ∧ (7 / 10 : ℚ) ≤ 1; norm_num }
  have hb : blockSize a.perc a.ndim = 2 := by decide +kernel
  have hall : ∀ fuel, 3 ≤ fuel → (MCMC.sample rng fuel a 0).1 = .error .valueError := by
    intro fuel hf
    obtain ⟨h1, h2⟩ := C49_mcmc_partial (R := rng) (fuel := fuel) (g := 0) rng_ok hv (by decide) hf
    rcases h2 with h2 | h2
    · exfalso
      have := h1.1 h2
      rw [hb] at this
      revert this
      decide
    · exact h2
  refine ⟨a, hv, rfl, rfl, ?_, hall⟩
  rw [hall 10 (by norm_num)]
  rfl

/-- With no variables the loop of 'mcmc' never ends (unless one sample is wanted). -/
theorem C49_violated_empty {a : MCMC.Args K} (hn : a.ndim = 0) (hm : 2 ≤ a.maxiter) (fuel : Nat) :
    ¬ ∃ o, (MCMC.sample R fuel a g).1 = .ok o := by
  rintro ⟨o, h⟩
  obtain ⟨fn, st, s, x, g', h1, h2, h3, h4, h5, h6, h7, h8, h9, h10⟩ := MCMC.sample_ok h
  have := h9 hn
  omega

/-- 'mcmc' returns exactly for valid arguments, equal blocks (or a short chain) and at least one variable (or one
sample). -/
theorem C62_mcmc {a : MCMC.Args K} (hR : R.Ok) (hf : a.maxiter.toNat ≤ fuel) :
    (∃ o, (MCMC.sample R fuel a g).1 = .ok o) ↔ ValidMCMC a ∧
      (0 < a.ndim ∧ (blockSize a.perc a.ndim ∣ a.ndim ∨ a.maxiter ≤ (a.ndim / blockSize a.perc a.ndim : Nat) + 1) ∨
        a.ndim = 0 ∧ a.maxiter = 1) := by
  constructor
  · rintro ⟨o, h⟩
    obtain ⟨fn, st, s, x, g', h1, h2, h3, h4, h5, h6, h7, h8, h9, h10⟩ := MCMC.sample_ok h
    have hv : ValidMCMC a := { toValidSampler := valid_of_ok h2 h3 h5 h6 h7, perc := h4 }
    refine ⟨hv, ?_⟩
    rcases Nat.eq_zero_or_pos a.ndim with hn | hn
    · exact Or.inr ⟨hn, h9 hn⟩
    · exact Or.inl ⟨hn, ((C49_mcmc_partial hR hv hn hf).1).1 ⟨o, h⟩⟩
  · rintro ⟨hv, ⟨hn, hfit⟩ | ⟨hn, hm⟩⟩
    · exact MCMC.sample_total hv hn hf hfit
    · obtain ⟨fn, hfn⟩ := Option.isSome_iff_exists.1 hv.objective
      obtain ⟨s0, hs0⟩ := start_of_valid fn R (a.seeded R g) hv.x0 hv.maxiter
      obtain ⟨_, x, g', _, _, _, _, hI⟩ := start_inv hs0
      have hbc : a.badCallback = false := by
        unfold Sampling.Args.badCallback
        have := hv.callback
        cases hc : a.callback with
        | none => rfl
        | some b => cases b with
          | true => rfl
          | false => exact absurd hc this
      have hl : ∀ (P : MCMC.Par σ K a.ndim), P.maxiter = 1 → MCMC.loop P fuel s0 = .ok s0 := by
        intro P hP
        have : s0.xs.length = 1 := by simpa using hI.len
        cases fuel with
        | zero => unfold MCMC.loop; rw [if_neg (by omega)]
        | succ f => unfold MCMC.loop; rw [if_neg (by omega)]
      unfold MCMC.sample
      rw [hfn, checkStart_of_valid hv.toValidSampler, scale_of_valid hv.stepsize]
      dsimp only
      unfold MCMC.rest
      rw [if_neg (by simpa using hv.perc), hbc, if_neg (by simp), hs0, ok_bind', hl _ (by show a.maxiter.toNat = 1; omega)]
      exact ⟨_, rfl⟩

/-- 'hmc' returns exactly for valid arguments without a gradient function (or for a chain of one sample). -/
theorem C62_hmc {a : HMC.Args K} : (∃ o, (HMC.sample R a g).1 = .ok o) ↔ ValidHMC a ∧ (a.jac = none ∨ a.maxiter = 1) := by
  constructor
  · rintro ⟨o, h⟩
    obtain ⟨fn, st, s, x, g', h1, h2, h3, h4, h5, h6, h7, h8, h9⟩ := HMC.sample_ok h
    have hv : ValidHMC a := { toValidSampler := valid_of_ok h2 h4 h6 h7 h8, nleap := h3, jac := h5 }
    refine ⟨hv, ?_⟩
    by_contra hc
    push Not at hc
    obtain ⟨hj, hm⟩ := hc
    cases hjac : a.jac with
    | none => exact hj hjac
    | some j => cases j with
      | none => exact h5 hjac
      | some j =>
        rw [HMC.sample_jac hv hjac (by omega)] at h
        cases h
  · rintro ⟨hv, hj⟩
    exact HMC.sample_total hv hj

/-- Invalid arguments are refused with TypeError, ValueError or IndexError by both samplers, without drawing a sample. -/
example : ValidMCMC mcmcArgs ∧ ValidHMC hmcArgs := ⟨mcmc_valid, hmc_valid⟩

/-! ## C51 -/

/-- A callable `jac` makes every chain of two or more samples raise: the lambda calls itself. -/
theorem C51_violated {a : HMC.Args K} (hv : ValidHMC a) {j : Vec (Val K) a.bounds.len → Vec (Val K) a.bounds.len}
    (hj : a.jac = some (some j)) (hm : 2 ≤ a.maxiter) :
    (HMC.sample R a g).1 = .error (if a.extraArgs then .typeError else .recursionError) := HMC.sample_jac hv hj hm

/-- For example with the exact gradient of the objective. -/
example : (HMC.sample rng { hmcArgs with jac := some (some fun x j => .fin 2 * x j) } 0).1 = .error .recursionError :=
  C51_violated (a := { hmcArgs with jac := some (some fun x j => .fin 2 * x j) }) (j := fun x j => .fin 2 * x j)
    { toValidSampler := hmc_valid.toValidSampler, nleap := hmc_valid.nleap, jac := by intro h; cases h } rfl (by decide)

/-! ## C52 -/

/-- `nfev` is the number of objective calls: two per coordinate and gradient, two per tested proposal, one at the start. -/
theorem C52_hmc {a : HMC.Args K} {o : Sampling.Output σ K a.ndim} (h : (HMC.sample R a g).1 = .ok o) :
    o.nfev = some o.evals.length ∧
    (o.evals.length : Int) = 1 + (a.maxiter - 1) *
      (2 * a.ndim * (a.nleap + 2) + if a.constraints = some "Reject" then 0 else 2) := by
  obtain ⟨fn, st, s', x, g', hfn, h2, h3, h4, h5, h6, h7, _⟩ := HMC.sample_ok h
  obtain ⟨ms, s, x1, hI, hfs, _, hfin, hlen, hg, hev, hmv⟩ := HMC.run_of_ok hfn h
  unfold HMC.finish at hfin
  obtain ⟨idx, hidx, hfin⟩ := bind_ok_iff.1 hfin
  cases hfin
  refine ⟨rfl, ?_⟩
  show (s.evals.length : Int) = _
  rw [hev]
  have e1 : ((a.maxiter.toNat - 1 : Nat) : Int) = a.maxiter - 1 := by omega
  have e2 : ((a.nleap.toNat : Nat) : Int) = a.nleap := by omega
  split_ifs
  · push_cast
    rw [e1, e2]
    ring
  · push_cast
    rw [e1, e2]
    ring

/-! ## C54 -/

/-- What is true of the callbacks: one per sample, with the right count and sample; the attached history is one sample
short except at the first call. -/
theorem C54_mcmc_partial (hR : R.Ok) {a : MCMC.Args K} {o : Sampling.Output σ K a.ndim} {fn : Vec (Val K) a.ndim → Val K}
    (hfn : a.fn = some fn) (h : (MCMC.sample R fuel a g).1 = .ok o) (hc : a.callback = some true) (hra : a.returnAll = true) :
    (o.cbs.length : Int) = a.maxiter ∧ ∃ xs, o.xall = some xs ∧ ∀ k c, o.cbs[k]? = some c →
      c.nit = k + 1 ∧ xs[k]? = some c.xk ∧ c.xall = some (xs.take (max 1 k)) ∧
        c.funall = some ((xs.take (max 1 k)).map fn) := by
  obtain ⟨_, _, _, _, _, _, _, _, _, _, hm0, _⟩ := MCMC.sample_ok h
  obtain ⟨xs, ms, s, x1, hrun, rfl, rfl, hI, _⟩ := MCMC.run_of_ok hR hfn h
  refine ⟨?_, s.xs, ?_, ?_⟩
  · show (s.cbs.length : Int) = _
    rw [hI.cbs, hc]
    simp
    omega
  · show Sampling.attach a.returnAll _ = _
    rw [hra]; rfl
  · intro k c hk
    have := hI.cb k c hk
    refine ⟨this.nit, this.xk, ?_, ?_⟩
    · rw [this.xall, hra]; rfl
    · rw [this.funall, hra, hI.vals, List.map_take]; rfl

theorem C54_hmc_partial {a : HMC.Args K} {o : Sampling.Output σ K a.ndim} {fn : Vec (Val K) a.ndim → Val K}
    (hfn : a.fn = some fn) (h : (HMC.sample R a g).1 = .ok o) (hc : a.callback = some true) (hra : a.returnAll = true) :
    (o.cbs.length : Int) = a.maxiter ∧ ∃ xs, o.xall = some xs ∧ ∀ k c, o.cbs[k]? = some c →
      c.nit = k + 1 ∧ xs[k]? = some c.xk ∧ c.xall = some (xs.take (max 1 k)) ∧
        c.funall = some ((xs.take (max 1 k)).map fn) := by
  obtain ⟨_, _, _, _, _, _, _, _, _, _, _, hm0, _⟩ := HMC.sample_ok h
  obtain ⟨ms, s, x1, hI, hfs, _, hfin, hlen, hg, hev, hmv⟩ := HMC.run_of_ok hfn h
  unfold HMC.finish at hfin
  obtain ⟨idx, hidx, hfin⟩ := bind_ok_iff.1 hfin
  cases hfin
  refine ⟨?_, s.xs, ?_, ?_⟩
  · show (s.cbs.length : Int) = _
    rw [hI.cbs, hc]
    simp
    omega
  · show Sampling.attach a.returnAll _ = _
    rw [hra]; rfl
  · intro k c hk
    have := hI.cb k c hk
    refine ⟨this.nit, this.xk, ?_, ?_⟩
    · rw [this.xall, hra]; rfl
    · rw [this.funall, hra, hI.vals, List.map_take]; rfl

/-- Full statement of C54 fails in every chain of two or more samples: call `k ≥ 2` sees `k - 1` samples. -/
theorem C54_mcmc_violated (hR : R.Ok) {a : MCMC.Args K} {o : Sampling.Output σ K a.ndim}
    (h : (MCMC.sample R fuel a g).1 = .ok o) (hc : a.callback = some true) (hra : a.returnAll = true) (hm : 2 ≤ a.maxiter) :
    ∃ k c xs, o.cbs[k]? = some c ∧ c.xall = some xs ∧ xs.length ≠ k + 1 := by
  obtain ⟨fn, _, _, _, _, hfn, _⟩ := MCMC.sample_ok h
  obtain ⟨h1, xs, h2, h3⟩ := C54_mcmc_partial hR hfn h hc hra
  have hl : 1 < o.cbs.length := by omega
  obtain ⟨_, _, q3, _⟩ := h3 1 _ (List.getElem?_eq_getElem hl)
  refine ⟨1, _, _, List.getElem?_eq_getElem hl, q3, ?_⟩
  rw [List.length_take]
  simp
  omega

theorem C54_hmc_violated {a : HMC.Args K} {o : Sampling.Output σ K a.ndim}
    (h : (HMC.sample R a g).1 = .ok o) (hc : a.callback = some true) (hra : a.returnAll = true) (hm : 2 ≤ a.maxiter) :
    ∃ k c xs, o.cbs[k]? = some c ∧ c.xall = some xs ∧ xs.length ≠ k + 1 := by
  obtain ⟨fn, _, _, _, _, hfn, _⟩ := HMC.sample_ok h
  obtain ⟨h1, xs, h2, h3⟩ := C54_hmc_partial hfn h hc hra
  have hl : 1 < o.cbs.length := by omega
  obtain ⟨_, _, q3, _⟩ := h3 1 _ (List.getElem?_eq_getElem hl)
  refine ⟨1, _, _, List.getElem?_eq_getElem hl, q3, ?_⟩
  rw [List.length_take]
  simp
  omega

/-! ## C55 -/

/-- A float array passed as `stepsize` is scaled in place. -/
theorem C55_mcmc_violated {a : MCMC.Args K} {v : List K} (hs : a.stepsize = .seq .floatArray v)
    {o : Sampling.Output σ K a.ndim} (h : (MCMC.sample R fuel a g).1 = .ok o) :
    (MCMC.sample R fuel a g).2 = .seq .floatArray (List.ofFn fun j => scaleOf a.toArgs j) := by
  obtain ⟨fn, st, s, x, g', h1, h2, h3, h4, _⟩ := MCMC.sample_ok h
  obtain ⟨hv, _⟩ := scale_ok h3
  unfold MCMC.sample
  rw [h1, h2, h3]
  show a.stepsize.after a.lower a.upper = _
  rw [hs] at hv ⊢
  have hl : v.length = a.ndim := hv.1
  unfold StepArg.after
  dsimp only
  rw [if_pos hl]
  congr 2
  funext j
  unfold scaleOf
  rw [hs]
  show v.getD j 0 * ((1 / 2) * (a.upper j - a.lower j)) = v.getD j 0 * ((a.bounds.get [j, 1] - a.bounds.get [j, 0]) / 2)
  unfold Sampling.Args.upper Sampling.Args.lower
  ring

theorem C55_hmc_violated {a : HMC.Args K} {v : List K} (hs : a.stepsize = .seq .floatArray v)
    {o : Sampling.Output σ K a.ndim} (h : (HMC.sample R a g).1 = .ok o) :
    (HMC.sample R a g).2 = .seq .floatArray (List.ofFn fun j => scaleOf a.toArgs j) := by
  obtain ⟨fn, st, s, x, g', h1, h2, h3, h4, _⟩ := HMC.sample_ok h
  obtain ⟨hv, _⟩ := scale_ok h4
  unfold HMC.sample
  rw [h1, h2, h4, decide_eq_false (by omega)]
  show a.stepsize.after a.lower a.upper = _
  rw [hs] at hv ⊢
  have hl : v.length = a.ndim := hv.1
  unfold StepArg.after
  dsimp only
  rw [if_pos hl]
  congr 2
  funext j
  unfold scaleOf
  rw [hs]
  show v.getD j 0 * ((1 / 2) * (a.upper j - a.lower j)) = v.getD j 0 * ((a.bounds.get [j, 1] - a.bounds.get [j, 0]) / 2)
  unfold Sampling.Args.upper Sampling.Args.lower
  ring

/-- Arguments with an array of step sizes in a box of width 1. -/
def Concrete.arrayArgs (v : StepArg ℚ) : MCMC.Args ℚ :=
  { mcmcArgs with
    bounds := { shape := [2, 2], get := fun l => if l.getD 1 0 = 0 then 0 else 1 }
    fn := some bowl
    stepsize := v }

/-- The second of two identical calls with the same seed gives another chain. -/
theorem C55_violated :
    samples (MCMC.sample rng 10 (arrayArgs (.seq .floatArray [1, 1])) 0).1 ≠
    samples (MCMC.sample rng 10 (arrayArgs (MCMC.sample rng 10 (arrayArgs (.seq .floatArray [1, 1])) 0).2) 0).1 := by
  decide +kernel

/-- What is true: numbers and lists are left alone. -/
theorem C55_mcmc_partial {a : MCMC.Args K} (hs : ∀ v, a.stepsize ≠ .seq .floatArray v) :
    (MCMC.sample R fuel a g).2 = a.stepsize := by
  have : a.stepsize.after a.lower a.upper = a.stepsize := by
    unfold StepArg.after
    split
    · rename_i v hv; exact absurd hv (hs v)
    · rfl
  unfold MCMC.sample
  split
  · rfl
  · rfl
  · rfl
  · exact this

theorem C55_hmc_partial {a : HMC.Args K} (hs : ∀ v, a.stepsize ≠ .seq .floatArray v) :
    (HMC.sample R a g).2 = a.stepsize := by
  have : a.stepsize.after a.lower a.upper = a.stepsize := by
    unfold StepArg.after
    split
    · rename_i v hv; exact absurd hv (hs v)
    · rfl
  unfold HMC.sample
  split
  · rfl
  · rfl
  · rfl
  · rfl
  · exact this

/-! ## C56 -/

theorem ratio_mem {k m : Nat} {N : Int} (hk : k ≤ m) (hm : (m : Int) + 1 = N) :
    0 ≤ (k : K) / (N : K) ∧ (k : K) / (N : K) < 1 := by
  have h1 : (0 : K) < N := by have : (0 : Int) < N := by omega
                              exact_mod_cast this
  have h2 : (k : K) < N := by
    have : (k : Int) < N := by omega
    exact_mod_cast this
  exact ⟨div_nonneg (Nat.cast_nonneg k) h1.le, (div_lt_one h1).2 h2⟩

/-- `accept_ratio` is the number of accepted proposals over the number of samples. -/
theorem C56_mcmc (hR : R.Ok) {a : MCMC.Args K} {o : Sampling.Output σ K a.ndim} {fn : Vec (Val K) a.ndim → Val K}
    (hfn : a.fn = some fn) (h : (MCMC.sample R fuel a g).1 = .ok o) :
    (∃ xs ms, McmcRun R a g fn xs ms ∧ (a.returnAll = true → o.xall = some xs) ∧
      o.acceptRatio = (accepted ms : K) / (a.maxiter : K)) ∧ 0 ≤ o.acceptRatio ∧ o.acceptRatio < 1 := by
  obtain ⟨_, _, _, _, _, _, _, _, _, _, hm0, _⟩ := MCMC.sample_ok h
  obtain ⟨xs, ms, s, x1, hrun, rfl, rfl, hI, _⟩ := MCMC.run_of_ok hR hfn h
  have e : ((s.nacc : K) / (a.maxiter : K)) = (accepted ms : K) / (a.maxiter : K) := by rw [hI.nacc]
  refine ⟨⟨s.xs, ms, hrun, ?_, e⟩, ?_⟩
  · intro hr
    show Sampling.attach a.returnAll _ = _
    rw [hr]; rfl
  · show 0 ≤ (s.nacc : K) / (a.maxiter : K) ∧ (s.nacc : K) / (a.maxiter : K) < 1
    rw [e]
    exact ratio_mem (List.length_filter_le _ ms) (by rw [hI.moves]; omega)

theorem C56_hmc (hR : R.Ok) {a : HMC.Args K} {o : Sampling.Output σ K a.ndim} {fn : Vec (Val K) a.ndim → Val K}
    (hfn : a.fn = some fn) (h : (HMC.sample R a g).1 = .ok o) :
    (∀ φ : Vec K a.ndim → K, (∀ x, fn (point x) = .fin (φ x)) → a.fdStep ≠ 0 → a.jac = none →
      ∃ qs ms, HmcRun R a g φ (a.nleap.toNat + 1) qs ms ∧ (a.returnAll = true → o.xall = some (qs.map point)) ∧
        o.acceptRatio = (accepted ms : K) / (a.maxiter : K)) ∧ 0 ≤ o.acceptRatio ∧ o.acceptRatio < 1 := by
  refine ⟨fun φ hφ hh hj => HMC.finite_run hR hfn hφ hh hj h, ?_⟩
  obtain ⟨_, _, _, _, _, _, _, _, _, _, _, hm0, _⟩ := HMC.sample_ok h
  obtain ⟨ms, s, x1, hI, hfs, _, hfin, hlen, hg, hev, hmv⟩ := HMC.run_of_ok hfn h
  unfold HMC.finish at hfin
  obtain ⟨idx, hidx, hfin⟩ := bind_ok_iff.1 hfin
  cases hfin
  show 0 ≤ (s.nacc : K) / (a.maxiter : K) ∧ (s.nacc : K) / (a.maxiter : K) < 1
  rw [hI.nacc]
  exact ratio_mem (List.length_filter_le _ ms) (by rw [hI.moves]; omega)

/-! ## C63 -/

/-- An integer step size (a Python int or an array of integers) is refused with TypeError. -/
theorem C63_mcmc_violated {a : MCMC.Args K} (hv : ValidSampler { a.toArgs with stepsize := .scalar false 1 })
    {k : K} (hs : a.stepsize = .scalar true k) : (MCMC.sample R fuel a g).1 = .error .typeError := by
  have hc : a.checkStart = .ok () := checkStart_of_valid (a := { a.toArgs with stepsize := .scalar false 1 }) hv
  obtain ⟨fn, hfn⟩ := Option.isSome_iff_exists.1 hv.objective
  have hfn' : a.fn = some fn := hfn
  have hsc : a.stepsize.scale a.lower a.upper = .error .typeError := by rw [hs]; rfl
  unfold MCMC.sample
  rw [hfn', hc, hsc]

theorem C63_hmc_violated {a : HMC.Args K} (hv : ValidSampler { a.toArgs with stepsize := .scalar false 1 })
    (hn : 1 ≤ a.nleap) {k : K} (hs : a.stepsize = .scalar true k) : (HMC.sample R a g).1 = .error .typeError := by
  have hc : a.checkStart = .ok () := checkStart_of_valid (a := { a.toArgs with stepsize := .scalar false 1 }) hv
  obtain ⟨fn, hfn⟩ := Option.isSome_iff_exists.1 hv.objective
  have hfn' : a.fn = some fn := hfn
  have hsc : a.stepsize.scale a.lower a.upper = .error .typeError := by rw [hs]; rfl
  unfold HMC.sample
  rw [hfn', hc, hsc, decide_eq_false (by omega)]

/-- For example `stepsize=1`. -/
example : (MCMC.sample rng 10 { mcmcArgs with stepsize := .scalar true 1 } 0).1 = .error .typeError :=
  C63_mcmc_violated { mcmc_valid.toValidSampler with stepsize := rfl } rfl

/-! ## C64 -/

/-- The chain of 'hmc' makes `nleap + 1` leap-frog steps per proposal. -/
theorem C64_hmc_partial (hR : R.Ok) {a : HMC.Args K} {o : Sampling.Output σ K a.ndim} {fn : Vec (Val K) a.ndim → Val K}
    (hfn : a.fn = some fn) {φ : Vec K a.ndim → K} (hφ : ∀ x, fn (point x) = .fin (φ x)) (hh : a.fdStep ≠ 0)
    (hj : a.jac = none) (h : (HMC.sample R a g).1 = .ok o) :
    ∃ qs ms, HmcRun R a g φ (a.nleap.toNat + 1) qs ms ∧ (a.returnAll = true → o.xall = some (qs.map point)) := by
  obtain ⟨qs, ms, h1, h2, _⟩ := HMC.finite_run hR hfn hφ hh hj h
  exact ⟨qs, ms, h1, h2⟩

namespace Concrete

/-- The bowl on finite points. -/
def bowlK (x : Vec ℚ 2) : ℚ := x 0 * x 0 + x 1 * x 1

theorem bowl_point (x : Vec ℚ 2) : bowl (point x) = .fin (bowlK x) := rfl

/-- Two samples. -/
def hmcShort : HMC.Args ℚ := { hmcArgs with maxiter := 2 }

/-- The second sample and the one reached by `steps` leap-frog steps. -/
def secondIs (steps : Nat) (o : Sampling.Output Nat ℚ 2) : Bool :=
  match o.xall with
  | some (_ :: x :: _) =>
    decide (List.ofFn x = List.ofFn (point ((verlet (centralGradient bowlK (1 / 100)) (fun _ => 1 / 2))^[steps]
      ((fun j => if j = 0 then 1 / 2 else 0), fun j => normal rng 1 j)).1)) || decide (List.ofFn x = [.fin (1 / 2), .fin 0])
  | _ => false

theorem short_run : ∃ o, (HMC.sample rng hmcShort 0).1 = .ok o ∧ (secondIs 3 o && !secondIs 2 o) = true :=
  returns_iff (t := fun o => secondIs 3 o && !secondIs 2 o) (by decide +kernel)

end Concrete

/-- Full statement of C64 fails: the documented `nleap` leap-frog steps do not give the chain. -/
theorem C64_violated : ∃ o xs, (HMC.sample rng hmcShort 0).1 = .ok o ∧ o.xall = some xs ∧
    ∀ qs ms, HmcRun rng hmcShort 0 bowlK hmcShort.nleap.toNat qs ms → xs ≠ qs.map point := by
  obtain ⟨o, h, ht⟩ := short_run
  rw [Bool.and_eq_true] at ht
  obtain ⟨_, ht⟩ := ht
  obtain ⟨_, _, hr⟩ := C43_hmc rng_ok (a := hmcShort) (fn := bowl) rfl h
  obtain ⟨xs, x1, hx, _⟩ := hr rfl
  refine ⟨o, xs, h, hx, ?_⟩
  rintro qs ms hrun rfl
  have hq2 : qs.length = 2 := by
    have : (qs.length : Int) = 2 := hrun.length
    omega
  obtain ⟨q0, q1, rfl⟩ := List.length_eq_two.1 hq2
  have hms : ms.length = 1 := by have := hrun.links.1; simp at this; omega
  obtain ⟨m, rfl⟩ := List.length_eq_one_iff.1 hms
  obtain ⟨l1, l2⟩ := hrun.links.2 0 m rfl
  have hold : q0 = m.old := by simpa using l1
  have hnext : q1 = m.next := by simpa using l2
  have hf : point q0 = fun j => .fin (start2.get [j]) := hrun.first q0 rfl rfl
  have hget : ∀ j : Fin 2, start2.get [j.val] = if j = 0 then 1 / 2 else 0 := by decide +kernel
  have hq0 : q0 = (fun j => if j = 0 then 1 / 2 else 0 : Vec ℚ 2) := by
    funext j
    have := congrFun hf j
    have h2 : q0 j = start2.get [j.val] := by simpa [point] using this
    rw [h2]
    exact hget j
  obtain ⟨hp, _⟩ := hrun.proposal 0 m rfl
  unfold secondIs at ht
  rw [hx] at ht
  simp only [List.map_cons, Bool.not_eq_true', Bool.or_eq_false_iff, decide_eq_false_iff_not] at ht
  have hsc : scaleOf hmcShort.toArgs = fun _ => 1 / 2 := by
    funext c
    revert c
    decide +kernel
  unfold Move.next at hnext
  split_ifs at hnext
  · refine ht.1 ?_
    rw [hnext, hp, ← hold, hq0, hsc]
    rfl
  · refine ht.2 ?_
    rw [hnext, ← hold, hq0]
    decide +kernel

end Stochopy
