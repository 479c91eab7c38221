import Verif.Lemmas.Backend
import Verif.Spec.Parallel
import Verif.Props.Validation

/-!
# C23–C25, C27, C30, C31: backends, PSO vs CPSO, the caller's data, seeds
-/

set_option linter.unusedSectionVars false

namespace Stochopy
open Spec Concrete
variable {K σ : Type} [AddZeroClass K] [One K] [Sub K] [Mul K] [Div K] [Neg K] [NatCast K] [IntCast K] [Pow K ℕ] [ArrayOps K] [IntParts K] [LinearOrder K]
variable {env : Env} {R : Rng σ K} {srt : Argsort K} {fuel : Nat} {g : σ}

theorem parallel_sync {w : Int} {b : Option String} {u : String} (h : Parallel w b) :
    (u == "deferred" || !(w == 0 || w == 1) || b == some "mpi") = true := by
  rw [sync_iff]
  rcases h with ⟨h1, h2, _⟩ | h
  · exact Or.inr (Or.inr ⟨h1, h2⟩)
  · exact Or.inr (Or.inl h)

theorem sync_serial : ("deferred" == "deferred" || !((1 : Int) == 0 || (1 : Int) == 1) || (none : Option String) == some "mpi") = true := by
  decide

/-! ## C23 -/

/-- The parallel call of 'de' has exactly the outcome of the serial call with deferred updating. -/
theorem C23_de (he : env.Ok) {a : DE.Args K} (hp : Parallel a.workers a.backend)
    (hu : a.updating ∈ ["immediate", "deferred"]) (hm : a.backend = some "mpi" → env.mpi4py = true) :
    DE.minimize env R fuel a g =
      DE.minimize env R fuel { a with workers := 1, backend := none, updating := "deferred" } g := by
  have hs : a.sync = true := parallel_sync hp
  unfold DE.minimize DE.validate
  dsimp only [CommonArgs.badX0Shape, CommonArgs.badX0Len, CommonArgs.badCallback, CommonArgs.p, CommonArgs.ndim]
  have h1 : ¬ ¬ (a.updating = "immediate" ∨ a.updating = "deferred") := not_not.2 (by simpa using hu)
  have h2 : ¬ ¬ (("deferred" : String) = "immediate" ∨ ("deferred" : String) = "deferred") := not_not.2 (Or.inr rfl)
  rw [if_neg h1, if_neg h2]
  have hs' : (DE.Args.sync { a with workers := 1, backend := none, updating := "deferred" }) = true := sync_serial
  rw [hs, hs']
  congr 1
  · cases DE.strategyMap (K := K) (p := a.popsize.toNat) (n := a.bounds.len) a.strategy <;> rfl
  · funext strat
    cases a.fn with
    | none => rfl
    | some fn => exact optimizer_congr he hm (by simp)

theorem C23_na (he : env.Ok) {a : NA.Args K} (hm : a.backend = some "mpi" → env.mpi4py = true) :
    NA.minimize env R srt fuel a g = NA.minimize env R srt fuel { a with workers := 1, backend := none } g := by
  unfold NA.minimize
  have hv : NA.validate { a with workers := 1, backend := none } = NA.validate a := rfl
  rw [hv]
  congr 1
  funext _
  dsimp only
  cases a.fn with
  | none => rfl
  | some fn => exact optimizer_congr he hm (by simp)

theorem C23_cpso [NumFns K] (he : env.Ok) {a : CPSO.Args K} (hp : Parallel a.workers a.backend)
    (hu : a.updating ∈ ["immediate", "deferred"]) (hm : a.backend = some "mpi" → env.mpi4py = true) :
    CPSO.minimize env R srt fuel a g =
      CPSO.minimize env R srt fuel { a with workers := 1, backend := none, updating := "deferred" } g := by
  have hs : a.sync = true := parallel_sync hp
  have hs' : (CPSO.Args.sync { a with workers := 1, backend := none, updating := "deferred" }) = true := sync_serial
  have h1 : ¬ ¬ (a.updating = "immediate" ∨ a.updating = "deferred") := not_not.2 (by simpa using hu)
  have h2 : ¬ ¬ (("deferred" : String) = "immediate" ∨ ("deferred" : String) = "deferred") := not_not.2 (Or.inr rfl)
  have hv : CPSO.validate { a with workers := 1, backend := none, updating := "deferred" } = CPSO.validate a := by
    have e1 : CommonArgs.badX0Shape { a.toCommonArgs with workers := 1, backend := none } = a.badX0Shape := by
      unfold CommonArgs.badX0Shape
      dsimp only
    have e2 : CommonArgs.badX0Len { a.toCommonArgs with workers := 1, backend := none } = a.badX0Len := by
      unfold CommonArgs.badX0Len
      dsimp only
    have e3 : CPSO.Args.badCompetitivity { a with workers := 1, backend := none, updating := "deferred" } = a.badCompetitivity := by
      unfold CPSO.Args.badCompetitivity
      dsimp only
    unfold CPSO.validate
    rw [e1, e2, e3, if_neg h1, if_neg h2]
    rfl
  unfold CPSO.minimize
  rw [hs, hs', hv]
  congr 1
  funext _
  dsimp only
  cases a.fn with
  | none => rfl
  | some fn => exact optimizer_congr he hm (by simp)

theorem C23_pso [NumFns K] (he : env.Ok) {a : PSO.Args K} (hp : Parallel a.workers a.backend)
    (hu : a.updating ∈ ["immediate", "deferred"]) (hm : a.backend = some "mpi" → env.mpi4py = true) :
    PSO.minimize env R srt fuel a g =
      PSO.minimize env R srt fuel { a with workers := 1, backend := none, updating := "deferred" } g :=
  C23_cpso (a := a.toCPSO) he hp hu hm

/-- A parallel call that returns (two MPI ranks). -/
example : Parallel (-1) (some "loky") ∧ Parallel 1 (some "mpi") ∧
    ∃ o, DE.minimize Concrete.env rng 10 { deArgs with backend := some "mpi" } 0 = .ok o :=
  ⟨Or.inl ⟨by decide, by decide, by decide⟩, Or.inr rfl, (returns_iff (t := fun _ => true) (by decide +kernel)).imp fun _ h => h.1⟩

/-! ## C24 -/

/-- The rank that evaluates candidate `i` is `i mod size`, and only that one; the reduced vector holds the objective
values, in any reduction order. -/
theorem C24_mpi (he : env.Ok) {n : Nat} (fn : Vec K n → Val K) {p : Nat} (x : Pop K p n) (i : Fin p) :
    (∀ r, r < env.mpiSize → (mpiMine r env.mpiSize i = true ↔ ∃ k, i.val = r + k * env.mpiSize)) ∧
    (∃! r, r < env.mpiSize ∧ mpiMine r env.mpiSize i = true) ∧
    (∀ r, r < env.mpiSize → mpiMine r env.mpiSize i = false → mpiLocal fn r env.mpiSize x i = .fin 0) ∧
    mpiPop env fn x i = fn (x i) := by
  refine ⟨?_, ?_, ?_, mpiPop_eq he fn x i⟩
  · intro r hr
    rw [mpiMine_iff hr]
    constructor
    · intro h
      refine ⟨i.val / env.mpiSize, ?_⟩
      have := Nat.mod_add_div i.val env.mpiSize
      rw [Nat.mul_comm]; omega
    · rintro ⟨k, hk⟩
      rw [hk, Nat.add_mul_mod_self_right, Nat.mod_eq_of_lt hr]
  · have hlt := Nat.mod_lt i.val he.pos
    refine ⟨i.val % env.mpiSize, ⟨hlt, (mpiMine_iff hlt).2 rfl⟩, ?_⟩
    rintro r ⟨hr, h⟩
    exact (mpiMine_iff hr).1 h
  · intro r _ h
    unfold mpiLocal
    rw [h]; rfl

/-- The work is shared out without overlap: over all ranks there are exactly `popsize` evaluations. -/
theorem C24_total (he : env.Ok) (p : Nat) :
    ∑ r ∈ Finset.range env.mpiSize, ((Finset.univ : Finset (Fin p)).filter fun i => mpiMine r env.mpiSize i.val = true).card = p := by
  have h : ∀ r ∈ Finset.range env.mpiSize,
      ((Finset.univ : Finset (Fin p)).filter fun i => mpiMine r env.mpiSize i.val = true) =
        (Finset.univ : Finset (Fin p)).filter fun i => i.val % env.mpiSize = r := by
    intro r hr
    ext i
    simp only [Finset.mem_filter, Finset.mem_univ, true_and]
    rw [mpiMine_iff (Finset.mem_range.1 hr), eq_comm]
  rw [Finset.sum_congr rfl fun r hr => by rw [h r hr]]
  rw [← Finset.card_eq_sum_card_fiberwise (f := fun i : Fin p => i.val % env.mpiSize)]
  · simp
  · intro i _
    simp only [Finset.coe_range, Set.mem_Iio]
    exact Nat.mod_lt _ he.pos

/-- Five candidates on two ranks, reduced in the order 1, 0. -/
example : (List.finRange 5).map (fun i => mpiMine 1 Concrete.env.mpiSize i.val) = [false, true, false, true, false] := by
  decide +kernel

/-! ## C25: false -/

/-- Any unknown backend name is silently accepted: a valid call stays a returning one. -/
theorem C25_de_violated {K : Type} [Field K] [LinearOrder K] [IsStrictOrderedRing K] [FloorRing K] {R : Rng σ K} {srt : Argsort K} (he : env.Ok) {a : DE.Args K} (hf : 1 ≤ fuel) (hf' : a.maxiter ≤ 1 + (fuel : Int)) {b : String}
    (hb : b ∉ ["loky", "threading", "mpi"]) (hv : ValidDE env { a with backend := none }) :
    ∃ o, DE.minimize env R fuel { a with backend := some b } g = .ok o := by
  refine (C32_de (a := { a with backend := some b }) he hf hf').2 ?_
  exact { hv with
    mpi := fun h => by
      have : b = "mpi" := by simpa using h
      subst this; simp at hb }

theorem C25_na_violated {K : Type} [Field K] [LinearOrder K] [IsStrictOrderedRing K] [FloorRing K] {R : Rng σ K} {srt : Argsort K} (he : env.Ok) {a : NA.Args K} (hf : 1 ≤ fuel) (hf' : a.maxiter ≤ 1 + (fuel : Int)) {b : String}
    (hb : b ∉ ["loky", "threading", "mpi"]) (hv : ValidNA env { a with backend := none }) :
    ∃ o, NA.minimize env R srt fuel { a with backend := some b } g = .ok o := by
  refine (C32_na (a := { a with backend := some b }) he hf hf').2 ?_
  exact { hv with
    mpi := fun h => by
      have : b = "mpi" := by simpa using h
      subst this; simp at hb }

theorem C25_cpso_violated {K : Type} [Field K] [LinearOrder K] [IsStrictOrderedRing K] [FloorRing K] {R : Rng σ K} {srt : Argsort K} [NumFns K] [LawfulNumFns K] (he : env.Ok) {a : CPSO.Args K} (hf : 1 ≤ fuel) (hf' : a.maxiter ≤ 1 + (fuel : Int))
    {b : String} (hb : b ∉ ["loky", "threading", "mpi"]) (hv : ValidCPSO env { a with backend := none }) :
    ∃ o, CPSO.minimize env R srt fuel { a with backend := some b } g = .ok o := by
  refine (C32_cpso (a := { a with backend := some b }) he hf hf').2 ?_
  exact { hv with
    mpi := fun h => by
      have : b = "mpi" := by simpa using h
      subst this; simp at hb }

/-- The concrete calls with an unknown backend return. -/
theorem C25_violated : (∃ o, DE.minimize Concrete.env rng 10 { deArgs with backend := some "dask", workers := 4 } 0 = .ok o) ∧
    (∃ o, CPSO.minimize Concrete.env rng stableArgsort 10 { cpsoArgs with backend := some "dask", workers := 4 } 0 = .ok o) ∧
    ∃ o, NA.minimize Concrete.env rng stableArgsort 10 { naArgs with backend := some "dask", workers := 4 } 0 = .ok o :=
  ⟨(returns_iff (t := fun _ => true) (by decide +kernel)).imp fun _ h => h.1,
   (returns_iff (t := fun _ => true) (by decide +kernel)).imp fun _ h => h.1,
   (returns_iff (t := fun _ => true) (by decide +kernel)).imp fun _ h => h.1⟩

/-! ## C27 -/

/-- 'pso' is 'cpso' with competitivity None, and with competitivity 0. -/
theorem C27_pso [NumFns K] (a : PSO.Args K) :
    PSO.minimize env R srt fuel a g =
      CPSO.minimize env R srt fuel
        { toCommonArgs := a.toCommonArgs, inertia := a.inertia, cognitivity := a.cognitivity,
          sociability := a.sociability, competitivity := none, constraints := a.constraints, updating := a.updating } g :=
  rfl

theorem C27_zero {K : Type} [Field K] [LinearOrder K] [IsStrictOrderedRing K] [FloorRing K] {R : Rng σ K} {srt : Argsort K} [NumFns K] (a : CPSO.Args K) :
    CPSO.minimize env R srt fuel { a with competitivity := some 0 } g =
      CPSO.minimize env R srt fuel { a with competitivity := none } g := by
  have hv : CPSO.validate { a with competitivity := some 0 } = CPSO.validate { a with competitivity := none } := by
    unfold CPSO.validate
    dsimp only [CommonArgs.badX0Shape, CommonArgs.badX0Len, CommonArgs.badCallback, CPSO.Args.badCompetitivity]
    simp
  have key : ∀ (P : CPSO.Par σ K a.ndim) (sync : Bool), (CPSO.alg (p := a.p) { P with gamma := some 0 } sync) =
      CPSO.alg { P with gamma := none } sync := by
    intro P sync
    have hpost : CPSO.post (p := a.p) { P with gamma := some 0 } = CPSO.post { P with gamma := none } := by
      funext it s
      show (if (0 : K) = 0 then s else _) = s
      rw [if_pos rfl]
    unfold CPSO.alg
    rw [hpost]
    rfl
  unfold CPSO.minimize
  rw [hv]
  congr 1
  funext _
  dsimp only
  cases a.fn with
  | none => rfl
  | some fn =>
    dsimp only
    show optimizer env fn a.sync a.workers a.backend _ = optimizer env fn a.sync a.workers a.backend _
    congr 1
    funext obj
    congr 1
    funext _
    congr 1
    funext cons
    unfold CPSO.cpso
    congr 1
    funext s0
    congr 1
    exact congrArg (fun A => Alg.run A a.cfg fuel s0) (key { R := R, argsort := srt, w := a.inertia, c1 := a.cognitivity, c2 := a.sociability, gamma := none, cons := cons, lower := a.lower, upper := a.upper, maxiter := a.maxiter, xtol := a.xtol, ftol := a.ftol, obj := obj } a.sync)

/-! ## C30 -/

/-- 'cpso' with deferred updating leaves the caller's array alone. -/
theorem C30_cpso_partial [NumFns K] (he : env.Ok) {a : CPSO.Args K} {o : Output σ K a.p a.ndim}
    (hs : Deferred a.updating a.workers a.backend) (h : CPSO.minimize env R srt fuel a g = .ok o) :
    o.x0After = a.x0Pop := by
  obtain ⟨fn', P, s0, r, L, hfn', hv, hobj, hcons, hR, rfl, hw, hc1, hc2, hgam, hlo, hup, hm, hx, hft, hinit, hrun, rfl⟩ :=
    CPSO.minimize_ok he h
  obtain ⟨l, st, msg, hH, hlen, hlog, hmsg, rfl⟩ := run_hist hrun
  have hsync : a.sync = true := sync_iff.2 hs
  have := hH.inv_head (fun it s _ => s.caller = a.x0Pop ∧ (2 ≤ it → s.aliased = false)) (by
      obtain ⟨i, hi, rfl⟩ := CPSO.init_ok hinit
      exact ⟨rfl, fun h => absurd h (by omega)⟩) (by
      intro it s s' st hit hI hn
      have key : ∀ t : CPSO.State σ K a.p a.ndim, t.caller = a.x0Pop → CPSO.stepSync P (it + 1) t = .ok (s', st) →
          s'.caller = a.x0Pop ∧ (2 ≤ it + 1 → s'.aliased = false) := by
        intro t ht hst
        unfold CPSO.stepSync at hst
        rw [bind_ok_iff] at hst
        obtain ⟨q, _, hst⟩ := hst
        simp only [Except.ok.injEq, Prod.mk.injEq] at hst
        obtain ⟨rfl, _⟩ := hst
        exact ⟨ht, fun _ => rfl⟩
      have hn' : CPSO.stepSync P (it + 1) (if it = 1 then s else CPSO.post P it s) = .ok (s', st) := by
        have := hn
        unfold Alg.next at this
        rw [hsync] at this
        split_ifs with h1
        · rw [if_pos h1] at this; exact this
        · rw [if_neg h1] at this; exact this
      refine key _ ?_ hn'
      split_ifs with h1
      · exact hI.1
      · have hal := hI.2 (by omega)
        rcases CPSO.post_cases (P := P) it s with h | ⟨gm, _, _, h⟩ <;> rw [h]
        · exact hI.1
        · unfold CPSO.restart
          split_ifs
          · show CPSO.writeThrough s.aliased s.caller _ = _
            rw [hal]; exact hI.1
          · exact hI.1
          · exact hI.1) L.s _ rfl
  exact this.1

theorem C30_pso_partial [NumFns K] (he : env.Ok) {a : PSO.Args K} {o : Output σ K a.p a.ndim}
    (hs : Deferred a.updating a.workers a.backend) (h : PSO.minimize env R srt fuel a g = .ok o) :
    o.x0After = a.x0Pop := C30_cpso_partial (a := a.toCPSO) he hs h

theorem C30_na (he : env.Ok) {a : NA.Args K} {o : Output σ K a.p a.ndim}
    (h : NA.minimize env R srt fuel a g = .ok o) : o.x0After = a.x0Pop := by
  obtain ⟨fn', P, s0, r, L, hfn', hv, hobj, hR, hsrt, hnr, hlo, hup, hm, hx, hft, hinit, hrun, rfl⟩ := NA.minimize_ok he h
  obtain ⟨l, st, msg, hH, hlen, hlog, hmsg, rfl⟩ := run_hist hrun
  refine hH.inv (fun s => s.caller = a.x0Pop) ?_ ?_ (fun _ _ _ h => h) L.s (by simp)
  · obtain ⟨i, hi, rfl⟩ := NA.init_ok hinit
    rfl
  · intro it s s' st _ hI hst
    change NA.step P it s = _ at hst
    unfold NA.step at hst
    rw [bind_ok_iff] at hst
    obtain ⟨q, _, hst⟩ := hst
    rw [bind_ok_iff] at hst
    obtain ⟨q', _, hst⟩ := hst
    simp only [Except.ok.injEq, Prod.mk.injEq] at hst
    obtain ⟨rfl, _⟩ := hst
    exact hI

/-- 'de' may overwrite rows of the caller's array, but only by points that are at least as good, and every row still is
a point on which the objective was called. -/
theorem C30_de_partial (he : env.Ok) {a : DE.Args K} {o : Output σ K a.p a.ndim} {fn : Vec K a.ndim → Val K}
    (hfn : a.fn = some fn) (h : DE.minimize env R fuel a g = .ok o) :
    (o.x0After.isSome = a.x0Pop.isSome) ∧ ∀ X X', a.x0Pop = some X → o.x0After = some X' →
      ∀ i, X' i ∈ o.evals ∧ (X' i = X i ∨ fn (X' i) ≤ fn (X i)) := by
  obtain ⟨fn', P, s0, r, L, hfn', hv, hobj, hcons, hR, hF, hCR, hlo, hup, hm, hx, hft, hstr, hinit, hrun, rfl⟩ :=
    DE.minimize_ok he h
  obtain rfl : fn' = fn := by rw [hfn] at hfn'; exact (Option.some.inj hfn').symm
  obtain ⟨l, st, msg, hH, hlen, hlog, hmsg, rfl⟩ := run_hist hrun
  have h1 := hH.inv (DE.IX fn' s0.X) (by
    obtain ⟨i, hi, rfl⟩ := DE.init_ok hinit
    refine ⟨fun i => ⟨hobj.pop _ i, List.mem_ofFn.2 ⟨i, rfl⟩, Or.inl rfl⟩, fun X hX => ?_⟩
    change a.x0Pop = some X at hX
    show X = (DE.initPop P a.x0Pop _).1
    rw [hX]; rfl) (fun _ _ _ _ _ hI hst => DE.IX_step hobj hI hst) (fun _ _ _ hI => hI) L.s (by simp)
  have h2 := hH.inv (fun s => s.caller.isSome = a.x0Pop.isSome) (by
    obtain ⟨i, hi, rfl⟩ := DE.init_ok hinit
    rfl) (fun _ _ _ _ _ hI hst => (DE.caller_step hst).trans hI) (fun _ _ _ hI => hI) L.s (by simp)
  refine ⟨h2, fun X X' hX hX' i => ?_⟩
  have hX0 : s0.X = X := by
    obtain ⟨i, hi, rfl⟩ := DE.init_ok hinit
    show (DE.initPop P a.x0Pop _).1 = X
    rw [hX]; rfl
  have := h1.2 X' hX'
  subst this
  rw [← hX0]
  exact ⟨(h1.1 i).2.1, (h1.1 i).2.2⟩

/-- A population given by the caller. -/
def callerX0 : NdArr ℚ := { shape := [5, 2], get := fun l => (l.getD 0 0 : ℚ) / 5 - (l.getD 1 0 : ℚ) / 2 }

/-- Was the caller's array changed? -/
def overwritten {p n : Nat} (x0 : NdArr ℚ) (o : Output Nat ℚ p n) : Bool :=
  match o.x0After with
  | some X => decide (∃ i j, X i j ≠ x0.get [i.val, j.val])
  | none => false

/-- 'de' (both updating modes) and 'cpso'/'pso' with immediate updating overwrite the caller's array. -/
theorem C30_violated :
    (∃ o, DE.minimize Concrete.env rng 10 { deArgs with x0 := some callerX0 } 0 = .ok o ∧ overwritten callerX0 o = true) ∧
    (∃ o, DE.minimize Concrete.env rng 10 { deArgs with x0 := some callerX0, updating := "deferred" } 0 = .ok o ∧
      overwritten callerX0 o = true) ∧
    (∃ o, CPSO.minimize Concrete.env rng stableArgsort 10 { cpsoArgs with x0 := some callerX0 } 0 = .ok o ∧
      overwritten callerX0 o = true) ∧
    (∃ o, PSO.minimize Concrete.env rng stableArgsort 10
        { psoArgs with x0 := some callerX0, updating := "immediate" } 0 = .ok o ∧ overwritten callerX0 o = true) :=
  ⟨returns_iff (by decide +kernel), returns_iff (by decide +kernel), returns_iff (by decide +kernel),
    returns_iff (by decide +kernel)⟩

/-- Was an array given and left unchanged? -/
def untouched {p n : Nat} (x0 : NdArr ℚ) (o : Output Nat ℚ p n) : Bool :=
  match o.x0After with
  | some X => decide (∀ i j, X i j = x0.get [i.val, j.val])
  | none => false

/-- Deferred runs from the same population, with a restart in the case of 'cpso'. -/
example : (∃ o, CPSO.minimize Concrete.env rng stableArgsort 10 { collapsed with updating := "deferred", x0 := some callerX0 } 0
      = .ok o ∧ untouched callerX0 o = true) ∧
    ∃ o, NA.minimize Concrete.env rng stableArgsort 10 { naArgs with x0 := some callerX0 } 0 = .ok o ∧
      untouched callerX0 o = true :=
  ⟨returns_iff (by decide +kernel), returns_iff (by decide +kernel)⟩

/-! ## C31 -/

/-- With a seed the outcome does not depend on the previous state of the generator. -/
theorem C31_de {a : DE.Args K} {s : Int} (hs : a.seed = some s) (g' : σ) :
    DE.minimize env R fuel a g = DE.minimize env R fuel a g' := by
  have h : a.seeded R g = a.seeded R g' := by unfold CommonArgs.seeded; rw [hs]
  unfold DE.minimize
  rw [h]

theorem C31_na {a : NA.Args K} {s : Int} (hs : a.seed = some s) (g' : σ) :
    NA.minimize env R srt fuel a g = NA.minimize env R srt fuel a g' := by
  have h : a.seeded R g = a.seeded R g' := by unfold CommonArgs.seeded; rw [hs]
  unfold NA.minimize
  rw [h]

theorem C31_cpso [NumFns K] {a : CPSO.Args K} {s : Int} (hs : a.seed = some s) (g' : σ) :
    CPSO.minimize env R srt fuel a g = CPSO.minimize env R srt fuel a g' := by
  have h : a.seeded R g = a.seeded R g' := by unfold CommonArgs.seeded; rw [hs]
  unfold CPSO.minimize
  rw [h]

theorem C31_pso [NumFns K] {a : PSO.Args K} {s : Int} (hs : a.seed = some s) (g' : σ) :
    PSO.minimize env R srt fuel a g = PSO.minimize env R srt fuel a g' := C31_cpso (a := a.toCPSO) hs g'

/-- Without a seed it does depend on it. -/
example : ∃ o o', DE.minimize Concrete.env rng 10 { deArgs with seed := none } 0 = .ok o ∧
    DE.minimize Concrete.env rng 10 { deArgs with seed := none } 4 = .ok o' ∧ o.evals ≠ o'.evals := by
  obtain ⟨o, ho, ht⟩ := returns_iff (r := DE.minimize Concrete.env rng 10 { deArgs with seed := none } 0)
    (t := fun o => returns (DE.minimize Concrete.env rng 10 { deArgs with seed := none } 4)
      fun o' => decide (o.evals ≠ o'.evals)) (by decide +kernel)
  obtain ⟨o', ho', ht'⟩ := returns_iff ht
  exact ⟨o, o', ho, ho', of_decide_eq_true ht'⟩

end Stochopy
