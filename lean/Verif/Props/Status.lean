import Verif.Props.Concrete
import Verif.Lemmas.Fuel
import Verif.Lemmas.Norm

/-!
# C05–C08: termination, budget, status
-/

set_option linter.unusedSectionVars false

namespace Stochopy
open Spec Concrete
variable {K σ : Type} [AddZeroClass K] [One K] [Sub K] [Mul K] [Div K] [Neg K] [NatCast K] [IntCast K] [Pow K ℕ] [ArrayOps K] [IntParts K] [LinearOrder K]
variable {env : Env} {R : Rng σ K} {srt : Argsort K} {fuel : Nat} {g : σ}

/-! ## C05

The model runs the `while` loop on fuel and reports `outOfFuel` when the loop is still running. With
`fuel ≥ max 1 (maxiter - 1)` that never happens, on no input, and more fuel does not change the outcome. -/

theorem C05_de_terminates {a : DE.Args K} (hf : 1 ≤ fuel) (hf' : a.maxiter - 1 ≤ fuel) :
    DE.minimize env R fuel a g ≠ .error .outOfFuel ∧
    ∀ fuel', fuel ≤ fuel' → DE.minimize env R fuel' a g = DE.minimize env R fuel a g :=
  DE.minimize_fuel hf (by omega)

theorem C05_cpso_terminates [NumFns K] {a : CPSO.Args K} (hf : 1 ≤ fuel) (hf' : a.maxiter - 1 ≤ fuel) :
    CPSO.minimize env R srt fuel a g ≠ .error .outOfFuel ∧
    ∀ fuel', fuel ≤ fuel' → CPSO.minimize env R srt fuel' a g = CPSO.minimize env R srt fuel a g :=
  CPSO.minimize_fuel hf (by omega)

theorem C05_pso_terminates [NumFns K] {a : PSO.Args K} (hf : 1 ≤ fuel) (hf' : a.maxiter - 1 ≤ fuel) :
    PSO.minimize env R srt fuel a g ≠ .error .outOfFuel ∧
    ∀ fuel', fuel ≤ fuel' → PSO.minimize env R srt fuel' a g = PSO.minimize env R srt fuel a g :=
  CPSO.minimize_fuel (a := a.toCPSO) hf (by have : a.toCPSO.maxiter = a.maxiter := rfl; omega)

theorem C05_na_terminates {a : NA.Args K} (hf : 1 ≤ fuel) (hf' : a.maxiter - 1 ≤ fuel) :
    NA.minimize env R srt fuel a g ≠ .error .outOfFuel ∧
    ∀ fuel', fuel ≤ fuel' → NA.minimize env R srt fuel' a g = NA.minimize env R srt fuel a g :=
  NA.minimize_fuel hf (by omega)

theorem C05_de (he : env.Ok) {a : DE.Args K} {o : Output σ K a.p a.ndim}
    (h : DE.minimize env R fuel a g = .ok o) : 2 ≤ o.res.nit ∧ (o.res.nit : Int) ≤ max 2 a.maxiter := by
  obtain ⟨fn', P, s0, r, L, hfn', hv, hobj, -, -, -, -, -, -, hm, -, -, hstr, hinit, hrun, rfl⟩ := DE.minimize_ok he h
  exact hm ▸ run_nit_bounds (DE.laws a.sync hstr) hrun

theorem C05_cpso [NumFns K] (he : env.Ok) {a : CPSO.Args K} {o : Output σ K a.p a.ndim}
    (h : CPSO.minimize env R srt fuel a g = .ok o) : 2 ≤ o.res.nit ∧ (o.res.nit : Int) ≤ max 2 a.maxiter := by
  obtain ⟨fn', P, s0, r, L, hfn', hv, hobj, -, -, rfl, -, -, -, hgam, -, -, hm, -, -, hinit, hrun, rfl⟩ :=
    CPSO.minimize_ok he h
  exact hm ▸ run_nit_bounds (CPSO.laws a.sync) hrun

theorem C05_pso [NumFns K] (he : env.Ok) {a : PSO.Args K} {o : Output σ K a.p a.ndim}
    (h : PSO.minimize env R srt fuel a g = .ok o) : 2 ≤ o.res.nit ∧ (o.res.nit : Int) ≤ max 2 a.maxiter :=
  C05_cpso (a := a.toCPSO) he h

theorem C05_na (he : env.Ok) {a : NA.Args K} {o : Output σ K a.p a.ndim}
    (h : NA.minimize env R srt fuel a g = .ok o) : 2 ≤ o.res.nit ∧ (o.res.nit : Int) ≤ max 2 a.maxiter := by
  obtain ⟨fn', P, s0, r, L, hfn', hv, hobj, -, -, -, -, -, hm, -, -, hinit, hrun, rfl⟩ := NA.minimize_ok he h
  exact hm ▸ run_nit_bounds NA.laws hrun

/-- The hypotheses hold for runs of the four methods that use the whole budget of three generations. -/
example : (∃ o, DE.minimize Concrete.env rng 2 deArgs 0 = .ok o ∧ (o.res.nit : Int) = deArgs.maxiter) ∧
    (∃ o, CPSO.minimize Concrete.env rng stableArgsort 2 cpsoArgs 0 = .ok o ∧ (o.res.nit : Int) = cpsoArgs.maxiter) ∧
    (∃ o, PSO.minimize Concrete.env rng stableArgsort 2 psoArgs 0 = .ok o ∧ (o.res.nit : Int) = psoArgs.maxiter) ∧
    (∃ o, NA.minimize Concrete.env rng stableArgsort 2 naArgs 0 = .ok o ∧ (o.res.nit : Int) = naArgs.maxiter) := by
  obtain ⟨o1, h1, e1⟩ := de_run
  obtain ⟨o2, h2, e2⟩ := cpso_run
  obtain ⟨o3, h3, e3⟩ := pso_run
  obtain ⟨o4, h4, e4⟩ := na_run
  simp only [improves, Bool.and_eq_true, beq_iff_eq] at e1 e2 e3 e4
  rw [(C05_de_terminates (fuel := 2) (by decide) (by decide)).2 10 (by decide)] at h1
  rw [(C05_cpso_terminates (fuel := 2) (by decide) (by decide)).2 10 (by decide)] at h2
  rw [(C05_pso_terminates (fuel := 2) (by decide) (by decide)).2 10 (by decide)] at h3
  rw [(C05_na_terminates (fuel := 2) (by decide) (by decide)).2 10 (by decide)] at h4
  exact ⟨⟨o1, h1, by rw [e1.1]; rfl⟩, ⟨o2, h2, by rw [e2.1]; rfl⟩, ⟨o3, h3, by rw [e3.1]; rfl⟩,
    ⟨o4, h4, by rw [e4.1]; rfl⟩⟩

/-! ## C06 -/

theorem sync_of_deferred {u : String} {w : Int} {b : Option String} (h : Deferred u w b) :
    (u == "deferred" || !(w == 0 || w == 1) || b == some "mpi") = true := by
  unfold Deferred at h
  simp only [Bool.or_eq_true, beq_iff_eq, Bool.not_eq_true', Bool.or_eq_false_iff, beq_eq_false_iff_ne]
  tauto

theorem C06_de (he : env.Ok) {a : DE.Args K} {o : Output σ K a.p a.ndim} (hd : Deferred a.updating a.workers a.backend)
    (h : DE.minimize env R fuel a g = .ok o) : StatusFaithful a.maxiter a.ftol o ∧ StatusZero a.xtol a.ftol o := by
  obtain ⟨fn', P, s0, r, L, hfn', hv, hobj, -, -, -, -, -, -, hm, hx, hft, hstr, hinit, hrun, rfl⟩ := DE.minimize_ok he h
  have hs : a.sync = true := sync_of_deferred hd
  rw [hs] at hrun
  have hl := DE.laws (P := P) true hstr
  refine ⟨hm ▸ hft ▸ run_statusFaithful hl DE.syncStatus hrun, ?_⟩
  intro b hb
  obtain ⟨t, u, st, ht, h1, h2, h3⟩ := run_prev hl hrun hb
  have hst := DE.syncStatus ht
  have htu : t.gbest = u.gbest := by rcases h2 with rfl | ⟨it, rfl⟩ <;> rfl
  obtain ⟨_, _, _, _, _, _, hfv, hxx⟩ := run_last hl hrun
  show r.status = 0 ↔ r.fval ≤ a.ftol ∧ Within b.x r.x a.xtol
  rw [h1, hfv, hxx, h3, ← hx, ← hft]
  have hw := distLe_iff t.gbest L.s.gbest P.xtol
  rw [htu] at hw
  show st = 0 ↔ L.s.gfit ≤ P.ftol ∧ Within u.gbest L.s.gbest P.xtol
  simp only [htu] at hst
  rw [← hw]
  change some st = if distLe u.gbest L.s.gbest P.xtol = true ∧ L.s.gfit ≤ P.ftol then some 0
      else if L.s.gfit ≤ P.ftol then some 1 else if P.maxiter ≤ (r.nit : Int) then some (-1) else none at hst
  split_ifs at hst with c1 c2 c3 <;> simp only [Option.some.injEq] at hst <;> subst hst
  · simpa using c1.symm
  · simp only [one_ne_zero, false_iff]; exact fun h => c1 ⟨h.2, h.1⟩
  · simp only [neg_eq_zero, one_ne_zero, false_iff]; exact fun h => c2 h.1

theorem C06_cpso [NumFns K] (he : env.Ok) {a : CPSO.Args K} {o : Output σ K a.p a.ndim}
    (hd : Deferred a.updating a.workers a.backend) (h : CPSO.minimize env R srt fuel a g = .ok o) :
    StatusFaithful a.maxiter a.ftol o ∧ StatusZero a.xtol a.ftol o := by
  obtain ⟨fn', P, s0, r, L, hfn', hv, hobj, -, -, rfl, -, -, -, hgam, -, -, hm, hx, hft, hinit, hrun, rfl⟩ :=
    CPSO.minimize_ok he h
  have hs : a.sync = true := sync_of_deferred hd
  rw [hs] at hrun
  have hl := CPSO.laws (P := P) (p := a.p) true
  refine ⟨hm ▸ hft ▸ run_statusFaithful hl CPSO.syncStatus hrun, ?_⟩
  intro b hb
  obtain ⟨t, u, st, ht, h1, h2, h3⟩ := run_prev hl hrun hb
  have hst := CPSO.syncStatus ht
  have htu : t.gbest = u.gbest := by
    rcases h2 with rfl | ⟨it, rfl⟩
    · rfl
    · exact (CPSO.post_fields it u).1
  obtain ⟨_, _, _, _, _, _, hfv, hxx⟩ := run_last hl hrun
  show r.status = 0 ↔ r.fval ≤ a.ftol ∧ Within b.x r.x a.xtol
  rw [h1, hfv, hxx, h3, ← hx, ← hft]
  show st = 0 ↔ L.s.gfit ≤ P.ftol ∧ Within u.gbest L.s.gbest P.xtol
  simp only [htu] at hst
  rw [← distLe_iff]
  change some st = if distLe u.gbest L.s.gbest P.xtol = true ∧ L.s.gfit ≤ P.ftol then some 0
      else if L.s.gfit ≤ P.ftol then some 1 else if P.maxiter ≤ (r.nit : Int) then some (-1) else none at hst
  split_ifs at hst with c1 c2 c3 <;> simp only [Option.some.injEq] at hst <;> subst hst
  · simpa using c1.symm
  · simp only [one_ne_zero, false_iff]; exact fun h => c1 ⟨h.2, h.1⟩
  · simp only [neg_eq_zero, one_ne_zero, false_iff]; exact fun h => c2 h.1

theorem C06_pso [NumFns K] (he : env.Ok) {a : PSO.Args K} {o : Output σ K a.p a.ndim}
    (hd : Deferred a.updating a.workers a.backend) (h : PSO.minimize env R srt fuel a g = .ok o) :
    StatusFaithful a.maxiter a.ftol o ∧ StatusZero a.xtol a.ftol o :=
  C06_cpso (a := a.toCPSO) he hd h

theorem unnormalize_scaled {K : Type} [Field K] [LinearOrder K] [IsStrictOrderedRing K] {n : Nat} {lower upper : Vec K n} (hspan : ∀ j, lower j < upper j) (x : Vec K n) (j : Fin n) :
    (NA.unnormalize lower upper x j - lower j) / (upper j - lower j) = x j := by
  have h : 0 < upper j - lower j := sub_pos.2 (hspan j)
  simp only [NA.unnormalize, NA.spanMask, h, decide_true, if_true]
  field_simp
  ring

/-- For `na` the move is measured relative to the side lengths of the search box (all of them positive). -/
theorem C06_na {K : Type} [Field K] [LinearOrder K] [IsStrictOrderedRing K] [FloorRing K] {R : Rng σ K} {srt : Argsort K} (he : env.Ok) {a : NA.Args K} {o : Output σ K a.p a.ndim}
    (h : NA.minimize env R srt fuel a g = .ok o) : StatusFaithful a.maxiter a.ftol o ∧
      ((∀ j, a.lower j < a.upper j) → ∀ b, o.cbs[o.res.nit - 2]? = some b →
        (o.res.status = 0 ↔ o.res.fval ≤ a.ftol ∧
          Within (fun j => (b.x j - a.lower j) / (a.upper j - a.lower j))
            (fun j => (o.res.x j - a.lower j) / (a.upper j - a.lower j)) a.xtol)) := by
  obtain ⟨fn', P, s0, r, L, hfn', hv, hobj, -, -, -, hlo, hup, hm, hx, hft, hinit, hrun, rfl⟩ := NA.minimize_ok he h
  have hl := NA.laws (P := P) (p := a.p)
  refine ⟨hm ▸ hft ▸ run_statusFaithful hl NA.syncStatus hrun, ?_⟩
  intro hspan b hb
  obtain ⟨t, u, st, ht, h1, h2, h3⟩ := run_prev hl hrun hb
  have hst := NA.syncStatus ht
  have htu : t = u := by rcases h2 with rfl | ⟨it, rfl⟩ <;> rfl
  subst htu
  obtain ⟨_, _, _, _, _, _, hfv, hxx⟩ := run_last hl hrun
  show r.status = 0 ↔ r.fval ≤ a.ftol ∧ Within (fun j => (b.x j - a.lower j) / (a.upper j - a.lower j))
            (fun j => (r.x j - a.lower j) / (a.upper j - a.lower j)) a.xtol
  rw [h1, hfv, hxx, h3, ← hx, ← hft]
  rw [← hlo, ← hup] at hspan ⊢
  change st = 0 ↔ L.s.gfit ≤ P.ftol ∧
    Within (fun j => (NA.unnormalize P.lower P.upper t.gbest j - P.lower j) / (P.upper j - P.lower j))
      (fun j => (NA.unnormalize P.lower P.upper L.s.gbest j - P.lower j) / (P.upper j - P.lower j)) P.xtol
  simp only [unnormalize_scaled hspan]
  rw [← distLe_iff]
  change some st = if distLe t.gbest L.s.gbest P.xtol = true ∧ L.s.gfit ≤ P.ftol then some 0
      else if L.s.gfit ≤ P.ftol then some 1 else if P.maxiter ≤ (r.nit : Int) then some (-1) else none at hst
  split_ifs at hst with c1 c2 c3 <;> simp only [Option.some.injEq] at hst <;> subst hst
  · simpa using c1.symm
  · simp only [one_ne_zero, false_iff]; exact fun h => c1 ⟨h.2, h.1⟩
  · simp only [neg_eq_zero, one_ne_zero, false_iff]; exact fun h => c2 h.1

/-- A deferred run for each of the three possible statuses (DE), and the other methods. -/
def deDeferred (ftol xtol : ℚ) : DE.Args ℚ := { deArgs with updating := "deferred", ftol := .fin ftol, xtol := xtol }

example : (∃ o, DE.minimize Concrete.env rng 10 (deDeferred (1 / 100) 1) 0 = .ok o ∧ (o.res.status == -1) = true) ∧
    (∃ o, DE.minimize Concrete.env rng 10 (deDeferred (56 / 100) (1 / 100)) 0 = .ok o ∧ (o.res.status == 1) = true) ∧
    (∃ o, DE.minimize Concrete.env rng 10 (deDeferred (56 / 100) 1) 0 = .ok o ∧ (o.res.status == 0) = true) :=
  ⟨returns_iff (by decide +kernel), returns_iff (by decide +kernel), returns_iff (by decide +kernel)⟩

example : (∃ o, PSO.minimize Concrete.env rng stableArgsort 10 psoArgs 0 = .ok o ∧ StatusFaithful 3 (.fin (1 / 100)) o) ∧
    (∃ o, NA.minimize Concrete.env rng stableArgsort 10 naArgs 0 = .ok o ∧ StatusFaithful 3 (.fin (1 / 100)) o) := by
  obtain ⟨o, h, _⟩ := pso_run
  obtain ⟨o', h', _⟩ := na_run
  exact ⟨⟨o, h, (C06_pso env_ok (Or.inl rfl) h).1⟩, ⟨o', h', (C06_na env_ok h').1⟩⟩

/-! ## C07 -/

/-- Full claim of C07: immediate updating reports success exactly when `ftol` is reached. It is false, see
`C07_de_violated` and `C07_cpso_violated`: the status of the last individual of a generation wins. -/
def C07Claim (ftol : Val K) {p n : Nat} (o : Output σ K p n) : Prop := o.res.success = true ↔ o.res.fval ≤ ftol

/-- Missing: `fun <= ftol → success` (false). -/
theorem C07_de_partial (he : env.Ok) {a : DE.Args K} {o : Output σ K a.p a.ndim}
    (h : DE.minimize env R fuel a g = .ok o) : StatusSound a.maxiter a.ftol o := by
  obtain ⟨fn', P, s0, r, L, hfn', hv, hobj, -, -, -, -, -, -, hm, hx, hft, hstr, hinit, hrun, rfl⟩ := DE.minimize_ok he h
  refine hm ▸ hft ▸ run_statusSound (DE.laws a.sync hstr) ?_ hrun
  intro it s s' k hst hk
  cases hs : a.sync with
  | true =>
    rw [hs] at hst
    have := DE.syncStatus hst
    split_ifs at this with c1 c2 c3 <;> simp only [Option.some.injEq] at this <;> subst this
    · exact c1.2
    · exact c2
    · simp at hk
  | false =>
    rw [hs] at hst
    exact (DE.async_status hst).2.2.2 (by simpa using hk)

theorem C07_cpso_partial [NumFns K] (he : env.Ok) {a : CPSO.Args K} {o : Output σ K a.p a.ndim}
    (h : CPSO.minimize env R srt fuel a g = .ok o) : StatusSound a.maxiter a.ftol o := by
  obtain ⟨fn', P, s0, r, L, hfn', hv, hobj, -, -, rfl, -, -, -, hgam, -, -, hm, hx, hft, hinit, hrun, rfl⟩ :=
    CPSO.minimize_ok he h
  refine hm ▸ hft ▸ run_statusSound (CPSO.laws a.sync) ?_ hrun
  intro it s s' k hst hk
  cases hs : a.sync with
  | true =>
    rw [hs] at hst
    have := CPSO.syncStatus hst
    split_ifs at this with c1 c2 c3 <;> simp only [Option.some.injEq] at this <;> subst this
    · exact c1.2
    · exact c2
    · simp at hk
  | false =>
    rw [hs] at hst
    exact (CPSO.async_status hst).2.2.2 (by simpa using hk)

theorem C07_pso_partial [NumFns K] (he : env.Ok) {a : PSO.Args K} {o : Output σ K a.p a.ndim}
    (h : PSO.minimize env R srt fuel a g = .ok o) : StatusSound a.maxiter a.ftol o :=
  C07_cpso_partial (a := a.toCPSO) he h

/-- A run (default updating) that returns a point with `fun <= ftol` and reports failure. -/
theorem C07_de_violated : ∃ (a : DE.Args ℚ) (o : Output Nat ℚ a.p a.ndim),
    DE.minimize Concrete.env rng 10 a 0 = .ok o ∧ a.updating = "immediate" ∧ ¬ C07Claim a.ftol o := by
  obtain ⟨o, h, ht⟩ := returns_iff (r := DE.minimize Concrete.env rng 10 { deArgs with ftol := .fin (52 / 100) } 0)
    (t := fun o => decide (o.res.fval ≤ .fin (52 / 100)) && !o.res.success) (by decide +kernel)
  refine ⟨_, o, h, rfl, ?_⟩
  simp only [Bool.and_eq_true, decide_eq_true_eq, Bool.not_eq_true'] at ht
  intro hc
  have := hc.2 ht.1
  rw [ht.2] at this
  exact absurd this (by decide)

theorem C07_cpso_violated : ∃ (a : CPSO.Args ℚ) (o : Output Nat ℚ a.p a.ndim),
    CPSO.minimize Concrete.env rng stableArgsort 10 a 0 = .ok o ∧ a.updating = "immediate" ∧ ¬ C07Claim a.ftol o := by
  obtain ⟨o, h, ht⟩ := returns_iff
    (r := CPSO.minimize Concrete.env rng stableArgsort 10 { cpsoArgs with ftol := .fin (1 / 50) } 0)
    (t := fun o => decide (o.res.fval ≤ .fin (1 / 50)) && !o.res.success) (by decide +kernel)
  refine ⟨_, o, h, rfl, ?_⟩
  simp only [Bool.and_eq_true, decide_eq_true_eq, Bool.not_eq_true'] at ht
  intro hc
  have := hc.2 ht.1
  rw [ht.2] at this
  exact absurd this (by decide)

/-- Immediate runs that do report success exist. -/
example : ∃ o, CPSO.minimize Concrete.env rng stableArgsort 10 { cpsoArgs with ftol := .fin (1 / 10) } 0 = .ok o ∧
    o.res.success = true := returns_iff (by decide +kernel)

/-! ## C08 -/

theorem C08_de (he : env.Ok) {a : DE.Args K} {o : Output σ K a.p a.ndim} (hd : Deferred a.updating a.workers a.backend)
    (h : DE.minimize env R fuel a g = .ok o) {k : Nat} {b : CB K a.p a.ndim} (hb : o.cbs[k]? = some b) (hk : 0 < k)
    (hk' : k + 1 < o.res.nit) : ¬ b.fval ≤ a.ftol := by
  obtain ⟨fn', P, s0, r, L, hfn', hv, hobj, -, -, -, -, -, -, hm, hx, hft, hstr, hinit, hrun, rfl⟩ := DE.minimize_ok he h
  have hs : a.sync = true := sync_of_deferred hd
  rw [hs] at hrun
  exact hft ▸ run_firstReach (DE.laws true hstr) DE.syncStatus hrun k b hb hk hk'

theorem C08_cpso [NumFns K] (he : env.Ok) {a : CPSO.Args K} {o : Output σ K a.p a.ndim}
    (hd : Deferred a.updating a.workers a.backend)
    (h : CPSO.minimize env R srt fuel a g = .ok o) {k : Nat} {b : CB K a.p a.ndim} (hb : o.cbs[k]? = some b) (hk : 0 < k)
    (hk' : k + 1 < o.res.nit) : ¬ b.fval ≤ a.ftol := by
  obtain ⟨fn', P, s0, r, L, hfn', hv, hobj, -, -, rfl, -, -, -, hgam, -, -, hm, hx, hft, hinit, hrun, rfl⟩ :=
    CPSO.minimize_ok he h
  have hs : a.sync = true := sync_of_deferred hd
  rw [hs] at hrun
  exact hft ▸ run_firstReach (CPSO.laws true) CPSO.syncStatus hrun k b hb hk hk'

theorem C08_pso [NumFns K] (he : env.Ok) {a : PSO.Args K} {o : Output σ K a.p a.ndim}
    (hd : Deferred a.updating a.workers a.backend)
    (h : PSO.minimize env R srt fuel a g = .ok o) {k : Nat} {b : CB K a.p a.ndim} (hb : o.cbs[k]? = some b) (hk : 0 < k)
    (hk' : k + 1 < o.res.nit) : ¬ b.fval ≤ a.ftol :=
  C08_cpso (a := a.toCPSO) he hd h hb hk hk'

theorem C08_na (he : env.Ok) {a : NA.Args K} {o : Output σ K a.p a.ndim}
    (h : NA.minimize env R srt fuel a g = .ok o) {k : Nat} {b : CB K a.p a.ndim} (hb : o.cbs[k]? = some b) (hk : 0 < k)
    (hk' : k + 1 < o.res.nit) : ¬ b.fval ≤ a.ftol := by
  obtain ⟨fn', P, s0, r, L, hfn', hv, hobj, -, -, -, hlo, hup, hm, hx, hft, hinit, hrun, rfl⟩ := NA.minimize_ok he h
  exact hft ▸ run_firstReach NA.laws NA.syncStatus hrun k b hb hk hk'

/-- A run with an intermediate callback: `k = 1` in runs of three generations. -/
example : (∃ o b, PSO.minimize Concrete.env rng stableArgsort 10 psoArgs 0 = .ok o ∧ o.cbs[1]? = some b ∧ 1 + 1 < o.res.nit) ∧
    (∃ o b, NA.minimize Concrete.env rng stableArgsort 10 naArgs 0 = .ok o ∧ o.cbs[1]? = some b ∧ 1 + 1 < o.res.nit) := by
  obtain ⟨o, h, hi⟩ := returns_iff (r := PSO.minimize Concrete.env rng stableArgsort 10 psoArgs 0)
    (t := fun o => o.cbs[1]?.isSome && decide (1 + 1 < o.res.nit)) (by decide +kernel)
  obtain ⟨o', h', hi'⟩ := returns_iff (r := NA.minimize Concrete.env rng stableArgsort 10 naArgs 0)
    (t := fun o => o.cbs[1]?.isSome && decide (1 + 1 < o.res.nit)) (by decide +kernel)
  simp only [Bool.and_eq_true, decide_eq_true_eq, Option.isSome_iff_exists] at hi hi'
  obtain ⟨⟨b, hb⟩, hn⟩ := hi
  obtain ⟨⟨b', hb'⟩, hn'⟩ := hi'
  exact ⟨⟨o, b, h, hb, hn⟩, ⟨o', b', h', hb', hn'⟩⟩

end Stochopy
