import Verif.Lemmas.DERun
import Verif.Props.Evolution

/-!
# C78: complete description of runs of differential evolution
-/

set_option linter.unusedSectionVars false

namespace Stochopy
open Spec Concrete
variable {K σ : Type} [AddZeroClass K] [One K] [Sub K] [Mul K] [Div K] [Neg K] [NatCast K] [IntCast K] [Pow K ℕ] [ArrayOps K] [IntParts K] [LinearOrder K]
variable {env : Env} {R : Rng σ K} {fuel : Nat} {g : σ}

/-- The setting of a call of `de`. -/
def deSetting (R : Rng σ K) (a : DE.Args K) (fn : Vec K a.ndim → Val K) : Spec.DE.Setting σ K a.ndim :=
  { R := R, fn := fn, deferred := Deferred a.updating a.workers a.backend, strategy := a.strategy, F := a.mutation, CR := a.recombination
    redraw := a.constraints = some "Random", lower := lo a.toCommonArgs, upper := hi a.toCommonArgs, maxiter := a.maxiter, xtol := a.xtol
    ftol := a.ftol }

/-- What the caller wants to be told. -/
def reporting (a : CommonArgs K) : Reporting :=
  { callback := a.callback.isSome, history := a.returnAll, points := IntParts.ceil (a.verbosity * (a.popsize : K)) }

/-- C78: every run of `de` is the run of differential evolution described in `Spec/DERun.lean`. -/
theorem C78_de (he : env.Ok) {a : DE.Args K} {fn : Vec K a.ndim → Val K} (hfn : a.fn = some fn) {o : Output σ K a.p a.ndim}
    (h : DE.minimize env R fuel a g = .ok o) :
    ∃ S gs ys, Spec.DE.Run (deSetting R a fn) a.x0Pop (a.seeded R g) (reporting a.toCommonArgs) S gs ys o.res.nit o.res.status o := by
  obtain ⟨fn', P, s0, r, L, hfn', hv, hobj, hcons, hPR, hF, hCR, hlo, hup, hm, hx, hft, -, hinit, hrun, rfl⟩ := DE.minimize_ok he h
  obtain rfl : fn' = fn := Option.some.inj (hfn'.symm.trans hfn)
  obtain ⟨-, -, -, hp, -, -, -, -, hs, -⟩ := DE.validate_ok hv
  refine DE.run_of (c := deSetting R a fn') (sync := a.sync) ⟨hPR, ?_, hs, hF, hCR, ?_, hlo, hup, hm, hx, hft, hobj⟩
    (by show 2 ≤ a.popsize.toNat; omega) hinit hrun
  · exact sync_iff.symm
  · show P.cons = .random ↔ a.constraints = some "Random"
    rcases DE.consMap_cases hcons with ⟨h1, h2⟩ | ⟨h1, h2⟩ <;> simp [h1, h2]

/-- C78: the description leaves no freedom: at most one output meets it. -/
theorem C78_de_unique {p n : Nat} {c : Spec.DE.Setting σ K n} {x0 : Option (Pop K p n)} {rep : Reporting} {S S' : Nat → Pool K p n}
    {gs gs' : Nat → σ} {ys ys' : Nat → Pop K p n} {nit nit' : Nat} {st st' : Int} {o o' : Output σ K p n}
    (h : Spec.DE.Run c x0 g rep S gs ys nit st o) (h' : Spec.DE.Run c x0 g rep S' gs' ys' nit' st' o') : o = o' :=
  DE.run_unique h h'

/-- A run with immediate updating and redrawing, of three generations in which the best point changes. -/
example : ∃ (o : Output Nat ℚ deArgs.p deArgs.ndim) (S : Nat → Pool ℚ deArgs.p deArgs.ndim) (gs : Nat → Nat)
    (ys : Nat → Pop ℚ deArgs.p deArgs.ndim), ¬ (deSetting rng deArgs sphere2).deferred ∧ (deSetting rng deArgs sphere2).redraw ∧
    Spec.DE.Run (deSetting rng deArgs sphere2) deArgs.x0Pop (deArgs.seeded rng 0) (reporting deArgs.toCommonArgs) S gs ys o.res.nit o.res.status o ∧
    3 ≤ o.res.nit ∧ (S 0).best ≠ (S (o.res.nit - 1)).best := by
  obtain ⟨o, ho, ht⟩ := returns_iff (r := DE.minimize Concrete.env rng 10 deArgs 0) (t := fun o =>
    decide (3 ≤ o.res.nit) && match o.cbs[0]? with
      | some b => decide (b.x ≠ o.res.x)
      | _ => false) (by decide +kernel)
  rw [Bool.and_eq_true, decide_eq_true_iff] at ht
  obtain ⟨S, gs, ys, hS⟩ := C78_de env_ok (a := deArgs) rfl ho
  refine ⟨o, S, gs, ys, by simp [deSetting, Deferred, deArgs, common], rfl, hS, ht.1, ?_⟩
  revert ht
  split
  · rename_i b hb
    rw [decide_eq_true_iff]
    rintro ⟨-, ht⟩
    rw [← hS.report.x, ← (hS.report.callback 0 b hb).2.1]
    exact ht
  · simp

/-- The same with deferred updating, without redrawing, from a given population. -/
def deArgs' : DE.Args ℚ :=
  { deArgs with
    x0 := some { shape := [5, 2], get := fun l => if l.getD 1 0 = 0 then (l.getD 0 0 : Nat) / 5 else ((l.getD 0 0 * 2 : Nat) - 3) / 5 }
    updating := "deferred", strategy := "rand1bin", constraints := none, recombination := 1 / 2, maxiter := 4 }

example : ∃ (o : Output Nat ℚ deArgs'.p deArgs'.ndim) (S : Nat → Pool ℚ deArgs'.p deArgs'.ndim) (gs : Nat → Nat)
    (ys : Nat → Pop ℚ deArgs'.p deArgs'.ndim), (deSetting rng deArgs' sphere2).deferred ∧ ¬ (deSetting rng deArgs' sphere2).redraw ∧
    deArgs'.x0Pop.isSome ∧
    Spec.DE.Run (deSetting rng deArgs' sphere2) deArgs'.x0Pop (deArgs'.seeded rng 0) (reporting deArgs'.toCommonArgs) S gs ys o.res.nit o.res.status o ∧
    3 ≤ o.res.nit ∧ (S 0).X ≠ (S (o.res.nit - 1)).X := by
  obtain ⟨o, ho, ht⟩ := returns_iff (r := DE.minimize Concrete.env rng 10 deArgs' 0) (t := fun o =>
    decide (3 ≤ o.res.nit) && match o.cbs[0]?, o.cbs[o.res.nit - 1]? with
      | some b, some b' => decide (∃ i, b.X i ≠ b'.X i)
      | _, _ => false) (by decide +kernel)
  rw [Bool.and_eq_true, decide_eq_true_iff] at ht
  obtain ⟨S, gs, ys, hS⟩ := C78_de env_ok (a := deArgs') rfl ho
  refine ⟨o, S, gs, ys, by simp [deSetting, Deferred, deArgs'], by simp [deSetting, deArgs'], rfl, hS, ht.1, ?_⟩
  revert ht
  split
  · rename_i b b' hb hb'
    rw [decide_eq_true_iff]
    rintro ⟨-, i, hi⟩ e
    rw [← (hS.report.callback _ b hb).1, ← (hS.report.callback _ b' hb').1] at e
    exact hi (congrFun e i)
  · simp

end Stochopy
