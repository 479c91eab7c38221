import Verif.Lemmas.NARun
import Verif.Props.Voronoi
import Verif.Props.DERun

/-!
# C80: complete description of runs of the neighbourhood algorithm
-/

set_option linter.unusedSectionVars false

namespace Stochopy
open Spec Concrete
variable {K σ : Type} [Field K] [LinearOrder K] [IsStrictOrderedRing K] [FloorRing K]
variable {env : Env} {R : Rng σ K} {srt : Argsort K} {fuel : Nat} {g : σ}

/-- The setting of a call of `na`. -/
def naSetting (R : Rng σ K) (srt : Argsort K) (a : NA.Args K) (fn : Vec K a.ndim → Val K) : Spec.NA.Setting σ K a.ndim :=
  { R := R, sort := srt, fn := fn, nr := (max 1 ⌊a.nrperc * (a.popsize : K)⌋).toNat, lower := lo a.toCommonArgs, upper := hi a.toCommonArgs
    maxiter := a.maxiter, xtol := a.xtol, ftol := a.ftol }

/-- C80: without fixed variables (see C29), every run of `na` from inside the box is the run of the neighbourhood algorithm described in
`Spec/NARun.lean`. -/
theorem C80_na (he : env.Ok) (hR : R.Ok) {a : NA.Args K} (hb : GoodStart a.toCommonArgs)
    (hfree : ∀ j, lo a.toCommonArgs j < hi a.toCommonArgs j) {fn : Vec K a.ndim → Val K} (hfn : a.fn = some fn) {o : Output σ K a.p a.ndim}
    (h : NA.minimize env R srt fuel a g = .ok o) :
    ∃ S gs, Spec.NA.Run (naSetting R srt a fn) a.x0Pop (a.seeded R g) (reporting a.toCommonArgs) S gs o.res.nit o.res.status o := by
  obtain ⟨fn', P, s0, r, L, hfn', hv, hobj, hPR, hsrt, hPnr, hlo, hup, hm, hx, hft, hinit, hrun, rfl⟩ := NA.minimize_ok he h
  obtain rfl : fn' = fn := Option.some.inj (hfn'.symm.trans hfn)
  obtain ⟨-, -, -, hp, -, hnr, -⟩ := NA.validate_ok hv
  refine NA.run_of (c := naSetting R srt a fn') ⟨hPR, hsrt, ?_, hlo, hup, hm, hx, hft, hobj, hfree⟩ (hPR ▸ hR)
    (by show 2 ≤ a.popsize.toNat; omega) (fun X hX i => ?_) hinit hrun
  · have h0 : 0 ≤ a.nrperc * (a.popsize : K) := by
      have : (0 : K) ≤ (a.popsize : K) := by exact_mod_cast (by omega : (0 : Int) ≤ a.popsize)
      exact mul_nonneg hnr.1.le this
    rw [hPnr]
    unfold NA.Args.nr pyInt
    rw [if_pos h0]
    rfl
  · rw [hlo, hup]; exact goodStart_pop hb hX i

/-- C80: the description leaves no freedom: at most one output meets it. -/
theorem C80_na_unique {p n : Nat} {c : Spec.NA.Setting σ K n} {x0 : Option (Pop K p n)} {rep : Reporting} {S S' : Nat → Spec.NA.Search K p n}
    {gs gs' : Nat → σ} {nit nit' : Nat} {st st' : Int} {o o' : Output σ K p n}
    (h : Spec.NA.Run c x0 g rep S gs nit st o) (h' : Spec.NA.Run c x0 g rep S' gs' nit' st' o') : o = o' :=
  NA.run_unique h h'

/-- C80: the reach of a walk that is in the interior of the Voronoi cell of `v` is exactly the part of the line that lies in the cell and
in the unit cube. -/
theorem C80_na_slice {n : Nat} {M : List (Vec K n)} {v x : Vec K n} {j : Fin n} {a b : K} (h0 : 0 ≤ x j) (h1 : x j ≤ 1)
    (hx : ∀ u ∈ M, u ≠ v → Spec.NA.sqDist x v < Spec.NA.sqDist x u) (h : Spec.NA.Reach M v x j a b) (t : K) :
    (a ≤ t ∧ t ≤ b) ↔ 0 ≤ t ∧ t ≤ 1 ∧
      ∀ u ∈ M, Spec.NA.sqDist (Function.update x j t) v ≤ Spec.NA.sqDist (Function.update x j t) u :=
  NA.reach_slice h0 h1 hx h t

/-- A run in which the best model changes. -/
example : ∃ (o : Output Nat ℚ naArgs.p naArgs.ndim) (S : Nat → Spec.NA.Search ℚ naArgs.p naArgs.ndim) (gs : Nat → Nat),
    Spec.NA.Run (naSetting rng stableArgsort naArgs sphere2) naArgs.x0Pop (naArgs.seeded rng 0) (reporting naArgs.toCommonArgs)
      S gs o.res.nit o.res.status o ∧
    3 ≤ o.res.nit ∧ (S 0).pool.best ≠ (S (o.res.nit - 1)).pool.best := by
  obtain ⟨o, ho, ht⟩ := returns_iff (r := NA.minimize Concrete.env rng stableArgsort 10 naArgs 0) (t := fun o =>
    decide (3 ≤ o.res.nit) && match o.cbs[0]? with
      | some b => decide (b.x ≠ o.res.x)
      | _ => false) (by decide +kernel)
  rw [Bool.and_eq_true, decide_eq_true_iff] at ht
  obtain ⟨S, gs, hS⟩ := C80_na env_ok rng_ok (srt := stableArgsort) (a := naArgs) common_goodStart (by decide +kernel) rfl ho
  refine ⟨o, S, gs, hS, ht.1, ?_⟩
  revert ht
  split
  · rename_i b hb
    rw [decide_eq_true_iff]
    rintro ⟨-, ht⟩ e
    rw [hS.report.x, (hS.report.callback 0 b hb).2.1] at ht
    exact ht (congrArg _ e)
  · simp

/-- Two models on the interval: from `1/4` the reach is `[0, 1/2]`, the cell of the first. -/
example : Spec.NA.Reach [fun _ : Fin 1 => (1 / 4 : ℚ), fun _ => 3 / 4] (fun _ => 1 / 4) (fun _ => 1 / 4) 0 0 (1 / 2) := by
  have hc : ∀ t : ℚ, Spec.NA.Crossing [fun _ : Fin 1 => (1 / 4 : ℚ), fun _ => 3 / 4] (fun _ => 1 / 4) (fun _ => 1 / 4) 0 t ↔ t = 1 / 2 := by
    intro t
    unfold Spec.NA.Crossing Spec.NA.sqDist
    constructor
    · rintro ⟨u, hu, h1, h2⟩
      simp only [List.mem_cons, List.not_mem_nil, or_false] at hu
      rcases hu with rfl | rfl
      · exact absurd rfl h1
      · simp only [Finset.univ_unique, Finset.sum_singleton] at h2
        have : Function.update (fun _ : Fin 1 => (1 / 4 : ℚ)) 0 t default = t := rfl
        rw [this] at h2
        linarith
    · rintro rfl
      refine ⟨fun _ => 3 / 4, by simp, by norm_num, ?_⟩
      simp only [Finset.univ_unique, Finset.sum_singleton]
      have : Function.update (fun _ : Fin 1 => (1 / 4 : ℚ)) 0 (1 / 2) default = 1 / 2 := rfl
      rw [this]
      norm_num
  refine ⟨⟨⟨by norm_num, Or.inl rfl⟩, ?_⟩, ⟨⟨by norm_num, Or.inr ((hc _).2 rfl)⟩, ?_⟩⟩
  · rintro t ⟨h1, rfl | h2⟩
    · exact le_rfl
    · rw [(hc t).1 h2] at h1; norm_num at h1
  · rintro t ⟨h1, rfl | h2⟩
    · norm_num
    · rw [(hc t).1 h2]

end Stochopy
