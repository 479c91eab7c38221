import Verif.Lemmas.MirrorNA
import Verif.Props.Mirror
import Verif.Props.DERun
import Verif.Props.PSORun
import Verif.Props.NARun
import Mathlib.Algebra.BigOperators.Fin
import Mathlib.Algebra.BigOperators.Intervals
import Mathlib.Algebra.Order.BigOperators.Ring.Finset

/-! # No direction is preferred: `na`, and the first population of the others (C98) -/

set_option linter.unusedSectionVars false

namespace Stochopy.Props
open Stochopy Spec
variable {K σ : Type} [Field K] [LinearOrder K] [IsStrictOrderedRing K] [FloorRing K] {p n : Nat}

/-- C98 for `na`: when every uniform number `u` is replaced by `1 - u`, the reflected problem has the reflected run.  (The first
population is recorded in the coordinates of the unit cube, see C13, where the reflection is `x ↦ 1 - x`.)  Missing: the Latin
hypercube (false, `C98_na_violated`), variables with equal bounds and a `seed`, which fixes the numbers. -/
theorem C98_na_partial {env : Env} (he : env.Ok) {R : Rng σ K} {T : σ → σ} (hT : R.Mirrors T fun u => 1 - u) {srt : Argsort K} {fuel : Nat}
    {a : NA.Args K} {g : σ} (t : Nat → K) (hb : ∀ j, a.lower j < a.upper j) (hx : a.x0 ≠ none) (hseed : a.seed = none) :
    NA.minimize env R srt fuel (a.mirror t) (T g) = (NA.minimize env R srt fuel a g).map fun o =>
      { o.map id (mirror fun _ => 1) (mirror t) with rng := T o.rng } := by
  have hv : NA.validate (a.mirror t) = NA.validate a := by
    obtain ⟨⟨_, fn, x0, _, _, _, _, _, _, _, _, _, _⟩, _⟩ := a
    cases fn <;> cases x0 <;> rfl
  have hx0 : ∃ x, a.x0Pop = some x ∧ (a.mirror t).x0Pop = some fun i => mirror t (x i) := by
    obtain ⟨⟨_, _, x0, _, _, _, _, _, _, _, _, _, _⟩, _⟩ := a
    cases x0
    · exact absurd rfl hx
    · exact ⟨_, rfl, rfl⟩
  obtain ⟨x, hx1, hx2⟩ := hx0
  have hse : ∀ h, a.seeded R h = h := fun h => by unfold CommonArgs.seeded; rw [hseed]
  have hse' : ∀ h, (a.mirror t).seeded R h = h := fun h => by
    unfold CommonArgs.seeded; show (match a.seed with | some s => R.seed s | none => h) = h; rw [hseed]
  cases hfn : a.fn with
  | none => rw [NA.minimize_none hfn, NA.minimize_none (by show Option.map _ a.fn = _; rw [hfn]; rfl)]; rfl
  | some fn =>
    rw [NA.minimize_some he hfn]
    refine (NA.minimize_some he (a := a.mirror t) (fn := fun x => fn (mirror t x))
      (by show Option.map _ a.fn = _; rw [hfn]; rfl)).trans ?_
    rw [hv, map_bind_ex]
    congr 1
    funext _
    show (if a.backend = some "mpi" ∧ env.mpi4py = false then _ else _) = _
    split_ifs
    · rfl
    · rw [map_bind_ex]
      show (a.unpackBounds >>= _) = _
      congr 1
      funext _
      have h : NA.Reflected t T
          { R := R, argsort := srt, nr := a.nr, lower := a.lower, upper := a.upper, maxiter := a.maxiter, xtol := a.xtol,
            ftol := a.ftol, obj := plainObj fn }
          { R := R, argsort := srt, nr := a.nr, lower := mirror t a.upper, upper := mirror t a.lower, maxiter := a.maxiter,
            xtol := a.xtol, ftol := a.ftol, obj := plainObj fun x => fn (mirror t x) } :=
        ⟨hb, rfl, rfl, rfl, rfl, rfl, rfl, sameProblem_mirror t fn a.xtol a.ftol, rfl, hT.rand⟩
      rw [hx1, hse, hse']
      refine (congrArg (fun x => NA.na _ a.cfg fuel x (T g)) hx2).trans ?_
      exact h.run a.cfg fuel x g

/-! ## The Latin hypercube is not in the middle -/

/-- The mean of a Latin hypercube is below the middle of the box in every coordinate. -/
theorem firstPopulation_low {R : Rng σ K} (hR : R.Ok) {lower upper : Vec K n} {g g' : σ} {X : Pop K p n} (hp : 0 < p)
    (h : FirstPopulation R none lower upper g g' X) {j : Fin n} (hj : lower j < upper j) :
    ∑ i, X i j < p * ((lower j + upper j) / 2) := by
  obtain ⟨u, g1, π, hu, -, hX⟩ := firstPopulation_exact.1 h
  have hp' : (0 : K) < p := by exact_mod_cast hp
  have hu1 : ∀ k, u k j < 1 := by
    intro k
    obtain ⟨g', hg⟩ := drawMat_mem R.rand p n g k j
    rw [← hu] at hg
    dsimp only at hg
    rw [hg]
    exact hR.rand_lt_one g'
  have e1 : ∑ i, X i j = ∑ k : Fin p, (lower j + (upper j - lower j) * ((k.val + u k j / 2) / p)) := by
    simp only [hX]
    exact Equiv.sum_comp (π j) fun k : Fin p => lower j + (upper j - lower j) * ((k.val + u k j / 2) / p)
  have e2 : ∑ k : Fin p, ((k.val : K) + 1 / 2) = p * p / 2 := by
    rw [Finset.sum_add_distrib, Finset.sum_const, Finset.card_univ, Fintype.card_fin, nsmul_eq_mul,
      Fin.sum_univ_eq_sum_range (fun k => (k : K)) p]
    have := Finset.sum_range_id_mul_two p
    have h2 : (∑ i ∈ Finset.range p, (i : K)) * 2 = p * (p - 1) := by
      have h3 : (((∑ i ∈ Finset.range p, i) * 2 : Nat) : K) = ((p * (p - 1) : Nat) : K) := by rw [this]
      push_cast [Nat.cast_sub hp] at h3
      exact h3
    linarith
  rw [e1]
  have hpos : 0 < upper j - lower j := sub_pos.2 hj
  calc ∑ k : Fin p, (lower j + (upper j - lower j) * ((k.val + u k j / 2) / p))
      < ∑ k : Fin p, (lower j + (upper j - lower j) * ((k.val + 1 / 2) / p)) := by
        refine Finset.sum_lt_sum_of_nonempty ⟨⟨0, hp⟩, Finset.mem_univ _⟩ fun k _ => ?_
        have := hu1 k
        have h4 : (k.val + u k j / 2) / (p : K) < (k.val + 1 / 2) / p := (div_lt_div_iff_of_pos_right hp').2 (by linarith)
        have := mul_lt_mul_of_pos_left h4 hpos
        linarith
    _ = p * lower j + (upper j - lower j) * ((∑ k : Fin p, ((k.val : K) + 1 / 2)) / p) := by
        rw [Finset.sum_add_distrib, Finset.sum_const, Finset.card_univ, Fintype.card_fin, nsmul_eq_mul, ← Finset.mul_sum, Finset.sum_div]
    _ = p * ((lower j + upper j) / 2) := by
        rw [e2]
        field_simp
        ring

/-- Two Latin hypercubes of reflected boxes are never reflected. -/
theorem firstPopulation_mirror {R : Rng σ K} (hR : R.Ok) {lower upper : Vec K n} (t : Nat → K) {g g' h h' : σ} {X Y : Pop K p n} (hp : 0 < p)
    (hX : FirstPopulation R none lower upper g g' X) (hY : FirstPopulation R none (mirror t upper) (mirror t lower) h h' Y) {j : Fin n}
    (hj : lower j < upper j) : Y ≠ fun i => mirror t (X i) := by
  intro e
  have h1 := firstPopulation_low hR hp hX hj
  have h2 := firstPopulation_low hR hp hY (j := j) (sub_lt_sub_left hj _)
  rw [e] at h2
  have e2 : ∑ i : Fin p, mirror t (X i) j = p * t j - ∑ i, X i j := by
    show ∑ i : Fin p, (t j - X i j) = _
    rw [Finset.sum_sub_distrib, Finset.sum_const, Finset.card_univ, Fintype.card_fin, nsmul_eq_mul]
  rw [e2] at h2
  have e3 : (p : K) * ((mirror t upper j + mirror t lower j) / 2) = p * t j - p * ((lower j + upper j) / 2) := by
    unfold mirror
    ring
  rw [e3] at h2
  linarith

theorem ofFn_of_prefix {α : Type} {p : Nat} {X Y : Fin p → α} {f : α → α} {l l' : List α} (h : List.ofFn Y ++ l' = (List.ofFn X ++ l).map f) :
    Y = fun i => f (X i) := by
  rw [List.map_append, List.map_ofFn] at h
  have := (List.append_inj h (by simp)).1
  exact List.ofFn_injective this

theorem range_flatMap {α : Type} (f : Nat → List α) {k : Nat} (h : 0 < k) : ∃ l, (List.range k).flatMap f = f 0 ++ l := by
  obtain ⟨m, rfl⟩ : ∃ m, k = m + 1 := ⟨k - 1, by omega⟩
  rw [List.range_succ_eq_map, List.flatMap_cons]
  exact ⟨_, rfl⟩

/-- C98 fails for `de` without `x0`: whatever the generator and its states, the points evaluated in the reflected problem are never the
mirror images. -/
theorem C98_de_violated {env : Env} (he : env.Ok) {R : Rng σ K} (hR : R.Ok) {fuel fuel' : Nat} {a : DE.Args K} {g g' : σ} (t : Nat → K)
    (hx : a.x0 = none) {j : Fin a.ndim} (hj : a.lower j < a.upper j) {o o' : Output σ K a.p a.ndim}
    (h : DE.minimize env R fuel a g = .ok o) (h' : DE.minimize env R fuel' (a.mirror t) g' = .ok o') :
    o'.evals ≠ o.evals.map (mirror t) := by
  intro e
  cases hfn : a.fn with
  | none => rw [DE.minimize_none hfn] at h; cases h
  | some fn =>
    obtain ⟨S, gs, ys, r⟩ := C78_de he hfn h
    obtain ⟨S', gs', ys', r'⟩ := C78_de he (a := a.mirror t) (fn := fun x => fn (mirror t x))
      (by show Option.map _ a.fn = _; rw [hfn]; rfl) h'
    have e0 : a.x0Pop = none := by unfold CommonArgs.x0Pop; rw [hx]; rfl
    have e0' : (a.mirror t).x0Pop = none := by
      unfold CommonArgs.x0Pop; show Option.map _ (Option.map _ a.x0) = _; rw [hx]; rfl
    have s1 := r.start
    have s2 := r'.start
    rw [e0] at s1
    rw [e0'] at s2
    obtain ⟨l, hl⟩ := range_flatMap (fun k => List.ofFn (ys k)) (k := o.res.nit) (by have := r.atleast; omega)
    obtain ⟨l', hl'⟩ := range_flatMap (fun k => List.ofFn (ys' k)) (k := o'.res.nit) (by have := r'.atleast; omega)
    rw [r.evaluated, hl] at e
    have e2 := (hl'.symm.trans (r'.evaluated.symm)).trans e
    exact firstPopulation_mirror hR t (by have := r.size; omega) s1 s2 hj (ofFn_of_prefix e2)

/-- Likewise for `cpso`. -/
theorem C98_cpso_violated [NumFns K] {env : Env} (he : env.Ok) {R : Rng σ K} (hR : R.Ok) {srt : Argsort K} {fuel fuel' : Nat}
    {a : CPSO.Args K} [hw : CPSO.FewRestarts K a.p] {g g' : σ} (t : Nat → K)
    (hx : a.x0 = none) {j : Fin a.ndim} (hj : a.lower j < a.upper j) {o o' : Output σ K a.p a.ndim}
    (h : CPSO.minimize env R srt fuel a g = .ok o) (h' : CPSO.minimize env R srt fuel' (a.mirror t) g' = .ok o') :
    o'.evals ≠ o.evals.map (mirror t) := by
  intro e
  cases hfn : a.fn with
  | none => rw [CPSO.minimize_none hfn] at h; cases h
  | some fn =>
    obtain ⟨S, M, gs, hs, r⟩ := C79_cpso he hfn h
    haveI : CPSO.FewRestarts K (a.mirror t).p := hw
    obtain ⟨S', M', gs', hs', r'⟩ := C79_cpso he (a := a.mirror t) (fn := fun x => fn (mirror t x))
      (by show Option.map _ a.fn = _; rw [hfn]; rfl) h'
    have e0 : a.x0Pop = none := by unfold CommonArgs.x0Pop; rw [hx]; rfl
    have e0' : (a.mirror t).x0Pop = none := by
      unfold CommonArgs.x0Pop; show Option.map _ (Option.map _ a.x0) = _; rw [hx]; rfl
    obtain ⟨X, s1, f1⟩ := r.start
    obtain ⟨X', s2, f2⟩ := r'.start
    rw [e0] at s1
    rw [e0'] at s2
    obtain ⟨l, hl⟩ := range_flatMap (fun k => List.ofFn (S k).pos) (k := o.res.nit) (by have := r.atleast; omega)
    obtain ⟨l', hl'⟩ := range_flatMap (fun k => List.ofFn (S' k).pos) (k := o'.res.nit) (by have := r'.atleast; omega)
    rw [r.evaluated, hl] at e
    have e2 := (hl'.symm.trans (r'.evaluated.symm)).trans e
    have e3 := ofFn_of_prefix e2
    rw [f1.pos, f2.pos] at e3
    exact firstPopulation_mirror hR t (by have := r.size; omega) s1 s2 hj e3

/-- Likewise for `pso`. -/
theorem C98_pso_violated [NumFns K] {env : Env} (he : env.Ok) {R : Rng σ K} (hR : R.Ok) {srt : Argsort K} {fuel fuel' : Nat}
    {a : PSO.Args K} [hw : CPSO.FewRestarts K a.toCPSO.p] {g g' : σ} (t : Nat → K)
    (hx : a.x0 = none) {j : Fin a.ndim} (hj : a.lower j < a.upper j) {o o' : Output σ K a.p a.ndim}
    (h : PSO.minimize env R srt fuel a g = .ok o) (h' : PSO.minimize env R srt fuel' (a.mirror t) g' = .ok o') :
    o'.evals ≠ o.evals.map (mirror t) :=
  C98_cpso_violated (a := a.toCPSO) he hR t hx hj h h'

/-- Likewise for `na`. -/
theorem C98_na_violated {env : Env} (he : env.Ok) {R : Rng σ K} (hR : R.Ok) {srt : Argsort K} {fuel fuel' : Nat}
    {a : NA.Args K} {g g' : σ} (t : Nat → K) (hd : 0 < a.ndim)
    (hx : a.x0 = none) (hb : ∀ j, a.lower j < a.upper j) {o o' : Output σ K a.p a.ndim}
    (h : NA.minimize env R srt fuel a g = .ok o) (h' : NA.minimize env R srt fuel' (a.mirror t) g' = .ok o') :
    o'.evals ≠ o.evals.map (mirror t) := by
  intro e
  cases hfn : a.fn with
  | none => rw [NA.minimize_none hfn] at h; cases h
  | some fn =>
    have e0 : a.x0Pop = none := by unfold CommonArgs.x0Pop; rw [hx]; rfl
    have e0' : (a.mirror t).x0Pop = none := by
      unfold CommonArgs.x0Pop; show Option.map _ (Option.map _ a.x0) = _; rw [hx]; rfl
    have g1 : GoodStart a.toCommonArgs := ⟨fun j => (hb j).le, fun X hX => by rw [hx] at hX; cases hX⟩
    have hb' : ∀ j : Fin a.ndim, (a.mirror t).lower j < (a.mirror t).upper j := fun j => sub_lt_sub_left (hb j) (t j)
    have g2 : GoodStart (a.mirror t).toCommonArgs := ⟨fun j => (hb' j).le, fun X hX => by
      have : (a.mirror t).x0 = none := by show Option.map _ a.x0 = _; rw [hx]; rfl
      rw [this] at hX; cases hX⟩
    obtain ⟨S, gs, r⟩ := C80_na he hR g1 hb hfn h
    obtain ⟨S', gs', r'⟩ := C80_na he hR (a := a.mirror t) g2 hb' (fn := fun x => fn (mirror t x))
      (by show Option.map _ a.fn = _; rw [hfn]; rfl) h'
    obtain ⟨X, s1, f1⟩ := r.start
    obtain ⟨X', s2, f2⟩ := r'.start
    rw [e0] at s1
    rw [e0'] at s2
    obtain ⟨l, hl⟩ := range_flatMap (fun k => List.ofFn fun i => (naSetting R srt a fn).place ((S k).pos i)) (k := o.res.nit)
      (by have := r.atleast; omega)
    obtain ⟨l', hl'⟩ := range_flatMap (fun k => List.ofFn fun i => (naSetting R srt (a.mirror t) fun x => fn (mirror t x)).place ((S' k).pos i))
      (k := o'.res.nit) (by have := r'.atleast; omega)
    rw [r.evaluated, hl] at e
    have e2 := (hl'.symm.trans (r'.evaluated.symm)).trans e
    have e3 := ofFn_of_prefix e2
    have p1 : ∀ i, (naSetting R srt a fn).place ((S 0).pos i) = X i := fun i => funext fun j => by
      show a.lower j + (a.upper j - a.lower j) * (S 0).pos i j = _
      rw [f1]
      show a.lower j + (a.upper j - a.lower j) * ((X i j - a.lower j) / (a.upper j - a.lower j)) = _
      rw [mul_div_cancel₀ _ (sub_ne_zero.2 (hb j).ne')]
      ring
    have p2 : ∀ i, (naSetting R srt (a.mirror t) fun x => fn (mirror t x)).place ((S' 0).pos i) = X' i := fun i => funext fun j => by
      show (a.mirror t).lower j + ((a.mirror t).upper j - (a.mirror t).lower j) * (S' 0).pos i j = _
      rw [f2]
      show (a.mirror t).lower j + ((a.mirror t).upper j - (a.mirror t).lower j) *
        ((X' i j - (a.mirror t).lower j) / ((a.mirror t).upper j - (a.mirror t).lower j)) = _
      rw [mul_div_cancel₀ _ (sub_ne_zero.2 (hb' j).ne')]
      ring
    refine firstPopulation_mirror hR t (by have := r.size; omega) s1 s2 (hb ⟨0, hd⟩) (funext fun i => ?_)
    exact (p2 i).symm.trans ((congrFun e3 i).trans (congrArg (mirror t) (p1 i)))

end Stochopy.Props
