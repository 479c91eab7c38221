import Verif.Lemmas.Box
import Verif.Props.Concrete

/-!
# C15–C19, C28: the search box, the initial population, Shrink
-/

set_option linter.unusedSectionVars false

namespace Stochopy
open Spec Concrete
variable {K σ : Type} [Field K] [LinearOrder K] [IsStrictOrderedRing K] [FloorRing K]
variable {env : Env} {R : Rng σ K} {srt : Argsort K} {fuel : Nat} {g : σ}

section
variable {K : Type} [AddZeroClass K] [One K] [Sub K] [Mul K] [Div K] [Neg K] [NatCast K] [IntCast K] [Pow K ℕ] [ArrayOps K] [LinearOrder K] [RoundedOps K] [IntParts K]
  {R : Rng σ K} {srt : Argsort K}

theorem goodStart_pop {a : CommonArgs K} (h : GoodStart a) {X : Pop K a.p a.ndim} (hX : a.x0Pop = some X) (i : Fin a.p) :
    InBox a.lower a.upper (X i) := by
  unfold CommonArgs.x0Pop at hX
  cases hx : a.x0 with
  | none => rw [hx] at hX; simp at hX
  | some x =>
    rw [hx] at hX
    simp only [Option.map_some, Option.some.injEq] at hX
    subst hX
    exact h.start x hx i.1 i.2

/-- With `Random` and the first population in a box `[l, u]` around the bounds, all points are in `[l, u]`. -/
theorem de_staysInBox (he : env.Ok) (hR : R.Ok) {a : DE.Args K} (hc : a.constraints = some "Random")
    (hb : ∀ j, lo a.toCommonArgs j ≤ hi a.toCommonArgs j) {l u : Vec K a.ndim} (hl : ∀ j, l j ≤ lo a.toCommonArgs j)
    (hu : ∀ j, hi a.toCommonArgs j ≤ u j) (hx0 : ∀ X, a.x0Pop = some X → ∀ i, InBox l u (X i))
    (hlhs : a.x0Pop = none → ∀ i, InBox l u ((lhs R a.p (lo a.toCommonArgs) (hi a.toCommonArgs) (a.seeded R g)).1 i))
    {o : Output σ K a.p a.ndim} (h : DE.minimize env R fuel a g = .ok o) :
    StaysInBox l u o ∧ RecordedInBox l u 0 o := by
  obtain ⟨fn', P, s0, r, L, hfn', hv, hobj, hcons, hPR, hF, hCR, hlo, hup, hm, hx, hft, hstr, hinit, hrun, rfl⟩ :=
    DE.minimize_ok he h
  have hl' : lo a.toCommonArgs = P.lower := hlo.symm
  have hu' : hi a.toCommonArgs = P.upper := hup.symm
  have hcons' : P.cons = .random := by
    rw [hc] at hcons; simpa [DE.consMap] using hcons.symm
  rw [hl'] at hl; rw [hu'] at hu
  have hord : ∀ j, P.lower j ≤ P.upper j := fun j => by rw [← hl', ← hu']; exact hb j
  have hR' : P.R.Ok := hPR ▸ hR
  obtain ⟨i, hi, rfl⟩ := DE.init_ok hinit
  have hX : ∀ i, InBox l u ((DE.initPop P a.x0Pop (a.seeded R g)).1 i) := by
    intro i
    unfold DE.initPop
    cases hx : a.x0Pop with
    | none => rw [hl', hu'] at hlhs; rw [hPR]; exact hlhs hx i
    | some X => exact hx0 X hx i
  have h0 : DE.IB l u (⟨(DE.initPop P a.x0Pop (a.seeded R g)).1, (DE.initPop P a.x0Pop (a.seeded R g)).1 i,
      P.obj.pop (DE.initPop P a.x0Pop (a.seeded R g)).1, P.obj.pop (DE.initPop P a.x0Pop (a.seeded R g)).1 i,
      P.obj.pop (DE.initPop P a.x0Pop (a.seeded R g)).1, a.x0Pop,
      List.ofFn (DE.initPop P a.x0Pop (a.seeded R g)).1, (DE.initPop P a.x0Pop (a.seeded R g)).2⟩ : DE.State σ K a.p a.ndim) :=
    ⟨fun x hx => by obtain ⟨j, rfl⟩ := List.mem_ofFn.1 hx; exact hX j, hX i, hX⟩
  obtain ⟨h1, _, h3⟩ := run_staysInBox (ev := DE.State.evals) (caller := DE.State.caller) (rng := DE.State.rng) hrun
    (DE.IB l u) h0 (fun _ _ _ _ _ hI hs => DE.IB_step hobj hR' hcons' hord hl hu hI hs) (fun _ _ _ h => h)
    (fun s hs => ⟨hs.1, hs.2.1, hs.2.2, hs.2.2⟩)
  exact ⟨h1, h3 hX (hX i)⟩

/-- All points of the neighbourhood algorithm are between `lower` and the rounded `(upper - lower) + lower`, if the first
population, normalised, is in the unit cube. -/
theorem na_staysInBox (he : env.Ok) (hR : R.Ok) {a : NA.Args K}
    (hb : ∀ j, lo a.toCommonArgs j ≤ hi a.toCommonArgs j)
    (hx0 : ∀ X, a.x0Pop = some X → ∀ i, NA.Unit (NA.spanMask (lo a.toCommonArgs) (hi a.toCommonArgs))
      (NA.normalize (lo a.toCommonArgs) (hi a.toCommonArgs) (X i)))
    (hlhs : a.x0Pop = none → ∀ i, NA.Unit (NA.spanMask (lo a.toCommonArgs) (hi a.toCommonArgs))
      (NA.normalize (lo a.toCommonArgs) (hi a.toCommonArgs)
        ((lhs R a.p (lo a.toCommonArgs) (hi a.toCommonArgs) (a.seeded R g)).1 i)))
    {o : Output σ K a.p a.ndim} (h : NA.minimize env R srt fuel a g = .ok o) :
    StaysInBox (lo a.toCommonArgs) (naTop (lo a.toCommonArgs) (hi a.toCommonArgs)) o ∧
      RecordedInBox (lo a.toCommonArgs) (naTop (lo a.toCommonArgs) (hi a.toCommonArgs)) 1 o := by
  obtain ⟨fn', P, s0, r, L, hfn', hv, hobj, hPR, hsrt, hnr, hlo, hup, hm, hx, hft, hinit, hrun, rfl⟩ :=
    NA.minimize_ok he h
  have hl : lo a.toCommonArgs = P.lower := hlo.symm
  have hu : hi a.toCommonArgs = P.upper := hup.symm
  have hord : ∀ j, P.lower j ≤ P.upper j := fun j => by rw [← hl, ← hu]; exact hb j
  have hR' : P.R.Ok := hPR ▸ hR
  obtain ⟨i, hi, rfl⟩ := NA.init_ok hinit
  rw [hl, hu] at hx0 hlhs ⊢
  have hX : ∀ i, NA.Unit (NA.spanMask P.lower P.upper) (NA.initN P a.x0Pop (a.seeded R g) i) := by
    intro i
    unfold NA.initN NA.initPop
    cases hx : a.x0Pop with
    | none => rw [hPR]; exact hlhs hx i
    | some X => exact hx0 X hx i
  obtain ⟨h1, h2, _⟩ := run_staysInBox (lower := P.lower) (upper := naTop P.lower P.upper) (ev := NA.State.evals)
    (caller := NA.State.caller) (rng := NA.State.rng)
    hrun (NA.IB P)
    ⟨fun x hx => by obtain ⟨j, rfl⟩ := List.mem_ofFn.1 hx; exact ⟨_, rfl, hX j⟩, hX i, hX, hX,
      fun x hx => by obtain ⟨j, rfl⟩ := List.mem_ofFn.1 hx; exact hX j⟩
    (fun _ _ _ _ _ hI hs => NA.IB_step hobj hR' hI hs) (fun _ _ _ h => h)
    (fun s hs => ⟨fun x hx => by
        obtain ⟨y, rfl, hy⟩ := hs.1 x hx; exact NA.unnormalize_outer hord hy,
      NA.unnormalize_outer hord hs.2.1, fun i => NA.unnormalize_outer hord (hs.2.2.1 i),
      fun i => NA.unnormalize_outer hord (hs.2.2.1 i)⟩)
  exact ⟨h1, h2⟩

end

/-! ## C15 -/

theorem C15_de (he : env.Ok) (hR : R.Ok) {a : DE.Args K} (hc : a.constraints = some "Random")
    (hb : GoodStart a.toCommonArgs) {o : Output σ K a.p a.ndim} (h : DE.minimize env R fuel a g = .ok o) :
    StaysInBox (lo a.toCommonArgs) (hi a.toCommonArgs) o ∧
      RecordedInBox (lo a.toCommonArgs) (hi a.toCommonArgs) 0 o :=
  de_staysInBox he hR hc hb.ordered (fun _ => le_rfl) (fun _ => le_rfl) (fun _ hX i => goodStart_pop hb hX i)
    (fun _ i => lhs_mem hR hb.ordered _ i) h

/-! ## C16 -/

theorem C16_cpso [NumFns K] (he : env.Ok) (hR : R.Ok) {a : CPSO.Args K} (hc : a.constraints = some "Shrink")
    (hb : GoodStart a.toCommonArgs) {o : Output σ K a.p a.ndim} (h : CPSO.minimize env R srt fuel a g = .ok o) :
    StaysInBox (lo a.toCommonArgs) (hi a.toCommonArgs) o ∧
      RecordedInBox (lo a.toCommonArgs) (hi a.toCommonArgs) 0 o := by
  obtain ⟨fn', P, s0, r, L, hfn', hv, hobj, hcons, hPR, rfl, hw, hc1, hc2, hgam, hlo, hup, hm, hx, hft, hinit, hrun, rfl⟩ :=
    CPSO.minimize_ok he h
  have hl : lo a.toCommonArgs = P.lower := hlo.symm
  have hu : hi a.toCommonArgs = P.upper := hup.symm
  have hcons' : P.cons = .shrink := by
    rw [hc] at hcons; simpa [CPSO.consMap] using hcons.symm
  have hord : ∀ j, P.lower j ≤ P.upper j := fun j => by rw [← hl, ← hu]; exact hb.ordered j
  have hR' : P.R.Ok := hPR ▸ hR
  obtain ⟨i, hi, rfl⟩ := CPSO.init_ok hinit
  have hX : ∀ i, InBox P.lower P.upper ((CPSO.initPop P a.x0Pop (a.seeded R g)).1 i) := by
    intro i
    unfold CPSO.initPop
    cases hx0 : a.x0Pop with
    | none => exact lhs_mem hR' hord _ i
    | some X => rw [hlo, hup]; exact goodStart_pop hb hx0 i
  rw [hl, hu]
  obtain ⟨h1, _, h3⟩ := run_staysInBox (ev := CPSO.State.evals) (caller := CPSO.State.caller) (rng := CPSO.State.rng)
    hrun (CPSO.IB P)
    ⟨fun x hx => by obtain ⟨j, rfl⟩ := List.mem_ofFn.1 hx; exact hX j, hX i, hX, hX⟩
    (fun _ _ _ _ _ hI hs => CPSO.IB_step hobj hcons' hI hs) (fun it _ _ h => CPSO.IB_post hR' hord it h)
    (fun s hs => ⟨hs.1, hs.2.1, hs.2.2.1, hs.2.2.1⟩)
  exact ⟨h1, h3 hX (hX i)⟩

theorem C16_pso [NumFns K] (he : env.Ok) (hR : R.Ok) {a : PSO.Args K} (hc : a.constraints = some "Shrink")
    (hb : GoodStart a.toCommonArgs) {o : Output σ K a.p a.ndim} (h : PSO.minimize env R srt fuel a g = .ok o) :
    StaysInBox (lo a.toCommonArgs) (hi a.toCommonArgs) o ∧
      RecordedInBox (lo a.toCommonArgs) (hi a.toCommonArgs) 0 o :=
  C16_cpso (a := a.toCPSO) he hR hc hb h

/-! ## C28 -/

/-- All points are feasible; the recorded ones from the second generation on (`C13_na_violated` shows that the first entry
of the history is in normalised coordinates). -/
theorem C28_na (he : env.Ok) (hR : R.Ok) {a : NA.Args K}
    (hb : GoodStart a.toCommonArgs) {o : Output σ K a.p a.ndim} (h : NA.minimize env R srt fuel a g = .ok o) :
    StaysInBox (lo a.toCommonArgs) (hi a.toCommonArgs) o ∧
      RecordedInBox (lo a.toCommonArgs) (hi a.toCommonArgs) 1 o := by
  have := na_staysInBox he hR hb.ordered (fun X hX i => NA.normalize_unit (goodStart_pop hb hX i))
    (fun _ i => NA.normalize_unit (lhs_mem hR hb.ordered _ i)) h
  rwa [naTop_exact] at this

/-- Fixed variables keep their value, whatever `x0` is. -/
theorem C28_na_fixed (he : env.Ok) {a : NA.Args K} {o : Output σ K a.p a.ndim}
    (h : NA.minimize env R srt fuel a g = .ok o) (j : Fin a.ndim) (hj : lo a.toCommonArgs j = hi a.toCommonArgs j) :
    (∀ x ∈ o.evals, x j = lo a.toCommonArgs j) ∧ o.res.x j = lo a.toCommonArgs j ∧
      ∀ b ∈ o.cbs, b.x j = lo a.toCommonArgs j ∧ ∀ i, b.X i j = lo a.toCommonArgs j := by
  obtain ⟨fn', P, s0, r, L, hfn', hv, hobj, hPR, hsrt, hnr, hlo, hup, hm, hx, hft, hinit, hrun, rfl⟩ :=
    NA.minimize_ok he h
  have hl : lo a.toCommonArgs = P.lower := hlo.symm
  have hu : hi a.toCommonArgs = P.upper := hup.symm
  rw [hl, hu] at hj
  have key : ∀ y, NA.unnormalize P.lower P.upper y j = P.lower j := by
    intro y
    unfold NA.unnormalize NA.spanMask
    rw [hj]; simp
  obtain ⟨l, st, msg, hH, hlen, hlog, hmsg, rfl⟩ := run_hist hrun
  have hev := hH.inv (fun s => ∀ x ∈ s.evals, x j = P.lower j) (by
      obtain ⟨i, hi, rfl⟩ := NA.init_ok hinit
      intro x hx
      obtain ⟨i, rfl⟩ := List.mem_ofFn.1 hx
      exact key _)
    (by
      intro it s s' st' _ hI hs
      obtain ⟨U, r, hU, hr, hst, rfl⟩ := NA.step_ok hs
      intro x hx
      rcases List.mem_append.1 hx with hx | hx
      · exact hI x hx
      · obtain ⟨i, rfl⟩ := List.mem_ofFn.1 hx
        exact key _) (fun _ _ _ h => h) L.s (by simp)
  rw [hl]
  refine ⟨hev, key _, ?_⟩
  intro b hb
  obtain ⟨s, hs, k, rfl, _⟩ := hlog.mem_cbs hb
  exact ⟨key _, fun i => key _⟩

/-! ### The hypotheses are met by the concrete runs -/

theorem common_goodStart : GoodStart common := by
  refine ⟨?_, ?_⟩
  · intro j; simp [lo, hi, common, bounds2]
  · intro x hx; simp [common] at hx

example : (∃ o, DE.minimize Concrete.env rng 10 deArgs 0 = .ok o ∧ improves o = true ∧
      StaysInBox (lo common) (hi common) o ∧ RecordedInBox (lo common) (hi common) 0 o) ∧
    (∃ o, CPSO.minimize Concrete.env rng stableArgsort 10 cpsoArgs 0 = .ok o ∧ improves o = true ∧
      StaysInBox (lo common) (hi common) o) ∧
    (∃ o, PSO.minimize Concrete.env rng stableArgsort 10 psoArgs 0 = .ok o ∧ improves o = true ∧
      StaysInBox (lo common) (hi common) o) ∧
    ∃ o, NA.minimize Concrete.env rng stableArgsort 10 naArgs 0 = .ok o ∧ improves o = true ∧
      StaysInBox (lo common) (hi common) o := by
  obtain ⟨o, h, ht⟩ := de_run
  obtain ⟨o1, h1, ht1⟩ := cpso_run
  obtain ⟨o2, h2, ht2⟩ := pso_run
  obtain ⟨o3, h3, ht3⟩ := na_run
  exact ⟨⟨o, h, ht, (C15_de env_ok rng_ok rfl common_goodStart h).1, (C15_de env_ok rng_ok rfl common_goodStart h).2⟩,
    ⟨o1, h1, ht1, (C16_cpso env_ok rng_ok rfl common_goodStart h1).1⟩,
    ⟨o2, h2, ht2, (C16_pso env_ok rng_ok rfl common_goodStart h2).1⟩,
    ⟨o3, h3, ht3, (C28_na env_ok rng_ok common_goodStart h3).1⟩⟩

/-- The box `[-1, 1] × {2}`. -/
def naFixed : NA.Args ℚ :=
  { naArgs with
    bounds := { shape := [2, 2], get := fun l => if l = [0, 0] then -1 else if l = [0, 1] then 1 else 2 }
    fn := some sphere2 }

/-- A run with a fixed variable. -/
example : ∃ o, NA.minimize Concrete.env rng stableArgsort 10 naFixed 0 = .ok o ∧ improves o = true ∧
    ∀ x ∈ o.evals, x (1 : Fin 2) = 2 := by
  obtain ⟨o, h, ht⟩ := returns_iff (r := NA.minimize Concrete.env rng stableArgsort 10 naFixed 0) (t := improves)
    (by decide +kernel)
  refine ⟨o, h, ht, ?_⟩
  have := (C28_na_fixed env_ok h (1 : Fin 2) (by decide +kernel)).1
  simpa [lo, naFixed] using this

/-! ## C17 -/

/-- `Shrink` on a particle (both updating modes act on single rows). -/
theorem C17_shrink {n : Nat} {lower upper X V : Vec K n} (hX : InBox lower upper X) :
    ∃ b : K, 0 ≤ b ∧ b ≤ 1 ∧
      (CPSO.consRow .shrink lower upper X V).2 = (fun j => b * V j) ∧
      (CPSO.consRow .shrink lower upper X V).1 = (fun j => X j + b * V j) ∧
      InBox lower upper (fun j => X j + b * V j) ∧
      (InBox lower upper (fun j => X j + V j) → b = 1) ∧
      ∀ b', b < b' → b' ≤ 1 → ¬ InBox lower upper fun j => X j + b' * V j := by
  have hs := CPSO.shrinkBeta_spec (V := V) hX
  refine ⟨CPSO.shrinkBeta lower upper X V, hs.nonneg, hs.le_one, ?_, ?_, hs.feasible, ?_, hs.maximal⟩
  · funext j; simp only [CPSO.consRow]; ring
  · funext j; simp only [CPSO.consRow]; ring
  · intro hf
    by_contra hne
    exact hs.maximal 1 (lt_of_le_of_ne hs.le_one hne) le_rfl (by simpa using hf)

/-- `None` does nothing. -/
theorem C17_none {n : Nat} {lower upper X V : Vec K n} :
    CPSO.consRow .none lower upper X V = (fun j => X j + V j, V) := rfl

/-- A move across the corner of the unit square is cut at the nearer wall. -/
example : CPSO.consRow (.shrink) (fun _ => 0) (fun _ => 1) (fun _ : Fin 2 => (1 / 2 : ℚ)) (fun j => if j = 0 then 1 else -2)
    = (fun j => if j = 0 then 3 / 4 else 0, fun j => if j = 0 then 1 / 4 else -1 / 2) := by
  decide +kernel

/-! ## C18 -/

/-- The first `p` evaluated points form a Latin hypercube sample inside the bounds. -/
def LatinStart {p n : Nat} (lower upper : Vec K n) (o : Output σ K p n) : Prop :=
  ∃ X : Pop K p n, o.evals.take p = List.ofFn X ∧ Stratified lower upper X ∧ ∀ i, InBox lower upper (X i)

theorem x0Pop_none {a : CommonArgs K} (h : a.x0 = none) : a.x0Pop = none := by simp [CommonArgs.x0Pop, h]

theorem C18_de (he : env.Ok) (hR : R.Ok) {a : DE.Args K} (hx0 : a.x0 = none)
    (hb : ∀ j, lo a.toCommonArgs j < hi a.toCommonArgs j) {o : Output σ K a.p a.ndim}
    (h : DE.minimize env R fuel a g = .ok o) : LatinStart (lo a.toCommonArgs) (hi a.toCommonArgs) o := by
  obtain ⟨fn', P, s0, r, L, hfn', hv, hobj, hcons, rfl, hF, hCR, hlo, hup, hm, hx, hft, hstr, hinit, hrun, rfl⟩ :=
    DE.minimize_ok he h
  obtain ⟨l, st, msg, hH, hlen, hlog, hmsg, rfl⟩ := run_hist hrun
  obtain ⟨i, hi', rfl⟩ := DE.init_ok hinit
  refine ⟨(lhs P.R a.p (lo a.toCommonArgs) (hi a.toCommonArgs) (a.seeded P.R g)).1, ?_, lhs_stratified hR hb _,
    fun k => lhs_mem hR (fun j => (hb j).le) _ k⟩
  refine ((DE.laws (P := P) a.sync hstr).ev_take (by simp) hH).trans ?_
  simp only [DE.initPop, x0Pop_none hx0, hlo, hup]
  rfl

theorem C18_cpso [NumFns K] (he : env.Ok) (hR : R.Ok) {a : CPSO.Args K} (hx0 : a.x0 = none)
    (hb : ∀ j, lo a.toCommonArgs j < hi a.toCommonArgs j) {o : Output σ K a.p a.ndim}
    (h : CPSO.minimize env R srt fuel a g = .ok o) : LatinStart (lo a.toCommonArgs) (hi a.toCommonArgs) o := by
  obtain ⟨fn', P, s0, r, L, hfn', hv, hobj, hcons, rfl, rfl, hw, hc1, hc2, hgam, hlo, hup, hm, hx, hft, hinit, hrun, rfl⟩ :=
    CPSO.minimize_ok he h
  obtain ⟨l, st, msg, hH, hlen, hlog, hmsg, rfl⟩ := run_hist hrun
  obtain ⟨i, hi', rfl⟩ := CPSO.init_ok hinit
  refine ⟨(lhs P.R a.p (lo a.toCommonArgs) (hi a.toCommonArgs) (a.seeded P.R g)).1, ?_, lhs_stratified hR hb _,
    fun k => lhs_mem hR (fun j => (hb j).le) _ k⟩
  refine ((CPSO.laws (P := P) a.sync).ev_take (by simp) hH).trans ?_
  simp only [CPSO.initPop, x0Pop_none hx0, hlo, hup]
  rfl

theorem C18_pso [NumFns K] (he : env.Ok) (hR : R.Ok) {a : PSO.Args K} (hx0 : a.x0 = none)
    (hb : ∀ j, lo a.toCommonArgs j < hi a.toCommonArgs j) {o : Output σ K a.p a.ndim}
    (h : PSO.minimize env R srt fuel a g = .ok o) : LatinStart (lo a.toCommonArgs) (hi a.toCommonArgs) o :=
  C18_cpso (a := a.toCPSO) he hR hx0 hb h

theorem unnormalize_normalize {n : Nat} {lower upper x : Vec K n} (hb : ∀ j, lower j < upper j) :
    NA.unnormalize lower upper (NA.normalize lower upper x) = x := by
  funext j
  have : 0 < upper j - lower j := sub_pos.2 (hb j)
  simp only [NA.unnormalize, NA.normalize, NA.spanMask, this, decide_true, if_true]
  field_simp
  ring

theorem C18_na (he : env.Ok) (hR : R.Ok) {a : NA.Args K} (hx0 : a.x0 = none)
    (hb : ∀ j, lo a.toCommonArgs j < hi a.toCommonArgs j) {o : Output σ K a.p a.ndim}
    (h : NA.minimize env R srt fuel a g = .ok o) : LatinStart (lo a.toCommonArgs) (hi a.toCommonArgs) o := by
  obtain ⟨fn', P, s0, r, L, hfn', hv, hobj, rfl, hsrt, hnr, hlo, hup, hm, hx, hft, hinit, hrun, rfl⟩ :=
    NA.minimize_ok he h
  obtain ⟨l, st, msg, hH, hlen, hlog, hmsg, rfl⟩ := run_hist hrun
  obtain ⟨i, hi', rfl⟩ := NA.init_ok hinit
  have hb' : ∀ j, P.lower j < P.upper j := by rw [hlo, hup]; exact hb
  refine ⟨(lhs P.R a.p (lo a.toCommonArgs) (hi a.toCommonArgs) (a.seeded P.R g)).1, ?_, lhs_stratified hR hb _,
    fun k => lhs_mem hR (fun j => (hb j).le) _ k⟩
  refine ((NA.laws (P := P)).ev_take (by simp) hH).trans ?_
  simp only [NA.initN, unnormalize_normalize hb', NA.initPop, x0Pop_none hx0]
  rw [hlo, hup]
  rfl

example : ∃ o, DE.minimize Concrete.env rng 10 deArgs 0 = .ok o ∧ LatinStart (lo common) (hi common) o := by
  obtain ⟨o, h, ht⟩ := de_run
  exact ⟨o, h, C18_de env_ok rng_ok rfl (fun j => by simp [lo, hi, common, bounds2, deArgs]) h⟩

/-! ## C19

Full claim: for every `lower < upper`, every choice of points, one in each of the `p` slices of each coordinate, can be
drawn.  It is false: the jitter (`np.random.uniform(size=...) / popsize`, on the scale where the interval has length 2)
only covers the first half of each slice. -/

theorem C19_violated (hR : R.Ok) {p n : Nat} {lower upper : Vec K n} (hb : ∀ j, lower j < upper j) (k : Fin p) (j : Fin n)
    (m : Nat) :
    ¬ (lower j + ((m : K) + 1 / 2) * ((upper j - lower j) / p) ≤ (lhs R p lower upper g).1 k j ∧
      (lhs R p lower upper g).1 k j < lower j + ((m : K) + 1) * ((upper j - lower j) / p)) := by
  rintro ⟨h1, h2⟩
  have hp : (0 : K) < p := by have : 0 < p := k.pos; exact_mod_cast this
  have hq : 0 < (upper j - lower j) / p := div_pos (sub_pos.2 (hb j)) hp
  obtain ⟨g', h⟩ := lhs_eq R lower upper g k j
  rw [h] at h1 h2
  set t := (drawVec (R.perm p) n (drawMat R.rand p n g).2).1 j k
  have h0 := hR.rand_nonneg g'
  have h1' := hR.rand_lt_one g'
  have k1 : ((m : K) + 1 / 2) ≤ ((t : Nat) : K) + (R.rand g').1 / 2 :=
    le_of_mul_le_mul_right (by linarith) hq
  have k2 : ((t : Nat) : K) + (R.rand g').1 / 2 < (m : K) + 1 :=
    lt_of_mul_lt_mul_right (by linarith) hq.le
  have e1 : (m : K) < ((t : Nat) : K) + 1 / 2 := by linarith
  have e2 : ((t : Nat) : K) < ((m + 1 : Nat) : K) := by push_cast; linarith
  have e1' : (m : K) < (((t : Nat) + 1 : Nat) : K) := by push_cast; linarith
  have f1 : m < (t : Nat) + 1 := by exact_mod_cast e1'
  have f2 : (t : Nat) < m + 1 := by exact_mod_cast e2
  have : (t : Nat) = m := by omega
  rw [this] at k1
  linarith

/-- The same for the points actually evaluated by a run: none of the initial population is in the upper half of a
slice. -/
theorem C19_de_violated (he : env.Ok) (hR : R.Ok) {a : DE.Args K} (hx0 : a.x0 = none)
    (hb : ∀ j, lo a.toCommonArgs j < hi a.toCommonArgs j) {o : Output σ K a.p a.ndim}
    (h : DE.minimize env R fuel a g = .ok o) (x : Vec K a.ndim) (hx : x ∈ o.evals.take a.p) (j : Fin a.ndim) (m : Nat) :
    ¬ (lo a.toCommonArgs j + ((m : K) + 1 / 2) * ((hi a.toCommonArgs j - lo a.toCommonArgs j) / a.p) ≤ x j ∧
      x j < lo a.toCommonArgs j + ((m : K) + 1) * ((hi a.toCommonArgs j - lo a.toCommonArgs j) / a.p)) := by
  obtain ⟨fn', P, s0, r, L, hfn', hv, hobj, hcons, rfl, hF, hCR, hlo, hup, hm, hxt, hft, hstr, hinit, hrun, rfl⟩ :=
    DE.minimize_ok he h
  obtain ⟨l, st, msg, hH, hlen, hlog, hmsg, rfl⟩ := run_hist hrun
  obtain ⟨i, hi', rfl⟩ := DE.init_ok hinit
  have hx' : x ∈ L.s.evals.take a.p := hx
  rw [(DE.laws (P := P) a.sync hstr).ev_take (by simp) hH] at hx'
  obtain ⟨k, rfl⟩ := List.mem_ofFn.1 hx'
  simp only [DE.initPop, x0Pop_none hx0, hlo, hup]
  exact C19_violated hR hb k j m

/-- A generator that plays back a table of uniforms and permutations. -/
def playback {p n : Nat} (u : Nat → K) (π : Nat → Equiv.Perm (Fin p)) : Rng Nat K where
  seed _ := 0
  rand g := (u g, g + 1)
  randn g := (0, g + 1)
  randint _ g := (0, g + 1)
  perm m g := (if h : m = p then (finCongr h).trans ((π (g - p * n)).trans (finCongr h.symm)) else Equiv.refl _, g + 1)

theorem drawVec_count {α : Type} {d : Nat → α × Nat} {c : Nat} (hd : ∀ g, (d g).2 = g + c) (n g : Nat) :
    drawVec d n g = (fun j => (d (g + j.val * c)).1, g + n * c) := by
  have : ∀ k, (fun g => (d g).2)^[k] g = g + k * c := by
    intro k
    induction k with
    | zero => simp
    | succ k ih => rw [Function.iterate_succ_apply', ih, hd]; ring
  simp [drawVec, this]

/-- What is left: every choice of points in the lower halves of the slices, with any assignment `π` of slices to members,
is drawn by some lawful generator. -/
theorem C19_partial {p n : Nat} (lower upper : Vec K n) (π : Fin n → Equiv.Perm (Fin p)) (X : Pop K p n)
    (hb : ∀ j, lower j < upper j)
    (hX : ∀ k j, lower j + ((π j k : Nat) : K) * ((upper j - lower j) / p) ≤ X k j ∧
      X k j < lower j + (((π j k : Nat) : K) + 1 / 2) * ((upper j - lower j) / p)) :
    ∃ R : Rng Nat K, R.Ok ∧ (lhs R p lower upper 0).1 = X := by
  -- the uniform behind entry `(m, j)` of the unpermuted sample
  let w : Fin p → Fin n → K := fun m j =>
    2 * ((X ((π j).symm m) j - lower j) / ((upper j - lower j) / p) - ((m : Nat) : K))
  have hw : ∀ m j, 0 ≤ w m j ∧ w m j < 1 := by
    intro m j
    have hp : (0 : K) < p := by have : 0 < p := m.pos; exact_mod_cast this
    have hq : 0 < (upper j - lower j) / p := div_pos (sub_pos.2 (hb j)) hp
    have h := hX ((π j).symm m) j
    rw [Equiv.apply_symm_apply] at h
    have h1 : ((m : Nat) : K) ≤ (X ((π j).symm m) j - lower j) / ((upper j - lower j) / p) := by
      rw [le_div_iff₀ hq]; linarith [h.1]
    have h2 : (X ((π j).symm m) j - lower j) / ((upper j - lower j) / p) < ((m : Nat) : K) + 1 / 2 := by
      rw [div_lt_iff₀ hq]; linarith [h.2]
    constructor
    · show 0 ≤ 2 * (_ - _); linarith
    · show 2 * (_ - _) < 1; linarith
  let u : Nat → K := fun t =>
    if h : t / n < p ∧ 0 < n then w ⟨t / n, h.1⟩ ⟨t % n, Nat.mod_lt _ h.2⟩ else 0
  let π' : Nat → Equiv.Perm (Fin p) := fun t => if h : t < n then π ⟨t, h⟩ else Equiv.refl _
  refine ⟨playback (n := n) u π', ⟨?_, ?_, ?_⟩, ?_⟩
  · intro t
    show 0 ≤ u t
    by_cases h : t / n < p ∧ 0 < n
    · simp only [u, dif_pos h]; exact (hw _ _).1
    · simp only [u, dif_neg h]; exact le_rfl
  · intro t
    show u t < 1
    by_cases h : t / n < p ∧ 0 < n
    · simp only [u, dif_pos h]; exact (hw _ _).2
    · simp only [u, dif_neg h]; exact zero_lt_one
  · intro n g hn; exact hn
  · funext k j
    have hp : (0 : K) < p := by have : 0 < p := k.pos; exact_mod_cast this
    have hs : 0 < upper j - lower j := sub_pos.2 (hb j)
    have hd1 : ∀ g, drawVec (playback (n := n) u π').rand n g = (fun j => u (g + j.val), g + n) := by
      intro g; rw [drawVec_count (c := 1) (fun _ => rfl)]; simp [playback]
    have hd : drawMat (playback (n := n) u π').rand p n 0 = (fun i j => u (i.val * n + j.val), p * n) := by
      unfold drawMat
      rw [drawVec_count (c := n) (fun g => by rw [hd1])]
      simp [hd1]
    have hdp : (drawVec ((playback (n := n) u π').perm p) n (p * n)).1 j = π j := by
      rw [drawVec_count (c := 1) (fun _ => rfl)]
      ext x
      simp [playback, π']
    simp only [lhs, hd, hdp, lhsScale]
    have hu : u ((π j k).val * n + j.val) = w (π j k) j := by
      have hn : 0 < n := j.pos
      have e1 : ((π j k).val * n + j.val) / n = (π j k).val := by
        rw [mul_comm, Nat.mul_add_div hn, Nat.div_eq_of_lt j.2, add_zero]
      have e2 : ((π j k).val * n + j.val) % n = j.val := by
        rw [mul_comm, Nat.mul_add_mod, Nat.mod_eq_of_lt j.2]
      have : ((π j k).val * n + j.val) / n < p ∧ 0 < n := ⟨by rw [e1]; exact (π j k).2, hn⟩
      simp only [u, dif_pos this]
      congr 1
      · ext; exact e1
      · ext; exact e2
    rw [hu]
    simp only [w, Equiv.symm_apply_apply]
    field_simp
    ring

/-- The hypotheses of `C19_partial` are met, e.g. by the lower ends of the slices. -/
example : ∃ R : Rng Nat ℚ, R.Ok ∧ (lhs R 3 (fun _ : Fin 2 => 0) (fun _ => 3) 0).1 = fun k _ => (k.val : ℚ) := by
  refine C19_partial _ _ (fun _ => Equiv.refl _) _ (fun _ => by norm_num) (fun k j => ?_)
  simp only [Equiv.refl_apply]
  constructor <;> norm_num

end Stochopy
