import Verif.Lemmas.PenaltyRun
import Verif.Props.Penalty
import Verif.Props.Recombination

/-! # C75: whole runs with `Penalize` -/

set_option linter.unusedSectionVars false

namespace Stochopy.Props
open Evo Spec

section
variable {K σ S : Type} [Field K] [LinearOrder K] [IsStrictOrderedRing K] [NumFns K] [LawfulNumFns K] [FloorRing K] {p n : Nat}

/-- The run of the frame as a sequence of states: what is left to know is how the algorithm samples and recombines. -/
theorem chain_penalized {P : Evo.Par K n} {G : Gauss S K p n} {c : Cfg} {s0 : S} {o : Output σ K p n}
    {fn : Vec K n → Val K} {f : Vec K n → K} (hf : ∀ x, fn x = .fin (f x)) (hobj : P.obj.Faithful fn) (hpen : P.penalized = true) {mu : Nat}
    (hme : P.mueff = mueff mu) (hs : IsArgsort P.srt) {junk : Vec K n} (h0 : G.old s0 = junk)
    {var : S → Vec K n}
    (hkeep : ∀ (s t : S) X, G.sample s = .ok (X, t) → G.mean t = G.mean s ∧ G.old t = G.old s ∧ G.sigma t = G.sigma s ∧ G.diagC t = var s)
    (hold : ∀ L r, Evo.body P G c L = .ok r → G.old r.1.s = G.mean L.s)
    (hbest : ∀ L r X t, Evo.body P G c L = .ok r → G.sample L.s = .ok (X, t) → WeightedBest mu r.2.fit X (G.mean r.1.s))
    {fs : Nat → St S K p n} {g : Nat → Gen K p n} (e0 : fs 0 = init c s0)
    (e1 : ∀ k < o.res.nit, Evo.body P G c (fs k) = .ok (fs (k + 1), g k) ∧ ∀ i : Fin p, o.evals[k * p + i.val]? = some ((g k).X i))
    (elast : ∃ k, o.res.nit = k + 1 ∧ o.res.x = (g k).X (g k).best ∧ o.res.fval = (g k).fit (g k).best) :
    ∃ (X : Nat → Pop K p n) (mem : Nat → PenaltyMemory K n) (F : Nat → Fin p → K),
      PenalizedRun f P.lower P.upper mu junk (fun k => G.mean (fs k).s) (fun k => G.sigma (fs k).s) (fun k => var (fs k).s) mem X
        (fun k => (g k).X) F o ∧
      ∀ k < o.res.nit, (∃ t, G.sample (fs k).s = .ok (X k, t)) ∧ (∀ i, (g k).fit i = .fin (F k i)) ∧ (fs k).it = k ∧ Reach P G c s0 (fs k) := by
  obtain ⟨k0, e3, e4, e5⟩ := elast
  have hrep : ∀ k ≤ o.res.nit, Rep (fs k).pen (decode (fs k).pen) ∧ (fs k).it = k ∧ Reach P G c s0 (fs k) := by
    intro k
    induction k with
    | zero =>
      intro _
      rw [e0]
      have := rep_start (K := K) (n := n)
      exact ⟨by show Rep (Pen.start n) (decode (Pen.start n)); rw [this.eq]; exact this, rfl, Reach.start⟩
    | succ k ih =>
      intro hk
      obtain ⟨i1, i2, i3⟩ := ih (by omega)
      have hb := (e1 k (by omega)).1
      obtain ⟨X, t, -, s', j1, -⟩ := body_penalized hf hobj hpen hme hs i1 hb
      exact ⟨by rw [j1.eq]; exact j1, by rw [(evals_step hb).2, i2], i3.step hb⟩
  have hex : ∀ k, ∃ X : Pop K p n, k < o.res.nit → (∃ t, G.sample (fs k).s = .ok (X, t)) ∧
      PenaltyStep mu (k + 1) (G.mean (fs k).s) (G.old (fs k).s) (G.sigma (fs k).s) (var (fs k).s) (fun i => f ((g k).X i))
        (decode (fs k).pen) (decode (fs (k + 1)).pen) ∧
      (∀ i, (g k).X i = fromCube P.lower P.upper (nearest (X i))) ∧
      (∀ i, (g k).fit i = .fin (f ((g k).X i) + boundaryPenalty (decode (fs (k + 1)).pen).w (var (fs k).s) (X i))) ∧
      (∀ i, (g k).fit (g k).best ≤ (g k).fit i) ∧ WeightedBest mu (g k).fit X (G.mean (fs (k + 1)).s) := by
    intro k
    by_cases hk : k < o.res.nit
    · obtain ⟨i1, i2, i3⟩ := hrep k hk.le
      have hb := (e1 k hk).1
      obtain ⟨X, t, j0, s', j1, j2, j3, j4, j5⟩ := body_penalized hf hobj hpen hme hs i1 hb
      obtain ⟨m1, m2, m3, m4⟩ := hkeep _ _ _ j0
      rw [m1, m2, m3, m4, i2] at j2
      rw [m4] at j4
      have e := j1.eq
      dsimp only at e
      exact ⟨X, fun _ => ⟨⟨t, j0⟩, by rw [e]; exact j2, j3, by rw [e]; exact j4, j5, hbest _ _ _ _ hb j0⟩⟩
    · exact ⟨fun _ _ => 0, fun h => absurd h hk⟩
  choose X hX using hex
  let F : Nat → Fin p → K := fun k i => f ((g k).X i) + boundaryPenalty (decode (fs (k + 1)).pen).w (var (fs k).s) (X k i)
  refine ⟨X, fun k => decode (fs k).pen, F, ⟨?_, fun k hk => (e1 k hk).2, fun k hk => ?_, ?_⟩,
    fun k hk => ⟨(hX k hk).1, (hX k hk).2.2.2.1, (hrep k hk.le).2⟩⟩
  · show decode (fs 0).pen = _
    rw [e0]
    exact rep_start.eq
  · obtain ⟨j0, j1, j2, j3, j4, j5⟩ := hX k hk
    refine ⟨j2, ?_, fun i => rfl, ?_⟩
    · have : (if k = 0 then junk else G.mean (fs (k - 1)).s) = G.old (fs k).s := by
        by_cases h0' : k = 0
        · rw [if_pos h0', h0', e0]; exact h0.symm
        · rw [if_neg h0']
          obtain ⟨k', rfl⟩ : ∃ k', k = k' + 1 := ⟨k - 1, by omega⟩
          exact (hold _ _ (e1 k' (by omega)).1).symm
      rw [this]
      exact j1
    · rw [show (fun i => (.fin (F k i) : Val K)) = (g k).fit from funext fun i => (j3 i).symm]
      exact j5
  · obtain ⟨j0, j1, j2, j3, j4, j5⟩ := hX k0 (by omega)
    refine ⟨k0, (g k0).best, e3, e4, by rw [e5, j3], fun i' => ?_⟩
    have := j4 i'
    rw [j3, j3] at this
    exact Val.fin_le_fin.1 this

/-- The run of the frame. -/
theorem run_penalized {P : Evo.Par K n} {G : Gauss S K p n} {c : Cfg} {rng : S → σ} {fuel : Nat} {s0 : S} {o : Output σ K p n}
    {fn : Vec K n → Val K} {f : Vec K n → K} (hf : ∀ x, fn x = .fin (f x)) (hobj : P.obj.Faithful fn) (hpen : P.penalized = true) {mu : Nat}
    (hme : P.mueff = mueff mu) (hs : IsArgsort P.srt) (h : Evo.run P G c rng fuel s0 = .ok o) {junk : Vec K n} (h0 : G.old s0 = junk)
    {var : S → Vec K n}
    (hkeep : ∀ (s t : S) X, G.sample s = .ok (X, t) → G.mean t = G.mean s ∧ G.old t = G.old s ∧ G.sigma t = G.sigma s ∧ G.diagC t = var s)
    (hold : ∀ L r, Evo.body P G c L = .ok r → G.old r.1.s = G.mean L.s)
    (hbest : ∀ L r X t, Evo.body P G c L = .ok r → G.sample L.s = .ok (X, t) → WeightedBest mu r.2.fit X (G.mean r.1.s)) :
    ∃ (st : Nat → S) (X Y : Nat → Pop K p n) (mem : Nat → PenaltyMemory K n) (F : Nat → Fin p → K), st 0 = s0 ∧ o.rng = rng (st o.res.nit) ∧
      PenalizedRun f P.lower P.upper mu junk (fun k => G.mean (st k)) (fun k => G.sigma (st k)) (fun k => var (st k)) mem X Y F o ∧
      ∀ k < o.res.nit, (∃ t, G.sample (st k) = .ok (X k, t)) ∧ ∃ L r, L.it = k ∧ L.s = st k ∧ r.1.s = st (k + 1) ∧ Evo.body P G c L = .ok r ∧
        Reach P G c s0 L := by
  obtain ⟨fs, g, e0, e1, e2, e3⟩ := run_chain_last h
  obtain ⟨X, mem, F, j1, j2⟩ := chain_penalized hf hobj hpen hme hs h0 hkeep hold hbest e0 e1 e3
  refine ⟨fun k => (fs k).s, X, fun k => (g k).X, mem, F, by show (fs 0).s = _; rw [e0]; rfl, e2, j1, fun k hk => ?_⟩
  obtain ⟨i1, -, i3, i4⟩ := j2 k hk
  exact ⟨i1, fs k, (fs (k + 1), g k), i3, rfl, rfl, (e1 k hk).1, i4⟩

end

section
variable {K σ : Type} [Field K] [LinearOrder K] [IsStrictOrderedRing K] [NumFns K] [LawfulNumFns K] [FloorRing K]
  {env : Env} {R : Rng σ K} {srt : Argsort K} {eigh : CMAES.Eigh K} {fuel : Nat} {g : σ} {a : Args K} {junk : Vec K a.ndim}
  {o : Output σ K a.p a.ndim}

theorem fromCube_eq {n : Nat} (lower upper x : Vec K n) : fromCube lower upper x = unstandardize lower upper x := by
  funext j
  unfold fromCube unstandardize
  ring

/-- C75: a run of `cmaes` with `Penalize` on an objective with finite values.  Candidates are drawn from the Gaussian; their nearest
feasible points are evaluated; values are penalised with the weights described by `PenaltyStep`; the next mean is formed from the
candidates with the smallest penalised values; the result is the best of the last generation in that sense. -/
theorem C75_cmaes (he : env.Ok) (hs : IsArgsort srt) (h : CMAES.minimize env R srt eigh fuel a junk g = .ok o)
    {f : Vec K a.ndim → K} (hfn : a.fn = some fun x => .fin (f x)) (hc : a.constraints = some "Penalize") {mu : Nat}
    (hmu : (mu : Int) = ⌊a.muperc * (a.popsize : K)⌋) :
    ∃ (ms : Nat → Vec K a.ndim) (sg : Nat → K) (vs : Nat → Vec K a.ndim) (As : Nat → Matrix (Fin a.ndim) (Fin a.ndim) K) (gs : Nat → σ)
      (mem : Nat → PenaltyMemory K a.ndim) (X Y : Nat → Pop K a.p a.ndim) (F : Nat → Fin a.p → K),
      fromCube (lo a.toCommonArgs) (hi a.toCommonArgs) (ms 0) = (startPoint a R (a.seeded R g)).1 ∧
      gs 0 = (startPoint a R (a.seeded R g)).2 ∧ sg 0 = a.sigma ∧ vs 0 = (fun _ => 1) ∧ As 0 = 1 ∧ o.rng = gs o.res.nit ∧
      (∀ k < o.res.nit, gs (k + 1) = (drawMat R.randn a.p a.ndim (gs k)).2 ∧
        ∀ i j, X k i j = ms k j + sg k * (As k).mulVec ((drawMat R.randn a.p a.ndim (gs k)).1 i) j) ∧
      PenalizedRun f (lo a.toCommonArgs) (hi a.toCommonArgs) mu junk ms sg vs mem X Y F o := by
  obtain ⟨fn', obj, pen, m, hd, hfn', hv, hobj, hb, hcm, hm, hrun⟩ := CMAES.minimize_ok he h
  obtain rfl : fn' = fun x => .fin (f x) := Option.some.inj (hfn'.symm.trans hfn)
  have hpen : pen = true := consMap_penalize hc hcm
  obtain rfl := mu_of_floor hv hd.2.1 hmu
  obtain ⟨hm1, hm2⟩ := firstMean_start hm
  obtain ⟨st, X, Y, mem, F, e0, e1, e2, e3⟩ := run_penalized (P := a.par srt obj pen) (f := f) (fun _ => rfl) hobj hpen (mu := a.mu) rfl hs hrun
    (junk := junk) rfl (var := fun s j => s.C j j) (fun s t X hX => by cases hX; exact ⟨rfl, rfl, rfl, rfl⟩)
    (fun L r hb => by obtain ⟨-, -, -, h', -⟩ := C69_cmaes hs hd.2.2.1 hobj hb; exact h')
    (fun L r X t hb hX => by
      obtain ⟨X', s', h1, -, h3, -⟩ := C69_cmaes hs hd.2.2.1 hobj hb
      rw [h1] at hX
      cases hX
      exact h3)
  refine ⟨_, _, _, fun k => (st k).B * Matrix.diagonal (st k).D, fun k => (st k).rng, mem, X, Y, F, ?_, ?_, ?_, ?_, ?_, e1,
    fun k hk => ?_, e2⟩
  · rw [e0, fromCube_eq]; exact funext hm1
  · dsimp only; rw [e0]; exact hm2
  · rw [e0]; rfl
  · rw [e0]; funext j; exact Matrix.one_apply_eq j
  · dsimp only
    rw [e0]
    show (1 : Matrix _ _ K) * Matrix.diagonal (fun _ => 1) = _
    rw [Matrix.diagonal_one, mul_one]
  · obtain ⟨⟨t, ht⟩, L, r, -, hL, hr, hbk, -⟩ := e3 k hk
    obtain ⟨X', s', h1, -, -, -, h5⟩ := C69_cmaes hs hd.2.2.1 hobj hbk
    rw [hL, ht] at h1
    cases h1
    rw [hr] at h5
    dsimp only
    rw [h5]
    injection ht with ht
    have h1 := congrArg Prod.fst ht
    have h2 := congrArg Prod.snd ht
    dsimp only at h1 h2
    rw [← h1, ← h2]
    refine ⟨rfl, fun i j => ?_⟩
    have : (Matrix.diagonal (st k).D).mulVec ((drawMat R.randn a.p a.ndim (st k).rng).1 i) =
        fun l => (st k).D l * (drawMat R.randn a.p a.ndim (st k).rng).1 i l := funext fun l => Matrix.mulVec_diagonal _ _ _
    rw [← Matrix.mulVec_mulVec, this]
    rfl

end

/-- The same for `vdcma`, whose first two candidates are, from the second generation on, mirror images about the mean. -/
theorem C75_vdcma {σ : Type} {env : Env} {R : Rng σ ℝ} {srt : Argsort ℝ} {fuel : Nat} {g : σ} {a : Args ℝ} {junk : Vec ℝ a.ndim}
    {o : Output σ ℝ a.p a.ndim} (he : env.Ok) (hs : IsArgsort srt) (h : VDCMA.minimize env R srt fuel a junk g = .ok o)
    {f : Vec ℝ a.ndim → ℝ} (hfn : a.fn = some fun x => .fin (f x)) (hc : a.constraints = some "Penalize") {mu : Nat}
    (hmu : (mu : Int) = ⌊a.muperc * (a.popsize : ℝ)⌋) :
    ∃ (ms : Nat → Vec ℝ a.ndim) (sg : Nat → ℝ) (vs : Nat → Vec ℝ a.ndim) (As : Nat → Matrix (Fin a.ndim) (Fin a.ndim) ℝ) (gs : Nat → σ)
      (mem : Nat → PenaltyMemory ℝ a.ndim) (X Y : Nat → Pop ℝ a.p a.ndim) (F : Nat → Fin a.p → ℝ),
      fromCube (lo a.toCommonArgs) (hi a.toCommonArgs) (ms 0) = (startPoint a R (a.seeded R g)).1 ∧
      gs 0 = (drawVec R.randn a.ndim (startPoint a R (a.seeded R g)).2).2 ∧ sg 0 = a.sigma ∧ o.rng = gs o.res.nit ∧
      (∀ k < o.res.nit, gs (k + 1) = (if k = 0 then (drawMat R.randn a.p a.ndim (gs k)).2
            else (drawVec R.randn a.ndim (drawMat R.randn a.p a.ndim (gs k)).2).2) ∧
        (∀ j, vs k j = (As k * (As k).transpose) j j) ∧
        (∀ i, k = 0 ∨ 2 ≤ i.val → ∀ j, X k i j = ms k j + sg k * (As k).mulVec ((drawMat R.randn a.p a.ndim (gs k)).1 i) j) ∧
        (1 ≤ k → ∃ (hp : 1 < a.p) (t : ℝ), 0 ≤ t ∧ (∀ j, X k ⟨0, by omega⟩ j = ms k j + sg k * (t * (ms k j - ms (k - 1) j))) ∧
          ∀ j, X k ⟨1, hp⟩ j = ms k j - sg k * (t * (ms k j - ms (k - 1) j)))) ∧
      PenalizedRun f (lo a.toCommonArgs) (hi a.toCommonArgs) mu junk ms sg vs mem X Y F o := by
  obtain ⟨fn', obj, pen, m, hd, hfn', hv, hobj, hb, hcm, hm, hrun⟩ := VDCMA.minimize_ok he h
  obtain rfl : fn' = fun x => .fin (f x) := Option.some.inj (hfn'.symm.trans hfn)
  have hpen : pen = true := consMap_penalize hc hcm
  obtain rfl := mu_of_floor hv hd.2.1 hmu
  obtain ⟨hm1, hm2⟩ := firstMean_start hm
  obtain ⟨st, X, Y, mem, F, e0, e1, e2, e3⟩ := run_penalized (P := a.par srt obj pen) (f := f) (fun _ => rfl) hobj hpen (mu := a.mu) rfl hs hrun
    (junk := junk) rfl (var := fun s => VDCMA.diagCov s.dvec s.vvec)
    (fun s t X hX => by
      obtain ⟨-, r', -, -, ha⟩ := VDCMA.sample_ok hX
      rw [show t = _ from ha]
      exact ⟨rfl, rfl, rfl, rfl⟩)
    (fun L r hb => by obtain ⟨-, -, -, h', -⟩ := C69_vdcma hs hd.2.2.1 hobj hb; exact h')
    (fun L r X t hb hX => by
      obtain ⟨X', s', h1, -, h3, -⟩ := C69_vdcma hs hd.2.2.1 hobj hb
      rw [h1] at hX
      cases hX
      exact h3)
  have hA : ∀ k, ∃ A : Matrix (Fin a.ndim) (Fin a.ndim) ℝ, k < o.res.nit → A * A.transpose = covVD (st k).dvec (st k).vvec ∧
      ∀ i : Fin a.p, k = 0 ∨ 2 ≤ i.val → ∀ j,
        X k i j = (st k).xmean j + (st k).sigma * (A.mulVec ((drawMat R.randn a.p a.ndim (st k).rng).1 i)) j := by
    intro k
    by_cases hk : k < o.res.nit
    · obtain ⟨⟨t, ht⟩, L, r, hit, hL, hr, hbk, hreach⟩ := e3 k hk
      rw [← hL] at ht
      obtain ⟨⟨A, hA, hA'⟩, -⟩ := C65_vdcma hreach ht
      rw [hit, hL] at hA'
      rw [hL] at hA
      exact ⟨A, fun _ => ⟨hA, hA'⟩⟩
    · exact ⟨0, fun h => absurd h hk⟩
  choose A hA using hA
  refine ⟨_, _, _, A, fun k => (st k).rng, mem, X, Y, F, ?_, ?_, ?_, e1,
    fun k hk => ⟨?_, fun j => ?_, (hA k hk).2, fun hk1 => ?_⟩, e2⟩
  · rw [e0, fromCube_eq]; exact funext hm1
  · dsimp only; rw [e0, ← hm2]; rfl
  · rw [e0]; rfl
  · obtain ⟨-, L, r, hit, hL, hr, hbk, hreach⟩ := e3 k hk
    obtain ⟨X', s', h1, -, -, -, h5⟩ := C69_vdcma hs hd.2.2.1 hobj hbk
    obtain ⟨-, r', hr', -, ha⟩ := VDCMA.sample_ok h1
    have hdx := VDCMA.reach_dx hreach
    rw [hit] at hdx
    rw [hr, show s'.rng = r'.2 by rw [show s' = _ from ha]] at h5
    dsimp only
    rw [h5, ← hL]
    unfold VDCMA.inject at hr'
    by_cases hk0 : k = 0
    · rw [if_pos hk0]
      rcases hdx with ⟨h6, -⟩ | ⟨-, h6, -⟩
      · rw [if_neg (by rw [h6]; simp)] at hr'
        cases hr'; rfl
      · omega
    · rw [if_neg hk0]
      rcases hdx with ⟨-, h6⟩ | ⟨h6, -⟩
      · omega
      · rw [if_pos h6, bind_ok_iff] at hr'
        obtain ⟨-, -, hr'⟩ := hr'
        dsimp only at hr'
        split_ifs at hr' with h2
        cases hr'; rfl
  · rw [(hA k hk).1, VDCMA.covVD_eq, VDCMA.cov_diag]
  · obtain ⟨⟨t, ht⟩, L, r, hit, hL, hr, hbk, hreach⟩ := e3 k hk
    rw [← hL] at ht
    obtain ⟨-, hinj⟩ := C65_vdcma hreach ht
    obtain ⟨hp, q, hq, j0, j1, -⟩ := hinj (by omega)
    refine ⟨hp, q, hq, ?_⟩
    obtain ⟨k', rfl⟩ : ∃ k', k = k' + 1 := ⟨k - 1, by omega⟩
    obtain ⟨-, L', r', -, hL', hr', hbk', -⟩ := e3 k' (by omega)
    obtain ⟨-, -, -, hold, -⟩ := C69_vdcma hs hd.2.2.1 hobj hbk'
    rw [hr', hL'] at hold
    rw [hL, hold] at j0 j1
    exact ⟨j0, j1⟩

namespace Concrete
open Stochopy.Concrete

/-- `farArgs` for two generations. -/
def farTwice : Args ℚ := { farArgs with maxiter := 2 }

/-- The result is penalised: its value is not that of the objective. -/
def penalised {p : Nat} (o : Output Nat ℚ p 2) : Bool := decide (o.res.nit = 2) && decide (sphere2 o.res.x < o.res.fval)

/-- A run that starts outside the bounds; the weights and the penalty of the result are positive. -/
theorem cmaes_far : ∃ o, CMAES.minimize env rng stableArgsort eighDiag 10 farTwice junk0 0 = .ok o ∧ penalised o = true ∧
    ∃ ms sg vs mem X Y F, PenalizedRun (fun x : Vec ℚ 2 => (x 0 - 3 / 5) * (x 0 - 3 / 5) + (x 1 + 1 / 2) * (x 1 + 1 / 2)) (lo farTwice.toCommonArgs)
      (hi farTwice.toCommonArgs) 3 junk0 ms sg vs mem X Y F o := by
  obtain ⟨o, h, hi⟩ := returns_iff (r := CMAES.minimize env rng stableArgsort eighDiag 10 farTwice junk0 0) (t := penalised)
    (by decide +kernel)
  obtain ⟨ms, sg, vs, -, -, mem, X, Y, F, -, -, -, -, -, -, -, hr⟩ := C75_cmaes env_ok isArgsort_stable h
    (f := fun x : Vec ℚ 2 => (x 0 - 3 / 5) * (x 0 - 3 / 5) + (x 1 + 1 / 2) * (x 1 + 1 / 2)) rfl rfl (mu := 3)
      (by symm; rw [Int.floor_eq_iff]; norm_num [farTwice, farArgs, evoArgs, common])
  exact ⟨o, h, hi, ms, sg, vs, mem, X, Y, F, hr⟩

theorem vdcma_far : ∃ o, VDCMA.minimize env rng stableArgsort 10 farTwice junk0 0 = .ok o ∧ penalised o = true := by
  obtain ⟨o, h, hi⟩ := returns_iff (r := VDCMA.minimize env rng stableArgsort 10 farTwice junk0 0) (t := penalised) (by decide +kernel)
  exact ⟨o, h, hi⟩

end Concrete

end Stochopy.Props
