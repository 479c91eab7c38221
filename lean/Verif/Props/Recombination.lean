import Verif.Lemmas.VDCMA
import Verif.Lemmas.EvoChain
import Verif.Props.EvoRuns
import Verif.Props.VDGaussian

/-!
# C69, C70: selection and recombination, the first generation
-/

set_option linter.unusedSectionVars false

namespace Stochopy.Props
open Evo Spec Concrete

section
variable {K σ : Type} [Field K] [LinearOrder K] [IsStrictOrderedRing K] [NumFns K] [LawfulNumFns K] [FloorRing K] {p n : Nat}

theorem weightedBest {mu : Nat} (h : mu ≤ p) (hmu : 0 < mu) {srt : Argsort K} (hs : IsArgsort srt) (fit : Fin p → Val K)
    (X : Pop K p n) : WeightedBest mu fit X (recombine h (weights mu) (srt p fit) X) := by
  refine ⟨fun k => srt p fit (Fin.castLE h k), weights mu, fun k l hkl => ?_, weights_pos, fun k l => weights_lt, weights_sum hmu,
    fun k l hkl => hs _ _ _ _ hkl, fun i hi k => ?_, fun j => rfl⟩
  · exact Fin.castLE_injective h ((srt p fit).injective hkl)
  · have : srt p fit ((srt p fit).symm i) = i := (srt p fit).apply_symm_apply i
    rw [← this]
    refine hs _ _ _ _ ?_
    by_contra hc
    have hc : ((srt p fit).symm i).val < k.val := not_le.1 hc
    exact hi ⟨((srt p fit).symm i).val, by omega⟩ this.symm

/-- C69: the new mean is the weighted mean of the `mu` best points of the generation `X`, whose values are those of the
objective unless the run is penalized. -/
theorem C69_cmaes {Q : Evo.Par K n} {P : CMAES.Par σ K p n} {c : Cfg} (hs : IsArgsort Q.srt) (hmu : 0 < P.mu)
    {fn : Vec K n → Val K} (hobj : Q.obj.Faithful fn) {L : St (CMAES.State σ K n) K p n}
    {r : St (CMAES.State σ K n) K p n × Gen K p n} (hb : Evo.body Q (CMAES.gauss P) c L = .ok r) :
    ∃ (X : Pop K p n) (s' : CMAES.State σ K n), (CMAES.gauss P).sample L.s = .ok (X, s') ∧ r.1.s.xold = L.s.xmean ∧
      WeightedBest P.mu r.2.fit X r.1.s.xmean ∧
      (Q.penalized = false → ∀ i, r.2.X i = unstandardize Q.lower Q.upper (X i) ∧ r.2.fit i = fn (r.2.X i)) ∧
      r.1.s.rng = s'.rng := by
  obtain ⟨hp, a, e, rows, s, h1, h2, h3, h4, h5, h6, rfl⟩ := body_ok hb
  have ha : a.2 = { L.s with rng := (drawMat P.R.randn p n L.s.rng).2 } := by
    cases h1; rfl
  have hx : s.xmean = recombine P.hmu (weights P.mu) (Q.srt p e.1) a.1 ∧ s.xold = L.s.xmean ∧ s.rng = a.2.rng := by
    rcases (CMAES.update_ok h5).2 with rfl | h
    · exact ⟨rfl, by rw [ha]; rfl, rfl⟩
    · obtain ⟨-, rfl⟩ := CMAES.diagonalize_ok h
      exact ⟨rfl, by rw [ha]; rfl, rfl⟩
  refine ⟨a.1, a.2, h1, hx.2.1, ?_, fun hpen i => ?_, hx.2.2⟩
  · show WeightedBest P.mu e.1 a.1 s.xmean
    rw [hx.1]
    exact weightedBest P.hmu hmu hs e.1 a.1
  · unfold evaluate at h2
    dsimp only at h2
    rw [if_neg (by rw [hpen]; simp)] at h2
    cases h2
    exact ⟨rfl, hobj.pop _ _⟩

end

theorem C69_vdcma {σ : Type} {p n : Nat} {Q : Evo.Par ℝ n} {P : VDCMA.Par σ ℝ p n} {c : Cfg} (hs : IsArgsort Q.srt) (hmu : 0 < P.mu)
    {fn : Vec ℝ n → Val ℝ} (hobj : Q.obj.Faithful fn) {L : St (VDCMA.State σ ℝ p n) ℝ p n}
    {r : St (VDCMA.State σ ℝ p n) ℝ p n × Gen ℝ p n} (hb : Evo.body Q (VDCMA.gauss P) c L = .ok r) :
    ∃ (X : Pop ℝ p n) (s' : VDCMA.State σ ℝ p n), (VDCMA.gauss P).sample L.s = .ok (X, s') ∧ r.1.s.xold = L.s.xmean ∧
      WeightedBest P.mu r.2.fit X r.1.s.xmean ∧
      (Q.penalized = false → ∀ i, r.2.X i = unstandardize Q.lower Q.upper (X i) ∧ r.2.fit i = fn (r.2.X i)) ∧
      r.1.s.rng = s'.rng := by
  obtain ⟨hp, a, e, rows, s, h1, h2, h3, h4, h5, h6, rfl⟩ := body_ok hb
  obtain ⟨-, r', -, hX, ha⟩ := VDCMA.sample_ok h1
  change VDCMA.update P 0 _ _ a.2 = _ at h5
  unfold VDCMA.update at h5
  rw [bind_ok_iff] at h5
  obtain ⟨u, hu, h5⟩ := h5
  rw [bind_ok_iff] at h5
  obtain ⟨-, -, h5⟩ := h5
  injection h5 with h5
  subst h5
  refine ⟨a.1, a.2, h1, by rw [ha]; rfl, ?_, fun hpen i => ?_, rfl⟩
  · have : (VDCMA.advance P a.1 (Q.srt p e.1) a.2 u).xmean = recombine P.hmu (weights P.mu) (Q.srt p e.1) a.1 := funext fun j => by
      show a.2.xmean j + (recombine P.hmu (weights P.mu) (Q.srt p e.1) a.1 j - (∑ k, weights P.mu k) * a.2.xmean j) = _
      rw [weights_sum hmu]
      ring
    show WeightedBest P.mu e.1 a.1 (VDCMA.advance P a.1 (Q.srt p e.1) a.2 u).xmean
    rw [this]
    exact weightedBest P.hmu hmu hs e.1 a.1
  · unfold evaluate at h2
    dsimp only at h2
    rw [if_neg (by rw [hpen]; simp)] at h2
    cases h2
    exact ⟨rfl, hobj.pop _ _⟩

/-! ## C70 -/

section
variable {K σ S : Type} [Field K] [LinearOrder K] [IsStrictOrderedRing K] [NumFns K] [FloorRing K]

/-- Where the search starts: at `x0` or at a uniform random point of the search space.  Also the state of the generator. -/
def _root_.Stochopy.Spec.startPoint (a : Args K) (R : Rng σ K) (g : σ) : Vec K a.ndim × σ :=
  match a.x0 with
  | some x => (fun j => x.get [j], g)
  | none => (fun j => lo a.toCommonArgs j + (hi a.toCommonArgs j - lo a.toCommonArgs j) * (drawVec R.rand a.ndim g).1 j,
      (drawVec R.rand a.ndim g).2)

theorem firstMean_start {a : Args K} {R : Rng σ K} {g : σ} {m : Vec K a.ndim × σ} (h : a.firstMean R g = .ok m) :
    (∀ j, unstandardize a.lower a.upper m.1 j = (startPoint a R g).1 j) ∧ m.2 = (startPoint a R g).2 := by
  unfold Args.firstMean at h
  unfold startPoint
  cases hx : a.x0 with
  | none =>
    rw [hx] at h
    cases h
    refine ⟨fun j => ?_, rfl⟩
    show unif (-1) 1 _ * _ + _ = a.lower j + (a.upper j - a.lower j) * _
    unfold unif
    ring
  | some x =>
    rw [hx] at h
    dsimp only at h
    rw [bind_ok_iff] at h
    obtain ⟨u, hn, h⟩ := h
    rw [need_ok] at hn
    cases h
    refine ⟨fun j => ?_, rfl⟩
    have : a.upper j - a.lower j ≠ 0 := sub_ne_zero.2 (Ne.symm (hn j))
    unfold unstandardize standardize
    field_simp
    ring

theorem run_first {p n : Nat} {P : Evo.Par K n} {G : Gauss S K p n} {c : Cfg} {rng : S → σ} {fuel : Nat} {s0 : S} {o : Output σ K p n}
    (h : Evo.run P G c rng fuel s0 = .ok o) (hp : P.penalized = false) :
    ∃ a, G.sample s0 = .ok a ∧ ∀ i : Fin p, o.evals[i.val]? = some (unstandardize P.lower P.upper (a.1 i)) := by
  obtain ⟨gs, g, L', L, st, H⟩ := run_ok h (fun L => L.it = 0 → L = init c s0) (fun _ => rfl) (fun L r _ hb h0 => by
    obtain ⟨_, _, _, _, _, _, _, _, _, _, _, rfl⟩ := body_ok hb
    exact absurd h0 (Nat.succ_ne_zero _))
  obtain ⟨g0, t, hg⟩ : ∃ g0 t, gs ++ [g] = g0 :: t := by
    cases gs with
    | nil => exact ⟨g, [], rfl⟩
    | cons a t => exact ⟨a, t ++ [g], rfl⟩
  obtain ⟨M, M', hM, hb, hH⟩ := H.each 0 g0 (by rw [hg]; rfl)
  have hM := hM (by rw [hH.it]; simp)
  subst hM
  obtain ⟨hp', a, e, rows, s, h1, h2, h3, h4, h5, h6, h7⟩ := body_ok hb
  refine ⟨a, h1, fun i => ?_⟩
  rw [H.evals, H.hist.evals, hg, List.flatMap_cons, List.getElem?_append_left (by simp)]
  have hX : g0.X = fun i => unstandardize P.lower P.upper (e.2.1 i) := congrArg (fun r => r.2.X) h7
  unfold evaluate at h2
  dsimp only at h2
  rw [if_neg (by rw [hp]; simp)] at h2
  cases h2
  rw [hX]
  simp

variable {env : Env} {R : Rng σ K} {srt : Argsort K} {eigh : CMAES.Eigh K} {fuel : Nat} {g : σ} {a : Args K} {junk : Vec K a.ndim}
  {o : Output σ K a.p a.ndim}

/-- C70: the first generation is `x + sigma * (upper - lower) / 2 * z` with the starting point `x` and standard normal `z`. -/
theorem C70_cmaes (he : env.Ok) (h : CMAES.minimize env R srt eigh fuel a junk g = .ok o) (hc : a.constraints = none) :
    ∀ i : Fin a.p, o.evals[i.val]? = some fun j => (startPoint a R (a.seeded R g)).1 j + a.sigma *
      ((hi a.toCommonArgs j - lo a.toCommonArgs j) / 2) *
        (drawMat R.randn a.p a.ndim (startPoint a R (a.seeded R g)).2).1 i j := by
  obtain ⟨fn, obj, pen, m, hd, hfn, hv, hobj, hb, hcm, hm, hrun⟩ := CMAES.minimize_ok he h
  have hpen : pen = false := by rw [hc] at hcm; cases hcm; rfl
  obtain ⟨x, hx, hx'⟩ := run_first hrun hpen
  obtain ⟨hm1, hm2⟩ := firstMean_start hm
  intro i
  rw [hx' i]
  cases hx
  refine congrArg some (funext fun j => ?_)
  rw [← hm1, ← hm2]
  show (m.1 j + a.sigma * ((1 : Matrix _ _ K).mulVec fun k => 1 * (drawMat R.randn a.p a.ndim m.2).1 i k) j) *
    (1 / 2 * (a.upper j - a.lower j)) + 1 / 2 * (a.upper j + a.lower j) = m.1 j * (1 / 2 * (a.upper j - a.lower j)) +
    1 / 2 * (a.upper j + a.lower j) + a.sigma * ((a.upper j - a.lower j) / 2) * _
  rw [Matrix.one_mulVec]
  ring

end

/-- The same for `vdcma`, where the covariance starts as `I + v vᵀ` with `v` a standard normal vector over `√n`. -/
theorem C70_vdcma {σ : Type} {env : Env} {R : Rng σ ℝ} {srt : Argsort ℝ} {fuel : Nat} {g : σ} {a : Args ℝ} {junk : Vec ℝ a.ndim}
    {o : Output σ ℝ a.p a.ndim} (he : env.Ok) (h : VDCMA.minimize env R srt fuel a junk g = .ok o) (hc : a.constraints = none)
    {v : Vec ℝ a.ndim × σ} (hv : v = drawVec R.randn a.ndim (startPoint a R (a.seeded R g)).2) :
    ∃ A : Matrix (Fin a.ndim) (Fin a.ndim) ℝ,
      (∀ i j, (A * A.transpose) i j = (if i = j then 1 else 0) + v.1 i / Real.sqrt a.ndim * (v.1 j / Real.sqrt a.ndim)) ∧
      ∀ i : Fin a.p, o.evals[i.val]? = some fun j => (startPoint a R (a.seeded R g)).1 j + a.sigma *
        ((hi a.toCommonArgs j - lo a.toCommonArgs j) / 2) * A.mulVec ((drawMat R.randn a.p a.ndim v.2).1 i) j := by
  obtain ⟨fn, obj, pen, m, hd, hfn, hv', hobj, hb, hcm, hm, hrun⟩ := VDCMA.minimize_ok he h
  have hpen : pen = false := by rw [hc] at hcm; cases hcm; rfl
  obtain ⟨x, hx, hx'⟩ := run_first hrun hpen
  obtain ⟨hm1, hm2⟩ := firstMean_start hm
  rw [← hm2] at hv
  subst hv
  obtain ⟨⟨A, hA, hA'⟩, -⟩ := C65_vdcma (Reach.start (c := a.cfg) (P := a.par srt obj pen)) hx
  refine ⟨A, fun i j => ?_, fun i => ?_⟩
  · rw [hA]
    show covVD (fun _ => 1) (fun j => (drawVec R.randn a.ndim m.2).1 j / Real.sqrt a.ndim) i j = _
    unfold covVD
    rw [Matrix.mul_diagonal, Matrix.diagonal_mul, Matrix.add_apply, Matrix.vecMulVec_apply, Matrix.one_apply, one_mul, mul_one]
  · rw [hx' i]
    refine congrArg some (funext fun j => ?_)
    rw [← hm1]
    show x.1 i j * (1 / 2 * (a.upper j - a.lower j)) + 1 / 2 * (a.upper j + a.lower j) = m.1 j * (1 / 2 * (a.upper j - a.lower j)) +
      1 / 2 * (a.upper j + a.lower j) + a.sigma * ((a.upper j - a.lower j) / 2) * _
    rw [hA' i (Or.inl rfl) j]
    show (m.1 j + a.sigma * A.mulVec ((drawMat R.randn a.p a.ndim (drawVec R.randn a.ndim m.2).2).1 i) j) * _ + _ = _
    ring

/-! ## C69 for a whole run -/

theorem unstandardize_best {K : Type} [Field K] [LinearOrder K] {p n mu : Nat} {fit : Fin p → Val K} {X : Pop K p n} {m : Vec K n}
    (h : WeightedBest mu fit X m) (lower upper : Vec K n) :
    WeightedBest mu fit (fun i => unstandardize lower upper (X i)) (unstandardize lower upper m) := by
  obtain ⟨sel, w, h1, h2, h3, h4, h5, h6, h7⟩ := h
  refine ⟨sel, w, h1, h2, h3, h4, h5, h6, fun j => ?_⟩
  unfold unstandardize
  rw [h7]
  simp only [mul_add, Finset.sum_add_distrib, ← Finset.sum_mul, h4, one_mul, ← mul_assoc]

section
variable {K σ : Type} [Field K] [LinearOrder K] [IsStrictOrderedRing K] [NumFns K] [LawfulNumFns K] [FloorRing K]
  {env : Env} {R : Rng σ K} {srt : Argsort K} {eigh : CMAES.Eigh K} {fuel : Nat} {g : σ} {a : Args K} {junk : Vec K a.ndim}
  {o : Output σ K a.p a.ndim}

theorem mu_of_floor {mu : Nat} (hv : a.validate = .ok ()) (hp : 0 < a.p) (hmu : (mu : Int) = ⌊a.muperc * (a.popsize : K)⌋) :
    mu = a.mu := by
  have h1 : 0 < a.muperc := by
    unfold Args.validate at hv
    by_contra hc
    rw [if_pos (fun h : 0 < a.muperc ∧ a.muperc ≤ 1 => hc h.1)] at hv
    split_ifs at hv
  have h2 : 0 < a.popsize := by
    have : 0 < a.popsize.toNat := hp
    omega
  have h3 : (0 : K) ≤ a.muperc * (a.popsize : K) := mul_nonneg h1.le (by exact_mod_cast h2.le)
  unfold Args.mu pyInt
  rw [if_pos h3, IntParts.floor_eq, ← hmu]
  simp

/-- A whole run of `cmaes` without constraints: every generation is `m + A z` with standard normal `z` (in units of half the
size of the search space), the first mean is the starting point, and every other mean the weighted mean of the
`int(muperc * popsize)` best points of the generation before. -/
theorem C69_cmaes_run (he : env.Ok) (hs : IsArgsort srt) (h : CMAES.minimize env R srt eigh fuel a junk g = .ok o)
    {fn : Vec K a.ndim → Val K} (hfn : a.fn = some fn) (hc : a.constraints = none) {mu : Nat}
    (hmu : (mu : Int) = ⌊a.muperc * (a.popsize : K)⌋) :
    ∃ (ms : Nat → Vec K a.ndim) (As : Nat → Matrix (Fin a.ndim) (Fin a.ndim) K) (gs : Nat → σ),
      ms 0 = (startPoint a R (a.seeded R g)).1 ∧ gs 0 = (startPoint a R (a.seeded R g)).2 ∧ As 0 = a.sigma • 1 ∧
      o.rng = gs o.res.nit ∧
      ∀ k < o.res.nit, gs (k + 1) = (drawMat R.randn a.p a.ndim (gs k)).2 ∧
        ∃ X : Pop K a.p a.ndim, (∀ i : Fin a.p, o.evals[k * a.p + i.val]? = some (X i)) ∧
          (∀ i j, X i j = ms k j + (hi a.toCommonArgs j - lo a.toCommonArgs j) / 2 *
            (As k).mulVec ((drawMat R.randn a.p a.ndim (gs k)).1 i) j) ∧
          WeightedBest mu (fun i => fn (X i)) X (ms (k + 1)) := by
  obtain ⟨fn', obj, pen, m, hd, hfn', hv, hobj, hb, hcm, hm, hrun⟩ := CMAES.minimize_ok he h
  obtain rfl : fn' = fn := Option.some.inj (hfn'.symm.trans hfn)
  have hpen : pen = false := by rw [hc] at hcm; cases hcm; rfl
  obtain rfl := mu_of_floor hv hd.2.1 hmu
  obtain ⟨f, f0, f1, f2⟩ := run_chain hrun
  obtain ⟨hm1, hm2⟩ := firstMean_start hm
  refine ⟨fun k => unstandardize a.lower a.upper (f k).s.xmean,
    fun k => (f k).s.sigma • ((f k).s.B * Matrix.diagonal (f k).s.D), fun k => (f k).s.rng, ?_, ?_, ?_, f2, fun k hk => ?_⟩
  · show unstandardize a.lower a.upper (f 0).s.xmean = _
    rw [f0]; exact funext hm1
  · show (f 0).s.rng = _
    rw [f0]; exact hm2
  · show (f 0).s.sigma • ((f 0).s.B * Matrix.diagonal (f 0).s.D) = _
    rw [f0]
    show a.sigma • ((1 : Matrix _ _ K) * Matrix.diagonal fun _ => 1) = _
    rw [Matrix.diagonal_one, mul_one]
  · obtain ⟨gn, hbk, hev⟩ := f1 k hk
    obtain ⟨X, s', h1, -, h3, h4, h5⟩ := C69_cmaes hs hd.2.2.1 hobj hbk
    cases h1
    refine ⟨h5, gn.X, hev, fun i j => ?_, ?_⟩
    · rw [(h4 hpen i).1]
      show ((f k).s.xmean j + (f k).s.sigma * ((f k).s.B.mulVec fun l =>
        (f k).s.D l * (drawMat R.randn a.p a.ndim (f k).s.rng).1 i l) j) * (1 / 2 * (a.upper j - a.lower j)) +
        1 / 2 * (a.upper j + a.lower j) = (f k).s.xmean j * (1 / 2 * (a.upper j - a.lower j)) + 1 / 2 * (a.upper j + a.lower j) +
        (a.upper j - a.lower j) / 2 * _
      rw [Matrix.smul_mulVec, ← Matrix.mulVec_mulVec]
      have : (Matrix.diagonal (f k).s.D).mulVec ((drawMat R.randn a.p a.ndim (f k).s.rng).1 i) =
          fun l => (f k).s.D l * (drawMat R.randn a.p a.ndim (f k).s.rng).1 i l := funext fun l => Matrix.mulVec_diagonal _ _ _
      rw [this, Pi.smul_apply, smul_eq_mul]
      ring
    · have h6 := unstandardize_best h3 a.lower a.upper
      convert h6 using 1
      · exact funext fun i => (h4 hpen i).2.symm
      · exact funext fun i => (h4 hpen i).1

end

/-- The same for `vdcma`.  From the second generation on the first two points lie symmetrically about the mean, in the
direction of its last move. -/
theorem C69_vdcma_run {σ : Type} {env : Env} {R : Rng σ ℝ} {srt : Argsort ℝ} {fuel : Nat} {g : σ} {a : Args ℝ} {junk : Vec ℝ a.ndim}
    {o : Output σ ℝ a.p a.ndim} (he : env.Ok) (hs : IsArgsort srt) (h : VDCMA.minimize env R srt fuel a junk g = .ok o)
    {fn : Vec ℝ a.ndim → Val ℝ} (hfn : a.fn = some fn) (hc : a.constraints = none) {mu : Nat}
    (hmu : (mu : Int) = ⌊a.muperc * (a.popsize : ℝ)⌋) :
    ∃ (ms : Nat → Vec ℝ a.ndim) (As : Nat → Matrix (Fin a.ndim) (Fin a.ndim) ℝ) (gs : Nat → σ),
      ms 0 = (startPoint a R (a.seeded R g)).1 ∧ gs 0 = (drawVec R.randn a.ndim (startPoint a R (a.seeded R g)).2).2 ∧
      o.rng = gs o.res.nit ∧
      ∀ k < o.res.nit,
        gs (k + 1) = (if k = 0 then (drawMat R.randn a.p a.ndim (gs k)).2
          else (drawVec R.randn a.ndim (drawMat R.randn a.p a.ndim (gs k)).2).2) ∧
        ∃ X : Pop ℝ a.p a.ndim, (∀ i : Fin a.p, o.evals[k * a.p + i.val]? = some (X i)) ∧
          (∀ i, k = 0 ∨ 2 ≤ i.val → ∀ j, X i j = ms k j + (hi a.toCommonArgs j - lo a.toCommonArgs j) / 2 *
            (As k).mulVec ((drawMat R.randn a.p a.ndim (gs k)).1 i) j) ∧
          (1 ≤ k → ∃ (hp : 1 < a.p) (t : ℝ), 0 ≤ t ∧ (∀ j, X ⟨0, by omega⟩ j = ms k j + t * (ms k j - ms (k - 1) j)) ∧
            ∀ j, X ⟨1, hp⟩ j = ms k j - t * (ms k j - ms (k - 1) j)) ∧
          WeightedBest mu (fun i => fn (X i)) X (ms (k + 1)) := by
  obtain ⟨fn', obj, pen, m, hd, hfn', hv, hobj, hb, hcm, hm, hrun⟩ := VDCMA.minimize_ok he h
  obtain rfl : fn' = fn := Option.some.inj (hfn'.symm.trans hfn)
  have hpen : pen = false := by rw [hc] at hcm; cases hcm; rfl
  obtain rfl := mu_of_floor hv hd.2.1 hmu
  obtain ⟨f, f0, f1, f2⟩ := run_chain hrun
  obtain ⟨hm1, hm2⟩ := firstMean_start hm
  set P : VDCMA.Par σ ℝ a.p a.ndim := { R := R, mu := a.mu, hmu := hd.2.2.2 }
  set Q := a.par srt obj pen
  have hreach : ∀ k ≤ o.res.nit, Reach Q (VDCMA.gauss P) a.cfg (VDCMA.start P.R m.1 junk a.sigma m.2) (f k) ∧ (f k).it = k := by
    intro k
    induction k with
    | zero => intro _; rw [f0]; exact ⟨Reach.start, rfl⟩
    | succ k ih =>
      intro hk
      obtain ⟨gn, hbk, -⟩ := f1 k (by omega)
      obtain ⟨h1, h2⟩ := ih (by omega)
      exact ⟨h1.step hbk, by rw [(evals_step hbk).2, h2]⟩
  have hA : ∀ k, ∃ A : Matrix (Fin a.ndim) (Fin a.ndim) ℝ, k < o.res.nit → ∀ x, (VDCMA.gauss P).sample (f k).s = .ok x →
      ∀ i : Fin a.p, k = 0 ∨ 2 ≤ i.val → ∀ j,
        x.1 i j = (f k).s.xmean j + (f k).s.sigma * (A.mulVec ((drawMat R.randn a.p a.ndim (f k).s.rng).1 i)) j := by
    intro k
    by_cases hk : k < o.res.nit
    · obtain ⟨gn, hbk, -⟩ := f1 k hk
      obtain ⟨X, s', h1, -⟩ := C69_vdcma hs hd.2.2.1 hobj hbk
      obtain ⟨h2, h3⟩ := hreach k hk.le
      obtain ⟨⟨A, -, hA⟩, -⟩ := C65_vdcma h2 h1
      rw [h3] at hA
      refine ⟨A, fun _ x hx => ?_⟩
      rw [h1] at hx
      cases hx
      exact hA
    · exact ⟨0, fun h => absurd h hk⟩
  choose A hA using hA
  have hold : ∀ k < o.res.nit, (f (k + 1)).s.xold = (f k).s.xmean := fun k hk => by
    obtain ⟨gn, hbk, -⟩ := f1 k hk
    obtain ⟨X, s', -, h1, -⟩ := C69_vdcma hs hd.2.2.1 hobj hbk
    exact h1
  refine ⟨fun k => unstandardize a.lower a.upper (f k).s.xmean, fun k => (f k).s.sigma • A k, fun k => (f k).s.rng, ?_, ?_, f2,
    fun k hk => ?_⟩
  · show unstandardize a.lower a.upper (f 0).s.xmean = _
    rw [f0]; exact funext hm1
  · show (f 0).s.rng = _
    rw [f0, ← hm2]; rfl
  · obtain ⟨gn, hbk, hev⟩ := f1 k hk
    obtain ⟨X, s', h1, -, h3, h4, h5⟩ := C69_vdcma hs hd.2.2.1 hobj hbk
    obtain ⟨hR, hit⟩ := hreach k hk.le
    refine ⟨?_, gn.X, hev, fun i hi j => ?_, fun h1k => ?_, ?_⟩
    · obtain ⟨-, r, hr, -, ha⟩ := VDCMA.sample_ok h1
      show (f (k + 1)).s.rng = _
      rw [h5, show s'.rng = r.2 by rw [show s' = _ from ha]]
      have hdx := VDCMA.reach_dx hR
      rw [hit] at hdx
      unfold VDCMA.inject at hr
      by_cases hk0 : k = 0
      · rw [if_pos hk0]
        rcases hdx with ⟨h6, -⟩ | ⟨-, h6, -⟩
        · rw [if_neg (by rw [h6]; simp)] at hr
          cases hr; rfl
        · omega
      · rw [if_neg hk0]
        rcases hdx with ⟨-, h6⟩ | ⟨h6, -⟩
        · omega
        · rw [if_pos h6, bind_ok_iff] at hr
          obtain ⟨-, -, hr⟩ := hr
          dsimp only at hr
          split_ifs at hr with h2
          cases hr; rfl
    · rw [(h4 hpen i).1]
      show X i j * (1 / 2 * (a.upper j - a.lower j)) + 1 / 2 * (a.upper j + a.lower j) =
        (f k).s.xmean j * (1 / 2 * (a.upper j - a.lower j)) + 1 / 2 * (a.upper j + a.lower j) +
        (a.upper j - a.lower j) / 2 * _
      have h6 := hA k hk _ h1 i hi j
      dsimp only at h6 ⊢
      rw [h6, Matrix.smul_mulVec, Pi.smul_apply, smul_eq_mul]
      ring
    · obtain ⟨-, hinj⟩ := C65_vdcma hR h1
      obtain ⟨hp, t, ht, e0, e1, -⟩ := hinj (by omega)
      obtain ⟨k', rfl⟩ : ∃ k', k = k' + 1 := ⟨k - 1, by omega⟩
      have hs' : 0 ≤ (f (k' + 1)).s.sigma := by
        rcases VDCMA.reach_first hR with h7 | h7
        · omega
        · exact (VDCMA.reach_valid (validate_ok_iff.1 hv).2.2.2.1 h7 hR).sigma.le
      refine ⟨hp, (f (k' + 1)).s.sigma * t, mul_nonneg hs' ht, fun j => ?_, fun j => ?_⟩
      · rw [(h4 hpen _).1]
        show X ⟨0, _⟩ j * _ + _ = (f (k' + 1)).s.xmean j * _ + _ + _ * ((f (k' + 1)).s.xmean j * _ + _ - ((f k').s.xmean j * _ + _))
        have h8 := e0 j
        rw [hold k' (by omega)] at h8
        dsimp only at h8 ⊢
        rw [h8]
        show _ * (1 / 2 * (a.upper j - a.lower j)) + 1 / 2 * (a.upper j + a.lower j) = _
        ring
      · rw [(h4 hpen _).1]
        show X ⟨1, _⟩ j * _ + _ = (f (k' + 1)).s.xmean j * _ + _ - _ * ((f (k' + 1)).s.xmean j * _ + _ - ((f k').s.xmean j * _ + _))
        have h8 := e1 j
        rw [hold k' (by omega)] at h8
        dsimp only at h8 ⊢
        rw [h8]
        show _ * (1 / 2 * (a.upper j - a.lower j)) + 1 / 2 * (a.upper j + a.lower j) = _
        ring
    · have h6 := unstandardize_best h3 a.lower a.upper
      convert h6 using 1
      · exact funext fun i => (h4 hpen i).2.symm
      · exact funext fun i => (h4 hpen i).1

/-- A starting point of `Concrete.cmaes_run`. -/
example : (startPoint evoArgs rng 0).1 (0 : Fin 2) = -2 / 5 ∧ (startPoint evoArgs rng 0).1 (1 : Fin 2) = -1 := by decide +kernel

end Stochopy.Props
