import Mathlib.Algebra.Order.Floor.Semifield
import Verif.Lemmas.VDRun
import Verif.Props.PenaltyRun

/-!
# C77: runs of `cmaes` and `vdcma` are runs of the published algorithms

The equations are in `Verif.Spec.CMA` and `Verif.Spec.VDCMA`.
-/

set_option linter.unusedSectionVars false

namespace Stochopy.Props
open Evo Spec

theorem ilim_spec (a : Args ℝ) : a.ilim = ⌊10 + 30 * (a.ndim : ℝ) / a.p⌋₊ := by
  unfold Args.ilim
  have : (10 + 30 * (a.ndim : ℝ) / a.p) = ((30 * a.ndim : Nat) : ℝ) / (a.p : ℝ) + ((10 : Nat) : ℝ) := by push_cast; ring
  rw [this, Nat.floor_add_natCast (by positivity), Nat.floor_div_eq_div]
  omega

theorem ranking {p mu : Nat} (h : mu ≤ p) {srt : Argsort ℝ} (hs : IsArgsort srt) (fit : Fin p → Val ℝ) :
    CMA.Ranking fit fun k => srt p fit (Fin.castLE h k) := by
  refine ⟨fun k l hkl => Fin.castLE_injective h ((srt p fit).injective hkl), fun k l hkl => hs _ _ _ _ hkl, fun i hi k => ?_⟩
  have : srt p fit ((srt p fit).symm i) = i := (srt p fit).apply_symm_apply i
  rw [← this]
  refine hs _ _ _ _ ?_
  by_contra hc
  have hc : ((srt p fit).symm i).val < k.val := not_le.1 hc
  exact hi ⟨((srt p fit).symm i).val, by omega⟩ this.symm

variable {σ : Type} {env : Env} {R : Rng σ ℝ} {srt : Argsort ℝ} {eigh : CMAES.Eigh ℝ} {fuel : Nat} {g : σ} {a : Args ℝ}
  {junk : Vec ℝ a.ndim} {o : Output σ ℝ a.p a.ndim}

/-- C77: distribution, sampling, ranking, update and termination of a whole run of `cmaes`. -/
theorem C77_cmaes (he : env.Ok) (hs : IsArgsort srt) (heig : IsEigh eigh) (h : CMAES.minimize env R srt eigh fuel a junk g = .ok o)
    {fn : Vec ℝ a.ndim → Val ℝ} (hfn : a.fn = some fn) {mu : Nat} (hmu : (mu : Int) = ⌊a.muperc * (a.popsize : ℝ)⌋) :
    ∃ (D : Nat → CMA.Dist a.ndim) (A : Nat → Matrix (Fin a.ndim) (Fin a.ndim) ℝ) (gs : Nat → σ) (X : Nat → Pop ℝ a.p a.ndim)
      (F : Nat → Fin a.p → Val ℝ) (b : Nat → Val ℝ),
      CMA.Run R.randn mu a.maxiter a.xtol a.ftol a.sigma D A gs X F b o.res.nit o.res.status ∧
      fromCube (lo a.toCommonArgs) (hi a.toCommonArgs) (D 0).m = (startPoint a R (a.seeded R g)).1 ∧
      gs 0 = (startPoint a R (a.seeded R g)).2 ∧ o.rng = gs o.res.nit ∧ o.res.fval = b (o.res.nit - 1) ∧ 0 < o.res.nit ∧
      ((a.constraints = none ∧
        (∀ k < o.res.nit, ∀ i : Fin a.p, o.evals[k * a.p + i.val]? = some (fromCube (lo a.toCommonArgs) (hi a.toCommonArgs) (X k i)) ∧
          F k i = fn (fromCube (lo a.toCommonArgs) (hi a.toCommonArgs) (X k i))) ∧
        ∃ i, o.res.x = fromCube (lo a.toCommonArgs) (hi a.toCommonArgs) (X (o.res.nit - 1) i) ∧ o.res.fval = F (o.res.nit - 1) i) ∨
      (a.constraints = some "Penalize" ∧ ∀ f : Vec ℝ a.ndim → ℝ, (∀ x, fn x = .fin (f x)) →
        ∃ (mem : Nat → PenaltyMemory ℝ a.ndim) (Y : Nat → Pop ℝ a.p a.ndim) (F' : Nat → Fin a.p → ℝ),
          PenalizedRun f (lo a.toCommonArgs) (hi a.toCommonArgs) mu junk (fun k => (D k).m) (fun k => (D k).sigma)
            (fun k j => (D k).C j j) mem X Y F' o ∧
          ∀ k < o.res.nit, ∀ i, F k i = .fin (F' k i))) := by
  obtain ⟨fn', obj, pen, m, hd, hfn', hv, hobj, hb, hcm, hm, hrun⟩ := CMAES.minimize_ok he h
  obtain rfl : fn' = fn := Option.some.inj (hfn'.symm.trans hfn)
  obtain rfl := mu_of_floor hv hd.2.1 hmu
  obtain ⟨-, -, -, v4, -, -⟩ := validate_ok_iff.1 hv
  obtain ⟨hm1, hm2⟩ := firstMean_start hm
  obtain ⟨f, gn, e0, e1, e2, k0, e3, e4, e5⟩ := run_chain_last hrun
  -- every state
  have hstep : ∀ k < o.res.nit, CMAES.Good a.mu (k * a.p) (f k).s → (f k).nfev = k * a.p →
      ∃ X : Pop ℝ a.p a.ndim, (∀ i j, X i j = (f k).s.xmean j + (f k).s.sigma *
          (CMAES.axesOf (f k).s).mulVec ((drawMat R.randn a.p a.ndim (f k).s.rng).1 i) j) ∧
        CMAES.Good a.mu ((k + 1) * a.p) (f (k + 1)).s ∧ (f (k + 1)).nfev = (k + 1) * a.p ∧
        (f (k + 1)).s.rng = (drawMat R.randn a.p a.ndim (f k).s.rng).2 ∧
        CMA.Update a.p (k + 1) (fun l j => (X (srt a.p (gn k).fit (Fin.castLE hd.2.2.2 l)) j - (f k).s.xmean j) / (f k).s.sigma)
          (CMAES.distOf (f k).s) (CMAES.distOf (f (k + 1)).s) ∧
        (∃ t, (CMAES.gauss { R := R, srt := srt, eigh := eigh, mu := a.mu, hmu := hd.2.2.2 }).sample (f k).s = .ok (X, t)) ∧
        (pen = false → ∀ i, (gn k).X i = unstandardize a.lower a.upper (X i) ∧ (gn k).fit i = fn' ((gn k).X i)) := by
    intro k hk hG hnf
    obtain ⟨hp, x, e, rows, s, h1, h2, h3, h4, h5, h6, hr⟩ := body_ok (e1 k hk).1
    have hfs : (f (k + 1)).s = s := congrArg (fun r => r.1.s) hr
    have hgf : (gn k).fit = e.1 := congrArg (fun r => r.2.fit) hr
    have hnf' : (f (k + 1)).nfev = (f k).nfev + a.p := congrArg (fun r => r.1.nfev) hr
    obtain ⟨X, t⟩ := x
    change CMAES.sample _ _ = _ at h1
    cases h1
    have hG' : CMAES.Good a.mu (k * a.p) { (f k).s with
        rng := (drawMat R.randn a.p a.ndim (f k).s.rng).2 } := ⟨⟨hG.valid.sym, hG.valid.semi, hG.valid.pos, hG.valid.sigma⟩,
      ⟨hG.axes.orth, hG.axes.pos, hG.axes.dec, hG.axes.inv⟩, hG.sorted, hG.time⟩
    have hnum : (f k).nfev + a.p = (k + 1) * a.p := by rw [hnf]; ring
    change CMAES.update _ ((f k).nfev + a.p) _ _ _ = _ at h5
    rw [hnum] at h5
    obtain ⟨u1, u2⟩ := CMAES.update_spec (P := { R := R, srt := srt, eigh := eigh, mu := a.mu, hmu := hd.2.2.2 }) hd.1 hd.2.1 hd.2.2.1
      heig hs hG' h5
    refine ⟨_, fun i j => ?_, by rw [hfs]; exact u1, by rw [hnf', hnum], ?_, ?_, ⟨_, rfl⟩, fun hpen i => ?_⟩
    rotate_left
    · rw [hfs]
      rcases (CMAES.update_ok h5).2 with h | h
      · rw [h]; rfl
      · obtain ⟨-, h⟩ := CMAES.diagonalize_ok h
        rw [h]; rfl
    · rw [hfs, hgf]; exact u2
    · have hX : (gn k).X = fun i => unstandardize a.lower a.upper (e.2.1 i) := congrArg (fun r => r.2.X) hr
      unfold evaluate at h2
      dsimp only at h2
      rw [if_neg (by show ¬ pen = true; rw [hpen]; simp)] at h2
      cases h2
      rw [hX, hgf]
      exact ⟨rfl, hobj.pop _ _⟩
    · dsimp only
      congr 2
      simp only [Matrix.mulVec, dotProduct]
      refine Finset.sum_congr rfl fun l _ => ?_
      unfold CMAES.axesOf
      ring
  have hgood : ∀ k ≤ o.res.nit, CMAES.Good a.mu (k * a.p) (f k).s ∧ (f k).nfev = k * a.p := by
    intro k
    induction k with
    | zero =>
      intro _
      rw [e0, Nat.zero_mul]
      exact ⟨CMAES.good_start v4 _, rfl⟩
    | succ k ih =>
      intro hk
      obtain ⟨i1, i2⟩ := ih (by omega)
      obtain ⟨X, -, j1, j2, -⟩ := hstep k (by omega) i1 i2
      exact ⟨j1, j2⟩
  have hex : ∀ k, ∃ X : Pop ℝ a.p a.ndim, k < o.res.nit → _ := fun k => by
    by_cases hk : k < o.res.nit
    · obtain ⟨X, hX⟩ := hstep k hk (hgood k hk.le).1 (hgood k hk.le).2
      exact ⟨X, fun _ => hX⟩
    · exact ⟨fun _ _ => 0, fun h => absurd h hk⟩
  choose X hX using hex
  have hrules := run_rules hd.1 hs hrun e0 (fun k hk => (e1 k hk).1) (fun k hk => (hgood (k + 1) (by omega)).1.valid.sigma) (fun k hk x hx => by
    have hG := (hgood (k + 1) (by omega)).1
    cases hx
    refine ⟨fun i => ?_, fun i => (hG.axes.pos i).le⟩
    have := hG.axes.orth i i
    rw [if_pos rfl] at this
    rw [← this]
    exact Finset.sum_congr rfl fun l _ => sq _)
  refine ⟨fun k => CMAES.distOf (f k).s, fun k => CMAES.axesOf (f k).s, fun k => (f k).s.rng, X, fun k => (gn k).fit,
    fun k => (gn k).fit (gn k).best, ⟨?_, fun k hk => CMAES.axes_spec (hgood k hk).1, fun k hk => (hX k hk).2.2.2.1, fun k hk => (hX k hk).1,
      fun k hk => ⟨_, ranking hd.2.2.2 hs _, (hX k hk).2.2.2.2.1⟩, fun k hk => (hrules k hk).1, fun k hk => ?_⟩, ?_, ?_, e2, ?_, by omega, ?_⟩
  · rw [e0]; exact CMAES.start_dist
  · have := (hrules k hk).2
    rw [← ilim_spec]
    have hold : (f (k + 1)).s.xold = (f k).s.xmean := by
      obtain ⟨_, _, _, h', -⟩ := C69_cmaes (P := { R := R, srt := srt, eigh := eigh, mu := a.mu, hmu := hd.2.2.2 }) hs hd.2.2.1 hobj
        (e1 k hk).1
      exact h'
    have hdat : stopData (CMAES.gauss { R := R, srt := srt, eigh := eigh, mu := a.mu, hmu := hd.2.2.2 }) f gn k =
        { it := k + 1, old := (f k).s.xmean, new := (f (k + 1)).s.xmean, best := fun i => (gn i).fit (gn i).best, fit := (gn k).fit
          sigma := (f (k + 1)).s.sigma, pc := (f (k + 1)).s.pc, var := fun j => (f (k + 1)).s.sigma ^ 2 * (f (k + 1)).s.C j j
          axes := some ((f (k + 1)).s.sigma • CMAES.axesOf (f (k + 1)).s) } := by
      rw [← hold]; rfl
    rw [hdat] at this
    exact this
  · dsimp only; rw [e0, fromCube_eq]; exact funext hm1
  · dsimp only; rw [e0]; exact hm2
  · rw [e5, e3]; rfl
  · cases hc : a.constraints with
    | none =>
      left
      have hpen : pen = false := by rw [hc] at hcm; cases hcm; rfl
      refine ⟨rfl, fun k hk i => ?_, (gn k0).best, ?_⟩
      rotate_left
      · rw [show o.res.nit - 1 = k0 by omega]
        refine ⟨?_, e5⟩
        rw [e4, fromCube_eq]
        exact ((hX k0 (by omega)).2.2.2.2.2.2 hpen _).1
      obtain ⟨j1, j2⟩ := (hX k hk).2.2.2.2.2.2 hpen i
      rw [fromCube_eq, (e1 k hk).2 i]
      refine ⟨congrArg some j1, ?_⟩
      dsimp only
      rw [j2, j1]
      rfl
    | some c =>
      right
      have hpen : pen = true ∧ c = "Penalize" := by
        rw [hc] at hcm
        unfold consMap at hcm
        dsimp only at hcm
        split_ifs at hcm with hc'
        · exact ⟨(Except.ok.inj hcm).symm, hc'⟩
      refine ⟨by rw [hpen.2], fun φ hφ => ?_⟩
      obtain ⟨X', mem, F, j1, j2⟩ := chain_penalized (P := a.par srt obj pen) (f := φ) hφ hobj hpen.1 (mu := a.mu) rfl hs
        (junk := junk) rfl (var := fun s j => s.C j j) (fun s t X hX => by cases hX; exact ⟨rfl, rfl, rfl, rfl⟩)
        (fun L r hb => by obtain ⟨-, -, -, h', -⟩ := C69_cmaes hs hd.2.2.1 hobj hb; exact h')
        (fun L r X t hb hX => by
          obtain ⟨X', s', h1, -, h3, -⟩ := C69_cmaes hs hd.2.2.1 hobj hb
          rw [h1] at hX
          cases hX
          exact h3) e0 e1 ⟨k0, e3, e4, e5⟩
      refine ⟨mem, fun k => (gn k).X, F, ?_, fun k hk i => (j2 k hk).2.1 i⟩
      have hXX : ∀ k < o.res.nit, X' k = X k := fun k hk => by
        obtain ⟨t, ht⟩ := (j2 k hk).1
        obtain ⟨t', ht'⟩ := (hX k hk).2.2.2.2.2.1
        rw [ht] at ht'
        exact congrArg Prod.fst (Except.ok.inj ht')
      refine ⟨j1.start, j1.evals, fun k hk => ?_, j1.result⟩
      have := j1.generations k hk
      rw [hXX k hk] at this
      exact this

/-- The same for `vdcma`. -/
theorem C77_vdcma (he : env.Ok) (hs : IsArgsort srt) (h : VDCMA.minimize env R srt fuel a junk g = .ok o)
    {fn : Vec ℝ a.ndim → Val ℝ} (hfn : a.fn = some fn) {mu : Nat} (hmu : (mu : Int) = ⌊a.muperc * (a.popsize : ℝ)⌋) :
    ∃ (hle : mu ≤ a.p) (D : Nat → VD.Dist a.ndim) (S : Nat → Matrix (Fin a.ndim) (Fin a.ndim) ℝ) (gs : Nat → σ)
      (X : Nat → Pop ℝ a.p a.ndim) (F : Nat → Fin a.p → Val ℝ) (b : Nat → Val ℝ),
      VD.Run R.randn hle a.maxiter a.xtol a.ftol a.sigma (startPoint a R (a.seeded R g)).2 D S gs X F b o.res.nit o.res.status ∧
      fromCube (lo a.toCommonArgs) (hi a.toCommonArgs) (D 0).m = (startPoint a R (a.seeded R g)).1 ∧
      o.rng = gs o.res.nit ∧ o.res.fval = b (o.res.nit - 1) ∧ 0 < o.res.nit ∧
      ((a.constraints = none ∧
        (∀ k < o.res.nit, ∀ i : Fin a.p, o.evals[k * a.p + i.val]? = some (fromCube (lo a.toCommonArgs) (hi a.toCommonArgs) (X k i)) ∧
          F k i = fn (fromCube (lo a.toCommonArgs) (hi a.toCommonArgs) (X k i))) ∧
        ∃ i, o.res.x = fromCube (lo a.toCommonArgs) (hi a.toCommonArgs) (X (o.res.nit - 1) i) ∧ o.res.fval = F (o.res.nit - 1) i) ∨
      (a.constraints = some "Penalize" ∧ ∀ f : Vec ℝ a.ndim → ℝ, (∀ x, fn x = .fin (f x)) →
        ∃ (mem : Nat → PenaltyMemory ℝ a.ndim) (Y : Nat → Pop ℝ a.p a.ndim) (F' : Nat → Fin a.p → ℝ),
          PenalizedRun f (lo a.toCommonArgs) (hi a.toCommonArgs) mu junk (fun k => (D k).m) (fun k => (D k).sigma)
            (fun k j => covVD (D k).d (D k).v j j) mem X Y F' o ∧
          ∀ k < o.res.nit, ∀ i, F k i = .fin (F' k i))) := by
  obtain ⟨fn', obj, pen, m, hd, hfn', hv, hobj, hb, hcm, hm, hrun⟩ := VDCMA.minimize_ok he h
  obtain rfl : fn' = fn := Option.some.inj (hfn'.symm.trans hfn)
  obtain rfl := mu_of_floor hv hd.2.1 hmu
  obtain ⟨-, -, -, v4, -, -⟩ := validate_ok_iff.1 hv
  obtain ⟨hm1, hm2⟩ := firstMean_start hm
  obtain ⟨f, gn, e0, e1, e2, k0, e3, e4, e5⟩ := run_chain_last hrun
  set P : VDCMA.Par σ ℝ a.p a.ndim := { R := R, mu := a.mu, hmu := hd.2.2.2 } with hP
  have hreach : ∀ k ≤ o.res.nit, Reach (a.par srt obj pen) (VDCMA.gauss P) a.cfg (VDCMA.start P.R m.1 junk a.sigma m.2) (f k) ∧
      (f k).it = k := by
    intro k
    induction k with
    | zero => intro _; rw [e0]; exact ⟨Reach.start, rfl⟩
    | succ k ih =>
      intro hk
      obtain ⟨h1, h2⟩ := ih (by omega)
      have hbk := (e1 k (by omega)).1
      exact ⟨h1.step hbk, by rw [(evals_step hbk).2, h2]⟩
  have hv0 : ∃ j, (VDCMA.start P.R m.1 junk a.sigma m.2 : VDCMA.State σ ℝ a.p a.ndim).vvec j ≠ 0 := by
    obtain ⟨h1, h2⟩ := hreach o.res.nit (le_refl _)
    rcases VDCMA.reach_first h1 with h3 | h3
    · omega
    · exact h3
  have hV : ∀ k ≤ o.res.nit, VDCMA.Valid (f k).s := fun k hk => VDCMA.reach_valid v4 hv0 (hreach k hk).1
  have hps : (f 0).s.ps = 0 := by rw [e0]; rfl
  have hstep : ∀ k, ∃ X : Pop ℝ a.p a.ndim, k < o.res.nit →
      (∃ t, (VDCMA.gauss P).sample (f k).s = .ok (X, t) ∧ (f (k + 1)).s.rng = t.rng) ∧
      VD.Update (k + 1) hd.2.2.2 (srt a.p (gn k).fit) (fun i j => (X i j - (f k).s.xmean j) / (f k).s.sigma)
        (VDCMA.distOf (f k).s) (VDCMA.distOf (f (k + 1)).s) ∧
      (f (k + 1)).s.diagC = VDCMA.diagCov (f k).s.dvec (f k).s.vvec ∧ (f (k + 1)).s.xold = (f k).s.xmean ∧
      (pen = false → ∀ i, (gn k).X i = unstandardize a.lower a.upper (X i) ∧ (gn k).fit i = fn' ((gn k).X i)) := fun k => by
    by_cases hk : k < o.res.nit
    · obtain ⟨hp, ⟨X, t⟩, e, rows, s, h1, h2, h3, h4, h5, h6, hr⟩ := body_ok (e1 k hk).1
      have hfs : (f (k + 1)).s = s := congrArg (fun r => r.1.s) hr
      have hgf : (gn k).fit = e.1 := congrArg (fun r => r.2.fit) hr
      obtain ⟨hR, hit⟩ := hreach k hk.le
      have hinj : ((f k).s.inj = false ∧ k + 1 = 1 ∧ (f k).s.ps = 0) ∨ ((f k).s.inj = true ∧ 1 < k + 1) := by
        rcases VDCMA.reach_dx hR with ⟨i1, i2⟩ | ⟨i1, i2, -⟩
        · have hk0 : k = 0 := by omega
          exact Or.inl ⟨i1, by omega, by rw [hk0]; exact hps⟩
        · exact Or.inr ⟨i1, by omega⟩
      obtain ⟨u1, u2, u3, u4, u5⟩ := VDCMA.update_spec (P := P) (nf := (f k).nfev + a.p) hd.2.2.1 (hV k hk.le) hinj h1 h5
      refine ⟨X, fun _ => ⟨⟨t, h1, by rw [hfs]; exact u4⟩, by rw [hfs, hgf]; exact u1, by rw [hfs]; exact u2, by rw [hfs]; exact u5,
        fun hpen i => ?_⟩⟩
      have hX : (gn k).X = fun i => unstandardize a.lower a.upper (e.2.1 i) := congrArg (fun r => r.2.X) hr
      unfold evaluate at h2
      dsimp only at h2
      rw [if_neg (by show ¬ pen = true; rw [hpen]; simp)] at h2
      cases h2
      rw [hX, hgf]
      exact ⟨rfl, hobj.pop _ _⟩
    · exact ⟨fun _ _ => 0, fun h => absurd h hk⟩
  choose X hX using hstep
  have hroot : ∀ k, ∃ S : Matrix (Fin a.ndim) (Fin a.ndim) ℝ, k < o.res.nit → (Sym S ∧ PosDef S ∧
      S * S = 1 + Matrix.vecMulVec (f k).s.vvec (f k).s.vvec) ∧
      ∀ (d z : Vec ℝ a.ndim) (j : Fin a.ndim), VDCMA.spread d (f k).s.vvec z j = d j * S.mulVec z j := fun k => by
    by_cases hk : k < o.res.nit
    · obtain ⟨S, s1, s2, s3, s4⟩ := VDCMA.root_spec (hV k hk.le).vvec
      exact ⟨S, fun _ => ⟨⟨s1, s2, s3⟩, s4⟩⟩
    · exact ⟨0, fun h => absurd h hk⟩
  choose S hS using hroot
  have hrules := run_rules hd.1 hs hrun e0 (fun k hk => (e1 k hk).1) (fun k hk => (hV (k + 1) (by omega)).sigma) (fun k hk x hx => by cases hx)
  have hdraw : ∀ k < o.res.nit, ∀ t, VDCMA.sample P (f k).s = .ok (X k, t) →
      t.rng = (if k = 0 then (drawMat R.randn a.p a.ndim (f k).s.rng).2
        else (drawVec R.randn a.ndim (drawMat R.randn a.p a.ndim (f k).s.rng).2).2) ∧
      ∀ i : Fin a.p, k = 0 ∨ 2 ≤ i.val → ∀ j, X k i j = (f k).s.xmean j + (f k).s.sigma *
        ((f k).s.dvec j * (S k).mulVec ((drawMat R.randn a.p a.ndim (f k).s.rng).1 i) j) := by
    intro k hk t ht
    obtain ⟨-, r, hr, hx, hta⟩ := VDCMA.sample_ok ht
    dsimp only at hx hta
    have hdx := VDCMA.reach_dx (hreach k hk.le).1
    rw [(hreach k hk.le).2] at hdx
    have hrng : t.rng = r.2 := by rw [hta]
    have hri : ∀ i j, X k i j = (f k).s.xmean j + (f k).s.sigma * r.1 i j := fun i j => by rw [hx]
    unfold VDCMA.inject at hr
    by_cases hk0 : k = 0
    · rw [if_pos hk0, hrng]
      rcases hdx with ⟨h6, -⟩ | ⟨-, h6, -⟩
      · rw [if_neg (by rw [h6]; simp)] at hr
        cases hr
        refine ⟨rfl, fun i _ j => ?_⟩
        rw [hri, ← (hS k hk).2]
      · omega
    · rw [if_neg hk0, hrng]
      rcases hdx with ⟨-, h6⟩ | ⟨h6, -⟩
      · omega
      · rw [if_pos h6, bind_ok_iff] at hr
        obtain ⟨-, -, hr⟩ := hr
        dsimp only at hr
        split_ifs at hr with h2
        cases hr
        refine ⟨rfl, fun i hi j => ?_⟩
        have hi2 : 2 ≤ i.val := hi.resolve_left hk0
        rw [hri]
        dsimp only
        rw [if_neg (by omega), if_neg (by omega), ← (hS k hk).2]
  refine ⟨hd.2.2.2, fun k => VDCMA.distOf (f k).s, S, fun k => (f k).s.rng, X, fun k => (gn k).fit, fun k => (gn k).fit (gn k).best,
    ⟨?_, ?_, fun k hk => (hS k hk).1, fun k hk => ?_, fun k hk => ?_, fun k hk hk1 => ?_, fun k hk => ⟨_, fun i j hij => hs _ _ _ _ hij, (hX k hk).2.1⟩,
      fun k hk => (hrules k hk).1, fun k hk => ?_⟩, ?_, e2, ?_, by omega, ?_⟩
  · rw [e0, ← hm2]; exact ⟨rfl, rfl, rfl, rfl, rfl⟩
  · rw [e0, ← hm2]; rfl
  · obtain ⟨t, h1, h2⟩ := (hX k hk).1
    rw [h2]; exact (hdraw k hk t h1).1
  · obtain ⟨t, h1, h2⟩ := (hX k hk).1
    exact (hdraw k hk t h1).2
  · obtain ⟨t, h1, h2⟩ := (hX k hk).1
    obtain ⟨hR, hit⟩ := hreach k hk.le
    obtain ⟨-, hinj⟩ := C65_vdcma hR h1
    obtain ⟨k', rfl⟩ : ∃ k', k = k' + 1 := ⟨k - 1, by omega⟩
    have hold := (hX k' (by omega)).2.2.2.1
    obtain ⟨hp, q, hq, j0, j1, j2⟩ := hinj (by omega)
    rw [hold] at j0 j1 j2
    exact ⟨hp, q, hq, j0, j1, j2⟩
  · have := (hrules k hk).2
    rw [← ilim_spec]
    have hdat : stopData (VDCMA.gauss P) f gn k =
        { it := k + 1, old := (f k).s.xmean, new := (f (k + 1)).s.xmean, best := fun i => (gn i).fit (gn i).best, fit := (gn k).fit
          sigma := (f (k + 1)).s.sigma, pc := (f (k + 1)).s.pc
          var := fun j => (f (k + 1)).s.sigma ^ 2 * covVD (f k).s.dvec (f k).s.vvec j j
          axes := none } := by
      have hvar : ∀ j, covVD (f k).s.dvec (f k).s.vvec j j = (f (k + 1)).s.diagC j := fun j => by
        rw [(hX k hk).2.2.1, VDCMA.covVD_eq, VDCMA.cov_diag]
      simp only [hvar]
      rw [← (hX k hk).2.2.2.1]
      rfl
    rw [hdat] at this
    exact this
  · dsimp only; rw [e0, fromCube_eq]; exact funext hm1
  · rw [e5, e3]; rfl
  · cases hc : a.constraints with
    | none =>
      left
      have hpen : pen = false := by rw [hc] at hcm; cases hcm; rfl
      refine ⟨rfl, fun k hk i => ?_, (gn k0).best, ?_⟩
      rotate_left
      · rw [show o.res.nit - 1 = k0 by omega]
        refine ⟨?_, e5⟩
        rw [e4, fromCube_eq]
        exact ((hX k0 (by omega)).2.2.2.2 hpen _).1
      obtain ⟨j1, j2⟩ := (hX k hk).2.2.2.2 hpen i
      rw [fromCube_eq, (e1 k hk).2 i]
      refine ⟨congrArg some j1, ?_⟩
      dsimp only
      rw [j2, j1]
      rfl
    | some c =>
      right
      have hpen : pen = true ∧ c = "Penalize" := by
        rw [hc] at hcm
        unfold consMap at hcm
        dsimp only at hcm
        split_ifs at hcm with hc'
        · exact ⟨(Except.ok.inj hcm).symm, hc'⟩
      refine ⟨by rw [hpen.2], fun φ hφ => ?_⟩
      obtain ⟨X', mem, F, j1, j2⟩ := chain_penalized (P := a.par srt obj pen) (f := φ) hφ hobj hpen.1 (mu := a.mu) rfl hs
        (junk := junk) rfl (var := fun s => VDCMA.diagCov s.dvec s.vvec)
        (fun s t X hX => by
          obtain ⟨-, r', -, -, ha⟩ := VDCMA.sample_ok hX
          rw [show t = _ from ha]
          exact ⟨rfl, rfl, rfl, rfl⟩)
        (fun L r hb => by obtain ⟨-, -, -, h', -⟩ := C69_vdcma hs hd.2.2.1 hobj hb; exact h')
        (fun L r X t hb hX => by
          obtain ⟨X', s', h1, -, h3, -⟩ := C69_vdcma hs hd.2.2.1 hobj hb
          rw [h1] at hX
          cases hX
          exact h3) e0 e1 ⟨k0, e3, e4, e5⟩
      refine ⟨mem, fun k => (gn k).X, F, ?_, fun k hk i => (j2 k hk).2.1 i⟩
      have hXX : ∀ k < o.res.nit, X' k = X k := fun k hk => by
        obtain ⟨t, ht⟩ := (j2 k hk).1
        obtain ⟨t', ht', -⟩ := (hX k hk).1
        rw [ht] at ht'
        exact congrArg Prod.fst (Except.ok.inj ht')
      refine ⟨j1.start, j1.evals, fun k hk => ?_, j1.result⟩
      have := j1.generations k hk
      rw [hXX k hk] at this
      have hvar : (fun j => covVD (f k).s.dvec (f k).s.vvec j j) = VDCMA.diagCov (f k).s.dvec (f k).s.vvec := funext fun j => by
        rw [VDCMA.covVD_eq, VDCMA.cov_diag]
      show PenalizedGeneration _ _ _ _ _ _ _ _ _ (fun j => covVD (f k).s.dvec (f k).s.vvec j j) _ _ _ _ _
      rw [hvar]
      exact this

/-- Runs that meet the hypotheses: ten points, of which five are parents. -/
example (junk : Vec ℝ 2) : ∃ (eigh : CMAES.Eigh ℝ) (o : Output Nat ℝ 10 2), IsEigh eigh ∧
    CMAES.minimize Concrete.env realGen stableArgsort eigh 7 realArgs junk 0 = .ok o ∧
    realArgs.fn = some (fun x => .fin (∑ j, x j ^ 2)) ∧ ((5 : Nat) : Int) = ⌊realArgs.muperc * (realArgs.popsize : ℝ)⌋ := by
  obtain ⟨eigh, h, o, ho⟩ := real_run junk
  refine ⟨eigh, o, h, ho, rfl, ?_⟩
  show (5 : Int) = ⌊(1 / 2 : ℝ) * ((10 : Int) : ℝ)⌋
  rw [show (1 / 2 : ℝ) * ((10 : Int) : ℝ) = ((5 : Int) : ℝ) by norm_num, Int.floor_intCast]

example (junk : Vec ℝ 2) : ∃ o : Output Nat ℝ 10 2,
    VDCMA.minimize Concrete.env realGen stableArgsort 1 { realArgs with maxiter := 1 } junk 0 = .ok o := real_run_vd junk

end Stochopy.Props
