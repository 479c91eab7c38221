import Verif.Lemmas.NatGrad
import Verif.Props.Penalty

/-!
# `vdcma`: covariance, adaptation, sampling, argument validation

The facts about the covariance need the laws of the square root and are stated over the reals.
-/

set_option linter.unusedSectionVars false

namespace Stochopy.Props
open Evo Spec Concrete

section
variable {σ : Type} {p n : Nat} {Q : Evo.Par ℝ n} {P : VDCMA.Par σ ℝ p n} {c : Cfg} {m x : Vec ℝ n} {sigma : ℝ} {g : σ}
  {L : St (VDCMA.State σ ℝ p n) ℝ p n}

/-! ## C41 -/

/-- Every state of the loop, unless the first direction drawn is zero; and what one iteration changes. -/
theorem C41_loop (hs : 0 < sigma) (hv : ∃ j, (VDCMA.start P.R m x sigma g : VDCMA.State σ ℝ p n).vvec j ≠ 0)
    (h : Reach Q (VDCMA.gauss P) c (VDCMA.start P.R m x sigma g) L) :
    (∀ j, 0 < L.s.dvec j) ∧ (∃ j, L.s.vvec j ≠ 0) ∧ 0 < L.s.sigma ∧ Sym (covVD L.s.dvec L.s.vvec) ∧ PosDef (covVD L.s.dvec L.s.vvec) ∧
    ∀ r, Evo.body Q (VDCMA.gauss P) c L = .ok r →
      (∀ j, |r.1.s.dvec j - L.s.dvec j| ≤ 7 / 10 * L.s.dvec j) ∧
      ∑ j, (r.1.s.vvec j - L.s.vvec j) ^ 2 ≤ (7 / 10) ^ 2 * ∑ j, L.s.vvec j ^ 2 := by
  have hV := VDCMA.reach_valid hs hv h
  rw [VDCMA.covVD_eq]
  refine ⟨hV.dvec, VDCMA.normV2_pos_iff.1 hV.vvec, hV.sigma, VDCMA.cov_sym _ _, VDCMA.cov_posDef hV.dvec, fun r hb => ?_⟩
  obtain ⟨hp, a, e, rows, s, h1, h2, h3, h4, h5, h6, rfl⟩ := body_ok hb
  obtain ⟨-, r, -, -, h7⟩ := VDCMA.sample_ok h1
  have hVa : VDCMA.Valid a.2 := by rw [h7]; exact ⟨hV.dvec, hV.vvec, hV.sigma⟩
  have hd : a.2.dvec = L.s.dvec := by rw [h7]
  have hvv : a.2.vvec = L.s.vvec := by rw [h7]
  obtain ⟨-, h8, h9⟩ := hVa.update (k := 0) h5
  rw [hd] at h8
  rw [hvv, VDCMA.normV2_eq] at h9
  exact ⟨h8, h9⟩

/-- The loop of a call is the loop of the theorem, and every state a call goes through after a generation is valid. -/
theorem C41_vdcma {env : Env} {R : Rng σ ℝ} {srt : Argsort ℝ} {fuel : Nat} {a : Args ℝ} {junk : Vec ℝ a.ndim} (he : env.Ok)
    {o : Output σ ℝ a.p a.ndim} (h : VDCMA.minimize env R srt fuel a junk g = .ok o) :
    ∃ (P : VDCMA.Par σ ℝ a.p a.ndim) (Q : Evo.Par ℝ a.ndim) (m : Vec ℝ a.ndim × σ)
      (Ls : List (St (VDCMA.State σ ℝ a.p a.ndim) ℝ a.p a.ndim)),
      Ls.length = o.res.nit ∧
      (∀ L ∈ Ls, Reach Q (VDCMA.gauss P) a.cfg (VDCMA.start P.R m.1 junk a.sigma m.2) L) ∧
      (∀ k L, Ls[k]? = some L → L.it = k + 1 ∧ L.evals <+: o.evals ∧ L.evals.length = (k + 1) * a.p ∧
        (∀ j, 0 < L.s.dvec j) ∧ (∃ j, L.s.vvec j ≠ 0) ∧ 0 < L.s.sigma ∧ PosDef (covVD L.s.dvec L.s.vvec)) := by
  obtain ⟨fn, obj, pen, m, hd, hfn, hv, hobj, hb, hc, hm, hrun⟩ := VDCMA.minimize_ok he h
  obtain ⟨-, -, -, v4, -, -⟩ := validate_ok_iff.1 hv
  obtain ⟨Ls, h1, h2, h3⟩ := Evo.run_states hrun
  refine ⟨{ R := R, mu := a.mu, hmu := hd.2.2.2 }, _, m, Ls, h1, h2, fun k L hk => ?_⟩
  have hR := h2 L (List.mem_of_getElem? hk)
  have hit := (h3 k L hk).1
  rcases VDCMA.reach_first (P := { R := R, mu := a.mu, hmu := hd.2.2.2 }) hR with h0 | h0
  · omega
  · obtain ⟨c1, c2, c3, -, c5, -⟩ := C41_loop (P := { R := R, mu := a.mu, hmu := hd.2.2.2 }) v4 h0 hR
    exact ⟨hit, (h3 k L hk).2.1, (h3 k L hk).2.2, c1, c2, c3, c5⟩

/-! ## C42 -/

/-- In five dimensions or fewer nothing is ever adapted: every state has the covariance drawn at the start. -/
theorem C42_violated (hn : n ≤ 5) (hmu : 0 < P.mu) (h : Reach Q (VDCMA.gauss P) c (VDCMA.start P.R m x sigma g) L) :
    L.s.dvec = (fun _ => 1) ∧ L.s.vvec = (VDCMA.start P.R m x sigma g : VDCMA.State σ ℝ p n).vvec :=
  VDCMA.reach_const hn hmu h

/-- In six dimensions or more the learning rates are well-formed and positive. -/
theorem C42_rates_partial {mu : Nat} (hn : 6 ≤ n) (hmu : 1 ≤ mu) (me : ℝ) (hme : me = mueff mu) :
    0 < VDCMA.c1 n me ∧ VDCMA.c1 n me < 1 ∧ 0 ≤ VDCMA.cmu n me ∧ VDCMA.c1 n me + VDCMA.cmu n me ≤ 1 := by
  have h := one_le_mueff (K := ℝ) hmu
  rw [← hme] at h
  have hn' : (6 : ℝ) ≤ n := by exact_mod_cast hn
  have hc : 0 < VDCMA.cfactor (K := ℝ) n := by unfold VDCMA.cfactor; linarith
  have hden : 0 < ((n : ℝ) + 13 / 10) ^ 2 + me := by positivity
  have h1 : 0 < VDCMA.c1 n me := by unfold VDCMA.c1; positivity
  have h2 : VDCMA.c1 n me < 1 := by
    unfold VDCMA.c1
    rw [div_lt_one hden]
    unfold VDCMA.cfactor
    nlinarith
  refine ⟨h1, h2, le_min (by linarith) (div_nonneg ?_ (by positivity)), ?_⟩
  · have := CMAES.two_le h
    exact mul_nonneg (by positivity) (by linarith)
  · have : VDCMA.cmu n me ≤ 1 - VDCMA.c1 n me := min_le_left _ _
    linarith

/-- The weighted log-likelihood of the `mu` best steps and the evolution path. -/
noncomputable def logLik (P : VDCMA.Par σ ℝ p n) (step : Fin P.mu → Vec ℝ n) (cond : Bool) (pc d v : Vec ℝ n) : ℝ :=
  VDCMA.cmu n (mueff (K := ℝ) P.mu) * ∑ k, weights P.mu k * logDensity (covVD d v) (step k) +
    if cond then VDCMA.c1 n (mueff (K := ℝ) P.mu) * logDensity (covVD d v) pc else 0

theorem logLik_eq (order : Equiv.Perm (Fin p)) (cond : Bool) (pc : Vec ℝ n) (ary : Pop ℝ p n) :
    (fun d v : Vec ℝ n => ∑ i, VDCMA.coef P (mueff (K := ℝ) P.mu) cond i * logDensity (covVD d v) (VDCMA.stepOf P order pc ary i)) =
      logLik P (fun k => ary (order (Fin.castLE P.hmu k))) cond pc := by
  funext d v
  unfold logLik
  rw [Fintype.sum_option, add_comm]
  simp only [VDCMA.coef, VDCMA.stepOf]
  congr 1
  · rw [Finset.mul_sum]
    exact Finset.sum_congr rfl fun k _ => by ring
  · split_ifs
    · rfl
    · exact zero_mul _

/-- One adaptation. -/
theorem C67_step (hn : 6 ≤ n) (hmu : 1 ≤ P.mu) (order : Equiv.Perm (Fin p)) (cond : Bool) {pc d v : Vec ℝ n} (ary : Pop ℝ p n)
    (hd : ∀ j, 0 < d j) (hv : ∃ j, v j ≠ 0) : ∃ (up al : ℝ) (gv gd : Vec ℝ n),
      VDCMA.increments P (mueff P.mu) order cond pc d v ary = (fun j => up * gv j, fun j => up * gd j) ∧
      0 < up ∧ up ≤ 1 ∧ 0 < al ∧ al ≤ 1 ∧ ((∀ j, v j ^ 2 ≤ 1 / 4 * ∑ i, v i ^ 2) → al = 1) ∧
      NaturalGradient al (logLik P (fun k => ary (order (Fin.castLE P.hmu k))) cond pc) d v gv gd := by
  have hv2 := VDCMA.normV2_pos_iff.2 hv
  obtain ⟨r1, -, r3, -⟩ := C42_rates_partial (mu := P.mu) hn hmu _ rfl
  obtain ⟨a, b, ha, hb, hinc⟩ := VDCMA.increments_eq (P := P) (me := mueff (K := ℝ) P.mu) (order := order) (cond := cond) (pc := pc)
    (ary := ary) (d := d) (v := v) (by linarith)
  obtain ⟨u1, u2, -⟩ := VDCMA.upfactor_spec (ngv := (VDCMA.ngvNgd d v a b).1) (ngd := (VDCMA.ngvNgd d v a b).2) hd (Real.sqrt_pos.2 hv2)
  refine ⟨_, (VDCMA.alphaBeta v).1, _, _, hinc, u1, u2, (VDCMA.alpha_range hv2).1, (VDCMA.alpha_range hv2).2, fun h => ?_, ?_⟩
  · rw [← VDCMA.normV2_eq] at h
    exact VDCMA.alpha_one hv2 h
  · rw [← logLik_eq]
    exact VDCMA.naturalGradient _ _ _ hd hv2 a b ha hb

/-- C67: every iteration in six dimensions or more changes `v` and `d` by a positive multiple of the natural gradient of the
weighted log-likelihood of its best steps and its evolution path, with the blocks relating `v` and `d` scaled by `al`. -/
theorem C67_loop (hn : 6 ≤ n) (hmu : 1 ≤ P.mu) (hs : 0 < sigma) (h : Reach Q (VDCMA.gauss P) c (VDCMA.start P.R m x sigma g) L)
    {r : St (VDCMA.State σ ℝ p n) ℝ p n × Gen ℝ p n} (hb : Evo.body Q (VDCMA.gauss P) c L = .ok r) :
    ∃ (X : Pop ℝ p n) (s' : VDCMA.State σ ℝ p n) (cond : Bool) (up al : ℝ) (gv gd : Vec ℝ n),
      (VDCMA.gauss P).sample L.s = .ok (X, s') ∧
      (∀ j, r.1.s.vvec j = L.s.vvec j + up * gv j) ∧ (∀ j, r.1.s.dvec j = L.s.dvec j + up * gd j) ∧
      0 < up ∧ up ≤ 1 ∧ 0 < al ∧ al ≤ 1 ∧ ((∀ j, L.s.vvec j ^ 2 ≤ 1 / 4 * ∑ i, L.s.vvec i ^ 2) → al = 1) ∧
      NaturalGradient al (logLik P (fun k j => (X (Q.srt p r.2.fit (Fin.castLE P.hmu k)) j - L.s.xmean j) / L.s.sigma) cond r.1.s.pc)
        L.s.dvec L.s.vvec gv gd := by
  have hv : ∃ j, (VDCMA.start P.R m x sigma g : VDCMA.State σ ℝ p n).vvec j ≠ 0 := by
    rcases VDCMA.reach_first (Reach.step h hb) with h0 | h0
    · obtain ⟨hp, a, e, rows, s, -, -, -, -, -, -, rfl⟩ := body_ok hb
      exact absurd h0 (Nat.succ_ne_zero _)
    · exact h0
  have hV := VDCMA.reach_valid hs hv h
  obtain ⟨hp, a, e, rows, s, h1, h2, h3, h4, h5, h6, rfl⟩ := body_ok hb
  obtain ⟨-, r, -, hX, h7⟩ := VDCMA.sample_ok h1
  change VDCMA.update P 0 _ _ a.2 = _ at h5
  unfold VDCMA.update at h5
  rw [bind_ok_iff] at h5
  obtain ⟨u, -, h5⟩ := h5
  rw [bind_ok_iff] at h5
  obtain ⟨-, -, h5⟩ := h5
  injection h5 with h5
  subst h5
  have hdv : a.2.dvec = L.s.dvec := by rw [h7]
  have hvv : a.2.vvec = L.s.vvec := by rw [h7]
  have hary : ∀ i j, a.2.ary i j = (a.1 i j - L.s.xmean j) / L.s.sigma := fun i j => by
    rw [h7, hX]
    have := hV.sigma.ne'
    show r.1 i j = _
    field_simp
    ring
  obtain ⟨up, al, gv, gd, c1, c2, c3, c4, c5, c6, c7⟩ := C67_step (P := P) (d := a.2.dvec) (v := a.2.vvec)
    (pc := VDCMA.pcNext P (Q.srt p e.1) a.2 u.2.2) hn hmu (Q.srt p e.1) u.2.2 a.2.ary (by rw [hdv]; exact hV.dvec)
    (by rw [hvv]; exact VDCMA.normV2_pos_iff.1 hV.vvec)
  refine ⟨a.1, a.2, u.2.2, up, al, gv, gd, h1, fun j => ?_, fun j => ?_, c2, c3, c4, c5, ?_, ?_⟩
  · rw [← hvv]
    exact congrArg (fun w : Vec ℝ n × Vec ℝ n => a.2.vvec j + w.1 j) c1
  · rw [← hdv]
    exact congrArg (fun w : Vec ℝ n × Vec ℝ n => a.2.dvec j + w.2 j) c1
  · rw [← hvv]; exact c6
  · rw [← hdv, ← hvv]
    have : (fun k j => (a.1 (Q.srt p e.1 (Fin.castLE P.hmu k)) j - L.s.xmean j) / L.s.sigma) =
        fun k => a.2.ary (Q.srt p e.1 (Fin.castLE P.hmu k)) := funext fun k => funext fun j => (hary _ j).symm
    rw [← this] at c7
    exact c7

/-- In six dimensions or more the covariance is left alone only where the log-likelihood is stationary. -/
theorem C42_adapts_partial (hn : 6 ≤ n) (hmu : 1 ≤ P.mu) (order : Equiv.Perm (Fin p)) (cond : Bool) {pc d v : Vec ℝ n} (ary : Pop ℝ p n)
    (hd : ∀ j, 0 < d j) (hv : ∃ j, v j ≠ 0) :
    VDCMA.increments P (mueff P.mu) order cond pc d v ary = (fun _ => 0, fun _ => 0) ↔
    ∀ k, HasDerivAt (fun t => logLik P (fun k => ary (order (Fin.castLE P.hmu k))) cond pc d (Function.update v k t)) 0 (v k) ∧
      HasDerivAt (fun t => logLik P (fun k => ary (order (Fin.castLE P.hmu k))) cond pc (Function.update d k t) v) 0 (d k) := by
  have hv2 := VDCMA.normV2_pos_iff.2 hv
  constructor
  · intro h k
    obtain ⟨up, al, gv, gd, c1, c2, c3, c4, c5, c6, c7⟩ := C67_step (P := P) (pc := pc) hn hmu order cond ary hd hv
    rw [h] at c1
    have hz1 : ∀ j, gv j = 0 := fun j => by
      have := congrFun (congrArg Prod.fst c1) j
      exact (mul_eq_zero.1 this.symm).resolve_left c2.ne'
    have hz2 : ∀ j, gd j = 0 := fun j => by
      have := congrFun (congrArg Prod.snd c1) j
      exact (mul_eq_zero.1 this.symm).resolve_left c2.ne'
    have d1 := c7.1 k
    have d2 := c7.2 k
    simp only [hz1, hz2, mul_zero, Finset.sum_const_zero, add_zero] at d1 d2
    exact ⟨d1, d2⟩
  · intro h
    obtain ⟨r1, -, r3, -⟩ := C42_rates_partial (mu := P.mu) hn hmu _ rfl
    obtain ⟨a, b, ha, hb, hinc⟩ := VDCMA.increments_eq (P := P) (me := mueff (K := ℝ) P.mu) (order := order) (cond := cond) (pc := pc)
      (ary := ary) (d := d) (v := v) (by linarith)
    have h1 := fun k => (VDCMA.hasDeriv_v Finset.univ _ _ hd hv2 b hb k)
    have h2 := fun k => (VDCMA.hasDeriv_d Finset.univ _ _ hd hv2 a ha k)
    have e : ∀ d v : Vec ℝ n, ∑ i, VDCMA.coef P (mueff (K := ℝ) P.mu) cond i * logDensity (covVD d v) (VDCMA.stepOf P order pc ary i) =
        logLik P (fun k => ary (order (Fin.castLE P.hmu k))) cond pc d v := fun d v => congrFun (congrFun (logLik_eq order cond pc ary) d) v
    simp only [e] at h1 h2
    have hz := VDCMA.ngvNgd_zero hd hv2 a b (fun k => (h1 k).unique (h k).1) (fun k => (h2 k).unique (h k).2)
    rw [hinc, hz]
    simp

/-- Six dimensions, ten individuals, five parents, a direction with equal entries: the step is along the natural gradient proper. -/
example (R : Rng Nat ℝ) (P : VDCMA.Par Nat ℝ 10 6) (hP : P = { R := R, mu := 5, hmu := by norm_num }) (order : Equiv.Perm (Fin 10))
    (pc : Vec ℝ 6) (ary : Pop ℝ 10 6) : ∃ (up : ℝ) (gv gd : Vec ℝ 6),
    VDCMA.increments P (mueff P.mu) order true pc (fun _ => 1) (fun _ => 1) ary = (fun j => up * gv j, fun j => up * gd j) ∧ 0 < up ∧
    NaturalGradient 1 (logLik P (fun k => ary (order (Fin.castLE P.hmu k))) true pc) (fun _ => 1) (fun _ => 1) gv gd := by
  obtain ⟨up, al, gv, gd, h1, h2, -, -, -, h3, h4⟩ := C67_step (P := P) (pc := pc)
    (d := fun _ => 1) (v := fun _ => 1) (le_refl 6) (by rw [hP]; norm_num) order true ary (fun _ => one_pos) ⟨0, one_ne_zero⟩
  rw [h3 (fun j => by norm_num)] at h4
  exact ⟨up, gv, gd, h1, h2, h4⟩

/-! ## C65 -/

/-- Every generation is drawn from `N(xmean, sigma² D (I + v vᵀ) D)`; from the second on, its first two points are injected. -/
theorem C65_vdcma (h : Reach Q (VDCMA.gauss P) c (VDCMA.start P.R m x sigma g) L) {a : Pop ℝ p n × VDCMA.State σ ℝ p n}
    (ha : (VDCMA.gauss P).sample L.s = .ok a) :
    (∃ A : Matrix (Fin n) (Fin n) ℝ, A * A.transpose = covVD L.s.dvec L.s.vvec ∧
      ∀ i : Fin p, L.it = 0 ∨ 2 ≤ i.val → ∀ j,
        a.1 i j = L.s.xmean j + L.s.sigma * (A.mulVec ((drawMat P.R.randn p n L.s.rng).1 i)) j) ∧
    (1 ≤ L.it → ∃ (hp : 1 < p) (k : ℝ), 0 ≤ k ∧
      (∀ j, a.1 ⟨0, by omega⟩ j = L.s.xmean j + L.s.sigma * (k * (L.s.xmean j - L.s.xold j))) ∧
      (∀ j, a.1 ⟨1, hp⟩ j = L.s.xmean j - L.s.sigma * (k * (L.s.xmean j - L.s.xold j))) ∧
      quad (covVD L.s.dvec L.s.vvec)⁻¹ (fun j => k * (L.s.xmean j - L.s.xold j)) =
        ∑ j, (drawVec P.R.randn n (drawMat P.R.randn p n L.s.rng).2).1 j ^ 2) := by
  obtain ⟨⟨hnv, hd⟩, r, hr, hX, -⟩ := VDCMA.sample_ok ha
  have hv2 := VDCMA.normV2_pos_iff.2 (VDCMA.normV_pos_iff.1 hnv)
  set d := L.s.dvec
  set v := L.s.vvec
  have hdx := VDCMA.reach_dx h
  set w := VDCMA.vn v with hw
  have hw1 : ∑ k, w k ^ 2 = 1 := VDCMA.vnn_sum hv2
  have hvw : ∀ i, v i = VDCMA.normV v * w i := VDCMA.vn_mul hv2
  have hn2 : VDCMA.normV v ^ 2 = VDCMA.normV2 v := VDCMA.normV_sq
  set c := Real.sqrt (1 + VDCMA.normV2 v) - 1 with hc
  have hcc : c ^ 2 + 2 * c = VDCMA.normV2 v := by
    have : Real.sqrt (1 + VDCMA.normV2 v) ^ 2 = 1 + VDCMA.normV2 v := Real.sq_sqrt (VDCMA.one_add_pos v).le
    rw [hc]; linear_combination this
  refine ⟨⟨Matrix.of fun i j => d i * ((if i = j then 1 else 0) + c * (w i * w j)), ?_, ?_⟩, ?_⟩
  · rw [VDCMA.covVD_eq]
    ext i j
    rw [Matrix.mul_apply]
    have e : ∀ k, (d i * ((if i = k then 1 else 0) + c * (w i * w k))) * (d j * ((if j = k then 1 else 0) + c * (w j * w k))) =
        (if i = k then d i * d j * ((if j = k then 1 else 0) + c * (w j * w k)) else 0) +
        ((if j = k then d i * d j * (c * (w i * w k)) else 0) + d i * d j * (c ^ 2 * (w i * w j)) * w k ^ 2) := fun k => by
      split_ifs <;> ring
    refine (Finset.sum_congr rfl fun k _ => e k).trans ?_
    rw [Finset.sum_add_distrib, Finset.sum_add_distrib, Finset.sum_ite_eq, Finset.sum_ite_eq, if_pos (Finset.mem_univ _),
      if_pos (Finset.mem_univ _), ← Finset.mul_sum, hw1]
    unfold VDCMA.cov
    rw [hvw i, hvw j]
    have e2 : (if j = i then (1 : ℝ) else 0) = if i = j then 1 else 0 := by simp only [eq_comm]
    rw [e2]
    rw [← hn2] at hcc
    linear_combination (d i * d j * w i * w j) * hcc
  · intro i hi j
    have hri : r.1 i = VDCMA.spread d v ((drawMat P.R.randn p n L.s.rng).1 i) := by
      unfold VDCMA.inject at hr
      by_cases hinj : L.s.inj = true
      · rw [if_pos hinj, bind_ok_iff] at hr
        obtain ⟨-, -, hr⟩ := hr
        dsimp only at hr
        split_ifs at hr with h2
        cases hr
        have h3 : 2 ≤ i.val := by
          rcases hi with hi | hi
          · rcases hdx with ⟨h4, -⟩ | ⟨-, h4, -⟩
            · rw [h4] at hinj; cases hinj
            · omega
          · exact hi
        show (if i.val = 0 then _ else if i.val = 1 then _ else _) = _
        rw [if_neg (by omega), if_neg (by omega)]
      · rw [if_neg hinj] at hr
        cases hr
        rfl
    rw [hX]
    show L.s.xmean j + L.s.sigma * r.1 i j = _
    rw [hri]
    congr 2
    generalize (drawMat P.R.randn p n L.s.rng).1 i = z
    simp only [Matrix.mulVec, dotProduct, Matrix.of_apply]
    have e : ∀ k, d j * ((if j = k then 1 else 0) + c * (w j * w k)) * z k =
        (if j = k then d j * z k else 0) + d j * (c * w j) * (z k * w k) := fun k => by split_ifs <;> ring
    refine Eq.trans ?_ (Finset.sum_congr rfl fun k _ => (e k).symm)
    rw [Finset.sum_add_distrib, Finset.sum_ite_eq, if_pos (Finset.mem_univ _), ← Finset.mul_sum]
    show d j * (z j + (Real.sqrt (1 + VDCMA.normV2 v) - 1) * (VDCMA.dot z (VDCMA.vn v) * VDCMA.vn v j)) = _
    rw [← hc, ← hw]
    rw [VDCMA.dot_def]
    ring
  · intro hit
    rcases hdx with ⟨-, h4⟩ | ⟨hinj, -, hmv⟩
    · omega
    · have hdx' : ∀ j, L.s.dx j = L.s.xmean j - L.s.xold j := fun j => by rw [hmv j]; ring
      unfold VDCMA.inject at hr
      rw [if_pos hinj, bind_ok_iff] at hr
      obtain ⟨u0, hm, hr⟩ := hr
      rw [need_ok] at hm
      dsimp only at hr
      split_ifs at hr with h2
      cases hr
      generalize (drawVec P.R.randn n (drawMat P.R.randn p n L.s.rng).2).1 = u at hX ⊢
      refine ⟨by omega, CMAES.norm u / Real.sqrt (VDCMA.mnorm L.s.dx d v), div_nonneg (Real.sqrt_nonneg _) (Real.sqrt_nonneg _),
        fun j => ?_, fun j => ?_, ?_⟩
      · rw [← hdx', hX]; rfl
      · rw [← hdx', hX]
        show L.s.xmean j + L.s.sigma * -(CMAES.norm u / Real.sqrt (VDCMA.mnorm L.s.dx d v) * L.s.dx j) = _
        ring
      · rw [VDCMA.covVD_inv hd]
        unfold quad
        rw [VDCMA.quad_inv hd]
        have hs : ∀ k : ℝ, VDCMA.mnorm (fun j => k * (L.s.xmean j - L.s.xold j)) d v = k ^ 2 * VDCMA.mnorm L.s.dx d v := fun k => by
          unfold VDCMA.mnorm VDCMA.dot
          simp only [ArrayOps.sum_eq, ArrayOps.dot_eq, ← hdx', mul_div_assoc, mul_pow, mul_assoc]
          rw [← Finset.mul_sum, ← Finset.mul_sum]
          ring
        rw [hs, div_pow, Real.sq_sqrt hm.le, div_mul_cancel₀ _ hm.ne']
        exact Real.sq_sqrt (Finset.sum_nonneg fun j _ => sq_nonneg _)

end

/-! ## C66, C59: argument validation -/

section
variable {σ : Type} {env : Env} {R : Rng σ ℝ} {srt : Argsort ℝ} {fuel : Nat} {g : σ} {a : Args ℝ} {junk : Vec ℝ a.ndim}

/-- The first direction drawn is zero, or the mean does not move in some iteration but the last: the code divides by zero and
continues with NaN, which the model does not follow. -/
def Degenerate (R : Rng σ ℝ) (srt : Argsort ℝ) (a : Args ℝ) (junk : Vec ℝ a.ndim) (g : σ) : Prop :=
  ∃ (fn : Vec ℝ a.ndim → Val ℝ) (obj : Obj ℝ a.ndim) (pen : Bool) (hmu : a.mu ≤ a.p) (m : Vec ℝ a.ndim × σ),
    a.fn = some fn ∧ obj.Faithful fn ∧ consMap a.constraints = .ok pen ∧ a.firstMean R (a.seeded R g) = .ok m ∧
    ((∀ j, (VDCMA.start R m.1 junk a.sigma m.2 : VDCMA.State σ ℝ a.p a.ndim).vvec j = 0) ∨
    ∃ L, Reach (a.par srt obj pen) (VDCMA.gauss { R := R, mu := a.mu, hmu := hmu }) a.cfg (VDCMA.start R m.1 junk a.sigma m.2) L ∧
      1 ≤ L.it ∧ (L.it : Int) < a.maxiter ∧ L.s.xmean = L.s.xold)

/-- Every exception is justified by the arguments, except the one raised with a single individual. -/
theorem C66_vdcma_error (he : env.Ok) (hs : IsArgsort srt) (hf : 0 < fuel) (hfuel : a.maxiter ≤ fuel)
    (hS : Sizes a) (hfin : a.constraints = some "Penalize" → ∀ fn, a.fn = some fn → FiniteValued fn) {e : PyErr}
    (h : VDCMA.minimize env R srt fuel a junk g = .error e) :
    MisuseEvo env a e ∨ (e = .indexError ∧ a.popsize = 1) ∨ (e = .unmodelled ∧ Degenerate R srt a junk g) := by
  rcases minimize_error (G := fun hmu => VDCMA.gauss { R := R, mu := a.mu, hmu := hmu })
    (rng := VDCMA.State.rng) (s0 := fun m => VDCMA.start R m.1 junk a.sigma m.2) he hS hf hfuel h with
    h | ⟨fn, obj, pen, m, L, hmu, hfn, hobj, hv, hpen, hm, hL, hi, hF⟩
  · exact Or.inl h
  · right
    obtain ⟨-, -, -, v4, v5, -⟩ := validate_ok_iff.1 hv
    obtain ⟨m1, m2⟩ := mu_bounds hS v5.2
    have hp : 0 < a.p := by omega
    rcases VDCMA.fail_cases (P := { R := R, mu := a.mu, hmu := hmu }) hobj hs
      (fun hp => hfin ((consMap_ok hpen).2.1 hp) fn hfn) (mueff_pos m1) hS.dim hp v4 hL hF with ⟨h1, h2⟩ | ⟨h1, h2, h3⟩ | ⟨h1, h2, -⟩
    · exact Or.inr ⟨h1, fn, obj, pen, hmu, m, hfn, hobj, hpen, hm, Or.inl h2⟩
    · exact Or.inr ⟨h1, fn, obj, pen, hmu, m, hfn, hobj, hpen, hm, Or.inr ⟨L, hL, h2, by omega, h3⟩⟩
    · refine Or.inl ⟨h1, ?_⟩
      have := hS.popsize
      have h4 : a.popsize.toNat = 1 := h2
      omega

/-- A call that returns has valid arguments; a call with valid arguments and at least two individuals returns, unless it
degenerates. -/
theorem C66_vdcma_partial (he : env.Ok) (hs : IsArgsort srt) (hf : 0 < fuel) (hfuel : a.maxiter ≤ fuel) (hS : Sizes a)
    (hfin : a.constraints = some "Penalize" → ∀ fn, a.fn = some fn → FiniteValued fn) :
    ((∃ o, VDCMA.minimize env R srt fuel a junk g = .ok o) → ValidEvo env a) ∧
    (ValidEvo env a → a.popsize ≠ 1 → ¬ Degenerate R srt a junk g → ∃ o, VDCMA.minimize env R srt fuel a junk g = .ok o) := by
  constructor
  · rintro ⟨o, h⟩
    exact (valid_of_ok (G := fun hmu => VDCMA.gauss { R := R, mu := a.mu, hmu := hmu })
      (rng := VDCMA.State.rng) (s0 := fun m => VDCMA.start R m.1 junk a.sigma m.2) h).1
  · intro hv h1 hD
    cases h : VDCMA.minimize env R srt fuel a junk g with
    | ok o => exact ⟨o, rfl⟩
    | error e =>
      rcases C66_vdcma_error he hs hf hfuel hS hfin h with h2 | ⟨-, h2⟩ | ⟨-, h2⟩
      · exact absurd h2 hv.not_misuse
      · exact absurd h2 h1
      · exact absurd h2 hD

theorem C66_vdcma_callable (h : a.fn = none) : VDCMA.minimize env R srt fuel a junk g = .error .typeError := by
  unfold VDCMA.minimize Args.validate
  simp [h]

variable {bounds : NdArr ℝ} {fn : Vec ℝ bounds.len → Val ℝ}

theorem C59_vdcma (he : env.Ok) (hs : IsArgsort srt) (hf : 100 ≤ fuel) (hb : bounds.shape = [bounds.len, 2])
    (hd : 0 < bounds.len) (junk : Vec ℝ (Evo.defaults bounds fn).ndim) (hD : ¬ Degenerate R srt (Evo.defaults bounds fn) junk g) :
    ∃ o, VDCMA.minimize env R srt fuel (Evo.defaults bounds fn) junk g = .ok o :=
  (C66_vdcma_partial he hs (by omega) (by show (100 : Int) ≤ fuel; omega) (sizes_defaults hd) nofun).2 (valid_defaults hb)
    (by show (10 : Int) ≠ 1; norm_num) hD

end

/-- A run over the reals. -/
theorem real_run_vd (junk : Vec ℝ 2) : ∃ o, VDCMA.minimize Concrete.env realGen stableArgsort 1 { realArgs with maxiter := 1 } junk 0 = .ok o := by
  refine (C66_vdcma_partial (a := { realArgs with maxiter := 1 }) env_ok isArgsort_stable (by norm_num) (le_refl _) ⟨?_, ?_, ?_, ?_⟩ ?_).2 ?_ ?_ ?_
  · show 0 < 2; norm_num
  · show (0 : Int) < 10; norm_num
  · show (1 : ℝ) ≤ 1 / 2 * ((10 : Int) : ℝ); norm_num
  · intro h; exact absurd rfl h
  · intro _ fn hfn x
    cases hfn
    exact ⟨_, rfl⟩
  · refine ⟨rfl, rfl, nofun, ?_, ?_, nofun, ?_, ?_, fun _ => Or.inl (le_refl _), nofun⟩
    · show (0 : ℝ) < 1 / 10; norm_num
    · show (0 : ℝ) < 1 / 2 ∧ (1 / 2 : ℝ) ≤ 1; norm_num
    · show some "Penalize" ∈ _; simp
    · show (1 : Int) ≤ 1; norm_num
  · show (10 : Int) ≠ 1; norm_num
  · rintro ⟨fn, obj, pen, hmu, m, -, -, -, -, h | ⟨L, -, h1, h2, -⟩⟩
    · have h0 := h (0 : Fin 2)
      have h1 := h (1 : Fin 2)
      change (((m.2 * 3 + 1) % 5 : Nat) - 2 : ℝ) / Real.sqrt ((2 : Nat) : ℝ) = 0 at h0
      change ((((m.2 + 1) * 3 + 1) % 5 : Nat) - 2 : ℝ) / Real.sqrt ((2 : Nat) : ℝ) = 0 at h1
      have hs : Real.sqrt ((2 : Nat) : ℝ) ≠ 0 := (Real.sqrt_pos.2 (by norm_num)).ne'
      have e0 : (((m.2 * 3 + 1) % 5 : Nat) : ℝ) = (2 : Nat) := by
        have := (div_eq_zero_iff.1 h0).resolve_right hs
        push_cast at this ⊢; linarith
      have e1 : ((((m.2 + 1) * 3 + 1) % 5 : Nat) : ℝ) = (2 : Nat) := by
        have := (div_eq_zero_iff.1 h1).resolve_right hs
        push_cast at this ⊢; linarith
      rw [Nat.cast_inj] at e0 e1
      omega
    · change (L.it : Int) < 1 at h2
      omega

/-- One individual. -/
def loneArgs : Args ℚ := { evoArgs with popsize := 1, muperc := 1, maxiter := 2, seed := some 3 }

/-- With `popsize=1` the second generation raises IndexError although the arguments are valid. -/
theorem C66_violated : ValidEvo Concrete.env loneArgs ∧
    VDCMA.minimize Concrete.env rng stableArgsort 10 loneArgs junk0 0 = .error .indexError := by
  refine ⟨⟨rfl, rfl, nofun, ?_, ?_, nofun, ?_, ?_, fun _ => Or.inl (le_refl _), nofun⟩, raises_iff (by decide +kernel)⟩
  · show (0 : ℚ) < 1 / 10; norm_num
  · show (0 : ℚ) < 1 ∧ (1 : ℚ) ≤ 1; norm_num
  · show none ∈ _; simp
  · show (1 : Int) ≤ 2; norm_num

end Stochopy.Props
