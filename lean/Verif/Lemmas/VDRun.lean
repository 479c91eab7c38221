import Verif.Lemmas.CMARun
import Verif.Lemmas.NatGrad
import Verif.Spec.VDCMA

/-! The states of `vdcma` follow the update equations. -/

set_option linter.unusedSectionVars false

namespace Stochopy.VDCMA
open Evo Spec
variable {σ : Type} {p n : Nat} {P : Par σ ℝ p n}

/-- The distribution of a state. -/
def distOf (s : State σ ℝ p n) : VD.Dist n :=
  { m := s.xmean, sigma := s.sigma, d := s.dvec, v := s.vvec, ps := s.ps, pc := s.pc }

section parameters
variable {mu : Nat}

theorem c1_spec (h : 0 < mu) : c1 n (mueff (K := ℝ) mu) = VD.c1 n mu := by
  rw [CMAES.mueff_spec h]; unfold c1 VD.c1 cfactor; norm_num; ring
theorem cmu_spec (h : 0 < mu) : cmu n (mueff (K := ℝ) mu) = VD.cmu n mu := by
  unfold cmu VD.cmu; rw [c1_spec h, CMAES.mueff_spec h]; unfold cfactor; congr 1; ring

end parameters

theorem le_cap_iff {u up a b : ℝ} (ha : 0 ≤ a) (hb : 0 ≤ b) : u ≤ cap up a b ↔ u ≤ up ∧ u * b ≤ 0.7 * a := by
  unfold cap
  by_cases h : b = 0
  · rw [if_pos h, h, mul_zero]
    exact ⟨fun h => ⟨h, by positivity⟩, fun h => h.1⟩
  · have hb' : 0 < b := lt_of_le_of_ne hb (Ne.symm h)
    rw [if_neg h, le_min_iff]
    refine and_congr_right fun _ => ?_
    rw [← mul_div_assoc, le_div_iff₀ hb']
    norm_num

theorem le_foldl_cap_iff {d w : Vec ℝ n} (hd : ∀ j, 0 ≤ d j) (u : ℝ) (l : List (Fin n)) : ∀ up : ℝ,
    u ≤ l.foldl (fun up j => cap up (d j) |w j|) up ↔ u ≤ up ∧ ∀ j ∈ l, u * |w j| ≤ 0.7 * d j := by
  induction l with
  | nil => intro up; simp
  | cons i l ih =>
    intro up
    rw [List.foldl_cons, ih, le_cap_iff (hd i) (abs_nonneg _)]
    simp only [List.mem_cons, forall_eq_or_imp, and_assoc]

theorem upfactor_truncation {d v gv gd : Vec ℝ n} (hd : ∀ j, 0 ≤ d j) : VD.Truncation d v gv gd (upfactor d v gv gd) := by
  have key : ∀ u, u ≤ upfactor d v gv gd ↔ u ≤ 1 ∧ u * CMA.len gv ≤ 0.7 * CMA.len v ∧ ∀ j, u * |gd j| ≤ 0.7 * d j := fun u => by
    rw [upfactor_eq]
    rw [le_foldl_cap_iff hd, le_cap_iff (show 0 ≤ normV v from Real.sqrt_nonneg _)
      (show (0 : ℝ) ≤ NumFns.sqrt (dot gv gv) from Real.sqrt_nonneg _)]
    have e1 : ∀ x : Vec ℝ n, NumFns.sqrt (dot x x) = CMA.len x := fun x => by
      unfold CMA.len
      rw [← normV2_eq]
      rfl
    have e2 : normV v = CMA.len v := e1 v
    rw [e1, e2, and_assoc]
    simp only [List.mem_finRange, true_imp_iff]
  exact ⟨(key _).1 (le_refl _), fun u hu => (key u).2 hu⟩

theorem foldl_max_mem (l : List (Fin n)) (w : Vec ℝ n) : ∀ b : ℝ, l.foldl (fun a j => max a (w j)) b = b ∨
    ∃ j, l.foldl (fun a j => max a (w j)) b = w j := by
  induction l with
  | nil => intro b; exact Or.inl rfl
  | cons i l ih =>
    intro b
    rw [List.foldl_cons]
    rcases ih (max b (w i)) with h | h
    · rcases max_choice b (w i) with h' | h'
      · exact Or.inl (h.trans h')
      · exact Or.inr ⟨i, h.trans h'⟩
    · exact Or.inr h

theorem alpha_spec {v : Vec ℝ n} (h : 0 < normV2 v) : VD.Alpha v (alphaBeta v).1 := by
  refine ⟨vmax (vnn v), ⟨?_, ?_⟩, ?_⟩
  · rcases foldl_max_mem (List.finRange n) (vnn v) 0 with h0 | ⟨j, hj⟩
    · exact absurd h0 (vmax_pos h).ne'
    · exact ⟨j, by dsimp only; rw [← normV2_eq, ← vnn_eq]; exact hj.symm⟩
  · rintro _ ⟨j, rfl⟩
    dsimp only
    rw [← normV2_eq, ← vnn_eq]
    exact le_vmax _ j
  · rw [← normV2_eq]
    unfold alphaBeta
    dsimp only
    split_ifs with hlt
    · exact (min_eq_right (le_of_lt hlt)).symm
    · exact (min_eq_left (not_lt.1 hlt)).symm

/-- `D S z` with the symmetric root `S` of `I + v vᵀ`. -/
theorem root_spec {v : Vec ℝ n} (h : 0 < normV2 v) : ∃ S : Matrix (Fin n) (Fin n) ℝ, Sym S ∧ PosDef S ∧ S * S = 1 + Matrix.vecMulVec v v ∧
    ∀ (d z : Vec ℝ n) (j : Fin n), spread d v z j = d j * S.mulVec z j := by
  set w := vn v with hw
  have hw1 : ∑ k, w k ^ 2 = 1 := vnn_sum h
  have hvw : ∀ i, v i = normV v * w i := vn_mul h
  have hn2 : normV v ^ 2 = normV2 v := normV_sq
  set c := Real.sqrt (1 + normV2 v) - 1 with hc
  have hc0 : 0 < c := by have := root_gt h; linarith
  have hcc : c ^ 2 + 2 * c = normV2 v := by
    have : Real.sqrt (1 + normV2 v) ^ 2 = 1 + normV2 v := Real.sq_sqrt (one_add_pos v).le
    rw [hc]; linear_combination this
  let S : Matrix (Fin n) (Fin n) ℝ := Matrix.of fun i j => (if i = j then 1 else 0) + c * (w i * w j)
  have hS : ∀ i j, S i j = (if i = j then 1 else 0) + c * (w i * w j) := fun _ _ => rfl
  refine ⟨S, fun i j => ?_, fun x hx => ?_, ?_, fun d z j => ?_⟩
  · rw [hS, hS, mul_comm (w i)]
    simp only [eq_comm]
  · have e : S = fun i j => (1 : Matrix (Fin n) (Fin n) ℝ) i j + c * (w i * w j) := by
      funext i j
      rw [hS, Matrix.one_apply]
    rw [e, quad_add (1 : Matrix (Fin n) (Fin n) ℝ) fun i j => c * (w i * w j), quad_smul c fun i j => w i * w j, quad_outer w, quad_one]
    have := sum_sq_pos' hx
    have : 0 ≤ c * (∑ i, x i * w i) ^ 2 := mul_nonneg hc0.le (sq_nonneg _)
    linarith
  · ext i j
    rw [Matrix.mul_apply, Matrix.add_apply, Matrix.vecMulVec_apply, Matrix.one_apply]
    have e : ∀ k, S i k * S k j =
        (if i = k then (if k = j then 1 else 0) + c * (w k * w j) else 0) +
        ((if k = j then c * (w i * w k) else 0) + c ^ 2 * (w i * w j) * w k ^ 2) := fun k => by
      rw [hS, hS]
      split_ifs <;> ring
    refine (Finset.sum_congr rfl fun k _ => e k).trans ?_
    rw [Finset.sum_add_distrib, Finset.sum_add_distrib, Finset.sum_ite_eq, Finset.sum_ite_eq', if_pos (Finset.mem_univ _),
      if_pos (Finset.mem_univ _), ← Finset.mul_sum, hw1, hvw i, hvw j]
    rw [← hn2] at hcc
    linear_combination (w i * w j) * hcc
  · unfold spread
    simp only [Matrix.mulVec, dotProduct]
    have e : ∀ k, S j k * z k = (if j = k then z k else 0) + c * w j * (z k * w k) := fun k => by
      rw [hS]; split_ifs <;> ring
    rw [Finset.sum_congr rfl fun k _ => e k, Finset.sum_add_distrib, Finset.sum_ite_eq, if_pos (Finset.mem_univ _), ← Finset.mul_sum]
    show d j * (z j + (Real.sqrt (1 + normV2 v) - 1) * (dot z (vn v) * vn v j)) = _
    rw [← hc, ← hw]
    simp only [dot_def]
    ring

/-- The adaptation of the covariance matrix. -/
theorem adapt_spec (hmu : 0 < P.mu) {order : Equiv.Perm (Fin p)} {cond : Bool} {pc d v : Vec ℝ n} {ary : Pop ℝ p n}
    (hd : ∀ j, 0 < d j) (hv : 0 < normV2 v) :
    VD.Adapt (fun k : Fin P.mu => ary (order (Fin.castLE P.hmu k))) cond pc d v
      (fun j => d j + (increments P (mueff P.mu) order cond pc d v ary).2 j)
      (fun j => v j + (increments P (mueff P.mu) order cond pc d v ary).1 j) := by
  constructor
  · intro hn
    rw [increments_zero hn (one_le_mueff hmu)]
    exact ⟨funext fun j => add_zero _, funext fun j => add_zero _⟩
  · intro hn
    have hpos : 0 < cmu n (mueff (K := ℝ) P.mu) + c1 n (mueff P.mu) := by
      have h := one_le_mueff (K := ℝ) hmu
      have hn' : (6 : ℝ) ≤ n := by exact_mod_cast hn
      have hc : 0 < cfactor (K := ℝ) n := by unfold cfactor; linarith
      have h1 : 0 < c1 n (mueff (K := ℝ) P.mu) := by unfold c1; positivity
      have h2 : c1 n (mueff (K := ℝ) P.mu) < 1 := by
        unfold c1
        rw [div_lt_one (by positivity)]
        unfold cfactor
        nlinarith
      have h3 : 0 ≤ cmu n (mueff (K := ℝ) P.mu) := le_min (by linarith) (div_nonneg (mul_nonneg (by positivity) (by
        have := CMAES.two_le h; linarith)) (by positivity))
      linarith
    obtain ⟨a, b, ha, hb, hinc⟩ := increments_eq (P := P) (me := mueff (K := ℝ) P.mu) (order := order) (cond := cond) (pc := pc)
      (ary := ary) (d := d) (v := v) hpos
    refine ⟨(alphaBeta v).1, upfactor d v (ngvNgd d v a b).1 (ngvNgd d v a b).2, (ngvNgd d v a b).1, (ngvNgd d v a b).2, alpha_spec hv, ?_,
      upfactor_truncation fun j => (hd j).le, fun j => by rw [hinc], fun j => by rw [hinc]⟩
    have e : (fun d v : Vec ℝ n => ∑ i, coef P (mueff (K := ℝ) P.mu) cond i * logDensity (covVD d v) (stepOf P order pc ary i)) =
        VD.logLik (fun k : Fin P.mu => ary (order (Fin.castLE P.hmu k))) cond pc := by
      funext d v
      unfold VD.logLik
      rw [Fintype.sum_option, add_comm, ← c1_spec hmu, ← cmu_spec hmu, ← CMAES.weights_spec]
      simp only [coef, stepOf]
      congr 1
      · rw [Finset.mul_sum]
        exact Finset.sum_congr rfl fun k _ => by ring
      · split_ifs
        · rfl
        · exact zero_mul _
    rw [← e]
    exact naturalGradient _ _ _ hd hv a b ha hb

/-- The adaptation satisfies the update equations. -/
theorem update_spec (hmu : 0 < P.mu) {g nf : Nat} {s t s' : State σ ℝ p n} (hV : Valid s) (hinj : (s.inj = false ∧ g = 1 ∧ s.ps = 0) ∨ (s.inj = true ∧ 1 < g))
    {X : Pop ℝ p n} (hsam : sample P s = .ok (X, t)) {ord : Equiv.Perm (Fin p)} (hu : update P nf X ord t = .ok s') :
    VD.Update g P.hmu ord (fun i j => (X i j - s.xmean j) / s.sigma) (distOf s) (distOf s') ∧ s'.diagC = diagCov s.dvec s.vvec ∧
      s'.inj = true ∧ s'.rng = t.rng ∧ s'.xold = s.xmean := by
  obtain ⟨-, r, hr, hX, ht⟩ := sample_ok hsam
  dsimp only at hX ht
  unfold update at hu
  rw [bind_ok_iff] at hu
  obtain ⟨u, hu1, hu⟩ := hu
  rw [bind_ok_iff] at hu
  obtain ⟨-, -, hu⟩ := hu
  injection hu with hu
  subst hu
  have hσ := hV.sigma
  have hary : t.ary = fun i j => (X i j - s.xmean j) / s.sigma := by
    rw [ht, hX]
    funext i j
    show r.1 i j = _
    field_simp
    ring
  have tm : t.xmean = s.xmean := by rw [ht]
  have ts : t.sigma = s.sigma := by rw [ht]
  have tps : t.ps = s.ps := by rw [ht]
  have tpc : t.pc = s.pc := by rw [ht]
  have td : t.dvec = s.dvec := by rw [ht]
  have tv : t.vvec = s.vvec := by rw [ht]
  have ti : t.inj = s.inj := by rw [ht]
  -- the step size
  have hsize : (g = 1 → u.1 = s.ps ∧ u.2.1 = s.sigma) ∧ (1 < g → ∃ hp : 1 < p,
      u.1 = 0.7 * s.ps + 0.3 * ((((ord.symm ⟨1, hp⟩).val : ℝ) - (ord.symm ⟨0, by omega⟩).val) / (p - 1)) ∧
      u.2.1 = s.sigma * Real.exp (u.1 / Real.sqrt n)) ∧ (u.2.2 = true ↔ u.1 < 1 / 2) := by
    unfold stepSize at hu1
    rw [ti, tps, ts] at hu1
    rcases hinj with ⟨h1, h2, h3⟩ | ⟨h1, h2⟩
    · rw [if_neg (by rw [h1]; simp)] at hu1
      cases hu1
      refine ⟨fun _ => ⟨rfl, rfl⟩, fun h => absurd h (by omega), ?_⟩
      dsimp only
      rw [h3]
      norm_num
    · rw [if_pos h1] at hu1
      by_cases hp : 1 < p
      · rw [dif_pos hp] at hu1
        cases hu1
        refine ⟨fun h => absurd h2 (by omega), fun _ => ⟨hp, ?_, rfl⟩, by dsimp only; rw [decide_eq_true_eq]⟩
        dsimp only
        ring
      · rw [dif_neg hp] at hu1; cases hu1
  obtain ⟨hs1, hs2, hs3⟩ := hsize
  have hrec : ∀ j, recombine P.hmu (weights P.mu) ord t.ary j =
      CMA.step (fun k : Fin P.mu => (fun i j => (X i j - s.xmean j) / s.sigma) (ord (Fin.castLE P.hmu k))) j := fun j => by
    rw [hary]; rfl
  have hadapt := adapt_spec (P := P) hmu (order := ord) (cond := u.2.2) (pc := pcNext P ord t u.2.2) (d := t.dvec) (v := t.vvec) (ary := t.ary)
    (by rw [td]; exact hV.dvec) (by rw [tv]; exact hV.vvec)
  have hsel : (fun k : Fin P.mu => t.ary (ord (Fin.castLE P.hmu k))) =
      fun k j => (X (ord (Fin.castLE P.hmu k)) j - s.xmean j) / s.sigma := by rw [hary]
  rw [hsel] at hadapt
  refine ⟨⟨fun j => ?_, hs1, hs2, fun h j => ?_, fun h j => ?_, fun h => ?_, fun h => ?_⟩, by show t.diagC = _; rw [ht], rfl, rfl, tm⟩
  · show t.xmean j + (recombine P.hmu (weights P.mu) ord X j - (∑ k, weights P.mu k) * t.xmean j) = s.xmean j + s.sigma * _
    rw [weights_sum hmu, tm, ← hrec, hary]
    unfold recombine
    rw [ArrayOps.dot_eq, ArrayOps.dot_eq, Finset.mul_sum]
    have h1 : s.xmean j = ∑ l, weights P.mu l * s.xmean j := by rw [← Finset.sum_mul, weights_sum hmu, one_mul]
    have h2 : ∑ l : Fin P.mu, s.sigma * (weights P.mu l * ((X (ord (Fin.castLE P.hmu l)) j - s.xmean j) / s.sigma)) =
        ∑ l : Fin P.mu, weights P.mu l * X (ord (Fin.castLE P.hmu l)) j - ∑ l : Fin P.mu, weights P.mu l * s.xmean j := by
      rw [← Finset.sum_sub_distrib]
      exact Finset.sum_congr rfl fun l _ => by field_simp
    rw [h2, ← h1]
    ring
  · change u.1 < 1 / 2 at h
    show pcNext P ord t u.2.2 j = (1 - CMA.cc n P.mu) * s.pc j + _
    unfold pcNext
    rw [if_pos (hs3.2 h), CMAES.cc_spec hmu, CMAES.mueff_spec hmu, tpc, hrec, mul_comm (s.pc j)]
    rfl
  · change ¬ u.1 < 1 / 2 at h
    show pcNext P ord t u.2.2 j = (1 - CMA.cc n P.mu) * s.pc j
    unfold pcNext
    rw [if_neg (mt hs3.1 h), CMAES.cc_spec hmu, tpc, add_zero, mul_comm]
  · change u.1 < 1 / 2 at h
    have hc := hs3.2 h
    rw [hc] at hadapt
    show VD.Adapt _ true (pcNext P ord t u.2.2) s.dvec s.vvec (fun j => t.dvec j + (increments P (mueff P.mu) ord u.2.2 (pcNext P ord t u.2.2)
      t.dvec t.vvec t.ary).2 j) (fun j => t.vvec j + (increments P (mueff P.mu) ord u.2.2 (pcNext P ord t u.2.2) t.dvec t.vvec t.ary).1 j)
    rw [hc, ← td, ← tv]
    exact hadapt
  · change ¬ u.1 < 1 / 2 at h
    have hc : u.2.2 = false := by
      cases hb : u.2.2
      · rfl
      · exact absurd (hs3.1 hb) h
    rw [hc] at hadapt
    show VD.Adapt _ false (pcNext P ord t u.2.2) s.dvec s.vvec (fun j => t.dvec j + (increments P (mueff P.mu) ord u.2.2 (pcNext P ord t u.2.2)
      t.dvec t.vvec t.ary).2 j) (fun j => t.vvec j + (increments P (mueff P.mu) ord u.2.2 (pcNext P ord t u.2.2) t.dvec t.vvec t.ary).1 j)
    rw [hc, ← td, ← tv]
    exact hadapt

end Stochopy.VDCMA
