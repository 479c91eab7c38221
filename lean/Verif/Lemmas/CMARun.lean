import Verif.Lemmas.CMAES
import Verif.Lemmas.StopRules

/-! The states of `cmaes` follow the update equations. -/

set_option linter.unusedSectionVars false

namespace Stochopy.CMAES
open Evo Spec
variable {σ : Type} {p n : Nat} {P : Par σ ℝ p n}

/-- The distribution of a state. -/
def distOf (s : State σ ℝ n) : CMA.Dist n :=
  { m := s.xmean, sigma := s.sigma, C := s.C, ps := s.ps, pc := s.pc
    E := fun i j => ∑ k, s.B i k * s.D k ^ 2 * s.B j k
    e := s.eigeneval }

/-- The axes of a state. -/
def axesOf (s : State σ ℝ n) : Matrix (Fin n) (Fin n) ℝ := fun i j => s.B i j * s.D j

/-- What is known of the state after `nfev` evaluations. -/
structure Good (mu nfev : Nat) (s : State σ ℝ n) : Prop where
  valid : Valid mu s
  axes : Axes (distOf s).E s
  sorted : ∀ i j, i ≤ j → s.D i ≤ s.D j
  time : s.eigeneval ≤ nfev

theorem distOf_of_axes {s : State σ ℝ n} {E : Matrix (Fin n) (Fin n) ℝ} (h : Axes E s) : (distOf s).E = E := by
  funext i j
  exact (h.dec i j).symm

theorem good_start {m x : Vec ℝ n} {sigma : ℝ} {g : σ} (hs : 0 < sigma) (mu : Nat) : Good mu 0 (start m x sigma g) where
  valid := valid_start hs mu
  axes := by rw [distOf_of_axes axes_start]; exact axes_start
  sorted _ _ _ := le_refl _
  time := le_refl _

theorem start_dist {m x : Vec ℝ n} {sigma : ℝ} {g : σ} : CMA.Start sigma (distOf (start m x sigma g)) :=
  ⟨rfl, rfl, rfl, rfl, distOf_of_axes axes_start, rfl⟩

theorem diagonalize_sorted (hs : IsArgsort P.srt) {s s' : State σ ℝ n} {k : Nat} (h : diagonalize P s k = .ok s') :
    ∀ i j, i ≤ j → s'.D i ≤ s'.D j := by
  obtain ⟨-, e⟩ := diagonalize_ok h
  intro i j hij
  rw [e]
  refine Real.sqrt_le_sqrt ?_
  rcases hs n (fun i => .fin ((P.eigh n (mirror s.C)).1 i)) i j hij with h | h
  · cases h
  · exact h

section parameters
variable {mu : Nat}

theorem weights_spec : (weights (K := ℝ) mu) = CMA.w mu := rfl
theorem mueff_spec (h : 0 < mu) : mueff (K := ℝ) mu = CMA.mueff mu := mueff_eq h
theorem cs_spec (h : 0 < mu) : cs n (mueff (K := ℝ) mu) = CMA.cs n mu := by rw [mueff_spec h]; rfl
theorem cc_spec (h : 0 < mu) : cc n (mueff (K := ℝ) mu) = CMA.cc n mu := by rw [mueff_spec h]; rfl
theorem c1_spec (h : 0 < mu) : c1 n (mueff (K := ℝ) mu) = CMA.c1 n mu := by
  rw [mueff_spec h]; unfold c1 CMA.c1; norm_num
theorem cmu_spec (h : 0 < mu) : cmu n (mueff (K := ℝ) mu) = CMA.cmu n mu := by
  unfold cmu CMA.cmu; rw [c1_spec h, mueff_spec h]
theorem damps_spec (h : 0 < mu) : damps n (mueff (K := ℝ) mu) = CMA.damps n mu := by
  unfold damps CMA.damps; rw [cs_spec h, mueff_spec h]; rfl
theorem chind_spec : chind (K := ℝ) n = CMA.chi n := rfl
theorem norm_spec (v : Vec ℝ n) : norm v = CMA.len v := rfl

end parameters

theorem hsig_spec (hn : 0 < n) (hp : 0 < p) (hmu : 0 < P.mu) (g : Nat) (ps : Vec ℝ n) :
    hsig n p (mueff (K := ℝ) P.mu) (g * p) ps = true ↔ CMA.Short P.mu g ps := by
  unfold hsig CMA.Short
  rw [decide_eq_true_eq, cs_spec hmu, chind_spec, norm_spec, show 2 * (g * p) / p = 2 * g by
    rw [← mul_assoc, Nat.mul_div_cancel _ hp], div_lt_iff₀ (by rw [← chind_spec]; exact chind_pos hn)]
  norm_num
  rfl

/-- The symmetric root of the sampling covariance. -/
theorem Axes.root {E : Matrix (Fin n) (Fin n) ℝ} {s : State σ ℝ n} (h : Axes E s) :
    ∃ S : Matrix (Fin n) (Fin n) ℝ, Sym S ∧ PosDef S ∧ S * S = E ∧ S * s.invsqrtC = 1 := by
  have hB : s.B.transpose * s.B = 1 := by
    ext i j
    rw [Matrix.mul_apply, Matrix.one_apply]
    exact h.orth i j
  have hB' : s.B * s.B.transpose = 1 := mul_eq_one_comm.1 hB
  have hinv : s.invsqrtC = s.B * Matrix.diagonal (fun k => 1 / s.D k) * s.B.transpose := by
    ext i j
    rw [h.inv, Matrix.mul_apply]
    refine Finset.sum_congr rfl fun k _ => ?_
    rw [Matrix.mul_diagonal, Matrix.transpose_apply]
  have hE : E = s.B * Matrix.diagonal (fun k => s.D k * s.D k) * s.B.transpose := by
    ext i j
    rw [h.dec, Matrix.mul_apply]
    refine Finset.sum_congr rfl fun k _ => ?_
    rw [Matrix.mul_diagonal, Matrix.transpose_apply]
    exact congrArg (fun x => s.B i k * x * s.B j k) (sq (s.D k))
  have conj : ∀ d e : Vec ℝ n, s.B * Matrix.diagonal d * s.B.transpose * (s.B * Matrix.diagonal e * s.B.transpose) =
      s.B * Matrix.diagonal (fun k => d k * e k) * s.B.transpose := fun d e => by
    calc _ = s.B * Matrix.diagonal d * (s.B.transpose * s.B) * Matrix.diagonal e * s.B.transpose := by
          simp only [Matrix.mul_assoc]
      _ = _ := by rw [hB, Matrix.mul_one, Matrix.mul_assoc s.B, Matrix.diagonal_mul_diagonal]
  have hSij : ∀ i j, (s.B * Matrix.diagonal s.D * s.B.transpose) i j = ∑ k, s.B i k * s.D k * s.B j k := fun i j => by
    rw [Matrix.mul_apply]
    refine Finset.sum_congr rfl fun k _ => ?_
    rw [Matrix.mul_diagonal, Matrix.transpose_apply]
  refine ⟨s.B * Matrix.diagonal s.D * s.B.transpose, fun i j => ?_, fun x hx => ?_, ?_, ?_⟩
  · rw [hSij, hSij]
    exact Finset.sum_congr rfl fun k _ => by ring
  · have hq : quad (s.B * Matrix.diagonal s.D * s.B.transpose) x = ∑ k, s.D k * (∑ i, x i * s.B i k) ^ 2 := by
      have e1 : (s.B * Matrix.diagonal s.D * s.B.transpose) = fun i j => ∑ k, s.D k * (s.B i k * s.B j k) := by
        funext i j
        rw [hSij]
        exact Finset.sum_congr rfl fun k _ => by ring
      rw [e1, quad_sum Finset.univ fun k => fun i j => s.D k * (s.B i k * s.B j k)]
      refine Finset.sum_congr rfl fun k _ => ?_
      rw [quad_smul (s.D k) fun i j => s.B i k * s.B j k, quad_outer fun i => s.B i k]
    rw [hq]
    have hne : ∃ k, ∑ i, x i * s.B i k ≠ 0 := by
      by_contra hc
      push Not at hc
      obtain ⟨i, hi⟩ := hx
      refine hi ?_
      have h1 : s.B.transpose.mulVec x = 0 := funext fun k => by
        refine Eq.trans ?_ (hc k)
        simp only [Matrix.mulVec, dotProduct, Matrix.transpose_apply]
        exact Finset.sum_congr rfl fun i _ => mul_comm _ _
      have h2 : x = (s.B * s.B.transpose).mulVec x := by rw [hB', Matrix.one_mulVec]
      rw [h2, ← Matrix.mulVec_mulVec, h1, Matrix.mulVec_zero]
      rfl
    obtain ⟨k, hk⟩ := hne
    exact Finset.sum_pos' (fun k _ => mul_nonneg (h.pos k).le (sq_nonneg _))
      ⟨k, Finset.mem_univ k, mul_pos (h.pos k) (by positivity)⟩
  · rw [conj, hE]
  · rw [hinv, conj]
    have : (fun k => s.D k * (1 / s.D k)) = fun _ => 1 := funext fun k => by
      have := (h.pos k).ne'
      field_simp
    rw [this, Matrix.diagonal_one, Matrix.mul_one, hB']

/-- The adaptation satisfies the update equations. -/
theorem update_spec (hn : 0 < n) (hp : 0 < p) (hmu : 0 < P.mu) (he : IsEigh P.eigh) (hs : IsArgsort P.srt) {s s' : State σ ℝ n} {k : Nat}
    (hg : Good P.mu (k * p) s) {X : Pop ℝ p n} {ord : Equiv.Perm (Fin p)} (hu : update P ((k + 1) * p) X ord s = .ok s') :
    Good P.mu ((k + 1) * p) s' ∧
    CMA.Update p (k + 1) (fun (l : Fin P.mu) j => (X (ord (Fin.castLE P.hmu l)) j - s.xmean j) / s.sigma) (distOf s) (distOf s') := by
  have hσ := hg.valid.sigma
  have hVa := hg.valid.advance hn hmu ((k + 1) * p) X ord
  have hV' := hg.valid.update hn hmu hu
  have hle : s.eigeneval ≤ (k + 1) * p := hg.time.trans (Nat.mul_le_mul_right p (Nat.le_succ k))
  have hcast : (((k + 1) * p - s.eigeneval : Nat) : ℝ) = ((k + 1 : Nat) : ℝ) * p - s.eigeneval := by
    rw [Nat.cast_sub hle]; push_cast; ring
  set sel : Fin P.mu → Vec ℝ n := fun l j => (X (ord (Fin.castLE P.hmu l)) j - s.xmean j) / s.sigma with hsel
  set A := advance P ((k + 1) * p) X ord s with hA
  -- the branch
  have hbr : ((p : ℝ) / (CMA.c1 n P.mu + CMA.cmu n P.mu) / n / 10 < ((k + 1 : Nat) : ℝ) * p - s.eigeneval ∧
        diagonalize P A ((k + 1) * p) = .ok s') ∨
      (¬ (p : ℝ) / (CMA.c1 n P.mu + CMA.cmu n P.mu) / n / 10 < ((k + 1 : Nat) : ℝ) * p - s.eigeneval ∧ s' = A) := by
    unfold update at hu
    dsimp only at hu
    rw [bind_ok_iff] at hu
    obtain ⟨-, -, hu⟩ := hu
    rw [hcast, c1_spec hmu, cmu_spec hmu] at hu
    by_cases hc : (p : ℝ) / (CMA.c1 n P.mu + CMA.cmu n P.mu) / n / 10 < ((k + 1 : Nat) : ℝ) * p - s.eigeneval
    · rw [if_pos hc] at hu; exact Or.inl ⟨hc, hu⟩
    · rw [if_neg hc] at hu; exact Or.inr ⟨hc, (Except.ok.inj hu).symm⟩
  have hfields : s'.xmean = A.xmean ∧ s'.sigma = A.sigma ∧ s'.C = A.C ∧ s'.ps = A.ps ∧ s'.pc = A.pc := by
    rcases hbr with ⟨-, h⟩ | ⟨-, h⟩
    · obtain ⟨-, e⟩ := diagonalize_ok h
      have hC : s'.C = A.C := by rw [e]; exact mirror_of_sym hVa.sym
      exact ⟨by rw [e], by rw [e], hC, by rw [e], by rw [e]⟩
    · rw [h]; exact ⟨rfl, rfl, rfl, rfl, rfl⟩
  obtain ⟨f1, f2, f3, f4, f5⟩ := hfields
  have hstep : ∀ j, A.xmean j = s.xmean j + s.sigma * CMA.step sel j := fun j => by
    show recombine P.hmu (weights P.mu) ord X j = _
    unfold recombine CMA.step
    rw [Finset.mul_sum, ← weights_spec]
    have h1 : s.xmean j = ∑ l, weights P.mu l * s.xmean j := by rw [← Finset.sum_mul, weights_sum hmu, one_mul]
    rw [h1, ← Finset.sum_add_distrib]
    refine Finset.sum_congr rfl fun l _ => ?_
    rw [hsel]
    field_simp
    ring
  have hdiff : ∀ j, (A.xmean j - s.xmean j) / s.sigma = CMA.step sel j := fun j => by
    rw [hstep]; field_simp; ring
  have hpsE : A.ps = psNext n (mueff P.mu) s A.xmean := rfl
  have hcond : hsig n p (mueff (K := ℝ) P.mu) ((k + 1) * p) A.ps = true ↔ CMA.Short P.mu (k + 1) A.ps := hsig_spec hn hp hmu _ _
  have hpcE : A.pc = pcNext n (mueff P.mu) s A.xmean (hsig n p (mueff (K := ℝ) P.mu) ((k + 1) * p) A.ps) := rfl
  have hCE : A.C = adapt P (mueff P.mu) X ord s.xmean s.sigma A.pc (hsig n p (mueff (K := ℝ) P.mu) ((k + 1) * p) A.ps) s.C := rfl
  have hCsum : ∀ i j, ∑ l, (X (ord (Fin.castLE P.hmu l)) i - s.xmean i) / s.sigma * weights (K := ℝ) P.mu l *
      ((X (ord (Fin.castLE P.hmu l)) j - s.xmean j) / s.sigma) = ∑ l, CMA.w P.mu l * (sel l i * sel l j) := fun i j =>
    Finset.sum_congr rfl fun l _ => by rw [weights_spec, hsel]; ring
  refine ⟨⟨hV', ?_, ?_, ?_⟩, ⟨fun j => ?_, ?_, fun hS j => ?_, fun hS j => ?_, fun hS i j => ?_, fun hS i j => ?_, ?_, fun hf => ?_, fun hf => ?_⟩⟩
  · rcases hbr with ⟨-, h⟩ | ⟨-, h⟩
    · have := Axes.diagonalize he h
      rw [distOf_of_axes this]; exact this
    · rw [h]; exact ⟨hg.axes.orth, hg.axes.pos, hg.axes.dec, hg.axes.inv⟩
  · rcases hbr with ⟨-, h⟩ | ⟨-, h⟩
    · exact diagonalize_sorted hs h
    · rw [h]; exact hg.sorted
  · rcases hbr with ⟨-, h⟩ | ⟨-, h⟩
    · obtain ⟨-, e⟩ := diagonalize_ok h
      rw [e]
    · rw [h]; exact hle
  · show s'.xmean j = _
    rw [f1]; exact hstep j
  · obtain ⟨S, s1, s2, s3, s4⟩ := hg.axes.root
    refine ⟨S, s1, s2, s3, s.invsqrtC.mulVec (CMA.step sel), by rw [Matrix.mulVec_mulVec, s4, Matrix.one_mulVec], fun j => ?_⟩
    show s'.ps j = (1 - CMA.cs n P.mu) * s.ps j + _
    rw [f4, hpsE]
    unfold psNext
    rw [cs_spec hmu, mueff_spec hmu, mul_div_assoc]
    congr 2
    simp only [Matrix.mulVec, dotProduct, ArrayOps.dot_eq, Finset.sum_div]
    refine Finset.sum_congr rfl fun l _ => ?_
    rw [mul_div_assoc, hdiff]
  · change CMA.Short P.mu (k + 1) s'.ps at hS
    show s'.pc j = (1 - CMA.cc n P.mu) * s.pc j + _
    rw [f4] at hS
    rw [f5, hpcE, hcond.2 hS]
    unfold pcNext
    rw [if_pos rfl, cc_spec hmu, mueff_spec hmu, mul_div_assoc, hdiff, mul_comm (s.pc j)]
    rfl
  · change ¬ CMA.Short P.mu (k + 1) s'.ps at hS
    show s'.pc j = (1 - CMA.cc n P.mu) * s.pc j
    rw [f4] at hS
    rw [f5, hpcE]
    unfold pcNext
    rw [if_neg (mt hcond.1 hS), cc_spec hmu, add_zero, mul_comm]
  · change CMA.Short P.mu (k + 1) s'.ps at hS
    show s'.C i j = (1 - CMA.c1 n P.mu - CMA.cmu n P.mu) * s.C i j + CMA.c1 n P.mu * (s'.pc i * s'.pc j) + _
    rw [f4] at hS
    rw [f3, f5, hCE, hcond.2 hS]
    unfold adapt
    dsimp only
    rw [ArrayOps.dot_eq, hCsum, if_pos rfl, c1_spec hmu, cmu_spec hmu]
    ring
  · change ¬ CMA.Short P.mu (k + 1) s'.ps at hS
    show s'.C i j = (1 - CMA.c1 n P.mu - CMA.cmu n P.mu) * s.C i j +
      CMA.c1 n P.mu * (s'.pc i * s'.pc j + CMA.cc n P.mu * (2 - CMA.cc n P.mu) * s.C i j) + _
    rw [f4] at hS
    rw [f3, f5, hCE]
    unfold adapt
    dsimp only
    rw [ArrayOps.dot_eq, hCsum, if_neg (mt hcond.1 hS), c1_spec hmu, cmu_spec hmu, cc_spec hmu]
    ring
  · show s'.sigma = s.sigma * Real.exp (_ * (CMA.len s'.ps / _ - 1))
    rw [f2, f4]
    show sigmaNext n (mueff P.mu) s.sigma A.ps = _
    unfold sigmaNext
    rw [cs_spec hmu, damps_spec hmu, chind_spec, norm_spec]
    rfl
  · change (p : ℝ) / (CMA.c1 n P.mu + CMA.cmu n P.mu) / n / 10 < ((k + 1 : Nat) : ℝ) * p - s.eigeneval at hf
    rcases hbr with ⟨-, h⟩ | ⟨hc, -⟩
    · refine ⟨distOf_of_axes (Axes.diagonalize he h), ?_⟩
      obtain ⟨-, e⟩ := diagonalize_ok h
      show s'.eigeneval = _
      rw [e]
    · exact absurd hf hc
  · change ¬ (p : ℝ) / (CMA.c1 n P.mu + CMA.cmu n P.mu) / n / 10 < ((k + 1 : Nat) : ℝ) * p - s.eigeneval at hf
    rcases hbr with ⟨hc, -⟩ | ⟨-, h⟩
    · exact absurd hc hf
    · rw [h]; exact ⟨rfl, rfl⟩

theorem axes_spec {mu k : Nat} {s : State σ ℝ n} (h : Good mu k s) : CMA.Axes (distOf s).E (axesOf s) := by
  have ho : ∀ i j, ∑ l, axesOf s l i * axesOf s l j = if i = j then s.D i * s.D j else 0 := fun i j => by
    have := h.axes.orth i j
    calc ∑ l, axesOf s l i * axesOf s l j = s.D i * s.D j * ∑ l, s.B l i * s.B l j := by
          rw [Finset.mul_sum]; exact Finset.sum_congr rfl fun l _ => by unfold axesOf; ring
      _ = _ := by rw [this]; split_ifs <;> simp
  refine ⟨?_, fun i j hij => by rw [ho, if_neg hij], fun i j hij => ?_⟩
  · ext i j
    rw [Matrix.mul_apply]
    refine Finset.sum_congr rfl fun k _ => ?_
    rw [Matrix.transpose_apply]
    unfold axesOf
    ring
  · have e : ∀ i, ∑ l, axesOf s l i ^ 2 = s.D i ^ 2 := fun i => by
      have := ho i i
      rw [if_pos rfl] at this
      rw [sq (s.D i), ← this]
      exact Finset.sum_congr rfl fun l _ => sq _
    rw [e, e]
    exact pow_le_pow_left₀ (h.axes.pos i).le (h.sorted i j hij) 2

end Stochopy.CMAES
