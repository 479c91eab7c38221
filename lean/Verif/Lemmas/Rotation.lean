import Verif.Lemmas.CMARun
import Verif.Lemmas.EvoChain
import Verif.Spec.Rotation

/-! The state of `cmaes` turns with the coordinate system. -/

set_option linter.unusedSectionVars false

namespace Stochopy.CMAES
open Evo Spec Matrix
variable {σ τ : Type} {p n : Nat} {Q : Matrix (Fin n) (Fin n) ℝ}

theorem orthonormal_iff {B : Matrix (Fin n) (Fin n) ℝ} : Orthonormal B ↔ Bᵀ * B = 1 := by
  constructor
  · intro h
    ext i j
    rw [Matrix.one_apply]
    exact h i j
  · intro h i j
    have := congrFun (congrFun h i) j
    rw [Matrix.one_apply] at this
    exact this

/-- The parts of the state that a rotation of the problem changes in a known way. -/
structure Turned (Q : Matrix (Fin n) (Fin n) ℝ) (s : State σ ℝ n) (s' : State τ ℝ n) : Prop where
  xmean : s'.xmean = Q *ᵥ s.xmean
  pc : s'.pc = Q *ᵥ s.pc
  ps : s'.ps = Q *ᵥ s.ps
  C : s'.C = Q * s.C * Qᵀ
  sym : s.Cᵀ = s.C
  sigma : s'.sigma = s.sigma
  eigeneval : s'.eigeneval = s.eigeneval
  orth : s.Bᵀ * s.B = 1
  orth' : s'.Bᵀ * s'.B = 1
  pos : ∀ j, 0 < s.D j
  pos' : ∀ j, 0 < s'.D j
  cov : s'.B * diagonal (fun k => s'.D k ^ 2) * s'.Bᵀ = Q * (s.B * diagonal (fun k => s.D k ^ 2) * s.Bᵀ) * Qᵀ
  inv : s.invsqrtC = s.B * diagonal (fun k => 1 / s.D k) * s.Bᵀ
  inv' : s'.invsqrtC = s'.B * diagonal (fun k => 1 / s'.D k) * s'.Bᵀ

/-- The rotation of the normal numbers. -/
noncomputable def spin (Q : Matrix (Fin n) (Fin n) ℝ) (s : State σ ℝ n) (s' : State τ ℝ n) : Matrix (Fin n) (Fin n) ℝ :=
  diagonal (fun k => 1 / s'.D k) * s'.Bᵀ * Q * s.B * diagonal s.D

theorem diag_sq (d : Vec ℝ n) : diagonal (fun k => d k ^ 2) = diagonal d * diagonal d := by
  rw [diagonal_mul_diagonal]
  congr 1
  funext k
  ring

theorem diag_inv {d : Vec ℝ n} (h : ∀ k, 0 < d k) : diagonal d * diagonal (fun k => 1 / d k) = 1 := by
  rw [diagonal_mul_diagonal, ← diagonal_one]
  congr 1
  funext k
  exact mul_one_div_cancel (h k).ne'

theorem diag_inv' {d : Vec ℝ n} (h : ∀ k, 0 < d k) : diagonal (fun k => 1 / d k) * diagonal d = 1 := mul_eq_one_comm.1 (diag_inv h)

variable {s : State σ ℝ n} {s' : State τ ℝ n}

/-- The sampling axes turn with the coordinates, up to a rotation of the numbers. -/
theorem Turned.axes (h : Turned Q s s') : s'.B * diagonal s'.D * spin Q s s' = Q * (s.B * diagonal s.D) := by
  have e1 : s'.B * s'.Bᵀ = 1 := mul_eq_one_comm.1 h.orth'
  unfold spin
  calc s'.B * diagonal s'.D * (diagonal (fun k => 1 / s'.D k) * s'.Bᵀ * Q * s.B * diagonal s.D)
      = s'.B * (diagonal s'.D * diagonal (fun k => 1 / s'.D k)) * s'.Bᵀ * Q * s.B * diagonal s.D := by simp only [Matrix.mul_assoc]
    _ = Q * (s.B * diagonal s.D) := by rw [diag_inv h.pos', Matrix.mul_one, e1, Matrix.one_mul, Matrix.mul_assoc]

theorem Turned.spin_orth (h : Turned Q s s') : Orthonormal (spin Q s s') := by
  rw [orthonormal_iff, mul_eq_one_comm]
  have e : spin Q s s' * (spin Q s s')ᵀ =
      diagonal (fun k => 1 / s'.D k) * s'.Bᵀ * (Q * (s.B * diagonal (fun k => s.D k ^ 2) * s.Bᵀ) * Qᵀ) * s'.B *
        diagonal (fun k => 1 / s'.D k) := by
    unfold spin
    rw [diag_sq]
    simp only [Matrix.transpose_mul, Matrix.transpose_transpose, Matrix.diagonal_transpose, Matrix.mul_assoc]
  rw [e, ← h.cov, diag_sq]
  calc diagonal (fun k => 1 / s'.D k) * s'.Bᵀ * (s'.B * (diagonal s'.D * diagonal s'.D) * s'.Bᵀ) * s'.B * diagonal (fun k => 1 / s'.D k)
      = diagonal (fun k => 1 / s'.D k) * (s'.Bᵀ * s'.B) * diagonal s'.D * diagonal s'.D * (s'.Bᵀ * s'.B) * diagonal (fun k => 1 / s'.D k) := by
        simp only [Matrix.mul_assoc]
    _ = 1 := by
        rw [h.orth', Matrix.mul_one, Matrix.mul_one, diag_inv' h.pos', Matrix.one_mul, diag_inv h.pos']

/-- The new axes in terms of the old ones. -/
theorem Turned.entries (hQ : Qᵀ * Q = 1) (h : Turned Q s s') (i j : Fin n) :
    (s'.Bᵀ * Q * s.B) i j = 0 ∨ s'.D i = s.D j := by
  have e1 : diagonal (fun k => s'.D k ^ 2) * (s'.Bᵀ * Q * s.B) = (s'.Bᵀ * Q * s.B) * diagonal (fun k => s.D k ^ 2) := by
    have := congrArg (fun M => s'.Bᵀ * M * Q * s.B) h.cov
    calc diagonal (fun k => s'.D k ^ 2) * (s'.Bᵀ * Q * s.B)
        = s'.Bᵀ * (s'.B * diagonal (fun k => s'.D k ^ 2) * s'.Bᵀ) * Q * s.B := by
          rw [show s'.Bᵀ * (s'.B * diagonal (fun k => s'.D k ^ 2) * s'.Bᵀ) * Q * s.B =
            (s'.Bᵀ * s'.B) * diagonal (fun k => s'.D k ^ 2) * (s'.Bᵀ * Q * s.B) by simp only [Matrix.mul_assoc], h.orth', Matrix.one_mul]
      _ = s'.Bᵀ * (Q * (s.B * diagonal (fun k => s.D k ^ 2) * s.Bᵀ) * Qᵀ) * Q * s.B := this
      _ = s'.Bᵀ * Q * s.B * diagonal (fun k => s.D k ^ 2) * s.Bᵀ * (Qᵀ * Q) * s.B := by simp only [Matrix.mul_assoc]
      _ = _ := by rw [hQ, Matrix.mul_one, Matrix.mul_assoc _ s.Bᵀ s.B, h.orth, Matrix.mul_one]
  have e2 := congrFun (congrFun e1 i) j
  rw [diagonal_mul, mul_diagonal] at e2
  by_cases hM : (s'.Bᵀ * Q * s.B) i j = 0
  · exact Or.inl hM
  · right
    have : s'.D i ^ 2 = s.D j ^ 2 := mul_right_cancel₀ hM (e2.trans (mul_comm _ _))
    nlinarith [h.pos j, h.pos' i, sq_nonneg (s'.D i - s.D j), mul_self_eq_mul_self_iff.1 ((pow_two _).symm.trans (this.trans (pow_two _)))]

theorem Turned.spec_inv (hQ : Qᵀ * Q = 1) (h : Turned Q s s') : s'.invsqrtC = Q * s.invsqrtC * Qᵀ := by
  have e1 : s.B * s.Bᵀ = 1 := mul_eq_one_comm.1 h.orth
  have e1' : s'.B * s'.Bᵀ = 1 := mul_eq_one_comm.1 h.orth'
  have e2 : Q * Qᵀ = 1 := mul_eq_one_comm.1 hQ
  have e3 : diagonal (fun k => 1 / s'.D k) * (s'.Bᵀ * Q * s.B) = (s'.Bᵀ * Q * s.B) * diagonal (fun k => 1 / s.D k) := by
    ext i j
    rw [diagonal_mul, mul_diagonal]
    rcases h.entries hQ i j with e | e
    · rw [e]; ring
    · rw [e]; ring
  rw [h.inv, h.inv']
  calc s'.B * diagonal (fun k => 1 / s'.D k) * s'.Bᵀ
      = s'.B * (diagonal (fun k => 1 / s'.D k) * (s'.Bᵀ * Q * s.B)) * s.Bᵀ * Qᵀ := by
        rw [show s'.B * (diagonal (fun k => 1 / s'.D k) * (s'.Bᵀ * Q * s.B)) * s.Bᵀ * Qᵀ =
          s'.B * diagonal (fun k => 1 / s'.D k) * s'.Bᵀ * (Q * ((s.B * s.Bᵀ) * Qᵀ)) by simp only [Matrix.mul_assoc], e1, Matrix.one_mul, e2,
          Matrix.mul_one]
    _ = (s'.B * s'.Bᵀ) * Q * (s.B * diagonal (fun k => 1 / s.D k) * s.Bᵀ) * Qᵀ := by rw [e3]; simp only [Matrix.mul_assoc]
    _ = _ := by rw [e1', Matrix.one_mul]

/-- Both runs have the same lengths of axes. -/
theorem Turned.lengths (hQ : Qᵀ * Q = 1) (h : Turned Q s s') : (∀ i, ∃ j, s'.D i = s.D j) ∧ ∀ j, ∃ i, s.D j = s'.D i := by
  have e1 : s.B * s.Bᵀ = 1 := mul_eq_one_comm.1 h.orth
  have e1' : s'.B * s'.Bᵀ = 1 := mul_eq_one_comm.1 h.orth'
  have e2 : Q * Qᵀ = 1 := mul_eq_one_comm.1 hQ
  have hM : (s'.Bᵀ * Q * s.B)ᵀ * (s'.Bᵀ * Q * s.B) = 1 := by
    rw [Matrix.transpose_mul, Matrix.transpose_mul, Matrix.transpose_transpose,
      show s.Bᵀ * (Qᵀ * s'.B) * (s'.Bᵀ * Q * s.B) = s.Bᵀ * (Qᵀ * ((s'.B * s'.Bᵀ) * (Q * s.B))) by simp only [Matrix.mul_assoc], e1',
      Matrix.one_mul, ← Matrix.mul_assoc Qᵀ, hQ, Matrix.one_mul, h.orth]
  have hM' := mul_eq_one_comm.1 hM
  constructor
  · intro i
    by_contra hc
    push Not at hc
    have := congrFun (congrFun hM' i) i
    rw [Matrix.one_apply_eq, Matrix.mul_apply, Finset.sum_eq_zero fun j _ => by
      rw [(h.entries hQ i j).resolve_right (hc j), zero_mul]] at this
    exact zero_ne_one this
  · intro j
    by_contra hc
    push Not at hc
    have := congrFun (congrFun hM j) j
    rw [Matrix.one_apply_eq, Matrix.mul_apply, Finset.sum_eq_zero fun i _ => by
      rw [(h.entries hQ i j).resolve_right (hc i).symm, mul_zero]] at this
    exact zero_ne_one this

/-! ## One generation -/

/-- The points sampled with the numbers `z`. -/
noncomputable def pts (s : State σ ℝ n) (z : Fin p → Vec ℝ n) : Pop ℝ p n :=
  fun i j => s.xmean j + s.sigma * ArrayOps.dot (s.B j) fun k => s.D k * z i k

theorem pts_eq (s : State σ ℝ n) (z : Fin p → Vec ℝ n) (i : Fin p) :
    pts s z i = s.xmean + s.sigma • ((s.B * diagonal s.D) *ᵥ z i) := by
  funext j
  show s.xmean j + s.sigma * ∑ k, s.B j k * (s.D k * z i k) = s.xmean j + s.sigma * ∑ k, (s.B * diagonal s.D) j k * z i k
  simp only [mul_diagonal, mul_assoc]

theorem Turned.pts (h : Turned Q s s') (z : Fin p → Vec ℝ n) (i : Fin p) :
    CMAES.pts s' (fun i => spin Q s s' *ᵥ z i) i = Q *ᵥ CMAES.pts s z i := by
  rw [pts_eq, pts_eq, h.xmean, h.sigma, Matrix.mulVec_mulVec, h.axes, Matrix.mulVec_add, Matrix.mulVec_smul, Matrix.mulVec_mulVec]

variable {P : Par σ ℝ p n} {P' : Par τ ℝ p n}

theorem recombine_turn {mu : Nat} (hmu : mu ≤ p) (w : Vec ℝ mu) (o : Equiv.Perm (Fin p)) (X : Pop ℝ p n) :
    recombine hmu w o (fun i => Q *ᵥ X i) = Q *ᵥ recombine hmu w o X := by
  funext j
  show ∑ k, w k * ∑ l, Q j l * X (o (Fin.castLE hmu k)) l = ∑ l, Q j l * ∑ k, w k * X (o (Fin.castLE hmu k)) l
  simp only [Finset.mul_sum]
  rw [Finset.sum_comm]
  exact Finset.sum_congr rfl fun l _ => Finset.sum_congr rfl fun k _ => by ring

theorem norm_turn (hQ : Qᵀ * Q = 1) (v : Vec ℝ n) : CMAES.norm (Q *ᵥ v) = CMAES.norm v := by
  unfold CMAES.norm
  have : (Q *ᵥ v) ⬝ᵥ (Q *ᵥ v) = v ⬝ᵥ v := by
    rw [Matrix.dotProduct_mulVec, Matrix.vecMul_mulVec, hQ, Matrix.vecMul_one]
  congr 1
  show ∑ j, (Q *ᵥ v) j ^ 2 = ∑ j, v j ^ 2
  simp only [pow_two]
  exact this

theorem psNext_eq (me : ℝ) (s : State σ ℝ n) (x : Vec ℝ n) :
    psNext n me s x = (1 - cs n me) • s.ps + (NumFns.sqrt (cs n me * (2 - cs n me) * me) / s.sigma) • (s.invsqrtC *ᵥ (x - s.xmean)) := by
  funext j
  show (1 - cs n me) * s.ps j + NumFns.sqrt (cs n me * (2 - cs n me) * me) * (s.invsqrtC *ᵥ (x - s.xmean)) j / s.sigma =
    (1 - cs n me) * s.ps j + NumFns.sqrt (cs n me * (2 - cs n me) * me) / s.sigma * (s.invsqrtC *ᵥ (x - s.xmean)) j
  ring

theorem pcNext_eq (me : ℝ) (s : State σ ℝ n) (x : Vec ℝ n) (c : Bool) :
    pcNext n me s x c = (1 - cc n me) • s.pc +
      (if c then NumFns.sqrt (cc n me * (2 - cc n me) * me) / s.sigma else 0 : ℝ) • (x - s.xmean) := by
  funext j
  cases c
  · show s.pc j * (1 - cc n me) + 0 = (1 - cc n me) * s.pc j + 0 * (x j - s.xmean j)
    ring
  · show s.pc j * (1 - cc n me) + NumFns.sqrt (cc n me * (2 - cc n me) * me) * (x j - s.xmean j) / s.sigma =
      (1 - cc n me) * s.pc j + NumFns.sqrt (cc n me * (2 - cc n me) * me) / s.sigma * (x j - s.xmean j)
    ring

theorem adapt_eq (me : ℝ) (X : Pop ℝ p n) (o : Equiv.Perm (Fin p)) (xold : Vec ℝ n) (sigma : ℝ) (pc : Vec ℝ n) (c : Bool)
    (C : Matrix (Fin n) (Fin n) ℝ) :
    adapt P me X o xold sigma pc c C =
      (1 - c1 n me - cmu n me + if c then 0 else c1 n me * cc n me * (2 - cc n me)) • C +
      cmu n me • (∑ k, weights (K := ℝ) P.mu k • vecMulVec ((1 / sigma) • (X (o (Fin.castLE P.hmu k)) - xold))
        ((1 / sigma) • (X (o (Fin.castLE P.hmu k)) - xold))) + c1 n me • vecMulVec pc pc := by
  ext i j
  rw [Matrix.add_apply, Matrix.add_apply, Matrix.smul_apply, Matrix.smul_apply, Matrix.smul_apply, Matrix.sum_apply]
  show C i j * (1 - c1 n me - cmu n me) + cmu n me * ∑ k, ((X (o (Fin.castLE P.hmu k)) i - xold i) / sigma * weights P.mu k) *
    ((X (o (Fin.castLE P.hmu k)) j - xold j) / sigma) + c1 n me * (pc i * pc j) +
    (if c then 0 else c1 n me * cc n me * (2 - cc n me) * C i j) =
    (1 - c1 n me - cmu n me + if c then 0 else c1 n me * cc n me * (2 - cc n me)) * C i j +
    cmu n me * (∑ k, weights P.mu k * ((1 / sigma * (X (o (Fin.castLE P.hmu k)) i - xold i)) * (1 / sigma *
      (X (o (Fin.castLE P.hmu k)) j - xold j)))) + c1 n me * (pc i * pc j)
  have e : ∀ k : Fin P.mu, ((X (o (Fin.castLE P.hmu k)) i - xold i) / sigma * weights P.mu k) * ((X (o (Fin.castLE P.hmu k)) j - xold j) / sigma) =
      weights P.mu k * ((1 / sigma * (X (o (Fin.castLE P.hmu k)) i - xold i)) * (1 / sigma * (X (o (Fin.castLE P.hmu k)) j - xold j))) :=
    fun k => by ring
  simp only [e]
  split_ifs <;> ring

theorem turn_vecMulVec (u v : Vec ℝ n) : Q * vecMulVec u v * Qᵀ = vecMulVec (Q *ᵥ u) (Q *ᵥ v) := by
  rw [Matrix.mul_vecMulVec, Matrix.vecMulVec_mul, Matrix.vecMul_transpose]

theorem adapt_turn (hm : P'.mu = P.mu) (me : ℝ) (X : Pop ℝ p n) (o : Equiv.Perm (Fin p)) (xold : Vec ℝ n) (sigma : ℝ) (pc : Vec ℝ n)
    (c : Bool) (C : Matrix (Fin n) (Fin n) ℝ) :
    adapt P' me (fun i => Q *ᵥ X i) o (Q *ᵥ xold) sigma (Q *ᵥ pc) c (Q * C * Qᵀ) = Q * adapt P me X o xold sigma pc c C * Qᵀ := by
  obtain ⟨R', srt', eigh', mu', hmu'⟩ := P'
  dsimp only at hm
  subst hm
  rw [adapt_eq, adapt_eq]
  simp only [Matrix.mul_add, Matrix.add_mul, Matrix.mul_smul, Matrix.smul_mul, Matrix.mul_sum, Matrix.sum_mul, turn_vecMulVec,
    Matrix.mulVec_smul, Matrix.mulVec_sub]

theorem adapt_trans {me : ℝ} {X : Pop ℝ p n} {o : Equiv.Perm (Fin p)} {xold : Vec ℝ n} {sigma : ℝ} {pc : Vec ℝ n} {c : Bool}
    {C : Matrix (Fin n) (Fin n) ℝ} (h : Cᵀ = C) : (adapt P me X o xold sigma pc c C)ᵀ = adapt P me X o xold sigma pc c C := by
  ext i j
  exact (adapt_sym (fun i j => congrFun (congrFun h j) i) : Sym (adapt P me X o xold sigma pc c C)) j i

/-- The adaptation without the decomposition. -/
theorem Turned.advance (hQ : Qᵀ * Q = 1) (hm : P'.mu = P.mu) (h : Turned Q s s') (k : Nat) (X : Pop ℝ p n) (o : Equiv.Perm (Fin p)) :
    Turned Q (CMAES.advance P k X o s) (CMAES.advance P' k (fun i => Q *ᵥ X i) o s') := by
  obtain ⟨R', srt', eigh', mu', hmu'⟩ := P'
  dsimp only at hm
  subst hm
  have e1 : recombine hmu' (weights P.mu) o (fun i => Q *ᵥ X i) = Q *ᵥ recombine P.hmu (weights P.mu) o X := recombine_turn _ _ _ _
  have e2 : psNext n (mueff P.mu) s' (Q *ᵥ recombine P.hmu (weights P.mu) o X) =
      Q *ᵥ psNext n (mueff P.mu) s (recombine P.hmu (weights P.mu) o X) := by
    rw [psNext_eq, psNext_eq, h.ps, h.sigma, h.xmean, h.spec_inv hQ, ← Matrix.mulVec_sub, Matrix.mulVec_mulVec,
      Matrix.mul_assoc, hQ, Matrix.mul_one, ← Matrix.mulVec_mulVec, Matrix.mulVec_add, Matrix.mulVec_smul, Matrix.mulVec_smul]
  have e3 : ∀ v : Vec ℝ n, hsig n p (mueff P.mu) k (Q *ᵥ v) = hsig n p (mueff P.mu) k v := fun v => by
    unfold hsig
    rw [norm_turn hQ]
  have e4 : ∀ c, pcNext n (mueff P.mu) s' (Q *ᵥ recombine P.hmu (weights P.mu) o X) c =
      Q *ᵥ pcNext n (mueff P.mu) s (recombine P.hmu (weights P.mu) o X) c := fun c => by
    rw [pcNext_eq, pcNext_eq, h.pc, h.sigma, h.xmean, ← Matrix.mulVec_sub, Matrix.mulVec_add, Matrix.mulVec_smul, Matrix.mulVec_smul]
  constructor
  · exact e1
  · show pcNext n (mueff P.mu) s' (recombine hmu' (weights P.mu) o fun i => Q *ᵥ X i)
      (hsig n p (mueff P.mu) k (psNext n (mueff P.mu) s' (recombine hmu' (weights P.mu) o fun i => Q *ᵥ X i))) =
      Q *ᵥ pcNext n (mueff P.mu) s (recombine P.hmu (weights P.mu) o X)
        (hsig n p (mueff P.mu) k (psNext n (mueff P.mu) s (recombine P.hmu (weights P.mu) o X)))
    rw [e1, e2, e3, e4]
  · show psNext n (mueff P.mu) s' (recombine hmu' (weights P.mu) o fun i => Q *ᵥ X i) =
      Q *ᵥ psNext n (mueff P.mu) s (recombine P.hmu (weights P.mu) o X)
    rw [e1, e2]
  · show CMAES.adapt { R := R', srt := srt', eigh := eigh', mu := P.mu, hmu := hmu' } (mueff P.mu) (fun i => Q *ᵥ X i) o s'.xmean s'.sigma
      (pcNext n (mueff P.mu) s' (recombine hmu' (weights P.mu) o fun i => Q *ᵥ X i)
      (hsig n p (mueff P.mu) k (psNext n (mueff P.mu) s' (recombine hmu' (weights P.mu) o fun i => Q *ᵥ X i))))
      (hsig n p (mueff P.mu) k (psNext n (mueff P.mu) s' (recombine hmu' (weights P.mu) o fun i => Q *ᵥ X i))) s'.C =
      Q * CMAES.adapt P (mueff P.mu) X o s.xmean s.sigma (pcNext n (mueff P.mu) s (recombine P.hmu (weights P.mu) o X)
        (hsig n p (mueff P.mu) k (psNext n (mueff P.mu) s (recombine P.hmu (weights P.mu) o X))))
        (hsig n p (mueff P.mu) k (psNext n (mueff P.mu) s (recombine P.hmu (weights P.mu) o X))) s.C * Qᵀ
    rw [e1, e2, e3, e4, h.xmean, h.sigma, h.C]
    exact adapt_turn rfl _ X o _ _ _ _ _
  · exact adapt_trans h.sym
  · show sigmaNext n (mueff P.mu) s'.sigma (psNext n (mueff P.mu) s' (recombine hmu' (weights P.mu) o fun i => Q *ᵥ X i)) =
      sigmaNext n (mueff P.mu) s.sigma (psNext n (mueff P.mu) s (recombine P.hmu (weights P.mu) o X))
    rw [e1, e2, h.sigma]
    unfold sigmaNext
    rw [norm_turn hQ]
  · exact h.eigeneval
  · exact h.orth
  · exact h.orth'
  · exact h.pos
  · exact h.pos'
  · exact h.cov
  · exact h.inv
  · exact h.inv'

theorem mirror_id {C : Matrix (Fin n) (Fin n) ℝ} (h : Cᵀ = C) : CMAES.mirror C = C := by
  ext i j
  unfold CMAES.mirror
  split_ifs
  · rfl
  · exact congrFun (congrFun h i) j

theorem Axes.mats {E : Matrix (Fin n) (Fin n) ℝ} (h : Axes E s) :
    s.Bᵀ * s.B = 1 ∧ (∀ j, 0 < s.D j) ∧ s.B * diagonal (fun k => s.D k ^ 2) * s.Bᵀ = E ∧
      s.invsqrtC = s.B * diagonal (fun k => 1 / s.D k) * s.Bᵀ := by
  refine ⟨orthonormal_iff.1 h.orth, h.pos, ?_, ?_⟩
  · ext i j
    rw [h.dec i j, Matrix.mul_apply]
    simp only [mul_diagonal, transpose_apply]
  · ext i j
    rw [h.inv i j, Matrix.mul_apply]
    simp only [mul_diagonal, transpose_apply]

/-- The decomposition. -/
theorem Turned.diagonalize (he : IsEigh P.eigh) (he' : IsEigh P'.eigh) (hQ : Qᵀ * Q = 1) (h : Turned Q s s') {k : Nat} {t : State σ ℝ n}
    {t' : State τ ℝ n} (ht : CMAES.diagonalize P s k = .ok t) (ht' : CMAES.diagonalize P' s' k = .ok t') : Turned Q t t' := by
  obtain ⟨a1, a2, a3, a4⟩ := (Axes.diagonalize he ht).mats
  obtain ⟨b1, b2, b3, b4⟩ := (Axes.diagonalize he' ht').mats
  have hs' : s'.Cᵀ = s'.C := by
    rw [h.C, Matrix.transpose_mul, Matrix.transpose_mul, Matrix.transpose_transpose, h.sym, Matrix.mul_assoc]
  obtain ⟨-, et⟩ := diagonalize_ok ht
  obtain ⟨-, et'⟩ := diagonalize_ok ht'
  have eC : t.C = s.C := by rw [et]; exact mirror_id h.sym
  have eC' : t'.C = s'.C := by rw [et']; exact mirror_id hs'
  refine ⟨?_, ?_, ?_, ?_, ?_, ?_, ?_, a1, b1, a2, b2, ?_, a4, b4⟩
  · rw [et, et']; exact h.xmean
  · rw [et, et']; exact h.pc
  · rw [et, et']; exact h.ps
  · rw [eC, eC', h.C]
  · rw [eC, h.sym]
  · rw [et, et']; exact h.sigma
  · rw [et, et']
  · rw [a3, b3, eC, eC', h.C]

theorem Turned.update (he : IsEigh P.eigh) (he' : IsEigh P'.eigh) (hQ : Qᵀ * Q = 1) (hm : P'.mu = P.mu) (h : Turned Q s s') {k : Nat}
    {X : Pop ℝ p n} {o : Equiv.Perm (Fin p)} {t : State σ ℝ n} {t' : State τ ℝ n} (ht : CMAES.update P k X o s = .ok t)
    (ht' : CMAES.update P' k (fun i => Q *ᵥ X i) o s' = .ok t') : Turned Q t t' := by
  unfold CMAES.update at ht ht'
  rw [bind_ok_iff] at ht ht'
  obtain ⟨-, -, ht⟩ := ht
  obtain ⟨-, -, ht'⟩ := ht'
  have hA := h.advance hQ hm (P := P) (P' := P') k X o
  rw [h.eigeneval, hm] at ht'
  split_ifs at ht ht'
  · exact hA.diagonalize he he' hQ ht ht'
  · cases ht; cases ht'; exact hA

/-- The first states. -/
theorem turned_start (hQ : Qᵀ * Q = 1) {m x x' : Vec ℝ n} {sigma : ℝ} {g : σ} {g' : τ} :
    Turned Q (start m x sigma g) (start (Q *ᵥ m) x' sigma g') := by
  obtain ⟨a1, a2, a3, a4⟩ := (axes_start (m := m) (x := x) (sigma := sigma) (g := g)).mats
  obtain ⟨b1, b2, b3, b4⟩ := (axes_start (m := Q *ᵥ m) (x := x') (sigma := sigma) (g := g')).mats
  have e2 : Q * Qᵀ = 1 := mul_eq_one_comm.1 hQ
  refine ⟨rfl, (Matrix.mulVec_zero Q).symm, (Matrix.mulVec_zero Q).symm, ?_, Matrix.transpose_one, rfl, rfl, a1, b1, a2, b2, ?_, a4, b4⟩
  · show (1 : Matrix (Fin n) (Fin n) ℝ) = Q * 1 * Qᵀ
    rw [Matrix.mul_one, e2]
  · rw [a3, b3, Matrix.mul_one, e2]

end Stochopy.CMAES
