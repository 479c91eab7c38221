import Verif.Lemmas.Gauss
import Verif.Lemmas.EvoPen
import Verif.Lemmas.EvoTotal
import Mathlib.LinearAlgebra.Matrix.NonsingularInverse
import Mathlib.Analysis.Matrix.Spectrum

/-! `cmaes`: totality and the decomposition of the covariance matrix. -/

set_option linter.unusedSectionVars false

namespace Stochopy
open Evo Spec

/-- A function with the properties assumed of `np.linalg.eigh` exists over the reals. -/
theorem exists_isEigh : ∃ eigh : CMAES.Eigh ℝ, IsEigh eigh := by
  classical
  have h : ∀ (n : Nat) (C : Matrix (Fin n) (Fin n) ℝ), ∃ r : Vec ℝ n × Matrix (Fin n) (Fin n) ℝ,
      Sym C → Orthonormal r.2 ∧ Decomposes r.2 r.1 C := by
    intro n C
    by_cases hC : Sym C
    · have hH : C.IsHermitian := by
        ext i j
        simp [Matrix.conjTranspose_apply, hC j i]
      refine ⟨(hH.eigenvalues, (hH.eigenvectorUnitary : Matrix (Fin n) (Fin n) ℝ)), fun _ => ⟨fun i j => ?_, fun i j => ?_⟩⟩
      · have := congrFun (congrFun (Matrix.mem_unitaryGroup_iff'.1 hH.eigenvectorUnitary.2) i) j
        rw [Matrix.mul_apply, Matrix.one_apply] at this
        simpa [Matrix.star_apply] using this
      · have := congrFun (congrFun hH.spectral_theorem i) j
        rw [this]
        simp [Unitary.conjStarAlgAut_apply, Matrix.mul_apply, Matrix.diagonal_apply, Matrix.star_apply]
    · exact ⟨(fun _ => 0, 0), fun h => absurd h hC⟩
  choose f hf using h
  exact ⟨f, fun n C hC => hf n C hC⟩

namespace CMAES
variable {K σ : Type} [Field K] [LinearOrder K] [IsStrictOrderedRing K] [NumFns K] [LawfulNumFns K] [FloorRing K] {p n : Nat}
  {P : Par σ K p n}

theorem hsig_pos {me : K} (hm : 1 ≤ me) {k : Nat} (hk : 0 < k) : 0 < 1 - (1 - cs n me) ^ k := by
  have h1 := cs_pos (n := n) hm
  have h2 := cs_lt_one (n := n) hm
  have := pow_lt_one₀ (by linarith : (0 : K) ≤ 1 - cs n me) (by linarith) hk.ne'
  linarith

/-- The adaptation does not fail while the covariance matrix is positive definite. -/
theorem update_total (he : IsEigh P.eigh) (hn : 0 < n) (hmu : 0 < P.mu)
    (hlt : c1 n (mueff (K := K) P.mu) + cmu n (mueff P.mu) < 1) {s : State σ K n} (h : Valid P.mu s) {k : Nat} (hk : 0 < 2 * k / p)
    (X : Pop K p n) (ord : Equiv.Perm (Fin p)) : ∃ s', update P k X ord s = .ok s' := by
  unfold update
  dsimp only
  rw [need_true ⟨h.sigma, hsig_pos (one_le_mueff hmu) hk⟩, ok_bind']
  split_ifs
  · have ha := h.advance hn hmu k X ord
    have hs := mirror_of_sym ha.sym
    obtain ⟨hB, hD⟩ := he n _ ha.sym
    have hpos := eigenvalue_pos hB hD (ha.pos hlt)
    unfold diagonalize
    dsimp only
    rw [hs, need_true fun j => hpos _, ok_bind']
    exact ⟨_, rfl⟩
  · exact ⟨_, rfl⟩

/-- No part of an iteration fails. -/
theorem no_fail {Q : Evo.Par K n} {c : Cfg} {m x : Vec K n} {sigma : K} {g : σ} {fn : Vec K n → Val K} (hobj : Q.obj.Faithful fn)
    (hsrt : IsArgsort Q.srt) (hf : Q.penalized = true → FiniteValued fn) (hme : 0 < Q.mueff) (he : IsEigh P.eigh) (hn : 0 < n)
    (hp : 0 < p) (hmu : 0 < P.mu) (hlt : c1 n (mueff (K := K) P.mu) + cmu n (mueff P.mu) < 1) (hs : 0 < sigma)
    {L : St (State σ K n) K p n} (h : Reach Q (gauss P) c (start m x sigma g) L) {e : PyErr} : ¬ PartFails Q (gauss P) L e := by
  have hV := reach_valid hn hmu hs h
  rintro (hs | ⟨a, ha, hr⟩)
  · cases hs
  obtain ⟨g', hg⟩ := sample_ok ha
  have hVa : Valid P.mu a.2 := by rw [hg]; exact ⟨hV.sym, hV.semi, hV.pos, hV.sigma⟩
  rcases hr with hr | ⟨r, -, hr⟩
  · cases hpen : Q.penalized with
    | true =>
      rw [evaluate_pen hpen] at hr
      obtain ⟨r, e⟩ := penalize_total (srt := Q.srt) (fit := fun X => Q.obj.pop fun i => unstandardize Q.lower Q.upper (X i))
        (arx := a.1) (xmean := a.2.xmean) (xold := a.2.xold) (me := Q.mueff) (it := L.it + 1) (diagC := fun j => a.2.C j j)
        hsrt hn hp hVa.sigma hme (hVa.pos hlt).diag (fit_fin hobj (hf hpen)) (reach_penInv hsrt h).nonempty
        (reach_penFin hobj (hf hpen) hsrt h)
      change penalize Q.srt _ a.1 a.2.xmean a.2.xold a.2.sigma (fun j => a.2.C j j) Q.mueff (L.it + 1) L.pen = _ at hr
      rw [e] at hr
      cases hr
    | false => rw [evaluate_free hpen] at hr; cases hr
  · have hk : 0 < 2 * (L.nfev + p) / p := Nat.div_pos (by omega) hp
    obtain ⟨s', hs'⟩ := update_total he hn hmu hlt hVa hk a.1 (Q.srt p r.1)
    rcases hr with hr | ⟨s, hs, ⟨j, hj⟩, -⟩
    · rw [show (gauss P).update = update P from rfl, hs'] at hr; cases hr
    · have := (hVa.update hn hmu hs).semi.diag j
      exact absurd hj (not_lt.2 this)

end CMAES

/-! ## The sampling distribution -/

namespace CMAES
variable {σ : Type} {p n : Nat} {P : Par σ ℝ p n}

/-- `B diag(D)² Bᵀ = C0` with orthonormal `B` and positive `D`, and `invsqrtC` is the inverse square root of `C0`. -/
structure Axes (C0 : Matrix (Fin n) (Fin n) ℝ) (s : State σ ℝ n) : Prop where
  orth : Orthonormal s.B
  pos : ∀ k, 0 < s.D k
  dec : Decomposes s.B (fun k => s.D k ^ 2) C0
  inv : ∀ i j, s.invsqrtC i j = ∑ k, s.B i k * (1 / s.D k) * s.B j k

theorem axes_start {m x : Vec ℝ n} {sigma : ℝ} {g : σ} : Axes 1 (start m x sigma g) where
  orth i j := by
    simp only [start, Matrix.one_apply, mul_ite, mul_one, mul_zero, Finset.sum_ite_eq', Finset.mem_univ, if_true]
    exact if_congr eq_comm rfl rfl
  pos _ := one_pos
  dec i j := by simp [start, Matrix.one_apply]
  inv i j := by simp [start, Matrix.one_apply]

theorem Axes.diagonalize (he : IsEigh P.eigh) {s s' : State σ ℝ n} {k : Nat} (h : diagonalize P s k = .ok s') :
    Axes s'.C s' := by
  obtain ⟨hpos, e⟩ := diagonalize_ok h
  obtain ⟨hB, hD⟩ := he n _ (mirror_sym s.C)
  have h1 := hB.perm (P.srt n fun i => .fin ((P.eigh n (mirror s.C)).1 i))
  have h2 := hD.perm (P.srt n fun i => .fin ((P.eigh n (mirror s.C)).1 i))
  rw [e]
  refine ⟨h1, fun k => LawfulNumFns.sqrt_pos _ (hpos _), fun i j => ?_, fun i j => rfl⟩
  refine (h2 i j).trans (Finset.sum_congr rfl fun l _ => ?_)
  show _ = _ * (Real.sqrt _) ^ 2 * _
  rw [Real.sq_sqrt (hpos _).le]

/-- The factors decompose the covariance matrix of the last diagonalisation, which is not older than the documented
interval. -/
theorem reach_axes {Q : Evo.Par ℝ n} {c : Cfg} {m x : Vec ℝ n} {sigma : ℝ} {g : σ} (he : IsEigh P.eigh) (hn : 0 < n)
    (hmu : 0 < P.mu) {L : St (State σ ℝ n) ℝ p n} (h : Reach Q (gauss P) c (start m x sigma g) L) :
    ∃ L0, Reach Q (gauss P) c (start m x sigma g) L0 ∧ L0.nfev = L.s.eigeneval ∧ L.s.eigeneval ≤ L.nfev ∧
      (((L.nfev - L.s.eigeneval : Nat) : ℝ) ≤ (p : ℝ) / (c1 n (mueff P.mu) + cmu n (mueff P.mu)) / (n : ℝ) / 10 ∨ L.nfev = 0) ∧
      Axes L0.s.C L.s := by
  induction h with
  | start => exact ⟨_, Reach.start, rfl, le_refl _, Or.inr rfl, axes_start⟩
  | @step L r hL hb ih =>
    have hr := Reach.step hL hb
    obtain ⟨L0, r0, e0, hle, -, hA⟩ := ih
    obtain ⟨hp, a, e, rows, s, h1, h2, h3, hm, h4, h5, hre⟩ := body_ok hb
    obtain ⟨g', hg⟩ := sample_ok h1
    have hs : r.1.s = s := by rw [hre]; rfl
    have hnf : r.1.nfev = L.nfev + p := by rw [hre]; rfl
    have hge : a.2.eigeneval = L.s.eigeneval := by rw [hg]
    change update P _ _ _ a.2 = _ at h4
    unfold update at h4
    rw [bind_ok_iff] at h4
    obtain ⟨u, -, h4⟩ := h4
    dsimp only at h4
    split_ifs at h4 with hc
    · refine ⟨r.1, hr, ?_, ?_, ?_, ?_⟩
      · rw [hs, hnf, (diagonalize_ok h4).2]
      · rw [hs, hnf, (diagonalize_ok h4).2]
      · left
        have : r.1.nfev - r.1.s.eigeneval = 0 := by rw [hs, hnf, (diagonalize_ok h4).2]; simp
        rw [this, Nat.cast_zero]
        have h1 := c1_pos (n := n) (one_le_mueff (K := ℝ) hmu)
        have h2 := cmu_nonneg hn (one_le_mueff (K := ℝ) hmu)
        positivity
      · rw [hs]; exact Axes.diagonalize he h4
    · have h4' : s = advance P (L.nfev + p) a.1 (Q.srt p e.1) a.2 := by
        have : Except.ok (advance P (L.nfev + p) a.1 (Q.srt p e.1) a.2) = (Except.ok s : Except PyErr _) := h4
        injection this with this
        exact this.symm
      have hee : r.1.s.eigeneval = L.s.eigeneval := by rw [hs, h4', ← hge]; rfl
      refine ⟨L0, r0, ?_, ?_, ?_, ?_⟩
      · rw [hee]; exact e0
      · rw [hee, hnf]; omega
      · left
        rw [hee, hnf, ← hge]
        exact not_lt.1 hc
      · have hB : r.1.s.B = L.s.B := by rw [hs, h4']; show a.2.B = _; rw [hg]
        have hD : r.1.s.D = L.s.D := by rw [hs, h4']; show a.2.D = _; rw [hg]
        have hI : r.1.s.invsqrtC = L.s.invsqrtC := by rw [hs, h4']; show a.2.invsqrtC = _; rw [hg]
        exact ⟨by rw [hB]; exact hA.orth, by rw [hD]; exact hA.pos, by rw [hB, hD]; exact hA.dec,
          by rw [hB, hD, hI]; exact hA.inv⟩

/-- `invsqrtC · C0 · invsqrtC = 1`. -/
theorem Axes.whitens {C0 : Matrix (Fin n) (Fin n) ℝ} {s : State σ ℝ n} (h : Axes C0 s) : s.invsqrtC * C0 * s.invsqrtC = 1 := by
  have hB : s.B.transpose * s.B = 1 := by
    ext i j
    rw [Matrix.mul_apply, Matrix.one_apply, ← h.orth i j]
    rfl
  have hB' : s.B * s.B.transpose = 1 := mul_eq_one_comm.1 hB
  have hC : C0 = s.B * Matrix.diagonal (fun k => s.D k ^ 2) * s.B.transpose := by
    ext i j
    rw [h.dec i j, Matrix.mul_apply]
    refine Finset.sum_congr rfl fun k _ => ?_
    rw [Matrix.mul_diagonal, Matrix.transpose_apply]
  have hI : s.invsqrtC = s.B * Matrix.diagonal (fun k => 1 / s.D k) * s.B.transpose := by
    ext i j
    rw [h.inv i j, Matrix.mul_apply]
    refine Finset.sum_congr rfl fun k _ => ?_
    rw [Matrix.mul_diagonal, Matrix.transpose_apply]
  rw [hI, hC]
  calc _ = s.B * (Matrix.diagonal (fun k => 1 / s.D k) * (s.B.transpose * s.B) * Matrix.diagonal (fun k => s.D k ^ 2) *
        (s.B.transpose * s.B) * Matrix.diagonal (fun k => 1 / s.D k)) * s.B.transpose := by
        simp only [Matrix.mul_assoc]
    _ = s.B * s.B.transpose := by
      rw [hB, Matrix.mul_one, Matrix.mul_one, Matrix.diagonal_mul_diagonal, Matrix.diagonal_mul_diagonal]
      have : (fun k => 1 / s.D k * s.D k ^ 2 * (1 / s.D k)) = fun _ => 1 := by
        funext k
        have := (h.pos k).ne'
        field_simp
      rw [this, Matrix.diagonal_one, Matrix.mul_one]
    _ = 1 := hB'

end CMAES
end Stochopy
