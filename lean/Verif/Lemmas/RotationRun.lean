import Verif.Lemmas.Rotation
import Verif.Lemmas.Symmetry

/-! Runs of `cmaes` turn with the coordinate system. -/

set_option linter.unusedSectionVars false

namespace Stochopy.CMAES
open Evo Spec Matrix
variable {σ τ : Type} {p n : Nat} {Q : Matrix (Fin n) (Fin n) ℝ}

def unitRng : Rng Unit ℝ where
  seed _ := ()
  rand _ := (0, ())
  randn _ := (0, ())
  randint _ _ := (0, ())
  perm _ _ := (Equiv.refl _, ())

/-- The state without the random number generator and the previous mean. -/
def forget (s : State σ ℝ n) : State Unit ℝ n :=
  { xmean := s.xmean, xold := fun _ => 0, pc := s.pc, ps := s.ps, B := s.B, D := s.D, C := s.C, invsqrtC := s.invsqrtC, sigma := s.sigma,
    eigeneval := s.eigeneval, rng := () }

def Par.forget (P : Par σ ℝ p n) : Par Unit ℝ p n := { R := unitRng, srt := P.srt, eigh := P.eigh, mu := P.mu, hmu := P.hmu }

theorem diagonalize_forget (P : Par σ ℝ p n) (k : Nat) {s : State σ ℝ n} {t : State Unit ℝ n} (h : CMAES.forget t = CMAES.forget s) :
    (CMAES.diagonalize P.forget t k).map CMAES.forget = (CMAES.diagonalize P s k).map CMAES.forget := by
  have e : ∀ s : State σ ℝ n, (CMAES.diagonalize P s k).map CMAES.forget =
      (CMAES.diagonalize P.forget (CMAES.forget s) k).map CMAES.forget := fun s => by
    unfold CMAES.diagonalize
    rw [map_bind_ex, map_bind_ex]
    rfl
  have e' : (CMAES.diagonalize P.forget t k).map CMAES.forget =
      (CMAES.diagonalize P.forget (CMAES.forget t) k).map CMAES.forget := by
    unfold CMAES.diagonalize
    rw [map_bind_ex, map_bind_ex]
    rfl
  rw [e, e', h]

theorem update_forget (P : Par σ ℝ p n) (k : Nat) (X : Pop ℝ p n) (o : Equiv.Perm (Fin p)) (s : State σ ℝ n) :
    (CMAES.update P.forget k X o (CMAES.forget s)).map CMAES.forget = (CMAES.update P k X o s).map CMAES.forget := by
  unfold CMAES.update
  rw [map_bind_ex, map_bind_ex]
  show (need _ >>= _) = (need _ >>= _)
  congr 1
  funext _
  have e := diagonalize_forget P k (show CMAES.forget (CMAES.advance P.forget k X o (CMAES.forget s)) = CMAES.forget (CMAES.advance P k X o s) from rfl)
  by_cases hc : (p : ℝ) / (c1 n (mueff (K := ℝ) P.mu) + cmu n (mueff P.mu)) / (n : ℝ) / 10 < ((k - s.eigeneval : Nat) : ℝ)
  · exact (congrArg (Except.map CMAES.forget) (if_pos hc)).trans (e.trans (congrArg (Except.map CMAES.forget) (if_pos hc)).symm)
  · refine (congrArg (Except.map CMAES.forget) (if_neg hc)).trans ?_
    dsimp only
    rw [if_neg hc]
    rfl

/-- The states of both runs and the number of evaluations. -/
structure Pair (n : Nat) where
  s : State Unit ℝ n
  s' : State Unit ℝ n
  nfev : Nat

/-- One generation of both runs. -/
noncomputable def both (A : Par Unit ℝ p n) (Q : Matrix (Fin n) (Fin n) ℝ) (fit : Pop ℝ p n → Fin p → Val ℝ) (t : Pair n)
    (z : Fin p → Vec ℝ n) : Pair n :=
  { s := ((CMAES.update A (t.nfev + p) (pts t.s z) (A.srt p (fit (pts t.s z))) t.s).map forget).toOption.getD t.s
    s' := ((CMAES.update A (t.nfev + p) (fun i => Q *ᵥ pts t.s z i) (A.srt p (fit (pts t.s z))) t.s').map forget).toOption.getD t.s'
    nfev := t.nfev + p }

open Classical in
/-- The rotation after the generations with the numbers `l`. -/
noncomputable def spins (A : Par Unit ℝ p n) (Q : Matrix (Fin n) (Fin n) ℝ) (fit : Pop ℝ p n → Fin p → Val ℝ) (t : Pair n)
    (l : List (Fin p → Vec ℝ n)) : Matrix (Fin n) (Fin n) ℝ :=
  let u := l.foldl (both A Q fit) t
  if Orthonormal (spin Q u.s u.s') then spin Q u.s u.s' else 1

theorem spins_orth (A : Par Unit ℝ p n) (Q : Matrix (Fin n) (Fin n) ℝ) (fit : Pop ℝ p n → Fin p → Val ℝ) (t : Pair n)
    (l : List (Fin p → Vec ℝ n)) : Orthonormal (spins A Q fit t l) := by
  unfold spins
  dsimp only
  split_ifs with h
  · exact h
  · rw [orthonormal_iff, transpose_one, Matrix.one_mul]

theorem Turned.forget {s : State σ ℝ n} {s' : State τ ℝ n} (h : Turned Q s s') : Turned Q (CMAES.forget s) (CMAES.forget s') :=
  ⟨h.xmean, h.pc, h.ps, h.C, h.sym, h.sigma, h.eigeneval, h.orth, h.orth', h.pos, h.pos', h.cov, h.inv, h.inv'⟩

theorem Turned.rng {s : State σ ℝ n} {s' : State τ ℝ n} (h : Turned Q s s') (g : σ) (g' : τ) :
    Turned Q { s with rng := g } { s' with rng := g' } :=
  ⟨h.xmean, h.pc, h.ps, h.C, h.sym, h.sigma, h.eigeneval, h.orth, h.orth', h.pos, h.pos', h.cov, h.inv, h.inv'⟩

/-! ## `converge` -/

theorem distLe_turn (hQ : Qᵀ * Q = 1) (x y : Vec ℝ n) (tol : ℝ) : distLe (Q *ᵥ x) (Q *ᵥ y) tol = distLe x y tol := by
  unfold distLe
  have : ∑ j, ((Q *ᵥ x) j - (Q *ᵥ y) j) ^ 2 = ∑ j, (x j - y j) ^ 2 := by
    have e := (show (Q *ᵥ (x - y)) ⬝ᵥ (Q *ᵥ (x - y)) = (x - y) ⬝ᵥ (x - y) by
      rw [Matrix.dotProduct_mulVec, Matrix.vecMul_mulVec, hQ, Matrix.vecMul_one])
    rw [Matrix.mulVec_sub] at e
    simp only [pow_two]
    exact e
  show (decide (0 ≤ tol) && decide (∑ j, ((Q *ᵥ x) j - (Q *ᵥ y) j) ^ 2 ≤ tol ^ 2)) = (decide (0 ≤ tol) && decide (∑ j, (x j - y j) ^ 2 ≤ tol ^ 2))
  rw [this]

/-- The rules that do not look at single coordinates. -/
theorem converge_turn {it : Nat} {maxiter : Int} {xmean xold xmean' xold' : Vec ℝ n} {arbest : List (Val ℝ)} {fit : Fin p → Val ℝ}
    {best : Val ℝ} {sigma insigma : ℝ} {ilim : Nat} {pc pc' : Vec ℝ n} {xtol : ℝ} {ftol : Val ℝ} {diagC diagC' : Vec ℝ n}
    {B B' : Matrix (Fin n) (Fin n) ℝ} {D D' : Vec ℝ n} (hd : distLe xold xmean xtol = distLe xold' xmean' xtol)
    (hD : ∀ i, ∃ j, D i = D' j) {st : Int} (hst : st ∈ [(-1 : Int), 0, 1, -4, -5, -7])
    (h : converge it maxiter xmean xold arbest fit best sigma insigma ilim pc xtol ftol diagC (some (B, D)) = some st) :
    converge it maxiter xmean' xold' arbest fit best sigma insigma ilim pc' xtol ftol diagC' (some (B', D')) ≠ none := by
  intro h'
  unfold converge at h h'
  dsimp only at h h'
  have hcond : decide (∃ i j, 10 ^ 7 * D j < D i) = true → decide (∃ i j, 10 ^ 7 * D' j < D' i) = true := by
    simp only [decide_eq_true_eq]
    rintro ⟨i, j, hij⟩
    obtain ⟨i', hi⟩ := hD i
    obtain ⟨j', hj⟩ := hD j
    exact ⟨i', j', by rw [← hi, ← hj]; exact hij⟩
  rw [hd] at h
  simp only [List.mem_cons, List.not_mem_nil, or_false] at hst
  by_cases c1 : maxiter ≤ (it : Int)
  · rw [if_pos c1] at h'; cases h'
  rw [if_neg c1] at h h'
  by_cases c2 : (distLe xold' xmean' xtol && decide (best < ftol)) = true
  · rw [if_pos c2] at h'; cases h'
  rw [if_neg c2] at h h'
  by_cases c3 : best ≤ ftol
  · rw [if_pos c3] at h'; cases h'
  rw [if_neg c3] at h h'
  by_cases c5 : ilim ≤ it ∧ rangeLt ((arbest.take (it + 1)).drop (it - ilim)) (1 / 10 ^ 10) = true
  · rw [if_pos c5] at h'
    split_ifs at h'
  rw [if_neg c5] at h h'
  by_cases c7 : 2 < it ∧ rangeLt (List.ofFn fit ++ arbest) (1 / 10 ^ 12) = true
  · rw [if_pos c7] at h'
    split_ifs at h'
  rw [if_neg c7] at h h'
  by_cases c4 : decide (∃ i j, 10 ^ 7 * D j < D i) = true
  · rw [if_pos (hcond c4)] at h'
    split_ifs at h'
  rw [if_neg c4] at h
  split_ifs at h <;> · have := Option.some.inj h; omega

/-! ## Runs -/

/-- Parameters of the frame that differ by a rotation. -/
structure TurnedPar (Q : Matrix (Fin n) (Fin n) ℝ) (ψ : Vec ℝ n → Vec ℝ n) (P P' : Evo.Par ℝ n) : Prop where
  unst : ∀ x, unstandardize P'.lower P'.upper (Q *ᵥ x) = ψ (unstandardize P.lower P.upper x)
  pop : ∀ {p : Nat} (X : Pop ℝ p n), P'.obj.pop (fun i => ψ (X i)) = P.obj.pop X
  srt : P'.srt = P.srt
  xtol : P'.xtol = P.xtol
  ftol : P'.ftol = P.ftol
  insigma : P'.insigma = P.insigma
  ilim : P'.ilim = P.ilim
  pen : P.penalized = false
  pen' : P'.penalized = false

variable {P P' : Evo.Par ℝ n} {A : Par σ ℝ p n} {A' : Par τ ℝ p n} {c c' : Cfg} {ψ : Vec ℝ n → Vec ℝ n}

/-- What a generation does. -/
theorem body_pts (hpen : P.penalized = false) {L L' : St (State σ ℝ n) ℝ p n} {g : Gen ℝ p n} (h : body P (gauss A) c L = .ok (L', g)) :
    let z := drawMat A.R.randn p n L.s.rng
    let X := pts L.s z.1
    let fit := P.obj.pop fun i => unstandardize P.lower P.upper (X i)
    CMAES.update A (L.nfev + p) X (P.srt p fit) { L.s with rng := z.2 } = .ok L'.s ∧ L'.nfev = L.nfev + p ∧
      L'.s.rng = z.2 ∧ L'.s.xold = L.s.xmean ∧ g.X = (fun i => unstandardize P.lower P.upper (X i)) ∧ g.fit = fit ∧
      (∃ hp : 0 < p, g.best = P.srt p fit ⟨0, hp⟩) ∧ L'.arbest = L.arbest.set L.it (fit g.best) ∧ L'.it = L.it + 1 ∧
      g.status = converge (L.it + 1) c.maxiter L'.s.xmean L'.s.xold L'.arbest fit (fit g.best) L'.s.sigma P.insigma P.ilim
        L'.s.pc P.xtol P.ftol (fun j => L'.s.C j j) (some (L'.s.B, L'.s.D)) := by
  intro z X fit
  obtain ⟨hp, x, e, rows, s, h1, h2, h3, h4, h5, h6, hr⟩ := body_ok h
  change CMAES.sample A L.s = _ at h1
  cases h1
  unfold evaluate at h2
  dsimp only at h2
  rw [hpen, if_neg (by simp)] at h2
  cases h2
  cases hr
  change CMAES.update A (L.nfev + p) X (P.srt p fit) { L.s with rng := z.2 } = .ok s at h5
  have hx : s.rng = z.2 ∧ s.xold = L.s.xmean := by
    rcases (CMAES.update_ok h5).2 with h | h
    · rw [h]; exact ⟨rfl, rfl⟩
    · obtain ⟨-, h⟩ := CMAES.diagonalize_ok h
      rw [h]; exact ⟨rfl, rfl⟩
  exact ⟨h5, rfl, hx.1, hx.2, rfl, rfl, ⟨hp, rfl⟩, rfl, rfl, rfl⟩

theorem run_turned {fuel fuel' : Nat} {s0 : State σ ℝ n} {s0' : State τ ℝ n} {o : Output σ ℝ p n} {o' : Output τ ℝ p n}
    (he : IsEigh A.eigh) (hQ : Qᵀ * Q = 1) (hP : TurnedPar Q ψ P P') (hc : c'.maxiter = c.maxiter) (hA : A'.forget = A.forget)
    (hAP : A.srt = P.srt) (hs : Turned Q s0 s0')
    (hz : TurnedBy (spins A.forget Q (fun X => P.obj.pop fun i => unstandardize P.lower P.upper (X i)) ⟨forget s0, forget s0', 0⟩)
      (A.R.normals p n s0.rng) (A'.R.normals p n s0'.rng))
    (h : run P (gauss A) c State.rng fuel s0 = .ok o) (h' : run P' (gauss A') c' State.rng fuel' s0' = .ok o') : SameTurned ψ o o' := by
  set fit : Pop ℝ p n → Fin p → Val ℝ := fun X => P.obj.pop fun i => unstandardize P.lower P.upper (X i) with hfit
  set t0 : Pair n := ⟨forget s0, forget s0', 0⟩ with ht0
  have hsrt : A'.srt = A.srt := congrArg (fun A : Par Unit ℝ p n => A.srt) hA
  have heigh : A'.eigh = A.eigh := congrArg (fun A : Par Unit ℝ p n => A.eigh) hA
  have hmu : A'.mu = A.mu := congrArg (fun A : Par Unit ℝ p n => A.mu) hA
  obtain ⟨f, gn, e0, e1, -, k0, e3, e4, e5⟩ := run_chain_last h
  obtain ⟨f', gn', e0', e1', -, k0', e3', e4', e5'⟩ := run_chain_last h'
  have hst := run_status h e0 fun k hk => (e1 k hk).1
  have hst' := run_status h' e0' fun k hk => (e1' k hk).1
  let z := A.R.normals p n s0.rng
  let J : Nat → Prop := fun k => Turned Q (f k).s (f' k).s ∧
    ((List.range k).map z).foldl (both A.forget Q fit) t0 = ⟨forget (f k).s, forget (f' k).s, (f k).nfev⟩ ∧
    (f' k).nfev = (f k).nfev ∧ (f' k).arbest = (f k).arbest ∧ (f k).it = k ∧ (f' k).it = k ∧
    (f k).s.rng = (fun g => (drawMat A.R.randn p n g).2)^[k] s0.rng ∧ (f' k).s.rng = (fun g => (drawMat A'.R.randn p n g).2)^[k] s0'.rng
  -- one generation
  have step : ∀ k, k < o.res.nit → k < o'.res.nit → J k →
      (J (k + 1) ∧ (gn' k).X = (fun i => ψ ((gn k).X i)) ∧ (gn' k).fit = (gn k).fit ∧ (gn' k).best = (gn k).best) ∧
      ∀ st, st ∈ [(-1 : Int), 0, 1, -4, -5, -7] → ((gn k).status = some st → (gn' k).status ≠ none) ∧
        ((gn' k).status = some st → (gn k).status ≠ none) := by
    rintro k hk hk' ⟨j1, j2, j3, j4, j5, j6, j7, j8⟩
    obtain ⟨b1, b2, b3, b4, b5, b6, ⟨hp, b7⟩, b8, b9, b10⟩ := body_pts hP.pen (e1 k hk).1
    obtain ⟨d1, d2, d3, d4, d5, d6, ⟨hp2, d7⟩, d8, d9, d10⟩ := body_pts hP.pen' (e1' k hk').1
    have hz1 : (drawMat A.R.randn p n (f k).s.rng).1 = z k := by rw [j7]; rfl
    have hz2 : (drawMat A'.R.randn p n (f' k).s.rng).1 = fun i => spin Q (f k).s (f' k).s *ᵥ z k i := by
      rw [j8]
      funext i
      refine (hz k i).trans ?_
      have : spins A.forget Q fit t0 ((List.range k).map z) = spin Q (f k).s (f' k).s := by
        unfold spins
        dsimp only
        rw [j2]
        exact if_pos j1.spin_orth
      exact congrArg (fun M : Matrix (Fin n) (Fin n) ℝ => M *ᵥ z k i) this
    rw [hz1] at b1 b5 b6 b7 b8 b10
    rw [hz2] at d1 d5 d6 d7 d8 d10
    have hX : pts (f' k).s (fun i => spin Q (f k).s (f' k).s *ᵥ z k i) = fun i => Q *ᵥ pts (f k).s (z k) i := funext fun i => j1.pts _ i
    rw [hX] at d1 d5 d6 d7 d8 d10
    have hF : P'.obj.pop (fun i => unstandardize P'.lower P'.upper (Q *ᵥ pts (f k).s (z k) i)) =
        P.obj.pop fun i => unstandardize P.lower P.upper (pts (f k).s (z k) i) := by
      simp only [hP.unst]
      exact hP.pop _
    rw [hF] at d1 d6 d7 d8 d10
    rw [hP.srt] at d1 d7
    have hbest : (gn' k).best = (gn k).best := d7.trans b7.symm
    have hturn : Turned Q (f (k + 1)).s (f' (k + 1)).s := by
      rw [j3] at d1
      exact (j1.rng _ _).update he (by rw [heigh]; exact he) hQ hmu b1 d1
    have harb : (f' (k + 1)).arbest = (f (k + 1)).arbest := by rw [d8, b8, j4, j5, j6, hbest]
    refine ⟨⟨⟨hturn, ?_, by rw [d2, b2, j3], harb, by rw [b9, j5], by rw [d9, j6], ?_, ?_⟩, ?_, d6.trans b6.symm, hbest⟩, fun st hst => ?_⟩
    · rw [List.range_succ, List.map_append, List.foldl_append, j2]
      show both A.forget Q fit ⟨forget (f k).s, forget (f' k).s, (f k).nfev⟩ (z k) = _
      unfold both
      have u1 : (CMAES.update A.forget ((f k).nfev + p) (pts (forget (f k).s) (z k)) (A.forget.srt p (fit (pts (forget (f k).s) (z k))))
          (forget (f k).s)).map forget = .ok (forget (f (k + 1)).s) := by
        have := update_forget A ((f k).nfev + p) (pts (f k).s (z k)) (P.srt p (fit (pts (f k).s (z k))))
          { (f k).s with rng := (drawMat A.R.randn p n (f k).s.rng).2 }
        rw [b1] at this
        rw [← hAP] at this
        exact this
      have u2 : (CMAES.update A.forget ((f k).nfev + p) (fun i => Q *ᵥ pts (forget (f k).s) (z k) i)
          (A.forget.srt p (fit (pts (forget (f k).s) (z k)))) (forget (f' k).s)).map forget = .ok (forget (f' (k + 1)).s) := by
        have := update_forget A' ((f' k).nfev + p) (fun i => Q *ᵥ pts (f k).s (z k) i) (P.srt p (fit (pts (f k).s (z k))))
          { (f' k).s with rng := (drawMat A'.R.randn p n (f' k).s.rng).2 }
        rw [d1, hA, j3] at this
        rw [← hAP] at this
        exact this
      dsimp only
      rw [u1, u2, b2]
      rfl
    · rw [b3, j7, Function.iterate_succ_apply']
    · rw [d3, j8, Function.iterate_succ_apply']
    · rw [d5, b5]
      simp only [hP.unst]
    · have hdist : distLe (f (k + 1)).s.xold (f (k + 1)).s.xmean P.xtol = distLe (f' (k + 1)).s.xold (f' (k + 1)).s.xmean P.xtol := by
        rw [b4, d4, j1.xmean, hturn.xmean, distLe_turn hQ]
      rw [b10, d10, hbest, harb, hturn.sigma, hP.insigma, hP.ilim, hP.xtol, hP.ftol, hc, j5, j6]
      exact ⟨converge_turn hdist (hturn.lengths hQ).2 hst, converge_turn hdist.symm (hturn.lengths hQ).1 hst⟩
  have hJ : ∀ k, k ≤ o.res.nit → k ≤ o'.res.nit → J k := by
    intro k
    induction k with
    | zero =>
      intro _ _
      refine ⟨?_, ?_, ?_⟩
      · rw [e0, e0']; exact hs
      · rw [e0, e0']; rfl
      · rw [e0, e0']
        refine ⟨rfl, ?_, rfl, rfl, rfl, rfl⟩
        show List.replicate c'.maxiter.toNat _ = List.replicate c.maxiter.toNat _
        rw [hc]
    | succ k ih =>
      intro hk hk'
      exact (step k (by omega) (by omega) (ih (by omega) (by omega))).1.1
  refine ⟨fun k hk hk' i => ?_, fun hn => ?_, fun hm => ?_, fun hm => ?_⟩
  · obtain ⟨⟨-, h1, -⟩, -⟩ := step k hk hk' (hJ k hk.le hk'.le)
    refine ⟨_, (e1 k hk).2 i, ?_⟩
    rw [(e1' k hk').2 i, h1]
  · obtain rfl : k0' = k0 := by omega
    obtain ⟨⟨-, h1, h2, h3⟩, -⟩ := step k0' (by omega) (by omega) (hJ k0' (by omega) (by omega))
    rw [e4, e4', e5, e5', h1, h2, h3]
    exact ⟨rfl, rfl⟩
  · by_contra hlt
    have hk : k0 < o.res.nit := by omega
    have hk' : k0 < o'.res.nit := by omega
    refine ((step k0 hk hk' (hJ k0 hk.le hk'.le)).2 _ hm).1 ?_ ?_
    · rw [hst k0 hk, if_pos e3.symm]
    · rw [hst' k0 hk', if_neg (by omega)]
  · by_contra hlt
    have hk : k0' < o.res.nit := by omega
    have hk' : k0' < o'.res.nit := by omega
    refine ((step k0' hk hk' (hJ k0' hk.le hk'.le)).2 _ hm).2 ?_ ?_
    · rw [hst' k0' hk', if_pos e3'.symm]
    · rw [hst k0' hk, if_neg (by omega)]

end Stochopy.CMAES
