import Verif.Lemmas.Pull
import Verif.Lemmas.PSORun

/-!
# The random numbers of a swarm, and what a stagnating swarm does
-/

namespace Stochopy
open Spec MeasureTheory Filter Topology

section Draws
variable {σ : Type}

theorem drawVec_snd {α : Type} (d : σ → α × σ) (n : Nat) (g : σ) : (drawVec d n g).2 = (fun g => (d g).2)^[n] g := rfl

theorem iterate_rows {α : Type} (d : σ → α × σ) (n i : Nat) (g : σ) :
    (fun g => (drawVec d n g).2)^[i] g = (fun g => (d g).2)^[i * n] g := by
  have h : (fun g => (drawVec d n g).2) = (fun g => (d g).2)^[n] := by
    funext g
    rfl
  rw [h, ← Function.iterate_mul, Nat.mul_comm]

theorem drawMat_fst {α : Type} (d : σ → α × σ) (p n : Nat) (g : σ) (i : Fin p) (j : Fin n) :
    (drawMat d p n g).1 i j = (d ((fun g => (d g).2)^[i * n + j] g)).1 := by
  show (d ((fun g => (d g).2)^[j.val] ((fun g => (drawVec d n g).2)^[i.val] g))).1 = _
  rw [iterate_rows, ← Function.iterate_add_apply, Nat.add_comm]

theorem drawMat_snd {α : Type} (d : σ → α × σ) (p n : Nat) (g : σ) : (drawMat d p n g).2 = (fun g => (d g).2)^[p * n] g :=
  iterate_rows d n p g

/-- The state of the generator after `k` generations. -/
def genState {K : Type} (R : Rng σ K) (p n : Nat) (g : σ) (k : Nat) : σ :=
  (fun g => (drawMat R.rand p n (drawMat R.rand p n g).2).2)^[k] g

/-- The random numbers of coordinate `j` of particle `i` in generation `k`. -/
def pairs {K : Type} (R : Rng σ K) (p n : Nat) (i : Fin p) (j : Fin n) (g : σ) (k : Nat) : K × K :=
  ((drawMat R.rand p n (genState R p n g k)).1 i j, (drawMat R.rand p n (drawMat R.rand p n (genState R p n g k)).2).1 i j)

theorem genState_iterate {K : Type} (R : Rng σ K) (p n : Nat) (g : σ) (k : Nat) :
    genState R p n g k = (fun g => (R.rand g).2)^[k * (2 * (p * n))] g := by
  have h : (fun g => (drawMat R.rand p n (drawMat R.rand p n g).2).2) = (fun g => (R.rand g).2)^[2 * (p * n)] := by
    funext g
    rw [drawMat_snd, drawMat_snd, ← Function.iterate_add_apply, Nat.two_mul]
  rw [genState, h, ← Function.iterate_mul, Nat.mul_comm]

theorem stateAt_uniform {K : Type} (R : Rng σ K) (g : σ) : ∀ k, stateAt R (fun _ => false) g k = (fun g => (R.rand g).2)^[k] g
  | 0 => rfl
  | k + 1 => by
    show (R.rand (stateAt R (fun _ => false) g k)).2 = _
    rw [stateAt_uniform R g k, Function.iterate_succ_apply']

theorem pairs_drawn {K : Type} (R : Rng σ K) (p n : Nat) (i : Fin p) (j : Fin n) (g : σ) (k : Nat) :
    pairs R p n i j g k = (drawn R (fun _ => false) g (k * (2 * (p * n)) + (i * n + j)),
      drawn R (fun _ => false) g (k * (2 * (p * n)) + (p * n + (i * n + j)))) := by
  have hd : ∀ t, drawn R (fun _ => false) g t = (R.rand ((fun g => (R.rand g).2)^[t] g)).1 := fun t => by
    show (R.rand (stateAt R (fun _ => false) g t)).1 = _
    rw [stateAt_uniform]
  unfold pairs
  rw [drawMat_fst, drawMat_fst, genState_iterate, drawMat_snd, hd, hd, ← Function.iterate_add_apply, ← Function.iterate_add_apply,
    ← Function.iterate_add_apply]
  refine Prod.ext ?_ ?_
  · show (R.rand ((fun g => (R.rand g).2)^[_] g)).1 = (R.rand ((fun g => (R.rand g).2)^[_] g)).1
    congr 3
    omega
  · show (R.rand ((fun g => (R.rand g).2)^[_] g)).1 = (R.rand ((fun g => (R.rand g).2)^[_] g)).1
    congr 3
    omega

/-- With an ideal generator they are independent. -/
theorem Spec.Ideal.pairs [MeasurableSpace σ] {R : Rng σ ℝ} {Q : Measure σ} (h : Ideal R Q) {p n : Nat} (i : Fin p) (j : Fin n) :
    Measurable (pairs R p n i j) ∧ Q.map (pairs R p n i j) = inputs pairLaw := by
  obtain ⟨hm, hlaw⟩ := h fun _ => false
  have hlt : i.val * n + j.val < p * n := by
    have h1 : i.val * n + n ≤ p * n := by
      have := Nat.mul_le_mul_right n (Nat.succ_le_of_lt i.isLt)
      rwa [Nat.succ_mul] at this
    have := j.isLt
    omega
  set m := p * n with hmdef
  set q := i.val * n + j.val with hq
  have hinj : Function.Injective fun e : Nat × Fin 2 => e.1 * (2 * m) + (e.2.val * m + q) := by
    rintro ⟨k, b⟩ ⟨k', b'⟩ h
    have h' : k * (2 * m) + (b.val * m + q) = k' * (2 * m) + (b'.val * m + q) := h
    have hm0 : 0 < m := by omega
    have hb : ∀ b : Fin 2, b.val * m + q < 2 * m := by
      intro b
      have : b.val * m ≤ 1 * m := Nat.mul_le_mul_right m (by omega)
      omega
    have h1 : k = k' := by
      have key : ∀ k t, t < 2 * m → (k * (2 * m) + t) / (2 * m) = k := fun k t ht => by
        rw [Nat.add_comm, Nat.add_mul_div_right _ _ (show 0 < 2 * m by omega), Nat.div_eq_of_lt ht, Nat.zero_add]
      rw [← key k _ (hb b), h', key k' _ (hb b')]
    subst h1
    have h2 : b.val * m = b'.val * m := by omega
    have h3 : b = b' := Fin.ext (Nat.eq_of_mul_eq_mul_right hm0 h2)
    rw [h3]
  have h1 := Measure.map_infinitePi_infinitePi_of_inj (P := fun _ : Nat => unifLaw) hinj
  have h2 := Measure.infinitePi_map_curry (ι := Nat) (κ := Fin 2) fun _ _ => unifLaw
  have hmi : Measurable fun (ω : Nat → ℝ) (e : Nat × Fin 2) => ω (e.1 * (2 * m) + (e.2.val * m + q)) :=
    measurable_pi_lambda _ fun p => measurable_pi_apply _
  rw [← h1, Measure.map_map (MeasurableEquiv.measurable _) hmi] at h2
  have hmt : Measurable fun v : Fin 2 → ℝ => (v 0, v 1) := (measurable_pi_apply 0).prodMk (measurable_pi_apply 1)
  have h3 := Measure.infinitePi_map_pi (fun _ : Nat => Measure.infinitePi fun _ : Fin 2 => unifLaw)
    (f := fun _ (v : Fin 2 → ℝ) => (v 0, v 1)) fun _ => hmt
  have hpair : (Measure.pi fun _ : Fin 2 => unifLaw).map (fun v : Fin 2 → ℝ => (v 0, v 1)) = pairLaw :=
    (measurePreserving_finTwoArrow unifLaw).map_eq
  rw [← h2, Measure.infinitePi_eq_pi (μ := fun _ : Fin 2 => unifLaw), hpair] at h3
  have hmg : Measurable fun (v : Nat → Fin 2 → ℝ) (k : Nat) => (v k 0, v k 1) :=
    measurable_pi_lambda _ fun k => hmt.comp (measurable_pi_apply k)
  have hmc : Measurable (MeasurableEquiv.curry Nat (Fin 2) ℝ ∘ fun (ω : Nat → ℝ) (e : Nat × Fin 2) =>
      ω (e.1 * (2 * m) + (e.2.val * m + q))) := (MeasurableEquiv.measurable _).comp hmi
  have hlaw' : Q.map (drawn R fun _ => false) = Measure.infinitePi fun _ : Nat => unifLaw := hlaw
  rw [Measure.map_map hmg hmc, ← hlaw', Measure.map_map (hmg.comp hmc) hm] at h3
  have e3 : ((fun (v : Nat → Fin 2 → ℝ) (k : Nat) => (v k 0, v k 1)) ∘
      (MeasurableEquiv.curry Nat (Fin 2) ℝ ∘ fun (ω : Nat → ℝ) (e : Nat × Fin 2) => ω (e.1 * (2 * m) + (e.2.val * m + q)))) ∘
        drawn R (fun _ => false) = Stochopy.pairs R p n i j := by
    funext g k
    rw [pairs_drawn]
    refine Prod.ext ?_ ?_
    · show drawn R (fun _ => false) g (k * (2 * m) + (0 * m + q)) = _
      rw [Nat.zero_mul, Nat.zero_add]
    · show drawn R (fun _ => false) g (k * (2 * m) + (1 * m + q)) = _
      rw [Nat.one_mul]
  rw [e3] at h3
  refine ⟨?_, h3⟩
  rw [← e3]
  exact (hmg.comp hmc).comp hm

end Draws

/-! ## Generations -/

section Generations
variable {σ : Type} {p n : Nat} {c : Spec.PSO.Setting σ ℝ n} {s s' : Spec.PSO.Swarm ℝ p n} {g g' : σ} {it : Nat} {st : Option Int}

/-- The two matrices of random numbers of a generation and the state of the generator after it. -/
theorem generation_rng (h : Spec.PSO.Generation c it s g s' g' st) :
    g' = (drawMat c.R.rand p n (drawMat c.R.rand p n g).2).2 := by
  rcases h with ⟨-, ⟨r1, r2, g1, h1, h2, -⟩, -⟩ | ⟨-, T, ⟨r1, r2, g1, h1, h2, -⟩, -⟩
  · have e1 := congrArg Prod.snd h1
    have e2 := congrArg Prod.snd h2
    dsimp only at e1 e2
    rw [e2, e1]
  · have e1 := congrArg Prod.snd h1
    have e2 := congrArg Prod.snd h2
    dsimp only at e1 e2
    rw [e2, e1]

/-- What is known about the pools of a run without restarts. -/
structure PoolFacts (c : Spec.PSO.Setting σ ℝ n) (P : Pool ℝ p n) : Prop where
  fit : ∀ i, P.fit i = c.fn (P.X i)
  bestfit : P.bestfit = c.fn P.best
  first : c.deferred → ∃ i, FirstBest P.fit i ∧ P.best = P.X i

theorem poolFacts_first {X : Pop ℝ p n} (h : Spec.PSO.First c.fn X s) : PoolFacts c s.pool := by
  obtain ⟨i, h1, h2, h3⟩ := h.pool.best
  have hf : ∀ i, s.pool.fit i = c.fn (s.pool.X i) := fun i => by rw [h.pool.fit, h.pool.pop]
  refine ⟨hf, ?_, fun _ => ⟨i, h1, by rw [h2, h.pool.pop]⟩⟩
  rw [h3, h.pool.fit, h2]

theorem poolFacts_offer {P P' : Pool ℝ p n} {i : Fin p} {y : Vec ℝ n} (hP : ∀ i, P.fit i = c.fn (P.X i)) (hb : P.bestfit = c.fn P.best)
    (h : Pool.Offer c.fn P i y P') : (∀ i, P'.fit i = c.fn (P'.X i)) ∧ P'.bestfit = c.fn P'.best := by
  constructor
  · intro q
    by_cases hq : q = i
    · subst hq
      by_cases ht : c.fn y ≤ P.fit q
      · obtain ⟨h1, h2⟩ := h.taken ht
        rw [h1, h2]
      · obtain ⟨h1, h2⟩ := h.refused ht
        rw [h1, h2, hP]
    · obtain ⟨h1, h2⟩ := h.others q hq
      rw [h1, h2, hP]
  · by_cases hl : c.fn y ≤ P.fit i ∧ c.fn y ≤ P.bestfit
    · obtain ⟨h1, h2⟩ := h.lead hl
      rw [h1, h2]
    · obtain ⟨h1, h2⟩ := h.follow hl
      rw [h1, h2, hb]

theorem poolFacts_generation (h : Spec.PSO.Generation c it s g s' g' st) (hP : PoolFacts c s.pool) : PoolFacts c s'.pool := by
  rcases h with ⟨-, ⟨r1, r2, g1, -, -, -, h⟩, -⟩ | ⟨hd, T, ⟨r1, r2, g1, -, -, h0, hp, ht⟩, -⟩
  · have hf : ∀ i, s'.pool.fit i = c.fn (s'.pool.X i) := by
      intro i
      by_cases hl : c.fn (s'.pos i) < s.pool.fit i
      · obtain ⟨h1, h2⟩ := h.taken i hl
        rw [h1, h2]
      · obtain ⟨h1, h2⟩ := h.refused i hl
        rw [h1, h2, hP.fit]
    obtain ⟨i, h1, h2, h3⟩ := h.best
    exact ⟨hf, by rw [h3, hf, h2], fun _ => ⟨i, h1, h2⟩⟩
  · have key : ∀ q, q ≤ p → (∀ i, (T q).pool.fit i = c.fn ((T q).pool.X i)) ∧ (T q).pool.bestfit = c.fn (T q).pool.best := by
      intro q
      induction q with
      | zero => intro _; rw [h0]; exact ⟨hP.fit, hP.bestfit⟩
      | succ q ih =>
        intro hq
        obtain ⟨h1, h2⟩ := ih (by omega)
        exact poolFacts_offer h1 h2 (ht ⟨q, by omega⟩).offer
    have kp := key p le_rfl
    rw [hp] at kp
    exact ⟨kp.1, kp.2, fun h => absurd h hd⟩

/-- With immediate updating a particle is where it was before its turn, and stays where it is after its turn. -/
theorem turn_pos {r1 r2 : Pop ℝ p n} {T : Nat → Spec.PSO.Swarm ℝ p n} (h : ∀ i : Fin p, Spec.PSO.Turn c (r1 i) (r2 i) i (T i) (T (i + 1))) (i : Fin p) :
    (∀ q, q ≤ i.val → (T q).pos i = (T 0).pos i ∧ (T q).vel i = (T 0).vel i) ∧
    (∀ d, i.val + 1 + d ≤ p → (T (i + 1 + d)).pos i = (T (i + 1)).pos i ∧ (T (i + 1 + d)).vel i = (T (i + 1)).vel i) := by
  constructor
  · intro q
    induction q with
    | zero => intro _; exact ⟨rfl, rfl⟩
    | succ q ih =>
      intro hq
      obtain ⟨h1, h2⟩ := ih (by omega)
      obtain ⟨h3, h4⟩ := (h ⟨q, by omega⟩).others i (fun he => by
        have := congrArg Fin.val he
        simp at this
        omega)
      exact ⟨h3.trans h1, h4.trans h2⟩
  · intro d
    induction d with
    | zero => intro _; exact ⟨rfl, rfl⟩
    | succ d ih =>
      intro hd
      obtain ⟨h1, h2⟩ := ih (by omega)
      obtain ⟨h3, h4⟩ := (h ⟨i + 1 + d, by omega⟩).others i (fun he => by
        have := congrArg Fin.val he
        simp at this
        omega)
      exact ⟨h3.trans h1, h4.trans h2⟩

/-- A particle attracted by `y` alone. -/
theorem move_pull {x v r1 r2 x' v' : Vec ℝ n} {pb l : Vec ℝ n} (hs : ¬ c.shrink) (h : Spec.PSO.Move c x v pb l r1 r2 x' v') (j : Fin n) :
    (x' j, v' j) = pull c.inertia c.cognitivity c.sociability (pb j) (l j) (x j, v j) (r1 j, r2 j) := by
  obtain ⟨w, h1, -, h3, h4⟩ := h
  unfold pull
  rw [h4, h3 hs, h1]

/-- A deferred generation without shrinking, coordinate by coordinate. -/
theorem generation_pull (h : Spec.PSO.Generation c it s g s' g' st) (hs : ¬ c.shrink) (hd : c.deferred) (i : Fin p) (j : Fin n) :
    (s'.pos i j, s'.vel i j) = pull c.inertia c.cognitivity c.sociability (s.pool.X i j) (s.pool.best j) (s.pos i j, s.vel i j)
      ((drawMat c.R.rand p n g).1 i j, (drawMat c.R.rand p n (drawMat c.R.rand p n g).2).1 i j) := by
  rcases h with ⟨-, ⟨r1, r2, g1, h1, h2, hm, -⟩, -⟩ | ⟨hnd, -⟩
  · have e1 : r1 = (drawMat c.R.rand p n g).1 := congrArg Prod.fst h1
    have e1' : g1 = (drawMat c.R.rand p n g).2 := congrArg Prod.snd h1
    have e2 : r2 = (drawMat c.R.rand p n g1).1 := congrArg Prod.fst h2
    rw [move_pull hs (hm i) j, e1, e2, e1']
  · exact absurd hd hnd

/-- When nothing as good as `y` is found, `y` remains the best point of the swarm and of the particles whose best point it is, and these
particles are attracted by `y` alone. -/
theorem generation_stagnates (h : Spec.PSO.Generation c it s g s' g' st) (hs : ¬ c.shrink) (hP : PoolFacts c s.pool) {i : Fin p} {y : Vec ℝ n}
    (hX : s.pool.X i = y) (hb : s.pool.best = y) (hno : ∀ q, ¬ c.fn (s'.pos q) ≤ c.fn y) :
    s'.pool.X i = y ∧ s'.pool.best = y ∧ ∀ j, (s'.pos i j, s'.vel i j) =
      pull c.inertia c.cognitivity c.sociability (y j) (y j) (s.pos i j, s.vel i j)
        ((drawMat c.R.rand p n g).1 i j, (drawMat c.R.rand p n (drawMat c.R.rand p n g).2).1 i j) := by
  rcases h with ⟨hd, ⟨r1, r2, g1, h1, h2, hm, h⟩, -⟩ | ⟨-, T, ⟨r1, r2, g1, h1, h2, h0, hp, ht⟩, -⟩
  · have e1 : r1 = (drawMat c.R.rand p n g).1 := congrArg Prod.fst h1
    have e1' : g1 = (drawMat c.R.rand p n g).2 := congrArg Prod.snd h1
    have e2 : r2 = (drawMat c.R.rand p n g1).1 := congrArg Prod.fst h2
    have hsame : ∀ q, c.fn (s.pool.X q) = c.fn y → s'.pool.X q = s.pool.X q ∧ s'.pool.fit q = s.pool.fit q := by
      intro q hq
      refine h.refused q fun hl => hno q ?_
      rw [hP.fit, hq] at hl
      exact Val.le_of_lt' hl
    refine ⟨(hsame i (by rw [hX])).1.trans hX, ?_, fun j => ?_⟩
    · obtain ⟨i0, hf, hi0⟩ := hP.first hd
      obtain ⟨i1, hf1, hi1, -⟩ := h.best
      have hy0 : s.pool.X i0 = y := hi0.symm.trans hb
      obtain ⟨h3, h4⟩ := hsame i0 (by rw [hy0])
      have : FirstBest s'.pool.fit i0 := by
        rcases hf with ⟨hn, hlt⟩ | ⟨hle, hlt⟩
        · refine Or.inl ⟨h4.trans hn, fun q hq => ?_⟩
          by_cases hl : c.fn (s'.pos q) < s.pool.fit q
          · rw [(h.taken q hl).2]
            exact Val.ne_nan_left_lt hl
          · rw [(h.refused q hl).2]
            exact hlt q hq
        · have hnn : s.pool.fit i0 ≠ .nan := Val.ne_nan_left (hle i0)
          have hlt' : ∀ q, c.fn (s'.pos q) < s.pool.fit q → s.pool.fit i0 < c.fn (s'.pos q) := by
            intro q hl
            rcases Val.le_or_lt' (Val.ne_nan_left_lt hl) hnn with h5 | h5
            · refine absurd ?_ (hno q)
              rwa [hP.fit, hy0] at h5
            · exact h5
          refine Or.inr ⟨fun q => ?_, fun q hq => ?_⟩
          · rw [h4]
            by_cases hl : c.fn (s'.pos q) < s.pool.fit q
            · rw [(h.taken q hl).2]
              exact Val.le_of_lt' (hlt' q hl)
            · rw [(h.refused q hl).2]
              exact hle q
          · rw [h4]
            by_cases hl : c.fn (s'.pos q) < s.pool.fit q
            · rw [(h.taken q hl).2]
              exact hlt' q hl
            · rw [(h.refused q hl).2]
              exact hlt q hq
      rw [hi1, hf1.unique this, h3, hy0]
    · rw [move_pull hs (hm i) j, hX, hb, e1, e2, e1']
  · have e1 : r1 = (drawMat c.R.rand p n g).1 := congrArg Prod.fst h1
    have e1' : g1 = (drawMat c.R.rand p n g).2 := congrArg Prod.snd h1
    have e2 : r2 = (drawMat c.R.rand p n g1).1 := congrArg Prod.fst h2
    have hlast : ∀ q : Fin p, (T (q + 1)).pos q = s'.pos q ∧ (T (q + 1)).vel q = s'.vel q := by
      intro q
      have := (turn_pos ht q).2 (p - (q + 1)) (by omega)
      rw [show q.val + 1 + (p - (q.val + 1)) = p by omega, hp] at this
      exact ⟨this.1.symm, this.2.symm⟩
    have key : ∀ q, q ≤ p → (T q).pool.X i = y ∧ (T q).pool.fit i = c.fn y ∧ (T q).pool.best = y ∧ (T q).pool.bestfit = c.fn y := by
      intro q
      induction q with
      | zero => intro _; rw [h0]; exact ⟨hX, by rw [hP.fit, hX], hb, by rw [hP.bestfit, hb]⟩
      | succ q ih =>
        intro hq
        obtain ⟨k1, k2, k3, k4⟩ := ih (by omega)
        have ho := (ht ⟨q, by omega⟩).offer
        have hn : ¬ c.fn ((T (q + 1)).pos ⟨q, by omega⟩) ≤ c.fn y := by
          rw [(hlast ⟨q, by omega⟩).1]
          exact hno _
        obtain ⟨b1, b2⟩ := ho.follow fun hl => hn (by have := hl.2; rwa [k4] at this)
        have hx : (T (q + 1)).pool.X i = (T q).pool.X i ∧ (T (q + 1)).pool.fit i = (T q).pool.fit i := by
          by_cases hqi : i = ⟨q, by omega⟩
          · subst hqi
            refine ho.refused fun hl => hn ?_
            have hl' : c.fn ((T (q + 1)).pos ⟨q, by omega⟩) ≤ (T q).pool.fit ⟨q, by omega⟩ := hl
            rwa [k2] at hl'
          · exact ho.others i hqi
        exact ⟨hx.1.trans k1, hx.2.trans k2, b1.trans k3, b2.trans k4⟩
    have kp := key p le_rfl
    rw [hp] at kp
    refine ⟨kp.1, kp.2.2.1, fun j => ?_⟩
    have hbefore := (turn_pos ht i).1 i.val le_rfl
    rw [h0] at hbefore
    have kt := key i.val i.isLt.le
    have hmv := move_pull hs (ht i).move j
    rw [(hlast i).1, (hlast i).2, hbefore.1, hbefore.2, kt.1, kt.2.2.1] at hmv
    rw [hmv, e1, e2, e1']

end Generations

end Stochopy
