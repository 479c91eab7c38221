import Verif.Lemmas.SymmetryArgs
import Mathlib.Tactic.FieldSimp
import Mathlib.Tactic.Ring
import Mathlib.Tactic.Linarith

/-! `de`, `cpso` and `na` under a change of origin and units. -/

set_option linter.unusedSectionVars false

namespace Stochopy
variable {K σ : Type} [Field K] [LinearOrder K] [IsStrictOrderedRing K] {p n : Nat}

theorem affine_lt {c t x y : K} (hc : 0 < c) : c * x + t < c * y + t ↔ x < y := by
  constructor
  · intro h; exact lt_of_mul_lt_mul_left (by linarith) hc.le
  · intro h; have := mul_lt_mul_of_pos_left h hc; linarith

theorem distLe_affine {c : K} (hc : 0 < c) (t : Nat → K) (a b : Vec K n) (tol : K) :
    distLe (affine (fun _ => c) t a) (affine (fun _ => c) t b) (c * tol) = distLe a b tol := by
  unfold distLe affine
  have h1 : ∑ j, (c * a j + t j - (c * b j + t j)) ^ 2 = c ^ 2 * ∑ j, (a j - b j) ^ 2 := by
    rw [Finset.mul_sum]
    refine Finset.sum_congr rfl fun j _ => ?_
    ring
  have h2 : (0 ≤ c * tol) ↔ 0 ≤ tol := mul_nonneg_iff_of_pos_left hc
  have h3 : (c ^ 2 * ∑ j, (a j - b j) ^ 2 ≤ (c * tol) ^ 2) ↔ ∑ j, (a j - b j) ^ 2 ≤ tol ^ 2 := by
    rw [mul_pow]
    exact mul_le_mul_iff_right₀ (pow_pos hc 2)
  show (decide (0 ≤ c * tol) && decide (∑ j, (c * a j + t j - (c * b j + t j)) ^ 2 ≤ (c * tol) ^ 2)) =
    (decide (0 ≤ tol) && decide (∑ j, (a j - b j) ^ 2 ≤ tol ^ 2))
  rw [h1]
  simp only [h2, h3]

theorem lhs_affine (R : Rng σ K) (p : Nat) (s t : Nat → K) (lower upper : Vec K n) (g : σ) :
    lhs R p (affine s t lower) (affine s t upper) g =
      (fun i => affine s t ((lhs R p lower upper g).1 i), (lhs R p lower upper g).2) := by
  unfold lhs
  refine Prod.ext ?_ rfl
  funext k i
  unfold affine lhsScale
  dsimp only
  ring

theorem unif_affine (c t lo hi u : K) : unif (c * lo + t) (c * hi + t) u = c * unif lo hi u + t := by
  unfold unif; ring

section DE
open DE

/-- The strategies are affine combinations of points. -/
def AffineStrategy (s t : Nat → K) (strat : Strategy K p n) : Prop :=
  ∀ d F (X : Pop K p n) gb, strat d F (fun i => affine s t (X i)) (affine s t gb) = (strat d F X gb).map (affine s t)

theorem affine_strategyMap (s t : Nat → K) (name : String) {strat : Strategy K p n} (h : strategyMap name = .ok strat) :
    AffineStrategy s t strat := by
  intro d F X gb
  unfold strategyMap at h
  split_ifs at h <;> cases h
  · unfold rand1bin
    simp only [map_bind_ex]
    congr 1; funext i0; congr 1; funext i1; congr 1; funext i2
    show Except.ok _ = Except.ok _
    congr 1; funext j; unfold affine; ring
  · unfold rand2bin
    simp only [map_bind_ex]
    congr 1; funext i0; congr 1; funext i1; congr 1; funext i2; congr 1; funext i3; congr 1; funext i4
    show Except.ok _ = Except.ok _
    congr 1; funext j; unfold affine; ring
  · unfold best1bin
    simp only [map_bind_ex]
    congr 1; funext i0; congr 1; funext i1
    show Except.ok _ = Except.ok _
    congr 1; funext j; unfold affine; ring
  · unfold best2bin
    simp only [map_bind_ex]
    congr 1; funext i0; congr 1; funext i1; congr 1; funext i2; congr 1; funext i3
    show Except.ok _ = Except.ok _
    congr 1; funext j; unfold affine; ring

theorem crossover_affine (s t : Nat → K) (irand : Nat) (r1 : Vec K n) (CR : K) (V X : Vec K n) :
    crossover irand r1 CR (affine s t V) (affine s t X) = affine s t (crossover irand r1 CR V X) := by
  funext j
  unfold crossover affine
  dsimp only
  split_ifs <;> rfl

theorem randomRow_affine {s t : Nat → K} (hs : ∀ j, 0 < s j) (lower upper U u : Vec K n) :
    randomRow (affine s t lower) (affine s t upper) (affine s t U) u = affine s t (randomRow lower upper U u) := by
  funext j
  unfold randomRow affine
  simp only [affine_lt (hs j), unif_affine]
  split_ifs <;> rfl

theorem seqFin_map {ε α : Type} (m : α → α) : ∀ {p : Nat} (f : Fin p → Except ε α),
    seqFin (fun i => (f i).map m) = (seqFin f).map fun r i => m (r i) := by
  intro p
  induction p with
  | zero => intro f; unfold seqFin; show Except.ok _ = Except.ok _; congr 1; funext i; exact i.elim0
  | succ p ih =>
    intro f
    unfold seqFin
    simp only [map_bind_ex, bind_map_ex, ih]
    congr 1; funext a; congr 1; funext r
    show Except.ok _ = Except.ok _
    congr 1
    funext i
    refine Fin.cases ?_ (fun i => ?_) i <;> simp

theorem candSync_affine {s t : Nat → K} (hs : ∀ j, 0 < s j) {P P' : DE.Par σ K p n} (hR : P'.R = P.R) (hF : P'.F = P.F)
    (hCR : P'.CR = P.CR) (hst : P'.strat = P.strat) (hc : P'.cons = P.cons) (hl : P'.lower = affine s t P.lower)
    (hu : P'.upper = affine s t P.upper) (ha : AffineStrategy s t P.strat) (X : Pop K p n) (gb : Vec K n) (g : σ) :
    candSync P' (fun i => affine s t (X i)) (affine s t gb) g =
      (candSync P X gb g).map fun r => (fun i => affine s t (r.1 i), r.2) := by
  unfold candSync
  simp only [map_bind_ex]
  rw [hR, hF, hCR, hst, hc, hl, hu]
  have e := seqFin_map (affine s t)
    (fun i => P.strat (donors i ((drawVec (P.R.perm (p - 1)) p (drawMat P.R.rand p n g).2).1 i)) P.F X gb)
  simp only [← ha _ _ _ _] at e
  rw [e, bind_map_ex]
  congr 1; funext V; congr 1; funext _
  show Except.ok _ = Except.ok _
  congr 1
  unfold consPop
  cases P.cons with
  | none => refine Prod.ext ?_ rfl; funext i; exact crossover_affine ..
  | random =>
    refine Prod.ext ?_ rfl
    funext i
    dsimp only
    rw [crossover_affine, randomRow_affine hs]

theorem candAsync_affine {s t : Nat → K} (hs : ∀ j, 0 < s j) {P P' : DE.Par σ K p n} (hR : P'.R = P.R) (hF : P'.F = P.F)
    (hCR : P'.CR = P.CR) (hst : P'.strat = P.strat) (hc : P'.cons = P.cons) (hl : P'.lower = affine s t P.lower)
    (hu : P'.upper = affine s t P.upper) (ha : AffineStrategy s t P.strat) (r1 : Vec K n) (i : Fin p) (X : Pop K p n)
    (gb : Vec K n) (g : σ) :
    candAsync P' r1 i (fun i => affine s t (X i)) (affine s t gb) g =
      (candAsync P r1 i X gb g).map fun r => (affine s t r.1, r.2) := by
  unfold candAsync
  simp only [map_bind_ex]
  rw [hR, hF, hCR, hst, hc, hl, hu, ha, bind_map_ex]
  congr 1; funext V; congr 1; funext _
  show Except.ok _ = Except.ok _
  congr 1
  unfold consOne
  cases P.cons with
  | none => refine Prod.ext ?_ rfl; exact crossover_affine ..
  | random =>
    refine Prod.ext ?_ rfl
    dsimp only
    rw [crossover_affine, randomRow_affine hs]

end DE

section CPSO
open CPSO

theorem shrinkBeta_affine {s t : Nat → K} (hs : ∀ j, 0 < s j) (lower upper X V : Vec K n) :
    shrinkBeta (affine s t lower) (affine s t upper) (affine s t X) (affine s (fun _ => 0) V) = shrinkBeta lower upper X V := by
  have e1 : ∀ j : Fin n, (if affine s t X j + affine s (fun _ => 0) V j < affine s t lower j then
      some ((affine s t lower j - affine s t X j) / affine s (fun _ => 0) V j) else none) =
      if X j + V j < lower j then some ((lower j - X j) / V j) else none := by
    intro j
    have h1 : affine s t X j + affine s (fun _ => 0) V j = s j * (X j + V j) + t j := by unfold affine; ring
    have h2 : (affine s t lower j - affine s t X j) / affine s (fun _ => 0) V j = (lower j - X j) / V j := by
      unfold affine
      rw [show s j * lower j + t j - (s j * X j + t j) = s j * (lower j - X j) by ring, add_zero,
        mul_div_mul_left _ _ (hs j).ne']
    rw [h1, h2]
    show (if s j * (X j + V j) + t j < s j * lower j + t j then _ else _) = _
    simp only [affine_lt (hs j)]
  have e2 : ∀ j : Fin n, (if affine s t upper j < affine s t X j + affine s (fun _ => 0) V j then
      some ((affine s t upper j - affine s t X j) / affine s (fun _ => 0) V j) else none) =
      if upper j < X j + V j then some ((upper j - X j) / V j) else none := by
    intro j
    have h1 : affine s t X j + affine s (fun _ => 0) V j = s j * (X j + V j) + t j := by unfold affine; ring
    have h2 : (affine s t upper j - affine s t X j) / affine s (fun _ => 0) V j = (upper j - X j) / V j := by
      unfold affine
      rw [show s j * upper j + t j - (s j * X j + t j) = s j * (upper j - X j) by ring, add_zero,
        mul_div_mul_left _ _ (hs j).ne']
    rw [h1, h2]
    show (if s j * upper j + t j < s j * (X j + V j) + t j then _ else _) = _
    simp only [affine_lt (hs j)]
  unfold shrinkBeta
  simp only [e1, e2]

theorem mutation_affine {s t : Nat → K} (hs : ∀ j, 0 < s j) {P P' : CPSO.Par σ K n} (hw : P'.w = P.w) (h1 : P'.c1 = P.c1)
    (h2 : P'.c2 = P.c2) (hc : P'.cons = P.cons) (hl : P'.lower = affine s t P.lower)
    (hu : P'.upper = affine s t P.upper) (X V pb gb r1 r2 : Vec K n) :
    CPSO.mutation P' (affine s t X) (affine s (fun _ => 0) V) (affine s t pb) (affine s t gb) r1 r2 =
      (affine s t (CPSO.mutation P X V pb gb r1 r2).1, affine s (fun _ => 0) (CPSO.mutation P X V pb gb r1 r2).2) := by
  have e : (fun j => P.w * affine s (fun _ => 0) V j + P.c1 * r1 j * (affine s t pb j - affine s t X j) +
      P.c2 * r2 j * (affine s t gb j - affine s t X j)) =
      affine s (fun _ => 0) fun j => P.w * V j + P.c1 * r1 j * (pb j - X j) + P.c2 * r2 j * (gb j - X j) := by
    funext j
    unfold affine
    ring
  unfold CPSO.mutation
  rw [hw, h1, h2, hc, hl, hu]
  dsimp only
  rw [e]
  generalize (fun j => P.w * V j + P.c1 * r1 j * (pb j - X j) + P.c2 * r2 j * (gb j - X j)) = W
  unfold consRow
  cases P.cons with
  | none => refine Prod.ext ?_ rfl; funext j; dsimp only; unfold affine; ring
  | shrink =>
    dsimp only
    rw [shrinkBeta_affine hs]
    refine Prod.ext ?_ ?_ <;> · funext j; dsimp only; unfold affine; ring

variable [FloorRing K] [NumFns K]

/-- Without restarts any positive units will do; with restarts only the origin may change. -/
theorem post_affine {s t : Nat → K} {P P' : CPSO.Par σ K n} (hR : P'.R = P.R) (hs : P'.argsort = P.argsort)
    (hl : P'.lower = affine s t P.lower) (hu : P'.upper = affine s t P.upper) (hg : P'.gamma = P.gamma)
    (hm : P'.maxiter = P.maxiter) (hc : P.gamma = none ∨ P.gamma = some 0 ∨ s = fun _ => 1) (it : Nat)
    (st : CPSO.State σ K p n) :
    CPSO.post P' it (st.map (fun v => v) (affine s t) (affine s fun _ => 0)) =
      (CPSO.post P it st).map (fun v => v) (affine s t) (affine s fun _ => 0) := by
  unfold CPSO.post
  rw [hg]
  rcases hc with h | h | h1
  · rw [h]
  · rw [h]; simp
  · cases P.gamma with
    | none => rfl
    | some gm =>
      dsimp only
      split_ifs with h0
      · rfl
      · have hsm : ∀ dl : K, swarmSmall (fun i => affine s t (st.X i)) (affine s t st.gbest) dl = swarmSmall st.X st.gbest dl := by
          intro dl
          unfold swarmSmall
          have e : ∀ i, (ArrayOps.sum fun j => (affine s t (st.X i) j - affine s t st.gbest j) ^ 2) = ArrayOps.sum fun j => (st.X i j - st.gbest j) ^ 2 := by
            intro i
            refine Finset.sum_congr rfl fun j _ => ?_
            rw [h1]; unfold affine; ring
          simp only [e]
        unfold CPSO.restart
        rw [hm]
        show (if CPSO.swarmSmall (fun i => affine s t (st.X i)) (affine s t st.gbest) _ = true then _ else _) = _
        rw [hsm]
        split_ifs
        · unfold CPSO.resetWorst
          dsimp only [CPSO.State.map]
          rw [hs, hR, hl, hu]
          congr 1
          · funext q
            cases restartPos P.argsort st.pbestfit _ q with
            | none => rfl
            | some w => funext j; exact unif_affine ..
          · funext q
            cases restartPos P.argsort st.pbestfit _ q with
            | none => rfl
            | some w => funext j; unfold affine; simp
          · funext q
            cases restartPos P.argsort st.pbestfit _ q with
            | none => rfl
            | some w => funext j; exact unif_affine ..
          · refine Eq.trans ?_ (writeThrough_map _ _ _)
            congr 1
            funext q
            cases restartPos P.argsort st.pbestfit _ q with
            | none => rfl
            | some w => funext j; exact unif_affine ..
        · rfl
        · rfl

end CPSO

section NA
open NA

theorem spanMask_affine {s t : Nat → K} (hs : ∀ j, 0 < s j) (lower upper : Vec K n) :
    spanMask (affine s t lower) (affine s t upper) = spanMask lower upper := by
  funext j
  unfold spanMask affine
  rw [show s j * upper j + t j - (s j * lower j + t j) = s j * (upper j - lower j) by ring]
  simp only [mul_pos_iff_of_pos_left (hs j)]

theorem unnormalize_affine {s t : Nat → K} (hs : ∀ j, 0 < s j) (lower upper x : Vec K n) :
    unnormalize (affine s t lower) (affine s t upper) x = affine s t (unnormalize lower upper x) := by
  funext j
  unfold unnormalize
  rw [spanMask_affine hs]
  unfold affine
  dsimp only
  split_ifs
  · ring
  · rfl

theorem normalize_affine {s t : Nat → K} (hs : ∀ j, 0 < s j) {lower upper : Vec K n} (hb : ∀ j, lower j < upper j) (x : Vec K n) :
    NA.normalize (affine s t lower) (affine s t upper) (affine s t x) = NA.normalize lower upper x := by
  funext j
  unfold NA.normalize
  rw [spanMask_affine hs]
  have hm : spanMask lower upper j = true := by unfold spanMask; exact decide_eq_true (sub_pos.2 (hb j))
  rw [if_pos hm, if_pos hm]
  unfold affine
  rw [show s j * x j + t j - (s j * lower j + t j) = s j * (x j - lower j) by ring,
    show s j * upper j + t j - (s j * lower j + t j) = s j * (upper j - lower j) by ring, mul_div_mul_left _ _ (hs j).ne']

end NA

end Stochopy
