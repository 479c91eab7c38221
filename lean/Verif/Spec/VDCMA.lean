import Verif.Spec.CMA
import Verif.Spec.NatGrad

/-!
# Vocabulary: VD-CMA

The evolution strategy of Y. Akimoto, A. Auger, N. Hansen, *Comparison-based natural gradient optimization in high dimension*, with the
covariance matrix `D (I + v vᵀ) D`, the constants of stochopy and two-point step-size adaptation.
-/

namespace Stochopy.Spec.VD
noncomputable section
open CMA

/-- Learning rates, damped in low dimension. -/
def c1 (n mu : Nat) : ℝ := (n - 5) / 6 * (2 / ((n + 1.3) ^ 2 + mueff mu))
def cmu (n mu : Nat) : ℝ := min (1 - c1 n mu) ((n - 5) / 6 * (2 * (mueff mu - 2 + 1 / mueff mu) / ((n + 2) ^ 2 + mueff mu)))

/-- Mean, step size, diagonal `d` and direction `v` of the covariance matrix, smoothed success of the last step, evolution path. -/
structure Dist (n : Nat) where
  m : Vec ℝ n
  sigma : ℝ
  d : Vec ℝ n
  v : Vec ℝ n
  ps : ℝ
  pc : Vec ℝ n

/-- Weighted log-likelihood of the selected steps, and of the evolution path if `short`. -/
def logLik {n mu : Nat} (y : Fin mu → Vec ℝ n) (short : Bool) (pc d v : Vec ℝ n) : ℝ :=
  cmu n mu * ∑ k, w mu k * logDensity (covVD d v) (y k) + if short then c1 n mu * logDensity (covVD d v) pc else 0

/-- The scaling of the mixed blocks of the Fisher information matrix. -/
def Alpha {n : Nat} (v : Vec ℝ n) (al : ℝ) : Prop :=
  ∃ M, IsGreatest (Set.range fun j => v j ^ 2 / ∑ i, v i ^ 2) M ∧
    al = min 1 (Real.sqrt ((∑ i, v i ^ 2) ^ 2 + (1 + ∑ i, v i ^ 2) / M * (2 - 1 / Real.sqrt (1 + ∑ i, v i ^ 2))) / (2 + ∑ i, v i ^ 2))

/-- `up` is the longest step up to 1 that changes no entry of `d` by more than 70 percent, and `v` by no more than 70 percent of
its length. -/
def Truncation {n : Nat} (d v gv gd : Vec ℝ n) (up : ℝ) : Prop :=
  IsGreatest {u | u ≤ 1 ∧ u * len gv ≤ 0.7 * len v ∧ ∀ j, u * |gd j| ≤ 0.7 * d j} up

/-- The change of `d` and `v`: none in five dimensions or fewer, otherwise along the natural gradient. -/
def Adapt {n mu : Nat} (y : Fin mu → Vec ℝ n) (short : Bool) (pc d v d' v' : Vec ℝ n) : Prop :=
  (n ≤ 5 → d' = d ∧ v' = v) ∧
  (6 ≤ n → ∃ (al up : ℝ) (gv gd : Vec ℝ n), Alpha v al ∧ NaturalGradient al (logLik y short pc) d v gv gd ∧
    Truncation d v gv gd up ∧ (∀ j, d' j = d j + up * gd j) ∧ ∀ j, v' j = v j + up * gv j)

/-- Generation `g` (counted from 1) turns `s` into `s'`.  `y` are its steps and `ord` lists the individuals, best first. -/
structure Update {p n mu : Nat} (g : Nat) (hmu : mu ≤ p) (ord : Equiv.Perm (Fin p)) (y : Pop ℝ p n) (s s' : Dist n) : Prop where
  mean : ∀ j, s'.m j = s.m j + s.sigma * step (fun k : Fin mu => y (ord (Fin.castLE hmu k))) j
  /-- nothing is known about the step size in the first generation -/
  first : g = 1 → s'.ps = s.ps ∧ s'.sigma = s.sigma
  /-- later, the ranks of the two individuals placed along the last step of the mean are compared -/
  size : 1 < g → ∃ hp : 1 < p,
    s'.ps = 0.7 * s.ps + 0.3 * ((((ord.symm ⟨1, hp⟩).val : ℝ) - (ord.symm ⟨0, by omega⟩).val) / (p - 1)) ∧
    s'.sigma = s.sigma * Real.exp (s'.ps / Real.sqrt n)
  pc_short : s'.ps < 1 / 2 → ∀ j, s'.pc j = (1 - cc n mu) * s.pc j +
    Real.sqrt (cc n mu * (2 - cc n mu) * mueff mu) * step (fun k : Fin mu => y (ord (Fin.castLE hmu k))) j
  pc_long : ¬ s'.ps < 1 / 2 → ∀ j, s'.pc j = (1 - cc n mu) * s.pc j
  shape_short : s'.ps < 1 / 2 → Adapt (fun k : Fin mu => y (ord (Fin.castLE hmu k))) true s'.pc s.d s.v s'.d s'.v
  shape_long : ¬ s'.ps < 1 / 2 → Adapt (fun k : Fin mu => y (ord (Fin.castLE hmu k))) false s'.pc s.d s.v s'.d s'.v

/-- The first distribution; `z` is a standard normal vector. -/
structure Start {n : Nat} (sigma : ℝ) (z : Vec ℝ n) (s : Dist n) : Prop where
  sigma : s.sigma = sigma
  d : s.d = fun _ => 1
  v : s.v = fun j => z j / Real.sqrt n
  ps : s.ps = 0
  pc : s.pc = fun _ => 0

/-- A run of `nit` generations; see `CMA.Run`.  The first direction is drawn in state `g0` of the generator.  The symmetric root of
`I + v vᵀ` is `S k`.  From the second generation on the first two points are placed at the same distance from the mean, one in the direction of its last
step and one in the opposite direction; the distance is the length of a normal vector, measured with the covariance matrix. -/
structure Run {σ : Type} {p n : Nat} (randn : σ → ℝ × σ) {mu : Nat} (hmu : mu ≤ p) (maxiter : Int) (xtol : ℝ) (ftol : Val ℝ) (sigma0 : ℝ)
    (g0 : σ) (D : Nat → Dist n) (S : Nat → Matrix (Fin n) (Fin n) ℝ) (gs : Nat → σ) (X : Nat → Pop ℝ p n) (F : Nat → Fin p → Val ℝ)
    (b : Nat → Val ℝ) (nit : Nat) (status : Int) : Prop where
  start : Start sigma0 (drawVec randn n g0).1 (D 0)
  first : gs 0 = (drawVec randn n g0).2
  root : ∀ k < nit, Sym (S k) ∧ PosDef (S k) ∧ S k * S k = 1 + Matrix.vecMulVec (D k).v (D k).v
  draw : ∀ k < nit, gs (k + 1) = if k = 0 then (drawMat randn p n (gs k)).2 else (drawVec randn n (drawMat randn p n (gs k)).2).2
  points : ∀ k < nit, ∀ i : Fin p, k = 0 ∨ 2 ≤ i.val → ∀ j,
    X k i j = (D k).m j + (D k).sigma * ((D k).d j * (S k).mulVec ((drawMat randn p n (gs k)).1 i) j)
  mirrored : ∀ k < nit, 0 < k → ∃ (hp : 1 < p) (t : ℝ), 0 ≤ t ∧
    (∀ j, X k ⟨0, by omega⟩ j = (D k).m j + (D k).sigma * (t * ((D k).m j - (D (k - 1)).m j))) ∧
    (∀ j, X k ⟨1, hp⟩ j = (D k).m j - (D k).sigma * (t * ((D k).m j - (D (k - 1)).m j))) ∧
    quad (covVD (D k).d (D k).v)⁻¹ (fun j => t * ((D k).m j - (D (k - 1)).m j)) =
      ∑ j, (drawVec randn n (drawMat randn p n (gs k)).2).1 j ^ 2
  update : ∀ k < nit, ∃ ord : Equiv.Perm (Fin p), (∀ i j, i ≤ j → sortLe (F k (ord i)) (F k (ord j))) ∧
    Update (k + 1) hmu ord (fun i j => (X k i j - (D k).m j) / (D k).sigma) (D k) (D (k + 1))
  best : ∀ k < nit, IsBest (F k) (b k)
  /-- the variances the rules look at combine the new step size with the old covariance matrix -/
  stop : ∀ k < nit, FirstHolds
    (stopRules maxiter xtol ftol ⌊10 + 30 * (n : ℝ) / p⌋₊ sigma0
      { it := k + 1, old := (D k).m, new := (D (k + 1)).m, best := b, fit := F k, sigma := (D (k + 1)).sigma, pc := (D (k + 1)).pc
        var := fun j => (D (k + 1)).sigma ^ 2 * covVD (D k).d (D k).v j j, axes := none })
    (if k + 1 = nit then some status else none)

end
end Stochopy.Spec.VD
