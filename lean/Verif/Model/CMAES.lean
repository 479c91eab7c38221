import Verif.Model.Evo

/-!
# Model of `stochopy/optimize/cmaes/_cmaes.py`
-/

namespace Stochopy.CMAES

open Evo

variable {K σ : Type} [Zero K] [One K] [Add K] [Sub K] [Mul K] [Div K] [Neg K] [NatCast K] [IntCast K] [Pow K ℕ]
  [ArrayOps K] [LinearOrder K] [NumFns K]

/-! ## Strategy parameters — /repo/stochopy/optimize/cmaes/_cmaes.py:191-205 -/

/-- line 193 -/
def cs (n : Nat) (me : K) : K := (me + 2) / ((n : K) + me + 5)
/-- line 194 -/
def c1 (n : Nat) (me : K) : K := 2 / (((n : K) + 13 / 10) ^ 2 + me)
/-- line 195 -/
def cmu (n : Nat) (me : K) : K := min (1 - c1 n me) (2 * (me - 2 + 1 / me) / (((n : K) + 2) ^ 2 + me))
/-- line 196 -/
def damps (n : Nat) (me : K) : K := 1 + 2 * max 0 (NumFns.sqrt ((me - 1) / ((n : K) + 1)) - 1) + cs n me
/-- line 205 -/
def chind (n : Nat) : K := NumFns.sqrt (n : K) * (1 - 1 / (4 * (n : K)) + 1 / (21 * (n : K) ^ 2))

/-- `np.linalg.norm` -/
def norm {n : Nat} (v : Vec K n) : K := NumFns.sqrt (ArrayOps.sum fun j => v j ^ 2)

/-- `np.linalg.eigh`: eigenvalues and the matrix whose columns are the eigenvectors. -/
abbrev Eigh (K : Type) := (n : Nat) → Matrix (Fin n) (Fin n) K → Vec K n × Matrix (Fin n) (Fin n) K

/-- The variables of the Gaussian model. -/
structure State (σ K : Type) (n : Nat) where
  xmean : Vec K n
  xold : Vec K n
  pc : Vec K n
  ps : Vec K n
  B : Matrix (Fin n) (Fin n) K
  D : Vec K n
  C : Matrix (Fin n) (Fin n) K
  invsqrtC : Matrix (Fin n) (Fin n) K
  sigma : K
  eigeneval : Nat
  rng : σ

/-- Parameters that do not change during a run. -/
structure Par (σ K : Type) (p n : Nat) where
  R : Rng σ K
  srt : Argsort K
  eigh : Eigh K
  mu : Nat
  hmu : mu ≤ p

section
variable {p n : Nat}

/-- `np.random.randn(ndim)` for every individual — line 234: `xmean + sigma * np.dot(B, D * z)`. -/
def sample (P : Par σ K p n) (s : State σ K n) : Except PyErr (Pop K p n × State σ K n) :=
  let z := drawMat P.R.randn p n s.rng
  .ok (fun i j => s.xmean j + s.sigma * ArrayOps.dot (s.B j) fun k => s.D k * z.1 i k,
    { s with
      rng := z.2 })

/-- `cond` — lines 283-285; the exponent `2.0 * nfev / popsize` is a whole number. -/
def hsig (n p : Nat) (me : K) (nfev : Nat) (ps : Vec K n) : Bool :=
  decide (norm ps / NumFns.sqrt (1 - (1 - cs n me) ^ (2 * nfev / p)) / chind n < 7 / 5 + 2 / ((n : K) + 1))

/-- The new covariance matrix — lines 290-295. -/
def adapt (h : Par σ K p n) (me : K) (arx : Pop K p n) (order : Equiv.Perm (Fin p)) (xold : Vec K n) (sigma : K)
    (pc : Vec K n) (cond : Bool) (C : Matrix (Fin n) (Fin n) K) : Matrix (Fin n) (Fin n) K :=
  let y : Fin h.mu → Vec K n := fun k j => (arx (order (Fin.castLE h.hmu k)) j - xold j) / sigma
  fun i j =>
    C i j * (1 - c1 n me - cmu n me)
      + cmu n me * ArrayOps.dot (fun k => y k i * weights h.mu k) (fun k => y k j)
      + c1 n me * (pc i * pc j)
      + if cond then 0 else c1 n me * cc n me * (2 - cc n me) * C i j

/-- `np.triu(C) + np.triu(C, 1).T` — line 303. -/
def mirror (C : Matrix (Fin n) (Fin n) K) : Matrix (Fin n) (Fin n) K := fun i j => if i ≤ j then C i j else C j i

/-- Diagonalisation — lines 303-309.  The model stops when an eigenvalue is not positive: its root is NaN or the division
`1.0 / D` infinite. -/
def diagonalize (P : Par σ K p n) (s : State σ K n) (nfev : Nat) : Except PyErr (State σ K n) := do
  let C := mirror s.C
  let e := P.eigh n C
  let idx := P.srt n fun i => .fin (e.1 i)
  let D : Vec K n := fun i => e.1 (idx i)
  let B : Matrix (Fin n) (Fin n) K := fun i j => e.2 i (idx j)
  need (∀ j, 0 < D j)
  let D : Vec K n := fun i => NumFns.sqrt (D i)
  .ok { s with
        C := C
        D := D
        B := B
        invsqrtC := fun i j => ArrayOps.dot (fun k => B i k * (1 / D k)) (B j)
        eigeneval := nfev }

/-- `ps` — lines 280-282. -/
def psNext (n : Nat) (me : K) (s : State σ K n) (xmean : Vec K n) : Vec K n := fun j =>
  (1 - cs n me) * s.ps j +
    NumFns.sqrt (cs n me * (2 - cs n me) * me) * ArrayOps.dot (s.invsqrtC j) (fun k => xmean k - s.xmean k) / s.sigma

/-- `pc` — lines 286-287. -/
def pcNext (n : Nat) (me : K) (s : State σ K n) (xmean : Vec K n) (cond : Bool) : Vec K n := fun j =>
  s.pc j * (1 - cc n me) +
    if cond then NumFns.sqrt (cc n me * (2 - cc n me) * me) * (xmean j - s.xmean j) / s.sigma else 0

/-- `sigma` — line 298. -/
def sigmaNext (n : Nat) (me sigma : K) (ps : Vec K n) : K :=
  sigma * NumFns.exp (cs n me / damps n me * (norm ps / chind n - 1))

/-- The adaptation — lines 273-298. -/
def advance (P : Par σ K p n) (nfev : Nat) (arx : Pop K p n) (order : Equiv.Perm (Fin p)) (s : State σ K n) :
    State σ K n :=
  let me : K := mueff P.mu
  let xmean := recombine P.hmu (weights P.mu) order arx                                 -- line 274
  let ps := psNext n me s xmean
  let cond := hsig n p me nfev ps
  let pc := pcNext n me s xmean cond
  { s with
    xmean := xmean
    xold := s.xmean                                                                     -- line 273
    pc := pc
    ps := ps
    C := adapt P me arx order s.xmean s.sigma pc cond s.C
    sigma := sigmaNext n me s.sigma ps }

/-- From the sorted population to `converge` — lines 273-309. -/
def update (P : Par σ K p n) (nfev : Nat) (arx : Pop K p n) (order : Equiv.Perm (Fin p)) (s : State σ K n) :
    Except PyErr (State σ K n) := do
  let me : K := mueff P.mu
  need (0 < s.sigma ∧ 0 < 1 - (1 - cs n me) ^ (2 * nfev / p))
  let s' := advance P nfev arx order s
  if (p : K) / (c1 n me + cmu n me) / (n : K) / 10 < ((nfev - s.eigeneval : Nat) : K) then diagonalize P s' nfev
  else .ok s'

/-- `cmaes` as an instance of the frame. -/
def gauss (P : Par σ K p n) : Gauss (State σ K n) K p n where
  sample := sample P
  mean := State.xmean
  old := State.xold
  sigma := State.sigma
  diagC s := fun j => s.C j j
  update := update P
  pc := State.pc
  diagConv s := fun j => s.C j j
  axes s := some (s.B, s.D)

/-- Initial state — lines 180-181, 199-204, 222. -/
def start (xmean xold : Vec K n) (sigma : K) (g : σ) : State σ K n :=
  { xmean := xmean, xold := xold, pc := fun _ => 0, ps := fun _ => 0, B := 1, D := fun _ => 1, C := 1, invsqrtC := 1,
    sigma := sigma, eigeneval := 0, rng := g }

end

/-- `minimize` — /repo/stochopy/optimize/cmaes/_cmaes.py:12-357.  `junk` is the content of the uninitialised array
`xold = np.empty(ndim)`.  Runs without dimensions, individuals or parents are not modelled. -/
def minimize [IntParts K] (env : Env) (R : Rng σ K) (srt : Argsort K) (eigh : Eigh K) (fuel : Nat) (a : Args K)
    (junk : Vec K a.ndim) (g : σ) : Except PyErr (Output σ K a.p a.ndim) := do
  a.validate
  match a.fn with
  | none => .error .typeError
  | some fn =>
    optimizer env fn true a.workers a.backend fun obj => do
      a.unpackBounds                                                       -- line 165
      let pen ← consMap a.constraints
      let m ← a.firstMean R (a.seeded R g)
      if h : 0 < a.ndim ∧ 0 < a.p ∧ 0 < a.mu ∧ a.mu ≤ a.p then
        let P : Par σ K a.p a.ndim := { R := R, srt := srt, eigh := eigh, mu := a.mu, hmu := h.2.2.2 }
        run (a.par srt obj pen) (gauss P) a.cfg State.rng fuel (start m.1 junk a.sigma m.2)
      else .error .unmodelled

end Stochopy.CMAES
