import Verif.Model.Driver
import Mathlib.Data.Matrix.Mul

/-!
# What `cmaes` and `vdcma` share

The functions `cmaes` (/repo/stochopy/optimize/cmaes/_cmaes.py:144-357) and `vdcma`
(/repo/stochopy/optimize/vdcma/_vdcma.py:145-423) have the same frame: standardised coordinates, evaluation with or without
`Penalize`, recording, sorting, `converge`, callback, result.  The frame is modelled once; the Gaussian model that
differs is passed as a `Gauss`.
-/

namespace Stochopy.Evo

variable {K σ S : Type} [Zero K] [One K] [Add K] [Sub K] [Mul K] [Div K] [Neg K] [NatCast K] [IntCast K] [Pow K ℕ]
  [ArrayOps K] [LinearOrder K]

/-- Marks the places where the code would leave the finite floats. -/
def need (P : Prop) [Decidable P] : Except PyErr Unit := if P then .ok () else .error .unmodelled

/-- `standardize = lambda x: (x - xm) / xstd` — /repo/stochopy/optimize/cmaes/_cmaes.py:168-170, vdcma/_vdcma.py:169-171. -/
def standardize {n : Nat} (lower upper x : Vec K n) : Vec K n := fun j =>
  (x j - 1 / 2 * (upper j + lower j)) / (1 / 2 * (upper j - lower j))

/-- `unstandardize = lambda x: x * xstd + xm` — /repo/stochopy/optimize/cmaes/_cmaes.py:171, vdcma/_vdcma.py:172. -/
def unstandardize {n : Nat} (lower upper x : Vec K n) : Vec K n := fun j =>
  x j * (1 / 2 * (upper j - lower j)) + 1 / 2 * (upper j + lower j)

/-! ## Array reductions on floats -/

/-- `max` of two floats as in `np.max` (NaN propagates). -/
def npMax (a b : Val K) : Val K := if a.isNan then a else if b.isNan then b else if a < b then b else a
/-- `min` of two floats as in `np.min` (NaN propagates). -/
def npMin (a b : Val K) : Val K := if a.isNan then a else if b.isNan then b else if b < a then b else a

/-- `a.max() - a.min() < eps` of a non-empty array. -/
def rangeLt (l : List (Val K)) (eps : K) : Bool :=
  match l with
  | [] => false
  | v :: t => decide (t.foldl npMax v - t.foldl npMin v < .fin eps)

/-- `a.min()`, raising ValueError on the empty array. -/
def npMinList (l : List (Val K)) : Except PyErr (Val K) :=
  match l with
  | [] => .error .valueError
  | v :: t => .ok (t.foldl npMin v)

/-- Sum of floats. -/
def vsum {n : Nat} (v : Fin n → Val K) : Val K := (List.finRange n).foldl (fun a j => a + v j) (.fin 0)

/-- Entry `k` of the sorted array. -/
def sorted (srt : Argsort K) {m : Nat} (v : Fin m → Val K) (k : Nat) : Val K :=
  if h : k < m then v (srt m v ⟨k, h⟩) else .nan

/-- NumPy's interpolation between neighbours (`numpy.lib._function_base_impl._lerp`). -/
def lerp (a b : Val K) (t : K) : Val K :=
  if 1 / 2 ≤ t then b - (b - a) * .fin (1 - t) else a + (b - a) * .fin t

/-- `np.percentile(v, 100 * q)`, method 'linear'; NaN if an entry is NaN. -/
def percentile [IntParts K] (srt : Argsort K) {m : Nat} (v : Fin m → Val K) (q : K) : Val K :=
  if ∃ i, (v i).isNan = true then .nan
  else
    let h := q * ((m : K) - 1)
    let i := (IntParts.floor h).toNat
    lerp (sorted srt v i) (sorted srt v (min (i + 1) (m - 1))) (h - (i : K))

/-- `np.median`. -/
def median (srt : Argsort K) (l : List (Val K)) : Val K :=
  if l.any Val.isNan then .nan
  else if l.length % 2 = 1 then sorted srt l.get (l.length / 2)
  else Val.divBy (sorted srt l.get (l.length / 2 - 1) + sorted srt l.get (l.length / 2)) 2

/-- `np.sign`. -/
def sgn (a : K) : Int := if 0 < a then 1 else if a < 0 then -1 else 0

/-! ## `Penalize` — /repo/stochopy/optimize/cmaes/_constraints.py:4-82 -/

/-- The variables handed to and returned by `Penalize`: `bnd_weights`, `dfithist`, `validfitval`, `iniphase`. -/
structure Pen (K : Type) (n : Nat) where
  w : Vec (Val K) n
  hist : List (Val K)
  valid : Bool
  ini : Bool

/-- Initial values — /repo/stochopy/optimize/cmaes/_cmaes.py:208-209, 223-224, vdcma/_vdcma.py:216-217, 230-231. -/
def Pen.start (n : Nat) : Pen K n := { w := fun _ => .fin 0, hist := [.fin 1], valid := false, ini := true }

section
variable [NumFns K] [IntParts K] {p n : Nat}

/-- Clipping to `[-1, 1]` — lines 30-31. -/
def clip (x : Vec K n) : Vec K n := fun j => if x j < -1 then -1 else if 1 < x j then 1 else x j

/-- `delta` — lines 35-36. -/
def fitRange (srt : Argsort K) (fit : Fin p → Val K) (sigma : K) (diagC : Vec K n) : Val K :=
  Val.divBy (Val.divBy (Val.divBy (percentile srt fit (3 / 4) - percentile srt fit (1 / 4)) (n : K))
    (ArrayOps.sum diagC / (n : K))) (sigma ^ 2)

/-- `dfithist[dfithist > 0.0].min()` — line 40. -/
def positiveMin (hist : List (Val K)) : Except PyErr (Val K) := npMinList (hist.filter fun d => decide (.fin 0 < d))

/-- Appending to a history of limited length — lines 46-49. -/
def push (n p : Nat) (hist : List (Val K)) (delta : Val K) : List (Val K) :=
  if (hist.length : K) < 20 + 3 * (n : K) / (p : K) then hist ++ [delta] else hist.tail ++ [delta]

/-- The history — lines 35-49.  Returns `dfithist` and `validfitval`. -/
def history (srt : Argsort K) (fit : Fin p → Val K) (sigma : K) (diagC : Vec K n) (pen : Pen K n) :
    Except PyErr (List (Val K) × Bool) :=
  let delta := fitRange srt fit sigma diagC
  if delta = .fin 0 then (positiveMin pen.hist).map fun d => (push n p pen.hist d, pen.valid)       -- lines 39-40
  else .ok (push n p (if pen.valid then pen.hist else []) delta, true)                  -- lines 41-43

/-- `ti` — line 52. -/
def outside (xmean : Vec K n) (j : Fin n) : Bool := decide (xmean j < -1) || decide (1 < xmean j)

/-- `tx = xmean - tx` with `tx = np.where(xmean > ones, ones, xmean)`, which overwrites line 53 — lines 53-54, 63. -/
def overshoot (xmean : Vec K n) (j : Fin n) : K := xmean j - if 1 < xmean j then 1 else xmean j

/-- `w * 1.2 ** min(1.0, mueff / 10.0 / ndim)` — line 71. -/
def growth (n : Nat) (mueff : K) : K := NumFns.pow (6 / 5) (min 1 (mueff / 10 / (n : K)))

/-- `bnd_weights` after lines 57-74; also `iniphase`. -/
def weightsUpdate (srt : Argsort K) (xmean xold : Vec K n) (sigma : K) (diagC : Vec K n) (mueff : K) (it : Nat)
    (hist : List (Val K)) (valid : Bool) (pen : Pen K n) : Vec (Val K) n × Bool :=
  let any := decide (∃ j, outside xmean j = true)
  let w : Vec (Val K) n := if pen.ini && any then fun _ => .fin (20002 / 10000) * median srt hist else pen.w  -- lines 57-58
  let ini := if pen.ini && any && valid && decide (2 < it) then false else pen.ini      -- lines 59-60
  let w' : Vec (Val K) n := fun j =>
    if any && outside xmean j &&
        decide (3 * max 1 (NumFns.sqrt ((n : K) / mueff)) * sigma * NumFns.sqrt (diagC j) < absv (overshoot xmean j)) &&
        decide (sgn (overshoot xmean j) = sgn (xmean j - xold j))                       -- lines 62-68
    then w j * .fin (growth n mueff) else w j                                           -- lines 69-74
  (w', ini)

/-- `bnd_scale` — line 77. -/
def bndScale (diagC : Vec K n) (j : Fin n) : K :=
  NumFns.exp (9 / 10 * (NumFns.log (diagC j) - (ArrayOps.sum fun i => NumFns.log (diagC i)) / (n : K)))

/-- The penalty of one candidate — line 80. -/
def penalty (diagC : Vec K n) (w : Vec (Val K) n) (valid x : Vec K n) : Val K :=
  vsum fun j => .fin ((valid j - x j) ^ 2) * Val.divBy (w j) (bndScale diagC j)

/-- `Penalize`; `fit` is `fun`.  Returns `arfitness`, `arxvalid` and the other four. -/
def penalize (srt : Argsort K) (fit : Pop K p n → Fin p → Val K) (arx : Pop K p n) (xmean xold : Vec K n) (sigma : K)
    (diagC : Vec K n) (mueff : K) (it : Nat) (pen : Pen K n) :
    Except PyErr ((Fin p → Val K) × Pop K p n × Pen K n) := do
  need (0 < n ∧ 0 < p ∧ 0 < sigma ∧ 0 < mueff ∧ ∀ j, 0 < diagC j)
  let valid : Pop K p n := fun i => clip (arx i)
  let f := fit valid                                                                    -- line 32
  let h ← history srt f sigma diagC pen
  let w := weightsUpdate srt xmean xold sigma diagC mueff it h.1 h.2 pen
  .ok (fun i => f i + penalty diagC w.1 (valid i) (arx i), valid, { w := w.1, hist := h.1, valid := h.2, ini := w.2 })

end

/-! ## `converge` — /repo/stochopy/optimize/cmaes/_cmaes.py:360-434 -/

section
variable [NumFns K] {p n : Nat}

/-- `converge`.  `best` is `arfitness[arindex[0]]`, `axes` is `(B, D)` when passed.  `D.max() > 1e7 * D.min()` is written
with quantifiers, and `sigma * sqdiagC.max() < eps` (`sigma > 0`) as a statement about every entry (multiplying by a positive
number is monotone, with or without rounding). -/
def converge (it : Nat) (maxiter : Int) (xmean xold : Vec K n) (arbest : List (Val K)) (fit : Fin p → Val K)
    (best : Val K) (sigma insigma : K) (ilim : Nat) (pc : Vec K n) (xtol : K) (ftol : Val K) (diagC : Vec K n)
    (axes : Option (Matrix (Fin n) (Fin n) K × Vec K n)) : Option Int :=
  let sq : Vec K n := fun j => NumFns.sqrt (diagC j)                                    -- line 382
  let noEffectAxis := match axes with                                                   -- lines 381, 397
    | none => false
    | some (B, D) =>
      if h : 0 < n then
        let i : Fin n := ⟨it % n, Nat.mod_lt _ h⟩
        decide (∀ j, absv (1 / 10 * sigma * B j i * D i) < 1 / 10 ^ 10)
      else false
  let conditionCov := match axes with                                                   -- line 405
    | none => false
    | some (_, D) => decide (∃ i j, 10 ^ 7 * D j < D i)
  if maxiter ≤ (it : Int) then some (-1)                                                -- lines 385-386
  else if distLe xold xmean xtol && decide (best < ftol) then some 0                    -- lines 389-390
  else if best ≤ ftol then some 1                                                       -- lines 393-394
  else if noEffectAxis then some (-2)
  else if ∃ j, 1 / 5 * sigma * sq j < 1 / 10 ^ 10 then some (-3)                        -- lines 401-402
  else if conditionCov then some (-4)
  else if ilim ≤ it ∧ rangeLt ((arbest.take (it + 1)).drop (it - ilim)) (1 / 10 ^ 10) = true then some (-5)  -- lines 409-415
  else if ∃ j, 10 ^ 3 * insigma < sigma * sq j then some (-6)                           -- lines 418-419
  else if 2 < it ∧ rangeLt (List.ofFn fit ++ arbest) (1 / 10 ^ 12) = true then some (-7)                     -- lines 422-428
  else if (∀ j, sigma * absv (pc j) < 1 / 10 ^ 11 * insigma) ∧ ∀ j, sigma * sq j < 1 / 10 ^ 11 * insigma then some (-8)  -- lines 431-432
  else none

end

/-! ## Selection parameters -/

section
variable [NumFns K]

/-- `np.log(mu + 0.5) - np.log(np.arange(1, mu + 1))` — /repo/stochopy/optimize/cmaes/_cmaes.py:187, vdcma/_vdcma.py:188. -/
def rawWeight (mu : Nat) (k : Fin mu) : K := NumFns.log ((mu : K) + 1 / 2) - NumFns.log ((k.val : K) + 1)

/-- `weights /= weights.sum()` — cmaes line 188, vdcma line 189. -/
def weights (mu : Nat) : Vec K mu := fun k => rawWeight mu k / ArrayOps.sum (rawWeight (K := K) mu)

/-- `mueff` — cmaes line 189, vdcma line 190. -/
def mueff (mu : Nat) : K := ArrayOps.sum (weights (K := K) mu) ^ 2 / ArrayOps.sum fun k => weights (K := K) mu k ^ 2

/-- `cc` — cmaes line 192, vdcma line 193. -/
def cc (n : Nat) (me : K) : K := (4 + me / (n : K)) / ((n : K) + 4 + 2 * me / (n : K))

end

/-- `np.dot(weights, a[arindex[:mu]])`. -/
def recombine {p n mu : Nat} (h : mu ≤ p) (w : Vec K mu) (order : Equiv.Perm (Fin p)) (a : Pop K p n) : Vec K n :=
  fun j => ArrayOps.dot w fun k => a (order (Fin.castLE h k)) j

/-! ## The frame -/

/-- What differs between `cmaes` and `vdcma`. -/
structure Gauss (S K : Type) (p n : Nat) where
  /-- the new population `arx` -/
  sample : S → Except PyErr (Pop K p n × S)
  mean : S → Vec K n
  old : S → Vec K n
  sigma : S → K
  /-- the variances passed to `Penalize` -/
  diagC : S → Vec K n
  /-- from the sorted population to the call of `converge`; the first argument is `nfev` -/
  update : Nat → Pop K p n → Equiv.Perm (Fin p) → S → Except PyErr S
  pc : S → Vec K n
  /-- the variances passed to `converge` -/
  diagConv : S → Vec K n
  /-- `B, D` if they are passed to `converge` -/
  axes : S → Option (Matrix (Fin n) (Fin n) K × Vec K n)

/-- Everything else the frame needs. -/
structure Par (K : Type) (n : Nat) where
  srt : Argsort K
  obj : Obj K n
  lower : Vec K n
  upper : Vec K n
  xtol : K
  ftol : Val K
  mueff : K
  insigma : K
  ilim : Nat
  penalized : Bool

/-- Variables that live across iterations.  `rowsX`, `rowsF` are the rows of `xall`, `funall` written so far. -/
structure St (S K : Type) (p n : Nat) where
  s : S
  it : Nat
  nfev : Nat
  pen : Pen K n
  arbest : List (Val K)
  rowsX : List (List (Vec K n))
  rowsF : List (List (Val K))
  cbs : List (CB K p n)
  evals : List (Vec K n)

/-- Variables of the last generation used after the loop: `unstandardize(arxvalid)`, `arfitness`, `arindex[0]`, `status`. -/
structure Gen (K : Type) (p n : Nat) where
  X : Pop K p n
  fit : Fin p → Val K
  best : Fin p
  status : Option Int

section
variable [NumFns K] [IntParts K] {p n : Nat}

/-- Evaluation of a generation — /repo/stochopy/optimize/cmaes/_cmaes.py:241-258, vdcma/_vdcma.py:259-276. -/
def evaluate (P : Par K n) (G : Gauss S K p n) (it : Nat) (arx : Pop K p n) (s : S) (pen : Pen K n) :
    Except PyErr ((Fin p → Val K) × Pop K p n × Pen K n) :=
  let fit : Pop K p n → Fin p → Val K := fun X => P.obj.pop fun i => unstandardize P.lower P.upper (X i)
  if P.penalized then penalize P.srt fit arx (G.mean s) (G.old s) (G.sigma s) (G.diagC s) P.mueff it pen
  else .ok (fit arx, arx, pen)

/-- Recording — /repo/stochopy/optimize/cmaes/_cmaes.py:261-269, vdcma/_vdcma.py:279-287.  `xall[it - 1] = ...` raises
IndexError when `it - 1 >= maxiter` and ValueError when fewer than `nout` rows are assigned to `nout`, except that a
single row is repeated. -/
def record (c : Cfg) (it : Nat) (X : Pop K p n) (fit : Fin p → Val K) :
    Except PyErr (List (List (Vec K n)) × List (List (Val K))) :=
  if c.returnAll then
    if 0 < c.nout then
      if c.maxiter ≤ (it : Int) - 1 then .error .indexError
      else if c.nout ≤ p then .ok ([(List.ofFn X).take c.nout.toNat], [(List.ofFn fit).take c.nout.toNat])
      else if p = 1 then
        .ok ([((List.ofFn X).flatMap (List.replicate c.nout.toNat))], [((List.ofFn fit).flatMap (List.replicate c.nout.toNat))])
      else .error .valueError
    else do
      let idx ← argmin fit
      if c.maxiter ≤ (it : Int) - 1 then .error .indexError
      else .ok ([[X idx]], [[fit idx]])
  else .ok ([], [])

/-- One iteration of `while not converged` — /repo/stochopy/optimize/cmaes/_cmaes.py:229-343, vdcma/_vdcma.py:236-409. -/
def body (P : Par K n) (G : Gauss S K p n) (c : Cfg) (L : St S K p n) : Except PyErr (St S K p n × Gen K p n) := do
  let it := L.it + 1
  let a ← G.sample L.s
  let e ← evaluate P G it a.1 a.2 L.pen
  let fit := e.1
  let X : Pop K p n := fun i => unstandardize P.lower P.upper (e.2.1 i)
  let nfev := L.nfev + p
  let rows ← record c it X fit
  let rowsX := L.rowsX ++ rows.1
  let rowsF := L.rowsF ++ rows.2
  if hp : 0 < p then do
    let order := P.srt p fit                                                            -- np.argsort(arfitness)
    let best := order ⟨0, hp⟩
    if c.maxiter ≤ (it : Int) - 1 then .error .indexError                               -- arbestfitness[it - 1] = ...
    else do
      let arbest := L.arbest.set (it - 1) (fit best)
      let s ← G.update nfev a.1 order a.2
      need (∀ j, 0 ≤ G.diagConv s j)                                                    -- np.sqrt(diagC) in `converge`
      let status := converge it c.maxiter (G.mean s) (G.old s) arbest fit (fit best) (G.sigma s) P.insigma P.ilim
        (G.pc s) P.xtol P.ftol (G.diagConv s) (G.axes s)
      let cb : CB K p n := { X := X, x := X best, fval := fit best, nfev := nfev, nit := it,
                             xall := attach c rowsX, funall := attach c rowsF }
      .ok ({ s := s, it := it, nfev := nfev, pen := e.2.2, arbest := arbest, rowsX := rowsX, rowsF := rowsF,
             cbs := if c.hasCallback then L.cbs ++ [cb] else L.cbs, evals := L.evals ++ List.ofFn X },
           { X := X, fit := fit, best := best, status := status })
  else .error .unmodelled

/-- `while not converged`, with fuel. -/
def loop (P : Par K n) (G : Gauss S K p n) (c : Cfg) : Nat → St S K p n → Except PyErr (St S K p n × Gen K p n)
  | 0, _ => .error .outOfFuel
  | fuel + 1, L => do
    let r ← body P G c L
    if r.2.status.isSome then .ok r else loop P G c fuel r.1

/-- The returned `OptimizeResult` — /repo/stochopy/optimize/cmaes/_cmaes.py:345-357, vdcma/_vdcma.py:411-423. -/
def finish (c : Cfg) (r : St S K p n × Gen K p n) : Except PyErr (Result K n) :=
  match r.2.status with
  | none => .error .typeError
  | some status =>
    match messages status with
    | none => .error .keyError
    | some msg =>
      .ok { x := r.2.X r.2.best, success := decide (0 ≤ status), status := status, message := msg,
            fval := r.2.fit r.2.best, nfev := r.1.nfev, nit := r.1.it,
            xall := attach c r.1.rowsX, funall := attach c r.1.rowsF }

/-- The frame from the initial state on.  `np.zeros(maxiter)` (and `np.empty((maxiter, ...))`) raise ValueError on a
negative size — /repo/stochopy/optimize/cmaes/_cmaes.py:212-224, vdcma/_vdcma.py:220-231. -/
def run (P : Par K n) (G : Gauss S K p n) (c : Cfg) (rng : S → σ) (fuel : Nat) (s0 : S) :
    Except PyErr (Output σ K p n) := do
  if c.maxiter < 0 then .error .valueError
  else do
    let r ← loop P G c fuel { s := s0, it := 0, nfev := 0, pen := Pen.start n,
                              arbest := List.replicate c.maxiter.toNat (.fin 0), rowsX := [], rowsF := [], cbs := [], evals := [] }
    let res ← finish c r
    .ok { res := res, cbs := r.1.cbs, evals := r.1.evals, x0After := none, rng := rng r.1.s }

end

/-! ## Arguments -/

/-- Arguments of `minimize` — /repo/stochopy/optimize/cmaes/_cmaes.py:12-30, vdcma/_vdcma.py:13-31. -/
structure Args (K : Type) extends CommonArgs K where
  sigma : K
  muperc : K
  constraints : Option String

/-- `mu = int(muperc * popsize)` — cmaes line 184, vdcma line 185. -/
def Args.mu [IntParts K] (a : Args K) : Nat := (pyInt (a.muperc * (a.popsize : K))).toNat

/-- `ilim = int(10.0 + 30.0 * ndim / popsize)` — cmaes line 221, vdcma line 228. -/
def Args.ilim (a : Args K) : Nat := 10 + 30 * a.ndim / a.p

/-- `np.ndim(x0) != 1 or len(x0) != len(bounds)` — cmaes lines 104-106, vdcma lines 105-107. -/
def Args.badX0 (a : Args K) : Bool :=
  match a.x0 with
  | none => false
  | some x => x.ndim != 1 || x.len != a.bounds.len

/-- Argument checks in code order — /repo/stochopy/optimize/cmaes/_cmaes.py:96-121, vdcma/_vdcma.py:97-122. -/
def Args.validate (a : Args K) : Except PyErr Unit :=
  if a.fn.isNone then .error .typeError
  else if a.bounds.ndim ≠ 2 then .error .valueError
  else if a.badX0 then .error .valueError
  else if a.sigma ≤ 0 then .error .valueError
  else if ¬ (0 < a.muperc ∧ a.muperc ≤ 1) then .error .valueError
  else if a.badCallback then .error .valueError
  else .ok ()

/-- `_constraints_map[constraints]` — cmaes lines 176-177, vdcma lines 177-178; is `Penalize` applied? -/
def consMap (constraints : Option String) : Except PyErr Bool :=
  match constraints with
  | none => .ok false
  | some s => if s = "Penalize" then .ok true else .error .keyError

/-- The initial mean — cmaes line 180, vdcma line 181. -/
def Args.firstMean (a : Args K) (R : Rng σ K) (g : σ) : Except PyErr (Vec K a.ndim × σ) :=
  match a.x0 with
  | none =>
    let u := drawVec R.rand a.ndim g
    .ok (fun j => unif (-1) 1 (u.1 j), u.2)
  | some x => do
    need (∀ j, a.lower j ≠ a.upper j)
    .ok (standardize a.lower a.upper fun j => x.get [j], g)

/-- The parameters of the frame. -/
def Args.par [NumFns K] [IntParts K] (a : Args K) (srt : Argsort K) (obj : Obj K a.ndim) (penalized : Bool) : Par K a.ndim :=
  { srt := srt, obj := obj, lower := a.lower, upper := a.upper, xtol := a.xtol, ftol := a.ftol, mueff := mueff a.mu,
    insigma := a.sigma, ilim := a.ilim, penalized := penalized }

end Stochopy.Evo
