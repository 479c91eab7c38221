import Verif.Model.Common

/-!
# The outer loop shared by `de`, `cpso` and `na`

The functions `de` (/repo/stochopy/optimize/de/_de.py:197-301), `cpso` (/repo/stochopy/optimize/cpso/_cpso.py:204-321)
and `na` (/repo/stochopy/optimize/na/_na.py:152-262) have line-by-line the same frame: recording of the initial
population, first callback, `while not converged` loop with recording and callback, final result.  The frame is
modelled once here; what differs between the three is passed as an `Alg`.
-/

namespace Stochopy

variable {K σ S : Type} [Zero K] [One K] [Add K] [Sub K] [Mul K] [Div K] [Neg K] [NatCast K] [IntCast K] [Pow K ℕ] [ArrayOps K] [LinearOrder K]

/-- One call of the user's callback: `callback(X, OptimizeResult(x=, fun=, nfev=, nit=, [xall=, funall=]))`. -/
structure CB (K : Type) (p n : Nat) where
  X : Pop K p n
  x : Vec K n
  fval : Val K
  nfev : Nat
  nit : Nat
  xall : Option (List (List (Vec K n)))
  funall : Option (List (List (Val K)))

/-- The returned `OptimizeResult`. -/
structure Result (K : Type) (n : Nat) where
  x : Vec K n
  success : Bool
  status : Int
  message : String
  fval : Val K
  nfev : Nat
  nit : Nat
  xall : Option (List (List (Vec K n)))
  funall : Option (List (List (Val K)))

/-- Everything observable about a completed call of `minimize`: the result, the callback calls in order, the points on
which the objective was called in order, the contents of the caller's `x0` array after the call (if `x0` was given) and
the state the global generator is left in. -/
structure Output (σ K : Type) (p n : Nat) where
  res : Result K n
  cbs : List (CB K p n)
  evals : List (Vec K n)
  x0After : Option (Pop K p n)
  rng : σ

/-- Options used by the frame. -/
structure Cfg where
  maxiter : Int
  returnAll : Bool
  /-- `nout = int(np.ceil(verbosity * popsize))` -/
  nout : Int
  hasCallback : Bool

/-- What differs between the optimizers. -/
structure Alg (S K : Type) (p n : Nat) where
  /-- loop body up to and including the selection: new state and `status` -/
  step : Nat → S → Except PyErr (S × Option Int)
  /-- executed at the end of an iteration that did not converge -/
  post : Nat → S → S
  /-- first argument of the callback -/
  cbX : S → Pop K p n
  /-- the `x=` of callback states and result -/
  best : S → Vec K n
  /-- the `fun=` of callback states and result -/
  bestFun : S → Val K
  /-- population copied into `xall[0]` -/
  rec0X : S → Pop K p n
  /-- solution copied into `xall[0]` when `nout <= 0` -/
  rec0Best : S → Vec K n
  /-- population copied into `xall[it - 1]` -/
  recX : S → Pop K p n
  /-- `pfit` -/
  pfit : S → Fin p → Val K

/-- State of the `while` loop.  `rowsX`/`rowsF` are the entries of `xall`/`funall` written so far; they are written
at positions 0, 1, … so that `xall[:it]` is exactly the list of rows. -/
structure Loop (S K : Type) (p n : Nat) where
  s : S
  it : Nat
  status : Option Int
  rowsX : List (List (Vec K n))
  rowsF : List (List (Val K))
  cbs : List (CB K p n)

section
variable {p n : Nat}

/-- `xall`/`funall` attached to results: `if return_all: res.update(...)`. -/
def attach {α : Type} (c : Cfg) (rows : List α) : Option (List α) := if c.returnAll then some rows else none

/-- Recording of the initial population —
/repo/stochopy/optimize/de/_de.py:221-234, cpso/_cpso.py:233-246, na/_na.py:187-200.
`np.empty((maxiter, ...))` raises ValueError for a negative size, `xall[0] = ...` raises IndexError on an empty array
and ValueError when `nout` rows are assigned from fewer than `nout`. -/
def Alg.record0 (A : Alg S K p n) (c : Cfg) (s : S) : Except PyErr (List (List (Vec K n)) × List (List (Val K))) :=
  if c.returnAll then
    if c.maxiter < 0 then .error .valueError
    else if c.maxiter = 0 then .error .indexError
    else if 0 < c.nout then
      if (p : Int) < c.nout then .error .valueError
      else .ok ([(List.ofFn (A.rec0X s)).take c.nout.toNat], [(List.ofFn (A.pfit s)).take c.nout.toNat])
    else .ok ([[A.rec0Best s]], [[A.bestFun s]])
  else .ok ([], [])

/-- The callback state built before and inside the loop —
/repo/stochopy/optimize/de/_de.py:237-242 and 282-287, cpso/_cpso.py:249-254 and 297-302, na/_na.py:203-208 and 238-248. -/
def Alg.cb (A : Alg S K p n) (c : Cfg) (s : S) (it : Nat) (rowsX : List (List (Vec K n)))
    (rowsF : List (List (Val K))) : CB K p n :=
  { X := A.cbX s, x := A.best s, fval := A.bestFun s, nfev := it * p, nit := it,
    xall := attach c rowsX, funall := attach c rowsF }

/-- Everything between the initial evaluation and the loop. -/
def Alg.start (A : Alg S K p n) (c : Cfg) (s : S) : Except PyErr (Loop S K p n) := do
  let rows ← A.record0 c s
  .ok { s := s, it := 1, status := none, rowsX := rows.1, rowsF := rows.2,
        cbs := if c.hasCallback then [A.cb c s 1 rows.1 rows.2] else [] }

/-- Recording inside the loop — /repo/stochopy/optimize/de/_de.py:270-278, cpso/_cpso.py:285-293, na/_na.py:226-234.
`it` is the incremented counter; `xall[it - 1] = ...` raises IndexError when `it - 1 >= maxiter`. -/
def Alg.record (A : Alg S K p n) (c : Cfg) (it : Nat) (s : S) :
    Except PyErr (List (List (Vec K n)) × List (List (Val K))) :=
  if c.returnAll then
    if 0 < c.nout then
      if c.maxiter ≤ (it : Int) - 1 then .error .indexError
      else .ok ([(List.ofFn (A.recX s)).take c.nout.toNat], [(List.ofFn (A.pfit s)).take c.nout.toNat])
    else do
      let idx ← argmin (A.pfit s)
      if c.maxiter ≤ (it : Int) - 1 then .error .indexError
      else .ok ([[A.recX s idx]], [[A.pfit s idx]])
  else .ok ([], [])

/-- One iteration of `while not converged` —
/repo/stochopy/optimize/de/_de.py:247-287, cpso/_cpso.py:259-307, na/_na.py:213-248.  The Boolean is `converged`. -/
def Alg.body (A : Alg S K p n) (c : Cfg) (L : Loop S K p n) : Except PyErr (Loop S K p n × Bool) := do
  let it := L.it + 1
  let r ← A.step it L.s
  let s := r.1
  let status := r.2
  let rows ← A.record c it s
  let rowsX := L.rowsX ++ rows.1
  let rowsF := L.rowsF ++ rows.2
  let converged := status.isSome
  let cbs := if c.hasCallback then L.cbs ++ [A.cb c s it rowsX rowsF] else L.cbs
  let s' := if converged then s else A.post it s
  .ok ({ s := s', it := it, status := status, rowsX := rowsX, rowsF := rowsF, cbs := cbs }, converged)

/-- `while not converged`, with fuel. -/
def Alg.loop (A : Alg S K p n) (c : Cfg) : Nat → Loop S K p n → Except PyErr (Loop S K p n)
  | 0, _ => .error .outOfFuel
  | fuel + 1, L => do
    let r ← A.body c L
    if r.2 then .ok r.1 else A.loop c fuel r.1

/-- The returned `OptimizeResult` —
/repo/stochopy/optimize/de/_de.py:289-301, cpso/_cpso.py:309-321, na/_na.py:250-262.
(`status` is never None here; `messages[status]` raises KeyError on an unknown status.) -/
def Alg.finish (A : Alg S K p n) (c : Cfg) (L : Loop S K p n) : Except PyErr (Result K n) :=
  match L.status with
  | none => .error .typeError
  | some status =>
    match messages status with
    | none => .error .keyError
    | some msg =>
      .ok { x := A.best L.s, success := decide (0 ≤ status), status := status, message := msg,
            fval := A.bestFun L.s, nfev := L.it * p, nit := L.it,
            xall := attach c L.rowsX, funall := attach c L.rowsF }

/-- The whole frame after the initial evaluation. -/
def Alg.run (A : Alg S K p n) (c : Cfg) (fuel : Nat) (s0 : S) :
    Except PyErr (Result K n × Loop S K p n) := do
  let L0 ← A.start c s0
  let L ← A.loop c fuel L0
  let res ← A.finish c L
  .ok (res, L)

end

/-- The arguments every optimizer's `minimize` has in common.  `fn` is `fun` with `*args` applied, `none` standing for
an object that is not callable; `callback` likewise (`none` = None, `some false` = not callable). The objective is
called with vectors of length `len(bounds)`. -/
structure CommonArgs (K : Type) where
  bounds : NdArr K
  fn : Option (Vec K bounds.len → Val K)
  x0 : Option (NdArr K)
  maxiter : Int
  popsize : Int
  seed : Option Int
  xtol : K
  ftol : Val K
  workers : Int
  backend : Option String
  returnAll : Bool
  verbosity : K
  callback : Option Bool

namespace CommonArgs

/-- `len(bounds)` -/
abbrev ndim (a : CommonArgs K) : Nat := a.bounds.len
/-- population size as an array dimension -/
abbrev p (a : CommonArgs K) : Nat := a.popsize.toNat
/-- `lower, upper = np.transpose(bounds)` -/
def lower (a : CommonArgs K) : Vec K a.ndim := fun j => a.bounds.get [j, 0]
def upper (a : CommonArgs K) : Vec K a.ndim := fun j => a.bounds.get [j, 1]
/-- `x0` as a population array -/
def x0Pop (a : CommonArgs K) : Option (Pop K a.p a.ndim) := a.x0.map fun x i j => x.get [i, j]

/-- `nout = int(np.ceil(verbosity * popsize))` — e.g. /repo/stochopy/optimize/de/_de.py:222. -/
def cfg [IntParts K] (a : CommonArgs K) : Cfg :=
  { maxiter := a.maxiter, returnAll := a.returnAll, nout := IntParts.ceil (a.verbosity * (a.popsize : K)),
    hasCallback := a.callback.isSome }

/-- generator state after `if seed is not None: np.random.seed(seed)` — e.g. /repo/stochopy/optimize/de/_de.py:148-149. -/
def seeded (a : CommonArgs K) (R : Rng σ K) (g : σ) : σ :=
  match a.seed with
  | some s => R.seed s
  | none => g

/-- `if callback is not None and not hasattr(callback, "__call__"): raise ValueError()` —
e.g. /repo/stochopy/optimize/de/_de.py:152-153. -/
def badCallback (a : CommonArgs K) : Bool := a.callback == some false

/-- `lower, upper = np.transpose(bounds)` raises ValueError unless `bounds` has two columns —
e.g. /repo/stochopy/optimize/de/_de.py:199. -/
def unpackBounds (a : CommonArgs K) : Except PyErr Unit :=
  if a.bounds.dim1 = 2 then .ok () else .error .valueError

/-- `if x0 is not None: if np.ndim(x0) != 2 or np.shape(x0)[1] != len(bounds)` — e.g. /repo/stochopy/optimize/de/_de.py:117-118. -/
def badX0Shape (a : CommonArgs K) : Bool :=
  match a.x0 with
  | none => false
  | some x => x.ndim != 2 || x.dim1 != a.bounds.len

/-- `x0 is not None and len(x0) != popsize` — e.g. /repo/stochopy/optimize/de/_de.py:125. -/
def badX0Len (a : CommonArgs K) : Bool :=
  match a.x0 with
  | none => false
  | some x => (x.len : Int) != a.popsize

end CommonArgs

end Stochopy
