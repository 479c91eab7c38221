import Verif.Base.Num

/-!
# Model of what `stochopy/sample/mcmc/_mcmc.py` and `stochopy/sample/hmc/_hmc.py` share
-/

namespace Stochopy
namespace Sampling

variable {K σ : Type} [Zero K] [One K] [Add K] [Sub K] [Mul K] [Div K] [Neg K] [NatCast K] [IntCast K] [Pow K ℕ] [ArrayOps K] [LinearOrder K]

/-- `in_search_space` — /repo/stochopy/sample/_common.py:4-9.  With "Reject" the function computes the test and
returns None (`none`), since line 7 has no `return`.  The coordinates compare as floats. -/
def inSearchSpace {n : Nat} (x : Vec (Val K) n) (lower upper : Vec K n) (constraints : Option String) : Option Bool :=
  if constraints = some "Reject" then
    let _ := decide (∀ j, .fin (lower j) ≤ x j) && decide (∀ j, x j ≤ .fin (upper j))
    none
  else some true

/-- Truth value of a Python object that is None or a bool. -/
def truthy : Option Bool → Bool
  | some b => b
  | none => false

/-- `np.log(u)` of a float in `[0, 1)`: `np.log(0.0)` is -inf. -/
def npLog [NumFns K] (u : K) : Val K := if u = 0 then .ninf else .fin (NumFns.log u)

/-- `min(0.0, d) > np.log(u)` — /repo/stochopy/sample/mcmc/_mcmc.py:134-135, hmc/_hmc.py:164-165. -/
def metropolis [NumFns K] (d : Val K) (u : K) : Bool := decide (npLog u < Val.pyMin (.fin 0) d)

/-- How a sequence of step sizes is passed: a list (or tuple), an array of floats or an array of integers. -/
inductive SeqKind where
  | list | floatArray | intArray
  deriving DecidableEq

/-- The `stepsize` argument: a number (Python int or float) or a one-dimensional sequence. -/
inductive StepArg (K : Type) where
  | scalar (isInt : Bool) (k : K)
  | seq (kind : SeqKind) (v : List K)

/-- `stepsize` after /repo/stochopy/sample/mcmc/_mcmc.py:82-88 (hmc/_hmc.py:102-108): `stepsize *= 0.5 * (upper - lower)`
raises TypeError on integer arrays (`np.full` of an int is one). -/
def StepArg.scale {n : Nat} (a : StepArg K) (lower upper : Vec K n) : Except PyErr (Vec K n) :=
  match a with
  | .scalar isInt k => if isInt then .error .typeError else .ok fun j => k * ((1 / 2) * (upper j - lower j))
  | .seq kind v =>
    if v.length ≠ n then .error .valueError
    else if kind = .intArray then .error .typeError
    else .ok fun j => v.getD j 0 * ((1 / 2) * (upper j - lower j))

/-- What the caller's `stepsize` object holds after `stepsize *= 0.5 * (upper - lower)` was executed: an array of floats is
updated in place; multiplying a list by an array makes a new array. -/
def StepArg.after {n : Nat} (a : StepArg K) (lower upper : Vec K n) : StepArg K :=
  match a with
  | .seq .floatArray v =>
    if v.length = n then .seq .floatArray (List.ofFn fun j : Fin n => v.getD j 0 * ((1 / 2) * (upper j - lower j)))
    else a
  | _ => a

/-- Arguments common to both samplers.  As in `CommonArgs`, `none` for `fn` is an object that is not callable and
`some false` for `callback` an object that is neither None nor callable. -/
structure Args (K : Type) where
  bounds : NdArr K
  fn : Option (Vec (Val K) bounds.len → Val K)
  x0 : Option (NdArr K)
  maxiter : Int
  stepsize : StepArg K
  seed : Option Int
  constraints : Option String
  returnAll : Bool
  callback : Option Bool

namespace Args

abbrev ndim (a : Args K) : Nat := a.bounds.len
/-- `lower, upper = np.transpose(bounds)` — /repo/stochopy/sample/mcmc/_mcmc.py:75, hmc/_hmc.py:91. -/
def lower (a : Args K) : Vec K a.ndim := fun j => a.bounds.get [j, 0]
def upper (a : Args K) : Vec K a.ndim := fun j => a.bounds.get [j, 1]

/-- `len(x0)` raises TypeError on a number. -/
def scalarX0 (a : Args K) : Bool :=
  match a.x0 with
  | none => false
  | some x => x.shape == []

/-- `x0 is not None and len(x0) != ndim` — /repo/stochopy/sample/mcmc/_mcmc.py:78, hmc/_hmc.py:94. -/
def badX0Len (a : Args K) : Bool :=
  match a.x0 with
  | none => false
  | some x => x.len != a.ndim

def badCallback (a : Args K) : Bool := a.callback == some false

def seeded (a : Args K) (R : Rng σ K) (g : σ) : σ :=
  match a.seed with
  | some s => R.seed s
  | none => g

/-- The checks before the step size — /repo/stochopy/sample/mcmc/_mcmc.py:66-79, hmc/_hmc.py:81-95. -/
def checkStart (a : Args K) : Except PyErr Unit :=
  if a.fn.isNone then .error .typeError
  else if a.bounds.ndim ≠ 2 then .error .valueError
  else if a.bounds.dim1 ≠ 2 then .error .valueError
  else if a.scalarX0 then .error .typeError
  else if a.badX0Len then .error .valueError
  else .ok ()

/-- The right-hand side of `xall[0] = x0 if x0 is not None else np.random.uniform(lower, upper)`; assigning an array whose
shape cannot be broadcast to `(ndim,)` raises ValueError (arrays of ones' shape can when `ndim` is 1) —
/repo/stochopy/sample/mcmc/_mcmc.py:107, hmc/_hmc.py:130. -/
def first (a : Args K) (R : Rng σ K) (g : σ) : Except PyErr (Vec (Val K) a.ndim × σ) :=
  match a.x0 with
  | some x =>
    if x.shape = [a.ndim] then .ok (fun j => .fin (x.get [j]), g)
    else if a.ndim = 1 ∧ x.shape.all (· == 1) = true then .ok (fun _ => .fin (x.get (x.shape.map fun _ => 0)), g)
    else .error .valueError
  | none =>
    let u := drawVec R.rand a.ndim g
    .ok (fun j => .fin (unif (a.lower j) (a.upper j) (u.1 j)), u.2)

end Args

/-- One call of the user's callback: `callback(xk, SampleResult(x=, fun=, nit=, accept_ratio=, [xall=, funall=]))`. -/
structure CB (K : Type) (n : Nat) where
  xk : Vec (Val K) n
  x : Vec (Val K) n
  fval : Val K
  nit : Nat
  acceptRatio : K
  xall : Option (List (Vec (Val K) n))
  funall : Option (List (Val K))

/-- Everything observable about a completed call of `sample`: the fields of the result (`nfev` only for 'hmc'), the
callback calls, the points on which the objective was called, and the state the global generator is left in. -/
structure Output (σ K : Type) (n : Nat) where
  x : Vec (Val K) n
  fval : Val K
  nfev : Option Nat
  nit : Int
  acceptRatio : K
  xall : Option (List (Vec (Val K) n))
  funall : Option (List (Val K))
  cbs : List (CB K n)
  evals : List (Vec (Val K) n)
  rng : σ

/-- The variables of the samplers that live across iterations.  `xs`, `fs` are the rows of `xall`, `funall` filled so far,
`xcur`, `fcur` the last of them (`xall[i - 1]`, `funall[i - 1]`). -/
structure State (σ K : Type) (n : Nat) where
  xs : List (Vec (Val K) n)
  fs : List (Val K)
  xcur : Vec (Val K) n
  fcur : Val K
  nacc : Nat
  imin : Nat
  fmin : Val K
  cbs : List (CB K n)
  evals : List (Vec (Val K) n)
  rng : σ

/-- `if return_all: res.update(...)` -/
def attach {α : Type} (returnAll : Bool) (rows : List α) : Option (List α) := if returnAll then some rows else none

/-- Everything from the allocation of the arrays to the loop —
/repo/stochopy/sample/mcmc/_mcmc.py:105-121, hmc/_hmc.py:128-143.  `np.empty` of a negative size raises ValueError;
`xall[0] = ...` on an empty array raises IndexError (after the right-hand side was evaluated). -/
def start (a : Args K) (fn : Vec (Val K) a.ndim → Val K) (R : Rng σ K) (g : σ) : Except PyErr (State σ K a.ndim) := do
  if a.maxiter < 0 then .error .valueError
  else
    if a.maxiter = 0 then .error .indexError
    else
      let x ← a.first R g
      let f := fn x.1
      let cb : CB K a.ndim :=
        { xk := x.1, x := x.1, fval := f, nit := 1, acceptRatio := 1, xall := attach a.returnAll [x.1],
          funall := attach a.returnAll [f] }
      .ok { xs := [x.1], fs := [f], xcur := x.1, fcur := f, nacc := 0, imin := 0, fmin := .pinf,
            cbs := if a.callback.isSome then [cb] else [], evals := [x.1], rng := x.2 }

/-- What happens at the end of an iteration: `x`, `f` are the accepted proposal and its value, if it was accepted —
/repo/stochopy/sample/mcmc/_mcmc.py:137-143, hmc/_hmc.py:167-175. -/
def State.push {n : Nat} (s : State σ K n) (acc : Option (Vec (Val K) n × Val K)) : State σ K n :=
  match acc with
  | some (x, f) =>
    { s with xs := s.xs ++ [x], fs := s.fs ++ [f], xcur := x, fcur := f, nacc := s.nacc + 1,
             imin := if f < s.fmin then s.xs.length else s.imin, fmin := if f < s.fmin then f else s.fmin }
  | none => { s with xs := s.xs ++ [s.xcur], fs := s.fs ++ [s.fcur] }

/-- The callback inside the loop, called when `i` samples were drawn (`xs.length = i`): `xall[: i - 1]` —
/repo/stochopy/sample/mcmc/_mcmc.py:145-157, hmc/_hmc.py:177-187 (there `i` is one less). -/
def State.notify {n : Nat} (s : State σ K n) (hasCallback returnAll : Bool) : State σ K n :=
  let cb : CB K n :=
    { xk := s.xcur, x := s.xs.getD s.imin s.xcur, fval := s.fs.getD s.imin s.fcur, nit := s.xs.length,
      acceptRatio := (s.nacc : K) / (s.xs.length : K), xall := attach returnAll (s.xs.take (s.xs.length - 1)),
      funall := attach returnAll (s.fs.take (s.xs.length - 1)) }
  { s with cbs := if hasCallback then s.cbs ++ [cb] else s.cbs }

end Sampling
end Stochopy
