import Verif.Model.Driver

/-!
# Model of `stochopy/optimize/na`
-/

namespace Stochopy.NA

variable {K σ : Type} [Zero K] [One K] [Add K] [Sub K] [Mul K] [Div K] [Neg K] [NatCast K] [IntCast K] [Pow K ℕ] [ArrayOps K] [LinearOrder K]

/-- Sequence a row-wise computation that draws random numbers (rows `0, 1, …` in order). -/
def seqFinS {ε α τ : Type} : {p : Nat} → (Fin p → τ → Except ε (α × τ)) → τ → Except ε ((Fin p → α) × τ)
  | 0, _, g => .ok (Fin.elim0, g)
  | _ + 1, f, g => do
    let a ← f 0 g
    let r ← seqFinS (fun i => f i.succ) a.2
    .ok (Fin.cons a.1 r.1, r.2)

section core
variable {p n : Nat}

/-- `span_mask[j]` — /repo/stochopy/optimize/na/_na.py:157-158. -/
def spanMask (lower upper : Vec K n) (j : Fin n) : Bool := decide (0 < upper j - lower j)

/-- `normalize` — /repo/stochopy/optimize/na/_na.py:157-160 (`span` is 1 where the mask is False, which avoids the division
by zero but is otherwise irrelevant there). -/
def normalize (lower upper x : Vec K n) : Vec K n := fun j =>
  if spanMask lower upper j then (x j - lower j) / (upper j - lower j) else upper j

/-- `unnormalize` — /repo/stochopy/optimize/na/_na.py:161. -/
def unnormalize (lower upper x : Vec K n) : Vec K n := fun j =>
  if spanMask lower upper j then x j * (upper j - lower j) + lower j else upper j

/-- NumPy division of finite floats: `x / 0` is ±inf or nan. -/
def npDiv (a b : K) : Val K :=
  if b = 0 then (if 0 < a then .pinf else if a < 0 then .ninf else .nan) else .fin (a / b)

/-- `lim` for one other model `u` — /repo/stochopy/optimize/na/_na.py:291. -/
def lim (vkj uj d1 d2 : K) : Val K :=
  match npDiv (d1 - d2) (vkj - uj) with
  | .fin q => .fin ((1 / 2) * (vkj + uj + q))
  | v => v                                        -- ±inf and nan absorb the finite terms

/-- `low` — /repo/stochopy/optimize/na/_na.py:293-294: the largest `lim <= X[i, j]`, clipped from below at 0.
(`-inf` entries are selected by the mask but absorbed by `max(·, 0.0)`; nan and +inf are never selected.) -/
def lowLim (lims : List (Val K)) (x : K) : K :=
  lims.foldl (fun acc l => match l with
    | .fin l => if l ≤ x then max l acc else acc
    | _ => acc) 0

/-- `high` — /repo/stochopy/optimize/na/_na.py:296-297. -/
def highLim (lims : List (Val K)) (x : K) : K :=
  lims.foldl (fun acc l => match l with
    | .fin l => if x ≤ l then min l acc else acc
    | _ => acc) 1

/-- Local variables of the inner loop: `X[i]`, `d1`, the rows of `U` paired with their entry of `d2`, generator. -/
structure Walk (σ K : Type) (n : Nat) where
  x : Vec K n
  d1 : K
  W : List (Vec K n × K)
  rng : σ

/-- Body of the loop over dimensions — /repo/stochopy/optimize/na/_na.py:285-303; `vk` is `Xall[k]`. -/
def walkStep (R : Rng σ K) (mask : Fin n → Bool) (vk : Vec K n) (st : Walk σ K n) (j : Fin n) : Walk σ K n :=
  if mask j then
    let lims := st.W.map fun w => lim (vk j) (w.1 j) st.d1 w.2
    let low := lowLim lims (st.x j)
    let high := highLim lims (st.x j)
    let u := R.rand st.rng
    let x := Function.update st.x j (unif low high u.1)                       -- line 299
    if h : j.val + 1 < n then                                                 -- lines 301-303
      let j' : Fin n := ⟨j.val + 1, h⟩
      { x := x
        d1 := st.d1 + ((vk j - x j) ^ 2 - (vk j' - x j') ^ 2)
        W := st.W.map fun w => (w.1, w.2 + ((w.1 j - x j) ^ 2 - (w.1 j' - x j') ^ 2))
        rng := u.2 }
    else { st with x := x, rng := u.2 }
  else { st with x := Function.update st.x j 0 }                              -- lines 286-289

/-- One new model: `k` is the index of its parent in `Xall` — /repo/stochopy/optimize/na/_na.py:279-303.
`d2` starts as the squared distance in the coordinates `1, …, ndim - 1` (line 283). -/
def walk (R : Rng σ K) (mask : Fin n → Bool) (Xall : List (Vec K n)) (k : Fin Xall.length) (g : σ) : Walk σ K n :=
  let vk := Xall.get k
  let U := Xall.eraseIdx k
  (List.finRange n).foldl (walkStep R mask vk)
    { x := vk, d1 := 0, rng := g,
      W := U.map fun u => (u, ArrayOps.sum fun l : Fin (n - 1) => (u ⟨l + 1, by omega⟩ - vk ⟨l + 1, by omega⟩) ^ 2) }

/-- Row `i` of `mutation` — /repo/stochopy/optimize/na/_na.py:276-303: `ix = Xallfit.argsort()[:nr]`, `k = ix[i % nr]`. -/
def mutRow (R : Rng σ K) (srt : Argsort K) (mask : Fin n → Bool) (All : List (Vec K n × Val K)) (nr : Nat)
    (i : Fin p) (g : σ) : Except PyErr (Vec K n × σ) :=
  let r := i.val % nr
  if h : r < (All.map Prod.fst).length then
    let v : Fin (All.map Prod.fst).length → Val K := fun k => (All.get (k.cast (by simp))).2
    let w := walk R mask (All.map Prod.fst) (srt _ v ⟨r, h⟩) g
    .ok (w.x, w.rng)
  else .error .indexError

/-- `mutation` — /repo/stochopy/optimize/na/_na.py:265-305. -/
def mutation (R : Rng σ K) (srt : Argsort K) (mask : Fin n → Bool) (All : List (Vec K n × Val K)) (p nr : Nat)
    (g : σ) : Except PyErr (Pop K p n × σ) :=
  seqFinS (mutRow R srt mask All nr) g

/-- Parameters of the iteration. -/
structure Par (σ K : Type) (n : Nat) where
  R : Rng σ K
  argsort : Argsort K
  nr : Nat
  lower : Vec K n
  upper : Vec K n
  maxiter : Int
  xtol : K
  ftol : Val K
  obj : Obj K n

/-- `fun = lambda x: funnorm(unnormalize(x))` — /repo/stochopy/optimize/na/_na.py:163. -/
def Par.objN (P : Par σ K n) : Obj K n :=
  { pop := fun x => P.obj.pop fun i => unnormalize P.lower P.upper (x i)
    one := fun x => P.obj.one (unnormalize P.lower P.upper x) }

/-- The variables of `na` that live across iterations.  `All` pairs the rows of `Xall` with `Xallfit`.
`evals` logs the points the user's objective is called on (unnormalised).  `caller` is the caller's `x0` array, which is
never written: `X = normalize(X)` (line 170) is a fresh array. -/
structure State (σ K : Type) (p n : Nat) where
  X : Pop K p n
  pbest : Pop K p n
  gbest : Vec K n
  pbestfit : Fin p → Val K
  gfit : Val K
  pfit : Fin p → Val K
  All : List (Vec K n × Val K)
  caller : Option (Pop K p n)
  evals : List (Vec K n)
  rng : σ

/-- Loop body — /repo/stochopy/optimize/na/_na.py:216-224. -/
def step (P : Par σ K n) (it : Nat) (s : State σ K p n) : Except PyErr (State σ K p n × Option Int) := do
  let X ← mutation P.R P.argsort (spanMask P.lower P.upper) s.All p P.nr s.rng        -- line 217
  let r ← selectionSync it X.1 s.gbest s.pbest s.pbestfit P.maxiter P.xtol P.ftol P.objN   -- lines 220-222
  .ok ({ X := X.1, pbest := r.x, gbest := r.xbest, pbestfit := r.xfun, gfit := r.xbestfun, pfit := r.candfun,
         All := List.ofFn (fun i => (X.1 i, r.candfun i)) ++ s.All                     -- lines 223-224
         caller := s.caller,
         evals := s.evals ++ List.ofFn (fun i => unnormalize P.lower P.upper (X.1 i)), rng := X.2 }, r.status)

/-- The optimizer-specific part of the frame.  The initial population is recorded in normalised coordinates
(/repo/stochopy/optimize/na/_na.py:193 and 199), later ones are unnormalised (lines 228 and 233). -/
def alg (P : Par σ K n) : Alg (State σ K p n) K p n :=
  { step := step P
    post := fun _ s => s
    cbX := fun s i => unnormalize P.lower P.upper (s.X i)
    best := fun s => unnormalize P.lower P.upper s.gbest
    bestFun := State.gfit
    rec0X := State.X
    rec0Best := State.gbest
    recX := fun s i => unnormalize P.lower P.upper (s.X i)
    pfit := State.pfit }

/-- Initial population — /repo/stochopy/optimize/na/_na.py:169-184. -/
def init (P : Par σ K n) (x0 : Option (Pop K p n)) (g : σ) : Except PyErr (State σ K p n) := do
  let X0 : Pop K p n × σ := match x0 with
    | some x => (x, g)
    | none => lhs P.R p P.lower P.upper g
  let X : Pop K p n := fun i => normalize P.lower P.upper (X0.1 i)
  let pfit := P.objN.pop X
  let gbidx ← argmin pfit
  .ok { X := X, pbest := X, gbest := X gbidx, pbestfit := pfit, gfit := pfit gbidx, pfit := pfit,
        All := List.ofFn fun i => (X i, pfit i), caller := x0,
        evals := List.ofFn fun i => unnormalize P.lower P.upper (X i), rng := X0.2 }

/-- `na` (undecorated) — /repo/stochopy/optimize/na/_na.py:135-262. -/
def na (P : Par σ K n) (c : Cfg) (fuel : Nat) (x0 : Option (Pop K p n)) (g : σ) :
    Except PyErr (Output σ K p n) := do
  let s0 ← init P x0 g
  let r ← (alg P).run c fuel s0
  .ok { res := r.1, cbs := r.2.cbs, evals := r.2.s.evals, x0After := r.2.s.caller, rng := r.2.s.rng }

end core

/-- Arguments of `minimize` — /repo/stochopy/optimize/na/_na.py:11-27. -/
structure Args (K : Type) extends CommonArgs K where
  nrperc : K

/-- Argument checks in code order — /repo/stochopy/optimize/na/_na.py:85-114. -/
def validate (a : Args K) : Except PyErr Unit :=
  if a.fn.isNone then .error .typeError                                     -- lines 85-86
  else if a.bounds.ndim ≠ 2 then .error .valueError                         -- lines 89-90
  else if a.badX0Shape then .error .valueError                              -- lines 93-95
  else if a.popsize < 2 then .error .valueError                             -- lines 98-99
  else if a.badX0Len then .error .valueError                                -- lines 101-102
  else if ¬ (0 < a.nrperc ∧ a.nrperc ≤ 1) then .error .valueError           -- lines 105-106
  else if a.badCallback then .error .valueError                             -- lines 113-114
  else .ok ()

/-- `nr = max(1, int(nrperc * popsize))` — /repo/stochopy/optimize/na/_na.py:166. -/
def Args.nr [IntParts K] (a : Args K) : Nat := (max 1 (pyInt (a.nrperc * (a.popsize : K)))).toNat

/-- `minimize` — /repo/stochopy/optimize/na/_na.py:11-131 (always synchronous, line 129). -/
def minimize [IntParts K] (env : Env) (R : Rng σ K) (srt : Argsort K) (fuel : Nat) (a : Args K) (g : σ) :
    Except PyErr (Output σ K a.p a.ndim) := do
  validate a
  match a.fn with
  | none => .error .typeError
  | some fn =>
    optimizer env fn true a.workers a.backend fun obj => do
      a.unpackBounds                                                        -- line 154
      na { R := R, argsort := srt, nr := a.nr, lower := a.lower, upper := a.upper, maxiter := a.maxiter,
           xtol := a.xtol, ftol := a.ftol, obj := obj }
        a.cfg fuel a.x0Pop (a.seeded R g)

end Stochopy.NA
