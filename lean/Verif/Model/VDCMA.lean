import Verif.Model.CMAES

/-!
# Model of `stochopy/optimize/vdcma/_vdcma.py`
-/

namespace Stochopy.VDCMA

open Evo

variable {K σ : Type} [Zero K] [One K] [Add K] [Sub K] [Mul K] [Div K] [Neg K] [NatCast K] [IntCast K] [Pow K ℕ]
  [ArrayOps K] [LinearOrder K] [NumFns K]

/-! ## Strategy parameters — /repo/stochopy/optimize/vdcma/_vdcma.py:194-199 -/

/-- line 194 -/
def cfactor (n : Nat) : K := ((n : K) - 5) / 6
/-- line 195 -/
def c1 (n : Nat) (me : K) : K := cfactor n * 2 / (((n : K) + 13 / 10) ^ 2 + me)
/-- lines 196-199 -/
def cmu (n : Nat) (me : K) : K :=
  min (1 - c1 n me) (cfactor n * 2 * (me - 2 + 1 / me) / (((n : K) + 2) ^ 2 + me))

/-- The variables of the Gaussian model.  `norm_v2`, `norm_v`, `vn`, `vnn` are functions of `vvec`. -/
structure State (σ K : Type) (p n : Nat) where
  xmean : Vec K n
  xold : Vec K n
  dx : Vec K n
  ps : K
  pc : Vec K n
  dvec : Vec K n
  vvec : Vec K n
  sigma : K
  /-- `flg_injection` -/
  inj : Bool
  /-- `diagC`, `ary` of the current generation -/
  diagC : Vec K n
  ary : Pop K p n
  rng : σ

structure Par (σ K : Type) (p n : Nat) where
  R : Rng σ K
  mu : Nat
  hmu : mu ≤ p

section
variable {p n : Nat}

/-- `np.dot` of two vectors. -/
def dot (a b : Vec K n) : K := ArrayOps.dot a b
/-- `np.max` of an array of squares. -/
def vmax (v : Vec K n) : K := (List.finRange n).foldl (fun a j => max a (v j)) 0

/-- `norm_v2 = np.dot(vvec, vvec)` — lines 209, 374 -/
def normV2 (v : Vec K n) : K := dot v v
/-- `norm_v = np.sqrt(norm_v2)` — lines 210, 375 -/
def normV (v : Vec K n) : K := NumFns.sqrt (normV2 v)
/-- `vn = vvec / norm_v` — lines 211, 376 -/
def vn (v : Vec K n) : Vec K n := fun j => v j / normV v
/-- `vnn = vn**2` — lines 212, 377 -/
def vnn (v : Vec K n) : Vec K n := fun j => vn v j ^ 2

/-- `np.diag` of `D (I + v v^T) D` — lines 251-256. -/
def diagCov (d v : Vec K n) : Vec K n := fun j => d j * (1 + v j * v j) * d j

/-- One row of `ary` — lines 240-242. -/
def spread (d v z : Vec K n) : Vec K n := fun j =>
  d j * (z j + (NumFns.sqrt (1 + normV2 v) - 1) * (dot z (vn v) * vn v j))

/-- `mnorm` — line 245. -/
def mnorm (dx d v : Vec K n) : K :=
  (ArrayOps.sum fun j => (dx j / d j) ^ 2) - (dot (fun j => dx j / d j) v) ^ 2 / (1 + normV2 v)

/-- The injected pair — lines 243-248. -/
def inject (P : Par σ K p n) (s : State σ K p n) (ary : Pop K p n) (g : σ) : Except PyErr (Pop K p n × σ) :=
  if s.inj then do
    need (0 < mnorm s.dx s.dvec s.vvec)
    let u := drawVec P.R.randn n g
    let dy : Vec K n := fun j => CMAES.norm u.1 / NumFns.sqrt (mnorm s.dx s.dvec s.vvec) * s.dx j   -- line 246
    if p < 2 then .error .indexError                                                    -- line 248: ary[1]
    else .ok (fun i => if i.val = 0 then dy else if i.val = 1 then fun j => -dy j else ary i, u.2)
  else .ok (ary, g)

/-- Sampling — lines 239-256. -/
def sample (P : Par σ K p n) (s : State σ K p n) : Except PyErr (Pop K p n × State σ K p n) := do
  need (0 < normV s.vvec ∧ ∀ j, 0 < s.dvec j)
  let z := drawMat P.R.randn p n s.rng                                                  -- line 239
  let r ← inject P s (fun i => spread s.dvec s.vvec (z.1 i)) z.2
  .ok (fun i j => s.xmean j + s.sigma * r.1 i j,
    { s with
      ary := r.1
      diagC := diagCov s.dvec s.vvec
      rng := r.2 })

/-- `alpha`, `beta` — lines 318-326. -/
def alphaBeta (v : Vec K n) : K × K :=
  let v2 := normV2 v
  let gamma := 1 / NumFns.sqrt (1 + v2)
  let alpha := NumFns.sqrt (v2 ^ 2 + (1 + v2) / vmax (vnn v) * (2 - gamma)) / (2 + v2)
  if alpha < 1 then (alpha, (4 - (2 - gamma) / vmax (vnn v)) / (1 + 2 / v2) ^ 2) else (1, 0)

/-- `bsca` — line 327 -/
def bsca (v : Vec K n) : K := 2 * (alphaBeta v).1 ^ 2 - (alphaBeta v).2
/-- `avec` — line 328 -/
def avec (v : Vec K n) : Vec K n := fun j => 2 - (bsca v + 2 * (alphaBeta v).1 ^ 2) * vnn v j
/-- `invavnn` — line 329 -/
def invavnn (v : Vec K n) : Vec K n := fun j => vnn v j / avec v j

/-- `pvec_and_qvec` on one vector — lines 426-431. -/
def pq (v y : Vec K n) : Vec K n × Vec K n :=
  let yv := dot y (vn v)
  let v2 := normV2 v
  (fun j => y j ^ 2 - v2 / (1 + v2) * (yv * y j * vn v j) - 1,
   fun j => yv * y j - 1 / 2 * (yv ^ 2 + 1 + v2) * vn v j)

/-- One row of the arrays that are averaged in `pvec_and_qvec` with weights — lines 433-439.  (Here `y_vn` is multiplied by
`y * vn`, in `pq` `y_vn * y` is multiplied by `vn`.) -/
def pqRow (v y : Vec K n) : Vec K n × Vec K n :=
  let yv := dot y (vn v)
  let v2 := normV2 v
  (fun j => y j ^ 2 - v2 / (1 + v2) * (yv * (y j * vn v j)) - 1,
   fun j => yv * y j - 1 / 2 * (yv ^ 2 + 1 + v2) * vn v j)

/-- `pvec_and_qvec` with weights — lines 433-439. -/
def pqMu {mu : Nat} (v : Vec K n) (y : Fin mu → Vec K n) (w : Vec K mu) : Vec K n × Vec K n :=
  (fun j => ArrayOps.dot w fun k => (pqRow v (y k)).1 j, fun j => ArrayOps.dot w fun k => (pqRow v (y k)).2 j)

/-- The denominator of `svec` — line 451. -/
def denom (v : Vec K n) : K := 1 + bsca v * dot (vnn v) (invavnn v)

/-- `ngv_ngd` — lines 444-458. -/
def ngvNgd (d v pvec qvec : Vec K n) : Vec K n × Vec K n :=
  let v2 := normV2 v
  let alpha := (alphaBeta v).1
  let rvec : Vec K n := fun j => pvec j - alpha / (1 + v2) *
    ((2 + v2) * qvec j * vn v j - v2 * dot (vn v) qvec * vnn v j)
  let svec : Vec K n := fun j => rvec j / avec v j - bsca v * dot rvec (invavnn v) / denom v * invavnn v j
  (fun j => qvec j / normV v - alpha / normV v * ((2 + v2) * (vn v j * svec j) - dot svec (vnn v) * vn v j),
   fun j => d j * svec j)

/-- `min(up, 0.7 * a / b)` for `a > 0`, `b >= 0`; a zero divisor makes the quotient infinite. -/
def capNorm (up a b : K) : K := if b = 0 then up else min up (7 / 10 * a / b)

/-- `min(up, 0.7 * (a / b))` for `a > 0`, `b >= 0`; a zero divisor makes the quotient infinite. -/
def cap (up a b : K) : K := if b = 0 then up else min up (7 / 10 * (a / b))

/-- Truncation — lines 360-363.  (`0.7 * q.min()` is the minimum of the `0.7 * q`, with or without rounding.) -/
def upfactor (d v ngv ngd : Vec K n) : K :=
  (List.finRange n).foldl (fun up j => cap up (d j) (absv (ngd j))) (capNorm 1 (normV v) (NumFns.sqrt (dot ngv ngv)))

/-- The natural gradient — lines 331-371: increments of `vvec` and `dvec`. -/
def increments (P : Par σ K p n) (me : K) (order : Equiv.Perm (Fin p)) (cond : Bool) (pc d v : Vec K n) (ary : Pop K p n) :
    Vec K n × Vec K n :=
  let m := if cmu n me = 0 then (fun _ => 0, fun _ => 0)
    else pqMu v (fun (k : Fin P.mu) j => ary (order (Fin.castLE P.hmu k)) j / d j) (weights P.mu)
  let o := if c1 n me = 0 then (fun _ => 0, fun _ => 0) else pq v fun j => pc j / d j
  let pvec : Vec K n := fun j => cmu n me * m.1 j + if cond then c1 n me * o.1 j else 0
  let qvec : Vec K n := fun j => cmu n me * m.2 j + if cond then c1 n me * o.2 j else 0
  if 0 < cmu n me + c1 n me then
    let g := ngvNgd d v pvec qvec
    let up := upfactor d v g.1 g.2
    (fun j => up * g.1 j, fun j => up * g.2 j)
  else (fun _ => 0, fun _ => 0)

/-- `ps`, `sigma`, `cond` — lines 298-307. -/
def stepSize (order : Equiv.Perm (Fin p)) (s : State σ K p n) : Except PyErr (K × K × Bool) :=
  if s.inj then
    if h : 1 < p then
      let act : K := (((order.symm ⟨1, h⟩).val : K) - ((order.symm ⟨0, by omega⟩).val : K)) / ((p : K) - 1)
      let ps := s.ps + 3 / 10 * (act - s.ps)
      .ok (ps, s.sigma * NumFns.exp (ps / NumFns.sqrt (n : K)), decide (ps < 1 / 2))
    else .error .indexError
  else .ok (s.ps, s.sigma, true)

/-- `pc` — lines 310-315. -/
def pcNext (P : Par σ K p n) (order : Equiv.Perm (Fin p)) (s : State σ K p n) (cond : Bool) : Vec K n := fun j =>
  s.pc j * (1 - cc n (mueff (K := K) P.mu)) +
    if cond then NumFns.sqrt (cc n (mueff P.mu) * (2 - cc n (mueff P.mu)) * mueff P.mu) *
      recombine P.hmu (weights P.mu) order s.ary j else 0

/-- The adaptation; `u` is `ps, sigma, cond` — lines 291-293, 310-371. -/
def advance (P : Par σ K p n) (arx : Pop K p n) (order : Equiv.Perm (Fin p)) (s : State σ K p n) (u : K × K × Bool) :
    State σ K p n :=
  let w : Vec K P.mu := weights P.mu
  let dx : Vec K n := fun j => recombine P.hmu w order arx j - ArrayOps.sum w * s.xmean j   -- line 291
  let pc := pcNext P order s u.2.2
  let inc := increments P (mueff P.mu) order u.2.2 pc s.dvec s.vvec s.ary
  { s with
    dx := dx
    xold := s.xmean
    xmean := fun j => s.xmean j + dx j                                                  -- lines 292-293
    ps := u.1
    sigma := u.2.1
    inj := true
    pc := pc
    vvec := fun j => s.vvec j + inc.1 j                                                 -- line 370
    dvec := fun j => s.dvec j + inc.2 j }                                               -- line 371

/-- From the sorted population to `converge` — lines 291-377. -/
def update (P : Par σ K p n) (_nfev : Nat) (arx : Pop K p n) (order : Equiv.Perm (Fin p)) (s : State σ K p n) :
    Except PyErr (State σ K p n) := do
  let u ← stepSize order s
  need (0 < normV s.vvec ∧ (∀ j, 0 < s.dvec j) ∧ (∀ j, avec s.vvec j ≠ 0) ∧ denom s.vvec ≠ 0)
  .ok (advance P arx order s u)

/-- `vdcma` as an instance of the frame. -/
def gauss (P : Par σ K p n) : Gauss (State σ K p n) K p n where
  sample := sample P
  mean := State.xmean
  old := State.xold
  sigma := State.sigma
  diagC := State.diagC
  update := update P
  pc := State.pc
  diagConv := State.diagC
  axes _ := none

/-- Initial state — lines 181-182, 202-213, 229.  `np.random.normal(0.0, 1.0, ndim)` draws standard normals. -/
def start (R : Rng σ K) (xmean xold : Vec K n) (sigma : K) (g : σ) : State σ K p n :=
  let v := drawVec R.randn n g
  { xmean := xmean, xold := xold, dx := fun _ => 0, ps := 0, pc := fun _ => 0, dvec := fun _ => 1,
    vvec := fun j => v.1 j / NumFns.sqrt (n : K), sigma := sigma, inj := false, diagC := fun _ => 0, ary := fun _ _ => 0,
    rng := v.2 }

end

/-- `minimize` — /repo/stochopy/optimize/vdcma/_vdcma.py:13-423; `junk` is the content of `xold = np.empty(ndim)`. -/
def minimize [IntParts K] (env : Env) (R : Rng σ K) (srt : Argsort K) (fuel : Nat) (a : Args K)
    (junk : Vec K a.ndim) (g : σ) : Except PyErr (Output σ K a.p a.ndim) := do
  a.validate
  match a.fn with
  | none => .error .typeError
  | some fn =>
    optimizer env fn true a.workers a.backend fun obj => do
      a.unpackBounds                                                       -- line 166
      let pen ← consMap a.constraints
      let m ← a.firstMean R (a.seeded R g)
      if h : 0 < a.ndim ∧ 0 < a.p ∧ 0 < a.mu ∧ a.mu ≤ a.p then
        let P : Par σ K a.p a.ndim := { R := R, mu := a.mu, hmu := h.2.2.2 }
        run (a.par srt obj pen) (gauss P) a.cfg State.rng fuel (start R m.1 junk a.sigma m.2)
      else .error .unmodelled

end Stochopy.VDCMA
