import Verif.Lemmas.SamplerUnits
import Verif.Props.Rotation
import Verif.Spec.RotationSampler

/-! The samplers in turned coordinates. -/

set_option linter.unusedSectionVars false

namespace Stochopy
open Sampling Spec Matrix
variable {σ : Type} {n : Nat}

theorem onFinite_point (ψ : Vec ℝ n → Vec ℝ n) (y : Vec ℝ n) : onFinite ψ (point y) = point (ψ y) := by
  have h : Finite (point y) := fun j => ⟨y j, rfl⟩
  unfold onFinite
  rw [dif_pos h]
  congr 2
  funext j
  exact (Val.fin.inj (h j).choose_spec).symm

theorem exists_point {x : Vec (Val ℝ) n} (h : Finite x) : ∃ y, x = point y :=
  ⟨fun j => (h j).choose, funext fun j => (h j).choose_spec⟩

theorem onFinite_back {ψ ψ' : Vec ℝ n → Vec ℝ n} (h : ∀ y, ψ' (ψ y) = y) (x : Vec (Val ℝ) n) :
    onFinite ψ' (onFinite ψ x) = x := by
  by_cases hx : Finite x
  · obtain ⟨y, rfl⟩ := exists_point hx
    rw [onFinite_point, onFinite_point, h]
  · have : ∀ f : Vec ℝ n → Vec ℝ n, onFinite f x = x := fun f => dif_neg hx
    rw [this, this]

/-- What the coordinates and the step sizes have to do with each other. -/
def Moves (F : Vec ℝ n → Vec ℝ n) (Q : Matrix (Fin n) (Fin n) ℝ) (step : Vec ℝ n) : Prop :=
  ∀ y z, F (fun k => y k + step k * z k) = fun k => F y k + step k * (Q *ᵥ z) k

variable {F : Vec ℝ n → Vec ℝ n} {Q : Matrix (Fin n) (Fin n) ℝ} {T T' : σ → σ} {R : Rng σ ℝ}

/-- The states are related and the current point is finite. -/
def TurnRel (F : Vec ℝ n → Vec ℝ n) (T : σ → σ) (E : List (Vec (Val ℝ) n) → List (Vec (Val ℝ) n) → Prop) (s s' : State σ ℝ n) : Prop :=
  StRel (onFinite F) T E s s' ∧ ∃ y, s.xcur = point y

theorem truthy_none (x : Vec (Val ℝ) n) (l u : Vec ℝ n) : truthy (inSearchSpace x l u none) = true := rfl

theorem TurnRel.finish {E : List (Vec (Val ℝ) n) → List (Vec (Val ℝ) n) → Prop} {s s' : State σ ℝ n} {x : Vec ℝ n} {y : Vec ℝ n}
    (hb : StRel (onFinite F) T E s s') (hy : s.xcur = point y) (b : Bool) (f : Val ℝ) (hc ra : Bool) :
    TurnRel F T E ((s.push (if b then some (point x, f) else none)).notify hc ra)
      ((s'.push (if b then some (point (F x), f) else none)).notify hc ra) := by
  cases b
  · exact ⟨(hb.push none).notify _ _, y, hy⟩
  · have h1 := hb.push (some (point x, f))
    rw [Option.map_some, onFinite_point] at h1
    exact ⟨h1.notify _ _, x, rfl⟩

section MCMC

/-- Two parameter sets of `mcmc` that differ by a rotation. -/
structure MCMC.Turn (F : Vec ℝ n → Vec ℝ n) (Q : Matrix (Fin n) (Fin n) ℝ) (T T' : σ → σ) (P P' : MCMC.Par σ ℝ n) : Prop where
  fn : ∀ x, P'.fn (onFinite F x) = P.fn x
  moves : Moves F Q P.step
  step : P'.step = P.step
  per : P.per = max 1 n
  per' : P'.per = max 1 n
  cons : P.constraints = none
  cons' : P'.constraints = none
  maxiter : P'.maxiter = P.maxiter
  cb : P'.hasCallback = P.hasCallback
  ra : P'.returnAll = P.returnAll
  R : P'.R = P.R
  turns : P.R.Turns Q T T'

variable {P P' : MCMC.Par σ ℝ n}

/-- An iteration that moves all coordinates. -/
theorem MCMC.block_full (hn : 0 < n) (hper : P.per = max 1 n) (hc : P.constraints = none) {s : State σ ℝ n} {y : Vec ℝ n}
    (hy : s.xcur = point y) :
    MCMC.block P 0 s =
      let z := drawVec P.R.randn n s.rng
      let x := point fun k => y k + P.step k * z.1 k
      let u := P.R.rand z.2
      .ok ((({ s with evals := s.evals ++ [x], rng := u.2 } : State σ ℝ n).push
        (if metropolis (s.fcur - P.fn x) u.1 then some (x, P.fn x) else none)).notify P.hasCallback P.returnAll) := by
  unfold MCMC.block
  rw [hper, hc]
  have h1 : min n (0 + max 1 n - 1) = n - 1 := by omega
  rw [h1]
  dsimp only
  have h2 : n - 1 - 0 + 1 = n := by omega
  rw [if_neg (by omega), if_pos (truthy_none _ _ _)]
  have hz : ∀ m, m = n → (drawVec P.R.randn m s.rng).2 = (drawVec P.R.randn n s.rng).2 ∧
      MCMC.perturb P.step 0 (n - 1) (fun k => if h : k < m then (drawVec P.R.randn m s.rng).1 ⟨k, h⟩ else 0) s.xcur =
        point fun k => y k + P.step k * (drawVec P.R.randn n s.rng).1 k := by
    rintro m rfl
    refine ⟨rfl, ?_⟩
    funext k
    unfold MCMC.perturb
    rw [if_pos ⟨Nat.zero_le _, by omega⟩, hy]
    show Val.fin _ + Val.fin _ = _
    rw [Val.fin_add]
    simp only [Nat.sub_zero, k.2, dif_pos]
    show Val.fin _ = Val.fin _
    rw [mul_comm]
  obtain ⟨e1, e2⟩ := hz _ h2
  rw [e1, e2]

theorem MCMC.Turn.block (h : MCMC.Turn F Q T T' P P') (hn : 0 < n) {s s' : State σ ℝ n}
    (hs : TurnRel F T (fun l l' => l' = l.map (onFinite F)) s s') :
    ExRel (TurnRel F T fun l l' => l' = l.map (onFinite F)) (MCMC.block P 0 s) (MCMC.block P' 0 s') := by
  obtain ⟨hs, y, hy⟩ := hs
  have hy' : s'.xcur = point (F y) := by rw [hs.xcur, hy, onFinite_point]
  rw [MCMC.block_full hn h.per h.cons hy, MCMC.block_full hn h.per' h.cons' hy', h.R, hs.rng, h.turns.normals, h.cb, h.ra, h.step]
  dsimp only
  rw [h.turns.rand, ← h.moves, hs.fcur]
  generalize hx : (fun k => y k + P.step k * (drawVec P.R.randn n s.rng).1 k) = x
  have hf : P'.fn (point (F x)) = P.fn (point x) := by rw [← onFinite_point, h.fn]
  rw [hf]
  have hb : StRel (onFinite F) T (fun l l' => l' = l.map (onFinite F))
      { s with evals := s.evals ++ [point x], rng := (P.R.rand (drawVec P.R.randn n s.rng).2).2 }
      { s' with evals := s'.evals ++ [point (F x)], rng := T (P.R.rand (drawVec P.R.randn n s.rng).2).2 } :=
    ⟨hs.xs, hs.fs, hs.xcur, hs.fcur, hs.nacc, hs.imin, hs.fmin, hs.cbs,
      by rw [hs.evals, List.map_append]; simp only [List.map_cons, List.map_nil, onFinite_point], rfl⟩
  have := TurnRel.finish (x := x) hb hy (metropolis (s.fcur - P.fn (point x)) (P.R.rand (drawVec P.R.randn n s.rng).2).1)
    (P.fn (point x)) P.hasCallback P.returnAll
  show TurnRel F T _ _ _
  simpa only [hs.fcur] using this

theorem MCMC.starts_full : MCMC.starts n (max 1 n) = if 0 < n then [0] else [] := by
  split_ifs with h
  · rw [MCMC.starts, show max 1 n = n by omega]
    obtain ⟨m, rfl⟩ : ∃ m, n = m + 1 := ⟨n - 1, by omega⟩
    rw [List.range_succ_eq_map, List.filter_cons_of_pos (by simp), List.filter_eq_nil_iff.2]
    intro a ha
    obtain ⟨b, hb, rfl⟩ := List.mem_map.1 ha
    have := List.mem_range.1 hb
    rw [decide_eq_true_eq, Nat.mod_eq_of_lt (by simpa using this)]
    exact Nat.succ_ne_zero b
  · have : n = 0 := by omega
    subst this
    rfl

theorem MCMC.Turn.sweep (h : MCMC.Turn F Q T T' P P') {s s' : State σ ℝ n}
    (hs : TurnRel F T (fun l l' => l' = l.map (onFinite F)) s s') :
    ExRel (TurnRel F T fun l l' => l' = l.map (onFinite F)) (MCMC.sweep P (MCMC.starts n (max 1 n)) s)
      (MCMC.sweep P' (MCMC.starts n (max 1 n)) s') := by
  rw [MCMC.starts_full]
  split_ifs with hn
  · unfold MCMC.sweep
    refine (h.block hn hs).bind fun a b hab => ?_
    unfold MCMC.sweep
    rw [h.maxiter, hab.1.xs, List.length_map]
    split_ifs <;> exact hab
  · exact hs

theorem MCMC.Turn.loop (h : MCMC.Turn F Q T T' P P') : ∀ (fuel : Nat) {s s' : State σ ℝ n},
    TurnRel F T (fun l l' => l' = l.map (onFinite F)) s s' →
    ExRel (TurnRel F T fun l l' => l' = l.map (onFinite F)) (MCMC.loop P fuel s) (MCMC.loop P' fuel s') := by
  intro fuel
  induction fuel with
  | zero =>
    intro s s' hs
    unfold MCMC.loop
    rw [h.maxiter, hs.1.xs, List.length_map]
    split_ifs
    · rfl
    · exact hs
  | succ fuel ih =>
    intro s s' hs
    unfold MCMC.loop
    rw [h.maxiter, hs.1.xs, List.length_map, h.per, h.per']
    split_ifs
    · exact (h.sweep hs).bind fun a b hab => ih hab
    · exact hs

theorem Sampling.startOf_finite {maxiter : Int} {callback : Option Bool} {ra : Bool} {fn : Vec (Val ℝ) n → Val ℝ}
    {x : Vec ℝ n} {g : σ} {s : State σ ℝ n} (h : startOf maxiter callback ra fn (.ok (point x, g)) = .ok s) : s.xcur = point x := by
  unfold startOf at h
  split_ifs at h <;> cases h <;> rfl

theorem Sampling.startOf_turn {E : List (Vec (Val ℝ) n) → List (Vec (Val ℝ) n) → Prop} (he : EvRel (onFinite F) E) (maxiter : Int)
    (cb : Option Bool) (ra : Bool) {fn fn' : Vec (Val ℝ) n → Val ℝ} (hfn : ∀ x, fn' (onFinite F x) = fn x) (x : Vec ℝ n) (g : σ) :
    ExRel (TurnRel F T E) (startOf maxiter cb ra fn (.ok (point x, g))) (startOf maxiter cb ra fn' (.ok (point (F x), T g))) := by
  have h := startOf_rel (T := T) he maxiter cb ra hfn (x := .ok (point x, g)) (x' := .ok (point (F x), T g))
    ⟨(onFinite_point _ _).symm, rfl⟩
  cases h1 : startOf maxiter cb ra fn (.ok (point x, g)) with
  | error e => rw [h1] at h; cases h2 : startOf maxiter cb ra fn' (.ok (point (F x), T g)) with
    | error e' => rw [h2] at h; exact h
    | ok s' => rw [h2] at h; exact h.elim
  | ok s => rw [h1] at h; cases h2 : startOf maxiter cb ra fn' (.ok (point (F x), T g)) with
    | error e' => rw [h2] at h; exact h.elim
    | ok s' => rw [h2] at h; exact ⟨h, x, startOf_finite h1⟩

theorem MCMC.Turn.restOf (h : MCMC.Turn F Q T T' P P') (fuel : Nat) (perc : ℝ) (bc : Bool) (maxiter : Int) (cb : Option Bool)
    (x : Vec ℝ n) (g : σ) :
    MCMC.restOf fuel perc bc maxiter cb P' (.ok (point (F x), T g)) =
      (MCMC.restOf fuel perc bc maxiter cb P (.ok (point x, g))).map (Sampling.Output.map (onFinite F) T) := by
  refine ExRel.map_eq (r := fun o o' => o' = o.map (onFinite F) T) ?_ fun _ _ h => h
  unfold MCMC.restOf
  rw [h.ra]
  by_cases h1 : ¬ (0 ≤ perc ∧ perc ≤ 1)
  · rw [if_pos h1, if_pos h1]; exact rfl
  rw [if_neg h1, if_neg h1]
  cases bc
  swap
  · exact rfl
  · rw [if_neg Bool.false_ne_true, if_neg Bool.false_ne_true]
    refine (startOf_turn evRel_map maxiter cb P.returnAll h.fn x g).bind fun s s' hs => ?_
    refine (h.loop fuel hs).bind fun s s' hs => ?_
    exact MCMC.finish_rel maxiter _ hs.1

end MCMC

section HMC

/-- Two parameter sets of `hmc` that differ by a rotation. -/
structure HMC.Turn (F : Vec ℝ n → Vec ℝ n) (Q : Matrix (Fin n) (Fin n) ℝ) (T T' : σ → σ) (P P' : HMC.Par σ ℝ n) : Prop where
  fn : ∀ x, P'.fn (onFinite F x) = P.fn x
  grad : ∀ x, ∃ γ γ' e e', P.G (point x) = .ok (point γ, e) ∧ P'.G (point (F x)) = .ok (point γ', e') ∧ e'.length = e.length ∧
    (fun j => P.step j * γ' j) = Q *ᵥ fun j => P.step j * γ j
  moves : Moves F Q P.step
  orth : Qᵀ * Q = 1
  step : P'.step = P.step
  nleap : P'.nleap = P.nleap
  cons : P.constraints = none
  cons' : P'.constraints = none
  cb : P'.hasCallback = P.hasCallback
  ra : P'.returnAll = P.returnAll
  R : P'.R = P.R
  turns : P.R.Turns Q T T'

variable {P P' : HMC.Par σ ℝ n}

def HMC.TurnPh (F : Vec ℝ n → Vec ℝ n) (Q : Matrix (Fin n) (Fin n) ℝ) (s s' : HMC.Phase ℝ n) : Prop :=
  ∃ x p, s.1 = point x ∧ s'.1 = point (F x) ∧ s.2.1 = point p ∧ s'.2.1 = point (Q *ᵥ p) ∧ s'.2.2.length = s.2.2.length

theorem HMC.Turn.kick (h : HMC.Turn F Q T T' P P') (k : ℝ) {s s' : HMC.Phase ℝ n} (hs : HMC.TurnPh F Q s s') :
    ExRel (HMC.TurnPh F Q) (HMC.kick P.G (fun j => k * P.step j) s) (HMC.kick P'.G (fun j => k * P'.step j) s') := by
  obtain ⟨x, p, h1, h2, h3, h4, h5⟩ := hs
  obtain ⟨γ, γ', e, e', g1, g2, g3, g4⟩ := h.grad x
  unfold HMC.kick
  rw [h1, h2, h3, h4, g1, g2, h.step]
  refine ⟨x, fun j => p j - k * P.step j * γ j, rfl, rfl, rfl, ?_, ?_⟩
  · have e1 : (fun j => p j - k * P.step j * γ j) = p - k • fun j => P.step j * γ j := by
      funext j
      show _ = p j - k * (P.step j * γ j)
      ring
    rw [e1, mulVec_sub, mulVec_smul, ← g4]
    funext j
    show Val.fin _ = Val.fin _
    congr 1
    show (Q *ᵥ p) j + -(k * P.step j * γ' j) = (Q *ᵥ p) j - k * (P.step j * γ' j)
    ring
  · rw [List.length_append, List.length_append, h5, g3]

theorem HMC.Turn.kick1 (h : HMC.Turn F Q T T' P P') {s s' : HMC.Phase ℝ n} (hs : HMC.TurnPh F Q s s') :
    ExRel (HMC.TurnPh F Q) (HMC.kick P.G P.step s) (HMC.kick P'.G P'.step s') := by
  have := h.kick 1 hs
  simpa only [one_mul] using this

theorem HMC.Turn.driftRel (h : HMC.Turn F Q T T' P P') {s s' : HMC.Phase ℝ n} (hs : HMC.TurnPh F Q s s') :
    HMC.TurnPh F Q (HMC.drift P.step s) (HMC.drift P'.step s') := by
  obtain ⟨x, p, h1, h2, h3, h4, h5⟩ := hs
  refine ⟨fun k => x k + P.step k * p k, p, ?_, ?_, h3, h4, h5⟩
  · unfold HMC.drift
    rw [h1, h3]
    rfl
  · unfold HMC.drift
    rw [h2, h4, h.moves, h.step]
    rfl

theorem HMC.Turn.leaps (h : HMC.Turn F Q T T' P P') : ∀ (k : Nat) {s s' : HMC.Phase ℝ n}, HMC.TurnPh F Q s s' →
    ExRel (HMC.TurnPh F Q) (HMC.leaps P.G P.step k s) (HMC.leaps P'.G P'.step k s') := by
  intro k
  induction k with
  | zero => intro s s' hs; exact hs
  | succ k ih =>
    intro s s' hs
    unfold HMC.leaps
    exact (h.kick1 hs).bind fun a b hab => ih (h.driftRel hab)

theorem HMC.Turn.leapfrog (h : HMC.Turn F Q T T' P P') (k : Nat) (x p : Vec ℝ n) :
    ExRel (HMC.TurnPh F Q) (HMC.leapfrog P.G P.step k (point x) (point p)) (HMC.leapfrog P'.G P'.step k (point (F x)) (point (Q *ᵥ p))) := by
  unfold HMC.leapfrog
  refine (h.kick (1 / 2) (s := (point x, point p, [])) (s' := (point (F x), point (Q *ᵥ p), [])) ⟨x, p, rfl, rfl, rfl, rfl, rfl⟩).bind fun a b hab => ?_
  refine (h.leaps k (h.driftRel hab)).bind fun a b hab => ?_
  exact h.kick (1 / 2) hab

theorem HMC.kinetic_point (p : Vec ℝ n) : HMC.kinetic (point p) = .fin (1 / 2 * ∑ j, p j ^ 2) := by
  unfold HMC.kinetic
  have : ∀ (l : List ℝ) (a : ℝ), (l.map fun x => Val.fin x).foldl (· + ·) (.fin a) = .fin (a + l.sum) := by
    intro l
    induction l with
    | nil => intro a; simp
    | cons b l ih => intro a; rw [List.map_cons, List.foldl_cons, Val.fin_add, ih, List.sum_cons, add_assoc]
  have e : (List.ofFn fun j => point p j * point p j) = (List.ofFn fun j => p j ^ 2).map fun x => Val.fin x := by
    rw [List.map_ofFn]
    congr 1
    funext j
    show Val.fin (p j * p j) = Val.fin (p j ^ 2)
    rw [sq]
  rw [e, this, zero_add, List.sum_ofFn]
  rfl

theorem HMC.Turn.iter (h : HMC.Turn F Q T T' P P') {s s' : State σ ℝ n}
    (hs : TurnRel F T (fun l l' => l'.length = l.length) s s') :
    ExRel (TurnRel F T fun l l' => l'.length = l.length) (HMC.iter P s) (HMC.iter P' s') := by
  obtain ⟨hs, y, hy⟩ := hs
  have hy' : s'.xcur = point (F y) := by rw [hs.xcur, hy, onFinite_point]
  unfold HMC.iter
  rw [h.cons, h.cons', h.cb, h.ra, h.R, hs.rng, h.nleap, hy, hy', h.turns.normals]
  dsimp only
  refine (h.leapfrog P.nleap y _).bind fun r r' hr => ?_
  obtain ⟨x, p, h1, h2, h3, h4, h5⟩ := hr
  have hf : ∀ x, P'.fn (point (F x)) = P.fn (point x) := fun x => by rw [← onFinite_point, h.fn]
  have hk : ∀ p, HMC.kinetic (point (Q *ᵥ p)) = HMC.kinetic (point p) := fun p => by
    rw [HMC.kinetic_point, HMC.kinetic_point]
    have h1 : ∑ j, (Q *ᵥ p) j ^ 2 = (Q *ᵥ p) ⬝ᵥ (Q *ᵥ p) := Finset.sum_congr rfl fun j _ => sq _
    have h2 : ∑ j, p j ^ 2 = p ⬝ᵥ p := Finset.sum_congr rfl fun j _ => sq _
    rw [h1, h2, Matrix.dotProduct_mulVec, ← Matrix.mulVec_transpose, Matrix.mulVec_mulVec, h.orth, Matrix.one_mulVec]
  rw [if_pos (truthy_none _ _ _), if_pos (truthy_none _ _ _), h.turns.rand, h1, h2, h3, h4, hf, hf, hk]
  generalize (drawVec P.R.randn n s.rng).2 = g
  have e0 : HMC.kinetic (fun j => Val.fin ((Q *ᵥ (drawVec P.R.randn n s.rng).1) j)) =
    HMC.kinetic (fun j => Val.fin ((drawVec P.R.randn n s.rng).1 j)) := hk _
  rw [e0]
  have hb : StRel (onFinite F) T (fun l l' => l'.length = l.length)
      { s with evals := s.evals ++ r.2.2 ++ [point y, point x], rng := (P.R.rand g).2 }
      { s' with evals := s'.evals ++ r'.2.2 ++ [point (F y), point (F x)], rng := T (P.R.rand g).2 } :=
    ⟨hs.xs, hs.fs, hs.xcur, hs.fcur, hs.nacc, hs.imin, hs.fmin, hs.cbs, by
      have := hs.evals
      simp only [List.length_append, this, h5]; rfl, rfl⟩
  have := TurnRel.finish (x := x) hb hy (metropolis (HMC.energyDrop (P.fn (point y)) (P.fn (point x))
    (HMC.kinetic (fun j => Val.fin ((drawVec P.R.randn n s.rng).1 j))) (HMC.kinetic (point p))) (P.R.rand g).1)
    (P.fn (point x)) P.hasCallback P.returnAll
  show TurnRel F T _ _ _
  simpa only [hy, hy'] using this

theorem HMC.Turn.loop (h : HMC.Turn F Q T T' P P') : ∀ (k : Nat) {s s' : State σ ℝ n},
    TurnRel F T (fun l l' => l'.length = l.length) s s' →
    ExRel (TurnRel F T fun l l' => l'.length = l.length) (HMC.loop P k s) (HMC.loop P' k s') := by
  intro k
  induction k with
  | zero => intro s s' hs; exact hs
  | succ k ih =>
    intro s s' hs
    unfold HMC.loop
    exact (h.iter hs).bind fun a b hab => ih hab

theorem Sampling.evRel_length (ψ : Vec (Val ℝ) n → Vec (Val ℝ) n) : EvRel ψ fun l l' => l'.length = l.length where
  app a b c d h1 h2 := by rw [List.length_append, List.length_append, h1, h2]
  map l := List.length_map ..
  len _ _ h := h

theorem HMC.Turn.restOf (h : HMC.Turn F Q T T' P P') (bj bc : Bool) (maxiter : Int) (cb : Option Bool) (x : Vec ℝ n) (g : σ) :
    ExRel (OutRel (onFinite F) T fun l l' => l'.length = l.length) (HMC.restOf bj bc maxiter cb P (.ok (point x, g)))
      (HMC.restOf bj bc maxiter cb P' (.ok (point (F x), T g))) := by
  unfold HMC.restOf
  rw [h.ra]
  cases bj
  swap
  · exact rfl
  cases bc
  swap
  · exact rfl
  simp only [if_neg Bool.false_ne_true]
  refine (startOf_turn (evRel_length _) maxiter cb P.returnAll h.fn x g).bind fun s s' hs => ?_
  refine (h.loop _ hs).bind fun s s' hs => ?_
  exact HMC.finish_rel (evRel_length _) maxiter _ hs.1

end HMC

end Stochopy
