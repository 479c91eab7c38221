import Verif.Lemmas.HMC
import Verif.Lemmas.MCMC
import Verif.Lemmas.MirrorEvo
import Mathlib.Data.List.GetD
import Mathlib.Tactic.Ring
import Mathlib.Tactic.FieldSimp
import Mathlib.Tactic.Linarith

/-! The samplers in other coordinates. -/

set_option linter.unusedSectionVars false

namespace Stochopy
variable {K σ : Type} [Field K] [LinearOrder K] [NumFns K] {n : Nat}

/-- Both computations raise the same exception or return related values. -/
def ExRel {α β : Type} (r : α → β → Prop) (x : Except PyErr α) (y : Except PyErr β) : Prop :=
  match x, y with
  | .ok a, .ok b => r a b
  | .error e, .error e' => e = e'
  | _, _ => False

theorem ExRel.bind {α β γ δ : Type} {r : α → β → Prop} {q : γ → δ → Prop} {x : Except PyErr α} {y : Except PyErr β}
    {f : α → Except PyErr γ} {g : β → Except PyErr δ} (h : ExRel r x y) (hfg : ∀ a b, r a b → ExRel q (f a) (g b)) :
    ExRel q (x >>= f) (y >>= g) := by
  cases x <;> cases y <;> first | exact h.elim | exact h | exact hfg _ _ h

theorem ExRel.map_eq {α β : Type} {r : α → β → Prop} {m : α → β} {x : Except PyErr α} {y : Except PyErr β} (h : ExRel r x y)
    (hr : ∀ a b, r a b → b = m a) : y = x.map m := by
  cases x <;> cases y <;> first | exact h.elim | skip
  · have : _ = _ := h; subst this; rfl
  · rw [hr _ _ h]; rfl

namespace Sampling

/-- How the lists of evaluated points are related. -/
structure EvRel (ψ : Vec (Val K) n → Vec (Val K) n) (E : List (Vec (Val K) n) → List (Vec (Val K) n) → Prop) : Prop where
  app : ∀ a b c d, E a b → E c d → E (a ++ c) (b ++ d)
  map : ∀ l, E l (l.map ψ)
  len : ∀ a b, E a b → b.length = a.length

variable {ψ : Vec (Val K) n → Vec (Val K) n} {T : σ → σ} {E : List (Vec (Val K) n) → List (Vec (Val K) n) → Prop}

theorem evRel_map : EvRel ψ fun l l' => l' = l.map ψ where
  app a b c d h1 h2 := by rw [h1, h2, List.map_append]
  map _ := rfl
  len a b h := by rw [h, List.length_map]

theorem evRel_perm : EvRel ψ fun l l' => l'.Perm (l.map ψ) where
  app a b c d h1 h2 := by rw [List.map_append]; exact h1.append h2
  map _ := List.Perm.refl _
  len a b h := by rw [h.length_eq, List.length_map]

/-- Related states. -/
structure StRel (ψ : Vec (Val K) n → Vec (Val K) n) (T : σ → σ) (E : List (Vec (Val K) n) → List (Vec (Val K) n) → Prop)
    (s s' : State σ K n) : Prop where
  xs : s'.xs = s.xs.map ψ
  fs : s'.fs = s.fs
  xcur : s'.xcur = ψ s.xcur
  fcur : s'.fcur = s.fcur
  nacc : s'.nacc = s.nacc
  imin : s'.imin = s.imin
  fmin : s'.fmin = s.fmin
  cbs : s'.cbs = s.cbs.map (CB.map ψ)
  evals : E s.evals s'.evals
  rng : s'.rng = T s.rng

theorem StRel.push {s s' : State σ K n} (h : StRel ψ T E s s') (acc : Option (Vec (Val K) n × Val K)) :
    StRel ψ T E (s.push acc) (s'.push (acc.map fun a => (ψ a.1, a.2))) := by
  obtain ⟨xs, fs, xcur, fcur, nacc, imin, fmin, cbs, evals, rng⟩ := s
  obtain ⟨xs', fs', xcur', fcur', nacc', imin', fmin', cbs', evals', rng'⟩ := s'
  obtain ⟨h1, h2, h3, h4, h5, h6, h7, h8, h9, h10⟩ := h
  dsimp only at h1 h2 h3 h4 h5 h6 h7 h8 h10
  subst h1 h2 h3 h4 h5 h6 h7 h8 h10
  cases acc with
  | none => constructor <;> first | rfl | exact h9 | simp [State.push]
  | some a => constructor <;> first | rfl | exact h9 | simp [State.push]

theorem StRel.notify {s s' : State σ K n} (h : StRel ψ T E s s') (hc ra : Bool) :
    StRel ψ T E (s.notify hc ra) (s'.notify hc ra) := by
  obtain ⟨xs, fs, xcur, fcur, nacc, imin, fmin, cbs, evals, rng⟩ := s
  obtain ⟨xs', fs', xcur', fcur', nacc', imin', fmin', cbs', evals', rng'⟩ := s'
  obtain ⟨h1, h2, h3, h4, h5, h6, h7, h8, h9, h10⟩ := h
  dsimp only at h1 h2 h3 h4 h5 h6 h7 h8 h10
  subst h1 h2 h3 h4 h5 h6 h7 h8 h10
  constructor <;> first | rfl | exact h9 | skip
  unfold State.notify
  dsimp only
  cases hc
  · rfl
  · simp only [if_true, List.map_append]
    congr 1
    simp only [List.map_cons, List.map_nil, CB.map, List.length_map]
    congr 2
    · rw [List.getD_map]
    · unfold attach
      split_ifs
      · simp [List.map_take]
      · rfl

theorem truthy_constraints (x y : Vec (Val K) n) (l u l' u' : Vec K n) (c : Option String) :
    truthy (inSearchSpace x l u c) = truthy (inSearchSpace y l' u' c) := by
  unfold inSearchSpace
  split_ifs <;> rfl

end Sampling

open Sampling

section MCMC
variable [IsStrictOrderedRing K]

/-- Two parameter sets of `mcmc` that differ by a change of coordinates; the normal numbers are multiplied by `ε`. -/
structure MCMC.Same (ψ : Vec (Val K) n → Vec (Val K) n) (T : σ → σ) (ε : K) (P P' : MCMC.Par σ K n) : Prop where
  fn : ∀ x, P'.fn (ψ x) = P.fn x
  pert : ∀ j jmax z x, MCMC.perturb P'.step j jmax (fun k => ε * z k) (ψ x) = ψ (MCMC.perturb P.step j jmax z x)
  per : P'.per = P.per
  cons : P'.constraints = P.constraints
  maxiter : P'.maxiter = P.maxiter
  cb : P'.hasCallback = P.hasCallback
  ra : P'.returnAll = P.returnAll
  randn : ∀ g, P'.R.randn (T g) = (ε * (P.R.randn g).1, T (P.R.randn g).2)
  rand : ∀ g, P'.R.rand (T g) = ((P.R.rand g).1, T (P.R.rand g).2)

variable {ψ : Vec (Val K) n → Vec (Val K) n} {T : σ → σ} {ε : K} {P P' : MCMC.Par σ K n}

theorem MCMC.Same.block (h : MCMC.Same ψ T ε P P') (j : Nat) {s s' : State σ K n}
    (hs : StRel ψ T (fun l l' => l' = l.map ψ) s s') :
    ExRel (StRel ψ T fun l l' => l' = l.map ψ) (MCMC.block P j s) (MCMC.block P' j s') := by
  unfold MCMC.block
  rw [h.per, h.cons, h.cb, h.ra, hs.rng]
  dsimp only
  rw [drawVec_map (f := fun z => ε * z) h.randn]
  by_cases h1 : min n (min n (j + P.per - 1) + 1) - j ≠ min n (j + P.per - 1) - j + 1
  · rw [if_pos h1, if_pos h1]; rfl
  rw [if_neg h1, if_neg h1]
  have e : ∀ m : Nat, (fun k => if h : k < m then ε * (drawVec P.R.randn m s.rng).1 ⟨k, h⟩ else 0) =
      fun k => ε * if h : k < m then (drawVec P.R.randn m s.rng).1 ⟨k, h⟩ else 0 := by
    intro m
    funext k
    split_ifs
    · rfl
    · rw [mul_zero]
  rw [e, hs.xcur, h.pert]
  generalize MCMC.perturb P.step j _ _ s.xcur = x
  generalize (drawVec P.R.randn (min n (j + P.per - 1) - j + 1) s.rng).2 = g
  rw [truthy_constraints (ψ x) x P'.lower P'.upper P.lower P.upper]
  by_cases h2 : truthy (inSearchSpace x P.lower P.upper P.constraints) = true
  · rw [if_pos h2, if_pos h2, h.fn, h.rand, hs.fcur]
    refine StRel.notify ?_ _ _
    have hb : StRel ψ T (fun l l' => l' = l.map ψ)
        { s with evals := s.evals ++ [x], rng := (P.R.rand g).2 }
        { s' with evals := s'.evals ++ [ψ x], rng := T (P.R.rand g).2 } :=
      ⟨hs.xs, hs.fs, hs.xcur, hs.fcur, hs.nacc, hs.imin, hs.fmin, hs.cbs, by rw [hs.evals]; simp, rfl⟩
    by_cases h3 : metropolis (s.fcur - P.fn x) (P.R.rand g).1 = true
    · dsimp only
      rw [if_pos h3, if_pos h3]
      have := hb.push (some (x, P.fn x))
      simpa only [Option.map_some, ← hs.fcur, ← hs.xcur] using this
    · dsimp only
      rw [if_neg h3, if_neg h3]
      have := hb.push none
      simpa only [Option.map_none, ← hs.fcur, ← hs.xcur] using this
  · rw [if_neg h2, if_neg h2]
    refine StRel.notify ?_ _ _
    have hb : StRel ψ T (fun l l' => l' = l.map ψ) { s with rng := g } { s' with rng := T g } :=
      ⟨hs.xs, hs.fs, hs.xcur, hs.fcur, hs.nacc, hs.imin, hs.fmin, hs.cbs, hs.evals, rfl⟩
    have := hb.push none
    simpa only [Option.map_none, ← hs.fcur, ← hs.xcur] using this

theorem MCMC.Same.sweep (h : MCMC.Same ψ T ε P P') (l : List Nat) : ∀ {s s' : State σ K n},
    StRel ψ T (fun l l' => l' = l.map ψ) s s' →
    ExRel (StRel ψ T fun l l' => l' = l.map ψ) (MCMC.sweep P l s) (MCMC.sweep P' l s') := by
  induction l with
  | nil => intro s s' hs; exact hs
  | cons j l ih =>
    intro s s' hs
    unfold MCMC.sweep
    refine (h.block j hs).bind fun a b hab => ?_
    rw [h.maxiter, hab.xs, List.length_map]
    split_ifs
    · exact hab
    · exact ih hab

theorem MCMC.Same.loop (h : MCMC.Same ψ T ε P P') : ∀ (fuel : Nat) {s s' : State σ K n},
    StRel ψ T (fun l l' => l' = l.map ψ) s s' →
    ExRel (StRel ψ T fun l l' => l' = l.map ψ) (MCMC.loop P fuel s) (MCMC.loop P' fuel s') := by
  intro fuel
  induction fuel with
  | zero =>
    intro s s' hs
    unfold MCMC.loop
    rw [h.maxiter, hs.xs, List.length_map]
    split_ifs
    · rfl
    · exact hs
  | succ fuel ih =>
    intro s s' hs
    unfold MCMC.loop
    rw [h.maxiter, hs.xs, List.length_map, h.per]
    split_ifs
    · exact (h.sweep _ hs).bind fun a b hab => ih hab
    · exact hs

theorem MCMC.finish_rel (maxiter : Int) (ra : Bool) {s s' : State σ K n} (hs : StRel ψ T (fun l l' => l' = l.map ψ) s s') :
    MCMC.finish maxiter ra s' = (MCMC.finish maxiter ra s).map ψ T := by
  obtain ⟨xs, fs, xcur, fcur, nacc, imin, fmin, cbs, evals, rng⟩ := s
  obtain ⟨xs', fs', xcur', fcur', nacc', imin', fmin', cbs', evals', rng'⟩ := s'
  obtain ⟨h1, h2, h3, h4, h5, h6, h7, h8, h9, h10⟩ := hs
  dsimp only at h1 h2 h3 h4 h5 h6 h7 h8 h9 h10
  subst h1 h2 h3 h4 h5 h6 h7 h8 h9 h10
  unfold MCMC.finish Sampling.Output.map
  dsimp only
  congr 1
  · rw [List.getD_map]
  · unfold Sampling.attach
    split_ifs <;> rfl

end MCMC

section HMC
variable [IsStrictOrderedRing K] {ψ : Vec (Val K) n → Vec (Val K) n} {T : σ → σ} {ε : K}
  {E : List (Vec (Val K) n) → List (Vec (Val K) n) → Prop} {P P' : HMC.Par σ K n}

/-- The momenta multiplied by `ε`. -/
def HMC.turn (ε : K) (p : Vec (Val K) n) : Vec (Val K) n := fun j => .fin ε * p j

/-- Two parameter sets of `hmc` that differ by a change of coordinates; the momenta are multiplied by `ε`. -/
structure HMC.Same (ψ : Vec (Val K) n → Vec (Val K) n) (T : σ → σ) (ε : K)
    (E : List (Vec (Val K) n) → List (Vec (Val K) n) → Prop) (P P' : HMC.Par σ K n) : Prop where
  ev : EvRel ψ E
  fn : ∀ x, P'.fn (ψ x) = P.fn x
  grad : ∀ q, ExRel (fun r r' => E r.2 r'.2 ∧ ∀ k : K, 0 < k → ∀ (p : Vec (Val K) n) j,
    .fin ε * p j - .fin (k * P'.step j) * r'.1 j = .fin ε * (p j - .fin (k * P.step j) * r.1 j)) (P.G q) (P'.G (ψ q))
  drift : ∀ q p, (fun j => ψ q j + .fin (P'.step j) * HMC.turn ε p j) = ψ fun j => q j + .fin (P.step j) * p j
  sq : ε * ε = 1
  nleap : P'.nleap = P.nleap
  cons : P'.constraints = P.constraints
  cb : P'.hasCallback = P.hasCallback
  ra : P'.returnAll = P.returnAll
  randn : ∀ g, P'.R.randn (T g) = (ε * (P.R.randn g).1, T (P.R.randn g).2)
  rand : ∀ g, P'.R.rand (T g) = ((P.R.rand g).1, T (P.R.rand g).2)

/-- Related phases. -/
def HMC.PhRel (ψ : Vec (Val K) n → Vec (Val K) n) (ε : K) (E : List (Vec (Val K) n) → List (Vec (Val K) n) → Prop)
    (s s' : HMC.Phase K n) : Prop := s'.1 = ψ s.1 ∧ s'.2.1 = HMC.turn ε s.2.1 ∧ E s.2.2 s'.2.2

theorem HMC.Same.kick (h : HMC.Same ψ T ε E P P') {k : K} (hk : 0 < k) {s s' : HMC.Phase K n} (hs : HMC.PhRel ψ ε E s s') :
    ExRel (HMC.PhRel ψ ε E) (HMC.kick P.G (fun j => k * P.step j) s) (HMC.kick P'.G (fun j => k * P'.step j) s') := by
  obtain ⟨h1, h2, h3⟩ := hs
  unfold HMC.kick
  rw [h1]
  refine (h.grad s.1).bind fun r r' hr => ?_
  refine ⟨rfl, ?_, h.ev.app _ _ _ _ h3 hr.1⟩
  funext j
  dsimp only [HMC.turn]
  rw [h2]
  exact hr.2 k hk s.2.1 j

theorem HMC.Same.kick1 (h : HMC.Same ψ T ε E P P') {s s' : HMC.Phase K n} (hs : HMC.PhRel ψ ε E s s') :
    ExRel (HMC.PhRel ψ ε E) (HMC.kick P.G P.step s) (HMC.kick P'.G P'.step s') := by
  have := h.kick one_pos hs
  simpa only [one_mul] using this

theorem HMC.Same.driftRel (h : HMC.Same ψ T ε E P P') {s s' : HMC.Phase K n} (hs : HMC.PhRel ψ ε E s s') :
    HMC.PhRel ψ ε E (HMC.drift P.step s) (HMC.drift P'.step s') := by
  obtain ⟨h1, h2, h3⟩ := hs
  refine ⟨?_, h2, h3⟩
  unfold HMC.drift
  dsimp only
  rw [h1, h2]
  exact h.drift s.1 s.2.1

theorem HMC.Same.leaps (h : HMC.Same ψ T ε E P P') : ∀ (k : Nat) {s s' : HMC.Phase K n}, HMC.PhRel ψ ε E s s' →
    ExRel (HMC.PhRel ψ ε E) (HMC.leaps P.G P.step k s) (HMC.leaps P'.G P'.step k s') := by
  intro k
  induction k with
  | zero => intro s s' hs; exact hs
  | succ k ih =>
    intro s s' hs
    unfold HMC.leaps
    exact (h.kick1 hs).bind fun a b hab => ih (h.driftRel hab)

theorem HMC.Same.leapfrog (h : HMC.Same ψ T ε E P P') (k : Nat) (q p : Vec (Val K) n) :
    ExRel (HMC.PhRel ψ ε E) (HMC.leapfrog P.G P.step k q p) (HMC.leapfrog P'.G P'.step k (ψ q) (HMC.turn ε p)) := by
  unfold HMC.leapfrog
  have h2 : (0 : K) < 1 / 2 := by norm_num
  refine (h.kick h2 ⟨rfl, rfl, h.ev.map []⟩).bind fun a b hab => ?_
  refine (h.leaps k (h.driftRel hab)).bind fun a b hab => ?_
  exact h.kick h2 hab

omit [NumFns K] in
theorem Val.fin_mul_pinf (a : K) : (.fin a * .pinf : Val K) = if 0 < a then .pinf else if a < 0 then .ninf else .nan := rfl
omit [NumFns K] in
theorem Val.fin_mul_ninf (a : K) : (.fin a * .ninf : Val K) = if 0 < a then .ninf else if a < 0 then .pinf else .nan := rfl
omit [NumFns K] in
theorem Val.divBy_zero (a : K) : Val.divBy (.fin a) 0 = if 0 < a then .pinf else if a < 0 then .ninf else .nan := by
  show (if (0 : K) = 0 then (if 0 < a then Val.pinf else if a < 0 then Val.ninf else Val.nan) else Val.fin (a / 0)) = _
  rw [if_pos rfl]

theorem val_turn_sq (h : ε * ε = 1) (v : Val K) : (.fin ε * v) * (.fin ε * v) = v * v := by
  have he : ε = 1 ∨ ε = -1 := mul_self_eq_one_iff.1 h
  cases v with
  | fin k =>
    show Val.fin (ε * k * (ε * k)) = Val.fin (k * k)
    congr 1
    linear_combination (k * k) * h
  | nan => rfl
  | pinf => rcases he with rfl | rfl <;> simp [Val.fin_mul_pinf, not_lt.2 (zero_le_one (α := K))] <;> rfl
  | ninf => rcases he with rfl | rfl <;> simp [Val.fin_mul_ninf, not_lt.2 (zero_le_one (α := K))] <;> rfl

theorem HMC.kinetic_turn (h : ε * ε = 1) (p : Vec (Val K) n) : HMC.kinetic (HMC.turn ε p) = HMC.kinetic p := by
  unfold HMC.kinetic HMC.turn
  simp only [val_turn_sq h]

theorem HMC.Same.iter (h : HMC.Same ψ T ε E P P') {s s' : State σ K n} (hs : StRel ψ T E s s') :
    ExRel (StRel ψ T E) (HMC.iter P s) (HMC.iter P' s') := by
  unfold HMC.iter
  rw [h.cons, h.cb, h.ra, hs.rng, h.nleap, hs.xcur, drawVec_map (f := fun z => ε * z) h.randn]
  dsimp only
  have e : (fun j => Val.fin (ε * (drawVec P.R.randn n s.rng).1 j)) = HMC.turn ε fun j => Val.fin ((drawVec P.R.randn n s.rng).1 j) := rfl
  rw [e]
  refine (h.leapfrog P.nleap s.xcur _).bind fun r r' hr => ?_
  obtain ⟨h1, h2, h3⟩ := hr
  rw [truthy_constraints r'.1 r.1 P'.lower P'.upper P.lower P.upper]
  have hev := h.ev.app _ _ _ _ hs.evals h3
  rw [h1, h2, h.fn, h.fn, HMC.kinetic_turn h.sq, HMC.kinetic_turn h.sq]
  generalize HMC.kinetic (fun j => Val.fin ((drawVec P.R.randn n s.rng).1 j)) = k0
  generalize (drawVec P.R.randn n s.rng).2 = g
  by_cases hin : truthy (inSearchSpace r.1 P.lower P.upper P.constraints) = true
  · rw [if_pos hin, if_pos hin, h.rand]
    refine StRel.notify ?_ _ _
    have hb : StRel ψ T E
        { s with evals := s.evals ++ r.2.2 ++ [s.xcur, r.1], rng := (P.R.rand g).2 }
        { s' with evals := s'.evals ++ r'.2.2 ++ [ψ s.xcur, ψ r.1], rng := T (P.R.rand g).2 } :=
      ⟨hs.xs, hs.fs, hs.xcur, hs.fcur, hs.nacc, hs.imin, hs.fmin, hs.cbs, h.ev.app _ _ _ _ hev (h.ev.map [s.xcur, r.1]), rfl⟩
    by_cases hm : metropolis (HMC.energyDrop (P.fn s.xcur) (P.fn r.1) k0 (HMC.kinetic r.2.1)) (P.R.rand g).1 = true
    · dsimp only
      rw [if_pos hm, if_pos hm]
      have := hb.push (some (r.1, P.fn r.1))
      simpa only [Option.map_some, ← hs.xcur] using this
    · dsimp only
      rw [if_neg hm, if_neg hm]
      have := hb.push none
      simpa only [Option.map_none, ← hs.xcur] using this
  · rw [if_neg hin, if_neg hin]
    refine StRel.notify ?_ _ _
    have hb : StRel ψ T E { s with evals := s.evals ++ r.2.2, rng := g } { s' with evals := s'.evals ++ r'.2.2, rng := T g } :=
      ⟨hs.xs, hs.fs, hs.xcur, hs.fcur, hs.nacc, hs.imin, hs.fmin, hs.cbs, hev, rfl⟩
    have := hb.push none
    simpa only [Option.map_none, ← hs.xcur] using this

theorem HMC.Same.loop (h : HMC.Same ψ T ε E P P') : ∀ (k : Nat) {s s' : State σ K n}, StRel ψ T E s s' →
    ExRel (StRel ψ T E) (HMC.loop P k s) (HMC.loop P' k s') := by
  intro k
  induction k with
  | zero => intro s s' hs; exact hs
  | succ k ih =>
    intro s s' hs
    unfold HMC.loop
    exact (h.iter hs).bind fun a b hab => ih hab

/-- The results agree up to the list of evaluated points. -/
def Sampling.OutRel (ψ : Vec (Val K) n → Vec (Val K) n) (T : σ → σ) (E : List (Vec (Val K) n) → List (Vec (Val K) n) → Prop)
    (o o' : Sampling.Output σ K n) : Prop := o' = { o.map ψ T with evals := o'.evals } ∧ E o.evals o'.evals

theorem HMC.finish_rel (he : EvRel ψ E) (maxiter : Int) (ra : Bool) {s s' : State σ K n} (hs : StRel ψ T E s s') :
    ExRel (Sampling.OutRel ψ T E) (HMC.finish maxiter ra s) (HMC.finish maxiter ra s') := by
  obtain ⟨xs, fs, xcur, fcur, nacc, imin, fmin, cbs, evals, rng⟩ := s
  obtain ⟨xs', fs', xcur', fcur', nacc', imin', fmin', cbs', evals', rng'⟩ := s'
  obtain ⟨h1, h2, h3, h4, h5, h6, h7, h8, h9, h10⟩ := hs
  dsimp only at h1 h2 h3 h4 h5 h6 h7 h8 h9 h10
  subst h1 h2 h3 h4 h5 h6 h7 h8 h10
  unfold HMC.finish
  dsimp only
  cases argmin fun i : Fin fs'.length => fs'.get i with
  | error e => rfl
  | ok idx =>
    refine ⟨?_, h9⟩
    unfold Sampling.Output.map
    dsimp only
    congr 1
    · rw [List.getD_map]
    · rw [he.len _ _ h9]
    · unfold Sampling.attach
      split_ifs <;> rfl

end HMC

end Stochopy
