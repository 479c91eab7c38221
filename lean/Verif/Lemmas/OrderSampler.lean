import Verif.Lemmas.OrderEvo
import Verif.Lemmas.SamplerUnits

/-! Runs of `mcmc` and `hmc` with the variables in another order. -/

set_option linter.unusedSectionVars false

namespace Stochopy
open Sampling
variable {K σ : Type} [Field K] [LinearOrder K] [IsStrictOrderedRing K] [NumFns K] {n : Nat} {π : Equiv.Perm (Fin n)} {T T' : σ → σ}

/-- The random numbers of one step of a sampler: `n` normal numbers, then (unless the proposal is rejected unseen) a uniform one. -/
structure Rng.DealsStep (R : Rng σ K) (π : Equiv.Perm (Fin n)) (T T' : σ → σ) (constraints : Option String) : Prop where
  randn : Deals R.randn π T T'
  rand : ∀ g, R.rand (T' g) = ((R.rand g).1, T (R.rand g).2)
  reject : constraints = some "Reject" → T' = T

theorem truthy_reject (x : Vec (Val K) n) (l u : Vec K n) (c : Option String) (h : ¬ truthy (inSearchSpace x l u c) = true) : c = some "Reject" := by
  by_contra hc
  unfold inSearchSpace at h
  rw [if_neg hc] at h
  exact h rfl

section MCMC

/-- Two parameter sets of `mcmc` that differ by the order of the variables, all moved at once. -/
structure MCMC.Dealt (π : Equiv.Perm (Fin n)) (T T' : σ → σ) (P P' : MCMC.Par σ K n) : Prop where
  fn : ∀ x, P'.fn (reorder π x) = P.fn x
  R : P'.R = P.R
  step : P'.step = reorder π P.step
  per : P.per = max 1 n
  per' : P'.per = P.per
  cons : P'.constraints = P.constraints
  maxiter : P'.maxiter = P.maxiter
  cb : P'.hasCallback = P.hasCallback
  ra : P'.returnAll = P.returnAll
  draws : P.R.DealsStep π T T' P.constraints

variable {P P' : MCMC.Par σ K n}

theorem MCMC.Dealt.block (h : MCMC.Dealt π T T' P P') (hn : 0 < n) {s s' : State σ K n}
    (hs : StRel (reorder π) T (fun l l' => l' = l.map (reorder π)) s s') :
    ExRel (StRel (reorder π) T fun l l' => l' = l.map (reorder π)) (MCMC.block P 0 s) (MCMC.block P' 0 s') := by
  have hj : min n (0 + P.per - 1) = n - 1 := by rw [h.per]; omega
  have hm : min n (0 + P.per - 1) - 0 + 1 = n := by rw [hj]; omega
  unfold MCMC.block
  rw [h.per', h.cons, h.cb, h.ra, hs.rng, h.R]
  have h1 : ¬ min n (min n (0 + P.per - 1) + 1) - 0 ≠ min n (0 + P.per - 1) - 0 + 1 := by rw [hj]; omega
  dsimp only
  rw [if_neg h1, if_neg h1]
  generalize hmm : min n (0 + P.per - 1) - 0 + 1 = m
  rw [hmm] at hm
  subst hm
  rw [h.draws.randn]
  generalize hd : drawVec P.R.randn m s.rng = d
  have e : ∀ x : Vec (Val K) m, MCMC.perturb P'.step 0 (min m (0 + P.per - 1))
      (fun k => if h : k < m then (reorder π d.1) ⟨k, h⟩ else 0) (reorder π x) =
      reorder π (MCMC.perturb P.step 0 (min m (0 + P.per - 1)) (fun k => if h : k < m then d.1 ⟨k, h⟩ else 0) x) := by
    intro x
    funext k
    rw [hj, h.step]
    unfold MCMC.perturb
    have hk := k.2
    have hk' := (π k).2
    show (if 0 ≤ k.val ∧ k.val ≤ m - 1 then _ else _) = if 0 ≤ (π k).val ∧ (π k).val ≤ m - 1 then _ else _
    rw [if_pos ⟨Nat.zero_le _, by omega⟩, if_pos ⟨Nat.zero_le _, by omega⟩]
    congr 3
    show (if h : k.val - 0 < m then d.1 (π ⟨k.val - 0, h⟩) else 0) = if h : (π k).val - 0 < m then d.1 ⟨(π k).val - 0, h⟩ else 0
    rw [dif_pos (by omega), dif_pos (by omega)]
    rfl
  rw [hs.xcur]
  dsimp only
  rw [e]
  generalize MCMC.perturb P.step 0 _ _ s.xcur = x
  generalize d.2 = g
  rw [truthy_constraints (reorder π x) x P'.lower P'.upper P.lower P.upper]
  by_cases h2 : truthy (inSearchSpace x P.lower P.upper P.constraints) = true
  · rw [if_pos h2, if_pos h2, h.fn, h.draws.rand, hs.fcur]
    refine StRel.notify ?_ _ _
    have hb : StRel (reorder π) T (fun l l' => l' = l.map (reorder π))
        { s with evals := s.evals ++ [x], rng := (P.R.rand g).2 }
        { s' with evals := s'.evals ++ [reorder π x], rng := T (P.R.rand g).2 } :=
      ⟨hs.xs, hs.fs, hs.xcur, hs.fcur, hs.nacc, hs.imin, hs.fmin, hs.cbs, by rw [hs.evals]; simp, rfl⟩
    by_cases h3 : metropolis (s.fcur - P.fn x) (P.R.rand g).1 = true
    · dsimp only
      rw [if_pos h3, if_pos h3]
      have := hb.push (some (x, P.fn x))
      simpa only [Option.map_some, ← hs.fcur, ← hs.xcur] using this
    · dsimp only
      rw [if_neg h3, if_neg h3]
      have := hb.push none
      simpa only [Option.map_none, ← hs.fcur, ← hs.xcur] using this
  · rw [if_neg h2, if_neg h2, h.draws.reject (truthy_reject _ _ _ _ h2)]
    refine StRel.notify ?_ _ _
    have hb : StRel (reorder π) T (fun l l' => l' = l.map (reorder π)) { s with rng := g } { s' with rng := T g } :=
      ⟨hs.xs, hs.fs, hs.xcur, hs.fcur, hs.nacc, hs.imin, hs.fmin, hs.cbs, hs.evals, rfl⟩
    have := hb.push none
    simpa only [Option.map_none, ← hs.fcur, ← hs.xcur] using this

theorem MCMC.Dealt.sweep (h : MCMC.Dealt π T T' P P') (l : List Nat) (hl : ∀ j ∈ l, j = 0 ∧ 0 < n) : ∀ {s s' : State σ K n},
    StRel (reorder π) T (fun l l' => l' = l.map (reorder π)) s s' →
    ExRel (StRel (reorder π) T fun l l' => l' = l.map (reorder π)) (MCMC.sweep P l s) (MCMC.sweep P' l s') := by
  induction l with
  | nil => intro s s' hs; exact hs
  | cons j l ih =>
    intro s s' hs
    obtain ⟨rfl, hn⟩ := hl j List.mem_cons_self
    unfold MCMC.sweep
    refine (h.block hn hs).bind fun a b hab => ?_
    rw [h.maxiter, hab.xs, List.length_map]
    split_ifs
    · exact hab
    · exact ih (fun j hj => hl j (List.mem_cons_of_mem _ hj)) hab

theorem MCMC.starts_all (n : Nat) : ∀ j ∈ MCMC.starts n (max 1 n), j = 0 ∧ 0 < n := by
  intro j hj
  unfold MCMC.starts at hj
  rw [List.mem_filter, List.mem_range, decide_eq_true_eq] at hj
  rw [show max 1 n = n by omega] at hj
  rw [Nat.mod_eq_of_lt hj.1] at hj
  omega

theorem MCMC.Dealt.loop (h : MCMC.Dealt π T T' P P') : ∀ (fuel : Nat) {s s' : State σ K n},
    StRel (reorder π) T (fun l l' => l' = l.map (reorder π)) s s' →
    ExRel (StRel (reorder π) T fun l l' => l' = l.map (reorder π)) (MCMC.loop P fuel s) (MCMC.loop P' fuel s') := by
  intro fuel
  induction fuel with
  | zero =>
    intro s s' hs
    unfold MCMC.loop
    rw [h.maxiter, hs.xs, List.length_map]
    split_ifs
    · rfl
    · exact hs
  | succ fuel ih =>
    intro s s' hs
    unfold MCMC.loop
    rw [h.maxiter, hs.xs, List.length_map, h.per', h.per]
    split_ifs
    · exact (h.sweep _ (MCMC.starts_all n) hs).bind fun a b hab => ih hab
    · exact hs

theorem MCMC.Dealt.restOf [IntParts K] (h : MCMC.Dealt π T T' P P') (fuel : Nat) (perc : K)
    (bc : Bool) (maxiter : Int) (cb : Option Bool) {x x' : Except PyErr (Vec (Val K) n × σ)}
    (hx : ExRel (fun y y' => y'.1 = reorder π y.1 ∧ y'.2 = T y.2) x x') :
    MCMC.restOf fuel perc bc maxiter cb P' x' = (MCMC.restOf fuel perc bc maxiter cb P x).map (Sampling.Output.map (reorder π) T) := by
  refine ExRel.map_eq (r := fun o o' => o' = o.map (reorder π) T) ?_ fun _ _ h => h
  unfold MCMC.restOf
  rw [h.ra]
  by_cases h1 : ¬ (0 ≤ perc ∧ perc ≤ 1)
  · rw [if_pos h1, if_pos h1]; exact rfl
  rw [if_neg h1, if_neg h1]
  cases bc
  swap
  · exact rfl
  · rw [if_neg Bool.false_ne_true, if_neg Bool.false_ne_true]
    refine (startOf_rel evRel_map maxiter cb P.returnAll h.fn hx).bind fun s s' hs => ?_
    refine (h.loop fuel hs).bind fun s s' hs => ?_
    exact MCMC.finish_rel maxiter _ hs

end MCMC

section HMC

/-- Two parameter sets of `hmc` that differ by the order of the variables. -/
structure HMC.Dealt (π : Equiv.Perm (Fin n)) (T T' : σ → σ) (P P' : HMC.Par σ K n) : Prop where
  fn : ∀ x, P'.fn (reorder π x) = P.fn x
  grad : ∀ q, ExRel (fun r r' => r'.1 = reorder π r.1 ∧ r'.2.Perm (r.2.map (reorder π))) (P.G q) (P'.G (reorder π q))
  R : P'.R = P.R
  step : P'.step = reorder π P.step
  nleap : P'.nleap = P.nleap
  cons : P'.constraints = P.constraints
  cb : P'.hasCallback = P.hasCallback
  ra : P'.returnAll = P.returnAll
  draws : P.R.DealsStep π T T' P.constraints

variable {P P' : HMC.Par σ K n}

def HMC.PhDealt (π : Equiv.Perm (Fin n)) (s s' : HMC.Phase K n) : Prop :=
  s'.1 = reorder π s.1 ∧ s'.2.1 = reorder π s.2.1 ∧ s'.2.2.Perm (s.2.2.map (reorder π))

theorem HMC.Dealt.kick (h : HMC.Dealt π T T' P P') (k : K) {s s' : HMC.Phase K n} (hs : HMC.PhDealt π s s') :
    ExRel (HMC.PhDealt π) (HMC.kick P.G (fun j => k * P.step j) s) (HMC.kick P'.G (fun j => k * P'.step j) s') := by
  obtain ⟨h1, h2, h3⟩ := hs
  unfold HMC.kick
  rw [h1, h2, h.step]
  refine (h.grad s.1).bind fun r r' hr => ?_
  refine ⟨rfl, ?_, evRel_perm.app _ _ _ _ h3 hr.2⟩
  funext j
  dsimp only
  rw [hr.1]
  rfl

theorem HMC.Dealt.kick1 (h : HMC.Dealt π T T' P P') {s s' : HMC.Phase K n} (hs : HMC.PhDealt π s s') :
    ExRel (HMC.PhDealt π) (HMC.kick P.G P.step s) (HMC.kick P'.G P'.step s') := by
  have := h.kick 1 hs
  simpa only [one_mul] using this

theorem HMC.Dealt.drift (h : HMC.Dealt π T T' P P') {s s' : HMC.Phase K n} (hs : HMC.PhDealt π s s') :
    HMC.PhDealt π (HMC.drift P.step s) (HMC.drift P'.step s') := by
  obtain ⟨h1, h2, h3⟩ := hs
  refine ⟨?_, h2, h3⟩
  unfold HMC.drift
  dsimp only
  rw [h1, h2, h.step]
  rfl

theorem HMC.Dealt.leaps (h : HMC.Dealt π T T' P P') : ∀ (k : Nat) {s s' : HMC.Phase K n}, HMC.PhDealt π s s' →
    ExRel (HMC.PhDealt π) (HMC.leaps P.G P.step k s) (HMC.leaps P'.G P'.step k s') := by
  intro k
  induction k with
  | zero => intro s s' hs; exact hs
  | succ k ih =>
    intro s s' hs
    unfold HMC.leaps
    exact (h.kick1 hs).bind fun a b hab => ih (h.drift hab)

theorem HMC.Dealt.leapfrog (h : HMC.Dealt π T T' P P') (k : Nat) (q p : Vec (Val K) n) :
    ExRel (HMC.PhDealt π) (HMC.leapfrog P.G P.step k q p) (HMC.leapfrog P'.G P'.step k (reorder π q) (reorder π p)) := by
  unfold HMC.leapfrog
  refine (h.kick (1 / 2) ⟨rfl, rfl, List.Perm.refl _⟩).bind fun a b hab => ?_
  refine (h.leaps k (h.drift hab)).bind fun a b hab => ?_
  exact h.kick (1 / 2) hab

theorem HMC.kinetic_reorder (π : Equiv.Perm (Fin n)) (p : Vec (Val K) n) : HMC.kinetic (reorder π p) = HMC.kinetic p := by
  unfold HMC.kinetic
  congr 1
  rw [List.ofFn_eq_map, List.ofFn_eq_map, List.foldl_map, List.foldl_map]
  exact foldl_reorder π (fun a j => a + p j * p j) (fun a i j => Val.add_right_comm' _ _ _) (.fin 0)

theorem HMC.Dealt.iter (h : HMC.Dealt π T T' P P') {s s' : State σ K n}
    (hs : StRel (reorder π) T (fun l l' => l'.Perm (l.map (reorder π))) s s') :
    ExRel (StRel (reorder π) T fun l l' => l'.Perm (l.map (reorder π))) (HMC.iter P s) (HMC.iter P' s') := by
  unfold HMC.iter
  rw [h.cons, h.cb, h.ra, hs.rng, h.nleap, hs.xcur, h.R, h.draws.randn]
  dsimp only
  have e : (fun j => Val.fin (reorder π (drawVec P.R.randn n s.rng).1 j)) = reorder π fun j => Val.fin ((drawVec P.R.randn n s.rng).1 j) := rfl
  rw [e]
  refine (h.leapfrog P.nleap s.xcur _).bind fun r r' hr => ?_
  obtain ⟨h1, h2, h3⟩ := hr
  rw [truthy_constraints r'.1 r.1 P'.lower P'.upper P.lower P.upper]
  have hev := evRel_perm.app _ _ _ _ hs.evals h3
  rw [h1, h2, h.fn, h.fn, HMC.kinetic_reorder, HMC.kinetic_reorder]
  generalize HMC.kinetic (fun j => Val.fin ((drawVec P.R.randn n s.rng).1 j)) = k0
  generalize (drawVec P.R.randn n s.rng).2 = g
  by_cases hin : truthy (inSearchSpace r.1 P.lower P.upper P.constraints) = true
  · rw [if_pos hin, if_pos hin, h.draws.rand]
    refine StRel.notify ?_ _ _
    have hb : StRel (reorder π) T (fun l l' => l'.Perm (l.map (reorder π)))
        { s with evals := s.evals ++ r.2.2 ++ [s.xcur, r.1], rng := (P.R.rand g).2 }
        { s' with evals := s'.evals ++ r'.2.2 ++ [reorder π s.xcur, reorder π r.1], rng := T (P.R.rand g).2 } :=
      ⟨hs.xs, hs.fs, hs.xcur, hs.fcur, hs.nacc, hs.imin, hs.fmin, hs.cbs,
        evRel_perm.app _ _ _ _ hev (evRel_perm.map [s.xcur, r.1]), rfl⟩
    by_cases hm : metropolis (HMC.energyDrop (P.fn s.xcur) (P.fn r.1) k0 (HMC.kinetic r.2.1)) (P.R.rand g).1 = true
    · dsimp only
      rw [if_pos hm, if_pos hm]
      have := hb.push (some (r.1, P.fn r.1))
      simpa only [Option.map_some, ← hs.xcur] using this
    · dsimp only
      rw [if_neg hm, if_neg hm]
      have := hb.push none
      simpa only [Option.map_none, ← hs.xcur] using this
  · rw [if_neg hin, if_neg hin, h.draws.reject (truthy_reject _ _ _ _ hin)]
    refine StRel.notify ?_ _ _
    have hb : StRel (reorder π) T (fun l l' => l'.Perm (l.map (reorder π))) { s with evals := s.evals ++ r.2.2, rng := g }
        { s' with evals := s'.evals ++ r'.2.2, rng := T g } :=
      ⟨hs.xs, hs.fs, hs.xcur, hs.fcur, hs.nacc, hs.imin, hs.fmin, hs.cbs, hev, rfl⟩
    have := hb.push none
    simpa only [Option.map_none, ← hs.xcur] using this

theorem HMC.Dealt.loop (h : HMC.Dealt π T T' P P') : ∀ (k : Nat) {s s' : State σ K n},
    StRel (reorder π) T (fun l l' => l'.Perm (l.map (reorder π))) s s' →
    ExRel (StRel (reorder π) T fun l l' => l'.Perm (l.map (reorder π))) (HMC.loop P k s) (HMC.loop P' k s') := by
  intro k
  induction k with
  | zero => intro s s' hs; exact hs
  | succ k ih =>
    intro s s' hs
    unfold HMC.loop
    exact (h.iter hs).bind fun a b hab => ih hab

theorem HMC.Dealt.restOf (h : HMC.Dealt π T T' P P') (bj bc : Bool) (maxiter : Int) (cb : Option Bool)
    {x x' : Except PyErr (Vec (Val K) n × σ)} (hx : ExRel (fun y y' => y'.1 = reorder π y.1 ∧ y'.2 = T y.2) x x') :
    ExRel (OutRel (reorder π) T fun l l' => l'.Perm (l.map (reorder π))) (HMC.restOf bj bc maxiter cb P x)
      (HMC.restOf bj bc maxiter cb P' x') := by
  unfold HMC.restOf
  rw [h.ra]
  split_ifs
  · exact rfl
  · exact rfl
  · refine (startOf_rel evRel_perm maxiter cb P.returnAll h.fn hx).bind fun s s' hs => ?_
    refine (h.loop _ hs).bind fun s s' hs => ?_
    exact HMC.finish_rel evRel_perm maxiter _ hs

theorem update_reorder {α : Type} (π : Equiv.Perm (Fin n)) (x : Fin n → α) (j : Fin n) (v : α) :
    Function.update (reorder π x) j v = reorder π (Function.update x (π j) v) := by
  funext i
  unfold reorder
  by_cases hi : i = j
  · subst hi; simp
  · rw [Function.update_of_ne hi, Function.update_of_ne fun e => hi (π.injective e)]

theorem numericalGradient_reorder {fn fn' : Vec (Val K) n → Val K} (hfn : ∀ x, fn' (reorder π x) = fn x) (h : K) (q : Vec (Val K) n) :
    (HMC.numericalGradient fn' h (reorder π q)).1 = reorder π (HMC.numericalGradient fn h q).1 ∧
    (HMC.numericalGradient fn' h (reorder π q)).2.Perm ((HMC.numericalGradient fn h q).2.map (reorder π)) := by
  obtain ⟨g1, g2⟩ := HMC.numericalGradient_eq fn h q
  obtain ⟨g1', g2'⟩ := HMC.numericalGradient_eq fn' h (reorder π q)
  constructor
  · rw [g1, g1']
    funext j
    show Val.divBy (.fin (1 / 2) * HMC.centralDiff fn' h (reorder π q) j) h = Val.divBy (.fin (1 / 2) * HMC.centralDiff fn h q (π j)) h
    unfold HMC.centralDiff
    rw [update_reorder, update_reorder, hfn, hfn]
    rfl
  · rw [g2, g2', List.map_flatMap]
    simp only [update_reorder]
    have e : ((List.finRange n).flatMap fun j => [reorder π (Function.update q (π j) (reorder π q j + .fin h)),
        reorder π (Function.update q (π j) (reorder π q j - .fin h))]) =
        ((List.finRange n).map π).flatMap fun j => [reorder π (Function.update q j (q j + .fin h)),
          reorder π (Function.update q j (q j - .fin h))] := by
      rw [List.flatMap_map]
      rfl
    rw [e]
    exact (finRange_map_perm π).flatMap_right _

end HMC

/-! ## Arguments -/

theorem Sampling.checkStart_reorder (a : Sampling.Args K) (π : Equiv.Perm (Fin a.ndim)) : (a.reorder π).checkStart = a.checkStart := by
  obtain ⟨bounds, fn, x0, _, _, _, _, _, _⟩ := a
  cases fn <;> cases x0 <;> rfl

theorem Sampling.getD_ofFn (v : Vec K n) (j : Fin n) : (List.ofFn v).getD j 0 = v j := by
  simp [List.getD]

theorem Sampling.scale_reorder (st : StepArg K) (π : Equiv.Perm (Fin n)) (l u : Vec K n) :
    (st.reorder π).scale (reorder π l) (reorder π u) = (st.scale l u).map (reorder π) := by
  cases st with
  | scalar b k => cases b <;> rfl
  | seq kind v =>
    show (StepArg.seq kind (if v.length = n then List.ofFn fun j => v.getD (π j).val 0 else v)).scale _ _ = _
    unfold StepArg.scale
    by_cases hv : v.length = n
    · rw [if_pos hv]
      dsimp only
      have hv' : ¬ (List.ofFn fun j : Fin n => v.getD (π j).val 0).length ≠ n := by simp
      rw [if_neg hv', if_neg (not_not.2 hv)]
      split_ifs
      · rfl
      · show Except.ok _ = Except.ok _
        congr 1
        funext j
        dsimp only [reorder]
        rw [getD_ofFn (fun j => v.getD (π j).val 0) j]
    · rw [if_neg hv]
      dsimp only
      rw [if_pos hv, if_pos hv]
      rfl

theorem Sampling.after_reorder (st : StepArg K) (π : Equiv.Perm (Fin n)) (l u : Vec K n) :
    (st.reorder π).after (reorder π l) (reorder π u) = (st.after l u).reorder π := by
  cases st with
  | scalar b k => rfl
  | seq kind v =>
    cases kind with
    | list => rfl
    | intArray => rfl
    | floatArray =>
      by_cases hv : v.length = n
      · have e1 : StepArg.after (.seq .floatArray v) l u =
            .seq .floatArray (List.ofFn fun j : Fin n => v.getD j 0 * ((1 / 2) * (u j - l j))) := if_pos hv
        have e2 : StepArg.reorder (.seq .floatArray v) π = .seq .floatArray (List.ofFn fun j : Fin n => v.getD (π j).val 0) :=
          congrArg (StepArg.seq .floatArray) (if_pos hv)
        rw [e1, e2]
        refine (if_pos (by simp)).trans ?_
        refine congrArg (StepArg.seq .floatArray) ?_
        rw [if_pos (by simp)]
        congr 1
        funext j
        rw [getD_ofFn (fun j => v.getD (π j).val 0) j, getD_ofFn (fun j : Fin n => v.getD j 0 * ((1 / 2) * (u j - l j))) (π j)]
        rfl
      · have e1 : StepArg.after (.seq .floatArray v) l u = .seq .floatArray v := if_neg hv
        have e2 : StepArg.reorder (.seq .floatArray v) π = .seq .floatArray v := congrArg (StepArg.seq .floatArray) (if_neg hv)
        rw [e1, e2]
        exact if_neg hv

theorem Sampling.low_reorder (a : Sampling.Args K) (π : Equiv.Perm (Fin a.ndim)) : (a.reorder π).lower = reorder π a.lower := by
  funext j
  exact congrArg (fun k => a.bounds.get [k, 0]) (natPerm_val π j)

theorem Sampling.up_reorder (a : Sampling.Args K) (π : Equiv.Perm (Fin a.ndim)) : (a.reorder π).upper = reorder π a.upper := by
  funext j
  exact congrArg (fun k => a.bounds.get [k, 1]) (natPerm_val π j)

theorem Sampling.first_reorder (a : Sampling.Args K) (π : Equiv.Perm (Fin a.ndim)) (R : Rng σ K) (T₀ T : σ → σ) (g : σ)
    (h0 : a.x0 = none → Deals R.rand π T₀ T) (h1 : a.x0 ≠ none → T₀ = T) :
    ExRel (fun y y' => y'.1 = reorder π y.1 ∧ y'.2 = T y.2) (a.first R g)
      ((a.reorder π).first R (T₀ g) : Except PyErr (Vec (Val K) a.ndim × σ)) := by
  have hl := low_reorder a π
  have hu := up_reorder a π
  obtain ⟨bounds, fn, x0, _, _, _, _, _, _⟩ := a
  cases x0 with
  | none =>
    have h := h0 rfl g
    refine ⟨?_, congrArg Prod.snd h⟩
    funext j
    change Fin bounds.len at j
    show Val.fin (unif (bounds.get [natPerm π j, 0]) (bounds.get [natPerm π j, 1]) ((drawVec R.rand bounds.len (T₀ g)).1 j)) =
      Val.fin (unif (bounds.get [π j, 0]) (bounds.get [π j, 1]) ((drawVec R.rand bounds.len g).1 (π j)))
    rw [show drawVec R.rand bounds.len (T₀ g) = _ from h]
    rw [show natPerm π j = (π j).val from natPerm_val π j]
    rfl
  | some x =>
    have hT := h1 (by simp)
    subst hT
    show ExRel _ (if x.shape = [bounds.len] then _ else if bounds.len = 1 ∧ x.shape.all (· == 1) = true then _ else _)
      (if x.shape = [bounds.len] then _ else if bounds.len = 1 ∧ x.shape.all (· == 1) = true then _ else _)
    split_ifs with h1 h2
    · refine ⟨?_, rfl⟩
      funext j
      exact congrArg (fun k => Val.fin (x.get [k])) (natPerm_val π j)
    · refine ⟨?_, rfl⟩
      funext j
      change Fin bounds.len at j
      have hp : natPerm π 0 = 0 := by
        have h0 : 0 < bounds.len := by rw [h2.1]; exact Nat.one_pos
        have := natPerm_val π ⟨0, h0⟩
        have hlt := (π ⟨0, h0⟩).2
        have hle : bounds.len = 1 := h2.1
        change natPerm π 0 = _ at this
        rw [this]
        change (π ⟨0, h0⟩).val < bounds.len at hlt
        omega
      show Val.fin (x.get ((x.shape.map fun _ => 0).modify 0 (natPerm π))) = Val.fin (x.get (x.shape.map fun _ => 0))
      congr 2
      cases x.shape with
      | nil => rfl
      | cons c cs =>
        show natPerm π 0 :: _ = 0 :: _
        rw [hp]
    · rfl

end Stochopy
