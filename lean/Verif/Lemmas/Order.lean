import Verif.Spec.Order
import Verif.Lemmas.MirrorEvo
import Verif.Lemmas.Affine

/-! Runs with the variables in another order: `de` and `cpso`. -/

set_option linter.unusedSectionVars false

namespace Stochopy
variable {K σ α : Type} {p n : Nat} {π : Equiv.Perm (Fin n)} {T T' : σ → σ}

theorem reorder_symm (π : Equiv.Perm (Fin n)) (x : Fin n → α) : reorder π.symm (reorder π x) = x := by
  funext j; exact congrArg x (π.apply_symm_apply j)

theorem reorder_reorder_symm (π : Equiv.Perm (Fin n)) (x : Fin n → α) : reorder π (reorder π.symm x) = x := by
  funext j; exact congrArg x (π.symm_apply_apply j)

theorem natPerm_val (π : Equiv.Perm (Fin n)) (j : Fin n) : natPerm π j = (π j).val := dif_pos j.2

theorem natPerm_symm_eq_iff (π : Equiv.Perm (Fin n)) (k : Nat) (j : Fin n) : j.val = natPerm π.symm k ↔ (π j).val = k := by
  unfold natPerm
  split_ifs with h
  · constructor
    · intro e
      have : j = π.symm ⟨k, h⟩ := Fin.ext e
      rw [this, Equiv.apply_symm_apply]
    · intro e
      have : π j = ⟨k, h⟩ := Fin.ext e
      rw [← this, Equiv.symm_apply_apply]
  · constructor <;> intro e
    · exact absurd (e ▸ j.2) h
    · exact absurd (e ▸ (π j).2) h

/-- Groups of rows. -/
theorem Deals.mat {d : σ → α × σ} (h : Deals d π T T) (q : Nat) (g : σ) :
    drawMat d q n (T g) = (fun i => reorder π ((drawMat d q n g).1 i), T (drawMat d q n g).2) :=
  drawVec_map (d := drawVec d n) (d' := drawVec d n) (f := reorder π) h q g

section lhs
variable [Field K] [LinearOrder K]

theorem lhs_reorder {R : Rng σ K} (hu : Deals R.rand π T T) (hp : Deals (R.perm p) π T T) (lower upper : Vec K n) (g : σ) :
    lhs R p (reorder π lower) (reorder π upper) (T g) =
      (fun i => reorder π ((lhs R p lower upper g).1 i), T (lhs R p lower upper g).2) := by
  unfold lhs
  dsimp only
  rw [hu.mat, hp]
  rfl

theorem distLe_reorder (π : Equiv.Perm (Fin n)) (x y : Vec K n) (tol : K) :
    distLe (reorder π x) (reorder π y) tol = distLe x y tol := by
  have e : (∑ j, ((fun j => reorder π x j - reorder π y j) j) ^ 2) = ∑ j, ((fun j => x j - y j) j) ^ 2 :=
    Equiv.sum_comp π fun j => (x j - y j) ^ 2
  unfold distLe
  show (decide (0 ≤ tol) && decide (∑ j, ((fun j => reorder π x j - reorder π y j) j) ^ 2 ≤ tol ^ 2)) =
    (decide (0 ≤ tol) && decide (∑ j, ((fun j => x j - y j) j) ^ 2 ≤ tol ^ 2))
  rw [e]

theorem sameProblem_reorder (π : Equiv.Perm (Fin n)) (fn : Vec K n → Val K) (xtol : K) (ftol : Val K) :
    SameProblem (fun v => v) (reorder π) (plainObj fn) (plainObj fun x => fn (reorder π.symm x)) xtol xtol ftol ftol where
  rising := rising_id
  pop X := by
    funext i
    show fn _ = fn _
    rw [reorder_symm]
  one x := by
    show fn _ = fn _
    rw [reorder_symm]
  ftol := rfl
  dist a b := distLe_reorder π a b xtol

end lhs

section DE
open DE
variable [Field K] [LinearOrder K]

def DE.State.deal (ψ : Vec K n → Vec K n) (T : σ → σ) (s : DE.State σ K p n) : DE.State σ K p n :=
  { X := fun i => ψ (s.X i), gbest := ψ s.gbest, pbestfit := s.pbestfit, gfit := s.gfit,
    pfit := s.pfit, caller := s.caller.map fun x i => ψ (x i), evals := s.evals.map ψ, rng := T s.rng }

/-- Two parameter sets of `de` that differ by a change of coordinates, with the random numbers of the second dealt by `T`. -/
structure DE.Dealt (ψ : Vec K n → Vec K n) (T : σ → σ) (P P' : DE.Par σ K p n) : Prop where
  prob : SameProblem (fun v => v) ψ P.obj P'.obj P.xtol P'.xtol P.ftol P'.ftol
  maxiter : P'.maxiter = P.maxiter
  draw : ∀ g, drawMat P'.R.rand p n (T g) = (fun i => ψ ((drawMat P.R.rand p n g).1 i), T (drawMat P.R.rand p n g).2)
  sync : ∀ (X : Pop K p n) gbest g,
    candSync P' (fun i => ψ (X i)) (ψ gbest) (T g) = (candSync P X gbest g).map fun r => (fun i => ψ (r.1 i), T r.2)
  async : ∀ (r1 : Vec K n) i (X : Pop K p n) gbest g,
    candAsync P' (ψ r1) i (fun i => ψ (X i)) (ψ gbest) (T g) = (candAsync P r1 i X gbest g).map fun r => (ψ r.1, T r.2)

variable {ψ : Vec K n → Vec K n} {P P' : DE.Par σ K p n}

theorem DE.Dealt.stepSync (h : DE.Dealt ψ T P P') (it : Nat) (s : DE.State σ K p n) :
    DE.stepSync P' it (s.deal ψ T) = (DE.stepSync P it s).map fun r => (r.1.deal ψ T, r.2) := by
  unfold DE.stepSync
  simp only [map_bind_ex]
  show (candSync P' (fun i => ψ (s.X i)) (ψ s.gbest) (T s.rng) >>= _) = _
  rw [h.sync, bind_map_ex]
  congr 1
  funext U
  show (selectionSync it (fun i => ψ (U.1 i)) (ψ s.gbest) (fun i => ψ (s.X i)) (fun i => s.pbestfit i) _ _ _ _ >>= _) = _
  rw [selectionSync_map h.prob, bind_map_ex, h.maxiter]
  congr 1
  funext r
  show Except.ok _ = Except.ok _
  congr 1
  refine Prod.ext ?_ rfl
  show DE.State.mk _ _ _ _ _ _ _ _ = DE.State.mk _ _ _ _ _ _ _ _
  congr 1
  · show Option.map _ (Option.map _ s.caller) = Option.map _ (Option.map _ s.caller)
    rw [Option.map_map, Option.map_map]; rfl
  · show List.map ψ s.evals ++ _ = List.map ψ (_ ++ _)
    rw [List.map_append, List.map_ofFn]; rfl

theorem DE.Dealt.row (h : DE.Dealt ψ T P P') (r1 : Fin p → Vec K n) (acc : DE.State σ K p n × Option Int) (i : Fin p) :
    DE.rowAsync P' (fun i => ψ (r1 i)) (acc.1.deal ψ T, acc.2) i = (DE.rowAsync P r1 acc i).map fun r => (r.1.deal ψ T, r.2) := by
  unfold DE.rowAsync
  simp only [map_bind_ex]
  show (candAsync P' (ψ (r1 i)) i (fun i => ψ (acc.1.X i)) (ψ acc.1.gbest) (T acc.1.rng) >>= _) = _
  rw [h.async, bind_map_ex]
  congr 1
  funext U
  dsimp only [DE.State.deal]
  have e := selectionAsync_map h.prob U.1 acc.1.gbest acc.1.gfit acc.1.X acc.1.pbestfit i
  rw [show (selectionAsync (ψ U.1) (ψ acc.1.gbest) acc.1.gfit (fun i => ψ (acc.1.X i)) acc.1.pbestfit P'.xtol P'.ftol P'.obj i) = _ from e]
  show Except.ok _ = Except.ok _
  congr 1
  refine Prod.ext ?_ rfl
  show DE.State.mk _ _ _ _ _ _ _ _ = DE.State.mk _ _ _ _ _ _ _ _
  congr 1
  · show Option.map _ (Option.map _ acc.1.caller) = Option.map _ (Option.map _ acc.1.caller)
    rw [Option.map_map, Option.map_map]; rfl
  · show List.map ψ acc.1.evals ++ _ = List.map ψ (_ ++ _)
    rw [List.map_append]; rfl

theorem DE.Dealt.stepAsync (h : DE.Dealt ψ T P P') (it : Nat) (s : DE.State σ K p n) :
    DE.stepAsync P' it (s.deal ψ T) = (DE.stepAsync P it s).map fun r => (r.1.deal ψ T, r.2) := by
  unfold DE.stepAsync
  simp only [map_bind_ex]
  have e := foldlM_map (m := fun a : DE.State σ K p n × Option Int => (a.1.deal ψ T, a.2))
    (fun a b => h.row (drawMat P.R.rand p n s.rng).1 a b) (List.finRange p) ({ s with rng := (drawMat P.R.rand p n s.rng).2 }, none)
  have hd : drawMat P'.R.rand p n (s.deal ψ T).rng = _ := h.draw s.rng
  rw [h.maxiter, hd]
  refine (congrArg (· >>= _) e).trans ?_
  rw [bind_map_ex]
  rfl

theorem DE.Dealt.sim (h : DE.Dealt ψ T P P') (sync : Bool) :
    (DE.alg P sync).Sim (DE.alg P' sync) (DE.State.deal ψ T) (fun v => v) ψ ψ where
  step it s := by
    show (if sync = true then DE.stepSync P' else DE.stepAsync P') it _ =
      Except.map _ ((if sync = true then DE.stepSync P else DE.stepAsync P) it s)
    cases sync
    · exact h.stepAsync it s
    · exact h.stepSync it s
  post _ _ := rfl
  cbX _ := rfl
  best _ := rfl
  bestFun _ := rfl
  rec0X _ := rfl
  rec0Best _ := rfl
  recX _ := rfl
  pfit _ := rfl

theorem DE.Dealt.run (h : DE.Dealt ψ T P P') (sync : Bool) (c : Cfg) (fuel : Nat) (x0 : Option (Pop K p n)) (g : σ)
    (hl : x0 = none → lhs P'.R p P'.lower P'.upper (T g) =
      (fun i => ψ ((lhs P.R p P.lower P.upper g).1 i), T (lhs P.R p P.lower P.upper g).2)) :
    DE.de P' sync c fuel (x0.map fun x i => ψ (x i)) (T g) =
      (DE.de P sync c fuel x0 g).map fun o => { o.map id ψ ψ with rng := T o.rng } := by
  unfold DE.de
  simp only [map_bind_ex]
  have hi : DE.init P' (x0.map fun x i => ψ (x i)) (T g) = (DE.init P x0 g).map (DE.State.deal ψ T) := by
    unfold DE.init
    simp only [map_bind_ex]
    cases x0 with
    | none =>
      have hl := hl rfl
      simp only [Option.map_none, hl, h.prob.pop]
      congr 1
      funext idx
      show Except.ok _ = Except.ok _
      congr 1
      show DE.State.mk _ _ _ _ _ _ _ _ = DE.State.mk _ _ _ _ _ _ _ _
      congr 1
      rw [List.map_ofFn]; rfl
    | some x =>
      simp only [Option.map_some, h.prob.pop]
      congr 1
      funext idx
      show Except.ok _ = Except.ok _
      congr 1
      show DE.State.mk _ _ _ _ _ _ _ _ = DE.State.mk _ _ _ _ _ _ _ _
      congr 1
      rw [List.map_ofFn]; rfl
  rw [hi, bind_map_ex]
  congr 1
  funext s0
  rw [(h.sim sync).run h.prob.rising, bind_map_ex]
  rfl

/-! ### Candidates -/

theorem strategyMap_reorder {name : String} {strat : DE.Strategy K p n} (h : DE.strategyMap name = .ok strat) (π : Equiv.Perm (Fin n))
    (i : Fin (p - 1) → Fin p) (F : K) (X : Pop K p n) (gbest : Vec K n) :
    strat i F (fun i => reorder π (X i)) (reorder π gbest) = (strat i F X gbest).map (reorder π) := by
  unfold DE.strategyMap at h
  split_ifs at h
  all_goals cases h
  · unfold DE.rand1bin; simp only [map_bind_ex]; rfl
  · unfold DE.rand2bin; simp only [map_bind_ex]; rfl
  · unfold DE.best1bin; simp only [map_bind_ex]; rfl
  · unfold DE.best2bin; simp only [map_bind_ex]; rfl

theorem crossover_reorder (π : Equiv.Perm (Fin n)) (k : Nat) (r1 : Vec K n) (CR : K) (V X : Vec K n) :
    DE.crossover (natPerm π.symm k) (reorder π r1) CR (reorder π V) (reorder π X) = reorder π (DE.crossover k r1 CR V X) := by
  funext j
  unfold DE.crossover reorder
  simp only [natPerm_symm_eq_iff]

theorem consOne_reorder {R : Rng σ K} (hu : Deals R.rand π T T) (c : DE.Cons) (lower upper U : Vec K n) (g : σ) :
    DE.consOne R c (reorder π lower) (reorder π upper) (reorder π U) (T g) =
      (reorder π (DE.consOne R c lower upper U g).1, T (DE.consOne R c lower upper U g).2) := by
  cases c with
  | none => rfl
  | random =>
    unfold DE.consOne
    dsimp only
    rw [hu]
    rfl

theorem consPop_reorder {R : Rng σ K} (hu : Deals R.rand π T T) (c : DE.Cons) (lower upper : Vec K n) (U : Pop K p n) (g : σ) :
    DE.consPop R c (reorder π lower) (reorder π upper) (fun i => reorder π (U i)) (T g) =
      (fun i => reorder π ((DE.consPop R c lower upper U g).1 i), T (DE.consPop R c lower upper U g).2) := by
  cases c with
  | none => rfl
  | random =>
    unfold DE.consPop
    dsimp only
    rw [hu.mat]
    rfl

/-- The parameters of `de` with the variables in another order. -/
structure DE.ReorderedPar (π : Equiv.Perm (Fin n)) (P P' : DE.Par σ K p n) : Prop where
  R : P'.R = P.R
  F : P'.F = P.F
  CR : P'.CR = P.CR
  strat : ∀ i X gbest, P'.strat i P.F (fun k => reorder π (X k)) (reorder π gbest) = (P.strat i P.F X gbest).map (reorder π)
  cons : P'.cons = P.cons
  lower : P'.lower = reorder π P.lower
  upper : P'.upper = reorder π P.upper

theorem DE.candSync_reorder (h : DE.ReorderedPar π P P') (hu : Deals P.R.rand π T T)
    (hi : ∀ g, P.R.randint n (T g) = (natPerm π.symm (P.R.randint n g).1, T (P.R.randint n g).2))
    (hp : ∀ g, P.R.perm (p - 1) (T g) = ((P.R.perm (p - 1) g).1, T (P.R.perm (p - 1) g).2)) (X : Pop K p n) (gbest : Vec K n) (g : σ) :
    candSync P' (fun i => reorder π (X i)) (reorder π gbest) (T g) =
      (candSync P X gbest g).map fun r => (fun i => reorder π (r.1 i), T r.2) := by
  unfold DE.candSync
  dsimp only
  have hp' : ∀ g, drawVec (P.R.perm (p - 1)) p (T g) = _ := drawVec_map (f := fun z => z) hp p
  have hi' : ∀ g, drawVec (P.R.randint n) p (T g) = _ := drawVec_map (f := natPerm π.symm) hi p
  rw [h.R, h.F, h.CR, h.cons, h.lower, h.upper, hu.mat]
  dsimp only
  rw [hp']
  dsimp only
  rw [hi']
  simp only [map_bind_ex, h.strat]
  rw [seqFin_map, bind_map_ex]
  congr 1
  funext V
  congr 1
  funext _
  dsimp only
  simp only [crossover_reorder]
  rw [consPop_reorder hu]
  rfl

theorem DE.candAsync_reorder (h : DE.ReorderedPar π P P') (hu : Deals P.R.rand π T T)
    (hi : ∀ g, P.R.randint n (T g) = (natPerm π.symm (P.R.randint n g).1, T (P.R.randint n g).2))
    (hp : ∀ g, P.R.perm (p - 1) (T g) = ((P.R.perm (p - 1) g).1, T (P.R.perm (p - 1) g).2)) (r1 : Vec K n) (i : Fin p) (X : Pop K p n)
    (gbest : Vec K n) (g : σ) :
    candAsync P' (reorder π r1) i (fun i => reorder π (X i)) (reorder π gbest) (T g) =
      (candAsync P r1 i X gbest g).map fun r => (reorder π r.1, T r.2) := by
  unfold DE.candAsync
  dsimp only
  rw [h.R, h.F, h.CR, h.cons, h.lower, h.upper, hp]
  dsimp only
  rw [hi]
  simp only [map_bind_ex, h.strat]
  rw [bind_map_ex]
  congr 1
  funext V
  congr 1
  funext _
  rw [crossover_reorder, consOne_reorder hu]
  rfl

theorem DE.ReorderedPar.dealt (h : DE.ReorderedPar π P P')
    (hprob : SameProblem (fun v => v) (reorder π) P.obj P'.obj P.xtol P'.xtol P.ftol P'.ftol) (hm : P'.maxiter = P.maxiter)
    (hu : Deals P.R.rand π T T)
    (hi : ∀ g, P.R.randint n (T g) = (natPerm π.symm (P.R.randint n g).1, T (P.R.randint n g).2))
    (hp : ∀ g, P.R.perm (p - 1) (T g) = ((P.R.perm (p - 1) g).1, T (P.R.perm (p - 1) g).2)) : DE.Dealt (reorder π) T P P' where
  prob := hprob
  maxiter := hm
  draw g := by rw [h.R]; exact hu.mat p g
  sync := DE.candSync_reorder h hu hi hp
  async := DE.candAsync_reorder h hu hi hp

end DE

section CPSO
open CPSO
variable [Field K] [LinearOrder K]

def CPSO.State.deal (ψ : Vec K n → Vec K n) (T : σ → σ) (s : CPSO.State σ K p n) : CPSO.State σ K p n :=
  { X := fun i => ψ (s.X i), V := fun i => ψ (s.V i), pbest := fun i => ψ (s.pbest i), gbest := ψ s.gbest,
    pbestfit := s.pbestfit, gfit := s.gfit, pfit := s.pfit,
    caller := s.caller.map fun x i => ψ (x i), aliased := s.aliased, evals := s.evals.map ψ, rng := T s.rng }

section
variable [IntParts K] [NumFns K]

/-- Two parameter sets of `cpso` that differ by a change of coordinates, with the random numbers of the second dealt by `T`. -/
structure CPSO.Dealt (p : Nat) (ψ : Vec K n → Vec K n) (T : σ → σ) (P P' : CPSO.Par σ K n) : Prop where
  prob : SameProblem (fun v => v) ψ P.obj P'.obj P.xtol P'.xtol P.ftol P'.ftol
  maxiter : P'.maxiter = P.maxiter
  draw : ∀ g, drawMat P'.R.rand p n (T g) = (fun i => ψ ((drawMat P.R.rand p n g).1 i), T (drawMat P.R.rand p n g).2)
  zero : ψ (fun _ => 0) = fun _ => 0
  mutation : ∀ X V pb gb r1 r2, CPSO.mutation P' (ψ X) (ψ V) (ψ pb) (ψ gb) (ψ r1) (ψ r2) =
    (ψ (CPSO.mutation P X V pb gb r1 r2).1, ψ (CPSO.mutation P X V pb gb r1 r2).2)
  post : ∀ it (s : CPSO.State σ K p n), CPSO.post P' it (s.deal ψ T) = (CPSO.post P it s).deal ψ T

variable {ψ : Vec K n → Vec K n} {P P' : CPSO.Par σ K n}

theorem CPSO.Dealt.stepSync (h : CPSO.Dealt p ψ T P P') (it : Nat) (s : CPSO.State σ K p n) :
    CPSO.stepSync P' it (s.deal ψ T) = (CPSO.stepSync P it s).map fun r => (r.1.deal ψ T, r.2) := by
  unfold CPSO.stepSync
  simp only [map_bind_ex]
  dsimp only [CPSO.State.deal]
  simp only [h.draw, h.mutation]
  have e := selectionSync_map h.prob it (fun i => (CPSO.mutation P (s.X i) (s.V i) (s.pbest i) s.gbest ((drawMat P.R.rand p n s.rng).1 i)
    ((drawMat P.R.rand p n (drawMat P.R.rand p n s.rng).2).1 i)).1) s.gbest s.pbest s.pbestfit P.maxiter
  rw [h.maxiter]
  refine (congrArg (· >>= _) e).trans ?_
  rw [bind_map_ex]
  congr 1
  funext r
  show Except.ok _ = Except.ok _
  congr 1
  refine Prod.ext ?_ rfl
  show CPSO.State.mk _ _ _ _ _ _ _ _ _ _ _ = CPSO.State.mk _ _ _ _ _ _ _ _ _ _ _
  congr 1
  rw [List.map_append, List.map_ofFn]; rfl

theorem CPSO.Dealt.row (h : CPSO.Dealt p ψ T P P') (r1 r2 : Pop K p n) (acc : CPSO.State σ K p n × Option Int) (i : Fin p) :
    CPSO.rowAsync P' (fun i => ψ (r1 i)) (fun i => ψ (r2 i)) (acc.1.deal ψ T, acc.2) i =
      ((CPSO.rowAsync P r1 r2 acc i).1.deal ψ T, (CPSO.rowAsync P r1 r2 acc i).2) := by
  unfold CPSO.rowAsync
  dsimp only [CPSO.State.deal]
  rw [h.mutation]
  dsimp only
  have e := selectionAsync_map h.prob (CPSO.mutation P (acc.1.X i) (acc.1.V i) (acc.1.pbest i) acc.1.gbest (r1 i) (r2 i)).1 acc.1.gbest acc.1.gfit acc.1.pbest acc.1.pbestfit i
  rw [show (selectionAsync (ψ (CPSO.mutation P (acc.1.X i) (acc.1.V i) (acc.1.pbest i) acc.1.gbest (r1 i) (r2 i)).1) (ψ acc.1.gbest) acc.1.gfit
    (fun i => ψ (acc.1.pbest i)) acc.1.pbestfit P'.xtol P'.ftol P'.obj i) = _ from e, update_map, update_map]
  refine Prod.ext ?_ rfl
  show CPSO.State.mk _ _ _ _ _ _ _ _ _ _ _ = CPSO.State.mk _ _ _ _ _ _ _ _ _ _ _
  congr 1
  · exact writeThrough_map _ _ _
  · rw [List.map_append]; rfl

theorem CPSO.Dealt.stepAsync (h : CPSO.Dealt p ψ T P P') (it : Nat) (s : CPSO.State σ K p n) :
    CPSO.stepAsync P' it (s.deal ψ T) = (CPSO.stepAsync P it s).map fun r => (r.1.deal ψ T, r.2) := by
  unfold CPSO.stepAsync
  have e := foldl_map_eq (m := fun a : CPSO.State σ K p n × Option Int => (a.1.deal ψ T, a.2))
    (fun a b => h.row (drawMat P.R.rand p n s.rng).1 (drawMat P.R.rand p n (drawMat P.R.rand p n s.rng).2).1 a b) (List.finRange p)
    ({ s with rng := (drawMat P.R.rand p n (drawMat P.R.rand p n s.rng).2).2 }, none)
  have hd : drawMat P'.R.rand p n (s.deal ψ T).rng = _ := h.draw s.rng
  rw [h.maxiter, hd]
  dsimp only
  rw [h.draw]
  dsimp only at e ⊢
  show Except.ok _ = Except.ok _
  congr 1
  refine Prod.ext ?_ ?_
  · have e1 := congrArg Prod.fst e
    exact e1
  · have e2 := congrArg Prod.snd e
    exact congrArg (fun o : Option Int => if o.isNone && decide (P.maxiter ≤ (it : Int)) then some (-1) else o) e2

theorem CPSO.Dealt.sim (h : CPSO.Dealt p ψ T P P') (sync : Bool) :
    (CPSO.alg P sync : Alg (CPSO.State σ K p n) K p n).Sim (CPSO.alg P' sync) (CPSO.State.deal ψ T) (fun v => v) ψ ψ where
  step it s := by
    show (if sync = true then CPSO.stepSync P' else CPSO.stepAsync P') it _ =
      Except.map _ ((if sync = true then CPSO.stepSync P else CPSO.stepAsync P) it s)
    cases sync
    · exact h.stepAsync it s
    · exact h.stepSync it s
  post it s := h.post it s
  cbX _ := rfl
  best _ := rfl
  bestFun _ := rfl
  rec0X _ := rfl
  rec0Best _ := rfl
  recX _ := rfl
  pfit _ := rfl

theorem CPSO.Dealt.run (h : CPSO.Dealt p ψ T P P') (sync : Bool) (c : Cfg) (fuel : Nat) (x0 : Option (Pop K p n)) (g : σ)
    (hl : x0 = none → lhs P'.R p P'.lower P'.upper (T g) =
      (fun i => ψ ((lhs P.R p P.lower P.upper g).1 i), T (lhs P.R p P.lower P.upper g).2)) :
    CPSO.cpso P' sync c fuel (x0.map fun x i => ψ (x i)) (T g) =
      (CPSO.cpso P sync c fuel x0 g).map fun o => { o.map id ψ ψ with rng := T o.rng } := by
  unfold CPSO.cpso
  simp only [map_bind_ex]
  have hi : CPSO.init P' (x0.map fun x i => ψ (x i)) (T g) = (CPSO.init P x0 g).map (CPSO.State.deal ψ T) := by
    unfold CPSO.init
    simp only [map_bind_ex]
    cases x0 with
    | none =>
      have hl := hl rfl
      simp only [Option.map_none, hl, h.prob.pop]
      congr 1
      funext idx
      show Except.ok _ = Except.ok _
      congr 1
      show CPSO.State.mk _ _ _ _ _ _ _ _ _ _ _ = CPSO.State.mk _ _ _ _ _ _ _ _ _ _ _
      congr 1
      · exact funext fun _ => h.zero.symm
      · rw [List.map_ofFn]; rfl
    | some x =>
      simp only [Option.map_some, h.prob.pop]
      congr 1
      funext idx
      show Except.ok _ = Except.ok _
      congr 1
      show CPSO.State.mk _ _ _ _ _ _ _ _ _ _ _ = CPSO.State.mk _ _ _ _ _ _ _ _ _ _ _
      congr 1
      · exact funext fun _ => h.zero.symm
      · rw [List.map_ofFn]; rfl
  rw [hi, bind_map_ex]
  congr 1
  funext s0
  rw [(h.sim sync).run h.prob.rising, bind_map_ex]
  rfl

end

/-! ### Moves and restarts -/

theorem min?_perm {l l' : List K} (h : l.Perm l') : l.min? = l'.min? := by
  cases e : l.min? with
  | none =>
    rw [List.min?_eq_none_iff] at e
    subst e
    rw [← h.nil_eq]
    rfl
  | some a =>
    rw [List.min?_eq_some_iff] at e
    symm
    rw [List.min?_eq_some_iff]
    exact ⟨h.mem_iff.1 e.1, fun b hb => e.2 b (h.mem_iff.2 hb)⟩

theorem filterMap_reorder {β : Type} (π : Equiv.Perm (Fin n)) (f : Fin n → Option β) :
    ((List.finRange n).filterMap fun j => f (π j)).Perm ((List.finRange n).filterMap f) := by
  have h : ((List.finRange n).map π).Perm (List.finRange n) := by
    rw [List.perm_ext_iff_of_nodup ((List.nodup_finRange n).map π.injective) (List.nodup_finRange n)]
    intro a
    simp only [List.mem_map, List.mem_finRange, true_and, iff_true]
    exact ⟨π.symm a, π.apply_symm_apply a⟩
  have := h.filterMap f
  rw [List.filterMap_map] at this
  exact this

theorem CPSO.shrinkBeta_reorder (π : Equiv.Perm (Fin n)) (lower upper X V : Vec K n) :
    shrinkBeta (reorder π lower) (reorder π upper) (reorder π X) (reorder π V) = shrinkBeta lower upper X V := by
  unfold shrinkBeta
  have e1 := min?_perm (filterMap_reorder π fun j => if X j + V j < lower j then some ((lower j - X j) / V j) else none)
  have e2 := min?_perm (filterMap_reorder π fun j => if upper j < X j + V j then some ((upper j - X j) / V j) else none)
  refine Eq.trans ?_ (congrArg₂ (fun a b : Option K => match a, b with
    | some l, some u => min l u
    | some l, none => l
    | none, some u => u
    | none, none => 1) e1 e2)
  rfl

theorem CPSO.consRow_reorder (π : Equiv.Perm (Fin n)) (c : CPSO.Cons) (lower upper X V : Vec K n) :
    consRow c (reorder π lower) (reorder π upper) (reorder π X) (reorder π V) =
      (reorder π (consRow c lower upper X V).1, reorder π (consRow c lower upper X V).2) := by
  cases c with
  | none => rfl
  | shrink =>
    unfold consRow
    dsimp only
    rw [shrinkBeta_reorder]
    rfl

/-- The parameters of `cpso` with the variables in another order. -/
structure CPSO.ReorderedPar (π : Equiv.Perm (Fin n)) (P P' : CPSO.Par σ K n) : Prop where
  R : P'.R = P.R
  argsort : P'.argsort = P.argsort
  w : P'.w = P.w
  c1 : P'.c1 = P.c1
  c2 : P'.c2 = P.c2
  gamma : P'.gamma = P.gamma
  cons : P'.cons = P.cons
  maxiter : P'.maxiter = P.maxiter
  lower : P'.lower = reorder π P.lower
  upper : P'.upper = reorder π P.upper

variable {P P' : CPSO.Par σ K n}

theorem CPSO.mutation_reorder (h : CPSO.ReorderedPar π P P') (X V pb gb r1 r2 : Vec K n) :
    CPSO.mutation P' (reorder π X) (reorder π V) (reorder π pb) (reorder π gb) (reorder π r1) (reorder π r2) =
      (reorder π (CPSO.mutation P X V pb gb r1 r2).1, reorder π (CPSO.mutation P X V pb gb r1 r2).2) := by
  have e := CPSO.consRow_reorder π P.cons P.lower P.upper X
    (fun j => P.w * V j + P.c1 * r1 j * (pb j - X j) + P.c2 * r2 j * (gb j - X j))
  unfold CPSO.mutation
  rw [h.cons, h.lower, h.upper, h.w, h.c1, h.c2]
  exact e

variable [IntParts K] [NumFns K]

theorem CPSO.post_reorder (h : CPSO.ReorderedPar π P P') (hu : Deals P.R.rand π T T) (it : Nat) (s : CPSO.State σ K p n) :
    CPSO.post P' it (s.deal (reorder π) T) = (CPSO.post P it s).deal (reorder π) T := by
  unfold CPSO.post
  rw [h.gamma]
  cases P.gamma with
  | none => rfl
  | some gamma =>
    dsimp only
    by_cases h0 : gamma = 0
    · rw [if_pos h0, if_pos h0]
    rw [if_neg h0, if_neg h0]
    unfold CPSO.restart
    rw [h.maxiter]
    have hs : ∀ dl, swarmSmall (s.deal (reorder π) T).X (s.deal (reorder π) T).gbest dl = swarmSmall s.X s.gbest dl := by
      intro dl
      unfold swarmSmall
      have e : (fun i : Fin p => NumFns.sqrt (ArrayOps.sum fun j => ((s.deal (reorder π) T).X i j - (s.deal (reorder π) T).gbest j) ^ 2)) =
          fun i => NumFns.sqrt (ArrayOps.sum fun j => (s.X i j - s.gbest j) ^ 2) := by
        funext i
        congr 1
        exact Equiv.sum_comp π fun j => (s.X i j - s.gbest j) ^ 2
      rw [e]
    rw [hs]
    by_cases h1 : swarmSmall s.X s.gbest (delta p P.maxiter) = true
    swap
    · rw [if_neg h1, if_neg h1]
    rw [if_pos h1, if_pos h1]
    by_cases h2 : 0 < numRestart p it P.maxiter gamma
    swap
    · rw [if_neg h2, if_neg h2]
    rw [if_pos h2, if_pos h2]
    unfold CPSO.resetWorst
    dsimp only [CPSO.State.deal]
    rw [h.R, hu.mat, h.argsort, h.lower, h.upper]
    congr 1
    · funext q
      cases restartPos P.argsort s.pbestfit _ q <;> rfl
    · funext q
      cases restartPos P.argsort s.pbestfit _ q <;> rfl
    · funext q
      cases restartPos P.argsort s.pbestfit _ q <;> rfl
    · refine Eq.trans ?_ (writeThrough_map _ _ _)
      congr 1
      funext q
      cases restartPos P.argsort s.pbestfit _ q <;> rfl

theorem CPSO.ReorderedPar.dealt (h : CPSO.ReorderedPar π P P')
    (hprob : SameProblem (fun v => v) (reorder π) P.obj P'.obj P.xtol P'.xtol P.ftol P'.ftol) (hu : Deals P.R.rand π T T) :
    CPSO.Dealt p (reorder π) T P P' where
  prob := hprob
  maxiter := h.maxiter
  draw g := by rw [h.R]; exact hu.mat p g
  zero := rfl
  mutation := CPSO.mutation_reorder h
  post := CPSO.post_reorder h hu

end CPSO

end Stochopy
