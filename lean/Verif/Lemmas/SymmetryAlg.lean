import Verif.Lemmas.Symmetry
import Verif.Lemmas.Backend
import Verif.Model.DE
import Verif.Model.CPSO
import Verif.Model.NA

/-! `de`, `cpso` and `na` under a change of values and coordinates. -/

set_option linter.unusedSectionVars false

namespace Stochopy
variable {K σ : Type} [AddZeroClass K] [One K] [Sub K] [Mul K] [Div K] [Neg K] [NatCast K] [IntCast K] [Pow K ℕ] [ArrayOps K] [LinearOrder K] {p n : Nat}

/-- Two objectives and thresholds that differ by a change of values and coordinates. -/
structure SameObj (φ : Val K → Val K) (ψ : Vec K n → Vec K n) (obj obj' : Obj K n) (ftol ftol' : Val K) : Prop where
  rising : Rising φ
  pop : ∀ {p : Nat} (X : Pop K p n), obj'.pop (fun i => ψ (X i)) = fun i => φ (obj.pop X i)
  one : ∀ x, obj'.one (ψ x) = φ (obj.one x)
  ftol : ftol' = φ ftol

/-- The same for the tolerance on distances. -/
structure SameProblem (φ : Val K → Val K) (ψ : Vec K n → Vec K n) (obj obj' : Obj K n) (xtol xtol' : K) (ftol ftol' : Val K) :
    Prop extends SameObj φ ψ obj obj' ftol ftol' where
  dist : ∀ a b, distLe (ψ a) (ψ b) xtol' = distLe a b xtol

def SelSync.map (φ : Val K → Val K) (ψ : Vec K n → Vec K n) (r : SelSync K p n) : SelSync K p n :=
  { xbest := ψ r.xbest, xbestfun := φ r.xbestfun, candfun := fun i => φ (r.candfun i), status := r.status,
    x := fun i => ψ (r.x i), xfun := fun i => φ (r.xfun i) }

def SelAsync.map (φ : Val K → Val K) (ψ : Vec K n → Vec K n) (r : SelAsync K p n) : SelAsync K p n :=
  { xbest := ψ r.xbest, xbestfun := φ r.xbestfun, candfun := φ r.candfun, status := r.status,
    x := fun i => ψ (r.x i), xfun := fun i => φ (r.xfun i) }

variable {φ : Val K → Val K} {ψ : Vec K n → Vec K n} {obj obj' : Obj K n} {xtol xtol' : K} {ftol ftol' : Val K}

theorem selectionSync_map (h : SameProblem φ ψ obj obj' xtol xtol' ftol ftol') (it : Nat) (cand : Pop K p n) (xbest : Vec K n)
    (x : Pop K p n) (xfun : Fin p → Val K) (maxiter : Int) :
    selectionSync it (fun i => ψ (cand i)) (ψ xbest) (fun i => ψ (x i)) (fun i => φ (xfun i)) maxiter xtol' ftol' obj' =
      (selectionSync it cand xbest x xfun maxiter xtol ftol obj).map (SelSync.map φ ψ) := by
  have e1 : (fun i => if φ (obj.pop cand i) < φ (xfun i) then φ (obj.pop cand i) else φ (xfun i)) =
      fun i => φ (if obj.pop cand i < xfun i then obj.pop cand i else xfun i) := by
    funext i
    by_cases h1 : obj.pop cand i < xfun i
    · rw [if_pos h1, if_pos ((h.rising.lt _ _).2 h1)]
    · rw [if_neg h1, if_neg fun h2 => h1 ((h.rising.lt _ _).1 h2)]
  have e2 : (fun i => if φ (obj.pop cand i) < φ (xfun i) then ψ (cand i) else ψ (x i)) =
      fun i => ψ (if obj.pop cand i < xfun i then cand i else x i) := by
    funext i
    by_cases h1 : obj.pop cand i < xfun i
    · rw [if_pos h1, if_pos ((h.rising.lt _ _).2 h1)]
    · rw [if_neg h1, if_neg fun h2 => h1 ((h.rising.lt _ _).1 h2)]
  unfold selectionSync
  simp only [h.pop, map_bind_ex]
  rw [e1, h.rising.argmin]
  congr 1
  funext idx
  show Except.ok _ = Except.ok _
  congr 1
  unfold SelSync.map
  congr 1
  · exact congrFun e2 idx
  · exact congrFun e1 idx
  · have e3 := congrFun e2 idx
    have e4 := congrFun e1 idx
    dsimp only at e3 e4 ⊢
    rw [h.ftol, e3, e4]
    simp only [h.dist, h.rising _ _]

theorem update_map {α β : Type} (f : α → β) (v : Fin p → α) (i : Fin p) (a : α) :
    Function.update (fun j => f (v j)) i (f a) = fun j => f (Function.update v i a j) := by
  funext j
  by_cases h : j = i
  · subst h; simp
  · simp [h]

theorem selectionAsync_map (h : SameProblem φ ψ obj obj' xtol xtol' ftol ftol') (candi xbest : Vec K n) (xbestfun : Val K)
    (x : Pop K p n) (xfun : Fin p → Val K) (i : Fin p) :
    selectionAsync (ψ candi) (ψ xbest) (φ xbestfun) (fun i => ψ (x i)) (fun i => φ (xfun i)) xtol' ftol' obj' i =
      (selectionAsync candi xbest xbestfun x xfun xtol ftol obj i).map φ ψ := by
  unfold selectionAsync
  simp only [h.one, h.rising _ _, update_map, h.dist, h.ftol]
  split_ifs <;> rfl

section DE
open DE

def DE.State.map (φ : Val K → Val K) (ψ : Vec K n → Vec K n) (s : DE.State σ K p n) : DE.State σ K p n :=
  { X := fun i => ψ (s.X i), gbest := ψ s.gbest, pbestfit := fun i => φ (s.pbestfit i), gfit := φ s.gfit,
    pfit := fun i => φ (s.pfit i), caller := s.caller.map fun x i => ψ (x i), evals := s.evals.map ψ, rng := s.rng }

/-- Two parameter sets of `de` that differ by a change of values and coordinates. -/
structure DE.Same (φ : Val K → Val K) (ψ : Vec K n → Vec K n) (P P' : DE.Par σ K p n) : Prop where
  prob : SameProblem φ ψ P.obj P'.obj P.xtol P'.xtol P.ftol P'.ftol
  maxiter : P'.maxiter = P.maxiter
  R : P'.R = P.R
  sync : ∀ (X : Pop K p n) gbest g,
    candSync P' (fun i => ψ (X i)) (ψ gbest) g = (candSync P X gbest g).map fun r => (fun i => ψ (r.1 i), r.2)
  async : ∀ r1 : Vec K n, (∀ j, ∃ g, r1 j = (P.R.rand g).1) → ∀ i (X : Pop K p n) gbest g,
    candAsync P' r1 i (fun i => ψ (X i)) (ψ gbest) g = (candAsync P r1 i X gbest g).map fun r => (ψ r.1, r.2)

variable {P P' : DE.Par σ K p n}

theorem DE.Same.stepSync (h : DE.Same φ ψ P P') (it : Nat) (s : DE.State σ K p n) :
    DE.stepSync P' it (s.map φ ψ) = (DE.stepSync P it s).map fun r => (r.1.map φ ψ, r.2) := by
  unfold DE.stepSync
  simp only [map_bind_ex]
  show (candSync P' (fun i => ψ (s.X i)) (ψ s.gbest) s.rng >>= _) = _
  rw [h.sync, bind_map_ex]
  congr 1
  funext U
  show (selectionSync it (fun i => ψ (U.1 i)) (ψ s.gbest) (fun i => ψ (s.X i)) (fun i => φ (s.pbestfit i)) _ _ _ _ >>= _) = _
  rw [selectionSync_map h.prob, bind_map_ex, h.maxiter]
  congr 1
  funext r
  show Except.ok _ = Except.ok _
  congr 1
  refine Prod.ext ?_ rfl
  show DE.State.mk _ _ _ _ _ _ _ _ = DE.State.mk _ _ _ _ _ _ _ _
  congr 1
  · show Option.map _ (Option.map _ s.caller) = Option.map _ (Option.map _ s.caller)
    rw [Option.map_map, Option.map_map]; rfl
  · show List.map ψ s.evals ++ _ = List.map ψ (_ ++ _)
    rw [List.map_append, List.map_ofFn]; rfl

theorem DE.Same.row (h : DE.Same φ ψ P P') {r1 : Fin p → Vec K n} (hr : ∀ i j, ∃ g, r1 i j = (P.R.rand g).1) (acc : DE.State σ K p n × Option Int) (i : Fin p) :
    DE.rowAsync P' r1 (acc.1.map φ ψ, acc.2) i = (DE.rowAsync P r1 acc i).map fun r => (r.1.map φ ψ, r.2) := by
  unfold DE.rowAsync
  simp only [map_bind_ex]
  show (candAsync P' (r1 i) i (fun i => ψ (acc.1.X i)) (ψ acc.1.gbest) acc.1.rng >>= _) = _
  rw [h.async _ (hr i), bind_map_ex]
  congr 1
  funext U
  dsimp only [DE.State.map]
  rw [selectionAsync_map h.prob]
  show Except.ok _ = Except.ok _
  congr 1
  refine Prod.ext ?_ rfl
  show DE.State.mk _ _ _ _ _ _ _ _ = DE.State.mk _ _ _ _ _ _ _ _
  congr 1
  · exact update_map φ _ _ _
  · show Option.map _ (Option.map _ acc.1.caller) = Option.map _ (Option.map _ acc.1.caller)
    rw [Option.map_map, Option.map_map]; rfl
  · show List.map ψ acc.1.evals ++ _ = List.map ψ (_ ++ _)
    rw [List.map_append]; rfl

theorem foldlM_map {α β : Type} {f f' : α → β → Except PyErr α} {m : α → α}
    (h : ∀ a b, f' (m a) b = (f a b).map m) (l : List β) : ∀ a, l.foldlM f' (m a) = (l.foldlM f a).map m := by
  induction l with
  | nil => intro a; rfl
  | cons b l ih =>
    intro a
    rw [List.foldlM_cons, List.foldlM_cons, map_bind_ex, h, bind_map_ex]
    congr 1
    funext c
    exact ih c

theorem DE.Same.stepAsync (h : DE.Same φ ψ P P') (it : Nat) (s : DE.State σ K p n) :
    DE.stepAsync P' it (s.map φ ψ) = (DE.stepAsync P it s).map fun r => (r.1.map φ ψ, r.2) := by
  unfold DE.stepAsync
  simp only [map_bind_ex]
  have e := foldlM_map (m := fun a : DE.State σ K p n × Option Int => (a.1.map φ ψ, a.2))
    (fun a b => h.row (r1 := (drawMat P.R.rand p n s.rng).1) (fun _ _ => ⟨_, rfl⟩) a b) (List.finRange p) ({ s with rng := (drawMat P.R.rand p n s.rng).2 }, none)
  rw [h.R, h.maxiter]
  show (List.foldlM (DE.rowAsync P' (drawMat P.R.rand p n s.rng).1) _ _ >>= _) = _
  refine (congrArg (· >>= _) e).trans ?_
  rw [bind_map_ex]
  rfl

theorem DE.Same.sim (h : DE.Same φ ψ P P') (sync : Bool) :
    (DE.alg P sync).Sim (DE.alg P' sync) (DE.State.map φ ψ) φ ψ ψ where
  step it s := by
    show (if sync = true then DE.stepSync P' else DE.stepAsync P') it _ =
      Except.map _ ((if sync = true then DE.stepSync P else DE.stepAsync P) it s)
    cases sync
    · exact h.stepAsync it s
    · exact h.stepSync it s
  post _ _ := rfl
  cbX _ := rfl
  best _ := rfl
  bestFun _ := rfl
  rec0X _ := rfl
  rec0Best _ := rfl
  recX _ := rfl
  pfit _ := rfl

theorem DE.Same.run (h : DE.Same φ ψ P P') (sync : Bool) (c : Cfg) (fuel : Nat) (x0 : Option (Pop K p n)) (g : σ)
    (hl : x0 = none → ∀ g, lhs P'.R p P'.lower P'.upper g =
      (fun i => ψ ((lhs P.R p P.lower P.upper g).1 i), (lhs P.R p P.lower P.upper g).2)) :
    DE.de P' sync c fuel (x0.map fun x i => ψ (x i)) g = (DE.de P sync c fuel x0 g).map (Output.map φ ψ ψ) := by
  unfold DE.de
  simp only [map_bind_ex]
  have hi : DE.init P' (x0.map fun x i => ψ (x i)) g = (DE.init P x0 g).map (DE.State.map φ ψ) := by
    unfold DE.init
    simp only [map_bind_ex]
    cases x0 with
    | none =>
      have hl := hl rfl
      simp only [Option.map_none, hl, h.prob.pop, h.prob.rising.argmin]
      congr 1
      funext idx
      show Except.ok _ = Except.ok _
      congr 1
      show DE.State.mk _ _ _ _ _ _ _ _ = DE.State.mk _ _ _ _ _ _ _ _
      congr 1
      rw [List.map_ofFn]; rfl
    | some x =>
      simp only [Option.map_some, h.prob.pop, h.prob.rising.argmin]
      congr 1
      funext idx
      show Except.ok _ = Except.ok _
      congr 1
      show DE.State.mk _ _ _ _ _ _ _ _ = DE.State.mk _ _ _ _ _ _ _ _
      congr 1
      rw [List.map_ofFn]; rfl
  rw [hi, bind_map_ex]
  congr 1
  funext s0
  rw [(h.sim sync).run h.prob.rising, bind_map_ex]
  rfl

end DE

section CPSO
open CPSO
variable [IntParts K] [NumFns K]

def CPSO.State.map (φ : Val K → Val K) (ψ χ : Vec K n → Vec K n) (s : CPSO.State σ K p n) : CPSO.State σ K p n :=
  { X := fun i => ψ (s.X i), V := fun i => χ (s.V i), pbest := fun i => ψ (s.pbest i), gbest := ψ s.gbest,
    pbestfit := fun i => φ (s.pbestfit i), gfit := φ s.gfit, pfit := fun i => φ (s.pfit i),
    caller := s.caller.map fun x i => ψ (x i), aliased := s.aliased, evals := s.evals.map ψ, rng := s.rng }

/-- Two parameter sets of `cpso` that differ by a change of values and coordinates (`χ` is applied to velocities). -/
structure CPSO.Same (p : Nat) (φ : Val K → Val K) (ψ χ : Vec K n → Vec K n) (P P' : CPSO.Par σ K n) : Prop where
  prob : SameProblem φ ψ P.obj P'.obj P.xtol P'.xtol P.ftol P'.ftol
  maxiter : P'.maxiter = P.maxiter
  R : P'.R = P.R
  zero : χ (fun _ => 0) = fun _ => 0
  mutation : ∀ X V pb gb r1 r2, CPSO.mutation P' (ψ X) (χ V) (ψ pb) (ψ gb) r1 r2 =
    (ψ (CPSO.mutation P X V pb gb r1 r2).1, χ (CPSO.mutation P X V pb gb r1 r2).2)
  post : ∀ it (s : CPSO.State σ K p n), CPSO.post P' it (s.map φ ψ χ) = (CPSO.post P it s).map φ ψ χ

variable {P P' : CPSO.Par σ K n} {χ : Vec K n → Vec K n}

theorem CPSO.Same.stepSync (h : CPSO.Same p φ ψ χ P P') (it : Nat) (s : CPSO.State σ K p n) :
    CPSO.stepSync P' it (s.map φ ψ χ) = (CPSO.stepSync P it s).map fun r => (r.1.map φ ψ χ, r.2) := by
  unfold CPSO.stepSync
  simp only [map_bind_ex, h.R]
  dsimp only [CPSO.State.map]
  simp only [h.mutation]
  rw [selectionSync_map h.prob, bind_map_ex, h.maxiter]
  congr 1
  funext r
  show Except.ok _ = Except.ok _
  congr 1
  refine Prod.ext ?_ rfl
  show CPSO.State.mk _ _ _ _ _ _ _ _ _ _ _ = CPSO.State.mk _ _ _ _ _ _ _ _ _ _ _
  congr 1
  rw [List.map_append, List.map_ofFn]; rfl

theorem writeThrough_map (b : Bool) (x : Option (Pop K p n)) (X' : Pop K p n) :
    writeThrough b (x.map fun x i => ψ (x i)) (fun i => ψ (X' i)) = (writeThrough b x X').map fun x i => ψ (x i) := by
  unfold writeThrough
  cases b <;> cases x <;> rfl

theorem CPSO.Same.row (h : CPSO.Same p φ ψ χ P P') (r1 r2 : Pop K p n) (acc : CPSO.State σ K p n × Option Int) (i : Fin p) :
    CPSO.rowAsync P' r1 r2 (acc.1.map φ ψ χ, acc.2) i =
      ((CPSO.rowAsync P r1 r2 acc i).1.map φ ψ χ, (CPSO.rowAsync P r1 r2 acc i).2) := by
  unfold CPSO.rowAsync
  dsimp only [CPSO.State.map]
  rw [h.mutation]
  dsimp only
  rw [selectionAsync_map h.prob, update_map, update_map]
  refine Prod.ext ?_ rfl
  show CPSO.State.mk _ _ _ _ _ _ _ _ _ _ _ = CPSO.State.mk _ _ _ _ _ _ _ _ _ _ _
  congr 1
  · exact update_map φ _ _ _
  · exact writeThrough_map _ _ _
  · rw [List.map_append]; rfl

theorem foldl_map_eq {α β : Type} {f f' : α → β → α} {m : α → α}
    (h : ∀ a b, f' (m a) b = m (f a b)) (l : List β) : ∀ a, l.foldl f' (m a) = m (l.foldl f a) := by
  induction l with
  | nil => intro a; rfl
  | cons b l ih => intro a; rw [List.foldl_cons, List.foldl_cons, h, ih]

theorem CPSO.Same.stepAsync (h : CPSO.Same p φ ψ χ P P') (it : Nat) (s : CPSO.State σ K p n) :
    CPSO.stepAsync P' it (s.map φ ψ χ) = (CPSO.stepAsync P it s).map fun r => (r.1.map φ ψ χ, r.2) := by
  unfold CPSO.stepAsync
  have e := foldl_map_eq (m := fun a : CPSO.State σ K p n × Option Int => (a.1.map φ ψ χ, a.2))
    (fun a b => h.row (drawMat P.R.rand p n s.rng).1 (drawMat P.R.rand p n (drawMat P.R.rand p n s.rng).2).1 a b) (List.finRange p)
    ({ s with rng := (drawMat P.R.rand p n (drawMat P.R.rand p n s.rng).2).2 }, none)
  rw [h.R, h.maxiter]
  dsimp only at e
  show Except.ok _ = Except.ok _
  congr 1
  refine Prod.ext ?_ ?_
  · have e1 := congrArg Prod.fst e
    exact e1
  · have e2 := congrArg Prod.snd e
    exact congrArg (fun o : Option Int => if o.isNone && decide (P.maxiter ≤ (it : Int)) then some (-1) else o) e2

theorem CPSO.Same.sim (h : CPSO.Same p φ ψ χ P P') (sync : Bool) :
    (CPSO.alg P sync : Alg (CPSO.State σ K p n) K p n).Sim (CPSO.alg P' sync) (CPSO.State.map φ ψ χ) φ ψ ψ where
  step it s := by
    show (if sync = true then CPSO.stepSync P' else CPSO.stepAsync P') it _ =
      Except.map _ ((if sync = true then CPSO.stepSync P else CPSO.stepAsync P) it s)
    cases sync
    · exact h.stepAsync it s
    · exact h.stepSync it s
  post it s := h.post it s
  cbX _ := rfl
  best _ := rfl
  bestFun _ := rfl
  rec0X _ := rfl
  rec0Best _ := rfl
  recX _ := rfl
  pfit _ := rfl

theorem CPSO.Same.run (h : CPSO.Same p φ ψ χ P P') (sync : Bool) (c : Cfg) (fuel : Nat) (x0 : Option (Pop K p n)) (g : σ)
    (hl : x0 = none → ∀ g, lhs P'.R p P'.lower P'.upper g =
      (fun i => ψ ((lhs P.R p P.lower P.upper g).1 i), (lhs P.R p P.lower P.upper g).2)) :
    CPSO.cpso P' sync c fuel (x0.map fun x i => ψ (x i)) g = (CPSO.cpso P sync c fuel x0 g).map (Output.map φ ψ ψ) := by
  unfold CPSO.cpso
  simp only [map_bind_ex]
  have hi : CPSO.init P' (x0.map fun x i => ψ (x i)) g = (CPSO.init P x0 g).map (CPSO.State.map φ ψ χ) := by
    unfold CPSO.init
    simp only [map_bind_ex]
    cases x0 with
    | none =>
      have hl := hl rfl
      simp only [Option.map_none, hl, h.prob.pop, h.prob.rising.argmin]
      congr 1
      funext idx
      show Except.ok _ = Except.ok _
      congr 1
      show CPSO.State.mk _ _ _ _ _ _ _ _ _ _ _ = CPSO.State.mk _ _ _ _ _ _ _ _ _ _ _
      congr 1
      · exact funext fun _ => h.zero.symm
      · rw [List.map_ofFn]; rfl
    | some x =>
      simp only [Option.map_some, h.prob.pop, h.prob.rising.argmin]
      congr 1
      funext idx
      show Except.ok _ = Except.ok _
      congr 1
      show CPSO.State.mk _ _ _ _ _ _ _ _ _ _ _ = CPSO.State.mk _ _ _ _ _ _ _ _ _ _ _
      congr 1
      · exact funext fun _ => h.zero.symm
      · rw [List.map_ofFn]; rfl
  rw [hi, bind_map_ex]
  congr 1
  funext s0
  rw [(h.sim sync).run h.prob.rising, bind_map_ex]
  rfl

end CPSO

section NA
open NA

def NA.State.map (φ : Val K → Val K) (ψ : Vec K n → Vec K n) (s : NA.State σ K p n) : NA.State σ K p n :=
  { X := s.X, pbest := s.pbest, gbest := s.gbest, pbestfit := fun i => φ (s.pbestfit i), gfit := φ s.gfit,
    pfit := fun i => φ (s.pfit i), All := s.All.map fun q => (q.1, φ q.2), caller := s.caller.map fun x i => ψ (x i),
    evals := s.evals.map ψ, rng := s.rng }

/-- Two parameter sets of `na` that differ by a change of values and of user coordinates. -/
structure NA.Same (p : Nat) (φ : Val K → Val K) (ψ : Vec K n → Vec K n) (P P' : NA.Par σ K n) : Prop where
  prob : SameObj φ ψ P.obj P'.obj P.ftol P'.ftol
  xtol : P'.xtol = P.xtol
  maxiter : P'.maxiter = P.maxiter
  nr : P'.nr = P.nr
  R : P'.R = P.R
  srt : P'.argsort = P.argsort
  comp : ∀ m (v : Fin m → Val K), P.argsort m (fun i => φ (v i)) = P.argsort m v
  mask : spanMask P'.lower P'.upper = spanMask P.lower P.upper
  unnorm : ∀ x, unnormalize P'.lower P'.upper x = ψ (unnormalize P.lower P.upper x)
  norm : ∀ x, normalize P'.lower P'.upper (ψ x) = normalize P.lower P.upper x
  lhs : ∀ g, lhs P'.R p P'.lower P'.upper g = (fun i => ψ ((lhs P.R p P.lower P.upper g).1 i), (lhs P.R p P.lower P.upper g).2)

variable {P P' : NA.Par σ K n}

theorem NA.Same.objN (h : NA.Same p φ ψ P P') :
    SameProblem φ (fun x => x) P.objN P'.objN P.xtol P'.xtol P.ftol P'.ftol where
  rising := h.prob.rising
  pop X := by
    show P'.obj.pop (fun i => unnormalize P'.lower P'.upper (X i)) = _
    simp only [h.unnorm]
    exact h.prob.pop _
  one x := by
    show P'.obj.one (unnormalize P'.lower P'.upper x) = _
    rw [h.unnorm]
    exact h.prob.one _
  dist a b := by rw [h.xtol]
  ftol := h.prob.ftol

theorem NA.Same.mutRow (h : NA.Same p φ ψ P P') (All : List (Vec K n × Val K)) (i : Fin p) (g : σ) :
    mutRow P'.R P'.argsort (spanMask P'.lower P'.upper) (All.map fun q => (q.1, φ q.2)) P'.nr i g =
      mutRow P.R P.argsort (spanMask P.lower P.upper) All P.nr i g := by
  rw [h.mask, h.R, h.srt, h.nr]
  unfold NA.mutRow
  have e : (All.map fun q => (q.1, φ q.2)).map Prod.fst = All.map Prod.fst := by rw [List.map_map]; rfl
  have key : ∀ (L : List (Vec K n)) (hL : L = All.map Prod.fst) (v : Fin L.length → Val K)
      (hv : ∀ k : Fin L.length, v k = φ (All.get (k.cast (by simp [hL]))).2),
      (if h : i.val % P.nr < L.length then
        (Except.ok ((walk P.R (spanMask P.lower P.upper) L (P.argsort _ v ⟨i.val % P.nr, h⟩) g).x,
          (walk P.R (spanMask P.lower P.upper) L (P.argsort _ v ⟨i.val % P.nr, h⟩) g).rng) : Except PyErr (Vec K n × σ))
      else .error .indexError) =
      (if h : i.val % P.nr < (All.map Prod.fst).length then
        let v : Fin (All.map Prod.fst).length → Val K := fun k => (All.get (k.cast (by simp))).2
        let w := walk P.R (spanMask P.lower P.upper) (All.map Prod.fst) (P.argsort _ v ⟨i.val % P.nr, h⟩) g
        .ok (w.x, w.rng)
      else .error .indexError) := by
    intro L hL v hv
    subst hL
    have hv' : v = fun k => φ ((fun k : Fin (All.map Prod.fst).length => (All.get (k.cast (by simp))).2) k) := funext hv
    subst hv'
    simp only [h.comp]
  refine key _ e _ fun k => ?_
  simp

theorem seqFinS_congr {ε α τ : Type} {p : Nat} {f f' : Fin p → τ → Except ε (α × τ)} (h : ∀ i g, f' i g = f i g) (g : τ) :
    seqFinS f' g = seqFinS f g := by
  rw [show f' = f from funext fun i => funext fun g => h i g]

theorem NA.Same.step (h : NA.Same p φ ψ P P') (it : Nat) (s : NA.State σ K p n) :
    NA.step P' it (s.map φ ψ) = (NA.step P it s).map fun r => (r.1.map φ ψ, r.2) := by
  unfold NA.step
  simp only [map_bind_ex]
  have e : NA.mutation P'.R P'.argsort (spanMask P'.lower P'.upper) (s.map φ ψ).All p P'.nr (s.map φ ψ).rng =
      NA.mutation P.R P.argsort (spanMask P.lower P.upper) s.All p P.nr s.rng :=
    seqFinS_congr (fun i g => h.mutRow s.All i g) _
  rw [e]
  congr 1
  funext X
  dsimp only [NA.State.map]
  rw [selectionSync_map (ψ := fun x => x) h.objN, bind_map_ex, h.maxiter]
  congr 1
  funext r
  show Except.ok _ = Except.ok _
  congr 1
  refine Prod.ext ?_ rfl
  show NA.State.mk _ _ _ _ _ _ _ _ _ _ = NA.State.mk _ _ _ _ _ _ _ _ _ _
  congr 1
  · rw [List.map_append, List.map_ofFn]; rfl
  · simp only [h.unnorm, List.map_append, List.map_ofFn]; rfl

theorem NA.Same.sim (h : NA.Same p φ ψ P P') :
    (NA.alg P : Alg (NA.State σ K p n) K p n).Sim (NA.alg P') (NA.State.map φ ψ) φ (fun x => x) ψ where
  step it s := h.step it s
  post _ _ := rfl
  cbX s := funext fun i => h.unnorm _
  best s := h.unnorm _
  bestFun _ := rfl
  rec0X _ := rfl
  rec0Best _ := rfl
  recX _ := funext fun i => h.unnorm _
  pfit _ := rfl

theorem NA.Same.run (h : NA.Same p φ ψ P P') (c : Cfg) (fuel : Nat) (x0 : Option (Pop K p n)) (g : σ) :
    NA.na P' c fuel (x0.map fun x i => ψ (x i)) g = (NA.na P c fuel x0 g).map (Output.map φ (fun x => x) ψ) := by
  unfold NA.na
  simp only [map_bind_ex]
  have hpop : ∀ X : Pop K p n, P'.objN.pop X = fun i => φ (P.objN.pop X i) := fun X => h.objN.pop X
  have hi : NA.init P' (x0.map fun x i => ψ (x i)) g = (NA.init P x0 g).map (NA.State.map φ ψ) := by
    unfold NA.init
    simp only [map_bind_ex]
    cases x0 with
    | none =>
      simp only [Option.map_none, h.lhs, h.norm, hpop, h.prob.rising.argmin]
      congr 1
      funext idx
      show Except.ok _ = Except.ok _
      congr 1
      show NA.State.mk _ _ _ _ _ _ _ _ _ _ = NA.State.mk _ _ _ _ _ _ _ _ _ _
      congr 1
      · rw [List.map_ofFn]; rfl
      · simp only [h.unnorm, List.map_ofFn]; rfl
    | some x =>
      simp only [Option.map_some, h.norm, hpop, h.prob.rising.argmin]
      congr 1
      funext idx
      show Except.ok _ = Except.ok _
      congr 1
      show NA.State.mk _ _ _ _ _ _ _ _ _ _ = NA.State.mk _ _ _ _ _ _ _ _ _ _
      congr 1
      · rw [List.map_ofFn]; rfl
      · simp only [h.unnorm, List.map_ofFn]; rfl
  rw [hi, bind_map_ex]
  congr 1
  funext s0
  rw [h.sim.run h.prob.rising, bind_map_ex]
  rfl

end NA

end Stochopy
