import Verif.Lemmas.MPI

/-! Ranks with different generators. -/

set_option linter.unusedSectionVars false

namespace Stochopy
variable {K σ S : Type} [AddZeroClass K] [One K] [Sub K] [Mul K] [Div K] [Neg K] [NatCast K] [IntCast K] [Pow K ℕ] [ArrayOps K] [LinearOrder K] {p n : Nat}

namespace Proc
variable {α β γ : Type}

theorem Same.bind {x : Except PyErr α} {y : Except PyErr α} {f f' : α → Except PyErr γ} {rel : α → α → Prop} {rel' : γ → γ → Prop}
    (h : Same rel x y) (hf : ∀ a b, rel a b → Same rel' (f a) (f' b)) : Same rel' (x >>= f) (y >>= f') := by
  cases x <;> cases y <;> simp only [Same] at h
  · exact h
  · exact hf _ _ h

/-- Both return or both raise the same exception. -/
abbrev Alike (x y : Except PyErr α) : Prop := Same (fun _ _ => True) x y

theorem Alike.bind {x y : Except PyErr α} {f f' : α → Except PyErr γ} (h : Alike x y) (hf : ∀ a b, Alike (f a) (f' b)) :
    Alike (x >>= f) (y >>= f') := by
  cases x <;> cases y <;> simp only [Same] at h
  · exact h
  · exact hf _ _

theorem alike_seqFin : ∀ {p : Nat} {f f' : Fin p → Except PyErr α}, (∀ i, Alike (f i) (f' i)) → Alike (seqFin f) (seqFin f')
  | 0, _, _, _ => trivial
  | _ + 1, f, f', h => by
    unfold seqFin
    exact (h 0).bind fun _ _ => (alike_seqFin fun i => h i.succ).bind fun _ _ => trivial

theorem alike_seqFinS {τ : Type} : ∀ {p : Nat} {f f' : Fin p → τ → Except PyErr (α × τ)} {g g' : τ},
    (∀ i g g', Alike (f i g) (f' i g')) → Alike (NA.seqFinS f g) (NA.seqFinS f' g')
  | 0, _, _, _, _, _ => trivial
  | _ + 1, f, f', g, g', h => by
    unfold NA.seqFinS
    exact (h 0 g g').bind fun a b => (alike_seqFinS (g := a.2) (g' := b.2) fun i => h i.succ).bind fun _ _ => trivial

end Proc

open Proc

/-- How the statuses of two ranks are related. -/
def StatusRel (eqx : Prop) (a b : Option Int) : Prop :=
  (a = b ∨ (a = some 0 ∨ a = some 1) ∧ (b = some 0 ∨ b = some 1)) ∧ (eqx → a = b)

/-- What a callback shows about the values. -/
def CB.vals (b : CB K p n) : Val K × Nat × Nat × Option (List (List (Val K))) := (b.fval, b.nfev, b.nit, b.funall)

/-- What a result shows about the values. -/
def Result.vals (r : Result K n) : Val K × Bool × Nat × Nat × Option (List (List (Val K))) := (r.fval, r.success, r.nfev, r.nit, r.funall)

namespace Alg
variable {A : Alg S K p n} {step : Nat → S → Proc K p n (S × Option Int)} {c : Cfg} {Ra Rp : S → S → Prop} {eqx : Prop}
  {values : Pop K p n → Fin p → Val K}

/-- Two states look alike: the same values, and the same points if `eqx`. -/
structure Looks (A : Alg S K p n) (eqx : Prop) (s t : S) : Prop where
  fval : A.bestFun t = A.bestFun s
  pfit : A.pfit t = A.pfit s
  pts : eqx → A.cbX t = A.cbX s ∧ A.best t = A.best s ∧ A.rec0X t = A.rec0X s ∧ A.rec0Best t = A.rec0Best s ∧ A.recX t = A.recX s

/-- `Rp` relates the states of the ranks at the start of an iteration and `Ra` after the selection. -/
structure Kept (values : Pop K p n → Fin p → Val K) (A : Alg S K p n) (step : Nat → S → Proc K p n (S × Option Int))
    (Ra Rp : S → S → Prop) (eqx : Prop) : Prop where
  step : ∀ it s t, Rp s t → Agree values (fun a b => Ra a.1 b.1 ∧ StatusRel eqx a.2 b.2) (step it s) (step it t)
  post : ∀ it s t, Ra s t → Rp (A.post it s) (A.post it t)
  looks : ∀ s t, Ra s t → Looks A eqx s t

/-- The frame on two ranks. -/
structure Mates (Rs : S → S → Prop) (eqx : Prop) (L M : Loop S K p n) : Prop where
  s : Rs L.s M.s
  it : M.it = L.it
  status : StatusRel eqx L.status M.status
  rowsF : M.rowsF = L.rowsF
  cbs : M.cbs.map CB.vals = L.cbs.map CB.vals
  pts : eqx → M.rowsX = L.rowsX ∧ M.cbs = L.cbs

theorem Looks.cb {s t : S} (h : Looks A eqx s t) (it : Nat) (rX rX' : List (List (Vec K n))) (rF : List (List (Val K))) :
    (A.cb c t it rX' rF).vals = (A.cb c s it rX rF).vals ∧ (eqx → rX' = rX → A.cb c t it rX' rF = A.cb c s it rX rF) := by
  constructor
  · simp only [Alg.cb, CB.vals, h.fval]
  · rintro hx rfl
    obtain ⟨h1, h2, -⟩ := h.pts hx
    simp only [Alg.cb, h.fval, h1, h2]

theorem Looks.start {s t : S} (h : Looks A eqx s t) (hs : Rp s t) : Same (Mates Rp eqx) (A.start c s) (A.start c t) := by
  have key : Same (fun a b => b.2 = a.2 ∧ (eqx → b.1 = a.1)) (A.record0 c s) (A.record0 c t) := by
    unfold record0
    rw [h.fval, h.pfit]
    split_ifs <;> first | rfl | exact ⟨rfl, fun _ => rfl⟩ | skip
    · refine ⟨rfl, fun hx => ?_⟩
      obtain ⟨-, -, h3, -⟩ := h.pts hx
      simp only [h3]
    · refine ⟨rfl, fun hx => ?_⟩
      obtain ⟨-, -, -, h4, -⟩ := h.pts hx
      simp only [h4]
  unfold Alg.start
  refine Same.bind key fun a b hab => ?_
  obtain ⟨h1, h2⟩ := h.cb (c := c) 1 a.1 b.1 a.2
  refine ⟨hs, rfl, ⟨Or.inl rfl, fun _ => rfl⟩, hab.1, ?_, fun hx => ⟨hab.2 hx, ?_⟩⟩
  · dsimp only
    rw [hab.1]
    split_ifs
    · simp only [List.map_cons, List.map_nil, h1]
    · rfl
  · dsimp only
    rw [hab.1]
    split_ifs
    · rw [h2 hx (hab.2 hx)]
    · rfl

theorem Kept.body (h : Kept values A step Ra Rp eqx) {L M : Loop S K p n} (hL : Mates Rp eqx L M) :
    Agree values (fun a b => Mates (if a.2 then Ra else Rp) eqx a.1 b.1 ∧ b.2 = a.2) (A.rankBody step c L) (A.rankBody step c M) := by
  unfold rankBody
  rw [hL.it]
  refine (h.step _ _ _ hL.s).bind fun a b hab => Agree.lift ?_
  obtain ⟨hs, hst⟩ := hab
  have hl := h.looks _ _ hs
  have hsome : b.2.isSome = a.2.isSome := by
    rcases hst.1 with e | ⟨e1 | e1, e2 | e2⟩ <;> simp [*]
  have key : Same (fun x y => y.2 = x.2 ∧ (eqx → y.1 = x.1)) (({ A with step := fun _ _ => .ok a } : Alg S K p n).record c (L.it + 1) a.1)
      (({ A with step := fun _ _ => .ok b } : Alg S K p n).record c (L.it + 1) b.1) := by
    unfold record
    dsimp only
    rw [hl.pfit]
    by_cases h1 : c.returnAll
    · rw [if_pos h1, if_pos h1]
      by_cases h2 : 0 < c.nout
      · rw [if_pos h2, if_pos h2]
        split_ifs
        · rfl
        · refine ⟨rfl, fun hx => ?_⟩
          obtain ⟨-, -, -, -, h5⟩ := hl.pts hx
          simp only [h5]
      · rw [if_neg h2, if_neg h2]
        refine Same.bind (rel := Eq) (Same.refl (rel := Eq) (fun _ => rfl) _) ?_
        rintro i _ rfl
        split_ifs
        · rfl
        · refine ⟨rfl, fun hx => ?_⟩
          obtain ⟨-, -, -, -, h5⟩ := hl.pts hx
          simp only [h5]
    · rw [if_neg h1, if_neg h1]
      exact ⟨rfl, fun _ => rfl⟩
  unfold Alg.body
  dsimp only
  rw [hL.it]
  refine Same.bind (rel := fun x y => x = a ∧ y = b) ⟨rfl, rfl⟩ fun x y hxy => ?_
  rw [hxy.1, hxy.2]
  clear x y hxy
  refine Same.bind key fun x y hxy => ?_
  obtain ⟨k1, k2⟩ := hl.cb (c := c) (L.it + 1) (L.rowsX ++ x.1) (M.rowsX ++ y.1) (L.rowsF ++ x.2)
  refine ⟨⟨?_, rfl, hst, ?_, ?_, fun hx => ⟨?_, ?_⟩⟩, hsome⟩
  · dsimp only
    rw [hsome]
    by_cases h3 : a.2.isSome = true
    · simp only [if_pos h3]
      exact hs
    · simp only [if_neg h3]
      exact h.post _ _ _ hs
  · dsimp only
    rw [hL.rowsF, hxy.1]
  · dsimp only
    split_ifs
    · rw [List.map_append, List.map_append, hL.cbs, hL.rowsF, hxy.1]
      exact congrArg (L.cbs.map CB.vals ++ [·]) k1
    · exact hL.cbs
  · dsimp only
    rw [(hL.pts hx).1, hxy.2 hx]
  · dsimp only
    split_ifs
    · rw [(hL.pts hx).2, hL.rowsF, hxy.1]
      exact congrArg (L.cbs ++ [·]) (k2 hx (by rw [(hL.pts hx).1, hxy.2 hx]))
    · exact (hL.pts hx).2

theorem Kept.loop (h : Kept values A step Ra Rp eqx) : ∀ (fuel : Nat) {L M : Loop S K p n}, Mates Rp eqx L M →
    Agree values (Mates Ra eqx) (A.rankLoop step c fuel L) (A.rankLoop step c fuel M)
  | 0, _, _, _ => .fail
  | fuel + 1, L, M, hL => by
    unfold rankLoop
    refine (h.body hL).bind fun a b hab => ?_
    obtain ⟨h1, h2⟩ := hab
    rw [h2]
    by_cases h3 : a.2 = true
    · rw [if_pos h3] at h1
      rw [if_pos h3, if_pos h3]
      exact .ret h1
    · rw [if_neg h3] at h1
      rw [if_neg h3, if_neg h3]
      exact h.loop fuel h1

theorem Kept.run (h : Kept values A step Ra Rp eqx) (fuel : Nat) {s t : S} (hl : Looks A eqx s t) (hs : Rp s t) :
    Agree values (fun a b => Mates Ra eqx a.2 b.2 ∧ b.1.vals = a.1.vals ∧ (eqx → b.1 = a.1)) (A.rankRun step c fuel s) (A.rankRun step c fuel t) := by
  unfold rankRun
  refine (Agree.lift (hl.start hs)).bind fun L M hL => (h.loop fuel hL).bind fun L M hL => ?_
  refine Agree.bind (rel := fun x y => y.vals = x.vals ∧ (eqx → y = x)) (Agree.lift ?_) fun x y hxy => .ret ⟨hL, hxy⟩
  obtain ⟨h1, h2⟩ := hL.status
  have hl := h.looks _ _ hL.s
  have hv := hl.fval
  have hp := fun hx => (hl.pts hx).2.1
  unfold finish
  rcases h1 with e | ⟨e1, e2⟩
  · rw [e]
    cases hst : M.status with
    | none => rfl
    | some st =>
      dsimp only
      cases hm : messages st with
      | none => rfl
      | some msg =>
        dsimp only
        refine ⟨?_, fun hx => ?_⟩
        · simp only [Result.vals, hv, hL.it, hL.rowsF]
        · simp only [hv, hp hx, hL.it, hL.rowsF, (hL.pts hx).1]
  · have m0 : messages 0 = some "best solution changes less than xtol" := by decide
    have m1 : messages 1 = some "best solution value is lower than ftol" := by decide
    rcases e1 with e1 | e1 <;> rcases e2 with e2 | e2 <;> rw [e1, e2] <;> dsimp only <;> simp only [m0, m1] <;>
    · refine ⟨?_, fun hx => ?_⟩
      · simp [Result.vals, hv, hL.it, hL.rowsF]
      · have := h2 hx
        rw [e1, e2] at this
        first
          | (exact absurd (Option.some.inj this) (by decide))
          | (simp only [hv, hp hx, hL.it, hL.rowsF, (hL.pts hx).1])

end Alg

theorem selectionSync_same {it : Nat} {cand cand' x x' : Pop K p n} {xbest xbest' : Vec K n} {xfun : Fin p → Val K} {maxiter : Int}
    {xtol : K} {ftol : Val K} {obj obj' : Obj K n} {eqx : Prop} (hv : obj'.pop cand' = obj.pop cand)
    (hx : eqx → xbest' = xbest ∧ cand' = cand ∧ ∀ i, ¬ obj.pop cand i < xfun i → x' i = x i) :
    Same (fun r r' => r'.xfun = r.xfun ∧ r'.candfun = r.candfun ∧ r'.xbestfun = r.xbestfun ∧ StatusRel eqx r.status r'.status ∧
        (eqx → r'.x = r.x ∧ r'.xbest = r.xbest))
      (selectionSync it cand xbest x xfun maxiter xtol ftol obj) (selectionSync it cand' xbest' x' xfun maxiter xtol ftol obj') := by
  unfold selectionSync
  dsimp only
  rw [hv]
  refine Same.bind (Same.refl (rel := Eq) (fun _ => rfl) _) ?_
  rintro i _ rfl
  have key : eqx → (fun i => if obj.pop cand i < xfun i then cand' i else x' i) = fun i => if obj.pop cand i < xfun i then cand i else x i := by
    intro h
    funext k
    obtain ⟨-, h2, h3⟩ := hx h
    by_cases hk : obj.pop cand k < xfun k
    · rw [if_pos hk, if_pos hk, h2]
    · rw [if_neg hk, if_neg hk, h3 k hk]
  refine ⟨rfl, rfl, rfl, ?_, fun h => ⟨key h, congrFun (key h) i⟩⟩
  dsimp only
  refine ⟨?_, fun h => ?_⟩
  · generalize distLe xbest (if obj.pop cand i < xfun i then cand i else x i) xtol = d1
    generalize distLe xbest' (if obj.pop cand i < xfun i then cand' i else x' i) xtol = d2
    by_cases hf : (if obj.pop cand i < xfun i then obj.pop cand i else xfun i) ≤ ftol
    · right
      simp only [hf, decide_true, Bool.and_true, if_true]
      constructor <;> split_ifs <;> simp
    · left
      simp only [hf, decide_false, Bool.and_false, if_false]
  · have := congrFun (key h) i
    simp only [this, (hx h).1]

namespace DE

theorem alike_donor (d d' : Fin (p - 1) → Fin p) (k : Nat) : Alike (donor d k) (donor d' k) := by
  unfold donor
  split_ifs <;> trivial

theorem alike_strat {name : String} {st : Strategy K p n} (h : strategyMap name = .ok st) (d d' : Fin (p - 1) → Fin p) (F : K)
    (X : Pop K p n) (gb : Vec K n) : Alike (st d F X gb) (st d' F X gb) := by
  unfold strategyMap at h
  split_ifs at h <;> cases h
  all_goals
    simp only [rand1bin, rand2bin, best1bin, best2bin]
    repeat' first
      | trivial
      | refine Alike.bind (alike_donor _ _ _) fun _ _ => ?_

theorem alike_cand {P : Par σ K p n} (h : ∀ d d' F X gb, Alike (P.strat d F X gb) (P.strat d' F X gb)) (X : Pop K p n) (gb : Vec K n)
    (g g' : σ) : Alike (candSync P X gb g) (candSync P X gb g') := by
  unfold candSync
  exact Alike.bind (alike_seqFin fun i => h _ _ _ _ _) fun _ _ => Alike.bind (Same.refl (fun _ => trivial) _) fun _ _ => trivial

/-- Equal up to the generator. -/
def Twin (s t : State σ K p n) : Prop := ∃ g, t = { s with rng := g }

theorem kept {P : Par σ K p n} (h : ∀ d d' F X gb, Alike (P.strat d F X gb) (P.strat d' F X gb)) (values : Pop K p n → Fin p → Val K) :
    (alg P true).Kept values (rankStep P) Twin Twin True where
  step := by
    rintro it s _ ⟨g, rfl⟩
    unfold rankStep
    refine (Agree.lift (alike_cand h _ _ _ _)).bind fun U U' _ => (Agree.collective _ _).bind ?_
    rintro _ _ ⟨rfl, rfl⟩
    refine (Agree.lift (selectionSync_same (eqx := True) rfl fun _ => ⟨rfl, rfl, fun _ _ => rfl⟩)).bind fun r r' hr => ?_
    obtain ⟨h1, h2, h3, h4, h5⟩ := hr
    obtain ⟨h5, h6⟩ := h5 trivial
    refine .ret ⟨⟨U'.2, ?_⟩, h4⟩
    dsimp only
    rw [h1, h2, h3, h5, h6]
  post := fun _ _ _ h => h
  looks := by
    rintro s _ ⟨g, rfl⟩
    exact ⟨rfl, rfl, fun _ => ⟨rfl, rfl, rfl, rfl, rfl⟩⟩

theorem agree_rank [IntParts K] {env : Env} {R : Rng σ K} {fuel : Nat} {a : Args K} (g g' : σ) (values : Pop K a.p a.ndim → Fin a.p → Val K) :
    Agree values (fun o o' => ∃ g, o' = { o with rng := g }) (rank env R fuel a g) (rank env R fuel a g') := by
  unfold rank
  cases hv : validate a with
  | error e => exact .fail
  | ok st =>
    have hst : ∃ name, strategyMap name = .ok st := by
      unfold validate at hv
      split_ifs at hv <;> try cases hv
      all_goals
        cases hs : (strategyMap a.strategy : Except PyErr (Strategy K a.p a.ndim)) <;> rw [hs] at hv <;> cases hv <;>
          exact ⟨_, hs⟩
    obtain ⟨name, hst⟩ := hst
    refine Agree.bind (rel := fun x y => x = st ∧ y = st) (.ret ⟨rfl, rfl⟩) fun st1 st2 h12 => ?_
    rw [h12.1, h12.2]
    cases a.fn with
    | none => exact .fail
    | some fn =>
      dsimp only
      split_ifs
      · refine (Agree.refl (rel := fun _ _ => True) (fun _ => trivial) _).bind fun _ _ _ => ?_
        refine (Agree.refl (rel := Eq) (fun _ => rfl) _).bind ?_
        rintro cons _ rfl
        refine Agree.bind (rel := Twin) ?_ fun s t hs => ?_
        · unfold rankInit
          refine (Agree.collective _ _).bind ?_
          rintro _ _ ⟨rfl, rfl⟩
          refine (Agree.refl (rel := Eq) (fun _ => rfl) _).bind ?_
          rintro i _ rfl
          cases a.x0Pop <;> exact .ret ⟨_, rfl⟩
        · have hk := kept (P :=
            { R := R, F := a.mutation, CR := a.recombination, strat := st, cons := cons, lower := a.lower,
              upper := a.upper, maxiter := a.maxiter, xtol := a.xtol, ftol := a.ftol, obj := mpiObj env fn }) (alike_strat hst) values
          refine (hk.run fuel (hk.looks _ _ hs) hs).bind fun r r' hr => .ret ?_
          obtain ⟨h1, -, h2⟩ := hr
          obtain ⟨g, h3⟩ := h1.s
          refine ⟨g, ?_⟩
          rw [h2 trivial, (h1.pts trivial).2, h3]
      · exact .fail

end DE

namespace CPSO
variable [IntParts K] [NumFns K]

/-- The ranks after the selection; velocities and generators are their own. -/
structure After (eqx : Prop) (s t : State σ K p n) : Prop where
  X : t.X = s.X
  pbestfit : t.pbestfit = s.pbestfit
  gfit : t.gfit = s.gfit
  pfit : t.pfit = s.pfit
  caller : t.caller = s.caller
  evals : t.evals = s.evals
  own : s.aliased = false ∧ t.aliased = false
  pts : eqx → t.pbest = s.pbest ∧ t.gbest = s.gbest

/-- The ranks at the start of an iteration: restarted particles are their own. -/
structure Before (rs eqx : Prop) (s t : State σ K p n) : Prop where
  pbestfit : t.pbestfit = s.pbestfit
  gfit : t.gfit = s.gfit
  pfit : t.pfit = s.pfit
  caller : t.caller = s.caller
  evals : t.evals = s.evals
  pts : eqx → t.gbest = s.gbest ∧ ∀ q, (rs ∧ s.pbestfit q = resetFit) ∨ t.pbest q = s.pbest q

theorem After.before {rs eqx : Prop} {s t : State σ K p n} (h : After eqx s t) : Before rs eqx s t :=
  ⟨h.pbestfit, h.gfit, h.pfit, h.caller, h.evals, fun hx => ⟨(h.pts hx).2, fun q => Or.inr (by rw [(h.pts hx).1])⟩⟩

theorem Before.reset {P : Par σ K n} {s t : State σ K p n} (h : After True s t) (nw : Nat) :
    Before True True (resetWorst P nw s) (resetWorst P nw t) := by
  obtain ⟨hX, h1, h2, h3, h4, h5, ⟨o1, o2⟩, h6⟩ := h
  obtain ⟨h6, h7⟩ := h6 trivial
  refine ⟨?_, h2, h3, ?_, h5, fun _ => ⟨h7, fun q => ?_⟩⟩
  · simp only [resetWorst, h1]
  · simp only [resetWorst, o1, o2, writeThrough, h4]
    rfl
  · simp only [resetWorst, h1]
    cases restartPos P.argsort s.pbestfit nw q with
    | none => exact Or.inr (by rw [h6])
    | some _ => exact Or.inl ⟨trivial, rfl⟩

theorem Before.post {P : Par σ K n} {s t : State σ K p n} (h : After True s t) (it : Nat) : Before True True (post P it s) (post P it t) := by
  unfold CPSO.post
  cases P.gamma with
  | none => exact h.before
  | some gm =>
    dsimp only
    split_ifs
    · exact h.before
    · unfold restart
      rw [h.X, (h.pts trivial).2]
      split_ifs
      · exact .reset h _
      · exact h.before
      · exact h.before

/-- `rs`: there may be restarts. -/
theorem kept {P : Par σ K n} {values : Pop K p n → Fin p → Val K} {rs eqx : Prop} (hoff : rs ∨ P.gamma = none ∨ P.gamma = some 0)
    (hon : rs → eqx ∧ ∀ x i, values x i < resetFit) : (alg P true).Kept values (rankStep P) (After eqx) (Before rs eqx) eqx where
  step := by
    intro it s t h
    unfold rankStep
    refine (Agree.collective _ _).bind ?_
    rintro _ _ ⟨rfl, rfl⟩
    dsimp only
    rw [h.pbestfit, h.evals, h.caller]
    refine (Agree.lift (selectionSync_same (eqx := eqx) (by rw [given_pop]) fun hx => ⟨(h.pts hx).1, rfl, fun i hi => ?_⟩)).bind
      fun r r' hr => ?_
    · rcases (h.pts hx).2 i with ⟨h1, h2⟩ | h1
      · rw [given_pop, h2] at hi
        exact absurd ((hon h1).2 _ _) hi
      · exact h1
    · obtain ⟨h1, h2, h3, h4, h5⟩ := hr
      exact .ret ⟨⟨rfl, h1, h3, h2, rfl, rfl, ⟨rfl, rfl⟩, h5⟩, h4⟩
  post := by
    intro it s t h
    by_cases hr : rs
    · have hx := (hon hr).1
      have e1 : rs = True := eq_true hr
      have e2 : eqx = True := eq_true hx
      subst e1 e2
      exact .post h it
    · have hp : ∀ s, (alg P true : Alg (State σ K p n) K p n).post it s = s := by
        intro s
        show post P it s = s
        unfold post
        rcases hoff with h | h | h
        · exact absurd h hr
        · rw [h]
        · rw [h]
          exact if_pos rfl
      rw [hp, hp]
      exact h.before
  looks := fun s t h => ⟨h.gfit, h.pfit, fun hx => ⟨h.X, (h.pts hx).2, h.X, (h.pts hx).2, h.X⟩⟩

/-- What two ranks return. -/
def Shown (eqx : Prop) (o o' : Output σ K p n) : Prop :=
  o'.res.vals = o.res.vals ∧ o'.cbs.map CB.vals = o.cbs.map CB.vals ∧ o'.evals = o.evals ∧ o'.x0After = o.x0After ∧
    (eqx → ∃ g, o' = { o with rng := g })

theorem agree_rank {env : Env} {R : Rng σ K} {srt : Argsort K} {fuel : Nat} {a : Args K} (g g' : σ)
    {values : Pop K a.p a.ndim → Fin a.p → Val K} {rs eqx : Prop} (hoff : rs ∨ a.competitivity = none ∨ a.competitivity = some 0)
    (hon : rs → eqx ∧ ∀ x i, values x i < resetFit) (hx0 : eqx → a.x0Pop ≠ none) :
    Agree values (Shown eqx) (rank env R srt fuel a g) (rank env R srt fuel a g') := by
  unfold rank
  refine (Agree.refl (rel := fun _ _ => True) (fun _ => trivial) _).bind fun _ _ _ => ?_
  cases a.fn with
  | none => exact .fail
  | some fn =>
    dsimp only
    split_ifs
    · refine (Agree.refl (rel := fun _ _ => True) (fun _ => trivial) _).bind fun _ _ _ => ?_
      refine (Agree.refl (rel := Eq) (fun _ => rfl) _).bind ?_
      rintro cons _ rfl
      refine Agree.bind (rel := fun s t => Before rs eqx s t ∧ (alg (p := a.p)
          { R := R, argsort := srt, w := a.inertia, c1 := a.cognitivity, c2 := a.sociability, gamma := a.competitivity,
            cons := cons, lower := a.lower, upper := a.upper, maxiter := a.maxiter, xtol := a.xtol, ftol := a.ftol,
            obj := mpiObj env fn } true).Looks eqx s t) ?_ fun s t hs => ?_
      · unfold rankInit
        refine (Agree.collective _ _).bind ?_
        rintro _ _ ⟨rfl, rfl⟩
        refine (Agree.refl (rel := Eq) (fun _ => rfl) _).bind ?_
        rintro i _ rfl
        cases hx : a.x0Pop with
        | none => exact .ret ⟨⟨rfl, rfl, rfl, rfl, rfl, fun h => absurd hx (hx0 h)⟩, rfl, rfl, fun h => absurd hx (hx0 h)⟩
        | some x => exact .ret ⟨⟨rfl, rfl, rfl, rfl, rfl, fun _ => ⟨rfl, fun _ => Or.inr rfl⟩⟩, rfl, rfl, fun _ => ⟨rfl, rfl, rfl, rfl, rfl⟩⟩
      · have hk := kept (p := a.p) (P :=
          { R := R, argsort := srt, w := a.inertia, c1 := a.cognitivity, c2 := a.sociability, gamma := a.competitivity,
            cons := cons, lower := a.lower, upper := a.upper, maxiter := a.maxiter, xtol := a.xtol, ftol := a.ftol,
            obj := mpiObj env fn }) hoff hon
        refine (hk.run fuel hs.2 hs.1).bind fun r r' hr => .ret ?_
        obtain ⟨h1, h2, h3⟩ := hr
        refine ⟨h2, h1.cbs, h1.s.evals, h1.s.caller, fun hx => ⟨r'.2.s.rng, ?_⟩⟩
        dsimp only
        rw [h3 hx, (h1.pts hx).2, h1.s.evals, h1.s.caller]
    · exact .fail

end CPSO

namespace NA
variable [IntParts K]

/-- As `Alongside` without the log of evaluations. -/
def Level (s t : State σ K p n) : Prop :=
  t.pbestfit = s.pbestfit ∧ t.gfit = s.gfit ∧ t.pfit = s.pfit ∧ t.caller = s.caller ∧ t.All.length = s.All.length

/-- The ranks at any time: only the values are common. -/
structure Alongside (s t : State σ K p n) : Prop where
  pbestfit : t.pbestfit = s.pbestfit
  gfit : t.gfit = s.gfit
  pfit : t.pfit = s.pfit
  caller : t.caller = s.caller
  evals : t.evals = s.evals
  len : t.All.length = s.All.length

theorem alike_mutation {R : Rng σ K} {srt : Argsort K} {mask : Fin n → Bool} {A B : List (Vec K n × Val K)} {nr : Nat} {g g' : σ}
    (h : B.length = A.length) : Alike (mutation R srt mask A p nr g) (mutation R srt mask B p nr g') := by
  unfold mutation
  refine alike_seqFinS fun i g g' => ?_
  unfold mutRow
  dsimp only
  simp only [List.length_map, h]
  split_ifs <;> trivial

theorem kept {P : Par σ K n} {values : Pop K p n → Fin p → Val K} : (alg P).Kept values (rankStep P) Alongside Alongside False where
  step := by
    intro it s t h
    unfold rankStep
    have hm := alike_mutation (p := p) (R := P.R) (srt := P.argsort) (mask := spanMask P.lower P.upper) (nr := P.nr) (g := s.rng) (g' := t.rng) h.len
    cases h1 : mutation P.R P.argsort (spanMask P.lower P.upper) s.All p P.nr s.rng with
    | error e =>
      cases h2 : mutation P.R P.argsort (spanMask P.lower P.upper) t.All p P.nr t.rng with
      | error e' => rw [h1, h2] at hm; simp only [Same] at hm; subst hm; exact .fail
      | ok _ => rw [h1, h2] at hm; exact absurd hm (by simp [Same])
    | ok X =>
      cases h2 : mutation P.R P.argsort (spanMask P.lower P.upper) t.All p P.nr t.rng with
      | error e' => rw [h1, h2] at hm; exact absurd hm (by simp [Same])
      | ok X' =>
        refine Agree.bind (rel := fun x y => x = X ∧ y = X') (.ret ⟨rfl, rfl⟩) fun x y hxy => ?_
        refine (Agree.collective _ _).bind ?_
        rintro _ _ ⟨rfl, rfl⟩
        refine Agree.bind (rel := fun a b => Level a.1 b.1 ∧ StatusRel False a.2 b.2) (Agree.lift ?_) fun a b hab =>
          .ret ⟨⟨hab.1.1, hab.1.2.1, hab.1.2.2.1, hab.1.2.2.2.1, by dsimp only; rw [h.evals], hab.1.2.2.2.2⟩, hab.2⟩
        unfold step
        rw [h1, h2, h.pbestfit]
        refine Same.bind (rel := fun x y => x = X ∧ y = X') ⟨rfl, rfl⟩ fun x y hxy => ?_
        refine Same.bind (selectionSync_same (eqx := False) (by simp only [Par.objN, given_pop]) fun h => h.elim) fun r r' hr => ?_
        obtain ⟨k1, k2, k3, k4, -⟩ := hr
        refine ⟨⟨k1, k3, k2, h.caller, ?_⟩, k4⟩
        simp [h.len]
  post := fun _ _ _ h => h
  looks := fun s t h => ⟨h.gfit, h.pfit, fun h => h.elim⟩

theorem agree_rank {env : Env} {R : Rng σ K} {srt : Argsort K} {fuel : Nat} {a : Args K} (g g' : σ)
    {values : Pop K a.p a.ndim → Fin a.p → Val K} : Agree values (CPSO.Shown False) (rank env R srt fuel a g) (rank env R srt fuel a g') := by
  unfold rank
  refine (Agree.refl (rel := fun _ _ => True) (fun _ => trivial) _).bind fun _ _ _ => ?_
  cases a.fn with
  | none => exact .fail
  | some fn =>
    dsimp only
    split_ifs
    · refine (Agree.refl (rel := fun _ _ => True) (fun _ => trivial) _).bind fun _ _ _ => ?_
      refine Agree.bind (rel := Alongside) ?_ fun s t hs => ?_
      · unfold rankInit
        refine (Agree.collective _ _).bind ?_
        rintro _ _ ⟨rfl, rfl⟩
        refine Agree.bind (rel := Level) (Agree.lift ?_) fun s t h => .ret ⟨h.1, h.2.1, h.2.2.1, h.2.2.2.1, rfl, h.2.2.2.2⟩
        unfold init
        simp only [Par.objN, given_pop]
        refine Same.bind (Same.refl (rel := Eq) (fun _ => rfl) _) ?_
        rintro i _ rfl
        refine ⟨rfl, rfl, rfl, rfl, ?_⟩
        simp
      · have hk := kept (p := a.p) (values := values) (P :=
          { R := R, argsort := srt, nr := a.nr, lower := a.lower, upper := a.upper, maxiter := a.maxiter,
            xtol := a.xtol, ftol := a.ftol, obj := mpiObj env fn })
        refine (hk.run fuel (hk.looks _ _ hs) hs).bind fun r r' hr => .ret ?_
        obtain ⟨h1, h2, -⟩ := hr
        exact ⟨h2, h1.cbs, h1.s.evals, h1.s.caller, fun h => h.elim⟩
    · exact .fail

end NA

end Stochopy
