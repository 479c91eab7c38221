import Verif.Lemmas.Prefix
import Verif.Lemmas.SymmetryArgs

/-! `de`, `cpso` and `na` with other stopping and reporting options. -/

set_option linter.unusedSectionVars false

namespace Stochopy
variable {K σ : Type} [AddZeroClass K] [One K] [Sub K] [Mul K] [Div K] [Neg K] [NatCast K] [IntCast K] [Pow K ℕ] [ArrayOps K] [LinearOrder K] {p n : Nat}

theorem foldlM_fst {S τ β : Type} {f f' : S × τ → β → Except PyErr (S × τ)}
    (h : ∀ s t t' b, (f' (s, t') b).map Prod.fst = (f (s, t) b).map Prod.fst) (l : List β) :
    ∀ s t t', (l.foldlM f' (s, t')).map Prod.fst = (l.foldlM f (s, t)).map Prod.fst := by
  induction l with
  | nil => intro s t t'; rfl
  | cons b l ih =>
    intro s t t'
    rw [List.foldlM_cons, List.foldlM_cons, map_bind_ex, map_bind_ex]
    have e := h s t t' b
    cases h1 : f (s, t) b with
    | error e1 =>
      rw [h1] at e
      cases h2 : f' (s, t') b with
      | error e2 => rw [h2] at e; cases e; rfl
      | ok r => rw [h2] at e; cases e
    | ok r1 =>
      rw [h1] at e
      cases h2 : f' (s, t') b with
      | error e2 => rw [h2] at e; cases e
      | ok r2 =>
        rw [h2] at e
        have e : r2.1 = r1.1 := Except.ok.inj e
        show (l.foldlM f' (r2.1, r2.2)).map Prod.fst = (l.foldlM f (r1.1, r1.2)).map Prod.fst
        rw [e]
        exact ih _ _ _

theorem foldl_fst {S τ β : Type} {f f' : S × τ → β → S × τ} (h : ∀ s t t' b, (f' (s, t') b).1 = (f (s, t) b).1) (l : List β) :
    ∀ s t t', (l.foldl f' (s, t')).1 = (l.foldl f (s, t)).1 := by
  induction l with
  | nil => intro s t t'; rfl
  | cons b l ih =>
    intro s t t'
    show (l.foldl f' ((f' (s, t') b).1, (f' (s, t') b).2)).1 = (l.foldl f ((f (s, t) b).1, (f (s, t) b).2)).1
    rw [h s t t' b]
    exact ih _ _ _

/-- Only the status of a selection depends on the tolerances. -/
theorem selectionAsync_tol (candi xbest : Vec K n) (xbestfun : Val K) (x : Pop K p n) (xfun : Fin p → Val K) (obj : Obj K n) (i : Fin p)
    (xtol xtol' : K) (ftol ftol' : Val K) :
    selectionAsync candi xbest xbestfun x xfun xtol' ftol' obj i =
      { selectionAsync candi xbest xbestfun x xfun xtol ftol obj i with
        status := (selectionAsync candi xbest xbestfun x xfun xtol' ftol' obj i).status } := by
  unfold selectionAsync
  dsimp only
  by_cases h1 : obj.one candi ≤ xfun i
  · rw [if_pos h1, if_pos h1]
    by_cases h2 : obj.one candi ≤ xbestfun
    · rw [if_pos h2, if_pos h2]
    · rw [if_neg h2, if_neg h2]
  · rw [if_neg h1, if_neg h1]

def DE.Par.stop (P : DE.Par σ K p n) (m : Int) (xtol : K) (ftol : Val K) : DE.Par σ K p n :=
  { R := P.R, F := P.F, CR := P.CR, strat := P.strat, cons := P.cons, lower := P.lower, upper := P.upper, maxiter := m, xtol := xtol,
    ftol := ftol, obj := P.obj }

theorem DE.row_stop (P : DE.Par σ K p n) (m : Int) (xtol : K) (ftol : Val K) (r1 : Fin p → Vec K n) (s : DE.State σ K p n)
    (st st' : Option Int) (i : Fin p) :
    (DE.rowAsync (P.stop m xtol ftol) r1 (s, st') i).map Prod.fst = (DE.rowAsync P r1 (s, st) i).map Prod.fst := by
  unfold DE.rowAsync
  simp only [map_bind_ex]
  show (DE.candAsync P (r1 i) i s.X s.gbest s.rng >>= _) = _
  congr 1
  funext U
  show Except.ok _ = Except.ok _
  dsimp only [DE.Par.stop]
  rw [selectionAsync_tol (xtol := P.xtol) (ftol := P.ftol)]

theorem DE.sameAlg (P : DE.Par σ K p n) (m : Int) (xtol : K) (ftol : Val K) (sync : Bool) :
    SameAlg (DE.alg P sync) (DE.alg (P.stop m xtol ftol) sync) where
  step it s := by
    cases sync with
    | true =>
      show (DE.stepSync (P.stop m xtol ftol) it s).map Prod.fst = (DE.stepSync P it s).map Prod.fst
      unfold DE.stepSync selectionSync
      simp only [map_bind_ex, bind_assoc]
      rfl
    | false =>
      show (DE.stepAsync (P.stop m xtol ftol) it s).map Prod.fst = (DE.stepAsync P it s).map Prod.fst
      unfold DE.stepAsync
      have e := foldlM_fst (DE.row_stop P m xtol ftol (drawMat P.R.rand p n s.rng).1) (List.finRange p)
        { s with rng := (drawMat P.R.rand p n s.rng).2 } none none
      simp only [map_bind_ex]
      refine Eq.trans ?_ (e.trans ?_)
      · cases hx : List.foldlM (DE.rowAsync (P.stop m xtol ftol) (drawMat P.R.rand p n s.rng).1)
            ({ s with rng := (drawMat P.R.rand p n s.rng).2 }, none) (List.finRange p) with
        | error _ => exact (congrArg (· >>= _) hx).trans rfl
        | ok _ => exact (congrArg (· >>= _) hx).trans rfl
      · cases hx : List.foldlM (DE.rowAsync P (drawMat P.R.rand p n s.rng).1)
            ({ s with rng := (drawMat P.R.rand p n s.rng).2 }, none) (List.finRange p) with
        | error _ => rfl
        | ok _ => rfl
  post := rfl
  cbX := rfl
  best := rfl
  bestFun := rfl
  rec0X := rfl
  rec0Best := rfl
  recX := rfl
  pfit := rfl

theorem foldlM_inv_ex {α β : Type} {f : α → β → Except PyErr α} {I : α → Prop} (h : ∀ a b r, I a → f a b = .ok r → I r) (l : List β) :
    ∀ a r, I a → l.foldlM f a = .ok r → I r := by
  induction l with
  | nil => intro a r ha hr; cases hr; exact ha
  | cons b l ih =>
    intro a r ha hr
    rw [List.foldlM_cons, bind_ok_iff] at hr
    obtain ⟨a', h1, hr⟩ := hr
    exact ih a' r (h _ _ _ ha h1) hr

/-- Every step of `de` only adds evaluations. -/
theorem DE.evals_step (P : DE.Par σ K p n) (sync : Bool) (it : Nat) (s : DE.State σ K p n) (r)
    (h : (DE.alg P sync).step it s = .ok r) : s.evals <+: r.1.evals := by
  cases sync with
  | true =>
    change DE.stepSync P it s = .ok r at h
    unfold DE.stepSync at h
    rw [bind_ok_iff] at h
    obtain ⟨U, -, h⟩ := h
    rw [bind_ok_iff] at h
    obtain ⟨q, -, h⟩ := h
    cases h
    exact List.prefix_append _ _
  | false =>
    change DE.stepAsync P it s = .ok r at h
    unfold DE.stepAsync at h
    rw [bind_ok_iff] at h
    obtain ⟨q, hq, h⟩ := h
    cases h
    show s.evals <+: q.1.evals
    refine foldlM_inv_ex (I := fun a : DE.State σ K p n × Option Int => s.evals <+: a.1.evals) ?_ _ _ q (List.prefix_refl _) hq
    intro a i r ha hr
    unfold DE.rowAsync at hr
    rw [bind_ok_iff] at hr
    obtain ⟨U, -, hr⟩ := hr
    cases hr
    exact ha.trans (List.prefix_append _ _)

def CPSO.Par.stop (P : CPSO.Par σ K n) (m : Int) (xtol : K) (ftol : Val K) : CPSO.Par σ K n :=
  { R := P.R, argsort := P.argsort, w := P.w, c1 := P.c1, c2 := P.c2, gamma := P.gamma, cons := P.cons, lower := P.lower,
    upper := P.upper, maxiter := m, xtol := xtol, ftol := ftol, obj := P.obj }

theorem CPSO.row_stop (P : CPSO.Par σ K n) (m : Int) (xtol : K) (ftol : Val K) (r1 r2 : Pop K p n) (s : CPSO.State σ K p n)
    (st st' : Option Int) (i : Fin p) :
    (CPSO.rowAsync (P.stop m xtol ftol) r1 r2 (s, st') i).1 = (CPSO.rowAsync P r1 r2 (s, st) i).1 := by
  unfold CPSO.rowAsync
  dsimp only [CPSO.Par.stop]
  rw [selectionAsync_tol (xtol := P.xtol) (ftol := P.ftol)]
  rfl

section
variable [IntParts K] [NumFns K]

/-- When the restarts do not depend on `maxiter`. -/
theorem CPSO.post_stop (P : CPSO.Par σ K n) {m : Int} (xtol : K) (ftol : Val K)
    (h : m = P.maxiter ∨ P.gamma = none ∨ P.gamma = some 0) :
    (CPSO.post (P.stop m xtol ftol) : Nat → CPSO.State σ K p n → CPSO.State σ K p n) = CPSO.post P := by
  funext it s
  rcases h with rfl | h | h
  · rfl
  · unfold CPSO.post CPSO.Par.stop
    simp only [h]
  · unfold CPSO.post CPSO.Par.stop
    simp only [h, if_true]

theorem CPSO.sameAlg (P : CPSO.Par σ K n) {m : Int} (xtol : K) (ftol : Val K) (sync : Bool)
    (h : m = P.maxiter ∨ P.gamma = none ∨ P.gamma = some 0) :
    SameAlg (CPSO.alg P sync : Alg (CPSO.State σ K p n) K p n) (CPSO.alg (P.stop m xtol ftol) sync) where
  step it s := by
    cases sync with
    | true =>
      show (CPSO.stepSync (P.stop m xtol ftol) it s).map Prod.fst = (CPSO.stepSync P it s).map Prod.fst
      unfold CPSO.stepSync selectionSync
      simp only [map_bind_ex, bind_assoc]
      rfl
    | false =>
      show (CPSO.stepAsync (P.stop m xtol ftol) it s).map Prod.fst = (CPSO.stepAsync P it s).map Prod.fst
      exact congrArg Except.ok (foldl_fst (CPSO.row_stop P m xtol ftol _ _) (List.finRange p) _ none none)
  post := CPSO.post_stop P xtol ftol h
  cbX := rfl
  best := rfl
  bestFun := rfl
  rec0X := rfl
  rec0Best := rfl
  recX := rfl
  pfit := rfl

theorem CPSO.evals_step (P : CPSO.Par σ K n) (sync : Bool) (it : Nat) (s : CPSO.State σ K p n) (r)
    (h : (CPSO.alg P sync).step it s = .ok r) : s.evals <+: r.1.evals := by
  cases sync with
  | true =>
    change CPSO.stepSync P it s = .ok r at h
    unfold CPSO.stepSync at h
    rw [bind_ok_iff] at h
    obtain ⟨q, -, h⟩ := h
    cases h
    exact List.prefix_append _ _
  | false =>
    change CPSO.stepAsync P it s = .ok r at h
    unfold CPSO.stepAsync at h
    cases h
    refine List.foldlRecOn (motive := fun a : CPSO.State σ K p n × Option Int => s.evals <+: a.1.evals) _ _ (List.prefix_refl _) ?_
    intro a ha i _
    exact ha.trans (List.prefix_append _ _)

theorem CPSO.evals_post (P : CPSO.Par σ K n) (it : Nat) (s : CPSO.State σ K p n) : (CPSO.post P it s).evals = s.evals := by
  unfold CPSO.post
  split
  · rfl
  · split_ifs
    · rfl
    · unfold CPSO.restart
      split_ifs <;> rfl

end

def NA.Par.stop (P : NA.Par σ K n) (m : Int) (xtol : K) (ftol : Val K) : NA.Par σ K n :=
  { R := P.R, argsort := P.argsort, nr := P.nr, lower := P.lower, upper := P.upper, maxiter := m, xtol := xtol, ftol := ftol,
    obj := P.obj }

theorem NA.sameAlg (P : NA.Par σ K n) (m : Int) (xtol : K) (ftol : Val K) :
    SameAlg (NA.alg P : Alg (NA.State σ K p n) K p n) (NA.alg (P.stop m xtol ftol)) where
  step it s := by
    show (NA.step (P.stop m xtol ftol) it s).map Prod.fst = (NA.step P it s).map Prod.fst
    unfold NA.step selectionSync
    simp only [map_bind_ex, bind_assoc]
    rfl
  post := rfl
  cbX := rfl
  best := rfl
  bestFun := rfl
  rec0X := rfl
  rec0Best := rfl
  recX := rfl
  pfit := rfl

theorem NA.evals_step (P : NA.Par σ K n) (it : Nat) (s : NA.State σ K p n) (r) (h : (NA.alg P).step it s = .ok r) :
    s.evals <+: r.1.evals := by
  change NA.step P it s = .ok r at h
  unfold NA.step at h
  rw [bind_ok_iff] at h
  obtain ⟨U, -, h⟩ := h
  rw [bind_ok_iff] at h
  obtain ⟨q, -, h⟩ := h
  cases h
  exact List.prefix_append _ _

section
variable [IntParts K] {env : Env} {R : Rng σ K} {srt : Argsort K} {fuel : Nat} {g : σ}

theorem DE.minimize_run {a : DE.Args K} (he : env.Ok) {o : Output σ K a.p a.ndim} (h : DE.minimize env R fuel a g = .ok o) :
    ∃ (fn : Vec K a.ndim → Val K) (strat : Strategy K a.p a.ndim) (cons : DE.Cons) (s0 : DE.State σ K a.p a.ndim)
      (r : Result K a.ndim) (L : Loop (DE.State σ K a.p a.ndim) K a.p a.ndim),
      a.fn = some fn ∧ DE.strategyMap a.strategy = .ok strat ∧ DE.consMap a.constraints = .ok cons ∧
      DE.init { R := R, F := a.mutation, CR := a.recombination, strat := strat, cons := cons, lower := a.lower,
                upper := a.upper, maxiter := a.maxiter, xtol := a.xtol, ftol := a.ftol, obj := plainObj fn }
        a.x0Pop (a.seeded R g) = .ok s0 ∧
      (DE.alg { R := R, F := a.mutation, CR := a.recombination, strat := strat, cons := cons, lower := a.lower,
                upper := a.upper, maxiter := a.maxiter, xtol := a.xtol, ftol := a.ftol, obj := plainObj fn } a.sync).run
        a.cfg fuel s0 = .ok (r, L) ∧ o = mkOut r L State.evals State.caller State.rng := by
  cases hfn : a.fn with
  | none => rw [DE.minimize_none hfn] at h; cases h
  | some fn =>
    rw [DE.minimize_some he hfn, bind_ok_iff] at h
    obtain ⟨strat, hv, h⟩ := h
    split_ifs at h
    rw [bind_ok_iff] at h
    obtain ⟨-, -, h⟩ := h
    rw [bind_ok_iff] at h
    obtain ⟨cons, hc, h⟩ := h
    unfold DE.de at h
    rw [bind_ok_iff] at h
    obtain ⟨s0, h0, h⟩ := h
    rw [bind_ok_iff] at h
    obtain ⟨⟨r, L⟩, h1, h⟩ := h
    cases h
    exact ⟨fn, strat, cons, s0, r, L, rfl, (DE.validate_ok hv).2.2.2.2.2.2.2.2.1, hc, h0, h1, rfl⟩

theorem NA.minimize_run {a : NA.Args K} (he : env.Ok) {o : Output σ K a.p a.ndim} (h : NA.minimize env R srt fuel a g = .ok o) :
    ∃ (fn : Vec K a.ndim → Val K) (s0 : NA.State σ K a.p a.ndim)
      (r : Result K a.ndim) (L : Loop (NA.State σ K a.p a.ndim) K a.p a.ndim),
      a.fn = some fn ∧
      NA.init { R := R, argsort := srt, nr := a.nr, lower := a.lower, upper := a.upper, maxiter := a.maxiter,
                xtol := a.xtol, ftol := a.ftol, obj := plainObj fn } a.x0Pop (a.seeded R g) = .ok s0 ∧
      (NA.alg { R := R, argsort := srt, nr := a.nr, lower := a.lower, upper := a.upper, maxiter := a.maxiter,
                xtol := a.xtol, ftol := a.ftol, obj := plainObj fn }).run
        a.cfg fuel s0 = .ok (r, L) ∧ o = mkOut r L State.evals State.caller State.rng := by
  cases hfn : a.fn with
  | none => rw [NA.minimize_none hfn] at h; cases h
  | some fn =>
    rw [NA.minimize_some he hfn, bind_ok_iff] at h
    obtain ⟨-, -, h⟩ := h
    split_ifs at h
    rw [bind_ok_iff] at h
    obtain ⟨-, -, h⟩ := h
    unfold NA.na at h
    rw [bind_ok_iff] at h
    obtain ⟨s0, h0, h⟩ := h
    rw [bind_ok_iff] at h
    obtain ⟨⟨r, L⟩, h1, h⟩ := h
    cases h
    exact ⟨fn, s0, r, L, rfl, h0, h1, rfl⟩

theorem CPSO.minimize_run [NumFns K] {a : CPSO.Args K} (he : env.Ok) {o : Output σ K a.p a.ndim}
    (h : CPSO.minimize env R srt fuel a g = .ok o) :
    ∃ (fn : Vec K a.ndim → Val K) (cons : CPSO.Cons) (s0 : CPSO.State σ K a.p a.ndim)
      (r : Result K a.ndim) (L : Loop (CPSO.State σ K a.p a.ndim) K a.p a.ndim),
      a.fn = some fn ∧ CPSO.consMap a.constraints = .ok cons ∧
      CPSO.init { R := R, argsort := srt, w := a.inertia, c1 := a.cognitivity, c2 := a.sociability,
                  gamma := a.competitivity, cons := cons, lower := a.lower, upper := a.upper, maxiter := a.maxiter,
                  xtol := a.xtol, ftol := a.ftol, obj := plainObj fn } a.x0Pop (a.seeded R g) = .ok s0 ∧
      (CPSO.alg { R := R, argsort := srt, w := a.inertia, c1 := a.cognitivity, c2 := a.sociability,
                  gamma := a.competitivity, cons := cons, lower := a.lower, upper := a.upper, maxiter := a.maxiter,
                  xtol := a.xtol, ftol := a.ftol, obj := plainObj fn } a.sync).run
        a.cfg fuel s0 = .ok (r, L) ∧ o = mkOut r L State.evals State.caller State.rng := by
  cases hfn : a.fn with
  | none => rw [CPSO.minimize_none hfn] at h; cases h
  | some fn =>
    rw [CPSO.minimize_some he hfn, bind_ok_iff] at h
    obtain ⟨-, -, h⟩ := h
    split_ifs at h
    rw [bind_ok_iff] at h
    obtain ⟨-, -, h⟩ := h
    rw [bind_ok_iff] at h
    obtain ⟨cons, hc, h⟩ := h
    unfold CPSO.cpso at h
    rw [bind_ok_iff] at h
    obtain ⟨s0, h0, h⟩ := h
    rw [bind_ok_iff] at h
    obtain ⟨⟨r, L⟩, h1, h⟩ := h
    cases h
    exact ⟨fn, cons, s0, r, L, rfl, hc, h0, h1, rfl⟩

end

end Stochopy
