import Verif.Model.IntFun
import Verif.Lemmas.DE
import Verif.Lemmas.CPSO
import Verif.Lemmas.NA
import Verif.Lemmas.Evo
import Verif.Lemmas.Validation

/-! Laws of the models with typed values (`Model/IntFun.lean`). -/

set_option linter.unusedSectionVars false

namespace Stochopy

section
variable {K : Type} [AddZeroClass K] [One K] [Sub K] [Mul K] [Div K] [Neg K] [NatCast K] [IntCast K] [Pow K ℕ] [ArrayOps K] [LinearOrder K]
variable {p n : Nat} {f : Vec K n → Val K} {obj : Obj K n} {store : Val K → Val K}

theorem selectionSyncVal_eq (h : ∀ X : Pop K p n, ∀ i, store (obj.pop X i) = obj.pop X i) (it : Nat) (cand : Pop K p n) (xbest : Vec K n)
    (x : Pop K p n) (xfun : Fin p → Val K) (maxiter : Int) (xtol : K) (ftol : Val K) :
    selectionSyncVal store it cand xbest x xfun maxiter xtol ftol obj = selectionSync it cand xbest x xfun maxiter xtol ftol obj := by
  unfold selectionSyncVal selectionSync
  simp only [h]

theorem selectionAsyncVal_eq (h : ∀ x, store (obj.one x) = obj.one x) (candi xbest : Vec K n) (xbestfun : Val K) (x : Pop K p n)
    (xfun : Fin p → Val K) (xtol : K) (ftol : Val K) (i : Fin p) :
    selectionAsyncVal store candi xbest xbestfun x xfun xtol ftol obj i = selectionAsync candi xbest xbestfun x xfun xtol ftol obj i := by
  unfold selectionAsyncVal selectionAsync
  simp only [h]
  split_ifs <;> rfl

theorem selectionSyncVal_ok {it : Nat} {cand : Pop K p n} {xbest : Vec K n} {x : Pop K p n} {xfun : Fin p → Val K} {maxiter : Int}
    {xtol : K} {ftol : Val K} {r : SelSync K p n}
    (h : selectionSyncVal store it cand xbest x xfun maxiter xtol ftol obj = .ok r) :
    (∀ i, (r.x i = x i ∧ r.xfun i = xfun i) ∨ r.x i = cand i ∧ r.xfun i = store (obj.pop cand i)) ∧
    ∃ i, r.xbest = r.x i ∧ r.xbestfun = r.xfun i := by
  unfold selectionSyncVal at h
  rw [bind_ok_iff] at h
  obtain ⟨idx, -, h⟩ := h
  cases h
  refine ⟨fun i => ?_, idx, rfl, rfl⟩
  dsimp only
  split_ifs
  · exact Or.inr ⟨rfl, rfl⟩
  · exact Or.inl ⟨rfl, rfl⟩

theorem optimizer_same {α : Type} {env : Env} (he : env.Ok) {fn : Vec K n → Val K} {sync : Bool} {w : Int}
    {b : Option String} {k k' : Obj K n → Except PyErr α} (h : ∀ obj, obj.Faithful fn → k obj = k' obj) :
    optimizer env fn sync w b k = optimizer env fn sync w b k' := by
  have key : ∀ {b par}, (wrapper env fn sync b par >>= k) = (wrapper env fn sync b par >>= k') := by
    intro b par
    cases hw : wrapper env fn sync b par with
    | error e => rfl
    | ok obj => exact h obj (wrapper_faithful he hw)
  unfold optimizer
  dsimp only
  split_ifs <;> exact key

theorem optimizer_mono {α : Type} {env : Env} (he : env.Ok) {fn : Vec K n → Val K} {sync : Bool} {w : Int}
    {b : Option String} {k k' : Obj K n → Except PyErr α} {o : α} (h : ∀ obj, obj.Faithful fn → k obj = .ok o → k' obj = .ok o)
    (ho : optimizer env fn sync w b k = .ok o) : optimizer env fn sync w b k' = .ok o := by
  have key : ∀ {b par}, (wrapper env fn sync b par >>= k) = .ok o → (wrapper env fn sync b par >>= k') = .ok o := by
    intro b par
    cases hw : wrapper env fn sync b par with
    | error e => intro h; cases h
    | ok obj => exact h obj (wrapper_faithful he hw)
  unfold optimizer at ho ⊢
  dsimp only at ho ⊢
  split_ifs at ho ⊢ <;> exact key ho

/-- Integers are stored as they are. -/
theorem storeVal_eq [IntParts K] {v : Val K} (h : ∃ k, v = .fin k ∧ ((pyInt k : Int) : K) = k) (ints : Bool) : storeVal ints v = v := by
  obtain ⟨k, rfl, hk⟩ := h
  cases ints with
  | false => rfl
  | true => exact congrArg Val.fin hk

end

namespace DE
variable {K σ : Type} [AddZeroClass K] [One K] [Sub K] [Mul K] [Div K] [Neg K] [NatCast K] [IntCast K] [Pow K ℕ] [ArrayOps K] [LinearOrder K]
variable {p n : Nat} {store : Val K → Val K} {P : Par σ K p n} {f : Vec K n → Val K}

theorem algVal_eq (hobj : P.obj.Faithful f) (h : ∀ x, store (f x) = f x) (sync : Bool) : algVal store P sync = alg P sync := by
  have h1 : stepAsyncVal store P = stepAsync P := by
    funext it s
    unfold stepAsyncVal stepAsync
    have : rowAsyncVal store P = rowAsync P := by
      funext r1 acc i
      unfold rowAsyncVal rowAsync
      dsimp only
      congr 1
      funext U
      rw [selectionAsyncVal_eq (fun x => by rw [hobj.one, h])]
      have hc : (selectionAsync U.1 acc.1.gbest acc.1.gfit acc.1.X acc.1.pbestfit P.xtol P.ftol P.obj i).candfun = f U.1 :=
        (selectionAsync_cases hobj.one).1
      rw [hc, h]
    rw [this]
  have h2 : stepSyncVal store P = stepSync P := by
    funext it s
    unfold stepSyncVal stepSync
    congr 1
    funext U
    rw [selectionSyncVal_eq fun X i => by rw [hobj.pop, h]]
  unfold algVal alg
  rw [h1, h2]

variable [IntParts K] {env : Env} {R : Rng σ K} {fuel : Nat} {g : σ}

/-- If everything that may be stored is stored as it is, the types do not matter. -/
theorem minimizeVal_eq (he : env.Ok) {a : Args K} {isInt : Vec K a.ndim → Bool}
    (h : ∀ fn, a.fn = some fn → ∀ X : Pop K a.p a.ndim, ∀ x, storeVal (intValues a.backend isInt X) (fn x) = fn x) :
    minimizeVal env R fuel a isInt g = minimize env R fuel a g := by
  unfold minimizeVal minimize
  congr 1
  funext strat
  cases hfn : a.fn with
  | none => rfl
  | some fn =>
    refine optimizer_same he fun obj hobj => ?_
    congr 1
    funext _
    congr 1
    funext cons
    unfold deVal de
    congr 1
    funext s0
    rw [algVal_eq (f := fn) hobj (h fn hfn s0.X)]

theorem minimizeVal_ok (he : env.Ok) {a : Args K} {isInt : Vec K a.ndim → Bool} {o : Output σ K a.p a.ndim}
    (h : minimizeVal env R fuel a isInt g = .ok o) :
    ∃ (fn : Vec K a.ndim → Val K) (P : Par σ K a.p a.ndim) (s0 : State σ K a.p a.ndim)
      (r : Result K a.ndim) (L : Loop (State σ K a.p a.ndim) K a.p a.ndim),
      a.fn = some fn ∧ P.obj.Faithful fn ∧ init P a.x0Pop (a.seeded R g) = .ok s0 ∧
      (algVal (storeVal (intValues a.backend isInt s0.X)) P a.sync).run a.cfg fuel s0 = .ok (r, L) ∧
      o = mkOut r L State.evals State.caller State.rng := by
  unfold minimizeVal at h
  rw [bind_ok_iff] at h
  obtain ⟨strat, -, h⟩ := h
  cases hfn : a.fn with
  | none => rw [hfn] at h; simp at h
  | some fn =>
    rw [hfn] at h
    dsimp only at h
    obtain ⟨obj, hobj, h⟩ := optimizer_ok he h
    rw [bind_ok_iff] at h
    obtain ⟨_, -, h⟩ := h
    rw [bind_ok_iff] at h
    obtain ⟨cons, -, h⟩ := h
    unfold deVal at h
    rw [bind_ok_iff] at h
    obtain ⟨s0, hs0, h⟩ := h
    rw [bind_ok_iff] at h
    obtain ⟨⟨r, L⟩, hrun, h⟩ := h
    cases h
    exact ⟨fn, _, s0, r, L, rfl, hobj, hs0, hrun, rfl⟩

theorem stepAsyncVal_best (hobj : P.obj.Faithful f) {it : Nat} {s s' : State σ K p n} {st : Option Int}
    (hI : s.gfit = f s.gbest ∧ s.gbest ∈ s.evals) (h : stepAsyncVal store P it s = .ok (s', st)) :
    s'.gfit = f s'.gbest ∧ s'.gbest ∈ s'.evals := by
  unfold stepAsyncVal at h
  rw [bind_ok_iff] at h
  obtain ⟨r, hr, h⟩ := h
  cases h
  refine foldlM_inv (fun acc : State σ K p n × Option Int => acc.1.gfit = f acc.1.gbest ∧ acc.1.gbest ∈ acc.1.evals) ?_ _ ?_ hr
  · intro b i b' hb h
    unfold rowAsyncVal at h
    rw [bind_ok_iff] at h
    obtain ⟨U, -, h⟩ := h
    cases h
    have hc := (selectionAsync_cases (candi := U.1) (xbest := b.1.gbest) (gfit := b.1.gfit) (x := b.1.X) (xfun := b.1.pbestfit)
      (xtol := P.xtol) (ftol := P.ftol) (i := i) hobj.one).2
    unfold selectionAsyncVal
    dsimp only
    rcases hc with ⟨-, -, -, ⟨-, h1, h2, -⟩ | ⟨-, h1, h2, -⟩⟩ | ⟨-, -, -, h1, h2, -⟩
    · rw [h1, h2]; exact ⟨rfl, by simp⟩
    · rw [h1, h2]; exact ⟨hb.1, List.mem_append_left _ hb.2⟩
    · rw [h1, h2]; exact ⟨hb.1, List.mem_append_left _ hb.2⟩
  · exact hI

theorem stepSyncVal_near (hobj : P.obj.Faithful f) {it : Nat} {s s' : State σ K p n} {st : Option Int}
    (hI : (∀ i, s.X i ∈ s.evals ∧ (s.pbestfit i = f (s.X i) ∨ s.pbestfit i = store (f (s.X i)))) ∧
      s.gbest ∈ s.evals ∧ (s.gfit = f s.gbest ∨ s.gfit = store (f s.gbest)))
    (h : stepSyncVal store P it s = .ok (s', st)) :
    (∀ i, s'.X i ∈ s'.evals ∧ (s'.pbestfit i = f (s'.X i) ∨ s'.pbestfit i = store (f (s'.X i)))) ∧
      s'.gbest ∈ s'.evals ∧ (s'.gfit = f s'.gbest ∨ s'.gfit = store (f s'.gbest)) := by
  unfold stepSyncVal at h
  rw [bind_ok_iff] at h
  obtain ⟨U, -, h⟩ := h
  rw [bind_ok_iff] at h
  obtain ⟨r, hr, h⟩ := h
  cases h
  obtain ⟨h1, i0, h2, h3⟩ := selectionSyncVal_ok hr
  refine (fun h4 => ⟨h4, by dsimp only; rw [h2, h3]; exact h4 i0⟩) ?_
  intro i
  dsimp only
  rcases h1 i with ⟨hx, hv⟩ | ⟨hx, hv⟩
  · rw [hx, hv]; exact ⟨List.mem_append_left _ (hI.1 i).1, (hI.1 i).2⟩
  · rw [hx, hv, hobj.pop]; exact ⟨List.mem_append_right _ (List.mem_ofFn.2 ⟨i, rfl⟩), Or.inr rfl⟩

end DE

namespace CPSO
variable {K σ : Type} [AddZeroClass K] [One K] [Sub K] [Mul K] [Div K] [Neg K] [NatCast K] [IntCast K] [Pow K ℕ] [ArrayOps K] [LinearOrder K]
variable [IntParts K] [NumFns K]
variable {p n : Nat} {store : Val K → Val K} {reset : Val K} {P : Par σ K n} {f : Vec K n → Val K}

theorem algVal_eq (hobj : P.obj.Faithful f) (h : ∀ x, store (f x) = f x) (hr : reset = resetFit ∨ P.gamma = none ∨ P.gamma = some 0)
    (sync : Bool) : algVal (p := p) store reset P sync = alg P sync := by
  have h1 : stepAsyncVal (p := p) store P = stepAsync P := by
    funext it s
    unfold stepAsyncVal stepAsync
    have : rowAsyncVal (p := p) store P = rowAsync P := by
      funext r1 r2 acc i
      unfold rowAsyncVal rowAsync
      dsimp only
      rw [selectionAsyncVal_eq (fun x => by rw [hobj.one, h])]
      have hc := (selectionAsync_cases (candi := (mutation P (acc.1.X i) (acc.1.V i) (acc.1.pbest i) acc.1.gbest (r1 i) (r2 i)).1)
        (xbest := acc.1.gbest) (gfit := acc.1.gfit) (x := acc.1.pbest) (xfun := acc.1.pbestfit)
        (xtol := P.xtol) (ftol := P.ftol) (i := i) hobj.one).1
      rw [hc, h]
    rw [this]
  have h2 : stepSyncVal (p := p) store P = stepSync P := by
    funext it s
    unfold stepSyncVal stepSync
    dsimp only
    rw [selectionSyncVal_eq fun X i => by rw [hobj.pop, h]]
  have h3 : postVal (p := p) reset P = post P := by
    funext it s
    unfold postVal post
    rcases hr with rfl | hr | hr
    · rfl
    · rw [hr]
    · rw [hr]; simp
  unfold algVal alg
  rw [h1, h2, h3]

variable {env : Env} {R : Rng σ K} {srt : Argsort K} {fuel : Nat} {g : σ} {big : Int}

theorem minimizeVal_eq (he : env.Ok) {a : Args K} {isInt : Vec K a.ndim → Bool}
    (h : ∀ fn, a.fn = some fn → ∀ X : Pop K a.p a.ndim, ∀ x, storeVal (intValues a.backend isInt X) (fn x) = fn x)
    (hr : (∀ X : Pop K a.p a.ndim, intValues a.backend isInt X = false) ∨ a.competitivity = none ∨ a.competitivity = some 0) :
    minimizeVal env R srt fuel big a isInt g = minimize env R srt fuel a g := by
  unfold minimizeVal minimize
  congr 1
  funext _
  cases hfn : a.fn with
  | none => rfl
  | some fn =>
    refine optimizer_same he fun obj hobj => ?_
    congr 1
    funext _
    congr 1
    funext cons
    unfold cpsoVal cpso
    congr 1
    funext s0
    rw [algVal_eq (f := fn) hobj (h fn hfn s0.X)]
    rcases hr with hr | hr
    · exact Or.inl (by rw [hr, if_neg (by simp)])
    · exact Or.inr hr

theorem minimizeVal_ok (he : env.Ok) {a : Args K} {isInt : Vec K a.ndim → Bool} {o : Output σ K a.p a.ndim}
    (h : minimizeVal env R srt fuel big a isInt g = .ok o) :
    ∃ (fn : Vec K a.ndim → Val K) (P : Par σ K a.ndim) (s0 : State σ K a.p a.ndim) (reset : Val K)
      (r : Result K a.ndim) (L : Loop (State σ K a.p a.ndim) K a.p a.ndim),
      a.fn = some fn ∧ P.obj.Faithful fn ∧ P.gamma = a.competitivity ∧ init P a.x0Pop (a.seeded R g) = .ok s0 ∧
      (algVal (storeVal (intValues a.backend isInt s0.X)) reset P a.sync).run a.cfg fuel s0 = .ok (r, L) ∧
      o = mkOut r L State.evals State.caller State.rng := by
  unfold minimizeVal at h
  rw [bind_ok_iff] at h
  obtain ⟨_, -, h⟩ := h
  cases hfn : a.fn with
  | none => rw [hfn] at h; simp at h
  | some fn =>
    rw [hfn] at h
    dsimp only at h
    obtain ⟨obj, hobj, h⟩ := optimizer_ok he h
    rw [bind_ok_iff] at h
    obtain ⟨_, -, h⟩ := h
    rw [bind_ok_iff] at h
    obtain ⟨cons, -, h⟩ := h
    unfold cpsoVal at h
    rw [bind_ok_iff] at h
    obtain ⟨s0, hs0, h⟩ := h
    rw [bind_ok_iff] at h
    obtain ⟨⟨r, L⟩, hrun, h⟩ := h
    cases h
    exact ⟨fn, _, s0, _, r, L, rfl, hobj, rfl, hs0, hrun, rfl⟩

theorem stepAsyncVal_best (hobj : P.obj.Faithful f) {it : Nat} {s s' : State σ K p n} {st : Option Int}
    (hI : s.gfit = f s.gbest ∧ s.gbest ∈ s.evals) (h : stepAsyncVal store P it s = .ok (s', st)) :
    s'.gfit = f s'.gbest ∧ s'.gbest ∈ s'.evals := by
  unfold stepAsyncVal at h
  cases h
  refine foldl_inv (fun acc : State σ K p n × Option Int => acc.1.gfit = f acc.1.gbest ∧ acc.1.gbest ∈ acc.1.evals) ?_ _ hI
  intro b i hb
  unfold rowAsyncVal
  dsimp only
  have hc := (selectionAsync_cases (candi := (mutation P (b.1.X i) (b.1.V i) (b.1.pbest i) b.1.gbest ((drawMat P.R.rand p n s.rng).1 i)
        ((drawMat P.R.rand p n (drawMat P.R.rand p n s.rng).2).1 i)).1) (xbest := b.1.gbest) (gfit := b.1.gfit) (x := b.1.pbest)
      (xfun := b.1.pbestfit) (xtol := P.xtol) (ftol := P.ftol) (i := i) hobj.one).2
  unfold selectionAsyncVal
  dsimp only
  rcases hc with ⟨-, -, -, ⟨-, h1, h2, -⟩ | ⟨-, h1, h2, -⟩⟩ | ⟨-, -, -, h1, h2, -⟩
  · rw [h1, h2]; exact ⟨rfl, by simp⟩
  · rw [h1, h2]; exact ⟨hb.1, List.mem_append_left _ hb.2⟩
  · rw [h1, h2]; exact ⟨hb.1, List.mem_append_left _ hb.2⟩

theorem postVal_same (it : Nat) (s : State σ K p n) :
    (postVal reset P it s).gfit = s.gfit ∧ (postVal reset P it s).gbest = s.gbest ∧ (postVal reset P it s).evals = s.evals := by
  unfold postVal
  split
  · exact ⟨rfl, rfl, rfl⟩
  · split_ifs
    · exact ⟨rfl, rfl, rfl⟩
    · unfold restartVal
      split_ifs <;> exact ⟨rfl, rfl, rfl⟩

theorem stepSyncVal_near (hobj : P.obj.Faithful f) {it : Nat} {s s' : State σ K p n} {st : Option Int}
    (hI : (∀ i, s.pbest i ∈ s.evals ∧ (s.pbestfit i = f (s.pbest i) ∨ s.pbestfit i = store (f (s.pbest i)))) ∧
      s.gbest ∈ s.evals ∧ (s.gfit = f s.gbest ∨ s.gfit = store (f s.gbest)))
    (h : stepSyncVal store P it s = .ok (s', st)) :
    (∀ i, s'.pbest i ∈ s'.evals ∧ (s'.pbestfit i = f (s'.pbest i) ∨ s'.pbestfit i = store (f (s'.pbest i)))) ∧
      s'.gbest ∈ s'.evals ∧ (s'.gfit = f s'.gbest ∨ s'.gfit = store (f s'.gbest)) := by
  unfold stepSyncVal at h
  rw [bind_ok_iff] at h
  obtain ⟨r, hr, h⟩ := h
  cases h
  obtain ⟨h1, i0, h2, h3⟩ := selectionSyncVal_ok hr
  refine (fun h4 => ⟨h4, by dsimp only; rw [h2, h3]; exact h4 i0⟩) ?_
  intro i
  dsimp only
  rcases h1 i with ⟨hx, hv⟩ | ⟨hx, hv⟩
  · rw [hx, hv]; exact ⟨List.mem_append_left _ (hI.1 i).1, (hI.1 i).2⟩
  · rw [hx, hv, hobj.pop]; exact ⟨List.mem_append_right _ (List.mem_ofFn.2 ⟨i, rfl⟩), Or.inr rfl⟩

end CPSO

namespace NA
variable {K σ : Type} [AddZeroClass K] [One K] [Sub K] [Mul K] [Div K] [Neg K] [NatCast K] [IntCast K] [Pow K ℕ] [ArrayOps K] [LinearOrder K]
variable {p n : Nat} {store : Val K → Val K} {P : Par σ K n} {f : Vec K n → Val K}

theorem algVal_eq (hobj : P.obj.Faithful f) (h : ∀ x, store (f x) = f x) : algVal (p := p) store P = alg P := by
  have h2 : stepVal (p := p) store P = step P := by
    funext it s
    unfold stepVal step
    congr 1
    funext X
    rw [selectionSyncVal_eq fun X i => by
      show store (P.obj.pop _ i) = P.obj.pop _ i
      rw [hobj.pop, h]]
  unfold algVal alg
  rw [h2]

variable [IntParts K] {env : Env} {R : Rng σ K} {srt : Argsort K} {fuel : Nat} {g : σ}

theorem minimizeVal_eq (he : env.Ok) {a : Args K} {isInt : Vec K a.ndim → Bool}
    (h : ∀ fn, a.fn = some fn → ∀ X : Pop K a.p a.ndim, ∀ x, storeVal (intValues a.backend isInt X) (fn x) = fn x) :
    minimizeVal env R srt fuel a isInt g = minimize env R srt fuel a g := by
  unfold minimizeVal minimize
  congr 1
  funext _
  cases hfn : a.fn with
  | none => rfl
  | some fn =>
    refine optimizer_same he fun obj hobj => ?_
    congr 1
    funext _
    unfold naVal na
    congr 1
    funext s0
    rw [algVal_eq (f := fn) hobj (h fn hfn _)]

theorem minimizeVal_ok (he : env.Ok) {a : Args K} {isInt : Vec K a.ndim → Bool} {o : Output σ K a.p a.ndim}
    (h : minimizeVal env R srt fuel a isInt g = .ok o) :
    ∃ (fn : Vec K a.ndim → Val K) (P : Par σ K a.ndim) (s0 : State σ K a.p a.ndim)
      (r : Result K a.ndim) (L : Loop (State σ K a.p a.ndim) K a.p a.ndim),
      a.fn = some fn ∧ P.obj.Faithful fn ∧ init P a.x0Pop (a.seeded R g) = .ok s0 ∧
      (algVal (storeVal (intValues a.backend isInt fun i => unnormalize P.lower P.upper (s0.X i))) P).run a.cfg fuel s0 = .ok (r, L) ∧
      o = mkOut r L State.evals State.caller State.rng := by
  unfold minimizeVal at h
  rw [bind_ok_iff] at h
  obtain ⟨_, -, h⟩ := h
  cases hfn : a.fn with
  | none => rw [hfn] at h; simp at h
  | some fn =>
    rw [hfn] at h
    dsimp only at h
    obtain ⟨obj, hobj, h⟩ := optimizer_ok he h
    rw [bind_ok_iff] at h
    obtain ⟨_, -, h⟩ := h
    unfold naVal at h
    rw [bind_ok_iff] at h
    obtain ⟨s0, hs0, h⟩ := h
    rw [bind_ok_iff] at h
    obtain ⟨⟨r, L⟩, hrun, h⟩ := h
    cases h
    exact ⟨fn, _, s0, r, L, rfl, hobj, hs0, hrun, rfl⟩

/-- The point of the user behind a normalised one was evaluated, and the value is its value, as computed or as stored. -/
def Near (store : Val K → Val K) (P : Par σ K n) (f : Vec K n → Val K) (evals : List (Vec K n)) (x : Vec K n) (v : Val K) : Prop :=
  unnormalize P.lower P.upper x ∈ evals ∧
    (v = f (unnormalize P.lower P.upper x) ∨ v = store (f (unnormalize P.lower P.upper x)))

theorem stepVal_near (hobj : P.obj.Faithful f) {it : Nat} {s s' : State σ K p n} {st : Option Int}
    (hI : (∀ i, Near store P f s.evals (s.pbest i) (s.pbestfit i)) ∧ Near store P f s.evals s.gbest s.gfit)
    (h : stepVal store P it s = .ok (s', st)) :
    (∀ i, Near store P f s'.evals (s'.pbest i) (s'.pbestfit i)) ∧ Near store P f s'.evals s'.gbest s'.gfit := by
  unfold stepVal at h
  rw [bind_ok_iff] at h
  obtain ⟨U, -, h⟩ := h
  rw [bind_ok_iff] at h
  obtain ⟨r, hr, h⟩ := h
  cases h
  obtain ⟨h1, i0, h2, h3⟩ := selectionSyncVal_ok hr
  refine (fun h4 => ⟨h4, by dsimp only; rw [h2, h3]; exact h4 i0⟩) ?_
  intro i
  dsimp only
  rcases h1 i with ⟨hx, hv⟩ | ⟨hx, hv⟩
  · rw [hx, hv]; exact ⟨List.mem_append_left _ (hI.1 i).1, (hI.1 i).2⟩
  · rw [hx, hv]
    refine ⟨List.mem_append_right _ (List.mem_ofFn.2 ⟨i, rfl⟩), Or.inr ?_⟩
    show store (P.obj.pop _ i) = _
    rw [hobj.pop]

end NA

namespace Evo
variable {K σ S : Type} [AddZeroClass K] [One K] [Sub K] [Mul K] [Div K] [Neg K] [NatCast K] [IntCast K] [Pow K ℕ] [ArrayOps K] [LinearOrder K]
variable [NumFns K] [IntParts K] {p n : Nat} {P : Par K n} {G : Gauss S K p n} {ints : Pop K p n → Bool} {c : Cfg}

theorem checked_sample {s : S} {a} (h : (G.checked P ints).sample s = .ok a) :
    G.sample s = .ok a ∧ ¬ (P.penalized = true ∧ ints (fun i => unstandardize P.lower P.upper (clip (a.1 i))) = true) := by
  replace h : (G.sample s >>= _) = _ := h
  rw [bind_ok_iff] at h
  obtain ⟨b, hb, h⟩ := h
  split_ifs at h with hc
  cases h
  exact ⟨hb, by simpa using hc⟩

theorem checked_body {L : St S K p n} {r} (h : body P (G.checked P ints) c L = .ok r) : body P G c L = .ok r := by
  unfold body at h ⊢
  dsimp only at h ⊢
  rw [bind_ok_iff] at h ⊢
  obtain ⟨a, h1, h⟩ := h
  exact ⟨a, (checked_sample h1).1, h⟩

theorem checked_loop : ∀ {fuel : Nat} {L : St S K p n} {r}, loop P (G.checked P ints) c fuel L = .ok r → loop P G c fuel L = .ok r := by
  intro fuel
  induction fuel with
  | zero => intro L r h; cases h
  | succ k ih =>
    intro L r h
    rw [loop, bind_ok_iff] at h ⊢
    obtain ⟨r1, h1, h⟩ := h
    refine ⟨r1, checked_body h1, ?_⟩
    split_ifs at h ⊢
    · exact h
    · exact ih h

theorem checked_run {rng : S → σ} {fuel : Nat} {s0 : S} {o} (h : run P (G.checked P ints) c rng fuel s0 = .ok o) :
    run P G c rng fuel s0 = .ok o := by
  unfold run at h ⊢
  split_ifs at h ⊢
  rw [bind_ok_iff] at h ⊢
  obtain ⟨r, h1, h⟩ := h
  exact ⟨r, checked_loop h1, h⟩

/-- A run that returns has evaluated a population of floats. -/
theorem checked_ints {rng : S → σ} {fuel : Nat} {s0 : S} {o} (h : run P (G.checked P ints) c rng fuel s0 = .ok o)
    (hp : P.penalized = true) : ∃ X, ints X = false := by
  unfold run at h
  split_ifs at h
  rw [bind_ok_iff] at h
  obtain ⟨r, h1, h⟩ := h
  cases fuel with
  | zero => cases h1
  | succ k =>
    rw [loop, bind_ok_iff] at h1
    obtain ⟨r1, h2, -⟩ := h1
    unfold body at h2
    dsimp only at h2
    rw [bind_ok_iff] at h2
    obtain ⟨a, h3, -⟩ := h2
    have := (checked_sample h3).2
    exact ⟨_, by simpa [hp] using this⟩

theorem checked_none (h : P.penalized = false) : G.checked P ints = G := by
  unfold Gauss.checked
  simp only [h, Bool.false_and, Bool.false_eq_true, if_false]
  have : (fun s => G.sample s >>= fun a => Except.ok a) = G.sample := by
    funext s
    cases G.sample s <;> rfl
  rw [this]

end Evo

namespace CMAES
variable {K σ : Type} [AddZeroClass K] [One K] [Sub K] [Mul K] [Div K] [Neg K] [NatCast K] [IntCast K] [Pow K ℕ] [ArrayOps K] [LinearOrder K]
variable [NumFns K] [IntParts K] {env : Env} {R : Rng σ K} {srt : Argsort K} {eigh : Eigh K} {fuel : Nat} {g : σ}
open Evo

theorem minimizeVal_sound (he : env.Ok) {a : Evo.Args K} {isInt : Vec K a.ndim → Bool} {junk : Vec K a.ndim} {o : Output σ K a.p a.ndim}
    (h : minimizeVal env R srt eigh fuel a isInt junk g = .ok o) : minimize env R srt eigh fuel a junk g = .ok o := by
  unfold minimizeVal at h
  unfold minimize
  rw [bind_ok_iff] at h ⊢
  obtain ⟨u, h1, h⟩ := h
  refine ⟨u, h1, ?_⟩
  cases hfn : a.fn with
  | none => rw [hfn] at h; simp at h
  | some fn =>
    rw [hfn] at h
    dsimp only at h ⊢
    refine optimizer_mono he (fun obj hobj h => ?_) h
    rw [bind_ok_iff] at h ⊢
    obtain ⟨u, h1, h⟩ := h
    refine ⟨u, h1, ?_⟩
    rw [bind_ok_iff] at h ⊢
    obtain ⟨pen, h1, h⟩ := h
    refine ⟨pen, h1, ?_⟩
    rw [bind_ok_iff] at h ⊢
    obtain ⟨m, h1, h⟩ := h
    refine ⟨m, h1, ?_⟩
    split_ifs at h ⊢ with hd
    exact checked_run h

theorem minimizeVal_eq (he : env.Ok) {a : Evo.Args K} {isInt : Vec K a.ndim → Bool} {junk : Vec K a.ndim} (hc : a.constraints = none) :
    minimizeVal env R srt eigh fuel a isInt junk g = minimize env R srt eigh fuel a junk g := by
  unfold minimizeVal minimize
  congr 1
  funext _
  cases hfn : a.fn with
  | none => rfl
  | some fn =>
    refine optimizer_same he fun obj hobj => ?_
    congr 1
    funext _
    rw [hc]
    change (a.firstMean R (a.seeded R g) >>= _) = (a.firstMean R (a.seeded R g) >>= _)
    refine congrArg (fun k => a.firstMean R (a.seeded R g) >>= k) (funext fun m => ?_)
    dsimp only
    split_ifs
    · rw [checked_none (K := K) (P := a.par srt obj false) rfl]
    · rfl

theorem minimizeVal_ints (he : env.Ok) {a : Evo.Args K} {isInt : Vec K a.ndim → Bool} {junk : Vec K a.ndim} {o : Output σ K a.p a.ndim}
    (hc : a.constraints = some "Penalize") (h : minimizeVal env R srt eigh fuel a isInt junk g = .ok o) :
    ∃ X : Pop K a.p a.ndim, intValues a.backend isInt X = false := by
  unfold minimizeVal at h
  rw [bind_ok_iff] at h
  obtain ⟨u, -, h⟩ := h
  cases hfn : a.fn with
  | none => rw [hfn] at h; simp at h
  | some fn =>
    rw [hfn] at h
    dsimp only at h
    obtain ⟨obj, hobj, h⟩ := optimizer_ok he h
    rw [bind_ok_iff] at h
    obtain ⟨u, -, h⟩ := h
    rw [bind_ok_iff] at h
    obtain ⟨pen, h1, h⟩ := h
    rw [bind_ok_iff] at h
    obtain ⟨m, -, h⟩ := h
    split_ifs at h with hd
    refine checked_ints h ?_
    rw [hc] at h1
    simp [consMap] at h1
    exact h1

end CMAES

namespace VDCMA
variable {K σ : Type} [AddZeroClass K] [One K] [Sub K] [Mul K] [Div K] [Neg K] [NatCast K] [IntCast K] [Pow K ℕ] [ArrayOps K] [LinearOrder K]
variable [NumFns K] [IntParts K] {env : Env} {R : Rng σ K} {srt : Argsort K} {fuel : Nat} {g : σ}
open Evo

theorem minimizeVal_sound (he : env.Ok) {a : Evo.Args K} {isInt : Vec K a.ndim → Bool} {junk : Vec K a.ndim} {o : Output σ K a.p a.ndim}
    (h : minimizeVal env R srt fuel a isInt junk g = .ok o) : minimize env R srt fuel a junk g = .ok o := by
  unfold minimizeVal at h
  unfold minimize
  rw [bind_ok_iff] at h ⊢
  obtain ⟨u, h1, h⟩ := h
  refine ⟨u, h1, ?_⟩
  cases hfn : a.fn with
  | none => rw [hfn] at h; simp at h
  | some fn =>
    rw [hfn] at h
    dsimp only at h ⊢
    refine optimizer_mono he (fun obj hobj h => ?_) h
    rw [bind_ok_iff] at h ⊢
    obtain ⟨u, h1, h⟩ := h
    refine ⟨u, h1, ?_⟩
    rw [bind_ok_iff] at h ⊢
    obtain ⟨pen, h1, h⟩ := h
    refine ⟨pen, h1, ?_⟩
    rw [bind_ok_iff] at h ⊢
    obtain ⟨m, h1, h⟩ := h
    refine ⟨m, h1, ?_⟩
    split_ifs at h ⊢ with hd
    exact checked_run h

theorem minimizeVal_eq (he : env.Ok) {a : Evo.Args K} {isInt : Vec K a.ndim → Bool} {junk : Vec K a.ndim} (hc : a.constraints = none) :
    minimizeVal env R srt fuel a isInt junk g = minimize env R srt fuel a junk g := by
  unfold minimizeVal minimize
  congr 1
  funext _
  cases hfn : a.fn with
  | none => rfl
  | some fn =>
    refine optimizer_same he fun obj hobj => ?_
    congr 1
    funext _
    rw [hc]
    change (a.firstMean R (a.seeded R g) >>= _) = (a.firstMean R (a.seeded R g) >>= _)
    refine congrArg (fun k => a.firstMean R (a.seeded R g) >>= k) (funext fun m => ?_)
    dsimp only
    split_ifs
    · rw [checked_none (K := K) (P := a.par srt obj false) rfl]
    · rfl

theorem minimizeVal_ints (he : env.Ok) {a : Evo.Args K} {isInt : Vec K a.ndim → Bool} {junk : Vec K a.ndim} {o : Output σ K a.p a.ndim}
    (hc : a.constraints = some "Penalize") (h : minimizeVal env R srt fuel a isInt junk g = .ok o) :
    ∃ X : Pop K a.p a.ndim, intValues a.backend isInt X = false := by
  unfold minimizeVal at h
  rw [bind_ok_iff] at h
  obtain ⟨u, -, h⟩ := h
  cases hfn : a.fn with
  | none => rw [hfn] at h; simp at h
  | some fn =>
    rw [hfn] at h
    dsimp only at h
    obtain ⟨obj, hobj, h⟩ := optimizer_ok he h
    rw [bind_ok_iff] at h
    obtain ⟨u, -, h⟩ := h
    rw [bind_ok_iff] at h
    obtain ⟨pen, h1, h⟩ := h
    rw [bind_ok_iff] at h
    obtain ⟨m, -, h⟩ := h
    split_ifs at h with hd
    refine checked_ints h ?_
    rw [hc] at h1
    simp [consMap] at h1
    exact h1

end VDCMA

end Stochopy
