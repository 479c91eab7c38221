import Verif.Model.Dtype
import Verif.Lemmas.DE
import Verif.Lemmas.CPSO
import Verif.Lemmas.Validation

/-! Laws of the models with a typed `x0` (`Model/Dtype.lean`). -/

set_option linter.unusedSectionVars false

namespace Stochopy

section
variable {K : Type} [AddZeroClass K] [One K] [Sub K] [Mul K] [Div K] [Neg K] [NatCast K] [IntCast K] [Pow K ℕ] [ArrayOps K] [LinearOrder K]
variable {p n : Nat} {f : Vec K n → Val K} {obj : Obj K n} {store : K → K}

theorem selectionAsyncAs_id (candi xbest : Vec K n) (xbestfun : Val K) (x : Pop K p n) (xfun : Fin p → Val K) (xtol : K)
    (ftol : Val K) (obj : Obj K n) (i : Fin p) :
    selectionAsyncAs id candi xbest xbestfun x xfun xtol ftol obj i = selectionAsync candi xbest xbestfun x xfun xtol ftol obj i := by
  unfold selectionAsyncAs selectionAsync
  dsimp only [id]
  split_ifs <;> rfl

/-- What `selection_sync` leaves behind: every row is the old one with its value or the stored candidate with the value of the
candidate, and the best one is a row. -/
theorem selectionSyncAs_ok {it : Nat} {cand : Pop K p n} {xbest : Vec K n} {x : Pop K p n} {xfun : Fin p → Val K} {maxiter : Int}
    {xtol : K} {ftol : Val K} {r : SelSync K p n}
    (h : selectionSyncAs store it cand xbest x xfun maxiter xtol ftol obj = .ok r) :
    (∀ i, (r.x i = x i ∧ r.xfun i = xfun i) ∨ (r.x i = fun j => store (cand i j)) ∧ r.xfun i = obj.pop cand i) ∧
    ∃ i, r.xbest = r.x i ∧ r.xbestfun = r.xfun i := by
  unfold selectionSyncAs at h
  rw [bind_ok_iff] at h
  obtain ⟨idx, -, h⟩ := h
  cases h
  refine ⟨fun i => ?_, idx, rfl, rfl⟩
  dsimp only
  split_ifs
  · exact Or.inr ⟨rfl, rfl⟩
  · exact Or.inl ⟨rfl, rfl⟩

/-- What `selection_async` leaves behind. -/
theorem selectionAsyncAs_cases (hf : ∀ y, obj.one y = f y) (candi xbest : Vec K n) (gfit : Val K) (x : Pop K p n)
    (xfun : Fin p → Val K) (xtol : K) (ftol : Val K) (i : Fin p) :
    let r := selectionAsyncAs store candi xbest gfit x xfun xtol ftol obj i
    (r.x = x ∨ r.x = Function.update x i fun j => store (candi j)) ∧
    ((r.xbest = candi ∧ r.xbestfun = f candi) ∨ (r.xbest = xbest ∧ r.xbestfun = gfit)) := by
  have hc := (selectionAsync_cases (candi := candi) (xbest := xbest) (gfit := gfit) (x := x) (xfun := xfun) (xtol := xtol)
    (ftol := ftol) (i := i) hf).2
  refine ⟨?_, ?_⟩
  · unfold selectionAsyncAs
    dsimp only
    split_ifs
    · exact Or.inr rfl
    · exact Or.inl rfl
  · rcases hc with ⟨-, -, -, ⟨-, h1, h2, -⟩ | ⟨-, h1, h2, -⟩⟩ | ⟨-, -, -, h1, h2, -⟩
    · exact Or.inl ⟨h1, h2⟩
    · exact Or.inr ⟨h1, h2⟩
    · exact Or.inr ⟨h1, h2⟩

/-- A frame whose iterations raise does not return. -/
theorem run_raises {S : Type} {A : Alg S K p n} {e : PyErr} (hA : ∀ it s, A.step it s = .error e) {c : Cfg} {fuel : Nat} {s0 : S} {r} :
    A.run c fuel s0 ≠ .ok r := by
  intro h
  obtain ⟨l, st, msg, hH, -⟩ := run_hist (r := r.1) (L := r.2) h
  cases hH with
  | next hH hn =>
    unfold Alg.next at hn
    rw [hA] at hn
    cases hn

end

namespace DE

section
variable {K σ : Type} [AddZeroClass K] [One K] [Sub K] [Mul K] [Div K] [Neg K] [NatCast K] [IntCast K] [Pow K ℕ] [ArrayOps K] [LinearOrder K]
variable {p n : Nat} {store : K → K} {P : Par σ K p n} {f : Vec K n → Val K}

theorem algAs_id (P : Par σ K p n) (sync : Bool) : algAs id P sync = alg P sync := by
  have h1 : stepAsyncAs id P = stepAsync P := by
    funext it s
    unfold stepAsyncAs stepAsync
    have : rowAsyncAs id P = rowAsync P := by
      funext r1 acc i
      unfold rowAsyncAs rowAsync
      simp only [selectionAsyncAs_id]
    rw [this]
  have h2 : stepSyncAs id P = stepSync P := rfl
  unfold algAs alg
  rw [h1, h2]

variable [IntParts K] {env : Env} {R : Rng σ K} {fuel : Nat} {g : σ}

theorem minimizeAs_id (a : Args K) : minimizeAs id env R fuel a g = minimize env R fuel a g := by
  unfold minimizeAs minimizeWith minimize
  simp only [algAs_id]
  rfl

theorem minimizeWith_ok (he : env.Ok) {a : Args K} {A} {o : Output σ K a.p a.ndim}
    (h : minimizeWith env R fuel a g A = .ok o) :
    ∃ (fn : Vec K a.ndim → Val K) (P : Par σ K a.p a.ndim) (s0 : State σ K a.p a.ndim)
      (r : Result K a.ndim) (L : Loop (State σ K a.p a.ndim) K a.p a.ndim),
      a.fn = some fn ∧ P.obj.Faithful fn ∧ init P a.x0Pop (a.seeded R g) = .ok s0 ∧
      (A P).run a.cfg fuel s0 = .ok (r, L) ∧ o = mkOut r L State.evals State.caller State.rng := by
  unfold minimizeWith at h
  rw [bind_ok_iff] at h
  obtain ⟨strat, -, h⟩ := h
  cases hfn : a.fn with
  | none => rw [hfn] at h; simp at h
  | some fn =>
    rw [hfn] at h
    dsimp only at h
    obtain ⟨obj, hobj, h⟩ := optimizer_ok he h
    rw [bind_ok_iff] at h
    obtain ⟨_, -, h⟩ := h
    rw [bind_ok_iff] at h
    obtain ⟨cons, -, h⟩ := h
    unfold deWith at h
    rw [bind_ok_iff] at h
    obtain ⟨s0, hs0, h⟩ := h
    rw [bind_ok_iff] at h
    obtain ⟨⟨r, L⟩, hrun, h⟩ := h
    cases h
    exact ⟨fn, _, s0, r, L, rfl, hobj, hs0, hrun, rfl⟩

theorem minimizeInt_ok (he : env.Ok) {a : Args K} {o : Output σ K a.p a.ndim}
    (h : minimizeInt env R fuel a g = .ok o) :
    ∃ (fn : Vec K a.ndim → Val K) (P : Par σ K a.p a.ndim) (s0 : State σ K a.p a.ndim)
      (r : Result K a.ndim) (L : Loop (State σ K a.p a.ndim) K a.p a.ndim),
      a.fn = some fn ∧ P.obj.Faithful fn ∧ init P a.x0Pop (a.seeded R g) = .ok s0 ∧
      (algAs asInt P a.sync).run a.cfg fuel s0 = .ok (r, L) ∧ o = mkOut r L State.evals State.caller State.rng := by
  unfold minimizeInt minimizeAs at h
  exact minimizeWith_ok he h

theorem minimizeList_error (he : env.Ok) {a : Args K} {o : Output σ K a.p a.ndim} : minimizeList env R fuel a g ≠ .ok o := by
  intro h
  obtain ⟨fn, P, s0, r, L, -, -, -, hrun, -⟩ := minimizeWith_ok he h
  exact run_raises (A := algList P a.sync) (fun _ _ => rfl) hrun

/-- Invariant of an immediate step: the reported value is the value of the reported point, which was evaluated. -/
theorem stepAsyncAs_best (hobj : P.obj.Faithful f) {it : Nat} {s s' : State σ K p n} {st : Option Int}
    (hI : s.gfit = f s.gbest ∧ s.gbest ∈ s.evals) (h : stepAsyncAs store P it s = .ok (s', st)) :
    s'.gfit = f s'.gbest ∧ s'.gbest ∈ s'.evals := by
  unfold stepAsyncAs at h
  rw [bind_ok_iff] at h
  obtain ⟨r, hr, h⟩ := h
  cases h
  refine foldlM_inv (fun acc : State σ K p n × Option Int => acc.1.gfit = f acc.1.gbest ∧ acc.1.gbest ∈ acc.1.evals) ?_ _ ?_ hr
  · intro b i b' hb h
    unfold rowAsyncAs at h
    rw [bind_ok_iff] at h
    obtain ⟨U, -, h⟩ := h
    cases h
    rcases (selectionAsyncAs_cases (store := store) hobj.one U.1 b.1.gbest b.1.gfit b.1.X b.1.pbestfit P.xtol P.ftol i).2 with
      ⟨h1, h2⟩ | ⟨h1, h2⟩
    · exact ⟨by dsimp only; rw [h1, h2], by dsimp only; rw [h1]; simp⟩
    · exact ⟨by dsimp only; rw [h1, h2]; exact hb.1, by dsimp only; rw [h1]; exact List.mem_append_left _ hb.2⟩
  · exact hI

/-- Whatever is stored satisfies `Q`: then so do all entries of the population. -/
theorem stepAs_grid {Q : K → Prop} (hQ : ∀ x, Q (store x)) {sync : Bool} {it : Nat} {s s' : State σ K p n} {st : Option Int}
    (hI : (∀ i j, Q (s.X i j)) ∧ (sync = true → ∀ j, Q (s.gbest j)) ∧ ∀ X, s.caller = some X → X = s.X)
    (h : (algAs store P sync).step it s = .ok (s', st)) :
    (∀ i j, Q (s'.X i j)) ∧ (sync = true → ∀ j, Q (s'.gbest j)) ∧ ∀ X, s'.caller = some X → X = s'.X := by
  cases sync with
  | true =>
    replace h : stepSyncAs store P it s = _ := h
    unfold stepSyncAs at h
    rw [bind_ok_iff] at h
    obtain ⟨U, -, h⟩ := h
    rw [bind_ok_iff] at h
    obtain ⟨r, hr, h⟩ := h
    cases h
    obtain ⟨h1, i0, h2, -⟩ := selectionSyncAs_ok hr
    have h3 : ∀ i j, Q (r.x i j) := by
      intro i j
      rcases h1 i with ⟨h, -⟩ | ⟨h, -⟩
      · rw [h]; exact hI.1 i j
      · rw [h]; exact hQ _
    refine ⟨h3, fun _ j => ?_, fun X hX => ?_⟩
    · dsimp only; rw [h2]; exact h3 i0 j
    · dsimp only at hX ⊢
      cases hc : s.caller with
      | none => rw [hc] at hX; cases hX
      | some Y => rw [hc] at hX; exact (Option.some.inj hX).symm
  | false =>
    replace h : stepAsyncAs store P it s = _ := h
    unfold stepAsyncAs at h
    rw [bind_ok_iff] at h
    obtain ⟨r, hr, h⟩ := h
    cases h
    have key := foldlM_inv (fun acc : State σ K p n × Option Int =>
      (∀ i j, Q (acc.1.X i j)) ∧ ∀ X, acc.1.caller = some X → X = acc.1.X) ?_ _ ?_ hr
    · exact ⟨key.1, fun h => absurd h (by simp), key.2⟩
    · intro b i b' hb h
      unfold rowAsyncAs at h
      rw [bind_ok_iff] at h
      obtain ⟨U, -, h⟩ := h
      cases h
      refine ⟨fun i' j => ?_, fun X hX => ?_⟩
      · dsimp only
        rcases (selectionAsyncAs_cases (store := store) (obj := P.obj) (f := P.obj.one) (fun _ => rfl) U.1 b.1.gbest b.1.gfit b.1.X b.1.pbestfit P.xtol P.ftol i).1 with
          h1 | h1
        · rw [h1]; exact hb.1 i' j
        · rw [h1]
          by_cases hi : i' = i
          · subst hi; rw [Function.update_self]; exact hQ _
          · rw [Function.update_of_ne hi]; exact hb.1 i' j
      · dsimp only at hX ⊢
        cases hc : b.1.caller with
        | none => rw [hc] at hX; cases hX
        | some Y => rw [hc] at hX; exact (Option.some.inj hX).symm
    · exact ⟨hI.1, hI.2.2⟩

/-- Invariant of a deferred step: every individual is an evaluated point, or what is stored of one, and carries its value. -/
theorem stepSyncAs_near (hobj : P.obj.Faithful f) {it : Nat} {s s' : State σ K p n} {st : Option Int}
    (hI : (∀ i, ∃ y ∈ s.evals, s.pbestfit i = f y ∧ (s.X i = y ∨ s.X i = fun j => store (y j))) ∧
      ∃ y ∈ s.evals, s.gfit = f y ∧ (s.gbest = y ∨ s.gbest = fun j => store (y j)))
    (h : stepSyncAs store P it s = .ok (s', st)) :
    (∀ i, ∃ y ∈ s'.evals, s'.pbestfit i = f y ∧ (s'.X i = y ∨ s'.X i = fun j => store (y j))) ∧
      ∃ y ∈ s'.evals, s'.gfit = f y ∧ (s'.gbest = y ∨ s'.gbest = fun j => store (y j)) := by
  unfold stepSyncAs at h
  rw [bind_ok_iff] at h
  obtain ⟨U, -, h⟩ := h
  rw [bind_ok_iff] at h
  obtain ⟨r, hr, h⟩ := h
  cases h
  obtain ⟨h1, i0, h2, h3⟩ := selectionSyncAs_ok hr
  have h4 : ∀ i, ∃ y ∈ s.evals ++ List.ofFn U.1, r.xfun i = f y ∧ (r.x i = y ∨ r.x i = fun j => store (y j)) := by
    intro i
    rcases h1 i with ⟨hx, hv⟩ | ⟨hx, hv⟩
    · obtain ⟨y, hy, h5, h6⟩ := hI.1 i
      exact ⟨y, List.mem_append_left _ hy, by rw [hv, h5], by rw [hx]; exact h6⟩
    · exact ⟨U.1 i, List.mem_append_right _ (List.mem_ofFn.2 ⟨i, rfl⟩), by rw [hv, hobj.pop], Or.inr hx⟩
  refine ⟨h4, ?_⟩
  dsimp only
  rw [h2, h3]
  exact h4 i0

end

end DE

namespace CPSO

section
variable {K σ : Type} [AddZeroClass K] [One K] [Sub K] [Mul K] [Div K] [Neg K] [NatCast K] [IntCast K] [Pow K ℕ] [ArrayOps K] [LinearOrder K]
variable [IntParts K] [NumFns K]
variable {p n : Nat} {store : K → K} {P : Par σ K n} {f : Vec K n → Val K}

theorem algAs_id (P : Par σ K n) (sync : Bool) : algAs (p := p) id P sync = alg P sync := by
  have h1 : stepAsyncAs (p := p) id P = stepAsync P := by
    funext it s
    unfold stepAsyncAs stepAsync
    have : rowAsyncAs (p := p) id P = rowAsync P := by
      funext r1 r2 acc i
      unfold rowAsyncAs rowAsync
      simp only [selectionAsyncAs_id]
      rfl
    rw [this]
  have h2 : stepSyncAs (p := p) id P = stepSync P := rfl
  have h3 : postAs (p := p) (if sync = true then id else id) id P = post P := by
    rw [ite_self]
    funext it s
    unfold postAs post restartAs restart resetWorstAs resetWorst
    rfl
  unfold algAs alg
  rw [h1, h2, h3]

variable {env : Env} {R : Rng σ K} {srt : Argsort K} {fuel : Nat} {g : σ}

theorem minimizeAs_id (a : Args K) : minimizeAs id env R srt fuel a g = minimize env R srt fuel a g := by
  unfold minimizeAs minimizeWith minimize
  simp only [algAs_id]
  rfl

theorem minimizeWith_ok (he : env.Ok) {a : Args K} {A} {o : Output σ K a.p a.ndim}
    (h : minimizeWith env R srt fuel a g A = .ok o) :
    ∃ (fn : Vec K a.ndim → Val K) (P : Par σ K a.ndim) (s0 : State σ K a.p a.ndim)
      (r : Result K a.ndim) (L : Loop (State σ K a.p a.ndim) K a.p a.ndim),
      a.fn = some fn ∧ P.obj.Faithful fn ∧ P.gamma = a.competitivity ∧ init P a.x0Pop (a.seeded R g) = .ok s0 ∧
      (A P).run a.cfg fuel s0 = .ok (r, L) ∧ o = mkOut r L State.evals State.caller State.rng := by
  unfold minimizeWith at h
  rw [bind_ok_iff] at h
  obtain ⟨_, -, h⟩ := h
  cases hfn : a.fn with
  | none => rw [hfn] at h; simp at h
  | some fn =>
    rw [hfn] at h
    dsimp only at h
    obtain ⟨obj, hobj, h⟩ := optimizer_ok he h
    rw [bind_ok_iff] at h
    obtain ⟨_, -, h⟩ := h
    rw [bind_ok_iff] at h
    obtain ⟨cons, -, h⟩ := h
    unfold cpsoWith at h
    rw [bind_ok_iff] at h
    obtain ⟨s0, hs0, h⟩ := h
    rw [bind_ok_iff] at h
    obtain ⟨⟨r, L⟩, hrun, h⟩ := h
    cases h
    exact ⟨fn, _, s0, r, L, rfl, hobj, rfl, hs0, hrun, rfl⟩

theorem minimizeInt_ok (he : env.Ok) {a : Args K} {o : Output σ K a.p a.ndim}
    (h : minimizeInt env R srt fuel a g = .ok o) :
    ∃ (fn : Vec K a.ndim → Val K) (P : Par σ K a.ndim) (s0 : State σ K a.p a.ndim)
      (r : Result K a.ndim) (L : Loop (State σ K a.p a.ndim) K a.p a.ndim),
      a.fn = some fn ∧ P.obj.Faithful fn ∧ P.gamma = a.competitivity ∧ init P a.x0Pop (a.seeded R g) = .ok s0 ∧
      (algAs asInt P a.sync).run a.cfg fuel s0 = .ok (r, L) ∧ o = mkOut r L State.evals State.caller State.rng := by
  unfold minimizeInt minimizeAs at h
  exact minimizeWith_ok he h

theorem minimizeList_error (he : env.Ok) {a : Args K} {o : Output σ K a.p a.ndim} : minimizeList env R srt fuel a g ≠ .ok o := by
  intro h
  obtain ⟨fn, P, s0, r, L, -, -, -, -, hrun, -⟩ := minimizeWith_ok he h
  exact run_raises (A := algList P a.sync) (fun _ _ => rfl) hrun

theorem stepAsyncAs_best (hobj : P.obj.Faithful f) {it : Nat} {s s' : State σ K p n} {st : Option Int}
    (hI : s.gfit = f s.gbest ∧ s.gbest ∈ s.evals) (h : stepAsyncAs store P it s = .ok (s', st)) :
    s'.gfit = f s'.gbest ∧ s'.gbest ∈ s'.evals := by
  unfold stepAsyncAs at h
  cases h
  refine foldl_inv (fun acc : State σ K p n × Option Int => acc.1.gfit = f acc.1.gbest ∧ acc.1.gbest ∈ acc.1.evals) ?_ _ hI
  intro b i hb
  unfold rowAsyncAs
  dsimp only
  rcases (selectionAsyncAs_cases (store := store) hobj.one _ b.1.gbest b.1.gfit b.1.pbest b.1.pbestfit P.xtol P.ftol i).2 with
    ⟨h1, h2⟩ | ⟨h1, h2⟩
  · rw [h1, h2]; exact ⟨rfl, by simp⟩
  · rw [h1, h2]; exact ⟨hb.1, List.mem_append_left _ hb.2⟩

theorem postAs_same {storeX storeP : K → K} (it : Nat) (s : State σ K p n) :
    (postAs storeX storeP P it s).gfit = s.gfit ∧ (postAs storeX storeP P it s).gbest = s.gbest ∧
      (postAs storeX storeP P it s).evals = s.evals := by
  unfold postAs
  split
  · exact ⟨rfl, rfl, rfl⟩
  · split_ifs
    · exact ⟨rfl, rfl, rfl⟩
    · unfold restartAs
      split_ifs <;> exact ⟨rfl, rfl, rfl⟩

/-- What is an integer in a run with an integer `x0`. -/
structure Grid (Q : K → Prop) (sync : Bool) (s : State σ K p n) : Prop where
  pbest : ∀ i j, Q (s.pbest i j)
  gbest : ∀ j, Q (s.gbest j)
  X : sync = false → ∀ i j, Q (s.X i j)
  evals : sync = false → ∀ x ∈ s.evals, ∀ j, Q (x j)

theorem stepAs_grid {Q : K → Prop} (hQ : ∀ x, Q (store x)) {sync : Bool} {it : Nat} {s s' : State σ K p n} {st : Option Int}
    (hI : Grid Q sync s) (h : (algAs store P sync).step it s = .ok (s', st)) : Grid Q sync s' := by
  cases sync with
  | true =>
    replace h : stepSyncAs store P it s = _ := h
    unfold stepSyncAs at h
    rw [bind_ok_iff] at h
    obtain ⟨r, hr, h⟩ := h
    cases h
    obtain ⟨h1, i0, h2, -⟩ := selectionSyncAs_ok hr
    have h3 : ∀ i j, Q (r.x i j) := by
      intro i j
      rcases h1 i with ⟨h, -⟩ | ⟨h, -⟩
      · rw [h]; exact hI.pbest i j
      · rw [h]; exact hQ _
    exact ⟨h3, fun j => by dsimp only; rw [h2]; exact h3 i0 j, by simp, by simp⟩
  | false =>
    replace h : stepAsyncAs store P it s = _ := h
    unfold stepAsyncAs at h
    cases h
    refine foldl_inv (fun acc : State σ K p n × Option Int => Grid Q false acc.1) ?_ _ ⟨hI.pbest, hI.gbest, hI.X, hI.evals⟩
    intro b i hb
    unfold rowAsyncAs
    dsimp only
    obtain ⟨h1, h2⟩ := selectionAsyncAs_cases (store := store) (obj := P.obj) (f := P.obj.one) (fun _ => rfl)
      (fun j => store ((mutation P (b.1.X i) (b.1.V i) (b.1.pbest i) b.1.gbest ((drawMat P.R.rand p n s.rng).1 i)
        ((drawMat P.R.rand p n (drawMat P.R.rand p n s.rng).2).1 i)).1 j)) b.1.gbest b.1.gfit b.1.pbest b.1.pbestfit P.xtol P.ftol i
    refine ⟨fun i' j => ?_, fun j => ?_, fun _ i' j => ?_, fun _ x hx j => ?_⟩
    · dsimp only
      rcases h1 with h1 | h1
      · rw [h1]; exact hb.pbest i' j
      · rw [h1]
        by_cases hi : i' = i
        · subst hi; rw [Function.update_self]; exact hQ _
        · rw [Function.update_of_ne hi]; exact hb.pbest i' j
    · dsimp only
      rcases h2 with ⟨h2, -⟩ | ⟨h2, -⟩
      · rw [h2]; exact hQ _
      · rw [h2]; exact hb.gbest j
    · dsimp only
      by_cases hi : i' = i
      · subst hi; rw [Function.update_self]; exact hQ _
      · rw [Function.update_of_ne hi]; exact hb.X rfl i' j
    · dsimp only at hx
      rcases List.mem_append.1 hx with hx | hx
      · exact hb.evals rfl x hx j
      · rw [List.mem_singleton.1 hx]; exact hQ _

theorem postAs_grid {Q : K → Prop} (hQ : ∀ x, Q (store x)) {sync : Bool} (it : Nat) {s : State σ K p n}
    (hI : Grid Q sync s) : Grid Q sync (postAs (if sync then id else store) store P it s) := by
  obtain ⟨-, hg, he⟩ := postAs_same (P := P) (storeX := if sync then id else store) (storeP := store) it s
  refine ⟨?_, by rw [hg]; exact hI.gbest, ?_, by rw [he]; exact hI.evals⟩
  · unfold postAs
    split
    · exact hI.pbest
    · split_ifs
      · exact hI.pbest
      all_goals
        unfold restartAs
        split_ifs
        · intro q j
          unfold resetWorstAs
          dsimp only
          cases restartPos P.argsort s.pbestfit (numRestart p it P.maxiter ‹K›).toNat q with
          | some _ => exact hQ _
          | none => exact hI.pbest q j
        · exact hI.pbest
        · exact hI.pbest
  · intro hs
    subst hs
    simp only [Bool.false_eq_true, if_false]
    unfold postAs
    split
    · exact hI.X rfl
    · split_ifs
      · exact hI.X rfl
      · unfold restartAs
        split_ifs
        · intro q j
          unfold resetWorstAs
          dsimp only
          cases restartPos P.argsort s.pbestfit (numRestart p it P.maxiter ‹K›).toNat q with
          | some _ => exact hQ _
          | none => exact hI.X rfl q j
        · exact hI.X rfl
        · exact hI.X rfl

theorem stepSyncAs_near (hobj : P.obj.Faithful f) {it : Nat} {s s' : State σ K p n} {st : Option Int}
    (hI : (∀ i, ∃ y ∈ s.evals, s.pbestfit i = f y ∧ (s.pbest i = y ∨ s.pbest i = fun j => store (y j))) ∧
      ∃ y ∈ s.evals, s.gfit = f y ∧ (s.gbest = y ∨ s.gbest = fun j => store (y j)))
    (h : stepSyncAs store P it s = .ok (s', st)) :
    (∀ i, ∃ y ∈ s'.evals, s'.pbestfit i = f y ∧ (s'.pbest i = y ∨ s'.pbest i = fun j => store (y j))) ∧
      ∃ y ∈ s'.evals, s'.gfit = f y ∧ (s'.gbest = y ∨ s'.gbest = fun j => store (y j)) := by
  unfold stepSyncAs at h
  rw [bind_ok_iff] at h
  obtain ⟨r, hr, h⟩ := h
  cases h
  obtain ⟨h1, i0, h2, h3⟩ := selectionSyncAs_ok hr
  refine (fun h4 => ⟨h4, by dsimp only; rw [h2, h3]; exact h4 i0⟩) ?_
  intro i
  dsimp only
  rcases h1 i with ⟨hx, hv⟩ | ⟨hx, hv⟩
  · obtain ⟨y, hy, h5, h6⟩ := hI.1 i
    exact ⟨y, List.mem_append_left _ hy, by rw [hv, h5], by rw [hx]; exact h6⟩
  · exact ⟨_, List.mem_append_right _ (List.mem_ofFn.2 ⟨i, rfl⟩), by rw [hv, hobj.pop], Or.inr hx⟩

end

end CPSO

end Stochopy
