import Verif.Model.DE
import Verif.Lemmas.Laws
import Verif.Lemmas.SeqFin

/-! Laws and invariants of the differential evolution model. -/

set_option linter.unusedSectionVars false

namespace Stochopy.DE
variable {K σ : Type} [AddZeroClass K] [One K] [Sub K] [Mul K] [Div K] [Neg K] [NatCast K] [IntCast K] [Pow K ℕ] [ArrayOps K] [LinearOrder K] {p n : Nat}
variable {P : Par σ K p n} {f : Vec K n → Val K}

theorem stepSync_ok {it : Nat} {s s' : State σ K p n} {st : Option Int} (h : stepSync P it s = .ok (s', st)) :
    ∃ U r, candSync P s.X s.gbest s.rng = .ok U ∧
      selectionSync it U.1 s.gbest s.X s.pbestfit P.maxiter P.xtol P.ftol P.obj = .ok r ∧ st = r.status ∧
      s' = { X := r.x, gbest := r.xbest, pbestfit := r.xfun, gfit := r.xbestfun, pfit := r.candfun,
             caller := s.caller.map fun _ => r.x, evals := s.evals ++ List.ofFn U.1, rng := U.2 } := by
  unfold stepSync at h
  rw [bind_ok_iff] at h
  obtain ⟨U, hU, h⟩ := h
  rw [bind_ok_iff] at h
  obtain ⟨r, hr, h⟩ := h
  simp only [Except.ok.injEq, Prod.mk.injEq] at h
  exact ⟨U, r, hU, hr, h.2.symm, h.1.symm⟩

theorem rowAsync_ok {r1 : Fin p → Vec K n} {acc acc' : State σ K p n × Option Int} {i : Fin p}
    (h : rowAsync P r1 acc i = .ok acc') :
    ∃ U r, candAsync P (r1 i) i acc.1.X acc.1.gbest acc.1.rng = .ok U ∧
      r = selectionAsync U.1 acc.1.gbest acc.1.gfit acc.1.X acc.1.pbestfit P.xtol P.ftol P.obj i ∧
      acc' = ({ X := r.x, gbest := r.xbest, pbestfit := r.xfun, gfit := r.xbestfun,
                pfit := Function.update acc.1.pfit i r.candfun,
                caller := acc.1.caller.map fun _ => r.x, evals := acc.1.evals ++ [U.1], rng := U.2 }, r.status) := by
  unfold rowAsync at h
  rw [bind_ok_iff] at h
  obtain ⟨U, hU, h⟩ := h
  simp only [Except.ok.injEq] at h
  exact ⟨U, _, hU, rfl, h.symm⟩

theorem stepAsync_ok {it : Nat} {s s' : State σ K p n} {st : Option Int} (h : stepAsync P it s = .ok (s', st)) :
    ∃ st0, (List.finRange p).foldlM (rowAsync P (drawMat P.R.rand p n s.rng).1)
        ({ s with rng := (drawMat P.R.rand p n s.rng).2 }, none) = .ok (s', st0) ∧
      st = (if st0 = none ∧ P.maxiter ≤ (it : Int) then some (-1) else st0) := by
  unfold stepAsync at h
  rw [bind_ok_iff] at h
  obtain ⟨⟨s1, st0⟩, hr, h⟩ := h
  simp only [Except.ok.injEq, Prod.mk.injEq] at h
  obtain ⟨rfl, rfl⟩ := h
  refine ⟨st0, hr, ?_⟩
  simp

theorem candSync_ne_outOfFuel (hs : ∀ d F X g, P.strat d F X g ≠ .error .outOfFuel) (X : Pop K p n) (gb : Vec K n)
    (g : σ) : candSync P X gb g ≠ .error .outOfFuel := by
  intro h
  unfold candSync at h
  rw [bind_error_iff] at h
  rcases h with h | ⟨V, _, h⟩
  · obtain ⟨i, hi⟩ := seqFin_error h
    exact hs _ _ _ _ hi
  · rw [bind_error_iff] at h
    rcases h with h | ⟨_, _, h⟩
    · unfold checkDim at h; split_ifs at h; simp at h
    · simp at h

theorem candAsync_ne_outOfFuel (hs : ∀ d F X g, P.strat d F X g ≠ .error .outOfFuel) (r1 : Vec K n) (i : Fin p)
    (X : Pop K p n) (gb : Vec K n) (g : σ) : candAsync P r1 i X gb g ≠ .error .outOfFuel := by
  intro h
  unfold candAsync at h
  rw [bind_error_iff] at h
  rcases h with h | ⟨V, _, h⟩
  · exact hs _ _ _ _ h
  · rw [bind_error_iff] at h
    rcases h with h | ⟨_, _, h⟩
    · unfold checkDim at h; split_ifs at h; simp at h
    · simp at h

theorem alg_step (sync : Bool) : (alg P sync).step = if sync then stepSync P else stepAsync P := rfl

/-- Possible statuses inside the loop over individuals. -/
theorem async_status {it : Nat} {s s' : State σ K p n} {st : Option Int} (h : stepAsync P it s = .ok (s', st)) :
    (st = none → (it : Int) < P.maxiter) ∧ (st = some (-1) → P.maxiter ≤ (it : Int)) ∧
    (∀ k, st = some k → k = 0 ∨ k = 1 ∨ k = -1) ∧
    (st = some 0 ∨ st = some 1 → s'.gfit ≤ P.ftol) := by
  obtain ⟨st0, hf, rfl⟩ := stepAsync_ok h
  have key := foldlM_inv (fun acc : State σ K p n × Option Int =>
      (acc.2 = none ∨ acc.2 = some 0 ∨ acc.2 = some 1) ∧ (acc.2 ≠ none → acc.1.gfit ≤ P.ftol))
    (f := rowAsync P (drawMat P.R.rand p n s.rng).1) (by
      intro b i b' _ hb'
      obtain ⟨U, r, _, rfl, rfl⟩ := rowAsync_ok hb'
      obtain ⟨-, hc⟩ := selectionAsync_cases (candi := U.1) (xbest := b.1.gbest) (gfit := b.1.gfit) (x := b.1.X)
        (xfun := b.1.pbestfit) (xtol := P.xtol) (ftol := P.ftol) (obj := P.obj) (i := i) (f := P.obj.one) (fun _ => rfl)
      rcases hc with ⟨_, _, _, ⟨_, _, hb, hst⟩ | ⟨_, _, _, hst⟩⟩ | ⟨_, _, _, _, _, hst⟩
      · simp only [hst, hb]
        split_ifs with h1 h2
        · exact ⟨by simp, fun _ => h1.2⟩
        · exact ⟨by simp, fun _ => h2⟩
        · simp
      · simp [hst]
      · simp [hst]) (List.finRange p) (b := ({ s with rng := (drawMat P.R.rand p n s.rng).2 }, none))
      (by simp) hf
  obtain ⟨hk1, hk2⟩ := key
  dsimp only at hk1 hk2
  refine ⟨?_, ?_, ?_, ?_⟩
  · intro h1
    split_ifs at h1 with h2
    rw [h1] at h2; simp at h2; exact h2
  · intro h1
    split_ifs at h1 with h2
    · exact h2.2
    · rw [h1] at hk1; simp at hk1
  · intro k h1
    split_ifs at h1 with h2
    · simp at h1; omega
    · rcases hk1 with h | h | h <;> rw [h] at h1 <;> simp at h1 <;> omega
  · intro h1
    split_ifs at h1 with h2
    · simp at h1
    · exact hk2 (by rcases h1 with h | h <;> simp [h])

theorem laws (sync : Bool) (hs : ∀ d F X g, P.strat d F X g ≠ .error .outOfFuel) :
    (alg P sync).Laws P.maxiter State.evals where
  best_post _ _ := rfl
  fun_post _ _ := rfl
  ev_post _ _ := rfl
  ev_step := by
    intro it s s' st h
    rw [alg_step] at h
    cases sync with
    | true =>
      obtain ⟨U, r, _, _, _, rfl⟩ := stepSync_ok h
      exact ⟨List.ofFn U.1, by simp, rfl⟩
    | false =>
      obtain ⟨st0, hf, _⟩ := stepAsync_ok h
      have := foldlM_inv_idx (List.finRange p)
        (fun k (acc : State σ K p n × Option Int) => ∃ ys, ys.length = k ∧ acc.1.evals = s.evals ++ ys) (by
          rintro k hk b b' ⟨ys, hy, he⟩ hb'
          obtain ⟨U, r, _, _, rfl⟩ := rowAsync_ok hb'
          exact ⟨ys ++ [U.1], by simp [hy], by simp [he]⟩) ⟨[], rfl, by simp⟩ hf
      simpa using this
  cont := by
    intro it s s' h
    rw [alg_step] at h
    cases sync with
    | true =>
      obtain ⟨U, r, _, hr, hst, _⟩ := stepSync_ok h
      exact (selectionSync_codes hr).1 hst.symm
    | false => exact (async_status h).1 rfl
  budget := by
    intro it s s' h
    rw [alg_step] at h
    cases sync with
    | true =>
      obtain ⟨U, r, _, hr, hst, _⟩ := stepSync_ok h
      exact (selectionSync_codes hr).2.1 hst.symm
    | false => exact (async_status h).2.1 rfl
  codes := by
    intro it s s' k h
    rw [alg_step] at h
    cases sync with
    | true =>
      obtain ⟨U, r, _, hr, hst, _⟩ := stepSync_ok h
      exact (selectionSync_codes hr).2.2 k hst.symm
    | false => exact (async_status h).2.2.1 k rfl
  noFuel := by
    intro it s h
    rw [alg_step] at h
    cases sync with
    | true =>
      simp only [if_true] at h
      unfold stepSync at h
      rw [bind_error_iff] at h
      rcases h with h | ⟨U, _, h⟩
      · exact candSync_ne_outOfFuel hs _ _ _ h
      · rw [bind_error_iff] at h
        rcases h with h | ⟨_, _, h⟩
        · exact selectionSync_ne_outOfFuel h
        · simp at h
    | false =>
      simp only [Bool.false_eq_true, if_false] at h
      unfold stepAsync at h
      rw [bind_error_iff] at h
      rcases h with h | ⟨_, _, h⟩
      · refine foldlM_ne_error ?_ _ _ h
        intro b i hb
        unfold rowAsync at hb
        rw [bind_error_iff] at hb
        rcases hb with hb | ⟨_, _, hb⟩
        · exact candAsync_ne_outOfFuel hs _ _ _ _ _ hb
        · simp at hb
      · simp at h

theorem syncStatus : (alg P true).SyncStatus P.maxiter P.ftol (fun s s' => distLe s.gbest s'.gbest P.xtol) := by
  intro it s s' st h
  obtain ⟨U, r, _, hr, hst, rfl⟩ := stepSync_ok h
  rw [hst, selectionSync_status hr]
  rfl

/-- Values belong to points. -/
def I1 (f : Vec K n → Val K) (s : State σ K p n) : Prop :=
  Inv1 False (.fin 0) f (· ∈ s.evals) s.X s.pbestfit s.gbest s.gfit

theorem I1_step {sync : Bool} (hf : P.obj.Faithful f) {it : Nat} {s s' : State σ K p n} {st : Option Int} (hI : I1 f s)
    (h : (alg P sync).step it s = .ok (s', st)) : I1 f s' := by
  rw [alg_step] at h
  cases sync with
  | true =>
    obtain ⟨U, r, _, hr, hst, rfl⟩ := stepSync_ok h
    exact selectionSync_inv1 hr hf.pop (by simp) (fun y hy => List.mem_append_left _ hy)
      (fun i => List.mem_append_right _ (by simp)) hI
  | false =>
    obtain ⟨st0, hfold, _⟩ := stepAsync_ok h
    refine foldlM_inv (fun acc : State σ K p n × Option Int => I1 f acc.1) ?_ _ ?_ hfold
    · intro b i b' hb hb'
      obtain ⟨U, r, _, rfl, rfl⟩ := rowAsync_ok hb'
      exact selectionAsync_inv1 hf.one (fun y hy => List.mem_append_left _ hy)
        (List.mem_append_right _ (by simp)) hb
    · exact hI

/-- Monotonicity. -/
def IM (s : State σ K p n) : Prop := InvM s.pbestfit s.gfit

theorem mono {sync : Bool} (hf : P.obj.Faithful f) : (alg P sync).Mono IM where
  post _ _ h := h
  step := by
    intro it s s' st hI h
    rw [alg_step] at h
    cases sync with
    | true =>
      obtain ⟨U, r, _, hr, hst, rfl⟩ := stepSync_ok h
      exact selectionSync_mono hr hf.pop hI
    | false =>
      obtain ⟨st0, hfold, _⟩ := stepAsync_ok h
      refine foldlM_inv (fun acc : State σ K p n × Option Int => IM acc.1 ∧ sortLe acc.1.gfit s.gfit) ?_ _ ?_ hfold
      · rintro b i b' ⟨hb, hle⟩ hb'
        obtain ⟨U, r, _, rfl, rfl⟩ := rowAsync_ok hb'
        obtain ⟨h1, h2⟩ := selectionAsync_mono (candi := U.1) (xbest := b.1.gbest) (x := b.1.X) (xtol := P.xtol)
          (ftol := P.ftol) (i := i) hf.one hb
        exact ⟨h1, sortLe_trans h2 hle⟩
      · exact ⟨hI, sortLe_refl _⟩

/-- Lower bound of everything evaluated. -/
def I2 (f : Vec K n → Val K) (s : State σ K p n) : Prop := Inv2 f (· ∈ s.evals) s.pbestfit s.gfit

theorem I2_step {sync : Bool} (hf : P.obj.Faithful f) {it : Nat} {s s' : State σ K p n} {st : Option Int} (hI : I2 f s)
    (h : (alg P sync).step it s = .ok (s', st)) : I2 f s' := by
  rw [alg_step] at h
  cases sync with
  | true =>
    obtain ⟨U, r, _, hr, hst, rfl⟩ := stepSync_ok h
    refine selectionSync_inv2 hr hf.pop (fun y hy => ?_) hI
    rcases List.mem_append.1 hy with hy | hy
    · exact Or.inl hy
    · obtain ⟨i, rfl⟩ := List.mem_ofFn.1 hy; exact Or.inr ⟨i, rfl⟩
  | false =>
    obtain ⟨st0, hfold, _⟩ := stepAsync_ok h
    refine foldlM_inv (fun acc : State σ K p n × Option Int => I2 f acc.1) ?_ _ ?_ hfold
    · intro b i b' hb hb'
      obtain ⟨U, r, _, rfl, rfl⟩ := rowAsync_ok hb'
      refine selectionAsync_inv2 hf.one (fun y hy => ?_) hb
      rcases List.mem_append.1 hy with hy | hy
      · exact Or.inl hy
      · exact Or.inr (by simpa using hy)
    · exact hI

/-- The initial population: given or drawn. -/
def initPop (P : Par σ K p n) (x0 : Option (Pop K p n)) (g : σ) : Pop K p n × σ :=
  match x0 with
  | some x => (x, g)
  | none => lhs P.R p P.lower P.upper g

theorem init_ok {x0 : Option (Pop K p n)} {g : σ} {s : State σ K p n} (h : init P x0 g = .ok s) :
    ∃ i, argmin (P.obj.pop (initPop P x0 g).1) = .ok i ∧
      s = { X := (initPop P x0 g).1, gbest := (initPop P x0 g).1 i, pbestfit := P.obj.pop (initPop P x0 g).1,
            gfit := P.obj.pop (initPop P x0 g).1 i, pfit := P.obj.pop (initPop P x0 g).1, caller := x0,
            evals := List.ofFn (initPop P x0 g).1, rng := (initPop P x0 g).2 } := by
  unfold init at h
  rw [bind_ok_iff] at h
  obtain ⟨i, hi, h⟩ := h
  simp only [Except.ok.injEq] at h
  exact ⟨i, hi, h.symm⟩

theorem strategyMap_ne_outOfFuel {name : String} {s : Strategy K p n} (h : strategyMap name = .ok s) :
    ∀ d F X g, s d F X g ≠ .error .outOfFuel := by
  have hd : ∀ (i : Fin (p - 1) → Fin p) k, donor i k ≠ .error .outOfFuel := by
    intro i k h; unfold donor at h; split_ifs at h; simp at h
  unfold strategyMap at h
  intro d F X g
  split_ifs at h <;> simp only [Except.ok.injEq] at h <;> subst h <;>
    simp only [rand1bin, rand2bin, best1bin, best2bin] <;> intro h <;>
    (simp only [bind_error_iff] at h; simp [hd] at h)

theorem validate_ok {a : Args K} {strat : Strategy K a.p a.ndim} (h : validate a = .ok strat) :
    a.fn.isSome ∧ a.bounds.ndim = 2 ∧ a.badX0Shape = false ∧ 2 ≤ a.popsize ∧ a.badX0Len = false ∧
    (0 ≤ a.mutation ∧ a.mutation ≤ 2) ∧ (0 ≤ a.recombination ∧ a.recombination ≤ 1) ∧
    (a.updating = "immediate" ∨ a.updating = "deferred") ∧ strategyMap a.strategy = .ok strat ∧
    a.badCallback = false := by
  unfold validate at h
  repeat' split at h
  all_goals first | (simp at h; done) | skip
  rename_i h1 h2 h3 h4 h5 h6 h7 h8 _ s hs h9
  simp only [Except.ok.injEq] at h
  subst h
  refine ⟨?_, by simpa using h2, by simpa using h3, by omega, by simpa using h5, not_not.1 h6, not_not.1 h7, not_not.1 h8,
    hs, by simpa using h9⟩
  cases hfn : a.fn with
  | none => simp [hfn] at h1
  | some _ => rfl

/-- A completed call of `minimize`. -/
theorem minimize_ok [IntParts K] {env : Env} (he : env.Ok) {R : Rng σ K} {fuel : Nat} {a : Args K} {g : σ}
    {o : Output σ K a.p a.ndim} (h : minimize env R fuel a g = .ok o) :
    ∃ (fn : Vec K a.ndim → Val K) (P : Par σ K a.p a.ndim) (s0 : State σ K a.p a.ndim)
      (r : Result K a.ndim) (L : Loop (State σ K a.p a.ndim) K a.p a.ndim),
      a.fn = some fn ∧ validate a = .ok P.strat ∧ P.obj.Faithful fn ∧
      consMap a.constraints = .ok P.cons ∧ P.R = R ∧ P.F = a.mutation ∧ P.CR = a.recombination ∧ P.lower = a.lower ∧
      P.upper = a.upper ∧ P.maxiter = a.maxiter ∧ P.xtol = a.xtol ∧ P.ftol = a.ftol ∧
      (∀ d F X g, P.strat d F X g ≠ .error .outOfFuel) ∧
      init P a.x0Pop (a.seeded R g) = .ok s0 ∧
      (alg P a.sync).run a.cfg fuel s0 = .ok (r, L) ∧
      o = mkOut r L State.evals State.caller State.rng := by
  unfold minimize at h
  rw [bind_ok_iff] at h
  obtain ⟨strat, hv, h⟩ := h
  cases hfn : a.fn with
  | none => rw [hfn] at h; simp at h
  | some fn =>
    rw [hfn] at h
    dsimp only at h
    obtain ⟨obj, hobj, h⟩ := optimizer_ok he h
    rw [bind_ok_iff] at h
    obtain ⟨_, _, h⟩ := h
    rw [bind_ok_iff] at h
    obtain ⟨cons, hcons, h⟩ := h
    unfold de at h
    rw [bind_ok_iff] at h
    obtain ⟨s0, hs0, h⟩ := h
    rw [bind_ok_iff] at h
    obtain ⟨⟨r, L⟩, hrun, h⟩ := h
    simp only [Except.ok.injEq] at h
    have hname := (validate_ok hv).2.2.2.2.2.2.2.2.1
    exact ⟨fn, _, s0, r, L, rfl, hv, hobj, hcons, rfl, rfl, rfl, rfl, rfl, rfl, rfl, rfl,
      strategyMap_ne_outOfFuel hname, hs0, hrun, h.symm⟩

end Stochopy.DE

namespace Stochopy.DE
variable {K σ : Type} [AddZeroClass K] [One K] [Sub K] [Mul K] [Div K] [Neg K] [NatCast K] [IntCast K] [Pow K ℕ] [ArrayOps K] [LinearOrder K] {p n : Nat}
variable {P : Par σ K p n} {f : Vec K n → Val K}

/-- The last candidate values are not below the values of the members. -/
def IR (f : Vec K n → Val K) (s : State σ K p n) : Prop :=
  ∀ i, s.pbestfit i = f (s.X i) ∧ ¬ s.pfit i < f (s.X i) ∧ s.X i ∈ s.evals

theorem IR_step {sync : Bool} (hf : P.obj.Faithful f) {it : Nat} {s s' : State σ K p n} {st : Option Int} (hI : IR f s)
    (h : (alg P sync).step it s = .ok (s', st)) : IR f s' := by
  rw [alg_step] at h
  cases sync with
  | true =>
    obtain ⟨U, r, _, hr, hst, rfl⟩ := stepSync_ok h
    intro i
    obtain ⟨h1, h2, _⟩ := selectionSync_ok hr hf.pop
    rcases h2 i with ⟨a1, a2, a3⟩ | ⟨a1, a2, a3⟩
    · refine ⟨by show r.xfun i = f (r.x i); rw [a1, a2], ?_, ?_⟩
      · show ¬ r.candfun i < f (r.x i)
        rw [h1, a2]; exact Val.lt_irrefl'
      · show r.x i ∈ _
        rw [a2]; exact List.mem_append_right _ (by simp)
    · refine ⟨by show r.xfun i = f (r.x i); rw [a1, a2]; exact (hI i).1, ?_, ?_⟩
      · show ¬ r.candfun i < f (r.x i)
        rw [h1, a2, ← (hI i).1]; exact a3
      · show r.x i ∈ _
        rw [a2]; exact List.mem_append_left _ (hI i).2.2
  | false =>
    obtain ⟨st0, hfold, _⟩ := stepAsync_ok h
    refine foldlM_inv (fun acc : State σ K p n × Option Int => IR f acc.1) ?_ _ ?_ hfold
    · intro b i b' hb hb'
      obtain ⟨U, r, _, rfl, rfl⟩ := rowAsync_ok hb'
      obtain ⟨hc, hcase⟩ := selectionAsync_cases (candi := U.1) (xbest := b.1.gbest) (gfit := b.1.gfit) (x := b.1.X)
        (xfun := b.1.pbestfit) (xtol := P.xtol) (ftol := P.ftol) (obj := P.obj) (i := i) hf.one
      intro j
      dsimp only
      rw [hc]
      rcases hcase with ⟨h1, h2, h3, _⟩ | ⟨h1, h2, h3, _⟩
      · rw [h2, h3]
        by_cases hj : j = i
        · subst hj
          simp only [Function.update_self]
          exact ⟨trivial, Val.lt_irrefl', by simp⟩
        · rw [Function.update_of_ne hj, Function.update_of_ne hj, Function.update_of_ne hj]
          exact ⟨(hb j).1, (hb j).2.1, List.mem_append_left _ (hb j).2.2⟩
      · rw [h2, h3]
        by_cases hj : j = i
        · subst hj
          simp only [Function.update_self]
          refine ⟨(hb j).1, ?_, List.mem_append_left _ (hb j).2.2⟩
          rw [← (hb j).1]
          exact fun h => h1 (Val.le_of_lt' h)
        · rw [Function.update_of_ne hj]
          exact ⟨(hb j).1, (hb j).2.1, List.mem_append_left _ (hb j).2.2⟩
    · exact hI

/-- The population compared with the initial one, and the caller's array. -/
def IX (f : Vec K n → Val K) (X0 : Pop K p n) (s : State σ K p n) : Prop :=
  (∀ i, s.pbestfit i = f (s.X i) ∧ s.X i ∈ s.evals ∧ (s.X i = X0 i ∨ f (s.X i) ≤ f (X0 i))) ∧
  ∀ X, s.caller = some X → X = s.X

theorem IX_step {sync : Bool} (hf : P.obj.Faithful f) {it : Nat} {X0 : Pop K p n} {s s' : State σ K p n} {st : Option Int}
    (hI : IX f X0 s) (h : (alg P sync).step it s = .ok (s', st)) : IX f X0 s' := by
  have better : ∀ {a b c : Vec K n}, f a ≤ f b → (b = c ∨ f b ≤ f c) → f a ≤ f c := by
    rintro a b c h (rfl | h')
    · exact h
    · exact Val.le_trans' h h'
  rw [alg_step] at h
  cases sync with
  | true =>
    obtain ⟨U, r, _, hr, hst, rfl⟩ := stepSync_ok h
    obtain ⟨h1, h2, _⟩ := selectionSync_ok hr hf.pop
    refine ⟨fun i => ?_, fun X hX => ?_⟩
    · show r.xfun i = f (r.x i) ∧ r.x i ∈ _ ∧ (r.x i = X0 i ∨ f (r.x i) ≤ f (X0 i))
      rcases h2 i with ⟨a1, a2, a3⟩ | ⟨a1, a2, a3⟩
      · rw [a1, a2]
        rw [(hI.1 i).1] at a3
        exact ⟨rfl, List.mem_append_right _ (by simp), Or.inr (better (Val.le_of_lt' a3) (hI.1 i).2.2)⟩
      · rw [a1, a2]
        exact ⟨(hI.1 i).1, List.mem_append_left _ (hI.1 i).2.1, (hI.1 i).2.2⟩
    · change s.caller.map (fun _ => r.x) = some X at hX
      obtain ⟨Y, _, rfl⟩ := Option.map_eq_some_iff.1 hX
      rfl
  | false =>
    obtain ⟨st0, hfold, _⟩ := stepAsync_ok h
    refine foldlM_inv (fun acc : State σ K p n × Option Int => IX f X0 acc.1) ?_ _ ?_ hfold
    · intro b i b' hb hb'
      obtain ⟨U, r, _, hr, rfl⟩ := rowAsync_ok hb'
      obtain ⟨hc, hcase⟩ := selectionAsync_cases (candi := U.1) (xbest := b.1.gbest) (gfit := b.1.gfit) (x := b.1.X)
        (xfun := b.1.pbestfit) (xtol := P.xtol) (ftol := P.ftol) (obj := P.obj) (i := i) hf.one
      rw [← hr] at hc hcase
      refine ⟨fun j => ?_, fun X hX => ?_⟩
      · show r.xfun j = f (r.x j) ∧ r.x j ∈ _ ∧ (r.x j = X0 j ∨ f (r.x j) ≤ f (X0 j))
        rcases hcase with ⟨h1, h2, h3, _⟩ | ⟨h1, h2, h3, _⟩
        · rw [h2, h3]
          by_cases hj : j = i
          · subst hj
            simp only [Function.update_self]
            rw [(hb.1 j).1] at h1
            exact ⟨trivial, by simp, Or.inr (better h1 (hb.1 j).2.2)⟩
          · rw [Function.update_of_ne hj, Function.update_of_ne hj]
            exact ⟨(hb.1 j).1, List.mem_append_left _ (hb.1 j).2.1, (hb.1 j).2.2⟩
        · rw [h2, h3]
          exact ⟨(hb.1 j).1, List.mem_append_left _ (hb.1 j).2.1, (hb.1 j).2.2⟩
      · change b.1.caller.map (fun _ => r.x) = some X at hX
        obtain ⟨Y, _, rfl⟩ := Option.map_eq_some_iff.1 hX
        rfl
    · exact hI

theorem caller_step {sync : Bool} {it : Nat} {s s' : State σ K p n} {st : Option Int}
    (h : (alg P sync).step it s = .ok (s', st)) : s'.caller.isSome = s.caller.isSome := by
  rw [alg_step] at h
  cases sync with
  | true =>
    obtain ⟨U, r, _, hr, hst, rfl⟩ := stepSync_ok h
    simp
  | false =>
    obtain ⟨st0, hfold, _⟩ := stepAsync_ok h
    refine foldlM_inv (fun acc : State σ K p n × Option Int => acc.1.caller.isSome = s.caller.isSome) ?_ _ ?_ hfold
    · intro b i b' hb hb'
      obtain ⟨U, r, _, hr, rfl⟩ := rowAsync_ok hb'
      simpa using hb
    · rfl

end Stochopy.DE
