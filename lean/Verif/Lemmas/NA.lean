import Verif.Model.NA
import Verif.Lemmas.Laws
import Verif.Lemmas.SeqFin

/-! Laws and invariants of the neighbourhood algorithm model. -/

set_option linter.unusedSectionVars false

namespace Stochopy.NA
variable {K σ : Type} [AddZeroClass K] [One K] [Sub K] [Mul K] [Div K] [Neg K] [NatCast K] [IntCast K] [Pow K ℕ] [ArrayOps K] [LinearOrder K] {p n : Nat}

theorem seqFinS_ok {ε α τ : Type} : ∀ {p : Nat} {f : Fin p → τ → Except ε (α × τ)} {g : τ} {r : (Fin p → α) × τ},
    seqFinS f g = .ok r → ∀ i, ∃ g0 g1, f i g0 = .ok (r.1 i, g1)
  | 0, _, _, _, _ => fun i => i.elim0
  | p + 1, f, g, r, h => by
    rw [seqFinS, bind_ok_iff] at h
    obtain ⟨a, h0, h⟩ := h
    rw [bind_ok_iff] at h
    obtain ⟨b, h1, h⟩ := h
    simp only [Except.ok.injEq] at h
    subst h
    intro i
    refine Fin.cases ?_ (fun j => ?_) i
    · exact ⟨g, a.2, by simpa using h0⟩
    · obtain ⟨g0, g1, h⟩ := seqFinS_ok h1 j
      exact ⟨g0, g1, by simpa using h⟩

theorem seqFinS_error {ε α τ : Type} : ∀ {p : Nat} {f : Fin p → τ → Except ε (α × τ)} {g : τ} {e : ε},
    seqFinS f g = .error e → ∃ i g0, f i g0 = .error e
  | 0, _, _, _, h => by simp [seqFinS] at h
  | p + 1, f, g, e, h => by
    rw [seqFinS, bind_error_iff] at h
    rcases h with h | ⟨a, _, h⟩
    · exact ⟨0, g, h⟩
    · rw [bind_error_iff] at h
      rcases h with h | ⟨_, _, h⟩
      · obtain ⟨i, g0, hi⟩ := seqFinS_error h
        exact ⟨i.succ, g0, hi⟩
      · simp at h

section core
variable {P : Par σ K n} {f : Vec K n → Val K}

/-- The objective in normalised coordinates. -/
def fN (P : Par σ K n) (f : Vec K n → Val K) : Vec K n → Val K := fun x => f (unnormalize P.lower P.upper x)

theorem objN_faithful (h : P.obj.Faithful f) : P.objN.Faithful (fN P f) :=
  ⟨fun _ _ => h.pop _ _, fun _ => h.one _⟩

theorem step_ok {it : Nat} {s s' : State σ K p n} {st : Option Int} (h : step P it s = .ok (s', st)) :
    ∃ X r, mutation P.R P.argsort (spanMask P.lower P.upper) s.All p P.nr s.rng = .ok X ∧
      selectionSync it X.1 s.gbest s.pbest s.pbestfit P.maxiter P.xtol P.ftol P.objN = .ok r ∧ st = r.status ∧
      s' = { X := X.1, pbest := r.x, gbest := r.xbest, pbestfit := r.xfun, gfit := r.xbestfun, pfit := r.candfun,
             All := List.ofFn (fun i => (X.1 i, r.candfun i)) ++ s.All, caller := s.caller,
             evals := s.evals ++ List.ofFn (fun i => unnormalize P.lower P.upper (X.1 i)), rng := X.2 } := by
  unfold step at h
  rw [bind_ok_iff] at h
  obtain ⟨U, hU, h⟩ := h
  rw [bind_ok_iff] at h
  obtain ⟨r, hr, h⟩ := h
  simp only [Except.ok.injEq, Prod.mk.injEq] at h
  exact ⟨U, r, hU, hr, h.2.symm, h.1.symm⟩

theorem mutation_ne_outOfFuel {R : Rng σ K} {srt : Argsort K} {mask : Fin n → Bool} {All : List (Vec K n × Val K)}
    {nr : Nat} {g : σ} : mutation R srt mask All p nr g ≠ .error .outOfFuel := by
  intro h
  obtain ⟨i, g0, h⟩ := seqFinS_error h
  unfold mutRow at h
  dsimp only at h
  split_ifs at h; simp at h

theorem laws : (alg (p := p) P).Laws P.maxiter State.evals where
  best_post _ _ := rfl
  fun_post _ _ := rfl
  ev_post _ _ := rfl
  ev_step := by
    intro it s s' st h
    obtain ⟨X, r, _, _, _, rfl⟩ := step_ok h
    exact ⟨_, by simp, rfl⟩
  cont := by
    intro it s s' h
    obtain ⟨X, r, _, hr, hst, _⟩ := step_ok h
    exact (selectionSync_codes hr).1 hst.symm
  budget := by
    intro it s s' h
    obtain ⟨X, r, _, hr, hst, _⟩ := step_ok h
    exact (selectionSync_codes hr).2.1 hst.symm
  codes := by
    intro it s s' k h
    obtain ⟨X, r, _, hr, hst, _⟩ := step_ok h
    exact (selectionSync_codes hr).2.2 k hst.symm
  noFuel := by
    intro it s h
    change step P it s = _ at h
    unfold step at h
    rw [bind_error_iff] at h
    rcases h with h | ⟨U, _, h⟩
    · exact mutation_ne_outOfFuel h
    · rw [bind_error_iff] at h
      rcases h with h | ⟨_, _, h⟩
      · exact selectionSync_ne_outOfFuel h
      · simp at h

theorem syncStatus : (alg (p := p) P).SyncStatus P.maxiter P.ftol (fun s s' => distLe s.gbest s'.gbest P.xtol) := by
  intro it s s' st h
  obtain ⟨X, r, _, hr, hst, rfl⟩ := step_ok h
  rw [hst, selectionSync_status hr]
  rfl

/-- Values belong to points. -/
def I1 (P : Par σ K n) (f : Vec K n → Val K) (s : State σ K p n) : Prop :=
  Inv1 False (.fin 0) (fN P f) (fun x => unnormalize P.lower P.upper x ∈ s.evals) s.pbest s.pbestfit s.gbest s.gfit

def IM (s : State σ K p n) : Prop := InvM s.pbestfit s.gfit

/-- Lower bound of everything evaluated. -/
def I2 (P : Par σ K n) (f : Vec K n → Val K) (s : State σ K p n) : Prop :=
  Inv2 (fN P f) (fun x => unnormalize P.lower P.upper x ∈ s.evals) s.pbestfit s.gfit ∧
    ∀ y ∈ s.evals, ∃ x, y = unnormalize P.lower P.upper x

theorem I1_step (hf : P.obj.Faithful f) {it : Nat} {s s' : State σ K p n} {st : Option Int} (hI : I1 P f s)
    (h : step P it s = .ok (s', st)) : I1 P f s' := by
  obtain ⟨X, r, _, hr, hst, rfl⟩ := step_ok h
  exact selectionSync_inv1 hr (objN_faithful hf).pop (by simp) (fun y hy => List.mem_append_left _ hy)
    (fun i => List.mem_append_right _ (by simp)) hI

theorem mono (hf : P.obj.Faithful f) : (alg (p := p) P).Mono IM where
  post _ _ h := h
  step := by
    intro it s s' st hI h
    obtain ⟨X, r, _, hr, hst, rfl⟩ := step_ok h
    exact selectionSync_mono hr (objN_faithful hf).pop hI

theorem I2_step (hf : P.obj.Faithful f) {it : Nat} {s s' : State σ K p n} {st : Option Int} (hI : I2 P f s)
    (h : step P it s = .ok (s', st)) : I2 P f s' := by
  obtain ⟨X, r, _, hr, hst, rfl⟩ := step_ok h
  have hM : IM s := fun _ => ⟨fun q => Val.ne_nan_right (hI.1.lb q), hI.1.att⟩
  -- work with an explicit set of evaluated normalised points
  have key := selectionSync_inv2 (E' := fun x => unnormalize P.lower P.upper x ∈ s.evals ∨ ∃ i, x = X.1 i) hr
    (objN_faithful hf).pop (fun y hy => hy) hI.1
  refine ⟨⟨key.lb, key.att, ?_⟩, ?_⟩
  · intro x hx hn
    rcases List.mem_append.1 hx with hx | hx
    · exact key.all x (Or.inl hx) hn
    · obtain ⟨i, hi⟩ := List.mem_ofFn.1 hx
      have h1 := key.all (X.1 i) (Or.inr ⟨i, rfl⟩)
      unfold fN at h1 hn ⊢
      rw [hi] at h1
      exact h1 hn
  · intro y hy
    rcases List.mem_append.1 hy with hy | hy
    · exact hI.2 y hy
    · obtain ⟨i, rfl⟩ := List.mem_ofFn.1 hy
      exact ⟨_, rfl⟩

/-- The initial population before normalisation: given or drawn. -/
def initPop (P : Par σ K n) (x0 : Option (Pop K p n)) (g : σ) : Pop K p n × σ :=
  match x0 with
  | some x => (x, g)
  | none => lhs P.R p P.lower P.upper g

/-- The normalised initial population. -/
def initN (P : Par σ K n) (x0 : Option (Pop K p n)) (g : σ) : Pop K p n :=
  fun i => normalize P.lower P.upper ((initPop P x0 g).1 i)

theorem init_ok {x0 : Option (Pop K p n)} {g : σ} {s : State σ K p n} (h : init P x0 g = .ok s) :
    ∃ i, argmin (P.objN.pop (initN P x0 g)) = .ok i ∧
      s = { X := initN P x0 g, pbest := initN P x0 g, gbest := initN P x0 g i, pbestfit := P.objN.pop (initN P x0 g),
            gfit := P.objN.pop (initN P x0 g) i, pfit := P.objN.pop (initN P x0 g),
            All := List.ofFn fun i => (initN P x0 g i, P.objN.pop (initN P x0 g) i), caller := x0,
            evals := List.ofFn fun i => unnormalize P.lower P.upper (initN P x0 g i), rng := (initPop P x0 g).2 } := by
  unfold init at h
  rw [bind_ok_iff] at h
  obtain ⟨i, hi, h⟩ := h
  simp only [Except.ok.injEq] at h
  exact ⟨i, hi, h.symm⟩

end core

theorem validate_ok {a : Args K} (h : validate a = .ok ()) :
    a.fn.isSome ∧ a.bounds.ndim = 2 ∧ a.badX0Shape = false ∧ 2 ≤ a.popsize ∧ a.badX0Len = false ∧
    (0 < a.nrperc ∧ a.nrperc ≤ 1) ∧ a.badCallback = false := by
  unfold validate at h
  repeat' split at h
  all_goals first | (simp at h; done) | skip
  rename_i h1 h2 h3 h4 h5 h6 h7
  refine ⟨?_, by simpa using h2, by simpa using h3, by omega, by simpa using h5, not_not.1 h6, by simpa using h7⟩
  cases hfn : a.fn with
  | none => simp [hfn] at h1
  | some _ => rfl

/-- A completed call of `minimize`. -/
theorem minimize_ok [IntParts K] {env : Env} (he : env.Ok) {R : Rng σ K} {srt : Argsort K} {fuel : Nat}
    {a : Args K} {g : σ} {o : Output σ K a.p a.ndim} (h : minimize env R srt fuel a g = .ok o) :
    ∃ (fn : Vec K a.ndim → Val K) (P : Par σ K a.ndim) (s0 : State σ K a.p a.ndim)
      (r : Result K a.ndim) (L : Loop (State σ K a.p a.ndim) K a.p a.ndim),
      a.fn = some fn ∧ validate a = .ok () ∧ P.obj.Faithful fn ∧
      P.R = R ∧ P.argsort = srt ∧ P.nr = a.nr ∧ P.lower = a.lower ∧
      P.upper = a.upper ∧ P.maxiter = a.maxiter ∧ P.xtol = a.xtol ∧ P.ftol = a.ftol ∧
      init P a.x0Pop (a.seeded R g) = .ok s0 ∧
      (alg P).run a.cfg fuel s0 = .ok (r, L) ∧
      o = mkOut r L State.evals State.caller State.rng := by
  unfold minimize at h
  rw [bind_ok_iff] at h
  obtain ⟨_, hv, h⟩ := h
  cases hfn : a.fn with
  | none => rw [hfn] at h; simp at h
  | some fn =>
    rw [hfn] at h
    dsimp only at h
    obtain ⟨obj, hobj, h⟩ := optimizer_ok he h
    rw [bind_ok_iff] at h
    obtain ⟨_, _, h⟩ := h
    unfold na at h
    rw [bind_ok_iff] at h
    obtain ⟨s0, hs0, h⟩ := h
    rw [bind_ok_iff] at h
    obtain ⟨⟨r, L⟩, hrun, h⟩ := h
    simp only [Except.ok.injEq] at h
    exact ⟨fn, _, s0, r, L, rfl, hv, hobj, rfl, rfl, rfl, rfl, rfl, rfl, rfl, rfl, hs0, hrun, h.symm⟩

end Stochopy.NA
