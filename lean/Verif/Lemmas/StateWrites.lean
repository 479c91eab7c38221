import Verif.Model.StateWrites
import Verif.Lemmas.CallbackWrites
import Verif.Spec.StateWrites

set_option linter.unusedSectionVars false

/-!
# Callbacks that write into their state (C111): lemmas
-/

namespace Stochopy
open Spec

section frame
variable {S K σ : Type} [AddZeroClass K] [One K] [Sub K] [Mul K] [Div K] [Neg K] [NatCast K] [IntCast K] [Pow K ℕ] [ArrayOps K] [LinearOrder K]
variable {p n : Nat} {A : Alg S K p n} {w : Nat → S → S} {c : Cfg} {s0 : S}

theorem run_it {fuel : Nat} {r : Result K n} {L : Loop S K p n} (h : A.run c fuel s0 = .ok (r, L)) : r.nit = L.it ∧ r.x = A.best L.s := by
  unfold Alg.run at h
  rw [bind_ok_iff] at h
  obtain ⟨L0, _, h⟩ := h
  rw [bind_ok_iff] at h
  obtain ⟨L1, _, h⟩ := h
  rw [bind_ok_iff] at h
  obtain ⟨r1, h2, h⟩ := h
  simp only [Except.ok.injEq, Prod.mk.injEq] at h
  obtain ⟨rfl, rfl⟩ := h
  unfold Alg.finish at h2
  split at h2
  · simp at h2
  · split at h2
    · simp at h2
    · simp only [Except.ok.injEq] at h2
      rw [← h2]
      exact ⟨rfl, rfl⟩

theorem runB_ok {fuel : Nat} {r : Result K n} {L : Loop S K p n} (h : A.runB w c fuel s0 = .ok (r, L)) :
    ∃ (w' : Nat → S → S) (r' : Result K n) (L' : Loop S K p n), ((w' = w ∧ c.hasCallback = true) ∨ w' = fun _ s => s) ∧
      (A.writing w').run c fuel s0 = .ok (r', L') ∧ r = { r' with x := A.best (w' L'.it L'.s) } ∧
      L = { L' with s := w' L'.it L'.s } := by
  unfold Alg.runB at h
  split_ifs at h with hc
  · rw [bind_ok_iff] at h
    obtain ⟨⟨r', L'⟩, h1, h⟩ := h
    simp only [Except.ok.injEq, Prod.mk.injEq] at h
    obtain ⟨rfl, rfl⟩ := h
    exact ⟨w, r', L', Or.inl ⟨rfl, hc⟩, h1, rfl, rfl⟩
  · refine ⟨fun _ s => s, r, L, Or.inr rfl, ?_, ?_, rfl⟩
    · rw [Alg.writing_id]; exact h
    · rw [← (run_it h).2]

/-- The same algorithm, without a best solution to show. -/
def Alg.blind (A : Alg S K p n) : Alg S K p n := { A with best := fun _ _ => 0 }

theorem Alg.Hist.blind {l st} (h : (A.writing w).Hist s0 l st) : (A.blind.writing w).Hist s0 l st := by
  induction h with
  | init => exact .init
  | next _ hn ih => exact .next ih hn

theorem Alg.Laws.blind {maxiter : Int} {ev : S → List (Vec K n)} (hl : A.Laws maxiter ev) : A.blind.Laws maxiter ev where
  best_post _ _ := rfl
  fun_post := hl.fun_post
  ev_post := hl.ev_post
  ev_step := hl.ev_step
  cont := hl.cont
  budget := hl.budget
  codes := hl.codes
  noFuel := hl.noFuel

/-- Counts and values of a run whose best solution is overwritten. -/
theorem values_writing {maxiter : Int} {ev : S → List (Vec K n)} {M : S → Prop} {fuel : Nat} {r : Result K n} {L : Loop S K p n}
    {caller : S → Option (Pop K p n)} {rng : S → σ} (hl : A.Laws maxiter ev) (hM : A.Mono M)
    (hf : ∀ k s, A.bestFun (w k s) = A.bestFun s) (he : ∀ k s, ev (w k s) = ev s) (hw : ∀ k s, M s → M (w k s)) (h0 : M s0)
    (hlen : (ev s0).length = p) (h : (A.writing w).run c fuel s0 = .ok (r, L)) :
    BestNeverWorsens (mkOut r L ev caller rng) ∧ CountsExact (mkOut r L ev caller rng) ∧ (ev L.s).take p = ev s0 := by
  have hlb : (A.blind.writing w).Laws maxiter ev := hl.blind.writing (fun _ _ => rfl) hf he
  have hM' := hM.writing hw hf
  obtain ⟨l, st, msg, hH, -, hlog, hm, rfl⟩ := run_hist h
  refine ⟨?_, ⟨(hlb.ev_length hlen hH.blind).symm, Nat.mul_comm _ _, ?_⟩, hlb.ev_take hlen hH.blind⟩
  · by_cases hc : c.hasCallback = true
    · refine ⟨?_, ?_⟩
      · show (L.cbs.map CB.fval).Pairwise _
        rw [hlog.map_fval hc, List.pairwise_map, List.pairwise_reverse]
        refine (pairwise_of_hist (R := fun a b => sortLe (A.bestFun b) (A.bestFun a)) ?_ M ?_ hH h0).1
        · intro a b c h1 h2; exact sortLe_trans h2 h1
        · intro it s s' st hs hn
          unfold Alg.next at hn
          split_ifs at hn
          · exact hM'.step hs hn
          · have := hM'.step (hM'.post _ _ hs) hn
            rw [show (A.writing w).bestFun ((A.writing w).post it s) = A.bestFun s from
              (hl.fun_post it (w it s)).trans (hf it s)] at this
            exact this
      · intro b hb
        rw [show (mkOut _ L ev caller rng).cbs = L.cbs from rfl, hlog.getLast hc] at hb
        simp only [Option.some.injEq] at hb
        subst hb; rfl
    · have := hlog.cbs_none (by simpa using hc)
      simp [BestNeverWorsens, mkOut, this]
  · intro b hb
    obtain ⟨s, _, k, rfl, _⟩ := hlog.mem_cbs hb
    exact Nat.mul_comm _ _

/-- What holds after every selection (`J`), although writes and `post` only keep part of it (`I`). -/
theorem Alg.Hist.last_writing {l : List S} {s : S} {st} (h : (A.writing w).Hist s0 (s :: l) st) (I J : S → Prop) (h0 : J s0)
    (hJ : ∀ s, J s → I s) (hstep : ∀ it s s' st, I s → A.step it s = .ok (s', st) → J s') (hpost : ∀ it s, I s → I (A.post it s))
    (hw : ∀ k s, I s → I (w k s)) : J s := by
  refine h.inv_head (fun _ s _ => J s) h0 ?_ s l rfl
  intro it s s' st _ hs hn
  unfold Alg.next at hn
  have hn' : A.step (it + 1) (if it + 1 = 2 then w 1 (if it = 1 then s else A.post it (w it s)) else if it = 1 then s else
    A.post it (w it s)) = .ok (s', st) := hn
  refine hstep _ _ _ _ ?_ hn'
  have h1 : I (if it = 1 then s else A.post it (w it s)) := by
    split_ifs
    · exact hJ s hs
    · exact hpost _ _ (hw _ _ (hJ s hs))
  by_cases h2 : it + 1 = 2
  · rw [if_pos h2]; exact hw _ _ h1
  · rw [if_neg h2]; exact h1

theorem runB_same {Q : CB K p n → Prop} {J : S → Prop} (hJs : ∀ it s s' st, J s → A.step it s = .ok (s', st) → J s')
    (hJp : ∀ it s, J s → J (A.post it s)) (hw : ∀ k s rX rF, J s → Q (A.cb c s k rX rF) → w k s = s) {fuel : Nat} {r : Result K n}
    {L : Loop S K p n} (h : A.run c fuel s0 = .ok (r, L)) (h0 : J s0) (hb : ∀ b ∈ L.cbs, Q b) :
    A.runB w c fuel s0 = .ok (r, L) := by
  have hx := (run_it h).2
  have hC := runC_same hJs hJp hw h h0 hb
  unfold Alg.runC at hC
  unfold Alg.runB
  split_ifs at hC ⊢ with hc
  · rw [bind_ok_iff] at hC
    obtain ⟨⟨r', L'⟩, h1, h2⟩ := hC
    simp only [Except.ok.injEq, Prod.mk.injEq] at h2
    obtain ⟨rfl, h2⟩ := h2
    rw [h1]
    have hs : w L'.it L'.s = L.s := congrArg Loop.s h2
    show Except.ok ({ r' with x := A.best (w L'.it L'.s) }, { L' with s := w L'.it L'.s }) = _
    rw [h2, hs, ← hx]
  · exact h

variable {it : Nat} {cand x : Pop K p n} {xbest : Vec K n} {xfun : Fin p → Val K} {maxiter : Int} {xtol : K} {ftol : Val K}
  {obj : Obj K n} {r : SelSync K p n} {f : Vec K n → Val K}

/-- Deferred selection takes the best pair from the population, whatever was the best before. -/
theorem selectionSync_fits {T : Prop} {reset : Val K} {E E' : Vec K n → Prop}
    (h : selectionSync it cand xbest x xfun maxiter xtol ftol obj = .ok r)
    (hf : ∀ y : Pop K p n, ∀ i, obj.pop y i = f (y i)) (hr : reset ≠ .nan)
    (hE : ∀ y, E y → E' y) (hE' : ∀ i, E' (cand i)) (hfits : ∀ i, (xfun i = f (x i) ∧ E (x i)) ∨ (T ∧ xfun i = reset))
    (hl : T → ∃ i, xfun i < reset) : Inv1 T reset f E' r.x r.xfun r.xbest r.xbestfun := by
  obtain ⟨-, hsel, ⟨i, hi, hb, hbf⟩, -⟩ := selectionSync_ok h hf
  have hfit : ∀ i, (r.xfun i = f (r.x i) ∧ E' (r.x i)) ∨ (T ∧ r.xfun i = reset) := by
    intro i
    rcases hsel i with ⟨h1, h2, -⟩ | ⟨h1, h2, -⟩
    · left; rw [h1, h2]; exact ⟨rfl, hE' i⟩
    · rw [h1, h2]
      rcases hfits i with h | h
      · exact Or.inl ⟨h.1, hE _ h.2⟩
      · exact Or.inr h
  have hlow : T → ∃ i, r.xfun i < reset := by
    intro t
    obtain ⟨j, hj⟩ := hl t
    refine ⟨j, ?_⟩
    rcases hsel j with ⟨h1, -, h3⟩ | ⟨h1, -, -⟩
    · rw [h1]; exact Val.lt_of_lt_of_le' h3 (Val.le_of_lt' hj)
    · rw [h1]; exact hj
  refine ⟨hfit, hlow, ?_⟩
  rw [hb, hbf]
  rcases hfit i with h | ⟨t, h⟩
  · exact h
  · obtain ⟨j, hj⟩ := hlow t
    have := argmin_le hi (by rw [h]; exact hr) j
    rw [h] at this
    exact absurd hj (Val.not_lt_of_le' this)

end frame

section optimizers
variable {K σ : Type} [AddZeroClass K] [One K] [Sub K] [Mul K] [Div K] [Neg K] [NatCast K] [IntCast K] [Pow K ℕ] [ArrayOps K] [LinearOrder K]

namespace DE
variable {p n : Nat} {P : Par σ K p n} {f : Vec K n → Val K}

/-- What a write into both arrays leaves alone. -/
structure Keeps2 (w : Nat → State σ K p n → State σ K p n) : Prop where
  gfit : ∀ k s, (w k s).gfit = s.gfit
  pbestfit : ∀ k s, (w k s).pbestfit = s.pbestfit
  evals : ∀ k s, (w k s).evals = s.evals
  rng : ∀ k s, (w k s).rng = s.rng

theorem keeps2 {wr : Nat → Pop K p n × Vec K n → Pop K p n × Vec K n} {w : Nat → State σ K p n → State σ K p n} {q : Prop}
    (h : (w = State.writeBoth wr ∧ q) ∨ w = fun _ s => s) : Keeps2 w := by
  rcases h with ⟨rfl, _⟩ | rfl <;> exact ⟨fun _ _ => rfl, fun _ _ => rfl, fun _ _ => rfl, fun _ _ => rfl⟩

/-- The population carries its values. -/
def OwnFits (f : Vec K n → Val K) (s : State σ K p n) : Prop := ∀ i, s.pbestfit i = f (s.X i) ∧ s.X i ∈ s.evals

theorem ownFits_step (hf : P.obj.Faithful f) {it : Nat} {s s' : State σ K p n} {st : Option Int} (hI : OwnFits f s)
    (h : (alg P true).step it s = .ok (s', st)) : I1 f s' := by
  rw [alg_step] at h
  obtain ⟨U, r, _, hr, hst, rfl⟩ := stepSync_ok h
  exact selectionSync_fits hr hf.pop (by simp) (fun y hy => List.mem_append_left _ hy) (fun i => List.mem_append_right _ (by simp))
    (fun i => Or.inl (hI i)) False.elim

theorem I1.fits' {s : State σ K p n} (h : I1 f s) : OwnFits f s := fun i => (h.fits i).resolve_right fun h => h.1

variable [IntParts K] {env : Env} {R : Rng σ K} {fuel : Nat} {g : σ}

theorem minimizeB_ok (he : env.Ok) {a : Args K} {wr : Nat → Pop K a.p a.ndim × Vec K a.ndim → Pop K a.p a.ndim × Vec K a.ndim}
    {o : Output σ K a.p a.ndim} (h : minimizeB env R fuel a wr g = .ok o) :
    ∃ (fn : Vec K a.ndim → Val K) (P : Par σ K a.p a.ndim) (s0 : State σ K a.p a.ndim) (r : Result K a.ndim)
      (L : Loop (State σ K a.p a.ndim) K a.p a.ndim) (w : Nat → State σ K a.p a.ndim → State σ K a.p a.ndim),
      a.fn = some fn ∧ P.obj.Faithful fn ∧ (∀ d F X g, P.strat d F X g ≠ .error .outOfFuel) ∧
      init P a.x0Pop (a.seeded R g) = .ok s0 ∧ ((w = State.writeBoth wr ∧ a.cfg.hasCallback = true) ∨ w = fun _ s => s) ∧
      ((alg P a.sync).writing w).run a.cfg fuel s0 = .ok (r, L) ∧
      o = mkOut { r with x := (w L.it L.s).gbest } L State.evals (fun s => (w L.it s).caller) State.rng := by
  unfold minimizeB at h
  rw [bind_ok_iff] at h
  obtain ⟨strat, hv, h⟩ := h
  cases hfn : a.fn with
  | none => rw [hfn] at h; simp at h
  | some fn =>
    rw [hfn] at h
    dsimp only at h
    obtain ⟨obj, hobj, h⟩ := optimizer_ok he h
    rw [bind_ok_iff] at h
    obtain ⟨_, _, h⟩ := h
    rw [bind_ok_iff] at h
    obtain ⟨cons, hcons, h⟩ := h
    unfold deB at h
    rw [bind_ok_iff] at h
    obtain ⟨s0, hs0, h⟩ := h
    rw [bind_ok_iff] at h
    obtain ⟨⟨r, L⟩, hrun, h⟩ := h
    simp only [Except.ok.injEq] at h
    obtain ⟨w, r', L', hw, hrun', rfl, rfl⟩ := runB_ok hrun
    have hname := (validate_ok hv).2.2.2.2.2.2.2.2.1
    refine ⟨fn, _, s0, r', L', w, rfl, hobj, strategyMap_ne_outOfFuel hname, hs0, hw, hrun', ?_⟩
    rw [← h]
    unfold mkOut
    simp only [(keeps2 hw).evals, (keeps2 hw).rng]
    rfl

theorem minimizeB_same {a : Args K} {wr : Nat → Pop K a.p a.ndim × Vec K a.ndim → Pop K a.p a.ndim × Vec K a.ndim}
    {o : Output σ K a.p a.ndim} (h : minimize env R fuel a g = .ok o) (hb : LeavesState wr o) : minimizeB env R fuel a wr g = .ok o := by
  unfold minimize at h
  unfold minimizeB
  rw [bind_ok_iff] at h
  obtain ⟨strat, hv, h⟩ := h
  rw [hv]
  show (match a.fn with | none => _ | some fn => _) = _
  cases hfn : a.fn with
  | none => rw [hfn] at h; simp at h
  | some fn =>
    rw [hfn] at h
    dsimp only at h ⊢
    refine optimizer_mono_ok h ?_
    intro obj h
    rw [bind_ok_iff] at h
    obtain ⟨u, hu, h⟩ := h
    rw [bind_ok_iff] at h
    obtain ⟨cons, hcons, h⟩ := h
    rw [hu, hcons]
    show deB _ _ _ _ _ _ _ = _
    unfold de at h
    unfold deB
    rw [bind_ok_iff] at h
    obtain ⟨s0, hs0, h⟩ := h
    rw [bind_ok_iff] at h
    obtain ⟨⟨r, L⟩, hrun, h⟩ := h
    have hcb : L.cbs = o.cbs := by simp only [Except.ok.injEq] at h; rw [← h]
    rw [hs0]
    show (do let r ← Alg.runB _ _ _ _ s0; _) = _
    rw [runB_same (Q := fun b => wr b.nit (b.X, b.x) = (b.X, b.x)) (J := IC) (fun _ _ _ _ hJ hs => IC_step hJ hs) (fun _ _ h => h) ?_
      hrun ?_ (by rw [hcb]; exact hb)]
    · exact h
    · intro k s _ _ hJ hX
      have hX' : wr k (s.X, s.gbest) = (s.X, s.gbest) := hX
      unfold State.writeBoth
      rw [hX']
      dsimp only
      rw [← hJ]
    · obtain ⟨i, _, rfl⟩ := init_ok hs0
      unfold IC
      dsimp only
      unfold initPop
      cases a.x0Pop <;> rfl

end DE

namespace CPSO
variable {p n : Nat} [IntParts K] [NumFns K] {P : Par σ K n} {f : Vec K n → Val K}

/-- What a write into both arrays leaves alone. -/
structure Keeps2 (w : Nat → State σ K p n → State σ K p n) : Prop where
  gfit : ∀ k s, (w k s).gfit = s.gfit
  pbest : ∀ k s, (w k s).pbest = s.pbest
  pbestfit : ∀ k s, (w k s).pbestfit = s.pbestfit
  evals : ∀ k s, (w k s).evals = s.evals
  rng : ∀ k s, (w k s).rng = s.rng

theorem keeps2 {wr : Nat → Pop K p n × Vec K n → Pop K p n × Vec K n} {w : Nat → State σ K p n → State σ K p n} {q : Prop}
    (h : (w = State.writeBoth wr ∧ q) ∨ w = fun _ s => s) : Keeps2 w := by
  rcases h with ⟨rfl, _⟩ | rfl <;>
    exact ⟨fun _ _ => rfl, fun _ _ => rfl, fun _ _ => rfl, fun _ _ => rfl, fun _ _ => rfl⟩

/-- The personal bests carry their values. -/
def OwnFits (P : Par σ K n) (f : Vec K n → Val K) (s : State σ K p n) : Prop :=
  (∀ i, (s.pbestfit i = f (s.pbest i) ∧ s.pbest i ∈ s.evals) ∨ (Restarts P ∧ s.pbestfit i = resetFit)) ∧
    (Restarts P → ∃ i, s.pbestfit i < resetFit)

/-- Some particle that has not been restarted. -/
def Low (P : Par σ K n) (s : State σ K p n) : Prop := Restarts P → ∃ i, s.pbestfit i < resetFit

theorem low_step {sync : Bool} (hf : P.obj.Faithful f) {it : Nat} {s s' : State σ K p n} {st : Option Int} (hI : Low P s)
    (h : (alg P sync).step it s = .ok (s', st)) : Low P s' := by
  rw [alg_step] at h
  cases sync with
  | true =>
    obtain ⟨r, hr, hst, rfl⟩ := stepSync_ok h
    intro t
    obtain ⟨j, hj⟩ := hI t
    obtain ⟨-, hsel, -⟩ := selectionSync_ok hr hf.pop
    refine ⟨j, ?_⟩
    dsimp only
    rcases hsel j with ⟨h1, -, h3⟩ | ⟨h1, -, -⟩
    · rw [h1]; exact Val.lt_of_lt_of_le' h3 (Val.le_of_lt' hj)
    · rw [h1]; exact hj
  | false =>
    obtain ⟨r, hr, rfl, _⟩ := stepAsync_ok h
    rw [hr]
    refine foldl_inv (fun acc : State σ K p n × Option Int => Low P acc.1) ?_ _ ?_
    · intro b i hb t
      obtain ⟨j, hj⟩ := hb t
      refine ⟨j, ?_⟩
      unfold rowAsync
      dsimp only
      rcases (selectionAsync_cases (obj := P.obj) (f := f) hf.one).2 with ⟨h1, _, h2, _⟩ | ⟨_, _, h2, _⟩
      · rw [h2]
        by_cases hji : j = i
        · subst hji
          rw [Function.update_self]
          exact Val.lt_of_le_of_lt' h1 hj
        · rw [Function.update_of_ne hji]; exact hj
      · rw [h2]; exact hj
    · exact hI

theorem ownFits_step (hf : P.obj.Faithful f) {it : Nat} {s s' : State σ K p n} {st : Option Int} (hI : OwnFits P f s)
    (h : (alg P true).step it s = .ok (s', st)) : I1 P f s' := by
  rw [alg_step] at h
  obtain ⟨r, hr, hst, rfl⟩ := stepSync_ok h
  exact selectionSync_fits hr hf.pop resetFit_ne_nan (fun y hy => List.mem_append_left _ hy)
    (fun i => List.mem_append_right _ (by simp)) hI.1 hI.2

theorem low_post [FewRestarts K p] (hsrt : IsArgsort P.argsort) (hp : 0 < p) (it : Nat) {s : State σ K p n} (hI : Low P s) : Low P (post P it s) := by
  obtain ⟨⟨q0, hq0, hq0f, _⟩, _⟩ := post_particle (P := P) hsrt hp it s
  intro t
  obtain ⟨j, hj⟩ := hI t
  refine ⟨q0, ?_⟩
  rw [hq0f]
  rcases hq0 j with h | h
  · rw [h] at hj; exact absurd hj Val.not_nan_lt
  · exact Val.lt_of_le_of_lt' h hj

theorem ownFits_post [FewRestarts K p] (hsrt : IsArgsort P.argsort) (hp : 0 < p) (it : Nat) {s : State σ K p n} (hI : OwnFits P f s) :
    OwnFits P f (post P it s) := by
  obtain ⟨_, hall⟩ := post_particle (P := P) hsrt hp it s
  obtain ⟨_, _, he, _⟩ := post_fields (P := P) it s
  refine ⟨fun q => ?_, low_post hsrt hp it hI.2⟩
  rw [he]
  rcases hall q with ⟨h1, h2, _⟩ | ⟨ht, h1, _⟩
  · rw [h1, h2]; exact hI.1 q
  · exact Or.inr ⟨ht, h1⟩

theorem low_I2_post [FewRestarts K p] (hsrt : IsArgsort P.argsort) (hp : 0 < p) (it : Nat) {s : State σ K p n} (h1 : Low P s) (hI : I2 f s) :
    I2 f (post P it s) := by
  have hM : IM s := fun _ => ⟨fun q => Val.ne_nan_right (hI.lb q), hI.att⟩
  obtain ⟨_, hatt⟩ := IM_post (P := P) hsrt hp it hM (by
    rw [(post_fields (P := P) it s).2.1]; exact hI.ne_nan)
  obtain ⟨_, hall⟩ := post_particle (P := P) hsrt hp it s
  obtain ⟨hb, hg, he, _⟩ := post_fields (P := P) it s
  unfold I2
  rw [hg] at hatt ⊢
  rw [he]
  refine ⟨fun q => ?_, hatt, hI.all⟩
  rcases hall q with ⟨h2, _⟩ | ⟨ht, h2, _⟩
  · rw [h2]; exact hI.lb q
  · rw [h2]
    obtain ⟨j, hj⟩ := h1 ht
    exact Val.le_trans' (hI.lb j) (Val.le_of_lt' hj)

variable {env : Env} {R : Rng σ K} {srt : Argsort K} {fuel : Nat} {g : σ}

theorem minimizeB_ok (he : env.Ok) {a : Args K} {wr : Nat → Pop K a.p a.ndim × Vec K a.ndim → Pop K a.p a.ndim × Vec K a.ndim}
    {o : Output σ K a.p a.ndim} (h : minimizeB env R srt fuel a wr g = .ok o) :
    ∃ (fn : Vec K a.ndim → Val K) (P : Par σ K a.ndim) (s0 : State σ K a.p a.ndim) (r : Result K a.ndim)
      (L : Loop (State σ K a.p a.ndim) K a.p a.ndim) (w : Nat → State σ K a.p a.ndim → State σ K a.p a.ndim),
      a.fn = some fn ∧ validate a = .ok () ∧ P.obj.Faithful fn ∧ P.argsort = srt ∧ P.gamma = a.competitivity ∧
      init P a.x0Pop (a.seeded R g) = .ok s0 ∧ ((w = State.writeBoth wr ∧ a.cfg.hasCallback = true) ∨ w = fun _ s => s) ∧
      ((alg P a.sync).writing w).run a.cfg fuel s0 = .ok (r, L) ∧
      o = mkOut { r with x := (w L.it L.s).gbest } L State.evals (fun s => (w L.it s).caller) State.rng := by
  unfold minimizeB at h
  rw [bind_ok_iff] at h
  obtain ⟨_, hv, h⟩ := h
  cases hfn : a.fn with
  | none => rw [hfn] at h; simp at h
  | some fn =>
    rw [hfn] at h
    dsimp only at h
    obtain ⟨obj, hobj, h⟩ := optimizer_ok he h
    rw [bind_ok_iff] at h
    obtain ⟨_, _, h⟩ := h
    rw [bind_ok_iff] at h
    obtain ⟨cons, hcons, h⟩ := h
    unfold cpsoB at h
    rw [bind_ok_iff] at h
    obtain ⟨s0, hs0, h⟩ := h
    rw [bind_ok_iff] at h
    obtain ⟨⟨r, L⟩, hrun, h⟩ := h
    simp only [Except.ok.injEq] at h
    obtain ⟨w, r', L', hw, hrun', rfl, rfl⟩ := runB_ok hrun
    refine ⟨fn, _, s0, r', L', w, rfl, hv, hobj, rfl, rfl, hs0, hw, hrun', ?_⟩
    rw [← h]
    unfold mkOut
    simp only [(keeps2 hw).evals, (keeps2 hw).rng]
    rfl

theorem minimizeB_same {a : Args K} {wr : Nat → Pop K a.p a.ndim × Vec K a.ndim → Pop K a.p a.ndim × Vec K a.ndim}
    {o : Output σ K a.p a.ndim} (h : minimize env R srt fuel a g = .ok o) (hb : LeavesState wr o) :
    minimizeB env R srt fuel a wr g = .ok o := by
  unfold minimize at h
  unfold minimizeB
  rw [bind_ok_iff] at h
  obtain ⟨strat, hv, h⟩ := h
  rw [hv]
  show (match a.fn with | none => _ | some fn => _) = _
  cases hfn : a.fn with
  | none => rw [hfn] at h; simp at h
  | some fn =>
    rw [hfn] at h
    dsimp only at h ⊢
    refine optimizer_mono_ok h ?_
    intro obj h
    rw [bind_ok_iff] at h
    obtain ⟨u, hu, h⟩ := h
    rw [bind_ok_iff] at h
    obtain ⟨cons, hcons, h⟩ := h
    rw [hu, hcons]
    show cpsoB _ _ _ _ _ _ _ = _
    unfold cpso at h
    unfold cpsoB
    rw [bind_ok_iff] at h
    obtain ⟨s0, hs0, h⟩ := h
    rw [bind_ok_iff] at h
    obtain ⟨⟨r, L⟩, hrun, h⟩ := h
    have hcb : L.cbs = o.cbs := by simp only [Except.ok.injEq] at h; rw [← h]
    rw [hs0]
    show (do let r ← Alg.runB _ _ _ _ s0; _) = _
    rw [runB_same (Q := fun b => wr b.nit (b.X, b.x) = (b.X, b.x)) (J := IC) (fun _ _ _ _ hJ hs => IC_step hJ hs)
      (fun it s h => IC_post it s h) ?_ hrun ?_ (by rw [hcb]; exact hb)]
    · exact h
    · intro k s _ _ hJ hX
      have hX' : wr k (s.X, s.gbest) = (s.X, s.gbest) := hX
      unfold State.writeBoth writeThrough
      rw [hX']
      dsimp only
      split_ifs with ha
      · rw [← hJ ha]
      · rfl
    · obtain ⟨i, _, rfl⟩ := init_ok hs0
      intro _
      dsimp only
      unfold initPop
      cases a.x0Pop <;> rfl

end CPSO

end optimizers

end Stochopy
