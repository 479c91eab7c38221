import Verif.Model.CallbackWrites
import Verif.Lemmas.DE
import Verif.Lemmas.CPSO
import Verif.Lemmas.Laws
import Verif.Lemmas.InPlace

set_option linter.unusedSectionVars false

/-!
# Callbacks that write (C110): lemmas
-/

namespace Stochopy
open Spec

section frame
variable {S K : Type} [AddZeroClass K] [One K] [Sub K] [Mul K] [Div K] [Neg K] [NatCast K] [IntCast K] [Pow K ℕ] [ArrayOps K] [LinearOrder K]
variable {p n : Nat} {A : Alg S K p n} {w : Nat → S → S} {c : Cfg} {s0 : S}

theorem Alg.writing_id (A : Alg S K p n) : A.writing (fun _ s => s) = A := by
  unfold Alg.writing
  simp only [ite_self]

/-- A run with or without callback. -/
theorem runC_ok {fuel : Nat} {r : Result K n} {L : Loop S K p n} (h : A.runC w c fuel s0 = .ok (r, L)) :
    ∃ (w' : Nat → S → S) (L' : Loop S K p n), (w' = w ∨ w' = fun _ s => s) ∧ (A.writing w').run c fuel s0 = .ok (r, L') ∧
      L = { L' with s := w' L'.it L'.s } := by
  unfold Alg.runC at h
  split_ifs at h with hc
  · rw [bind_ok_iff] at h
    obtain ⟨⟨r', L'⟩, h1, h⟩ := h
    simp only [Except.ok.injEq, Prod.mk.injEq] at h
    obtain ⟨rfl, rfl⟩ := h
    exact ⟨w, L', Or.inl rfl, h1, rfl⟩
  · refine ⟨fun _ s => s, L, Or.inr rfl, ?_, rfl⟩
    rw [Alg.writing_id]; exact h

theorem Alg.Laws.writing {maxiter : Int} {ev : S → List (Vec K n)} (hl : A.Laws maxiter ev) (hb : ∀ k s, A.best (w k s) = A.best s)
    (hf : ∀ k s, A.bestFun (w k s) = A.bestFun s) (he : ∀ k s, ev (w k s) = ev s) : (A.writing w).Laws maxiter ev where
  best_post it s := (hl.best_post it (w it s)).trans (hb it s)
  fun_post it s := (hl.fun_post it (w it s)).trans (hf it s)
  ev_post it s := (hl.ev_post it (w it s)).trans (he it s)
  ev_step := by
    intro it s s' st h
    obtain ⟨ys, h1, h2⟩ := hl.ev_step h
    refine ⟨ys, h1, h2.trans ?_⟩
    split_ifs
    · rw [he]
    · rfl
  cont h := hl.cont h
  budget h := hl.budget h
  codes h := hl.codes h
  noFuel it s := hl.noFuel it _

theorem Alg.Mono.writing {M : S → Prop} (hM : A.Mono M) (hw : ∀ k s, M s → M (w k s)) (hf : ∀ k s, A.bestFun (w k s) = A.bestFun s) :
    (A.writing w).Mono M where
  post it s h := hM.post it _ (hw it s h)
  step := by
    intro it s s' st hI h
    have h' : A.step it (if it = 2 then w 1 s else s) = .ok (s', st) := h
    split_ifs at h'
    · obtain ⟨h1, h2⟩ := hM.step (hw 1 s hI) h'
      rw [hf] at h2
      exact ⟨h1, h2⟩
    · exact hM.step hI h'

/-- An invariant of the step, of `post` and of the writes. -/
theorem Alg.Hist.inv_writing {l st} (h : (A.writing w).Hist s0 l st) (I : S → Prop) (h0 : I s0)
    (hstep : ∀ it s s' st, I s → A.step it s = .ok (s', st) → I s') (hpost : ∀ it s, I s → I (A.post it s))
    (hw : ∀ k s, I s → I (w k s)) : ∀ s ∈ l, I s :=
  h.inv I h0
    (fun it s s' st _ hI hs => by
      have hs' : A.step it (if it = 2 then w 1 s else s) = .ok (s', st) := hs
      split_ifs at hs'
      · exact hstep _ _ _ _ (hw 1 s hI) hs'
      · exact hstep _ _ _ _ hI hs')
    (fun it s _ hI => hpost it _ (hw it s hI))

theorem body_cbs {L L' : Loop S K p n} {b : Bool} (h : A.body c L = .ok (L', b)) : ∀ x ∈ L.cbs, x ∈ L'.cbs := by
  unfold Alg.body at h
  rw [bind_ok_iff] at h
  obtain ⟨r, _, h⟩ := h
  rw [bind_ok_iff] at h
  obtain ⟨rows, _, h⟩ := h
  simp only [Except.ok.injEq, Prod.mk.injEq] at h
  intro x hx
  rw [← h.1]
  dsimp only
  split_ifs
  · exact List.mem_append_left _ hx
  · exact hx

theorem loop_cbs : ∀ (fuel : Nat) {L L' : Loop S K p n}, A.loop c fuel L = .ok L' → ∀ x ∈ L.cbs, x ∈ L'.cbs
  | 0, L, L', h => by simp [Alg.loop] at h
  | fuel + 1, L, L', h => by
    rw [Alg.loop, bind_ok_iff] at h
    obtain ⟨⟨L1, b⟩, hb, h⟩ := h
    intro x hx
    have hx1 := body_cbs hb x hx
    cases b with
    | true => simp only [if_true, Except.ok.injEq] at h; rw [← h]; exact hx1
    | false => simp only [Bool.false_eq_true, if_false] at h; exact loop_cbs fuel h x hx1

variable {Q : CB K p n → Prop} {J : S → Prop}

/-- Writes that leave what is shown as it is (`Q`) do not change the loop. -/
theorem loop_same (hc : c.hasCallback = true) (hJs : ∀ it s s' st, J s → A.step it s = .ok (s', st) → J s')
    (hJp : ∀ it s, J s → J (A.post it s)) (hw : ∀ k s rX rF, J s → Q (A.cb c s k rX rF) → w k s = s) :
    ∀ (fuel : Nat) {L L' : Loop S K p n}, A.loop c fuel L = .ok L' → J L.s → 1 ≤ L.it → (L.it = 1 → w 1 L.s = L.s) →
      (∀ b ∈ L'.cbs, Q b) → (A.writing w).loop c fuel L = .ok L' ∧ w L'.it L'.s = L'.s
  | 0, L, L', h, _, _, _, _ => by simp [Alg.loop] at h
  | fuel + 1, L, L', h, hJ, hit, h1, hb => by
    rw [Alg.loop, bind_ok_iff] at h
    obtain ⟨⟨L1, b⟩, hbody, h⟩ := h
    have hbody' := hbody
    unfold Alg.body at hbody
    rw [bind_ok_iff] at hbody
    obtain ⟨⟨s', st⟩, hs, hbody⟩ := hbody
    rw [bind_ok_iff] at hbody
    obtain ⟨rows, hrows, hbody⟩ := hbody
    simp only [Except.ok.injEq, Prod.mk.injEq] at hbody
    obtain ⟨hL1, hbst⟩ := hbody
    have hJ' := hJs _ _ _ _ hJ hs
    have hin : ∀ x ∈ L1.cbs, x ∈ L'.cbs := by
      intro x hx
      cases b with
      | true => simp only [if_true, Except.ok.injEq] at h; rw [← h]; exact hx
      | false => simp only [Bool.false_eq_true, if_false] at h; exact loop_cbs fuel h x hx
    have hshown : Q (A.cb c s' (L.it + 1) (L.rowsX ++ rows.1) (L.rowsF ++ rows.2)) :=
      hb _ (hin _ (by rw [← hL1]; dsimp only; rw [if_pos hc]; simp))
    have hws : w (L.it + 1) s' = s' := hw _ _ _ _ hJ' hshown
    have harg : (if L.it + 1 = 2 then w 1 L.s else L.s) = L.s := by
      split_ifs with h2
      · exact h1 (by omega)
      · rfl
    have hnew : (A.writing w).body c L = .ok (L1, b) := by
      unfold Alg.body
      dsimp only
      have e1 : (A.writing w).step (L.it + 1) L.s = .ok (s', st) := by
        show A.step (L.it + 1) (if L.it + 1 = 2 then w 1 L.s else L.s) = _
        rw [harg]; exact hs
      rw [e1]
      show (do let rows ← A.record c (L.it + 1) s'; _) = _
      rw [hrows]
      show Except.ok _ = _
      congr 1
      rw [← hL1, ← hbst]
      have e2 : (A.writing w).post (L.it + 1) s' = A.post (L.it + 1) s' := by
        show A.post (L.it + 1) (w (L.it + 1) s') = _
        rw [hws]
      dsimp only
      rw [e2]
      rfl
    have hloop : (A.writing w).loop c (fuel + 1) L = if b then .ok L1 else (A.writing w).loop c fuel L1 := by
      rw [Alg.loop, hnew]; rfl
    rw [hloop]
    have hit1 : L1.it = L.it + 1 := by rw [← hL1]
    cases b with
    | true =>
      simp only [if_true, Except.ok.injEq] at h ⊢
      refine ⟨h, ?_⟩
      rw [← h, hit1]
      have : L1.s = s' := by rw [← hL1]; dsimp only; rw [if_pos hbst]
      rw [this]; exact hws
    | false =>
      simp only [Bool.false_eq_true, if_false] at h ⊢
      have e : L1.s = A.post (L.it + 1) s' := by
        rw [← hL1]; dsimp only; rw [if_neg (by rw [hbst]; simp)]
      exact loop_same hc hJs hJp hw fuel h (by rw [e]; exact hJp _ _ hJ') (by omega) (fun h2 => by omega) hb

theorem runC_same (hJs : ∀ it s s' st, J s → A.step it s = .ok (s', st) → J s')
    (hJp : ∀ it s, J s → J (A.post it s)) (hw : ∀ k s rX rF, J s → Q (A.cb c s k rX rF) → w k s = s) {fuel : Nat} {r : Result K n}
    {L : Loop S K p n} (h : A.run c fuel s0 = .ok (r, L)) (h0 : J s0) (hb : ∀ b ∈ L.cbs, Q b) :
    A.runC w c fuel s0 = .ok (r, L) := by
  unfold Alg.runC
  split_ifs with hc
  · unfold Alg.run at h ⊢
    rw [bind_ok_iff] at h
    obtain ⟨L0, hL0, h⟩ := h
    rw [bind_ok_iff] at h
    obtain ⟨L1, hL1, h⟩ := h
    rw [bind_ok_iff] at h
    obtain ⟨r1, hr1, h⟩ := h
    simp only [Except.ok.injEq, Prod.mk.injEq] at h
    obtain ⟨rfl, rfl⟩ := h
    have hst := hL0
    unfold Alg.start at hst
    rw [bind_ok_iff] at hst
    obtain ⟨rows, _, hst⟩ := hst
    simp only [Except.ok.injEq, if_pos hc] at hst
    have hsh : Q (A.cb c s0 1 rows.1 rows.2) :=
      hb (A.cb c s0 1 rows.1 rows.2) (loop_cbs fuel hL1 _ (by rw [← hst]; simp))
    have hs : L0.s = s0 := by rw [← hst]
    have hi : L0.it = 1 := by rw [← hst]
    obtain ⟨h1, h2⟩ := loop_same (Q := Q) hc hJs hJp hw fuel hL1 (by rw [hs]; exact h0) (by omega)
      (fun _ => by rw [hs]; exact hw 1 s0 _ _ h0 hsh) hb
    have hL0' : (A.writing w).start c s0 = .ok L0 := hL0
    have hr1' : (A.writing w).finish c L1 = .ok r1 := hr1
    rw [hL0']
    show (do let r ← (do let L ← (A.writing w).loop c fuel L0; let res ← (A.writing w).finish c L; .ok (res, L)); _) = _
    rw [h1]
    show (do let r ← (do let res ← (A.writing w).finish c L1; .ok (res, L1)); _) = _
    rw [hr1']
    show Except.ok (r1, { L1 with s := w L1.it L1.s }) = _
    rw [h2]
  · exact h

end frame

section optimizers
variable {K σ : Type} [AddZeroClass K] [One K] [Sub K] [Mul K] [Div K] [Neg K] [NatCast K] [IntCast K] [Pow K ℕ] [ArrayOps K] [LinearOrder K]

namespace DE
variable {p n : Nat} {P : Par σ K p n} {f : Vec K n → Val K}

/-- What a write leaves alone. -/
structure Keeps (w : Nat → State σ K p n → State σ K p n) : Prop where
  gbest : ∀ k s, (w k s).gbest = s.gbest
  gfit : ∀ k s, (w k s).gfit = s.gfit
  pbestfit : ∀ k s, (w k s).pbestfit = s.pbestfit
  evals : ∀ k s, (w k s).evals = s.evals
  rng : ∀ k s, (w k s).rng = s.rng

theorem keeps {wr : Nat → Pop K p n → Pop K p n} {w : Nat → State σ K p n → State σ K p n}
    (h : w = State.write wr ∨ w = fun _ s => s) : Keeps w := by
  rcases h with rfl | rfl <;> exact ⟨fun _ _ => rfl, fun _ _ => rfl, fun _ _ => rfl, fun _ _ => rfl, fun _ _ => rfl⟩

/-- The best pair alone; immediate updating only looks at the candidate. -/
def OwnBest (f : Vec K n → Val K) (s : State σ K p n) : Prop := s.gfit = f s.gbest ∧ s.gbest ∈ s.evals

theorem ownBest_step (hf : P.obj.Faithful f) {it : Nat} {s s' : State σ K p n} {st : Option Int} (hI : OwnBest f s)
    (h : (alg P false).step it s = .ok (s', st)) : OwnBest f s' := by
  rw [alg_step] at h
  obtain ⟨st0, hfold, _⟩ := stepAsync_ok h
  refine foldlM_inv (fun acc : State σ K p n × Option Int => OwnBest f acc.1) ?_ _ ?_ hfold
  · intro b i b' hb hb'
    obtain ⟨U, r, _, rfl, rfl⟩ := rowAsync_ok hb'
    obtain ⟨_, hcase⟩ := selectionAsync_cases (candi := U.1) (xbest := b.1.gbest) (gfit := b.1.gfit) (x := b.1.X)
      (xfun := b.1.pbestfit) (xtol := P.xtol) (ftol := P.ftol) (i := i) hf.one
    unfold OwnBest
    dsimp only
    rcases hcase with ⟨_, _, _, ⟨_, h1, h2, _⟩ | ⟨_, h1, h2, _⟩⟩ | ⟨_, _, _, h1, h2, _⟩
    · rw [h1, h2]; exact ⟨rfl, by simp⟩
    · rw [h1, h2]; exact ⟨hb.1, List.mem_append_left _ hb.2⟩
    · rw [h1, h2]; exact ⟨hb.1, List.mem_append_left _ hb.2⟩
  · exact hI

/-- Values belong to points, evaluated or not. -/
def IV (f : Vec K n → Val K) (s : State σ K p n) : Prop := Inv1 False (.fin 0) f (fun _ => True) s.X s.pbestfit s.gbest s.gfit

theorem IV_step {sync : Bool} (hf : P.obj.Faithful f) {it : Nat} {s s' : State σ K p n} {st : Option Int} (hI : IV f s)
    (h : (alg P sync).step it s = .ok (s', st)) : IV f s' := by
  rw [alg_step] at h
  cases sync with
  | true =>
    obtain ⟨U, r, _, hr, hst, rfl⟩ := stepSync_ok h
    exact selectionSync_inv1 hr hf.pop (by simp) (fun _ _ => trivial) (fun _ => trivial) hI
  | false =>
    obtain ⟨st0, hfold, _⟩ := stepAsync_ok h
    refine foldlM_inv (fun acc : State σ K p n × Option Int => IV f acc.1) ?_ _ ?_ hfold
    · intro b i b' hb hb'
      obtain ⟨U, r, _, rfl, rfl⟩ := rowAsync_ok hb'
      exact selectionAsync_inv1 hf.one (fun _ _ => trivial) trivial hb
    · exact hI

/-- The caller's array is the population. -/
def IC (s : State σ K p n) : Prop := s.caller = s.caller.map fun _ => s.X

theorem IC_step {sync : Bool} {it : Nat} {s s' : State σ K p n} {st : Option Int} (hI : IC s)
    (h : (alg P sync).step it s = .ok (s', st)) : IC s' := by
  rw [alg_step] at h
  cases sync with
  | true =>
    obtain ⟨U, r, _, hr, hst, rfl⟩ := stepSync_ok h
    unfold IC
    cases s.caller <;> rfl
  | false =>
    obtain ⟨st0, hfold, _⟩ := stepAsync_ok h
    refine foldlM_inv (fun acc : State σ K p n × Option Int => IC acc.1) ?_ _ ?_ hfold
    · intro b i b' hb hb'
      obtain ⟨U, r, _, rfl, rfl⟩ := rowAsync_ok hb'
      unfold IC
      dsimp only
      cases b.1.caller <;> rfl
    · exact hI

variable [IntParts K] {env : Env} {R : Rng σ K} {fuel : Nat} {g : σ}

theorem minimizeC_ok (he : env.Ok) {a : Args K} {wr : Nat → Pop K a.p a.ndim → Pop K a.p a.ndim} {o : Output σ K a.p a.ndim}
    (h : minimizeC env R fuel a wr g = .ok o) :
    ∃ (fn : Vec K a.ndim → Val K) (P : Par σ K a.p a.ndim) (s0 : State σ K a.p a.ndim) (r : Result K a.ndim)
      (L : Loop (State σ K a.p a.ndim) K a.p a.ndim) (w : Nat → State σ K a.p a.ndim → State σ K a.p a.ndim),
      a.fn = some fn ∧ P.obj.Faithful fn ∧ (∀ d F X g, P.strat d F X g ≠ .error .outOfFuel) ∧
      init P a.x0Pop (a.seeded R g) = .ok s0 ∧ (w = State.write wr ∨ w = fun _ s => s) ∧
      ((alg P a.sync).writing w).run a.cfg fuel s0 = .ok (r, L) ∧
      o = mkOut r L State.evals (fun s => (w L.it s).caller) State.rng := by
  unfold minimizeC at h
  rw [bind_ok_iff] at h
  obtain ⟨strat, hv, h⟩ := h
  cases hfn : a.fn with
  | none => rw [hfn] at h; simp at h
  | some fn =>
    rw [hfn] at h
    dsimp only at h
    obtain ⟨obj, hobj, h⟩ := optimizer_ok he h
    rw [bind_ok_iff] at h
    obtain ⟨_, _, h⟩ := h
    rw [bind_ok_iff] at h
    obtain ⟨cons, hcons, h⟩ := h
    unfold deC at h
    rw [bind_ok_iff] at h
    obtain ⟨s0, hs0, h⟩ := h
    rw [bind_ok_iff] at h
    obtain ⟨⟨r, L⟩, hrun, h⟩ := h
    simp only [Except.ok.injEq] at h
    obtain ⟨w, L', hw, hrun', rfl⟩ := runC_ok hrun
    have hname := (validate_ok hv).2.2.2.2.2.2.2.2.1
    refine ⟨fn, _, s0, r, L', w, rfl, hobj, strategyMap_ne_outOfFuel hname, hs0, hw, hrun', ?_⟩
    rw [← h]
    unfold mkOut
    simp only [(keeps hw).evals, (keeps hw).rng]

theorem minimizeC_same {a : Args K} {wr : Nat → Pop K a.p a.ndim → Pop K a.p a.ndim} {o : Output σ K a.p a.ndim}
    (h : minimize env R fuel a g = .ok o) (hb : ∀ b ∈ o.cbs, wr b.nit b.X = b.X) : minimizeC env R fuel a wr g = .ok o := by
  unfold minimize at h
  unfold minimizeC
  rw [bind_ok_iff] at h
  obtain ⟨strat, hv, h⟩ := h
  rw [hv]
  show (match a.fn with | none => _ | some fn => _) = _
  cases hfn : a.fn with
  | none => rw [hfn] at h; simp at h
  | some fn =>
    rw [hfn] at h
    dsimp only at h ⊢
    refine optimizer_mono_ok h ?_
    intro obj h
    rw [bind_ok_iff] at h
    obtain ⟨u, hu, h⟩ := h
    rw [bind_ok_iff] at h
    obtain ⟨cons, hcons, h⟩ := h
    rw [hu, hcons]
    show deC _ _ _ _ _ _ _ = _
    unfold de at h
    unfold deC
    rw [bind_ok_iff] at h
    obtain ⟨s0, hs0, h⟩ := h
    rw [bind_ok_iff] at h
    obtain ⟨⟨r, L⟩, hrun, h⟩ := h
    have hcb : L.cbs = o.cbs := by simp only [Except.ok.injEq] at h; rw [← h]
    rw [hs0]
    show (do let r ← Alg.runC _ _ _ _ s0; _) = _
    rw [runC_same (Q := fun b => wr b.nit b.X = b.X) (J := IC) (fun _ _ _ _ hJ hs => IC_step hJ hs) (fun _ _ h => h) ?_ hrun ?_ (by rw [hcb]; exact hb)]
    · exact h
    · intro k s _ _ hJ hX
      have hX' : wr k s.X = s.X := hX
      unfold State.write
      rw [hX', ← hJ]
    · obtain ⟨i, _, rfl⟩ := init_ok hs0
      unfold IC
      dsimp only
      unfold initPop
      cases a.x0Pop <;> rfl

end DE

namespace CPSO
variable {p n : Nat} [IntParts K] [NumFns K] {P : Par σ K n} {f : Vec K n → Val K}

/-- What a write leaves alone. -/
structure Keeps (w : Nat → State σ K p n → State σ K p n) : Prop where
  gbest : ∀ k s, (w k s).gbest = s.gbest
  gfit : ∀ k s, (w k s).gfit = s.gfit
  pbest : ∀ k s, (w k s).pbest = s.pbest
  pbestfit : ∀ k s, (w k s).pbestfit = s.pbestfit
  evals : ∀ k s, (w k s).evals = s.evals
  rng : ∀ k s, (w k s).rng = s.rng

theorem keeps {wr : Nat → Pop K p n → Pop K p n} {w : Nat → State σ K p n → State σ K p n}
    (h : w = State.write wr ∨ w = fun _ s => s) : Keeps w := by
  rcases h with rfl | rfl <;>
    exact ⟨fun _ _ => rfl, fun _ _ => rfl, fun _ _ => rfl, fun _ _ => rfl, fun _ _ => rfl, fun _ _ => rfl⟩

/-- The caller's array is the population as long as it is the same object. -/
def IC (s : State σ K p n) : Prop := s.aliased = true → s.caller = s.caller.map fun _ => s.X

theorem IC_through {al : Bool} {X : Pop K p n} {c : Option (Pop K p n)} (h : al = true) :
    writeThrough al c X = (writeThrough al c X).map fun _ => X := by
  subst h
  unfold writeThrough
  cases c <;> rfl

theorem IC_step {sync : Bool} {it : Nat} {s s' : State σ K p n} {st : Option Int} (hI : IC s)
    (h : (alg P sync).step it s = .ok (s', st)) : IC s' := by
  rw [alg_step] at h
  cases sync with
  | true =>
    obtain ⟨r, hr, hst, rfl⟩ := stepSync_ok h
    intro h; cases h
  | false =>
    obtain ⟨r, hr, rfl, _⟩ := stepAsync_ok h
    rw [hr]
    refine foldl_inv (fun acc : State σ K p n × Option Int => IC acc.1) ?_ _ ?_
    · intro b i hb ha
      exact IC_through ha
    · exact hI

theorem IC_post {sync : Bool} (it : Nat) (s : State σ K p n) (hI : IC s) : IC ((alg P sync).post it s) := by
  show IC (post P it s)
  unfold post
  cases P.gamma with
  | none => exact hI
  | some gm =>
    dsimp only
    split_ifs
    · exact hI
    · unfold restart
      split_ifs
      · intro ha
        exact IC_through ha
      · exact hI
      · exact hI

variable {env : Env} {R : Rng σ K} {srt : Argsort K} {fuel : Nat} {g : σ}

theorem minimizeC_ok (he : env.Ok) {a : Args K} {wr : Nat → Pop K a.p a.ndim → Pop K a.p a.ndim} {o : Output σ K a.p a.ndim}
    (h : minimizeC env R srt fuel a wr g = .ok o) :
    ∃ (fn : Vec K a.ndim → Val K) (P : Par σ K a.ndim) (s0 : State σ K a.p a.ndim) (r : Result K a.ndim)
      (L : Loop (State σ K a.p a.ndim) K a.p a.ndim) (w : Nat → State σ K a.p a.ndim → State σ K a.p a.ndim),
      a.fn = some fn ∧ validate a = .ok () ∧ P.obj.Faithful fn ∧ P.argsort = srt ∧ P.gamma = a.competitivity ∧
      init P a.x0Pop (a.seeded R g) = .ok s0 ∧ (w = State.write wr ∨ w = fun _ s => s) ∧
      ((alg P a.sync).writing w).run a.cfg fuel s0 = .ok (r, L) ∧
      o = mkOut r L State.evals (fun s => (w L.it s).caller) State.rng := by
  unfold minimizeC at h
  rw [bind_ok_iff] at h
  obtain ⟨_, hv, h⟩ := h
  cases hfn : a.fn with
  | none => rw [hfn] at h; simp at h
  | some fn =>
    rw [hfn] at h
    dsimp only at h
    obtain ⟨obj, hobj, h⟩ := optimizer_ok he h
    rw [bind_ok_iff] at h
    obtain ⟨_, _, h⟩ := h
    rw [bind_ok_iff] at h
    obtain ⟨cons, hcons, h⟩ := h
    unfold cpsoC at h
    rw [bind_ok_iff] at h
    obtain ⟨s0, hs0, h⟩ := h
    rw [bind_ok_iff] at h
    obtain ⟨⟨r, L⟩, hrun, h⟩ := h
    simp only [Except.ok.injEq] at h
    obtain ⟨w, L', hw, hrun', rfl⟩ := runC_ok hrun
    refine ⟨fn, _, s0, r, L', w, rfl, hv, hobj, rfl, rfl, hs0, hw, hrun', ?_⟩
    rw [← h]
    unfold mkOut
    simp only [(keeps hw).evals, (keeps hw).rng]

theorem minimizeC_same {a : Args K} {wr : Nat → Pop K a.p a.ndim → Pop K a.p a.ndim} {o : Output σ K a.p a.ndim}
    (h : minimize env R srt fuel a g = .ok o) (hb : ∀ b ∈ o.cbs, wr b.nit b.X = b.X) : minimizeC env R srt fuel a wr g = .ok o := by
  unfold minimize at h
  unfold minimizeC
  rw [bind_ok_iff] at h
  obtain ⟨strat, hv, h⟩ := h
  rw [hv]
  show (match a.fn with | none => _ | some fn => _) = _
  cases hfn : a.fn with
  | none => rw [hfn] at h; simp at h
  | some fn =>
    rw [hfn] at h
    dsimp only at h ⊢
    refine optimizer_mono_ok h ?_
    intro obj h
    rw [bind_ok_iff] at h
    obtain ⟨u, hu, h⟩ := h
    rw [bind_ok_iff] at h
    obtain ⟨cons, hcons, h⟩ := h
    rw [hu, hcons]
    show cpsoC _ _ _ _ _ _ _ = _
    unfold cpso at h
    unfold cpsoC
    rw [bind_ok_iff] at h
    obtain ⟨s0, hs0, h⟩ := h
    rw [bind_ok_iff] at h
    obtain ⟨⟨r, L⟩, hrun, h⟩ := h
    have hcb : L.cbs = o.cbs := by simp only [Except.ok.injEq] at h; rw [← h]
    rw [hs0]
    show (do let r ← Alg.runC _ _ _ _ s0; _) = _
    rw [runC_same (Q := fun b => wr b.nit b.X = b.X) (J := IC) (fun _ _ _ _ hJ hs => IC_step hJ hs) (fun it s h => IC_post it s h) ?_ hrun ?_
      (by rw [hcb]; exact hb)]
    · exact h
    · intro k s _ _ hJ hX
      have hX' : wr k s.X = s.X := hX
      unfold State.write writeThrough
      rw [hX']
      split_ifs with ha
      · rw [← hJ ha]
      · rfl
    · obtain ⟨i, _, rfl⟩ := init_ok hs0
      intro _
      dsimp only
      unfold initPop
      cases a.x0Pop <;> rfl

end CPSO

end optimizers

end Stochopy
