import Verif.Lemmas.Evo
import Verif.Lemmas.Fuel
import Verif.Spec.Evo
import Verif.Model.VDCMA

/-! Completed runs of the frame of `cmaes` and `vdcma`, in the vocabulary of `Spec/Run.lean`. -/

set_option linter.unusedSectionVars false

namespace Stochopy.Evo
open Spec
variable {K σ S : Type} [AddZeroClass K] [One K] [Sub K] [Mul K] [Div K] [Neg K] [NatCast K] [IntCast K] [Pow K ℕ] [ArrayOps K] [LinearOrder K] [NumFns K] [IntParts K] {p n : Nat}
  {P : Par K n} {G : Gauss S K p n} {c : Cfg} {rng : S → σ} {fuel : Nat} {s0 : S} {o : Output σ K p n}

theorem getLast_getElem? {α : Type} {l : List α} {k : Nat} (h : l.length = k + 1) : l.getLast? = l[k]? := by
  rw [List.getLast?_eq_getElem?, h, Nat.add_sub_cancel]

theorem run_gens (h : run P G c rng fuel s0 = .ok o) :
    ∃ gs g L' L st, Completed P G c rng (fun _ => True) o gs g L' L st :=
  run_ok h _ trivial fun _ _ _ _ => trivial

section
variable {I : St S K p n → Prop} {gs : List (Gen K p n)} {g : Gen K p n} {L' L : St S K p n} {st : Int}

theorem Completed.nit (h : Completed P G c rng I o gs g L' L st) : o.res.nit = gs.length + 1 := by
  obtain ⟨msg, -, hr⟩ := h.res
  rw [hr]
  show L.it = _
  rw [h.hist.it]; simp

theorem Completed.nfev (h : Completed P G c rng I o gs g L' L st) : o.res.nfev = (gs.length + 1) * p := by
  obtain ⟨msg, -, hr⟩ := h.res
  rw [hr]
  show L.nfev = _
  rw [h.hist.nfev]; simp

theorem Completed.x (h : Completed P G c rng I o gs g L' L st) : o.res.x = g.X g.best := by
  obtain ⟨msg, -, hr⟩ := h.res; rw [hr]

theorem Completed.fval (h : Completed P G c rng I o gs g L' L st) : o.res.fval = g.fit g.best := by
  obtain ⟨msg, -, hr⟩ := h.res; rw [hr]

theorem Completed.statusEq (h : Completed P G c rng I o gs g L' L st) : o.res.status = st := by
  obtain ⟨msg, -, hr⟩ := h.res; rw [hr]

theorem Completed.budget (h : Completed P G c rng I o gs g L' L st) : (o.res.nit : Int) ≤ c.maxiter := by
  have := h.hist.budget
  rw [h.nit]; simpa using this

theorem length_flatMap_ofFn (gs : List (Gen K p n)) : (gs.flatMap fun g => List.ofFn g.X).length = gs.length * p := by
  induction gs with
  | nil => simp
  | cons a t ih => rw [List.flatMap_cons, List.length_append, ih, List.length_ofFn, List.length_cons]; ring

theorem Completed.counts (h : Completed P G c rng I o gs g L' L st) : CountsExact o := by
  refine ⟨?_, ?_, ?_⟩
  · rw [h.nfev, h.evals, h.hist.evals, length_flatMap_ofFn]; simp
  · rw [h.nfev, h.nit, Nat.mul_comm]
  · intro b hb
    rw [h.cbs] at hb
    cases hc : c.hasCallback with
    | false => rw [h.hist.noCbs hc] at hb; simp at hb
    | true =>
      obtain ⟨l1, hk⟩ := h.hist.cbs hc
      obtain ⟨k, hk1, hk2⟩ := List.getElem_of_mem hb
      obtain ⟨b', b1, -, -, -, b5, b6, -⟩ := hk k _ (List.getElem?_eq_getElem (by omega))
      rw [List.getElem?_eq_getElem hk1, hk2, Option.some.injEq] at b1
      subst b1
      rw [b5, b6, Nat.mul_comm]

theorem Completed.callbacks (h : Completed P G c rng I o gs g L' L st) (hc : c.hasCallback = true) : CallbackProtocol o := by
  obtain ⟨l1, hk⟩ := h.hist.cbs hc
  have hl : (gs ++ [g]).length = gs.length + 1 := by simp
  rw [hl] at l1
  refine ⟨by rw [h.cbs, h.nit, l1], ?_, ?_⟩
  · intro k b hb
    rw [h.cbs] at hb
    have hlt : k < (gs ++ [g]).length := by
      have := (List.getElem?_eq_some_iff.1 hb).1
      omega
    obtain ⟨b', b1, -, -, -, b5, b6, -⟩ := hk k _ (List.getElem?_eq_getElem hlt)
    rw [hb, Option.some.injEq] at b1
    subst b1
    exact ⟨b6, b5⟩
  · obtain ⟨b, b1, b2, b3, b4, b5, b6, b7, b8⟩ := hk gs.length g (by rw [List.getElem?_append_right (le_refl _)]; simp)
    obtain ⟨msg, -, hr⟩ := h.res
    refine ⟨b, ?_, ?_, ?_, ?_, ?_, ?_, ?_⟩
    · rw [h.cbs, getLast_getElem? l1, b1]
    · rw [h.x, b3]
    · rw [h.fval, b4]
    · rw [h.nit, b6]
    · rw [h.nfev, b5]
    · rw [b7, hr]
      show attach c _ = attach c L.rowsX
      unfold attach
      cases hr : c.returnAll with
      | false => rfl
      | true => rw [List.take_of_length_le]; rw [(h.hist.rows hr).1, hl]
    · rw [b8, hr]
      show attach c _ = attach c L.rowsF
      unfold attach
      cases hr : c.returnAll with
      | false => rfl
      | true => rw [List.take_of_length_le]; rw [(h.hist.rows hr).2.1, hl]

theorem Completed.noCallbacks (h : Completed P G c rng I o gs g L' L st) (hc : c.hasCallback = false) : o.cbs = [] := by
  rw [h.cbs, h.hist.noCbs hc]

theorem Completed.xall (h : Completed P G c rng I o gs g L' L st) :
    o.res.xall = attach c L.rowsX ∧ o.res.funall = attach c L.rowsF := by
  obtain ⟨msg, -, hr⟩ := h.res; rw [hr]; exact ⟨rfl, rfl⟩

theorem Completed.shape (h : Completed P G c rng I o gs g L' L st) (hr : c.returnAll = true) :
    HistoryShape (max 1 c.nout.toNat) o := by
  obtain ⟨l1, l2, hk⟩ := h.hist.rows hr
  have hl : (gs ++ [g]).length = gs.length + 1 := by simp
  refine ⟨L.rowsX, L.rowsF, ?_, ?_, by rw [l1, h.nit, hl], by rw [l2, h.nit, hl], ?_, ?_⟩
  · rw [h.xall.1]; simp [attach, hr]
  · rw [h.xall.2]; simp [attach, hr]
  · intro r hrm
    obtain ⟨k, hk1, hk2⟩ := List.getElem_of_mem hrm
    obtain ⟨rx, rf, b1, b2, idx, b3, b4, b5, -⟩ := hk k _ (List.getElem?_eq_getElem (by omega))
    rw [List.getElem?_eq_getElem hk1, hk2, Option.some.injEq] at b1
    rw [b1, b3, List.length_map, b5]
  · intro r hrm
    obtain ⟨k, hk1, hk2⟩ := List.getElem_of_mem hrm
    obtain ⟨rx, rf, b1, b2, idx, b3, b4, b5, -⟩ := hk k _ (List.getElem?_eq_getElem (by omega))
    rw [List.getElem?_eq_getElem hk1, hk2, Option.some.injEq] at b2
    rw [b2, b4, List.length_map, b5]

theorem Completed.noHistory (h : Completed P G c rng I o gs g L' L st) (hr : c.returnAll = false) :
    o.res.xall = none ∧ o.res.funall = none := by
  rw [h.xall.1, h.xall.2]; simp [attach, hr]

/-- Values of a generation without constraints. -/
theorem body_fit {fn : Vec K n → Val K} (hobj : P.obj.Faithful fn) (hp : P.penalized = false) {M M' : St S K p n}
    {g : Gen K p n} (h : body P G c M = .ok (M', g)) (i : Fin p) : g.fit i = fn (g.X i) := by
  obtain ⟨_, a, e, rows, s, h1, h2, h3, hm, h4, h5, hr⟩ := body_ok h
  cases hr
  unfold evaluate at h2
  rw [hp] at h2
  simp only [Bool.false_eq_true, if_false, Except.ok.injEq] at h2
  subst h2
  exact hobj.pop _ i

theorem Completed.matches (h : Completed P G c rng I o gs g L' L st) {fn : Vec K n → Val K} (hobj : P.obj.Faithful fn)
    (hp : P.penalized = false) : HistoryMatches fn o := by
  intro xs fs hx hf k rx rf hkx hkf
  rw [h.xall.1] at hx
  rw [h.xall.2] at hf
  cases hr : c.returnAll with
  | false => simp [attach, hr] at hx
  | true =>
    simp only [attach, hr, if_true, Option.some.injEq] at hx hf
    subst hx hf
    obtain ⟨l1, l2, hk⟩ := h.hist.rows hr
    have hlt : k < (gs ++ [g]).length := by
      have := (List.getElem?_eq_some_iff.1 hkx).1
      omega
    have hg := List.getElem?_eq_getElem hlt
    obtain ⟨rx', rf', b1, b2, idx, b3, b4, -⟩ := hk k _ hg
    rw [hkx, Option.some.injEq] at b1
    rw [hkf, Option.some.injEq] at b2
    subst b1 b2
    obtain ⟨M, M', -, hb, -⟩ := h.each k _ hg
    rw [b3, b4, List.map_map]
    exact List.map_congr_left fun i _ => body_fit hobj hp hb i

theorem Completed.best (h : Completed P G c rng I o gs g L' L st) (hs : IsArgsort P.srt) (i : Fin p) :
    sortLe (g.fit g.best) (g.fit i) := by
  obtain ⟨hp, a, e, rows, s, h1, h2, h3, hm, h4, h5, hr⟩ := body_ok h.last
  cases hr
  show sortLe (e.1 (P.srt p e.1 ⟨0, hp⟩)) (e.1 i)
  have := hs p e.1 ⟨0, hp⟩ ((P.srt p e.1).symm i) (Fin.mk_le_mk.2 (Nat.zero_le _))
  rwa [Equiv.apply_symm_apply] at this

theorem Completed.lastEvals (h : Completed P G c rng I o gs g L' L st) :
    o.evals.drop (o.evals.length - p) = List.ofFn g.X := by
  rw [h.evals, h.hist.evals, List.flatMap_append]
  simp

/-- The result is the best point of the last generation. -/
theorem Completed.lastGen (h : Completed P G c rng I o gs g L' L st) {fn : Vec K n → Val K} (hobj : P.obj.Faithful fn)
    (hp : P.penalized = false) (hs : IsArgsort P.srt) :
    ReportsEvaluatedPoint fn o ∧ ∀ x ∈ o.evals.drop (o.evals.length - p), fn x ≠ .nan → o.res.fval ≤ fn x := by
  refine ⟨⟨?_, ?_⟩, ?_⟩
  · rw [h.x, h.fval]; exact body_fit hobj hp h.last _
  · rw [h.x]
    apply List.mem_of_mem_drop (i := o.evals.length - p)
    rw [h.lastEvals]
    exact List.mem_ofFn.2 ⟨_, rfl⟩
  · intro x hx hn
    rw [h.lastEvals] at hx
    obtain ⟨i, rfl⟩ := List.mem_ofFn.1 hx
    have := h.best hs i
    rw [body_fit hobj hp h.last i] at this
    rw [h.fval]
    exact this.resolve_left hn

end

/-! ## Status -/

theorem converge_max {it : Nat} {maxiter : Int} {xmean xold : Vec K n} {arbest : List (Val K)} {fit : Fin p → Val K}
    {best : Val K} {sigma insigma : K} {ilim : Nat} {pc : Vec K n} {xtol : K} {ftol : Val K} {diagC : Vec K n}
    {axes : Option (Matrix (Fin n) (Fin n) K × Vec K n)} {st : Option Int}
    (h : converge it maxiter xmean xold arbest fit best sigma insigma ilim pc xtol ftol diagC axes = st) :
    (st = some (-1) ↔ maxiter ≤ it) ∧ ((st = some 0 ∨ st = some 1) ↔ (it : Int) < maxiter ∧ best ≤ ftol) ∧
    (st = some 0 ↔ (it : Int) < maxiter ∧ Within xold xmean xtol ∧ best < ftol) ∧
    (st = none ∨ st ∈ [-8, -7, -6, -5, -4, -3, -2, -1, 0, 1].map (some : Int → Option Int)) := by
  subst h
  unfold converge
  dsimp only
  have hw : distLe xold xmean xtol = true ↔ Within xold xmean xtol := by
    exact Iff.rfl
  by_cases h1 : maxiter ≤ (it : Int)
  · rw [if_pos h1]; refine ⟨by simpa using h1, ?_, ?_, by simp⟩ <;> simp <;> omega
  rw [if_neg h1]
  have h1' := not_le.1 h1
  by_cases h2 : (distLe xold xmean xtol && decide (best < ftol)) = true
  · rw [if_pos h2]
    rw [Bool.and_eq_true, hw, decide_eq_true_iff] at h2
    have := Val.le_of_lt' h2.2
    refine ⟨by simpa using h1', ?_, ?_, by simp⟩ <;> simp [*]
  rw [if_neg h2]
  have h2' : ¬ (Within xold xmean xtol ∧ best < ftol) := by
    rw [Bool.and_eq_true, hw, decide_eq_true_iff] at h2; exact h2
  by_cases h3 : best ≤ ftol
  · rw [if_pos h3]
    refine ⟨by simpa using h1', ?_, ?_, by simp⟩ <;> simp [*]
  rw [if_neg h3]
  have h4 : ¬ best < ftol := fun h => h3 (Val.le_of_lt' h)
  split_ifs <;> simp [h1, h3, h4]

theorem documented_of_messages {st : Int} {m : String} (h : messages st = some m) : Documented st m := by
  unfold messages at h
  unfold Documented
  split_ifs at h <;> simp_all

theorem body_status {L : St S K p n} {r : St S K p n × Gen K p n} (h : body P G c L = .ok r) :
    (r.2.status = some (-1) ↔ c.maxiter ≤ (L.it + 1 : Nat)) ∧
    ((r.2.status = some 0 ∨ r.2.status = some 1) ↔ ((L.it + 1 : Nat) : Int) < c.maxiter ∧ r.2.fit r.2.best ≤ P.ftol) ∧
    (r.2.status = some 0 → r.2.fit r.2.best < P.ftol) ∧
    (r.2.status = none ∨ r.2.status ∈ [-8, -7, -6, -5, -4, -3, -2, -1, 0, 1].map (some : Int → Option Int)) := by
  obtain ⟨hp, a, e, rows, s, h1, h2, h3, hm, h4, h5, rfl⟩ := body_ok h
  obtain ⟨k1, k2, k3, k4⟩ := converge_max (st := (after P G c L hp e rows s).2.status) rfl
  exact ⟨k1, k2, fun h => (k3.1 h).2.2, k4⟩

section
variable {I : St S K p n → Prop} {gs : List (Gen K p n)} {g : Gen K p n} {L' L : St S K p n} {st : Int}

theorem Completed.statusEvo (h : Completed P G c rng I o gs g L' L st) : StatusEvo c.maxiter P.ftol o := by
  obtain ⟨k1, k2, k3, k4⟩ := body_status h.last
  have hit : L'.it + 1 = o.res.nit := by rw [h.nit, h.before.it]
  rw [hit] at k1 k2
  simp only [h.status, Option.some.injEq] at k1 k2 k3 k4
  have hmem : st ∈ ([-8, -7, -6, -5, -4, -3, -2, -1, 0, 1] : List Int) := by simpa using k4
  obtain ⟨msg, hmsg, hr⟩ := h.res
  have hs : o.res.success = true ↔ o.res.status = 0 ∨ o.res.status = 1 := by
    rw [hr]
    simp only [decide_eq_true_eq]
    simp only [List.mem_cons, List.not_mem_nil, or_false] at hmem
    omega
  have hf := h.fval
  refine ⟨by rw [h.statusEq]; exact hmem, hs, ?_, ?_, ?_, ?_⟩
  · rw [hs, h.statusEq, hf, k2]; tauto
  · rw [h.statusEq, hf]; exact k3
  · rw [h.statusEq, k1]
    have := h.budget
    omega
  · rw [h.statusEq]
    have : o.res.message = msg := by rw [hr]
    rw [this]
    exact documented_of_messages hmsg

theorem Completed.cbMem (h : Completed P G c rng I o gs g L' L st) {b : CB K p n} (hb : b ∈ o.cbs) :
    ∃ (k : Nat) (g' : Gen K p n), (gs ++ [g])[k]? = some g' ∧ b.X = g'.X ∧ b.x = g'.X g'.best ∧ b.fval = g'.fit g'.best ∧
      b.nit = k + 1 := by
  rw [h.cbs] at hb
  cases hc : c.hasCallback with
  | false => rw [h.hist.noCbs hc] at hb; simp at hb
  | true =>
    obtain ⟨l1, hk⟩ := h.hist.cbs hc
    obtain ⟨k, hk1, hk2⟩ := List.getElem_of_mem hb
    have hg := List.getElem?_eq_getElem (l := gs ++ [g]) (i := k) (by omega)
    obtain ⟨b', b1, b2, b3, b4, b5, b6, -⟩ := hk k _ hg
    rw [List.getElem?_eq_getElem hk1, hk2, Option.some.injEq] at b1
    subst b1
    exact ⟨k, _, hg, b2, b3, b4, b6⟩

theorem Completed.stops (h : Completed P G c rng I o gs g L' L st) : StopsWhenReached P.ftol o := by
  intro b hb hle
  obtain ⟨k, g', hg, b2, b3, b4, b6⟩ := h.cbMem hb
  rcases Nat.lt_or_ge k gs.length with hlt | hge
  · exfalso
    obtain ⟨M, M', -, hbody, hH⟩ := h.each k _ hg
    obtain ⟨-, k2, -, -⟩ := body_status hbody
    rw [b4] at hle
    have hMit : M.it = k := by rw [hH.it, List.length_take]; simp; omega
    have hbud := h.before.budget
    have hnone : g'.status = none := by
      rw [List.getElem?_append_left hlt] at hg
      exact h.running _ (List.mem_of_getElem? hg)
    have hbud' := h.hist.budget
    simp at hbud'
    have := k2.2 ⟨by rw [hMit]; push_cast; omega, hle⟩
    simp [hnone] at this
  · have := (List.getElem?_eq_some_iff.1 hg).1
    simp at this
    rw [b6, h.nit]; omega

theorem body_best (hs : IsArgsort P.srt) {M M' : St S K p n} {g : Gen K p n} (h : body P G c M = .ok (M', g)) (i : Fin p) :
    sortLe (g.fit g.best) (g.fit i) := by
  obtain ⟨hp, a, e, rows, s, h1, h2, h3, hm, h4, h5, hr⟩ := body_ok h
  cases hr
  show sortLe (e.1 (P.srt p e.1 ⟨0, hp⟩)) (e.1 i)
  have := hs p e.1 ⟨0, hp⟩ ((P.srt p e.1).symm i) (Fin.mk_le_mk.2 (Nat.zero_le _))
  rwa [Equiv.apply_symm_apply] at this

theorem Completed.cbBest (h : Completed P G c rng I o gs g L' L st) {fn : Vec K n → Val K} (hobj : P.obj.Faithful fn)
    (hp : P.penalized = false) (hs : IsArgsort P.srt) : CallbacksReportBest fn o := by
  intro b hb
  obtain ⟨k, g', hg, b2, b3, b4, b6⟩ := h.cbMem hb
  obtain ⟨M, M', -, hbody, hH⟩ := h.each k _ hg
  refine ⟨by rw [b4, b3]; exact body_fit hobj hp hbody _, ⟨_, by rw [b3, b2]⟩, ?_⟩
  intro i hn
  have := body_best hs hbody i
  rw [body_fit hobj hp hbody i] at this
  rw [b2] at hn ⊢
  rw [b4]
  exact this.resolve_left hn

end

/-! ## Fuel -/

theorem loop_mono : ∀ (f f' : Nat) (L : St S K p n), f ≤ f' → loop P G c f L ≠ .error .outOfFuel →
    loop P G c f' L = loop P G c f L := by
  intro f
  induction f with
  | zero => intro f' L _ h; exact absurd rfl h
  | succ f ih =>
    intro f' L hle h
    obtain ⟨f', rfl⟩ : ∃ k, f' = k + 1 := ⟨f' - 1, by omega⟩
    rw [loop] at h
    rw [loop, loop]
    cases hb : body P G c L with
    | error e => rfl
    | ok r =>
      rw [hb] at h
      change (if r.2.status.isSome = true then Except.ok r else loop P G c f r.1) ≠ _ at h
      change (if r.2.status.isSome = true then Except.ok r else loop P G c f' r.1) =
        if r.2.status.isSome = true then Except.ok r else loop P G c f r.1
      by_cases hr : r.2.status.isSome = true
      · rw [if_pos hr, if_pos hr]
      · rw [if_neg hr] at h ⊢
        rw [if_neg hr]
        exact ih f' r.1 (by omega) h

/-- Errors of the parts of an iteration. -/
structure NoFuelErr (P : Par K n) (G : Gauss S K p n) : Prop where
  sample : ∀ s, G.sample s ≠ .error .outOfFuel
  update : ∀ k X ord s, G.update k X ord s ≠ .error .outOfFuel

theorem history_ne {srt : Argsort K} {fit : Fin p → Val K} {sigma : K} {diagC : Vec K n} {pen : Pen K n} :
    history srt fit sigma diagC pen ≠ .error .outOfFuel := by
  unfold history positiveMin npMinList
  dsimp only
  by_cases h : fitRange srt fit sigma diagC = .fin 0
  · rw [if_pos h]
    split <;> simp [Except.map]
  · rw [if_neg h]; simp

theorem penalize_ne {srt : Argsort K} {fit : Pop K p n → Fin p → Val K} {arx : Pop K p n} {xmean xold : Vec K n} {sigma : K}
    {diagC : Vec K n} {me : K} {it : Nat} {pen : Pen K n} :
    penalize srt fit arx xmean xold sigma diagC me it pen ≠ .error .outOfFuel := by
  unfold penalize
  dsimp only
  intro h
  rw [bind_error_iff] at h
  rcases h with h | ⟨u, -, h⟩
  · rw [need_error] at h; cases h.2
  · rw [bind_error_iff] at h
    rcases h with h | ⟨d, -, h⟩
    · exact history_ne h
    · simp at h

theorem body_ne (hG : NoFuelErr P G) {L : St S K p n} : body P G c L ≠ .error .outOfFuel := by
  unfold body
  dsimp only
  intro h
  rw [bind_error_iff] at h
  rcases h with h | ⟨a, -, h⟩
  · exact hG.sample _ h
  rw [bind_error_iff] at h
  rcases h with h | ⟨e, -, h⟩
  · unfold evaluate at h
    dsimp only at h
    by_cases hp : P.penalized = true
    · rw [if_pos hp] at h; exact penalize_ne h
    · rw [if_neg hp] at h; cases h
  rw [bind_error_iff] at h
  rcases h with h | ⟨rows, -, h⟩
  · unfold record at h
    split_ifs at h <;> (try cases h) <;> rw [bind_error_iff] at h <;> rcases h with h | ⟨i, -, h⟩ <;>
      first
      | exact argmin_ne_outOfFuel _ h
      | cases h
  by_cases hp : 0 < p
  · rw [dif_pos hp] at h
    by_cases hm : c.maxiter ≤ ((L.it + 1 : Nat) : Int) - 1
    · rw [if_pos hm] at h; cases h
    rw [if_neg hm, bind_error_iff] at h
    rcases h with h | ⟨s, -, h⟩
    · exact hG.update _ _ _ _ h
    rw [bind_error_iff] at h
    rcases h with h | ⟨u, -, h⟩
    · rw [need_error] at h; cases h.2
    · cases h
  · rw [dif_neg hp] at h; cases h

theorem loop_ne (hG : NoFuelErr P G) : ∀ (fuel : Nat) (L : St S K p n), c.maxiter ≤ (L.it : Int) + fuel → 0 < fuel →
    loop P G c fuel L ≠ .error .outOfFuel := by
  intro fuel
  induction fuel with
  | zero => intro L _ h; omega
  | succ k ih =>
    intro L hm _ h
    rw [loop, bind_error_iff] at h
    rcases h with h | ⟨r, hb, h⟩
    · exact body_ne hG h
    by_cases hs : r.2.status.isSome = true
    · rw [if_pos hs] at h; cases h
    rw [if_neg hs] at h
    have hit : r.1.it = L.it + 1 := by
      obtain ⟨hp, a, e, rows, s, h1, h2, h3, hm, h4, h5, rfl⟩ := body_ok hb
      rfl
    obtain ⟨k1, -⟩ := body_status hb
    have hlt : ((L.it + 1 : Nat) : Int) < c.maxiter := by
      by_contra hc
      rw [k1.2 (not_lt.1 hc)] at hs
      exact hs rfl
    exact ih r.1 (by rw [hit]; push_cast at hm ⊢; omega) (by push_cast at hm hlt; omega) h

theorem run_fuel (hG : NoFuelErr P G) (hf : 0 < fuel) (hm : c.maxiter ≤ fuel) :
    run P G c rng fuel s0 ≠ .error .outOfFuel ∧
    ∀ fuel', fuel ≤ fuel' → run P G c rng fuel' s0 = run P G c rng fuel s0 := by
  unfold run
  by_cases h0 : c.maxiter < 0
  · simp [h0]
  rw [if_neg h0]
  have hl := loop_ne (c := c) hG fuel (init c s0) (by simpa [init] using hm) hf
  have hl' : loop P G c fuel { s := s0, it := 0, nfev := 0, pen := Pen.start n, arbest := List.replicate c.maxiter.toNat (.fin 0), rowsX := [], rowsF := [], cbs := [], evals := [] } ≠ .error .outOfFuel := hl
  refine ⟨?_, ?_⟩
  · intro h
    rw [bind_error_iff] at h
    rcases h with h | ⟨r, -, h⟩
    · exact hl' h
    rw [bind_error_iff] at h
    rcases h with h | ⟨res, -, h⟩
    · unfold finish at h
      split at h
      · cases h
      · split at h <;> cases h
    · cases h
  · intro fuel' hle
    rw [if_neg h0, loop_mono fuel fuel' _ hle hl']

end Stochopy.Evo

namespace Stochopy
open Evo Spec
variable {K σ : Type} [AddZeroClass K] [One K] [Sub K] [Mul K] [Div K] [Neg K] [NatCast K] [IntCast K] [Pow K ℕ] [ArrayOps K] [LinearOrder K] [NumFns K] [IntParts K] {env : Env} {R : Rng σ K} {srt : Argsort K}
  {fuel : Nat} {a : Args K} {junk : Vec K a.ndim} {g : σ} {o : Output σ K a.p a.ndim}

/-! ## Inversion of `minimize` -/

/-- What a completed call of `cmaes` did. -/
theorem CMAES.minimize_ok {eigh : CMAES.Eigh K} (he : env.Ok) (h : CMAES.minimize env R srt eigh fuel a junk g = .ok o) :
    ∃ (fn : Vec K a.ndim → Val K) (obj : Obj K a.ndim) (pen : Bool) (m : Vec K a.ndim × σ)
      (hd : 0 < a.ndim ∧ 0 < a.p ∧ 0 < a.mu ∧ a.mu ≤ a.p),
      a.fn = some fn ∧ a.validate = .ok () ∧ obj.Faithful fn ∧ a.unpackBounds = .ok () ∧ consMap a.constraints = .ok pen ∧
      a.firstMean R (a.seeded R g) = .ok m ∧
      run (a.par srt obj pen) (CMAES.gauss { R := R, srt := srt, eigh := eigh, mu := a.mu, hmu := hd.2.2.2 }) a.cfg
        CMAES.State.rng fuel (CMAES.start m.1 junk a.sigma m.2) = .ok o := by
  unfold CMAES.minimize at h
  rw [bind_ok_iff] at h
  obtain ⟨u, hv, h⟩ := h
  cases hfn : a.fn with
  | none => rw [hfn] at h; cases h
  | some fn =>
    rw [hfn] at h
    dsimp only at h
    obtain ⟨obj, hobj, h⟩ := optimizer_ok he h
    rw [bind_ok_iff] at h
    obtain ⟨u1, h1, h⟩ := h
    rw [bind_ok_iff] at h
    obtain ⟨pen, h2, h⟩ := h
    rw [bind_ok_iff] at h
    obtain ⟨m, h3, h⟩ := h
    by_cases hd : 0 < a.ndim ∧ 0 < a.p ∧ 0 < a.mu ∧ a.mu ≤ a.p
    · rw [dif_pos hd] at h
      exact ⟨fn, obj, pen, m, hd, rfl, hv, hobj, h1, h2, h3, h⟩
    · rw [dif_neg hd] at h; cases h

/-- What a completed call of `vdcma` did. -/
theorem VDCMA.minimize_ok (he : env.Ok) (h : VDCMA.minimize env R srt fuel a junk g = .ok o) :
    ∃ (fn : Vec K a.ndim → Val K) (obj : Obj K a.ndim) (pen : Bool) (m : Vec K a.ndim × σ)
      (hd : 0 < a.ndim ∧ 0 < a.p ∧ 0 < a.mu ∧ a.mu ≤ a.p),
      a.fn = some fn ∧ a.validate = .ok () ∧ obj.Faithful fn ∧ a.unpackBounds = .ok () ∧ consMap a.constraints = .ok pen ∧
      a.firstMean R (a.seeded R g) = .ok m ∧
      run (a.par srt obj pen) (VDCMA.gauss { R := R, mu := a.mu, hmu := hd.2.2.2 }) a.cfg
        VDCMA.State.rng fuel (VDCMA.start R m.1 junk a.sigma m.2) = .ok o := by
  unfold VDCMA.minimize at h
  rw [bind_ok_iff] at h
  obtain ⟨u, hv, h⟩ := h
  cases hfn : a.fn with
  | none => rw [hfn] at h; cases h
  | some fn =>
    rw [hfn] at h
    dsimp only at h
    obtain ⟨obj, hobj, h⟩ := optimizer_ok he h
    rw [bind_ok_iff] at h
    obtain ⟨u1, h1, h⟩ := h
    rw [bind_ok_iff] at h
    obtain ⟨pen, h2, h⟩ := h
    rw [bind_ok_iff] at h
    obtain ⟨m, h3, h⟩ := h
    by_cases hd : 0 < a.ndim ∧ 0 < a.p ∧ 0 < a.mu ∧ a.mu ≤ a.p
    · rw [dif_pos hd] at h
      exact ⟨fn, obj, pen, m, hd, rfl, hv, hobj, h1, h2, h3, h⟩
    · rw [dif_neg hd] at h; cases h

theorem consMap_none (h : a.constraints = none) {pen : Bool} (hc : consMap a.constraints = .ok pen) : pen = false := by
  rw [h] at hc; cases hc; rfl

theorem consMap_penalize (h : a.constraints = some "Penalize") {pen : Bool} (hc : consMap a.constraints = .ok pen) :
    pen = true := by
  rw [h] at hc; simp [consMap] at hc; exact hc

/-- `firstMean` and the rest never run out of fuel. -/
theorem firstMean_ne {g : σ} : a.firstMean R g ≠ .error .outOfFuel := by
  unfold Args.firstMean
  intro h
  split at h
  · cases h
  · rw [bind_error_iff] at h
    rcases h with h | ⟨u, -, h⟩
    · rw [need_error] at h; cases h.2
    · cases h

theorem consMap_ne {c : Option String} : consMap c ≠ .error .outOfFuel := by
  unfold consMap; split
  · simp
  · split_ifs <;> simp

theorem validate_ne : a.validate ≠ .error .outOfFuel := by
  unfold Args.validate; split_ifs <;> simp

theorem CMAES.update_ok {p n : Nat} {P : CMAES.Par σ K p n} {k : Nat} {X : Pop K p n} {ord : Equiv.Perm (Fin p)}
    {s s' : CMAES.State σ K n} (h : CMAES.update P k X ord s = .ok s') :
    0 < s.sigma ∧ (s' = CMAES.advance P k X ord s ∨ CMAES.diagonalize P (CMAES.advance P k X ord s) k = .ok s') := by
  unfold CMAES.update at h
  rw [bind_ok_iff] at h
  obtain ⟨u, h1, h⟩ := h
  rw [need_ok] at h1
  dsimp only at h
  split_ifs at h
  · exact ⟨h1.1, Or.inr h⟩
  · cases h; exact ⟨h1.1, Or.inl rfl⟩

theorem CMAES.noFuelErr {p n : Nat} {P : CMAES.Par σ K p n} {Q : Evo.Par K n} : NoFuelErr Q (CMAES.gauss P) where
  sample s := by simp [CMAES.gauss, CMAES.sample]
  update k X ord s := by
    intro h
    simp only [CMAES.gauss, CMAES.update] at h
    rw [bind_error_iff] at h
    rcases h with h | ⟨u, -, h⟩
    · rw [need_error] at h; cases h.2
    · split_ifs at h
      unfold CMAES.diagonalize at h
      dsimp only at h
      rw [bind_error_iff] at h
      rcases h with h | ⟨u, -, h⟩
      · rw [need_error] at h; cases h.2
      · cases h

theorem VDCMA.noFuelErr {p n : Nat} {P : VDCMA.Par σ K p n} {Q : Evo.Par K n} : NoFuelErr Q (VDCMA.gauss P) where
  sample s := by
    intro h
    simp only [VDCMA.gauss, VDCMA.sample] at h
    rw [bind_error_iff] at h
    rcases h with h | ⟨u, -, h⟩
    · rw [need_error] at h; cases h.2
    rw [bind_error_iff] at h
    rcases h with h | ⟨u, -, h⟩
    · unfold VDCMA.inject at h
      by_cases hi : s.inj = true
      · rw [if_pos hi, bind_error_iff] at h
        rcases h with h | ⟨u, -, h⟩
        · rw [need_error] at h; cases h.2
        · dsimp only at h; split_ifs at h; cases h
      · rw [if_neg hi] at h; cases h
    · cases h
  update k X ord s := by
    intro h
    simp only [VDCMA.gauss, VDCMA.update] at h
    rw [bind_error_iff] at h
    rcases h with h | ⟨u, -, h⟩
    · unfold VDCMA.stepSize at h
      dsimp only at h
      split_ifs at h; cases h
    rw [bind_error_iff] at h
    rcases h with h | ⟨u, -, h⟩
    · rw [need_error] at h; cases h.2
    · cases h

end Stochopy
