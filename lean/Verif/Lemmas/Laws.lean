import Verif.Lemmas.Logged
import Verif.Lemmas.Selection
import Verif.Spec.Run

/-!
# From laws of the optimizer-specific part to facts about runs
-/

set_option linter.unusedSectionVars false

namespace Stochopy
variable {K σ S : Type} [AddZeroClass K] [One K] [Sub K] [Mul K] [Div K] [Neg K] [NatCast K] [IntCast K] [Pow K ℕ] [ArrayOps K] [LinearOrder K] {p n : Nat}

/-- Laws that do not depend on an invariant. `ev` is the log of objective calls. -/
structure Alg.Laws (A : Alg S K p n) (maxiter : Int) (ev : S → List (Vec K n)) : Prop where
  best_post : ∀ it s, A.best (A.post it s) = A.best s
  fun_post : ∀ it s, A.bestFun (A.post it s) = A.bestFun s
  ev_post : ∀ it s, ev (A.post it s) = ev s
  ev_step : ∀ {it s s' st}, A.step it s = .ok (s', st) → ∃ ys, ys.length = p ∧ ev s' = ev s ++ ys
  cont : ∀ {it s s'}, A.step it s = .ok (s', none) → (it : Int) < maxiter
  budget : ∀ {it s s'}, A.step it s = .ok (s', some (-1)) → maxiter ≤ (it : Int)
  codes : ∀ {it s s' k}, A.step it s = .ok (s', some k) → k = 0 ∨ k = 1 ∨ k = -1
  noFuel : ∀ it s, A.step it s ≠ .error .outOfFuel

/-- The status law of deferred updating. -/
def Alg.SyncStatus (A : Alg S K p n) (maxiter : Int) (ftol : Val K) (near : S → S → Bool) : Prop :=
  ∀ {it s s' st}, A.step it s = .ok (s', st) →
    st = (if near s s' = true ∧ A.bestFun s' ≤ ftol then some 0
      else if A.bestFun s' ≤ ftol then some 1 else if maxiter ≤ (it : Int) then some (-1) else none)

/-- Monotonicity with its invariant. -/
structure Alg.Mono (A : Alg S K p n) (M : S → Prop) : Prop where
  step : ∀ {it s s' st}, M s → A.step it s = .ok (s', st) → M s' ∧ sortLe (A.bestFun s') (A.bestFun s)
  post : ∀ it s, M s → M (A.post it s)

variable {A : Alg S K p n} {c : Cfg} {s0 : S} {maxiter : Int} {ev : S → List (Vec K n)} {M : S → Prop}

theorem Alg.Laws.next_step (hl : A.Laws maxiter ev) {it s s' st} (h : A.next it s = .ok (s', st)) :
    ∃ t, A.step (it + 1) t = .ok (s', st) ∧ A.best t = A.best s ∧ A.bestFun t = A.bestFun s ∧ ev t = ev s ∧
      (t = s ∨ t = A.post it s) := by
  unfold Alg.next at h
  split_ifs at h with h1
  · exact ⟨s, h, rfl, rfl, rfl, Or.inl rfl⟩
  · exact ⟨_, h, hl.best_post _ _, hl.fun_post _ _, hl.ev_post _ _, Or.inr rfl⟩

theorem Alg.Laws.ev_length (hl : A.Laws maxiter ev) (h0 : (ev s0).length = p) {s l st} (h : A.Hist s0 (s :: l) st) :
    (ev s).length = (l.length + 1) * p := by
  have := h.inv_head (fun it s _ => (ev s).length = it * p) (by simpa using h0) (by
    intro it s s' st _ hI hn
    obtain ⟨t, ht, _, _, he, _⟩ := hl.next_step hn
    obtain ⟨ys, hy, hs'⟩ := hl.ev_step ht
    rw [hs', List.length_append, he, hI, hy, Nat.add_mul, Nat.one_mul]) s l rfl
  simpa using this

/-- The initial evaluations are the first `p` of the log. -/
theorem Alg.Laws.ev_take (hl : A.Laws maxiter ev) (h0 : (ev s0).length = p) {s l st} (h : A.Hist s0 (s :: l) st) :
    (ev s).take p = ev s0 := by
  have := h.inv_head (fun _ s _ => (ev s).take p = ev s0) (by rw [List.take_of_length_le (by omega)]) (by
    intro it s s' st hit hI hn
    obtain ⟨t, ht, _, _, he, _⟩ := hl.next_step hn
    obtain ⟨ys, hy, hs'⟩ := hl.ev_step ht
    have hlen : p ≤ (ev s).length := by
      have := congrArg List.length hI
      simp at this; omega
    show (ev s').take p = _
    rw [hs', he, List.take_append_of_le_length hlen]; exact hI) s l rfl
  exact this

theorem Alg.Laws.hist_bound (hl : A.Laws maxiter ev) {s l st} (h : A.Hist s0 (s :: l) st) :
    (l.length : Int) + 1 ≤ max 2 maxiter := by
  have h1 : ∀ {l : List S} {st}, A.Hist s0 l st → st = none → l.length = 1 ∨ (l.length : Int) < maxiter := by
    intro l st h
    induction h with
    | init => intro _; exact Or.inl rfl
    | @next s s' l st h hn ih =>
      intro hst; subst hst
      obtain ⟨t, ht, _⟩ := hl.next_step hn
      have := hl.cont ht
      right; simpa using this
  cases h with
  | init => simp
  | @next s1 _ l st h hn =>
    have := h1 h rfl
    simp at this
    simp only [List.length_cons]
    rcases this with h | h
    · subst h; simp
    · rw [le_max_iff]; right; push_cast; omega

theorem pairwise_of_hist {R : S → S → Prop} (hR : ∀ a b c, R a b → R b c → R a c) (I : S → Prop)
    (hstep : ∀ it s s' st, I s → A.next it s = .ok (s', st) → I s' ∧ R s s') {l st} (h : A.Hist s0 l st) (h0 : I s0) :
    l.Pairwise (fun b a => R a b) ∧ ∀ s ∈ l, I s := by
  induction h with
  | init => simp [h0]
  | @next s s' l st _ hn ih =>
    obtain ⟨hp, hI⟩ := ih
    obtain ⟨h1, h2⟩ := hstep _ _ _ _ (hI s (by simp)) hn
    refine ⟨List.pairwise_cons.2 ⟨?_, hp⟩, ?_⟩
    · intro t ht
      rcases List.mem_cons.1 ht with rfl | ht
      · exact h2
      · exact hR _ _ _ ((List.pairwise_cons.1 hp).1 t ht) h2
    · intro t ht
      rcases List.mem_cons.1 ht with rfl | ht
      · exact h1
      · exact hI t ht

/-- Values handed to the callback, chronologically. -/
theorem Alg.Logged.map_fval {l : List S} {rX : List (List (Vec K n))} {rF : List (List (Val K))} {cb : List (CB K p n)}
    (h : A.Logged c l rX rF cb) (hc : c.hasCallback = true) : cb.map CB.fval = l.reverse.map A.bestFun := by
  induction h with
  | nil => rfl
  | cons _ _ _ ih => simp [hc, ih, Alg.cb]

theorem Alg.Logged.getLast {s : S} {l : List S} {rX : List (List (Vec K n))} {rF : List (List (Val K))}
    {cb : List (CB K p n)} (h : A.Logged c (s :: l) rX rF cb) (hc : c.hasCallback = true) :
    cb.getLast? = some (A.cb c s (l.length + 1) rX rF) := by
  cases h with
  | cons _ _ _ => simp [hc]

section run
variable {fuel : Nat} {r : Result K n} {L : Loop S K p n}

/-- Shape of the output shared by `de`, `cpso` and `na`. -/
def mkOut (r : Result K n) (L : Loop S K p n) (ev : S → List (Vec K n)) (caller : S → Option (Pop K p n)) (rng : S → σ) :
    Output σ K p n :=
  { res := r, cbs := L.cbs, evals := ev L.s, x0After := caller L.s, rng := rng L.s }

variable {caller : S → Option (Pop K p n)} {rng : S → σ}

open Spec

theorem run_countsExact (hl : A.Laws maxiter ev) (h0 : (ev s0).length = p) (h : A.run c fuel s0 = .ok (r, L)) :
    CountsExact (mkOut r L ev caller rng) := by
  obtain ⟨l, st, msg, hH, hlen, hlog, hm, rfl⟩ := run_hist h
  refine ⟨?_, ?_, ?_⟩
  · exact (hl.ev_length h0 hH).symm
  · exact Nat.mul_comm _ _
  · intro b hb
    obtain ⟨s, _, k, rfl, _⟩ := hlog.mem_cbs hb
    exact Nat.mul_comm _ _

theorem run_bestNeverWorsens (hl : A.Laws maxiter ev) (hM : A.Mono M) (h0 : M s0) (h : A.run c fuel s0 = .ok (r, L)) :
    BestNeverWorsens (mkOut r L ev caller rng) := by
  obtain ⟨l, st, msg, hH, hlen, hlog, hm, rfl⟩ := run_hist h
  by_cases hc : c.hasCallback = true
  · refine ⟨?_, ?_⟩
    · show (L.cbs.map CB.fval).Pairwise _
      rw [hlog.map_fval hc, List.pairwise_map, List.pairwise_reverse]
      refine (pairwise_of_hist (R := fun a b => sortLe (A.bestFun b) (A.bestFun a)) ?_ M ?_ hH h0).1
      · intro a b c h1 h2; exact sortLe_trans h2 h1
      · intro it s s' st hs hn
        obtain ⟨t, ht, _, hf, _, ht'⟩ := hl.next_step hn
        have hMt : M t := by rcases ht' with rfl | rfl; exacts [hs, hM.post _ _ hs]
        have := hM.step hMt ht
        rw [hf] at this; exact this
    · intro b hb
      rw [show (mkOut _ L ev caller rng).cbs = L.cbs from rfl, hlog.getLast hc] at hb
      simp only [Option.some.injEq] at hb
      subst hb; rfl
  · have := hlog.cbs_none (by simpa using hc)
    simp [BestNeverWorsens, mkOut, this]

theorem run_callbackProtocol (hc : c.hasCallback = true) (h : A.run c fuel s0 = .ok (r, L)) :
    CallbackProtocol (mkOut r L ev caller rng) := by
  obtain ⟨l, st, msg, hH, hlen, hlog, hm, rfl⟩ := run_hist h
  refine ⟨?_, ?_, _, hlog.getLast hc, rfl, rfl, rfl, rfl, rfl, rfl⟩
  · exact hlog.cbs_length hc
  · intro k b hb
    have hk : k < L.cbs.length := by
      by_contra hk
      rw [show (mkOut _ L ev caller rng).cbs = L.cbs from rfl, List.getElem?_eq_none (by omega)] at hb
      simp at hb
    have hk' : k < (L.s :: l).reverse.length := by rw [hlog.cbs_length hc] at hk; simpa using hk
    have := hlog.cbs hc k _ (List.getElem?_eq_getElem hk')
    rw [show (mkOut _ L ev caller rng).cbs = L.cbs from rfl, this] at hb
    simp only [Option.some.injEq] at hb
    subst hb
    exact ⟨rfl, rfl⟩

theorem run_noCallback (hc : c.hasCallback = false) (h : A.run c fuel s0 = .ok (r, L)) : L.cbs = [] := by
  obtain ⟨l, st, msg, hH, hlen, hlog, hm, rfl⟩ := run_hist h
  exact hlog.cbs_none hc

theorem run_nit_bounds (hl : A.Laws maxiter ev) (h : A.run c fuel s0 = .ok (r, L)) :
    2 ≤ r.nit ∧ (r.nit : Int) ≤ max 2 maxiter := by
  obtain ⟨l, st, msg, hH, hlen, hlog, hm, rfl⟩ := run_hist h
  refine ⟨by simpa using hlen, ?_⟩
  have := hl.hist_bound hH
  push_cast; exact this

theorem nout_row_length {x : List (Vec K n)} {f : List (Val K)} {it : Nat} {s : S}
    (hr : A.rowOk c it s x f) (hno : c.nout ≤ p) :
    x.length = max 1 c.nout.toNat ∧ f.length = max 1 c.nout.toNat := by
  rcases hr with ⟨h1, rfl, rfl, _⟩ | ⟨h1, _, rfl, rfl⟩ | ⟨h1, _, i, _, rfl, rfl⟩
  · simp only [List.length_take, List.length_ofFn]; constructor <;> omega
  · simp only [List.length_singleton]; constructor <;> omega
  · simp only [List.length_singleton]; constructor <;> omega

theorem run_historyShape (hc : c.returnAll = true) (h : A.run c fuel s0 = .ok (r, L)) :
    HistoryShape (max 1 c.nout.toNat) (mkOut r L ev caller rng) := by
  obtain ⟨l, st, msg, hH, hlen, hlog, hm, rfl⟩ := run_hist h
  obtain ⟨e1, e2⟩ := hlog.rows_length.2 hc
  have hno : c.nout ≤ p := by
    obtain ⟨x, f, _, _, hr⟩ := hlog.rows hc 0 _ (List.getElem?_eq_getElem (by simp))
    rcases hr with ⟨_, _, _, h4⟩ | ⟨h1, _⟩ | ⟨h1, _⟩
    · exact h4 rfl
    · omega
    · omega
  have hall : ∀ k, k < (L.s :: l).length → ∃ x f, L.rowsX[k]? = some x ∧ L.rowsF[k]? = some f ∧
      x.length = max 1 c.nout.toNat ∧ f.length = max 1 c.nout.toNat := by
    intro k hk
    obtain ⟨x, f, hx, hf, hr⟩ := hlog.rows hc k _ (List.getElem?_eq_getElem (by simpa using hk))
    exact ⟨x, f, hx, hf, nout_row_length hr hno⟩
  refine ⟨L.rowsX, L.rowsF, by simp [mkOut, attach, hc], by simp [mkOut, attach, hc], by simpa [mkOut] using e1,
    by simpa [mkOut] using e2, ?_, ?_⟩
  · intro r hr
    obtain ⟨k, hk, rfl⟩ := List.mem_iff_getElem.1 hr
    obtain ⟨x, f, hx, _, h1, _⟩ := hall k (by omega)
    rw [List.getElem?_eq_getElem hk] at hx; simp only [Option.some.injEq] at hx
    rw [hx]; exact h1
  · intro r hr
    obtain ⟨k, hk, rfl⟩ := List.mem_iff_getElem.1 hr
    obtain ⟨x, f, _, hf, _, h1⟩ := hall k (by omega)
    rw [List.getElem?_eq_getElem hk] at hf; simp only [Option.some.injEq] at hf
    rw [hf]; exact h1

theorem run_noHistory (hc : c.returnAll = false) (h : A.run c fuel s0 = .ok (r, L)) :
    r.xall = none ∧ r.funall = none := by
  obtain ⟨l, st, msg, hH, hlen, hlog, hm, rfl⟩ := run_hist h
  simp [attach, hc]

theorem messages_documented {st : Int} {msg : String} (h : messages st = some msg) : Documented st msg := by
  unfold messages at h
  unfold Documented
  split_ifs at h <;> simp_all

/-- The last step of a completed run. -/
theorem run_last (hl : A.Laws maxiter ev) (h : A.run c fuel s0 = .ok (r, L)) :
    ∃ t st, A.step r.nit t = .ok (L.s, some st) ∧ r.status = st ∧ r.success = decide (0 ≤ st) ∧
      messages st = some r.message ∧ r.fval = A.bestFun L.s ∧ r.x = A.best L.s := by
  obtain ⟨l, st, msg, hH, hlen, hlog, hm, rfl⟩ := run_hist h
  cases hH with
  | next h hn =>
    obtain ⟨t, ht, _⟩ := hl.next_step hn
    exact ⟨t, st, by simpa using ht, rfl, rfl, hm, rfl, rfl⟩

theorem run_statusFaithful {ftol : Val K} {near : S → S → Bool} (hl : A.Laws maxiter ev)
    (hs : A.SyncStatus maxiter ftol near) (h : A.run c fuel s0 = .ok (r, L)) :
    StatusFaithful maxiter ftol (mkOut r L ev caller rng) := by
  obtain ⟨t, st, ht, h1, h2, h3, h4, h5⟩ := run_last hl h
  have hst := hs ht
  have hcode := hl.codes ht
  refine ⟨?_, ?_, ?_, ?_, ?_⟩
  · show r.status = 0 ∨ r.status = 1 ∨ r.status = -1
    rw [h1]; exact hcode
  · show r.success = true ↔ r.status = 0 ∨ r.status = 1
    rw [h1, h2]; simp; omega
  · show r.success = true ↔ r.fval ≤ ftol
    rw [h2, h4]
    split_ifs at hst with c1 c2 c3
    all_goals simp only [Option.some.injEq] at hst
    all_goals subst hst
    · simpa using c1.2
    · simpa using c2
    · simpa using c2
  · intro h
    have : st = -1 := by rw [← h1]; exact h
    subst this
    exact hl.budget ht
  · show Documented r.status r.message
    rw [h1]; exact messages_documented h3

/-- Intermediate generations did not reach `ftol`. -/
theorem run_firstReach {ftol : Val K} {near : S → S → Bool} (hl : A.Laws maxiter ev)
    (hs : A.SyncStatus maxiter ftol near) (h : A.run c fuel s0 = .ok (r, L)) (k : Nat) (b : CB K p n)
    (hb : L.cbs[k]? = some b) (hk : 0 < k) (hk' : k + 1 < r.nit) : ¬ b.fval ≤ ftol := by
  obtain ⟨l, st, msg, hH, hlen, hlog, hm, rfl⟩ := run_hist h
  have hc : c.hasCallback = true := by
    by_contra hc
    have := hlog.cbs_none (by simpa using hc)
    simp [this] at hb
  have key : ∀ {l : List S} {st}, A.Hist s0 l st → ∀ k s, 0 < k → (k + 1 < l.length ∨ st = none) →
      l.reverse[k]? = some s → ¬ A.bestFun s ≤ ftol := by
    intro l st h
    induction h with
    | init => intro k s hk _ h; cases k with
      | zero => omega
      | succ k => simp at h
    | @next s s' l st _ hn ih =>
      intro k t hk hk2 hget
      rw [List.reverse_cons] at hget
      by_cases hlt : k < (s :: l).length
      · rw [List.getElem?_append_left (by simpa using hlt)] at hget
        exact ih k t hk (Or.inr rfl) hget
      · have hk3 : k = (s :: l).length := by
          by_contra hne
          rw [List.getElem?_eq_none (by simp at hlt hne ⊢; omega)] at hget
          simp at hget
        subst hk3
        rw [List.getElem?_append_right (by simp)] at hget
        simp at hget; subst hget
        rcases hk2 with hk2 | hk2
        · simp at hk2
        · subst hk2
          obtain ⟨t, ht, _⟩ := hl.next_step hn
          have hst := hs ht
          intro hle
          split_ifs at hst
  have hk2 : k < (L.s :: l).reverse.length := by simp at hk' ⊢; omega
  have hget := List.getElem?_eq_getElem hk2
  have := hlog.cbs hc k _ hget
  rw [this] at hb
  simp only [Option.some.injEq] at hb
  subst hb
  exact key hH k _ hk (Or.inl (by simpa using hk')) hget

/-- The state before the last selection, as seen by the last but one callback. -/
theorem run_prev (hl : A.Laws maxiter ev) (h : A.run c fuel s0 = .ok (r, L)) {b : CB K p n}
    (hb : L.cbs[r.nit - 2]? = some b) :
    ∃ t u st, A.step r.nit t = .ok (L.s, some st) ∧ r.status = st ∧ (t = u ∨ ∃ it, t = A.post it u) ∧ b.x = A.best u := by
  obtain ⟨l, st, msg, hH, hlen, hlog, hm, rfl⟩ := run_hist h
  have hc : c.hasCallback = true := by
    by_contra hc
    have := hlog.cbs_none (by simpa using hc)
    simp [this] at hb
  cases hH with
  | @next s _ l _ hH' hn =>
    obtain ⟨t, ht, h1, _, _, h4⟩ := hl.next_step hn
    refine ⟨t, s, st, by simpa using ht, rfl, ?_, ?_⟩
    · rcases h4 with h | h
      · exact Or.inl h
      · exact Or.inr ⟨_, h⟩
    · have hget : (L.s :: s :: l).reverse[l.length]? = some s := by
        rw [List.reverse_cons, List.reverse_cons, List.append_assoc, List.getElem?_append_right (by simp)]
        simp
      have := hlog.cbs hc _ _ hget
      simp only [List.length_cons, Nat.add_sub_cancel] at hb
      rw [show l.length + 1 + 1 - 2 = l.length by omega, this] at hb
      simp only [Option.some.injEq] at hb
      subst hb; rfl

theorem run_statusSound {ftol : Val K} (hl : A.Laws maxiter ev)
    (hs : ∀ {it s s' k}, A.step it s = .ok (s', some k) → k = 0 ∨ k = 1 → A.bestFun s' ≤ ftol)
    (h : A.run c fuel s0 = .ok (r, L)) : StatusSound maxiter ftol (mkOut r L ev caller rng) := by
  obtain ⟨t, st, ht, h1, h2, h3, h4, h5⟩ := run_last hl h
  have hcode := hl.codes ht
  refine ⟨?_, ?_, ?_, ?_, ?_⟩
  · show r.status = 0 ∨ r.status = 1 ∨ r.status = -1
    rw [h1]; exact hcode
  · show r.success = true ↔ r.status = 0 ∨ r.status = 1
    rw [h1, h2]; simp; omega
  · show r.success = true → r.fval ≤ ftol
    intro hsu
    rw [h2] at hsu; simp at hsu
    rw [h4]
    exact hs ht (by omega)
  · intro h
    have : st = -1 := by rw [← h1]; exact h
    subst this
    exact hl.budget ht
  · show Documented r.status r.message
    rw [h1]; exact messages_documented h3

theorem record_ne_outOfFuel (it : Nat) (s : S) : A.record c it s ≠ .error .outOfFuel := by
  intro h
  unfold Alg.record at h
  by_cases h1 : c.returnAll = true
  · rw [if_pos h1] at h
    by_cases h2 : 0 < c.nout
    · rw [if_pos h2] at h; split_ifs at h; simp at h
    · rw [if_neg h2, bind_error_iff] at h
      rcases h with h | ⟨i, _, h⟩
      · exact argmin_ne_outOfFuel _ h
      · split_ifs at h; simp at h
  · rw [if_neg h1] at h; simp at h

/-- Termination: with enough fuel the loop does not run out of it. -/
theorem loop_fuel (hl : A.Laws maxiter ev) : ∀ (fuel : Nat) (L : Loop S K p n),
    (maxiter ≤ L.it + fuel ∧ 1 ≤ fuel) → A.loop c fuel L ≠ .error .outOfFuel := by
  intro fuel
  induction fuel with
  | zero => intro L h; omega
  | succ fuel ih =>
    intro L hf h
    rw [Alg.loop, bind_error_iff] at h
    rcases h with h | ⟨⟨L1, b⟩, hb, h⟩
    · unfold Alg.body at h
      rw [bind_error_iff] at h
      rcases h with h | ⟨rs, _, h⟩
      · exact hl.noFuel _ _ h
      · rw [bind_error_iff] at h
        rcases h with h | ⟨rows, _, h⟩
        · exact record_ne_outOfFuel _ _ h
        · simp at h
    · unfold Alg.body at hb
      rw [bind_ok_iff] at hb
      obtain ⟨⟨s', st⟩, hstep, hb⟩ := hb
      rw [bind_ok_iff] at hb
      obtain ⟨rows, hrec, hb⟩ := hb
      simp only [Except.ok.injEq, Prod.mk.injEq] at hb
      obtain ⟨rfl, rfl⟩ := hb
      dsimp only at h
      cases st with
      | some k => simp at h
      | none =>
        simp only [Option.isSome_none, Bool.false_eq_true, if_false] at h
        have := hl.cont hstep
        push_cast at this
        refine ih _ ⟨?_, ?_⟩ h
        · dsimp only; push_cast; omega
        · omega

theorem run_fuel (hl : A.Laws maxiter ev) {fuel : Nat} (hf : 1 ≤ fuel) (hf' : maxiter ≤ 1 + (fuel : Int)) :
    A.run c fuel s0 ≠ .error .outOfFuel := by
  intro h
  unfold Alg.run at h
  rw [bind_error_iff] at h
  rcases h with h | ⟨L0, h0, h⟩
  · unfold Alg.start at h
    rw [bind_error_iff] at h
    rcases h with h | ⟨_, _, h⟩
    · unfold Alg.record0 at h; split_ifs at h <;> simp at h
    · simp at h
  · obtain ⟨_, hit, _⟩ := start_logged h0
    rw [bind_error_iff] at h
    rcases h with h | ⟨L1, _, h⟩
    · exact loop_fuel hl fuel L0 ⟨by rw [hit]; push_cast; omega, hf⟩ h
    · rw [bind_error_iff] at h
      rcases h with h | ⟨_, _, h⟩
      · unfold Alg.finish at h
        split at h
        · simp at h
        · split at h <;> simp at h
      · simp at h

end run
end Stochopy
