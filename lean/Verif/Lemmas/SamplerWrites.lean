import Verif.Model.CallbackWrites
import Verif.Lemmas.Except
import Verif.Lemmas.InPlace
import Verif.Spec.CallbackWrites

set_option linter.unusedSectionVars false

/-!
# Callbacks that write (C110): lemmas on the samplers
-/

namespace Stochopy
open Spec Sampling

variable {K σ : Type} [Zero K] [One K] [Add K] [Sub K] [Mul K] [Div K] [Neg K] [NatCast K] [IntCast K] [Pow K ℕ] [ArrayOps K] [LinearOrder K]
variable {n : Nat} {fn : Vec (Val K) n → Val K} {wr : Nat → Vec (Val K) n → Vec (Val K) n}

namespace Sampling

/-- Values belong to samples. -/
structure Paired (fn : Vec (Val K) n → Val K) (s : State σ K n) : Prop where
  vals : s.fs = s.xs.map fn
  cur : s.fcur = fn s.xcur
  last : ∃ l, s.xs = l ++ [s.xcur]
  best : s.fmin = .pinf ∨ (s.imin < s.xs.length ∧ fn (s.xs.getD s.imin s.xcur) = s.fmin)

theorem push_last (s : State σ K n) (acc : Option (Vec (Val K) n × Val K)) : ∃ l, (s.push acc).xs = l ++ [(s.push acc).xcur] := by
  unfold State.push
  cases acc with
  | none => exact ⟨s.xs, rfl⟩
  | some q => exact ⟨s.xs, rfl⟩

theorem getD_append_lt {α : Type} {l l' : List α} {i : Nat} (h : i < l.length) (d d' : α) : (l ++ l').getD i d = l.getD i d' := by
  rw [List.getD_eq_getElem?_getD, List.getD_eq_getElem?_getD, List.getElem?_append_left h, List.getElem?_eq_getElem h]
  rfl

theorem getD_append_len {α : Type} {l : List α} {x d : α} : (l ++ [x]).getD l.length d = x := by
  rw [List.getD_eq_getElem?_getD]; simp

theorem Paired.push {s : State σ K n} (h : Paired fn s) {acc : Option (Vec (Val K) n × Val K)}
    (ha : ∀ q, acc = some q → q.2 = fn q.1) : Paired fn (s.push acc) := by
  refine ⟨?_, ?_, push_last s acc, ?_⟩
  · unfold State.push
    cases acc with
    | none => simp [h.vals, h.cur]
    | some q => simp [h.vals, ha q rfl]
  · unfold State.push
    cases acc with
    | none => exact h.cur
    | some q => exact ha q rfl
  · unfold State.push
    cases acc with
    | none =>
      rcases h.best with hb | ⟨h1, h2⟩
      · exact Or.inl hb
      · refine Or.inr ⟨?_, ?_⟩
        · dsimp only; rw [List.length_append]; omega
        · dsimp only; rw [getD_append_lt h1 _ s.xcur]; exact h2
    | some q =>
      dsimp only
      by_cases hlt : q.2 < s.fmin
      · rw [if_pos hlt, if_pos hlt]
        refine Or.inr ⟨by simp, ?_⟩
        rw [getD_append_len]; exact (ha q rfl).symm
      · rw [if_neg hlt, if_neg hlt]
        rcases h.best with hb | ⟨h1, h2⟩
        · exact Or.inl hb
        · refine Or.inr ⟨by rw [List.length_append]; omega, ?_⟩
          rw [getD_append_lt h1 _ s.xcur]; exact h2

theorem Paired.notify {s : State σ K n} (h : Paired fn s) (hc ra : Bool) : Paired fn (s.notify hc ra) := ⟨h.vals, h.cur, h.last, h.best⟩

theorem Paired.write {s : State σ K n} (h : Paired fn s) (hw : ∀ k x, fn (wr k x) = fn x) (hc : Bool) : Paired fn (s.write hc wr) := by
  unfold State.write
  split_ifs
  · obtain ⟨l, hl⟩ := h.last
    have hd : s.xs.dropLast = l := by rw [hl]; simp
    have hlen : s.xs.length = l.length + 1 := by rw [hl]; simp
    refine ⟨?_, ?_, ⟨l, by rw [← hd]⟩, ?_⟩
    · dsimp only
      rw [hd, h.vals, List.map_append, List.map_cons, List.map_nil, hw, hl, List.map_append, List.map_cons, List.map_nil]
    · dsimp only; rw [hw]; exact h.cur
    · dsimp only
      rw [hd]
      rcases h.best with hb | ⟨h1, h2⟩
      · exact Or.inl hb
      · refine Or.inr ⟨by rw [List.length_append]; simpa [hlen] using h1, ?_⟩
        by_cases hi : s.imin < l.length
        · rw [getD_append_lt hi _ s.xcur]
          rw [hl, getD_append_lt hi _ s.xcur] at h2
          exact h2
        · have he : s.imin = l.length := by omega
          rw [he, getD_append_len, hw]
          rw [hl, he, getD_append_len] at h2
          exact h2
  · exact h

theorem start_paired {a : Sampling.Args K} {fn : Vec (Val K) a.ndim → Val K} {R : Rng σ K} {g : σ} {s : State σ K a.ndim}
    (h : start a fn R g = .ok s) : Paired fn s ∧ (a.callback.isSome = true → ∃ b, s.cbs = [b] ∧ b.xk = s.xcur ∧ b.nit = s.xs.length) := by
  unfold start at h
  by_cases h1 : a.maxiter < 0
  · rw [if_pos h1] at h; cases h
  rw [if_neg h1] at h
  by_cases h2 : a.maxiter = 0
  · rw [if_pos h2] at h; cases h
  rw [if_neg h2, bind_ok_iff] at h
  obtain ⟨x, hx, h⟩ := h
  simp only [Except.ok.injEq] at h
  subst h
  refine ⟨⟨rfl, rfl, ⟨[], rfl⟩, Or.inl rfl⟩, fun hc => ?_⟩
  dsimp only
  rw [if_pos hc]
  exact ⟨_, rfl, rfl, rfl⟩

theorem write_same {s : State σ K n} {hc : Bool} (hl : ∃ l, s.xs = l ++ [s.xcur]) (h : hc = true → wr s.xs.length s.xcur = s.xcur) :
    s.write hc wr = s := by
  unfold State.write
  split_ifs with hc'
  · rw [h hc']
    obtain ⟨l, hl⟩ := hl
    have : s.xs.dropLast ++ [s.xcur] = s.xs := by rw [hl]; simp
    rw [this]
  · rfl

/-- The state at the end of an iteration. -/
structure Ends (fn : Vec (Val K) n → Val K) (hc : Bool) (s s' : State σ K n) : Prop where
  paired : Paired fn s → Paired fn s'
  last : ∃ l, s'.xs = l ++ [s'.xcur]
  shown : hc = true → ∃ b, s'.cbs = s.cbs ++ [b] ∧ b.xk = s'.xcur ∧ b.nit = s'.xs.length

theorem ends_push {s : State σ K n} {ev : List (Vec (Val K) n)} {r : σ} {acc : Option (Vec (Val K) n × Val K)} {hc ra : Bool}
    (ha : ∀ q, acc = some q → q.2 = fn q.1) :
    Ends fn hc s ((({ s with evals := ev, rng := r } : State σ K n).push acc).notify hc ra) where
  paired h := (Paired.push (s := { s with evals := ev, rng := r }) ⟨h.vals, h.cur, h.last, h.best⟩ ha).notify hc ra
  last := push_last _ acc
  shown := by
    intro h
    unfold State.notify
    dsimp only
    have hp : (({ s with evals := ev, rng := r } : State σ K n).push acc).cbs = s.cbs := by
      unfold State.push
      cases acc <;> rfl
    rw [if_pos h, hp]
    exact ⟨_, rfl, rfl, rfl⟩

end Sampling

namespace MCMC
variable [NumFns K] {P : Par σ K n}

theorem block_ends {j : Nat} {s s' : State σ K n} (h : block P j s = .ok s') : Ends P.fn P.hasCallback s s' := by
  unfold block at h
  dsimp only at h
  split_ifs at h
  · simp only [Except.ok.injEq] at h
    rw [← h]
    refine ends_push ?_
    intro q hq
    simp only [Option.some.injEq] at hq
    rw [← hq]
  · simp only [Except.ok.injEq] at h
    rw [← h]
    exact ends_push (by intro q hq; cases hq)
  · simp only [Except.ok.injEq] at h
    rw [← h]
    exact ends_push (by intro q hq; cases hq)

theorem sweepC_paired (hw : ∀ k x, P.fn (wr k x) = P.fn x) : ∀ (js : List Nat) {s s' : State σ K n}, Paired P.fn s →
    sweepC wr P js s = .ok s' → Paired P.fn s'
  | [], s, s', hI, h => by simp only [sweepC, Except.ok.injEq] at h; rw [← h]; exact hI
  | j :: js, s, s', hI, h => by
    simp only [sweepC] at h
    rw [bind_ok_iff] at h
    obtain ⟨t, ht, h⟩ := h
    have hI' := ((block_ends ht).paired hI).write hw P.hasCallback
    split_ifs at h
    · simp only [Except.ok.injEq] at h; rw [← h]; exact hI'
    · exact sweepC_paired hw js hI' h

theorem loopC_paired (hw : ∀ k x, P.fn (wr k x) = P.fn x) : ∀ (fuel : Nat) {s s' : State σ K n}, Paired P.fn s →
    loopC wr P fuel s = .ok s' → Paired P.fn s'
  | 0, s, s', hI, h => by
    simp only [loopC] at h
    split_ifs at h
    simp only [Except.ok.injEq] at h; rw [← h]; exact hI
  | fuel + 1, s, s', hI, h => by
    simp only [loopC] at h
    split_ifs at h
    · rw [bind_ok_iff] at h
      obtain ⟨t, ht, h⟩ := h
      exact loopC_paired hw fuel (sweepC_paired hw _ hI ht) h
    · simp only [Except.ok.injEq] at h; rw [← h]; exact hI

theorem sweep_cbs : ∀ (js : List Nat) {s s' : State σ K n}, P.hasCallback = true → sweep P js s = .ok s' → s.cbs ⊆ s'.cbs
  | [], s, s', _, h => by simp only [sweep, Except.ok.injEq] at h; rw [← h]; exact fun _ h => h
  | j :: js, s, s', hc, h => by
    simp only [sweep] at h
    rw [bind_ok_iff] at h
    obtain ⟨t, ht, h⟩ := h
    obtain ⟨b, hb, _⟩ := (block_ends ht).shown hc
    have hs : s.cbs ⊆ t.cbs := by rw [hb]; exact List.subset_append_left _ _
    split_ifs at h
    · simp only [Except.ok.injEq] at h; rw [← h]; exact hs
    · exact List.Subset.trans hs (sweep_cbs js hc h)

theorem loop_cbs : ∀ (fuel : Nat) {s s' : State σ K n}, P.hasCallback = true → loop P fuel s = .ok s' → s.cbs ⊆ s'.cbs
  | 0, s, s', _, h => by
    simp only [loop] at h
    split_ifs at h
    simp only [Except.ok.injEq] at h; rw [← h]; exact fun _ h => h
  | fuel + 1, s, s', hc, h => by
    simp only [loop] at h
    split_ifs at h
    · rw [bind_ok_iff] at h
      obtain ⟨t, ht, h⟩ := h
      exact List.Subset.trans (sweep_cbs _ hc ht) (loop_cbs fuel hc h)
    · simp only [Except.ok.injEq] at h; rw [← h]; exact fun _ h => h

theorem sweepC_same : ∀ (js : List Nat) {s s' : State σ K n}, sweep P js s = .ok s' →
    (P.hasCallback = true → ∀ b ∈ s'.cbs, wr b.nit b.xk = b.xk) → sweepC wr P js s = .ok s'
  | [], s, s', h, _ => h
  | j :: js, s, s', h, hb => by
    simp only [sweep] at h
    rw [bind_ok_iff] at h
    obtain ⟨t, ht, h⟩ := h
    have hE := block_ends ht
    have hsub : P.hasCallback = true → t.cbs ⊆ s'.cbs := by
      intro hc
      split_ifs at h
      · simp only [Except.ok.injEq] at h; rw [← h]; exact fun _ h => h
      · exact sweep_cbs js hc h
    have hwr : t.write P.hasCallback wr = t := by
      refine write_same hE.last fun hc => ?_
      obtain ⟨b, h1, h2, h3⟩ := hE.shown hc
      have := hb hc b (hsub hc (by rw [h1]; simp))
      rw [h2, h3] at this
      exact this
    simp only [sweepC]
    rw [ht]
    show (if (t.write P.hasCallback wr).xs.length = P.maxiter then _ else _) = _
    rw [hwr]
    split_ifs at h ⊢
    · exact h
    · exact sweepC_same js h hb

theorem loopC_same : ∀ (fuel : Nat) {s s' : State σ K n}, loop P fuel s = .ok s' →
    (P.hasCallback = true → ∀ b ∈ s'.cbs, wr b.nit b.xk = b.xk) → loopC wr P fuel s = .ok s'
  | 0, s, s', h, _ => h
  | fuel + 1, s, s', h, hb => by
    simp only [loop] at h
    simp only [loopC]
    split_ifs at h ⊢
    · rw [bind_ok_iff] at h
      obtain ⟨t, ht, h⟩ := h
      rw [sweepC_same _ ht fun hc b hbt => hb hc b (loop_cbs fuel hc h hbt)]
      exact loopC_same fuel h hb
    · exact h

variable [IntParts K] {R : Rng σ K} {fuel : Nat} {g : σ}

theorem sampleC_paired {a : Args K} {wr : Nat → Vec (Val K) a.ndim → Vec (Val K) a.ndim} {fn : Vec (Val K) a.ndim → Val K}
    (hfn : a.fn = some fn) (hw : ∀ k x, fn (wr k x) = fn x) {o : Sampling.Output σ K a.ndim} (h : (sampleC R fuel a wr g).1 = .ok o) :
    ∃ s, Paired fn s ∧ o = finish a.maxiter a.returnAll s := by
  unfold sampleC at h
  split at h
  · simp at h
  · simp at h
  · simp at h
  · rename_i fn' step hfn' hc hs
    obtain rfl : fn = fn' := by rw [hfn] at hfn'; exact Option.some.inj hfn'
    unfold restC at h
    dsimp only at h
    split_ifs at h
    rw [bind_ok_iff] at h
    obtain ⟨s0, hs0, h⟩ := h
    rw [bind_ok_iff] at h
    obtain ⟨s, hs, h⟩ := h
    simp only [Except.ok.injEq] at h
    exact ⟨s, loopC_paired (P := _) hw fuel ((start_paired hs0).1.write hw _) hs, h.symm⟩

theorem sampleC_same {a : Args K} {wr : Nat → Vec (Val K) a.ndim → Vec (Val K) a.ndim} {o : Sampling.Output σ K a.ndim}
    (h : (sample R fuel a g).1 = .ok o) (hb : LeavesSamples wr o) : sampleC R fuel a wr g = sample R fuel a g := by
  unfold sample at h ⊢
  unfold sampleC
  split at h
  · simp at h
  · simp at h
  · simp at h
  · rename_i fn step hfn hc hs
    simp only at h ⊢
    rw [hfn, hc, hs]
    simp only [Prod.mk.injEq, and_true]
    rw [h]
    unfold rest at h
    unfold restC
    split_ifs at h ⊢
    rw [bind_ok_iff] at h
    obtain ⟨s0, hs0, h⟩ := h
    rw [bind_ok_iff] at h
    obtain ⟨s, hs, h⟩ := h
    have hb' : ∀ b ∈ s.cbs, wr b.nit b.xk = b.xk := by
      have ho := h
      simp only [Except.ok.injEq] at ho
      rw [← ho] at hb; exact hb
    have h0 : s0.write a.callback.isSome wr = s0 := by
      obtain ⟨hp, hsh⟩ := start_paired hs0
      refine write_same hp.last fun hc => ?_
      obtain ⟨b, h1, h2, h3⟩ := hsh hc
      have := hb' b (loop_cbs (P := _) fuel hc hs (by rw [h1]; simp))
      rw [h2, h3] at this
      exact this
    rw [hs0]
    show (do let s' ← loopC wr _ fuel (s0.write a.callback.isSome wr); _) = _
    rw [h0, loopC_same fuel hs fun _ => hb']
    exact h

end MCMC

namespace HMC
variable [NumFns K] {P : Par σ K n}

theorem iter_ends {s s' : State σ K n} (h : iter P s = .ok s') : Ends P.fn P.hasCallback s s' := by
  unfold iter at h
  dsimp only at h
  rw [bind_ok_iff] at h
  obtain ⟨r, hr, h⟩ := h
  split_ifs at h
  · simp only [Except.ok.injEq] at h
    rw [← h]
    refine ends_push ?_
    intro q hq
    simp only [Option.some.injEq] at hq
    rw [← hq]
  · simp only [Except.ok.injEq] at h
    rw [← h]
    exact ends_push (by intro q hq; cases hq)
  · simp only [Except.ok.injEq] at h
    rw [← h]
    exact ends_push (by intro q hq; cases hq)

theorem loopC_paired (hw : ∀ k x, P.fn (wr k x) = P.fn x) : ∀ (k : Nat) {s s' : State σ K n}, Paired P.fn s →
    loopC wr P k s = .ok s' → Paired P.fn s'
  | 0, s, s', hI, h => by simp only [loopC, Except.ok.injEq] at h; rw [← h]; exact hI
  | k + 1, s, s', hI, h => by
    simp only [loopC] at h
    rw [bind_ok_iff] at h
    obtain ⟨t, ht, h⟩ := h
    exact loopC_paired hw k (((iter_ends ht).paired hI).write hw P.hasCallback) h

theorem loop_cbs : ∀ (k : Nat) {s s' : State σ K n}, P.hasCallback = true → loop P k s = .ok s' → s.cbs ⊆ s'.cbs
  | 0, s, s', _, h => by simp only [loop, Except.ok.injEq] at h; rw [← h]; exact fun _ h => h
  | k + 1, s, s', hc, h => by
    simp only [loop] at h
    rw [bind_ok_iff] at h
    obtain ⟨t, ht, h⟩ := h
    obtain ⟨b, hb, _⟩ := (iter_ends ht).shown hc
    have hs : s.cbs ⊆ t.cbs := by rw [hb]; exact List.subset_append_left _ _
    exact List.Subset.trans hs (loop_cbs k hc h)

theorem loopC_same : ∀ (k : Nat) {s s' : State σ K n}, loop P k s = .ok s' →
    (P.hasCallback = true → ∀ b ∈ s'.cbs, wr b.nit b.xk = b.xk) → loopC wr P k s = .ok s'
  | 0, s, s', h, _ => h
  | k + 1, s, s', h, hb => by
    simp only [loop] at h
    simp only [loopC]
    rw [bind_ok_iff] at h
    obtain ⟨t, ht, h⟩ := h
    have hE := iter_ends ht
    have hwr : t.write P.hasCallback wr = t := by
      refine write_same hE.last fun hc => ?_
      obtain ⟨b, h1, h2, h3⟩ := hE.shown hc
      have := hb hc b (loop_cbs k hc h (by rw [h1]; simp))
      rw [h2, h3] at this
      exact this
    rw [ht]
    show loopC wr P k (t.write P.hasCallback wr) = _
    rw [hwr]
    exact loopC_same k h hb

variable {R : Rng σ K} {g : σ}

theorem sampleC_paired {a : Args K} {wr : Nat → Vec (Val K) a.ndim → Vec (Val K) a.ndim} {fn : Vec (Val K) a.ndim → Val K}
    (hfn : a.fn = some fn) (hw : ∀ k x, fn (wr k x) = fn x) {o : Sampling.Output σ K a.ndim} (h : (sampleC R a wr g).1 = .ok o) :
    ∃ s, Paired fn s ∧ finish a.maxiter a.returnAll s = .ok o := by
  unfold sampleC at h
  split at h
  · simp at h
  · simp at h
  · simp at h
  · simp at h
  · rename_i fn' step hfn' _ _ _
    obtain rfl : fn = fn' := by rw [hfn] at hfn'; exact Option.some.inj hfn'
    unfold restC at h
    dsimp only at h
    split_ifs at h
    rw [bind_ok_iff] at h
    obtain ⟨s0, hs0, h⟩ := h
    rw [bind_ok_iff] at h
    obtain ⟨s, hs, h⟩ := h
    exact ⟨s, loopC_paired (P := _) hw _ ((start_paired hs0).1.write hw _) hs, h⟩

theorem sampleC_same {a : Args K} {wr : Nat → Vec (Val K) a.ndim → Vec (Val K) a.ndim} {o : Sampling.Output σ K a.ndim}
    (h : (sample R a g).1 = .ok o) (hb : LeavesSamples wr o) : sampleC R a wr g = sample R a g := by
  unfold sample at h ⊢
  unfold sampleC
  split at h
  · simp at h
  · simp at h
  · simp at h
  · simp at h
  · rename_i fn step hfn hc hl hs
    simp only at h ⊢
    rw [hfn, hc, hl, hs]
    simp only [Prod.mk.injEq, and_true]
    rw [h]
    unfold rest at h
    unfold restC
    split_ifs at h ⊢
    rw [bind_ok_iff] at h
    obtain ⟨s0, hs0, h⟩ := h
    rw [bind_ok_iff] at h
    obtain ⟨s, hs, h⟩ := h
    have hb' : ∀ b ∈ s.cbs, wr b.nit b.xk = b.xk := by
      have ho := h
      unfold finish at ho
      rw [bind_ok_iff] at ho
      obtain ⟨i, _, ho⟩ := ho
      simp only [Except.ok.injEq] at ho
      rw [← ho] at hb; exact hb
    have h0 : s0.write a.callback.isSome wr = s0 := by
      obtain ⟨hp, hsh⟩ := start_paired hs0
      refine write_same hp.last fun hc => ?_
      obtain ⟨b, h1, h2, h3⟩ := hsh hc
      have := hb' b (loop_cbs (P := _) _ hc hs (by rw [h1]; simp))
      rw [h2, h3] at this
      exact this
    rw [hs0]
    show (do let s' ← loopC wr _ _ (s0.write a.callback.isSome wr); _) = _
    rw [h0, loopC_same _ hs fun _ => hb']
    exact h

end HMC

end Stochopy
