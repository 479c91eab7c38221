import Verif.Model.HistoryWrites
import Verif.Spec.HistoryWrites
import Verif.Lemmas.SamplerWrites

set_option linter.unusedSectionVars false

/-!
# Callbacks that write into the history (C112): lemmas
-/

namespace Stochopy
open Spec Sampling

variable {K σ : Type} [Zero K] [One K] [Add K] [Sub K] [Mul K] [Div K] [Neg K] [NatCast K] [IntCast K] [Pow K ℕ] [ArrayOps K] [LinearOrder K]
variable {n : Nat} {w : Writes K n}

namespace Sampling

theorem _root_.Stochopy.Spec.Rewrites.mono {α : Type} {c : Nat → Nat → Nat → α → α} {B B' : Nat → Nat → Prop} (hB : ∀ k m, B k m → B' k m)
    {i k : Nat} {x y : α} (h : Rewrites c B i x k y) : Rewrites c B' i x k y := by
  induction h with
  | new => exact .new
  | call m hm _ ih => exact .call m (hB _ _ hm) ih

theorem _root_.Stochopy.Spec.RowsLeft.append {α : Type} {c : Nat → Nat → Nat → α → α} (hc : OldRows c) {B B' : Nat → Nat → Prop}
    (hB : ∀ k m, B k m → B' k m) {xs ys : List α} (h : RowsLeft c B xs ys) {N m : Nat} (hN : xs.length = N) (hm : B' (N + 1) m) (x : α) :
    RowsLeft c B' (xs ++ [x]) ((ys ++ [x]).mapIdx (c (N + 1) m)) := by
  subst hN
  refine ⟨by simp [h.1], fun i x' y' hx hy => ?_⟩
  rw [List.getElem?_mapIdx, Option.map_eq_some_iff] at hy
  obtain ⟨y, hy, rfl⟩ := hy
  rw [List.length_append, List.length_singleton]
  by_cases hi : i < xs.length
  · rw [List.getElem?_append_left hi] at hx
    rw [List.getElem?_append_left (by rw [h.1]; exact hi)] at hy
    exact .call m hm ((h.2 i x' y hx hy).mono hB)
  · have hlt : i < (xs ++ [x]).length := (List.getElem?_eq_some_iff.1 hx).1
    rw [List.length_append, List.length_singleton] at hlt
    obtain rfl : i = xs.length := by omega
    have hx' : x' = x := by rw [List.getElem?_concat_length] at hx; exact (Option.some.inj hx).symm
    have hy' : y = x := by rw [← h.1, List.getElem?_concat_length] at hy; exact (Option.some.inj hy).symm
    rw [hx', hy', hc]
    exact .new

theorem shownBest_append {cbs : List (CB K n)} (b : CB K n) (k m : Nat) (h : ShownBest cbs k m) : ShownBest (cbs ++ [b]) k m := by
  obtain ⟨hm, b', c', h1, h2, h3⟩ := h
  refine ⟨hm, b', c', ?_, ?_, h3⟩
  · rw [List.getElem?_append_left (List.getElem?_eq_some_iff.1 h1).1]; exact h1
  · rw [List.getElem?_append_left (List.getElem?_eq_some_iff.1 h2).1]; exact h2

/-- The state of a run without writes and the state of the run with them, after the same callback. -/
structure Rel (w : Writes K n) (s t : State σ K n) : Prop where
  xcur : t.xcur = s.xcur
  fcur : t.fcur = s.fcur
  nacc : t.nacc = s.nacc
  imin : t.imin = s.imin
  fmin : t.fmin = s.fmin
  evals : t.evals = s.evals
  rng : t.rng = s.rng
  cbs : t.cbs.map (fun b => (b.xk, b.nit, b.acceptRatio)) = s.cbs.map fun b => (b.xk, b.nit, b.acceptRatio)
  rows : RowsLeft w.x (ShownBest s.cbs) s.xs t.xs
  vals : RowsLeft w.f (ShownBest s.cbs) s.fs t.fs
  len : s.fs.length = s.xs.length
  best : s.imin < s.xs.length
  keys : s.cbs.map (·.xk) = s.xs

theorem Rel.count {s t : State σ K n} (h : Rel w s t) : s.cbs.length = s.xs.length := by
  rw [← h.keys, List.length_map]

/-- The best sample at the callback at the end of an iteration. -/
theorem shownBest_last {cbs : List (CB K n)} {b : CB K n} {xs : List (Vec (Val K) n)} {x d : Vec (Val K) n} {m : Nat}
    (hk : cbs.map (·.xk) = xs) (hb : b.xk = x) (hm : m < xs.length + 1) (hx : b.x = (xs ++ [x]).getD m d) :
    ShownBest (cbs ++ [b]) (xs.length + 1) m := by
  have hlen : cbs.length = xs.length := by rw [← hk, List.length_map]
  have hk' : (cbs ++ [b]).map (·.xk) = xs ++ [x] := by rw [List.map_append, hk, List.map_cons, List.map_nil, hb]
  have hlt : m < (cbs ++ [b]).length := by rw [List.length_append, List.length_singleton, hlen]; exact hm
  refine ⟨hm, b, (cbs ++ [b])[m], ?_, List.getElem?_eq_getElem hlt, ?_⟩
  · rw [Nat.add_sub_cancel, ← hlen, List.getElem?_concat_length]
  · rw [hx, List.getD_eq_getElem?_getD, ← hk', List.getElem?_map, List.getElem?_eq_getElem hlt]; rfl

theorem rel_push (hx : OldRows w.x) (hf : OldRows w.f) {s t : State σ K n} (h : Rel w s t) (ev : List (Vec (Val K) n)) (r : σ)
    (acc : Option (Vec (Val K) n × Val K)) (ra : Bool) :
    Rel w ((({ s with evals := ev, rng := r } : State σ K n).push acc).notify true ra)
      (((({ t with evals := ev, rng := r } : State σ K n).push acc).notify true ra).rewrite true w) := by
  have hb := h.best
  have hl := h.rows.1
  cases acc with
  | none =>
    refine ⟨?_, ?_, h.nacc, h.imin, h.fmin, rfl, rfl, ?_, ?_, ?_, ?_, ?_, ?_⟩
    · simp only [State.push, State.notify, State.rewrite, if_true, List.length_append, List.length_singleton, Nat.add_sub_cancel]
      rw [hx]; exact h.xcur
    · simp only [State.push, State.notify, State.rewrite, if_true, List.length_append, List.length_singleton, Nat.add_sub_cancel]
      rw [hf]; exact h.fcur
    · simp only [State.push, State.notify, State.rewrite, if_true, List.map_append, h.cbs, List.map_cons, List.map_nil, h.xcur, h.nacc,
        List.length_append, hl]
    · simp only [State.push, State.notify, State.rewrite, if_true, h.xcur, h.imin, List.length_append, List.length_singleton, hl]
      refine h.rows.append hx (shownBest_append _) rfl ?_ _
      exact shownBest_last h.keys rfl (by omega) rfl
    · simp only [State.push, State.notify, State.rewrite, if_true, h.fcur, h.imin, List.length_append, List.length_singleton, hl]
      refine h.vals.append hf (shownBest_append _) h.len ?_ _
      exact shownBest_last h.keys rfl (by omega) rfl
    · simp only [State.push, State.notify, List.length_append, h.len, List.length_singleton]
    · simp only [State.push, State.notify, List.length_append]; omega
    · simp only [State.push, State.notify, if_true, List.map_append, h.keys, List.map_cons, List.map_nil]
  | some q =>
    have hm : (if q.2 < s.fmin then s.xs.length else s.imin) < s.xs.length + 1 := by split_ifs <;> omega
    refine ⟨?_, ?_, ?_, ?_, ?_, rfl, rfl, ?_, ?_, ?_, ?_, ?_, ?_⟩
    · simp only [State.push, State.notify, State.rewrite, if_true, List.length_append, List.length_singleton, Nat.add_sub_cancel]
      rw [hx]
    · simp only [State.push, State.notify, State.rewrite, if_true, List.length_append, List.length_singleton, Nat.add_sub_cancel]
      rw [hf]
    · simp only [State.push, State.notify, State.rewrite, if_true, h.nacc]
    · simp only [State.push, State.notify, State.rewrite, if_true, h.fmin, h.imin, hl]
    · simp only [State.push, State.notify, State.rewrite, if_true, h.fmin]
    · simp only [State.push, State.notify, State.rewrite, if_true, List.map_append, h.cbs, List.map_cons, List.map_nil, h.nacc,
        List.length_append, hl]
    · simp only [State.push, State.notify, State.rewrite, if_true, h.imin, h.fmin, List.length_append, List.length_singleton, hl]
      refine h.rows.append hx (shownBest_append _) rfl ?_ _
      exact shownBest_last h.keys rfl hm rfl
    · simp only [State.push, State.notify, State.rewrite, if_true, h.imin, h.fmin, List.length_append, List.length_singleton, hl]
      refine h.vals.append hf (shownBest_append _) h.len ?_ _
      exact shownBest_last h.keys rfl hm rfl
    · simp only [State.push, State.notify, List.length_append, h.len, List.length_singleton]
    · simp only [State.push, State.notify, List.length_append, List.length_singleton]; exact hm
    · simp only [State.push, State.notify, if_true, List.map_append, h.keys, List.map_cons, List.map_nil]

theorem rowsLeft_one {α : Type} {c : Nat → Nat → Nat → α → α} (hc : OldRows c) {B : Nat → Nat → Prop} {m : Nat} (hm : B 1 m) (x : α) :
    RowsLeft c B [x] ([x].mapIdx (c 1 m)) :=
  RowsLeft.append hc (fun _ _ h => h) (xs := []) (ys := []) ⟨rfl, fun i x y h => by simp at h⟩ rfl hm x

theorem rel_start {a : Sampling.Args K} {w : Writes K a.ndim} (hx : OldRows w.x) (hf : OldRows w.f) {fn : Vec (Val K) a.ndim → Val K}
    {R : Rng σ K} {g : σ} {s : State σ K a.ndim} (hc : a.callback.isSome = true) (h : start a fn R g = .ok s) : Rel w s (s.rewrite true w) := by
  unfold start at h
  by_cases h1 : a.maxiter < 0
  · rw [if_pos h1] at h; cases h
  rw [if_neg h1] at h
  by_cases h2 : a.maxiter = 0
  · rw [if_pos h2] at h; cases h
  rw [if_neg h2, bind_ok_iff] at h
  obtain ⟨x, -, h⟩ := h
  simp only [Except.ok.injEq] at h
  subst h
  simp only [hc, if_true]
  exact ⟨hx 0 _ _, hf 0 _ _, rfl, rfl, rfl, rfl, rfl, rfl, rowsLeft_one hx ⟨Nat.one_pos, _, _, rfl, rfl, rfl⟩ _,
    rowsLeft_one hf ⟨Nat.one_pos, _, _, rfl, rfl, rfl⟩ _, rfl, Nat.one_pos, rfl⟩

theorem rewrites_id {α : Type} {c : Nat → Nat → Nat → α → α} (hc : ∀ k m i x, c k m i x = x) {B : Nat → Nat → Prop} {i k : Nat}
    {x y : α} (h : Rewrites c B i x k y) :
    y = x := by
  induction h with
  | new => rfl
  | call m _ _ ih => rw [hc]; exact ih

theorem rowsLeft_id {α : Type} {c : Nat → Nat → Nat → α → α} (hc : ∀ k m i x, c k m i x = x) {B : Nat → Nat → Prop} {xs ys : List α}
    (h : RowsLeft c B xs ys) :
    ys = xs := by
  refine List.ext_getElem h.1 fun i h1 h2 => ?_
  exact rewrites_id hc (h.2 i _ _ (List.getElem?_eq_getElem h2) (List.getElem?_eq_getElem h1))

theorem Rel.row {s t : State σ K n} (h : Rel w s t) {i : Nat} (hi : i < s.xs.length) (d d' : Vec (Val K) n) :
    Rewrites w.x (ShownBest s.cbs) i (s.xs.getD i d) s.cbs.length (t.xs.getD i d') := by
  rw [h.count]
  have h2 : i < t.xs.length := by rw [h.rows.1]; exact hi
  refine h.rows.2 i _ _ ?_ ?_
  · rw [List.getD_eq_getElem?_getD, List.getElem?_eq_getElem hi]; rfl
  · rw [List.getD_eq_getElem?_getD, List.getElem?_eq_getElem h2]; rfl

/-- Values belong to samples, also after writes that keep the values. -/
theorem Paired.rewrite {fn : Vec (Val K) n → Val K} {s : State σ K n} (h : Paired fn s) (hw : ∀ k m i x, fn (w.x k m i x) = fn x)
    (hf : ∀ k m i f, w.f k m i f = f) (hc : Bool) : Paired fn (s.rewrite hc w) := by
  unfold State.rewrite
  split_ifs
  · have hid : ∀ k m (l : List (Val K)), l.mapIdx (w.f k m) = l := fun k m l => by
      have : w.f k m = fun _ f => f := by funext i f; exact hf k m i f
      rw [this]
      refine List.ext_getElem? fun i => ?_
      rw [List.getElem?_mapIdx]; simp
    have hmap : ∀ k m (l : List (Vec (Val K) n)), (l.mapIdx (w.x k m)).map fn = l.map fn := fun k m l => by
      refine List.ext_getElem? fun i => ?_
      rw [List.getElem?_map, List.getElem?_mapIdx, List.getElem?_map]
      cases l[i]? <;> simp [hw]
    refine ⟨?_, ?_, ?_, ?_⟩
    · dsimp only; rw [hid, hmap]; exact h.vals
    · dsimp only; rw [hf, hw]; exact h.cur
    · obtain ⟨l, hl⟩ := h.last
      refine ⟨l.mapIdx (w.x s.xs.length s.imin), ?_⟩
      dsimp only
      have hlen : s.xs.length - 1 = l.length := by rw [hl]; simp
      rw [hlen]
      conv_lhs => rw [hl]
      rw [List.mapIdx_append]
      simp [hl]
    · dsimp only
      rcases h.best with hb | ⟨h1, h2⟩
      · exact Or.inl hb
      · refine Or.inr ⟨by simpa using h1, ?_⟩
        rw [List.getD_eq_getElem?_getD, List.getElem?_mapIdx, List.getElem?_eq_getElem h1]
        rw [List.getD_eq_getElem?_getD, List.getElem?_eq_getElem h1] at h2
        simp only [Option.map_some, Option.getD_some] at h2 ⊢
        rw [hw]; exact h2
  · exact h

end Sampling

namespace MCMC
variable [NumFns K] {P : Par σ K n}

theorem block_rel (hx : OldRows w.x) (hf : OldRows w.f) (hc : P.hasCallback = true) {j : Nat} {s s' t : State σ K n} (h : Rel w s t)
    (hs : block P j s = .ok s') : ∃ t', block P j t = .ok t' ∧ Rel w s' (t'.rewrite true w) := by
  obtain ⟨txs, tfs, tx, tf, tn, ti, tm, tc, te, tr⟩ := t
  obtain rfl : tx = s.xcur := h.xcur
  obtain rfl : tf = s.fcur := h.fcur
  obtain rfl : te = s.evals := h.evals
  obtain rfl : tr = s.rng := h.rng
  unfold block at hs ⊢
  dsimp only at hs ⊢
  rw [hc] at hs ⊢
  split_ifs at hs ⊢ <;> simp only [Except.ok.injEq] at hs <;> rw [← hs]
  all_goals exact ⟨_, rfl, rel_push hx hf h _ _ _ _⟩

theorem sweep_rel (hx : OldRows w.x) (hf : OldRows w.f) (hc : P.hasCallback = true) : ∀ (js : List Nat) {s s' t : State σ K n}, Rel w s t →
    sweep P js s = .ok s' → ∃ t', sweepH w P js t = .ok t' ∧ Rel w s' t'
  | [], s, s', t, h, hs => by simp only [sweep, Except.ok.injEq] at hs; rw [← hs]; exact ⟨t, rfl, h⟩
  | j :: js, s, s', t, h, hs => by
    simp only [sweep] at hs
    rw [bind_ok_iff] at hs
    obtain ⟨u, hu, hs⟩ := hs
    obtain ⟨v, hv, hR⟩ := block_rel hx hf hc h hu
    simp only [sweepH]
    rw [hv, hc]
    show ∃ t', (if (v.rewrite true w).xs.length = P.maxiter then _ else _) = _ ∧ _
    rw [hR.rows.1]
    split_ifs at hs ⊢
    · simp only [Except.ok.injEq] at hs; rw [← hs]; exact ⟨_, rfl, hR⟩
    · exact sweep_rel hx hf hc js hR hs

theorem loop_rel (hx : OldRows w.x) (hf : OldRows w.f) (hc : P.hasCallback = true) : ∀ (fuel : Nat) {s s' t : State σ K n}, Rel w s t →
    loop P fuel s = .ok s' → ∃ t', loopH w P fuel t = .ok t' ∧ Rel w s' t'
  | 0, s, s', t, h, hs => by
    simp only [loop] at hs
    simp only [loopH]
    rw [h.rows.1]
    split_ifs at hs ⊢
    simp only [Except.ok.injEq] at hs; rw [← hs]; exact ⟨t, rfl, h⟩
  | fuel + 1, s, s', t, h, hs => by
    simp only [loop] at hs
    simp only [loopH]
    rw [h.rows.1]
    split_ifs at hs ⊢
    · rw [bind_ok_iff] at hs
      obtain ⟨u, hu, hs⟩ := hs
      obtain ⟨v, hv, hR⟩ := sweep_rel hx hf hc _ h hu
      rw [hv]
      exact loop_rel hx hf hc fuel hR hs
    · simp only [Except.ok.injEq] at hs; rw [← hs]; exact ⟨t, rfl, h⟩

variable [IntParts K] {R : Rng σ K} {fuel : Nat} {g : σ}

theorem sampleH_rel {a : Args K} {w : Writes K a.ndim} (hx : OldRows w.x) (hf : OldRows w.f) (hc : a.callback.isSome = true)
    {o : Sampling.Output σ K a.ndim} (h : (sample R fuel a g).1 = .ok o) :
    ∃ s t, Rel w s t ∧ o = finish a.maxiter a.returnAll s ∧ (sampleH R fuel a w g).1 = .ok (finish a.maxiter a.returnAll t) := by
  unfold sample at h
  unfold sampleH
  split at h
  · simp at h
  · simp at h
  · simp at h
  · rename_i fn step hfn hcs hs
    simp only at h ⊢
    rw [hfn, hcs, hs]
    simp only
    unfold rest at h
    unfold restH
    split_ifs at h ⊢
    rw [bind_ok_iff] at h
    obtain ⟨s0, hs0, h⟩ := h
    rw [bind_ok_iff] at h
    obtain ⟨s, hs, h⟩ := h
    simp only [Except.ok.injEq] at h
    obtain ⟨t, ht, hR⟩ := loop_rel (P := _) hx hf hc fuel (rel_start hx hf hc hs0) hs
    refine ⟨s, t, hR, h.symm, ?_⟩
    rw [hs0]
    rw [hc] at ht ⊢
    show (do let s' ← loopH w _ fuel (s0.rewrite true w); _) = _
    rw [ht]
    rfl

theorem sweepH_paired (hw : ∀ k m i x, P.fn (w.x k m i x) = P.fn x) (hf : ∀ k m i f, w.f k m i f = f) : ∀ (js : List Nat)
    {s s' : State σ K n}, Paired P.fn s → sweepH w P js s = .ok s' → Paired P.fn s'
  | [], s, s', hI, h => by simp only [sweepH, Except.ok.injEq] at h; rw [← h]; exact hI
  | j :: js, s, s', hI, h => by
    simp only [sweepH] at h
    rw [bind_ok_iff] at h
    obtain ⟨t, ht, h⟩ := h
    have hI' := ((block_ends ht).paired hI).rewrite hw hf P.hasCallback
    split_ifs at h
    · simp only [Except.ok.injEq] at h; rw [← h]; exact hI'
    · exact sweepH_paired hw hf js hI' h

theorem loopH_paired (hw : ∀ k m i x, P.fn (w.x k m i x) = P.fn x) (hf : ∀ k m i f, w.f k m i f = f) : ∀ (fuel : Nat)
    {s s' : State σ K n}, Paired P.fn s → loopH w P fuel s = .ok s' → Paired P.fn s'
  | 0, s, s', hI, h => by
    simp only [loopH] at h
    split_ifs at h
    simp only [Except.ok.injEq] at h; rw [← h]; exact hI
  | fuel + 1, s, s', hI, h => by
    simp only [loopH] at h
    split_ifs at h
    · rw [bind_ok_iff] at h
      obtain ⟨t, ht, h⟩ := h
      exact loopH_paired hw hf fuel (sweepH_paired hw hf _ hI ht) h
    · simp only [Except.ok.injEq] at h; rw [← h]; exact hI

theorem sampleH_paired {a : Args K} {w : Writes K a.ndim} {fn : Vec (Val K) a.ndim → Val K}
    (hfn : a.fn = some fn) (hw : ∀ k m i x, fn (w.x k m i x) = fn x) (hf : ∀ k m i f, w.f k m i f = f)
    {o : Sampling.Output σ K a.ndim} (h : (sampleH R fuel a w g).1 = .ok o) :
    ∃ s, Paired fn s ∧ o = finish a.maxiter a.returnAll s := by
  unfold sampleH at h
  split at h
  · simp at h
  · simp at h
  · simp at h
  · rename_i fn' step hfn' hc hs
    obtain rfl : fn = fn' := by rw [hfn] at hfn'; exact Option.some.inj hfn'
    unfold restH at h
    dsimp only at h
    split_ifs at h
    rw [bind_ok_iff] at h
    obtain ⟨s0, hs0, h⟩ := h
    rw [bind_ok_iff] at h
    obtain ⟨s, hs, h⟩ := h
    simp only [Except.ok.injEq] at h
    exact ⟨s, loopH_paired (P := _) hw hf fuel ((start_paired hs0).1.rewrite hw hf _) hs, h.symm⟩

end MCMC

namespace HMC
variable [NumFns K] {P : Par σ K n}

theorem iter_rel (hx : OldRows w.x) (hf : OldRows w.f) (hc : P.hasCallback = true) {s s' t : State σ K n} (h : Rel w s t)
    (hs : iter P s = .ok s') : ∃ t', iter P t = .ok t' ∧ Rel w s' (t'.rewrite true w) := by
  obtain ⟨txs, tfs, tx, tf, tn, ti, tm, tc, te, tr⟩ := t
  obtain rfl : tx = s.xcur := h.xcur
  obtain rfl : te = s.evals := h.evals
  obtain rfl : tr = s.rng := h.rng
  unfold iter at hs ⊢
  dsimp only at hs ⊢
  rw [hc] at hs ⊢
  rw [bind_ok_iff] at hs
  obtain ⟨r, hr, hs⟩ := hs
  rw [hr]
  simp only [bind, Except.bind]
  split_ifs at hs ⊢ <;> simp only [Except.ok.injEq] at hs <;> rw [← hs]
  all_goals exact ⟨_, rfl, rel_push hx hf h _ _ _ _⟩

theorem loop_rel (hx : OldRows w.x) (hf : OldRows w.f) (hc : P.hasCallback = true) : ∀ (k : Nat) {s s' t : State σ K n}, Rel w s t →
    loop P k s = .ok s' → ∃ t', loopH w P k t = .ok t' ∧ Rel w s' t'
  | 0, s, s', t, h, hs => by simp only [loop, Except.ok.injEq] at hs; rw [← hs]; exact ⟨t, rfl, h⟩
  | k + 1, s, s', t, h, hs => by
    simp only [loop] at hs
    rw [bind_ok_iff] at hs
    obtain ⟨u, hu, hs⟩ := hs
    obtain ⟨v, hv, hR⟩ := iter_rel hx hf hc h hu
    simp only [loopH]
    rw [hv, hc]
    exact loop_rel hx hf hc k hR hs

variable {R : Rng σ K} {g : σ}

theorem sampleH_rel {a : Args K} {w : Writes K a.ndim} (hx : OldRows w.x) (hf : OldRows w.f) (hc : a.callback.isSome = true)
    {o : Sampling.Output σ K a.ndim} (h : (sample R a g).1 = .ok o) :
    ∃ s t, Rel w s t ∧ finish a.maxiter a.returnAll s = .ok o ∧ (sampleH R a w g).1 = finish a.maxiter a.returnAll t := by
  unfold sample at h
  unfold sampleH
  split at h
  · simp at h
  · simp at h
  · simp at h
  · simp at h
  · rename_i fn step hfn hcs hl hs
    simp only at h ⊢
    rw [hfn, hcs, hl, hs]
    simp only
    unfold rest at h
    unfold restH
    split_ifs at h ⊢
    rw [bind_ok_iff] at h
    obtain ⟨s0, hs0, h⟩ := h
    rw [bind_ok_iff] at h
    obtain ⟨s, hs, h⟩ := h
    obtain ⟨t, ht, hR⟩ := loop_rel (P := _) hx hf hc _ (rel_start hx hf hc hs0) hs
    refine ⟨s, t, hR, h, ?_⟩
    rw [hs0]
    rw [hc] at ht ⊢
    show (do let s' ← loopH w _ _ (s0.rewrite true w); _) = _
    rw [ht]
    rfl

theorem loopH_paired (hw : ∀ k m i x, P.fn (w.x k m i x) = P.fn x) (hf : ∀ k m i f, w.f k m i f = f) : ∀ (k : Nat) {s s' : State σ K n},
    Paired P.fn s → loopH w P k s = .ok s' → Paired P.fn s'
  | 0, s, s', hI, h => by simp only [loopH, Except.ok.injEq] at h; rw [← h]; exact hI
  | k + 1, s, s', hI, h => by
    simp only [loopH] at h
    rw [bind_ok_iff] at h
    obtain ⟨t, ht, h⟩ := h
    exact loopH_paired hw hf k (((iter_ends ht).paired hI).rewrite hw hf P.hasCallback) h

theorem sampleH_paired {a : Args K} {w : Writes K a.ndim} {fn : Vec (Val K) a.ndim → Val K}
    (hfn : a.fn = some fn) (hw : ∀ k m i x, fn (w.x k m i x) = fn x) (hf : ∀ k m i f, w.f k m i f = f)
    {o : Sampling.Output σ K a.ndim} (h : (sampleH R a w g).1 = .ok o) :
    ∃ s, Paired fn s ∧ finish a.maxiter a.returnAll s = .ok o := by
  unfold sampleH at h
  split at h
  · simp at h
  · simp at h
  · simp at h
  · simp at h
  · rename_i fn' step hfn' _ _ _
    obtain rfl : fn = fn' := by rw [hfn] at hfn'; exact Option.some.inj hfn'
    unfold restH at h
    dsimp only at h
    split_ifs at h
    rw [bind_ok_iff] at h
    obtain ⟨s0, hs0, h⟩ := h
    rw [bind_ok_iff] at h
    obtain ⟨s, hs, h⟩ := h
    exact ⟨s, loopH_paired (P := _) hw hf _ ((start_paired hs0).1.rewrite hw hf _) hs, h⟩

end HMC

end Stochopy
