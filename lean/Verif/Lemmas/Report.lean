import Verif.Lemmas.Pairs
import Verif.Spec.Report

/-! Runs of the population optimizers as sequences of states, and what they report. -/

set_option linter.unusedSectionVars false

namespace Stochopy
open Spec
variable {K σ S : Type} [AddZeroClass K] [One K] [Sub K] [Mul K] [Div K] [Neg K] [NatCast K] [IntCast K] [Pow K ℕ] [ArrayOps K] [LinearOrder K] {p n : Nat}
variable {A : Alg S K p n} {c : Cfg} {s0 : S}

theorem firstBest_of_argmin {v : Fin p → Val K} {i : Fin p} (h : argmin v = .ok i) : FirstBest v i := by
  unfold argmin at h
  have hI := foldl_inv_idx (f := argminStep v) (List.finRange p) (fun m b => (m = 0 → b = none) ∧ (0 < m → ∃ i : Fin p, b = some i ∧ i.val < m ∧
    ((v i = .nan ∧ ∀ q < i, v q ≠ .nan) ∨ ((∀ q : Fin p, q.val < m → v i ≤ v q) ∧ ∀ q < i, v i < v q)))) (b := none) ?_ ?_
  · rw [List.length_finRange] at hI
    cases hb : argmin? v with
    | none => simp [hb] at h
    | some k =>
      simp only [hb, Except.ok.injEq] at h; subst h
      obtain ⟨i, h1, h2, h3⟩ := hI.2 k.pos
      have : k = i := Option.some.inj (hb.symm.trans h1)
      subst this
      rcases h3 with h3 | h3
      · exact Or.inl h3
      · exact Or.inr ⟨fun q => h3.1 q q.2, h3.2⟩
  · intro m hm b hP
    rw [List.length_finRange] at hm
    rw [List.getElem_finRange]
    refine ⟨fun h => by omega, fun _ => ?_⟩
    unfold argminStep
    rcases Nat.eq_zero_or_pos m with h0 | hpos
    · rw [hP.1 h0]
      refine ⟨_, rfl, by simp, ?_⟩
      by_cases hv : v ⟨m, hm⟩ = .nan
      · exact Or.inl ⟨hv, fun q hq => absurd (show q.val < m from hq) (by omega)⟩
      · refine Or.inr ⟨fun q hq => ?_, fun q hq => absurd (show q.val < m from hq) (by omega)⟩
        have : q = ⟨m, hm⟩ := Fin.ext (by simp; omega)
        rw [this]; exact Val.le_refl' hv
    · obtain ⟨i, rfl, him, hi⟩ := hP.2 hpos
      dsimp only
      split_ifs with h1 h2
      · rw [Val.isNan_iff] at h1
        refine ⟨i, rfl, by omega, ?_⟩
        rcases hi with hi | hi
        · exact Or.inl hi
        · exact absurd h1 (Val.ne_nan_left (hi.1 i him))
      · refine ⟨i, rfl, by omega, ?_⟩
        rcases hi with hi | hi
        · exact Or.inl hi
        · refine Or.inr ⟨fun q hq => ?_, hi.2⟩
          by_cases hqm : q.val = m
          · have : q = ⟨m, hm⟩ := Fin.ext hqm
            rw [this]; exact h2
          · exact hi.1 q (by omega)
      · rw [Val.isNan_iff] at h1
        obtain ⟨hi1, hi2⟩ := hi.resolve_left (fun h => h1 h.1)
        refine ⟨_, rfl, by simp, ?_⟩
        by_cases hv : v ⟨m, hm⟩ = .nan
        · exact Or.inl ⟨hv, fun q hq => Val.ne_nan_right (hi1 q hq)⟩
        · have hlt : v ⟨m, hm⟩ < v i := (Val.le_or_lt' h1 hv).resolve_left h2
          refine Or.inr ⟨fun q hq => ?_, fun q hq => Val.lt_of_lt_of_le' hlt (hi1 q hq)⟩
          by_cases hqm : q.val = m
          · have : q = ⟨m, hm⟩ := Fin.ext hqm
            rw [this]; exact Val.le_refl' hv
          · exact Val.le_of_lt' (Val.lt_of_lt_of_le' hlt (hi1 q (by omega)))
  · exact ⟨fun _ => rfl, fun h => absurd h (by omega)⟩

theorem Spec.FirstBest.unique {v : Fin p → Val K} {i i' : Fin p} (h : FirstBest v i) (h' : FirstBest v i') : i = i' := by
  by_contra hne
  wlog hlt : i < i' generalizing i i'
  · exact this h' h (Ne.symm hne) (lt_of_le_of_ne (not_lt.1 hlt) (Ne.symm hne))
  rcases h with ⟨h1, h2⟩ | ⟨h1, h2⟩ <;> rcases h' with ⟨h3, h4⟩ | ⟨h3, h4⟩
  · exact h4 i hlt h1
  · exact Val.ne_nan_right (h3 i) h1
  · exact Val.ne_nan_right (h1 i') h3
  · exact Val.not_lt_of_le' (h1 i') (h4 i hlt)

theorem Spec.FirstHolds.unique {l : List (Int × Prop)} {st st' : Option Int} (h : FirstHolds l st) (h' : FirstHolds l st') : st = st' := by
  induction l with
  | nil => exact h.trans h'.symm
  | cons a l ih =>
    rcases h with ⟨h1, h2⟩ | ⟨h1, h2⟩ <;> rcases h' with ⟨h3, h4⟩ | ⟨h3, h4⟩
    · rw [h2, h4]
    · exact absurd h1 h3
    · exact absurd h3 h1
    · exact ih h2 h4

/-- Consecutive states, with the status that ended the step. -/
theorem Alg.Hist.pair_status {l st} (h : A.Hist s0 l st) : ∀ k s s', l.reverse[k]? = some s → l.reverse[k + 1]? = some s' →
    A.next (k + 1) s = .ok (s', if k + 2 = l.length then st else none) := by
  induction h with
  | init => intro k s s' _ h; simp at h
  | @next s s' l st _ hn ih =>
    intro k t t' hk hk'
    rw [List.reverse_cons] at hk hk'
    have hlen : (s :: l).reverse.length = l.length + 1 := by simp
    by_cases hlt : k + 1 < l.length + 1
    · rw [List.getElem?_append_left (by omega)] at hk hk'
      have := ih k t t' hk hk'
      rw [this]
      have hne : k + 2 ≠ (s' :: s :: l).length := by simp only [List.length_cons]; omega
      rw [if_neg hne]
      split_ifs <;> rfl
    · have hk3 : k + 1 = l.length + 1 := by
        by_contra hne
        rw [List.getElem?_eq_none (by simp; omega)] at hk'
        simp at hk'
      have hk4 : k = l.length := by omega
      subst hk4
      rw [List.getElem?_append_right (by simp)] at hk'
      simp at hk'; subst hk'
      rw [List.getElem?_append_left (by simp)] at hk
      rw [List.reverse_cons, List.getElem?_append_right (by simp)] at hk
      simp at hk; subst hk
      rw [if_pos (by simp)]
      exact hn

/-- A run is a sequence of states, and reports them. -/
theorem run_sequence {fuel : Nat} {r : Result K n} {L : Loop S K p n} {ev : S → List (Vec K n)} {caller : S → Option (Pop K p n)}
    {rng : S → σ} (h : A.run c fuel s0 = .ok (r, L)) :
    ∃ f : Nat → S, f 0 = s0 ∧ 2 ≤ r.nit ∧ L.s = f (r.nit - 1) ∧
      (∀ k, k + 1 < r.nit → A.next (k + 1) (f k) = .ok (f (k + 1), if k + 2 = r.nit then some r.status else none)) ∧
      Reports { callback := c.hasCallback, history := c.returnAll, points := c.nout } (A.rec0Best s0) (fun k => A.best (f k))
        (fun k => A.bestFun (f k)) (fun k => A.cbX (f k)) (fun k => if k = 0 then A.rec0X (f 0) else A.recX (f k)) (fun k => A.pfit (f k))
        r.nit r.status (mkOut r L ev caller rng) := by
  obtain ⟨l, st, msg, hH, hlen, hlog, hm, rfl⟩ := run_hist h
  have hget : ∀ k, k < l.length + 1 → (L.s :: l).reverse[k]? = some ((L.s :: l).reverse.getD k s0) := fun k hk => by
    rw [List.getD_eq_getElem?_getD, List.getElem?_eq_getElem (by simpa using hk)]; rfl
  have hlast : (L.s :: l).reverse.getD l.length s0 = L.s := by simp
  refine ⟨fun k => (L.s :: l).reverse.getD k s0, ?_, by dsimp only; omega, ?_, fun k hk => ?_, ?_⟩
  · dsimp only; rw [List.getD_eq_getElem?_getD, hH.get_zero]; rfl
  · dsimp only; rw [Nat.add_sub_cancel, hlast]
  · exact hH.pair_status k _ _ (hget k (by dsimp only at hk; omega)) (hget (k + 1) hk)
  · have hcb : ∀ k b, L.cbs[k]? = some b → k < l.length + 1 ∧
        b = A.cb c ((L.s :: l).reverse.getD k s0) (k + 1) (L.rowsX.take (k + 1)) (L.rowsF.take (k + 1)) := fun k b hb => by
      obtain ⟨hk, -⟩ := List.getElem?_eq_some_iff.1 hb
      have hc : c.hasCallback = true := by
        by_contra hc
        have := hlog.cbs_none (by simpa using hc)
        simp [this] at hb
      have hk' : k < l.length + 1 := by have := hlog.cbs_length hc; simp at this; omega
      have := hlog.cbs hc k _ (hget k hk')
      rw [this] at hb
      exact ⟨hk', (Option.some.inj hb).symm⟩
    refine ⟨rfl, ?_, ?_, rfl, rfl, ?_, messages_documented hm, fun hr => ?_, fun hr => ?_, fun hc => hlog.cbs_none hc,
      fun hc => (by have := hlog.cbs_length hc; simpa using this : L.cbs.length = l.length + 1), fun k b hb => ?_⟩
    · dsimp only; rw [Nat.add_sub_cancel, hlast]; rfl
    · dsimp only; rw [Nat.add_sub_cancel, hlast]; rfl
    · exact decide_eq_true_iff
    · dsimp only at hr
      refine ⟨?_, ?_, fun b hb => ?_⟩
      · show attach c _ = none; unfold attach; rw [hr]; rfl
      · show attach c _ = none; unfold attach; rw [hr]; rfl
      · obtain ⟨s, -, k, rfl, -⟩ := hlog.mem_cbs hb
        unfold Alg.cb attach
        rw [hr]; exact ⟨rfl, rfl⟩
    · dsimp only at hr
      have hrl := hlog.rows_length.2 hr
      simp only [List.length_cons] at hrl
      have hmap : ∀ {α : Type} (l : List (List α)) (m : Nat), m ≤ l.length → l.take m = (List.range m).map (fun k => l.getD k []) := by
        intro α l m hm
        apply List.ext_getElem
        · simp; omega
        · intro i h1 h2
          simp at h1
          simp [List.getD_eq_getElem?_getD, List.getElem?_eq_getElem (show i < l.length by omega)]
      refine ⟨fun k => L.rowsX.getD k [], fun k => L.rowsF.getD k [], ?_, ?_, fun k b hb => ?_, fun k hk => ?_⟩
      · show attach c _ = _
        unfold attach
        rw [if_pos hr, ← hmap _ _ (by dsimp only; omega), List.take_of_length_le (by dsimp only; omega)]
      · show attach c _ = _
        unfold attach
        rw [if_pos hr, ← hmap _ _ (by dsimp only; omega), List.take_of_length_le (by dsimp only; omega)]
      · obtain ⟨hk, rfl⟩ := hcb k b hb
        unfold Alg.cb attach
        dsimp only
        rw [if_pos hr, if_pos hr, ← hmap _ _ (by omega), ← hmap _ _ (by omega)]
        exact ⟨rfl, rfl⟩
      · obtain ⟨x, f, hx, hf, hrow⟩ := hlog.rows hr k _ (hget k hk)
        dsimp only
        rw [List.getD_eq_getElem?_getD (l := L.rowsX), List.getD_eq_getElem?_getD (l := L.rowsF), hx, hf]
        dsimp only [Option.getD_some]
        have h00 : (L.s :: l).reverse.getD 0 s0 = s0 := by rw [List.getD_eq_getElem?_getD, hH.get_zero]; rfl
        rcases hrow with ⟨r1, r2, r3, -⟩ | ⟨r1, r2, r3, r4⟩ | ⟨r1, r2, i, r3, r4, r5⟩
        · refine ⟨fun _ => ⟨?_, r3⟩, fun h => absurd h (by omega), fun h => absurd h (by omega)⟩
          rw [r2]
          by_cases hk0 : k = 0
          · subst hk0; rfl
          · rw [if_neg (by omega), if_neg hk0]
        · have hk0 : k = 0 := by omega
          subst hk0
          rw [h00] at r3 r4
          exact ⟨fun h => absurd h (by omega), fun _ _ => ⟨r3, by rw [h00]; exact r4⟩, fun _ h => absurd rfl h⟩
        · refine ⟨fun h => absurd h (by omega), fun _ h => absurd h (by omega), fun _ h => ⟨i, firstBest_of_argmin r3, ?_, r5⟩⟩
          rw [r4, if_neg h]
    · obtain ⟨hk, rfl⟩ := hcb k b hb
      exact ⟨rfl, rfl, rfl, rfl, rfl⟩

end Stochopy

/-! ## The states of a fold, and uniqueness of sequences -/

namespace Stochopy
open Spec

/-- The intermediate values of a fold. -/
theorem foldlM_chain {ε β γ : Type} {f : β → γ → Except ε β} : ∀ (l : List γ) {b b' : β}, l.foldlM f b = .ok b' →
    ∃ T : Nat → β, T 0 = b ∧ T l.length = b' ∧ ∀ k (hk : k < l.length), f (T k) l[k] = .ok (T (k + 1)) := by
  intro l
  induction l with
  | nil => intro b b' h; cases h; exact ⟨fun _ => b, rfl, rfl, fun k hk => absurd hk (by simp)⟩
  | cons c l ih =>
    intro b b' h
    rw [List.foldlM_cons, bind_ok_iff] at h
    obtain ⟨b1, h1, h2⟩ := h
    obtain ⟨T, t0, t1, t2⟩ := ih h2
    refine ⟨fun k => Nat.casesOn k b T, rfl, t1, fun k hk => ?_⟩
    cases k with
    | zero => exact h1.trans (by rw [← t0])
    | succ k => exact t2 k (by simpa using hk)

/-- The sequence of a deterministic process that ends when a status is set is unique. -/
theorem sequence_unique {T : Type} {G : Nat → T → T → Option Int → Prop}
    (hG : ∀ it s s1 s2 st1 st2, G it s s1 st1 → G it s s2 st2 → s1 = s2 ∧ st1 = st2) {f f' : Nat → T} (h0 : f 0 = f' 0)
    {N N' : Nat} {st st' : Int} (h2 : 2 ≤ N) (h2' : 2 ≤ N')
    (h : ∀ k, k + 1 < N → G (k + 1) (f k) (f (k + 1)) (if k + 2 = N then some st else none))
    (h' : ∀ k, k + 1 < N' → G (k + 1) (f' k) (f' (k + 1)) (if k + 2 = N' then some st' else none)) :
    N = N' ∧ st = st' ∧ ∀ k < N, f k = f' k := by
  have key : ∀ k, k < N → k < N' → f k = f' k := by
    intro k
    induction k with
    | zero => exact fun _ _ => h0
    | succ k ih =>
      intro h1 h3
      have h4 := h' k h3
      rw [← ih (by omega) (by omega)] at h4
      exact (hG _ _ _ _ _ _ (h k h1) h4).1
  have hst : ∀ k, k + 1 < N → k + 1 < N' → (if k + 2 = N then some st else none) = if k + 2 = N' then some st' else none := by
    intro k h1 h3
    have h4 := h' k h3
    rw [← key k (by omega) (by omega)] at h4
    exact (hG _ _ _ _ _ _ (h k h1) h4).2
  rcases Nat.lt_trichotomy N N' with hl | rfl | hl
  · have := hst (N - 2) (by omega) (by omega)
    rw [if_pos (by omega), if_neg (by omega)] at this
    cases this
  · have := hst (N - 2) (by omega) (by omega)
    rw [if_pos (by omega), if_pos (by omega)] at this
    exact ⟨rfl, Option.some.inj this, fun k hk => key k hk hk⟩
  · have := hst (N' - 2) (by omega) (by omega)
    rw [if_neg (by omega), if_pos (by omega)] at this
    cases this

variable {σ K : Type} [AddZeroClass K] [One K] [Sub K] [Mul K] [Div K] [Neg K] [NatCast K] [IntCast K] [Pow K ℕ] [ArrayOps K] [LinearOrder K] {p n : Nat}

theorem Spec.Documented.unique {st : Int} {m m' : String} (h : Documented st m) (h' : Documented st m') : m = m' := by
  unfold Documented at h h'
  rcases h with ⟨a, rfl⟩ | ⟨a, rfl⟩ | ⟨a, rfl⟩ | ⟨a, rfl⟩ | ⟨a, rfl⟩ | ⟨a, rfl⟩ | ⟨a, rfl⟩ | ⟨a, rfl⟩ | ⟨a, rfl⟩ | ⟨a, rfl⟩ <;> subst a <;>
    simpa [eq_comm] using h'

/-- Result and callbacks are determined by what is reported. -/
theorem Spec.Reports.unique {r : Reporting} {first : Vec K n} {best best' : Nat → Vec K n} {bestfit bestfit' : Nat → Val K}
    {shown shown' rec rec' : Nat → Pop K p n} {val val' : Nat → Fin p → Val K} {nit : Nat} {st : Int} {o o' : Output σ K p n} (hpos : 0 < nit)
    (h : Reports r first best bestfit shown rec val nit st o) (h' : Reports r first best' bestfit' shown' rec' val' nit st o')
    (e : ∀ k < nit, best k = best' k ∧ bestfit k = bestfit' k ∧ shown k = shown' k ∧ rec k = rec' k ∧ val k = val' k) :
    o.res = o'.res ∧ o.cbs = o'.cbs := by
  have hist : r.history = true → ∀ (hx hx' : Nat → List (Vec K n)) (hf hf' : Nat → List (Val K)),
      (∀ k < nit, (0 < r.points → hx k = (List.ofFn (rec k)).take r.points.toNat ∧ hf k = (List.ofFn (val k)).take r.points.toNat) ∧
        (r.points ≤ 0 → k = 0 → hx k = [first] ∧ hf k = [bestfit 0]) ∧
        (r.points ≤ 0 → k ≠ 0 → ∃ i, FirstBest (val k) i ∧ hx k = [rec k i] ∧ hf k = [val k i])) →
      (∀ k < nit, (0 < r.points → hx' k = (List.ofFn (rec' k)).take r.points.toNat ∧ hf' k = (List.ofFn (val' k)).take r.points.toNat) ∧
        (r.points ≤ 0 → k = 0 → hx' k = [first] ∧ hf' k = [bestfit' 0]) ∧
        (r.points ≤ 0 → k ≠ 0 → ∃ i, FirstBest (val' k) i ∧ hx' k = [rec' k i] ∧ hf' k = [val' k i])) →
      ∀ k < nit, hx k = hx' k ∧ hf k = hf' k := by
    intro _ hx hx' hf hf' a1 a2 k hk
    obtain ⟨b1, b2, b3⟩ := a1 k hk
    obtain ⟨c1, c2, c3⟩ := a2 k hk
    obtain ⟨-, -, -, e4, e5⟩ := e k hk
    rcases lt_or_ge 0 r.points with hp | hp
    · rw [(b1 hp).1, (b1 hp).2, (c1 hp).1, (c1 hp).2, e4, e5]; exact ⟨rfl, rfl⟩
    · by_cases h0 : k = 0
      · rw [(b2 hp h0).1, (b2 hp h0).2, (c2 hp h0).1, (c2 hp h0).2, (e 0 hpos).2.1]; exact ⟨rfl, rfl⟩
      · obtain ⟨i, i1, i2, i3⟩ := b3 hp h0
        obtain ⟨i', j1, j2, j3⟩ := c3 hp h0
        rw [← e5] at j1 j3
        rw [← e4] at j2
        rw [i2, i3, j2, j3, i1.unique j1]; exact ⟨rfl, rfl⟩
  have hmap : ∀ {α : Type} (f f' : Nat → α) m, m ≤ nit → (∀ k < nit, f k = f' k) → (List.range m).map f = (List.range m).map f' := by
    intro α f f' m hm hff
    apply List.map_congr_left
    intro k hk
    exact hff k (by have := List.mem_range.1 hk; omega)
  have hlen : o.cbs.length = o'.cbs.length := by
    cases hc : r.callback with
    | true => rw [h.callbacks hc, h'.callbacks hc]
    | false => rw [h.nocallback hc, h'.nocallback hc]
  have hlen' : o.cbs.length ≤ nit := by
    cases hc : r.callback with
    | true => rw [h.callbacks hc]
    | false => rw [h.nocallback hc]; simp
  have hall : (o.res.xall = o'.res.xall ∧ o.res.funall = o'.res.funall) ∧ ∀ (k : Nat) (b b' : CB K p n), o.cbs[k]? = some b → o'.cbs[k]? = some b' →
      b.xall = b'.xall ∧ b.funall = b'.funall := by
    cases hr : r.history with
    | false =>
      obtain ⟨a1, a2, a3⟩ := h.nohistory hr
      obtain ⟨b1, b2, b3⟩ := h'.nohistory hr
      refine ⟨by rw [a1, a2, b1, b2]; exact ⟨rfl, rfl⟩, fun k b b' hb hb' => ?_⟩
      have c1 := a3 b (List.mem_of_getElem? hb)
      have c2 := b3 b' (List.mem_of_getElem? hb')
      rw [c1.1, c1.2, c2.1, c2.2]; exact ⟨rfl, rfl⟩
    | true =>
      obtain ⟨hx, hf, a1, a2, a3, a4⟩ := h.history hr
      obtain ⟨hx', hf', b1, b2, b3, b4⟩ := h'.history hr
      have hh := hist hr hx hx' hf hf' a4 b4
      refine ⟨?_, fun k b b' hb hb' => ?_⟩
      · rw [a1, a2, b1, b2, hmap hx hx' nit le_rfl fun k hk => (hh k hk).1, hmap hf hf' nit le_rfl fun k hk => (hh k hk).2]
        exact ⟨rfl, rfl⟩
      · obtain ⟨hk, -⟩ := List.getElem?_eq_some_iff.1 hb
        rw [(a3 k b hb).1, (a3 k b hb).2, (b3 k b' hb').1, (b3 k b' hb').2, hmap hx hx' (k + 1) (by omega) fun k hk => (hh k hk).1,
          hmap hf hf' (k + 1) (by omega) fun k hk => (hh k hk).2]
        exact ⟨rfl, rfl⟩
  constructor
  · have hs : o.res.success = o'.res.success := by rw [Bool.eq_iff_iff, h.success, h'.success]
    have hm := h.message.unique h'.message
    obtain ⟨e1, e2, -⟩ := e (nit - 1) (by omega)
    have x1 := h.x.trans (e1.trans h'.x.symm)
    have x2 := h.fval.trans (e2.trans h'.fval.symm)
    have x3 := h.count.trans h'.count.symm
    have x4 := h.nfev.trans h'.nfev.symm
    have x5 := h.reason.trans h'.reason.symm
    cases hres : o.res; cases hres' : o'.res
    simp only [hres, hres'] at hs hm x1 x2 x3 x4 x5 hall
    obtain ⟨⟨x6, x7⟩, -⟩ := hall
    subst hs hm x1 x2 x3 x4 x5 x6 x7; rfl
  · apply List.ext_getElem? 
    intro k
    by_cases hk : k < o.cbs.length
    · have hb : o.cbs[k]? = some o.cbs[k] := List.getElem?_eq_getElem hk
      have hb' : o'.cbs[k]? = some o'.cbs[k] := List.getElem?_eq_getElem (by omega)
      rw [hb, hb']
      obtain ⟨x6, x7⟩ := hall.2 k _ _ hb hb'
      obtain ⟨a1, a2, a3, a4, a5⟩ := h.callback k _ hb
      obtain ⟨b1, b2, b3, b4, b5⟩ := h'.callback k _ hb'
      obtain ⟨e1, e2, e3, -⟩ := e k (by omega)
      have y1 := a1.trans (e3.trans b1.symm)
      have y2 := a2.trans (e1.trans b2.symm)
      have y3 := a3.trans (e2.trans b3.symm)
      have y4 := a4.trans b4.symm
      have y5 := a5.trans b5.symm
      generalize o.cbs[k] = c at *
      generalize o'.cbs[k] = c' at *
      cases c; cases c'
      simp only at x6 x7 y1 y2 y3 y4 y5
      subst x6 x7 y1 y2 y3 y4 y5; rfl
    · rw [List.getElem?_eq_none (by omega), List.getElem?_eq_none (by omega)]

/-- Only the generations of the run matter. -/
theorem Spec.Reports.congr {r : Reporting} {first : Vec K n} {best best' : Nat → Vec K n} {bestfit bestfit' : Nat → Val K}
    {shown shown' rec rec' : Nat → Pop K p n} {val val' : Nat → Fin p → Val K} {nit : Nat} {st : Int} {o : Output σ K p n} (hpos : 0 < nit)
    (h : Reports r first best bestfit shown rec val nit st o)
    (e : ∀ k < nit, best k = best' k ∧ bestfit k = bestfit' k ∧ shown k = shown' k ∧ rec k = rec' k ∧ val k = val' k) :
    Reports r first best' bestfit' shown' rec' val' nit st o := by
  have hlen : o.cbs.length ≤ nit := by
    cases hc : r.callback with
    | true => rw [h.callbacks hc]
    | false => rw [h.nocallback hc]; simp
  obtain ⟨l1, l2, -⟩ := e (nit - 1) (by omega)
  refine ⟨h.count, h.x.trans l1, h.fval.trans l2, h.nfev, h.reason, h.success, h.message, h.nohistory, fun hr => ?_, h.nocallback, h.callbacks,
    fun k b hb => ?_⟩
  · obtain ⟨hx, hf, a1, a2, a3, a4⟩ := h.history hr
    refine ⟨hx, hf, a1, a2, a3, fun k hk => ?_⟩
    obtain ⟨-, -, -, e4, e5⟩ := e k hk
    have := a4 k hk
    rw [e4, e5, (e 0 hpos).2.1] at this
    exact this
  · obtain ⟨hk, -⟩ := List.getElem?_eq_some_iff.1 hb
    obtain ⟨e1, e2, e3, -⟩ := e k (by omega)
    have := h.callback k b hb
    rw [e1, e2, e3] at this
    exact this

theorem Output.ext' {o o' : Output σ K p n} (h : o.res = o'.res ∧ o.cbs = o'.cbs) (h1 : o.evals = o'.evals) (h2 : o.x0After = o'.x0After)
    (h3 : o.rng = o'.rng) : o = o' := by
  cases o; cases o'
  simp only at h h1 h2 h3
  obtain ⟨h4, h5⟩ := h
  subst h1 h2 h3 h4 h5; rfl

theorem Spec.FirstPopulation.unique {R : Rng σ K} {x0 : Option (Pop K p n)} {lower upper : Vec K n} {g g1 g2 : σ} {X1 X2 : Pop K p n}
    (h1 : FirstPopulation R x0 lower upper g g1 X1) (h2 : FirstPopulation R x0 lower upper g g2 X2) : X1 = X2 ∧ g1 = g2 := by
  rcases h1 with ⟨a1, rfl⟩ | ⟨a1, u, g3, π, a2, a3, a4⟩ <;> rcases h2 with ⟨b1, rfl⟩ | ⟨b1, u', g3', π', b2, b3, b4⟩
  · exact ⟨Option.some.inj (a1.symm.trans b1), rfl⟩
  · exact absurd (a1.symm.trans b1) (by simp)
  · exact absurd (a1.symm.trans b1) (by simp)
  · obtain ⟨rfl, rfl⟩ := Prod.mk.inj (a2.trans b2.symm)
    obtain ⟨rfl, rfl⟩ := Prod.mk.inj (a3.trans b3.symm)
    exact ⟨funext fun i => funext fun j => (a4 i j).trans (b4 i j).symm, rfl⟩

theorem Spec.Pool.ext' {s s' : Pool K p n} (h1 : s.X = s'.X) (h2 : s.fit = s'.fit) (h3 : s.best = s'.best) (h4 : s.bestfit = s'.bestfit) : s = s' := by
  cases s; cases s'
  simp only at h1 h2 h3 h4
  subst h1 h2 h3 h4; rfl

theorem Spec.Pool.First.unique {fn : Vec K n → Val K} {X : Pop K p n} {s s' : Pool K p n} (h : Pool.First fn X s) (h' : Pool.First fn X s') :
    s = s' := by
  obtain ⟨i, a1, a2, a3⟩ := h.best
  obtain ⟨i', b1, b2, b3⟩ := h'.best
  have hf : s.fit = s'.fit := funext fun i => (h.fit i).trans (h'.fit i).symm
  rw [← hf] at b1 b3
  obtain rfl := a1.unique b1
  exact Pool.ext' (h.pop.trans h'.pop.symm) hf (a2.trans b2.symm) (a3.trans b3.symm)

theorem Spec.Pool.OfferAll.unique {fn : Vec K n → Val K} {s s1 s2 : Pool K p n} {ys : Pop K p n} (h1 : Pool.OfferAll fn s ys s1)
    (h2 : Pool.OfferAll fn s ys s2) : s1 = s2 := by
  have e : ∀ i, s1.X i = s2.X i ∧ s1.fit i = s2.fit i := fun i => by
    by_cases h : fn (ys i) < s.fit i
    · rw [(h1.taken i h).1, (h1.taken i h).2, (h2.taken i h).1, (h2.taken i h).2]; exact ⟨rfl, rfl⟩
    · rw [(h1.refused i h).1, (h1.refused i h).2, (h2.refused i h).1, (h2.refused i h).2]; exact ⟨rfl, rfl⟩
  have hX : s1.X = s2.X := funext fun i => (e i).1
  have hf : s1.fit = s2.fit := funext fun i => (e i).2
  obtain ⟨i, a1, a2, a3⟩ := h1.best
  obtain ⟨i', b1, b2, b3⟩ := h2.best
  rw [← hf] at b1 b3
  rw [← hX] at b2
  obtain rfl := a1.unique b1
  exact Pool.ext' hX hf (a2.trans b2.symm) (a3.trans b3.symm)

theorem Spec.Pool.Offer.unique {fn : Vec K n → Val K} {s s1 s2 : Pool K p n} {i : Fin p} {y : Vec K n} (h1 : Pool.Offer fn s i y s1)
    (h2 : Pool.Offer fn s i y s2) : s1 = s2 := by
  have e : ∀ q, s1.X q = s2.X q ∧ s1.fit q = s2.fit q := fun q => by
    by_cases hq : q = i
    · subst hq
      by_cases h : fn y ≤ s.fit q
      · rw [(h1.taken h).1, (h1.taken h).2, (h2.taken h).1, (h2.taken h).2]; exact ⟨rfl, rfl⟩
      · rw [(h1.refused h).1, (h1.refused h).2, (h2.refused h).1, (h2.refused h).2]; exact ⟨rfl, rfl⟩
    · rw [(h1.others q hq).1, (h1.others q hq).2, (h2.others q hq).1, (h2.others q hq).2]; exact ⟨rfl, rfl⟩
  have hb : s1.best = s2.best ∧ s1.bestfit = s2.bestfit := by
    by_cases h : fn y ≤ s.fit i ∧ fn y ≤ s.bestfit
    · rw [(h1.lead h).1, (h1.lead h).2, (h2.lead h).1, (h2.lead h).2]; exact ⟨rfl, rfl⟩
    · rw [(h1.follow h).1, (h1.follow h).2, (h2.follow h).1, (h2.follow h).2]; exact ⟨rfl, rfl⟩
  exact Pool.ext' (funext fun q => (e q).1) (funext fun q => (e q).2) hb.1 hb.2

end Stochopy
