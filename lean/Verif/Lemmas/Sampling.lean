import Verif.Model.Sampling
import Verif.Spec.Chain
import Verif.Lemmas.Val
import Verif.Lemmas.Steps

/-! # What an iteration of a sampler does to its state -/

set_option linter.unusedSectionVars false

namespace Stochopy.Sampling
open Spec
variable {K σ : Type} [Zero K] [One K] [Add K] [Sub K] [Mul K] [Div K] [Neg K] [NatCast K] [IntCast K] [Pow K ℕ] [ArrayOps K] [LinearOrder K] {n : Nat}

/-- The callback calls recorded so far, given the samples. -/
structure CBOk (returnAll : Bool) (xs : List (Vec (Val K) n)) (fs : List (Val K)) (k : Nat) (c : CB K n) : Prop where
  nit : c.nit = k + 1
  xk : xs[k]? = some c.xk
  xall : c.xall = attach returnAll (xs.take (max 1 k))
  funall : c.funall = attach returnAll (fs.take (max 1 k))

/-- Invariant of both samplers; `ms` are the moves made. -/
structure Inv (fn : Vec (Val K) n → Val K) (hasCallback returnAll : Bool) (x1 : Vec (Val K) n) (i : Nat)
    (s : State σ K n) (ms : List (Move (Vec (Val K) n))) : Prop where
  moves : ms.length = i
  links : Links s.xs ms
  first : s.xs[0]? = some x1
  last : s.xs[i]? = some s.xcur
  vals : s.fs = s.xs.map fn
  fcur : s.fcur = fn s.xcur
  nacc : s.nacc = accepted ms
  imin : s.fs[s.imin]? = some s.fmin ∧ s.fmin < .pinf ∨ s.imin = 0 ∧ s.fmin = .pinf
  best : ∀ m ∈ ms, m.accepted = true → ¬ fn m.prop < s.fmin
  best' : s.fmin = .pinf ∨ ∃ m ∈ ms, m.accepted = true ∧ fn m.prop = s.fmin
  cbs : s.cbs.length = if hasCallback then i + 1 else 0
  cb : ∀ k c, s.cbs[k]? = some c → CBOk returnAll s.xs s.fs k c

variable {fn : Vec (Val K) n → Val K} {hc ra : Bool} {x1 : Vec (Val K) n} {i : Nat} {s : State σ K n}
  {ms : List (Move (Vec (Val K) n))}

theorem Inv.len (h : Inv fn hc ra x1 i s ms) : s.xs.length = i + 1 := by rw [h.links.1, h.moves]

theorem truthy_inSearchSpace (x : Vec (Val K) n) (lower upper : Vec K n) (c : Option String) :
    truthy (inSearchSpace x lower upper c) = !decide (c = some "Reject") := by
  unfold inSearchSpace
  by_cases h : c = some "Reject"
  · rw [if_pos h]; simp [truthy, h]
  · rw [if_neg h]; simp [truthy, h]

/-- An iteration leaves the calls and the generator alone. -/
theorem push_notify_evals (t : State σ K n) (acc : Option (Vec (Val K) n × Val K)) (hc ra : Bool) :
    ((t.push acc).notify hc ra).evals = t.evals := by
  cases acc <;> rfl

theorem push_notify_rng (t : State σ K n) (acc : Option (Vec (Val K) n × Val K)) (hc ra : Bool) :
    ((t.push acc).notify hc ra).rng = t.rng := by
  cases acc <;> rfl

theorem getElem?_snoc {α : Type} {l : List α} {a b : α} {k : Nat} :
    (l ++ [a])[k]? = some b ↔ l[k]? = some b ∨ (k = l.length ∧ a = b) := by
  rw [List.getElem?_append]
  by_cases h : k < l.length
  · rw [if_pos h]
    constructor
    · exact Or.inl
    · rintro (h1 | ⟨rfl, _⟩)
      · exact h1
      · omega
  · rw [if_neg h]
    have h1 : l[k]? = none := List.getElem?_eq_none (by omega)
    rw [h1]
    by_cases h2 : k = l.length
    · subst h2; simp
    · rw [List.getElem?_eq_none (by simp; omega)]
      simp [h2]

theorem getElem?_snoc_lt {α : Type} {l : List α} {a : α} {k : Nat} (h : k < l.length) : (l ++ [a])[k]? = l[k]? :=
  List.getElem?_append_left h

/-- One iteration. -/
theorem Inv.step (h : Inv fn hc ra x1 i s ms) (ev : List (Vec (Val K) n)) (g : σ)
    (x : Vec (Val K) n) (b : Bool) :
    Inv fn hc ra x1 (i + 1)
      ((({ s with evals := s.evals ++ ev, rng := g } : State σ K n).push (if b then some (x, fn x) else none)).notify hc ra)
      (ms ++ [{ old := s.xcur, prop := x, accepted := b }]) := by
  have hl := h.len
  have hfl : s.fs.length = i + 1 := by rw [h.vals, List.length_map, hl]
  have key : ∀ (t : State σ K n) (y : Vec (Val K) n), t.xs = s.xs ++ [y] → t.fs = s.fs ++ [fn y] → t.xcur = y →
      t.fcur = fn y → t.cbs = s.cbs → y = (if b then x else s.xcur) → t.nacc = (if b then s.nacc + 1 else s.nacc) →
      t.imin = (if b = true ∧ fn x < s.fmin then s.xs.length else s.imin) →
      t.fmin = (if b = true ∧ fn x < s.fmin then fn x else s.fmin) →
      Inv fn hc ra x1 (i + 1) (t.notify hc ra) (ms ++ [{ old := s.xcur, prop := x, accepted := b }]) := by
    intro t y e1 e2 e3 e4 e5 e6 e7 e8 e9
    have d1 : (t.notify hc ra).xs = s.xs ++ [y] := e1
    have d2 : (t.notify hc ra).fs = s.fs ++ [fn y] := e2
    have d3 : (t.notify hc ra).fmin = t.fmin := rfl
    refine ⟨?_, ⟨?_, ?_⟩, ?_, ?_, ?_, ?_, ?_, ?_, ?_, ?_, ?_, ?_⟩
    · rw [List.length_append, h.moves]; rfl
    · rw [d1, List.length_append, List.length_append, h.links.1]; rfl
    · intro k m hm
      rw [getElem?_snoc] at hm
      rw [d1]
      rcases hm with hm | ⟨hk, hm⟩
      · obtain ⟨q1, q2⟩ := h.links.2 k m hm
        exact ⟨getElem?_snoc.2 (Or.inl q1), getElem?_snoc.2 (Or.inl q2)⟩
      · rw [h.moves] at hk
        subst hk
        subst hm
        refine ⟨getElem?_snoc.2 (Or.inl h.last), getElem?_snoc.2 (Or.inr ⟨hl.symm, ?_⟩)⟩
        rw [e6]; rfl
    · rw [d1]; exact getElem?_snoc.2 (Or.inl h.first)
    · rw [d1]
      refine getElem?_snoc.2 (Or.inr ⟨hl.symm, ?_⟩)
      exact e3.symm
    · rw [d1, d2, List.map_append, h.vals]; rfl
    · show t.fcur = fn t.xcur
      rw [e4, e3]
    · show t.nacc = _
      rw [e7]
      unfold accepted
      rw [List.filter_append, List.length_append]
      have := h.nacc
      unfold accepted at this
      cases b <;> simp [this]
    · show t.fs[t.imin]? = some t.fmin ∧ t.fmin < .pinf ∨ t.imin = 0 ∧ t.fmin = .pinf
      rw [e2, e8, e9]
      by_cases hb : b = true ∧ fn x < s.fmin
      · rw [if_pos hb, if_pos hb]
        left
        constructor
        · refine getElem?_snoc.2 (Or.inr ⟨by omega, ?_⟩)
          rw [e6, if_pos hb.1]
        · rcases h.imin with ⟨_, hi⟩ | ⟨_, hi⟩
          · exact Val.lt_of_lt_of_le' hb.2 (Val.le_of_lt' hi)
          · rw [← hi]; exact hb.2
      · rw [if_neg hb, if_neg hb]
        rcases h.imin with ⟨h1, h2⟩ | h1
        · exact Or.inl ⟨getElem?_snoc.2 (Or.inl h1), h2⟩
        · exact Or.inr h1
    · intro m hm hma
      rw [d3, e9]
      rw [List.mem_append, List.mem_singleton] at hm
      by_cases hb : b = true ∧ fn x < s.fmin
      · rw [if_pos hb]
        rcases hm with hm | rfl
        · intro hlt
          have h1 := h.best m hm hma
          apply h1
          exact Val.lt_of_lt_of_le' hlt (Val.le_of_lt' hb.2)
        · exact Val.lt_irrefl'
      · rw [if_neg hb]
        rcases hm with hm | rfl
        · exact h.best m hm hma
        · intro hlt; exact hb ⟨hma, hlt⟩
    · rw [d3, e9]
      by_cases hb : b = true ∧ fn x < s.fmin
      · rw [if_pos hb]
        exact Or.inr ⟨_, List.mem_append.2 (Or.inr (List.mem_singleton.2 rfl)), hb.1, rfl⟩
      · rw [if_neg hb]
        rcases h.best' with h1 | ⟨m, hm, h1⟩
        · exact Or.inl h1
        · exact Or.inr ⟨m, List.mem_append.2 (Or.inl hm), h1⟩
    · unfold State.notify
      dsimp only
      have := h.cbs
      rw [← e5] at this
      cases hc <;> simp_all
    · intro k c hcb
      unfold State.notify at hcb
      dsimp only at hcb
      have hold : ∀ k c, s.cbs[k]? = some c → CBOk ra (s.xs ++ [y]) (s.fs ++ [fn y]) k c := by
        intro k c hk
        have q := h.cb k c hk
        have hkl : k < s.xs.length := by
          by_contra hcon
          have := q.xk
          rw [List.getElem?_eq_none (by omega)] at this
          cases this
        refine ⟨q.nit, getElem?_snoc.2 (Or.inl q.xk), ?_, ?_⟩
        · rw [List.take_append_of_le_length (by omega)]; exact q.xall
        · rw [List.take_append_of_le_length (by omega)]; exact q.funall
      rw [d1, d2]
      by_cases hh : hc = true
      · rw [if_pos hh, getElem?_snoc, e5] at hcb
        rcases hcb with hk | ⟨hk, rfl⟩
        · exact hold k c hk
        · have hcl := h.cbs
          rw [if_pos hh] at hcl
          rw [hcl] at hk
          subst hk
          refine ⟨?_, ?_, ?_, ?_⟩
          · simp [e1, hl]
          · exact getElem?_snoc.2 (Or.inr ⟨hl.symm, e3.symm⟩)
          · dsimp only
            rw [e1, show (s.xs ++ [y]).length - 1 = max 1 (i + 1) by simp [hl]]
          · dsimp only
            rw [e1, e2, show (s.xs ++ [y]).length - 1 = max 1 (i + 1) by simp [hl]]
      · rw [if_neg hh, e5] at hcb
        exact hold k c hcb
  cases b with
  | false =>
    refine key _ s.xcur rfl ?_ rfl h.fcur rfl (by simp) rfl (by simp [State.push]) (by simp [State.push])
    show s.fs ++ [s.fcur] = _
    rw [h.fcur]
  | true =>
    exact key _ x rfl rfl rfl rfl rfl (by simp) rfl (by simp [State.push]) (by simp [State.push])

/-- The initial state. -/
theorem start_inv {a : Args K} {fn : Vec (Val K) a.ndim → Val K} {R : Rng σ K} {g : σ} {s : State σ K a.ndim}
    (h : start a fn R g = .ok s) :
    0 < a.maxiter ∧ ∃ x g', a.first R g = .ok (x, g') ∧ s.rng = g' ∧ s.evals = [x] ∧ s.xcur = x ∧
      Inv fn a.callback.isSome a.returnAll x 0 s [] := by
  unfold start at h
  by_cases h1 : a.maxiter < 0
  · rw [if_pos h1] at h; cases h
  rw [if_neg h1] at h
  by_cases h2 : a.maxiter = 0
  · rw [if_pos h2] at h; cases h
  rw [if_neg h2] at h
  refine ⟨by omega, ?_⟩
  obtain ⟨⟨x, g'⟩, hx, h⟩ := bind_ok_iff.1 h
  refine ⟨x, g', hx, ?_⟩
  cases h
  refine ⟨rfl, rfl, rfl, rfl, ⟨rfl, ?_⟩, rfl, rfl, rfl, rfl, rfl, Or.inr ⟨rfl, rfl⟩, ?_, Or.inl rfl, ?_, ?_⟩
  · intro k m hm; simp at hm
  · intro m hm; simp at hm
  · dsimp only; cases a.callback.isSome <;> rfl
  · intro k c hcb
    dsimp only at hcb
    cases hh : a.callback.isSome with
    | false => rw [hh] at hcb; simp at hcb
    | true =>
      rw [hh] at hcb
      cases k with
      | succ k => simp at hcb
      | zero =>
        simp only [if_true, List.getElem?_cons_zero, Option.some.injEq] at hcb
        subst hcb
        exact ⟨rfl, rfl, rfl, rfl⟩

end Stochopy.Sampling
