import Verif.Model.NoiseSampler
import Verif.Spec.NoiseSampler
import Verif.Lemmas.Sampler

/-! # The samplers with noise or state in the objective -/

set_option linter.unusedSectionVars false

namespace Stochopy
open Sampling Spec

theorem getElem?_zip_some {α β : Type} {l : List α} {l' : List β} {k : Nat} {a : α} {b : β} :
    (l.zip l')[k]? = some (a, b) ↔ l[k]? = some a ∧ l'[k]? = some b := List.getElem?_zip_eq_some

section Any
variable {K σ : Type} [Zero K] [One K] [Add K] [Sub K] [Mul K] [Div K] [Neg K] [NatCast K] [IntCast K] [Pow K ℕ] [ArrayOps K] [LinearOrder K] [NumFns K] {n : Nat}

/-- Invariant of both samplers; `ms` are the moves made, between pairs of a point and its answer. -/
structure InvA (ans : Nat → Vec (Val K) n → Val K) (r1 : Vec (Val K) n × Val K) (i : Nat) (s : State σ K n)
    (ms : List (Move (Vec (Val K) n × Val K))) : Prop where
  moves : ms.length = i
  rows : s.xs.length = s.fs.length
  links : Links (s.xs.zip s.fs) ms
  first : (s.xs.zip s.fs)[0]? = some r1
  last : (s.xs.zip s.fs)[i]? = some (s.xcur, s.fcur)
  replied : ∀ x v, Recorded s.xs s.fs x v → Replied ans s.evals x v
  nacc : s.nacc = accepted ms
  imin : s.fs[s.imin]? = some s.fmin ∧ s.fmin < .pinf ∨ s.imin = 0 ∧ s.fmin = .pinf
  best : ∀ m ∈ ms, m.accepted = true → ¬ m.prop.2 < s.fmin
  best' : s.fmin = .pinf ∨ ∃ m ∈ ms, m.accepted = true ∧ m.prop.2 = s.fmin
  cb : ∀ c ∈ s.cbs, Recorded s.xs s.fs c.x c.fval

variable {ans : Nat → Vec (Val K) n → Val K} {hc ra : Bool} {r1 : Vec (Val K) n × Val K} {i : Nat} {s : State σ K n}
  {ms : List (Move (Vec (Val K) n × Val K))}

theorem InvA.zlen (h : InvA ans r1 i s ms) : (s.xs.zip s.fs).length = i + 1 := by rw [h.links.1, h.moves]

theorem InvA.len (h : InvA ans r1 i s ms) : s.xs.length = i + 1 := by
  have h1 := h.zlen
  rw [List.length_zip, ← h.rows, Nat.min_self] at h1
  exact h1

theorem Replied.mono {evals ev : List (Vec (Val K) n)} {x : Vec (Val K) n} {v : Val K} (h : Replied ans evals x v) :
    Replied ans (evals ++ ev) x v := by
  obtain ⟨k, h1, h2⟩ := h
  refine ⟨k, ?_, h2⟩
  rw [List.getElem?_append_left (List.getElem?_eq_some_iff.1 h1).1]
  exact h1

/-- One iteration. -/
theorem InvA.step (h : InvA ans r1 i s ms) (ev : List (Vec (Val K) n)) (g : σ) (r : Vec (Val K) n × Val K) (b : Bool)
    (hr : b = true → Replied ans (s.evals ++ ev) r.1 r.2) :
    InvA ans r1 (i + 1)
      ((({ s with evals := s.evals ++ ev, rng := g } : State σ K n).push (if b then some r else none)).notify hc ra)
      (ms ++ [{ old := (s.xcur, s.fcur), prop := r, accepted := b }]) := by
  have hl := h.len
  have hfl := h.rows
  have hzl := h.zlen
  have key : ∀ (t : State σ K n) (y : Vec (Val K) n × Val K), t.xs = s.xs ++ [y.1] → t.fs = s.fs ++ [y.2] → t.xcur = y.1 →
      t.fcur = y.2 → t.cbs = s.cbs → t.evals = s.evals ++ ev → y = (if b then r else (s.xcur, s.fcur)) →
      t.nacc = (if b then s.nacc + 1 else s.nacc) →
      t.imin = (if b = true ∧ r.2 < s.fmin then s.xs.length else s.imin) →
      t.fmin = (if b = true ∧ r.2 < s.fmin then r.2 else s.fmin) →
      InvA ans r1 (i + 1) (t.notify hc ra) (ms ++ [{ old := (s.xcur, s.fcur), prop := r, accepted := b }]) := by
    intro t y e1 e2 e3 e4 e5 e10 e6 e7 e8 e9
    have d1 : (t.notify hc ra).xs = s.xs ++ [y.1] := e1
    have d2 : (t.notify hc ra).fs = s.fs ++ [y.2] := e2
    have d3 : (t.notify hc ra).fmin = t.fmin := rfl
    have d4 : (t.notify hc ra).evals = s.evals ++ ev := e10
    have dz : (t.notify hc ra).xs.zip (t.notify hc ra).fs = s.xs.zip s.fs ++ [y] := by
      rw [d1, d2, List.zip_append hfl]; rfl
    have hrec : ∀ x v, Recorded s.xs s.fs x v → Recorded (s.xs ++ [y.1]) (s.fs ++ [y.2]) x v := by
      rintro x v ⟨k, q1, q2⟩
      exact ⟨k, getElem?_snoc.2 (Or.inl q1), getElem?_snoc.2 (Or.inl q2)⟩
    have hlast := getElem?_zip_some.1 h.last
    have himin : t.fs[t.imin]? = some t.fmin ∧ t.fmin < .pinf ∨ t.imin = 0 ∧ t.fmin = .pinf := by
      rw [e2, e8, e9]
      by_cases hb : b = true ∧ r.2 < s.fmin
      · rw [if_pos hb, if_pos hb]
        left
        constructor
        · refine getElem?_snoc.2 (Or.inr ⟨hfl, ?_⟩)
          rw [e6, if_pos hb.1]
        · rcases h.imin with ⟨_, hi⟩ | ⟨_, hi⟩
          · exact Val.lt_of_lt_of_le' hb.2 (Val.le_of_lt' hi)
          · rw [← hi]; exact hb.2
      · rw [if_neg hb, if_neg hb]
        rcases h.imin with ⟨h1, h2⟩ | h1
        · exact Or.inl ⟨getElem?_snoc.2 (Or.inl h1), h2⟩
        · exact Or.inr h1
    refine ⟨?_, ?_, ⟨?_, ?_⟩, ?_, ?_, ?_, ?_, himin, ?_, ?_, ?_⟩
    · rw [List.length_append, h.moves]; rfl
    · rw [d1, d2, List.length_append, List.length_append, hfl]; rfl
    · rw [dz, List.length_append, List.length_append, h.links.1]; rfl
    · intro k m hm
      rw [getElem?_snoc] at hm
      rw [dz]
      rcases hm with hm | ⟨hk, hm⟩
      · obtain ⟨q1, q2⟩ := h.links.2 k m hm
        exact ⟨getElem?_snoc.2 (Or.inl q1), getElem?_snoc.2 (Or.inl q2)⟩
      · rw [h.moves] at hk
        subst hk
        subst hm
        refine ⟨getElem?_snoc.2 (Or.inl h.last), getElem?_snoc.2 (Or.inr ⟨hzl.symm, ?_⟩)⟩
        rw [e6]; rfl
    · rw [dz]; exact getElem?_snoc.2 (Or.inl h.first)
    · rw [dz]
      refine getElem?_snoc.2 (Or.inr ⟨hzl.symm, ?_⟩)
      exact Prod.ext e3.symm e4.symm
    · rintro x v ⟨k, q1, q2⟩
      rw [d1] at q1
      rw [d2] at q2
      rw [d4]
      rw [getElem?_snoc] at q1 q2
      rcases q1 with q1 | ⟨q1, rfl⟩
      · have hk := (List.getElem?_eq_some_iff.1 q1).1
        rcases q2 with q2 | ⟨q2, -⟩
        · exact Replied.mono (h.replied x v ⟨k, q1, q2⟩)
        · omega
      · rcases q2 with q2 | ⟨-, rfl⟩
        · have hk := (List.getElem?_eq_some_iff.1 q2).1
          omega
        · rw [e6]
          by_cases hb : b = true
          · rw [if_pos hb]; exact hr hb
          · rw [if_neg hb]
            exact Replied.mono (h.replied _ _ ⟨i, hlast.1, hlast.2⟩)
    · show t.nacc = _
      rw [e7]
      unfold accepted
      rw [List.filter_append, List.length_append]
      have := h.nacc
      unfold accepted at this
      cases b <;> simp [this]
    · intro m hm hma
      rw [d3, e9]
      rw [List.mem_append, List.mem_singleton] at hm
      by_cases hb : b = true ∧ r.2 < s.fmin
      · rw [if_pos hb]
        rcases hm with hm | rfl
        · intro hlt
          have h1 := h.best m hm hma
          apply h1
          exact Val.lt_of_lt_of_le' hlt (Val.le_of_lt' hb.2)
        · exact Val.lt_irrefl'
      · rw [if_neg hb]
        rcases hm with hm | rfl
        · exact h.best m hm hma
        · intro hlt; exact hb ⟨hma, hlt⟩
    · rw [d3, e9]
      by_cases hb : b = true ∧ r.2 < s.fmin
      · rw [if_pos hb]
        exact Or.inr ⟨_, List.mem_append.2 (Or.inr (List.mem_singleton.2 rfl)), hb.1, rfl⟩
      · rw [if_neg hb]
        rcases h.best' with h1 | ⟨m, hm, h1⟩
        · exact Or.inl h1
        · exact Or.inr ⟨m, List.mem_append.2 (Or.inl hm), h1⟩
    · intro c hcb
      rw [d1, d2]
      unfold State.notify at hcb
      dsimp only at hcb
      rw [e5] at hcb
      by_cases hh : hc = true
      · rw [if_pos hh, List.mem_append, List.mem_singleton] at hcb
        rcases hcb with hk | rfl
        · exact hrec _ _ (h.cb c hk)
        · have hlt : t.imin < t.xs.length := by
            rw [e1, List.length_append]
            rcases himin with ⟨q, -⟩ | ⟨q, -⟩
            · have := (List.getElem?_eq_some_iff.1 q).1
              rw [e2, List.length_append] at this
              simp only [List.length_cons, List.length_nil] at this ⊢
              omega
            · rw [q]; simp
          have hlt' : t.imin < t.fs.length := by
            rw [e1, List.length_append] at hlt
            rw [e2, List.length_append]
            simp only [List.length_cons, List.length_nil] at hlt ⊢
            omega
          refine ⟨t.imin, ?_, ?_⟩
          · rw [← e1]
            dsimp only
            rw [List.getD_eq_getElem?_getD, List.getElem?_eq_getElem hlt]; rfl
          · rw [← e2]
            dsimp only
            rw [List.getD_eq_getElem?_getD, List.getElem?_eq_getElem hlt']; rfl
      · rw [if_neg hh] at hcb
        exact hrec _ _ (h.cb c hcb)
  cases b with
  | false => exact key _ (s.xcur, s.fcur) rfl rfl rfl rfl rfl rfl (by simp) rfl (by simp [State.push]) (by simp [State.push])
  | true => exact key _ r rfl rfl rfl rfl rfl rfl (by simp) rfl (by simp [State.push]) (by simp [State.push])

/-- The initial state. -/
theorem startA_inv {a : Args K} {ans : Nat → Vec (Val K) a.ndim → Val K} {R : Rng σ K} {g : σ} {s : State σ K a.ndim}
    (h : start a (ans 0) R g = .ok s) :
    0 < a.maxiter ∧ ∃ x g', a.first R g = .ok (x, g') ∧ s.rng = g' ∧ s.evals = [x] ∧ s.xcur = x ∧
      InvA ans (x, ans 0 x) 0 s [] := by
  obtain ⟨h0, x, g', h1, h2, h3, h4, hI⟩ := start_inv h
  refine ⟨h0, x, g', h1, h2, h3, h4, ?_⟩
  have hx : s.xs = [x] := by
    have h5 := hI.len
    have h6 := hI.first
    cases hxs : s.xs with
    | nil => rw [hxs] at h5; simp at h5
    | cons y l =>
      rw [hxs] at h5 h6
      cases l with
      | nil => simp at h6; rw [h6]
      | cons z l => simp at h5
  have hf : s.fs = [ans 0 x] := by rw [hI.vals, hx]; rfl
  have hrec : ∀ y v, Recorded s.xs s.fs y v → y = x ∧ v = ans 0 x := by
    rintro y v ⟨k, q1, q2⟩
    rw [hx] at q1
    rw [hf] at q2
    cases k with
    | succ k => simp at q1
    | zero => exact ⟨by simpa using q1.symm, by simpa using q2.symm⟩
  refine ⟨rfl, by rw [hx, hf]; rfl, ⟨by rw [hx, hf]; rfl, fun k m hm => by simp at hm⟩, by rw [hx, hf]; rfl, ?_, ?_, hI.nacc, hI.imin,
    fun m hm => by simp at hm, hI.best'.imp_right fun ⟨m, hm, _⟩ => by simp at hm, ?_⟩
  · rw [hx, hf, hI.fcur, h4]; rfl
  · intro y v hyv
    obtain ⟨rfl, rfl⟩ := hrec y v hyv
    exact ⟨0, by rw [h3]; rfl, rfl⟩
  · intro c hcb
    unfold start at h
    rw [if_neg (by omega), if_neg (by omega), h1] at h
    rw [ok_bind'] at h
    cases h
    dsimp only at hcb ⊢
    by_cases hh : a.callback.isSome = true
    · rw [if_pos hh, List.mem_singleton] at hcb
      subst hcb
      exact ⟨0, rfl, rfl⟩
    · rw [if_neg hh] at hcb
      simp at hcb

end Any

namespace MCMC
variable {K σ : Type} [Zero K] [One K] [Add K] [Sub K] [Mul K] [Div K] [Neg K] [NatCast K] [IntCast K] [Pow K ℕ] [ArrayOps K] [LinearOrder K] [NumFns K] {n : Nat}

/-- The move made at iteration `i`. -/
def stepAns (ans : Nat → Vec (Val K) n → Val K) (P : Par σ K n) (i : Nat) (s : State σ K n) : Except PyErr (State σ K n) :=
  blockAns ans P (i % nblocks n P.per * P.per) s

variable {ans : Nat → Vec (Val K) n → Val K} {P : Par σ K n}

theorem blockAns_len {j : Nat} {s s' : State σ K n} (h : blockAns ans P j s = .ok s') : s'.xs.length = s.xs.length + 1 :=
  block_len h

/-- Running the rest of a sweep. -/
theorem sweepAns_eq (hp : 0 < P.per) (b : Nat) : ∀ (i : Nat) (s : State σ K n), s.xs.length = i + 1 → i + 1 < P.maxiter →
    b < nblocks n P.per → i % nblocks n P.per = b →
    sweepAns ans P ((starts n P.per).drop b) s =
      steps (stepAns ans P) i (min (nblocks n P.per - b) (P.maxiter - (i + 1))) s := by
  generalize hd : nblocks n P.per - b = d
  induction d generalizing b with
  | zero => intro i s _ _ hb _; omega
  | succ d ih =>
    intro i s hs hi hb hm
    have hb' : b < (starts n P.per).length := by rw [starts_length n hp]; exact hb
    rw [List.drop_eq_getElem_cons hb', starts_get n hp hb']
    obtain ⟨e, he⟩ : ∃ e, P.maxiter - (i + 1) = e + 1 := ⟨P.maxiter - (i + 1) - 1, by omega⟩
    rw [he, show min (d + 1) (e + 1) = min d e + 1 by omega]
    unfold sweepAns
    simp only [steps]
    have hst : stepAns ans P i s = blockAns ans P (b * P.per) s := by unfold stepAns; rw [hm]
    rw [hst]
    cases hbl : blockAns ans P (b * P.per) s with
    | error e => rfl
    | ok s1 =>
      simp only [ok_bind']
      have hl := blockAns_len hbl
      by_cases hmx : s1.xs.length = P.maxiter
      · rw [if_pos hmx]
        have : e = 0 := by omega
        rw [this, Nat.min_zero]; rfl
      · rw [if_neg hmx]
        by_cases hd0 : d = 0
        · subst hd0
          rw [List.drop_eq_nil_of_le (by rw [starts_length n hp]; omega), Nat.zero_min]
          rfl
        · rw [ih (b + 1) (by omega) (i + 1) s1 (by omega) (by omega) (by omega)]
          · rw [show P.maxiter - (i + 1 + 1) = e by omega]
          · rw [Nat.add_mod, hm, Nat.mod_eq_of_lt (a := 1) (by omega), Nat.mod_eq_of_lt (by omega)]

theorem stepsAns_len {i k : Nat} {s s' : State σ K n} (h : steps (stepAns ans P) i k s = .ok s') :
    s'.xs.length = s.xs.length + k := by
  have := steps_inv (f := stepAns ans P) (I := fun j t => t.xs.length + i = s.xs.length + j)
    (by intro j t t' hj ht; have := blockAns_len ht; omega) k i (s := s) (s' := s') (by simp) h
  omega

/-- The loop is the sequence of all moves (or the first exception). -/
theorem loopAns_eq (hp : 0 < P.per) (hn : 0 < n) : ∀ (fuel i : Nat) (s : State σ K n), s.xs.length = i + 1 →
    i % nblocks n P.per = 0 → i + 1 ≤ P.maxiter → P.maxiter ≤ i + 1 + fuel →
    loopAns ans P fuel s = steps (stepAns ans P) i (P.maxiter - (i + 1)) s := by
  have hnb : 0 < nblocks n P.per := by
    unfold nblocks
    exact Nat.div_pos (by omega) hp
  intro fuel
  induction fuel with
  | zero =>
    intro i s hs _ h1 h2
    unfold loopAns
    rw [if_neg (by omega), show P.maxiter - (i + 1) = 0 by omega]; rfl
  | succ fuel ih =>
    intro i s hs hm h1 h2
    unfold loopAns
    by_cases hlt : s.xs.length < P.maxiter
    · rw [if_pos hlt]
      have hsw := sweepAns_eq (ans := ans) hp 0 i s hs (by omega) hnb hm
      rw [List.drop_zero, Nat.sub_zero] at hsw
      rw [hsw]
      by_cases hc : nblocks n P.per ≤ P.maxiter - (i + 1)
      · rw [Nat.min_eq_left hc]
        obtain ⟨e, he⟩ := Nat.exists_eq_add_of_le hc
        rw [he, steps_add]
        cases hok : steps (stepAns ans P) i (nblocks n P.per) s with
        | error e => rfl
        | ok s1 =>
          have hl := stepsAns_len hok
          simp only [ok_bind']
          rw [ih (i + nblocks n P.per) s1 (by omega) (by rw [Nat.add_mod_right]; exact hm) (by omega) (by omega)]
          congr 1; omega
      · rw [Nat.min_eq_right (by omega)]
        cases hst : steps (stepAns ans P) i (P.maxiter - (i + 1)) s with
        | error e => rfl
        | ok s1 =>
          rw [ok_bind']
          have hl := stepsAns_len hst
          have hdone : ¬ s1.xs.length < P.maxiter := by omega
          cases fuel with
          | zero => unfold loopAns; rw [if_neg hdone]
          | succ f => unfold loopAns; rw [if_neg hdone]
    · rw [if_neg hlt, show P.maxiter - (i + 1) = 0 by omega]; rfl

theorem loopAns_mono : ∀ (f k : Nat) {s s' : State σ K n}, loopAns ans P f s = .ok s' → loopAns ans P (f + k) s = .ok s' := by
  intro f
  induction f with
  | zero =>
    intro k s s' h
    unfold loopAns at h
    by_cases hl : s.xs.length < P.maxiter
    · rw [if_pos hl] at h; cases h
    · rw [if_neg hl] at h
      cases h
      cases k with
      | zero => unfold loopAns; rw [if_neg hl]
      | succ k => rw [Nat.zero_add]; unfold loopAns; rw [if_neg hl]
  | succ f ih =>
    intro k s s' h
    rw [show f + 1 + k = (f + k) + 1 by omega]
    unfold loopAns at h ⊢
    by_cases hl : s.xs.length < P.maxiter
    · rw [if_pos hl] at h ⊢
      obtain ⟨s1, h1, h2⟩ := bind_ok_iff.1 h
      rw [h1, ok_bind']
      exact ih k h2
    · rw [if_neg hl] at h ⊢
      exact h

theorem loopAns_empty (hn : n = 0) : ∀ (f : Nat) {s s' : State σ K n}, loopAns ans P f s = .ok s' →
    P.maxiter ≤ s.xs.length ∧ s' = s := by
  intro f
  induction f with
  | zero =>
    intro s s' h
    unfold loopAns at h
    by_cases hl : s.xs.length < P.maxiter
    · rw [if_pos hl] at h; cases h
    · rw [if_neg hl] at h; cases h; exact ⟨by omega, rfl⟩
  | succ f ih =>
    intro s s' h
    unfold loopAns at h
    by_cases hl : s.xs.length < P.maxiter
    · rw [if_pos hl] at h
      have : starts n P.per = [] := by subst hn; rfl
      rw [this] at h
      exact ih h
    · rw [if_neg hl] at h; cases h; exact ⟨by omega, rfl⟩

theorem loopAns_ok (hp : 0 < P.per) {f : Nat} {s s' : State σ K n} (hs : s.xs.length = 1) (hm : 1 ≤ P.maxiter)
    (h : loopAns ans P f s = .ok s') : steps (stepAns ans P) 0 (P.maxiter - 1) s = .ok s' ∧ (n = 0 → P.maxiter = 1) := by
  rcases Nat.eq_zero_or_pos n with hn | hn
  · obtain ⟨h1, rfl⟩ := loopAns_empty hn f h
    rw [hs] at h1
    rw [show P.maxiter - 1 = 0 by omega]
    exact ⟨rfl, fun _ => by omega⟩
  · have := loopAns_mono f P.maxiter h
    rw [loopAns_eq hp hn (f + P.maxiter) 0 s hs (Nat.zero_mod _) (by omega) (by omega)] at this
    exact ⟨this, fun h0 => by omega⟩

/-- What is true of the move made at iteration `k` with the generator in state `g`. -/
def MoveOkA (ans : Nat → Vec (Val K) n → Val K) (P : Par σ K n) (k : Nat) (g : σ) (m : Move (Vec (Val K) n × Val K)) : Prop :=
  k % nblocks n P.per * P.per + P.per ≤ n ∧ m.prop.1 = proposal P k g m.old.1 ∧
    (P.constraints ≠ some "Reject" → m.prop.2 = ans (k + 1) m.prop.1) ∧
    m.accepted = (truthy (inSearchSpace m.prop.1 P.lower P.upper P.constraints) &&
      metropolis (m.old.2 - m.prop.2) (P.R.rand ((fun g => (P.R.randn g).2)^[P.per] g)).1)

/-- Invariant of the loop. -/
def IMA (ans : Nat → Vec (Val K) n → Val K) (P : Par σ K n) (r1 : Vec (Val K) n × Val K) (g : σ) (i : Nat) (s : State σ K n) : Prop :=
  s.rng = gen P g i ∧
  ∃ ms, InvA ans r1 i s ms ∧ (∀ k m, ms[k]? = some m → MoveOkA ans P k (gen P g k) m) ∧
    s.evals = r1.1 :: if P.constraints = some "Reject" then [] else ms.map fun m => m.prop.1

theorem IMA_step (hp : 0 < P.per) (hn : 0 < n) {r1 : Vec (Val K) n × Val K} {g : σ} {i : Nat} {s s' : State σ K n}
    (h : IMA ans P r1 g i s) (hs : stepAns ans P i s = .ok s') : IMA ans P r1 g (i + 1) s' := by
  obtain ⟨hg, ms, hI, hm, hev⟩ := h
  have hs' : step (P.at ans s.evals.length) i s = .ok s' := hs
  by_cases hfit : i % nblocks n P.per * P.per + P.per ≤ n
  swap
  · rw [step_error (P := P.at ans s.evals.length) hp hn (by exact Nat.lt_of_not_le hfit)] at hs'; cases hs'
  have hst := step_fits (P := P.at ans s.evals.length) hp hfit s
  dsimp only at hst
  rw [hst, truthy_inSearchSpace] at hs'
  have hms : ∀ (v : Val K) (b : Bool), (P.constraints ≠ some "Reject" → v = ans (i + 1) (proposal P i s.rng s.xcur)) →
      b = (truthy (inSearchSpace (proposal P i s.rng s.xcur) P.lower P.upper P.constraints) &&
        metropolis (s.fcur - v) (P.R.rand ((fun g => (P.R.randn g).2)^[P.per] s.rng)).1) →
      ∀ k m, (ms ++ [{ old := (s.xcur, s.fcur), prop := (proposal P i s.rng s.xcur, v), accepted := b }])[k]? = some m →
        MoveOkA ans P k (gen P g k) m := by
    intro v b hv hb k m hk
    rw [getElem?_snoc] at hk
    rcases hk with hk | ⟨hk, rfl⟩
    · exact hm k m hk
    · rw [hI.moves] at hk
      subst hk
      rw [← hg]
      exact ⟨hfit, rfl, hv, hb⟩
  rw [truthy_inSearchSpace] at hms
  by_cases hrej : P.constraints = some "Reject"
  · have hrej' : (P.at ans s.evals.length).constraints = some "Reject" := hrej
    rw [if_neg (by simp [hrej'])] at hs'
    cases hs'
    refine ⟨?_, _, hI.step [] _ (proposal P i s.rng s.xcur, .nan) false (by simp), hms .nan _ (fun h => absurd hrej h) (by simp [hrej]), ?_⟩
    · rw [push_notify_rng]
      simp only [gen, genAt]
      rw [if_neg (by simp [hrej]), hg]
      rfl
    · rw [push_notify_evals, if_pos hrej]
      rw [if_pos hrej] at hev
      rw [hev, List.append_nil]
  · have hrej' : ¬ (P.at ans s.evals.length).constraints = some "Reject" := hrej
    rw [if_pos (by simp [hrej'])] at hs'
    cases hs'
    rw [if_neg hrej] at hev
    have hl : s.evals.length = i + 1 := by rw [hev, List.length_cons, List.length_map, hI.moves]
    refine ⟨?_, _, hI.step [proposal P i s.rng s.xcur] _ (proposal P i s.rng s.xcur, ans s.evals.length (proposal P i s.rng s.xcur)) _ ?_,
      hms _ _ (fun _ => by rw [hl]) (by simp [hrej]; rfl), ?_⟩
    · rw [push_notify_rng]
      simp only [gen, genAt]
      rw [if_pos (by simp [hrej]), hg]
      rfl
    · intro _
      refine ⟨s.evals.length, ?_, rfl⟩
      rw [List.getElem?_append_right (Nat.le_refl _), Nat.sub_self]
      rfl
    · rw [push_notify_evals, if_neg hrej]
      dsimp only
      rw [hev, List.map_append]
      rfl

/-- What a completed call did. -/
theorem sampleAns_ok [IntParts K] {R : Rng σ K} {fuel : Nat} {a : Args K} {ans : Nat → Vec (Val K) a.ndim → Val K} {g : σ}
    {o : Sampling.Output σ K a.ndim} (h : (sampleAns R fuel a ans g).1 = .ok o) :
    ∃ st s x g', a.checkStart = .ok () ∧ a.stepsize.scale a.lower a.upper = .ok st ∧
      (0 ≤ a.perc ∧ a.perc ≤ 1) ∧ a.badCallback = false ∧ 0 < a.maxiter ∧
      a.first R (a.seeded R g) = .ok (x, g') ∧ IMA ans (par R a (ans 0) st) (x, ans 0 x) g' (a.maxiter.toNat - 1) s ∧
      (a.ndim = 0 → a.maxiter = 1) ∧ o = finish a.maxiter a.returnAll s := by
  unfold sampleAns at h
  cases hfn : a.fn with
  | none => rw [hfn] at h; cases h
  | some fn =>
    cases hch : a.checkStart with
    | error e => rw [hfn, hch] at h; cases h
    | ok u =>
      cases hsc : a.stepsize.scale a.lower a.upper with
      | error e => rw [hfn, hch, hsc] at h; cases h
      | ok st =>
        rw [hfn, hch, hsc] at h
        dsimp only at h
        unfold restAns at h
        by_cases hpc : 0 ≤ a.perc ∧ a.perc ≤ 1
        swap
        · rw [if_pos hpc] at h; cases h
        rw [if_neg (by simpa using hpc)] at h
        cases hbc : a.badCallback with
        | true => rw [hbc] at h; cases h
        | false =>
          rw [hbc, if_neg (by simp)] at h
          obtain ⟨s0, h0, h⟩ := bind_ok_iff.1 h
          obtain ⟨s1, h1, h⟩ := bind_ok_iff.1 h
          cases h
          obtain ⟨hm, x, g', hx, hg0, hev, _, hI⟩ := startA_inv h0
          have hpp := perIter_pos a.perc a.ndim
          obtain ⟨hst, hn0⟩ := loopAns_ok (P := par R a (ans 0) st) hpp (by have := hI.len; simpa using this)
            (by show 1 ≤ a.maxiter.toNat; omega) h1
          have hn0' : a.ndim = 0 → a.maxiter = 1 := by
            intro hz
            have : a.maxiter.toNat = 1 := hn0 hz
            omega
          refine ⟨st, s1, x, g', rfl, rfl, hpc, rfl, hm, hx, ?_, hn0', rfl⟩
          rcases Nat.eq_zero_or_pos a.ndim with hz | hpos
          · have h2 : a.maxiter.toNat = 1 := hn0 hz
            have h3 : (par R a (ans 0) st).maxiter = 1 := h2
            rw [h3] at hst
            cases hst
            rw [h2]
            exact ⟨hg0, [], hI, by intro k m hk; simp at hk, by rw [hev]; simp⟩
          · have := steps_inv (f := stepAns ans (par R a (ans 0) st)) (I := IMA ans (par R a (ans 0) st) (x, ans 0 x) g')
              (fun i s s' => IMA_step (P := par R a (ans 0) st) hpp hpos) (a.maxiter.toNat - 1) 0
              ⟨hg0, [], hI, by intro k m hk; simp at hk, by rw [hev]; simp⟩ hst
            rwa [Nat.zero_add] at this

/-- An objective that is a function. -/
theorem sweepAns_const (fn : Vec (Val K) n → Val K) (js : List Nat) (s : State σ K n) :
    sweepAns (fun _ => fn) { P with fn := fn } js s = sweep { P with fn := fn } js s := by
  induction js generalizing s with
  | nil => rfl
  | cons j js ih =>
    unfold sweepAns sweep
    show (block { P with fn := fn } j s >>= _) = _
    congr 1
    funext s'
    rw [ih]

theorem loopAns_const (fn : Vec (Val K) n → Val K) (fuel : Nat) (s : State σ K n) :
    loopAns (fun _ => fn) { P with fn := fn } fuel s = loop { P with fn := fn } fuel s := by
  induction fuel generalizing s with
  | zero => rfl
  | succ f ih =>
    unfold loopAns loop
    rw [sweepAns_const]
    simp only [ih]

end MCMC

namespace HMC
variable {K σ : Type} [Zero K] [One K] [Add K] [Sub K] [Mul K] [Div K] [Neg K] [NatCast K] [IntCast K] [Pow K ℕ] [ArrayOps K] [LinearOrder K] [NumFns K] {n : Nat}
variable {ans : Nat → Vec (Val K) n → Val K} {P : Par σ K n} {G : Nat → Grad K n}

/-- Invariant of the loop. -/
def IMA (ans : Nat → Vec (Val K) n → Val K) (P : Par σ K n) (r1 : Vec (Val K) n × Val K) (g : σ) (i : Nat) (s : State σ K n) : Prop :=
  s.rng = gen P g i ∧ s.evals[0]? = some r1.1 ∧ ∃ ms, InvA ans r1 i s ms

theorem IMA_step {r1 : Vec (Val K) n × Val K} {g : σ} {i : Nat} {s s' : State σ K n}
    (h : IMA ans P r1 g i s) (hs : iterAns ans G P s = .ok s') : IMA ans P r1 g (i + 1) s' := by
  obtain ⟨hg, hev, ms, hI⟩ := h
  have hev' : ∀ l, (s.evals ++ l)[0]? = some r1.1 := fun l => by
    rw [List.getElem?_append_left (List.getElem?_eq_some_iff.1 hev).1]; exact hev
  unfold iterAns at hs
  obtain ⟨r, hr, hs⟩ := bind_ok_iff.1 hs
  dsimp only at hs
  rw [truthy_inSearchSpace] at hs
  by_cases hrej : P.constraints = some "Reject"
  · rw [if_neg (by simp [hrej])] at hs
    cases hs
    refine ⟨?_, by rw [push_notify_evals]; exact hev' _, _, hI.step r.2.2 _ (r.1, .nan) false (by simp)⟩
    rw [push_notify_rng]
    simp only [gen, genAt]
    rw [if_neg (by simp [hrej]), hg]
    rfl
  · rw [if_pos (by simp [hrej])] at hs
    cases hs
    rw [List.append_assoc]
    refine ⟨?_, by rw [push_notify_evals]; exact hev' _, _, hI.step (r.2.2 ++ [s.xcur, r.1]) _ (r.1, _) _ fun _ => ⟨(s.evals ++ r.2.2).length + 1, ?_, rfl⟩⟩
    rotate_left
    · show (s.evals ++ (r.2.2 ++ [s.xcur, r.1]))[_]? = some r.1
      rw [← List.append_assoc, List.getElem?_append_right (by omega), Nat.add_sub_cancel_left]
      rfl
    · rw [push_notify_rng]
      simp only [gen, genAt]
      rw [if_pos (by simp [hrej]), hg]
      rfl

theorem loopAns_eq (k : Nat) : ∀ (i : Nat) (s : State σ K n), loopAns ans G P k s = steps (fun _ => iterAns ans G P) i k s := by
  induction k with
  | zero => intro i s; rfl
  | succ k ih =>
    intro i s
    unfold loopAns
    simp only [steps]
    congr 1
    funext s'
    exact ih (i + 1) s'

/-- What a completed call did. -/
theorem sampleAns_ok {R : Rng σ K} {a : Args K} {ans : Nat → Vec (Val K) a.ndim → Val K} {g : σ} {o : Sampling.Output σ K a.ndim}
    (h : (sampleAns R a ans g).1 = .ok o) :
    ∃ st s x g', a.checkStart = .ok () ∧ a.stepsize.scale a.lower a.upper = .ok st ∧ 0 < a.maxiter ∧
      a.first R (a.seeded R g) = .ok (x, g') ∧ IMA ans (par R a (ans 0) st) (x, ans 0 x) g' (a.maxiter.toNat - 1) s ∧
      finish a.maxiter a.returnAll s = .ok o := by
  unfold sampleAns at h
  cases hfn : a.fn with
  | none => rw [hfn] at h; cases h
  | some fn =>
    cases hch : a.checkStart with
    | error e => rw [hfn, hch] at h; cases h
    | ok u =>
      by_cases hnl : a.nleap < 1
      · rw [hfn, hch, decide_eq_true hnl] at h; cases h
      · cases hsc : a.stepsize.scale a.lower a.upper with
        | error e => rw [hfn, hch, hsc, decide_eq_false hnl] at h; cases h
        | ok st =>
          rw [hfn, hch, hsc, decide_eq_false hnl] at h
          dsimp only at h
          unfold restAns at h
          cases hj : badJac a.jac with
          | true => rw [hj] at h; cases h
          | false =>
            rw [hj, if_neg (by simp)] at h
            cases hbc : a.badCallback with
            | true => rw [hbc] at h; cases h
            | false =>
              rw [hbc, if_neg (by simp)] at h
              obtain ⟨s0, h0, h⟩ := bind_ok_iff.1 h
              obtain ⟨s1, h1, h⟩ := bind_ok_iff.1 h
              obtain ⟨hm, x, g', hx, hg0, hev, _, hI⟩ := startA_inv h0
              refine ⟨st, s1, x, g', rfl, rfl, hm, hx, ?_, h⟩
              have h1' : loopAns ans (gradOfAns ans a.jac a.fdStep a.extraArgs) (par R a (ans 0) st) (a.maxiter.toNat - 1) s0 = .ok s1 := h1
              rw [loopAns_eq _ 0] at h1'
              have := steps_inv (I := IMA ans (par R a (ans 0) st) (x, ans 0 x) g')
                (fun i s s' => IMA_step (P := par R a (ans 0) st))
                (a.maxiter.toNat - 1) 0 (s := s0) ⟨hg0, by rw [hev]; rfl, [], hI⟩ h1'
              rwa [Nat.zero_add] at this

/-! ### An objective that is a function -/

theorem numericalGradientAns_const (fn : Vec (Val K) n → Val K) (k : Nat) (h : K) (x : Vec (Val K) n) :
    numericalGradientAns (fun _ => fn) k h x = numericalGradient fn h x := rfl

theorem gradOfAns_const (fn : Vec (Val K) n → Val K) (jac : Option (Option (Vec (Val K) n → Vec (Val K) n))) (h : K) (e : Bool) (k : Nat) :
    gradOfAns (fun _ => fn) jac h e k = gradOf fn jac h e := rfl

theorem leapsAns_const (G : Grad K n) (k : Nat) (step : Vec K n) (l : Nat) (s : Phase K n) :
    leapsAns (fun _ => G) k step l s = leaps G step l s := by
  induction l generalizing s with
  | zero => rfl
  | succ l ih =>
    unfold leapsAns leaps
    show (kick G step s >>= _) = _
    congr 1
    funext s'
    rw [ih]

theorem leapfrogAns_const (G : Grad K n) (k : Nat) (step : Vec K n) (l : Nat) (q p : Vec (Val K) n) :
    leapfrogAns (fun _ => G) k step l q p = leapfrog G step l q p := by
  unfold leapfrogAns leapfrog
  simp only [leapsAns_const]
  rfl

theorem loopAns_const (fn : Vec (Val K) n → Val K) (G : Grad K n) (hP : P.fn = fn) (hG : P.G = G) (k : Nat) (s : State σ K n) :
    loopAns (fun _ => fn) (fun _ => G) P k s = loop P k s := by
  induction k generalizing s with
  | zero => rfl
  | succ k ih =>
    unfold loopAns loop
    have : iterAns (fun _ => fn) (fun _ => G) P s = iter P s := by
      unfold iterAns iter
      dsimp only
      rw [leapfrogAns_const, hP, hG]
    rw [this]
    congr 1
    funext s'
    rw [ih]

end HMC
end Stochopy
