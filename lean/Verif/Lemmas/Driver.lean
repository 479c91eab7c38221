import Verif.Model.Driver
import Verif.Lemmas.Val
import Verif.Lemmas.Except

/-!
# The history of a run

`Alg.Hist A s0 l st`: `l` lists (latest first) the states after the selection of generations `1, …, l.length`, `st` is
the status of the latest.  `run_hist` says that a completed run is exactly such a history, and what callbacks and records
look like in terms of it.
-/

set_option linter.unusedSectionVars false

namespace Stochopy
variable {K σ S : Type} [AddZeroClass K] [One K] [Sub K] [Mul K] [Div K] [Neg K] [NatCast K] [IntCast K] [Pow K ℕ] [ArrayOps K] [LinearOrder K] {p n : Nat}

/-- The body of the loop as a function of the state after the previous selection; `it` is the previous counter. -/
def Alg.next (A : Alg S K p n) (it : Nat) (s : S) : Except PyErr (S × Option Int) :=
  A.step (it + 1) (if it = 1 then s else A.post it s)

/-- Histories, latest state first. -/
inductive Alg.Hist (A : Alg S K p n) (s0 : S) : List S → Option Int → Prop
  | init : Alg.Hist A s0 [s0] none
  | next {s s' : S} {l : List S} {st : Option Int} : Alg.Hist A s0 (s :: l) none →
      A.next (l.length + 1) s = .ok (s', st) → Alg.Hist A s0 (s' :: s :: l) st

/-- Row of `xall`/`funall` for generation `it` in state `s`. -/
def Alg.rowOk (A : Alg S K p n) (c : Cfg) (it : Nat) (s : S) (rX : List (Vec K n)) (rF : List (Val K)) : Prop :=
  (0 < c.nout ∧ rX = (List.ofFn (if it = 1 then A.rec0X s else A.recX s)).take c.nout.toNat ∧
      rF = (List.ofFn (A.pfit s)).take c.nout.toNat ∧ (it = 1 → c.nout ≤ p)) ∨
    (c.nout ≤ 0 ∧ it = 1 ∧ rX = [A.rec0Best s] ∧ rF = [A.bestFun s]) ∨
    (c.nout ≤ 0 ∧ it ≠ 1 ∧ ∃ i, argmin (A.pfit s) = .ok i ∧ rX = [A.recX s i] ∧ rF = [A.pfit s i])

/-- `L` is the loop state after the history `l` (latest first). `cbs`, `rowsX`, `rowsF` are in chronological order. -/
inductive Alg.Logged (A : Alg S K p n) (c : Cfg) : List S → List (List (Vec K n)) → List (List (Val K)) →
    List (CB K p n) → Prop
  | nil : Alg.Logged A c [] [] [] []
  | cons {s l rX rF cb} {aX : List (List (Vec K n))} {aF : List (List (Val K))} :
      Alg.Logged A c l rX rF cb →
      (c.returnAll = false → aX = [] ∧ aF = []) →
      (c.returnAll = true → (l.length : Int) < c.maxiter ∧
        ∃ x f, aX = [x] ∧ aF = [f] ∧ A.rowOk c (l.length + 1) s x f) →
      Alg.Logged A c (s :: l) (rX ++ aX) (rF ++ aF)
        (if c.hasCallback then cb ++ [A.cb c s (l.length + 1) (rX ++ aX) (rF ++ aF)] else cb)

variable {A : Alg S K p n} {c : Cfg} {s0 : S}

theorem Alg.Hist.length_pos {l st} (h : A.Hist s0 l st) : 0 < l.length := by cases h <;> simp

theorem Alg.Hist.ne_nil {l st} (h : A.Hist s0 l st) : l ≠ [] := by cases h <;> simp

theorem start_logged {L : Loop S K p n} (h : A.start c s0 = .ok L) :
    L.s = s0 ∧ L.it = 1 ∧ L.status = none ∧ A.Logged c [s0] L.rowsX L.rowsF L.cbs := by
  unfold Alg.start at h
  rw [bind_ok_iff] at h
  obtain ⟨rows, hr, h⟩ := h
  simp only [Except.ok.injEq] at h
  subst h
  refine ⟨rfl, rfl, rfl, ?_⟩
  have key : A.Logged c ([s0]) ([] ++ rows.1) ([] ++ rows.2)
      (if c.hasCallback then [] ++ [A.cb c s0 (([] : List S).length + 1) ([] ++ rows.1) ([] ++ rows.2)] else []) := by
    refine Alg.Logged.cons Alg.Logged.nil ?_ ?_
    · intro hc
      simp only [Alg.record0, hc] at hr
      simp at hr; simp [← hr]
    · intro hc
      simp only [Alg.record0, hc, if_true] at hr
      split_ifs at hr with h1 h2 h3 h4
      · simp only [Except.ok.injEq] at hr
        subst hr
        refine ⟨by simp; omega, _, _, rfl, rfl, Or.inl ⟨h3, by simp, rfl, fun _ => by omega⟩⟩
      · simp only [Except.ok.injEq] at hr
        subst hr
        exact ⟨by simp; omega, _, _, rfl, rfl, Or.inr (Or.inl ⟨by omega, by simp, rfl, rfl⟩)⟩
  simpa using key

/-- Relation between a loop state at the head of the loop and the history. -/
def LoopInv (A : Alg S K p n) (c : Cfg) (s0 : S) (L : Loop S K p n) : Prop :=
  ∃ s l, A.Hist s0 (s :: l) none ∧ L.it = l.length + 1 ∧ L.s = (if l.length + 1 = 1 then s else A.post (l.length + 1) s) ∧
    A.Logged c (s :: l) L.rowsX L.rowsF L.cbs

theorem body_inv {L L' : Loop S K p n} {b : Bool} (hI : LoopInv A c s0 L) (h : A.body c L = .ok (L', b)) :
    ∃ s l st, A.Hist s0 (s :: l) st ∧ 1 ≤ l.length ∧ L'.it = l.length + 1 ∧ L'.status = st ∧ b = st.isSome ∧
      L'.s = (if b then s else A.post (l.length + 1) s) ∧ A.Logged c (s :: l) L'.rowsX L'.rowsF L'.cbs := by
  obtain ⟨s, l, hH, hit, hs, hlog⟩ := hI
  unfold Alg.body at h
  rw [bind_ok_iff] at h
  obtain ⟨⟨s', st⟩, hstep, h⟩ := h
  rw [bind_ok_iff] at h
  obtain ⟨rows, hrec, h⟩ := h
  simp only [Except.ok.injEq, Prod.mk.injEq] at h
  obtain ⟨hL, hb⟩ := h
  subst hL; subst hb
  have hnext : A.next (l.length + 1) s = .ok (s', st) := by
    unfold Alg.next; rw [hit, hs] at hstep; exact hstep
  refine ⟨s', s :: l, st, Alg.Hist.next hH hnext, by simp, by simp [hit], rfl, rfl, ?_, ?_⟩
  · simp [hit]
  · have key := Alg.Logged.cons (A := A) (c := c) (s := s') (aX := rows.1) (aF := rows.2) hlog ?_ ?_
    · simpa [hit] using key
    · intro hc
      simp only [Alg.record, hc] at hrec
      simp at hrec; simp [← hrec]
    · intro hc
      simp only [Alg.record, hc, if_true, hit] at hrec
      by_cases h1 : 0 < c.nout
      · rw [if_pos h1] at hrec
        split_ifs at hrec with h2
        simp only [Except.ok.injEq] at hrec
        subst hrec
        refine ⟨by simp at h2 ⊢; omega, _, _, rfl, rfl, Or.inl ⟨h1, by simp, rfl, by simp⟩⟩
      · rw [if_neg h1, bind_ok_iff] at hrec
        obtain ⟨i, hi, hrec⟩ := hrec
        split_ifs at hrec with h2
        simp only [Except.ok.injEq] at hrec
        subst hrec
        refine ⟨by simp at h2 ⊢; omega, _, _, rfl, rfl, Or.inr (Or.inr ⟨by omega, by simp, i, hi, rfl, rfl⟩)⟩

theorem loop_hist {fuel : Nat} : ∀ {L L' : Loop S K p n}, LoopInv A c s0 L → A.loop c fuel L = .ok L' →
    ∃ l st, A.Hist s0 (L'.s :: l) (some st) ∧ 1 ≤ l.length ∧ L'.it = l.length + 1 ∧ L'.status = some st ∧
      A.Logged c (L'.s :: l) L'.rowsX L'.rowsF L'.cbs := by
  induction fuel with
  | zero => intro L L' _ h; simp [Alg.loop] at h
  | succ fuel ih =>
    intro L L' hI h
    rw [Alg.loop, bind_ok_iff] at h
    obtain ⟨⟨L1, b⟩, hb, h⟩ := h
    obtain ⟨s, l, st, hH, hl, hit, hst, hbs, hs, hlog⟩ := body_inv hI hb
    cases b with
    | true =>
      simp only [if_true, Except.ok.injEq] at h
      subst h
      obtain ⟨st', rfl⟩ := Option.isSome_iff_exists.1 hbs.symm
      simp only [if_true] at hs
      subst hs
      exact ⟨l, st', hH, hl, hit, hst, hlog⟩
    | false =>
      simp only [Bool.false_eq_true, if_false] at h
      refine ih ⟨s, l, ?_, hit, ?_, hlog⟩ h
      · have : st = none := by
          cases st with
          | none => rfl
          | some _ => simp at hbs
        exact this ▸ hH
      · have h1 : ¬ (l.length + 1 = 1) := by omega
        rw [if_neg h1]; simpa using hs

/-- A completed run is a history. -/
theorem run_hist {fuel : Nat} {r : Result K n} {L : Loop S K p n} (h : A.run c fuel s0 = .ok (r, L)) :
    ∃ l st msg, A.Hist s0 (L.s :: l) (some st) ∧ 1 ≤ l.length ∧ A.Logged c (L.s :: l) L.rowsX L.rowsF L.cbs ∧
      messages st = some msg ∧
      r = { x := A.best L.s, success := decide (0 ≤ st), status := st, message := msg, fval := A.bestFun L.s,
            nfev := (l.length + 1) * p, nit := l.length + 1, xall := attach c L.rowsX, funall := attach c L.rowsF } := by
  unfold Alg.run at h
  rw [bind_ok_iff] at h
  obtain ⟨L0, h0, h⟩ := h
  rw [bind_ok_iff] at h
  obtain ⟨L1, h1, h⟩ := h
  rw [bind_ok_iff] at h
  obtain ⟨r1, h2, h⟩ := h
  simp only [Except.ok.injEq, Prod.mk.injEq] at h
  obtain ⟨rfl, rfl⟩ := h
  obtain ⟨hs, hit, hst, hlog⟩ := start_logged h0
  obtain ⟨l, st, hH, hl, hit', hst', hlog'⟩ := loop_hist (s0 := s0) ⟨s0, [], Alg.Hist.init, hit, by simpa using hs, hlog⟩ h1
  unfold Alg.finish at h2
  rw [hst'] at h2
  dsimp only at h2
  split at h2
  · simp at h2
  · rename_i msg hmsg
    simp only [Except.ok.injEq] at h2
    refine ⟨l, st, msg, hH, hl, hlog', hmsg, ?_⟩
    rw [← h2, hit']

/-- Invariants along a history. -/
theorem Alg.Hist.inv {l st} (h : A.Hist s0 l st) (I : S → Prop) (h0 : I s0)
    (hstep : ∀ it s s' st, 2 ≤ it → I s → A.step it s = .ok (s', st) → I s')
    (hpost : ∀ it s, 2 ≤ it → I s → I (A.post it s)) : ∀ s ∈ l, I s := by
  induction h with
  | init => intro s hs; simp at hs; exact hs ▸ h0
  | @next s s' l st _ hn ih =>
    intro t ht
    rcases List.mem_cons.1 ht with rfl | ht
    · have hs := ih s (by simp)
      unfold Alg.next at hn
      split_ifs at hn with h1
      · exact hstep _ _ _ _ (by omega) hs hn
      · exact hstep _ _ _ _ (by omega) (hpost _ _ (by omega) hs) hn
    · exact ih t ht

/-- An invariant of a history whose step may depend on the counter. -/
theorem Alg.Hist.inv_head {l st} (h : A.Hist s0 l st) (I : Nat → S → Option Int → Prop) (h0 : I 1 s0 none)
    (hnext : ∀ it s s' st, 1 ≤ it → I it s none → A.next it s = .ok (s', st) → I (it + 1) s' st) :
    ∀ s t, l = s :: t → I l.length s st := by
  induction h with
  | init => intro s t he; simp at he; obtain ⟨rfl, rfl⟩ := he; exact h0
  | @next s s' l st _ hn ih =>
    intro a t he
    simp only [List.cons.injEq] at he
    obtain ⟨rfl, rfl⟩ := he
    exact hnext _ _ _ _ (Nat.succ_le_succ (Nat.zero_le _)) (ih s l rfl) hn

theorem attach_eq_some {α : Type} {c : Cfg} {rows x : List α} (h : attach c rows = some x) :
    c.returnAll = true ∧ x = rows := by
  unfold attach at h; split_ifs at h with hc; simp at h; exact ⟨hc, h.symm⟩

end Stochopy
