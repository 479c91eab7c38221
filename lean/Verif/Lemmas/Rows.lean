import Verif.Lemmas.Laws

/-! Recorded rows in terms of states reached by a step. -/

set_option linter.unusedSectionVars false

namespace Stochopy
variable {K σ S : Type} [AddZeroClass K] [One K] [Sub K] [Mul K] [Div K] [Neg K] [NatCast K] [IntCast K] [Pow K ℕ] [ArrayOps K] [LinearOrder K] {p n : Nat}
variable {A : Alg S K p n} {c : Cfg} {s0 : S} {fuel : Nat} {r : Result K n} {L : Loop S K p n}

/-- States after the first are produced by a step from a state satisfying the invariant. -/
theorem Alg.Hist.reached {l st} (h : A.Hist s0 l st) (I : S → Prop) (h0 : I s0)
    (hstep : ∀ it s s' st, 2 ≤ it → I s → A.step it s = .ok (s', st) → I s')
    (hpost : ∀ it s, 2 ≤ it → I s → I (A.post it s)) :
    ∀ k s, l.reverse[k]? = some s → 0 < k → ∃ it t st', 2 ≤ it ∧ I t ∧ A.step it t = .ok (s, st') := by
  induction h with
  | init => intro k s hk hpos; cases k with
    | zero => omega
    | succ k => simp at hk
  | @next s s' l st hH hn ih =>
    intro k t hk hpos
    rw [List.reverse_cons] at hk
    rcases Nat.lt_trichotomy k (s :: l).length with hlt | heq | hgt
    · rw [List.getElem?_append_left (by simpa using hlt)] at hk
      exact ih k t hk hpos
    · subst heq
      rw [List.getElem?_append_right (by simp)] at hk
      simp at hk; subst hk
      have hs := hH.inv I h0 hstep hpost s (by simp)
      unfold Alg.next at hn
      split_ifs at hn with h1
      · exact ⟨_, _, _, by omega, hs, hn⟩
      · exact ⟨_, _, _, by omega, hpost _ _ (by omega) hs, hn⟩
    · rw [List.getElem?_eq_none (by simp at hgt ⊢; omega)] at hk; simp at hk

theorem forall2_ofFn_take {Q : Vec K n → Val K → Prop} {X : Pop K p n} {v : Fin p → Val K} (h : ∀ i, Q (X i) (v i))
    (m : Nat) : List.Forall₂ Q ((List.ofFn X).take m) ((List.ofFn v).take m) := by
  rw [List.forall₂_iff_get]
  refine ⟨by simp, fun i h1 h2 => ?_⟩
  simpa using h ⟨i, by simp at h1; omega⟩

/-- Row `0` satisfies `Q0`, the later rows `Q`. -/
theorem run_rows (h : A.run c fuel s0 = .ok (r, L)) (Q0 Q : Vec K n → Val K → Prop)
    (h0 : (∀ i, Q0 (A.rec0X s0 i) (A.pfit s0 i)) ∧ Q0 (A.rec0Best s0) (A.bestFun s0))
    (hQ : ∀ l st, A.Hist s0 (L.s :: l) st → ∀ k s, (L.s :: l).reverse[k]? = some s → 0 < k →
      ∀ i, Q (A.recX s i) (A.pfit s i)) :
    ∀ xs fs, r.xall = some xs → r.funall = some fs →
      ∀ (k : Nat) (rx : List (Vec K n)) (rf : List (Val K)), xs[k]? = some rx → fs[k]? = some rf →
        List.Forall₂ (if k = 0 then Q0 else Q) rx rf := by
  obtain ⟨l, st, msg, hH, hlen, hlog, hm, rfl⟩ := run_hist h
  intro xs fs hx hf k rx rf hk hk'
  obtain ⟨hc, rfl⟩ := attach_eq_some hx
  obtain ⟨_, rfl⟩ := attach_eq_some hf
  have hkl : k < (L.s :: l).reverse.length := by
    by_contra hge
    rw [List.getElem?_eq_none (by rw [(hlog.rows_length.2 hc).1]; simp at hge ⊢; omega)] at hk
    simp at hk
  have hget := List.getElem?_eq_getElem hkl
  obtain ⟨x, f, hx', hf', hr⟩ := hlog.rows hc k _ hget
  rw [hk] at hx'; rw [hk'] at hf'
  simp only [Option.some.injEq] at hx' hf'
  subst hx'; subst hf'
  by_cases hk0 : k = 0
  · subst hk0
    rw [if_pos rfl]
    have hs : (L.s :: l).reverse[0] = s0 := by
      have : ∀ {l st}, A.Hist s0 l st → l.reverse[0]? = some s0 := by
        intro l st h
        induction h with
        | init => rfl
        | next _ _ ih => rw [List.reverse_cons, List.getElem?_append_left (by simp)]; exact ih
      have h1 := this hH
      rw [hget] at h1; simpa using h1
    rw [hs] at hr
    rcases hr with ⟨_, rfl, rfl, _⟩ | ⟨_, _, rfl, rfl⟩ | ⟨_, h1, _⟩
    · exact forall2_ofFn_take (by simpa using h0.1) _
    · exact List.Forall₂.cons h0.2 List.Forall₂.nil
    · exact absurd rfl h1
  · rw [if_neg hk0]
    have hq := hQ _ _ hH k _ hget (by omega)
    rcases hr with ⟨_, rfl, rfl, _⟩ | ⟨_, h1, _⟩ | ⟨_, _, i, _, rfl, rfl⟩
    · refine forall2_ofFn_take ?_ _
      intro i; rw [if_neg (by omega)]; exact hq i
    · omega
    · exact List.Forall₂.cons (hq i) List.Forall₂.nil

theorem map_of_forall2 {f : Vec K n → Val K} {rx : List (Vec K n)} {rf : List (Val K)}
    (h : List.Forall₂ (fun x v => v = f x) rx rf) : rf = rx.map f := by
  induction h with
  | nil => rfl
  | cons h _ ih => simp [h, ih]

end Stochopy

namespace Stochopy
open Spec
variable {K σ S : Type} [AddZeroClass K] [One K] [Sub K] [Mul K] [Div K] [Neg K] [NatCast K] [IntCast K] [Pow K ℕ] [ArrayOps K] [LinearOrder K] {p n : Nat}
variable {A : Alg S K p n} {c : Cfg} {s0 : S} {fuel : Nat} {r : Result K n} {L : Loop S K p n}

/-- The log of objective calls only grows. -/
theorem Alg.Laws.ev_subset {maxiter : Int} {ev : S → List (Vec K n)} (hl : A.Laws maxiter ev) {s l st}
    (h : A.Hist s0 (s :: l) st) : ∀ t ∈ s :: l, ev t ⊆ ev s := by
  generalize hq : s :: l = q at h
  induction h generalizing s l with
  | init => cases hq; simp
  | @next s1 s' l1 st hH hn ih =>
    cases hq
    intro t ht
    obtain ⟨u, hu, _, _, he, _⟩ := hl.next_step hn
    obtain ⟨ys, _, hs⟩ := hl.ev_step hu
    rcases List.mem_cons.1 ht with rfl | ht
    · exact fun _ h => h
    · intro x hx
      rw [hs, he]
      exact List.mem_append_left _ (ih rfl t ht hx)

theorem Alg.Hist.mem_init {l st} (h : A.Hist s0 l st) : s0 ∈ l := by
  induction h with
  | init => simp
  | next _ _ ih => exact List.mem_cons_of_mem _ ih

theorem run_maxiter_of_returnAll (h : A.run c fuel s0 = .ok (r, L)) (hc : c.returnAll = true) :
    (r.nit : Int) ≤ c.maxiter := by
  obtain ⟨l, st, msg, hH, hlen, hlog, hm, rfl⟩ := run_hist h
  have := hlog.length_le_maxiter hc (by simp)
  simpa using this

end Stochopy
