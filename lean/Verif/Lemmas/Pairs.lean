import Verif.Lemmas.Rows
import Verif.Lemmas.DE
import Verif.Lemmas.CPSO
import Verif.Lemmas.NA

/-! Consecutive generations of a run. -/

set_option linter.unusedSectionVars false

namespace Stochopy
open Spec
variable {K σ S : Type} [AddZeroClass K] [One K] [Sub K] [Mul K] [Div K] [Neg K] [NatCast K] [IntCast K] [Pow K ℕ] [ArrayOps K] [LinearOrder K] {p n : Nat}
variable {A : Alg S K p n} {c : Cfg} {s0 : S}

theorem Alg.Hist.pair {l st} (h : A.Hist s0 l st) : ∀ k s s', l.reverse[k]? = some s → l.reverse[k + 1]? = some s' →
    ∃ st', A.next (k + 1) s = .ok (s', st') := by
  induction h with
  | init => intro k s s' _ h; simp at h
  | @next s s' l st _ hn ih =>
    intro k t t' hk hk'
    rw [List.reverse_cons] at hk hk'
    have hlen : (s :: l).reverse.length = l.length + 1 := by simp
    by_cases hlt : k + 1 < l.length + 1
    · rw [List.getElem?_append_left (by omega)] at hk hk'
      exact ih k t t' hk hk'
    · have hk3 : k + 1 = l.length + 1 := by
        by_contra hne
        rw [List.getElem?_eq_none (by simp; omega)] at hk'
        simp at hk'
      have hk4 : k = l.length := by omega
      subst hk4
      rw [List.getElem?_append_right (by simp)] at hk'
      simp at hk'; subst hk'
      rw [List.getElem?_append_left (by simp)] at hk
      rw [List.reverse_cons, List.getElem?_append_right (by simp)] at hk
      simp at hk; subst hk
      exact ⟨st, hn⟩

theorem Alg.Hist.get_zero {l st} (h : A.Hist s0 l st) : l.reverse[0]? = some s0 := by
  induction h with
  | init => rfl
  | @next s s' l st _ hn ih =>
    rw [List.reverse_cons, List.getElem?_append_left (by simp)]; exact ih

theorem Alg.Laws.ev_prefix {maxiter : Int} {ev : S → List (Vec K n)} (hl : A.Laws maxiter ev) {s l st}
    (h : A.Hist s0 (s :: l) st) : ∀ t ∈ s :: l, ev t <+: ev s := by
  generalize hq : s :: l = q at h
  induction h generalizing s l with
  | init => cases hq; simp
  | @next u u' l' st' hH hn ih =>
    cases hq
    obtain ⟨t, ht, _, _, he, _⟩ := hl.next_step hn
    obtain ⟨ys, _, hys⟩ := hl.ev_step ht
    intro w hw
    rcases List.mem_cons.1 hw with rfl | hw
    · exact List.prefix_refl _
    · refine (ih rfl w hw).trans ?_
      rw [hys, he]; exact List.prefix_append _ _

theorem Alg.Laws.ev_length_get {maxiter : Int} {ev : S → List (Vec K n)} (hl : A.Laws maxiter ev)
    (h0 : (ev s0).length = p) {l st}
    (h : A.Hist s0 l st) : ∀ k s, l.reverse[k]? = some s → (ev s).length = (k + 1) * p := by
  induction h with
  | init =>
    intro k s hk
    cases k with
    | zero => simp at hk; subst hk; simp [h0]
    | succ k => simp at hk
  | @next s s' l st hH hn ih =>
    intro k t hk
    rw [List.reverse_cons] at hk
    by_cases hlt : k < (s :: l).reverse.length
    · rw [List.getElem?_append_left hlt] at hk
      exact ih k t hk
    · have hk3 : k = (s :: l).length := by
        by_contra hne
        rw [List.getElem?_eq_none (by simp at hlt hne ⊢; omega)] at hk
        simp at hk
      subst hk3
      rw [List.getElem?_append_right (by simp)] at hk
      simp at hk; subst hk
      have := hl.ev_length h0 (Alg.Hist.next hH hn)
      simpa using this

/-- Two consecutive callbacks and the step between them.  `I` is any invariant. -/
theorem run_pair {fuel : Nat} {r : Result K n} {L : Loop S K p n} {maxiter : Int} {ev : S → List (Vec K n)}
    (hl : A.Laws maxiter ev) (h0 : (ev s0).length = p) (h : A.run c fuel s0 = .ok (r, L))
    (I : S → Prop) (hI0 : I s0)
    (hstep : ∀ it s s' st, 2 ≤ it → I s → A.step it s = .ok (s', st) → I s')
    (hpost : ∀ it s, 2 ≤ it → I s → I (A.post it s))
    {k : Nat} {b b' : CB K p n} (hb : L.cbs[k]? = some b) (hb' : L.cbs[k + 1]? = some b') :
    ∃ s s' st, I s ∧ A.next (k + 1) s = .ok (s', st) ∧
      b.X = A.cbX s ∧ b.x = A.best s ∧ b.fval = A.bestFun s ∧
      b'.X = A.cbX s' ∧ b'.x = A.best s' ∧ b'.fval = A.bestFun s' ∧
      (ev s).length = (k + 1) * p ∧ ev s' <+: ev L.s := by
  obtain ⟨l, st, msg, hH, hlen, hlog, hm, rfl⟩ := run_hist h
  have hc : c.hasCallback = true := by
    by_contra hc
    have := hlog.cbs_none (by simpa using hc)
    simp [this] at hb
  have hcl := hlog.cbs_length hc
  have get : ∀ m d, L.cbs[m]? = some d → ∃ s, (L.s :: l).reverse[m]? = some s ∧
      d = A.cb c s (m + 1) (L.rowsX.take (m + 1)) (L.rowsF.take (m + 1)) := by
    intro m d hd
    have hm : m < L.cbs.length := by
      by_contra hge
      rw [List.getElem?_eq_none (by omega)] at hd; simp at hd
    have hm' : m < (L.s :: l).reverse.length := by rw [List.length_reverse]; omega
    refine ⟨_, List.getElem?_eq_getElem hm', ?_⟩
    have := hlog.cbs hc m _ (List.getElem?_eq_getElem hm')
    rw [this] at hd
    exact (Option.some.inj hd).symm
  obtain ⟨s, hs, rfl⟩ := get k b hb
  obtain ⟨s', hs', rfl⟩ := get (k + 1) b' hb'
  obtain ⟨st', hn⟩ := hH.pair k s s' hs hs'
  exact ⟨s, s', st', hH.inv I hI0 hstep hpost s (List.mem_reverse.1 (List.mem_of_getElem? hs)), hn, rfl, rfl, rfl, rfl, rfl,
    rfl, hl.ev_length_get h0 hH k s hs, hl.ev_prefix hH s' (List.mem_reverse.1 (List.mem_of_getElem? hs'))⟩

/-- The states of a run, one per generation. -/
theorem run_states {fuel : Nat} {r : Result K n} {L : Loop S K p n} (h : A.run c fuel s0 = .ok (r, L)) :
    ∃ T : List S, T.length = r.nit ∧ T[0]? = some s0 ∧ T.getLast? = some L.s ∧
      (∀ k s s', T[k]? = some s → T[k + 1]? = some s' → ∃ st, A.next (k + 1) s = .ok (s', st)) ∧
      (∀ (k : Nat) (b : CB K p n), L.cbs[k]? = some b → ∃ s, T[k]? = some s ∧ b.X = A.cbX s ∧ b.x = A.best s ∧ b.fval = A.bestFun s) ∧
      r.x = A.best L.s ∧ r.fval = A.bestFun L.s := by
  obtain ⟨l, st, msg, hH, hlen, hlog, hm, rfl⟩ := run_hist h
  refine ⟨(L.s :: l).reverse, by simp, hH.get_zero, by simp, hH.pair, ?_, rfl, rfl⟩
  intro k b hb
  obtain ⟨hk, rfl⟩ := List.getElem?_eq_some_iff.1 hb
  have hc : c.hasCallback = true := by
    by_contra hc
    have := hlog.cbs_none (by simpa using hc)
    simp [this] at hb
  have hk' : k < (L.s :: l).reverse.length := by have := hlog.cbs_length hc; rw [List.length_reverse]; omega
  refine ⟨_, List.getElem?_eq_getElem hk', ?_⟩
  have := hlog.cbs hc k _ (List.getElem?_eq_getElem hk')
  rw [this] at hb
  rw [← Option.some.inj hb]
  exact ⟨rfl, rfl, rfl⟩

/-- A list whose consecutive elements append a block to a log is the concatenation of the blocks. -/
theorem log_flatten {α T : Type} (ev blk : T → List α) : ∀ (l : List T) (s : T), l.getLast? = some s →
    (∀ t, l[0]? = some t → ev t = blk t) →
    (∀ k s s', l[k]? = some s → l[k + 1]? = some s' → ev s' = ev s ++ blk s') →
    ev s = (l.map blk).flatten := by
  intro l
  induction l using List.reverseRecOn with
  | nil => intro s h; simp at h
  | append_singleton l a ih =>
    intro s hs h0 hn
    simp at hs; subst hs
    rcases List.eq_nil_or_concat l with rfl | ⟨l', b, rfl⟩
    · simpa using h0 a (by simp)
    · rw [List.concat_eq_append] at *
      have h1 := ih b (by simp) (fun t ht => h0 t (by
          rw [List.getElem?_append_left (by simp)]; exact ht)) (fun k s s' hk hk' => hn k s s'
            (by rw [List.getElem?_append_left (by obtain ⟨h, _⟩ := List.getElem?_eq_some_iff.1 hk; exact h)]; exact hk)
            (by rw [List.getElem?_append_left (by obtain ⟨h, _⟩ := List.getElem?_eq_some_iff.1 hk'; exact h)]; exact hk'))
      have h2 := hn l'.length b a (by simp) (by simp)
      rw [h2, h1]
      simp

/-- The slice of the log appended by the step. -/
theorem slice_of_prefix {α : Type} {E E' F : List α} {p m : Nat} {ys : Fin p → α} (hlen : E.length = m)
    (hE : E' = E ++ List.ofFn ys) (hp : E' <+: F) : (F.drop m).take p = List.ofFn ys := by
  obtain ⟨t, rfl⟩ := hp
  subst hE
  rw [List.append_assoc, ← hlen, List.drop_left, List.take_append_of_le_length (by simp)]
  exact List.take_of_length_le (by simp)

end Stochopy
