import Verif.Lemmas.Rows
import Verif.Spec.Fixed

/-! From an invariant of the state to all points of a run. -/

set_option linter.unusedSectionVars false

namespace Stochopy
open Spec
variable {K σ S : Type} [AddZeroClass K] [One K] [Sub K] [Mul K] [Div K] [Neg K] [NatCast K] [IntCast K] [Pow K ℕ] [ArrayOps K] [LinearOrder K] {p n : Nat}

/-- From a state invariant to the run. -/
theorem run_everyPoint {A : Alg S K p n} {c : Cfg} {s0 : S} {fuel : Nat} {r : Result K n} {L : Loop S K p n}
    {ev : S → List (Vec K n)} {caller : S → Option (Pop K p n)} {rng : S → σ} {Q : Vec K n → Prop}
    (h : A.run c fuel s0 = .ok (r, L)) (I : S → Prop) (h0 : I s0)
    (hstep : ∀ it s s' st, 2 ≤ it → I s → A.step it s = .ok (s', st) → I s')
    (hpost : ∀ it s, 2 ≤ it → I s → I (A.post it s))
    (hI : ∀ s, I s → (∀ x ∈ ev s, Q x) ∧ Q (A.best s) ∧
      (∀ i, Q (A.cbX s i)) ∧ ∀ i, Q (A.recX s i)) :
    EveryPoint Q (mkOut r L ev caller rng) ∧ EveryRecorded Q 1 (mkOut r L ev caller rng) ∧
    ((∀ i, Q (A.rec0X s0 i)) → Q (A.rec0Best s0) →
      EveryRecorded Q 0 (mkOut r L ev caller rng)) := by
  have hall : ∀ {l st}, A.Hist s0 l st → ∀ s ∈ l, I s := fun hH => hH.inv I h0 hstep hpost
  have hrow : ∀ xs, r.xall = some xs → ∃ fs, r.funall = some fs ∧ fs.length = xs.length := by
    intro xs hx
    obtain ⟨l, st, msg, hH, hlen, hlog, hm, rfl⟩ := run_hist h
    obtain ⟨hc, rfl⟩ := attach_eq_some hx
    have := hlog.rows_length.2 hc
    exact ⟨L.rowsF, by simp [attach, hc], by rw [this.1, this.2]⟩
  have key : ∀ Q0 : Vec K n → Prop, (∀ i, Q0 (A.rec0X s0 i)) → Q0 (A.rec0Best s0) → ∀ xs, r.xall = some xs →
      ∀ k rx, xs[k]? = some rx → ∀ x ∈ rx, (if k = 0 then Q0 x else Q x) := by
    intro Q0 hq hq' xs hx k rx hk x hxr
    obtain ⟨fs, hf, hlen⟩ := hrow xs hx
    have hkl : k < fs.length := by
      rw [hlen]; by_contra hge
      rw [List.getElem?_eq_none (by omega)] at hk; simp at hk
    have := run_rows h (fun x _ => Q0 x) (fun x _ => Q x) ⟨hq, hq'⟩
      (fun l st hH k s hks _ i => (hI s (hall hH s (List.mem_reverse.1 (List.mem_of_getElem? hks)))).2.2.2 i)
      xs fs hx hf k rx _ hk (List.getElem?_eq_getElem hkl)
    obtain ⟨i, hi, rfl⟩ := List.mem_iff_getElem.1 hxr
    have hg := (List.forall₂_iff_get.1 this)
    have := hg.2 i hi (by rw [← hg.1]; exact hi)
    split_ifs at this ⊢ <;> simpa using this
  have hmem : ∀ k xs, r.xall = some xs → ∀ rx ∈ xs.drop k, ∃ k', k ≤ k' ∧ xs[k']? = some rx := by
    intro k xs _ rx hrx
    obtain ⟨i, hi⟩ := List.mem_iff_getElem?.1 hrx
    rw [List.getElem?_drop] at hi
    exact ⟨k + i, by omega, hi⟩
  refine ⟨⟨?_, ?_, ?_⟩, ?_, ?_⟩
  · obtain ⟨l, st, msg, hH, hlen, hlog, hm, rfl⟩ := run_hist h
    exact (hI _ (hall hH L.s (by simp))).1
  · obtain ⟨l, st, msg, hH, hlen, hlog, hm, rfl⟩ := run_hist h
    exact (hI _ (hall hH L.s (by simp))).2.1
  · intro b hb
    obtain ⟨l, st, msg, hH, hlen, hlog, hm, rfl⟩ := run_hist h
    obtain ⟨s, hs, k, rfl, _⟩ := hlog.mem_cbs hb
    have := hI _ (hall hH s hs)
    exact ⟨this.2.1, this.2.2.1⟩
  · intro xs hx rx hrx x hxr
    obtain ⟨k', hk', hk⟩ := hmem 1 xs hx rx hrx
    have := key (fun _ => True) (fun _ => trivial) trivial xs hx k' rx hk x hxr
    rwa [if_neg (by omega)] at this
  · intro hq hq' xs hx rx hrx x hxr
    obtain ⟨k', hk', hk⟩ := hmem 0 xs hx rx hrx
    have := key Q hq hq' xs hx k' rx hk x hxr
    split_ifs at this <;> exact this

end Stochopy
