import Verif.Lemmas.Points
import Verif.Lemmas.DE
import Verif.Lemmas.CPSO
import Verif.Lemmas.NA
import Verif.Spec.Box
import Verif.Base.Rounding

/-! Search box invariants. -/

set_option linter.unusedSectionVars false

namespace Stochopy
open Spec
variable {K σ S : Type} [Field K] [LinearOrder K] [IsStrictOrderedRing K] {p n : Nat}

/-- Position of a Latin hypercube sample relative to its slice: `m` is the slice, `u` the jitter. -/
theorem lhs_eq (R : Rng σ K) (lower upper : Vec K n) (g : σ) (k : Fin p) (j : Fin n) :
    ∃ g', (lhs R p lower upper g).1 k j = lower j +
      ((((drawVec (R.perm p) n (drawMat R.rand p n g).2).1 j k : Fin p) : K) + (R.rand g').1 / 2) *
        ((upper j - lower j) / p) := by
  have hp : (p : K) ≠ 0 := by
    have : 0 < p := k.pos
    exact_mod_cast this.ne'
  obtain ⟨g', hg⟩ := drawMat_mem R.rand p n g ((drawVec (R.perm p) n (drawMat R.rand p n g).2).1 j k) j
  refine ⟨g', ?_⟩
  simp only [lhs, lhsScale]
  rw [hg]
  field_simp
  ring

theorem lhs_mem {R : Rng σ K} (hR : R.Ok) {lower upper : Vec K n} (hb : ∀ j, lower j ≤ upper j) (g : σ) (k : Fin p) :
    InBox lower upper ((lhs R p lower upper g).1 k) := by
  intro j
  obtain ⟨g', h⟩ := lhs_eq R lower upper g k j
  rw [h]
  set m := (drawVec (R.perm p) n (drawMat R.rand p n g).2).1 j k
  have hp : (0 : K) < p := by have : 0 < p := k.pos; exact_mod_cast this
  have h0 := hR.rand_nonneg g'
  have h1 := hR.rand_lt_one g'
  have hs : 0 ≤ upper j - lower j := sub_nonneg.2 (hb j)
  have hm : ((m : Nat) : K) + 1 ≤ p := by exact_mod_cast m.isLt
  have hm0 : (0 : K) ≤ ((m : Nat) : K) := Nat.cast_nonneg _
  have hq : 0 ≤ (upper j - lower j) / p := div_nonneg hs hp.le
  constructor
  · have := mul_nonneg (add_nonneg hm0 (by linarith : (0 : K) ≤ (R.rand g').1 / 2)) hq
    linarith
  · have : (((m : Nat) : K) + (R.rand g').1 / 2) * ((upper j - lower j) / p) ≤ p * ((upper j - lower j) / p) :=
      mul_le_mul_of_nonneg_right (by linarith) hq
    rw [mul_div_cancel₀ _ hp.ne'] at this
    linarith

theorem lhs_stratified {R : Rng σ K} (hR : R.Ok) {lower upper : Vec K n} (hb : ∀ j, lower j < upper j) (g : σ) :
    Stratified lower upper (lhs R p lower upper g).1 := by
  intro j m
  have hp : (0 : K) < p := by have : 0 < p := m.pos; exact_mod_cast this
  have hq : 0 < (upper j - lower j) / p := div_pos (sub_pos.2 (hb j)) hp
  set π := (drawVec (R.perm p) n (drawMat R.rand p n g).2).1 j with hπ
  refine ⟨π.symm m, ?_, ?_⟩
  · obtain ⟨g', h⟩ := lhs_eq R lower upper g (π.symm m) j
    rw [h, ← hπ, Equiv.apply_symm_apply]
    have h0 := hR.rand_nonneg g'
    have h1 := hR.rand_lt_one g'
    constructor
    · have := mul_le_mul_of_nonneg_right (by linarith : ((m : Nat) : K) ≤ ((m : Nat) : K) + (R.rand g').1 / 2) hq.le
      linarith
    · have := mul_lt_mul_of_pos_right (by linarith : ((m : Nat) : K) + (R.rand g').1 / 2 < ((m : Nat) : K) + 1) hq
      linarith
  · intro k hk
    obtain ⟨g', h⟩ := lhs_eq R lower upper g k j
    rw [h, ← hπ] at hk
    have h0 := hR.rand_nonneg g'
    have h1 := hR.rand_lt_one g'
    have hk1 : ((m : Nat) : K) ≤ ((π k : Fin p) : Nat) + (R.rand g').1 / 2 := by
      by_contra hlt
      have := mul_lt_mul_of_pos_right (not_le.1 hlt) hq
      linarith [hk.1]
    have hk2 : (((π k : Fin p) : Nat) : K) + (R.rand g').1 / 2 < ((m : Nat) : K) + 1 := by
      by_contra hlt
      have := mul_le_mul_of_nonneg_right (not_lt.1 hlt) hq.le
      linarith [hk.2]
    have e1 : ((m : Nat) : K) < (((π k : Fin p) : Nat) + 1 : Nat) := by push_cast; linarith
    have e2 : (((π k : Fin p) : Nat) : K) < ((m : Nat) + 1 : Nat) := by push_cast; linarith
    have e1' : (m : Nat) < (π k : Nat) + 1 := by exact_mod_cast e1
    have e2' : (π k : Nat) < (m : Nat) + 1 := by exact_mod_cast e2
    have : π k = m := by ext; omega
    rw [← this, Equiv.symm_apply_apply]

section
variable {K : Type} [AddZeroClass K] [One K] [Sub K] [Mul K] [Div K] [Neg K] [NatCast K] [IntCast K] [Pow K ℕ] [ArrayOps K] [LinearOrder K]

/-- From a state invariant to the run. -/
theorem run_staysInBox {A : Alg S K p n} {c : Cfg} {s0 : S} {fuel : Nat} {r : Result K n} {L : Loop S K p n}
    {ev : S → List (Vec K n)} {caller : S → Option (Pop K p n)} {rng : S → σ} {lower upper : Vec K n}
    (h : A.run c fuel s0 = .ok (r, L)) (I : S → Prop) (h0 : I s0)
    (hstep : ∀ it s s' st, 2 ≤ it → I s → A.step it s = .ok (s', st) → I s')
    (hpost : ∀ it s, 2 ≤ it → I s → I (A.post it s))
    (hI : ∀ s, I s → (∀ x ∈ ev s, InBox lower upper x) ∧ InBox lower upper (A.best s) ∧
      (∀ i, InBox lower upper (A.cbX s i)) ∧ ∀ i, InBox lower upper (A.recX s i)) :
    StaysInBox lower upper (mkOut r L ev caller rng) ∧ RecordedInBox lower upper 1 (mkOut r L ev caller rng) ∧
    ((∀ i, InBox lower upper (A.rec0X s0 i)) → InBox lower upper (A.rec0Best s0) →
      RecordedInBox lower upper 0 (mkOut r L ev caller rng)) :=
  let ⟨h1, h2, h3⟩ := run_everyPoint (Q := InBox lower upper) (ev := ev) (caller := caller) (rng := rng) h I h0 hstep hpost hI
  ⟨⟨h1.evals, h1.result, h1.callbacks⟩, h2, h3⟩

end

end Stochopy

namespace Stochopy.DE
open Spec
variable {K σ : Type} [AddZeroClass K] [One K] [Sub K] [Mul K] [Div K] [Neg K] [NatCast K] [IntCast K] [Pow K ℕ] [ArrayOps K] [LinearOrder K] [RoundedOps K] {p n : Nat}
variable {P : Par σ K p n}

theorem randomRow_mem {lower upper U u : Vec K n} (hb : ∀ j, lower j ≤ upper j) (h0 : ∀ j, 0 ≤ u j) (h1 : ∀ j, u j < 1) :
    InBox lower upper (randomRow lower upper U u) := by
  intro j
  unfold randomRow
  split_ifs with h
  · exact unif_mem (hb j) (h0 j) (h1 j)
  · push Not at h; exact h

/-- All points of the state are in the box. -/
def IB (l u : Vec K n) (s : State σ K p n) : Prop :=
  (∀ x ∈ s.evals, InBox l u x) ∧ InBox l u s.gbest ∧ ∀ i, InBox l u (s.X i)

theorem candSync_mem (hR : P.R.Ok) (hc : P.cons = .random) (hb : ∀ j, P.lower j ≤ P.upper j) {X : Pop K p n}
    {gb : Vec K n} {g : σ} {U : Pop K p n × σ} (h : candSync P X gb g = .ok U) (i : Fin p) :
    InBox P.lower P.upper (U.1 i) := by
  unfold candSync at h
  rw [bind_ok_iff] at h
  obtain ⟨V, _, h⟩ := h
  rw [bind_ok_iff] at h
  obtain ⟨_, _, h⟩ := h
  simp only [Except.ok.injEq, consPop, hc] at h
  subst h
  refine randomRow_mem hb ?_ ?_
  · intro j
    obtain ⟨g', hg⟩ := drawMat_mem P.R.rand p n (drawVec (P.R.randint n) p
      (drawVec (P.R.perm (p - 1)) p (drawMat P.R.rand p n g).2).2).2 i j
    rw [hg]; exact hR.rand_nonneg _
  · intro j
    obtain ⟨g', hg⟩ := drawMat_mem P.R.rand p n (drawVec (P.R.randint n) p
      (drawVec (P.R.perm (p - 1)) p (drawMat P.R.rand p n g).2).2).2 i j
    rw [hg]; exact hR.rand_lt_one _

theorem candAsync_mem (hR : P.R.Ok) (hc : P.cons = .random) (hb : ∀ j, P.lower j ≤ P.upper j) {X : Pop K p n}
    {r1 gb : Vec K n} {i : Fin p} {g : σ} {U : Vec K n × σ} (h : candAsync P r1 i X gb g = .ok U) :
    InBox P.lower P.upper U.1 := by
  unfold candAsync at h
  rw [bind_ok_iff] at h
  obtain ⟨V, _, h⟩ := h
  rw [bind_ok_iff] at h
  obtain ⟨_, _, h⟩ := h
  simp only [Except.ok.injEq, consOne, hc] at h
  subst h
  refine randomRow_mem hb ?_ ?_
  · intro j
    obtain ⟨g', hg⟩ := drawVec_mem P.R.rand n (P.R.randint n (P.R.perm (p - 1) g).2).2 j
    rw [hg]; exact hR.rand_nonneg _
  · intro j
    obtain ⟨g', hg⟩ := drawVec_mem P.R.rand n (P.R.randint n (P.R.perm (p - 1) g).2).2 j
    rw [hg]; exact hR.rand_lt_one _

theorem IB_step {sync : Bool} {f : Vec K n → Val K} (hf : P.obj.Faithful f) (hR : P.R.Ok) (hc : P.cons = .random)
    (hb : ∀ j, P.lower j ≤ P.upper j)
    {l u : Vec K n} (hl : ∀ j, l j ≤ P.lower j) (hu : ∀ j, P.upper j ≤ u j) {it : Nat} {s s' : State σ K p n} {st : Option Int} (hI : IB l u s)
    (h : (alg P sync).step it s = .ok (s', st)) : IB l u s' := by
  have hin : ∀ x, InBox P.lower P.upper x → InBox l u x := fun x hx j =>
    ⟨(hl j).trans (hx j).1, (hx j).2.trans (hu j)⟩
  rw [alg_step] at h
  cases sync with
  | true =>
    obtain ⟨U, r, hU, hr, hst, rfl⟩ := stepSync_ok h
    obtain ⟨_, h2, ⟨i, _, h3, _⟩, _⟩ := selectionSync_ok hr hf.pop
    have hx : ∀ i, InBox l u (r.x i) := by
      intro i
      rcases h2 i with ⟨_, a, _⟩ | ⟨_, a, _⟩
      · rw [a]; exact hin _ (candSync_mem hR hc hb hU i)
      · rw [a]; exact hI.2.2 i
    refine ⟨?_, ?_, hx⟩
    · intro x hx
      rcases List.mem_append.1 hx with hx | hx
      · exact hI.1 x hx
      · obtain ⟨i, rfl⟩ := List.mem_ofFn.1 hx
        exact hin _ (candSync_mem hR hc hb hU i)
    · show InBox _ _ r.xbest
      rw [h3]; exact hx i
  | false =>
    obtain ⟨st0, hfold, _⟩ := stepAsync_ok h
    refine foldlM_inv (fun acc : State σ K p n × Option Int => IB l u acc.1) ?_ _ ?_ hfold
    · intro b i b' hb1 hb'
      obtain ⟨U, r, hU, rfl, rfl⟩ := rowAsync_ok hb'
      have hu := hin _ (candAsync_mem hR hc hb hU)
      have he : ∀ x ∈ b.1.evals ++ [U.1], InBox l u x := by
        intro x hx
        rcases List.mem_append.1 hx with hx | hx
        · exact hb1.1 x hx
        · rw [List.mem_singleton.1 hx]; exact hu
      refine ⟨he, ?_, ?_⟩
      · dsimp only [selectionAsync]
        repeat' split
        all_goals first | exact hu | exact hb1.2.1
      · intro j
        have hupd : InBox l u (Function.update b.1.X i U.1 j) := by
          by_cases hj : j = i
          · subst hj; rw [Function.update_self]; exact hu
          · rw [Function.update_of_ne hj]; exact hb1.2.2 j
        dsimp only [selectionAsync]
        repeat' split
        all_goals first | exact hupd | exact hb1.2.2 j
    · exact hI

end Stochopy.DE

namespace Stochopy.CPSO
open Spec
variable {K σ : Type} [Field K] [LinearOrder K] [IsStrictOrderedRing K] {p n : Nat}

/-- What `Shrink` computes. -/
structure ShrinkSpec (lower upper X V : Vec K n) (b : K) : Prop where
  nonneg : 0 ≤ b
  le_one : b ≤ 1
  feasible : InBox lower upper fun j => X j + b * V j
  maximal : ∀ b', b < b' → b' ≤ 1 → ¬ InBox lower upper fun j => X j + b' * V j

theorem shrink_mem_low {lower upper X V : Vec K n} (hX : InBox lower upper X) {j : Fin n} (h : X j + V j < lower j) :
    V j < 0 ∧ 0 ≤ (lower j - X j) / V j ∧ (lower j - X j) / V j < 1 := by
  have hv : V j < 0 := by linarith [(hX j).1]
  refine ⟨hv, div_nonneg_of_nonpos (by linarith [(hX j).1]) hv.le, ?_⟩
  rw [div_lt_one_of_neg hv]; linarith

theorem shrink_mem_up {lower upper X V : Vec K n} (hX : InBox lower upper X) {j : Fin n} (h : upper j < X j + V j) :
    0 < V j ∧ 0 ≤ (upper j - X j) / V j ∧ (upper j - X j) / V j < 1 := by
  have hv : 0 < V j := by linarith [(hX j).2]
  refine ⟨hv, div_nonneg (by linarith [(hX j).2]) hv.le, ?_⟩
  rw [div_lt_one hv]; linarith

theorem shrinkBeta_spec {lower upper X V : Vec K n} (hX : InBox lower upper X) :
    ShrinkSpec lower upper X V (shrinkBeta lower upper X V) := by
  set bl := (List.finRange n).filterMap fun j =>
    if X j + V j < lower j then some ((lower j - X j) / V j) else none with hbl
  set bu := (List.finRange n).filterMap fun j =>
    if upper j < X j + V j then some ((upper j - X j) / V j) else none with hbu
  have hl : ∀ b, b ∈ bl ↔ ∃ j, X j + V j < lower j ∧ (lower j - X j) / V j = b := by
    intro b
    rw [hbl, List.mem_filterMap]
    constructor
    · rintro ⟨j, _, h⟩
      split_ifs at h with hc
      exact ⟨j, hc, by simpa using h⟩
    · rintro ⟨j, hc, h⟩
      exact ⟨j, List.mem_finRange j, by rw [if_pos hc, h]⟩
  have hu : ∀ b, b ∈ bu ↔ ∃ j, upper j < X j + V j ∧ (upper j - X j) / V j = b := by
    intro b
    rw [hbu, List.mem_filterMap]
    constructor
    · rintro ⟨j, _, h⟩
      split_ifs at h with hc
      exact ⟨j, hc, by simpa using h⟩
    · rintro ⟨j, hc, h⟩
      exact ⟨j, List.mem_finRange j, by rw [if_pos hc, h]⟩
  -- it suffices that beta is at most every ratio and is one of them, or there are none and beta is 1
  have key : ∀ b : K, (∀ c ∈ bl, b ≤ c) → (∀ c ∈ bu, b ≤ c) → (b ∈ bl ∨ b ∈ bu ∨ (bl = [] ∧ bu = [] ∧ b = 1)) →
      ShrinkSpec lower upper X V b := by
    intro b h1 h2 h3
    have h01 : 0 ≤ b ∧ b ≤ 1 := by
      rcases h3 with h | h | ⟨_, _, rfl⟩
      · obtain ⟨j, hj, rfl⟩ := (hl b).1 h
        have := shrink_mem_low hX hj
        exact ⟨this.2.1, this.2.2.le⟩
      · obtain ⟨j, hj, rfl⟩ := (hu b).1 h
        have := shrink_mem_up hX hj
        exact ⟨this.2.1, this.2.2.le⟩
      · exact ⟨zero_le_one, le_rfl⟩
    refine ⟨h01.1, h01.2, ?_, ?_⟩
    · intro j
      have hXj := hX j
      constructor
      · by_cases hc : X j + V j < lower j
        · have hm := shrink_mem_low hX hc
          have := h1 _ ((hl _).2 ⟨j, hc, rfl⟩)
          rw [le_div_iff_of_neg hm.1] at this
          linarith
        · push Not at hc
          by_cases hv : 0 ≤ V j
          · have := mul_nonneg h01.1 hv; linarith
          · push Not at hv
            have : V j ≤ b * V j := by
              have := mul_le_mul_of_nonpos_right h01.2 hv.le; linarith
            linarith
      · by_cases hc : upper j < X j + V j
        · have hm := shrink_mem_up hX hc
          have := h2 _ ((hu _).2 ⟨j, hc, rfl⟩)
          rw [le_div_iff₀ hm.1] at this
          linarith
        · push Not at hc
          by_cases hv : 0 ≤ V j
          · have : b * V j ≤ V j := by
              have := mul_le_mul_of_nonneg_right h01.2 hv; linarith
            linarith
          · push Not at hv
            have := mul_nonpos_of_nonneg_of_nonpos h01.1 hv.le
            linarith
    · intro b' hb' hb1 hin
      rcases h3 with h | h | ⟨_, _, rfl⟩
      · obtain ⟨j, hj, rfl⟩ := (hl b).1 h
        have hm := shrink_mem_low hX hj
        rw [div_lt_iff_of_neg hm.1] at hb'
        linarith [(hin j).1]
      · obtain ⟨j, hj, rfl⟩ := (hu b).1 h
        have hm := shrink_mem_up hX hj
        rw [div_lt_iff₀ hm.1] at hb'
        linarith [(hin j).2]
      · linarith
  unfold shrinkBeta
  simp only [← hbl, ← hbu]
  cases hml : bl.min? with
  | none =>
    have hbl0 : bl = [] := List.min?_eq_none_iff.1 hml
    cases hmu : bu.min? with
    | none =>
      have hbu0 : bu = [] := List.min?_eq_none_iff.1 hmu
      exact key 1 (by rw [hbl0]; simp) (by rw [hbu0]; simp) (Or.inr (Or.inr ⟨hbl0, hbu0, rfl⟩))
    | some u =>
      have h := List.min?_eq_some_iff.1 hmu
      exact key u (by rw [hbl0]; simp) h.2 (Or.inr (Or.inl h.1))
  | some l =>
    have h := List.min?_eq_some_iff.1 hml
    cases hmu : bu.min? with
    | none =>
      have hbu0 : bu = [] := List.min?_eq_none_iff.1 hmu
      exact key l h.2 (by rw [hbu0]; simp) (Or.inl h.1)
    | some u =>
      have h' := List.min?_eq_some_iff.1 hmu
      refine key (min l u) (fun c hc => le_trans (min_le_left _ _) (h.2 c hc))
        (fun c hc => le_trans (min_le_right _ _) (h'.2 c hc)) ?_
      rcases min_choice l u with e | e
      · rw [e]; exact Or.inl h.1
      · rw [e]; exact Or.inr (Or.inl h'.1)

variable [FloorRing K] [NumFns K] {P : Par σ K n}

/-- All points of the state satisfy the bounds. -/
def IB (P : Par σ K n) (s : State σ K p n) : Prop :=
  (∀ x ∈ s.evals, InBox P.lower P.upper x) ∧ InBox P.lower P.upper s.gbest ∧
    (∀ i, InBox P.lower P.upper (s.X i)) ∧ ∀ i, InBox P.lower P.upper (s.pbest i)

theorem mutation_mem (hc : P.cons = .shrink) {X V pbest gbest r1 r2 : Vec K n} (hX : InBox P.lower P.upper X) :
    InBox P.lower P.upper (mutation P X V pbest gbest r1 r2).1 := by
  unfold mutation
  simp only [consRow, hc]
  have := (shrinkBeta_spec (V := fun j =>
    P.w * V j + P.c1 * r1 j * (pbest j - X j) + P.c2 * r2 j * (gbest j - X j)) hX).feasible
  intro j
  have := this j
  dsimp only at this ⊢
  rw [mul_comm] at this
  exact this

theorem IB_step {sync : Bool} {f : Vec K n → Val K} (hf : P.obj.Faithful f) (hc : P.cons = .shrink)
    {it : Nat} {s s' : State σ K p n} {st : Option Int} (hI : IB P s)
    (h : (alg P sync).step it s = .ok (s', st)) : IB P s' := by
  rw [alg_step] at h
  cases sync with
  | true =>
    obtain ⟨r, hr, hst, rfl⟩ := stepSync_ok h
    obtain ⟨_, h2, ⟨i, _, h3, _⟩, _⟩ := selectionSync_ok hr hf.pop
    have hm : ∀ i, InBox P.lower P.upper (moveSync P s i).1 := fun i => mutation_mem hc (hI.2.2.1 i)
    have hx : ∀ i, InBox P.lower P.upper (r.x i) := by
      intro i
      rcases h2 i with ⟨_, a, _⟩ | ⟨_, a, _⟩
      · rw [a]; exact hm i
      · rw [a]; exact hI.2.2.2 i
    refine ⟨?_, ?_, hm, hx⟩
    · intro x hx
      rcases List.mem_append.1 hx with hx | hx
      · exact hI.1 x hx
      · obtain ⟨i, rfl⟩ := List.mem_ofFn.1 hx
        exact hm i
    · show InBox _ _ r.xbest
      rw [h3]; exact hx i
  | false =>
    obtain ⟨r, hr, rfl, _⟩ := stepAsync_ok h
    rw [hr]
    refine foldl_inv (fun acc : State σ K p n × Option Int => IB P acc.1) ?_ _ hI
    intro b i hb1
    have hu : ∀ r1 r2, InBox P.lower P.upper
      (mutation P (b.1.X i) (b.1.V i) (b.1.pbest i) b.1.gbest r1 r2).1 := fun _ _ => mutation_mem hc (hb1.2.2.1 i)
    have hupd : ∀ (Y : Pop K p n) (y : Vec K n), (∀ i, InBox P.lower P.upper (Y i)) → InBox P.lower P.upper y →
        ∀ j, InBox P.lower P.upper (Function.update Y i y j) := by
      intro Y y hY hy j
      by_cases hj : j = i
      · subst hj; rw [Function.update_self]; exact hy
      · rw [Function.update_of_ne hj]; exact hY j
    refine ⟨?_, ?_, ?_, ?_⟩
    · intro x hx
      rcases List.mem_append.1 hx with hx | hx
      · exact hb1.1 x hx
      · rw [List.mem_singleton.1 hx]; exact hu _ _
    · dsimp only [rowAsync, selectionAsync]
      repeat' split
      all_goals first | exact hu _ _ | exact hb1.2.1
    · exact hupd _ _ hb1.2.2.1 (hu _ _)
    · intro j
      dsimp only [rowAsync, selectionAsync]
      repeat' split
      all_goals first | exact hupd _ _ hb1.2.2.2 (hu _ _) j | exact hb1.2.2.2 j

theorem resetWorst_X_mem (hR : P.R.Ok) (hb : ∀ j, P.lower j ≤ P.upper j) (nw : Nat) {s : State σ K p n} (hI : IB P s) :
    IB P (resetWorst P nw s) := by
  have hX : ∀ q, InBox P.lower P.upper ((resetWorst P nw s).X q) := by
    intro q
    simp only [resetWorst]
    cases restartPos P.argsort s.pbestfit nw q with
    | none => exact hI.2.2.1 q
    | some t =>
      intro j
      obtain ⟨g', hg⟩ := drawMat_mem P.R.rand nw n s.rng t j
      dsimp only
      rw [hg]
      exact unif_mem (hb j) (hR.rand_nonneg _) (hR.rand_lt_one _)
  refine ⟨hI.1, hI.2.1, hX, ?_⟩
  intro q
  have := hX q
  simp only [resetWorst] at this ⊢
  cases hq : restartPos P.argsort s.pbestfit nw q with
  | none => exact hI.2.2.2 q
  | some t => rw [hq] at this; exact this

theorem IB_post (hR : P.R.Ok) (hb : ∀ j, P.lower j ≤ P.upper j) (it : Nat) {s : State σ K p n} (hI : IB P s) :
    IB P (post P it s) := by
  rcases post_cases (P := P) it s with h | ⟨gm, hg, hg0, h⟩
  · rw [h]; exact hI
  · rw [h]; unfold restart
    split_ifs
    · exact resetWorst_X_mem hR hb _ hI
    · exact hI
    · exact hI

end Stochopy.CPSO

namespace Stochopy.Spec
variable {K : Type} [Field K] [LinearOrder K] [IsStrictOrderedRing K] {n : Nat}

/-- In exact arithmetic `(upper - lower) + lower` is `upper`. -/
theorem naTop_exact (lower upper : Vec K n) : naTop lower upper = upper := by
  funext j
  unfold naTop
  split_ifs
  · ring
  · rfl

end Stochopy.Spec

namespace Stochopy.NA
open Spec
variable {K σ : Type} [AddZeroClass K] [One K] [Sub K] [Mul K] [Div K] [Neg K] [NatCast K] [IntCast K] [Pow K ℕ] [ArrayOps K] [LinearOrder K] [RoundedOps K] {p n : Nat}

theorem lowLim_bounds {lims : List (Val K)} {x : K} (hx : 0 ≤ x) : 0 ≤ lowLim lims x ∧ lowLim lims x ≤ x := by
  unfold lowLim
  refine foldl_inv (fun acc : K => 0 ≤ acc ∧ acc ≤ x) ?_ lims ⟨le_rfl, hx⟩
  rintro acc l ⟨h1, h2⟩
  cases l with
  | fin l =>
    dsimp only
    split_ifs with h
    · exact ⟨le_trans h1 (le_max_right _ _), max_le h h2⟩
    · exact ⟨h1, h2⟩
  | _ => exact ⟨h1, h2⟩

theorem highLim_bounds {lims : List (Val K)} {x : K} (hx : x ≤ 1) : x ≤ highLim lims x ∧ highLim lims x ≤ 1 := by
  unfold highLim
  refine foldl_inv (fun acc : K => x ≤ acc ∧ acc ≤ 1) ?_ lims ⟨hx, le_rfl⟩
  rintro acc l ⟨h1, h2⟩
  cases l with
  | fin l =>
    dsimp only
    split_ifs with h
    · exact ⟨le_min h h1, le_trans (min_le_right _ _) h2⟩
    · exact ⟨h1, h2⟩
  | _ => exact ⟨h1, h2⟩

/-- Free coordinates are in the unit interval. -/
def Unit (mask : Fin n → Bool) (x : Vec K n) : Prop := ∀ j, mask j = true → 0 ≤ x j ∧ x j ≤ 1

theorem walkStep_unit {R : Rng σ K} (hR : R.Ok) {mask : Fin n → Bool} {vk : Vec K n} {st : Walk σ K n} {j : Fin n}
    (h : Unit mask st.x) : Unit mask (walkStep R mask vk st j).x := by
  have key : ∀ v, (mask j = true → 0 ≤ v ∧ v ≤ 1) → Unit mask (Function.update st.x j v) := by
    intro v hv i hi
    by_cases hij : i = j
    · subst hij; rw [Function.update_self]; exact hv hi
    · rw [Function.update_of_ne hij]; exact h i hi
  unfold walkStep
  by_cases hm : mask j = true
  · rw [if_pos hm]
    have hu : ∀ lims : List (Val K), 0 ≤ unif (lowLim lims (st.x j)) (highLim lims (st.x j)) (R.rand st.rng).1 ∧
        unif (lowLim lims (st.x j)) (highLim lims (st.x j)) (R.rand st.rng).1 ≤ 1 := by
      intro lims
      obtain ⟨h0, h1⟩ := h j hm
      have hl := lowLim_bounds (lims := lims) h0
      have hh := highLim_bounds (lims := lims) h1
      have := unif_mem (le_trans hl.2 hh.1) (hR.rand_nonneg st.rng) (hR.rand_lt_one st.rng)
      exact ⟨le_trans hl.1 this.1, le_trans this.2 hh.2⟩
    dsimp only
    split_ifs
    · exact key _ (fun _ => hu _)
    · exact key _ (fun _ => hu _)
  · rw [if_neg hm]
    exact key _ (fun h => absurd h hm)

theorem walk_unit {R : Rng σ K} (hR : R.Ok) {mask : Fin n → Bool} {Xall : List (Vec K n)} {k : Fin Xall.length} {g : σ}
    (h : ∀ x ∈ Xall, Unit mask x) : Unit mask (walk R mask Xall k g).x := by
  unfold walk
  exact foldl_inv (fun st : Walk σ K n => Unit mask st.x) (fun _ _ hI => walkStep_unit hR hI) _
    (h _ (List.get_mem _ _))

theorem mutation_unit {R : Rng σ K} (hR : R.Ok) {srt : Argsort K} {mask : Fin n → Bool} {All : List (Vec K n × Val K)}
    {nr : Nat} {g : σ} {U : Pop K p n × σ} (h : ∀ x ∈ All, Unit mask x.1)
    (hm : mutation R srt mask All p nr g = .ok U) (i : Fin p) : Unit mask (U.1 i) := by
  obtain ⟨g0, g1, hi⟩ := seqFinS_ok hm i
  unfold mutRow at hi
  dsimp only at hi
  split_ifs at hi
  simp only [Except.ok.injEq, Prod.mk.injEq] at hi
  rw [← hi.1]
  refine walk_unit hR ?_
  intro x hx
  obtain ⟨a, ha, rfl⟩ := List.mem_map.1 hx
  exact h a ha

variable {P : Par σ K n}

/-- All models are in the unit cube. -/
def IB (P : Par σ K n) (s : State σ K p n) : Prop :=
  (∀ x ∈ s.evals, ∃ y, x = unnormalize P.lower P.upper y ∧ Unit (spanMask P.lower P.upper) y) ∧
    Unit (spanMask P.lower P.upper) s.gbest ∧ (∀ i, Unit (spanMask P.lower P.upper) (s.X i)) ∧
    (∀ i, Unit (spanMask P.lower P.upper) (s.pbest i)) ∧ ∀ x ∈ s.All, Unit (spanMask P.lower P.upper) x.1

/-- With rounding, the largest value of a coordinate is the rounded `(upper - lower) + lower`. -/
theorem unnormalize_outer {lower upper x : Vec K n} (hb : ∀ j, lower j ≤ upper j) (h : Unit (spanMask lower upper) x) :
    InBox lower (naTop lower upper) (unnormalize lower upper x) := by
  intro j
  unfold unnormalize naTop
  by_cases hm : spanMask lower upper j = true
  · have hs : 0 < upper j - lower j := by simpa [spanMask] using hm
    rw [if_pos hm, if_pos hs]
    obtain ⟨h0, h1⟩ := h j hm
    constructor
    · have := RoundedOps.add_le_add (RoundedOps.mul_nonneg h0 hs.le) (le_refl (lower j))
      rwa [zero_add] at this
    · exact RoundedOps.add_le_add (RoundedOps.mul_le_right h1 hs.le) le_rfl
  · have hs : ¬ 0 < upper j - lower j := by simpa [spanMask] using hm
    rw [if_neg hm, if_neg hs]; exact ⟨hb j, le_rfl⟩

theorem unnormalize_mem {K : Type} [Field K] [LinearOrder K] [IsStrictOrderedRing K] {lower upper x : Vec K n}
    (hb : ∀ j, lower j ≤ upper j) (h : Unit (spanMask lower upper) x) :
    InBox lower upper (unnormalize lower upper x) := by
  have h1 := unnormalize_outer hb h
  rwa [naTop_exact] at h1

theorem normalize_unit {lower upper x : Vec K n} (h : InBox lower upper x) :
    Unit (spanMask lower upper) (normalize lower upper x) := by
  intro j hm
  unfold normalize
  rw [if_pos hm]
  have hs : 0 < upper j - lower j := by simpa [spanMask] using hm
  obtain ⟨h0, h1⟩ := h j
  constructor
  · refine RoundedOps.div_nonneg ?_ hs
    have := RoundedOps.sub_le_sub h0 (le_refl (lower j))
    rwa [RoundedOps.sub_self] at this
  · exact RoundedOps.div_le_one (RoundedOps.sub_le_sub h1 le_rfl) hs

theorem IB_step {f : Vec K n → Val K} (hf : P.obj.Faithful f) (hR : P.R.Ok)
    {it : Nat} {s s' : State σ K p n} {st : Option Int} (hI : IB P s)
    (h : step P it s = .ok (s', st)) : IB P s' := by
  obtain ⟨U, r, hU, hr, hst, rfl⟩ := step_ok h
  obtain ⟨_, h2, ⟨i, _, h3, _⟩, _⟩ := selectionSync_ok hr (objN_faithful hf).pop
  have hm : ∀ i, Unit (spanMask P.lower P.upper) (U.1 i) := mutation_unit hR hI.2.2.2.2 hU
  have hx : ∀ i, Unit (spanMask P.lower P.upper) (r.x i) := by
    intro i
    rcases h2 i with ⟨_, a, _⟩ | ⟨_, a, _⟩
    · rw [a]; exact hm i
    · rw [a]; exact hI.2.2.2.1 i
  refine ⟨?_, ?_, hm, hx, ?_⟩
  · intro x hx
    rcases List.mem_append.1 hx with hx | hx
    · exact hI.1 x hx
    · obtain ⟨i, rfl⟩ := List.mem_ofFn.1 hx
      exact ⟨_, rfl, hm i⟩
  · show Unit _ r.xbest
    rw [h3]; exact hx i
  · intro x hx
    rcases List.mem_append.1 hx with hx | hx
    · obtain ⟨i, rfl⟩ := List.mem_ofFn.1 hx
      exact hm i
    · exact hI.2.2.2.2 x hx

end Stochopy.NA
