import Verif.Lemmas.Double
import Verif.Lemmas.SeqFin
import Verif.Lemmas.EvoRun
import Verif.Lemmas.Sampler
import Verif.Base.Cancel
import Verif.Spec.Fixed

/-! Variables whose bounds coincide. -/

set_option linter.unusedSectionVars false

namespace Stochopy

/-- Floating point numbers. -/
instance : CancelOps F64 where
  sub_self := RoundedOps.sub_self
  mul_zero a := by
    show F64.of (a.1 * 0) = 0
    rw [MulZeroClass.mul_zero]; exact Subtype.ext rd_zero
  zero_mul a := by
    show F64.of (0 * a.1) = 0
    rw [MulZeroClass.zero_mul]; exact Subtype.ext rd_zero
  double_sub a := by
    have h2 : rd (a.1 + a.1) = a.1 + a.1 := by
      have := rd_half (a.1 + a.1)
      rw [show (a.1 + a.1) / 2 = a.1 by ring, a.rep] at this
      linarith
    refine Subtype.ext ?_
    show rd (rd (a.1 + a.1) - a.1) = a.1
    rw [h2, show a.1 + a.1 - a.1 = a.1 by ring, a.rep]
  half_double a := by
    have h2 : rd (a.1 + a.1) = a.1 + a.1 := by
      have := rd_half (a.1 + a.1)
      rw [show (a.1 + a.1) / 2 = a.1 by ring, a.rep] at this
      linarith
    refine Subtype.ext ?_
    rw [half_mul_val]
    show rd (a.1 + a.1) / 2 = a.1
    rw [h2]; ring

open Spec
variable {K σ : Type} [AddZeroClass K] [One K] [Sub K] [Mul K] [Div K] [Neg K] [NatCast K] [IntCast K] [Pow K ℕ] [ArrayOps K] [LinearOrder K] [CancelOps K] {p n : Nat}

theorem unif_fixed (l u : K) : unif l l u = l := by
  unfold unif
  rw [CancelOps.sub_self, CancelOps.zero_mul, add_zero]

theorem lhsScale_fixed (l x : K) : lhsScale l l x = l := by
  unfold lhsScale
  rw [CancelOps.sub_self, CancelOps.mul_zero, CancelOps.mul_zero, zero_add, CancelOps.half_double]

theorem lhs_fixed (R : Rng σ K) (lower upper : Vec K n) (g : σ) (k : Fin p) :
    KeepsFixed lower upper ((lhs R p lower upper g).1 k) := by
  intro j hj
  simp only [lhs]
  rw [← hj, lhsScale_fixed]

namespace DE
variable {P : Par σ K p n}

theorem randomRow_fixed {lower upper U u : Vec K n} (hU : KeepsFixed lower upper U) :
    KeepsFixed lower upper (randomRow lower upper U u) := by
  intro j hj
  unfold randomRow
  split_ifs
  · rw [← hj, unif_fixed]
  · exact hU j hj

theorem crossover_fixed {lower upper V X r1 : Vec K n} {irand : Nat} {CR : K} (hV : KeepsFixed lower upper V)
    (hX : KeepsFixed lower upper X) : KeepsFixed lower upper (crossover irand r1 CR V X) := by
  intro j hj
  unfold crossover
  split_ifs
  · exact hV j hj
  · exact hX j hj

theorem strategy_fixed {name : String} {s : Strategy K p n} (hs : strategyMap name = .ok s) {lower upper : Vec K n}
    {d : Fin (p - 1) → Fin p} {F : K} {X : Pop K p n} {gb V : Vec K n} (hX : ∀ i, KeepsFixed lower upper (X i))
    (hg : KeepsFixed lower upper gb) (h : s d F X gb = .ok V) : KeepsFixed lower upper V := by
  unfold strategyMap at hs
  split_ifs at hs <;> simp only [Except.ok.injEq] at hs <;> subst hs <;>
    simp only [rand1bin, rand2bin, best1bin, best2bin, bind_ok_iff] at h
  · obtain ⟨i0, -, i1, -, i2, -, h⟩ := h
    cases h
    intro j hj
    dsimp only
    rw [hX i0 j hj, hX i1 j hj, hX i2 j hj, CancelOps.sub_self, CancelOps.mul_zero, add_zero]
  · obtain ⟨i0, -, i1, -, i2, -, i3, -, i4, -, h⟩ := h
    cases h
    intro j hj
    dsimp only
    rw [hX i0 j hj, hX i1 j hj, hX i2 j hj, hX i3 j hj, hX i4 j hj, CancelOps.double_sub, CancelOps.sub_self,
      CancelOps.mul_zero, add_zero]
  · obtain ⟨i0, -, i1, -, h⟩ := h
    cases h
    intro j hj
    dsimp only
    rw [hg j hj, hX i0 j hj, hX i1 j hj, CancelOps.sub_self, CancelOps.mul_zero, add_zero]
  · obtain ⟨i0, -, i1, -, i2, -, i3, -, h⟩ := h
    cases h
    intro j hj
    dsimp only
    rw [hg j hj, hX i0 j hj, hX i1 j hj, hX i2 j hj, hX i3 j hj, CancelOps.double_sub, CancelOps.sub_self,
      CancelOps.mul_zero, add_zero]

theorem candSync_fixed {name : String} (hs : strategyMap name = .ok P.strat) {X : Pop K p n} {gb : Vec K n} {g : σ}
    {U : Pop K p n × σ} (hX : ∀ i, KeepsFixed P.lower P.upper (X i)) (hg : KeepsFixed P.lower P.upper gb)
    (h : candSync P X gb g = .ok U) (i : Fin p) : KeepsFixed P.lower P.upper (U.1 i) := by
  unfold candSync at h
  rw [bind_ok_iff] at h
  obtain ⟨V, hV, h⟩ := h
  rw [bind_ok_iff] at h
  obtain ⟨_, _, h⟩ := h
  have hc := fun (k : Nat) (r : Vec K n) => crossover_fixed (irand := k) (r1 := r) (CR := P.CR)
    (strategy_fixed hs hX hg (seqFin_ok_iff.1 hV i)) (hX i)
  unfold consPop at h
  cases hcons : P.cons <;> rw [hcons] at h <;> simp only [Except.ok.injEq] at h <;> subst h
  · exact hc _ _
  · exact randomRow_fixed (hc _ _)

theorem candAsync_fixed {name : String} (hs : strategyMap name = .ok P.strat) {X : Pop K p n} {r1 gb : Vec K n} {i : Fin p}
    {g : σ} {U : Vec K n × σ} (hX : ∀ i, KeepsFixed P.lower P.upper (X i)) (hg : KeepsFixed P.lower P.upper gb)
    (h : candAsync P r1 i X gb g = .ok U) : KeepsFixed P.lower P.upper U.1 := by
  unfold candAsync at h
  rw [bind_ok_iff] at h
  obtain ⟨V, hV, h⟩ := h
  rw [bind_ok_iff] at h
  obtain ⟨_, _, h⟩ := h
  have hc := fun (k : Nat) (r : Vec K n) => crossover_fixed (irand := k) (r1 := r) (CR := P.CR)
    (strategy_fixed hs hX hg hV) (hX i)
  unfold consOne at h
  cases hcons : P.cons <;> rw [hcons] at h <;> simp only [Except.ok.injEq] at h <;> subst h
  · exact hc _ _
  · exact randomRow_fixed (hc _ _)

/-- All points of the state keep the fixed variables. -/
def IF (l u : Vec K n) (s : State σ K p n) : Prop :=
  (∀ x ∈ s.evals, KeepsFixed l u x) ∧ KeepsFixed l u s.gbest ∧ ∀ i, KeepsFixed l u (s.X i)

theorem IF_step {sync : Bool} {f : Vec K n → Val K} (hf : P.obj.Faithful f) {name : String}
    (hs : strategyMap name = .ok P.strat) {it : Nat} {s s' : State σ K p n} {st : Option Int}
    (hI : IF P.lower P.upper s) (h : (alg P sync).step it s = .ok (s', st)) : IF P.lower P.upper s' := by
  rw [alg_step] at h
  cases sync with
  | true =>
    obtain ⟨U, r, hU, hr, hst, rfl⟩ := stepSync_ok h
    obtain ⟨_, h2, ⟨i, _, h3, _⟩, _⟩ := selectionSync_ok hr hf.pop
    have hc := candSync_fixed hs hI.2.2 hI.2.1 hU
    have hx : ∀ i, KeepsFixed P.lower P.upper (r.x i) := by
      intro i
      rcases h2 i with ⟨_, a, _⟩ | ⟨_, a, _⟩
      · rw [a]; exact hc i
      · rw [a]; exact hI.2.2 i
    refine ⟨?_, ?_, hx⟩
    · intro x hx
      rcases List.mem_append.1 hx with hx | hx
      · exact hI.1 x hx
      · obtain ⟨i, rfl⟩ := List.mem_ofFn.1 hx
        exact hc i
    · show KeepsFixed _ _ r.xbest
      rw [h3]; exact hx i
  | false =>
    obtain ⟨st0, hfold, _⟩ := stepAsync_ok h
    refine foldlM_inv (fun acc : State σ K p n × Option Int => IF P.lower P.upper acc.1) ?_ _ ?_ hfold
    · intro b i b' hb1 hb'
      obtain ⟨U, r, hU, rfl, rfl⟩ := rowAsync_ok hb'
      have hu := candAsync_fixed hs hb1.2.2 hb1.2.1 hU
      refine ⟨?_, ?_, ?_⟩
      · intro x hx
        rcases List.mem_append.1 hx with hx | hx
        · exact hb1.1 x hx
        · rw [List.mem_singleton.1 hx]; exact hu
      · dsimp only [selectionAsync]
        repeat' split
        all_goals first | exact hu | exact hb1.2.1
      · intro j
        have hupd : KeepsFixed P.lower P.upper (Function.update b.1.X i U.1 j) := by
          by_cases hj : j = i
          · subst hj; rw [Function.update_self]; exact hu
          · rw [Function.update_of_ne hj]; exact hb1.2.2 j
        dsimp only [selectionAsync]
        repeat' split
        all_goals first | exact hupd | exact hb1.2.2 j
    · exact hI

end DE

namespace CPSO
variable {P : Par σ K n}

/-- A particle that keeps the fixed variables: its velocity is zero there. -/
def Still (l u v : Vec K n) : Prop := ∀ j, l j = u j → v j = 0

theorem mutation_fixed {X V pbest gbest r1 r2 : Vec K n} (hX : KeepsFixed P.lower P.upper X) (hV : Still P.lower P.upper V)
    (hp : KeepsFixed P.lower P.upper pbest) (hg : KeepsFixed P.lower P.upper gbest) :
    KeepsFixed P.lower P.upper (mutation P X V pbest gbest r1 r2).1 ∧
      Still P.lower P.upper (mutation P X V pbest gbest r1 r2).2 := by
  have key : ∀ j, P.lower j = P.upper j →
      P.w * V j + P.c1 * r1 j * (pbest j - X j) + P.c2 * r2 j * (gbest j - X j) = 0 := by
    intro j hj
    rw [hX j hj, hV j hj, hp j hj, hg j hj, CancelOps.sub_self, CancelOps.mul_zero, CancelOps.mul_zero,
      CancelOps.mul_zero, add_zero, add_zero]
  unfold mutation consRow
  cases P.cons
  · refine ⟨fun j hj => ?_, fun j hj => ?_⟩
    · dsimp only; rw [key j hj, add_zero, hX j hj]
    · dsimp only; exact key j hj
  · refine ⟨fun j hj => ?_, fun j hj => ?_⟩
    · dsimp only; rw [key j hj, CancelOps.zero_mul, add_zero, hX j hj]
    · dsimp only; rw [key j hj, CancelOps.zero_mul]

/-- All points of the state keep the fixed variables. -/
def IF (l u : Vec K n) (s : State σ K p n) : Prop :=
  (∀ x ∈ s.evals, KeepsFixed l u x) ∧ KeepsFixed l u s.gbest ∧ (∀ i, KeepsFixed l u (s.X i)) ∧
    (∀ i, KeepsFixed l u (s.pbest i)) ∧ ∀ i, Still l u (s.V i)

theorem IF_step [IntParts K] [NumFns K] {sync : Bool} {f : Vec K n → Val K} (hf : P.obj.Faithful f)
    {it : Nat} {s s' : State σ K p n} {st : Option Int} (hI : IF P.lower P.upper s)
    (h : (alg P sync).step it s = .ok (s', st)) : IF P.lower P.upper s' := by
  rw [alg_step] at h
  cases sync with
  | true =>
    obtain ⟨r, hr, hst, rfl⟩ := stepSync_ok h
    obtain ⟨_, h2, ⟨i, _, h3, _⟩, _⟩ := selectionSync_ok hr hf.pop
    have hm := fun i => mutation_fixed (P := P) (r1 := (drawMat P.R.rand p n s.rng).1 i)
      (r2 := (drawMat P.R.rand p n (drawMat P.R.rand p n s.rng).2).1 i) (hI.2.2.1 i) (hI.2.2.2.2 i) (hI.2.2.2.1 i) hI.2.1
    have hx : ∀ i, KeepsFixed P.lower P.upper (r.x i) := by
      intro i
      rcases h2 i with ⟨_, a, _⟩ | ⟨_, a, _⟩
      · rw [a]; exact (hm i).1
      · rw [a]; exact hI.2.2.2.1 i
    refine ⟨?_, ?_, fun i => (hm i).1, hx, fun i => (hm i).2⟩
    · intro x hx
      rcases List.mem_append.1 hx with hx | hx
      · exact hI.1 x hx
      · obtain ⟨i, rfl⟩ := List.mem_ofFn.1 hx
        exact (hm i).1
    · show KeepsFixed _ _ r.xbest
      rw [h3]; exact hx i
  | false =>
    obtain ⟨r, hr, rfl, _⟩ := stepAsync_ok h
    rw [hr]
    refine foldl_inv (fun acc : State σ K p n × Option Int => IF P.lower P.upper acc.1) ?_ _ hI
    intro b i hb1
    have hu := fun r1 r2 => mutation_fixed (P := P) (r1 := r1) (r2 := r2) (hb1.2.2.1 i) (hb1.2.2.2.2 i) (hb1.2.2.2.1 i) hb1.2.1
    have hupd : ∀ {Q : Vec K n → Prop} (Y : Pop K p n) (y : Vec K n), (∀ i, Q (Y i)) → Q y →
        ∀ j, Q (Function.update Y i y j) := by
      intro Q Y y hY hy j
      by_cases hj : j = i
      · subst hj; rw [Function.update_self]; exact hy
      · rw [Function.update_of_ne hj]; exact hY j
    refine ⟨?_, ?_, ?_, ?_, ?_⟩
    · intro x hx
      rcases List.mem_append.1 hx with hx | hx
      · exact hb1.1 x hx
      · rw [List.mem_singleton.1 hx]; exact (hu _ _).1
    · dsimp only [rowAsync, selectionAsync]
      repeat' split
      all_goals first | exact (hu _ _).1 | exact hb1.2.1
    · exact hupd _ _ hb1.2.2.1 (hu _ _).1
    · intro j
      dsimp only [rowAsync, selectionAsync]
      repeat' split
      all_goals first | exact hupd _ _ hb1.2.2.2.1 (hu _ _).1 j | exact hb1.2.2.2.1 j
    · exact hupd _ _ hb1.2.2.2.2 (hu _ _).2

theorem resetWorst_fixed [IntParts K] [NumFns K] (nw : Nat) {s : State σ K p n} (hI : IF P.lower P.upper s) :
    IF P.lower P.upper (resetWorst P nw s) := by
  have hX : ∀ q, KeepsFixed P.lower P.upper ((resetWorst P nw s).X q) := by
    intro q
    simp only [resetWorst]
    cases restartPos P.argsort s.pbestfit nw q with
    | none => exact hI.2.2.1 q
    | some t => intro j hj; dsimp only; rw [← hj, unif_fixed]
  refine ⟨hI.1, hI.2.1, hX, ?_, ?_⟩
  · intro q
    have := hX q
    simp only [resetWorst] at this ⊢
    cases hq : restartPos P.argsort s.pbestfit nw q with
    | none => exact hI.2.2.2.1 q
    | some t => rw [hq] at this; exact this
  · intro q
    simp only [resetWorst]
    cases restartPos P.argsort s.pbestfit nw q with
    | none => exact hI.2.2.2.2 q
    | some t => intro j _; rfl

theorem IF_post [IntParts K] [NumFns K] (it : Nat) {s : State σ K p n} (hI : IF P.lower P.upper s) :
    IF P.lower P.upper (post P it s) := by
  rcases post_cases (P := P) it s with h | ⟨gm, hg, hg0, h⟩
  · rw [h]; exact hI
  · rw [h]; unfold restart
    split_ifs
    · exact resetWorst_fixed _ hI
    · exact hI
    · exact hI

end CPSO

namespace NA

theorem unnormalize_fixed (lower upper x : Vec K n) : KeepsFixed lower upper (unnormalize lower upper x) := by
  intro j hj
  unfold unnormalize spanMask
  rw [← hj, CancelOps.sub_self]
  simp

theorem normalize_fixed (lower upper x : Vec K n) : KeepsFixed lower upper (normalize lower upper x) := by
  intro j hj
  unfold normalize spanMask
  rw [← hj, CancelOps.sub_self]
  simp

end NA

namespace Evo
variable [NumFns K] [IntParts K] {S : Type} {P : Par K n} {G : Gauss S K p n} {c : Cfg} {rng : S → σ} {fuel : Nat} {s0 : S}
  {o : Output σ K p n}

theorem unstandardize_fixed (lower upper x : Vec K n) : KeepsFixed lower upper (unstandardize lower upper x) := by
  intro j hj
  unfold unstandardize
  rw [← hj, CancelOps.sub_self, CancelOps.mul_zero, CancelOps.mul_zero, zero_add, CancelOps.half_double]

/-- All points that are evaluated or shown come out of `unstandardize`. -/
theorem run_fixed (h : run P G c rng fuel s0 = .ok o) :
    EveryPoint (KeepsFixed P.lower P.upper) o ∧ EveryRecorded (KeepsFixed P.lower P.upper) 0 o := by
  obtain ⟨gs, g, L', L, st, hC⟩ := run_gens h
  have hX : ∀ (k : Nat) g', (gs ++ [g])[k]? = some g' → ∀ i, KeepsFixed P.lower P.upper (g'.X i) := by
    intro k g' hk i
    obtain ⟨M, M', -, hb, -⟩ := hC.each k g' hk
    obtain ⟨hp, a, e, rows, s, h1, h2, h3, hm, h4, h5, hr⟩ := body_ok hb
    obtain ⟨-, rfl⟩ := Prod.mk.inj hr
    exact unstandardize_fixed _ _ _
  have hmem : ∀ g' ∈ gs ++ [g], ∀ i, KeepsFixed P.lower P.upper (g'.X i) := by
    intro g' hg'
    obtain ⟨k, hk⟩ := List.mem_iff_getElem?.1 hg'
    exact hX k g' hk
  refine ⟨⟨?_, ?_, ?_⟩, ?_⟩
  · intro x hx
    rw [hC.evals, hC.hist.evals] at hx
    obtain ⟨g', hg', hx⟩ := List.mem_flatMap.1 hx
    obtain ⟨i, rfl⟩ := List.mem_ofFn.1 hx
    exact hmem g' hg' i
  · rw [hC.x]; exact hmem g (by simp) _
  · intro b hb
    obtain ⟨k, g', hg, hb1, hb2, -, -⟩ := hC.cbMem hb
    rw [hb1, hb2]
    exact ⟨hX k g' hg _, hX k g' hg⟩
  · intro xs hxs r hr x hx
    rw [hC.xall.1] at hxs
    obtain ⟨hc, rfl⟩ := attach_eq_some hxs
    obtain ⟨l1, -, hk⟩ := hC.hist.rows hc
    rw [List.drop_zero] at hr
    obtain ⟨k, hk1, hk2⟩ := List.getElem_of_mem hr
    have hg := List.getElem?_eq_getElem (l := gs ++ [g]) (i := k) (by omega)
    obtain ⟨rx, rf, b1, -, idx, b3, -⟩ := hk k _ hg
    rw [List.getElem?_eq_getElem hk1, hk2, Option.some.injEq] at b1
    rw [b1, b3] at hx
    obtain ⟨i, -, rfl⟩ := List.mem_map.1 hx
    exact hX k _ hg i

end Evo

namespace Sampling
variable [NumFns K]

/-- All samples of the state, and those shown to the callback, satisfy `Q`. -/
structure AllQ (Q : Vec (Val K) n → Prop) (s : State σ K n) : Prop where
  xs : ∀ x ∈ s.xs, Q x
  cur : Q s.xcur
  cbs : ∀ b ∈ s.cbs, Q b.xk ∧ Q b.x ∧ ∀ xs, b.xall = some xs → ∀ x ∈ xs, Q x

theorem getD_Q {Q : Vec (Val K) n → Prop} {l : List (Vec (Val K) n)} (hl : ∀ x ∈ l, Q x) {d : Vec (Val K) n} (hd : Q d) (i : Nat) :
    Q (l.getD i d) := by
  rw [List.getD_eq_getElem?_getD]
  cases h : l[i]? with
  | none => exact hd
  | some x => exact hl x (List.mem_of_getElem? h)

theorem AllQ.push {Q : Vec (Val K) n → Prop} {s : State σ K n} (h : AllQ Q s) {acc : Option (Vec (Val K) n × Val K)}
    (ha : ∀ y, acc = some y → Q y.1) : AllQ Q (s.push acc) := by
  cases acc with
  | none =>
    refine ⟨?_, h.cur, h.cbs⟩
    intro x hx
    rcases List.mem_append.1 hx with hx | hx
    · exact h.xs x hx
    · rw [List.mem_singleton.1 hx]; exact h.cur
  | some y =>
    refine ⟨?_, ha y rfl, h.cbs⟩
    intro x hx
    rcases List.mem_append.1 hx with hx | hx
    · exact h.xs x hx
    · rw [List.mem_singleton.1 hx]; exact ha y rfl

theorem AllQ.notify {Q : Vec (Val K) n → Prop} {s : State σ K n} (h : AllQ Q s) (hc ra : Bool) : AllQ Q (s.notify hc ra) := by
  refine ⟨h.xs, h.cur, ?_⟩
  intro b hb
  unfold State.notify at hb
  dsimp only at hb
  split_ifs at hb
  · rcases List.mem_append.1 hb with hb | hb
    · exact h.cbs b hb
    · rw [List.mem_singleton.1 hb]
      refine ⟨h.cur, getD_Q h.xs h.cur _, ?_⟩
      intro xs hxs x hx
      unfold attach at hxs
      split_ifs at hxs
      simp only [Option.some.injEq] at hxs
      subst hxs
      exact h.xs x (List.mem_of_mem_take hx)
  · exact h.cbs b hb

theorem AllQ.same {Q : Vec (Val K) n → Prop} {s s' : State σ K n} (h : AllQ Q s) (h1 : s'.xs = s.xs) (h2 : s'.xcur = s.xcur)
    (h3 : s'.cbs = s.cbs) : AllQ Q s' :=
  ⟨by rw [h1]; exact h.xs, by rw [h2]; exact h.cur, by rw [h3]; exact h.cbs⟩

theorem start_Q {a : Args K} {fn : Vec (Val K) a.ndim → Val K} {R : Rng σ K} {g : σ} {s : State σ K a.ndim}
    {Q : Vec (Val K) a.ndim → Prop} (h : start a fn R g = .ok s) (hQ : ∀ x g', a.first R g = .ok (x, g') → Q x) :
    AllQ Q s ∧ ∀ x ∈ s.evals, Q x := by
  unfold start at h
  by_cases h1 : a.maxiter < 0
  · rw [if_pos h1] at h; cases h
  rw [if_neg h1] at h
  by_cases h2 : a.maxiter = 0
  · rw [if_pos h2] at h; cases h
  rw [if_neg h2] at h
  obtain ⟨⟨x, g'⟩, hx, h⟩ := bind_ok_iff.1 h
  have hq := hQ x g' hx
  cases h
  refine ⟨⟨by simpa using hq, hq, ?_⟩, by simpa using hq⟩
  intro b hb
  dsimp only at hb
  split_ifs at hb
  · rw [List.mem_singleton.1 hb]
    refine ⟨hq, hq, ?_⟩
    intro xs hxs x hx
    unfold attach at hxs
    split_ifs at hxs
    simp only [Option.some.injEq] at hxs
    subst hxs
    rw [List.mem_singleton.1 hx]; exact hq
  · simp at hb

/-- The first sample. -/
theorem first_fixed {a : Args K} {R : Rng σ K} {g g' : σ} {x : Vec (Val K) a.ndim} (h : a.first R g = .ok (x, g'))
    (hx0 : ∀ x0, a.x0 = some x0 → KeepsFixed a.lower a.upper fun j => x0.get (if x0.shape = [a.ndim] then [j.val] else x0.shape.map fun _ => 0)) :
    KeepsFixedV a.lower a.upper x := by
  unfold Args.first at h
  cases hx : a.x0 with
  | none =>
    rw [hx] at h
    cases h
    intro j hj
    dsimp only
    rw [← hj, unif_fixed]
  | some x0 =>
    rw [hx] at h
    have hk := hx0 x0 hx
    dsimp only at h
    by_cases h1 : x0.shape = [a.ndim]
    · rw [if_pos h1] at h
      cases h
      intro j hj
      have := hk j hj
      dsimp only at this ⊢
      rw [if_pos h1] at this
      rw [this]
    · rw [if_neg h1] at h
      split_ifs at h
      cases h
      intro j hj
      have := hk j hj
      dsimp only at this ⊢
      rw [if_neg h1] at this
      rw [this]

theorem step_fixed {a : Args K} {st : Vec K a.ndim} (h : a.stepsize.scale a.lower a.upper = .ok st) (j : Fin a.ndim)
    (hj : a.lower j = a.upper j) : st j = 0 := by
  rw [(scale_any h).2]
  dsimp only
  rw [← hj, CancelOps.sub_self, CancelOps.mul_zero, CancelOps.mul_zero]

end Sampling

namespace MCMC
open Sampling
variable [NumFns K] [IntParts K] {P : Par σ K n}

theorem perturb_fixed {lower upper step : Vec K n} (hs : ∀ j, lower j = upper j → step j = 0) {a b : Nat} {z : Nat → K}
    {x : Vec (Val K) n} (hx : KeepsFixedV lower upper x) : KeepsFixedV lower upper (perturb step a b z x) := by
  intro j hj
  unfold perturb
  split_ifs
  · rw [hs j hj, hx j hj, CancelOps.mul_zero]
    show Val.fin (lower j + 0) = _
    rw [add_zero]
  · exact hx j hj

theorem block_fixed (hs : ∀ j, P.lower j = P.upper j → P.step j = 0) {j : Nat} {s s' : State σ K n}
    (hI : AllQ (KeepsFixedV P.lower P.upper) s ∧ ∀ x ∈ s.evals, KeepsFixedV P.lower P.upper x) (h : block P j s = .ok s') :
    AllQ (KeepsFixedV P.lower P.upper) s' ∧ ∀ x ∈ s'.evals, KeepsFixedV P.lower P.upper x := by
  unfold block at h
  dsimp only at h
  split at h
  · cases h
  split at h
  · cases h
    refine ⟨AllQ.notify (AllQ.push ?_ ?_) _ _, ?_⟩
    · exact hI.1.same rfl rfl rfl
    · intro y hy
      split_ifs at hy
      obtain rfl := Option.some.inj hy
      dsimp only
      exact perturb_fixed hs hI.1.cur
    · rw [push_notify_evals]
      intro x hx
      rcases List.mem_append.1 hx with hx | hx
      · exact hI.2 x hx
      · rw [List.mem_singleton.1 hx]; exact perturb_fixed hs hI.1.cur
  · cases h
    refine ⟨AllQ.notify (AllQ.push ?_ (by intro y hy; cases hy)) _ _, ?_⟩
    · exact hI.1.same rfl rfl rfl
    · rw [push_notify_evals]; exact hI.2

theorem sweep_fixed (hs : ∀ j, P.lower j = P.upper j → P.step j = 0) : ∀ (l : List Nat) {s s' : State σ K n},
    (AllQ (KeepsFixedV P.lower P.upper) s ∧ ∀ x ∈ s.evals, KeepsFixedV P.lower P.upper x) → sweep P l s = .ok s' →
    AllQ (KeepsFixedV P.lower P.upper) s' ∧ ∀ x ∈ s'.evals, KeepsFixedV P.lower P.upper x
  | [], s, s', hI, h => by cases h; exact hI
  | j :: js, s, s', hI, h => by
    unfold sweep at h
    obtain ⟨s1, h1, h⟩ := bind_ok_iff.1 h
    have hI1 := block_fixed hs hI h1
    split_ifs at h
    · cases h; exact hI1
    · exact sweep_fixed hs js hI1 h

theorem loop_fixed (hs : ∀ j, P.lower j = P.upper j → P.step j = 0) : ∀ (f : Nat) {s s' : State σ K n},
    (AllQ (KeepsFixedV P.lower P.upper) s ∧ ∀ x ∈ s.evals, KeepsFixedV P.lower P.upper x) → loop P f s = .ok s' →
    AllQ (KeepsFixedV P.lower P.upper) s' ∧ ∀ x ∈ s'.evals, KeepsFixedV P.lower P.upper x
  | 0, s, s', hI, h => by
    unfold loop at h
    split_ifs at h
    cases h; exact hI
  | f + 1, s, s', hI, h => by
    unfold loop at h
    split_ifs at h
    · obtain ⟨s1, h1, h⟩ := bind_ok_iff.1 h
      exact loop_fixed hs f (sweep_fixed hs _ hI h1) h
    · cases h; exact hI

end MCMC

namespace HMC
open Sampling
variable [NumFns K] {P : Par σ K n}

/-- On finite points the gradient is finite. -/
def FiniteGrad (G : Grad K n) : Prop := ∀ x r, Spec.Finite x → G x = .ok r → Spec.Finite r.1

/-- Positions and momenta are finite, and the fixed variables have their value. -/
def Good (lower upper : Vec K n) (s : Phase K n) : Prop :=
  Spec.Finite s.1 ∧ Spec.Finite s.2.1 ∧ KeepsFixedV lower upper s.1

theorem kick_good {lower upper step : Vec K n} {G : Grad K n} (hG : FiniteGrad G) {s s' : Phase K n} (hs : Good lower upper s)
    (h : kick G step s = .ok s') : Good lower upper s' := by
  unfold kick at h
  obtain ⟨r, hr, h⟩ := bind_ok_iff.1 h
  cases h
  refine ⟨hs.1, ?_, hs.2.2⟩
  intro j
  obtain ⟨k, hk⟩ := hG _ _ hs.1 hr j
  obtain ⟨q, hq⟩ := hs.2.1 j
  dsimp only
  rw [hk, hq]
  exact ⟨_, rfl⟩

theorem drift_good {lower upper step : Vec K n} (hst : ∀ j, lower j = upper j → step j = 0) {s : Phase K n}
    (hs : Good lower upper s) : Good lower upper (drift step s) := by
  refine ⟨?_, hs.2.1, ?_⟩
  · intro j
    obtain ⟨k, hk⟩ := hs.1 j
    obtain ⟨q, hq⟩ := hs.2.1 j
    unfold drift
    dsimp only
    rw [hk, hq]
    exact ⟨_, rfl⟩
  · intro j hj
    obtain ⟨q, hq⟩ := hs.2.1 j
    unfold drift
    dsimp only
    rw [hs.2.2 j hj, hst j hj, hq]
    show Val.fin (lower j + 0 * q) = _
    rw [CancelOps.zero_mul, add_zero]

theorem leaps_good {lower upper step : Vec K n} {G : Grad K n} (hG : FiniteGrad G)
    (hst : ∀ j, lower j = upper j → step j = 0) : ∀ (k : Nat) {s s' : Phase K n}, Good lower upper s →
    leaps G step k s = .ok s' → Good lower upper s'
  | 0, s, s', hs, h => by cases h; exact hs
  | k + 1, s, s', hs, h => by
    unfold leaps at h
    obtain ⟨s1, h1, h⟩ := bind_ok_iff.1 h
    exact leaps_good hG hst k (drift_good hst (kick_good hG hs h1)) h

theorem leapfrog_good {lower upper step : Vec K n} {G : Grad K n} (hG : FiniteGrad G)
    (hst : ∀ j, lower j = upper j → step j = 0) {L : Nat} {q p : Vec (Val K) n} {r : Phase K n} (hq : Spec.Finite q)
    (hp : Spec.Finite p) (hf : KeepsFixedV lower upper q) (h : leapfrog G step L q p = .ok r) : Good lower upper r := by
  unfold leapfrog at h
  obtain ⟨s1, h1, h⟩ := bind_ok_iff.1 h
  obtain ⟨s2, h2, h3⟩ := bind_ok_iff.1 h
  exact kick_good hG (leaps_good hG hst L (drift_good hst (kick_good hG ⟨hq, hp, hf⟩ h1)) h2) h3

/-- Central differences of an objective that is finite on finite points. -/
theorem gradOf_finite {fn : Vec (Val K) n → Val K} (hfn : ∀ x, Spec.Finite x → ∃ k, fn x = .fin k)
    {jac : Option (Option (Vec (Val K) n → Vec (Val K) n))} {h : K} (hh : h ≠ 0) {e : Bool} : FiniteGrad (gradOf fn jac h e) := by
  intro x r hx hr
  unfold gradOf at hr
  cases jac with
  | some j => cases e <;> cases hr
  | none =>
    cases hr
    rw [(numericalGradient_any fn h x).1]
    have ha : ∀ j, Spec.Finite (above h x j) := by
      intro j i
      obtain ⟨k, hk⟩ := hx i
      unfold above
      rw [hk]
      split_ifs <;> exact ⟨_, rfl⟩
    have hb : ∀ j, Spec.Finite (below h x j) := by
      intro j i
      obtain ⟨k, hk⟩ := hx i
      unfold below
      rw [hk]
      split_ifs <;> exact ⟨_, rfl⟩
    intro j
    obtain ⟨k1, h1⟩ := hfn _ (ha j)
    obtain ⟨k2, h2⟩ := hfn _ (hb j)
    dsimp only
    rw [h1, h2]
    show ∃ k, Val.divBy (.fin (1 / 2 * (k1 + -k2))) h = .fin k
    unfold Val.divBy
    exact ⟨_, if_neg hh⟩

/-- All samples are finite and keep the fixed variables. -/
abbrev GoodX (lower upper : Vec K n) (x : Vec (Val K) n) : Prop := Spec.Finite x ∧ KeepsFixedV lower upper x

theorem iter_fixed (hG : FiniteGrad P.G) (hst : ∀ j, P.lower j = P.upper j → P.step j = 0) {s s' : State σ K n}
    (hI : AllQ (GoodX P.lower P.upper) s) (h : iter P s = .ok s') : AllQ (GoodX P.lower P.upper) s' := by
  unfold iter at h
  dsimp only at h
  obtain ⟨r, hr, h⟩ := bind_ok_iff.1 h
  have hg := leapfrog_good hG hst hI.cur.1 (fun j => ⟨_, rfl⟩) hI.cur.2 hr
  split at h
  · cases h
    refine AllQ.notify (AllQ.push ?_ ?_) _ _
    · exact hI.same rfl rfl rfl
    intro y hy
    split at hy
    · obtain rfl := Option.some.inj hy
      exact ⟨hg.1, hg.2.2⟩
    · cases hy
  · cases h
    refine AllQ.notify (AllQ.push ?_ (by intro y hy; cases hy)) _ _
    exact hI.same rfl rfl rfl

theorem loop_fixed (hG : FiniteGrad P.G) (hst : ∀ j, P.lower j = P.upper j → P.step j = 0) : ∀ (k : Nat)
    {s s' : State σ K n}, AllQ (GoodX P.lower P.upper) s → loop P k s = .ok s' → AllQ (GoodX P.lower P.upper) s'
  | 0, s, s', hI, h => by cases h; exact hI
  | k + 1, s, s', hI, h => by
    unfold loop at h
    obtain ⟨s1, h1, h⟩ := bind_ok_iff.1 h
    exact loop_fixed hG hst k (iter_fixed hG hst hI h1) h

end HMC

/-! ## The points of whole runs -/

theorem fixedStart_pop [IntParts K] {a : CommonArgs K} (h : FixedStart a) {X : Pop K a.p a.ndim} (hX : a.x0Pop = some X)
    (i : Fin a.p) : KeepsFixed a.lower a.upper (X i) := by
  unfold CommonArgs.x0Pop at hX
  cases hx : a.x0 with
  | none => rw [hx] at hX; simp at hX
  | some x =>
    rw [hx] at hX
    simp only [Option.map_some, Option.some.injEq] at hX
    subst hX
    exact h x hx i.1 i.2

namespace MCMC
open Sampling
variable [NumFns K] [IntParts K]

theorem sample_fixed {R : Rng σ K} {fuel : Nat} {a : Args K} {g : σ} {o : Sampling.Output σ K a.ndim}
    (h : (sample R fuel a g).1 = .ok o)
    (hx0 : ∀ x0, a.x0 = some x0 →
      KeepsFixed a.lower a.upper fun j => x0.get (if x0.shape = [a.ndim] then [j.val] else x0.shape.map fun _ => 0)) :
    EverySample (KeepsFixedV a.lower a.upper) o ∧ ∀ x ∈ o.evals, KeepsFixedV a.lower a.upper x := by
  unfold sample at h
  cases hfn : a.fn with
  | none => rw [hfn] at h; cases h
  | some fn =>
    cases hch : a.checkStart with
    | error e => rw [hfn, hch] at h; cases h
    | ok u =>
      cases hsc : a.stepsize.scale a.lower a.upper with
      | error e => rw [hfn, hch, hsc] at h; cases h
      | ok st =>
        rw [hfn, hch, hsc] at h
        dsimp only at h
        unfold rest at h
        split at h
        · cases h
        split at h
        · cases h
        obtain ⟨s0, h0, h⟩ := bind_ok_iff.1 h
        obtain ⟨s1, h1, h⟩ := bind_ok_iff.1 h
        cases h
        have hI := loop_fixed (P := par R a fn st) (step_fixed hsc) fuel (start_Q h0 fun x g' hx => first_fixed hx hx0) h1
        refine ⟨⟨getD_Q hI.1.xs hI.1.cur _, ?_, hI.1.cbs⟩, hI.2⟩
        intro xs hxs x hx
        unfold finish at hxs
        dsimp only at hxs
        unfold Sampling.attach at hxs
        split_ifs at hxs
        obtain rfl := Option.some.inj hxs
        exact hI.1.xs x hx

end MCMC

namespace HMC
open Sampling
variable [NumFns K]

theorem first_fin {a : Sampling.Args K} {R : Rng σ K} {g g' : σ} {x : Vec (Val K) a.ndim} (h : a.first R g = .ok (x, g')) :
    Spec.Finite x := by
  unfold Sampling.Args.first at h
  cases hx : a.x0 with
  | none =>
    rw [hx] at h
    cases h
    exact fun j => ⟨_, rfl⟩
  | some x0 =>
    rw [hx] at h
    dsimp only at h
    split at h
    · cases h; exact fun j => ⟨_, rfl⟩
    split at h
    · cases h; exact fun j => ⟨_, rfl⟩
    · cases h

theorem sample_fixed {R : Rng σ K} {a : Args K} {g : σ} {o : Sampling.Output σ K a.ndim}
    (h : (sample R a g).1 = .ok o) (hh : a.fdStep ≠ 0)
    (hfin : ∀ fn, a.fn = some fn → ∀ x, Spec.Finite x → ∃ k, fn x = .fin k)
    (hx0 : ∀ x0, a.x0 = some x0 →
      KeepsFixed a.lower a.upper fun j => x0.get (if x0.shape = [a.ndim] then [j.val] else x0.shape.map fun _ => 0)) :
    EverySample (GoodX a.lower a.upper) o := by
  unfold sample at h
  cases hfn : a.fn with
  | none => rw [hfn] at h; cases h
  | some fn =>
    cases hch : a.checkStart with
    | error e => rw [hfn, hch] at h; cases h
    | ok u =>
      by_cases hnl : a.nleap < 1
      · rw [hfn, hch, decide_eq_true hnl] at h; cases h
      cases hsc : a.stepsize.scale a.lower a.upper with
      | error e => rw [hfn, hch, hsc, decide_eq_false hnl] at h; cases h
      | ok st =>
        rw [hfn, hch, hsc, decide_eq_false hnl] at h
        dsimp only at h
        unfold rest at h
        split at h
        · cases h
        split at h
        · cases h
        obtain ⟨s0, h0, h⟩ := bind_ok_iff.1 h
        obtain ⟨s1, h1, h⟩ := bind_ok_iff.1 h
        have hI := loop_fixed (P := par R a fn st) (gradOf_finite (hfin fn hfn) hh) (step_fixed hsc) _
          (start_Q h0 fun x g' hx => ⟨first_fin hx, first_fixed hx hx0⟩).1 h1
        unfold finish at h
        obtain ⟨i, hi, h⟩ := bind_ok_iff.1 h
        cases h
        refine ⟨getD_Q hI.xs hI.cur _, ?_, hI.cbs⟩
        intro xs hxs x hx
        dsimp only at hxs
        unfold Sampling.attach at hxs
        split_ifs at hxs
        obtain rfl := Option.some.inj hxs
        exact hI.xs x hx

end HMC

/-! ## The first generation of `cmaes` and `vdcma` -/

namespace Evo
variable [NumFns K] [IntParts K] {S : Type} {P : Par K n} {G : Gauss S K p n} {c : Cfg} {rng : S → σ} {fuel : Nat} {s0 : S}
  {o : Output σ K p n}

theorem run_first (h : run P G c rng fuel s0 = .ok o) :
    ∃ a, G.sample s0 = .ok a ∧ o.evals.take p =
      List.ofFn fun i => unstandardize P.lower P.upper (if P.penalized then clip (a.1 i) else a.1 i) := by
  obtain ⟨gs, g, L', L, st, hC⟩ := run_ok h (fun M => M.it = 0 → M = init c s0) (fun _ => rfl) (by
    intro M r _ hb hz
    obtain ⟨hp, a, e, rows, s, h1, h2, h3, hm, h4, h5, rfl⟩ := body_ok hb
    simp [after] at hz)
  obtain ⟨g0, t, hg⟩ : ∃ g0 t, gs ++ [g] = g0 :: t := by cases gs <;> exact ⟨_, _, rfl⟩
  obtain ⟨M, M', hM, hb, hH⟩ := hC.each 0 g0 (by rw [hg]; rfl)
  have hM0 := hM (by have := hH.it; simpa using this)
  subst hM0
  obtain ⟨hp, a, e, rows, s, h1, h2, h3, hm, h4, h5, hr⟩ := body_ok hb
  refine ⟨a, h1, ?_⟩
  rw [hC.evals, hC.hist.evals, hg, List.flatMap_cons, List.take_left' (by simp)]
  obtain ⟨-, rfl⟩ := Prod.mk.inj hr
  have he : e.2.1 = fun i => if P.penalized then clip (a.1 i) else a.1 i := by
    unfold evaluate at h2
    cases hpen : P.penalized with
    | true =>
      rw [hpen, if_pos rfl] at h2
      unfold penalize at h2
      obtain ⟨u, -, h2⟩ := bind_ok_iff.1 h2
      obtain ⟨u, -, h2⟩ := bind_ok_iff.1 h2
      cases h2
      rfl
    | false =>
      rw [hpen] at h2
      cases h2
      rfl
  rw [he]

end Evo

end Stochopy
