import Verif.Model.CPSO
import Verif.Base.Lawful
import Verif.Lemmas.Laws
import Verif.Lemmas.SeqFin

/-! Laws and invariants of the particle swarm model. -/

set_option linter.unusedSectionVars false

namespace Stochopy.CPSO

/-- The number of particles to restart, `int((p - 1) / (1 + exp x))`, is at most `p - 1`.  This holds in exact arithmetic, and in any
arithmetic with monotone rounding in which the exponential is not negative and `p` is a number. -/
class FewRestarts (K : Type) [Zero K] [One K] [Add K] [Sub K] [Div K] [NatCast K] [LinearOrder K] [IntParts K] [NumFns K] (p : Nat) : Prop where
  le : ∀ x : K, (pyInt (((p : K) - 1) / (1 + NumFns.exp x))).toNat ≤ p - 1

section exact
variable {K : Type} [Field K] [LinearOrder K] [IsStrictOrderedRing K] [FloorRing K] [NumFns K] [LawfulNumFns K]

instance FewRestarts.ofField (p : Nat) : FewRestarts K p where
  le x := by
    have hd1 : (1 : K) ≤ 1 + NumFns.exp x := by
      have := LawfulNumFns.exp_pos (K := K) x
      linarith
    unfold pyInt
    split_ifs with h
    · rw [IntParts.floor_eq]
      rcases Nat.eq_zero_or_pos p with rfl | hp
      · rw [Nat.cast_zero, zero_sub] at *
        have : (-1 : K) / (1 + NumFns.exp x) < 0 := div_neg_of_neg_of_pos (by linarith) (by linarith)
        linarith
      · have hp1 : (0 : K) ≤ (p : K) - 1 := by
          have : (1 : K) ≤ (p : K) := by exact_mod_cast hp
          linarith
        have hx1 : ((p : K) - 1) / (1 + NumFns.exp x) ≤ (p : K) - 1 := div_le_self hp1 hd1
        have h2 : (⌊((p : K) - 1) / (1 + NumFns.exp x)⌋ : K) ≤ ((p - 1 : Nat) : K) := by
          rw [Nat.cast_sub hp]; push_cast
          exact le_trans (Int.floor_le _) hx1
        have h3 : ⌊((p : K) - 1) / (1 + NumFns.exp x)⌋ ≤ ((p - 1 : Nat) : Int) := by exact_mod_cast h2
        omega
    · rw [IntParts.ceil_eq]
      have : ⌈((p : K) - 1) / (1 + NumFns.exp x)⌉ ≤ 0 := Int.ceil_le.2 (by simpa using (not_le.1 h).le)
      omega

variable {p : Nat}

theorem numRestart_le_two {it : Nat} {maxiter : Int} {gamma : K} (hp : 2 ≤ p) :
    (numRestart p it maxiter gamma).toNat ≤ p - 2 := by
  set d : K := 1 + NumFns.exp (1 / (9 / 100) * ((it : K) / (maxiter : K) - gamma + 1 / 2)) with hd
  have hd1 : 1 < d := by
    have := LawfulNumFns.exp_pos (K := K) (1 / (9 / 100) * ((it : K) / (maxiter : K) - gamma + 1 / 2))
    rw [hd]; linarith
  have hp1 : (0 : K) < (p : K) - 1 := by
    have : (2 : K) ≤ (p : K) := by exact_mod_cast hp
    linarith
  have hx0 : 0 ≤ ((p : K) - 1) / d := div_nonneg hp1.le (by linarith)
  have hx1 : ((p : K) - 1) / d < (p : K) - 1 := div_lt_self hp1 hd1
  have : numRestart p it maxiter gamma = ⌊((p : K) - 1) / d⌋ := by
    unfold numRestart pyInt; rw [if_pos hx0]; rfl
  rw [this]
  have h2 : ⌊((p : K) - 1) / d⌋ < ((p - 1 : Nat) : Int) := by
    rw [Int.floor_lt]
    rw [Int.cast_natCast, Nat.cast_sub (by omega)]; push_cast
    exact hx1
  omega

end exact

end Stochopy.CPSO

namespace Stochopy.CPSO
variable {K σ : Type} [AddZeroClass K] [One K] [Sub K] [Mul K] [Div K] [Neg K] [NatCast K] [IntCast K] [Pow K ℕ] [ArrayOps K] [LinearOrder K] {p n : Nat}

section core
variable {P : Par σ K n} {f : Vec K n → Val K}

/-- Positions and velocities proposed by a deferred iteration. -/
def moveSync (P : Par σ K n) (s : State σ K p n) (i : Fin p) : Vec K n × Vec K n :=
  mutation P (s.X i) (s.V i) (s.pbest i) s.gbest ((drawMat P.R.rand p n s.rng).1 i)
    ((drawMat P.R.rand p n (drawMat P.R.rand p n s.rng).2).1 i)

theorem stepSync_ok {it : Nat} {s s' : State σ K p n} {st : Option Int} (h : stepSync P it s = .ok (s', st)) :
    ∃ r, selectionSync it (fun i => (moveSync P s i).1) s.gbest s.pbest s.pbestfit P.maxiter P.xtol P.ftol P.obj = .ok r ∧
      st = r.status ∧
      s' = { X := fun i => (moveSync P s i).1, V := fun i => (moveSync P s i).2, pbest := r.x, gbest := r.xbest,
             pbestfit := r.xfun, gfit := r.xbestfun, pfit := r.candfun, caller := s.caller, aliased := false,
             evals := s.evals ++ List.ofFn (fun i => (moveSync P s i).1),
             rng := (drawMat P.R.rand p n (drawMat P.R.rand p n s.rng).2).2 } := by
  unfold stepSync at h
  rw [bind_ok_iff] at h
  obtain ⟨r, hr, h⟩ := h
  simp only [Except.ok.injEq, Prod.mk.injEq] at h
  exact ⟨r, hr, h.2.symm, h.1.symm⟩

theorem stepAsync_ok {it : Nat} {s s' : State σ K p n} {st : Option Int} (h : stepAsync P it s = .ok (s', st)) :
    ∃ r, r = (List.finRange p).foldl (rowAsync P (drawMat P.R.rand p n s.rng).1
          (drawMat P.R.rand p n (drawMat P.R.rand p n s.rng).2).1)
          ({ s with rng := (drawMat P.R.rand p n (drawMat P.R.rand p n s.rng).2).2 }, none) ∧
      s' = r.1 ∧ st = (if r.2 = none ∧ P.maxiter ≤ (it : Int) then some (-1) else r.2) := by
  unfold stepAsync at h
  simp only [Except.ok.injEq, Prod.mk.injEq] at h
  obtain ⟨h1, h2⟩ := h
  refine ⟨_, rfl, h1.symm, ?_⟩
  rw [← h2]
  simp

theorem rowAsync_evals {r1 r2 : Pop K p n} (acc : State σ K p n × Option Int) (i : Fin p) :
    ∃ y, (rowAsync P r1 r2 acc i).1.evals = acc.1.evals ++ [y] := ⟨_, rfl⟩

theorem async_status {it : Nat} {s s' : State σ K p n} {st : Option Int} (h : stepAsync P it s = .ok (s', st)) :
    (st = none → (it : Int) < P.maxiter) ∧ (st = some (-1) → P.maxiter ≤ (it : Int)) ∧
    (∀ k, st = some k → k = 0 ∨ k = 1 ∨ k = -1) ∧
    (st = some 0 ∨ st = some 1 → s'.gfit ≤ P.ftol) := by
  obtain ⟨r, hr, rfl, rfl⟩ := stepAsync_ok h
  have key : (r.2 = none ∨ r.2 = some 0 ∨ r.2 = some 1) ∧ (r.2 ≠ none → r.1.gfit ≤ P.ftol) := by
    rw [hr]
    refine foldl_inv (fun acc : State σ K p n × Option Int =>
      (acc.2 = none ∨ acc.2 = some 0 ∨ acc.2 = some 1) ∧ (acc.2 ≠ none → acc.1.gfit ≤ P.ftol)) ?_ _ (by simp)
    intro b i _
    obtain ⟨-, hc⟩ := selectionAsync_cases
      (candi := (mutation P (b.1.X i) (b.1.V i) (b.1.pbest i) b.1.gbest ((drawMat P.R.rand p n s.rng).1 i)
        ((drawMat P.R.rand p n (drawMat P.R.rand p n s.rng).2).1 i)).1) (xbest := b.1.gbest) (gfit := b.1.gfit)
        (x := b.1.pbest) (xfun := b.1.pbestfit) (xtol := P.xtol) (ftol := P.ftol) (obj := P.obj) (i := i)
        (f := P.obj.one) (fun _ => rfl)
    simp only [rowAsync]
    rcases hc with ⟨_, _, _, ⟨_, _, hb, hst⟩ | ⟨_, _, _, hst⟩⟩ | ⟨_, _, _, _, _, hst⟩
    · simp only [hst, hb]
      split_ifs with h1 h2
      · exact ⟨by simp, fun _ => h1.2⟩
      · exact ⟨by simp, fun _ => h2⟩
      · simp
    · simp [hst]
    · simp [hst]
  obtain ⟨hk1, hk2⟩ := key
  refine ⟨?_, ?_, ?_, ?_⟩
  · intro h1
    split_ifs at h1 with h2
    rw [h1] at h2; simp at h2; exact h2
  · intro h1
    split_ifs at h1 with h2
    · exact h2.2
    · rw [h1] at hk1; simp at hk1
  · intro k h1
    split_ifs at h1 with h2
    · simp at h1; omega
    · rcases hk1 with h | h | h <;> rw [h] at h1 <;> simp at h1 <;> omega
  · intro h1
    split_ifs at h1 with h2
    · simp at h1
    · exact hk2 (by rcases h1 with h | h <;> simp [h])

variable [IntParts K] [NumFns K]

theorem alg_step (sync : Bool) : (alg (p := p) P sync).step = if sync then stepSync P else stepAsync P := rfl

/-- What `post` can be. -/
theorem post_cases (it : Nat) (s : State σ K p n) :
    post P it s = s ∨ ∃ gamma, P.gamma = some gamma ∧ gamma ≠ 0 ∧ post P it s = restart P gamma it s := by
  unfold post
  split
  · exact Or.inl rfl
  · rename_i gm h
    split_ifs with h0
    · exact Or.inl rfl
    · exact Or.inr ⟨gm, h, h0, rfl⟩

theorem restart_fields (gamma : K) (it : Nat) (s : State σ K p n) :
    (restart P gamma it s).gbest = s.gbest ∧ (restart P gamma it s).gfit = s.gfit ∧
    (restart P gamma it s).evals = s.evals ∧ (restart P gamma it s).pfit = s.pfit ∧
    (restart P gamma it s).aliased = s.aliased := by
  unfold restart
  split_ifs <;> simp [resetWorst]

theorem post_fields (it : Nat) (s : State σ K p n) :
    (post P it s).gbest = s.gbest ∧ (post P it s).gfit = s.gfit ∧ (post P it s).evals = s.evals ∧
    (post P it s).pfit = s.pfit ∧ (post P it s).aliased = s.aliased := by
  rcases post_cases (P := P) it s with h | ⟨gm, _, _, h⟩ <;> rw [h]
  · simp
  · exact restart_fields gm it s

theorem laws (sync : Bool) : (alg (p := p) P sync).Laws P.maxiter State.evals where
  best_post it s := (post_fields it s).1
  fun_post it s := (post_fields it s).2.1
  ev_post it s := (post_fields it s).2.2.1
  ev_step := by
    intro it s s' st h
    rw [alg_step] at h
    cases sync with
    | true =>
      obtain ⟨r, _, _, rfl⟩ := stepSync_ok h
      exact ⟨_, by simp, rfl⟩
    | false =>
      obtain ⟨r, hr, rfl, _⟩ := stepAsync_ok h
      have := foldl_inv_idx (List.finRange p)
        (fun k (acc : State σ K p n × Option Int) => ∃ ys, ys.length = k ∧ acc.1.evals = s.evals ++ ys)
        (f := rowAsync P (drawMat P.R.rand p n s.rng).1 (drawMat P.R.rand p n (drawMat P.R.rand p n s.rng).2).1) (by
          rintro k hk b ⟨ys, hy, he⟩
          obtain ⟨y, hy'⟩ := rowAsync_evals (P := P) (r1 := (drawMat P.R.rand p n s.rng).1)
            (r2 := (drawMat P.R.rand p n (drawMat P.R.rand p n s.rng).2).1) b (List.finRange p)[k]
          exact ⟨ys ++ [y], by simp [hy], by rw [hy', he, List.append_assoc]⟩)
        (b := ({ s with rng := (drawMat P.R.rand p n (drawMat P.R.rand p n s.rng).2).2 }, none)) ⟨[], rfl, by simp⟩
      rw [← hr] at this
      simpa using this
  cont := by
    intro it s s' h
    rw [alg_step] at h
    cases sync with
    | true =>
      obtain ⟨r, hr, hst, _⟩ := stepSync_ok h
      exact (selectionSync_codes hr).1 hst.symm
    | false => exact (async_status h).1 rfl
  budget := by
    intro it s s' h
    rw [alg_step] at h
    cases sync with
    | true =>
      obtain ⟨r, hr, hst, _⟩ := stepSync_ok h
      exact (selectionSync_codes hr).2.1 hst.symm
    | false => exact (async_status h).2.1 rfl
  codes := by
    intro it s s' k h
    rw [alg_step] at h
    cases sync with
    | true =>
      obtain ⟨r, hr, hst, _⟩ := stepSync_ok h
      exact (selectionSync_codes hr).2.2 k hst.symm
    | false => exact (async_status h).2.2.1 k rfl
  noFuel := by
    intro it s h
    rw [alg_step] at h
    cases sync with
    | true =>
      simp only [if_true] at h
      unfold stepSync at h
      rw [bind_error_iff] at h
      rcases h with h | ⟨_, _, h⟩
      · exact selectionSync_ne_outOfFuel h
      · simp at h
    | false =>
      simp only [Bool.false_eq_true, if_false] at h
      simp [stepAsync] at h

theorem syncStatus :
    (alg (p := p) P true).SyncStatus P.maxiter P.ftol (fun s s' => distLe s.gbest s'.gbest P.xtol) := by
  intro it s s' st h
  obtain ⟨r, hr, hst, rfl⟩ := stepSync_ok h
  rw [hst, selectionSync_status hr]
  rfl

theorem resetFit_ne_nan : (resetFit : Val K) ≠ .nan := by simp [resetFit]

/-! ### The restart -/

section restart
variable [FewRestarts K p]

theorem numRestart_le {it : Nat} {maxiter : Int} {gamma : K} (_hp : 0 < p) :
    (numRestart p it maxiter gamma).toNat ≤ p - 1 := FewRestarts.le _

/-- Effect of `post` on one particle: it is kept, or reset. The best particle of the sorted order is kept. -/
theorem post_particle (hsrt : IsArgsort P.argsort) (hp : 0 < p) (it : Nat) (s : State σ K p n) :
    (∃ q0, (∀ j, sortLe (s.pbestfit q0) (s.pbestfit j)) ∧ (post P it s).pbestfit q0 = s.pbestfit q0 ∧
        (post P it s).pbest q0 = s.pbest q0) ∧
    ∀ q, ((post P it s).pbestfit q = s.pbestfit q ∧ (post P it s).pbest q = s.pbest q ∧ (post P it s).X q = s.X q ∧
            (post P it s).V q = s.V q) ∨
      ((∃ g, P.gamma = some g ∧ g ≠ 0) ∧ (post P it s).pbestfit q = resetFit ∧
        (post P it s).pbest q = (post P it s).X q ∧ (post P it s).V q = (fun _ => 0) ∧
        ∃ u : Vec K n, (∀ j, ∃ g, u j = (P.R.rand g).1) ∧
          (post P it s).X q = fun j => unif (P.lower j) (P.upper j) (u j)) := by
  set q0 := P.argsort p s.pbestfit ⟨0, hp⟩ with hq0
  have hq0le : ∀ j, sortLe (s.pbestfit q0) (s.pbestfit j) := by
    intro j
    have := hsrt p s.pbestfit ⟨0, hp⟩ ((P.argsort p s.pbestfit).symm j) (by simp [Fin.le_def])
    simpa [hq0] using this
  rcases post_cases (P := P) it s with h | ⟨gm, hg, hg0, h⟩
  · rw [h]
    exact ⟨⟨q0, hq0le, rfl, rfl⟩, fun q => Or.inl ⟨rfl, rfl, rfl, rfl⟩⟩
  · rw [h]
    unfold restart
    split_ifs with h1 h2
    · have hnw := numRestart_le (p := p) (it := it) (maxiter := P.maxiter) (gamma := gm) hp
      set nw := (numRestart p it P.maxiter gm).toNat with hnwdef
      have hpos0 : restartPos P.argsort s.pbestfit nw q0 = none := by
        unfold restartPos
        rw [dif_neg]
        simp [hq0]
        omega
      refine ⟨⟨q0, hq0le, by simp [resetWorst, hpos0], by simp [resetWorst, hpos0]⟩, fun q => ?_⟩
      simp only [resetWorst]
      cases hq : restartPos P.argsort s.pbestfit nw q with
      | none => left; simp
      | some t =>
        right
        refine ⟨⟨gm, hg, hg0⟩, rfl, rfl, rfl, (drawMat P.R.rand nw n s.rng).1 t, ?_, rfl⟩
        intro j; exact drawMat_mem _ _ _ _ _ _
    · exact ⟨⟨q0, hq0le, rfl, rfl⟩, fun q => Or.inl ⟨rfl, rfl, rfl, rfl⟩⟩
    · exact ⟨⟨q0, hq0le, rfl, rfl⟩, fun q => Or.inl ⟨rfl, rfl, rfl, rfl⟩⟩

end restart

/-- Restarts can happen. -/
def Restarts (P : Par σ K n) : Prop := ∃ g, P.gamma = some g ∧ g ≠ 0

/-- Values belong to points. -/
def I1 (P : Par σ K n) (f : Vec K n → Val K) (s : State σ K p n) : Prop :=
  Inv1 (Restarts P) resetFit f (· ∈ s.evals) s.pbest s.pbestfit s.gbest s.gfit

/-- Monotonicity. -/
def IM (s : State σ K p n) : Prop := InvM s.pbestfit s.gfit

/-- Lower bound of everything evaluated. -/
def I2 (f : Vec K n → Val K) (s : State σ K p n) : Prop := Inv2 f (· ∈ s.evals) s.pbestfit s.gfit

theorem I1_step {sync : Bool} (hf : P.obj.Faithful f) {it : Nat} {s s' : State σ K p n} {st : Option Int}
    (hI : I1 P f s) (h : (alg P sync).step it s = .ok (s', st)) : I1 P f s' := by
  rw [alg_step] at h
  cases sync with
  | true =>
    obtain ⟨r, hr, hst, rfl⟩ := stepSync_ok h
    exact selectionSync_inv1 hr hf.pop resetFit_ne_nan (fun y hy => List.mem_append_left _ hy)
      (fun i => List.mem_append_right _ (by simp)) hI
  | false =>
    obtain ⟨r, hr, rfl, _⟩ := stepAsync_ok h
    rw [hr]
    refine foldl_inv (fun acc : State σ K p n × Option Int => I1 P f acc.1) ?_ _ ?_
    · intro b i hb
      exact selectionAsync_inv1 hf.one (fun y hy => List.mem_append_left _ hy)
        (List.mem_append_right _ (by simp)) hb
    · exact hI

theorem I2_step {sync : Bool} (hf : P.obj.Faithful f) {it : Nat} {s s' : State σ K p n} {st : Option Int} (hI : I2 f s)
    (h : (alg P sync).step it s = .ok (s', st)) : I2 f s' := by
  rw [alg_step] at h
  cases sync with
  | true =>
    obtain ⟨r, hr, hst, rfl⟩ := stepSync_ok h
    refine selectionSync_inv2 hr hf.pop (fun y hy => ?_) hI
    rcases List.mem_append.1 hy with hy | hy
    · exact Or.inl hy
    · obtain ⟨i, rfl⟩ := List.mem_ofFn.1 hy; exact Or.inr ⟨i, rfl⟩
  | false =>
    obtain ⟨r, hr, rfl, _⟩ := stepAsync_ok h
    rw [hr]
    refine foldl_inv (fun acc : State σ K p n × Option Int => I2 f acc.1) ?_ _ ?_
    · intro b i hb
      refine selectionAsync_inv2 hf.one (fun y hy => ?_) hb
      rcases List.mem_append.1 hy with hy | hy
      · exact Or.inl hy
      · exact Or.inr (by simpa using hy)
    · exact hI

section restart
variable [FewRestarts K p]

theorem I1_post (hsrt : IsArgsort P.argsort) (hp : 0 < p) (it : Nat) {s : State σ K p n} (hI : I1 P f s) :
    I1 P f (post P it s) := by
  obtain ⟨⟨q0, hq0, hq0f, _⟩, hall⟩ := post_particle (P := P) hsrt hp it s
  obtain ⟨hb, hg, he, _⟩ := post_fields (P := P) it s
  unfold I1
  rw [hb, hg, he]
  refine ⟨fun q => ?_, fun t => ?_, hI.best⟩
  · rcases hall q with ⟨h1, h2, _⟩ | ⟨ht, h1, _⟩
    · rw [h1, h2]; exact hI.fits q
    · exact Or.inr ⟨ht, h1⟩
  · obtain ⟨j, hj⟩ := hI.low t
    refine ⟨q0, ?_⟩
    rw [hq0f]
    rcases hq0 j with h | h
    · rw [h] at hj; exact absurd hj Val.not_nan_lt
    · exact Val.lt_of_le_of_lt' h hj

theorem IM_post (hsrt : IsArgsort P.argsort) (hp : 0 < p) (it : Nat) {s : State σ K p n} (hI : IM s) :
    IM (post P it s) := by
  obtain ⟨⟨q0, hq0, hq0f, _⟩, hall⟩ := post_particle (P := P) hsrt hp it s
  obtain ⟨hb, hg, he, _⟩ := post_fields (P := P) it s
  unfold IM
  rw [hg]
  intro hn
  obtain ⟨h1, j, hj⟩ := hI hn
  refine ⟨fun q => ?_, q0, ?_⟩
  · rcases hall q with ⟨h2, _⟩ | ⟨_, h2, _⟩
    · rw [h2]; exact h1 q
    · rw [h2]; exact resetFit_ne_nan
  · rw [hq0f]
    exact Val.le_trans' ((hq0 j).resolve_left (h1 j)) hj

theorem I2_post (hsrt : IsArgsort P.argsort) (hp : 0 < p) (it : Nat) {s : State σ K p n} (h1 : I1 P f s) (hI : I2 f s) :
    I2 f (post P it s) := by
  have hM : IM s := fun _ => ⟨fun q => Val.ne_nan_right (hI.lb q), hI.att⟩
  obtain ⟨_, hatt⟩ := IM_post (P := P) hsrt hp it hM (by
    rw [(post_fields (P := P) it s).2.1]; exact hI.ne_nan)
  obtain ⟨_, hall⟩ := post_particle (P := P) hsrt hp it s
  obtain ⟨hb, hg, he, _⟩ := post_fields (P := P) it s
  unfold I2
  rw [hg] at hatt ⊢
  rw [he]
  refine ⟨fun q => ?_, hatt, hI.all⟩
  rcases hall q with ⟨h2, _⟩ | ⟨ht, h2, _⟩
  · rw [h2]; exact hI.lb q
  · rw [h2]
    obtain ⟨j, hj⟩ := h1.low ht
    exact Val.le_trans' (hI.lb j) (Val.le_of_lt' hj)

theorem mono {sync : Bool} (hsrt : IsArgsort P.argsort) (hp : 0 < p) (hf : P.obj.Faithful f) :
    (alg (p := p) P sync).Mono IM where
  post it _ h := IM_post hsrt hp it h
  step := by
    intro it s s' st hI h
    rw [alg_step] at h
    cases sync with
    | true =>
      obtain ⟨r, hr, hst, rfl⟩ := stepSync_ok h
      exact selectionSync_mono hr hf.pop hI
    | false =>
      obtain ⟨r, hr, rfl, _⟩ := stepAsync_ok h
      rw [hr]
      refine foldl_inv (fun acc : State σ K p n × Option Int => IM acc.1 ∧ sortLe acc.1.gfit s.gfit) ?_ _ ?_
      · rintro b i ⟨hb, hle⟩
        obtain ⟨h1, h2⟩ := selectionAsync_mono (candi := (mutation P (b.1.X i) (b.1.V i) (b.1.pbest i) b.1.gbest
          ((drawMat P.R.rand p n s.rng).1 i) ((drawMat P.R.rand p n (drawMat P.R.rand p n s.rng).2).1 i)).1)
          (xbest := b.1.gbest) (x := b.1.pbest) (xtol := P.xtol)
          (ftol := P.ftol) (i := i) hf.one hb
        exact ⟨h1, sortLe_trans h2 hle⟩
      · exact ⟨hI, sortLe_refl _⟩

end restart

/-- The initial population: given or drawn. -/
def initPop (P : Par σ K n) (x0 : Option (Pop K p n)) (g : σ) : Pop K p n × σ :=
  match x0 with
  | some x => (x, g)
  | none => lhs P.R p P.lower P.upper g

theorem init_ok {x0 : Option (Pop K p n)} {g : σ} {s : State σ K p n} (h : init P x0 g = .ok s) :
    ∃ i, argmin (P.obj.pop (initPop P x0 g).1) = .ok i ∧
      s = { X := (initPop P x0 g).1, V := fun _ _ => 0, pbest := (initPop P x0 g).1, gbest := (initPop P x0 g).1 i,
            pbestfit := P.obj.pop (initPop P x0 g).1,
            gfit := P.obj.pop (initPop P x0 g).1 i, pfit := P.obj.pop (initPop P x0 g).1, caller := x0,
            aliased := x0.isSome,
            evals := List.ofFn (initPop P x0 g).1, rng := (initPop P x0 g).2 } := by
  unfold init at h
  rw [bind_ok_iff] at h
  obtain ⟨i, hi, h⟩ := h
  simp only [Except.ok.injEq] at h
  exact ⟨i, hi, h.symm⟩

end core

theorem validate_ok {a : Args K} (h : validate a = .ok ()) :
    a.fn.isSome ∧ a.bounds.ndim = 2 ∧ a.badX0Shape = false ∧ 2 ≤ a.popsize ∧ a.badX0Len = false ∧
    (0 ≤ a.inertia ∧ a.inertia ≤ 1) ∧ (0 ≤ a.cognitivity ∧ a.cognitivity ≤ 4) ∧
    (0 ≤ a.sociability ∧ a.sociability ≤ 4) ∧ a.badCompetitivity = false ∧
    (a.updating = "immediate" ∨ a.updating = "deferred") ∧ a.badCallback = false := by
  unfold validate at h
  obtain ⟨h1, h⟩ := of_ite_error h
  obtain ⟨h2, h⟩ := of_ite_error h
  obtain ⟨h3, h⟩ := of_ite_error h
  obtain ⟨h4, h⟩ := of_ite_error h
  obtain ⟨h5, h⟩ := of_ite_error h
  obtain ⟨h6, h⟩ := of_ite_error h
  obtain ⟨h7, h⟩ := of_ite_error h
  obtain ⟨h8, h⟩ := of_ite_error h
  obtain ⟨h9, h⟩ := of_ite_error h
  obtain ⟨h10, h⟩ := of_ite_error h
  obtain ⟨h11, -⟩ := of_ite_error h
  refine ⟨?_, by simpa using h2, by simpa using h3, by omega, by simpa using h5, not_not.1 h6, not_not.1 h7, not_not.1 h8,
    by simpa using h9, not_not.1 h10, by simpa using h11⟩
  cases hfn : a.fn with
  | none => simp [hfn] at h1
  | some _ => rfl

/-- A completed call of `minimize`. -/
theorem minimize_ok [IntParts K] [NumFns K] {env : Env} (he : env.Ok) {R : Rng σ K} {srt : Argsort K} {fuel : Nat}
    {a : Args K} {g : σ} {o : Output σ K a.p a.ndim} (h : minimize env R srt fuel a g = .ok o) :
    ∃ (fn : Vec K a.ndim → Val K) (P : Par σ K a.ndim) (s0 : State σ K a.p a.ndim)
      (r : Result K a.ndim) (L : Loop (State σ K a.p a.ndim) K a.p a.ndim),
      a.fn = some fn ∧ validate a = .ok () ∧ P.obj.Faithful fn ∧
      consMap a.constraints = .ok P.cons ∧ P.R = R ∧ P.argsort = srt ∧ P.w = a.inertia ∧ P.c1 = a.cognitivity ∧
      P.c2 = a.sociability ∧ P.gamma = a.competitivity ∧ P.lower = a.lower ∧
      P.upper = a.upper ∧ P.maxiter = a.maxiter ∧ P.xtol = a.xtol ∧ P.ftol = a.ftol ∧
      init P a.x0Pop (a.seeded R g) = .ok s0 ∧
      (alg P a.sync).run a.cfg fuel s0 = .ok (r, L) ∧
      o = mkOut r L State.evals State.caller State.rng := by
  unfold minimize at h
  rw [bind_ok_iff] at h
  obtain ⟨_, hv, h⟩ := h
  cases hfn : a.fn with
  | none => rw [hfn] at h; simp at h
  | some fn =>
    rw [hfn] at h
    dsimp only at h
    obtain ⟨obj, hobj, h⟩ := optimizer_ok he h
    rw [bind_ok_iff] at h
    obtain ⟨_, _, h⟩ := h
    rw [bind_ok_iff] at h
    obtain ⟨cons, hcons, h⟩ := h
    unfold cpso at h
    rw [bind_ok_iff] at h
    obtain ⟨s0, hs0, h⟩ := h
    rw [bind_ok_iff] at h
    obtain ⟨⟨r, L⟩, hrun, h⟩ := h
    simp only [Except.ok.injEq] at h
    exact ⟨fn, _, s0, r, L, rfl, hv, hobj, hcons, rfl, rfl, rfl, rfl, rfl, rfl, rfl, rfl, rfl, rfl, rfl,
      hs0, hrun, h.symm⟩

end Stochopy.CPSO

namespace Stochopy.CPSO
variable {K σ : Type} [AddZeroClass K] [One K] [Sub K] [Mul K] [Div K] [Neg K] [NatCast K] [IntCast K] [Pow K ℕ] [ArrayOps K] [LinearOrder K] {p n : Nat} [IntParts K] [NumFns K]
variable {P : Par σ K n} {f : Vec K n → Val K}

/-- After a step the values of the last candidates are the values of the current positions. -/
theorem step_pfit {sync : Bool} (hf : P.obj.Faithful f) {it : Nat} {s s' : State σ K p n} {st : Option Int}
    (h : (alg P sync).step it s = .ok (s', st)) : ∀ i, s'.pfit i = f (s'.X i) := by
  rw [alg_step] at h
  cases sync with
  | true =>
    obtain ⟨r, hr, hst, rfl⟩ := stepSync_ok h
    exact fun i => (selectionSync_ok hr hf.pop).1 i
  | false =>
    obtain ⟨r, hr, rfl, _⟩ := stepAsync_ok h
    have := foldl_inv_idx (List.finRange p)
      (fun k (acc : State σ K p n × Option Int) => ∀ i : Fin p, i.val < k → acc.1.pfit i = f (acc.1.X i))
      (f := rowAsync P (drawMat P.R.rand p n s.rng).1 (drawMat P.R.rand p n (drawMat P.R.rand p n s.rng).2).1) (by
        intro k hk b hb i hi
        simp only [rowAsync, List.getElem_finRange]
        by_cases hik : i.val = k
        · have : i = Fin.cast (by simp) (⟨k, hk⟩ : Fin (List.finRange p).length) := by ext; simpa using hik
          subst this
          simp only [Function.update_self]
          exact (selectionAsync_cases (i := Fin.cast (by simp) (⟨k, hk⟩ : Fin (List.finRange p).length)) hf.one).1
        · have hne : i ≠ Fin.cast (by simp) (⟨k, hk⟩ : Fin (List.finRange p).length) := by
            intro he; exact hik (by rw [he]; rfl)
          rw [Function.update_of_ne hne, Function.update_of_ne hne]
          exact hb i (by omega))
      (b := ({ s with rng := (drawMat P.R.rand p n (drawMat P.R.rand p n s.rng).2).2 }, none)) (by intro i hi; omega)
    rw [← hr] at this
    intro i
    exact this i (by simp)

end Stochopy.CPSO
