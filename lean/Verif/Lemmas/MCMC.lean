import Verif.Model.MCMC
import Verif.Lemmas.Sampling
import Mathlib.Data.Nat.ModEq

/-! # The Metropolis-Hastings loop as a sequence of moves -/

set_option linter.unusedSectionVars false

namespace Stochopy.MCMC
open Sampling Spec
variable {K σ : Type} [Zero K] [One K] [Add K] [Sub K] [Mul K] [Div K] [Neg K] [NatCast K] [IntCast K] [Pow K ℕ] [ArrayOps K] [LinearOrder K] [NumFns K] {n : Nat}

/-- The number of blocks. -/
def nblocks (n per : Nat) : Nat := (n + per - 1) / per

theorem starts_eq (n : Nat) {per : Nat} (hp : 0 < per) :
    starts n per = (List.range (nblocks n per)).map fun b => b * per := by
  unfold nblocks
  induction n with
  | zero =>
    have : (0 + per - 1) / per = 0 := Nat.div_eq_of_lt (by omega)
    rw [this]; rfl
  | succ n ih =>
    unfold starts at ih ⊢
    rw [List.range_succ, List.filter_append, ih]
    by_cases h : n % per = 0
    · obtain ⟨q, rfl⟩ := Nat.dvd_of_mod_eq_zero h
      have h1 : (per * q + per - 1) / per = q := by
        rw [show per * q + per - 1 = (per - 1) + per * q by omega, Nat.add_mul_div_left _ _ hp,
          Nat.div_eq_of_lt (by omega), zero_add]
      have h2 : (per * q + 1 + per - 1) / per = q + 1 := by
        rw [show per * q + 1 + per - 1 = 0 + per * (q + 1) by rw [Nat.mul_succ]; omega, Nat.add_mul_div_left _ _ hp]
        simp
      rw [h1, h2, List.range_succ, List.map_append]
      simp [Nat.mul_comm]
    · have h3 : (n + 1 + per - 1) / per = (n + per - 1) / per := by
        rw [show n + 1 + per - 1 = (n + per - 1) + 1 by omega, Nat.succ_div]
        rw [if_neg, add_zero]
        intro hd
        apply h
        rw [show n + per - 1 + 1 = n + per by omega] at hd
        exact Nat.mod_eq_zero_of_dvd ((Nat.dvd_add_left (dvd_refl per)).1 hd)
      rw [h3]
      simp [h]

theorem starts_length (n : Nat) {per : Nat} (hp : 0 < per) : (starts n per).length = nblocks n per := by
  rw [starts_eq n hp]; simp

theorem starts_get (n : Nat) {per : Nat} (hp : 0 < per) {b : Nat} (hb : b < (starts n per).length) :
    (starts n per)[b] = b * per := by
  have hb' := hb
  rw [starts_length n hp] at hb'
  simp only [starts_eq n hp, List.getElem_map, List.getElem_range]

variable (P : Par σ K n)

/-- The move made at iteration `i`. -/
def step (i : Nat) (s : State σ K n) : Except PyErr (State σ K n) := block P (i % nblocks n P.per * P.per) s

variable {P}

theorem push_len (s : State σ K n) (acc : Option (Vec (Val K) n × Val K)) :
    (s.push acc).xs.length = s.xs.length + 1 := by
  cases acc with
  | none => simp [State.push]
  | some q => simp [State.push]

theorem block_len {j : Nat} {s s' : State σ K n} (h : block P j s = .ok s') : s'.xs.length = s.xs.length + 1 := by
  unfold block at h
  dsimp only at h
  split_ifs at h <;> (cases h; exact push_len _ _)

/-- Running the rest of a sweep. -/
theorem sweep_eq (hp : 0 < P.per) (b : Nat) : ∀ (i : Nat) (s : State σ K n), s.xs.length = i + 1 → i + 1 < P.maxiter →
    b < nblocks n P.per → i % nblocks n P.per = b →
    sweep P ((starts n P.per).drop b) s =
      steps (step P) i (min (nblocks n P.per - b) (P.maxiter - (i + 1))) s := by
  generalize hd : nblocks n P.per - b = d
  induction d generalizing b with
  | zero => intro i s _ _ hb _; omega
  | succ d ih =>
    intro i s hs hi hb hm
    have hb' : b < (starts n P.per).length := by rw [starts_length n hp]; exact hb
    rw [List.drop_eq_getElem_cons hb', starts_get n hp hb']
    obtain ⟨e, he⟩ : ∃ e, P.maxiter - (i + 1) = e + 1 := ⟨P.maxiter - (i + 1) - 1, by omega⟩
    rw [he, show min (d + 1) (e + 1) = min d e + 1 by omega]
    unfold sweep
    simp only [steps]
    have hst : step P i s = block P (b * P.per) s := by unfold step; rw [hm]
    rw [hst]
    cases hbl : block P (b * P.per) s with
    | error e => rfl
    | ok s1 =>
      simp only [ok_bind']
      have hl := block_len hbl
      by_cases hmx : s1.xs.length = P.maxiter
      · rw [if_pos hmx]
        have : e = 0 := by omega
        rw [this, Nat.min_zero]; rfl
      · rw [if_neg hmx]
        by_cases hd0 : d = 0
        · subst hd0
          rw [List.drop_eq_nil_of_le (by rw [starts_length n hp]; omega), Nat.zero_min]
          rfl
        · rw [ih (b + 1) (by omega) (i + 1) s1 (by omega) (by omega) (by omega)]
          · rw [show P.maxiter - (i + 1 + 1) = e by omega]
          · rw [Nat.add_mod, hm, Nat.mod_eq_of_lt (a := 1) (by omega), Nat.mod_eq_of_lt (by omega)]

theorem steps_len {i k : Nat} {s s' : State σ K n} (h : steps (step P) i k s = .ok s') :
    s'.xs.length = s.xs.length + k := by
  have := steps_inv (f := step P) (I := fun j t => t.xs.length + i = s.xs.length + j)
    (by intro j t t' hj ht; have := block_len ht; omega) k i (s := s) (s' := s') (by simp) h
  omega

/-- The loop is the sequence of all moves (or the first exception). -/
theorem loop_eq (hp : 0 < P.per) (hn : 0 < n) : ∀ (fuel i : Nat) (s : State σ K n), s.xs.length = i + 1 →
    i % nblocks n P.per = 0 → i + 1 ≤ P.maxiter → P.maxiter ≤ i + 1 + fuel →
    loop P fuel s = steps (step P) i (P.maxiter - (i + 1)) s := by
  have hnb : 0 < nblocks n P.per := by
    unfold nblocks
    exact Nat.div_pos (by omega) hp
  intro fuel
  induction fuel with
  | zero =>
    intro i s hs _ h1 h2
    unfold loop
    rw [if_neg (by omega), show P.maxiter - (i + 1) = 0 by omega]; rfl
  | succ fuel ih =>
    intro i s hs hm h1 h2
    unfold loop
    by_cases hlt : s.xs.length < P.maxiter
    · rw [if_pos hlt]
      have hsw := sweep_eq hp 0 i s hs (by omega) hnb hm
      rw [List.drop_zero, Nat.sub_zero] at hsw
      rw [hsw]
      by_cases hc : nblocks n P.per ≤ P.maxiter - (i + 1)
      · rw [Nat.min_eq_left hc]
        obtain ⟨e, he⟩ := Nat.exists_eq_add_of_le hc
        rw [he, steps_add]
        cases hok : steps (step P) i (nblocks n P.per) s with
        | error e => rfl
        | ok s1 =>
          have hl := steps_len hok
          simp only [ok_bind']
          rw [ih (i + nblocks n P.per) s1 (by omega) (by rw [Nat.add_mod_right]; exact hm) (by omega) (by omega)]
          congr 1; omega
      · rw [Nat.min_eq_right (by omega)]
        cases hst : steps (step P) i (P.maxiter - (i + 1)) s with
        | error e => rfl
        | ok s1 =>
          rw [ok_bind']
          have hl := steps_len hst
          have hdone : ¬ s1.xs.length < P.maxiter := by omega
          cases fuel with
          | zero => unfold loop; rw [if_neg hdone]
          | succ f => unfold loop; rw [if_neg hdone]
    · rw [if_neg hlt, show P.maxiter - (i + 1) = 0 by omega]; rfl

/-- The proposal made from `x` at iteration `i`, with the draws starting at the generator state `g`. -/
def proposal (P : Par σ K n) (i : Nat) (g : σ) (x : Vec (Val K) n) : Vec (Val K) n := fun c =>
  if c.val / P.per = i % nblocks n P.per then
    x c + .fin ((P.R.randn ((fun g => (P.R.randn g).2)^[c.val % P.per] g)).1 * P.step c)
  else x c

theorem perturb_eq (hp : 0 < P.per) {b i : Nat} (hb : i % nblocks n P.per = b) (g : σ) (x : Vec (Val K) n) :
    perturb P.step (b * P.per) (b * P.per + P.per - 1)
      (fun k => if h : k < P.per then (drawVec P.R.randn P.per g).1 ⟨k, h⟩ else 0) x = proposal P i g x := by
  funext c
  unfold perturb proposal
  rw [hb]
  have hiff : (b * P.per ≤ c.val ∧ c.val ≤ b * P.per + P.per - 1) ↔ c.val / P.per = b := by
    rw [Nat.div_eq_iff hp]
  by_cases hc : c.val / P.per = b
  · rw [if_pos (hiff.2 hc), if_pos hc]
    have h1 := hiff.2 hc
    have h2 : c.val - b * P.per = c.val % P.per := by
      have := Nat.div_add_mod c.val P.per
      rw [hc, Nat.mul_comm] at this
      omega
    rw [h2]
    dsimp only
    rw [dif_pos (Nat.mod_lt _ hp)]
    rfl
  · rw [if_neg (fun h => hc (hiff.1 h)), if_neg hc]

/-- A move, in a block that fits. -/
theorem step_fits (hp : 0 < P.per) {i : Nat} (hfit : i % nblocks n P.per * P.per + P.per ≤ n) (s : State σ K n) :
    let x := proposal P i s.rng s.xcur
    let g := (fun g => (P.R.randn g).2)^[P.per] s.rng
    step P i s = .ok
      (if truthy (inSearchSpace x P.lower P.upper P.constraints) then
        ((({ s with evals := s.evals ++ [x], rng := (P.R.rand g).2 } : State σ K n).push
          (if metropolis (s.fcur - P.fn x) (P.R.rand g).1 then some (x, P.fn x) else none)).notify
            P.hasCallback P.returnAll)
      else ((({ s with evals := s.evals ++ [], rng := g } : State σ K n).push none).notify P.hasCallback P.returnAll)) := by
  intro x g
  unfold step block
  dsimp only
  have e1 : min n (i % nblocks n P.per * P.per + P.per - 1) = i % nblocks n P.per * P.per + P.per - 1 := by omega
  rw [e1]
  have e2 : i % nblocks n P.per * P.per + P.per - 1 - i % nblocks n P.per * P.per + 1 = P.per := by omega
  rw [e2]
  have e3 : min n (i % nblocks n P.per * P.per + P.per - 1 + 1) - i % nblocks n P.per * P.per = P.per := by omega
  rw [e3, if_neg (by simp), perturb_eq hp rfl s.rng s.xcur]
  have e4 : (drawVec P.R.randn P.per s.rng).2 = g := rfl
  rw [e4]
  show (if truthy (inSearchSpace x P.lower P.upper P.constraints) = true then _ else _) = _
  split_ifs
  · rfl
  · rfl
  · rw [List.append_nil]

/-- A block that does not fit raises. -/
theorem step_error (hp : 0 < P.per) (hn : 0 < n) {i : Nat} (hfit : n < i % nblocks n P.per * P.per + P.per)
    (s : State σ K n) : step P i s = .error .valueError := by
  have hlt : i % nblocks n P.per * P.per < n := by
    have hnb : 0 < nblocks n P.per := by
      unfold nblocks
      exact Nat.div_pos (by omega) hp
    have h1 := Nat.mod_lt i hnb
    have h2 : (i % nblocks n P.per + 1) * P.per ≤ nblocks n P.per * P.per := Nat.mul_le_mul_right _ h1
    have h3 : nblocks n P.per * P.per ≤ n + P.per - 1 := Nat.div_mul_le_self _ _
    rw [Nat.add_mul] at h2
    omega
  unfold step block
  dsimp only
  rw [if_pos (by omega)]

/-- The generator before iteration `k`. -/
def gen (P : Par σ K n) (g : σ) (k : Nat) : σ := genAt P.R P.per (!decide (P.constraints = some "Reject")) g k

/-- What is true of the move made at iteration `k` with the generator in state `g`. -/
def MoveOk (P : Par σ K n) (k : Nat) (g : σ) (m : Move (Vec (Val K) n)) : Prop :=
  k % nblocks n P.per * P.per + P.per ≤ n ∧ m.prop = proposal P k g m.old ∧
    m.accepted = (truthy (inSearchSpace m.prop P.lower P.upper P.constraints) &&
      metropolis (P.fn m.old - P.fn m.prop) (P.R.rand ((fun g => (P.R.randn g).2)^[P.per] g)).1)

/-- Invariant of the loop. -/
def IM (P : Par σ K n) (x1 : Vec (Val K) n) (g : σ) (i : Nat) (s : State σ K n) : Prop :=
  s.rng = gen P g i ∧
  ∃ ms, Inv P.fn P.hasCallback P.returnAll x1 i s ms ∧ (∀ k m, ms[k]? = some m → MoveOk P k (gen P g k) m) ∧
    s.evals = x1 :: if P.constraints = some "Reject" then [] else ms.map Move.prop

theorem IM_step (hp : 0 < P.per) (hn : 0 < n) {x1 : Vec (Val K) n} {g : σ} {i : Nat} {s s' : State σ K n}
    (h : IM P x1 g i s) (hs : step P i s = .ok s') : IM P x1 g (i + 1) s' := by
  obtain ⟨hg, ms, hI, hm, hev⟩ := h
  by_cases hfit : i % nblocks n P.per * P.per + P.per ≤ n
  swap
  · rw [step_error hp hn (by omega)] at hs; cases hs
  have hst := step_fits (P := P) hp hfit s
  dsimp only at hst
  rw [hst, truthy_inSearchSpace] at hs
  have hms : ∀ b : Bool, b = (truthy (inSearchSpace (proposal P i s.rng s.xcur) P.lower P.upper P.constraints) &&
        metropolis (s.fcur - P.fn (proposal P i s.rng s.xcur))
          (P.R.rand ((fun g => (P.R.randn g).2)^[P.per] s.rng)).1) →
      ∀ k m, (ms ++ [{ old := s.xcur, prop := proposal P i s.rng s.xcur, accepted := b }])[k]? = some m →
        MoveOk P k (gen P g k) m := by
    intro b hb k m hk
    rw [getElem?_snoc] at hk
    rcases hk with hk | ⟨hk, rfl⟩
    · exact hm k m hk
    · rw [hI.moves] at hk
      subst hk
      rw [← hg]
      refine ⟨hfit, rfl, ?_⟩
      rw [← hI.fcur]; exact hb
  rw [truthy_inSearchSpace] at hms
  by_cases hrej : P.constraints = some "Reject"
  · rw [if_neg (by simp [hrej])] at hs
    cases hs
    refine ⟨?_, _, hI.step _ _ (proposal P i s.rng s.xcur) false, hms _ (by simp [hrej]), ?_⟩
    · rw [push_notify_rng]
      simp only [gen, genAt]
      rw [if_neg (by simp [hrej]), hg]
      rfl
    · rw [push_notify_evals, if_pos hrej]
      rw [if_pos hrej] at hev
      rw [hev, List.append_nil]
  · rw [if_pos (by simp [hrej])] at hs
    cases hs
    refine ⟨?_, _, hI.step _ _ _ _, hms _ (by simp [hrej]), ?_⟩
    · rw [push_notify_rng]
      simp only [gen, genAt]
      rw [if_pos (by simp [hrej]), hg]
      rfl
    · rw [push_notify_evals, if_neg hrej]
      rw [if_neg hrej] at hev
      rw [hev, List.map_append]
      rfl

theorem loop_mono : ∀ (f k : Nat) {s s' : State σ K n}, loop P f s = .ok s' → loop P (f + k) s = .ok s' := by
  intro f
  induction f with
  | zero =>
    intro k s s' h
    unfold loop at h
    by_cases hl : s.xs.length < P.maxiter
    · rw [if_pos hl] at h; cases h
    · rw [if_neg hl] at h
      cases h
      cases k with
      | zero => unfold loop; rw [if_neg hl]
      | succ k => rw [Nat.zero_add]; unfold loop; rw [if_neg hl]
  | succ f ih =>
    intro k s s' h
    rw [show f + 1 + k = (f + k) + 1 by omega]
    unfold loop at h ⊢
    by_cases hl : s.xs.length < P.maxiter
    · rw [if_pos hl] at h ⊢
      obtain ⟨s1, h1, h2⟩ := bind_ok_iff.1 h
      rw [h1, ok_bind']
      exact ih k h2
    · rw [if_neg hl] at h ⊢
      exact h

theorem loop_empty (hn : n = 0) : ∀ (f : Nat) {s s' : State σ K n}, loop P f s = .ok s' →
    P.maxiter ≤ s.xs.length ∧ s' = s := by
  intro f
  induction f with
  | zero =>
    intro s s' h
    unfold loop at h
    by_cases hl : s.xs.length < P.maxiter
    · rw [if_pos hl] at h; cases h
    · rw [if_neg hl] at h; cases h; exact ⟨by omega, rfl⟩
  | succ f ih =>
    intro s s' h
    unfold loop at h
    by_cases hl : s.xs.length < P.maxiter
    · rw [if_pos hl] at h
      have : starts n P.per = [] := by subst hn; rfl
      rw [this] at h
      exact ih h
    · rw [if_neg hl] at h; cases h; exact ⟨by omega, rfl⟩

theorem loop_ok (hp : 0 < P.per) {f : Nat} {s s' : State σ K n} (hs : s.xs.length = 1) (hm : 1 ≤ P.maxiter)
    (h : loop P f s = .ok s') : steps (step P) 0 (P.maxiter - 1) s = .ok s' ∧ (n = 0 → P.maxiter = 1) := by
  rcases Nat.eq_zero_or_pos n with hn | hn
  · obtain ⟨h1, rfl⟩ := loop_empty hn f h
    rw [hs] at h1
    rw [show P.maxiter - 1 = 0 by omega]
    exact ⟨rfl, fun _ => by omega⟩
  · have := loop_mono f P.maxiter h
    rw [loop_eq hp hn (f + P.maxiter) 0 s hs (Nat.zero_mod _) (by omega) (by omega)] at this
    exact ⟨this, fun h0 => by omega⟩

/-- The parameters of the loop of a call. -/
def par [IntParts K] (R : Rng σ K) (a : Args K) (fn : Vec (Val K) a.ndim → Val K) (st : Vec K a.ndim) : Par σ K a.ndim :=
  { R := R, fn := fn, lower := a.lower, upper := a.upper, step := st, per := perIter a.perc a.ndim,
    constraints := a.constraints, maxiter := a.maxiter.toNat, hasCallback := a.callback.isSome,
    returnAll := a.returnAll }

theorem perIter_pos [IntParts K] (perc : K) (n : Nat) : 0 < perIter perc n := by
  unfold perIter
  have : (1 : Int) ≤ max 1 (pyInt (perc * (n : K))) := le_max_left _ _
  omega

/-- What a completed call did. -/
theorem sample_ok [IntParts K] {R : Rng σ K} {fuel : Nat} {a : Args K} {g : σ} {o : Output σ K a.ndim}
    (h : (sample R fuel a g).1 = .ok o) :
    ∃ fn st s x g', a.fn = some fn ∧ a.checkStart = .ok () ∧ a.stepsize.scale a.lower a.upper = .ok st ∧
      (0 ≤ a.perc ∧ a.perc ≤ 1) ∧ a.badCallback = false ∧ 0 < a.maxiter ∧
      a.first R (a.seeded R g) = .ok (x, g') ∧ IM (par R a fn st) x g' (a.maxiter.toNat - 1) s ∧
      (a.ndim = 0 → a.maxiter = 1) ∧ o = finish a.maxiter a.returnAll s := by
  unfold sample at h
  cases hfn : a.fn with
  | none => rw [hfn] at h; cases h
  | some fn =>
    cases hch : a.checkStart with
    | error e => rw [hfn, hch] at h; cases h
    | ok u =>
      cases hsc : a.stepsize.scale a.lower a.upper with
      | error e => rw [hfn, hch, hsc] at h; cases h
      | ok st =>
        rw [hfn, hch, hsc] at h
        dsimp only at h
        unfold rest at h
        by_cases hpc : 0 ≤ a.perc ∧ a.perc ≤ 1
        swap
        · rw [if_pos hpc] at h; cases h
        rw [if_neg (by simpa using hpc)] at h
        cases hbc : a.badCallback with
        | true => rw [hbc] at h; cases h
        | false =>
          rw [hbc, if_neg (by simp)] at h
          obtain ⟨s0, h0, h⟩ := bind_ok_iff.1 h
          obtain ⟨s1, h1, h⟩ := bind_ok_iff.1 h
          cases h
          obtain ⟨hm, x, g', hx, hg0, hev, _, hI⟩ := start_inv h0
          have hpp := perIter_pos a.perc a.ndim
          obtain ⟨hst, hn0⟩ := loop_ok (P := par R a fn st) hpp (by have := hI.len; simpa using this)
            (by show 1 ≤ a.maxiter.toNat; omega) h1
          have hn0' : a.ndim = 0 → a.maxiter = 1 := by
            intro hz
            have : a.maxiter.toNat = 1 := hn0 hz
            omega
          refine ⟨fn, st, s1, x, g', rfl, rfl, rfl, hpc, rfl, hm, hx, ?_, hn0', rfl⟩
          rcases Nat.eq_zero_or_pos a.ndim with hz | hpos
          · have h2 : a.maxiter.toNat = 1 := hn0 hz
            have h3 : (par R a fn st).maxiter = 1 := h2
            rw [h3] at hst
            cases hst
            rw [h2]
            exact ⟨hg0, [], hI, by intro k m hk; simp at hk, by rw [hev]; simp⟩
          · have := steps_inv (f := step (par R a fn st)) (I := IM (par R a fn st) x g')
              (fun i s s' => IM_step (P := par R a fn st) hpp hpos) (a.maxiter.toNat - 1) 0
              ⟨hg0, [], hI, by intro k m hk; simp at hk, by rw [hev]; simp⟩ hst
            rwa [Nat.zero_add] at this

end Stochopy.MCMC
