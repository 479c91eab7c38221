import Verif.Lemmas.Swarm
import Verif.Props.Box

/-!
# C20–C22, C26, C61: what a generation does
-/

set_option linter.unusedSectionVars false

namespace Stochopy
open Spec Concrete
variable {K σ : Type} [Field K] [LinearOrder K] [IsStrictOrderedRing K] [FloorRing K]
variable {env : Env} {R : Rng σ K} {srt : Argsort K} {fuel : Nat} {g : σ}

theorem sync_iff {w : Int} {b : Option String} {u : String} :
    (u == "deferred" || !(w == 0 || w == 1) || b == some "mpi") = true ↔ Deferred u w b := by
  simp only [Deferred, Bool.or_eq_true, Bool.not_eq_true', beq_iff_eq, Bool.or_eq_false_iff, beq_eq_false_iff_ne]
  tauto

/-! ## C20–C22 for DE -/

/-- Every generation of a DE run is a textbook generation of differential evolution: distinct donors (`Mutant`),
binomial crossover (`Binomial`), greedy selection, seen through two consecutive callbacks and the evaluations
between them. -/
theorem C21_de (he : env.Ok) (hR : R.Ok) {a : DE.Args K} (hb : ∀ j, lo a.toCommonArgs j ≤ hi a.toCommonArgs j)
    {fn : Vec K a.ndim → Val K} (hfn : a.fn = some fn) {deferred : Bool}
    (hd : deferred = true ↔ Deferred a.updating a.workers a.backend) {o : Output σ K a.p a.ndim}
    (h : DE.minimize env R fuel a g = .ok o) {k : Nat} {b b' : CB K a.p a.ndim} (hk : o.cbs[k]? = some b)
    (hk' : o.cbs[k + 1]? = some b') :
    ∃ ys : Pop K a.p a.ndim, (o.evals.drop ((k + 1) * a.p)).take a.p = List.ofFn ys ∧
      DEGeneration fn deferred a.strategy a.mutation a.recombination a.constraints (lo a.toCommonArgs)
        (hi a.toCommonArgs) b.X b'.X b.x b'.x ys := by
  obtain ⟨fn', P, s0, r, L, hfn', hv, hobj, hcons, hPR, hF, hCR, hlo, hup, hm, hx, hft, hstr, hinit, hrun, rfl⟩ :=
    DE.minimize_ok he h
  obtain rfl : fn = fn' := by rw [hfn] at hfn'; exact Option.some.inj hfn'
  obtain rfl : deferred = a.sync := by
    rw [Bool.eq_iff_iff, hd, ← sync_iff]; rfl
  have hl : lo a.toCommonArgs = P.lower := hlo.symm
  have hu : hi a.toCommonArgs = P.upper := hup.symm
  rw [hl, hu] at hb ⊢
  have hR' : P.R.Ok := hPR ▸ hR
  have hs := (DE.validate_ok hv).2.2.2.2.2.2.2.2.1
  obtain ⟨i, hi, rfl⟩ := DE.init_ok hinit
  have hI0 : DE.IE fn (⟨(DE.initPop P a.x0Pop (a.seeded R g)).1, (DE.initPop P a.x0Pop (a.seeded R g)).1 i,
      P.obj.pop (DE.initPop P a.x0Pop (a.seeded R g)).1, P.obj.pop (DE.initPop P a.x0Pop (a.seeded R g)).1 i,
      P.obj.pop (DE.initPop P a.x0Pop (a.seeded R g)).1, a.x0Pop,
      List.ofFn (DE.initPop P a.x0Pop (a.seeded R g)).1, (DE.initPop P a.x0Pop (a.seeded R g)).2⟩ :
      DE.State σ K a.p a.ndim) := ⟨fun q => hobj.pop _ q, hobj.pop _ _⟩
  have hlaw := DE.laws (P := P) a.sync hstr
  obtain ⟨s, s', st, hI, hn, e1, e2, e3, e4, e5, e6, hlen, hpre⟩ := run_pair hlaw (by simp) hrun (DE.IE fn) hI0
    (fun _ _ _ _ _ hI hs' => (DE.generation hobj hR' hb hs hcons hI hs').1) (fun _ _ _ h => h) hk hk'
  have hn' : (DE.alg P a.sync).step (k + 1 + 1) s = .ok (s', st) := by
    unfold Alg.next at hn
    split_ifs at hn <;> exact hn
  obtain ⟨hI', ys, hev, hgen⟩ := DE.generation hobj hR' hb hs hcons hI hn'
  refine ⟨ys, slice_of_prefix hlen hev hpre, ?_⟩
  rw [e1, e2, e4, e5, ← hF, ← hCR]
  exact hgen

/-- Donors are distinct and differ from the individual they are used for. -/
theorem C20_de (he : env.Ok) (hR : R.Ok) {a : DE.Args K} (hb : ∀ j, lo a.toCommonArgs j ≤ hi a.toCommonArgs j)
    {o : Output σ K a.p a.ndim} (h : DE.minimize env R fuel a g = .ok o) {k : Nat} {b b' : CB K a.p a.ndim}
    (hk : o.cbs[k]? = some b) (hk' : o.cbs[k + 1]? = some b') (i : Fin a.p) :
    ∃ X : Pop K a.p a.ndim, (∀ q, X q = b.X q ∨ X q = b'.X q) ∧ (Deferred a.updating a.workers a.backend → X = b.X) ∧
      ∃ y v, (Deferred a.updating a.workers a.backend → y = b.x) ∧ Mutant a.strategy a.mutation i X y v := by
  obtain ⟨fn, hfn⟩ : ∃ fn, a.fn = some fn := by
    obtain ⟨fn', P, s0, r, L, hfn', _⟩ := DE.minimize_ok he h
    exact ⟨fn', hfn'⟩
  obtain ⟨ys, _, hgen⟩ := C21_de (deferred := a.sync) he hR hb hfn sync_iff h hk hk'
  obtain ⟨y, v, u, hy, hm, _⟩ := hgen.trial i
  refine ⟨_, ?_, ?_, y, v, ?_, hm⟩
  · intro q; unfold seen; split_ifs
    · exact Or.inl rfl
    · dsimp only; split_ifs
      · exact Or.inr rfl
      · exact Or.inl rfl
  · intro hd; rw [← sync_iff] at hd
    have : a.sync = true := hd
    rw [this]; rfl
  · intro hd; rw [← sync_iff] at hd
    have : a.sync = true := hd
    rw [this] at hy; exact hy

/-- Elitism: no member gets worse, and a member only changes to the trial vector evaluated for it. -/
theorem C22_de (he : env.Ok) (hR : R.Ok) {a : DE.Args K} (hb : ∀ j, lo a.toCommonArgs j ≤ hi a.toCommonArgs j)
    {fn : Vec K a.ndim → Val K} (hfn : a.fn = some fn) {o : Output σ K a.p a.ndim}
    (h : DE.minimize env R fuel a g = .ok o) {k : Nat} {b b' : CB K a.p a.ndim} (hk : o.cbs[k]? = some b)
    (hk' : o.cbs[k + 1]? = some b') (i : Fin a.p) :
    ∃ y, o.evals[(k + 1) * a.p + i]? = some y ∧
      (b'.X i = b.X i ∨ b'.X i = y ∧ fn y ≤ fn (b.X i)) ∧ (fn y < fn (b.X i) → b'.X i = y) := by
  obtain ⟨ys, hys, hgen⟩ := C21_de (deferred := a.sync) he hR hb hfn sync_iff h hk hk'
  refine ⟨ys i, ?_, ?_⟩
  · have : (List.ofFn ys)[i.val]? = some (ys i) := by
      rw [List.getElem?_ofFn, dif_pos i.2]
    rw [← hys, List.getElem?_take_of_lt i.2, List.getElem?_drop] at this
    exact this
  · have hlt : fn (ys i) < fn (b.X i) → Improves a.sync (fn (ys i)) (fn (b.X i)) := by
      intro hl; unfold Improves; split_ifs
      · exact hl
      · exact Val.le_of_lt' hl
    have hle : Improves a.sync (fn (ys i)) (fn (b.X i)) → fn (ys i) ≤ fn (b.X i) := by
      unfold Improves; split_ifs
      · exact Val.le_of_lt'
      · exact id
    rcases hgen.select i with ⟨h1, h2⟩ | ⟨h1, h2⟩
    · exact ⟨Or.inr ⟨h2, hle h1⟩, fun _ => h2⟩
    · exact ⟨Or.inl h2, fun hl => absurd (hlt hl) h1⟩

/-- Three generations of the example; the second individual is replaced in the third. -/
example : ∃ (o : Output Nat ℚ deArgs.p deArgs.ndim) (b b' : CB ℚ deArgs.p deArgs.ndim),
    DE.minimize Concrete.env rng 10 deArgs 0 = .ok o ∧ o.cbs[1]? = some b ∧
    o.cbs[2]? = some b' ∧ ∃ i, b.X i ≠ b'.X i := by
  obtain ⟨o, ho, ht⟩ := returns_iff (r := DE.minimize Concrete.env rng 10 deArgs 0) (t := fun o =>
    match o.cbs[1]?, o.cbs[2]? with
    | some b, some b' => decide (∃ i, b.X i ≠ b'.X i)
    | _, _ => false) (by decide +kernel)
  revert ht
  split
  · rename_i b b' hb hb'
    exact fun ht => ⟨o, b, b', ho, hb, hb', of_decide_eq_true ht⟩
  · simp

/-! ## C22, C26, C61 for the swarms -/

section
variable [NumFns K] [LawfulNumFns K]

/-- The whole run is a textbook particle swarm run, with restarts as described by `SwarmRestart`. -/
theorem C61_cpso (he : env.Ok) (hR : R.Ok) (hsrt : IsArgsort srt) {a : CPSO.Args K}
    {fn : Vec K a.ndim → Val K} (hfn : a.fn = some fn) {deferred : Bool}
    (hd : deferred = true ↔ Deferred a.updating a.workers a.backend) {o : Output σ K a.p a.ndim}
    (h : CPSO.minimize env R srt fuel a g = .ok o) :
    ∃ S, SwarmRun fn deferred a.inertia a.cognitivity a.sociability a.constraints (lo a.toCommonArgs)
      (hi a.toCommonArgs) (.fin (10 ^ 30)) (∃ gm, a.competitivity = some gm ∧ gm ≠ 0) o S := by
  obtain ⟨fn', P, s0, r, L, hfn', hv, hobj, hcons, hPR, rfl, hw, hc1, hc2, hgam, hlo, hup, hm, hx, hft, hinit, hrun, rfl⟩ :=
    CPSO.minimize_ok he h
  obtain rfl : fn = fn' := by rw [hfn] at hfn'; exact Option.some.inj hfn'
  obtain rfl : deferred = a.sync := by
    rw [Bool.eq_iff_iff, hd, ← sync_iff]; rfl
  have hl : lo a.toCommonArgs = P.lower := hlo.symm
  have hu : hi a.toCommonArgs = P.upper := hup.symm
  rw [hl, hu, ← hw, ← hc1, ← hc2, ← hgam]
  have hR' : P.R.Ok := hPR ▸ hR
  have hp : 2 ≤ a.p := by
    have := (CPSO.validate_ok hv).2.2.2.1
    show 2 ≤ a.popsize.toNat
    omega
  obtain ⟨i, hi, rfl⟩ := CPSO.init_ok hinit
  obtain ⟨T, hlen, hT0, hTl, hstep, hcb, hx, hf⟩ := run_states hrun
  have hnext : ∀ k s s', T[k]? = some s → T[k + 1]? = some s' → ∃ mid : CPSO.State σ K a.p a.ndim, ∃ W : Finset (Fin a.p), ∃ st,
      SwarmRestart (.fin (10 ^ 30)) P.lower P.upper W s.swarm mid.swarm ∧
      (W.Nonempty → (∃ gm, P.gamma = some gm ∧ gm ≠ 0) ∧ 0 < k) ∧ ((¬ ∃ gm, P.gamma = some gm ∧ gm ≠ 0) → mid = s) ∧
      mid.evals = s.evals ∧ (CPSO.alg P a.sync).step (k + 1 + 1) mid = .ok (s', st) := by
    intro k s s' hk hk'
    obtain ⟨st, hn⟩ := hstep k s s' hk hk'
    obtain ⟨W, hW, hW1, hW2⟩ := CPSO.post_restart (P := P) hsrt hR' hp (k + 1) s
    unfold Alg.next at hn
    by_cases hk1 : k + 1 = 1
    · rw [if_pos hk1] at hn
      refine ⟨s, ∅, st, ⟨⟨rfl, rfl⟩, fun _ _ => ⟨rfl, rfl, rfl, rfl⟩, fun i hi => by simp at hi,
        fun _ i hi => by simp at hi, by simp, fun i hi => by simp at hi, ?_⟩, by simp, fun _ => rfl, rfl, hn⟩
      obtain ⟨q, _, hq⟩ := hW.best_kept
      exact ⟨q, by simp, hq⟩
    · rw [if_neg hk1] at hn
      refine ⟨CPSO.post P (k + 1) s, W, st, hW, fun h => ⟨hW1 h, by omega⟩, fun hno => hW2 ?_,
        (CPSO.post_fields (P := P) (k + 1) s).2.2.1, hn⟩
      by_contra hc
      push Not at hc
      cases hg : P.gamma with
      | none => exact hc.1 hg
      | some gm => exact hno ⟨gm, hg, fun h0 => hc.2 (by rw [hg, h0])⟩
  refine ⟨T.map CPSO.State.swarm, ?_, ?_, ?_, ?_, ?_, ?_⟩
  · rw [List.length_map]; exact hlen
  · rw [List.map_map]
    refine log_flatten CPSO.State.evals _ T L.s hTl ?_ ?_
    · intro t ht
      rw [hT0] at ht
      rw [← Option.some.inj ht]; rfl
    · intro k s s' hk hk'
      obtain ⟨mid, W, st, _, _, _, hev, hs⟩ := hnext k s s' hk hk'
      rw [(CPSO.step_move hobj hR' hcons hs).1, hev]; rfl
  · intro s hs
    rw [List.getElem?_map, hT0] at hs
    simp only [Option.map_some, Option.some.injEq] at hs
    subst hs
    refine ⟨fun _ _ => rfl, fun q => ⟨rfl, hobj.pop _ q⟩, ⟨i, rfl, hobj.pop _ i, fun q => ?_⟩⟩
    rw [← hobj.pop, ← hobj.pop]
    exact argmin_not_lt hi q
  · intro k s s' hk hk'
    rw [List.getElem?_map, Option.map_eq_some_iff] at hk hk'
    obtain ⟨t, ht, rfl⟩ := hk
    obtain ⟨t', ht', rfl⟩ := hk'
    obtain ⟨mid, W, st, h1, h2, h3, hev, hs⟩ := hnext k t t' ht ht'
    exact ⟨mid.swarm, W, h1, h2, fun hno => by rw [h3 hno], (CPSO.step_move hobj hR' hcons hs).2⟩
  · refine ⟨L.s.swarm, by rw [List.getLast?_map, hTl]; rfl, hx, hf⟩
  · intro k b hb
    obtain ⟨s, hs, h1⟩ := hcb k b hb
    exact ⟨s.swarm, by rw [List.getElem?_map, hs]; rfl, h1⟩

theorem C61_pso (he : env.Ok) (hR : R.Ok) (hsrt : IsArgsort srt) {a : PSO.Args K}
    {fn : Vec K a.ndim → Val K} (hfn : a.fn = some fn) {deferred : Bool}
    (hd : deferred = true ↔ Deferred a.updating a.workers a.backend) {o : Output σ K a.p a.ndim}
    (h : PSO.minimize env R srt fuel a g = .ok o) :
    ∃ S, SwarmRun fn deferred a.inertia a.cognitivity a.sociability a.constraints (lo a.toCommonArgs)
      (hi a.toCommonArgs) (.fin (10 ^ 30)) False o S := by
  obtain ⟨S, hS⟩ := C61_cpso (a := a.toCPSO) he hR hsrt hfn hd h
  have : (∃ gm, a.toCPSO.competitivity = some gm ∧ gm ≠ 0) = False := by
    simp [PSO.Args.toCPSO]
  rw [this] at hS
  exact ⟨S, hS⟩

/-- Positions in the evaluation log. -/
theorem flatten_get {α T : Type} {q : Nat} (blk : T → List α) (hb : ∀ t, (blk t).length = q) : ∀ (l : List T) (m i : Nat),
    i < q → ((l.map blk).flatten)[m * q + i]? = l[m]?.bind fun t => (blk t)[i]? := by
  intro l
  induction l with
  | nil => intro m i _; simp
  | cons t l ih =>
    intro m i hi
    rw [List.map_cons, List.flatten_cons]
    cases m with
    | zero => rw [List.getElem?_append_left (by rw [hb]; omega)]; simp
    | succ m =>
      have : (m + 1) * q + i = q + (m * q + i) := by ring
      rw [List.getElem?_append_right (by rw [hb]; omega), hb, this, Nat.add_sub_cancel_left, ih m i hi]
      simp

theorem SwarmRun.get {p n : Nat} {deferred : Bool} {w c1 c2 : K} {cons : Option String}
    {lower upper : Vec K n} {fn : Vec K n → Val K}
    {reset : Val K} {rs : Prop} {o : Output σ K p n} {S : List (Swarm K p n)}
    (h : SwarmRun fn deferred w c1 c2 cons lower upper reset rs o S) {m : Nat} {s : Swarm K p n} (hs : S[m]? = some s)
    (i : Fin p) : o.evals[m * p + i]? = some (s.X i) := by
  rw [h.evals, flatten_get (fun s : Swarm K p n => List.ofFn s.X) (fun s => by simp) S m i i.2, hs]
  simp

/-- Personal bests in PSO are the best past positions of the particle, and never get worse. -/
theorem C22_pso (he : env.Ok) (hR : R.Ok) (hsrt : IsArgsort srt) {a : PSO.Args K}
    {fn : Vec K a.ndim → Val K} (hfn : a.fn = some fn) {deferred : Bool}
    (hd : deferred = true ↔ Deferred a.updating a.workers a.backend) {o : Output σ K a.p a.ndim}
    (h : PSO.minimize env R srt fuel a g = .ok o) :
    ∃ S, SwarmRun fn deferred a.inertia a.cognitivity a.sociability a.constraints (lo a.toCommonArgs)
        (hi a.toCommonArgs) (.fin (10 ^ 30)) False o S ∧
      (∀ (k : Nat) (s : Swarm K a.p a.ndim), S[k]? = some s → ∀ i, s.fit i = fn (s.pbest i) ∧
        (∃ m ≤ k, o.evals[m * a.p + i]? = some (s.pbest i)) ∧
        ∀ m ≤ k, ∀ y, o.evals[m * a.p + i]? = some y → ¬ fn y < fn (s.pbest i)) ∧
      ∀ (k : Nat) (s s' : Swarm K a.p a.ndim), S[k]? = some s → S[k + 1]? = some s' → ∀ i,
        s'.pbest i = s.pbest i ∨ o.evals[(k + 1) * a.p + i]? = some (s'.pbest i) ∧ fn (s'.pbest i) ≤ fn (s.pbest i) := by
  obtain ⟨S, hS⟩ := C61_pso he hR hsrt hfn hd h
  have himp : ∀ x y : Val K, Improves deferred x y → x ≤ y := by
    intro x y; unfold Improves; split_ifs
    · exact Val.le_of_lt'
    · exact id
  have himp' : ∀ x y : Val K, ¬ Improves deferred x y → ¬ x < y := by
    intro x y; unfold Improves; split_ifs
    · exact id
    · exact fun h1 h2 => h1 (Val.le_of_lt' h2)
  have key : ∀ (k : Nat) (s : Swarm K a.p a.ndim), S[k]? = some s → ∀ i, s.fit i = fn (s.pbest i) ∧
        (∃ m ≤ k, o.evals[m * a.p + i]? = some (s.pbest i)) ∧
        ∀ m ≤ k, ∀ y, o.evals[m * a.p + i]? = some y → ¬ fn y < fn (s.pbest i) := by
    intro k
    induction k with
    | zero =>
      intro s hs i
      obtain ⟨h1, h2⟩ := (hS.start s hs).personal i
      refine ⟨by rw [h1]; exact h2, ⟨0, le_rfl, by rw [h1]; exact SwarmRun.get hS hs i⟩, fun m hm y hy => ?_⟩
      obtain rfl : m = 0 := by omega
      rw [SwarmRun.get hS hs i] at hy
      rw [h1, Option.some.inj hy]; exact Val.lt_irrefl'
    | succ k ih =>
      intro s' hs' i
      obtain ⟨s, hs⟩ : ∃ s, S[k]? = some s := by
        have : k + 1 < S.length := (List.getElem?_eq_some_iff.1 hs').1
        exact ⟨_, List.getElem?_eq_getElem (by omega)⟩
      obtain ⟨mid, W, _, _, hmid, hmove⟩ := hS.steps k s s' hs hs'
      rw [hmid (by simp)] at hmove
      obtain ⟨e1, ⟨m, hm, e2⟩, e3⟩ := ih s hs i
      have hget := SwarmRun.get hS hs' i
      rcases hmove.personal i with ⟨h1, h2, h3⟩ | ⟨h1, h2, h3⟩
      · have hle := himp _ _ h1
        refine ⟨by rw [h3, h2], ⟨k + 1, le_rfl, by rw [h2]; exact hget⟩, fun m' hm' y hy => ?_⟩
        rw [h2]
        rcases Nat.lt_or_ge m' (k + 1) with hlt | hge
        · intro hc
          rw [e1] at hle
          exact e3 m' (by omega) y hy (Val.lt_of_lt_of_le' hc hle)
        · obtain rfl : m' = k + 1 := by omega
          rw [hget] at hy
          rw [Option.some.inj hy]; exact Val.lt_irrefl'
      · refine ⟨by rw [h3, h2]; exact e1, ⟨m, by omega, by rw [h2]; exact e2⟩, fun m' hm' y hy => ?_⟩
        rw [h2]
        rcases Nat.lt_or_ge m' (k + 1) with hlt | hge
        · exact e3 m' (by omega) y hy
        · obtain rfl : m' = k + 1 := by omega
          rw [hget] at hy
          rw [← Option.some.inj hy, ← e1]
          exact himp' _ _ h1
  refine ⟨S, hS, key, ?_⟩
  intro k s s' hs hs' i
  obtain ⟨mid, W, _, _, hmid, hmove⟩ := hS.steps k s s' hs hs'
  rw [hmid (by simp)] at hmove
  have e1 := (key k s hs i).1
  rcases hmove.personal i with ⟨h1, h2, h3⟩ | ⟨h1, h2, h3⟩
  · right
    refine ⟨by rw [h2]; exact SwarmRun.get hS hs' i, ?_⟩
    rw [h2, ← e1]; exact himp _ _ h1
  · exact Or.inl h2

/-- Restarts keep the best and restart only the worst. -/
theorem C26_cpso (he : env.Ok) (hR : R.Ok) (hsrt : IsArgsort srt) {a : CPSO.Args K}
    {fn : Vec K a.ndim → Val K} (hfn : a.fn = some fn) {o : Output σ K a.p a.ndim}
    (hb : ∀ j, lo a.toCommonArgs j ≤ hi a.toCommonArgs j)
    (h : CPSO.minimize env R srt fuel a g = .ok o) :
    ∃ (deferred : Bool) (S : List (Swarm K a.p a.ndim)),
      SwarmRun fn deferred a.inertia a.cognitivity a.sociability a.constraints (lo a.toCommonArgs)
        (hi a.toCommonArgs) (.fin (10 ^ 30)) (∃ gm, a.competitivity = some gm ∧ gm ≠ 0) o S ∧
      ∀ (k : Nat) (s s' : Swarm K a.p a.ndim), S[k]? = some s → S[k + 1]? = some s' →
        ∃ (mid : Swarm K a.p a.ndim) (W : Finset (Fin a.p)),
          SwarmMove fn deferred a.inertia a.cognitivity a.sociability a.constraints (lo a.toCommonArgs)
            (hi a.toCommonArgs) mid s' ∧
          (W.card : Int) ≤ a.popsize - 2 ∧
          (∃ q, q ∉ W ∧ ∀ i, ¬ s.fit i < s.fit q) ∧
          (∀ i ∈ W, ∀ q, q ∉ W → ¬ s.fit i < s.fit q) ∧
          (∀ i ∈ W, InBox (lo a.toCommonArgs) (hi a.toCommonArgs) (mid.X i) ∧ ∀ j, mid.V i j = 0) ∧
          ∀ i, i ∉ W → mid.X i = s.X i ∧ mid.V i = s.V i ∧ mid.pbest i = s.pbest i ∧ mid.fit i = s.fit i := by
  obtain ⟨S, hS⟩ := C61_cpso (deferred := a.sync) he hR hsrt hfn sync_iff h
  refine ⟨a.sync, S, hS, ?_⟩
  intro k s s' hs hs'
  obtain ⟨mid, W, hW, _, _, hmove⟩ := hS.steps k s s' hs hs'
  have hp : 2 ≤ a.popsize := by
    obtain ⟨fn', P, s0, r, L, hfn', hv, _⟩ := CPSO.minimize_ok he h
    exact (CPSO.validate_ok hv).2.2.2.1
  have := hW.few
  refine ⟨mid, W, hmove, ?_, hW.best_kept, fun i hi q hq => (hW.worst i hi q hq).1, fun i hi =>
    ⟨hW.inbox hb i hi, (hW.restarted i hi).1⟩, hW.kept⟩
  have hpp : ((a.p : Nat) : Int) = a.popsize := by
    show ((a.popsize.toNat : Nat) : Int) = _
    omega
  omega

end

/-- A swarm that has collapsed around one point: it is restarted after the second generation. -/
def collapsed : CPSO.Args ℚ :=
  { cpsoArgs with
    x0 := some { shape := [5, 2], get := fun l => 1 / 10 + (l.getD 0 0 : ℚ) / 100 + (l.getD 1 0 : ℚ) / 50 },
    competitivity := some 2 }

example : ∃ (o : Output Nat ℚ collapsed.p collapsed.ndim) (o' : Output Nat ℚ collapsed.p collapsed.ndim),
    CPSO.minimize Concrete.env rng stableArgsort 10 collapsed 0 = .ok o ∧
    CPSO.minimize Concrete.env rng stableArgsort 10 { collapsed with competitivity := none } 0 = .ok o' ∧
    o.evals.take 10 = o'.evals.take 10 ∧ o.evals ≠ o'.evals := by
  obtain ⟨o, ho, ht⟩ := returns_iff (r := CPSO.minimize Concrete.env rng stableArgsort 10 collapsed 0)
    (t := fun o => returns (CPSO.minimize Concrete.env rng stableArgsort 10 { collapsed with competitivity := none } 0)
      fun o' => decide (o.evals.take 10 = o'.evals.take 10 ∧ o.evals ≠ o'.evals)) (by decide +kernel)
  obtain ⟨o', ho', ht'⟩ := returns_iff ht
  exact ⟨o, o', ho, ho', of_decide_eq_true ht'⟩

end Stochopy
