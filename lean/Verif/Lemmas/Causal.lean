import Verif.Spec.Causal
import Verif.Lemmas.Noise

/-!
# Computations that ask an objective

`Causal N ag ev c c'`: `c` and `c'` are the same computation with two objectives, `ev` the requests made so far, and `ag` says that
the two objectives answered the first `N` of a list of requests alike.
-/

set_option linter.unusedSectionVars false

namespace Stochopy
open Spec

section
variable {X S T ε : Type}

/-- If `c` ends with `r` and its first `N` answers are those of the other objective, then `c'` ends the same way when no further
answer was used, and the requests up to the first one that may see a different answer are the same. -/
def Causal (N : Nat) (ag : List X → Prop) (ev : S → List X) (c c' : Except ε S) : Prop :=
  ∀ r, c = .ok r → ag (ev r) →
    ((ev r).length ≤ N → c' = .ok r) ∧ ∀ r', c' = .ok r' → SameRequests N (ev r) (ev r')

variable {N : Nat} {ag : List X → Prop} {ev : S → List X} {ev' : T → List X} {c c' : Except ε S}

theorem Causal.refl (N : Nat) (ag : List X → Prop) (ev : S → List X) (c : Except ε S) : Causal N ag ev c c := by
  intro r hr _
  refine ⟨fun _ => hr, fun r' hr' => ?_⟩
  rw [hr] at hr'
  cases hr'
  rfl

/-- A computation that makes its requests at once. -/
theorem Causal.ask (h1 : ∀ r, c = .ok r → ag (ev r) → (ev r).length ≤ N → c' = .ok r)
    (h2 : ∀ r r', c = .ok r → c' = .ok r' → ev r = ev r') : Causal N ag ev c c' :=
  fun r hr ha => ⟨fun hl => h1 r hr ha hl, fun r' hr' => by rw [h2 r r' hr hr']; rfl⟩

theorem take_prefix {l l' : List X} {k : Nat} (h : l <+: l') (hk : k ≤ l.length) : l'.take k = l.take k := by
  obtain ⟨t, rfl⟩ := h
  rw [List.take_append_of_le_length hk]

theorem Causal.bind {f f' : S → Except ε T} (hag : ∀ l l', l <+: l' → ag l' → ag l) (hc : Causal N ag ev c c')
    (hf : ∀ r, Causal N ag ev' (f r) (f' r)) (hm : ∀ r t, f r = .ok t → ev r <+: ev' t)
    (hm' : ∀ r t, f' r = .ok t → ev r <+: ev' t) : Causal N ag ev' (c >>= f) (c' >>= f') := by
  intro t ht ha
  rw [bind_ok_iff] at ht
  obtain ⟨r, hr, ht⟩ := ht
  have hp := hm r t ht
  obtain ⟨h1, h2⟩ := hc r hr (hag _ _ hp ha)
  by_cases hl : (ev r).length ≤ N
  · have hr' := h1 hl
    obtain ⟨h3, h4⟩ := hf r t ht ha
    refine ⟨fun h => by rw [hr']; exact h3 h, fun t' ht' => ?_⟩
    rw [hr'] at ht'
    exact h4 t' ht'
  · refine ⟨fun h => absurd (hp.length_le.trans h) hl, fun t' ht' => ?_⟩
    rw [bind_ok_iff] at ht'
    obtain ⟨r', hr', ht'⟩ := ht'
    have he := h2 r' hr'
    have hl' : N + 1 ≤ (ev r').length := by
      have := congrArg List.length he
      simp only [List.length_take] at this
      omega
    unfold SameRequests
    rw [take_prefix hp (by omega), take_prefix (hm' r' t' ht') hl']
    exact he

/-- The first part asks nothing. -/
theorem Causal.bind_left {A : Type} {a : Except ε A} {f f' : A → Except ε T} (hf : ∀ r, a = .ok r → Causal N ag ev' (f r) (f' r)) :
    Causal N ag ev' (a >>= f) (a >>= f') := by
  cases a with
  | error e => intro r hr; cases hr
  | ok r => exact hf r rfl

/-- The second part asks nothing. -/
theorem Causal.bind_right {f : S → Except ε T} (hc : Causal N ag ev c c') (hm : ∀ r t, f r = .ok t → ev' t = ev r)
    (hag : ∀ l l', l <+: l' → ag l' → ag l) : Causal N ag ev' (c >>= f) (c' >>= f) :=
  hc.bind hag (fun r => Causal.refl _ _ _ _) (fun r t h => by rw [hm r t h]) (fun r t h => by rw [hm r t h])

theorem Causal.ite {p : Prop} [Decidable p] {d d' : Except ε S} (h1 : Causal N ag ev c c') (h2 : Causal N ag ev d d') :
    Causal N ag ev (if p then c else d) (if p then c' else d') := by
  split_ifs
  · exact h1
  · exact h2

theorem Causal.foldlM {A : Type} {f f' : S → A → Except ε S} (hag : ∀ l l', l <+: l' → ag l' → ag l)
    (hf : ∀ s a, Causal N ag ev (f s a) (f' s a)) (hm : ∀ s a t, f s a = .ok t → ev s <+: ev t)
    (hm' : ∀ s a t, f' s a = .ok t → ev s <+: ev t) (l : List A) (s : S) :
    Causal N ag ev (l.foldlM f s) (l.foldlM f' s) ∧ (∀ t, l.foldlM f s = .ok t → ev s <+: ev t) ∧
      ∀ t, l.foldlM f' s = .ok t → ev s <+: ev t := by
  induction l generalizing s with
  | nil =>
    refine ⟨Causal.refl _ _ _ _, fun t h => ?_, fun t h => ?_⟩ <;>
    · rw [List.foldlM_nil] at h; cases h; exact List.prefix_rfl
  | cons a l ih =>
    simp only [List.foldlM_cons]
    refine ⟨(hf s a).bind hag (fun r => (ih r).1) (fun r => (ih r).2.1) (fun r => (ih r).2.2), fun t h => ?_, fun t h => ?_⟩
    · rw [bind_ok_iff] at h
      obtain ⟨r, hr, h⟩ := h
      exact (hm s a r hr).trans ((ih r).2.1 t h)
    · rw [bind_ok_iff] at h
      obtain ⟨r, hr, h⟩ := h
      exact (hm' s a r hr).trans ((ih r).2.2 t h)

end

section
variable {X V : Type} {ans ans' : Nat → X → V} {N : Nat}

theorem sameAnswers_prefix (l l' : List X) (h : l <+: l') (ha : SameAnswers ans ans' N l') : SameAnswers ans ans' N l := by
  obtain ⟨t, rfl⟩ := h
  intro k x hk hx
  refine ha k x hk ?_
  rw [List.getElem?_append_left (List.getElem?_eq_some_iff.1 hx).1]
  exact hx

theorem SameAnswers.rows {p : Nat} {ev : List X} {Y : Fin p → X} (ha : SameAnswers ans ans' N (ev ++ List.ofFn Y))
    (hl : (ev ++ List.ofFn Y).length ≤ N) (i : Fin p) : ans (ev.length + i.val) (Y i) = ans' (ev.length + i.val) (Y i) := by
  simp only [List.length_append, List.length_ofFn] at hl
  refine ha _ _ (by omega) ?_
  rw [List.getElem?_append_right (by omega)]
  simp

theorem SameAnswers.last {ev : List X} {y : X} (ha : SameAnswers ans ans' N (ev ++ [y])) (hl : (ev ++ [y]).length ≤ N) :
    ans ev.length y = ans' ev.length y := by
  simp only [List.length_append, List.length_singleton] at hl
  exact ha _ _ (by omega) (by simp)

end

/-! ## The frame of `de`, `cpso` and `na` -/

section
variable {K σ S : Type} [AddZeroClass K] [One K] [Sub K] [Mul K] [Div K] [Neg K] [NatCast K] [IntCast K] [Pow K ℕ] [ArrayOps K] [LinearOrder K]
variable {p n : Nat} {ans ans' : Nat → Vec K n → Val K} {N : Nat}

local notation "agrees" => SameAnswers ans ans' N

theorem optimizer_causal {T : Type} {ev : T → List (Vec K n)} {env : Env} {fn : Vec K n → Val K} {sync : Bool} {workers : Int}
    {backend : Option String} {F F' : Obj K n → Except PyErr T} (h : ∀ obj, Causal N agrees ev (F obj) (F' obj)) :
    Causal N agrees ev (optimizer env fn sync workers backend F) (optimizer env fn sync workers backend F') := by
  unfold optimizer
  exact Causal.ite (Causal.bind_left fun r _ => h r) (Causal.bind_left fun r _ => h r)

theorem Alg.Laws.ev_le {A : Alg S K p n} {maxiter : Int} {ev : S → List (Vec K n)} (hl : A.Laws maxiter ev) {it : Nat} {s : S}
    {r : S × Option Int} (h : A.step it s = .ok r) : ev s <+: ev r.1 := by
  obtain ⟨ys, -, h⟩ := hl.ev_step (s' := r.1) (st := r.2) h
  exact ⟨ys, h.symm⟩

/-- The part of an iteration after the step. -/
def Alg.after (A : Alg S K p n) (c : Cfg) (L : Loop S K p n) (r : S × Option Int) : Except PyErr (Loop S K p n × Bool) := do
  let rows ← A.record c (L.it + 1) r.1
  .ok ({ s := if r.2.isSome then r.1 else A.post (L.it + 1) r.1, it := L.it + 1, status := r.2, rowsX := L.rowsX ++ rows.1,
         rowsF := L.rowsF ++ rows.2,
         cbs := if c.hasCallback then L.cbs ++ [A.cb c r.1 (L.it + 1) (L.rowsX ++ rows.1) (L.rowsF ++ rows.2)] else L.cbs },
       r.2.isSome)

theorem Alg.after_ev {A : Alg S K p n} {c : Cfg} {L : Loop S K p n} {maxiter : Int} {ev : S → List (Vec K n)}
    (hl : A.Laws maxiter ev) {r : S × Option Int} {t : Loop S K p n × Bool} (h : A.after c L r = .ok t) : ev t.1.s = ev r.1 := by
  unfold Alg.after at h
  rw [bind_ok_iff] at h
  obtain ⟨rows, -, h⟩ := h
  cases h
  dsimp only
  split_ifs
  · rfl
  · exact hl.ev_post _ _

variable {A : Alg S K p n} {st' : Nat → S → Except PyErr (S × Option Int)} {ev : S → List (Vec K n)} {maxiter : Int}

theorem Alg.body_causal (hl : A.Laws maxiter ev) (h : ∀ it s, Causal N agrees (fun r => ev r.1) (A.step it s) (st' it s))
    (c : Cfg) (L : Loop S K p n) :
    Causal N agrees (fun r => ev r.1.s) (A.body c L) (({ A with step := st' } : Alg S K p n).body c L) :=
  Causal.bind_right (f := A.after c L) (h (L.it + 1) L.s) (fun _ _ ht => Alg.after_ev hl ht) sameAnswers_prefix

theorem Alg.Laws.body_le (hl : A.Laws maxiter ev) {c : Cfg} {L : Loop S K p n} {r : Loop S K p n × Bool}
    (h : A.body c L = .ok r) : ev L.s <+: ev r.1.s := by
  have h : (A.step (L.it + 1) L.s >>= A.after c L) = .ok r := h
  rw [bind_ok_iff] at h
  obtain ⟨q, hq, h⟩ := h
  rw [Alg.after_ev hl h]
  exact hl.ev_le hq

theorem Alg.Laws.loop_le (hl : A.Laws maxiter ev) {c : Cfg} {fuel : Nat} {L L' : Loop S K p n}
    (h : A.loop c fuel L = .ok L') : ev L.s <+: ev L'.s := by
  induction fuel generalizing L with
  | zero => simp [Alg.loop] at h
  | succ k ih =>
    unfold Alg.loop at h
    rw [bind_ok_iff] at h
    obtain ⟨r, hr, h⟩ := h
    split_ifs at h with hc
    · cases h; exact hl.body_le hr
    · exact (hl.body_le hr).trans (ih h)

theorem Alg.loop_causal (hl : A.Laws maxiter ev) (hl' : ({ A with step := st' } : Alg S K p n).Laws maxiter ev)
    (h : ∀ it s, Causal N agrees (fun r => ev r.1) (A.step it s) (st' it s)) (c : Cfg) (fuel : Nat) (L : Loop S K p n) :
    Causal N agrees (fun r => ev r.s) (A.loop c fuel L) (({ A with step := st' } : Alg S K p n).loop c fuel L) := by
  induction fuel generalizing L with
  | zero => exact Causal.refl _ _ _ _
  | succ k ih =>
    unfold Alg.loop
    refine (Alg.body_causal hl h c L).bind sameAnswers_prefix (fun r => Causal.ite (Causal.refl _ _ _ _) (ih r.1))
      (fun r t ht => ?_) (fun r t ht => ?_)
    · split_ifs at ht
      · cases ht; exact List.prefix_rfl
      · exact hl.loop_le ht
    · split_ifs at ht
      · cases ht; exact List.prefix_rfl
      · exact hl'.loop_le ht

theorem Alg.start_s {c : Cfg} {s : S} {L : Loop S K p n} (h : A.start c s = .ok L) : L.s = s := by
  unfold Alg.start at h
  rw [bind_ok_iff] at h
  obtain ⟨rows, -, h⟩ := h
  cases h
  rfl

theorem Alg.Laws.run_le (hl : A.Laws maxiter ev) {c : Cfg} {fuel : Nat} {s : S} {r : Result K n × Loop S K p n}
    (h : A.run c fuel s = .ok r) : ev s <+: ev r.2.s := by
  unfold Alg.run at h
  simp only [bind_ok_iff] at h
  obtain ⟨L0, h0, L, hL, res, -, h⟩ := h
  cases h
  have := hl.loop_le hL
  rwa [Alg.start_s h0] at this

theorem Alg.run_causal (hl : A.Laws maxiter ev) (hl' : ({ A with step := st' } : Alg S K p n).Laws maxiter ev)
    (h : ∀ it s, Causal N agrees (fun r => ev r.1) (A.step it s) (st' it s)) (c : Cfg) (fuel : Nat) (s : S) :
    Causal N agrees (fun r => ev r.2.s) (A.run c fuel s) (({ A with step := st' } : Alg S K p n).run c fuel s) := by
  unfold Alg.run
  refine Causal.bind_left (a := A.start c s) fun L0 _ => ?_
  refine Causal.bind_right (f := fun L => A.finish c L >>= fun res => .ok (res, L)) (Alg.loop_causal hl hl' h c fuel L0)
    (fun L t ht => ?_) sameAnswers_prefix
  rw [bind_ok_iff] at ht
  obtain ⟨res, -, ht⟩ := ht
  cases ht
  rfl

theorem Alg.run_causal' {A' : Alg S K p n} (he : ({ A with step := A'.step } : Alg S K p n) = A') (hl : A.Laws maxiter ev)
    (hl' : A'.Laws maxiter ev) (h : ∀ it s, Causal N agrees (fun r => ev r.1) (A.step it s) (A'.step it s)) (c : Cfg) (fuel : Nat) (s : S) :
    Causal N agrees (fun r => ev r.2.s) (A.run c fuel s) (A'.run c fuel s) := by
  have := Alg.run_causal (st' := A'.step) hl (by rw [he]; exact hl') h c fuel s
  rwa [he] at this

/-! ### Selection -/

theorem selectionSync_congr {it : Nat} {cand : Pop K p n} {xbest : Vec K n} {x : Pop K p n} {xfun : Fin p → Val K} {mi : Int}
    {xtol : K} {ftol : Val K} {obj obj' : Obj K n} (h : obj.pop cand = obj'.pop cand) :
    selectionSync it cand xbest x xfun mi xtol ftol obj = selectionSync it cand xbest x xfun mi xtol ftol obj' := by
  unfold selectionSync
  rw [h]

theorem selectionAsync_congr {candi xbest : Vec K n} {xbestfun : Val K} {x : Pop K p n} {xfun : Fin p → Val K}
    {xtol : K} {ftol : Val K} {obj obj' : Obj K n} {i : Fin p} (h : obj.one candi = obj'.one candi) :
    selectionAsync candi xbest xbestfun x xfun xtol ftol obj i = selectionAsync candi xbest xbestfun x xfun xtol ftol obj' i := by
  unfold selectionAsync
  rw [h]

end

/-! ## `de` -/

namespace DE
variable {K σ : Type} [AddZeroClass K] [One K] [Sub K] [Mul K] [Div K] [Neg K] [NatCast K] [IntCast K] [Pow K ℕ] [ArrayOps K] [LinearOrder K]
variable {p n : Nat} {ans ans' : Nat → Vec K n → Val K} {N : Nat} {P : Par σ K p n}

local notation "agrees" => SameAnswers ans ans' N

theorem stepSync_causal (it : Nat) (s : State σ K p n) :
    Causal N agrees (fun r => r.1.evals) (stepSyncAns ans P it s) (stepSyncAns ans' P it s) := by
  unfold stepSyncAns stepSync
  refine Causal.bind_left (a := candSync P s.X s.gbest s.rng) fun U _ => Causal.ask (fun r hr ha hl => ?_) (fun r r' hr hr' => ?_)
  · have hr' := hr
    rw [bind_ok_iff] at hr'
    obtain ⟨q, hq, hr'⟩ := hr'
    cases hr'
    rw [← hr]
    congr 1
    refine selectionSync_congr (funext fun i => ?_)
    exact (SameAnswers.rows ha hl i).symm
  · rw [bind_ok_iff] at hr hr'
    obtain ⟨q, -, hr⟩ := hr
    obtain ⟨q', -, hr'⟩ := hr'
    cases hr; cases hr'
    rfl

theorem rowAsync_causal (r1 : Fin p → Vec K n) (acc : State σ K p n × Option Int) (i : Fin p) :
    Causal N agrees (fun r => r.1.evals) (rowAsyncAns ans P r1 acc i) (rowAsyncAns ans' P r1 acc i) := by
  unfold rowAsyncAns rowAsync
  refine Causal.bind_left (a := candAsync P (r1 i) i acc.1.X acc.1.gbest acc.1.rng) fun U _ =>
    Causal.ask (fun r hr ha hl => ?_) (fun r r' hr hr' => ?_)
  · cases hr
    have he : (P.from ans acc.1.evals.length).obj.one U.1 = (P.from ans' acc.1.evals.length).obj.one U.1 := SameAnswers.last ha hl
    have := selectionAsync_congr (xbest := acc.1.gbest) (xbestfun := acc.1.gfit) (x := acc.1.X) (xfun := acc.1.pbestfit)
      (xtol := P.xtol) (ftol := P.ftol) (i := i) he
    show Except.ok _ = Except.ok _
    rw [show selectionAsync U.1 acc.1.gbest acc.1.gfit acc.1.X acc.1.pbestfit (P.from ans acc.1.evals.length).xtol
      (P.from ans acc.1.evals.length).ftol (P.from ans acc.1.evals.length).obj i = _ from this]
    rfl
  · cases hr; cases hr'
    rfl

theorem rowAsync_le {r1 : Fin p → Vec K n} {acc t : State σ K p n × Option Int} {i : Fin p}
    (h : rowAsyncAns ans P r1 acc i = .ok t) : acc.1.evals <+: t.1.evals := by
  unfold rowAsyncAns rowAsync at h
  rw [bind_ok_iff] at h
  obtain ⟨U, -, h⟩ := h
  cases h
  exact List.prefix_append _ _

theorem stepAsync_causal (it : Nat) (s : State σ K p n) :
    Causal N agrees (fun r => r.1.evals) (stepAsyncAns ans P it s) (stepAsyncAns ans' P it s) := by
  unfold stepAsyncAns
  refine Causal.bind_right (ev := fun r => r.1.evals)
    (Causal.foldlM (ev := fun r : State σ K p n × Option Int => r.1.evals) sameAnswers_prefix (fun acc i => rowAsync_causal _ acc i)
      (fun _ _ _ h => rowAsync_le h) (fun _ _ _ h => rowAsync_le h) _ _).1 (fun r t ht => ?_) sameAnswers_prefix
  cases ht
  rfl

theorem init_causal (x0 : Option (Pop K p n)) (g : σ) :
    Causal N agrees State.evals (init (P.from ans 0) x0 g) (init (P.from ans' 0) x0 g) := by
  have key : ∀ X : Pop K p n × σ, Causal N agrees State.evals
      (do
        let gbidx ← argmin ((P.from ans 0).obj.pop X.1)
        .ok { X := X.1, gbest := X.1 gbidx, pbestfit := (P.from ans 0).obj.pop X.1, gfit := (P.from ans 0).obj.pop X.1 gbidx,
              pfit := (P.from ans 0).obj.pop X.1, caller := x0, evals := List.ofFn X.1, rng := X.2 })
      (do
        let gbidx ← argmin ((P.from ans' 0).obj.pop X.1)
        .ok { X := X.1, gbest := X.1 gbidx, pbestfit := (P.from ans' 0).obj.pop X.1, gfit := (P.from ans' 0).obj.pop X.1 gbidx,
              pfit := (P.from ans' 0).obj.pop X.1, caller := x0, evals := List.ofFn X.1, rng := X.2 } : Except PyErr (State σ K p n)) := by
    intro X
    refine Causal.ask (fun r hr ha hl => ?_) (fun r r' hr hr' => ?_)
    · have he : (P.from ans 0).obj.pop X.1 = (P.from ans' 0).obj.pop X.1 := by
        obtain ⟨q, -, hr⟩ := bind_ok_iff.1 hr
        cases hr
        exact funext fun i => SameAnswers.rows (ev := []) ha hl i
      rw [← hr, he]
    · rw [bind_ok_iff] at hr hr'
      obtain ⟨q, -, hr⟩ := hr
      obtain ⟨q', -, hr'⟩ := hr'
      cases hr; cases hr'
      rfl
  cases x0 <;> exact key _

theorem algAns_causal (sync : Bool) (it : Nat) (s : State σ K p n) :
    Causal N agrees (fun r => r.1.evals) ((algAns ans P sync).step it s) ((algAns ans' P sync).step it s) := by
  cases sync
  · exact stepAsync_causal it s
  · exact stepSync_causal it s

theorem deAns_causal (hs : ∀ d F X g, P.strat d F X g ≠ .error .outOfFuel) (sync : Bool) (c : Cfg) (fuel : Nat)
    (x0 : Option (Pop K p n)) (g : σ) :
    Causal N agrees Output.evals (deAns ans P sync c fuel x0 g) (deAns ans' P sync c fuel x0 g) := by
  unfold deAns
  refine (init_causal x0 g).bind sameAnswers_prefix (fun s0 => ?_) (fun s0 t ht => ?_) (fun s0 t ht => ?_)
  · refine Causal.bind_right (ev := fun r => r.2.s.evals)
      (Alg.run_causal' (A := algAns ans P sync) (A' := algAns ans' P sync) rfl (lawsAns sync hs) (lawsAns sync hs)
        (algAns_causal sync) c fuel s0) (fun r t ht => ?_) sameAnswers_prefix
    cases ht
    rfl
  · rw [bind_ok_iff] at ht
    obtain ⟨r, hr, ht⟩ := ht
    cases ht
    exact (lawsAns sync hs).run_le hr
  · rw [bind_ok_iff] at ht
    obtain ⟨r, hr, ht⟩ := ht
    cases ht
    exact (lawsAns sync hs).run_le hr

theorem minimizeAns_causal [IntParts K] (env : Env) (R : Rng σ K) (fuel : Nat) (a : Args K) {ans ans' : Nat → Vec K a.ndim → Val K}
    {N : Nat} (g : σ) :
    Causal N (SameAnswers ans ans' N) Output.evals (minimizeAns env R fuel a ans g) (minimizeAns env R fuel a ans' g) := by
  unfold minimizeAns
  refine Causal.bind_left fun strat hv => ?_
  cases hfn : a.fn with
  | none => exact Causal.refl _ _ _ _
  | some fn =>
    refine optimizer_causal fun obj => Causal.bind_left fun _ _ => Causal.bind_left fun cons _ => ?_
    exact deAns_causal (strategyMap_ne_outOfFuel (validate_ok hv).2.2.2.2.2.2.2.2.1) _ _ _ _ _

end DE

/-! ## `cpso` -/

namespace CPSO
variable {K σ : Type} [AddZeroClass K] [One K] [Sub K] [Mul K] [Div K] [Neg K] [NatCast K] [IntCast K] [Pow K ℕ] [ArrayOps K] [LinearOrder K]
variable [IntParts K] [NumFns K]
variable {p n : Nat} {ans ans' : Nat → Vec K n → Val K} {N : Nat} {P : Par σ K n}

local notation "agrees" => SameAnswers ans ans' N

theorem stepSync_causal (it : Nat) (s : State σ K p n) :
    Causal N agrees (fun r => r.1.evals) (stepSyncAns ans P it s) (stepSyncAns ans' P it s) := by
  unfold stepSyncAns stepSync
  refine Causal.ask (fun r hr ha hl => ?_) (fun r r' hr hr' => ?_)
  · have hr' := hr
    rw [bind_ok_iff] at hr'
    obtain ⟨q, hq, hr'⟩ := hr'
    cases hr'
    rw [← hr]
    dsimp only
    congr 1
    refine selectionSync_congr (funext fun i => ?_)
    exact (SameAnswers.rows ha hl i).symm
  · rw [bind_ok_iff] at hr hr'
    obtain ⟨q, -, hr⟩ := hr
    obtain ⟨q', -, hr'⟩ := hr'
    cases hr; cases hr'
    rfl

theorem rowAsync_causal (r1 r2 : Pop K p n) (acc : State σ K p n × Option Int) (i : Fin p) :
    Causal (ε := PyErr) N agrees (fun r => r.1.evals) (.ok (rowAsyncAns ans P r1 r2 acc i)) (.ok (rowAsyncAns ans' P r1 r2 acc i)) := by
  unfold rowAsyncAns rowAsync
  refine Causal.ask (fun r hr ha hl => ?_) (fun r r' hr hr' => ?_)
  · cases hr
    have he : (P.from ans acc.1.evals.length).obj.one (mutation P (acc.1.X i) (acc.1.V i) (acc.1.pbest i) acc.1.gbest (r1 i) (r2 i)).1 =
      (P.from ans' acc.1.evals.length).obj.one (mutation P (acc.1.X i) (acc.1.V i) (acc.1.pbest i) acc.1.gbest (r1 i) (r2 i)).1 :=
      SameAnswers.last ha hl
    have := selectionAsync_congr (xbest := acc.1.gbest) (xbestfun := acc.1.gfit) (x := acc.1.pbest) (xfun := acc.1.pbestfit)
      (xtol := P.xtol) (ftol := P.ftol) (i := i) he
    dsimp only
    rw [show selectionAsync (mutation (P.from ans acc.1.evals.length) (acc.1.X i) (acc.1.V i) (acc.1.pbest i) acc.1.gbest (r1 i) (r2 i)).1
      acc.1.gbest acc.1.gfit acc.1.pbest acc.1.pbestfit (P.from ans acc.1.evals.length).xtol
      (P.from ans acc.1.evals.length).ftol (P.from ans acc.1.evals.length).obj i = _ from this]
    rfl
  · cases hr; cases hr'
    rfl

theorem foldl_ok {S A : Type} (f : S → A → S) (l : List A) (s : S) :
    (.ok (l.foldl f s) : Except PyErr S) = l.foldlM (fun s a => .ok (f s a)) s := by
  induction l generalizing s with
  | nil => rfl
  | cons a l ih => exact ih (f s a)

theorem stepAsync_causal (it : Nat) (s : State σ K p n) :
    Causal N agrees (fun r => r.1.evals) (stepAsyncAns ans P it s) (stepAsyncAns ans' P it s) := by
  have h := fun (r1 r2 : Pop K p n) (acc : State σ K p n × Option Int) =>
    (Causal.foldlM (ε := PyErr) (N := N) (ag := SameAnswers ans ans' N) (ev := fun r : State σ K p n × Option Int => r.1.evals) sameAnswers_prefix
      (fun acc i => rowAsync_causal (P := P) r1 r2 acc i)
      (fun _ _ t h => by cases h; exact List.prefix_append _ _) (fun _ _ t h => by cases h; exact List.prefix_append _ _)
      (List.finRange p) acc).1
  simp only [← foldl_ok] at h
  refine Causal.bind_right (f := fun r => .ok (r.1, if r.2.isNone && decide (P.maxiter ≤ (it : Int)) then some (-1) else r.2))
    (h (drawMat P.R.rand p n s.rng).1 (drawMat P.R.rand p n (drawMat P.R.rand p n s.rng).2).1
      ({ s with rng := (drawMat P.R.rand p n (drawMat P.R.rand p n s.rng).2).2 }, none)) (fun r t ht => ?_) sameAnswers_prefix
  cases ht
  rfl

theorem init_causal (x0 : Option (Pop K p n)) (g : σ) :
    Causal N agrees State.evals (init (P.from ans 0) x0 g) (init (P.from ans' 0) x0 g) := by
  have key : ∀ X : Pop K p n × σ, Causal N agrees State.evals
      (do
        let gbidx ← argmin ((P.from ans 0).obj.pop X.1)
        .ok { X := X.1, V := fun _ _ => 0, pbest := X.1, gbest := X.1 gbidx, pbestfit := (P.from ans 0).obj.pop X.1,
              gfit := (P.from ans 0).obj.pop X.1 gbidx, pfit := (P.from ans 0).obj.pop X.1, caller := x0, aliased := x0.isSome,
              evals := List.ofFn X.1, rng := X.2 })
      (do
        let gbidx ← argmin ((P.from ans' 0).obj.pop X.1)
        .ok { X := X.1, V := fun _ _ => 0, pbest := X.1, gbest := X.1 gbidx, pbestfit := (P.from ans' 0).obj.pop X.1,
              gfit := (P.from ans' 0).obj.pop X.1 gbidx, pfit := (P.from ans' 0).obj.pop X.1, caller := x0, aliased := x0.isSome,
              evals := List.ofFn X.1, rng := X.2 } : Except PyErr (State σ K p n)) := by
    intro X
    refine Causal.ask (fun r hr ha hl => ?_) (fun r r' hr hr' => ?_)
    · have he : (P.from ans 0).obj.pop X.1 = (P.from ans' 0).obj.pop X.1 := by
        obtain ⟨q, -, hr⟩ := bind_ok_iff.1 hr
        cases hr
        exact funext fun i => SameAnswers.rows (ev := []) ha hl i
      rw [← hr, he]
    · rw [bind_ok_iff] at hr hr'
      obtain ⟨q, -, hr⟩ := hr
      obtain ⟨q', -, hr'⟩ := hr'
      cases hr; cases hr'
      rfl
  cases x0 <;> exact key _

theorem algAns_causal (sync : Bool) (it : Nat) (s : State σ K p n) :
    Causal N agrees (fun r => r.1.evals) ((algAns ans P sync).step it s) ((algAns ans' P sync).step it s) := by
  cases sync
  · exact stepAsync_causal it s
  · exact stepSync_causal it s

theorem cpsoAns_causal (sync : Bool) (c : Cfg) (fuel : Nat) (x0 : Option (Pop K p n)) (g : σ) :
    Causal N agrees Output.evals (cpsoAns ans P sync c fuel x0 g) (cpsoAns ans' P sync c fuel x0 g) := by
  unfold cpsoAns
  refine (init_causal x0 g).bind sameAnswers_prefix (fun s0 => ?_) (fun s0 t ht => ?_) (fun s0 t ht => ?_)
  · refine Causal.bind_right (ev := fun r => r.2.s.evals)
      (Alg.run_causal' (A := algAns (p := p) ans P sync) (A' := algAns (p := p) ans' P sync) rfl (lawsAns sync) (lawsAns sync)
        (algAns_causal sync) c fuel s0) (fun r t ht => ?_) sameAnswers_prefix
    cases ht
    rfl
  · rw [bind_ok_iff] at ht
    obtain ⟨r, hr, ht⟩ := ht
    cases ht
    exact (lawsAns sync).run_le hr
  · rw [bind_ok_iff] at ht
    obtain ⟨r, hr, ht⟩ := ht
    cases ht
    exact (lawsAns sync).run_le hr

theorem minimizeAns_causal (env : Env) (R : Rng σ K) (srt : Argsort K) (fuel : Nat) (a : Args K)
    {ans ans' : Nat → Vec K a.ndim → Val K} {N : Nat} (g : σ) :
    Causal N (SameAnswers ans ans' N) Output.evals (minimizeAns env R srt fuel a ans g) (minimizeAns env R srt fuel a ans' g) := by
  unfold minimizeAns
  refine Causal.bind_left fun _ hv => ?_
  cases hfn : a.fn with
  | none => exact Causal.refl _ _ _ _
  | some fn =>
    exact optimizer_causal fun obj => Causal.bind_left fun _ _ => Causal.bind_left fun cons _ => cpsoAns_causal _ _ _ _ _

end CPSO

/-! ## `na` -/

namespace NA
variable {K σ : Type} [AddZeroClass K] [One K] [Sub K] [Mul K] [Div K] [Neg K] [NatCast K] [IntCast K] [Pow K ℕ] [ArrayOps K] [LinearOrder K]
variable {p n : Nat} {ans ans' : Nat → Vec K n → Val K} {N : Nat} {P : Par σ K n}

local notation "agrees" => SameAnswers ans ans' N

theorem step_causal (it : Nat) (s : State σ K p n) :
    Causal N agrees (fun r => r.1.evals) (stepAns ans P it s) (stepAns ans' P it s) := by
  unfold stepAns step
  refine Causal.bind_left (a := mutation P.R P.argsort (spanMask P.lower P.upper) s.All p P.nr s.rng) fun U _ =>
    Causal.ask (fun r hr ha hl => ?_) (fun r r' hr hr' => ?_)
  · have hr' := hr
    rw [bind_ok_iff] at hr'
    obtain ⟨q, hq, hr'⟩ := hr'
    cases hr'
    rw [← hr]
    congr 1
    refine selectionSync_congr (funext fun i => ?_)
    exact (SameAnswers.rows ha hl i).symm
  · rw [bind_ok_iff] at hr hr'
    obtain ⟨q, -, hr⟩ := hr
    obtain ⟨q', -, hr'⟩ := hr'
    cases hr; cases hr'
    rfl

theorem init_causal (x0 : Option (Pop K p n)) (g : σ) :
    Causal N agrees State.evals (init (P.from ans 0) x0 g) (init (P.from ans' 0) x0 g) := by
  have key : ∀ (Y : Pop K p n) (h : σ), Causal N agrees State.evals
      (do
        let gbidx ← argmin ((P.from ans 0).objN.pop Y)
        .ok { X := Y, pbest := Y, gbest := Y gbidx, pbestfit := (P.from ans 0).objN.pop Y,
              gfit := (P.from ans 0).objN.pop Y gbidx, pfit := (P.from ans 0).objN.pop Y,
              All := List.ofFn fun i => (Y i, (P.from ans 0).objN.pop Y i), caller := x0,
              evals := List.ofFn fun i => unnormalize P.lower P.upper (Y i), rng := h })
      (do
        let gbidx ← argmin ((P.from ans' 0).objN.pop Y)
        .ok { X := Y, pbest := Y, gbest := Y gbidx, pbestfit := (P.from ans' 0).objN.pop Y,
              gfit := (P.from ans' 0).objN.pop Y gbidx, pfit := (P.from ans' 0).objN.pop Y,
              All := List.ofFn fun i => (Y i, (P.from ans' 0).objN.pop Y i), caller := x0,
              evals := List.ofFn fun i => unnormalize P.lower P.upper (Y i), rng := h } : Except PyErr (State σ K p n)) := by
    intro Y h
    refine Causal.ask (fun r hr ha hl => ?_) (fun r r' hr hr' => ?_)
    · have he : (P.from ans 0).objN.pop Y = (P.from ans' 0).objN.pop Y := by
        obtain ⟨q, -, hr⟩ := bind_ok_iff.1 hr
        cases hr
        exact funext fun i => SameAnswers.rows (ev := []) ha hl i
      rw [← hr, he]
    · rw [bind_ok_iff] at hr hr'
      obtain ⟨q, -, hr⟩ := hr
      obtain ⟨q', -, hr'⟩ := hr'
      cases hr; cases hr'
      rfl
  cases x0 <;> exact key _ _

theorem naAns_causal (c : Cfg) (fuel : Nat) (x0 : Option (Pop K p n)) (g : σ) :
    Causal N agrees Output.evals (naAns ans P c fuel x0 g) (naAns ans' P c fuel x0 g) := by
  unfold naAns
  refine (init_causal x0 g).bind sameAnswers_prefix (fun s0 => ?_) (fun s0 t ht => ?_) (fun s0 t ht => ?_)
  · refine Causal.bind_right (ev := fun r => r.2.s.evals)
      (Alg.run_causal' (A := algAns (p := p) ans P) (A' := algAns (p := p) ans' P) rfl lawsAns lawsAns
        step_causal c fuel s0) (fun r t ht => ?_) sameAnswers_prefix
    cases ht
    rfl
  · rw [bind_ok_iff] at ht
    obtain ⟨r, hr, ht⟩ := ht
    cases ht
    exact lawsAns.run_le hr
  · rw [bind_ok_iff] at ht
    obtain ⟨r, hr, ht⟩ := ht
    cases ht
    exact lawsAns.run_le hr

theorem minimizeAns_causal [IntParts K] (env : Env) (R : Rng σ K) (srt : Argsort K) (fuel : Nat) (a : Args K)
    {ans ans' : Nat → Vec K a.ndim → Val K} {N : Nat} (g : σ) :
    Causal N (SameAnswers ans ans' N) Output.evals (minimizeAns env R srt fuel a ans g) (minimizeAns env R srt fuel a ans' g) := by
  unfold minimizeAns
  refine Causal.bind_left fun _ hv => ?_
  cases hfn : a.fn with
  | none => exact Causal.refl _ _ _ _
  | some fn =>
    exact optimizer_causal fun obj => Causal.bind_left fun _ _ => naAns_causal _ _ _ _

end NA

/-! ## `cmaes` and `vdcma` -/

namespace Evo
variable {K σ S : Type} [AddZeroClass K] [One K] [Sub K] [Mul K] [Div K] [Neg K] [NatCast K] [IntCast K] [Pow K ℕ] [ArrayOps K] [LinearOrder K]
variable [NumFns K] [IntParts K] {p n : Nat} {ans ans' : Nat → Vec K n → Val K} {N : Nat} {P : Par K n} {G : Gauss S K p n} {c : Cfg}

local notation "agrees" => SameAnswers ans ans' N

/-- The points of a generation do not depend on the answers, and the answers at these points are all that is used. -/
theorem evaluate_causal (L : List (Vec K n)) (it : Nat) (arx : Pop K p n) (s : S) (pen : Pen K n) :
    Causal N agrees (fun e => L ++ List.ofFn fun i => unstandardize P.lower P.upper (e.2.1 i))
      (evaluate (P.from ans L.length) G it arx s pen) (evaluate (P.from ans' L.length) G it arx s pen) := by
  unfold evaluate
  refine Causal.ite (c := penalize P.srt _ arx (G.mean s) (G.old s) (G.sigma s) (G.diagC s) P.mueff it pen)
    (c' := penalize P.srt _ arx (G.mean s) (G.old s) (G.sigma s) (G.diagC s) P.mueff it pen) (p := P.penalized = true) ?_ ?_
  · unfold penalize
    refine Causal.bind_left fun _ _ => Causal.ask (fun r hr ha hl => ?_) (fun r r' hr hr' => ?_)
    · have hr' := hr
      obtain ⟨h, -, hr'⟩ := bind_ok_iff.1 hr'
      cases hr'
      rw [← hr]
      have he : (fun X : Pop K p n => (P.from ans L.length).obj.pop fun i => unstandardize P.lower P.upper (X i)) (fun i => clip (arx i)) =
          (fun X : Pop K p n => (P.from ans' L.length).obj.pop fun i => unstandardize P.lower P.upper (X i)) (fun i => clip (arx i)) :=
        funext fun i => SameAnswers.rows ha hl i
      dsimp only [Par.from] at he ⊢
      rw [he]
    · obtain ⟨h, -, hr⟩ := bind_ok_iff.1 hr
      obtain ⟨h', -, hr'⟩ := bind_ok_iff.1 hr'
      cases hr; cases hr'
      rfl
  · refine Causal.ask (fun r hr ha hl => ?_) (fun r r' hr hr' => ?_)
    · cases hr
      have he : ((P.from ans' L.length).obj.pop fun i => unstandardize P.lower P.upper (arx i)) =
          (P.from ans L.length).obj.pop fun i => unstandardize P.lower P.upper (arx i) :=
        funext fun i => (SameAnswers.rows ha hl i).symm
      show Except.ok _ = Except.ok _
      dsimp only [Par.from] at he ⊢
      rw [he]
    · cases hr; cases hr'
      rfl

/-- The part of an iteration after the evaluation. -/
def afterEval (P : Par K n) (G : Gauss S K p n) (c : Cfg) (L : St S K p n) (a : Pop K p n × S)
    (e : (Fin p → Val K) × Pop K p n × Pen K n) : Except PyErr (St S K p n × Gen K p n) := do
  let it := L.it + 1
  let fit := e.1
  let X : Pop K p n := fun i => unstandardize P.lower P.upper (e.2.1 i)
  let nfev := L.nfev + p
  let rows ← record c it X fit
  let rowsX := L.rowsX ++ rows.1
  let rowsF := L.rowsF ++ rows.2
  if hp : 0 < p then do
    let order := P.srt p fit
    let best := order ⟨0, hp⟩
    if c.maxiter ≤ (it : Int) - 1 then .error .indexError
    else do
      let arbest := L.arbest.set (it - 1) (fit best)
      let s ← G.update nfev a.1 order a.2
      need (∀ j, 0 ≤ G.diagConv s j)
      let status := converge it c.maxiter (G.mean s) (G.old s) arbest fit (fit best) (G.sigma s) P.insigma P.ilim
        (G.pc s) P.xtol P.ftol (G.diagConv s) (G.axes s)
      let cb : CB K p n := { X := X, x := X best, fval := fit best, nfev := nfev, nit := it,
                             xall := attach c rowsX, funall := attach c rowsF }
      .ok ({ s := s, it := it, nfev := nfev, pen := e.2.2, arbest := arbest, rowsX := rowsX, rowsF := rowsF,
             cbs := if c.hasCallback then L.cbs ++ [cb] else L.cbs, evals := L.evals ++ List.ofFn X },
           { X := X, fit := fit, best := best, status := status })
  else .error .unmodelled

theorem afterEval_ev {L : St S K p n} {a : Pop K p n × S} {e : (Fin p → Val K) × Pop K p n × Pen K n} {t : St S K p n × Gen K p n}
    (h : afterEval P G c L a e = .ok t) : t.1.evals = L.evals ++ List.ofFn fun i => unstandardize P.lower P.upper (e.2.1 i) := by
  unfold afterEval at h
  obtain ⟨rows, -, h⟩ := bind_ok_iff.1 h
  split_ifs at h
  all_goals
    obtain ⟨s, -, h⟩ := bind_ok_iff.1 h
    obtain ⟨_, -, h⟩ := bind_ok_iff.1 h
    cases h
    rfl

theorem bodyAns_eq (L : St S K p n) : bodyAns ans P G c L =
    (G.sample L.s >>= fun a => evaluate (P.from ans L.evals.length) G (L.it + 1) a.1 a.2 L.pen >>= afterEval P G c L a) := rfl

theorem bodyAns_le {L : St S K p n} {t : St S K p n × Gen K p n} (h : bodyAns ans P G c L = .ok t) : L.evals <+: t.1.evals := by
  rw [bodyAns_eq] at h
  obtain ⟨a, -, h⟩ := bind_ok_iff.1 h
  obtain ⟨e, -, h⟩ := bind_ok_iff.1 h
  rw [afterEval_ev h]
  exact List.prefix_append _ _

theorem bodyAns_causal (L : St S K p n) : Causal N agrees (fun r => r.1.evals) (bodyAns ans P G c L) (bodyAns ans' P G c L) := by
  rw [bodyAns_eq, bodyAns_eq]
  exact Causal.bind_left fun a _ => Causal.bind_right (evaluate_causal _ _ _ _ _) (fun e t ht => afterEval_ev ht) sameAnswers_prefix

theorem loopAns_le {fuel : Nat} {L : St S K p n} {t : St S K p n × Gen K p n} (h : loopAns ans P G c fuel L = .ok t) :
    L.evals <+: t.1.evals := by
  induction fuel generalizing L with
  | zero => simp [loopAns] at h
  | succ k ih =>
    unfold loopAns at h
    obtain ⟨r, hr, h⟩ := bind_ok_iff.1 h
    split_ifs at h
    · cases h; exact bodyAns_le hr
    · exact (bodyAns_le hr).trans (ih h)

theorem loopAns_causal (fuel : Nat) (L : St S K p n) :
    Causal N agrees (fun r => r.1.evals) (loopAns ans P G c fuel L) (loopAns ans' P G c fuel L) := by
  induction fuel generalizing L with
  | zero => exact Causal.refl _ _ _ _
  | succ k ih =>
    unfold loopAns
    refine (bodyAns_causal L).bind sameAnswers_prefix (fun r => Causal.ite (Causal.refl _ _ _ _) (ih r.1))
      (fun r t ht => ?_) (fun r t ht => ?_)
    · split_ifs at ht
      · cases ht; exact List.prefix_rfl
      · exact loopAns_le ht
    · split_ifs at ht
      · cases ht; exact List.prefix_rfl
      · exact loopAns_le ht

theorem runAns_causal (rng : S → σ) (fuel : Nat) (s0 : S) :
    Causal N agrees Output.evals (runAns ans P G c rng fuel s0) (runAns ans' P G c rng fuel s0) := by
  unfold runAns
  refine Causal.ite (Causal.refl _ _ _ _) ?_
  refine Causal.bind_right (ev := fun r => r.1.evals) (loopAns_causal fuel _) (fun r t ht => ?_) sameAnswers_prefix
  obtain ⟨res, -, ht⟩ := bind_ok_iff.1 ht
  cases ht
  rfl

end Evo

namespace CMAES
open Evo
variable {K σ : Type} [AddZeroClass K] [One K] [Sub K] [Mul K] [Div K] [Neg K] [NatCast K] [IntCast K] [Pow K ℕ] [ArrayOps K] [LinearOrder K]
variable [NumFns K] [IntParts K]

theorem minimizeAns_causal (env : Env) (R : Rng σ K) (srt : Argsort K) (eigh : Eigh K) (fuel : Nat) (a : Args K)
    {ans ans' : Nat → Vec K a.ndim → Val K} {N : Nat} (junk : Vec K a.ndim) (g : σ) :
    Causal N (SameAnswers ans ans' N) Output.evals (minimizeAns env R srt eigh fuel a ans junk g)
      (minimizeAns env R srt eigh fuel a ans' junk g) := by
  unfold minimizeAns
  refine Causal.bind_left fun _ hv => ?_
  cases hfn : a.fn with
  | none => exact Causal.refl _ _ _ _
  | some fn =>
    refine optimizer_causal fun obj => Causal.bind_left fun _ _ => Causal.bind_left fun _ _ => Causal.bind_left fun m _ => ?_
    by_cases h : 0 < a.ndim ∧ 0 < a.p ∧ 0 < a.mu ∧ a.mu ≤ a.p
    · rw [dif_pos h, dif_pos h]
      exact runAns_causal _ _ _
    · rw [dif_neg h, dif_neg h]
      exact Causal.refl _ _ _ _

end CMAES

namespace VDCMA
open Evo
variable {K σ : Type} [AddZeroClass K] [One K] [Sub K] [Mul K] [Div K] [Neg K] [NatCast K] [IntCast K] [Pow K ℕ] [ArrayOps K] [LinearOrder K]
variable [NumFns K] [IntParts K]

theorem minimizeAns_causal (env : Env) (R : Rng σ K) (srt : Argsort K) (fuel : Nat) (a : Args K)
    {ans ans' : Nat → Vec K a.ndim → Val K} {N : Nat} (junk : Vec K a.ndim) (g : σ) :
    Causal N (SameAnswers ans ans' N) Output.evals (minimizeAns env R srt fuel a ans junk g)
      (minimizeAns env R srt fuel a ans' junk g) := by
  unfold minimizeAns
  refine Causal.bind_left fun _ hv => ?_
  cases hfn : a.fn with
  | none => exact Causal.refl _ _ _ _
  | some fn =>
    refine optimizer_causal fun obj => Causal.bind_left fun _ _ => Causal.bind_left fun _ _ => Causal.bind_left fun m _ => ?_
    by_cases h : 0 < a.ndim ∧ 0 < a.p ∧ 0 < a.mu ∧ a.mu ≤ a.p
    · rw [dif_pos h, dif_pos h]
      exact runAns_causal _ _ _
    · rw [dif_neg h, dif_neg h]
      exact Causal.refl _ _ _ _

end VDCMA

end Stochopy
