import Verif.Model.Evo
import Verif.Lemmas.Optimizer
import Verif.Spec.Run
import Mathlib.Tactic.Ring
import Mathlib.Tactic.Linarith

/-! The frame of `cmaes` and `vdcma`: inversion of one generation and the shape of completed runs. -/

set_option linter.unusedSectionVars false

namespace Stochopy.Evo
variable {K σ S : Type} [AddZeroClass K] [One K] [Sub K] [Mul K] [Div K] [Neg K] [NatCast K] [IntCast K] [Pow K ℕ] [ArrayOps K] [LinearOrder K] [NumFns K] [IntParts K] {p n : Nat}
  {P : Par K n} {G : Gauss S K p n} {c : Cfg}

theorem need_ok {Q : Prop} [Decidable Q] {u : Unit} : need Q = .ok u ↔ Q := by
  unfold need
  by_cases h : Q
  · rw [if_pos h]; simp [h]
  · rw [if_neg h]; simp [h]

theorem need_error {Q : Prop} [Decidable Q] {e : PyErr} : need Q = .error e ↔ ¬ Q ∧ e = .unmodelled := by
  unfold need
  by_cases h : Q
  · rw [if_pos h]; simp [h]
  · rw [if_neg h]; simp [h, eq_comm]

theorem need_true {Q : Prop} [Decidable Q] (h : Q) : need Q = .ok () := if_pos h

/-- The state and generation a successful iteration ends with. -/
def after (P : Par K n) (G : Gauss S K p n) (c : Cfg) (L : St S K p n) (hp : 0 < p)
    (e : (Fin p → Val K) × Pop K p n × Pen K n) (rows : List (List (Vec K n)) × List (List (Val K))) (s : S) :
    St S K p n × Gen K p n :=
  let X : Pop K p n := fun i => unstandardize P.lower P.upper (e.2.1 i)
  let best := P.srt p e.1 ⟨0, hp⟩
  let arbest := L.arbest.set L.it (e.1 best)
  let cb : CB K p n :=
    { X := X, x := X best, fval := e.1 best, nfev := L.nfev + p, nit := L.it + 1, xall := attach c (L.rowsX ++ rows.1),
      funall := attach c (L.rowsF ++ rows.2) }
  ({ s := s
     it := L.it + 1
     nfev := L.nfev + p
     pen := e.2.2
     arbest := arbest
     rowsX := L.rowsX ++ rows.1
     rowsF := L.rowsF ++ rows.2
     cbs := if c.hasCallback then L.cbs ++ [cb] else L.cbs
     evals := L.evals ++ List.ofFn X },
   { X := X
     fit := e.1
     best := best
     status := converge (L.it + 1) c.maxiter (G.mean s) (G.old s) arbest e.1 (e.1 best) (G.sigma s) P.insigma P.ilim
        (G.pc s) P.xtol P.ftol (G.diagConv s) (G.axes s) })

theorem body_ok {L : St S K p n} {r : St S K p n × Gen K p n} (h : body P G c L = .ok r) :
    ∃ (hp : 0 < p) (a : Pop K p n × S) (e : (Fin p → Val K) × Pop K p n × Pen K n)
      (rows : List (List (Vec K n)) × List (List (Val K))) (s : S),
      G.sample L.s = .ok a ∧ evaluate P G (L.it + 1) a.1 a.2 L.pen = .ok e ∧
      record c (L.it + 1) (fun i => unstandardize P.lower P.upper (e.2.1 i)) e.1 = .ok rows ∧
      (L.it : Int) < c.maxiter ∧ G.update (L.nfev + p) a.1 (P.srt p e.1) a.2 = .ok s ∧ (∀ j, 0 ≤ G.diagConv s j) ∧
      r = after P G c L hp e rows s := by
  unfold body at h
  dsimp only at h
  rw [bind_ok_iff] at h
  obtain ⟨a, h1, h⟩ := h
  rw [bind_ok_iff] at h
  obtain ⟨e, h2, h⟩ := h
  rw [bind_ok_iff] at h
  obtain ⟨rows, h3, h⟩ := h
  by_cases hp : 0 < p
  · rw [dif_pos hp] at h
    by_cases hm : c.maxiter ≤ ((L.it + 1 : Nat) : Int) - 1
    · rw [if_pos hm] at h; cases h
    · rw [if_neg hm, bind_ok_iff] at h
      obtain ⟨s, h4, h⟩ := h
      rw [bind_ok_iff] at h
      obtain ⟨u, h5, h⟩ := h
      rw [need_ok] at h5
      refine ⟨hp, a, e, rows, s, h1, h2, h3, ?_, h4, h5, ?_⟩
      · push_cast at hm; omega
      · cases h; rfl
  · rw [dif_neg hp] at h; cases h

theorem loop_ok {I : St S K p n → Prop} (hI : ∀ L r, I L → body P G c L = .ok r → r.2.status = none → I r.1) :
    ∀ (fuel : Nat) (L : St S K p n) (r), I L → loop P G c fuel L = .ok r →
      ∃ L', I L' ∧ body P G c L' = .ok r ∧ r.2.status.isSome = true := by
  intro fuel
  induction fuel with
  | zero => intro L r _ h; cases h
  | succ k ih =>
    intro L r h0 h
    rw [loop, bind_ok_iff] at h
    obtain ⟨r1, h1, h⟩ := h
    by_cases hs : r1.2.status.isSome = true
    · rw [if_pos hs] at h; cases h; exact ⟨L, h0, h1, hs⟩
    · rw [if_neg hs] at h
      exact ih _ _ (hI _ _ h0 h1 (by simpa using hs)) h

/-- Which individuals of a generation are recorded. -/
def Recorded (c : Cfg) (g : Gen K p n) (rx : List (Vec K n)) (rf : List (Val K)) : Prop :=
  ∃ idx : List (Fin p), rx = idx.map g.X ∧ rf = idx.map g.fit ∧ idx.length = max 1 c.nout.toNat ∧
    (0 < c.nout → c.nout ≤ p → idx = (List.finRange p).take c.nout.toNat)

theorem record_ok {it : Nat} {X : Pop K p n} {fit : Fin p → Val K} {rows} (h : record c it X fit = .ok rows)
    {g : Gen K p n} (hX : g.X = X) (hf : g.fit = fit) :
    (c.returnAll = true → ∃ rx rf, rows = ([rx], [rf]) ∧ Recorded c g rx rf) ∧ (c.returnAll = false → rows = ([], [])) := by
  subst hX hf
  unfold record at h
  cases hr : c.returnAll with
  | false => rw [hr] at h; injection h with h; subst h; exact ⟨nofun, fun _ => rfl⟩
  | true =>
    refine ⟨fun _ => ?_, nofun⟩
    rw [hr, if_pos rfl] at h
    by_cases h0 : 0 < c.nout
    · rw [if_pos h0] at h
      by_cases h1 : c.maxiter ≤ (it : Int) - 1
      · rw [if_pos h1] at h; cases h
      · rw [if_neg h1] at h
        by_cases h2 : c.nout ≤ p
        · rw [if_pos h2] at h
          cases h
          refine ⟨_, _, rfl, (List.finRange p).take c.nout.toNat, ?_, ?_, ?_, fun _ _ => rfl⟩
          · rw [List.ofFn_eq_map, List.map_take]
          · rw [List.ofFn_eq_map, List.map_take]
          · rw [List.length_take, List.length_finRange]; omega
        · rw [if_neg h2] at h
          by_cases h3 : p = 1
          · rw [if_pos h3] at h
            cases h
            subst h3
            refine ⟨_, _, rfl, List.replicate c.nout.toNat 0, ?_, ?_, ?_, fun _ h => absurd h h2⟩
            · simp [List.ofFn_succ]
            · simp [List.ofFn_succ]
            · rw [List.length_replicate]; omega
          · rw [if_neg h3] at h; cases h
    · rw [if_neg h0, bind_ok_iff] at h
      obtain ⟨i, _, h⟩ := h
      by_cases h1 : c.maxiter ≤ (it : Int) - 1
      · rw [if_pos h1] at h; cases h
      · rw [if_neg h1] at h
        cases h
        refine ⟨_, _, rfl, [i], rfl, rfl, ?_, fun h => absurd h h0⟩
        have : c.nout.toNat = 0 := by omega
        rw [this]; rfl

/-- What the variables of the frame say after the generations `gs`. -/
structure Hist (c : Cfg) (gs : List (Gen K p n)) (L : St S K p n) : Prop where
  it : L.it = gs.length
  nfev : L.nfev = gs.length * p
  evals : L.evals = gs.flatMap fun g => List.ofFn g.X
  budget : (gs.length : Int) ≤ c.maxiter
  rows : c.returnAll = true → L.rowsX.length = gs.length ∧ L.rowsF.length = gs.length ∧
    ∀ (k : Nat) g, gs[k]? = some g → ∃ rx rf, L.rowsX[k]? = some rx ∧ L.rowsF[k]? = some rf ∧ Recorded c g rx rf
  cbs : c.hasCallback = true → L.cbs.length = gs.length ∧
    ∀ (k : Nat) g, gs[k]? = some g → ∃ b, L.cbs[k]? = some b ∧ b.X = g.X ∧ b.x = g.X g.best ∧ b.fval = g.fit g.best ∧
      b.nfev = (k + 1) * p ∧ b.nit = k + 1 ∧ b.xall = attach c (L.rowsX.take (k + 1)) ∧
      b.funall = attach c (L.rowsF.take (k + 1))
  noCbs : c.hasCallback = false → L.cbs = []
  noRows : c.returnAll = false → L.rowsX = [] ∧ L.rowsF = []
  arbestLen : L.arbest.length = c.maxiter.toNat
  arbest : ∀ (k : Nat) g, gs[k]? = some g → L.arbest[k]? = some (g.fit g.best)
  unfilled : ∀ k, gs.length ≤ k → (k : Int) < c.maxiter → L.arbest[k]? = some (.fin 0)

theorem Hist.step {gs : List (Gen K p n)} {L : St S K p n} (hH : Hist c gs L) {r : St S K p n × Gen K p n}
    (h : body P G c L = .ok r) : Hist c (gs ++ [r.2]) r.1 := by
  obtain ⟨hp, a, e, rows, s, h1, h2, h3, hm, h4, h5, rfl⟩ := body_ok h
  have hrec := record_ok h3 (g := (after P G c L hp e rows s).2) rfl rfl
  have hlen : (gs ++ [(after P G c L hp e rows s).2]).length = gs.length + 1 := by simp
  constructor
  · rw [hlen, ← hH.it]; rfl
  · rw [hlen, Nat.add_mul, Nat.one_mul, ← hH.nfev]; rfl
  · rw [List.flatMap_append, ← hH.evals]; simp [after]
  · rw [hlen]; have := hH.it; push_cast; omega
  · intro hr
    obtain ⟨l1, l2, hk⟩ := hH.rows hr
    obtain ⟨rx, rf, hrows, hR⟩ := hrec.1 hr
    refine ⟨?_, ?_, ?_⟩
    · rw [hlen]; show (L.rowsX ++ rows.1).length = _; rw [hrows]; simp [l1]
    · rw [hlen]; show (L.rowsF ++ rows.2).length = _; rw [hrows]; simp [l2]
    · intro k g hg
      show ∃ rx rf, (L.rowsX ++ rows.1)[k]? = some rx ∧ (L.rowsF ++ rows.2)[k]? = some rf ∧ Recorded c g rx rf
      rw [hrows]
      rcases Nat.lt_or_ge k gs.length with hlt | hge
      · rw [List.getElem?_append_left hlt] at hg
        rw [List.getElem?_append_left (by omega), List.getElem?_append_left (by omega)]
        exact hk k g hg
      · have hk' : k = gs.length := by
          have := (List.getElem?_eq_some_iff.1 hg).1
          simp at this; omega
        subst hk'
        rw [List.getElem?_append_right (le_refl _)] at hg
        rw [List.getElem?_append_right (by omega), List.getElem?_append_right (by omega), l1, l2]
        simp only [Nat.sub_self, List.getElem?_cons_zero, Option.some.injEq] at hg ⊢
        subst hg
        exact ⟨rx, rf, rfl, rfl, hR⟩
  · intro hc
    obtain ⟨l1, hk⟩ := hH.cbs hc
    have hcb : (after P G c L hp e rows s).1.cbs = L.cbs ++ [{
        X := (after P G c L hp e rows s).2.X
        x := (after P G c L hp e rows s).2.X (after P G c L hp e rows s).2.best
        fval := (after P G c L hp e rows s).2.fit (after P G c L hp e rows s).2.best
        nfev := L.nfev + p
        nit := L.it + 1
        xall := attach c (L.rowsX ++ rows.1)
        funall := attach c (L.rowsF ++ rows.2) }] := by
      simp [after, hc]
    refine ⟨by rw [hcb, hlen]; simp [l1], ?_⟩
    have hrl : ∀ m, m ≤ gs.length → attach c (L.rowsX.take m) = attach c ((L.rowsX ++ rows.1).take m) ∧
        attach c (L.rowsF.take m) = attach c ((L.rowsF ++ rows.2).take m) := by
      intro m hmle
      unfold attach
      cases hr : c.returnAll with
      | false => exact ⟨rfl, rfl⟩
      | true =>
        obtain ⟨l1, l2, -⟩ := hH.rows hr
        rw [List.take_append_of_le_length (by omega), List.take_append_of_le_length (by omega)]
        exact ⟨rfl, rfl⟩
    have hrl' : attach c (L.rowsX ++ rows.1) = attach c ((L.rowsX ++ rows.1).take (gs.length + 1)) ∧
        attach c (L.rowsF ++ rows.2) = attach c ((L.rowsF ++ rows.2).take (gs.length + 1)) := by
      unfold attach
      cases hr : c.returnAll with
      | false => exact ⟨rfl, rfl⟩
      | true =>
        obtain ⟨l1, l2, -⟩ := hH.rows hr
        obtain ⟨rx, rf, hrows, -⟩ := hrec.1 hr
        rw [hrows, List.take_of_length_le (by simp [l1]), List.take_of_length_le (by simp [l2])]
        exact ⟨rfl, rfl⟩
    intro k g hg
    rw [hcb]
    rcases Nat.lt_or_ge k gs.length with hlt | hge
    · rw [List.getElem?_append_left hlt] at hg
      rw [List.getElem?_append_left (by omega)]
      obtain ⟨b, b1, b2, b3, b4, b5, b6, b7, b8⟩ := hk k g hg
      have := hrl (k + 1) (by omega)
      exact ⟨b, b1, b2, b3, b4, b5, b6, b7.trans this.1, b8.trans this.2⟩
    · have hk' : k = gs.length := by
        have := (List.getElem?_eq_some_iff.1 hg).1
        simp at this; omega
      subst hk'
      rw [List.getElem?_append_right (le_refl _)] at hg
      rw [List.getElem?_append_right (by omega), l1]
      simp only [Nat.sub_self, List.getElem?_cons_zero, Option.some.injEq] at hg ⊢
      subst hg
      refine ⟨_, rfl, rfl, rfl, rfl, ?_, ?_, hrl'.1, hrl'.2⟩
      · show L.nfev + p = _; rw [hH.nfev, Nat.add_mul, Nat.one_mul]
      · show L.it + 1 = _; rw [hH.it]
  · intro hc; simp [after, hc, hH.noCbs hc]
  · intro hr
    have := hH.noRows hr
    have := hrec.2 hr
    subst this
    simp [after, hH.noRows hr]
  · show (L.arbest.set _ _).length = _; rw [List.length_set, hH.arbestLen]
  · intro k g hg
    show (L.arbest.set L.it _)[k]? = _
    rcases Nat.lt_or_ge k gs.length with hlt | hge
    · rw [List.getElem?_append_left hlt] at hg
      rw [List.getElem?_set_ne (by rw [hH.it]; omega)]
      exact hH.arbest k g hg
    · have hk' : k = gs.length := by
        have := (List.getElem?_eq_some_iff.1 hg).1
        simp at this; omega
      subst hk'
      rw [List.getElem?_append_right (le_refl _)] at hg
      simp only [Nat.sub_self, List.getElem?_cons_zero, Option.some.injEq] at hg
      subst hg
      rw [hH.it, List.getElem?_set_self (by rw [hH.arbestLen]; have := hH.it; omega)]
      rfl
  · intro k hk hkm
    rw [hlen] at hk
    show (L.arbest.set L.it _)[k]? = _
    rw [List.getElem?_set_ne (by rw [hH.it]; omega)]
    exact hH.unfilled k (by omega) hkm

/-- The state before the first generation. -/
def init (c : Cfg) (s0 : S) : St S K p n :=
  { s := s0, it := 0, nfev := 0, pen := Pen.start n, arbest := List.replicate c.maxiter.toNat (.fin 0), rowsX := [],
    rowsF := [], cbs := [], evals := [] }

theorem hist_init {s0 : S} (hm : 0 ≤ c.maxiter) : Hist c [] (init c s0 : St S K p n) where
  it := rfl
  nfev := by simp [init]
  evals := rfl
  budget := by simpa using hm
  rows _ := ⟨rfl, rfl, fun k g h => by simp at h⟩
  cbs _ := ⟨rfl, fun k g h => by simp at h⟩
  noCbs _ := rfl
  noRows _ := ⟨rfl, rfl⟩
  arbestLen := by simp [init]
  arbest k g h := by simp at h
  unfilled k _ h := by simp only [init]; rw [List.getElem?_replicate, if_pos (by omega)]

/-- A completed run: the generations `gs ++ [g]`, where only `g` has a status. -/
structure Completed (P : Par K n) (G : Gauss S K p n) (c : Cfg) (rng : S → σ) (I : St S K p n → Prop) (o : Output σ K p n)
    (gs : List (Gen K p n)) (g : Gen K p n) (L' L : St S K p n) (st : Int) : Prop where
  before : Hist c gs L'
  inv : I L'
  last : body P G c L' = .ok (L, g)
  hist : Hist c (gs ++ [g]) L
  running : ∀ g' ∈ gs, g'.status = none
  status : g.status = some st
  each : ∀ (k : Nat) g', (gs ++ [g])[k]? = some g' → ∃ M M', I M ∧ body P G c M = .ok (M', g') ∧
    Hist c ((gs ++ [g]).take k) M
  res : ∃ msg, messages st = some msg ∧
    o.res = { x := g.X g.best, success := decide (0 ≤ st), status := st, message := msg,
              fval := g.fit g.best, nfev := L.nfev, nit := L.it, xall := attach c L.rowsX, funall := attach c L.rowsF }
  cbs : o.cbs = L.cbs
  evals : o.evals = L.evals
  final : o.rng = rng L.s

theorem run_ok {rng : S → σ} {fuel : Nat} {s0 : S} {o : Output σ K p n} (h : run P G c rng fuel s0 = .ok o)
    (I : St S K p n → Prop) (h0 : I (init c s0)) (hI : ∀ L r, I L → body P G c L = .ok r → I r.1) :
    ∃ gs g L' L st, Completed P G c rng I o gs g L' L st := by
  unfold run at h
  by_cases hm : c.maxiter < 0
  · rw [if_pos hm] at h; cases h
  rw [if_neg hm, bind_ok_iff] at h
  obtain ⟨r, h1, h⟩ := h
  rw [bind_ok_iff] at h
  obtain ⟨res, h2, h⟩ := h
  obtain ⟨L', ⟨gs, hH, hI', hnone, heach⟩, hb, hs⟩ := loop_ok
    (I := fun L => ∃ gs, Hist c gs L ∧ I L ∧ (∀ g' ∈ gs, g'.status = none) ∧
      ∀ (k : Nat) g', gs[k]? = some g' → ∃ M M', I M ∧ body P G c M = .ok (M', g') ∧ Hist c (gs.take k) M)
    (by
      rintro L r ⟨gs, hH, hIL, hn, hea⟩ hb hs
      refine ⟨gs ++ [r.2], hH.step hb, hI _ _ hIL hb, ?_, ?_⟩
      · intro g' hg'
        rcases List.mem_append.1 hg' with h | h
        · exact hn g' h
        · rw [List.mem_singleton.1 h]; exact hs
      · intro k g' hk
        rcases Nat.lt_or_ge k gs.length with hlt | hge
        · rw [List.getElem?_append_left hlt] at hk
          rw [List.take_append_of_le_length hlt.le]
          exact hea k g' hk
        · have hk' : k = gs.length := by
            have := (List.getElem?_eq_some_iff.1 hk).1
            simp at this; omega
          subst hk'
          rw [List.getElem?_append_right (le_refl _)] at hk
          simp only [Nat.sub_self, List.getElem?_cons_zero, Option.some.injEq] at hk
          subst hk
          refine ⟨L, r.1, hIL, hb, ?_⟩
          rw [List.take_append_of_le_length (le_refl _), List.take_length]
          exact hH) fuel _ _
      ⟨[], hist_init (not_lt.1 hm), h0, by simp, by simp⟩ h1
  obtain ⟨st, hst⟩ := Option.isSome_iff_exists.1 hs
  unfold finish at h2
  rw [hst] at h2
  dsimp only at h2
  cases hmsg : messages st with
  | none => rw [hmsg] at h2; cases h2
  | some msg =>
    rw [hmsg] at h2
    cases h2
    cases h
    refine ⟨gs, r.2, L', r.1, st, hH, hI', hb, hH.step hb, hnone, hst, ?_, ⟨msg, hmsg, rfl⟩, rfl, rfl, rfl⟩
    intro k g' hk
    rcases Nat.lt_or_ge k gs.length with hlt | hge
    · rw [List.getElem?_append_left hlt] at hk
      rw [List.take_append_of_le_length hlt.le]
      exact heach k g' hk
    · have hk' : k = gs.length := by
        have := (List.getElem?_eq_some_iff.1 hk).1
        simp at this; omega
      subst hk'
      rw [List.getElem?_append_right (le_refl _)] at hk
      simp only [Nat.sub_self, List.getElem?_cons_zero, Option.some.injEq] at hk
      subst hk
      refine ⟨L', r.1, hI', hb, ?_⟩
      rw [List.take_append_of_le_length (le_refl _), List.take_length]
      exact hH

end Stochopy.Evo
