import Verif.Spec.Raise
import Verif.Lemmas.DE
import Verif.Lemmas.CPSO
import Verif.Lemmas.NA
import Verif.Lemmas.Evo
import Verif.Lemmas.MCMC
import Verif.Lemmas.HMC

/-! Calls with a raising callback, compared with calls whose callback does not raise. -/

set_option linter.unusedSectionVars false

namespace Stochopy
open Spec

section generic
variable {E B V X Y Z : Type} {raises : Nat → B → Option E} {req : Nat → Nat → Prop}

/-- The calls from the `n`-th on. -/
def from' (raises : Nat → B → Option E) (n : Nat) : Nat → B → Option E := fun j b => if j < n then none else raises j b

/-- Runs that go on after `n` calls, the calls `c0` and the requests `e0`. -/
structure Goes (raises : Nat → B → Option E) (req : Nat → Nat → Prop) (n : Nat) (c0 : List B) (e0 : List V) (cbs : Z → List B) (ev : Z → List V)
    (x : Except PyErr Z) (y : Except PyErr (Z ⊕ Stop E B V)) : Prop where
  int : Interrupted (from' raises n) req cbs ev x y
  ext : ∀ z, x = .ok z → c0 <+: cbs z ∧ e0 <+: ev z
  stop : ∀ st, y = .ok (.inr st) → c0 <+: st.cbs

variable {n : Nat} {c0 c1 : List B} {e0 e1 : List V} {cbs : Z → List B} {ev : Z → List V} {x : Except PyErr Z} {y : Except PyErr (Z ⊕ Stop E B V)}

theorem Goes.mono (h : Goes raises req n c1 e1 cbs ev x y) (hc : c0 <+: c1) (he : e0 <+: e1) : Goes raises req n c0 e0 cbs ev x y :=
  ⟨h.int, fun z hz => ⟨hc.trans (h.ext z hz).1, he.trans (h.ext z hz).2⟩, fun st hs => hc.trans (h.stop st hs)⟩

theorem Goes.fail (err : PyErr) : Goes raises req n c0 e0 cbs ev (.error err) (.error err) :=
  ⟨Or.inl rfl, fun _ h => (by cases h), fun _ h => (by cases h)⟩

theorem Goes.done {z : Z} (hn : (cbs z).length ≤ n) (hc : c0 <+: cbs z) (he : e0 <+: ev z) :
    Goes raises req n c0 e0 cbs ev (.ok z) (.ok (.inl z)) := by
  refine ⟨Or.inl ⟨fun j b hj => ?_, rfl⟩, fun z' h => ?_, fun _ h => ?_⟩
  · have hjl : j < (cbs z).length := (List.getElem?_eq_some_iff.1 hj).1
    exact if_pos (by omega)
  · cases h; exact ⟨hc, he⟩
  · cases h

theorem Goes.bind {W : Type} {w : Except PyErr W} {f : W → Except PyErr Z} {f' : W → Except PyErr (Z ⊕ Stop E B V)}
    (h : ∀ a, w = .ok a → Goes raises req n c0 e0 cbs ev (f a) (f' a)) : Goes raises req n c0 e0 cbs ev (w >>= f) (w >>= f') := by
  cases w with
  | error err => exact .fail err
  | ok a => exact h a rfl

/-- One call of the callback. -/
theorem Goes.step {hc : Bool} (hl : hc = true → c1.length = n + 1 ∧ req n e1.length) (h : Goes raises req (if hc then n + 1 else n) c1 e1 cbs ev x y) :
    Goes raises req n c1 e1 cbs ev x (stopOr hc raises c1 e1 y) := by
  cases hc with
  | false => exact h
  | true =>
    obtain ⟨hlen, hreq⟩ := hl rfl
    have hlast : c1.getLast? = c1[n]? := by rw [List.getLast?_eq_getElem?, hlen]; rfl
    obtain ⟨b, hb⟩ : ∃ b, c1[n]? = some b := ⟨_, List.getElem?_eq_getElem (by omega)⟩
    have hpre : ∀ {l : List B}, c1 <+: l → l[n]? = some b := by
      rintro l ⟨t, rfl⟩
      rw [List.getElem?_append_left (by omega), hb]
    have htake : ∀ {l : List B}, c1 <+: l → l.take (n + 1) = c1 := by
      rintro l ⟨t, rfl⟩
      rw [← hlen, List.take_left']
      rfl
    unfold stopOr
    rw [if_pos rfl, hlast, hb]
    dsimp only
    rw [show c1.length - 1 = n by omega]
    cases hr : raises n b with
    | some e =>
      dsimp only
      have hat : ∀ {l : List B}, c1 <+: l → FirstRaise (from' raises n) l n e := by
        intro l hl'
        refine ⟨⟨b, hpre hl', ?_⟩, fun j b' hj _ => if_pos hj⟩
        unfold from'
        rw [if_neg (lt_irrefl _), hr]
      refine ⟨?_, h.ext, fun st hs => ?_⟩
      · cases x with
        | ok z =>
          have hz := h.ext z rfl
          exact Or.inr ⟨n, e, e1, hat hz.1, hz.2, hreq, by rw [htake hz.1]⟩
        | error err => exact Or.inr ⟨⟨e, c1, e1⟩, n, hat List.prefix_rfl, hlen, hreq, rfl⟩
      · cases hs; exact List.prefix_rfl
    | none =>
      dsimp only
      have hsame : ∀ {l : List B}, c1 <+: l → ∀ (j : Nat) (b' : B), l[j]? = some b' → from' raises n j b' = from' raises (n + 1) j b' := by
        intro l hl' j b' hj
        unfold from'
        rcases lt_trichotomy j n with h1 | rfl | h1
        · rw [if_pos h1, if_pos (by omega)]
        · rw [hpre hl'] at hj
          cases hj
          rw [if_neg (lt_irrefl _), if_pos (by omega), hr]
        · rw [if_neg (by omega), if_neg (by omega)]
      have hfirst : ∀ {l : List B} {k : Nat} {e : E}, c1 <+: l → FirstRaise (from' raises (n + 1)) l k e → FirstRaise (from' raises n) l k e := by
        rintro l k e hl' ⟨⟨b', h1, h2⟩, h3⟩
        exact ⟨⟨b', h1, by rw [hsame hl' _ _ h1, h2]⟩, fun j b'' hj hb'' => by rw [hsame hl' _ _ hb'', h3 j b'' hj hb'']⟩
      refine ⟨?_, h.ext, h.stop⟩
      have hi := h.int
      cases x with
      | ok z =>
        have hz := (h.ext z rfl).1
        rcases hi with ⟨h1, h2⟩ | ⟨k, e, evs, h1, h2⟩
        · exact Or.inl ⟨fun j b' hj => by rw [hsame hz j b' hj]; exact h1 j b' hj, h2⟩
        · exact Or.inr ⟨k, e, evs, hfirst hz h1, h2⟩
      | error err =>
        rcases hi with h1 | ⟨st, k, h1, h2, h3, h4⟩
        · exact Or.inl h1
        · exact Or.inr ⟨st, k, hfirst (h.stop st h4) h1, h2, h3, h4⟩

theorem from'_zero : from' raises 0 = raises := by
  funext j b
  exact if_neg (Nat.not_lt_zero j)

/-- The end of the run. -/
theorem Goes.finish {cbs' : Y → List B} {ev' : Y → List V} {f : Z → Except PyErr Y} (h : Goes raises req n c0 e0 cbs ev x y)
    (hf : ∀ z o, f z = .ok o → cbs' o = cbs z ∧ ev' o = ev z) : Goes raises req n c0 e0 cbs' ev' (x >>= f) (unlessStopped y f) := by
  obtain ⟨hi, h1, h2⟩ := h
  cases x with
  | error err =>
    rcases hi with rfl | ⟨st, k, h3, h4, h5, rfl⟩
    · exact .fail err
    · refine ⟨Or.inr ⟨st, k, h3, h4, h5, rfl⟩, fun z hz => (by cases hz), fun st' hs => h2 st' ?_⟩
      cases hs; rfl
  | ok z =>
    rcases hi with ⟨h3, rfl⟩ | ⟨k, e, evs, h3, h4, h5, rfl⟩
    · show Goes raises req n c0 e0 cbs' ev' (f z) (do let z ← f z; .ok (.inl z))
      cases hz : f z with
      | error err => exact .fail err
      | ok o =>
        obtain ⟨h6, h7⟩ := hf z o hz
        refine ⟨Or.inl ⟨by rw [h6]; exact h3, rfl⟩, fun o' ho => ?_, fun st hs => (by cases hs)⟩
        cases ho
        rw [h6, h7]
        exact h1 z rfl
    · have hstop : ∀ st, unlessStopped (.ok (.inr ⟨e, (cbs z).take (k + 1), evs⟩) : Except PyErr (Z ⊕ Stop E B V)) f = .ok (.inr st) → c0 <+: st.cbs := by
        intro st hs
        cases hs
        exact h2 _ rfl
      show Goes raises req n c0 e0 cbs' ev' (f z) _
      cases hz : f z with
      | error err =>
        refine ⟨Or.inr ⟨⟨e, (cbs z).take (k + 1), evs⟩, k, ?_, ?_, h5, rfl⟩, fun o ho => (by cases ho), hstop⟩
        · obtain ⟨⟨b, h6, h7⟩, h8⟩ := h3
          refine ⟨⟨b, ?_, h7⟩, fun j b' hj hb' => h8 j b' hj ?_⟩
          · rw [List.getElem?_take, if_pos (by omega)]; exact h6
          · rw [List.getElem?_take, if_pos (by omega)] at hb'; exact hb'
        · obtain ⟨⟨b, h6, -⟩, -⟩ := h3
          have : k < (cbs z).length := (List.getElem?_eq_some_iff.1 h6).1
          simp only [List.length_take]
          omega
      | ok o =>
        obtain ⟨h6, h7⟩ := hf z o hz
        refine ⟨Or.inr ⟨k, e, evs, by rw [h6]; exact h3, by rw [h7]; exact h4, h5, by rw [h6]; rfl⟩, fun o' ho => ?_, hstop⟩
        cases ho
        rw [h6, h7]
        exact h1 z rfl

end generic

section optimizers
variable {K S σ E : Type} [AddZeroClass K] [One K] [Sub K] [Mul K] [Div K] [Neg K] [NatCast K] [IntCast K] [Pow K ℕ] [ArrayOps K] [LinearOrder K]
variable {p n : Nat} {raises : Nat → CB K p n → Option E}

theorem Goes.optimizer {B V Z E : Type} {raises : Nat → B → Option E} {req : Nat → Nat → Prop} {m : Nat} {c0 : List B} {e0 : List V}
    {cbs : Z → List B} {ev : Z → List V} {env : Env} {fn : Vec K n → Val K} {sync : Bool} {w : Int} {b : Option String}
    {f : Obj K n → Except PyErr Z} {f' : Obj K n → Except PyErr (Z ⊕ Stop E B V)} (h : ∀ obj, Goes raises req m c0 e0 cbs ev (f obj) (f' obj)) :
    Goes raises req m c0 e0 cbs ev (Stochopy.optimizer env fn sync w b f) (Stochopy.optimizer env fn sync w b f') := by
  unfold Stochopy.optimizer
  dsimp only
  split_ifs
  · exact .bind fun a _ => h a
  · exact .bind fun a _ => h a

/-- One generation per call. -/
def gens (p : Nat) : Nat → Nat → Prop := fun k m => m = (k + 1) * p

variable {A : Alg S K p n} {maxiter : Int} {ev : S → List (Vec K n)} {c : Cfg}

theorem body_adds (hl : A.Laws maxiter ev) {L : Loop S K p n} {r : Loop S K p n × Bool} (h : A.body c L = .ok r) :
    r.1.it = L.it + 1 ∧ (c.hasCallback = true → ∃ b, r.1.cbs = L.cbs ++ [b]) ∧ (c.hasCallback = false → r.1.cbs = L.cbs) ∧
      ∃ ys, ys.length = p ∧ ev r.1.s = ev L.s ++ ys := by
  unfold Alg.body at h
  dsimp only at h
  rw [bind_ok_iff] at h
  obtain ⟨⟨s, st⟩, h1, h⟩ := h
  rw [bind_ok_iff] at h
  obtain ⟨rows, -, h⟩ := h
  cases h
  obtain ⟨ys, h2, h3⟩ := hl.ev_step h1
  refine ⟨rfl, fun hc => ⟨_, if_pos hc⟩, fun hc => if_neg (by simp [hc]), ys, h2, ?_⟩
  rw [← h3]
  show ev (if st.isSome then s else A.post (L.it + 1) s) = ev s
  split_ifs
  · rfl
  · exact hl.ev_post _ _

theorem loop_goes (hl : A.Laws maxiter ev) : ∀ (fuel : Nat) (L : Loop S K p n) (m : Nat), (c.hasCallback = true → L.cbs.length = m ∧ L.it = m) →
    L.cbs.length ≤ m → (ev L.s).length = L.it * p →
    Goes raises (gens p) m L.cbs (ev L.s) Loop.cbs (fun L => ev L.s) (A.loop c fuel L) (A.loopE ev raises c fuel L)
  | 0, _, _, _, _, _ => .fail _
  | fuel + 1, L, m, h1, h2, h3 => by
    unfold Alg.loop Alg.loopE
    refine .bind fun r hr => ?_
    obtain ⟨hit, hcb, hnc, ys, hys, hev⟩ := body_adds hl hr
    have hlen : (ev r.1.s).length = r.1.it * p := by
      rw [hev, hit, List.length_append, h3, hys, Nat.succ_mul]
    have hpre : L.cbs <+: r.1.cbs := by
      cases hc : c.hasCallback with
      | true => obtain ⟨b, hb⟩ := hcb hc; rw [hb]; exact List.prefix_append _ _
      | false => rw [hnc hc]
    have hn : r.1.cbs.length ≤ (if c.hasCallback then m + 1 else m) := by
      cases hc : c.hasCallback with
      | true => obtain ⟨b, hb⟩ := hcb hc; rw [hb, List.length_append]; simpa using h2
      | false => rw [hnc hc]; simpa using h2
    have hn' : c.hasCallback = true → r.1.cbs.length = m + 1 ∧ r.1.it = m + 1 := by
      intro hc
      obtain ⟨b, hb⟩ := hcb hc
      rw [hb, List.length_append, hit, (h1 hc).1, (h1 hc).2]
      exact ⟨rfl, rfl⟩
    refine (Goes.step (fun hc => ⟨(hn' hc).1, ?_⟩) ?_).mono hpre (by rw [hev]; exact List.prefix_append _ _)
    · show _ = _
      rw [hlen, (hn' hc).2]
    · by_cases hb : r.2 = true
      · rw [if_pos hb, if_pos hb]
        exact .done hn List.prefix_rfl List.prefix_rfl
      · rw [if_neg hb, if_neg hb]
        refine loop_goes hl fuel r.1 _ (fun hc => ?_) hn hlen
        rw [if_pos hc]
        exact hn' hc

theorem run_goes (hl : A.Laws maxiter ev) {s0 : S} (h0 : (ev s0).length = p) {fuel : Nat} {out : Result K n → Loop S K p n → Output σ K p n}
    (ho : ∀ r L, (out r L).cbs = L.cbs ∧ (out r L).evals = ev L.s) :
    Goes raises (gens p) 0 [] [] Output.cbs Output.evals (A.run c fuel s0 >>= fun r => .ok (out r.1 r.2)) (A.runE ev raises c fuel s0 out) := by
  have e : (A.run c fuel s0 >>= fun r => .ok (out r.1 r.2)) =
      A.start c s0 >>= fun L0 => A.loop c fuel L0 >>= fun L => A.finish c L >>= fun res => .ok (out res L) := by
    unfold Alg.run
    cases A.start c s0 with
    | error err => rfl
    | ok L0 =>
      show ((A.loop c fuel L0 >>= fun L => A.finish c L >>= fun res => .ok (res, L)) >>= _) = A.loop c fuel L0 >>= _
      cases A.loop c fuel L0 with
      | error err => rfl
      | ok L =>
        show ((A.finish c L >>= fun res => .ok (res, L)) >>= _) = A.finish c L >>= _
        cases A.finish c L <;> rfl
  rw [e]
  unfold Alg.runE
  refine .bind fun L0 hL0 => ?_
  unfold Alg.start at hL0
  rw [bind_ok_iff] at hL0
  obtain ⟨rows, -, hL0⟩ := hL0
  cases hL0
  refine Goes.finish (n := 0) (cbs := Loop.cbs) (ev := fun L => ev L.s) ?_ fun L o hLo => ?_
  · refine (Goes.step (n := 0) (fun hc => ?_) (loop_goes hl _ _ _ (fun hc => ?_) ?_ ?_)).mono List.nil_prefix List.nil_prefix
    · refine ⟨by simp [hc], ?_⟩
      show _ = _
      dsimp only
      rw [h0]; simp
    · simp [hc]
    · cases hc : c.hasCallback <;> simp
    · dsimp only
      rw [h0]; simp
  · rw [bind_ok_iff] at hLo
    obtain ⟨res, -, h⟩ := hLo
    cases h
    exact ho res L

end optimizers

namespace Evo
variable {K S σ E : Type} [AddZeroClass K] [One K] [Sub K] [Mul K] [Div K] [Neg K] [NatCast K] [IntCast K] [Pow K ℕ] [ArrayOps K] [LinearOrder K]
variable {p n : Nat} {raises : Nat → CB K p n → Option E} [NumFns K] [IntParts K] {P : Par K n} {G : Gauss S K p n} {c : Cfg}

theorem loop_goes : ∀ (fuel : Nat) (L : St S K p n) (m : Nat), (c.hasCallback = true → L.cbs.length = m) → L.cbs.length ≤ m → (c.hasCallback = true → L.evals.length = m * p) →
    Goes raises (gens p) m L.cbs L.evals (fun r : St S K p n × Gen K p n => r.1.cbs) (fun r => r.1.evals) (loop P G c fuel L) (loopE P G raises c fuel L)
  | 0, _, _, _, _, _ => .fail _
  | fuel + 1, L, m, h1, h2, h3 => by
    unfold loop loopE
    refine .bind fun r hr => ?_
    obtain ⟨hp, a, e, rows, s, -, -, -, -, -, -, rfl⟩ := body_ok hr
    have hev : (after P G c L hp e rows s).1.evals = L.evals ++ List.ofFn fun i => unstandardize P.lower P.upper (e.2.1 i) := rfl
    have hcb : ∃ b, (after P G c L hp e rows s).1.cbs = if c.hasCallback then L.cbs ++ [b] else L.cbs := ⟨_, rfl⟩
    obtain ⟨b, hcb⟩ := hcb
    generalize after P G c L hp e rows s = r at hev hcb ⊢
    have hlen : c.hasCallback = true → r.1.evals.length = (m + 1) * p := by
      intro hc
      rw [hev, List.length_append, h3 hc, List.length_ofFn, Nat.succ_mul]
    have hpre : L.cbs <+: r.1.cbs := by
      rw [hcb]
      split_ifs
      · exact List.prefix_append _ _
      · exact List.prefix_rfl
    have hn : r.1.cbs.length ≤ (if c.hasCallback then m + 1 else m) := by
      rw [hcb]
      split_ifs
      · rw [List.length_append]; simpa using h2
      · exact h2
    have hn' : c.hasCallback = true → r.1.cbs.length = m + 1 := by
      intro hc
      rw [hcb, if_pos hc, List.length_append, h1 hc]
      rfl
    refine (Goes.step (fun hc => ⟨hn' hc, hlen hc⟩) ?_).mono hpre (by rw [hev]; exact List.prefix_append _ _)
    by_cases hb : r.2.status.isSome = true
    · rw [if_pos hb, if_pos hb]
      exact .done (z := r) (cbs := fun r : St S K p n × Gen K p n => r.1.cbs) (ev := fun r => r.1.evals) hn List.prefix_rfl List.prefix_rfl
    · rw [if_neg hb, if_neg hb]
      refine loop_goes fuel r.1 _ (fun hc => ?_) hn fun hc => ?_
      · rw [if_pos hc]; exact hn' hc
      · rw [if_pos hc]; exact hlen hc

theorem run_goes {rng : S → σ} {fuel : Nat} {s0 : S} :
    Goes raises (gens p) 0 [] [] Output.cbs Output.evals (run P G c rng fuel s0) (runE P G raises c rng fuel s0) := by
  unfold run runE
  split_ifs
  · exact .fail _
  · refine Goes.finish (n := 0) (cbs := fun r : St S K p n × Gen K p n => r.1.cbs) (ev := fun r => r.1.evals) ?_ fun r o hro => ?_
    · have := Evo.loop_goes (raises := raises) (P := P) (G := G) (c := c) fuel
        { s := s0, it := 0, nfev := 0, pen := Pen.start n, arbest := List.replicate c.maxiter.toNat (.fin 0), rowsX := [], rowsF := [],
          cbs := [], evals := [] } 0 (fun _ => rfl) (Nat.zero_le 0) fun _ => (Nat.zero_mul p).symm
      exact this
    · rw [bind_ok_iff] at hro
      obtain ⟨res, -, h⟩ := hro
      cases h
      exact ⟨rfl, rfl⟩

end Evo

namespace Sampling
variable {K σ E : Type} [AddZeroClass K] [One K] [Sub K] [Mul K] [Div K] [Neg K] [NatCast K] [IntCast K] [Pow K ℕ] [ArrayOps K] [LinearOrder K] [NumFns K]
variable {n : Nat} {raises : Nat → CB K n → Option E} {hc : Bool} {q m : Nat} {s s' : State σ K n}

/-- One sample: `q` requests and one call. -/
def Adds (hc : Bool) (q : Nat) (s s' : State σ K n) : Prop :=
  (∃ l, l.length = q ∧ s'.evals = s.evals ++ l) ∧ ∃ b, s'.cbs = if hc then s.cbs ++ [b] else s.cbs

/-- `m` samples: the first one takes one request, the other ones `q`. -/
def Upto (hc : Bool) (q m : Nat) (s : State σ K n) : Prop :=
  s.cbs.length ≤ m ∧ (hc = true → ∃ k, m = k + 1 ∧ s.cbs.length = m ∧ s.evals.length = 1 + k * q)

/-- One request and `q` for every sample after the first. -/
def perCall (q : Nat) : Nat → Nat → Prop := fun k m => m = 1 + k * q

theorem Adds.upto (ha : Adds hc q s s') (h : Upto hc q m s) : Upto hc q (if hc then m + 1 else m) s' := by
  obtain ⟨⟨l, hl, hev⟩, b, hb⟩ := ha
  refine ⟨?_, fun h1 => ?_⟩
  · rw [hb]
    split_ifs
    · rw [List.length_append]; simpa using h.1
    · exact h.1
  · obtain ⟨k, hk, h2, h3⟩ := h.2 h1
    refine ⟨m, if_pos h1, ?_, ?_⟩
    · rw [hb, if_pos h1, if_pos h1, List.length_append, h2]; rfl
    · rw [hev, List.length_append, h3, hl, hk, Nat.succ_mul]; omega

theorem Adds.goes {Z : Type} {cbs : Z → List (CB K n)} {ev : Z → List (Vec (Val K) n)} {x : Except PyErr Z} {y : Except PyErr (Z ⊕ Stop E (CB K n) (Vec (Val K) n))}
    (ha : Adds hc q s s') (h : Upto hc q m s) (hg : Goes raises (perCall q) (if hc then m + 1 else m) s'.cbs s'.evals cbs ev x y) :
    Goes raises (perCall q) m s.cbs s.evals cbs ev x (stopOr hc raises s'.cbs s'.evals y) := by
  have hu := ha.upto h
  obtain ⟨⟨l, hl, hev⟩, b, hb⟩ := ha
  refine (Goes.step (fun h1 => ?_) hg).mono ?_ (by rw [hev]; exact List.prefix_append _ _)
  · obtain ⟨k, hk, h2, h3⟩ := hu.2 h1
    rw [if_pos h1] at hk h2
    refine ⟨h2, ?_⟩
    show _ = _
    rw [h3, show k = m by omega]
  · rw [hb]
    split_ifs
    · exact List.prefix_append _ _
    · exact List.prefix_rfl

theorem adds_push (t : State σ K n) (acc : Option (Vec (Val K) n × Val K)) (ra : Bool) {l : List (Vec (Val K) n)} (hl : l.length = q)
    (ht : t.evals = s.evals ++ l) (hb : t.cbs = s.cbs) : Adds hc q s ((t.push acc).notify hc ra) := by
  refine ⟨⟨l, hl, ?_⟩, ?_⟩
  · rw [push_notify_evals, ht]
  · rw [← hb]
    cases acc <;> exact ⟨_, rfl⟩

/-- The first sample. -/
theorem start_goes {a : Args K} {fn : Vec (Val K) a.ndim → Val K} {R : Rng σ K} {g : σ} {s : State σ K a.ndim} (h : start a fn R g = .ok s)
    {raises : Nat → CB K a.ndim → Option E} {Z : Type} {cbs : Z → List (CB K a.ndim)} {ev : Z → List (Vec (Val K) a.ndim)} {x : Except PyErr Z}
    {y : Except PyErr (Z ⊕ Stop E (CB K a.ndim) (Vec (Val K) a.ndim))}
    (hg : ∀ m, Upto a.callback.isSome q m s → Goes raises (perCall q) m s.cbs s.evals cbs ev x y) :
    Goes raises (perCall q) 0 [] [] cbs ev x (stopOr a.callback.isSome raises s.cbs s.evals y) := by
  have hs : s.cbs.length = (if a.callback.isSome then 1 else 0) ∧ s.evals.length = 1 := by
    unfold start at h
    split_ifs at h with h1 h2 h3
    all_goals
      rw [bind_ok_iff] at h
      obtain ⟨x, -, h⟩ := h
      cases h
      refine ⟨?_, rfl⟩
      simp [h3]
  refine (Goes.step (n := 0) (fun h1 => ?_) (hg _ ⟨?_, fun h1 => ⟨0, ?_, ?_, ?_⟩⟩)).mono List.nil_prefix List.nil_prefix
  · rw [hs.1, if_pos h1]
    refine ⟨rfl, ?_⟩
    show _ = _
    rw [hs.2]; simp
  · rw [hs.1]
  · rw [if_pos h1]
  · rw [hs.1]
  · rw [hs.2]; simp

end Sampling

namespace MCMC
open Sampling
variable {K σ E : Type} [AddZeroClass K] [One K] [Sub K] [Mul K] [Div K] [Neg K] [NatCast K] [IntCast K] [Pow K ℕ] [ArrayOps K] [LinearOrder K] [NumFns K]
variable {n : Nat} {raises : Nat → Sampling.CB K n → Option E} {P : Par σ K n}

/-- Rejected proposals are not evaluated. -/
def perSample (c : Option String) : Nat := if c = some "Reject" then 0 else 1

theorem block_adds {j : Nat} {s s' : State σ K n} (h : block P j s = .ok s') : Adds P.hasCallback (perSample P.constraints) s s' := by
  unfold block at h
  dsimp only at h
  rw [truthy_inSearchSpace] at h
  unfold perSample
  by_cases hr : P.constraints = some "Reject"
  · simp only [hr, decide_true, Bool.not_true, Bool.false_eq_true, if_false] at h
    split_ifs at h
    cases h
    rw [if_pos hr]
    exact adds_push _ _ _ (l := []) rfl (by simp) rfl
  · simp only [hr, decide_false, Bool.not_false, if_true] at h
    split_ifs at h
    all_goals
      cases h
      rw [if_neg hr]
      exact adds_push _ _ _ (l := [_]) rfl rfl rfl

theorem sweep_goes {f : State σ K n → Except PyErr (State σ K n)} {k : State σ K n → Except PyErr (State σ K n ⊕ Stop E (Sampling.CB K n) (Vec (Val K) n))}
    (hk : ∀ s m, Upto P.hasCallback (perSample P.constraints) m s →
      Goes raises (perCall (perSample P.constraints)) m s.cbs s.evals State.cbs State.evals (f s) (k s)) :
    ∀ (js : List Nat) (s : State σ K n) (m : Nat), Upto P.hasCallback (perSample P.constraints) m s →
      Goes raises (perCall (perSample P.constraints)) m s.cbs s.evals State.cbs State.evals (sweep P js s >>= f) (sweepE P raises k js s)
  | [], s, m, h => hk s m h
  | j :: js, s, m, h => by
    unfold sweepE
    have e : (sweep P (j :: js) s >>= f) = block P j s >>= fun s' => if s'.xs.length = P.maxiter then f s' else sweep P js s' >>= f := by
      conv_lhs => unfold sweep
      cases block P j s with
      | error err => rfl
      | ok s' =>
        show ((if s'.xs.length = P.maxiter then .ok s' else sweep P js s') >>= f) = _
        show _ = if s'.xs.length = P.maxiter then f s' else sweep P js s' >>= f
        split_ifs <;> rfl
    rw [e]
    refine .bind fun s' hs' => ?_
    have ha := block_adds hs'
    refine ha.goes h ?_
    have hu := ha.upto h
    by_cases hx : s'.xs.length = P.maxiter
    · rw [if_pos hx, if_pos hx]; exact hk s' _ hu
    · rw [if_neg hx, if_neg hx]; exact sweep_goes hk js s' _ hu

theorem loop_goes : ∀ (fuel : Nat) (s : State σ K n) (m : Nat), Upto P.hasCallback (perSample P.constraints) m s →
    Goes raises (perCall (perSample P.constraints)) m s.cbs s.evals State.cbs State.evals (loop P fuel s) (loopE P raises fuel s)
  | 0, s, m, h => by
    unfold loop loopE
    split_ifs
    · exact .fail _
    · exact .done h.1 List.prefix_rfl List.prefix_rfl
  | fuel + 1, s, m, h => by
    unfold loop loopE
    split_ifs
    · exact sweep_goes (fun s' m' h' => loop_goes fuel s' m' h') _ s m h
    · exact .done h.1 List.prefix_rfl List.prefix_rfl

end MCMC

namespace HMC
open Sampling
variable {K σ E : Type} [AddZeroClass K] [One K] [Sub K] [Mul K] [Div K] [Neg K] [NatCast K] [IntCast K] [Pow K ℕ] [ArrayOps K] [LinearOrder K] [NumFns K]
variable {n : Nat} {raises : Nat → Sampling.CB K n → Option E} {P : Par σ K n}

/-- The derivatives of a leap-frog integration, and the two energies unless the proposal is rejected. -/
def perSample (nleap n : Nat) (c : Option String) : Nat := (nleap + 2) * (2 * n) + if c = some "Reject" then 0 else 2

theorem iter_adds (hG : Calls P.G (2 * n)) {s s' : State σ K n} (h : iter P s = .ok s') : Adds P.hasCallback (perSample P.nleap n P.constraints) s s' := by
  unfold iter at h
  dsimp only at h
  rw [bind_ok_iff] at h
  obtain ⟨r, hr, h⟩ := h
  have hlen := leapfrog_calls hG hr
  rw [truthy_inSearchSpace] at h
  unfold perSample
  by_cases hj : P.constraints = some "Reject"
  · simp only [hj, decide_true, Bool.not_true, Bool.false_eq_true, if_false] at h
    cases h
    rw [if_pos hj]
    exact adds_push _ _ _ (l := r.2.2) (by rw [hlen]; rfl) rfl rfl
  · simp only [hj, decide_false, Bool.not_false, if_true] at h
    cases h
    rw [if_neg hj]
    refine adds_push _ _ _ (l := r.2.2 ++ [s.xcur, r.1]) (by rw [List.length_append, hlen]; rfl) ?_ rfl
    rw [← List.append_assoc]

theorem loop_goes (hG : Calls P.G (2 * n)) : ∀ (k : Nat) (s : State σ K n) (m : Nat), Upto P.hasCallback (perSample P.nleap n P.constraints) m s →
    Goes raises (perCall (perSample P.nleap n P.constraints)) m s.cbs s.evals State.cbs State.evals (loop P k s) (loopE P raises k s)
  | 0, s, m, h => .done h.1 List.prefix_rfl List.prefix_rfl
  | k + 1, s, m, h => by
    unfold loop loopE
    refine .bind fun s' hs' => ?_
    have ha := iter_adds hG hs'
    exact ha.goes h (loop_goes hG k s' _ (ha.upto h))

end HMC

end Stochopy
