import Verif.Spec.Evo
import Verif.Spec.Gauss
import Verif.Lemmas.EvoRun

/-! Runs with `Penalize`: what holds for any arithmetic. -/

set_option linter.unusedSectionVars false

namespace Stochopy.Evo
open Spec
variable {K σ S : Type} [AddZeroClass K] [One K] [Sub K] [Mul K] [Div K] [Neg K] [NatCast K] [IntCast K] [Pow K ℕ] [ArrayOps K] [LinearOrder K] [NumFns K] [IntParts K] {p n : Nat}
  {P : Par K n} {G : Gauss S K p n} {c : Cfg} {rng : S → σ} {fuel : Nat} {s0 : S} {o : Output σ K p n}

theorem clip_between (h : (-1 : K) ≤ 1) (x : Vec K n) (j : Fin n) : -1 ≤ clip x j ∧ clip x j ≤ 1 := by
  unfold clip
  split_ifs with h1 h2
  · exact ⟨le_refl _, h⟩
  · exact ⟨h, le_refl _⟩
  · exact ⟨not_lt.1 h1, not_lt.1 h2⟩

theorem clip_of_box {x : Vec K n} (h : ∀ j, -1 ≤ x j ∧ x j ≤ 1) : clip x = x := by
  funext j
  unfold clip
  rw [if_neg (not_lt.2 (h j).1), if_neg (not_lt.2 (h j).2)]

/-- A clipped coordinate is at a bound, so a point inside was not clipped. -/
theorem clip_of_inside {x : Vec K n} (h : ∀ j, -1 < clip x j ∧ clip x j < 1) : clip x = x := by
  funext j
  have := h j
  unfold clip at this ⊢
  split_ifs at this ⊢ with h1 h2
  · exact absurd this.1 (lt_irrefl _)
  · exact absurd this.2 (lt_irrefl _)
  · rfl

section
variable {srt : Argsort K} {fit : Pop K p n → Fin p → Val K} {arx : Pop K p n} {xmean xold : Vec K n} {sigma : K} {diagC : Vec K n}
  {me : K} {it : Nat} {pen : Pen K n} {r : (Fin p → Val K) × Pop K p n × Pen K n}

theorem penalize_ok (h : penalize srt fit arx xmean xold sigma diagC me it pen = .ok r) :
    ∃ hist, (0 < n ∧ 0 < p ∧ 0 < sigma ∧ 0 < me ∧ ∀ j, 0 < diagC j) ∧
      history srt (fit fun i => clip (arx i)) sigma diagC pen = .ok hist ∧
      r.2.1 = (fun i => clip (arx i)) ∧
      r.2.2 = { w := (weightsUpdate srt xmean xold sigma diagC me it hist.1 hist.2 pen).1
                hist := hist.1
                valid := hist.2
                ini := (weightsUpdate srt xmean xold sigma diagC me it hist.1 hist.2 pen).2 } ∧
      ∀ i, r.1 i = fit (fun i => clip (arx i)) i + penalty diagC r.2.2.w (clip (arx i)) (arx i) := by
  unfold penalize at h
  rw [bind_ok_iff] at h
  obtain ⟨u, h1, h⟩ := h
  rw [need_ok] at h1
  dsimp only at h
  rw [bind_ok_iff] at h
  obtain ⟨hist, h2, h⟩ := h
  cases h
  exact ⟨hist, h1, h2, rfl, rfl, fun i => rfl⟩

end

theorem evaluate_pen {it : Nat} {arx : Pop K p n} {s : S} {pen : Pen K n} (hp : P.penalized = true) :
    evaluate P G it arx s pen =
      penalize P.srt (fun X => P.obj.pop fun i => unstandardize P.lower P.upper (X i)) arx (G.mean s) (G.old s) (G.sigma s)
        (G.diagC s) P.mueff it pen := by
  unfold evaluate; rw [if_pos hp]

theorem evaluate_free {it : Nat} {arx : Pop K p n} {s : S} {pen : Pen K n} (hp : P.penalized = false) :
    evaluate P G it arx s pen = .ok (P.obj.pop fun i => unstandardize P.lower P.upper (arx i), arx, pen) := by
  unfold evaluate; rw [hp]; rfl

/-- Clipped to `[-1, 1]`. -/
theorem body_clipped (hp : P.penalized = true) (hle : (-1 : K) ≤ 1) {lo hi : Vec K n}
    (hbox : ∀ x : Vec K n, (∀ j, -1 ≤ x j ∧ x j ≤ 1) → InBox lo hi (unstandardize P.lower P.upper x)) {M M' : St S K p n} {g : Gen K p n}
    (h : body P G c M = .ok (M', g)) (i : Fin p) : InBox lo hi (g.X i) := by
  obtain ⟨_, a, e, rows, s, h1, h2, h3, hm, h4, h5, hr⟩ := body_ok h
  cases hr
  rw [evaluate_pen hp] at h2
  obtain ⟨hist, -, -, k3, -, -⟩ := penalize_ok h2
  show InBox _ _ (unstandardize P.lower P.upper (e.2.1 i))
  rw [k3]
  exact hbox _ (clip_between hle _)

section
variable {I : St S K p n → Prop} {gs : List (Gen K p n)} {g : Gen K p n} {L' L : St S K p n} {st : Int}

/-- What holds for every individual of every generation holds for what is reported. -/
theorem Completed.reported (h : Completed P G c rng I o gs g L' L st) {R : Vec K n → Val K → Prop}
    (hR : ∀ M M' g', I M → body P G c M = .ok (M', g') → ∀ i, R (g'.X i) (g'.fit i)) : AllReported R o := by
  refine ⟨?_, ?_, ?_⟩
  · rw [h.x, h.fval]; exact hR _ _ _ h.inv h.last _
  · intro b hb
    obtain ⟨k, g', hg, b2, b3, b4, b6⟩ := h.cbMem hb
    obtain ⟨M, M', hI, hbody, -⟩ := h.each k _ hg
    rw [b3, b4]; exact hR _ _ _ hI hbody _
  · intro xs fs hx hf k rx rf hkx hkf
    rw [h.xall.1] at hx
    rw [h.xall.2] at hf
    cases hr : c.returnAll with
    | false => simp [attach, hr] at hx
    | true =>
      simp only [attach, hr, if_true, Option.some.injEq] at hx hf
      subst hx hf
      obtain ⟨l1, l2, hk⟩ := h.hist.rows hr
      have hlt : k < (gs ++ [g]).length := by
        have := (List.getElem?_eq_some_iff.1 hkx).1
        omega
      have hg := List.getElem?_eq_getElem hlt
      obtain ⟨rx', rf', b1, b2, idx, b3, b4, -⟩ := hk k _ hg
      rw [hkx, Option.some.injEq] at b1
      rw [hkf, Option.some.injEq] at b2
      subst b1 b2
      obtain ⟨M, M', hI, hb, -⟩ := h.each k _ hg
      rw [b3, b4, List.forall₂_map_left_iff, List.forall₂_map_right_iff, List.forall₂_same]
      exact fun i _ => hR _ _ _ hI hb i

theorem Completed.clipped (h : Completed P G c rng I o gs g L' L st) (hp : P.penalized = true) (h1 : (-1 : K) ≤ 1) {lo hi : Vec K n}
    (hbox : ∀ x : Vec K n, (∀ j, -1 ≤ x j ∧ x j ≤ 1) → InBox lo hi (unstandardize P.lower P.upper x)) : AllInBox lo hi o := by
  refine ⟨?_, ?_, h.reported fun M M' g' _ hb i => body_clipped hp h1 hbox hb i⟩
  · intro x hx
    rw [h.evals, h.hist.evals, List.mem_flatMap] at hx
    obtain ⟨g', hg', hx⟩ := hx
    obtain ⟨i, rfl⟩ := List.mem_ofFn.1 hx
    obtain ⟨k, hk, hk'⟩ := List.getElem_of_mem hg'
    obtain ⟨M, M', hI, hb, -⟩ := h.each k g' (by rw [List.getElem?_eq_getElem hk, hk'])
    exact body_clipped hp h1 hbox hb i
  · intro b hb i
    obtain ⟨k, g', hg, b2, -⟩ := h.cbMem hb
    obtain ⟨M, M', hI, hbody, -⟩ := h.each k _ hg
    rw [b2]; exact body_clipped hp h1 hbox hbody i

end

/-- A completed run, with the reachable states as invariant. -/
theorem run_reach (h : run P G c rng fuel s0 = .ok o) : ∃ gs g L' L st, Completed P G c rng (Reach P G c s0) o gs g L' L st :=
  run_ok h _ Reach.start fun _ _ hL hb => hL.step hb

/-- The states after each generation of a run. -/
theorem run_states (h : run P G c rng fuel s0 = .ok o) :
    ∃ Ls : List (St S K p n), Ls.length = o.res.nit ∧ (∀ L ∈ Ls, Reach P G c s0 L) ∧
      ∀ (k : Nat) (L : St S K p n), Ls[k]? = some L → L.it = k + 1 ∧ L.evals <+: o.evals ∧ L.evals.length = (k + 1) * p := by
  obtain ⟨gs, g, L', L, st, H⟩ := run_reach h
  have hex : ∀ k : Fin (gs ++ [g]).length, ∃ M' : St S K p n, Reach P G c s0 M' ∧ Hist c ((gs ++ [g]).take (k + 1)) M' := by
    intro k
    have hk := List.getElem?_eq_getElem k.2
    obtain ⟨M, M', hM, hb, hH⟩ := H.each k _ hk
    refine ⟨M', hM.step hb, ?_⟩
    have := hH.step hb
    rwa [← List.take_succ_eq_append_getElem k.2] at this
  choose f hf using hex
  refine ⟨List.ofFn f, by rw [List.length_ofFn, H.nit]; simp, ?_, ?_⟩
  · intro M hM
    obtain ⟨k, rfl⟩ := List.mem_ofFn.1 hM
    exact (hf k).1
  · intro k M hM
    obtain ⟨hk, rfl⟩ := List.getElem?_eq_some_iff.1 hM
    rw [List.length_ofFn] at hk
    rw [List.getElem_ofFn]
    have hH := (hf ⟨k, hk⟩).2
    have hl : ((gs ++ [g]).take (k + 1)).length = k + 1 := by rw [List.length_take]; omega
    refine ⟨by rw [hH.it, hl], ?_, ?_⟩
    · rw [H.evals, H.hist.evals, hH.evals]
      exact (List.take_prefix _ _).flatMap _
    · rw [hH.evals, List.length_flatMap]
      simp only [List.length_ofFn, List.map_const', List.sum_replicate, hl, smul_eq_mul]

end Stochopy.Evo
