import Verif.Model.InPlace
import Verif.Spec.InPlace
import Verif.Lemmas.Noise
import Verif.Lemmas.Sampler

/-! Runs with an objective that writes into its argument. -/

set_option linter.unusedSectionVars false

namespace Stochopy
open Spec

/-- Backwards along a fold: while the final state is good, both loops do the same. -/
theorem foldlM_agree {α β : Type} {f f' : β → α → Except PyErr β} {G : β → Prop}
    (h : ∀ b a b', f b a = .ok b' → G b' → f' b a = .ok b' ∧ G b) :
    ∀ (l : List α) (b b' : β), l.foldlM f b = .ok b' → G b' → l.foldlM f' b = .ok b' ∧ G b := by
  intro l
  induction l with
  | nil => intro b b' hb hG; simp only [List.foldlM_nil] at hb ⊢; cases hb; exact ⟨rfl, hG⟩
  | cons a l ih =>
    intro b b' hb hG
    rw [List.foldlM_cons, bind_ok_iff] at hb
    obtain ⟨c, hc, hb⟩ := hb
    obtain ⟨h1, h2⟩ := ih c b' hb hG
    obtain ⟨h3, h4⟩ := h b a c hc h2
    exact ⟨by rw [List.foldlM_cons, h3]; exact h1, h4⟩

theorem foldl_agree {α β : Type} {f f' : β → α → β} {G : β → Prop} (h : ∀ b a, G (f b a) → f' b a = f b a ∧ G b) :
    ∀ (l : List α) (b : β), G (l.foldl f b) → l.foldl f' b = l.foldl f b ∧ G b := by
  intro l
  induction l with
  | nil => intro b hG; exact ⟨rfl, hG⟩
  | cons a l ih =>
    intro b hG
    rw [List.foldl_cons] at hG
    obtain ⟨h1, h2⟩ := ih _ hG
    obtain ⟨h3, h4⟩ := h b a h2
    exact ⟨by rw [List.foldl_cons, List.foldl_cons, h3, h1], h4⟩

section frame
variable {K S : Type} [AddZeroClass K] [One K] [Sub K] [Mul K] [Div K] [Neg K] [NatCast K] [IntCast K] [Pow K ℕ] [ArrayOps K] [LinearOrder K] {p n : Nat}
variable {A : Alg S K p n} {step' : Nat → S → Except PyErr (S × Option Int)} {c : Cfg} {G : S → Prop}

theorem body_agree (hstep : ∀ it s s' st, A.step it s = .ok (s', st) → G s' → step' it s = .ok (s', st) ∧ G s)
    (hpost : ∀ it s, G (A.post it s) → G s) {L L' : Loop S K p n} {b : Bool} (h : A.body c L = .ok (L', b)) (hG : G L'.s) :
    ({ A with step := step' } : Alg S K p n).body c L = .ok (L', b) ∧ G L.s := by
  unfold Alg.body at h ⊢
  rw [bind_ok_iff] at h
  obtain ⟨⟨s', st⟩, hs, h⟩ := h
  have hG' : G s' := by
    rw [bind_ok_iff] at h
    obtain ⟨rows, hrec, h⟩ := h
    simp only [Except.ok.injEq, Prod.mk.injEq] at h
    rw [← h.1] at hG
    dsimp only at hG
    split_ifs at hG with hc
    · exact hG
    · exact hpost _ _ hG
  obtain ⟨h1, h2⟩ := hstep _ _ _ _ hs hG'
  refine ⟨?_, h2⟩
  dsimp only
  rw [h1]
  exact h

theorem loop_agree (hstep : ∀ it s s' st, A.step it s = .ok (s', st) → G s' → step' it s = .ok (s', st) ∧ G s)
    (hpost : ∀ it s, G (A.post it s) → G s) : ∀ (fuel : Nat) {L L' : Loop S K p n}, A.loop c fuel L = .ok L' → G L'.s →
    ({ A with step := step' } : Alg S K p n).loop c fuel L = .ok L' ∧ G L.s := by
  intro fuel
  induction fuel with
  | zero => intro L L' h; simp [Alg.loop] at h
  | succ fuel ih =>
    intro L L' h hG
    rw [Alg.loop, bind_ok_iff] at h
    obtain ⟨⟨L1, b⟩, hb, h⟩ := h
    cases b with
    | true =>
      simp only [if_true, Except.ok.injEq] at h
      subst h
      obtain ⟨h1, h2⟩ := body_agree hstep hpost hb hG
      exact ⟨by rw [Alg.loop, h1]; rfl, h2⟩
    | false =>
      simp only [Bool.false_eq_true, if_false] at h
      obtain ⟨h3, h4⟩ := ih h hG
      obtain ⟨h1, h2⟩ := body_agree hstep hpost hb h4
      exact ⟨by rw [Alg.loop, h1]; exact h3, h2⟩

/-- Two frames that take the same steps as long as the states are good return the same. -/
theorem run_agree (hstep : ∀ it s s' st, A.step it s = .ok (s', st) → G s' → step' it s = .ok (s', st) ∧ G s)
    (hpost : ∀ it s, G (A.post it s) → G s) {fuel : Nat} {s0 : S} {r : Result K n × Loop S K p n} (h : A.run c fuel s0 = .ok r)
    (hG : G r.2.s) : ({ A with step := step' } : Alg S K p n).run c fuel s0 = .ok r ∧ G s0 := by
  unfold Alg.run at h ⊢
  rw [bind_ok_iff] at h
  obtain ⟨L0, h0, h⟩ := h
  rw [bind_ok_iff] at h
  obtain ⟨L1, h1, h⟩ := h
  have h2 := h
  rw [bind_ok_iff] at h2
  obtain ⟨r1, h2, h3⟩ := h2
  simp only [Except.ok.injEq] at h3
  have hG' : G L1.s := by rw [← h3] at hG; exact hG
  obtain ⟨h4, h5⟩ := loop_agree hstep hpost fuel h1 hG'
  obtain ⟨hs, -, -, -⟩ := start_logged h0
  refine ⟨?_, hs ▸ h5⟩
  have h0' : ({ A with step := step' } : Alg S K p n).start c s0 = .ok L0 := h0
  rw [h0']
  show (do let L ← ({ A with step := step' } : Alg S K p n).loop c fuel L0; let res ← A.finish c L; Except.ok (res, L)) = _
  rw [h4]
  exact h

end frame

variable {K : Type} [AddZeroClass K] [One K] [Sub K] [Mul K] [Div K] [Neg K] [NatCast K] [IntCast K] [Pow K ℕ] [ArrayOps K] [LinearOrder K] {p n : Nat}

theorem answered_pop (v : Fin p → Val K) (X : Pop K p n) : (answered n v).pop X = v := by
  funext i
  simp [answered]

theorem selectionSyncW_raw {it : Nat} {cand : Pop K p n} {xbest : Vec K n} {x : Pop K p n} {xfun : Fin p → Val K} {maxiter : Int}
    {xtol : K} {ftol : Val K} {obj : Obj K n} {wr : Vec K n → Vec K n} (h : ∀ i, wr (cand i) = cand i) :
    selectionSyncW it cand xbest x xfun maxiter xtol ftol obj wr = selectionSync it cand xbest x xfun maxiter xtol ftol obj := by
  have h' : (fun i => wr (cand i)) = cand := funext h
  unfold selectionSyncW selectionSync
  rw [h', answered_pop]

theorem selectionAsyncW_raw {candi : Vec K n} {xbest : Vec K n} {gfit : Val K} {x : Pop K p n} {xfun : Fin p → Val K}
    {xtol : K} {ftol : Val K} {obj : Obj K n} {i : Fin p} {wr : Vec K n → Vec K n} (h : wr candi = candi) :
    selectionAsyncW candi xbest gfit x xfun xtol ftol obj wr i = selectionAsync candi xbest gfit x xfun xtol ftol obj i := by
  unfold selectionAsyncW
  rw [h]
  rfl

theorem leaves_left {X : Type} {wr : X → X} {e1 e2 : List X} (h : LeavesAlone wr (e1 ++ e2)) : LeavesAlone wr e1 :=
  fun x hx => h x (List.mem_append_left _ hx)

theorem touched_append {X V : Type} {fn : X → V} {wr : X → X} {e : List X} {x : X} {v : V} (ys : List X) (h : Touched fn wr e x v) :
    Touched fn wr (e ++ ys) x v := by
  obtain ⟨y, hy, h⟩ := h
  exact ⟨y, List.mem_append_left _ hy, h⟩

theorem optimizer_mono_ok {α : Type} {env : Env} {fn : Vec K n → Val K} {sync : Bool} {w : Int}
    {b : Option String} {k k' : Obj K n → Except PyErr α} {r : α} (h : optimizer env fn sync w b k = .ok r)
    (hk : ∀ obj, k obj = .ok r → k' obj = .ok r) : optimizer env fn sync w b k' = .ok r := by
  have key : ∀ {b par}, (wrapper env fn sync b par >>= k) = .ok r → (wrapper env fn sync b par >>= k') = .ok r := by
    intro b par hb
    rw [bind_ok_iff] at hb ⊢
    obtain ⟨obj, h1, h2⟩ := hb
    exact ⟨obj, h1, hk obj h2⟩
  unfold optimizer at h ⊢
  dsimp only at h ⊢
  split_ifs at h ⊢
  · exact key h
  · exact key h

theorem inPlace_ok {sync : Bool} {w : Int} {b : Option String} {wr wr' : Vec K n → Vec K n} (h : inPlace sync w b wr = .ok wr') :
    wr' = wr ∨ wr' = id := by
  unfold inPlace at h
  split_ifs at h
  · exact Or.inr (by simpa using h.symm)
  · exact Or.inl (by simpa using h.symm)
  · exact Or.inl (by simpa using h.symm)

theorem inPlace_serial {sync : Bool} {w : Int} {b : Option String} (wr : Vec K n → Vec K n) (h : b ≠ some "mpi") :
    ∃ wr', inPlace sync w b wr = .ok wr' ∧ (wr' = wr ∨ wr' = id) := by
  have hb : (effBackend b == "mpi") = false := by
    unfold effBackend
    cases b with
    | none => rfl
    | some s =>
      dsimp only
      split_ifs with hs
      · rfl
      · simpa using fun hs => h (by rw [hs])
  unfold inPlace
  split_ifs with h1 h2 h3
  · rw [hb] at h2; cases h2
  · exact ⟨_, rfl, Or.inr rfl⟩
  · exact ⟨_, rfl, Or.inl rfl⟩
  · exact ⟨_, rfl, Or.inl rfl⟩

theorem leaves_inPlace {wr wr' : Vec K n → Vec K n} {e : List (Vec K n)} (h : LeavesAlone wr e) (hw : wr' = wr ∨ wr' = id) :
    LeavesAlone wr' e := by
  rcases hw with rfl | rfl
  · exact h
  · exact fun _ _ => rfl

theorem touched_inPlace {V : Type} {fn : Vec K n → V} {wr wr' : Vec K n → Vec K n} {e : List (Vec K n)} {x : Vec K n} {v : V}
    (h : Touched fn wr' e x v) (hw : wr' = wr ∨ wr' = id) : Touched fn wr e x v := by
  rcases hw with rfl | rfl
  · exact h
  · obtain ⟨y, hy, hv, hx⟩ := h
    exact ⟨y, hy, hv, Or.inr (by rcases hx with h | h <;> exact h)⟩

theorem selectionSyncW_inv1 {T : Prop} {reset : Val K} {fn : Vec K n → Val K} {wr : Vec K n → Vec K n} {evals : List (Vec K n)}
    {it : Nat} {cand : Pop K p n} {xbest : Vec K n} {x : Pop K p n} {xfun : Fin p → Val K} {maxiter : Int}
    {xtol : K} {ftol : Val K} {obj : Obj K n} {r : SelSync K p n} {gfit : Val K} (hf : obj.Faithful fn)
    (h : selectionSyncW it cand xbest x xfun maxiter xtol ftol obj wr = .ok r) (hr : reset ≠ .nan)
    (hI : Inv1A T reset (Touched fn wr evals) x xfun xbest gfit) :
    Inv1A T reset (Touched fn wr (evals ++ List.ofFn cand)) r.x r.xfun r.xbest r.xbestfun := by
  refine selectionSync_inv1A h hr (fun _ _ hy => touched_append _ hy) (fun i => ?_) hI
  rw [answered_pop]
  exact ⟨cand i, List.mem_append_right _ (by simp), hf.pop _ _, Or.inl rfl⟩

theorem selectionAsyncW_inv1 {T : Prop} {reset : Val K} {fn : Vec K n → Val K} {wr : Vec K n → Vec K n} {evals : List (Vec K n)}
    {candi : Vec K n} {xbest : Vec K n} {x : Pop K p n} {xfun : Fin p → Val K} {xtol : K} {ftol : Val K} {obj : Obj K n} {gfit : Val K}
    {i : Fin p} (hf : obj.Faithful fn) (hI : Inv1A T reset (Touched fn wr evals) x xfun xbest gfit) :
    let r := selectionAsyncW candi xbest gfit x xfun xtol ftol obj wr i
    Inv1A T reset (Touched fn wr (evals ++ [candi])) r.x r.xfun r.xbest r.xbestfun :=
  selectionAsync_inv1A (fun _ _ hy => touched_append _ hy) ⟨candi, List.mem_append_right _ (by simp), hf.one _, Or.inl rfl⟩ hI

theorem selectionSyncW_inv2 {fn : Vec K n → Val K} {wr : Vec K n → Vec K n} {evals : List (Vec K n)}
    {it : Nat} {cand : Pop K p n} {xbest : Vec K n} {x : Pop K p n} {xfun : Fin p → Val K} {maxiter : Int}
    {xtol : K} {ftol : Val K} {obj : Obj K n} {r : SelSync K p n} {gfit : Val K} (hf : obj.Faithful fn)
    (h : selectionSyncW it cand xbest x xfun maxiter xtol ftol obj wr = .ok r)
    (hI : Inv2A (fun v => ∃ y ∈ evals, v = fn y) xfun gfit) :
    Inv2A (fun v => ∃ y ∈ evals ++ List.ofFn cand, v = fn y) r.xfun r.xbestfun := by
  refine selectionSync_inv2A h (fun v hv => ?_) hI
  obtain ⟨y, hy, rfl⟩ := hv
  rcases List.mem_append.1 hy with hy | hy
  · exact Or.inl ⟨y, hy, rfl⟩
  · obtain ⟨i, rfl⟩ := (List.mem_ofFn' _ _).1 hy
    exact Or.inr ⟨i, by rw [answered_pop]; exact (hf.pop _ _).symm⟩

theorem selectionAsyncW_inv2 {fn : Vec K n → Val K} {wr : Vec K n → Vec K n} {evals : List (Vec K n)}
    {candi : Vec K n} {xbest : Vec K n} {x : Pop K p n} {xfun : Fin p → Val K} {xtol : K} {ftol : Val K} {obj : Obj K n} {gfit : Val K}
    {i : Fin p} (hf : obj.Faithful fn) (hI : Inv2A (fun v => ∃ y ∈ evals, v = fn y) xfun gfit) :
    let r := selectionAsyncW candi xbest gfit x xfun xtol ftol obj wr i
    Inv2A (fun v => ∃ y ∈ evals ++ [candi], v = fn y) r.xfun r.xbestfun := by
  refine selectionAsync_inv2A (fun v hv => ?_) hI
  obtain ⟨y, hy, rfl⟩ := hv
  rcases List.mem_append.1 hy with hy | hy
  · exact Or.inl ⟨y, hy, rfl⟩
  · rw [List.mem_singleton] at hy
    exact Or.inr (by rw [hy]; exact (hf.one _).symm)

/-! ## Differential evolution -/

namespace DE
variable {σ : Type} {P : Par σ K p n} {wr : Vec K n → Vec K n}

theorem stepW_agree {sync : Bool} {it : Nat} {s s' : State σ K p n} {st : Option Int} (h : (alg P sync).step it s = .ok (s', st))
    (hG : LeavesAlone wr s'.evals) : (algW wr P sync).step it s = .ok (s', st) ∧ LeavesAlone wr s.evals := by
  cases sync with
  | true =>
    change stepSync P it s = _ at h
    show stepSyncW wr P it s = _ ∧ _
    obtain ⟨U, r, hU, hr, rfl, rfl⟩ := stepSync_ok h
    have hfix : ∀ i, wr (U.1 i) = U.1 i := fun i => hG _ (List.mem_append_right _ (by simp))
    refine ⟨?_, leaves_left hG⟩
    unfold stepSyncW
    rw [hU]
    show (do let r ← selectionSyncW it U.1 s.gbest s.X s.pbestfit P.maxiter P.xtol P.ftol P.obj wr; _) = _
    rw [selectionSyncW_raw hfix, hr]
    rfl
  | false =>
    change stepAsync P it s = _ at h
    show stepAsyncW wr P it s = _ ∧ _
    unfold stepAsync at h
    unfold stepAsyncW
    dsimp only at h ⊢
    rw [bind_ok_iff] at h
    obtain ⟨r, hr, h⟩ := h
    have hG' : LeavesAlone wr r.1.evals := by
      simp only [Except.ok.injEq, Prod.mk.injEq] at h
      rw [h.1]; exact hG
    obtain ⟨h1, h2⟩ := foldlM_agree (f' := rowAsyncW wr P (drawMat P.R.rand p n s.rng).1)
      (G := fun b : State σ K p n × Option Int => LeavesAlone wr b.1.evals) (by
        intro b i b' hb hg
        obtain ⟨U, q, hU, hq, rfl⟩ := rowAsync_ok hb
        refine ⟨?_, leaves_left hg⟩
        unfold rowAsyncW
        dsimp only
        rw [hU]
        show Except.ok _ = _
        rw [selectionAsyncW_raw (hg _ (List.mem_append_right _ (by simp))), ← hq]) _ _ _ hr hG'
    refine ⟨?_, h2⟩
    rw [h1]
    exact h

theorem initW_eq (x0 : Option (Pop K p n)) (g : σ) : initW wr P x0 g = argmin (P.obj.pop (initPop P x0 g).1) >>= fun i =>
    Except.ok { X := fun k => wr ((initPop P x0 g).1 k), gbest := wr ((initPop P x0 g).1 i),
                pbestfit := P.obj.pop (initPop P x0 g).1, gfit := P.obj.pop (initPop P x0 g).1 i,
                pfit := P.obj.pop (initPop P x0 g).1, caller := x0.map (fun _ k => wr ((initPop P x0 g).1 k)),
                evals := List.ofFn (initPop P x0 g).1, rng := (initPop P x0 g).2 } := rfl

theorem initW_of {x0 : Option (Pop K p n)} {g : σ} {i : Fin p} (hi : argmin (P.obj.pop (initPop P x0 g).1) = .ok i) :
    initW wr P x0 g = Except.ok
              { X := fun k => wr ((initPop P x0 g).1 k), gbest := wr ((initPop P x0 g).1 i),
                pbestfit := P.obj.pop (initPop P x0 g).1, gfit := P.obj.pop (initPop P x0 g).1 i,
                pfit := P.obj.pop (initPop P x0 g).1, caller := x0.map (fun _ k => wr ((initPop P x0 g).1 k)),
                evals := List.ofFn (initPop P x0 g).1, rng := (initPop P x0 g).2 } := by
  rw [initW_eq, hi]; rfl

theorem initW_ok {x0 : Option (Pop K p n)} {g : σ} {s : State σ K p n} (h : initW wr P x0 g = .ok s) :
    ∃ i, argmin (P.obj.pop (initPop P x0 g).1) = .ok i ∧
      s = { X := fun k => wr ((initPop P x0 g).1 k), gbest := wr ((initPop P x0 g).1 i),
            pbestfit := P.obj.pop (initPop P x0 g).1, gfit := P.obj.pop (initPop P x0 g).1 i,
            pfit := P.obj.pop (initPop P x0 g).1, caller := x0.map (fun _ k => wr ((initPop P x0 g).1 k)),
            evals := List.ofFn (initPop P x0 g).1, rng := (initPop P x0 g).2 } := by
  rw [initW_eq, bind_ok_iff] at h
  obtain ⟨i, hi, h⟩ := h
  simp only [Except.ok.injEq] at h
  exact ⟨i, hi, h.symm⟩

theorem deW_agree {sync : Bool} {c : Cfg} {fuel : Nat} {x0 : Option (Pop K p n)} {g : σ} {o : Output σ K p n}
    (h : de P sync c fuel x0 g = .ok o) (hG : LeavesAlone wr o.evals) : deW wr P sync c fuel x0 g = .ok o := by
  unfold de at h
  rw [bind_ok_iff] at h
  obtain ⟨s0, h0, h⟩ := h
  rw [bind_ok_iff] at h
  obtain ⟨r, hrun, h⟩ := h
  have hG' : LeavesAlone wr r.2.s.evals := by
    simp only [Except.ok.injEq] at h
    rw [← h] at hG; exact hG
  obtain ⟨h1, h2⟩ := run_agree (G := fun s : State σ K p n => LeavesAlone wr s.evals) (step' := (algW wr P sync).step)
    (fun it s s' st hs hg => stepW_agree hs hg) (fun it s hg => hg) hrun hG'
  obtain ⟨i, hi, hs0⟩ := init_ok h0
  have hfix : (fun i => wr ((initPop P x0 g).1 i)) = (initPop P x0 g).1 := by
    funext i
    rw [hs0] at h2
    exact h2 _ (by simp)
  have h3 : initW wr P x0 g = .ok s0 := by
    rw [initW_of hi, hfix, hs0, congrFun hfix i]
    cases x0 <;> rfl
  unfold deW
  rw [h3]
  show (do let r ← (algW wr P sync).run c fuel s0; _) = _
  have h4 : (algW wr P sync).run c fuel s0 = .ok r := h1
  rw [h4]
  exact h

theorem stepSyncW_ok {it : Nat} {s s' : State σ K p n} {st : Option Int} (h : stepSyncW wr P it s = .ok (s', st)) :
    ∃ U r, selectionSyncW it U s.gbest s.X s.pbestfit P.maxiter P.xtol P.ftol P.obj wr = .ok r ∧
      s'.X = r.x ∧ s'.gbest = r.xbest ∧ s'.pbestfit = r.xfun ∧ s'.gfit = r.xbestfun ∧ s'.evals = s.evals ++ List.ofFn U := by
  unfold stepSyncW at h
  rw [bind_ok_iff] at h
  obtain ⟨U, -, h⟩ := h
  rw [bind_ok_iff] at h
  obtain ⟨r, hr, h⟩ := h
  simp only [Except.ok.injEq, Prod.mk.injEq] at h
  obtain ⟨rfl, -⟩ := h
  exact ⟨U.1, r, hr, rfl, rfl, rfl, rfl, rfl⟩

theorem stepAsyncW_ok {it : Nat} {s s' : State σ K p n} {st : Option Int} (h : stepAsyncW wr P it s = .ok (s', st)) :
    ∃ st0, (List.finRange p).foldlM (rowAsyncW wr P (drawMat P.R.rand p n s.rng).1) ({ s with rng := (drawMat P.R.rand p n s.rng).2 }, none)
      = .ok (s', st0) := by
  unfold stepAsyncW at h
  dsimp only at h
  rw [bind_ok_iff] at h
  obtain ⟨r, hr, h⟩ := h
  simp only [Except.ok.injEq, Prod.mk.injEq] at h
  obtain ⟨rfl, -⟩ := h
  exact ⟨r.2, hr⟩

/-- Values belong to points or to what was left of them. -/
def I1W (wr : Vec K n → Vec K n) (fn : Vec K n → Val K) (s : State σ K p n) : Prop :=
  Inv1A False (.fin 0) (Touched fn wr s.evals) s.X s.pbestfit s.gbest s.gfit

/-- Lower bound of all values. -/
def I2W (fn : Vec K n → Val K) (s : State σ K p n) : Prop :=
  Inv2A (fun v => ∃ y ∈ s.evals, v = fn y) s.pbestfit s.gfit

theorem I1W_step {fn : Vec K n → Val K} (hf : P.obj.Faithful fn) {sync : Bool} {it : Nat} {s s' : State σ K p n} {st : Option Int}
    (hI : I1W wr fn s) (h : (algW wr P sync).step it s = .ok (s', st)) : I1W wr fn s' := by
  cases sync with
  | true =>
    obtain ⟨U, r, hr, h1, h2, h3, h4, h5⟩ := stepSyncW_ok h
    unfold I1W
    rw [h1, h2, h3, h4, h5]
    exact selectionSyncW_inv1 hf hr (by simp) hI
  | false =>
    obtain ⟨st0, hfold⟩ := stepAsyncW_ok h
    refine foldlM_inv (fun acc : State σ K p n × Option Int => I1W wr fn acc.1) ?_ _ ?_ hfold
    · intro b i b' hb hb'
      unfold rowAsyncW at hb'
      dsimp only at hb'
      rw [bind_ok_iff] at hb'
      obtain ⟨U, -, hb'⟩ := hb'
      simp only [Except.ok.injEq] at hb'
      rw [← hb']
      exact selectionAsyncW_inv1 hf hb
    · exact hI

theorem I2W_step {fn : Vec K n → Val K} (hf : P.obj.Faithful fn) {sync : Bool} {it : Nat} {s s' : State σ K p n} {st : Option Int}
    (hI : I2W fn s) (h : (algW wr P sync).step it s = .ok (s', st)) : I2W fn s' := by
  cases sync with
  | true =>
    obtain ⟨U, r, hr, h1, h2, h3, h4, h5⟩ := stepSyncW_ok h
    unfold I2W
    rw [h3, h4, h5]
    exact selectionSyncW_inv2 hf hr hI
  | false =>
    obtain ⟨st0, hfold⟩ := stepAsyncW_ok h
    refine foldlM_inv (fun acc : State σ K p n × Option Int => I2W fn acc.1) ?_ _ ?_ hfold
    · intro b i b' hb hb'
      unfold rowAsyncW at hb'
      dsimp only at hb'
      rw [bind_ok_iff] at hb'
      obtain ⟨U, -, hb'⟩ := hb'
      simp only [Except.ok.injEq] at hb'
      rw [← hb']
      exact selectionAsyncW_inv2 hf hb
    · exact hI

/-- A completed call. -/
theorem minimizeW_ok [IntParts K] {env : Env} (he : env.Ok) {R : Rng σ K} {fuel : Nat} {a : Args K}
    {wr : Vec K a.ndim → Vec K a.ndim} {g : σ} {o : Output σ K a.p a.ndim} (h : minimizeW env R fuel a wr g = .ok o) :
    ∃ (fn : Vec K a.ndim → Val K) (wr' : Vec K a.ndim → Vec K a.ndim) (P : Par σ K a.p a.ndim) (s0 : State σ K a.p a.ndim)
      (r : Result K a.ndim) (L : Loop (State σ K a.p a.ndim) K a.p a.ndim),
      a.fn = some fn ∧ (wr' = wr ∨ wr' = id) ∧ P.obj.Faithful fn ∧ initW wr' P a.x0Pop (a.seeded R g) = .ok s0 ∧
      (algW wr' P a.sync).run a.cfg fuel s0 = .ok (r, L) ∧ o = mkOut r L State.evals State.caller State.rng := by
  unfold minimizeW at h
  rw [bind_ok_iff] at h
  obtain ⟨strat, hv, h⟩ := h
  cases hfn : a.fn with
  | none => rw [hfn] at h; simp at h
  | some fn =>
    rw [hfn] at h
    dsimp only at h
    obtain ⟨obj, hobj, h⟩ := optimizer_ok he h
    rw [bind_ok_iff] at h
    obtain ⟨wr', hwr, h⟩ := h
    rw [bind_ok_iff] at h
    obtain ⟨_, _, h⟩ := h
    rw [bind_ok_iff] at h
    obtain ⟨cons, hcons, h⟩ := h
    unfold deW at h
    rw [bind_ok_iff] at h
    obtain ⟨s0, hs0, h⟩ := h
    rw [bind_ok_iff] at h
    obtain ⟨⟨r, L⟩, hrun, h⟩ := h
    simp only [Except.ok.injEq] at h
    exact ⟨fn, wr', _, s0, r, L, rfl, inPlace_ok hwr, hobj, hs0, hrun, h.symm⟩

theorem minimizeW_agree [IntParts K] {env : Env} {R : Rng σ K} {fuel : Nat} {a : Args K}
    {wr : Vec K a.ndim → Vec K a.ndim} {g : σ} {o : Output σ K a.p a.ndim} (h : minimize env R fuel a g = .ok o)
    (hG : LeavesAlone wr o.evals) (hb : a.backend ≠ some "mpi") : minimizeW env R fuel a wr g = .ok o := by
  unfold minimize at h
  rw [bind_ok_iff] at h
  obtain ⟨strat, hv, h⟩ := h
  unfold minimizeW
  rw [hv]
  show (match a.fn with | none => _ | some fn => _) = _
  cases hfn : a.fn with
  | none => rw [hfn] at h; simp at h
  | some fn =>
    rw [hfn] at h
    dsimp only at h ⊢
    refine optimizer_mono_ok h fun obj ho => ?_
    obtain ⟨wr', hwr, hw⟩ := inPlace_serial (sync := a.sync) (w := a.workers) wr hb
    rw [bind_ok_iff] at ho
    obtain ⟨_, h1, ho⟩ := ho
    rw [bind_ok_iff] at ho
    obtain ⟨cons, h2, ho⟩ := ho
    rw [hwr]
    show (a.unpackBounds >>= fun _ => consMap a.constraints >>= _) = _
    rw [h1]
    show (consMap a.constraints >>= _) = _
    rw [h2]
    exact deW_agree ho (leaves_inPlace hG hw)

end DE

namespace DE
variable {σ : Type} {P : Par σ K p n} {wr : Vec K n → Vec K n}

theorem evalsW_step {sync : Bool} {it : Nat} {s s' : State σ K p n} {st : Option Int} (h : (algW wr P sync).step it s = .ok (s', st)) :
    s.evals ⊆ s'.evals := by
  cases sync with
  | true =>
    obtain ⟨U, r, _, _, _, _, _, h1⟩ := stepSyncW_ok h
    rw [h1]
    exact List.subset_append_left _ _
  | false =>
    obtain ⟨st0, hf⟩ := stepAsyncW_ok h
    refine foldlM_inv (fun acc : State σ K p n × Option Int => s.evals ⊆ acc.1.evals) ?_ _ ?_ hf
    · intro b i b' hb hb'
      unfold rowAsyncW at hb'
      dsimp only at hb'
      rw [bind_ok_iff] at hb'
      obtain ⟨U, -, hb'⟩ := hb'
      simp only [Except.ok.injEq] at hb'
      rw [← hb']
      exact fun y hy => List.mem_append_left _ (hb hy)
    · exact fun y hy => hy

end DE

/-! ## Particle swarm -/

namespace CPSO
variable {σ : Type} {P : Par σ K n} {wr : Vec K n → Vec K n}

theorem stepSyncW_eq (it : Nat) (s : State σ K p n) : stepSyncW wr P it s =
    selectionSyncW it (fun i => (moveSync P s i).1) s.gbest s.pbest s.pbestfit P.maxiter P.xtol P.ftol P.obj wr >>= fun r =>
      Except.ok (
           { X := fun i => wr (moveSync P s i).1, V := fun i => (moveSync P s i).2, pbest := r.x, gbest := r.xbest,
             pbestfit := r.xfun, gfit := r.xbestfun, pfit := r.candfun, caller := s.caller, aliased := false,
             evals := s.evals ++ List.ofFn (fun i => (moveSync P s i).1),
             rng := (drawMat P.R.rand p n (drawMat P.R.rand p n s.rng).2).2 }, r.status) := rfl

theorem rowAsyncW_agree {r1 r2 : Pop K p n} {acc : State σ K p n × Option Int} {i : Fin p}
    (hG : LeavesAlone wr (rowAsync P r1 r2 acc i).1.evals) :
    rowAsyncW wr P r1 r2 acc i = rowAsync P r1 r2 acc i ∧ LeavesAlone wr acc.1.evals := by
  have hfix : wr (mutation P (acc.1.X i) (acc.1.V i) (acc.1.pbest i) acc.1.gbest (r1 i) (r2 i)).1
      = (mutation P (acc.1.X i) (acc.1.V i) (acc.1.pbest i) acc.1.gbest (r1 i) (r2 i)).1 :=
    hG _ (List.mem_append_right _ (by simp))
  refine ⟨?_, leaves_left hG⟩
  unfold rowAsyncW rowAsync
  dsimp only
  rw [selectionAsyncW_raw hfix, hfix]

variable [IntParts K] [NumFns K]

theorem stepW_agree {sync : Bool} {it : Nat} {s s' : State σ K p n} {st : Option Int} (h : (alg P sync).step it s = .ok (s', st))
    (hG : LeavesAlone wr s'.evals) : (algW wr P sync).step it s = .ok (s', st) ∧ LeavesAlone wr s.evals := by
  cases sync with
  | true =>
    change stepSync P it s = _ at h
    show stepSyncW wr P it s = _ ∧ _
    obtain ⟨r, hr, rfl, rfl⟩ := stepSync_ok h
    have hfix : ∀ i, wr (moveSync P s i).1 = (moveSync P s i).1 := fun i => hG _ (List.mem_append_right _ (by simp))
    refine ⟨?_, leaves_left hG⟩
    rw [stepSyncW_eq, selectionSyncW_raw hfix, hr, funext hfix]
    rfl
  | false =>
    change stepAsync P it s = _ at h
    show stepAsyncW wr P it s = _ ∧ _
    unfold stepAsync at h
    unfold stepAsyncW
    dsimp only at h ⊢
    have hG' : LeavesAlone wr ((List.finRange p).foldl (rowAsync P (drawMat P.R.rand p n s.rng).1
        (drawMat P.R.rand p n (drawMat P.R.rand p n s.rng).2).1)
        ({ s with rng := (drawMat P.R.rand p n (drawMat P.R.rand p n s.rng).2).2 }, none)).1.evals := by
      simp only [Except.ok.injEq, Prod.mk.injEq] at h
      rw [h.1]; exact hG
    obtain ⟨h1, h2⟩ := foldl_agree (f' := rowAsyncW wr P (drawMat P.R.rand p n s.rng).1 (drawMat P.R.rand p n (drawMat P.R.rand p n s.rng).2).1)
      (G := fun b : State σ K p n × Option Int => LeavesAlone wr b.1.evals) (fun b i hg => rowAsyncW_agree hg) _ _ hG'
    refine ⟨?_, h2⟩
    rw [h1]
    exact h

theorem initW_eq (x0 : Option (Pop K p n)) (g : σ) : initW wr P x0 g = argmin (P.obj.pop (initPop P x0 g).1) >>= fun i =>
    Except.ok { X := fun k => wr ((initPop P x0 g).1 k), V := fun _ _ => 0, pbest := (initPop P x0 g).1,
                gbest := wr ((initPop P x0 g).1 i),
                pbestfit := P.obj.pop (initPop P x0 g).1, gfit := P.obj.pop (initPop P x0 g).1 i,
                pfit := P.obj.pop (initPop P x0 g).1, caller := x0.map (fun _ k => wr ((initPop P x0 g).1 k)),
                aliased := x0.isSome, evals := List.ofFn (initPop P x0 g).1, rng := (initPop P x0 g).2 } := rfl

theorem initW_ok {x0 : Option (Pop K p n)} {g : σ} {s : State σ K p n} (h : initW wr P x0 g = .ok s) :
    ∃ i, argmin (P.obj.pop (initPop P x0 g).1) = .ok i ∧
      s = { X := fun k => wr ((initPop P x0 g).1 k), V := fun _ _ => 0, pbest := (initPop P x0 g).1,
            gbest := wr ((initPop P x0 g).1 i),
            pbestfit := P.obj.pop (initPop P x0 g).1, gfit := P.obj.pop (initPop P x0 g).1 i,
            pfit := P.obj.pop (initPop P x0 g).1, caller := x0.map (fun _ k => wr ((initPop P x0 g).1 k)),
            aliased := x0.isSome, evals := List.ofFn (initPop P x0 g).1, rng := (initPop P x0 g).2 } := by
  rw [initW_eq, bind_ok_iff] at h
  obtain ⟨i, hi, h⟩ := h
  simp only [Except.ok.injEq] at h
  exact ⟨i, hi, h.symm⟩

theorem cpsoW_agree {sync : Bool} {c : Cfg} {fuel : Nat} {x0 : Option (Pop K p n)} {g : σ} {o : Output σ K p n}
    (h : cpso P sync c fuel x0 g = .ok o) (hG : LeavesAlone wr o.evals) : cpsoW wr P sync c fuel x0 g = .ok o := by
  unfold cpso at h
  rw [bind_ok_iff] at h
  obtain ⟨s0, h0, h⟩ := h
  rw [bind_ok_iff] at h
  obtain ⟨r, hrun, h⟩ := h
  have hG' : LeavesAlone wr r.2.s.evals := by
    simp only [Except.ok.injEq] at h
    rw [← h] at hG; exact hG
  obtain ⟨h1, h2⟩ := run_agree (G := fun s : State σ K p n => LeavesAlone wr s.evals) (step' := (algW wr P sync).step)
    (fun it s s' st hs hg => stepW_agree hs hg) (fun it s hg => by
      have he : (post P it s).evals = s.evals := (post_fields it s).2.2.1
      have hg' : LeavesAlone wr (post P it s).evals := hg
      rwa [he] at hg') hrun hG'
  obtain ⟨i, hi, hs0⟩ := init_ok h0
  have hfix : (fun i => wr ((initPop P x0 g).1 i)) = (initPop P x0 g).1 := by
    funext i
    rw [hs0] at h2
    exact h2 _ (by simp)
  have h3 : initW wr P x0 g = .ok s0 := by
    rw [initW_eq, hi, hfix, hs0]
    show Except.ok _ = _
    rw [congrFun hfix i]
    cases x0 <;> rfl
  unfold cpsoW
  rw [h3]
  show (do let r ← (algW wr P sync).run c fuel s0; _) = _
  have h4 : (algW wr P sync).run c fuel s0 = .ok r := h1
  rw [h4]
  exact h

/-- Values belong to points or to what was left of them. -/
def I1W (P : Par σ K n) (wr : Vec K n → Vec K n) (fn : Vec K n → Val K) (s : State σ K p n) : Prop :=
  Inv1A (Restarts P) resetFit (Touched fn wr s.evals) s.pbest s.pbestfit s.gbest s.gfit

/-- Lower bound of all values. -/
def I2W (fn : Vec K n → Val K) (s : State σ K p n) : Prop :=
  Inv2A (fun v => ∃ y ∈ s.evals, v = fn y) s.pbestfit s.gfit

theorem I1W_step {fn : Vec K n → Val K} (hf : P.obj.Faithful fn) {sync : Bool} {it : Nat} {s s' : State σ K p n} {st : Option Int}
    (hI : I1W P wr fn s) (h : (algW wr P sync).step it s = .ok (s', st)) : I1W P wr fn s' := by
  cases sync with
  | true =>
    change stepSyncW wr P it s = _ at h
    rw [stepSyncW_eq, bind_ok_iff] at h
    obtain ⟨r, hr, h⟩ := h
    simp only [Except.ok.injEq, Prod.mk.injEq] at h
    rw [← h.1]
    exact selectionSyncW_inv1 hf hr resetFit_ne_nan hI
  | false =>
    change stepAsyncW wr P it s = _ at h
    unfold stepAsyncW at h
    simp only [Except.ok.injEq, Prod.mk.injEq] at h
    rw [← h.1]
    refine foldl_inv (fun acc : State σ K p n × Option Int => I1W P wr fn acc.1) ?_ _ ?_
    · intro b i hb
      exact selectionAsyncW_inv1 hf hb
    · exact hI

theorem I2W_step {fn : Vec K n → Val K} (hf : P.obj.Faithful fn) {sync : Bool} {it : Nat} {s s' : State σ K p n} {st : Option Int}
    (hI : I2W fn s) (h : (algW wr P sync).step it s = .ok (s', st)) : I2W fn s' := by
  cases sync with
  | true =>
    change stepSyncW wr P it s = _ at h
    rw [stepSyncW_eq, bind_ok_iff] at h
    obtain ⟨r, hr, h⟩ := h
    simp only [Except.ok.injEq, Prod.mk.injEq] at h
    rw [← h.1]
    exact selectionSyncW_inv2 hf hr hI
  | false =>
    change stepAsyncW wr P it s = _ at h
    unfold stepAsyncW at h
    simp only [Except.ok.injEq, Prod.mk.injEq] at h
    rw [← h.1]
    refine foldl_inv (fun acc : State σ K p n × Option Int => I2W fn acc.1) ?_ _ ?_
    · intro b i hb
      exact selectionAsyncW_inv2 hf hb
    · exact hI

theorem evalsW_step {sync : Bool} {it : Nat} {s s' : State σ K p n} {st : Option Int} (h : (algW wr P sync).step it s = .ok (s', st)) :
    s.evals ⊆ s'.evals := by
  cases sync with
  | true =>
    change stepSyncW wr P it s = _ at h
    rw [stepSyncW_eq, bind_ok_iff] at h
    obtain ⟨r, hr, h⟩ := h
    simp only [Except.ok.injEq, Prod.mk.injEq] at h
    rw [← h.1]
    exact List.subset_append_left _ _
  | false =>
    change stepAsyncW wr P it s = _ at h
    unfold stepAsyncW at h
    simp only [Except.ok.injEq, Prod.mk.injEq] at h
    rw [← h.1]
    refine foldl_inv (fun acc : State σ K p n × Option Int => s.evals ⊆ acc.1.evals) ?_ _ ?_
    · intro b i hb y hy
      exact List.mem_append_left _ (hb hy)
    · exact fun y hy => hy

section restart
variable [FewRestarts K p]

theorem I1W_post {fn : Vec K n → Val K} (hsrt : IsArgsort P.argsort) (hp : 0 < p) (it : Nat) {s : State σ K p n} (hI : I1W P wr fn s) :
    I1W P wr fn (post P it s) := by
  obtain ⟨⟨q0, hq0, hq0f, _⟩, hall⟩ := post_particle (P := P) hsrt hp it s
  obtain ⟨hb, hg, he, _⟩ := post_fields (P := P) it s
  unfold I1W
  rw [hb, hg, he]
  refine ⟨fun q => ?_, fun t => ?_, hI.best⟩
  · rcases hall q with ⟨h1, h2, _⟩ | ⟨ht, h1, _⟩
    · rw [h1, h2]; exact hI.fits q
    · exact Or.inr ⟨ht, h1⟩
  · obtain ⟨j, hj⟩ := hI.low t
    refine ⟨q0, ?_⟩
    rw [hq0f]
    rcases hq0 j with h | h
    · rw [h] at hj; exact absurd hj Val.not_nan_lt
    · exact Val.lt_of_le_of_lt' h hj

theorem I2W_post {fn : Vec K n → Val K} (hsrt : IsArgsort P.argsort) (hp : 0 < p) (it : Nat) {s : State σ K p n} (h1 : I1W P wr fn s)
    (hI : I2W fn s) : I2W fn (post P it s) := by
  have hM : IM s := fun _ => ⟨fun q => Val.ne_nan_right (hI.lb q), hI.att⟩
  obtain ⟨_, hatt⟩ := IM_post (P := P) hsrt hp it hM (by
    rw [(post_fields (P := P) it s).2.1]; exact hI.ne_nan)
  obtain ⟨_, hall⟩ := post_particle (P := P) hsrt hp it s
  obtain ⟨hb, hg, he, _⟩ := post_fields (P := P) it s
  unfold I2W
  rw [hg] at hatt ⊢
  rw [he]
  refine ⟨fun q => ?_, hatt, hI.all⟩
  rcases hall q with ⟨h2, _⟩ | ⟨ht, h2, _⟩
  · rw [h2]; exact hI.lb q
  · rw [h2]
    obtain ⟨j, hj⟩ := h1.low ht
    exact Val.le_trans' (hI.lb j) (Val.le_of_lt' hj)

end restart

/-- A completed call. -/
theorem minimizeW_ok {env : Env} (he : env.Ok) {R : Rng σ K} {srt : Argsort K} {fuel : Nat} {a : Args K}
    {wr : Vec K a.ndim → Vec K a.ndim} {g : σ} {o : Output σ K a.p a.ndim} (h : minimizeW env R srt fuel a wr g = .ok o) :
    ∃ (fn : Vec K a.ndim → Val K) (wr' : Vec K a.ndim → Vec K a.ndim) (P : Par σ K a.ndim) (s0 : State σ K a.p a.ndim)
      (r : Result K a.ndim) (L : Loop (State σ K a.p a.ndim) K a.p a.ndim),
      a.fn = some fn ∧ validate a = .ok () ∧ P.argsort = srt ∧ P.gamma = a.competitivity ∧
      (wr' = wr ∨ wr' = id) ∧ P.obj.Faithful fn ∧ initW wr' P a.x0Pop (a.seeded R g) = .ok s0 ∧
      (algW wr' P a.sync).run a.cfg fuel s0 = .ok (r, L) ∧ o = mkOut r L State.evals State.caller State.rng := by
  unfold minimizeW at h
  rw [bind_ok_iff] at h
  obtain ⟨_, hv, h⟩ := h
  cases hfn : a.fn with
  | none => rw [hfn] at h; simp at h
  | some fn =>
    rw [hfn] at h
    dsimp only at h
    obtain ⟨obj, hobj, h⟩ := optimizer_ok he h
    rw [bind_ok_iff] at h
    obtain ⟨wr', hwr, h⟩ := h
    rw [bind_ok_iff] at h
    obtain ⟨_, _, h⟩ := h
    rw [bind_ok_iff] at h
    obtain ⟨cons, hcons, h⟩ := h
    unfold cpsoW at h
    rw [bind_ok_iff] at h
    obtain ⟨s0, hs0, h⟩ := h
    rw [bind_ok_iff] at h
    obtain ⟨⟨r, L⟩, hrun, h⟩ := h
    simp only [Except.ok.injEq] at h
    exact ⟨fn, wr', _, s0, r, L, rfl, hv, rfl, rfl, inPlace_ok hwr, hobj, hs0, hrun, h.symm⟩

theorem minimizeW_agree {env : Env} {R : Rng σ K} {srt : Argsort K} {fuel : Nat} {a : Args K}
    {wr : Vec K a.ndim → Vec K a.ndim} {g : σ} {o : Output σ K a.p a.ndim} (h : minimize env R srt fuel a g = .ok o)
    (hG : LeavesAlone wr o.evals) (hb : a.backend ≠ some "mpi") : minimizeW env R srt fuel a wr g = .ok o := by
  unfold minimize at h
  rw [bind_ok_iff] at h
  obtain ⟨_, hv, h⟩ := h
  unfold minimizeW
  rw [hv]
  show (match a.fn with | none => _ | some fn => _) = _
  cases hfn : a.fn with
  | none => rw [hfn] at h; simp at h
  | some fn =>
    rw [hfn] at h
    dsimp only at h ⊢
    refine optimizer_mono_ok h fun obj ho => ?_
    obtain ⟨wr', hwr, hw⟩ := inPlace_serial (sync := a.sync) (w := a.workers) wr hb
    rw [bind_ok_iff] at ho
    obtain ⟨_, h1, ho⟩ := ho
    rw [bind_ok_iff] at ho
    obtain ⟨cons, h2, ho⟩ := ho
    rw [hwr]
    show (a.unpackBounds >>= fun _ => consMap a.constraints >>= _) = _
    rw [h1]
    show (consMap a.constraints >>= _) = _
    rw [h2]
    exact cpsoW_agree ho (leaves_inPlace hG hw)

end CPSO

/-! ## Neighbourhood algorithm -/

namespace NA
variable {σ : Type} {P : Par σ K n} {wr : Vec K n → Vec K n}

theorem selectionSync_answered {it : Nat} {cand : Pop K p n} {xbest : Vec K n} {x : Pop K p n} {xfun : Fin p → Val K} {maxiter : Int}
    {xtol : K} {ftol : Val K} {obj : Obj K n} : selectionSync it cand xbest x xfun maxiter xtol ftol (answered n (obj.pop cand))
      = selectionSync it cand xbest x xfun maxiter xtol ftol obj := by
  unfold selectionSync
  rw [answered_pop]

theorem stepW_eq : (stepW wr P : Nat → State σ K p n → _) = step P := by
  funext it s
  unfold stepW step evalW
  congr 1
  funext X
  dsimp only
  rw [← selectionSync_answered (obj := P.objN)]
  rfl

theorem naW_eq (c : Cfg) (fuel : Nat) (x0 : Option (Pop K p n)) (g : σ) : naW wr P c fuel x0 g = na P c fuel x0 g := by
  have hi : initW wr P x0 g = init P x0 g := rfl
  unfold naW na algW
  rw [hi, stepW_eq]
  rfl

end NA


/-! ## Samplers -/

namespace Sampling
section
variable {K σ : Type} [Zero K] [One K] [Add K] [Sub K] [Mul K] [Div K] [Neg K] [NatCast K] [IntCast K] [Pow K ℕ] [ArrayOps K] [LinearOrder K] {n : Nat}

/-- What is recorded belongs to a point that was evaluated or to what was left of it. -/
structure RecW (fn : Vec (Val K) n → Val K) (wr : Vec (Val K) n → Vec (Val K) n) (s : State σ K n) : Prop where
  len : s.xs.length = s.fs.length
  pair : ∀ q ∈ s.xs.zip s.fs, Touched fn wr s.evals q.1 q.2
  cur : Touched fn wr s.evals s.xcur s.fcur
  best : s.fmin = .pinf ∨ (s.imin < s.xs.length ∧ Touched fn wr s.evals (s.xs.getD s.imin s.xcur) s.fmin)

theorem RecW_push {fn : Vec (Val K) n → Val K} {wr : Vec (Val K) n → Vec (Val K) n} {t : State σ K n} (h : RecW fn wr t)
    {acc : Option (Vec (Val K) n × Val K)} (ha : ∀ q, acc = some q → Touched fn wr t.evals q.1 q.2) (hc ra : Bool) :
    RecW fn wr ((t.push acc).notify hc ra) := by
  have hget : ∀ (x y : Vec (Val K) n), t.imin < t.xs.length → (t.xs ++ [x]).getD t.imin y = t.xs.getD t.imin t.xcur := by
    intro x y hl
    rw [List.getD_eq_getElem?_getD, List.getD_eq_getElem?_getD, List.getElem?_append_left hl, List.getElem?_eq_getElem hl]
    rfl
  cases acc with
  | none =>
    refine ⟨by simp [State.notify, State.push, h.len], ?_, h.cur, ?_⟩
    · intro q hq
      change q ∈ (t.xs ++ [t.xcur]).zip (t.fs ++ [t.fcur]) at hq
      rw [List.zip_append h.len, List.mem_append] at hq
      rcases hq with hq | hq
      · exact h.pair q hq
      · simp only [List.zip_cons_cons, List.zip_nil_left, List.mem_singleton] at hq
        rw [hq]; exact h.cur
    · rcases h.best with hb | ⟨hl, hb⟩
      · exact Or.inl hb
      · refine Or.inr ⟨by simp only [State.notify, State.push, List.length_append, List.length_singleton]; omega, ?_⟩
        show Touched fn wr t.evals ((t.xs ++ [t.xcur]).getD t.imin t.xcur) t.fmin
        rw [hget _ _ hl]; exact hb
  | some q =>
    obtain ⟨x, f⟩ := q
    have hxf : Touched fn wr t.evals x f := ha _ rfl
    refine ⟨by simp [State.notify, State.push, h.len], ?_, hxf, ?_⟩
    · intro q hq
      change q ∈ (t.xs ++ [x]).zip (t.fs ++ [f]) at hq
      rw [List.zip_append h.len, List.mem_append] at hq
      rcases hq with hq | hq
      · exact h.pair q hq
      · simp only [List.zip_cons_cons, List.zip_nil_left, List.mem_singleton] at hq
        rw [hq]; exact hxf
    · show (if f < t.fmin then f else t.fmin) = .pinf ∨ ((if f < t.fmin then t.xs.length else t.imin) < (t.xs ++ [x]).length ∧
        Touched fn wr t.evals ((t.xs ++ [x]).getD (if f < t.fmin then t.xs.length else t.imin) x) (if f < t.fmin then f else t.fmin))
      by_cases hlt : f < t.fmin
      · simp only [if_pos hlt]
        refine Or.inr ⟨by simp, ?_⟩
        rw [List.getD_eq_getElem?_getD, List.getElem?_append_right (le_refl _)]
        simpa using hxf
      · simp only [if_neg hlt]
        rcases h.best with hb | ⟨hl, hb⟩
        · exact Or.inl hb
        · exact Or.inr ⟨by rw [List.length_append, List.length_singleton]; omega, by rw [hget _ _ hl]; exact hb⟩

theorem RecW_more {fn : Vec (Val K) n → Val K} {wr : Vec (Val K) n → Vec (Val K) n} {t : State σ K n} (h : RecW fn wr t)
    (l : List (Vec (Val K) n)) (g : σ) : RecW fn wr ({ t with evals := t.evals ++ l, rng := g } : State σ K n) :=
  ⟨h.len, fun q hq => touched_append _ (h.pair q hq), touched_append _ h.cur, h.best.imp id fun ⟨h1, h2⟩ => ⟨h1, touched_append _ h2⟩⟩

theorem startW_ok {a : Args K} {fn : Vec (Val K) a.ndim → Val K} {wr : Vec (Val K) a.ndim → Vec (Val K) a.ndim} {R : Rng σ K} {g : σ}
    {s : State σ K a.ndim} (h : startW a fn wr R g = .ok s) : RecW fn wr s := by
  unfold startW at h
  by_cases h1 : a.maxiter < 0
  · rw [if_pos h1] at h; simp at h
  rw [if_neg h1] at h
  by_cases h2 : a.maxiter = 0
  · rw [if_pos h2] at h; simp at h
  rw [if_neg h2] at h
  rw [bind_ok_iff] at h
  obtain ⟨x, hx, h⟩ := h
  simp only [Except.ok.injEq] at h
  have ht : Touched fn wr [x.1] (wr x.1) (fn x.1) := ⟨x.1, by simp, rfl, Or.inl rfl⟩
  subst h
  exact ⟨rfl, by simpa using ht, ht, Or.inl rfl⟩

theorem startW_agree {a : Args K} {fn : Vec (Val K) a.ndim → Val K} {wr : Vec (Val K) a.ndim → Vec (Val K) a.ndim} {R : Rng σ K} {g : σ}
    {s : State σ K a.ndim} (h : start a fn R g = .ok s) (hG : LeavesAlone wr s.evals) : startW a fn wr R g = .ok s := by
  unfold start at h
  unfold startW
  by_cases h1 : a.maxiter < 0
  · rw [if_pos h1] at h; simp at h
  rw [if_neg h1] at h ⊢
  by_cases h2 : a.maxiter = 0
  · rw [if_pos h2] at h; simp at h
  rw [if_neg h2] at h ⊢
  rw [bind_ok_iff] at h
  obtain ⟨x, hx, h⟩ := h
  simp only [Except.ok.injEq] at h
  have hw : wr x.1 = x.1 := by rw [← h] at hG; exact hG _ (by simp)
  rw [hx]
  show Except.ok _ = _
  rw [hw, ← h]

end
end Sampling

namespace MCMC
open Sampling
section
variable {K σ : Type} [Zero K] [One K] [Add K] [Sub K] [Mul K] [Div K] [Neg K] [NatCast K] [IntCast K] [Pow K ℕ] [ArrayOps K] [LinearOrder K] [NumFns K] {n : Nat}
  {wr : Vec (Val K) n → Vec (Val K) n} {P : Par σ K n}

theorem blockW_ok {j : Nat} {s s' : State σ K n} (hI : RecW P.fn wr s) (h : blockW wr P j s = .ok s') : RecW P.fn wr s' := by
  unfold blockW at h
  dsimp only at h
  split_ifs at h with h1 h2
  · simp only [Except.ok.injEq] at h
    rw [← h]
    refine RecW_push (RecW_more hI _ _) ?_ _ _
    intro q hq
    simp only [Option.some.injEq] at hq
    rw [← hq]
    exact ⟨_, List.mem_append_right _ (List.mem_singleton.mpr rfl), rfl, Or.inl rfl⟩
  · simp only [Except.ok.injEq] at h
    rw [← h]
    refine RecW_push (RecW_more hI _ _) ?_ _ _
    intro q hq; simp at hq
  · simp only [Except.ok.injEq] at h
    rw [← h]
    have := RecW_more hI [] (drawVec P.R.randn (min n (j + P.per - 1) - j + 1) s.rng).2
    rw [List.append_nil] at this
    exact RecW_push this (by intro q hq; simp at hq) _ _

theorem blockW_agree {j : Nat} {s s' : State σ K n} (h : block P j s = .ok s') (hG : LeavesAlone wr s'.evals) :
    blockW wr P j s = .ok s' ∧ LeavesAlone wr s.evals := by
  unfold block at h
  unfold blockW
  dsimp only at h ⊢
  by_cases h1 : min n (min n (j + P.per - 1) + 1) - j ≠ min n (j + P.per - 1) - j + 1
  · rw [if_pos h1] at h; simp at h
  · rw [if_neg h1] at h ⊢
    by_cases h2 : truthy (inSearchSpace (perturb P.step j (min n (j + P.per - 1)) (fun k => if h : k < min n (j + P.per - 1) - j + 1 then
        (drawVec P.R.randn (min n (j + P.per - 1) - j + 1) s.rng).1 ⟨k, h⟩ else 0) s.xcur) P.lower P.upper P.constraints) = true
    · rw [if_pos h2] at h ⊢
      have h' := h
      simp only [Except.ok.injEq] at h
      rw [← h, push_notify_evals] at hG
      have hw := hG _ (List.mem_append_right _ (List.mem_singleton.mpr rfl))
      rw [hw]
      exact ⟨h', leaves_left hG⟩
    · rw [if_neg h2] at h ⊢
      have h' := h
      simp only [Except.ok.injEq] at h
      rw [← h, push_notify_evals] at hG
      exact ⟨h', hG⟩

theorem sweepW_ok : ∀ (js : List Nat) {s s' : State σ K n}, RecW P.fn wr s → sweepW wr P js s = .ok s' → RecW P.fn wr s'
  | [], s, s', hI, h => by simp only [sweepW, Except.ok.injEq] at h; rw [← h]; exact hI
  | j :: js, s, s', hI, h => by
    simp only [sweepW] at h
    rw [bind_ok_iff] at h
    obtain ⟨t, ht, h⟩ := h
    have hI' := blockW_ok hI ht
    split_ifs at h
    · simp only [Except.ok.injEq] at h; rw [← h]; exact hI'
    · exact sweepW_ok js hI' h

theorem sweepW_agree : ∀ (js : List Nat) {s s' : State σ K n}, sweep P js s = .ok s' → LeavesAlone wr s'.evals →
    sweepW wr P js s = .ok s' ∧ LeavesAlone wr s.evals
  | [], s, s', h, hG => by
    simp only [sweep, Except.ok.injEq] at h
    rw [← h] at hG ⊢; exact ⟨rfl, hG⟩
  | j :: js, s, s', h, hG => by
    simp only [sweep] at h
    rw [bind_ok_iff] at h
    obtain ⟨t, ht, h⟩ := h
    simp only [sweepW]
    split_ifs at h with hl
    · simp only [Except.ok.injEq] at h
      rw [← h] at hG ⊢
      obtain ⟨h1, h2⟩ := blockW_agree ht hG
      rw [h1]
      exact ⟨by show (if _ then _ else _) = _; rw [if_pos hl], h2⟩
    · obtain ⟨h1, h2⟩ := sweepW_agree js h hG
      obtain ⟨h3, h4⟩ := blockW_agree ht h2
      rw [h3]
      exact ⟨by show (if _ then _ else _) = _; rw [if_neg hl]; exact h1, h4⟩

theorem loopW_ok : ∀ (fuel : Nat) {s s' : State σ K n}, RecW P.fn wr s → loopW wr P fuel s = .ok s' → RecW P.fn wr s'
  | 0, s, s', hI, h => by
    simp only [loopW] at h
    split_ifs at h
    simp only [Except.ok.injEq] at h; rw [← h]; exact hI
  | fuel + 1, s, s', hI, h => by
    simp only [loopW] at h
    split_ifs at h
    · rw [bind_ok_iff] at h
      obtain ⟨t, ht, h⟩ := h
      exact loopW_ok fuel (sweepW_ok _ hI ht) h
    · simp only [Except.ok.injEq] at h; rw [← h]; exact hI

theorem loopW_agree : ∀ (fuel : Nat) {s s' : State σ K n}, loop P fuel s = .ok s' → LeavesAlone wr s'.evals →
    loopW wr P fuel s = .ok s' ∧ LeavesAlone wr s.evals
  | 0, s, s', h, hG => by
    simp only [loop] at h
    simp only [loopW]
    split_ifs at h ⊢
    simp only [Except.ok.injEq] at h; rw [← h] at hG ⊢; exact ⟨rfl, hG⟩
  | fuel + 1, s, s', h, hG => by
    simp only [loop] at h
    simp only [loopW]
    split_ifs at h ⊢
    · rw [bind_ok_iff] at h
      obtain ⟨t, ht, h⟩ := h
      obtain ⟨h1, h2⟩ := loopW_agree fuel h hG
      obtain ⟨h3, h4⟩ := sweepW_agree _ ht h2
      rw [h3]
      exact ⟨h1, h4⟩
    · simp only [Except.ok.injEq] at h; rw [← h] at hG ⊢; exact ⟨rfl, hG⟩

variable [IntParts K]

theorem sampleW_ok {R : Rng σ K} {fuel : Nat} {a : Args K} {wr : Vec (Val K) a.ndim → Vec (Val K) a.ndim} {g : σ}
    {o : Sampling.Output σ K a.ndim} (h : (sampleW R fuel a wr g).1 = .ok o) :
    ∃ fn s, a.fn = some fn ∧ RecW fn wr s ∧ o = finish a.maxiter a.returnAll s := by
  unfold sampleW at h
  split at h
  · simp at h
  · simp at h
  · simp at h
  · rename_i fn step hfn _ _
    unfold restW at h
    dsimp only at h
    split_ifs at h
    rw [bind_ok_iff] at h
    obtain ⟨s0, hs0, h⟩ := h
    rw [bind_ok_iff] at h
    obtain ⟨s, hs, h⟩ := h
    simp only [Except.ok.injEq] at h
    exact ⟨fn, s, hfn, loopW_ok (P := _) fuel (startW_ok hs0) hs, h.symm⟩

theorem sampleW_agree {R : Rng σ K} {fuel : Nat} {a : Args K} {wr : Vec (Val K) a.ndim → Vec (Val K) a.ndim} {g : σ}
    {o : Sampling.Output σ K a.ndim} (h : (sample R fuel a g).1 = .ok o) (hG : LeavesAlone wr o.evals) :
    sampleW R fuel a wr g = sample R fuel a g := by
  unfold sample at h ⊢
  unfold sampleW
  split at h
  · simp at h
  · simp at h
  · simp at h
  · rename_i fn step hfn hc hs
    simp only at h ⊢
    rw [hfn, hc, hs]
    simp only [Prod.mk.injEq, and_true]
    rw [h]
    unfold rest at h
    unfold restW
    split_ifs at h ⊢
    rw [bind_ok_iff] at h
    obtain ⟨s0, hs0, h⟩ := h
    rw [bind_ok_iff] at h
    obtain ⟨s, hs, h⟩ := h
    have hG' : LeavesAlone wr s.evals := by
      simp only [Except.ok.injEq] at h
      rw [← h] at hG; exact hG
    obtain ⟨h1, h2⟩ := loopW_agree fuel hs hG'
    rw [startW_agree hs0 h2]
    show (do let s' ← loopW wr _ fuel s0; _) = _
    rw [h1]
    exact h

end
end MCMC

namespace HMC
open Sampling
section
variable {K σ : Type} [Zero K] [One K] [Add K] [Sub K] [Mul K] [Div K] [Neg K] [NatCast K] [IntCast K] [Pow K ℕ] [ArrayOps K] [LinearOrder K] [NumFns K] {n : Nat}
  {wr : Vec (Val K) n → Vec (Val K) n} {P : Par σ K n}

theorem iterW_ok {s s' : State σ K n} (hI : RecW P.fn wr s) (h : iterW wr P s = .ok s') : RecW P.fn wr s' := by
  unfold iterW at h
  rw [bind_ok_iff] at h
  obtain ⟨r, hr, h⟩ := h
  dsimp only at h
  split_ifs at h with h2
  · simp only [Except.ok.injEq] at h
    rw [← h, List.append_assoc]
    refine RecW_push (RecW_more hI _ _) ?_ _ _
    intro q hq
    simp only [Option.some.injEq] at hq
    rw [← hq]
    exact ⟨_, List.mem_append_right _ (List.mem_append_right _ (by simp : r.1 ∈ [s.xcur, r.1])), rfl, Or.inl rfl⟩
  · simp only [Except.ok.injEq] at h
    rw [← h, List.append_assoc]
    refine RecW_push (RecW_more hI _ _) ?_ _ _
    intro q hq; simp at hq
  · simp only [Except.ok.injEq] at h
    rw [← h]
    refine RecW_push (RecW_more hI _ _) ?_ _ _
    intro q hq; simp at hq

theorem loopW_ok : ∀ (k : Nat) {s s' : State σ K n}, RecW P.fn wr s → loopW wr P k s = .ok s' → RecW P.fn wr s'
  | 0, s, s', hI, h => by
    simp only [loopW, Except.ok.injEq] at h; rw [← h]; exact hI
  | k + 1, s, s', hI, h => by
    simp only [loopW] at h
    rw [bind_ok_iff] at h
    obtain ⟨t, ht, h⟩ := h
    exact loopW_ok k (iterW_ok hI ht) h

/-- Finite differences: the two copies are the same if none of the points is changed. -/
theorem gradStepW_agree (fn : Vec (Val K) n → Val K) (h : K) : ∀ (l : List (Fin n)) (b : Vec (Val K) n × Vec (Val K) n × List (Val K) × List (Vec (Val K) n)),
    LeavesAlone wr (l.foldl (gradStep fn h) b).2.2.2 →
      l.foldl (gradStepW fn wr h) b = l.foldl (gradStep fn h) b ∧ LeavesAlone wr b.2.2.2 :=
  foldl_agree (G := fun b : Vec (Val K) n × Vec (Val K) n × List (Val K) × List (Vec (Val K) n) => LeavesAlone wr b.2.2.2) fun b i hG => by
    have h1 : wr (Function.update b.1 i (b.1 i - .fin h)) = Function.update b.1 i (b.1 i - .fin h) :=
      hG _ (List.mem_append_right _ (by simp))
    have h2 : wr (Function.update b.2.1 i (b.2.1 i + .fin h)) = Function.update b.2.1 i (b.2.1 i + .fin h) :=
      hG _ (List.mem_append_right _ (by simp))
    refine ⟨?_, leaves_left hG⟩
    unfold gradStepW gradStep
    dsimp only
    rw [h1, h2]

/-- Two gradients agree where no point is changed. -/
def GradAgree (wr : Vec (Val K) n → Vec (Val K) n) (G G' : Grad K n) : Prop := ∀ x r, G x = .ok r → LeavesAlone wr r.2 → G' x = .ok r

theorem gradOfW_agree (fn : Vec (Val K) n → Val K) (jac : Option (Option (Vec (Val K) n → Vec (Val K) n))) (h : K) (e : Bool) :
    GradAgree wr (gradOf fn jac h e) (gradOfW fn wr jac h e) := by
  intro x r hr hG
  unfold gradOf at hr
  unfold gradOfW
  cases jac with
  | some j => dsimp only at hr; split_ifs at hr
  | none =>
    dsimp only at hr ⊢
    have hr' := hr
    simp only [Except.ok.injEq] at hr
    rw [← hr] at hG
    have := (gradStepW_agree fn h (List.finRange n) (x, x, [], []) hG).1
    rw [← hr']
    unfold numericalGradientW numericalGradient
    rw [this]

theorem kick_agree {G G' : Grad K n} (hGG : GradAgree wr G G') {st : Vec K n} {s s' : Phase K n} (h : kick G st s = .ok s')
    (hG : LeavesAlone wr s'.2.2) : kick G' st s = .ok s' ∧ LeavesAlone wr s.2.2 := by
  unfold kick at h ⊢
  rw [bind_ok_iff] at h
  obtain ⟨r, hr, h⟩ := h
  have h' := h
  simp only [Except.ok.injEq] at h
  rw [← h] at hG
  have := hGG _ _ hr (fun y hy => hG y (List.mem_append_right _ hy))
  rw [this]
  exact ⟨h', leaves_left hG⟩

theorem leaps_agree {G G' : Grad K n} (hGG : GradAgree wr G G') {st : Vec K n} : ∀ (k : Nat) {s s' : Phase K n}, leaps G st k s = .ok s' →
    LeavesAlone wr s'.2.2 → leaps G' st k s = .ok s' ∧ LeavesAlone wr s.2.2
  | 0, s, s', h, hG => by
    simp only [leaps, Except.ok.injEq] at h ⊢
    exact ⟨h, by rw [h]; exact hG⟩
  | k + 1, s, s', h, hG => by
    simp only [leaps] at h ⊢
    rw [bind_ok_iff] at h
    obtain ⟨t, ht, h⟩ := h
    obtain ⟨h1, h2⟩ := leaps_agree hGG k h hG
    obtain ⟨h3, h4⟩ := kick_agree hGG ht h2
    rw [h3]
    exact ⟨h1, h4⟩

theorem leapfrog_agree {G G' : Grad K n} (hGG : GradAgree wr G G') {st : Vec K n} {k : Nat} {q p : Vec (Val K) n} {r : Phase K n}
    (h : leapfrog G st k q p = .ok r) (hG : LeavesAlone wr r.2.2) : leapfrog G' st k q p = .ok r := by
  unfold leapfrog at h ⊢
  rw [bind_ok_iff] at h
  obtain ⟨s, hs, h⟩ := h
  rw [bind_ok_iff] at h
  obtain ⟨t, ht, h⟩ := h
  obtain ⟨h1, h2⟩ := kick_agree hGG h hG
  obtain ⟨h3, h4⟩ := leaps_agree hGG k ht h2
  obtain ⟨h5, _⟩ := kick_agree hGG hs h4
  rw [h5]
  show (do let s' ← leaps G' st k (drift st s); _) = _
  rw [h3]
  exact h1

theorem iterW_agree {G' : Grad K n} (hGG : GradAgree wr P.G G') {s s' : State σ K n} (h : iter P s = .ok s') (hG : LeavesAlone wr s'.evals) :
    iterW wr { P with G := G' } s = .ok s' ∧ LeavesAlone wr s.evals := by
  unfold iter at h
  unfold iterW
  rw [bind_ok_iff] at h
  obtain ⟨r, hr, h⟩ := h
  dsimp only at h ⊢
  by_cases h2 : truthy (inSearchSpace r.1 P.lower P.upper P.constraints) = true
  · rw [if_pos h2] at h
    have h' := h
    simp only [Except.ok.injEq] at h
    rw [← h, push_notify_evals] at hG
    dsimp only at hG
    have hw : wr r.1 = r.1 := hG _ (List.mem_append_right _ (by simp))
    rw [leapfrog_agree hGG hr (fun y hy => hG y (List.mem_append_left _ (List.mem_append_right _ hy)))]
    refine ⟨?_, leaves_left (leaves_left hG)⟩
    show (if _ then _ else _) = _
    rw [if_pos h2, hw]
    exact h'
  · rw [if_neg h2] at h
    have h' := h
    simp only [Except.ok.injEq] at h
    rw [← h, push_notify_evals] at hG
    dsimp only at hG
    rw [leapfrog_agree hGG hr (fun y hy => hG y (List.mem_append_right _ hy))]
    refine ⟨?_, leaves_left hG⟩
    show (if _ then _ else _) = _
    rw [if_neg h2]
    exact h'

theorem loopW_agree {G' : Grad K n} (hGG : GradAgree wr P.G G') : ∀ (k : Nat) {s s' : State σ K n}, loop P k s = .ok s' →
    LeavesAlone wr s'.evals → loopW wr { P with G := G' } k s = .ok s' ∧ LeavesAlone wr s.evals
  | 0, s, s', h, hG => by
    simp only [loop, Except.ok.injEq] at h
    simp only [loopW, Except.ok.injEq]
    exact ⟨h, by rw [h]; exact hG⟩
  | k + 1, s, s', h, hG => by
    simp only [loop] at h
    simp only [loopW]
    rw [bind_ok_iff] at h
    obtain ⟨t, ht, h⟩ := h
    obtain ⟨h1, h2⟩ := loopW_agree hGG k h hG
    obtain ⟨h3, h4⟩ := iterW_agree hGG ht h2
    rw [h3]
    exact ⟨h1, h4⟩

theorem sampleW_ok {R : Rng σ K} {a : Args K} {wr : Vec (Val K) a.ndim → Vec (Val K) a.ndim} {g : σ}
    {o : Sampling.Output σ K a.ndim} (h : (sampleW R a wr g).1 = .ok o) :
    ∃ fn s, a.fn = some fn ∧ RecW fn wr s ∧ finish a.maxiter a.returnAll s = .ok o := by
  unfold sampleW at h
  split at h
  · simp at h
  · simp at h
  · simp at h
  · simp at h
  · rename_i fn step hfn _ _ _
    unfold restW at h
    dsimp only at h
    split_ifs at h
    rw [bind_ok_iff] at h
    obtain ⟨s0, hs0, h⟩ := h
    rw [bind_ok_iff] at h
    obtain ⟨s, hs, h⟩ := h
    exact ⟨fn, s, hfn, loopW_ok (P := _) _ (startW_ok hs0) hs, h⟩

theorem finish_ok {m : Int} {ra : Bool} {s : State σ K n} {o : Sampling.Output σ K n} (h : finish m ra s = .ok o) :
    ∃ i : Fin s.fs.length, o.x = s.xs.getD i s.xcur ∧ o.fval = s.fs.get i ∧ o.evals = s.evals ∧ o.xall = Sampling.attach ra s.xs ∧
      o.funall = Sampling.attach ra s.fs := by
  unfold finish at h
  rw [bind_ok_iff] at h
  obtain ⟨i, _, h⟩ := h
  simp only [Except.ok.injEq] at h
  rw [← h]
  exact ⟨i, rfl, rfl, rfl, rfl, rfl⟩

theorem sampleW_agree {R : Rng σ K} {a : Args K} {wr : Vec (Val K) a.ndim → Vec (Val K) a.ndim} {g : σ}
    {o : Sampling.Output σ K a.ndim} (h : (sample R a g).1 = .ok o) (hG : LeavesAlone wr o.evals) :
    sampleW R a wr g = sample R a g := by
  unfold sample at h ⊢
  unfold sampleW
  split at h
  · simp at h
  · simp at h
  · simp at h
  · simp at h
  · rename_i fn step hfn hc hl hs
    simp only at h ⊢
    rw [hfn, hc, hl, hs]
    simp only [Prod.mk.injEq, and_true]
    rw [h]
    unfold rest at h
    unfold restW
    split_ifs at h ⊢
    rw [bind_ok_iff] at h
    obtain ⟨s0, hs0, h⟩ := h
    rw [bind_ok_iff] at h
    obtain ⟨s, hs, h⟩ := h
    have hG' : LeavesAlone wr s.evals := by
      obtain ⟨_, _, _, he, _⟩ := finish_ok h
      rw [he] at hG; exact hG
    obtain ⟨h1, h2⟩ := loopW_agree (gradOfW_agree fn a.jac a.fdStep a.extraArgs) _ hs hG'
    rw [startW_agree hs0 h2]
    show (do let s' ← loopW wr _ _ s0; _) = _
    rw [h1]
    exact h

end
end HMC

end Stochopy
