import Verif.Lemmas.Voronoi
import Verif.Lemmas.Pool
import Verif.Spec.NARun

/-! Runs of the neighbourhood algorithm are the runs described in `Spec/NARun.lean`. -/

set_option linter.unusedSectionVars false

namespace Stochopy.NA
open Spec Spec.NA
variable {K σ : Type} [Field K] [LinearOrder K] {p n : Nat}
variable {P : Par σ K n} {c : Setting σ K n}

theorem search_ext {s s' : Search K p n} (h1 : s.models = s'.models) (h2 : s.pos = s'.pos) (h3 : s.pool = s'.pool) : s = s' := by
  cases s; cases s'
  simp only at h1 h2 h3
  subst h1 h2 h3; rfl

theorem walk_unique {R : Rng σ K} {M : List (Vec K n)} {v y y' : Vec K n} {g h h' : σ} (w : Spec.NA.Walk R M v g y h)
    (w' : Spec.NA.Walk R M v g y' h') : y = y' ∧ h = h' := by
  obtain ⟨T, a1, a2, a3⟩ := w
  obtain ⟨T', b1, b2, b3⟩ := w'
  have key : ∀ k ≤ n, T k = T' k := by
    intro k
    induction k with
    | zero => exact fun _ => a1.trans b1.symm
    | succ k ih =>
      intro hk
      obtain ⟨a, b, h1, h2⟩ := a3 ⟨k, hk⟩
      obtain ⟨a', b', h1', h2'⟩ := b3 ⟨k, hk⟩
      dsimp only at h1 h2 h1' h2'
      rw [ih (by omega)] at h1 h2
      rw [h2, h2', h1.1.unique h1'.1, h1.2.unique h1'.2]
  have := key n le_rfl
  rw [a2, b2] at this
  exact Prod.mk.inj this

theorem ranked_unique {srt : Argsort K} {f : Vec K n → Val K} {M : List (Vec K n)} {r : Nat} {v v' : Vec K n} (h : Ranked srt f M r v)
    (h' : Ranked srt f M r v') : v = v' := by
  obtain ⟨_, h⟩ := h
  obtain ⟨_, h'⟩ := h'
  rw [h, h']

theorem generation_unique {it : Nat} {s s1 s2 : Search K p n} {g g1 g2 : σ} {st1 st2 : Option Int}
    (h1 : Generation c it s g s1 g1 st1) (h2 : Generation c it s g s2 g2 st2) : s1 = s2 ∧ g1 = g2 ∧ st1 = st2 := by
  obtain ⟨G, a1, a2, a3⟩ := h1.walks
  obtain ⟨G', b1, b2, b3⟩ := h2.walks
  have key : ∀ k ≤ p, G k = G' k := by
    intro k
    induction k with
    | zero => exact fun _ => a1.trans b1.symm
    | succ k ih =>
      intro hk
      obtain ⟨v, e1, e2⟩ := a3 ⟨k, hk⟩
      obtain ⟨v', e1', e2'⟩ := b3 ⟨k, hk⟩
      obtain rfl := ranked_unique e1 e1'
      dsimp only at e2 e2'
      rw [ih (by omega)] at e2
      exact (walk_unique e2 e2').2
  have hX : s1.pos = s2.pos := funext fun i => by
    obtain ⟨v, e1, e2⟩ := a3 i
    obtain ⟨v', e1', e2'⟩ := b3 i
    obtain rfl := ranked_unique e1 e1'
    rw [key i i.2.le] at e2
    exact (walk_unique e2 e2').1
  have hP : s1.pool = s2.pool := by
    have := h1.pool
    rw [hX] at this
    exact this.unique h2.pool
  have hst := h1.stop
  rw [hP] at hst
  exact ⟨search_ext (by rw [h1.models, h2.models, hX]) hX hP, by rw [← a2, ← b2, key p le_rfl], hst.unique h2.stop⟩

/-- The description determines everything that can be observed. -/
theorem run_unique {x0 : Option (Pop K p n)} {g : σ} {rep : Reporting} {S S' : Nat → Search K p n} {gs gs' : Nat → σ}
    {nit nit' : Nat} {st st' : Int} {o o' : Output σ K p n} (h : Spec.NA.Run c x0 g rep S gs nit st o)
    (h' : Spec.NA.Run c x0 g rep S' gs' nit' st' o') : o = o' := by
  obtain ⟨X, s1, s2⟩ := h.start
  obtain ⟨X', s1', s2'⟩ := h'.start
  obtain ⟨rfl, e2⟩ := s1.unique s1'
  have e3 : (S 0).pos = (S' 0).pos := funext fun i => funext fun j => (s2 i j).trans (s2' i j).symm
  have e4 : S 0 = S' 0 := by
    have := h.first
    rw [e3] at this
    exact search_ext (by rw [h.models, h'.models, e3]) e3 (this.unique h'.first)
  obtain ⟨rfl, rfl, key⟩ := sequence_unique (T := Search K p n × σ) (f := fun k => (S k, gs k)) (f' := fun k => (S' k, gs' k))
    (G := fun it a b s => Generation c (it + 1) a.1 a.2 b.1 b.2 s)
    (fun it s s1 s2 st1 st2 h1 h2 => by
      obtain ⟨c1, c2, c3⟩ := generation_unique h1 h2
      exact ⟨Prod.ext c1 c2, c3⟩)
    (by rw [e2, e4]) h.atleast h'.atleast (fun k hk => h.generation k hk) (fun k hk => h'.generation k hk)
  have key' : ∀ k < nit, S k = S' k ∧ gs k = gs' k := fun k hk => by
    have := key k hk
    simp only [Prod.mk.injEq] at this
    exact this
  have h2 := h.atleast
  refine Output.ext' (Reports.unique (by omega) h.report (by rw [e4]; exact h'.report) fun k hk => ?_) ?_ ?_ ?_
  · rw [(key' k hk).1]; exact ⟨rfl, rfl, rfl, rfl, rfl⟩
  · rw [h.evaluated, h'.evaluated]
    apply List.flatMap_congr
    intro k hk
    rw [(key' k (List.mem_range.1 hk)).1]
  · rw [h.given, h'.given]
  · rw [h.rng, h'.rng, (key' (nit - 1) (by omega)).2]

/-! ## The model satisfies the description -/

/-- The parameters of the model are those of the setting; no variable is fixed. -/
structure Fits (c : Setting σ K n) (P : Par σ K n) : Prop where
  R : P.R = c.R
  sort : P.argsort = c.sort
  nr : P.nr = c.nr
  lower : P.lower = c.lower
  upper : P.upper = c.upper
  maxiter : P.maxiter = c.maxiter
  xtol : P.xtol = c.xtol
  ftol : P.ftol = c.ftol
  obj : P.obj.Faithful c.fn
  free : ∀ j, c.lower j < c.upper j

theorem foldl_inv_mem {β γ : Type} (P : β → Prop) {f : β → γ → β} {l : List γ} (hf : ∀ b, ∀ c ∈ l, P b → P (f b c)) :
    ∀ {b : β}, P b → P (l.foldl f b) := by
  induction l with
  | nil => intro b hb; exact hb
  | cons c l ih => intro b hb; exact ih (fun b d hd => hf b d (List.mem_cons_of_mem _ hd)) (hf _ _ List.mem_cons_self hb)

theorem seqFinS_chain {ε α τ : Type} : ∀ {p : Nat} {f : Fin p → τ → Except ε (α × τ)} {g : τ} {r : (Fin p → α) × τ},
    seqFinS f g = .ok r → ∃ G : Nat → τ, G 0 = g ∧ G p = r.2 ∧ ∀ i : Fin p, f i (G i) = .ok (r.1 i, G (i + 1))
  | 0, _, g, r, h => by
    simp only [seqFinS, Except.ok.injEq] at h
    subst h
    exact ⟨fun _ => g, rfl, rfl, fun i => i.elim0⟩
  | p + 1, f, g, r, h => by
    rw [seqFinS, bind_ok_iff] at h
    obtain ⟨a, h0, h⟩ := h
    rw [bind_ok_iff] at h
    obtain ⟨b, h1, h⟩ := h
    simp only [Except.ok.injEq] at h
    subst h
    obtain ⟨G, g0, g1, g2⟩ := seqFinS_chain h1
    refine ⟨fun k => Nat.casesOn k g G, rfl, g1, fun i => ?_⟩
    refine Fin.cases ?_ (fun j => ?_) i
    · show f 0 g = .ok (_, G 0)
      rw [g0, h0]; rfl
    · exact g2 j

section
variable [IsStrictOrderedRing K]

theorem unnormalize_eq (hF : Fits c P) (x : Vec K n) : unnormalize P.lower P.upper x = c.place x := by
  funext j
  have hs := hF.free j
  rw [← hF.lower, ← hF.upper] at hs
  have hm : spanMask P.lower P.upper j = true := by simpa [spanMask] using hs
  unfold unnormalize Setting.place
  rw [if_pos hm, hF.lower, hF.upper]
  ring

theorem normalize_eq (hF : Fits c P) (x : Vec K n) (j : Fin n) : normalize P.lower P.upper x j = (x j - c.lower j) / (c.upper j - c.lower j) := by
  have hs := hF.free j
  rw [← hF.lower, ← hF.upper] at hs
  have hm : spanMask P.lower P.upper j = true := by simpa [spanMask] using hs
  unfold normalize
  rw [if_pos hm, hF.lower, hF.upper]

theorem mask_eq (hF : Fits c P) (j : Fin n) : spanMask P.lower P.upper j = true := by
  have hs := hF.free j
  rw [← hF.lower, ← hF.upper] at hs
  simpa [spanMask] using hs

theorem faithful (hF : Fits c P) : P.objN.Faithful c.f := by
  have : fN P c.fn = c.f := funext fun x => by unfold fN Setting.f; rw [unnormalize_eq hF]
  rw [← this]
  exact objN_faithful hF.obj

theorem lowLim_mem (lims : List (Val K)) (x : K) : lowLim lims x = 0 ∨ ∃ l, .fin l ∈ lims ∧ l ≤ x ∧ lowLim lims x = l := by
  unfold lowLim
  refine foldl_inv_mem (fun acc : K => acc = 0 ∨ ∃ l, .fin l ∈ lims ∧ l ≤ x ∧ acc = l) ?_ ?_
  · intro acc a ha h
    cases a with
    | fin l =>
      dsimp only
      split_ifs with hl
      · rcases max_choice l acc with e | e <;> rw [e]
        · exact Or.inr ⟨l, ha, hl, rfl⟩
        · exact h
      · exact h
    | _ => exact h
  · exact Or.inl rfl

theorem highLim_mem (lims : List (Val K)) (x : K) : highLim lims x = 1 ∨ ∃ l, .fin l ∈ lims ∧ x ≤ l ∧ highLim lims x = l := by
  unfold highLim
  refine foldl_inv_mem (fun acc : K => acc = 1 ∨ ∃ l, .fin l ∈ lims ∧ x ≤ l ∧ acc = l) ?_ ?_
  · intro acc a ha h
    cases a with
    | fin l =>
      dsimp only
      split_ifs with hl
      · rcases min_choice l acc with e | e <;> rw [e]
        · exact Or.inr ⟨l, ha, hl, rfl⟩
        · exact h
      · exact h
    | _ => exact h
  · exact Or.inl rfl

theorem lim_iff {v u d1 d2 t : K} : lim v u d1 d2 = .fin t ↔ u ≠ v ∧ d2 + (t - u) ^ 2 = d1 + (t - v) ^ 2 := by
  unfold lim npDiv
  by_cases h0 : v - u = 0
  · have : u = v := (sub_eq_zero.1 h0).symm
    rw [if_pos h0]
    simp only [this, ne_eq, not_true_eq_false, false_and, iff_false]
    split_ifs <;> simp
  · rw [if_neg h0]
    dsimp only
    have hne : u ≠ v := fun h => h0 (by rw [h, sub_self])
    rw [Val.fin.injEq]
    constructor
    · intro h
      refine ⟨hne, ?_⟩
      rw [← h]
      field_simp
      ring
    · rintro ⟨-, h⟩
      have : d1 - d2 = (v - u) * (2 * t - u - v) := by linear_combination (-1 : K) * h
      rw [this]
      field_simp
      ring

theorem reach_of {mask : Fin n → Bool} (hmask : ∀ j, mask j = true) {M : List (Vec K n)} {k : Fin M.length} {st : NA.Walk σ K n} {j : Fin n}
    (h : WalkInv mask (M.get k) (M.eraseIdx k) j.val st) {lims : List (Val K)}
    (hl : lims = st.W.map fun w => lim (M.get k j) (w.1 j) st.d1 w.2) :
    Reach M (M.get k) st.x j (lowLim lims (st.x j)) (highLim lims (st.x j)) := by
  have hd1 := h.d1 j.2
  have hd2 := h.d2 j.2
  have hmem : ∀ t, .fin t ∈ lims ↔ Crossing M (M.get k) st.x j t := by
    intro t
    have hdist : ∀ y, sqDist (Function.update st.x j t) y = distOff j.val st.x y + (t - y j) ^ 2 := by
      intro y
      have := dist2_eq (Function.update st.x j t) y j
      rw [distOff_update, Function.update_self] at this
      exact this
    rw [hl, List.mem_map]
    constructor
    · rintro ⟨w, hw, e⟩
      obtain ⟨e1, e2⟩ := lim_iff.1 e
      refine ⟨w.1, ?_, e1, ?_⟩
      · refine List.mem_of_mem_eraseIdx (i := k.val) ?_
        rw [← h.rows]
        exact List.mem_map_of_mem hw
      · rw [hdist, hdist, ← hd1, ← hd2 w hw]
        exact e2
    · rintro ⟨u, hu, e1, e2⟩
      obtain ⟨i, rfl⟩ := List.mem_iff_get.1 hu
      have hik : i.val ≠ k.val := fun e => e1 (by rw [Fin.ext e])
      have : M.get i ∈ M.eraseIdx k := by
        rw [List.mem_eraseIdx_iff_getElem]
        exact ⟨i.val, i.isLt, hik, rfl⟩
      rw [← h.rows] at this
      obtain ⟨w, hw, he⟩ := List.mem_map.1 this
      refine ⟨w, hw, lim_iff.2 ?_⟩
      rw [hd1, hd2 w hw, he]
      refine ⟨e1, ?_⟩
      rw [← hdist, ← hdist]
      exact e2
  obtain ⟨u0, u1⟩ := h.unit j (hmask j)
  have b0 := lowLim_bounds (lims := lims) u0
  have b1 := highLim_bounds (lims := lims) u1
  refine ⟨⟨⟨b0.2, ?_⟩, ?_⟩, ⟨⟨b1.1, ?_⟩, ?_⟩⟩
  · rcases lowLim_mem lims (st.x j) with e | ⟨l, h1, -, e⟩
    · exact Or.inl e
    · rw [e]; exact Or.inr ((hmem l).1 h1)
  · rintro t ⟨h1, rfl | h2⟩
    · exact b0.1
    · exact lowLim_ge ((hmem t).2 h2) h1
  · rcases highLim_mem lims (st.x j) with e | ⟨l, h1, -, e⟩
    · exact Or.inl e
    · rw [e]; exact Or.inr ((hmem l).1 h1)
  · rintro t ⟨h1, rfl | h2⟩
    · exact b1.2
    · exact highLim_le ((hmem t).2 h2) h1

theorem walk_start {mask : Fin n → Bool} {M : List (Vec K n)} {k : Fin M.length} {g : σ} (h : ∀ x ∈ M, Unit mask x) :
    WalkInv mask (M.get k) (M.eraseIdx k) 0 ({ x := M.get k, d1 := 0, rng := g, W := (M.eraseIdx k).map fun u => (u, ∑ l : Fin (n - 1), (u ⟨l + 1, by omega⟩ - M.get k ⟨l + 1, by omega⟩) ^ 2) } : NA.Walk σ K n) := by
  refine ⟨h _ (List.get_mem _ _), ?_, ?_, ?_, ?_⟩
  · dsimp only; rw [List.map_map]; simp [Function.comp_def]
  · intro w _
    dsimp only
    unfold dist2
    refine Finset.sum_le_sum fun l _ => ?_
    rw [sub_self]
    simpa using sq_nonneg _
  · intro _
    dsimp only
    unfold distOff
    rw [Finset.sum_eq_zero]
    intro l _
    split_ifs <;> simp
  · intro _ w hw
    obtain ⟨u, hu, rfl⟩ := List.mem_map.1 hw
    dsimp only
    exact sum_tail u _

theorem walk_of {R : Rng σ K} (hR : R.Ok) {mask : Fin n → Bool} (hmask : ∀ j, mask j = true) {M : List (Vec K n)} {k : Fin M.length} {g : σ}
    (h : ∀ x ∈ M, Unit mask x) : Spec.NA.Walk R M (M.get k) g (walk R mask M k g).x (walk R mask M k g).rng := by
  set b : NA.Walk σ K n := { x := M.get k, d1 := 0, rng := g, W := (M.eraseIdx k).map fun u => (u, ∑ l : Fin (n - 1), (u ⟨l + 1, by omega⟩ - M.get k ⟨l + 1, by omega⟩) ^ 2) } with hb
  set T : Nat → NA.Walk σ K n := fun m => ((List.finRange n).take m).foldl (walkStep R mask (M.get k)) b with hT
  have t0 : T 0 = b := rfl
  have t1 : T n = walk R mask M k g := by
    rw [hT]
    dsimp only
    rw [List.take_of_length_le (by simp)]
    rfl
  have t2 : ∀ j : Fin n, T (j + 1) = walkStep R mask (M.get k) (T j) j := by
    intro j
    rw [hT]
    dsimp only
    rw [List.take_succ_eq_append_getElem (by simp), List.foldl_append]
    simp
  have hinv : ∀ m ≤ n, WalkInv mask (M.get k) (M.eraseIdx k) m (T m) := by
    intro m
    induction m with
    | zero => intro _; rw [t0]; exact walk_start h
    | succ m ih =>
      intro hm
      have := walkStep_inv hR hmask ⟨m, hm⟩ (ih (by omega))
      have e := t2 ⟨m, hm⟩
      dsimp only at e this
      rw [e]
      exact this
  refine ⟨fun m => ((T m).x, (T m).rng), ?_, ?_, fun j => ⟨_, _, reach_of hmask (hinv j j.2.le) rfl, ?_⟩⟩
  · dsimp only; rw [t0]
  · dsimp only; rw [t1]
  · dsimp only
    rw [t2]
    unfold walkStep
    rw [if_pos (hmask j)]
    dsimp only
    split_ifs <;> rfl

/-- The search of a state. -/
def searchOf (s : State σ K p n) : Search K p n :=
  { models := s.All.map Prod.fst, pos := s.X, pool := { X := s.pbest, fit := s.pbestfit, best := s.gbest, bestfit := s.gfit } }

/-- Values of the archive, which is in the unit cube. -/
structure Archive (c : Setting σ K n) (P : Par σ K n) (s : State σ K p n) : Prop where
  val : ∀ x ∈ s.All, x.2 = c.f x.1
  unit : ∀ x ∈ s.All, Unit (spanMask P.lower P.upper) x.1

theorem generation_of (hF : Fits c P) (hR : P.R.Ok) {it : Nat} {s s' : State σ K p n} {st : Option Int} (hA : Archive c P s)
    (h : step P it s = .ok (s', st)) :
    Generation c it (searchOf s) s.rng (searchOf s') s'.rng st ∧ Archive c P s' ∧
      s'.evals = s.evals ++ List.ofFn (fun i => c.place (s'.X i)) ∧ s'.pfit = (fun i => c.f (s'.X i)) ∧ s'.caller = s.caller := by
  obtain ⟨U, r, hU, hr, rfl, rfl⟩ := step_ok h
  obtain ⟨h1, h2, h3⟩ := offerAll_of (s := (searchOf s).pool) hr (faithful hF)
  have hm : ∀ i, Unit (spanMask P.lower P.upper) (U.1 i) := mutation_unit hR hA.unit hU
  refine ⟨⟨?_, ?_, h1, ?_⟩, ⟨?_, ?_⟩, ?_, h3, rfl⟩
  · obtain ⟨G, g0, g1, g2⟩ := seqFinS_chain hU
    refine ⟨G, g0, g1, fun i => ?_⟩
    have := g2 i
    unfold mutRow at this
    dsimp only at this
    by_cases hlt : i.val % P.nr < (s.All.map Prod.fst).length
    · rw [dif_pos hlt] at this
      simp only [Except.ok.injEq, Prod.mk.injEq] at this
      have hv : (fun k : Fin (s.All.map Prod.fst).length => (s.All.get (k.cast (by simp))).2) = fun k => c.f ((s.All.map Prod.fst).get k) := by
        funext k
        rw [hA.val _ (List.get_mem _ _)]
        simp
      rw [hv, hF.sort, hF.R] at this
      refine ⟨_, ⟨by rw [← hF.nr]; exact hlt, rfl⟩, ?_⟩
      have hw := walk_of (R := c.R) (by rw [← hF.R]; exact hR) (mask := spanMask P.lower P.upper) (mask_eq hF) (M := s.All.map Prod.fst)
        (k := c.sort _ (fun k => c.f ((s.All.map Prod.fst).get k)) ⟨i.val % P.nr, hlt⟩) (g := G i)
        (by intro x hx; obtain ⟨a, ha, rfl⟩ := List.mem_map.1 hx; exact hA.unit a ha)
      rw [this.1, this.2] at hw
      simp only [hF.nr] at hw
      exact hw
    · rw [dif_neg hlt] at this
      cases this
  · show List.map _ (_ ++ _) = _
    rw [List.map_append, List.map_ofFn]; rfl
  · rw [← hF.maxiter, ← hF.xtol, ← hF.ftol]; exact h2
  · intro x hx
    rcases List.mem_append.1 hx with hx | hx
    · obtain ⟨i, rfl⟩ := List.mem_ofFn.1 hx
      exact congrFun h3 i
    · exact hA.val x hx
  · intro x hx
    rcases List.mem_append.1 hx with hx | hx
    · obtain ⟨i, rfl⟩ := List.mem_ofFn.1 hx
      exact hm i
    · exact hA.unit x hx
  · simp only [unnormalize_eq hF]

theorem run_of (hF : Fits c P) (hR : P.R.Ok) (hp : 2 ≤ p) {x0 : Option (Pop K p n)} (hx0 : ∀ X, x0 = some X → ∀ i, InBox P.lower P.upper (X i))
    {g : σ} {s0 : State σ K p n} (h0 : init P x0 g = .ok s0) {cfg : Cfg} {fuel : Nat} {r : Result K n} {L : Loop (State σ K p n) K p n}
    (h : (alg P).run cfg fuel s0 = .ok (r, L)) :
    ∃ S gs, Spec.NA.Run c x0 g { callback := cfg.hasCallback, history := cfg.returnAll, points := cfg.nout } S gs r.nit r.status
      (mkOut r L State.evals State.caller State.rng) := by
  obtain ⟨i, hi, hs0⟩ := init_ok h0
  obtain ⟨f, f0, hn, hlast, hnext, hrep⟩ := run_sequence (ev := State.evals) (caller := State.caller) (rng := State.rng) h
  have hA0 : Archive c P s0 := by
    rw [hs0]
    refine ⟨fun x hx => ?_, fun x hx => ?_⟩
    · obtain ⟨i, rfl⟩ := List.mem_ofFn.1 hx
      exact (faithful hF).pop _ i
    · obtain ⟨i, rfl⟩ := List.mem_ofFn.1 hx
      refine normalize_unit ?_
      unfold initPop
      cases hx : x0 with
      | none => exact lhs_mem hR (fun j => by rw [hF.lower, hF.upper]; exact (hF.free j).le) _ i
      | some X => exact hx0 X hx i
  have hstep : ∀ k, k + 1 < r.nit → step P (k + 2) (f k) = .ok (f (k + 1), if k + 2 = r.nit then some r.status else none) := by
    intro k hk
    have h1 := hnext k hk
    unfold Alg.next at h1
    have h2 : (if k + 1 = 1 then f k else (alg P).post (k + 1) (f k)) = f k := by split_ifs <;> rfl
    rw [h2] at h1
    exact h1
  have hA : ∀ k < r.nit, Archive c P (f k) := by
    intro k
    induction k with
    | zero => intro _; rw [f0]; exact hA0
    | succ k ih => intro hk; exact (generation_of hF hR (ih (by omega)) (hstep k hk)).2.1
  have hgen := fun k (hk : k + 1 < r.nit) => generation_of hF hR (hA k (by omega)) (hstep k hk)
  have hlog : ∀ k < r.nit, (f k).evals = (List.range (k + 1)).flatMap fun k => List.ofFn fun i => c.place ((f k).X i) := by
    intro k
    induction k with
    | zero => intro _; rw [f0, hs0]; simp [f0, hs0, unnormalize_eq hF]
    | succ k ih =>
      intro hk
      rw [(hgen k hk).2.2.1, ih (by omega), List.range_succ (n := k + 1), List.flatMap_append]
      simp
  have hcall : ∀ k < r.nit, (f k).caller = x0 := by
    intro k
    induction k with
    | zero => intro _; rw [f0, hs0]
    | succ k ih =>
      intro hk
      rw [(hgen k hk).2.2.2.2, ih (by omega)]
  have hpf : ∀ k < r.nit, (f k).pfit = fun i => c.f ((f k).X i) := by
    intro k hk
    cases k with
    | zero => rw [f0, hs0]; exact funext fun i => (faithful hF).pop _ i
    | succ k => exact (hgen k hk).2.2.2.1
  refine ⟨fun k => searchOf (f k), fun k => (f k).rng, ⟨(initPop P x0 g).1, ?_, fun i j => ?_⟩, ?_, ?_, hp, hn, fun k hk => (hgen k hk).1, ?_, ?_, ?_, ?_⟩
  · rw [f0, hs0, ← hF.R, ← hF.lower, ← hF.upper]
    cases x0 with
    | some x => exact Or.inl ⟨rfl, rfl⟩
    | none => exact lhs_first P.R P.lower P.upper g
  · rw [f0, hs0]
    exact normalize_eq hF _ j
  · rw [f0]
    refine ⟨by rw [hs0]; rfl, fun i => ?_, i, ?_, ?_, ?_⟩
    · rw [hs0]; exact (faithful hF).pop _ i
    · rw [hs0]; exact firstBest_of_argmin hi
    · rw [hs0]; rfl
    · rw [hs0]; rfl
  · rw [f0, hs0]
    show List.map _ (List.ofFn _) = _
    rw [List.map_ofFn]; rfl
  · show L.s.evals = _
    rw [hlast, hlog _ (by omega)]
    have : r.nit - 1 + 1 = r.nit := by omega
    rw [this]
    rfl
  · have e : (searchOf (f 0)).pool.best = (alg P).rec0Best s0 := by rw [f0]; rfl
    rw [e]
    refine hrep.congr (by omega) (fun k hk => ⟨unnormalize_eq hF _, rfl, funext fun i => unnormalize_eq hF _, ?_, hpf k hk⟩)
    by_cases h0 : k = 0
    · subst h0; simp only [if_true]; rfl
    · simp only [if_neg h0]; exact funext fun i => unnormalize_eq hF _
  · show L.s.caller = _
    rw [hlast]; exact hcall _ (by omega)
  · show L.s.rng = _
    rw [hlast]

/-- From a point in the interior of the cell, the reach is the part of the line in the cell. -/
theorem reach_slice {M : List (Vec K n)} {v x : Vec K n} {j : Fin n} {a b : K} (h0 : 0 ≤ x j) (h1 : x j ≤ 1)
    (hx : ∀ u ∈ M, u ≠ v → sqDist x v < sqDist x u) (h : Reach M v x j a b) (t : K) :
    (a ≤ t ∧ t ≤ b) ↔ 0 ≤ t ∧ t ≤ 1 ∧ ∀ u ∈ M, sqDist (Function.update x j t) v ≤ sqDist (Function.update x j t) u := by
  have hdist : ∀ t y, sqDist (Function.update x j t) y = distOff j.val x y + (t - y j) ^ 2 := by
    intro t y
    have := dist2_eq (Function.update x j t) y j
    rw [distOff_update, Function.update_self] at this
    exact this
  have hdx : ∀ y, sqDist x y = distOff j.val x y + (x j - y j) ^ 2 := fun y => dist2_eq x y j
  -- the crossing point with the bisector of `u`
  have hcr : ∀ u ∈ M, u j ≠ v j → ∃ l, Crossing M v x j l ∧ distOff j.val x v - distOff j.val x u = (v j - u j) * (2 * l - u j - v j) := by
    intro u hu hne
    have hd : v j - u j ≠ 0 := fun e => hne (sub_eq_zero.1 e).symm
    have e : distOff j.val x v - distOff j.val x u =
        (v j - u j) * (2 * (1 / 2 * (v j + u j + (distOff j.val x v - distOff j.val x u) / (v j - u j))) - u j - v j) := by
      field_simp
      ring
    refine ⟨_, ⟨u, hu, hne, ?_⟩, e⟩
    rw [hdist, hdist]
    linear_combination (-1 : K) * e
  constructor
  · rintro ⟨ha, hb⟩
    refine ⟨le_trans (h.1.2 ⟨h0, Or.inl rfl⟩) ha, le_trans hb (h.2.2 ⟨h1, Or.inl rfl⟩), fun u hu => ?_⟩
    by_cases huv : u = v
    · rw [huv]
    · have hs := hx u hu huv
      rw [hdx, hdx] at hs
      rw [hdist, hdist]
      by_cases hne : u j = v j
      · rw [hne] at hs ⊢
        linarith
      · obtain ⟨l, hl, e⟩ := hcr u hu hne
        have key : (v j - u j) * (l - x j) < 0 := by nlinarith
        rcases lt_or_gt_of_ne hne with hlt | hlt
        · have h2 : l < x j := by nlinarith
          have h3 : l ≤ t := le_trans (h.1.2 ⟨h2.le, Or.inr hl⟩) ha
          nlinarith
        · have h2 : x j < l := by nlinarith
          have h3 : t ≤ l := le_trans hb (h.2.2 ⟨h2.le, Or.inr hl⟩)
          nlinarith
  · rintro ⟨ht0, ht1, hin⟩
    constructor
    · rcases h.1.1.2 with e | ⟨u, hu, hne, e⟩
      · rw [e]; exact ht0
      · have hle := h.1.1.1
        have hs := hx u hu (fun e => hne (by rw [e]))
        have hi := hin u hu
        rw [hdist, hdist] at e hi
        rw [hdx, hdx] at hs
        by_contra hc
        push Not at hc
        have k1 : 0 < (v j - u j) * (x j - a) := by nlinarith
        have k2 : 0 < v j - u j := by
          by_contra hn
          push Not at hn
          nlinarith [mul_nonneg (neg_nonneg.2 hn) (sub_nonneg.2 hle)]
        nlinarith [mul_pos k2 (sub_pos.2 hc)]
    · rcases h.2.1.2 with e | ⟨u, hu, hne, e⟩
      · rw [e]; exact ht1
      · have hle := h.2.1.1
        have hs := hx u hu (fun e => hne (by rw [e]))
        have hi := hin u hu
        rw [hdist, hdist] at e hi
        rw [hdx, hdx] at hs
        by_contra hc
        push Not at hc
        have k1 : 0 < (u j - v j) * (b - x j) := by nlinarith
        have k2 : 0 < u j - v j := by
          by_contra hn
          push Not at hn
          nlinarith [mul_nonneg (neg_nonneg.2 hn) (sub_nonneg.2 hle)]
        nlinarith [mul_pos k2 (sub_pos.2 hc)]

end

end Stochopy.NA
