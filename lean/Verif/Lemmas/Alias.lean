import Verif.Model.Alias
import Verif.Lemmas.Symmetry
import Verif.Lemmas.Driver
import Verif.Lemmas.Swarm

/-! Runs with a memory: they are the runs without, and what the memory holds at the end. -/

set_option linter.unusedSectionVars false

namespace Stochopy
variable {K σ S T : Type} [AddZeroClass K] [One K] [Sub K] [Mul K] [Div K] [Neg K] [NatCast K] [IntCast K] [Pow K ℕ] [ArrayOps K] [LinearOrder K] {p n : Nat}

/-- Forget the memory of a loop state. -/
def Loop.forget {M : Type} (L : Loop (S × M) K p n) : Loop S K p n :=
  { s := L.s.1, it := L.it, status := L.status, rowsX := L.rowsX, rowsF := L.rowsF, cbs := L.cbs }

variable {A : Alg S K p n} {c : Cfg} {fresh cb : Bool}

theorem withMem_step (it : Nat) (t : S × Mem K p n) :
    A.step it t.1 = ((A.withMem fresh cb).step it t).map fun r => (r.1.1, r.2) := by
  show _ = Except.map _ (A.step it t.1 >>= _)
  cases A.step it t.1 <;> rfl

theorem withMem_body (L : Loop (S × Mem K p n) K p n) :
    A.body c L.forget = ((A.withMem fresh cb).body c L).map fun r => (r.1.forget, r.2) := by
  unfold Alg.body
  simp only [map_bind_ex]
  show (A.step (L.it + 1) L.s.1 >>= _) = _
  rw [withMem_step (fresh := fresh) (cb := cb), bind_map_ex]
  congr 1
  funext r
  show (A.record c (L.it + 1) r.1.1 >>= _) = (A.record c (L.it + 1) r.1.1 >>= _)
  congr 1
  funext rows
  show Except.ok _ = Except.ok _
  congr 1
  refine Prod.ext ?_ rfl
  show Loop.mk _ _ _ _ _ _ = Loop.forget _
  unfold Loop.forget
  congr 1
  dsimp only
  split_ifs <;> rfl

theorem withMem_loop (fuel : Nat) : ∀ (L : Loop (S × Mem K p n) K p n),
    A.loop c fuel L.forget = ((A.withMem fresh cb).loop c fuel L).map Loop.forget := by
  induction fuel with
  | zero => intro L; rfl
  | succ fuel ih =>
    intro L
    rw [Alg.loop, Alg.loop, withMem_body (fresh := fresh) (cb := cb), bind_map_ex, map_bind_ex]
    congr 1
    funext r
    dsimp only
    split_ifs
    · rfl
    · exact ih r.1

/-- The memory does not change the run. -/
theorem withMem_run (fuel : Nat) (s0 : S) (m : Mem K p n) :
    A.run c fuel s0 = ((A.withMem fresh cb).run c fuel (s0, m)).map fun r => (r.1, r.2.forget) := by
  unfold Alg.run
  simp only [map_bind_ex]
  have hs : A.start c s0 = ((A.withMem fresh cb).start c (s0, m)).map Loop.forget := by
    unfold Alg.start
    simp only [map_bind_ex]
    rfl
  rw [hs, bind_map_ex]
  congr 1
  funext L
  rw [withMem_loop (fresh := fresh) (cb := cb), bind_map_ex]
  rfl

theorem withMem_run_ok {fuel : Nat} {s0 : S} {m : Mem K p n} {r} (h : (A.withMem fresh cb).run c fuel (s0, m) = .ok r) :
    A.run c fuel s0 = .ok (r.1, r.2.forget) := by rw [withMem_run (fresh := fresh) (cb := cb) fuel s0 m, h]; rfl

theorem Alg.Logged.cbX {l : List S} {rX rF cbs} (h : A.Logged c l rX rF cbs) :
    cbs.map CB.X = if c.hasCallback then (l.map A.cbX).reverse else [] := by
  induction h with
  | nil => simp
  | cons h _ _ ih => split_ifs at ih ⊢ <;> simp [ih, Alg.cb]

theorem hist_last {s0 : S} {l st} (h : A.Hist s0 l st) : l.getLast? = some s0 := by
  induction h with
  | init => rfl
  | next _ _ ih => rw [List.getLast?_cons_cons]; exact ih

/-- A run that never binds `X` again has one array, and every reference is to it. -/
theorem hist_inplace {s0 : S} {l st} (h : (A.withMem false cb).Hist (s0, Mem.start (A.cbX s0) cb) l st) :
    ∀ t l', l = t :: l' → t.2.arrays = [A.cbX t.1] ∧ t.2.kept = if cb then List.replicate l.length 0 else [] := by
  induction h with
  | init =>
    intro t l' h
    cases h
    unfold Mem.start Mem.call
    split_ifs <;> simp
  | @next s s' l st hH hn ih =>
    intro t l' h
    cases h
    obtain ⟨h1, h2⟩ := ih s l rfl
    unfold Alg.next at hn
    have key : ∀ it (u : S × Mem K p n), u.2.arrays.length = 1 → u.2.kept = (if cb then List.replicate (l.length + 1) 0 else []) →
        (A.withMem false cb).step it u = .ok (s', st) →
        s'.2.arrays = [A.cbX s'.1] ∧ s'.2.kept = if cb then List.replicate (l.length + 1 + 1) 0 else [] := by
      intro it u hu1 hu2 hs
      show _ ∧ _
      replace hs : (A.step it u.1 >>= _) = _ := hs
      rw [bind_ok_iff] at hs
      obtain ⟨r, -, hs⟩ := hs
      cases hs
      have hd : u.2.arrays.dropLast = [] := by
        rw [← List.length_eq_zero_iff, List.length_dropLast, hu1]
      unfold Mem.call Mem.write
      simp only [Bool.false_eq_true, if_false, hd]
      split_ifs with hc
      · simp only [hu2, if_pos hc]
        simp [List.replicate_succ']
      · simp only [hu2, if_neg hc]
        simp
    by_cases h3 : l.length + 1 = 1
    · rw [if_pos h3] at hn
      exact key _ _ (by simp [h1]) h2 hn
    · rw [if_neg h3] at hn
      refine key _ ((A.withMem false cb).post (l.length + 1) s) ?_ h2 hn
      show ((s.2.write _).arrays).length = 1
      simp [Mem.write, h1]

/-- A run that binds `X` to a new array in every generation. -/
theorem hist_fresh {s0 : S} {l st} (h : (A.withMem true cb).Hist (s0, Mem.start (A.cbX s0) cb) l st) :
    (∀ t l', l = t :: l' → t.2.arrays.length = l.length ∧ t.2.arrays.getLast? = some (A.cbX t.1) ∧
      t.2.kept = (if cb then List.range l.length else [])) ∧
    ∀ t l', l = t :: l' → ∀ k (hk : k + 1 < l.length), ∃ u, l.reverse[k]? = some u ∧
      t.2.arrays[k]? = some (A.cbX (if k = 0 then u.1 else A.post (k + 1) u.1)) := by
  induction h with
  | init =>
    refine ⟨?_, ?_⟩
    · intro t l' h
      cases h
      unfold Mem.start Mem.call
      split_ifs <;> simp [List.range_succ]
    · intro t l' h k hk
      simp at hk
  | @next s s' l st hH hn ih =>
    obtain ⟨ih1, ih2⟩ := ih
    obtain ⟨h1, h2, h3⟩ := ih1 s l rfl
    have h4 := ih2 s l rfl
    unfold Alg.next at hn
    -- the memory with which the step begins
    have key : ∀ (u : S × Mem K p n), u.2.arrays.length = l.length + 1 → u.2.kept = (if cb then List.range (l.length + 1) else []) →
        (A.withMem true cb).step (l.length + 1 + 1) u = .ok (s', st) →
        s'.2.arrays = u.2.arrays ++ [A.cbX s'.1] ∧ s'.2.kept = if cb then List.range (l.length + 1 + 1) else [] := by
      intro u hu1 hu2 hs
      replace hs : (A.step (l.length + 1 + 1) u.1 >>= _) = _ := hs
      rw [bind_ok_iff] at hs
      obtain ⟨r, -, hs⟩ := hs
      cases hs
      unfold Mem.call Mem.bind
      simp only [if_true]
      split_ifs with hc
      · simp only [hu2, if_pos hc]
        simp [hu1, List.range_succ]
      · simp only [hu2, if_neg hc]
        simp
    have hne : s.2.arrays ≠ [] := by
      intro h; rw [h] at h1; simp at h1
    have main : ∃ B : List (Pop K p n), B.length = l.length + 1 ∧ s'.2.arrays = B ++ [A.cbX s'.1] ∧
        s'.2.kept = (if cb then List.range (l.length + 1 + 1) else []) ∧
        (∀ k, k < l.length → B[k]? = s.2.arrays[k]?) ∧
        B[l.length]? = some (A.cbX (if l.length = 0 then s.1 else A.post (l.length + 1) s.1)) := by
      by_cases h5 : l.length + 1 = 1
      · rw [if_pos h5] at hn
        obtain ⟨k1, k2⟩ := key s (by simpa using h1) h3 hn
        refine ⟨_, by simpa using h1, k1, k2, fun _ _ => rfl, ?_⟩
        have h0 : l.length = 0 := by omega
        rw [if_pos h0]
        rw [List.getLast?_eq_getElem?, h1] at h2
        simpa using h2
      · rw [if_neg h5] at hn
        obtain ⟨k1, k2⟩ := key ((A.withMem true cb).post (l.length + 1) s) (by
          show ((s.2.write _).arrays).length = _
          simp only [Mem.write, List.length_append, List.length_dropLast, h1, List.length_cons, List.length_nil]
          omega) h3 hn
        refine ⟨_, ?_, k1, k2, ?_, ?_⟩
        · show ((s.2.write _).arrays).length = _
          simp only [Mem.write, List.length_append, List.length_dropLast, h1, List.length_cons, List.length_nil]
          omega
        · intro k hk
          show ((s.2.write _).arrays)[k]? = _
          simp only [Mem.write]
          rw [List.getElem?_append_left (by rw [List.length_dropLast, h1, List.length_cons]; omega), List.getElem?_dropLast,
            if_pos (by rw [h1, List.length_cons]; omega)]
        · show ((s.2.write _).arrays)[l.length]? = _
          simp only [Mem.write]
          rw [List.getElem?_append_right (by rw [List.length_dropLast, h1, List.length_cons]; omega)]
          have h0 : ¬ l.length = 0 := by omega
          rw [if_neg h0]
          simp [h1]
    obtain ⟨B, b1, b2, b3, b4, b5⟩ := main
    refine ⟨?_, ?_⟩
    · intro t l' h
      cases h
      exact ⟨by simp [b2, b1], by simp [b2], b3⟩
    · intro t l' h k hk
      cases h
      simp only [List.length_cons] at hk
      by_cases hkl : k < l.length
      · obtain ⟨u, hu, hu'⟩ := h4 k (by simpa using hkl)
        refine ⟨u, ?_, ?_⟩
        · rw [List.reverse_cons, List.getElem?_append_left (by simp; omega), hu]
        · rw [b2, List.getElem?_append_left (by omega), b4 k hkl, hu']
      · have hk' : k = l.length := by omega
        subst hk'
        refine ⟨s, ?_, ?_⟩
        · rw [List.reverse_cons, List.getElem?_append_left (by simp)]
          simp
        · rw [b2, List.getElem?_append_left (by omega), b5]

theorem filterMap_range {α : Type} (B : List α) : (List.range B.length).filterMap (B[·]?) = B := by
  induction B using List.reverseRecOn with
  | nil => rfl
  | append_singleton B x ih =>
    rw [List.length_append, List.length_singleton, List.range_succ, List.filterMap_append]
    congr 1
    · refine (List.filterMap_congr fun i hi => ?_).trans ih
      rw [List.getElem?_append_left (by simpa using hi)]
    · simp

/-- In place: every array that the callback was given holds the last population. -/
theorem run_inplace {fuel : Nat} {s0 : S} {r} (hc : cb = c.hasCallback)
    (h : (A.withMem false cb).run c fuel (s0, Mem.start (A.cbX s0) cb) = .ok r) :
    r.2.s.2.contents = List.replicate r.2.cbs.length (A.cbX r.2.s.1) ∧
      (r.2.cbs.map CB.X).getLast? = (if c.hasCallback then some (A.cbX r.2.s.1) else none) ∧ r.2.s.2.arrays = [A.cbX r.2.s.1] := by
  obtain ⟨l, st, msg, hH, hl, hlog, -⟩ := run_hist (r := r.1) (L := r.2) h
  obtain ⟨h1, h2⟩ := hist_inplace hH _ _ rfl
  have h3 := hlog.cbX
  refine ⟨?_, ?_, h1⟩
  · have h4 : r.2.cbs.length = if cb then (r.2.s :: l).length else 0 := by
      rw [← List.length_map (f := CB.X), h3, hc]
      split_ifs <;> simp
    rw [h4]
    unfold Mem.contents
    rw [h2, h1]
    split_ifs
    · generalize (r.2.s :: l).length = q
      induction q with
      | zero => rfl
      | succ q ih => rw [List.replicate_succ, List.filterMap_cons, ih]; rfl
    · rfl
  · rw [h3]
    split_ifs <;> simp
    rfl

/-- New arrays: what was done after the callback is all that changes what the callback was given. -/
theorem run_fresh {fuel : Nat} {s0 : S} {r} (hc : cb = c.hasCallback)
    (h : (A.withMem true cb).run c fuel (s0, Mem.start (A.cbX s0) cb) = .ok r) :
    r.2.s.2.contents.length = r.2.cbs.length ∧
    ∀ k d, r.2.cbs[k]? = some d → ∃ s, d.X = A.cbX s ∧ (r.2.s.2.contents[k]? = some (A.cbX s) ∨
      k + 1 < r.2.cbs.length ∧ 0 < k ∧ r.2.s.2.contents[k]? = some (A.cbX (A.post (k + 1) s))) := by
  obtain ⟨l, st, msg, hH, hl, hlog, -⟩ := run_hist (r := r.1) (L := r.2) h
  obtain ⟨h1, h2⟩ := hist_fresh hH
  obtain ⟨h1, h1', h3⟩ := h1 _ _ rfl
  have h2 := h2 _ _ rfl
  have h4 := hlog.cbX
  have hcont : r.2.s.2.contents = if cb then r.2.s.2.arrays else [] := by
    unfold Mem.contents
    rw [h3]
    split_ifs with hcb
    · rw [← h1]
      exact filterMap_range _
    · rfl
  have hlen : r.2.cbs.length = if cb then (r.2.s :: l).length else 0 := by
    rw [← List.length_map (f := CB.X), h4, hc]
    split_ifs <;> simp
  refine ⟨?_, fun k d hd => ?_⟩
  · rw [hcont, hlen]
    split_ifs
    · exact h1
    · rfl
  · have hk : k < r.2.cbs.length := by
      by_contra hk
      rw [List.getElem?_eq_none (by omega)] at hd
      cases hd
    cases hcb : cb with
    | false => rw [hlen, hcb] at hk; simp at hk
    | true =>
      rw [hcb, if_pos rfl] at hlen hcont
      rw [← hc, hcb, if_pos rfl] at h4
      have hX : ((r.2.s :: l).map (A.withMem true cb).cbX).reverse[k]? = some d.X := by
        rw [hcb, ← h4, List.getElem?_map, hd]; rfl
      by_cases hk1 : k + 1 < (r.2.s :: l).length
      · obtain ⟨u, hu, hu'⟩ := h2 k hk1
        rw [← List.map_reverse, List.getElem?_map, hu] at hX
        refine ⟨u.1, (Option.some.inj hX).symm, ?_⟩
        rw [hcont, hu']
        by_cases h0 : k = 0
        · exact Or.inl (by rw [if_pos h0])
        · exact Or.inr ⟨by omega, by omega, by rw [if_neg h0]⟩
      · have hkl : k = l.length := by rw [hlen, List.length_cons] at hk; rw [List.length_cons] at hk1; omega
        subst hkl
        rw [List.map_cons, List.reverse_cons, List.getElem?_append_right (by simp)] at hX
        refine ⟨r.2.s.1, ?_, Or.inl ?_⟩
        · have : (A.withMem true cb).cbX r.2.s = d.X := by simpa using hX
          exact this.symm
        · rw [hcont, ← h1', List.getLast?_eq_getElem?, h1]
          rfl

theorem optimizer_map {α β : Type} (f : α → β) (env : Env) (fn : Vec K n → Val K) (sync : Bool) (w : Int) (b : Option String)
    (k : Obj K n → Except PyErr α) :
    (optimizer env fn sync w b k).map f = optimizer env fn sync w b fun obj => (k obj).map f := by
  unfold optimizer
  dsimp only
  split_ifs <;> rw [map_bind_ex]

variable [IntParts K] {env : Env} {R : Rng σ K} {srt : Argsort K} {fuel : Nat} {g : σ}

theorem DE.deMem_fst (P : DE.Par σ K p n) (sync : Bool) (x0 : Option (Pop K p n)) :
    (DE.deMem P sync c fuel x0 g).map Prod.fst = DE.de P sync c fuel x0 g := by
  unfold DE.deMem DE.de
  rw [map_bind_ex]
  congr 1
  funext s0
  rw [map_bind_ex, withMem_run (fresh := false) (cb := c.hasCallback) fuel s0 (Mem.start s0.X c.hasCallback), bind_map_ex]
  rfl

theorem CPSO.cpsoMem_fst [NumFns K] (P : CPSO.Par σ K n) (sync : Bool) (x0 : Option (Pop K p n)) :
    (CPSO.cpsoMem P sync c fuel x0 g).map Prod.fst = CPSO.cpso P sync c fuel x0 g := by
  unfold CPSO.cpsoMem CPSO.cpso
  rw [map_bind_ex]
  congr 1
  funext s0
  rw [map_bind_ex, withMem_run (fresh := sync) (cb := c.hasCallback) fuel s0 (Mem.start s0.X c.hasCallback), bind_map_ex]
  rfl

theorem NA.naMem_fst (P : NA.Par σ K n) (x0 : Option (Pop K p n)) :
    (NA.naMem P c fuel x0 g).map Prod.fst = NA.na P c fuel x0 g := by
  unfold NA.naMem NA.na
  rw [map_bind_ex]
  congr 1
  funext s0
  rw [map_bind_ex, withMem_run (fresh := true) (cb := c.hasCallback) fuel s0 (Mem.start ((NA.alg P).cbX s0) c.hasCallback),
    bind_map_ex]
  rfl

theorem DE.minimizeMem_fst (a : DE.Args K) : (DE.minimizeMem env R fuel a g).map Prod.fst = DE.minimize env R fuel a g := by
  unfold DE.minimizeMem DE.minimize
  rw [map_bind_ex]
  congr 1
  funext strat
  cases a.fn with
  | none => rfl
  | some fn =>
    dsimp only
    rw [optimizer_map]
    congr 1
    funext obj
    simp only [map_bind_ex, DE.deMem_fst]

theorem CPSO.minimizeMem_fst [NumFns K] (a : CPSO.Args K) :
    (CPSO.minimizeMem env R srt fuel a g).map Prod.fst = CPSO.minimize env R srt fuel a g := by
  unfold CPSO.minimizeMem CPSO.minimize
  rw [map_bind_ex]
  congr 1
  funext _
  cases a.fn with
  | none => rfl
  | some fn =>
    dsimp only
    rw [optimizer_map]
    congr 1
    funext obj
    simp only [map_bind_ex, CPSO.cpsoMem_fst]

theorem NA.minimizeMem_fst (a : NA.Args K) :
    (NA.minimizeMem env R srt fuel a g).map Prod.fst = NA.minimize env R srt fuel a g := by
  unfold NA.minimizeMem NA.minimize
  rw [map_bind_ex]
  congr 1
  funext _
  cases a.fn with
  | none => rfl
  | some fn =>
    dsimp only
    rw [optimizer_map]
    congr 1
    funext obj
    simp only [map_bind_ex, NA.naMem_fst]

theorem of_map_fst {ε α β : Type} {x : Except ε (α × β)} {y : Except ε α} (h : x.map Prod.fst = y) :
    (∀ o m, x = .ok (o, m) → y = .ok o) ∧ ∀ o, y = .ok o → ∃ m, x = .ok (o, m) := by
  subst h
  refine ⟨fun o m h => by rw [h]; rfl, fun o h => ?_⟩
  cases x with
  | error e => cases h
  | ok r => cases h; exact ⟨r.2, rfl⟩

theorem optimizer_obj {α : Type} {fn : Vec K n → Val K} {sync : Bool} {w : Int} {b : Option String}
    {k : Obj K n → Except PyErr α} {r : α} (h : optimizer env fn sync w b k = .ok r) : ∃ obj, k obj = .ok r := by
  unfold optimizer at h
  dsimp only at h
  split_ifs at h <;> rw [bind_ok_iff] at h <;> obtain ⟨obj, -, h⟩ := h <;> exact ⟨obj, h⟩

theorem DE.minimizeMem_ok {a : DE.Args K} {o m} (h : DE.minimizeMem env R fuel a g = .ok (o, m)) :
    ∃ (P : DE.Par σ K a.p a.ndim) (s0 : DE.State σ K a.p a.ndim) (r : _),
      DE.init P a.x0Pop (a.seeded R g) = .ok s0 ∧
      ((DE.alg P a.sync).withMem false a.cfg.hasCallback).run a.cfg fuel (s0, Mem.start s0.X a.cfg.hasCallback) = .ok r ∧
      o.cbs = r.2.cbs ∧ m = r.2.s.2 ∧ o.x0After = r.2.s.1.caller := by
  unfold DE.minimizeMem at h
  rw [bind_ok_iff] at h
  obtain ⟨strat, -, h⟩ := h
  split at h
  · cases h
  · obtain ⟨obj, h⟩ := optimizer_obj h
    rw [bind_ok_iff] at h
    obtain ⟨_, -, h⟩ := h
    rw [bind_ok_iff] at h
    obtain ⟨cons, -, h⟩ := h
    unfold DE.deMem at h
    rw [bind_ok_iff] at h
    obtain ⟨s0, hs, h⟩ := h
    rw [bind_ok_iff] at h
    obtain ⟨r, hr, h⟩ := h
    cases h
    exact ⟨_, s0, r, hs, hr, rfl, rfl, rfl⟩

theorem CPSO.minimizeMem_ok [NumFns K] {a : CPSO.Args K} {o m} (h : CPSO.minimizeMem env R srt fuel a g = .ok (o, m)) :
    ∃ (P : CPSO.Par σ K a.ndim) (s0 : CPSO.State σ K a.p a.ndim) (r : _),
      P.R = R ∧ P.gamma = a.competitivity ∧ P.lower = a.lower ∧ P.upper = a.upper ∧ CPSO.init P a.x0Pop (a.seeded R g) = .ok s0 ∧
      ((CPSO.alg P a.sync).withMem a.sync a.cfg.hasCallback).run a.cfg fuel (s0, Mem.start s0.X a.cfg.hasCallback) = .ok r ∧
      o.cbs = r.2.cbs ∧ m = r.2.s.2 ∧ o.x0After = r.2.s.1.caller := by
  unfold CPSO.minimizeMem at h
  rw [bind_ok_iff] at h
  obtain ⟨_, -, h⟩ := h
  split at h
  · cases h
  · obtain ⟨obj, h⟩ := optimizer_obj h
    rw [bind_ok_iff] at h
    obtain ⟨_, -, h⟩ := h
    rw [bind_ok_iff] at h
    obtain ⟨cons, -, h⟩ := h
    unfold CPSO.cpsoMem at h
    rw [bind_ok_iff] at h
    obtain ⟨s0, hs, h⟩ := h
    rw [bind_ok_iff] at h
    obtain ⟨r, hr, h⟩ := h
    cases h
    exact ⟨_, s0, r, rfl, rfl, rfl, rfl, hs, hr, rfl, rfl, rfl⟩

theorem NA.minimizeMem_ok {a : NA.Args K} {o m} (h : NA.minimizeMem env R srt fuel a g = .ok (o, m)) :
    ∃ (P : NA.Par σ K a.ndim) (s0 : NA.State σ K a.p a.ndim) (r : _),
      ((NA.alg P).withMem true a.cfg.hasCallback).run a.cfg fuel (s0, Mem.start ((NA.alg P).cbX s0) a.cfg.hasCallback) = .ok r ∧
      o.cbs = r.2.cbs ∧ m = r.2.s.2 := by
  unfold NA.minimizeMem at h
  rw [bind_ok_iff] at h
  obtain ⟨_, -, h⟩ := h
  split at h
  · cases h
  · obtain ⟨obj, h⟩ := optimizer_obj h
    rw [bind_ok_iff] at h
    obtain ⟨_, -, h⟩ := h
    unfold NA.naMem at h
    rw [bind_ok_iff] at h
    obtain ⟨s0, hs, h⟩ := h
    rw [bind_ok_iff] at h
    obtain ⟨r, hr, h⟩ := h
    cases h
    exact ⟨_, s0, r, hr, rfl, rfl⟩

/-- If nothing is done to `X` after the callback, the callback keeps what it was shown. -/
theorem run_fresh_id {S : Type} {A : Alg S K p n} {cb : Bool} {s0 : S} {r} (hc : cb = c.hasCallback)
    (hp : ∀ it s, A.cbX (A.post it s) = A.cbX s)
    (h : (A.withMem true cb).run c fuel (s0, Mem.start (A.cbX s0) cb) = .ok r) :
    r.2.s.2.contents = r.2.cbs.map CB.X := by
  obtain ⟨h1, h2⟩ := run_fresh hc h
  refine List.ext_getElem? fun k => ?_
  rw [List.getElem?_map]
  cases hd : r.2.cbs[k]? with
  | none => rw [List.getElem?_eq_none_iff] at hd; rw [Option.map_none, List.getElem?_eq_none_iff]; omega
  | some d =>
    obtain ⟨s, hs, h3 | ⟨-, -, h3⟩⟩ := h2 k d hd
    · rw [h3, ← hs]; rfl
    · rw [h3, hp, ← hs]; rfl

end Stochopy
