import Verif.Spec.Records

/-! # Runs whose callback writes into the history -/

namespace Stochopy

section lists
variable {K : Type} {n : Nat} (w : HistWrites K n)

theorem HistWrites.on_eq_over : w.on = w.over := by
  funext k h
  simp only [HistWrites.on, HistWrites.over, List.mapIdx_eq_zipIdx_map]

theorem HistWrites.after_eq (X : List (List (Vec K n))) (F : List (List (Val K))) :
    w.after X F = (X.zip F).foldl (fun h r => w.on h.1.length (h.1 ++ [r.1], h.2 ++ [r.2])) ([], []) := by
  rw [w.on_eq_over]
  rfl

theorem HistWrites.on_nil (k : Nat) : w.on k ([], []) = ([], []) := rfl

theorem HistWrites.length_on (k : Nat) (h : Hist K n) : (w.on k h).1.length = h.1.length ∧ (w.on k h).2.length = h.2.length := by
  simp [HistWrites.on]

theorem HistWrites.length_foldl (l : List (List (Vec K n) × List (Val K))) (h : Hist K n) :
    (l.foldl (fun h r => w.on h.1.length (h.1 ++ [r.1], h.2 ++ [r.2])) h).1.length = h.1.length + l.length ∧
    (l.foldl (fun h r => w.on h.1.length (h.1 ++ [r.1], h.2 ++ [r.2])) h).2.length = h.2.length + l.length := by
  induction l generalizing h with
  | nil => exact ⟨rfl, rfl⟩
  | cons r l ih =>
    rw [List.foldl_cons]
    obtain ⟨h1, h2⟩ := ih (w.on h.1.length (h.1 ++ [r.1], h.2 ++ [r.2]))
    rw [h1, h2, (w.length_on _ _).1, (w.length_on _ _).2]
    simp only [List.length_append, List.length_cons, List.length_nil]
    omega

theorem HistWrites.length_after {X : List (List (Vec K n))} {F : List (List (Val K))} (h : X.length = F.length) :
    (w.after X F).1.length = X.length ∧ (w.after X F).2.length = F.length := by
  have := w.length_foldl (X.zip F) ([], [])
  rw [w.after_eq, this.1, this.2, List.length_zip]
  simp only [List.length_nil]
  omega

theorem HistWrites.after_nil : w.after [] [] = ([], []) := rfl

theorem HistWrites.after_concat {X : List (List (Vec K n))} {F : List (List (Val K))} (h : X.length = F.length) (a : List (Vec K n))
    (b : List (Val K)) : w.after (X ++ [a]) (F ++ [b]) = w.on X.length ((w.after X F).1 ++ [a], (w.after X F).2 ++ [b]) := by
  rw [w.after_eq, List.zip_append h, List.foldl_append, ← w.after_eq X F]
  show w.on (w.after X F).1.length _ = _
  rw [(w.length_after h).1]

theorem HistWrites.shown_concat (X : List (List (Vec K n))) (F : List (List (Val K))) (a : List (Vec K n)) (b : List (Val K)) :
    w.shown (X ++ [a]) (F ++ [b]) = ((w.after X F).1 ++ [a], (w.after X F).2 ++ [b]) := by
  simp [HistWrites.shown]

theorem HistWrites.on_kept (k : Nat) (h : Hist K n) :
    (w.on k h).1.map List.length = h.1.map List.length ∧ (w.on k h).2.map List.length = h.2.map List.length ∧
      (∀ i, (∀ k h j v, w.x k h i j v = v) → (w.on k h).1[i]? = h.1[i]?) ∧
      ∀ i, (∀ k h j v, w.f k h i j v = v) → (w.on k h).2[i]? = h.2[i]? := by
  refine ⟨?_, ?_, fun i hi => ?_, fun i hi => ?_⟩
  · refine List.ext_getElem? fun i => ?_
    simp [HistWrites.on, List.getElem?_mapIdx, Function.comp_def]
  · refine List.ext_getElem? fun i => ?_
    simp [HistWrites.on, List.getElem?_mapIdx, Function.comp_def]
  · simp only [HistWrites.on, List.getElem?_mapIdx]
    cases h.1[i]? with
    | none => rfl
    | some row =>
      refine congrArg some (List.ext_getElem? fun j => ?_)
      rw [List.getElem?_mapIdx]
      cases row[j]? with
      | none => rfl
      | some v => exact congrArg some (hi k h j v)
  · simp only [HistWrites.on, List.getElem?_mapIdx]
    cases h.2[i]? with
    | none => rfl
    | some row =>
      refine congrArg some (List.ext_getElem? fun j => ?_)
      rw [List.getElem?_mapIdx]
      cases row[j]? with
      | none => rfl
      | some v => exact congrArg some (hi k h j v)

theorem HistWrites.after_kept {X : List (List (Vec K n))} {F : List (List (Val K))} (hl : X.length = F.length) :
    (w.after X F).1.map List.length = X.map List.length ∧ (w.after X F).2.map List.length = F.map List.length ∧
      (∀ i, (∀ k h j v, w.x k h i j v = v) → (w.after X F).1[i]? = X[i]?) ∧
      ∀ i, (∀ k h j v, w.f k h i j v = v) → (w.after X F).2[i]? = F[i]? := by
  induction X using List.reverseRecOn generalizing F with
  | nil =>
    obtain rfl : F = [] := List.eq_nil_of_length_eq_zero hl.symm
    exact ⟨rfl, rfl, fun _ _ => rfl, fun _ _ => rfl⟩
  | append_singleton X a ih =>
    rcases List.eq_nil_or_concat F with rfl | ⟨F, b, rfl⟩
    · simp at hl
    · have hl' : X.length = F.length := by simpa using hl
      obtain ⟨h1, h2, h3, h4⟩ := ih hl'
      obtain ⟨g1, g2, g3, g4⟩ := w.on_kept X.length ((w.after X F).1 ++ [a], (w.after X F).2 ++ [b])
      rw [List.concat_eq_append, w.after_concat hl']
      refine ⟨g1.trans ?_, g2.trans ?_, fun i hi => (g3 i hi).trans ?_, fun i hi => (g4 i hi).trans ?_⟩
      · simp only [List.map_append, h1]
      · simp only [List.map_append, h2]
      · simp only [List.getElem?_append, (w.length_after hl').1, h3 i hi]
      · simp only [List.getElem?_append, (w.length_after hl').2, h4 i hi]

end lists

section
variable {S K σ : Type} {p n : Nat} [Zero K] [One K] [Add K] [Sub K] [Mul K] [Div K] [Neg K] [NatCast K] [IntCast K] [Pow K ℕ] [ArrayOps K]
  [LinearOrder K]

/-- One row and one call per iteration. -/
def EvenRows (c : Cfg) (X : List (List (Vec K n))) (F : List (List (Val K))) (calls : Nat) : Prop :=
  if c.returnAll then X.length = calls ∧ F.length = calls else X = [] ∧ F = []

/-- One row is recorded, or none. -/
def OneRow (c : Cfg) (rows : List (List (Vec K n)) × List (List (Val K))) : Prop :=
  if c.returnAll then ∃ a b, rows = ([a], [b]) else rows = ([], [])

theorem record0_row {A : Alg S K p n} {c : Cfg} {s : S} {rows} (h : A.record0 c s = .ok rows) : OneRow c rows := by
  unfold Alg.record0 at h
  unfold OneRow
  split_ifs at h ⊢ <;> cases h <;> first | exact ⟨_, _, rfl⟩ | rfl

theorem record_row {A : Alg S K p n} {c : Cfg} {it : Nat} {s : S} {rows} (h : A.record c it s = .ok rows) : OneRow c rows := by
  unfold Alg.record at h
  unfold OneRow
  split_ifs at h ⊢
  · cases h
    exact ⟨_, _, rfl⟩
  · cases hi : argmin (A.pfit s) <;> rw [hi] at h <;> cases h
  · cases hi : argmin (A.pfit s) with
    | error e => rw [hi] at h; cases h
    | ok i =>
      rw [hi] at h
      cases h
      exact ⟨_, _, rfl⟩
  · cases h
    rfl

/-- The rows and the calls of an iteration, with and without the writes. -/
theorem rows_step {c : Cfg} (w : HistWrites K n) {X : List (List (Vec K n))} {F : List (List (Val K))} {k : Nat} (he : EvenRows c X F k) {rows}
    (hr : OneRow c rows) : EvenRows c (X ++ rows.1) (F ++ rows.2) (k + 1) ∧
      w.on k ((w.after X F).1 ++ rows.1, (w.after X F).2 ++ rows.2) = w.after (X ++ rows.1) (F ++ rows.2) ∧
      ∀ b : CB K p n, CB.withWrites w { b with xall := attach c (X ++ rows.1), funall := attach c (F ++ rows.2) } =
        { b with xall := attach c ((w.after X F).1 ++ rows.1), funall := attach c ((w.after X F).2 ++ rows.2) } := by
  unfold EvenRows OneRow attach at *
  split_ifs at he hr ⊢ with h
  · obtain ⟨a, b, rfl⟩ := hr
    obtain ⟨h1, h2⟩ := he
    refine ⟨⟨by simp [h1], by simp [h2]⟩, ?_, fun b' => ?_⟩
    · rw [w.after_concat (h1.trans h2.symm), h1]
    · show ({ b' with xall := some (w.shown (X ++ [a]) (F ++ [b])).1, funall := some (w.shown (X ++ [a]) (F ++ [b])).2 } : CB K p n) = _
      rw [w.shown_concat]
  · obtain ⟨rfl, rfl⟩ := he
    cases hr
    exact ⟨⟨rfl, rfl⟩, rfl, fun _ => rfl⟩

/-- The loop variables with the writes. -/
def Loop.edit (w : HistWrites K n) (L : Loop S K p n) : Loop S K p n :=
  { L with rowsX := (w.after L.rowsX L.rowsF).1, rowsF := (w.after L.rowsX L.rowsF).2, cbs := L.cbs.map (CB.withWrites w) }

variable {A : Alg S K p n} {c : Cfg} {w : HistWrites K n}

theorem start_rewritten (hc : c.hasCallback = true) (s : S) :
    (A.start c s).map (fun L => L.written c w) = (A.start c s).map (Loop.edit w) ∧
      ∀ L, A.start c s = .ok L → EvenRows c L.rowsX L.rowsF L.cbs.length := by
  unfold Alg.start
  cases hrec : A.record0 c s with
  | error e => exact ⟨rfl, fun _ h => by cases h⟩
  | ok rows =>
    have he : EvenRows c ([] : List (List (Vec K n))) ([] : List (List (Val K))) 0 := by
      unfold EvenRows
      split_ifs <;> exact ⟨rfl, rfl⟩
    obtain ⟨h1, h2, h3⟩ := rows_step (p := p) w he (record0_row hrec)
    simp only [List.nil_append, w.after_nil] at h1 h2 h3
    refine ⟨?_, fun L h => ?_⟩
    · show Except.ok _ = Except.ok _
      simp only [Loop.written, Loop.edit, hc, if_true, List.length_cons, List.length_nil, Nat.zero_add, Nat.sub_self, h2, List.map_cons, List.map_nil]
      have := h3 (A.cb c s 1 rows.1 rows.2)
      simp only [Alg.cb] at this ⊢
      rw [this]
    · cases h
      rw [hc]
      exact h1

theorem body_rewritten (hc : c.hasCallback = true) {L : Loop S K p n} (he : EvenRows c L.rowsX L.rowsF L.cbs.length) :
    (A.body c (L.edit w)).map (fun r => (r.1.written c w, r.2)) = (A.body c L).map (fun r => (r.1.edit w, r.2)) ∧
      ∀ r, A.body c L = .ok r → EvenRows c r.1.rowsX r.1.rowsF r.1.cbs.length := by
  unfold Alg.body
  dsimp only
  show (A.step (L.it + 1) L.s >>= _).map _ = _ ∧ _
  cases hs : A.step (L.it + 1) L.s with
  | error e => exact ⟨rfl, fun _ h => by cases h⟩
  | ok r =>
    show (A.record c (L.it + 1) r.1 >>= _).map _ = (A.record c (L.it + 1) r.1 >>= _).map _ ∧ _
    cases hrec : A.record c (L.it + 1) r.1 with
    | error e => exact ⟨rfl, fun x h => by
        change (A.record c (L.it + 1) r.1 >>= _) = _ at h
        rw [hrec] at h
        cases h⟩
    | ok rows =>
      obtain ⟨h1, h2, h3⟩ := rows_step (p := p) w he (record_row hrec)
      refine ⟨?_, fun x h => ?_⟩
      · show Except.ok _ = Except.ok _
        simp only [Loop.written, Loop.edit, hc, if_true, List.length_append, List.length_map, List.length_cons, List.length_nil, Nat.zero_add,
          Nat.add_sub_cancel, h2, List.map_append, List.map_cons, List.map_nil]
        have := h3 (A.cb c r.1 (L.it + 1) [] [])
        simp only [Alg.cb] at this ⊢
        rw [this]
      · change (A.record c (L.it + 1) r.1 >>= _) = _ at h
        rw [hrec] at h
        cases h
        simpa only [hc, if_true, List.length_append, List.length_cons, List.length_nil, Nat.zero_add] using h1

theorem loop_rewritten (hc : c.hasCallback = true) (fuel : Nat) {L : Loop S K p n} (he : EvenRows c L.rowsX L.rowsF L.cbs.length) :
    A.loopH w c fuel (L.edit w) = (A.loop c fuel L).map (Loop.edit w) ∧ ∀ L', A.loop c fuel L = .ok L' → EvenRows c L'.rowsX L'.rowsF L'.cbs.length := by
  induction fuel generalizing L with
  | zero => exact ⟨rfl, fun _ h => by cases h⟩
  | succ fuel ih =>
    obtain ⟨hb, hi⟩ := body_rewritten (A := A) (w := w) hc he
    unfold Alg.loopH Alg.loop
    cases h' : A.body c (L.edit w) with
    | error e =>
      cases h : A.body c L with
      | error e' => rw [h, h'] at hb; cases hb; exact ⟨rfl, fun _ h => by cases h⟩
      | ok r => rw [h, h'] at hb; cases hb
    | ok r' =>
      cases h : A.body c L with
      | error e' => rw [h, h'] at hb; cases hb
      | ok r =>
        rw [h, h'] at hb
        have hb' : (r'.1.written c w, r'.2) = (r.1.edit w, r.2) := Except.ok.inj hb
        simp only [Prod.mk.injEq] at hb'
        show (if r'.2 = true then Except.ok (r'.1.written c w) else A.loopH w c fuel (r'.1.written c w)) = 
          (if r.2 = true then Except.ok r.1 else A.loop c fuel r.1 : Except _ _).map _ ∧ 
          ∀ L', (if r.2 = true then Except.ok r.1 else A.loop c fuel r.1 : Except _ _) = .ok L' → _
        rw [hb'.1, hb'.2]
        split_ifs
        · exact ⟨rfl, fun _ h2 => by cases h2; exact hi r h⟩
        · exact ih (hi r h)

theorem withWrites_rows {c : Cfg} {X : List (List (Vec K n))} {F : List (List (Val K))} (r : Result K n) (k : Nat) (he : EvenRows c X F k) :
    Result.withWrites w { r with xall := attach c X, funall := attach c F } =
      { r with xall := attach c (w.after X F).1, funall := attach c (w.after X F).2 } := by
  unfold attach
  split_ifs <;> rfl

theorem finish_rewritten {L : Loop S K p n} : A.finish c (L.edit w) = (A.finish c L).map (Result.withWrites w) := by
  unfold Alg.finish
  show (match L.status with | none => _ | some st => _) = _
  cases L.status with
  | none => rfl
  | some st =>
    dsimp only
    cases messages st with
    | none => rfl
    | some msg =>
      show Except.ok _ = Except.ok _
      unfold Loop.edit attach Result.withWrites
      split_ifs <;> rfl

theorem run_rewritten (hc : c.hasCallback = true) (fuel : Nat) (s0 : S) :
    A.runH w c fuel s0 = (A.run c fuel s0).map fun r => (r.1.withWrites w, r.2.edit w) := by
  obtain ⟨hs, hi⟩ := start_rewritten (A := A) (w := w) hc s0
  unfold Alg.runH Alg.run
  cases h : A.start c s0 with
  | error e => rfl
  | ok L0 =>
    rw [h] at hs
    have hs' : L0.written c w = L0.edit w := Except.ok.inj hs
    show (A.loopH w c fuel (L0.written c w) >>= _) = (A.loop c fuel L0 >>= _).map _
    rw [hs', (loop_rewritten (A := A) hc fuel (hi L0 h)).1]
    cases A.loop c fuel L0 with
    | error e => rfl
    | ok L =>
      show (A.finish c (L.edit w) >>= _) = (A.finish c L >>= _).map _
      rw [finish_rewritten]
      cases A.finish c L <;> rfl

theorem written_off (hc : c.hasCallback = false) (L : Loop S K p n) : L.written c w = L := by
  unfold Loop.written
  rw [hc]
  rfl

theorem loop_unwritten (hc : c.hasCallback = false) (fuel : Nat) (L : Loop S K p n) : A.loopH w c fuel L = A.loop c fuel L := by
  induction fuel generalizing L with
  | zero => rfl
  | succ fuel ih =>
    unfold Alg.loopH Alg.loop
    simp only [written_off (S := S) (K := K) (p := p) (n := n) (w := w) hc, ih]

theorem run_unwritten (hc : c.hasCallback = false) (fuel : Nat) (s0 : S) : A.runH w c fuel s0 = A.run c fuel s0 := by
  unfold Alg.runH Alg.run
  simp only [written_off (S := S) (K := K) (p := p) (n := n) (w := w) hc, loop_unwritten (A := A) (w := w) hc]

/-- `withWrites` when there is a callback. -/
def Output.withWritesIf (b : Bool) (w : HistWrites K n) (o : Output σ K p n) : Output σ K p n := if b then o.withWrites w else o

theorem run_out_writes {f : Result K n × Loop S K p n → Output σ K p n} (hf : ∀ r : Result K n × Loop S K p n,
      f (r.1.withWrites w, r.2.edit w) = (f r).withWrites w) (fuel : Nat) (s0 : S) :
    (A.runH w c fuel s0 >>= fun r => .ok (f r)) = (A.run c fuel s0 >>= fun r => .ok (f r)).map (Output.withWritesIf c.hasCallback w) := by
  cases hc : c.hasCallback with
  | true =>
    rw [run_rewritten hc]
    cases A.run c fuel s0 with
    | error e => rfl
    | ok r => exact congrArg Except.ok (hf r)
  | false =>
    rw [run_unwritten hc]
    cases A.run c fuel s0 <;> rfl

theorem optimizer_writes {α β : Type} {env : Env} {fn : Vec K n → Val K} {sync : Bool} {ws : Int} {b : Option String} {f : Obj K n → Except PyErr α}
    {f' : Obj K n → Except PyErr β} {u : α → β} (h : ∀ obj, f' obj = (f obj).map u) :
    optimizer env fn sync ws b f' = (optimizer env fn sync ws b f).map u := by
  obtain rfl : f' = fun obj => (f obj).map u := funext h
  unfold optimizer
  dsimp only
  split_ifs
  · cases wrapper env fn sync (effBackend b) true <;> rfl
  · cases wrapper env fn sync (effBackend b) (effBackend b == "mpi") <;> rfl

theorem bind_writes {α β γ : Type} {x : Except PyErr α} {f : α → Except PyErr β} {f' : α → Except PyErr γ} {u : β → γ}
    (h : ∀ a, x = .ok a → f' a = (f a).map u) : (x >>= f') = (x >>= f).map u := by
  cases x with
  | error e => rfl
  | ok a => exact h a rfl

namespace Evo
variable [NumFns K] [IntParts K] {P : Par K n} {G : Gauss S K p n}

theorem record_row {it : Nat} {X : Pop K p n} {fit : Fin p → Val K} {rows} (h : record c it X fit = .ok rows) : OneRow c rows := by
  unfold record at h
  unfold OneRow
  split_ifs at h ⊢
  · cases h
    exact ⟨_, _, rfl⟩
  · cases h
    exact ⟨_, _, rfl⟩
  · cases hi : argmin fit <;> rw [hi] at h <;> cases h
  · cases hi : argmin fit with
    | error e => rw [hi] at h; cases h
    | ok i =>
      rw [hi] at h
      cases h
      exact ⟨_, _, rfl⟩
  · cases h
    rfl

def St.edit (w : HistWrites K n) (L : St S K p n) : St S K p n :=
  { L with rowsX := (w.after L.rowsX L.rowsF).1, rowsF := (w.after L.rowsX L.rowsF).2, cbs := L.cbs.map (CB.withWrites w) }

theorem body_rewritten (hc : c.hasCallback = true) {L : St S K p n} (he : EvenRows c L.rowsX L.rowsF L.cbs.length) :
    (body P G c (L.edit w)).map (fun r => (r.1.written c w, r.2)) = (body P G c L).map (fun r => (r.1.edit w, r.2)) ∧
      ∀ r, body P G c L = .ok r → EvenRows c r.1.rowsX r.1.rowsF r.1.cbs.length := by
  suffices H : ∀ x' x, body P G c (L.edit w) = x' → body P G c L = x →
      x'.map (fun r => (r.1.written c w, r.2)) = x.map (fun r => (r.1.edit w, r.2)) ∧
      ∀ r, x = .ok r → EvenRows c r.1.rowsX r.1.rowsF r.1.cbs.length from H _ _ rfl rfl
  intro x' x h' h
  unfold body at h h'
  dsimp only at h h'
  change (G.sample L.s >>= _) = _ at h'
  cases hs : G.sample L.s with
  | error e => rw [hs] at h h'; subst h; subst h'; exact ⟨rfl, fun _ h => by cases h⟩
  | ok a =>
    rw [hs] at h h'
    change (evaluate P G (L.it + 1) a.1 a.2 L.pen >>= _) = _ at h
    change (evaluate P G (L.it + 1) a.1 a.2 L.pen >>= _) = _ at h'
    cases hev : evaluate P G (L.it + 1) a.1 a.2 L.pen with
    | error e => rw [hev] at h h'; subst h; subst h'; exact ⟨rfl, fun _ h => by cases h⟩
    | ok e =>
      rw [hev] at h h'
      change (record c (L.it + 1) (fun i => unstandardize P.lower P.upper (e.2.1 i)) e.1 >>= _) = _ at h
      change (record c (L.it + 1) (fun i => unstandardize P.lower P.upper (e.2.1 i)) e.1 >>= _) = _ at h'
      cases hrec : record c (L.it + 1) (fun i => unstandardize P.lower P.upper (e.2.1 i)) e.1 with
      | error e => rw [hrec] at h h'; subst h; subst h'; exact ⟨rfl, fun _ h => by cases h⟩
      | ok rows =>
        rw [hrec] at h h'
        obtain ⟨h1, h2, h3⟩ := rows_step (p := p) w he (record_row hrec)
        change (dite (0 < p) _ _) = _ at h
        change (dite (0 < p) _ _) = _ at h'
        by_cases hp : 0 < p
        · rw [dif_pos hp] at h h'
          by_cases hm : c.maxiter ≤ ((L.it + 1 : Nat) : Int) - 1
          · rw [if_pos hm] at h
            change (if c.maxiter ≤ ((L.it + 1 : Nat) : Int) - 1 then _ else _) = _ at h'
            rw [if_pos hm] at h'
            subst h; subst h'; exact ⟨rfl, fun _ h => by cases h⟩
          · rw [if_neg hm] at h
            change (if c.maxiter ≤ ((L.it + 1 : Nat) : Int) - 1 then _ else _) = _ at h'
            rw [if_neg hm] at h'
            change (G.update (L.nfev + p) a.1 (P.srt p e.1) a.2 >>= _) = _ at h
            change (G.update (L.nfev + p) a.1 (P.srt p e.1) a.2 >>= _) = _ at h'
            cases hu : G.update (L.nfev + p) a.1 (P.srt p e.1) a.2 with
            | error e => rw [hu] at h h'; subst h; subst h'; exact ⟨rfl, fun _ h => by cases h⟩
            | ok s =>
              rw [hu] at h h'
              change (need (∀ j, 0 ≤ G.diagConv s j) >>= _) = _ at h
              change (need (∀ j, 0 ≤ G.diagConv s j) >>= _) = _ at h'
              cases hn : need (∀ j, 0 ≤ G.diagConv s j) with
              | error e => rw [hn] at h h'; subst h; subst h'; exact ⟨rfl, fun _ h => by cases h⟩
              | ok u =>
                rw [hn] at h h'
                subst h; subst h'
                refine ⟨?_, fun r hr => ?_⟩
                · show Except.ok _ = Except.ok _
                  simp only [St.written, St.edit, hc, if_true, List.length_append, List.length_map, List.length_cons, List.length_nil, Nat.zero_add,
                    Nat.add_sub_cancel, h2, List.map_append, List.map_cons, List.map_nil]
                  have := h3 { X := fun i => unstandardize P.lower P.upper (e.2.1 i), x := unstandardize P.lower P.upper (e.2.1 (P.srt p e.1 ⟨0, hp⟩)),
                               fval := e.1 (P.srt p e.1 ⟨0, hp⟩), nfev := L.nfev + p, nit := L.it + 1, xall := none, funall := none }
                  simp only at this ⊢
                  rw [this]
                · cases hr
                  simpa only [hc, if_true, List.length_append, List.length_cons, List.length_nil, Nat.zero_add] using h1
        · rw [dif_neg hp] at h h'
          subst h; subst h'; exact ⟨rfl, fun _ h => by cases h⟩

theorem loop_rewritten (hc : c.hasCallback = true) (fuel : Nat) {L : St S K p n} (he : EvenRows c L.rowsX L.rowsF L.cbs.length) :
    loopH P G w c fuel (L.edit w) = (loop P G c fuel L).map fun r => (r.1.edit w, r.2) := by
  induction fuel generalizing L with
  | zero => rfl
  | succ fuel ih =>
    obtain ⟨hb, hi⟩ := body_rewritten (P := P) (G := G) (w := w) hc he
    unfold loopH loop
    cases h' : body P G c (L.edit w) with
    | error e =>
      cases h : body P G c L with
      | error e' => rw [h, h'] at hb; cases hb; rfl
      | ok r => rw [h, h'] at hb; cases hb
    | ok r' =>
      cases h : body P G c L with
      | error e' => rw [h, h'] at hb; cases hb
      | ok r =>
        rw [h, h'] at hb
        have hb' : (r'.1.written c w, r'.2) = (r.1.edit w, r.2) := Except.ok.inj hb
        simp only [Prod.mk.injEq] at hb'
        show (if r'.2.status.isSome = true then Except.ok (r'.1.written c w, r'.2) else loopH P G w c fuel (r'.1.written c w)) =
          (if r.2.status.isSome = true then Except.ok r else loop P G c fuel r.1 : Except _ _).map _
        rw [hb'.1, hb'.2]
        split_ifs
        · rfl
        · exact ih (hi r h)

theorem finish_rewritten {r : St S K p n × Gen K p n} : finish c (r.1.edit w, r.2) = (finish c r).map (Result.withWrites w) := by
  unfold finish
  dsimp only
  cases r.2.status with
  | none => rfl
  | some st =>
    dsimp only
    cases messages st with
    | none => rfl
    | some msg =>
      show Except.ok _ = Except.ok _
      unfold St.edit attach Result.withWrites
      split_ifs <;> rfl

theorem loop_unwritten (hc : c.hasCallback = false) (fuel : Nat) (L : St S K p n) : loopH P G w c fuel L = loop P G c fuel L := by
  have hw : ∀ L : St S K p n, L.written c w = L := fun L => by
    unfold St.written
    rw [hc]
    rfl
  induction fuel generalizing L with
  | zero => rfl
  | succ fuel ih =>
    unfold loopH loop
    simp only [hw, ih]

theorem run_rewritten {rng : S → σ} (fuel : Nat) (s0 : S) :
    runH P G w c rng fuel s0 = (run P G c rng fuel s0).map (Output.withWritesIf c.hasCallback w) := by
  unfold runH run
  split_ifs with hm
  · rfl
  · cases hc : c.hasCallback with
    | true =>
      have he : EvenRows c ([] : List (List (Vec K n))) ([] : List (List (Val K))) 0 := by
        unfold EvenRows
        split_ifs <;> exact ⟨rfl, rfl⟩
      have := loop_rewritten (P := P) (G := G) (w := w) hc fuel
        (L := { s := s0, it := 0, nfev := 0, pen := Pen.start n, arbest := List.replicate c.maxiter.toNat (.fin 0), rowsX := [],
                rowsF := [], cbs := [], evals := [] }) he
      simp only [St.edit, w.after_nil, List.map_nil] at this
      rw [this]
      cases loop P G c fuel { s := s0, it := 0, nfev := 0, pen := Pen.start n, arbest := List.replicate c.maxiter.toNat (.fin 0), rowsX := [],
                              rowsF := [], cbs := [], evals := [] } with
      | error e => rfl
      | ok r =>
        show (finish c (r.1.edit w, r.2) >>= _) = (finish c r >>= _).map _
        rw [finish_rewritten]
        cases finish c r <;> rfl
    | false =>
      rw [loop_unwritten hc]
      cases loop P G c fuel { s := s0, it := 0, nfev := 0, pen := Pen.start n, arbest := List.replicate c.maxiter.toNat (.fin 0), rowsX := [],
                              rowsF := [], cbs := [], evals := [] } with
      | error e => rfl
      | ok r =>
        show (finish c r >>= _) = (finish c r >>= _).map _
        cases finish c r <;> rfl

end Evo

end

end Stochopy
