import Verif.Model.MPI
import Verif.Lemmas.EvoPen

/-! Runs with `backend="mpi"`. -/

set_option linter.unusedSectionVars false

namespace Stochopy
section
variable {K σ S : Type} [AddZeroClass K] [One K] [Sub K] [Mul K] [Div K] [Neg K] [NatCast K] [IntCast K] [Pow K ℕ] [ArrayOps K] [LinearOrder K] {p n : Nat}

namespace Proc
variable {α β : Type} {values : Pop K p n → Fin p → Val K}

/-- A rank on its own: the wrapper leaves its array alone and returns the values of the rows. -/
def seq (values : Pop K p n → Fin p → Val K) : Proc K p n α → Except PyErr α
  | ret a => .ok a
  | fail e => .error e
  | call x k => seq values (k x (values x))

theorem seq_bind (q : Proc K p n α) (f : α → Proc K p n β) : seq values (q >>= f) = seq values q >>= fun a => seq values (f a) := by
  show seq values (q.bind f) = _
  induction q with
  | ret a => rfl
  | fail e => rfl
  | call x k ih => exact ih _ _

theorem seq_lift (x : Except PyErr α) : seq values (lift x : Proc K p n α) = x := by cases x <;> rfl

theorem seq_pure (a : α) : seq values (pure a : Proc K p n α) = .ok a := rfl

theorem seq_collective (x : Pop K p n) : seq values (collective x) = .ok (x, values x) := rfl

theorem seq_ite {c : Prop} [Decidable c] (q r : Proc K p n α) : seq values (if c then q else r) = if c then seq values q else seq values r := by
  split_ifs <;> rfl

/-- The other rank does the same as rank 0 up to `rel` when it continues with the array of rank 0. -/
inductive Agree (values : Pop K p n → Fin p → Val K) (rel : α → α → Prop) : Proc K p n α → Proc K p n α → Prop
  | ret {a b} : rel a b → Agree values rel (ret a) (ret b)
  | fail {e} : Agree values rel (fail e) (fail e)
  | call {x x' k k'} : Agree values rel (k x (values x)) (k' x (values x)) → Agree values rel (call x k) (call x' k')

theorem Agree.bind {rel : α → α → Prop} {rel' : β → β → Prop} {q q' : Proc K p n α} {f f' : α → Proc K p n β} (h : Agree values rel q q')
    (hf : ∀ a b, rel a b → Agree values rel' (f a) (f' b)) : Agree values rel' (q >>= f) (q' >>= f') := by
  show Agree values rel' (q.bind f) (q'.bind f')
  induction h with
  | ret h => exact hf _ _ h
  | fail => exact .fail
  | call _ ih => exact .call ih

/-- Computations of the ranks alone that agree. -/
def Same (rel : α → α → Prop) : Except PyErr α → Except PyErr α → Prop
  | .ok a, .ok b => rel a b
  | .error e, .error e' => e = e'
  | _, _ => False

theorem Agree.lift {rel : α → α → Prop} {x y : Except PyErr α} (h : Same rel x y) :
    Agree values rel (Proc.lift x : Proc K p n α) (Proc.lift y) := by
  cases x <;> cases y <;> simp only [Same] at h
  · subst h; exact .fail
  · exact .ret h

theorem Agree.collective (x x' : Pop K p n) : Agree values (fun a b => a = (x, values x) ∧ b = (x, values x)) (Proc.collective x) (Proc.collective x') :=
  .call (.ret ⟨rfl, rfl⟩)

theorem Same.refl {rel : α → α → Prop} (h : ∀ a, rel a a) (x : Except PyErr α) : Same rel x x := by cases x <;> simp [Same, h]

theorem Agree.refl {rel : α → α → Prop} (h : ∀ a, rel a a) (q : Proc K p n α) : Agree values rel q q := by
  induction q with
  | ret a => exact .ret (h a)
  | fail e => exact .fail
  | call x k ih => exact .call (ih _ _)

theorem Agree.mono {rel rel' : α → α → Prop} {q q' : Proc K p n α} (h : Agree values rel q q') (hr : ∀ a b, rel a b → rel' a b) : Agree values rel' q q' := by
  induction h with
  | ret h => exact .ret (hr _ _ h)
  | fail => exact .fail
  | call _ ih => exact .call ih

theorem Agree.waiting {rel : α → α → Prop} {q q' : Proc K p n α} (h : Agree values rel q q') : q'.waiting = q.waiting := by cases h <;> rfl

end Proc

open Proc
variable {α : Type} {m : Nat} {values : Pop K p n → Fin p → Val K}

/-- Rank 0 does what it would do alone. -/
theorem mpirun_root {q : Proc K p n α} {qs : Fin m → Proc K p n α} {x : Except PyErr α} {os : Fin m → Except PyErr α}
    (h : mpirun values q qs = .done x os) : x = q.seq values := by
  induction q generalizing qs with
  | ret a => unfold mpirun at h; split_ifs at h; cases h; rfl
  | fail e => unfold mpirun at h; split_ifs at h; cases h; rfl
  | call y k ih => unfold mpirun at h; split_ifs at h; exact ih _ _ h

theorem mpirun_agree {rel : α → α → Prop} {q : Proc K p n α} {qs : Fin m → Proc K p n α} (h : ∀ r, Agree values rel q (qs r)) :
    ∃ os, mpirun values q qs = .done (q.seq values) os ∧ ∀ r, Same rel (q.seq values) (os r) := by
  induction q generalizing qs with
  | ret a =>
    unfold mpirun
    rw [if_pos (show ∀ r, (qs r).waiting = false from fun r => (h r).waiting)]
    refine ⟨_, rfl, fun r => ?_⟩
    have := h r
    generalize qs r = q' at this
    cases this with
    | ret h => exact h
  | fail e =>
    unfold mpirun
    rw [if_pos (show ∀ r, (qs r).waiting = false from fun r => (h r).waiting)]
    refine ⟨_, rfl, fun r => ?_⟩
    have := h r
    generalize qs r = q' at this
    cases this with
    | fail => rfl
  | call y k ih =>
    unfold mpirun
    rw [if_pos (show ∀ r, (qs r).waiting = true from fun r => (h r).waiting)]
    refine ih y (values y) (qs := fun r => (qs r).resume y (values y)) fun r => ?_
    have := h r
    generalize qs r = q' at this
    cases this with
    | call h => exact h

theorem mpirun_eq {q : Proc K p n α} {qs : Fin m → Proc K p n α} (h : ∀ r, qs r = q) :
    mpirun values q qs = .done (q.seq values) fun _ => q.seq values := by
  obtain ⟨os, h1, h2⟩ := mpirun_agree (values := values) (rel := Eq) (q := q) (qs := qs) fun r => by rw [h r]; exact Agree.refl (fun _ => rfl) q
  rw [h1]
  congr 1
  funext r
  have := h2 r
  cases hq : q.seq values <;> cases ho : os r <;> simp_all [Same]

theorem given_pop (v : Fin p → Val K) (x : Pop K p n) : (given v : Obj K n).pop x = v := by
  funext i
  simp [given, List.getD]

theorem optimizer_mpiObj {env : Env} {fn : Vec K n → Val K} {w : Int} {α : Type} (k : Obj K n → Except PyErr α) :
    optimizer env fn true w (some "mpi") k = if env.mpi4py then k (mpiObj env fn) else .error .importError := by
  have h1 : effBackend (some "mpi") = "mpi" := by decide
  have h2 : prefer "mpi" = false := by decide
  unfold optimizer
  rw [h1]
  dsimp only
  rw [h2]
  simp only [Bool.false_and, Bool.false_eq_true, if_false, wrapper, h2, beq_self_eq_true, if_true]
  split_ifs <;> rfl

/-! ## Rank 0 is described by the sequential models -/

namespace Alg
variable {A : Alg S K p n} {step : Nat → S → Proc K p n (S × Option Int)} {c : Cfg}

theorem seq_rankBody (h : ∀ it s, (step it s).seq values = A.step it s) (L : Loop S K p n) :
    (A.rankBody step c L).seq values = A.body c L := by
  unfold rankBody
  rw [seq_bind, h]
  simp only [seq_lift]
  cases hs : A.step (L.it + 1) L.s with
  | error e => unfold body; dsimp only; rw [hs]; rfl
  | ok r => unfold body; dsimp only; rw [hs]; rfl

theorem seq_rankLoop (h : ∀ it s, (step it s).seq values = A.step it s) : ∀ (fuel : Nat) (L : Loop S K p n),
    (A.rankLoop step c fuel L).seq values = A.loop c fuel L
  | 0, _ => rfl
  | fuel + 1, L => by
    unfold rankLoop loop
    rw [seq_bind, seq_rankBody h]
    congr 1; funext r
    rw [seq_ite, seq_rankLoop h fuel]
    rfl

theorem seq_rankRun (h : ∀ it s, (step it s).seq values = A.step it s) (fuel : Nat) (s0 : S) :
    (A.rankRun step c fuel s0).seq values = A.run c fuel s0 := by
  unfold rankRun run
  rw [seq_bind, seq_lift]
  congr 1; funext L0
  rw [seq_bind, seq_rankLoop h]
  congr 1; funext L
  rw [seq_bind, seq_lift]
  rfl

end Alg

namespace DE

theorem seq_rankStep (P : Par σ K p n) (hv : values = P.obj.pop) (it : Nat) (s : State σ K p n) :
    (rankStep P it s).seq values = stepSync P it s := by
  subst hv
  unfold rankStep stepSync
  rw [seq_bind, seq_lift]
  congr 1; funext U
  rw [seq_bind, seq_collective]
  show seq _ _ = _
  rw [seq_bind, seq_lift]
  unfold selectionSync
  simp only [given_pop]
  rfl

theorem seq_rankInit (P : Par σ K p n) (hv : values = P.obj.pop) (x0 : Option (Pop K p n)) (g : σ) :
    (rankInit P x0 g).seq values = init P x0 g := by
  subst hv
  unfold rankInit init
  cases x0 <;> (rw [seq_bind, seq_collective]; show seq _ _ = _; rw [seq_bind, seq_lift]; rfl)

theorem seq_rank [IntParts K] {env : Env} {R : Rng σ K} {fuel : Nat} {a : Args K} {g : σ} (hb : a.backend = some "mpi") :
    (rank env R fuel a g).seq (a.mpiValues env) = minimize env R fuel a g := by
  have hs : a.sync = true := by simp [Args.sync, hb]
  unfold rank minimize
  rw [seq_bind, seq_lift]
  congr 1; funext strat
  cases hf : a.fn with
  | none => rfl
  | some fn =>
    dsimp only
    rw [hs, hb, optimizer_mpiObj, seq_ite]
    have hv : a.mpiValues env = (mpiObj env fn).pop := by unfold CommonArgs.mpiValues; rw [hf]; rfl
    congr 1
    rw [seq_bind, seq_lift]
    congr 1; funext _
    rw [seq_bind, seq_lift]
    congr 1; funext cons
    unfold de
    rw [seq_bind, seq_rankInit _ hv]
    congr 1; funext s0
    rw [seq_bind, Alg.seq_rankRun fun it s => seq_rankStep _ hv it s]
    rfl

end DE

namespace CPSO

theorem seq_rankStep (P : Par σ K n) (hv : values = P.obj.pop) (it : Nat) (s : State σ K p n) :
    (rankStep P it s).seq values = stepSync P it s := by
  subst hv
  unfold rankStep stepSync
  dsimp only
  rw [seq_bind, seq_collective]
  show seq _ _ = _
  rw [seq_bind, seq_lift]
  unfold selectionSync
  simp only [given_pop]
  rfl

theorem seq_rankInit (P : Par σ K n) (hv : values = P.obj.pop) (x0 : Option (Pop K p n)) (g : σ) :
    (rankInit P x0 g).seq values = init P x0 g := by
  subst hv
  unfold rankInit init
  cases x0 <;> (rw [seq_bind, seq_collective]; show seq _ _ = _; rw [seq_bind, seq_lift]; rfl)

theorem seq_rank [IntParts K] [NumFns K] {env : Env} {R : Rng σ K} {srt : Argsort K} {fuel : Nat} {a : Args K} {g : σ}
    (hb : a.backend = some "mpi") : (rank env R srt fuel a g).seq (a.mpiValues env) = minimize env R srt fuel a g := by
  have hs : a.sync = true := by simp [Args.sync, hb]
  unfold rank minimize
  rw [seq_bind, seq_lift]
  congr 1; funext _
  cases hf : a.fn with
  | none => rfl
  | some fn =>
    dsimp only
    rw [hs, hb, optimizer_mpiObj, seq_ite]
    have hv : a.mpiValues env = (mpiObj env fn).pop := by unfold CommonArgs.mpiValues; rw [hf]; rfl
    congr 1
    rw [seq_bind, seq_lift]
    congr 1; funext _
    rw [seq_bind, seq_lift]
    congr 1; funext cons
    unfold cpso
    rw [seq_bind, seq_rankInit _ hv]
    congr 1; funext s0
    rw [seq_bind, Alg.seq_rankRun fun it s => seq_rankStep _ hv it s]
    rfl

end CPSO

namespace NA

theorem seq_rankStep (P : Par σ K n) (hv : values = P.obj.pop) (it : Nat) (s : State σ K p n) :
    (rankStep P it s).seq values = step P it s := by
  subst hv
  unfold rankStep step
  rw [seq_bind, seq_lift]
  cases hX : mutation P.R P.argsort (spanMask P.lower P.upper) s.All p P.nr s.rng with
  | error e => rfl
  | ok X =>
    show seq _ _ = _
    rw [seq_bind, seq_collective]
    show seq _ _ = _
    rw [seq_bind, seq_lift, hX]
    unfold selectionSync Par.objN
    simp only [given_pop]
    show ((_ : Except PyErr _) >>= _) = ((_ : Except PyErr _) >>= _)
    simp only [Proc.seq_pure]
    cases h : argmin (fun i => if P.obj.pop (fun i => unnormalize P.lower P.upper (X.1 i)) i < s.pbestfit i
        then P.obj.pop (fun i => unnormalize P.lower P.upper (X.1 i)) i else s.pbestfit i) <;> (dsimp only [Bind.bind, Except.bind]; rw [h])

theorem seq_rankInit (P : Par σ K n) (hv : values = P.obj.pop) (x0 : Option (Pop K p n)) (g : σ) :
    (rankInit P x0 g).seq values = init P x0 g := by
  subst hv
  unfold rankInit init Par.objN
  cases x0 <;>
  · rw [seq_bind, seq_collective]
    show seq _ _ = _
    rw [seq_bind, seq_lift]
    simp only [given_pop, Proc.seq_pure]
    dsimp only [Bind.bind, Except.bind]
    generalize argmin (P.obj.pop _) = z
    cases z <;> rfl

theorem seq_rank [IntParts K] {env : Env} {R : Rng σ K} {srt : Argsort K} {fuel : Nat} {a : Args K} {g : σ}
    (hb : a.backend = some "mpi") : (rank env R srt fuel a g).seq (a.mpiValues env) = minimize env R srt fuel a g := by
  unfold rank minimize
  rw [seq_bind, seq_lift]
  congr 1; funext _
  cases hf : a.fn with
  | none => rfl
  | some fn =>
    dsimp only
    rw [hb, optimizer_mpiObj, seq_ite]
    have hv : a.mpiValues env = (mpiObj env fn).pop := by unfold CommonArgs.mpiValues; rw [hf]; rfl
    congr 1
    rw [seq_bind, seq_lift]
    congr 1; funext _
    unfold na
    rw [seq_bind, seq_rankInit _ hv]
    congr 1; funext s0
    rw [seq_bind, Alg.seq_rankRun fun it s => seq_rankStep _ hv it s]
    rfl

end NA

end

section
variable {K σ S : Type} [AddZeroClass K] [One K] [Sub K] [Mul K] [Div K] [Neg K] [NatCast K] [IntCast K] [Pow K ℕ] [ArrayOps K] [LinearOrder K] {p n : Nat}
variable {α : Type} {m : Nat} {values : Pop K p n → Fin p → Val K}
open Proc

namespace Evo
variable [NumFns K] [IntParts K] {P : Par K n} {G : Gauss S K p n} {c : Cfg}

theorem evaluate_given (it : Nat) (arx : Pop K p n) (s : S) (pen : Pen K n) :
    evaluate { P with obj := given (P.obj.pop (points P arx)) } G it arx s pen = evaluate P G it arx s pen := by
  unfold evaluate penalize points
  simp only [given_pop]
  by_cases hp : P.penalized
  · simp [hp]
  · simp [hp]

theorem body_given {L : St S K p n} {a : Pop K p n × S} (ha : G.sample L.s = .ok a) :
    body { P with obj := given (P.obj.pop (points P a.1)) } G c L = body P G c L := by
  unfold body
  dsimp only
  rw [ha]
  have hb : ∀ {α β : Type} (a : α) (f : α → Except PyErr β), (Except.ok a >>= f) = f a := fun _ _ => rfl
  rw [hb, hb, evaluate_given]

theorem evaluate_points {it : Nat} {arx : Pop K p n} {s : S} {pen : Pen K n} {e : (Fin p → Val K) × Pop K p n × Pen K n}
    (h : evaluate P G it arx s pen = .ok e) : (fun i => unstandardize P.lower P.upper (e.2.1 i)) = points P arx := by
  unfold points
  cases hp : P.penalized with
  | true =>
    unfold evaluate at h
    rw [if_pos hp] at h
    unfold penalize at h
    rw [bind_ok_iff] at h
    obtain ⟨_, -, h⟩ := h
    dsimp only at h
    rw [bind_ok_iff] at h
    obtain ⟨_, -, h⟩ := h
    cases h
    simp
  | false =>
    unfold evaluate at h
    rw [hp] at h
    cases h
    simp

theorem seq_rankBody (hv : values = P.obj.pop) (L : St S K p n) : (rankBody P G c L).seq values = body P G c L := by
  subst hv
  unfold rankBody
  rw [seq_bind, seq_lift]
  cases ha : G.sample L.s with
  | error e => unfold body; dsimp only; rw [ha]; rfl
  | ok a =>
    show seq _ _ = _
    rw [seq_bind, seq_collective]
    show seq _ _ = _
    rw [seq_bind, seq_lift]
    dsimp only
    rw [body_given ha]
    cases hb : body P G c L with
    | error e => rfl
    | ok r =>
      obtain ⟨_, a', e, rows, s, h1, h2, h3, hm, h4, h5, rfl⟩ := body_ok hb
      rw [ha] at h1
      cases h1
      show Except.ok _ = _
      rw [← evaluate_points h2]
      rfl

theorem seq_rankLoop (hv : values = P.obj.pop) : ∀ (fuel : Nat) (L : St S K p n),
    (rankLoop P G c fuel L).seq values = loop P G c fuel L
  | 0, _ => rfl
  | fuel + 1, L => by
    unfold rankLoop loop
    rw [seq_bind, seq_rankBody hv]
    congr 1; funext r
    rw [seq_ite, seq_rankLoop hv fuel]
    rfl

theorem seq_rankRun (hv : values = P.obj.pop) {rng : S → σ} (fuel : Nat) (s0 : S) :
    (rankRun P G c rng fuel s0).seq values = run P G c rng fuel s0 := by
  unfold rankRun run
  rw [seq_ite]
  congr 1
  rw [seq_bind, seq_rankLoop hv]
  congr 1; funext r
  rw [seq_bind, seq_lift]
  rfl

end Evo

theorem CMAES.seq_rank [NumFns K] [IntParts K] {env : Env} {R : Rng σ K} {srt : Argsort K} {eigh : Eigh K} {fuel : Nat} {a : Evo.Args K}
    {junk : Vec K a.ndim} {g : σ} (hb : a.backend = some "mpi") :
    (rank env R srt eigh fuel a junk g).seq (a.mpiValues env) = minimize env R srt eigh fuel a junk g := by
  unfold rank minimize
  rw [seq_bind, seq_lift]
  congr 1; funext _
  cases hf : a.fn with
  | none => rfl
  | some fn =>
    dsimp only
    rw [hb, optimizer_mpiObj, seq_ite]
    have hv : a.mpiValues env = (mpiObj env fn).pop := by unfold CommonArgs.mpiValues; rw [hf]; rfl
    congr 1
    rw [seq_bind, seq_lift]
    congr 1; funext _
    rw [seq_bind, seq_lift]
    congr 1; funext pen
    rw [seq_bind, seq_lift]
    congr 1; funext m
    by_cases h : 0 < a.ndim ∧ 0 < a.p ∧ 0 < a.mu ∧ a.mu ≤ a.p
    · rw [dif_pos h, dif_pos h]
      exact Evo.seq_rankRun hv _ _
    · rw [dif_neg h, dif_neg h]; rfl

theorem VDCMA.seq_rank [NumFns K] [IntParts K] {env : Env} {R : Rng σ K} {srt : Argsort K} {fuel : Nat} {a : Evo.Args K}
    {junk : Vec K a.ndim} {g : σ} (hb : a.backend = some "mpi") :
    (rank env R srt fuel a junk g).seq (a.mpiValues env) = minimize env R srt fuel a junk g := by
  unfold rank minimize
  rw [seq_bind, seq_lift]
  congr 1; funext _
  cases hf : a.fn with
  | none => rfl
  | some fn =>
    dsimp only
    rw [hb, optimizer_mpiObj, seq_ite]
    have hv : a.mpiValues env = (mpiObj env fn).pop := by unfold CommonArgs.mpiValues; rw [hf]; rfl
    congr 1
    rw [seq_bind, seq_lift]
    congr 1; funext _
    rw [seq_bind, seq_lift]
    congr 1; funext pen
    rw [seq_bind, seq_lift]
    congr 1; funext m
    by_cases h : 0 < a.ndim ∧ 0 < a.p ∧ 0 < a.mu ∧ a.mu ≤ a.p
    · rw [dif_pos h, dif_pos h]
      exact Evo.seq_rankRun hv _ _
    · rw [dif_neg h, dif_neg h]; rfl

end

end Stochopy
