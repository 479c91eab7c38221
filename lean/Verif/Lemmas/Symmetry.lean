import Verif.Spec.Symmetry
import Verif.Lemmas.Except
import Verif.Lemmas.Val

/-! Runs of the common frame related by a change of values and coordinates. -/

set_option linter.unusedSectionVars false

namespace Stochopy
variable {K σ S : Type} [AddZeroClass K] [One K] [Sub K] [Mul K] [Div K] [Neg K] [NatCast K] [IntCast K] [Pow K ℕ] [ArrayOps K] [LinearOrder K] {p n : Nat}

theorem map_bind_ex {ε α β γ : Type} (f : β → γ) (x : Except ε α) (g : α → Except ε β) :
    Except.map f (x >>= g) = x >>= fun a => Except.map f (g a) := by cases x <;> rfl

theorem bind_map_ex {ε α β γ : Type} (f : α → β) (x : Except ε α) (g : β → Except ε γ) :
    (Except.map f x >>= g) = x >>= fun a => g (f a) := by cases x <;> rfl

theorem val_lt_iff (a b : Val K) : a < b ↔ a ≤ b ∧ ¬ b ≤ a := by
  cases a <;> cases b <;> simp
  exact fun h => h.le

theorem val_isNan_iff (a : Val K) : a.isNan = true ↔ ¬ a ≤ a := by cases a <;> simp [Val.isNan]

section rising
variable {φ : Val K → Val K} (hφ : Rising φ)
include hφ

theorem Rising.lt (a b : Val K) : φ a < φ b ↔ a < b := by
  rw [val_lt_iff, val_lt_iff, hφ, hφ]

theorem Rising.isNan (a : Val K) : (φ a).isNan = a.isNan := by
  have h := hφ a a
  rw [Bool.eq_iff_iff, val_isNan_iff, val_isNan_iff, h]

theorem Rising.argminStep (v : Fin p → Val K) (b : Option (Fin p)) (i : Fin p) :
    argminStep (fun i => φ (v i)) b i = Stochopy.argminStep v b i := by
  cases b with
  | none => rfl
  | some b => simp only [Stochopy.argminStep, hφ.isNan, hφ (v b) (v i)]

theorem Rising.argmin (v : Fin p → Val K) : argmin (fun i => φ (v i)) = Stochopy.argmin v := by
  unfold Stochopy.argmin argmin?
  congr 1
  rw [show (Stochopy.argminStep fun i => φ (v i)) = Stochopy.argminStep v from
    funext fun b => funext fun i => hφ.argminStep v b i]

end rising

theorem rising_id : Rising (fun v : Val K => v) := fun _ _ => Iff.rfl

theorem mapRows_append {ψ0 ψ : Vec K n → Vec K n} {a : List (List (Vec K n))} (h : a ≠ []) (b : List (List (Vec K n))) :
    mapRows ψ0 ψ (a ++ b) = mapRows ψ0 ψ a ++ b.map (List.map ψ) := by
  cases a with
  | nil => exact absurd rfl h
  | cons r rs => simp [mapRows]

theorem mapRows_id (l : List (List (Vec K n))) : mapRows (fun x => x) (fun x => x) l = l := by
  cases l <;> simp [mapRows]

/-- `A'` does in the new values and coordinates what `A` does in the old ones. -/
structure Alg.Sim (A A' : Alg S K p n) (m : S → S) (φ : Val K → Val K) (ψ0 ψ : Vec K n → Vec K n) : Prop where
  step : ∀ it s, A'.step it (m s) = (A.step it s).map fun r => (m r.1, r.2)
  post : ∀ it s, A'.post it (m s) = m (A.post it s)
  cbX : ∀ s, A'.cbX (m s) = fun i => ψ (A.cbX s i)
  best : ∀ s, A'.best (m s) = ψ (A.best s)
  bestFun : ∀ s, A'.bestFun (m s) = φ (A.bestFun s)
  rec0X : ∀ s, A'.rec0X (m s) = fun i => ψ0 (A.rec0X s i)
  rec0Best : ∀ s, A'.rec0Best (m s) = ψ0 (A.rec0Best s)
  recX : ∀ s, A'.recX (m s) = fun i => ψ (A.recX s i)
  pfit : ∀ s, A'.pfit (m s) = fun i => φ (A.pfit s i)

/-- The loop state in the new values and coordinates. -/
def Loop.map (m : S → S) (φ : Val K → Val K) (ψ0 ψ : Vec K n → Vec K n) (L : Loop S K p n) : Loop S K p n :=
  { s := m L.s, it := L.it, status := L.status, rowsX := mapRows ψ0 ψ L.rowsX, rowsF := L.rowsF.map (List.map φ),
    cbs := L.cbs.map (CB.map φ ψ0 ψ) }

variable {A A' : Alg S K p n} {m : S → S} {φ : Val K → Val K} {ψ0 ψ : Vec K n → Vec K n} {c : Cfg}

section
variable (hφ : Rising φ) (h : A.Sim A' m φ ψ0 ψ)
include h

theorem Alg.Sim.cb (s : S) (it : Nat) (rX : List (List (Vec K n))) (rF : List (List (Val K))) :
    A'.cb c (m s) it (mapRows ψ0 ψ rX) (rF.map (List.map φ)) = (A.cb c s it rX rF).map φ ψ0 ψ := by
  unfold Alg.cb CB.map attach
  simp only [h.cbX, h.best, h.bestFun]
  split_ifs <;> rfl

theorem Alg.Sim.record0 (s : S) :
    A'.record0 c (m s) = (A.record0 c s).map fun r => (mapRows ψ0 ψ r.1, r.2.map (List.map φ)) := by
  unfold Alg.record0
  simp only [h.rec0X, h.rec0Best, h.bestFun, h.pfit]
  split_ifs <;> simp [Except.map, mapRows, List.map_take, List.map_ofFn, Function.comp_def]

include hφ

theorem Alg.Sim.record (it : Nat) (s : S) :
    A'.record c it (m s) = (A.record c it s).map fun r => (r.1.map (List.map ψ), r.2.map (List.map φ)) := by
  unfold Alg.record
  simp only [h.recX, h.pfit, hφ.argmin]
  split_ifs <;> simp [Except.map, List.map_take, List.map_ofFn, Function.comp_def]
  all_goals cases Stochopy.argmin (A.pfit s) <;> simp [bind, Except.bind]

/-- If everything is recorded, the first record is there already. -/
theorem Alg.Sim.body (L : Loop S K p n) (hL : c.returnAll = true → L.rowsX ≠ []) :
    A'.body c (L.map m φ ψ0 ψ) = (A.body c L).map fun r => (r.1.map m φ ψ0 ψ, r.2) := by
  unfold Alg.body
  simp only [map_bind_ex]
  show (A'.step (L.it + 1) (m L.s) >>= _) = _
  rw [h.step, bind_map_ex]
  congr 1
  funext r
  dsimp only
  rw [h.record hφ, bind_map_ex]
  show (A.record c (L.it + 1) r.1 >>= _) = _
  cases hr : A.record c (L.it + 1) r.1 with
  | error e => rfl
  | ok rows =>
    have e1 : mapRows ψ0 ψ (L.rowsX ++ rows.1) = mapRows ψ0 ψ L.rowsX ++ rows.1.map (List.map ψ) := by
      by_cases hL' : L.rowsX = []
      · have h1 : c.returnAll = false := by by_contra h1; exact hL (by simpa using h1) hL'
        rw [Alg.record, if_neg (by rw [h1]; simp)] at hr
        cases hr
        simp [hL', mapRows]
      · exact mapRows_append hL' _
    show Except.ok _ = Except.ok _
    congr 1
    refine Prod.ext ?_ rfl
    show Loop.mk _ _ _ _ _ _ = Loop.map _ _ _ _ _
    unfold Loop.map
    congr 1
    · dsimp only; rw [h.post]; split_ifs <;> rfl
    · exact e1.symm
    · simp
    · dsimp only
      rw [← e1, ← List.map_append, h.cb]
      split_ifs <;> simp

theorem body_rows {L : Loop S K p n} (hL : c.returnAll = true → L.rowsX ≠ []) {r} (hr : A.body c L = .ok r) :
    c.returnAll = true → r.1.rowsX ≠ [] := by
  intro hc
  unfold Alg.body at hr
  rw [bind_ok_iff] at hr
  obtain ⟨a, -, hr⟩ := hr
  rw [bind_ok_iff] at hr
  obtain ⟨b, -, hr⟩ := hr
  cases hr
  simp [hL hc]

theorem Alg.Sim.loop (fuel : Nat) : ∀ (L : Loop S K p n), (c.returnAll = true → L.rowsX ≠ []) →
    A'.loop c fuel (L.map m φ ψ0 ψ) = (A.loop c fuel L).map (Loop.map m φ ψ0 ψ) := by
  induction fuel with
  | zero => intro L _; rfl
  | succ fuel ih =>
    intro L hL
    rw [Alg.loop, Alg.loop, h.body hφ L hL]
    cases hb : A.body c L with
    | error e => rfl
    | ok r =>
      show (if r.2 = true then Except.ok (Loop.map m φ ψ0 ψ r.1) else A'.loop c fuel (r.1.map m φ ψ0 ψ)) =
        Except.map _ (if r.2 = true then Except.ok r.1 else A.loop c fuel r.1)
      by_cases hr : r.2 = true
      · rw [if_pos hr, if_pos hr]; rfl
      · rw [if_neg hr, if_neg hr]
        exact ih r.1 (body_rows hφ h hL hb)

theorem Alg.Sim.run (fuel : Nat) (s0 : S) :
    A'.run c fuel (m s0) = (A.run c fuel s0).map fun r => (r.1.map φ ψ0 ψ, r.2.map m φ ψ0 ψ) := by
  unfold Alg.run
  simp only [map_bind_ex]
  have hs : A'.start c (m s0) = (A.start c s0).map (Loop.map m φ ψ0 ψ) := by
    unfold Alg.start
    simp only [map_bind_ex]
    rw [h.record0, bind_map_ex]
    congr 1
    funext rows
    show Except.ok _ = Except.ok _
    congr 1
    unfold Loop.map
    congr 1
    dsimp only
    rw [h.cb]
    split_ifs <;> rfl
  rw [hs, bind_map_ex]
  cases h0 : A.start c s0 with
  | error e => rfl
  | ok L0 =>
    have hL0 : c.returnAll = true → L0.rowsX ≠ [] := by
      intro hc
      unfold Alg.start at h0
      rw [bind_ok_iff] at h0
      obtain ⟨rows, h1, h0⟩ := h0
      cases h0
      unfold Alg.record0 at h1
      rw [if_pos hc] at h1
      split_ifs at h1 <;> cases h1 <;> simp
    show (A'.loop c fuel (L0.map m φ ψ0 ψ) >>= _) = (A.loop c fuel L0 >>= _)
    rw [h.loop hφ fuel L0 hL0, bind_map_ex]
    congr 1
    funext L
    have hf : A'.finish c (L.map m φ ψ0 ψ) = (A.finish c L).map (Result.map φ ψ0 ψ) := by
      unfold Alg.finish
      show (match L.status with | none => _ | some _ => _) = _
      cases L.status with
      | none => rfl
      | some st =>
        dsimp only
        cases messages st with
        | none => rfl
        | some msg =>
          simp only [Except.map, Result.map, h.best, h.bestFun, Loop.map, attach]
          split_ifs <;> rfl
    rw [hf, bind_map_ex]
    rfl

end

end Stochopy
