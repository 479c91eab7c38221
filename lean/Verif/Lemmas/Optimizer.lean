import Verif.Model.Common
import Verif.Lemmas.Val
import Verif.Lemmas.Except
import Mathlib.Tactic.Linarith
import Mathlib.Data.List.Nodup

/-! The decorator `optimizer`: every wrapper computes the objective pointwise. -/

set_option linter.unusedSectionVars false

namespace Stochopy
variable {K σ : Type} [AddZeroClass K] [One K] [Sub K] [Mul K] [Div K] [Neg K] [NatCast K] [IntCast K] [Pow K ℕ] [ArrayOps K] [LinearOrder K] {n : Nat}

/-- The wrapped objective is the objective, row by row. -/
structure Obj.Faithful (obj : Obj K n) (fn : Vec K n → Val K) : Prop where
  pop : ∀ {p : Nat} (x : Pop K p n) (i : Fin p), obj.pop x i = fn (x i)
  one : ∀ x, obj.one x = fn x

theorem mpiMine_iff {r size i : Nat} (hr : r < size) : mpiMine r size i = true ↔ r = i % size := by
  unfold mpiMine
  simp only [Bool.and_eq_true, decide_eq_true_eq, beq_iff_eq]
  constructor
  · rintro ⟨h1, h2⟩
    obtain ⟨q, hq⟩ := Nat.dvd_of_mod_eq_zero h2
    have : i = r + size * q := by omega
    rw [this, Nat.add_mul_mod_self_left, Nat.mod_eq_of_lt hr]
  · rintro rfl
    refine ⟨Nat.mod_le _ _, ?_⟩
    have := Nat.mod_add_div i size
    have h : i - i % size = size * (i / size) := by omega
    rw [h]; exact Nat.mul_mod_right _ _

theorem foldl_add_zero (c : Nat → Val K) (l : List Nat) (h : ∀ r ∈ l, c r = .fin 0) :
    ∀ acc : Val K, l.foldl (fun a r => a + c r) acc = acc := by
  induction l with
  | nil => intro acc; rfl
  | cons r l ih =>
    intro acc
    have h1 := h r (by simp)
    simp only [List.foldl_cons, h1, Val.add_zero']
    exact ih (fun r hr => h r (by simp [hr])) acc

theorem foldl_add_single (c : Nat → Val K) (r0 : Nat) (l : List Nat) (hd : l.Nodup) (hm : r0 ∈ l)
    (h : ∀ r ∈ l, r ≠ r0 → c r = .fin 0) :
    ∀ acc : Val K, l.foldl (fun a r => a + c r) acc = acc + c r0 := by
  induction l with
  | nil => simp at hm
  | cons r l ih =>
    intro acc
    rw [List.nodup_cons] at hd
    by_cases hr : r = r0
    · subst hr
      simp only [List.foldl_cons]
      exact foldl_add_zero c l (fun r' hr' => h r' (by simp [hr']) (fun he => hd.1 (he ▸ hr'))) _
    · have h1 := h r (by simp) hr
      simp only [List.foldl_cons, h1, Val.add_zero']
      refine ih hd.2 ?_ (fun r' hr' => h r' (by simp [hr'])) acc
      rcases List.mem_cons.1 hm with he | he
      · exact absurd he.symm hr
      · exact he

theorem mpiPop_eq {env : Env} (he : env.Ok) (fn : Vec K n → Val K) {p : Nat} (x : Pop K p n) (i : Fin p) :
    mpiPop env fn x i = fn (x i) := by
  unfold mpiPop
  have hmem : ∀ r, r ∈ env.reduceOrder ↔ r < env.mpiSize := fun r => by
    rw [he.order.mem_iff, List.mem_range]
  have hnd : env.reduceOrder.Nodup := he.order.nodup_iff.2 List.nodup_range
  have hlt : i.val % env.mpiSize < env.mpiSize := Nat.mod_lt _ he.pos
  rw [foldl_add_single (fun r => mpiLocal fn r env.mpiSize x i) (i.val % env.mpiSize) _ hnd ((hmem _).2 hlt)]
  · rw [Val.zero_add', mpiLocal, if_pos ((mpiMine_iff hlt).2 rfl)]
  · intro r hr hne
    have hr' := (hmem r).1 hr
    rw [mpiLocal, if_neg]
    intro h
    exact hne ((mpiMine_iff hr').1 h)

theorem wrapper_faithful {env : Env} (he : env.Ok) {fn : Vec K n → Val K} {sync : Bool} {b : String} {par : Bool}
    {obj : Obj K n} (h : wrapper env fn sync b par = .ok obj) : obj.Faithful fn := by
  unfold wrapper at h
  split_ifs at h <;> simp only [Except.ok.injEq] at h <;> subst h <;>
    first
    | exact ⟨fun _ _ => rfl, fun _ => rfl⟩
    | exact ⟨fun x i => mpiPop_eq he fn x i, fun _ => rfl⟩

/-- A completed decorated call ran the optimizer on a faithful objective. -/
theorem optimizer_ok {α : Type} {env : Env} (he : env.Ok) {fn : Vec K n → Val K} {sync : Bool} {w : Int}
    {b : Option String} {k : Obj K n → Except PyErr α} {r : α} (h : optimizer env fn sync w b k = .ok r) :
    ∃ obj, obj.Faithful fn ∧ k obj = .ok r := by
  unfold optimizer at h
  dsimp only at h
  split_ifs at h <;> rw [bind_ok_iff] at h <;> obtain ⟨obj, h1, h2⟩ := h <;>
    exact ⟨obj, wrapper_faithful he h1, h2⟩

end Stochopy
