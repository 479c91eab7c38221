import Verif.Lemmas.Validation

/-! The decorator computes the objective pointwise, whatever the backend. -/

set_option linter.unusedSectionVars false

namespace Stochopy
variable {K σ : Type} [AddZeroClass K] [One K] [Sub K] [Mul K] [Div K] [Neg K] [NatCast K] [IntCast K] [Pow K ℕ] [ArrayOps K] [LinearOrder K] {p n : Nat}

/-- The serial objective. -/
def plainObj (fn : Vec K n → Val K) : Obj K n := { pop := fun x i => fn (x i), one := fn }

theorem wrapper_eq {env : Env} (he : env.Ok) {fn : Vec K n → Val K} {sync : Bool} {B : String} {par : Bool}
    (h : par = true → prefer B = true ∨ B = "mpi") :
    wrapper env fn sync B par =
      if sync = true ∧ par = true ∧ B = "mpi" ∧ env.mpi4py = false then .error .importError else .ok (plainObj fn) := by
  have hm : prefer "mpi" = false := by decide
  have hobj : ({ pop := fun x i => mpiPop env fn x i, one := fn } : Obj K n) = plainObj fn := by
    unfold plainObj
    congr 1
    funext p x i
    exact mpiPop_eq he fn x i
  unfold wrapper
  cases sync with
  | false => simp [plainObj]
  | true =>
    cases par with
    | false => simp [plainObj]
    | true =>
      rcases h rfl with hp | rfl
      · have : B ≠ "mpi" := by rintro rfl; rw [hm] at hp; cases hp
        simp [hp, this, plainObj]
      · rw [hobj]
        cases hme : env.mpi4py <;> simp [hm]

theorem optimizer_eq {α : Type} {env : Env} (he : env.Ok) {fn : Vec K n → Val K} {sync : Bool} {w : Int} {b : Option String}
    {k : Obj K n → Except PyErr α} :
    optimizer env fn sync w b k =
      if sync = true ∧ b = some "mpi" ∧ env.mpi4py = false then .error .importError else k (plainObj fn) := by
  have hm : prefer "mpi" = false := by decide
  have hb : effBackend b = "mpi" ↔ b = some "mpi" := ⟨effBackend_mpi, by rintro rfl; decide⟩
  unfold optimizer
  dsimp only
  by_cases h1 : (prefer (effBackend b) && !(w == 0 || w == 1)) = true
  · rw [if_pos h1]
    rw [Bool.and_eq_true] at h1
    have hne : effBackend b ≠ "mpi" := by intro h; rw [h, hm] at h1; exact absurd h1.1 (by simp)
    rw [wrapper_eq he (fun _ => Or.inl h1.1), if_neg (by tauto), if_neg (by tauto)]
    rfl
  · rw [if_neg h1, wrapper_eq he (fun h => Or.inr (by simpa using h))]
    by_cases h2 : b = some "mpi"
    · have h3 : effBackend b = "mpi" := hb.2 h2
      rw [h3]
      by_cases h4 : sync = true ∧ env.mpi4py = false
      · rw [if_pos (by simpa using h4), if_pos (by tauto)]; rfl
      · rw [if_neg (by simpa using h4), if_neg (by tauto)]; rfl
    · have h3 : effBackend b ≠ "mpi" := fun h => h2 (hb.1 h)
      rw [if_neg (by tauto), if_neg (by tauto)]
      rfl

/-- `workers`, `backend` and `updating` only matter through the updating mode. -/
theorem optimizer_congr {α : Type} {env : Env} (he : env.Ok) {fn : Vec K n → Val K} {sync : Bool} {w w' : Int}
    {b b' : Option String} {k : Obj K n → Except PyErr α} (h : b = some "mpi" → env.mpi4py = true)
    (h' : b' = some "mpi" → env.mpi4py = true) :
    optimizer env fn sync w b k = optimizer env fn sync w' b' k := by
  rw [optimizer_eq he, optimizer_eq he, if_neg, if_neg]
  · rintro ⟨_, h1, h2⟩; rw [h' h1] at h2; cases h2
  · rintro ⟨_, h1, h2⟩; rw [h h1] at h2; cases h2

end Stochopy
