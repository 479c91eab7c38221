import Verif.Base.Num
import Verif.Lemmas.Except

/-! Lemmas on `seqFin`, `drawVec`, `drawMat`. -/

namespace Stochopy
variable {ε α : Type}

theorem seqFin_ok_iff : ∀ {p : Nat} {f : Fin p → Except ε α} {v : Fin p → α},
    seqFin f = .ok v ↔ ∀ i, f i = .ok (v i)
  | 0, f, v => by
    simp only [seqFin, Except.ok.injEq, IsEmpty.forall_iff, iff_true]
    funext i; exact i.elim0
  | p + 1, f, v => by
    rw [seqFin, bind_ok_iff]
    constructor
    · rintro ⟨a, h0, h⟩
      rw [bind_ok_iff] at h
      obtain ⟨r, h1, h⟩ := h
      simp only [Except.ok.injEq] at h
      subst h
      intro i
      refine Fin.cases ?_ (fun j => ?_) i
      · simpa using h0
      · simpa using seqFin_ok_iff.1 h1 j
    · intro h
      refine ⟨v 0, h 0, ?_⟩
      rw [bind_ok_iff]
      refine ⟨fun j => v j.succ, seqFin_ok_iff.2 (fun j => h j.succ), ?_⟩
      congr 1
      exact Fin.cons_self_tail v

theorem seqFin_error : ∀ {p : Nat} {f : Fin p → Except ε α} {e : ε}, seqFin f = .error e → ∃ i, f i = .error e
  | 0, f, e => by simp [seqFin]
  | p + 1, f, e => by
    rw [seqFin, bind_error_iff]
    rintro (h | ⟨a, _, h⟩)
    · exact ⟨0, h⟩
    · rw [bind_error_iff] at h
      rcases h with h | ⟨_, _, h⟩
      · obtain ⟨i, hi⟩ := seqFin_error h
        exact ⟨i.succ, hi⟩
      · simp at h

/-- Every drawn entry is an elementary draw. -/
theorem drawVec_mem {σ α : Type} (d : σ → α × σ) (n : Nat) (g : σ) (j : Fin n) :
    ∃ g', (drawVec d n g).1 j = (d g').1 := ⟨_, rfl⟩

theorem drawMat_mem {σ α : Type} (d : σ → α × σ) (p n : Nat) (g : σ) (i : Fin p) (j : Fin n) :
    ∃ g', (drawMat d p n g).1 i j = (d g').1 := by
  obtain ⟨g', h⟩ := drawVec_mem (drawVec d n) p g i
  obtain ⟨g'', h'⟩ := drawVec_mem d n g' j
  exact ⟨g'', by unfold drawMat; rw [h, h']⟩

end Stochopy
