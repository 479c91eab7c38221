import Verif.Spec.Gauss
import Verif.Lemmas.EvoParams
import Verif.Lemmas.EvoRun

/-! The covariance matrix of `cmaes`. -/

set_option linter.unusedSectionVars false

namespace Stochopy
open Evo Spec
variable {K σ : Type} [Field K] [LinearOrder K] [IsStrictOrderedRing K] {n : Nat}

section
variable {C : Matrix (Fin n) (Fin n) K} {x : Vec K n}

theorem quad_add (A B : Matrix (Fin n) (Fin n) K) : quad (fun i j => A i j + B i j) x = quad A x + quad B x := by
  simp only [quad, ← Finset.sum_add_distrib]
  refine Finset.sum_congr rfl fun i _ => Finset.sum_congr rfl fun j _ => by ring

theorem quad_smul (c : K) (A : Matrix (Fin n) (Fin n) K) : quad (fun i j => c * A i j) x = c * quad A x := by
  simp only [quad, Finset.mul_sum]
  refine Finset.sum_congr rfl fun i _ => Finset.sum_congr rfl fun j _ => by ring

theorem quad_outer (v : Vec K n) : quad (fun i j => v i * v j) x = (∑ i, x i * v i) ^ 2 := by
  rw [sq, Finset.sum_mul_sum]
  simp only [quad]
  refine Finset.sum_congr rfl fun i _ => Finset.sum_congr rfl fun j _ => by ring

theorem quad_sum {ι : Type} (s : Finset ι) (A : ι → Matrix (Fin n) (Fin n) K) :
    quad (fun i j => ∑ k ∈ s, A k i j) x = ∑ k ∈ s, quad (A k) x := by
  simp only [quad, Finset.mul_sum, Finset.sum_mul]
  calc _ = ∑ i, ∑ k ∈ s, ∑ j, x i * A k i j * x j := Finset.sum_congr rfl fun i _ => Finset.sum_comm
    _ = _ := Finset.sum_comm

theorem quad_one : quad (1 : Matrix (Fin n) (Fin n) K) x = ∑ i, x i ^ 2 := by
  simp only [quad, Matrix.one_apply]
  refine Finset.sum_congr rfl fun i _ => ?_
  simp [sq]

theorem sum_sq_pos' (hx : ∃ i, x i ≠ 0) : 0 < ∑ i, x i ^ 2 := by
  obtain ⟨i, hi⟩ := hx
  exact Finset.sum_pos' (fun _ _ => sq_nonneg _) ⟨i, Finset.mem_univ i, by positivity⟩

theorem sym_one : Sym (1 : Matrix (Fin n) (Fin n) K) := fun i j => by
  simp only [Matrix.one_apply, eq_comm]

theorem posDef_one : PosDef (1 : Matrix (Fin n) (Fin n) K) := fun x hx => by
  rw [quad_one]; exact sum_sq_pos' hx

theorem Spec.PosDef.posSemi (h : PosDef C) : PosSemi C := fun x => by
  by_cases hx : ∃ i, x i ≠ 0
  · exact (h x hx).le
  · push Not at hx
    simp [quad, hx]

theorem quad_single (C : Matrix (Fin n) (Fin n) K) (k : Fin n) : quad C (fun i => if i = k then 1 else 0) = C k k := by
  simp [quad]

theorem Spec.PosSemi.diag (h : PosSemi C) (j : Fin n) : 0 ≤ C j j := by
  rw [← quad_single C j]; exact h _

theorem Spec.PosDef.diag (h : PosDef C) (j : Fin n) : 0 < C j j := by
  rw [← quad_single C j]; exact h _ ⟨j, by simp⟩

theorem mirror_sym (C : Matrix (Fin n) (Fin n) K) : Sym (CMAES.mirror C) := fun i j => by
  unfold CMAES.mirror
  rcases lt_trichotomy i j with h | h | h
  · rw [if_pos h.le, if_neg (not_le.2 h)]
  · rw [h]
  · rw [if_neg (not_le.2 h), if_pos h.le]

theorem mirror_of_sym (h : Sym C) : CMAES.mirror C = C := by
  funext i j
  unfold CMAES.mirror
  split_ifs
  · rfl
  · exact h j i

/-- Conjugating with the eigenvectors. -/
theorem decomposes_quad {B : Matrix (Fin n) (Fin n) K} {d : Vec K n} (hB : Orthonormal B) (hC : Decomposes B d C) (k : Fin n) :
    quad C (fun i => B i k) = d k := by
  have h : quad C (fun i => B i k) = ∑ l, d l * ((∑ i, B i k * B i l) * ∑ j, B j k * B j l) := by
    simp only [quad, hC _ _, Finset.mul_sum, Finset.sum_mul]
    calc _ = ∑ i, ∑ l, ∑ j, B i k * (B i l * d l * B j l) * B j k := by
          refine Finset.sum_congr rfl fun i _ => Finset.sum_comm
      _ = ∑ l, ∑ i, ∑ j, B i k * (B i l * d l * B j l) * B j k := Finset.sum_comm
      _ = ∑ l, ∑ j, ∑ i, B i k * (B i l * d l * B j l) * B j k := by
          refine Finset.sum_congr rfl fun l _ => Finset.sum_comm
      _ = _ := by
          refine Finset.sum_congr rfl fun l _ => Finset.sum_congr rfl fun i _ => Finset.sum_congr rfl fun j _ => by ring
  rw [h]
  simp [hB k _]

theorem eigenvalue_pos {B : Matrix (Fin n) (Fin n) K} {d : Vec K n} (hB : Orthonormal B) (hC : Decomposes B d C)
    (h : PosDef C) (k : Fin n) : 0 < d k := by
  rw [← decomposes_quad hB hC k]
  refine h _ ?_
  by_contra hx
  push Not at hx
  have := hB k k
  simp [hx] at this

theorem Spec.Orthonormal.perm {B : Matrix (Fin n) (Fin n) K} (hB : Orthonormal B) (e : Equiv.Perm (Fin n)) :
    Orthonormal fun i j => B i (e j) := fun i j => by
  rw [hB (e i) (e j)]
  simp

theorem Spec.Decomposes.perm {B : Matrix (Fin n) (Fin n) K} {d : Vec K n} (hC : Decomposes B d C) (e : Equiv.Perm (Fin n)) :
    Decomposes (fun i j => B i (e j)) (fun i => d (e i)) C := fun i j => by
  rw [hC i j, ← Equiv.sum_comp e]

end

namespace CMAES
variable [NumFns K] [LawfulNumFns K] [FloorRing K] {p : Nat} {P : Par σ K p n}

theorem adapt_sym {me : K} {arx : Pop K p n} {order : Equiv.Perm (Fin p)} {xold : Vec K n} {sigma : K} {pc : Vec K n} {cond : Bool}
    {C : Matrix (Fin n) (Fin n) K} (h : Sym C) : Sym (adapt P me arx order xold sigma pc cond C) := fun i j => by
  unfold adapt
  dsimp only
  rw [h i j, mul_comm (pc i)]
  congr 3
  congr 1
  exact Finset.sum_congr rfl fun k _ => by ring

theorem quad_adapt {me : K} {arx : Pop K p n} {order : Equiv.Perm (Fin p)} {xold : Vec K n} {sigma : K} {pc : Vec K n} {cond : Bool}
    {C : Matrix (Fin n) (Fin n) K} (x : Vec K n) :
    quad (adapt P me arx order xold sigma pc cond C) x =
      (1 - c1 n me - cmu n me) * quad C x
      + cmu n me * ∑ k, weights (K := K) P.mu k *
          (∑ i, x i * ((arx (order (Fin.castLE P.hmu k)) i - xold i) / sigma)) ^ 2
      + c1 n me * (∑ i, x i * pc i) ^ 2
      + (if cond then 0 else c1 n me * cc n me * (2 - cc n me)) * quad C x := by
  let y : Fin P.mu → Vec K n := fun k i => (arx (order (Fin.castLE P.hmu k)) i - xold i) / sigma
  let A1 : Matrix (Fin n) (Fin n) K := fun i j => (1 - c1 n me - cmu n me) * C i j
  let A2 : Matrix (Fin n) (Fin n) K := fun i j => cmu n me * ∑ k, weights (K := K) P.mu k * (y k i * y k j)
  let A3 : Matrix (Fin n) (Fin n) K := fun i j => c1 n me * (pc i * pc j)
  let A4 : Matrix (Fin n) (Fin n) K := fun i j => (if cond then 0 else c1 n me * cc n me * (2 - cc n me)) * C i j
  have e : adapt P me arx order xold sigma pc cond C = fun i j => A1 i j + A2 i j + A3 i j + A4 i j := by
    funext i j
    show C i j * (1 - c1 n me - cmu n me) + cmu n me * ∑ k, y k i * weights (K := K) P.mu k * y k j + c1 n me * (pc i * pc j)
      + (if cond then 0 else c1 n me * cc n me * (2 - cc n me) * C i j) = _
    have h2 : ∑ k, y k i * weights (K := K) P.mu k * y k j = ∑ k, weights (K := K) P.mu k * (y k i * y k j) :=
      Finset.sum_congr rfl fun k _ => by ring
    have h4 : (if cond then 0 else c1 n me * cc n me * (2 - cc n me) * C i j) = A4 i j := by
      show _ = (if cond then 0 else c1 n me * cc n me * (2 - cc n me)) * C i j
      split_ifs
      · rw [zero_mul]
      · rfl
    rw [h2, h4, mul_comm (C i j)]
  have q1 : quad A1 x = (1 - c1 n me - cmu n me) * quad C x := quad_smul _ C
  have q4 : quad A4 x = (if cond then 0 else c1 n me * cc n me * (2 - cc n me)) * quad C x := quad_smul _ C
  have q3 : quad A3 x = c1 n me * (∑ i, x i * pc i) ^ 2 :=
    (quad_smul (c1 n me) (fun i j => pc i * pc j)).trans (congrArg _ (quad_outer pc))
  have q2 : quad A2 x = cmu n me * ∑ k, weights (K := K) P.mu k * (∑ i, x i * y k i) ^ 2 := by
    refine (quad_smul (cmu n me) (fun i j => ∑ k, weights (K := K) P.mu k * (y k i * y k j))).trans (congrArg _ ?_)
    refine (quad_sum Finset.univ fun k => (fun i j => weights (K := K) P.mu k * (y k i * y k j))).trans ?_
    refine Finset.sum_congr rfl fun k _ => ?_
    exact (quad_smul _ (fun i j => y k i * y k j)).trans (congrArg _ (quad_outer (y k)))
  rw [e, ← q1, ← q4, ← q3, ← q2]
  refine (quad_add (fun i j => A1 i j + A2 i j + A3 i j) A4).trans (congrArg (· + _) ?_)
  exact (quad_add (fun i j => A1 i j + A2 i j) A3).trans (congrArg (· + _) (quad_add A1 A2))

section
variable {me : K} {arx : Pop K p n} {order : Equiv.Perm (Fin p)} {xold : Vec K n} {sigma : K} {pc : Vec K n} {cond : Bool}
    {C : Matrix (Fin n) (Fin n) K}

theorem quad_adapt_ge (hn : 0 < n) (hm : 1 ≤ me) (h : PosSemi C) (x : Vec K n) :
    (1 - c1 n me - cmu n me) * quad C x ≤ quad (adapt P me arx order xold sigma pc cond C) x := by
  rw [quad_adapt]
  have h1 : 0 ≤ cmu n me * ∑ k, weights (K := K) P.mu k *
          (∑ i, x i * ((arx (order (Fin.castLE P.hmu k)) i - xold i) / sigma)) ^ 2 :=
    mul_nonneg (cmu_nonneg hn hm) (Finset.sum_nonneg fun k _ => mul_nonneg (weights_pos k).le (sq_nonneg _))
  have h2 : 0 ≤ c1 n me * (∑ i, x i * pc i) ^ 2 := mul_nonneg (c1_pos hm).le (sq_nonneg _)
  have h3 : 0 ≤ (if cond then 0 else c1 n me * cc n me * (2 - cc n me)) * quad C x := by
    refine mul_nonneg ?_ (h x)
    split_ifs
    · exact le_refl _
    · have a1 := cc_pos hn hm
      have a2 := cc_lt_one hn hm
      have a3 := c1_pos (n := n) hm
      exact mul_nonneg (mul_nonneg a3.le a1.le) (by linarith)
  linarith

theorem adapt_posSemi (hn : 0 < n) (hm : 1 ≤ me) (h : PosSemi C) : PosSemi (adapt P me arx order xold sigma pc cond C) := fun x =>
  le_trans (mul_nonneg (by have := c1_add_cmu_le n me; linarith) (h x)) (quad_adapt_ge hn hm h x)

theorem adapt_posDef (hn : 0 < n) (hm : 1 ≤ me) (hlt : c1 n me + cmu n me < 1) (h : PosDef C) :
    PosDef (adapt P me arx order xold sigma pc cond C) := fun x hx =>
  lt_of_lt_of_le (mul_pos (by linarith) (h x hx)) (quad_adapt_ge hn hm h.posSemi x)

end

theorem sigmaNext_pos {me sigma : K} {ps : Vec K n} (h : 0 < sigma) : 0 < sigmaNext n me sigma ps :=
  mul_pos h (LawfulNumFns.exp_pos _)

/-- Symmetric, positive semidefinite (definite while part of the old matrix survives), positive step size. -/
structure Valid (mu : Nat) (s : State σ K n) : Prop where
  sym : Sym s.C
  semi : PosSemi s.C
  pos : c1 n (mueff (K := K) mu) + cmu n (mueff mu) < 1 → PosDef s.C
  sigma : 0 < s.sigma

theorem valid_start {m x : Vec K n} {sigma : K} {g : σ} (hs : 0 < sigma) (mu : Nat) : Valid mu (start m x sigma g) :=
  ⟨sym_one, posDef_one.posSemi, fun _ => posDef_one, hs⟩

theorem Valid.advance {s : State σ K n} (hn : 0 < n) (hmu : 0 < P.mu) (h : Valid P.mu s) (k : Nat) (X : Pop K p n)
    (ord : Equiv.Perm (Fin p)) : Valid P.mu (advance P k X ord s) :=
  ⟨adapt_sym h.sym, adapt_posSemi hn (one_le_mueff hmu) h.semi,
    fun hl => adapt_posDef hn (one_le_mueff hmu) hl (h.pos hl), sigmaNext_pos h.sigma⟩

theorem diagonalize_ok {s s' : State σ K n} {k : Nat} (h : diagonalize P s k = .ok s') :
    (∀ j, 0 < (P.eigh n (mirror s.C)).1 j) ∧
    s' = { s with
           C := mirror s.C
           D := fun i => NumFns.sqrt ((P.eigh n (mirror s.C)).1 (P.srt n (fun i => .fin ((P.eigh n (mirror s.C)).1 i)) i))
           B := fun i j => (P.eigh n (mirror s.C)).2 i (P.srt n (fun i => .fin ((P.eigh n (mirror s.C)).1 i)) j)
           invsqrtC := fun i j => ∑ l, (P.eigh n (mirror s.C)).2 i (P.srt n (fun i => .fin ((P.eigh n (mirror s.C)).1 i)) l)
              * (1 / NumFns.sqrt ((P.eigh n (mirror s.C)).1 (P.srt n (fun i => .fin ((P.eigh n (mirror s.C)).1 i)) l)))
              * (P.eigh n (mirror s.C)).2 j (P.srt n (fun i => .fin ((P.eigh n (mirror s.C)).1 i)) l)
           eigeneval := k } := by
  unfold diagonalize at h
  dsimp only at h
  rw [bind_ok_iff] at h
  obtain ⟨u, h1, h⟩ := h
  rw [need_ok] at h1
  cases h
  refine ⟨fun j => ?_, rfl⟩
  have := h1 ((P.srt n fun i => .fin ((P.eigh n (mirror s.C)).1 i)).symm j)
  simpa using this

theorem Valid.update {s s' : State σ K n} (hn : 0 < n) (hmu : 0 < P.mu) (h : Valid P.mu s) {k : Nat} {X : Pop K p n}
    {ord : Equiv.Perm (Fin p)} (hu : update P k X ord s = .ok s') : Valid P.mu s' := by
  have ha := h.advance hn hmu k X ord
  rcases (update_ok hu).2 with e | e
  · rw [e]; exact ha
  · obtain ⟨-, e⟩ := diagonalize_ok e
    have hC : s'.C = (CMAES.advance P k X ord s).C := by rw [e]; exact mirror_of_sym ha.sym
    have hs : s'.sigma = (CMAES.advance P k X ord s).sigma := by rw [e]
    exact ⟨by rw [hC]; exact ha.sym, by rw [hC]; exact ha.semi, fun hl => by rw [hC]; exact ha.pos hl, by rw [hs]; exact ha.sigma⟩

theorem sample_ok {s : State σ K n} {a : Pop K p n × State σ K n} (h : sample P s = .ok a) :
    ∃ g, a.2 = { s with
                 rng := g } := by
  cases h; exact ⟨_, rfl⟩

theorem reach_valid {Q : Evo.Par K n} {c : Cfg} {m x : Vec K n} {sigma : K} {g : σ} (hn : 0 < n) (hmu : 0 < P.mu)
    (hs : 0 < sigma) {L : St (State σ K n) K p n} (h : Reach Q (gauss P) c (start m x sigma g) L) : Valid P.mu L.s := by
  induction h with
  | start => exact valid_start hs _
  | step _ hb ih =>
    obtain ⟨hp, a, e, rows, s, h1, h2, h3, h4, h5, h6, rfl⟩ := body_ok hb
    obtain ⟨g, hg⟩ := sample_ok h1
    have : Valid P.mu a.2 := by rw [hg]; exact ⟨ih.sym, ih.semi, ih.pos, ih.sigma⟩
    exact this.update hn hmu h5

end CMAES
end Stochopy
