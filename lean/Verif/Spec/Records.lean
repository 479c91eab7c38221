import Verif.Model.Records

/-!
# What a callback that writes into the history changes

Given only a run whose callback writes nothing: the rows recorded in it and the writes give the rows of the other run.
-/

namespace Stochopy

variable {K σ : Type} {p n : Nat}

/-- Every entry of the history `h` is replaced by what call `k` leaves in its place. -/
def HistWrites.over (w : HistWrites K n) (k : Nat) (h : Hist K n) : Hist K n :=
  (h.1.zipIdx.map fun r => r.1.zipIdx.map fun e => w.x k h r.2 e.2 e.1, h.2.zipIdx.map fun r => r.1.zipIdx.map fun e => w.f k h r.2 e.2 e.1)

/-- Rows `X`, `F` are recorded one after the other, and after each of them the callback writes. -/
def HistWrites.after (w : HistWrites K n) (X : List (List (Vec K n))) (F : List (List (Val K))) : Hist K n :=
  (X.zip F).foldl (fun h r => w.over h.1.length (h.1 ++ [r.1], h.2 ++ [r.2])) ([], [])

/-- The rows at the call that follows the recording of the last row. -/
def HistWrites.shown (w : HistWrites K n) (X : List (List (Vec K n))) (F : List (List (Val K))) : Hist K n :=
  let h := w.after X.dropLast F.dropLast
  (h.1 ++ X.getLast?.toList, h.2 ++ F.getLast?.toList)

/-- Only the history differs. -/
def CB.withWrites (w : HistWrites K n) (b : CB K p n) : CB K p n :=
  match b.xall, b.funall with
  | some X, some F => { b with xall := some (w.shown X F).1, funall := some (w.shown X F).2 }
  | _, _ => b

def Result.withWrites (w : HistWrites K n) (r : Result K n) : Result K n :=
  match r.xall, r.funall with
  | some X, some F => { r with xall := some (w.after X F).1, funall := some (w.after X F).2 }
  | _, _ => r

def Output.withWrites (w : HistWrites K n) (o : Output σ K p n) : Output σ K p n :=
  { o with res := o.res.withWrites w, cbs := o.cbs.map (CB.withWrites w) }

end Stochopy
