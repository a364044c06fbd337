import Verif.Lemmas.Window
import Verif.Model.Quantile
import Verif.Model.Histogram

/-! # C14: batch update -/

namespace KML

variable {σ α : Type}

/-- **C14**: for every class with an `update`, the batch is the left-to-right sequence of single updates
(`foldlM` of the outcome monad stops at the first failure with that failure). -/
theorem C14_batch_is_sequence (update : σ → α → Res σ) (s : σ) (xs : List α) :
    updateAll update s xs = xs.foldlM update s := by
  induction xs generalizing s with
  | nil => rfl
  | cons x xs ih => simp [updateAll, ih]

/-- **C14**: splitting a batch anywhere makes no difference. -/
theorem C14_batch_split (update : σ → α → Res σ) (s : σ) (xs ys : List α) :
    updateAll update s (xs ++ ys) = updateAll update s xs >>= fun s' => updateAll update s' ys :=
  updateAll_append update s xs ys

/-- **C14**: if the elements before `x` succeed and `x` fails, the batch fails in the same way
whatever follows. -/
theorem C14_batch_failure (update : σ → α → Res σ) (s s' : σ) (xs ys : List α) (x : α)
    (hpre : xs.foldlM update s = .ok s') :
    (∀ u, update s' x = .ub u → updateAll update s (xs ++ x :: ys) = .ub u) ∧
    (∀ m, update s' x = .throw m → updateAll update s (xs ++ x :: ys) = .throw m) := by
  rw [← C14_batch_is_sequence] at hpre
  constructor <;> intro e he <;> rw [updateAll_append, hpre] <;> simp [updateAll, he]

/-- A batch of four into a buffer of three, split 1 + 3. -/
example : updateAll RingBuffer.update (RingBuffer.new 3 : RingBuffer ℕ) [1, 2, 3, 4] =
    (updateAll RingBuffer.update (RingBuffer.new 3) [1] >>= fun b =>
      updateAll RingBuffer.update b [2, 3, 4]) := C14_batch_split _ _ [1] _

/-- The hypotheses of `C14_batch_failure` are met: the first element into a zero-size buffer fails. -/
example : updateAll RingBuffer.update (RingBuffer.new 0 : RingBuffer ℕ) ([] ++ 7 :: [8, 9]) = .ub .oob :=
  (C14_batch_failure RingBuffer.update _ _ [] [8, 9] 7 rfl).1 .oob rfl

end KML
