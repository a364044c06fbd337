import Verif.Model.Histogram

/-!
# `std::lower_bound` as the loop it is

`Hist.lowerBound` in `Model/Histogram.lean` is what the C++ standard promises for a partitioned range. Here is the loop of the
standard library; C108 shows that the range is always partitioned and that the two agree.
-/

namespace KML.Hist

variable {F : Type} (A : Arith F)

/-- `std::lower_bound` (libstdc++, bits/stl_algobase.h `__lower_bound`): halve, compare the middle element.
Used at /repo/tools/cpp/KML/include/data_structures/histograms/IStreamingHistogram.tcc:206. `fuel` bounds the iterations. -/
def lowerBoundLoop (xs : List F) (q : F) : (fuel first len : ℕ) → Res ℕ
  | 0, first, len => if 0 < len then .ub .diverge else .ok first
  | fuel + 1, first, len =>
    if 0 < len then
      let half := len / 2
      match xs[first + half]? with
      | none => .ub .oob
      | some x => if A.lt x q then lowerBoundLoop xs q fuel (first + half + 1) (len - half - 1)
        else lowerBoundLoop xs q fuel first half
    else .ok first

/-- The call in `quantile`. -/
def lowerBoundStd (xs : List F) (q : F) : Res ℕ := lowerBoundLoop A xs q xs.length 0 xs.length

/-- The iterator arithmetic of `quantile` after the search.
/repo/tools/cpp/KML/include/data_structures/histograms/IStreamingHistogram.tcc:207-215. -/
def quantileStep (cdf : List F) (q : F) (it : ℕ) : Res ℕ :=
  match cdf[it]? with
  | none => if cdf.length = 0 then .ub .oob else .ok (cdf.length - 1)
  | some v => if it ≠ 0 && A.lt q v then .ok (it - 1) else .ok it

/-- `quantile` with that loop: the same text as `Hist.quantile` otherwise.
/repo/tools/cpp/KML/include/data_structures/histograms/IStreamingHistogram.tcc:195-244. -/
def quantileStd (h : Hist F) (q : F) : Res F :=
  if A.lt q (A.lit 0) || A.lt (A.lit 1) q then .throw "Percentile must be in closed range [0, 1]!"
  else do
    let cdf := h.cdf A true
    let it ← lowerBoundStd A cdf q
    let index ← quantileStep A cdf q it
    match cdf[index]?, h.bins[index]? with
    | some c, some b =>
      if Utils.essentiallyEqual A q c (Utils.defaultEps A) then .ok b.left
      else match cdf[index + 1]? with
        | none => .ub .oob
        | some c' =>
          let p := A.sub c' c
          let width := A.sub b.right b.left
          let width := if A.eq width (A.lit 0) then A.div (A.lit 1) (A.ofNat h.numBins) else width
          .ok (A.add b.left (A.div (A.mul (A.mul width p) (A.ofNat h.total)) (A.ofNat b.count)))
    | _, _ => .ub .oob

end KML.Hist
