import Verif.Props.HistQueries
import Verif.Model.RealLog
import Verif.Spec.Entropy

/-! # Entropy updates -/

set_option linter.unusedSectionVars false

namespace KML

open Spec

namespace Hist

/-- Sum over the bins of a function of the count. -/
noncomputable def wsum {F : Type} (f : ℕ → ℝ) (l : List (Bin F)) : ℝ := (l.map fun b => f b.count).sum

theorem Placed.wsum {F : Type} {A : Arith F} {x : F} {t0 : Prop} {i : ℕ} {l l' : List (Bin F)}
    (h : Placed A x t0 i l l') (h0 : t0 → l = []) (f : ℕ → ℝ) (hf : f 0 = 0) :
    ∃ b, l'[i]? = some b ∧ 0 < b.count ∧ wsum f l' + f (b.count - 1) = wsum f l + f b.count := by
  cases h with
  | push _ _ hi hc =>
    have hi' : i = l.length := by
      rcases hc with hc | hc
      · rw [h0 hc] at hi ⊢; simpa using hi
      · exact hc.1
    refine ⟨unit x, by simp [hi'], Nat.one_pos, ?_⟩
    simp [Hist.wsum, hf]
  | inc l1 l2 b =>
    refine ⟨{ b with count := b.count + 1 }, by simp, Nat.succ_pos _, ?_⟩
    simp [Hist.wsum]; ring
  | insert l1 l2 b =>
    refine ⟨unit x, by simp, Nat.one_pos, ?_⟩
    simp [Hist.wsum, hf]; ring

end Hist

namespace Entropy

/-! ### Structure, any arithmetic -/

variable {F : Type} {L : LArith F}

theorem increment_frame {e e' : Entropy F} {i : ℕ} (h : e.increment L i = .ok e') :
    e'.hist = e.hist ∧ e'.window = e.window ∧ e'.windowSize = e.windowSize ∧ e'.historyCount = e.historyCount := by
  unfold increment at h
  obtain ⟨b, -, h⟩ := Res.bind_eq_ok.1 h
  obtain ⟨x1, -, h⟩ := Res.bind_eq_ok.1 h
  obtain ⟨x2, -, h⟩ := Res.bind_eq_ok.1 h
  simp only at h
  split at h <;> (injection h with h; subst h; exact ⟨rfl, rfl, rfl, rfl⟩)

theorem decrement_frame {e e' : Entropy F} {i : ℕ} (h : e.decrement L i = .ok e') :
    e'.hist = e.hist ∧ e'.window = e.window ∧ e'.windowSize = e.windowSize ∧ e'.historyCount = e.historyCount := by
  unfold decrement at h
  obtain ⟨b, -, h⟩ := Res.bind_eq_ok.1 h
  obtain ⟨x1, -, h⟩ := Res.bind_eq_ok.1 h
  obtain ⟨x2, -, h⟩ := Res.bind_eq_ok.1 h
  injection h with h
  subst h
  exact ⟨rfl, rfl, rfl, rfl⟩

/-- An update that does not overflow the window of indices. -/
theorem update_room {e : Entropy F} {x : F} {i : ℕ} {w : List ℕ} (hi : e.hist.binSearch L.toArith x = .ok i)
    (hw : e.window = some w) (hl : w.length < e.windowSize) :
    e.update L x = (do
      let hist ← e.hist.update L.toArith x
      let e' ← ({ e with window := some (w ++ [i]), hist := hist } : Entropy F).increment L i
      .ok { e' with historyCount := e'.historyCount + 1 }) := by
  unfold update
  rw [hi, Res.ok_bind]
  simp only [hw]
  rcases w with _ | ⟨a, w⟩
  · simp at hl
    simp only [List.nil_append, List.length_singleton]
    rw [if_neg (by omega)]
    rfl
  · simp only [List.cons_append, List.length_cons, List.length_append, List.length_nil]
    simp only [List.length_cons] at hl
    rw [if_neg (by omega)]
    rfl

/-- An update that overflows it. -/
theorem update_evict {e : Entropy F} {x : F} {i : ℕ} {w : List ℕ} (hi : e.hist.binSearch L.toArith x = .ok i)
    (hw : e.window = some w) (hl : e.windowSize ≤ w.length) :
    ∃ front rest, w ++ [i] = front :: rest ∧ e.update L x = (do
      let e1 ← e.decrement L front
      let hist ← e1.hist.update L.toArith x
      let e' ← ({ e1 with window := some rest, hist := hist } : Entropy F).increment L i
      .ok { e' with historyCount := e'.historyCount + 1 }) := by
  rcases hc : w ++ [i] with _ | ⟨front, rest⟩
  · simp at hc
  refine ⟨front, rest, rfl, ?_⟩
  unfold update
  rw [hi, Res.ok_bind]
  simp only [hw, hc]
  have : (front :: rest).length > e.windowSize := by rw [← hc]; simp; omega
  simp only [if_pos this, Res.ok_bind]

/-- The histogram inside evolves on its own. -/
theorem update_hist {e e' : Entropy F} {x : F} (h : e.update L x = .ok e') :
    e.hist.update L.toArith x = .ok e'.hist ∧ e'.windowSize = e.windowSize ∧
    e'.historyCount = e.historyCount + 1 := by
  obtain ⟨i, hi, -⟩ := C50_defined L.toArith e.hist x
  rcases hw : e.window with _ | w
  · unfold update at h
    rw [hi, Res.ok_bind] at h
    simp only [hw] at h
    cases h
  · rcases Nat.lt_or_ge w.length e.windowSize with hl | hl
    · rw [update_room hi hw hl] at h
      obtain ⟨h1, e1, h⟩ := Res.bind_eq_ok.1 h
      obtain ⟨e2, e3, h⟩ := Res.bind_eq_ok.1 h
      obtain ⟨f1, -, f3, f4⟩ := increment_frame e3
      injection h with h
      subst h
      exact ⟨by rw [e1, f1], f3, by simp only; rw [f4]⟩
    · obtain ⟨fr, rest, -, he⟩ := update_evict (L := L) hi hw hl
      rw [he] at h
      obtain ⟨e0, g1, h⟩ := Res.bind_eq_ok.1 h
      obtain ⟨h1, e1, h⟩ := Res.bind_eq_ok.1 h
      obtain ⟨e2, e3, h⟩ := Res.bind_eq_ok.1 h
      obtain ⟨f1, -, f3, f4⟩ := increment_frame e3
      obtain ⟨k1, -, k3, k4⟩ := decrement_frame g1
      injection h with h
      subst h
      rw [k1] at e1
      exact ⟨by rw [e1, f1], f3.trans k3, by simp only; rw [f4]; simp only; rw [k4]⟩

theorem run_hist {e e' : Entropy F} {xs : List F} (h : updateAll (Entropy.update L) e xs = .ok e') :
    updateAll (Hist.update L.toArith) e.hist xs = .ok e'.hist ∧ e'.windowSize = e.windowSize ∧
    e'.historyCount = e.historyCount + xs.length := by
  induction xs generalizing e with
  | nil => simp only [updateAll] at h ⊢; injection h with h; subst h; exact ⟨rfl, rfl, rfl⟩
  | cons x xs ih =>
    simp only [updateAll] at h ⊢
    obtain ⟨e1, g1, g2⟩ := Res.bind_eq_ok.1 h
    obtain ⟨k1, k2, k3⟩ := update_hist g1
    obtain ⟨l1, l2, l3⟩ := ih g2
    rw [k1, Res.ok_bind]
    exact ⟨l1, l2.trans k2, by rw [l3, k3, List.length_cons]; omega⟩

/-! ### Real arithmetic -/

/-- `x log2 x`. -/
noncomputable def g (x : ℝ) : ℝ := x * Real.logb 2 x

theorem g_zero : g 0 = 0 := by simp [g]

theorem xlogx_real {x : ℝ} (h : 0 ≤ x) : Utils.xlogx realL x = .ok (g x) := by
  unfold Utils.xlogx
  have h1 : realL.lt x (realL.lit 0) = false := by
    show decide (x < ((0 : ℚ) : ℝ)) = false
    simp [h]
  have h2 : realL.eq (realL.lit 0) x = decide (0 = x) := by
    show decide (((0 : ℚ) : ℝ) = x) = _
    simp
  have h3 : realL.lit 0 = (0 : ℝ) := by show ((0 : ℚ) : ℝ) = 0; simp
  rw [h1, h2]
  simp only [Bool.false_eq_true, if_false, decide_eq_true_eq]
  by_cases hx : 0 = x
  · rw [if_pos hx, h3, ← hx, g_zero]
  · rw [if_neg hx]; rfl

theorem ofNat_real (n : ℕ) : realL.ofNat n = (n : ℝ) := Hist.ofNat_exact n

theorem lit_one : realL.lit 1 = (1 : ℝ) := by show ((1 : ℚ) : ℝ) = 1; simp

theorem lit_zero : realL.lit 0 = (0 : ℝ) := by show ((0 : ℚ) : ℝ) = 0; simp

theorem max_real (c : ℕ) : realL.max (realL.lit 0) (realL.sub (realL.ofNat c) (realL.lit 1)) = ((c - 1 : ℕ) : ℝ) := by
  rw [ofNat_real, lit_one, lit_zero]
  show (if decide ((0 : ℝ) < (c : ℝ) - 1) = true then (c : ℝ) - 1 else 0) = _
  rcases c with _ | _ | c
  · norm_num
  · norm_num
  · have : (0 : ℝ) < ((c + 1 + 1 : ℕ) : ℝ) - 1 := by
      push_cast
      have : (0 : ℝ) ≤ c := Nat.cast_nonneg c
      linarith
    rw [if_pos (decide_eq_true this)]
    push_cast
    simp

/-- `increment` at a bin. -/
theorem increment_real {e : Entropy ℝ} {i : ℕ} {b : Bin ℝ} (hb : e.hist.bins[i]? = some b) :
    e.increment realL i = .ok { e with
      entropy := if e.hist.total = 1 then -g ((b.count : ℝ) / e.hist.total) + g (((b.count - 1 : ℕ) : ℝ) / e.hist.total)
        else ((e.hist.total : ℝ) - 1) / e.hist.total *
            (e.entropy - Real.logb 2 (((e.hist.total : ℝ) - 1) / e.hist.total)) +
          (-g ((b.count : ℝ) / e.hist.total) + g (((b.count - 1 : ℕ) : ℝ) / e.hist.total)) } := by
  have hi : i < e.hist.bins.length := (List.getElem?_eq_some_iff.1 hb).1
  have hg : e.hist.getBin i = .ok b := by
    unfold Hist.getBin
    rw [if_neg (by omega), hb]
  unfold increment
  have hd1 : realL.div (realL.ofNat b.count) (realL.ofNat e.hist.total) = (b.count : ℝ) / e.hist.total := by
    rw [ofNat_real, ofNat_real]; rfl
  have hd2 : realL.div (realL.max (realL.lit 0) (realL.sub (realL.ofNat b.count) (realL.lit 1)))
      (realL.ofNat e.hist.total) = ((b.count - 1 : ℕ) : ℝ) / e.hist.total := by
    rw [max_real, ofNat_real]; rfl
  dsimp only
  rw [show e.hist.getTotalCount = e.hist.total from rfl]
  simp only [hg, Res.ok_bind, hd1, hd2]
  rw [xlogx_real (by positivity), Res.ok_bind, xlogx_real (by positivity), Res.ok_bind]
  have heq : realL.eq (realL.lit 1) (realL.ofNat e.hist.total) = decide (e.hist.total = 1) := by
    rw [lit_one, ofNat_real]
    show decide ((1 : ℝ) = (e.hist.total : ℝ)) = _
    rw [decide_eq_decide]
    constructor
    · intro h; exact_mod_cast h.symm
    · intro h; rw [h]; simp
  split
  · rename_i h2
    have h1 : e.hist.total = 1 := by rw [heq] at h2; simpa using h2
    simp only [if_pos h1]; rfl
  · rename_i h2
    have h1 : ¬ e.hist.total = 1 := by rw [heq] at h2; simpa using h2
    simp only [if_neg h1]
    rw [lit_one, ofNat_real]; rfl

/-- `decrement` at a bin is defined. -/
theorem decrement_real {e : Entropy ℝ} {i : ℕ} {b : Bin ℝ} (hb : e.hist.bins[i]? = some b) (ht : 0 < e.hist.total) :
    e.decrement realL i = .ok { e with
      entropy := ((e.hist.total : ℝ) - 1 + 1) / ((e.hist.total : ℝ) - 1) *
        (e.entropy + g ((((b.count - 1 : ℕ) : ℝ) + 1) / ((e.hist.total : ℝ) - 1 + 1)) -
          g (((b.count - 1 : ℕ) : ℝ) / ((e.hist.total : ℝ) - 1 + 1))) +
        Real.logb 2 (((e.hist.total : ℝ) - 1) / ((e.hist.total : ℝ) - 1 + 1)) } := by
  have hi : i < e.hist.bins.length := (List.getElem?_eq_some_iff.1 hb).1
  have hg : e.hist.getBin i = .ok b := by
    unfold Hist.getBin
    rw [if_neg (by omega), hb]
  have hn : (0 : ℝ) ≤ (e.hist.total : ℝ) - 1 := by
    have : (1 : ℝ) ≤ e.hist.total := by exact_mod_cast ht
    linarith
  unfold decrement
  simp only [Hist.getTotalCount, hg, Res.ok_bind]
  rw [max_real, ofNat_real, lit_one]
  have hd1 : realL.div (realL.add ((b.count - 1 : ℕ) : ℝ) 1) (realL.add (realL.sub (e.hist.total : ℝ) 1) 1) =
      (((b.count - 1 : ℕ) : ℝ) + 1) / ((e.hist.total : ℝ) - 1 + 1) := rfl
  have hd2 : realL.div ((b.count - 1 : ℕ) : ℝ) (realL.add (realL.sub (e.hist.total : ℝ) 1) 1) =
      ((b.count - 1 : ℕ) : ℝ) / ((e.hist.total : ℝ) - 1 + 1) := rfl
  rw [hd1, hd2, xlogx_real (by positivity), Res.ok_bind, xlogx_real (by positivity), Res.ok_bind]
  rfl

end Entropy

end KML
