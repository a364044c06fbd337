import Verif.Lemmas.NotebookData
import Verif.Lemmas.HistFast
import Verif.Props.EntropyPython
import Verif.Props.EntropyError
import Verif.Props.DoubleHist

/-!
# C130: the two runs recorded in StreamingEntropy.ipynb

/repo/tools/python/kml/notebooks/statistics/summary/StreamingEntropy.ipynb constructs `PyStreamingEntropy(1000, 100)` twice
and updates one with a thousand ones, the other with a thousand uniform numbers. It records `0.0` and
`7.330546350478285`.
-/

namespace KML

open Spec Utils Notebook

theorem Hist.placedBelow_cons {F : Type} {A : Arith F} {h h2 : Hist F} {x : F} {xs : List F}
    (hp : h.placedBelow A (x :: xs) = some h2) :
    ∃ i h1, h.binSearch A x = .ok i ∧ i < h.numBins ∧ h.update A x = .ok h1 ∧ h1.placedBelow A xs = some h2 := by
  unfold Hist.placedBelow at hp
  cases hi : h.binSearch A x with
  | throw m => rw [hi] at hp; cases hp
  | ub u => rw [hi] at hp; cases hp
  | ok i =>
    rw [hi] at hp
    simp only at hp
    by_cases hlt : i < h.numBins
    · rw [if_pos hlt] at hp
      cases hu : h.update A x with
      | throw m => rw [hu] at hp; cases hp
      | ub u => rw [hu] at hp; cases hp
      | ok h1 =>
        rw [hu] at hp
        exact ⟨i, h1, rfl, hlt, rfl, hp⟩
    · rw [if_neg hlt] at hp; cases hp

theorem Hist.Sim.binSearch {F G : Type} {A : Arith F} {B : Arith G} {g : F → G} {P : F → Prop} (s : Hist.Sim A B g P)
    {h : Hist F} (hl : Hist.Edges P h.bins) {x : F} (hx : P x) : (h.map g).binSearch B (g x) = h.binSearch A x := by
  have := s.search hl (c := ⟨x, x, 1⟩) hx h.bins.length 0 h.bins.length ((0 + h.bins.length) / 2)
  unfold Hist.binSearch Hist.binSearchBin
  simpa using this

/-- An update of the histogram on doubles that places the observation among the first bins is an update of the entropy. -/
theorem Entropy.follows {L : LArith Dbl} (hL : L.toArith = Dbl.arith) {W n : ℕ} (hW : 0 < W) {e0 : Entropy Dbl}
    (h0 : Entropy.new L W n = .ok e0) {h2 : Hist ℚ} {xs : List ℚ} (hx : ∀ x ∈ xs, |x| ≤ dblMax / 2) :
    ∀ {ys : List Dbl} {e : Entropy Dbl} {h : Hist ℚ}, updateAll (Entropy.update L) e0 ys = .ok e → e.hist = h.map .fin →
      Hist.Edges (fun x => |x| ≤ dblMax / 2) h.bins → h.placedBelow b64 xs = some h2 →
      ∃ e', updateAll (Entropy.update L) e0 (ys ++ xs.map Dbl.fin) = .ok e' ∧ e'.hist = h2.map .fin ∧
        Hist.Edges (fun x => |x| ≤ dblMax / 2) h2.bins := by
  induction xs with
  | nil =>
    intro ys e h hr he hl hp
    injection hp with hp
    subst hp
    exact ⟨e, by simpa using hr, he, hl⟩
  | cons x xs ih =>
    intro ys e h hr he hl hp
    obtain ⟨i, h1, hi, hlt, hu, hp⟩ := Hist.placedBelow_cons hp
    have hxx := hx x List.mem_cons_self
    obtain ⟨u1, u2⟩ := Hist.sim_dbl.update hl hxx
    rw [hu, Res.map_ok] at u1
    have hb := Hist.sim_dbl.binSearch hl hxx
    rw [hi] at hb
    obtain ⟨-, j, k1, k2⟩ := C106_outcome L hL W n hW e0 e h0 ys hr (.fin x)
    rw [hL, he] at k1 k2
    rw [hb] at k1
    injection k1 with k1
    subst k1
    rw [u1] at k2
    rcases k2 with ⟨u, k, -⟩ | ⟨h', k, ⟨k3, -⟩ | ⟨-, e', k4⟩⟩
    · cases k
    · have : i = h.numBins := k3
      omega
    have hr' : updateAll (Entropy.update L) e0 (ys ++ [.fin x]) = .ok e' := by
      rw [updateAll_snoc, hr, Res.ok_bind]; exact k4
    have he' : e'.hist = h1.map .fin := by
      have := Entropy.update_hist k4
      rw [hL, he, u1] at this
      have h := this.1
      injection h with h
      exact h.symm
    obtain ⟨e2, r1, r2⟩ := ih (fun y hy => hx y (List.mem_cons_of_mem _ hy)) hr' he' (u2 _ hu) hp
    exact ⟨e2, by simpa using r1, r2⟩

/-- The histogram of the notebook takes 261 observations; the next one, 0.99005..., goes after its hundred bins. -/
def Notebook.check : Option ℕ :=
  match Fast.run 100 [] (first262.take 261) with
  | some l => Fast.search l 8917612300812570 l.length 0 l.length ((0 + l.length) / 2)
  | none => none

set_option maxRecDepth 100000 in
theorem Notebook.check_eq : Notebook.check = some 100 := by decide +kernel

theorem Notebook.first262_small : ∀ n ∈ first262, n ≤ 2 ^ 53 := by decide +kernel

theorem Notebook.first262_length : first262.length = 262 := by decide +kernel

theorem Notebook.first262_last : first262 = first262.take 261 ++ [8917612300812570] := by decide +kernel

theorem Notebook.prefix_eq : ∃ rest, uniformData = (first262.take 261).map Fast.val ++
    (Fast.val 8917612300812570 :: rest) := by
  have h1 : drawn = first262 ++ drawn.drop 262 := by
    rw [← drawn_prefix, List.take_append_drop]
  have h2 : drawn = first262.take 261 ++ ([8917612300812570] ++ drawn.drop 262) := by
    rw [← List.append_assoc, ← first262_last]; exact h1
  refine ⟨(drawn.drop 262).map Fast.val, ?_⟩
  have h3 : uniformData = drawn.map Fast.val := rfl
  generalize hd : drawn.drop 262 = rest at *
  rw [h3, h2, List.map_append, List.map_append, List.map_cons, List.map_nil, List.singleton_append]

/-- The entropy of the notebook follows the histogram, and the 262nd update is undefined. -/
theorem Notebook.uniform_run (L : LArith Dbl) (hL : L.toArith = Dbl.arith) {e0 : Entropy Dbl}
    (h0 : Entropy.new L 1000 100 = .ok e0) (hhist : e0.hist = Hist.new 100 1000) {l : List Fast.Edge} {data : List ℕ} {x : ℕ}
    (hdata : ∀ n ∈ data, n ≤ 2 ^ 53) (hlen : data.length ≤ 1000) (hx : x ≤ 2 ^ 53) (hr : Fast.run 100 [] data = some l)
    (hs : Fast.search l x l.length 0 l.length ((0 + l.length) / 2) = some 100) :
    (updateAll (Entropy.update L) e0 ((data.map Fast.val).map .fin)).IsOk ∧
      updateAll (Entropy.update L) e0 ((data.map Fast.val).map .fin ++ [.fin (Fast.val x)]) = .ub .oob := by
  have hsm : ∀ n : ℕ, n ≤ 2 ^ 53 → |Fast.val n| ≤ dblMax / 2 := by
    intro n hn
    rw [abs_of_nonneg (Fast.val_nonneg n)]
    have h2 : Fast.val n ≤ 1 := by
      unfold Fast.val
      rw [div_le_one (by positivity)]
      exact_mod_cast hn
    exact h2.trans (by decide +kernel)
  obtain ⟨h, p1, p2⟩ := Fast.run_sound hdata (h := Hist.new 100 1000) (l := []) (room := 0)
    ⟨rfl, fun e he => absurd he List.not_mem_nil, rfl, (by show 0 + (0 + data.length) ≤ 1000; omega), fun _ => rfl⟩ hr
  obtain ⟨e, r1, r2, r3⟩ := Entropy.follows hL (by norm_num) h0 (xs := data.map Fast.val)
    (by intro y hy; obtain ⟨n, hn, rfl⟩ := List.mem_map.1 hy; exact hsm n (hdata n hn))
    (ys := []) (e := e0) rfl (h := Hist.new 100 1000) hhist (fun b hb => absurd hb List.not_mem_nil) p1
  rw [List.nil_append] at r1
  refine ⟨⟨e, r1⟩, ?_⟩
  rw [updateAll_snoc, r1, Res.ok_bind]
  have hb := Hist.sim_dbl.binSearch r3 (hsm x hx)
  rw [Fast.search_hist p2 hx hs, ← r2] at hb
  have hn : e.hist.numBins = 100 := by rw [r2]; exact p2.bins
  obtain ⟨-, j, k1, k2⟩ := C106_outcome L hL 1000 100 (by norm_num) _ e h0 _ r1 (.fin (Fast.val x))
  rw [hL, hb] at k1
  injection k1 with k1
  rcases k2 with ⟨u, k, k'⟩ | ⟨h', -, ⟨-, k⟩ | ⟨k3, -⟩⟩
  · rw [k']
    rcases Hist.update_cases (A := L.toArith) e.hist (.fin (Fast.val x)) with ⟨_, _, _, _, q, -⟩ | ⟨q, -⟩
    · rw [k] at q; cases q
    · rw [k] at q
      injection q with q
      rw [q]
  · exact k
  · omega

/-! ## C130 -/

/-- The full property: the notebook's thousand observations are processed. It is false of the code. -/
def C130_full : Prop := ∀ L : LArith Dbl, L.Accurate → ∀ e0, Entropy.new L 1000 100 = .ok e0 →
  (updateAll (Entropy.update L) e0 (uniformData.map .fin)).IsOk

/-- **C130** (doubles, any `std::log2`): of the thousand uniform numbers of the notebook 261 are processed; the 262nd,
0.99005385..., is above the left edge of the last of the hundred bins, and `getBin` reads a bin past the end of the
vector. -/
theorem C130_uniform (L : LArith Dbl) (hL : L.toArith = Dbl.arith) :
    ∃ e0, Entropy.new L 1000 100 = .ok e0 ∧
      (updateAll (Entropy.update L) e0 ((uniformData.take 261).map .fin)).IsOk ∧
      updateAll (Entropy.update L) e0 ((uniformData.take 262).map .fin) = .ub .oob ∧
      updateAll (Entropy.update L) e0 (uniformData.map .fin) = .ub .oob := by
  have h0 : Entropy.new L 1000 100 = .ok ⟨1000, some [], 0, Hist.new 100 1000, L.lit 0⟩ := rfl
  generalize he0 : (⟨1000, some [], 0, Hist.new 100 1000, L.lit 0⟩ : Entropy Dbl) = e0 at h0
  refine ⟨e0, h0, ?_⟩
  obtain ⟨rest, hrest⟩ := prefix_eq
  have hc := check_eq
  have hlen : (first262.take 261).length = 261 := by rw [List.length_take, first262_length]; rfl
  have hsmall : ∀ n ∈ first262.take 261, n ≤ 2 ^ 53 := fun n hn => first262_small n (List.mem_of_mem_take hn)
  unfold check at hc
  rw [hrest]
  generalize first262.take 261 = data at *
  cases hp : Fast.run 100 [] data with
  | none => rw [hp] at hc; cases hc
  | some l =>
    rw [hp] at hc
    obtain ⟨r1, r2⟩ := uniform_run L hL h0 (by rw [← he0]) hsmall (by omega) (x := 8917612300812570) (by norm_num) hp hc
    have hl' : (data.map Fast.val).length = 261 := by rw [List.length_map]; exact hlen
    generalize data.map Fast.val = d at *
    generalize Fast.val 8917612300812570 = y at *
    refine ⟨?_, ?_, ?_⟩
    · rw [List.take_append_of_le_length (by omega), List.take_of_length_le (by omega)]
      exact r1
    · rw [List.take_append, List.take_of_length_le (by omega), hl']
      simpa using r2
    · rw [List.map_append, List.map_cons, ← List.singleton_append, ← List.append_assoc, updateAll_append, r2]
      rfl

theorem C130_violated : ¬ C130_full := by
  intro h
  obtain ⟨L, hL⟩ := exists_accurate
  obtain ⟨e0, h0, -, -, hu⟩ := C130_uniform L hL.arith
  obtain ⟨e, he⟩ := h L hL e0 h0
  rw [hu] at he
  cases he

/-! ### Constant data -/

namespace Entropy

variable {L : LArith Dbl}

/-- What the constant runs need of `std::log2` and unary minus: the logarithm of 1 is 0, those of other doubles up to 1 are
doubles. -/
structure ExactOne (L : LArith Dbl) : Prop where
  arith : L.toArith = Dbl.arith
  neg : ∀ q : ℚ, L.neg (.fin q) = .fin (-q)
  one : L.log2 (.fin 1) = .fin 0
  log2 : ∀ q : ℚ, IsDouble q → 0 < q → q ≤ 1 → ∃ l : ℚ, IsDouble l ∧ L.log2 (.fin q) = .fin l

/-- The state after `k ≥ 1` times the observation `x`. -/
def constState (W B k : ℕ) (x : Dbl) : Entropy Dbl :=
  ⟨W, some (List.replicate k 0), k, ⟨B, W, [⟨x, x, k⟩], List.replicate W 0 ++ List.replicate k 0, k, k, 1⟩, .fin 0⟩

theorem self_not_less {x : ℚ} (hx : |x| ≤ dblMax) :
    definitelyLessThan Dbl.arith (.fin x) (.fin x) (defaultEps Dbl.arith) = false := by
  obtain ⟨e1, -, e3, e4, -, -⟩ := Dbl.eps_fin
  rw [e1, Dbl.less_fin hx hx e3 e4]
  unfold definitelyLessThan
  have h1 : b64.sub x x = 0 := by show rnd64 (x - x) = 0; rw [sub_self, rnd64_zero]
  rw [h1]
  have h2 := (Dbl.tol_fin hx hx e3 e4).2.1
  exact decide_eq_false (not_lt.2 h2)

theorem xlogx_one (hL : ExactOne L) : Utils.xlogx L (.fin 1) = .ok (.fin 0) := by
  unfold Utils.xlogx
  rw [hL.one, hL.arith]
  decide +kernel

theorem xlogx_zero (hL : L.toArith = Dbl.arith) : Utils.xlogx L (.fin 0) = .ok (.fin 0) := by
  unfold Utils.xlogx
  rw [hL, dbl_lit_zero]
  have h1 : Dbl.arith.lt (.fin 0) (.fin 0) = false := by decide +kernel
  have h2 : Dbl.arith.eq (.fin 0) (.fin 0) = true := by decide +kernel
  rw [h1, h2]
  rfl

/-- `increment` of a histogram with one bin that holds all `k + 1` observations. -/
theorem increment_const (hL : ExactOne L) {e : Entropy Dbl} {k : ℕ} (hk : k + 1 ≤ 2 ^ 53) {b : Bin Dbl}
    (hb : e.hist.bins = [b]) (hc : b.count = k + 1) (ht : e.hist.total = k + 1) (he : e.entropy = .fin 0) :
    e.increment L 0 = .ok e := by
  have hg : e.hist.getBin 0 = .ok b := by
    unfold Hist.getBin
    rw [hb]
    rfl
  have on : L.ofNat (k + 1) = .fin ((k + 1 : ℕ) : ℚ) := by rw [hL.arith]; exact ofNat_dbl hk
  have hself : ({ e with entropy := .fin 0 } : Entropy Dbl) = e := by rw [← he]
  unfold increment
  simp only [Hist.getTotalCount, ht, hg, Res.ok_bind, hc, on, max_dbl hL.arith hk, Nat.add_sub_cancel]
  have hk0 : ((k + 1 : ℕ) : ℚ) ≠ 0 := by exact_mod_cast Nat.succ_ne_zero k
  have hd1 : L.div (.fin ((k + 1 : ℕ) : ℚ)) (.fin ((k + 1 : ℕ) : ℚ)) = .fin 1 := by
    rw [hL.arith, div_dbl le_rfl (by omega), div_self hk0]
    exact congrArg Dbl.fin (by simpa using rnd64_int 1 (by norm_num))
  have hdk : L.div (.fin (k : ℚ)) (.fin ((k + 1 : ℕ) : ℚ)) = .fin (rnd64 ((k : ℚ) / (k + 1 : ℕ))) := by
    rw [hL.arith]
    exact div_dbl (by omega) (by omega)
  rw [hd1, xlogx_one hL, Res.ok_bind, hdk]
  rcases Nat.eq_zero_or_pos k with rfl | hpos
  · have e0 : rnd64 (((0 : ℕ) : ℚ) / (0 + 1 : ℕ)) = 0 := by simp [rnd64_zero]
    rw [e0, xlogx_zero hL.arith, Res.ok_bind]
    have h1 : L.eq (L.lit 1) (.fin ((0 + 1 : ℕ) : ℚ)) = true := by
      rw [hL.arith, dbl_lit_one]; decide +kernel
    rw [h1, if_pos rfl, hL.neg, hL.arith]
    have : Dbl.arith.add (.fin (-0)) (.fin 0) = .fin 0 := by decide +kernel
    rw [this, hself]
  · set r := rnd64 ((k : ℚ) / (k + 1 : ℕ)) with hr
    have hq0 : (0 : ℚ) < (k : ℚ) := by exact_mod_cast hpos
    have hrd : IsDouble r ∧ 0 < r ∧ r ≤ 1 := by
      have hle : (k : ℚ) / (k + 1 : ℕ) ≤ 1 := by
        rw [div_le_one (by positivity)]; push_cast; linarith
      have hge : (1 / 2 : ℚ) ≤ (k : ℚ) / (k + 1 : ℕ) := by
        rw [div_le_div_iff₀ (by norm_num) (by positivity)]
        push_cast
        have : (1 : ℚ) ≤ k := by exact_mod_cast hpos
        linarith
      have h1 : r ≤ 1 := by
        have := rnd64_mono hle
        rwa [show rnd64 1 = 1 from by simpa using rnd64_int 1 (by norm_num)] at this
      have h2 : 1 / 2 ≤ r := by
        have := rnd64_mono hge
        rwa [show rnd64 (1 / 2) = 1 / 2 from by decide +kernel] at this
      refine ⟨⟨rnd64_idem _, ?_⟩, by linarith, h1⟩
      rw [abs_of_nonneg (by linarith)]
      exact h1.trans (by decide +kernel)
    obtain ⟨l, hl, hlog⟩ := hL.log2 r hrd.1 hrd.2.1 hrd.2.2
    have hrl : |r * l| ≤ dblMax := by
      rw [abs_mul, abs_of_pos hrd.2.1]
      exact (mul_le_of_le_one_left (abs_nonneg l) hrd.2.2).trans hl.2
    have hmul : Dbl.arith.mul (.fin r) (.fin l) = .fin (rnd64 (r * l)) := Dbl.ofRat_fin hrl
    have hx2 : Utils.xlogx L (.fin r) = .ok (.fin (rnd64 (r * l))) := by
      unfold Utils.xlogx
      rw [hlog, hL.arith, dbl_lit_zero]
      have h1 : Dbl.arith.lt (.fin r) (.fin 0) = false := decide_eq_false (not_lt.2 hrd.2.1.le)
      have h2 : Dbl.arith.eq (.fin 0) (.fin r) = false := decide_eq_false hrd.2.1.ne
      rw [h1, h2, hmul]
      rfl
    rw [hx2, Res.ok_bind]
    have h1 : L.eq (L.lit 1) (.fin ((k + 1 : ℕ) : ℚ)) = false := by
      rw [hL.arith, dbl_lit_one]
      exact decide_eq_false (by push_cast; intro h; linarith)
    rw [h1, if_neg (by simp)]
    have hsub : L.sub (.fin ((k + 1 : ℕ) : ℚ)) (L.lit 1) = .fin (k : ℚ) := by
      rw [hL.arith, dbl_lit_one]
      show Dbl.ofRat (((k + 1 : ℕ) : ℚ) + -1) = _
      have e : ((k + 1 : ℕ) : ℚ) + -1 = k := by push_cast; ring
      rw [e]
      exact ofNat_dbl (m := k) (by omega)
    simp only [hsub, hdk, he, hlog]
    rw [hL.neg, hL.arith]
    have hs0 : Dbl.arith.sub (.fin 0) (.fin l) = .fin (-l) := by
      show Dbl.ofRat (0 + -l) = _
      rw [zero_add, Dbl.ofRat_fin (by rw [abs_neg]; exact hl.2), rnd64_neg, hl.1]
    have hm2 : Dbl.arith.mul (.fin r) (.fin (-l)) = .fin (-rnd64 (r * l)) := by
      show Dbl.ofRat (r * -l) = _
      rw [mul_neg, Dbl.ofRat_fin (by rw [abs_neg]; exact hrl), rnd64_neg]
    have hle := rnd64_le_dblMax hrl
    have ha1 : Dbl.arith.add (.fin (-0)) (.fin (rnd64 (r * l))) = .fin (rnd64 (r * l)) := by
      show Dbl.ofRat (-0 + rnd64 (r * l)) = _
      rw [neg_zero, zero_add, Dbl.ofRat_fin hle, rnd64_idem]
    have ha2 : Dbl.arith.add (.fin (-rnd64 (r * l))) (.fin (rnd64 (r * l))) = .fin 0 := by
      show Dbl.ofRat (-rnd64 (r * l) + rnd64 (r * l)) = _
      rw [neg_add_cancel]
      decide +kernel
    rw [hs0, hm2, ha1, ha2, hself]

theorem const_step (hL : ExactOne L) {W B k : ℕ} {x : ℚ} (hx : |x| ≤ dblMax) (hB : 1 ≤ B) (hk : k + 2 ≤ 2 ^ 53) (hW : k + 2 ≤ W) :
    (constState W B (k + 1) (.fin x)).update L (.fin x) = .ok (constState W B (k + 2) (.fin x)) := by
  have hlt := self_not_less hx
  have hi : (constState W B (k + 1) (.fin x)).hist.binSearch L.toArith (.fin x) = .ok 0 := by
    rw [hL.arith]
    unfold Hist.binSearch Hist.binSearchBin constState
    simp only [List.length_singleton, Hist.searchLoop]
    simp [Bin.lt, hlt]
  have hu : (constState W B (k + 1) (.fin x)).hist.update L.toArith (.fin x) = .ok (constState W B (k + 2) (.fin x)).hist := by
    have hi' := hi
    rw [hL.arith] at hi' ⊢
    unfold Hist.update Hist.add
    rw [hi', Res.ok_bind]
    have hp : (constState W B (k + 1) (.fin x)).hist.place Dbl.arith (.fin x) 0 =
        .ok ⟨B, W, [⟨.fin x, .fin x, k + 2⟩], List.replicate W 0 ++ List.replicate (k + 1) 0, k + 1, k + 1, 1⟩ := by
      unfold Hist.place constState
      have hle : Dbl.arith.le (.fin x) (.fin x) = true := by rw [Dbl.le_fin]; exact decide_eq_true le_rfl
      simp [hle]
    rw [hp, Res.ok_bind]
    unfold Hist.decayCounts
    rw [if_neg (by simp only; omega), Res.ok_bind]
    rw [if_neg (by simp only [List.length_singleton]; omega)]
    unfold constState
    simp only [List.append_assoc]
    rw [show (List.replicate (k + 1) 0 ++ [0] : List ℕ) = List.replicate (k + 2) 0 from (List.replicate_succ' ..).symm]
  rw [update_room hi rfl (by show (List.replicate (k + 1) 0).length < W; rw [List.length_replicate]; omega), hu, Res.ok_bind]
  rw [increment_const hL (k := k + 1) (b := ⟨.fin x, .fin x, k + 2⟩) (by omega) rfl rfl rfl rfl, Res.ok_bind]
  unfold constState
  simp only
  rw [show (List.replicate (k + 1) 0 ++ [0] : List ℕ) = List.replicate (k + 2) 0 from (List.replicate_succ' ..).symm]

theorem const_first (hL : ExactOne L) {W B : ℕ} {x : ℚ} (hB : 1 ≤ B) (hW : 1 ≤ W) :
    (⟨W, some [], 0, Hist.new B W, .fin 0⟩ : Entropy Dbl).update L (.fin x) = .ok (constState W B 1 (.fin x)) := by
  have hi : (⟨W, some [], 0, Hist.new B W, .fin 0⟩ : Entropy Dbl).hist.binSearch L.toArith (.fin x) = .ok 0 := by
    simp [Hist.binSearch, Hist.binSearchBin, Hist.new, Hist.searchLoop]
  have hi' : (Hist.new B W : Hist Dbl).binSearch L.toArith (.fin x) = .ok 0 := hi
  have hu : (Hist.new B W : Hist Dbl).update L.toArith (.fin x) = .ok (constState W B 1 (.fin x)).hist := by
    unfold Hist.update Hist.add
    rw [hi', Res.ok_bind]
    rw [show (Hist.new B W : Hist Dbl).place L.toArith (.fin x) 0 =
        .ok ⟨B, W, [⟨.fin x, .fin x, 1⟩], List.replicate W 0, 0, 0, 1⟩ from rfl, Res.ok_bind]
    unfold Hist.decayCounts
    rw [if_neg (by simp only; omega), Res.ok_bind]
    rw [if_neg (by simp only [List.length_singleton]; omega)]
    rfl
  rw [update_room hi rfl (by simp only [List.length_nil]; omega)]
  simp only
  rw [hu, Res.ok_bind]
  rw [increment_const hL (k := 0) (b := ⟨.fin x, .fin x, 1⟩) (by norm_num) rfl rfl rfl rfl, Res.ok_bind]
  rfl

end Entropy

/-- **C130**, the constant run, in general (doubles): as long as the window is not full, any finite double observed any number
of times leaves the entropy exactly 0, as the notebook records for a thousand ones. -/
theorem C130_constant_partial (L : LArith Dbl) (hL : Entropy.ExactOne L) (W numBins n : ℕ) (x : ℚ) (hx : |x| ≤ dblMax)
    (hn : n ≤ W) (hn53 : n ≤ 2 ^ 53) (e0 : Entropy Dbl) (h0 : Entropy.new L W numBins = .ok e0) :
    ∃ e, updateAll (Entropy.update L) e0 (List.replicate n (.fin x)) = .ok e ∧ e.evaluate = .fin 0 := by
  have hz : L.lit 0 = .fin 0 := by rw [hL.arith]; exact dbl_lit_zero
  rcases Nat.eq_zero_or_pos n with rfl | hpos
  · refine ⟨e0, rfl, ?_⟩
    unfold Entropy.new at h0
    by_cases hb : numBins = 0
    · by_cases hW : W = 0
      · simp only [hb, hW, if_true] at h0
        cases h0
      · simp only [hb, hW, if_true, if_false, Res.ok_bind] at h0
        injection h0 with h0
        subst h0
        exact hz
    · simp only [hb, if_false, Res.ok_bind] at h0
      injection h0 with h0
      subst h0
      exact hz
  obtain ⟨B, hB, he0⟩ : ∃ B, 1 ≤ B ∧ e0 = ⟨W, some [], 0, Hist.new B W, .fin 0⟩ := by
    unfold Entropy.new at h0
    simp only [if_pos (by omega : W > 0), if_neg (by omega : ¬ W = 0), Res.ok_bind, hz] at h0
    by_cases hb : numBins = 0
    · rw [if_pos hb] at h0
      injection h0 with h0
      exact ⟨_, (Nat.le_add_left 1 _).trans (Nat.le_max_right _ _), h0.symm⟩
    · rw [if_neg hb] at h0
      injection h0 with h0
      exact ⟨_, Nat.pos_of_ne_zero hb, h0.symm⟩
  subst he0
  obtain ⟨m, rfl⟩ : ∃ m, n = m + 1 := ⟨n - 1, by omega⟩
  refine ⟨Entropy.constState W B (m + 1) (.fin x), ?_, rfl⟩
  clear hpos h0
  induction m with
  | zero =>
    rw [List.replicate_one]
    show ((_ : Entropy Dbl).update L (.fin x) >>= fun s => .ok s) = _
    rw [Entropy.const_first hL hB (by omega), Res.ok_bind]
  | succ m ih =>
    rw [List.replicate_succ', updateAll_snoc, ih (by omega) (by omega), Res.ok_bind]
    exact Entropy.const_step hL hx hB (by omega) (by omega)

/-- The hypotheses hold of the example logarithm; the constructor of the notebook and its thousand ones meet the others. -/
theorem exampleLog_exactOne : Entropy.ExactOne exampleLog where
  arith := rfl
  neg _ := rfl
  one := rfl
  log2 q _ _ _ := by
    by_cases h : q = 1
    · exact ⟨0, ⟨rnd64_zero, by decide +kernel⟩, by subst h; rfl⟩
    · refine ⟨-1, ⟨by decide +kernel, by decide +kernel⟩, ?_⟩
      show (if Dbl.fin q = .fin 1 then Dbl.fin 0 else .fin (-1)) = _
      rw [if_neg (fun k => h (by injection k))]

example : ∃ e0 e, Entropy.new exampleLog 1000 100 = .ok e0 ∧
    updateAll (Entropy.update exampleLog) e0 (List.replicate 1000 (.fin 1)) = .ok e ∧ e.evaluate = .fin 0 := by
  obtain ⟨e, h1, h2⟩ := C130_constant_partial exampleLog exampleLog_exactOne 1000 100 1000 1 (by decide +kernel) le_rfl
    (by norm_num) _ rfl
  exact ⟨_, e, rfl, h1, h2⟩

/-- The first number drawn is 0.3745401188473625, as NumPy prints it; the 262nd is 0.9900538501042633. -/
example : first262.head? = some 3373557479352566 ∧ |(3373557479352566 : ℚ) / 2 ^ 53 - 0.3745401188473625| < 1 / 10 ^ 16 ∧
    first262[261]? = some 8917612300812570 ∧ |(8917612300812570 : ℚ) / 2 ^ 53 - 0.9900538501042633| < 1 / 10 ^ 16 := by
  decide +kernel

end KML
