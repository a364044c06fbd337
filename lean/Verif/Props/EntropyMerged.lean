import Verif.Props.EntropyWindow
import Verif.Props.HistQueries
import Verif.Props.DoubleQueries

/-! # C131: StreamingEntropy when bins have been merged -/

namespace KML

open Spec

namespace Entropy

/-- The increase of `c log2 c` from `c - 1` to `c`. -/
noncomputable def gain (c : ℕ) : ℝ := g c - g ((c - 1 : ℕ) : ℝ)

theorem g_one : g 1 = 0 := by simp [g]

theorem g_convex : ConvexOn ℝ (Set.Ici 0) g := by
  have h : g = fun x => (1 / Real.log 2) • (x * Real.log x) := by
    funext x
    unfold g Real.logb
    rw [smul_eq_mul]
    ring
  rw [h]
  exact Real.convexOn_mul_log.smul (by positivity)

theorem gain_succ (c : ℕ) (hc : 1 ≤ c) : gain c ≤ gain (c + 1) := by
  obtain ⟨d, rfl⟩ : ∃ d, c = d + 1 := ⟨c - 1, by omega⟩
  unfold gain
  rw [Nat.add_sub_cancel, Nat.add_sub_cancel]
  have h := g_convex.2 (show (d : ℝ) ∈ Set.Ici 0 by simp) (show ((d + 1 + 1 : ℕ) : ℝ) ∈ Set.Ici 0 by
    simp only [Set.mem_Ici]; positivity) (show (0 : ℝ) ≤ 1 / 2 by norm_num) (show (0 : ℝ) ≤ 1 / 2 by norm_num) (by norm_num)
  have e : (1 / 2 : ℝ) • (d : ℝ) + (1 / 2 : ℝ) • ((d + 1 + 1 : ℕ) : ℝ) = ((d + 1 : ℕ) : ℝ) := by
    simp only [smul_eq_mul]; push_cast; ring
  rw [e] at h
  simp only [smul_eq_mul] at h
  linarith

theorem gain_mono {c n : ℕ} (hc : 1 ≤ c) (h : c ≤ n) : gain c ≤ gain n := by
  induction n, h using Nat.le_induction with
  | base => exact le_rfl
  | succ n hn ih => exact ih.trans (gain_succ n (by omega))

theorem gain_one : gain 1 = 0 := by
  unfold gain
  simp [g_one, g_zero]

theorem gain_nonneg {c : ℕ} (hc : 1 ≤ c) : 0 ≤ gain c := by
  have := gain_mono le_rfl hc
  rwa [gain_one] at this

/-- The window of indices while it fills. -/
theorem window_run {nb W : ℕ} {xs : List ℝ} {e : Entropy ℝ} (hn : xs.length ≤ W)
    (he : updateAll (Entropy.update realL) (start nb W) xs = .ok e) : ∃ w, e.window = some w ∧ w.length = xs.length := by
  induction xs using List.reverseRecOn generalizing e with
  | nil => simp only [updateAll] at he; injection he with he; subst he; exact ⟨[], rfl, rfl⟩
  | append_singleton xs x ih =>
    rw [List.length_append, List.length_singleton] at hn
    rw [updateAll_snoc] at he
    obtain ⟨e1, he1, he⟩ := Res.bind_eq_ok.1 he
    obtain ⟨w, hw, hwl⟩ := ih (by omega) he1
    obtain ⟨-, hws, -⟩ := run_hist he1
    have hws' : e1.windowSize = W := hws
    obtain ⟨i, hi, -⟩ := C50_defined realL.toArith e1.hist x
    rw [update_room hi hw (by omega)] at he
    obtain ⟨h1, -, he⟩ := Res.bind_eq_ok.1 he
    obtain ⟨e2, e3, he⟩ := Res.bind_eq_ok.1 he
    obtain ⟨-, f2, -, -⟩ := increment_frame e3
    injection he with he
    subst he
    exact ⟨w ++ [i], f2, by simp [hwl]⟩

/-- One update: the count `c` it reads lies between 1 and the number of observations, and `n H` grows by the gain of `n`
less the gain of `c`. -/
theorem merged_step {nb W : ℕ} {xs : List ℝ} {x : ℝ} {e1 e : Entropy ℝ} (hn : xs.length + 1 ≤ W)
    (he1 : updateAll (Entropy.update realL) (start nb W) xs = .ok e1) (he : e1.update realL x = .ok e) :
    ∃ i b, e1.hist.binSearch (exact ℝ) x = .ok i ∧ e.hist.bins[i]? = some b ∧ 1 ≤ b.count ∧ b.count ≤ xs.length + 1 ∧
      ((xs.length + 1 : ℕ) : ℝ) * e.entropy = xs.length * e1.entropy + gain (xs.length + 1) - gain b.count := by
  obtain ⟨w, hw, hwl⟩ := window_run (by omega) he1
  obtain ⟨hh, hws, -⟩ := run_hist he1
  have hws' : e1.windowSize = W := hws
  obtain ⟨hu, -, -⟩ := update_hist he
  have hrun : updateAll (Hist.update (exact ℝ)) (Hist.new nb W) (xs ++ [x]) = .ok e.hist := by
    rw [updateAll_snoc]
    have hh1 : updateAll (Hist.update (exact ℝ)) (Hist.new nb W) xs = .ok e1.hist := hh
    rw [hh1, Res.ok_bind]
    exact hu
  have hc := Hist.Counts.run hrun
  have hpos := Hist.pos_run (by simpa using hn) hrun
  have hlen : (xs ++ [x]).length = xs.length + 1 := by simp
  rw [hlen] at hc
  have htot : e.hist.total = xs.length + 1 := by rw [hc.total]; omega
  obtain ⟨i, hi, -⟩ := C50_defined realL.toArith e1.hist x
  rw [update_room hi hw (by omega), hu, Res.ok_bind] at he
  rcases hb : e.hist.bins[i]? with _ | b
  · exfalso
    obtain ⟨e2, e3, -⟩ := Res.bind_eq_ok.1 he
    unfold increment at e3
    obtain ⟨b, hg, -⟩ := Res.bind_eq_ok.1 e3
    unfold Hist.getBin at hg
    simp only [hb] at hg
    split at hg <;> cases hg
  · have hb1 : 1 ≤ b.count := hpos b (List.mem_of_getElem? hb)
    have hb2 : b.count ≤ xs.length + 1 := (Hist.count_le_sum (List.mem_of_getElem? hb)).trans (hc.sum_eq hn).le
    refine ⟨i, b, hi, hb, hb1, hb2, ?_⟩
    rw [increment_real (e := { e1 with window := some (w ++ [i]), hist := e.hist }) hb, Res.ok_bind] at he
    injection he with he
    have hent := congrArg Entropy.entropy he
    simp only at hent
    rw [← hent, htot]
    have hm : (0 : ℝ) < ((xs.length + 1 : ℕ) : ℝ) := by positivity
    rw [g_div (by positivity) hm, g_div (by positivity) hm]
    unfold gain
    rw [Nat.add_sub_cancel]
    have hcc : (((b.count - 1 : ℕ) : ℝ)) = b.count - 1 := by
      rw [Nat.cast_sub hb1]; simp
    rcases Nat.eq_zero_or_pos xs.length with h0 | hx
    · have : b.count = 1 := by omega
      rw [h0, this]
      simp [g_zero, g_one]
    · rw [if_neg (by omega)]
      have hn0 : (0 : ℝ) < xs.length := by exact_mod_cast hx
      have hadd : ((xs.length + 1 : ℕ) : ℝ) = xs.length + 1 := by push_cast; ring
      have hsub : ((xs.length + 1 : ℕ) : ℝ) - 1 = xs.length := by push_cast; ring
      rw [hsub, Real.logb_div hn0.ne' hm.ne', hcc]
      have h1 : g ((xs.length + 1 : ℕ) : ℝ) = ((xs.length + 1 : ℕ) : ℝ) * Real.logb 2 ((xs.length + 1 : ℕ) : ℝ) := rfl
      have h2 : g (xs.length : ℝ) = xs.length * Real.logb 2 xs.length := rfl
      rw [h1, h2]
      field_simp
      rw [hadd]
      ring

/-! ### A stream of new minima -/

/-- Bins above `y`, with right edges between `y` and 0. -/
def Above (y : ℝ) (l : List (Bin ℝ)) : Prop := ∀ b ∈ l, y ≤ b.left ∧ y ≤ b.right ∧ b.right ≤ 0

theorem exact_less {a b e : ℝ} : Utils.definitelyLessThan (exact ℝ) a b e = true ↔ max |a| |b| * e < b - a := by
  have hl : Utils.larger (exact ℝ) a b = max |a| |b| := by
    unfold Utils.larger
    simp only [exact, decide_eq_true_eq]
    split
    · next h => rw [max_eq_right h.le]
    · next h => rw [max_eq_left (not_lt.1 h)]
  unfold Utils.definitelyLessThan
  rw [hl]
  simp [exact]

theorem exact_eps : Utils.defaultEps (exact ℝ) = 1 / 10000 := by
  simp [Utils.defaultEps, exact]

theorem exact_less_false {a b : ℝ} (h : b ≤ a) :
    Utils.definitelyLessThan (exact ℝ) a b (Utils.defaultEps (exact ℝ)) = false := by
  rw [← Bool.not_eq_true, exact_less, exact_eps]
  have : 0 ≤ max |a| |b| := le_max_of_le_left (abs_nonneg a)
  intro h1
  linarith

theorem Above.merged {y : ℝ} {i : ℕ} {l l' : List (Bin ℝ)} (h : Above y l) (hm : Hist.Merged (exact ℝ) i l l') :
    Above y l' := by
  cases hm with
  | mk l1 l2 a b =>
    intro c hc
    have ha := h a (by simp)
    have hb := h b (by simp)
    rw [List.mem_append, List.mem_cons] at hc
    rcases hc with hc | rfl | hc
    · exact h c (by simp [hc])
    · unfold Bin.add
      refine ⟨?_, ?_, ?_⟩ <;> simp only <;> split <;> tauto
    · exact h c (by simp [hc])

theorem merge_tail {i : ℕ} {a : Bin ℝ} {l l' : List (Bin ℝ)} (hi : 1 ≤ i) (hm : Hist.Merged (exact ℝ) i (a :: l) l') :
    ∃ l'', l' = a :: l'' ∧ Hist.Merged (exact ℝ) (i - 1) l l'' := by
  generalize hq : a :: l = q at hm
  cases hm with
  | mk l1 l2 c d =>
    rcases l1 with _ | ⟨e, l1⟩
    · simp at hi
    · simp only [List.cons_append, List.cons.injEq] at hq
      obtain ⟨rfl, rfl⟩ := hq
      exact ⟨_, rfl, .mk l1 l2 c d⟩

/-- The merge leaves a far-off new minimum alone. -/
theorem descend_index {y : ℝ} (hy : y < 0) (h1 : -1 ≤ 3 * y) {r : Bin ℝ} {l : List (Bin ℝ)}
    (hr : y ≤ r.right ∧ r.right ≤ 0) :
    1 ≤ Hist.mergeIndex (exact ℝ) (Hist.unit (3 * y) :: Hist.unit y :: r :: l) ∧
    Hist.mergeIndex (exact ℝ) (Hist.unit (3 * y) :: Hist.unit y :: r :: l) + 1 < l.length + 3 := by
  have hmax : (2 : ℝ) ≤ (exact ℝ).lit dblMax := by
    show (2 : ℝ) ≤ ((dblMax : ℚ) : ℝ)
    have : (2 : ℚ) ≤ dblMax := by
      have h1 : (1 : ℚ) ≤ 2 ^ 971 := one_le_pow₀ (by norm_num)
      unfold dblMax
      generalize (2 : ℚ) ^ 971 = P at h1 ⊢
      norm_num
      linarith
    exact_mod_cast this
  have d0 : Utils.definitelyLessThan (exact ℝ) ((exact ℝ).sub (Hist.unit y).right (Hist.unit (3 * y)).right)
      ((exact ℝ).lit dblMax) (Utils.defaultEps (exact ℝ)) = true := by
    rw [exact_less, exact_eps]
    show max |y - 3 * y| |_| * (1 / 10000 : ℝ) < _ - (y - 3 * y)
    rw [abs_of_nonneg (by linarith), abs_of_nonneg (by linarith), max_eq_right (by linarith)]
    linarith
  have d1 : Utils.definitelyLessThan (exact ℝ) ((exact ℝ).sub r.right (Hist.unit y).right)
      ((exact ℝ).sub (Hist.unit y).right (Hist.unit (3 * y)).right) (Utils.defaultEps (exact ℝ)) = true := by
    rw [exact_less, exact_eps]
    show max |r.right - y| |y - 3 * y| * (1 / 10000 : ℝ) < (y - 3 * y) - (r.right - y)
    rw [abs_of_nonneg (by linarith), abs_of_nonneg (by linarith), max_eq_right (by linarith)]
    linarith
  refine ⟨?_, Hist.mergeIndex_lt (l := r :: l) d0⟩
  unfold Hist.mergeIndex Hist.mergeLoop
  simp only [d0, if_true]
  unfold Hist.mergeLoop
  simp only [d1, if_true]
  rcases Hist.mergeLoop_range (A := exact ℝ) (r :: l) (0 + 1 + 1) ((exact ℝ).sub r.right (Hist.unit y).right) (0 + 1) with h | h
  · rw [h]
  · exact le_trans (by omega) h.1

theorem descend_step {h : Hist ℝ} {y : ℝ} {rest : List (Bin ℝ)} (hy : y < 0) (h1 : -1 ≤ 3 * y) (hnb : 2 ≤ h.numBins)
    (ht : 0 < h.total) (hW : h.total < h.windowSize) (hb : h.bins = Hist.unit y :: rest) (hr : Above y rest) :
    h.binSearch (exact ℝ) (3 * y) = .ok 0 ∧ ∃ h' rest', h.update (exact ℝ) (3 * y) = .ok h' ∧
      h'.bins = Hist.unit (3 * y) :: rest' ∧ Above (3 * y) rest' ∧ h'.numBins = h.numBins ∧
      h'.windowSize = h.windowSize ∧ h'.total = h.total + 1 := by
  have hlt : ∀ b ∈ h.bins, Bin.lt (exact ℝ) b (Hist.unit (3 * y)) = false := by
    intro b hbm
    refine exact_less_false ?_
    show 3 * y ≤ b.left
    rw [hb, List.mem_cons] at hbm
    rcases hbm with rfl | hbm
    · show 3 * y ≤ y; linarith
    · have := (hr b hbm).1; linarith
  have hi0 : ∀ {i b1}, Hist.Placed (exact ℝ) (3 * y) (h.total = 0) i h.bins b1 →
      i = 0 ∧ b1 = Hist.unit (3 * y) :: Hist.unit y :: rest := by
    intro i b1 hp
    have hne : ∀ l1 : List (Bin ℝ), (∀ a ∈ l1, a ∈ h.bins) →
        (∀ a, l1.getLast? = some a → Bin.lt (exact ℝ) a (Hist.unit (3 * y)) = true) → l1 = [] := by
      intro l1 hs hl
      rcases List.eq_nil_or_concat l1 with e | ⟨l, a, rfl⟩
      · exact e
      · have h2 := hl a (by simp)
        rw [hlt a (hs a (by simp))] at h2
        cases h2
    generalize hq : h.bins = q at hp hne
    cases hp with
    | push _ _ hi hc =>
      exfalso
      rcases hc with hc | ⟨-, hc⟩
      · omega
      · have := hne q (fun a ha => ha) hc
        rw [← hq, hb] at this
        cases this
    | inc l1 l2 b g1 g2 g3 =>
      exfalso
      have := hne l1 (fun a ha => by simp [ha]) g1
      subst this
      rw [hb] at hq
      simp only [List.nil_append, List.cons.injEq] at hq
      rw [← hq.1] at g3
      have g4 : y ≤ 3 * y := by simpa [exact, Hist.unit] using g3
      linarith
    | insert l1 l2 b g1 g2 g3 =>
      have := hne l1 (fun a ha => by simp [ha]) g1
      subst this
      rw [hb] at hq
      simp only [List.nil_append] at hq ⊢
      exact ⟨rfl, by rw [hq]⟩
  have habove : Above (3 * y) (Hist.unit y :: rest) := by
    intro b hbm
    rw [List.mem_cons] at hbm
    rcases hbm with rfl | hbm
    · show 3 * y ≤ y ∧ 3 * y ≤ y ∧ y ≤ 0
      refine ⟨?_, ?_, ?_⟩ <;> linarith
    · obtain ⟨q1, q2, q3⟩ := hr b hbm
      refine ⟨?_, ?_, q3⟩ <;> linarith
  rcases Hist.update_cases (A := exact ℝ) h (3 * y) with ⟨h', i, b1, b2, hu, hs⟩ | ⟨-, i, b1, -, hp, hc⟩
  · obtain ⟨rfl, e1⟩ := hi0 hs.placed
    refine ⟨hs.search, h', ?_⟩
    rcases hs.decay with ⟨-, e2, ht', -⟩ | ⟨h2, -⟩
    · rw [e1] at e2
      rcases hs.merge with ⟨-, h4⟩ | ⟨h3, h4⟩
      · exact ⟨_, hu, by rw [h4, e2], habove, hs.numBins, hs.windowSize, ht'⟩
      · rw [e2] at h3 h4
        rcases rest with _ | ⟨r, rest⟩
        · simp at h3; omega
        · obtain ⟨l'', e3, h5⟩ := merge_tail (descend_index hy h1 (hr r (by simp)).2).1 h4
          exact ⟨l'', hu, e3, habove.merged h5, hs.numBins, hs.windowSize, ht'⟩
    · omega
  · exfalso
    obtain ⟨rfl, e1⟩ := hi0 hp
    rcases hc with ⟨h2, -⟩ | ⟨b2, h2, h3, h4⟩
    · omega
    · rcases h4 with ⟨rfl, -⟩ | ⟨h4, -⟩
      · rw [e1] at h2 h3
        rcases rest with _ | ⟨r, rest⟩
        · simp at h2; omega
        · have := (descend_index hy h1 (l := rest) (hr r (by simp)).2).2
          simp only [List.length_cons] at h3
          omega
      · omega

/-- `n` new minima, each three times as far from 0 as the one before. -/
noncomputable def descend (s : ℝ) (n : ℕ) : List ℝ := (List.range n).map fun k => 3 ^ k * s

theorem descend_run (nb W : ℕ) (hnb : 2 ≤ nb) (s : ℝ) (hs : s < 0) (n : ℕ) (hn : n + 1 ≤ W) (hb : -1 ≤ 3 ^ n * s) :
    ∃ e rest, updateAll (Entropy.update realL) (start nb W) (descend s (n + 1)) = .ok e ∧
      e.hist.bins = Hist.unit (3 ^ n * s) :: rest ∧ Above (3 ^ n * s) rest ∧ e.entropy = Real.logb 2 ((n + 1 : ℕ) : ℝ) := by
  induction n with
  | zero =>
    have hd : Spec.distinct [s] ≤ nb := by simp [Spec.distinct]; omega
    obtain ⟨e, he, -⟩ := enough_run nb W (by omega) [s] hd
    have hl : descend s (0 + 1) = [] ++ [s] := by simp [descend]
    rw [hl]
    have he' := he
    rw [← List.nil_append [s], updateAll_snoc] at he'
    obtain ⟨e1, he1, hu⟩ := Res.bind_eq_ok.1 he'
    obtain ⟨i, b, -, hb, hb1, hb2, hH⟩ := merged_step (by simpa using hn) he1 hu
    have hbc : b.count = 1 := by simp at hb2; omega
    simp only [updateAll] at he1
    injection he1 with he1
    subst he1
    obtain ⟨hh, -, -⟩ := update_hist hu
    obtain ⟨j, b1, b2, hst⟩ := Hist.update_step hh
    have hb1' : b1 = [Hist.unit s] := by
      have hp := hst.placed
      have hnil : (start nb W).hist.bins = [] := rfl
      rw [hnil] at hp
      generalize hq : ([] : List (Bin ℝ)) = q at hp
      cases hp with
      | push => rw [← hq]; rfl
      | inc l1 l2 => simp at hq
      | insert l1 l2 => simp at hq
    have hb2' : b2 = b1 := by
      rcases hst.decay with ⟨-, h, -⟩ | ⟨h, -⟩
      · exact h
      · have h1 : (start nb W).hist.windowSize = W := rfl
        have h2 : (start nb W).hist.total = 0 := rfl
        omega
    have hbins : e.hist.bins = [Hist.unit s] := by
      rcases hst.merge with ⟨-, h⟩ | ⟨h, -⟩
      · rw [h, hb2', hb1']
      · have h1 : (start nb W).hist.numBins = nb := rfl
        rw [hb2', hb1', h1] at h
        simp at h
        omega
    refine ⟨e, [], he, by rw [hbins]; simp, fun _ h => by simp at h, ?_⟩
    rw [hbc] at hH
    simpa using hH
  | succ n ih =>
    have hy : 3 ^ n * s < 0 := mul_neg_of_pos_of_neg (by positivity) hs
    have h3 : (3 : ℝ) ^ (n + 1) * s = 3 * (3 ^ n * s) := by ring
    rw [h3] at hb ⊢
    obtain ⟨e1, rest, he1, hbins, hab, hent⟩ := ih (by omega) (by linarith)
    have hl : descend s (n + 1 + 1) = descend s (n + 1) ++ [3 * (3 ^ n * s)] := by
      unfold descend
      rw [List.range_succ, List.map_append, List.map_cons, List.map_nil, h3]
    have hlen : (descend s (n + 1)).length = n + 1 := by simp [descend]
    obtain ⟨w, hw, hwl⟩ := window_run (by omega) he1
    obtain ⟨hh, hws, -⟩ := run_hist he1
    have hws' : e1.windowSize = W := hws
    have hc := Hist.Counts.run (show updateAll (Hist.update (exact ℝ)) (Hist.new nb W) _ = .ok e1.hist from hh)
    have htot : e1.hist.total = n + 1 := by rw [hc.total, hlen]; omega
    have hW := hc.windowSize
    have hN := hc.numBins
    obtain ⟨hsr, h', rest', hu, hb', hab', -, -, -⟩ := descend_step (h := e1.hist) hy hb (by omega) (by omega) (by omega) hbins hab
    have hup : ∃ e, e1.update realL (3 * (3 ^ n * s)) = .ok e := by
      rw [update_room hsr hw (by omega)]
      have hu' : e1.hist.update realL.toArith (3 * (3 ^ n * s)) = .ok h' := hu
      rw [hu', Res.ok_bind, increment_real (b := Hist.unit (3 * (3 ^ n * s))) (by simp [hb']), Res.ok_bind]
      exact ⟨_, rfl⟩
    obtain ⟨e, he⟩ := hup
    have hhe : e.hist = h' := by
      have h1 := (update_hist he).1
      have h2 : e1.hist.update realL.toArith (3 * (3 ^ n * s)) = .ok h' := hu
      rw [h2] at h1
      injection h1 with h1
      exact h1.symm
    obtain ⟨i, b, hi, hbi, -, -, hH⟩ := merged_step (by omega) he1 he
    rw [hsr] at hi
    injection hi with hi
    subst hi
    rw [hhe, hb'] at hbi
    simp only [List.getElem?_cons_zero, Option.some.injEq] at hbi
    subst hbi
    refine ⟨e, rest', by rw [hl, updateAll_snoc, he1]; exact he, by rw [hhe, hb'], hab', ?_⟩
    rw [hlen, hent] at hH
    have h1 : gain (Hist.unit (3 * (3 ^ n * s))).count = 0 := gain_one
    have h2 : gain (n + 1 + 1) = ((n + 1 + 1 : ℕ) : ℝ) * Real.logb 2 ((n + 1 + 1 : ℕ) : ℝ) -
        ((n + 1 : ℕ) : ℝ) * Real.logb 2 ((n + 1 : ℕ) : ℝ) := rfl
    rw [h1, h2] at hH
    have h4 : ((n + 1 + 1 : ℕ) : ℝ) ≠ 0 := by positivity
    refine mul_left_cancel₀ h4 ?_
    rw [hH]
    ring

/-! ### Entropy of the bins -/

/-- The entropy of the counts `l` out of `n` observations. -/
noncomputable def ofCounts (l : List ℕ) (n : ℕ) : ℝ := -(l.map fun c : ℕ => (c : ℝ) / n * Real.logb 2 ((c : ℝ) / n)).sum

/-- Counts in `m` bins have an entropy of at most `log2 m`. -/
theorem ofCounts_le (l : List ℕ) (m : ℕ) (hl : l.length ≤ m) (hn : 0 < l.sum) : ofCounts l l.sum ≤ Real.logb 2 m := by
  have hm : 0 < m := by
    rcases l with _ | ⟨a, l⟩
    · simp at hn
    · simp at hl; omega
  have hm' : (0 : ℝ) < m := by exact_mod_cast hm
  have hn' : (0 : ℝ) < l.sum := by exact_mod_cast hn
  have key : ∀ (l : List ℕ) (N : ℝ), 0 < N → -(l.map fun c : ℕ => (c : ℝ) / N * Real.logb 2 ((c : ℝ) / N)).sum ≤
      (l.sum : ℝ) / N * Real.logb 2 m + (l.length / m - (l.sum : ℝ) / N) / Real.log 2 := by
    intro l N hN
    induction l with
    | nil => simp
    | cons c l ih =>
      simp only [List.map_cons, List.sum_cons, List.length_cons]
      have hterm : -((c : ℝ) / N * Real.logb 2 ((c : ℝ) / N)) ≤
          (c : ℝ) / N * Real.logb 2 m + (1 / m - (c : ℝ) / N) / Real.log 2 := by
        have hl2 : 0 < Real.log 2 := Real.log_pos (by norm_num)
        rcases Nat.eq_zero_or_pos c with rfl | hc
        · simp only [Nat.cast_zero, zero_div, zero_mul, neg_zero, zero_add, sub_zero]
          positivity
        · have hp : 0 < (c : ℝ) / N := div_pos (by exact_mod_cast hc) hN
          have hlog := Real.log_le_sub_one_of_pos (show 0 < 1 / ((c : ℝ) / N * m) by positivity)
          rw [one_div, Real.log_inv, Real.log_mul hp.ne' hm'.ne'] at hlog
          unfold Real.logb
          have h1 := mul_le_mul_of_nonneg_left hlog hp.le
          have h2 : (c : ℝ) / N * (((c : ℝ) / N * m)⁻¹ - 1) = 1 / m - (c : ℝ) / N := by
            field_simp
          rw [h2] at h1
          have h3 := div_le_div_of_nonneg_right h1 hl2.le
          have h4 : (c : ℝ) / N * -(Real.log ((c : ℝ) / N) + Real.log m) / Real.log 2 =
            -((c : ℝ) / N * (Real.log ((c : ℝ) / N) / Real.log 2)) - (c : ℝ) / N * (Real.log m / Real.log 2) := by ring
          rw [h4] at h3
          linarith
      rw [Nat.cast_add, Nat.cast_succ]
      have h5 : ((c : ℝ) + (l.sum : ℝ)) / N * Real.logb 2 m + (((l.length : ℝ) + 1) / m - ((c : ℝ) + (l.sum : ℝ)) / N) / Real.log 2 =
          ((c : ℝ) / N * Real.logb 2 m + (1 / m - (c : ℝ) / N) / Real.log 2) +
          ((l.sum : ℝ) / N * Real.logb 2 m + ((l.length : ℝ) / m - (l.sum : ℝ) / N) / Real.log 2) := by ring
      rw [h5]
      linarith
  have h := key l l.sum hn'
  rw [div_self hn'.ne', one_mul] at h
  have h6 : ((l.length : ℝ) / m - 1) / Real.log 2 ≤ 0 := by
    refine div_nonpos_of_nonpos_of_nonneg ?_ (Real.log_pos (by norm_num)).le
    rw [sub_nonpos, div_le_one hm']
    exact_mod_cast hl
  unfold ofCounts
  linarith

end Entropy

/-! ### C131 -/

/-- **C131**, the full claim: while the window fills, `evaluate` is the entropy of the counts of the bins, whatever the stream
(C64_binned has it for streams of at most as many distinct values as bins). -/
def C131_full : Prop :=
  ∀ (W numBins : ℕ) (e0 e : Entropy ℝ) (xs : List ℝ), xs ≠ [] → xs.length ≤ W → Entropy.new realL W numBins = .ok e0 →
    updateAll (Entropy.update realL) e0 xs = .ok e →
    e.evaluate = -(e.hist.bins.map fun b =>
        (b.count : ℝ) / xs.length * Real.logb 2 ((b.count : ℝ) / xs.length)).sum

/-- **C131**, new minima: for every number of bins from 2 on and every `n` that fits the window there is a stream of `n` values
after which `evaluate` is `log2 n`, as if all `n` values had bins of their own. -/
theorem C131_new_minima (W numBins n : ℕ) (hb : 2 ≤ numBins) (hn : n + 1 ≤ W) (e0 : Entropy ℝ)
    (hnew : Entropy.new realL W numBins = .ok e0) :
    ∃ (xs : List ℝ) (e : Entropy ℝ), xs.length = n + 1 ∧ updateAll (Entropy.update realL) e0 xs = .ok e ∧
      e.hist.bins.length ≤ numBins ∧ e.evaluate = Real.logb 2 ((n + 1 : ℕ) : ℝ) := by
  rw [Entropy.new_real (by omega)] at hnew
  injection hnew with hnew
  subst hnew
  have hbf : Entropy.binsFor W numBins = numBins := by unfold Entropy.binsFor; rw [if_neg (by omega)]
  rw [hbf]
  have h3 : (0 : ℝ) < 3 ^ n := by positivity
  obtain ⟨e, rest, he, -, -, hent⟩ := Entropy.descend_run numBins W hb (-1 / 3 ^ n) (div_neg_of_neg_of_pos (by norm_num) h3) n hn
    (by rw [mul_div_cancel₀ _ h3.ne'])
  refine ⟨_, e, by simp [Entropy.descend], he, ?_, hent⟩
  exact (Hist.Counts.run (show updateAll (Hist.update (exact ℝ)) (Hist.new numBins W) _ = .ok e.hist from (Entropy.run_hist he).1)).size

/-- The hypotheses are met: 5 values in 2 bins. -/
example : ∃ e0, Entropy.new realL 10 2 = .ok e0 ∧ 2 ≤ 2 ∧ 4 + 1 ≤ 10 :=
  ⟨_, Entropy.new_real (by norm_num) 2, by norm_num, by norm_num⟩

/-- The entropy of the bins of a run that fits the window is at most `log2 numBins`. -/
theorem Entropy.bins_le {nb W : ℕ} {xs : List ℝ} {e : Entropy ℝ} (hne : xs ≠ []) (hn : xs.length ≤ W)
    (he : updateAll (Entropy.update realL) (Entropy.start nb W) xs = .ok e) :
    -(e.hist.bins.map fun b => (b.count : ℝ) / xs.length * Real.logb 2 ((b.count : ℝ) / xs.length)).sum ≤ Real.logb 2 nb := by
  have hc := Hist.Counts.run (show updateAll (Hist.update (exact ℝ)) (Hist.new nb W) _ = .ok e.hist from (Entropy.run_hist he).1)
  have hsum : (e.hist.bins.map Bin.count).sum = xs.length := hc.sum_eq hn
  have h := Entropy.ofCounts_le (e.hist.bins.map Bin.count) nb (by simpa using hc.size)
    (by rw [hsum]; exact List.length_pos_iff.2 hne)
  rw [hsum] at h
  unfold Entropy.ofCounts at h
  rw [List.map_map] at h
  exact h

theorem C131_violated : ¬ C131_full := by
  intro hf
  obtain ⟨xs, e, hl, he, -, hv⟩ := C131_new_minima 3 2 2 le_rfl le_rfl _ (Entropy.new_real (by norm_num) 2)
  have hne : xs ≠ [] := by intro h; rw [h] at hl; simp at hl
  have h1 := hf 3 2 _ e xs hne (by omega) (Entropy.new_real (by norm_num) 2) he
  have h2 := Entropy.bins_le hne (by omega) he
  rw [← h1, hv] at h2
  have h3 : Real.logb 2 ((Entropy.binsFor 3 2 : ℕ) : ℝ) < Real.logb 2 ((2 + 1 : ℕ) : ℝ) := by
    refine Real.logb_lt_logb (by norm_num) ?_ ?_ <;> norm_num [Entropy.binsFor]
  linarith

/-- **C131**, how far off: with `numBins` bins the reported value exceeds the entropy of the bins by any amount `log2 k`. -/
theorem C131_unbounded (W numBins k : ℕ) (hb : 2 ≤ numBins) (hk : 1 ≤ k) (hn : numBins * k ≤ W) (e0 : Entropy ℝ)
    (hnew : Entropy.new realL W numBins = .ok e0) :
    ∃ (xs : List ℝ) (e : Entropy ℝ), xs.length ≤ W ∧ updateAll (Entropy.update realL) e0 xs = .ok e ∧
      -(e.hist.bins.map fun b => (b.count : ℝ) / xs.length * Real.logb 2 ((b.count : ℝ) / xs.length)).sum +
        Real.logb 2 k ≤ e.evaluate := by
  have hpos : 0 < numBins * k := Nat.mul_pos (by omega) hk
  obtain ⟨xs, e, hl, he, -, hv⟩ := C131_new_minima W numBins (numBins * k - 1) hb (by omega) e0 hnew
  have hl' : xs.length = numBins * k := by omega
  refine ⟨xs, e, by omega, he, ?_⟩
  rw [Entropy.new_real (by omega)] at hnew
  injection hnew with hnew
  subst hnew
  have hbf : Entropy.binsFor W numBins = numBins := by unfold Entropy.binsFor; rw [if_neg (by omega)]
  rw [hbf] at he
  have h2 := Entropy.bins_le (by intro h; rw [h] at hl'; simp at hl'; omega) (by omega) he
  have h3 : ((numBins * k - 1 + 1 : ℕ) : ℝ) = (numBins : ℝ) * k := by
    rw [Nat.sub_add_cancel hpos]; push_cast; ring
  have hb0 : (numBins : ℝ) ≠ 0 := by
    have : (0 : ℝ) < numBins := by exact_mod_cast (by omega : 0 < numBins)
    exact this.ne'
  have hk0 : (k : ℝ) ≠ 0 := by
    have : (0 : ℝ) < k := by exact_mod_cast hk
    exact this.ne'
  rw [hv, h3, Real.logb_mul hb0 hk0]
  linarith

/-- The hypotheses are met. -/
example : ∃ e0, Entropy.new realL 10 2 = .ok e0 ∧ 2 ≤ 2 ∧ 1 ≤ 5 ∧ 2 * 5 ≤ 10 :=
  ⟨_, Entropy.new_real (by norm_num) 2, by norm_num, by norm_num, by norm_num⟩

/-- **C131**, one update of a run that fits the window. `c` is the count, after the update, of the bin at the position the item
had before it; `n` is the number of observations: `n H' = (n - 1) H + Δ n - Δ c` with `Δ c = c log2 c - (c-1) log2 (c-1)`. -/
theorem C131_step (W numBins : ℕ) (e0 e1 e : Entropy ℝ) (xs : List ℝ) (x : ℝ) (hn : xs.length + 1 ≤ W)
    (hnew : Entropy.new realL W numBins = .ok e0) (h1 : updateAll (Entropy.update realL) e0 xs = .ok e1)
    (he : e1.update realL x = .ok e) :
    ∃ i b, e1.hist.binSearch (exact ℝ) x = .ok i ∧ e.hist.bins[i]? = some b ∧ 1 ≤ b.count ∧ b.count ≤ xs.length + 1 ∧
      ((xs.length : ℝ) + 1) * e.evaluate = xs.length * e1.evaluate +
        (((xs.length : ℝ) + 1) * Real.logb 2 (xs.length + 1) - xs.length * Real.logb 2 xs.length) -
        ((b.count : ℝ) * Real.logb 2 b.count - ((b.count : ℝ) - 1) * Real.logb 2 ((b.count : ℝ) - 1)) := by
  rw [Entropy.new_real (by omega)] at hnew
  injection hnew with hnew
  subst hnew
  obtain ⟨i, b, hi, hb, hb1, hb2, hH⟩ := Entropy.merged_step hn h1 he
  refine ⟨i, b, hi, hb, hb1, hb2, ?_⟩
  unfold Entropy.gain Entropy.g at hH
  rw [Nat.add_sub_cancel, Nat.cast_sub hb1] at hH
  unfold Entropy.evaluate
  push_cast at hH
  exact hH

/-- The hypotheses are met by a run with merges: 4 values in 2 bins and a fifth. -/
example : ∃ (e0 e1 e : Entropy ℝ) (xs : List ℝ) (x : ℝ), xs.length = 4 ∧ Entropy.new realL 10 2 = .ok e0 ∧
    updateAll (Entropy.update realL) e0 xs = .ok e1 ∧ e1.update realL x = .ok e := by
  obtain ⟨xs, e, h1, h2, -, -⟩ := C131_new_minima 10 2 4 le_rfl (by norm_num) _ (Entropy.new_real (by norm_num) 2)
  obtain ⟨ys, y, rfl⟩ : ∃ ys y, xs = ys ++ [y] := by
    rcases List.eq_nil_or_concat xs with h | ⟨ys, y, h⟩
    · rw [h] at h1; simp at h1
    · exact ⟨ys, y, by simpa using h⟩
  rw [updateAll_snoc] at h2
  obtain ⟨e1, h3, h4⟩ := Res.bind_eq_ok.1 h2
  exact ⟨_, e1, e, ys, y, by simpa using h1, Entropy.new_real (by norm_num) 2, h3, h4⟩

/-- **C131**, what holds of every defined run that fits the window: the value lies between 0 and `log2` of the number of
observations. -/
theorem C131_bounds_partial (W numBins : ℕ) (e0 e : Entropy ℝ) (xs : List ℝ) (hn : xs.length ≤ W) (hW : 1 ≤ W)
    (hnew : Entropy.new realL W numBins = .ok e0) (he : updateAll (Entropy.update realL) e0 xs = .ok e) :
    0 ≤ e.evaluate ∧ e.evaluate ≤ Real.logb 2 xs.length := by
  rw [Entropy.new_real hW] at hnew
  injection hnew with hnew
  subst hnew
  unfold Entropy.evaluate
  induction xs using List.reverseRecOn generalizing e with
  | nil =>
    simp only [updateAll] at he
    injection he with he
    subst he
    simp [Entropy.start]
  | append_singleton xs x ih =>
    rw [List.length_append, List.length_singleton] at hn ⊢
    rw [updateAll_snoc] at he
    obtain ⟨e1, he1, he⟩ := Res.bind_eq_ok.1 he
    obtain ⟨h1, h2⟩ := ih e1 (by omega) he1
    obtain ⟨i, b, -, -, hb1, hb2, hH⟩ := Entropy.merged_step hn he1 he
    have hm : (0 : ℝ) < ((xs.length + 1 : ℕ) : ℝ) := by positivity
    have hx : (0 : ℝ) ≤ xs.length := by positivity
    have g1 := Entropy.gain_mono hb1 hb2
    have g2 := Entropy.gain_nonneg hb1
    have p1 := mul_nonneg hx h1
    have p2 := mul_le_mul_of_nonneg_left h2 hx
    constructor
    · refine nonneg_of_mul_nonneg_right (a := ((xs.length + 1 : ℕ) : ℝ)) ?_ hm
      rw [hH]
      linarith
    · refine le_of_mul_le_mul_left ?_ hm
      rw [hH]
      have h3 : Entropy.gain (xs.length + 1) = ((xs.length + 1 : ℕ) : ℝ) * Real.logb 2 ((xs.length + 1 : ℕ) : ℝ) -
        (xs.length : ℝ) * Real.logb 2 (xs.length : ℝ) := rfl
      rw [h3] at g1 ⊢
      linarith

/-- The hypotheses are met by a run with merges: 5 values in 2 bins. -/
example : ∃ (e0 e : Entropy ℝ) (xs : List ℝ), xs.length = 5 ∧ Entropy.new realL 10 2 = .ok e0 ∧
    updateAll (Entropy.update realL) e0 xs = .ok e ∧ e.hist.bins.length ≤ 2 := by
  obtain ⟨xs, e, h1, h2, h3, -⟩ := C131_new_minima 10 2 4 le_rfl (by norm_num) _ (Entropy.new_real (by norm_num) 2)
  exact ⟨_, e, xs, h1, Entropy.new_real (by norm_num) 2, h2, h3⟩

end KML
