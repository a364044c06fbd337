import Verif.Lemmas.Histogram

/-!
# Two histograms that take the same decisions

`Hist.Sim A B g P`: on values satisfying `P`, every comparison a histogram makes in arithmetic `A` has the same outcome
in `B` on the images under `g`. Then the two histograms evolve alike.
-/

namespace KML

open Utils

variable {F G : Type}

/-- The bin with its edges mapped. -/
abbrev Bin.map (g : F → G) (b : Bin F) : Bin G := ⟨g b.left, g b.right, b.count⟩

/-- The histogram with all edges mapped. -/
abbrev Hist.map (g : F → G) (h : Hist F) : Hist G :=
  ⟨h.numBins, h.windowSize, h.bins.map (Bin.map g), h.window, h.total, h.historyCount, h.live⟩

/-- Same decisions. -/
structure Hist.Sim (A : Arith F) (B : Arith G) (g : F → G) (P : F → Prop) : Prop where
  less : ∀ a b, P a → P b →
    definitelyLessThan B (g a) (g b) (defaultEps B) = definitelyLessThan A a b (defaultEps A)
  lessPlus : ∀ a b, P a → P b →
    definitelyLessThan B (g a) (g b) (plusEps B) = definitelyLessThan A a b (plusEps A)
  greaterPlus : ∀ a b, P a → P b →
    definitelyGreaterThan B (g a) (g b) (plusEps B) = definitelyGreaterThan A a b (plusEps A)
  le : ∀ a b, P a → P b → B.le (g a) (g b) = A.le a b
  diff : ∀ a b c d, P a → P b → P c → P d →
    definitelyLessThan B (B.sub (g a) (g b)) (B.sub (g c) (g d)) (defaultEps B) =
      definitelyLessThan A (A.sub a b) (A.sub c d) (defaultEps A)
  diffMax : ∀ a b, P a → P b →
    definitelyLessThan B (B.sub (g a) (g b)) (B.lit dblMax) (defaultEps B) =
      definitelyLessThan A (A.sub a b) (A.lit dblMax) (defaultEps A)

namespace Hist

variable {A : Arith F} {B : Arith G} {g : F → G} {P : F → Prop}

/-- Both edges of the bins satisfy `P`. -/
def Edges (P : F → Prop) (l : List (Bin F)) : Prop := ∀ b ∈ l, P b.left ∧ P b.right

theorem Sim.search (s : Sim A B g P) {l : List (Bin F)} (hl : Edges P l) {c : Bin F} (hc : P c.left) (fuel low high i : ℕ) :
    searchLoop B (l.map (Bin.map g)) (c.map g) fuel low high i = searchLoop A l c fuel low high i := by
  induction fuel generalizing low high i with
  | zero => rfl
  | succ n ih =>
    simp only [searchLoop, List.getElem?_map]
    cases hb : l[i]? with
    | none => rfl
    | some b =>
      have := s.less b.left c.left (hl b (List.mem_of_getElem? hb)).1 hc
      simp only [Option.map_some, Bin.lt, this, ih]
      rfl

theorem Sim.place (s : Sim A B g P) {h : Hist F} (hl : Edges P h.bins) {x : F} (hx : P x) (i : ℕ) :
    (h.map g).place B (g x) i = Hist.map g <$> h.place A x i ∧ ∀ h', h.place A x i = .ok h' → Edges P h'.bins := by
  have happ : Edges P (h.bins ++ [⟨x, x, 1⟩]) := by
    intro b hb
    rcases List.mem_append.1 hb with hb | hb
    · exact hl b hb
    · simp at hb; subst hb; exact ⟨hx, hx⟩
  unfold Hist.place
  simp only [List.length_map, List.getElem?_map]
  by_cases h0 : h.total = 0
  · simp only [h0, if_true]
    exact ⟨by simp [Hist.map], fun h' e => by injection e with e; subst e; exact happ⟩
  simp only [h0, if_false]
  by_cases h1 : i = h.bins.length
  · simp only [h1, if_true]
    exact ⟨by simp [Hist.map], fun h' e => by injection e with e; subst e; exact happ⟩
  simp only [h1, if_false]
  cases hb : h.bins[i]? with
  | none => exact ⟨rfl, fun h' e => by cases e⟩
  | some b =>
    have hb' := hl b (List.mem_of_getElem? hb)
    have hd := s.le b.left x hb'.1 hx
    simp only [Option.map_some, hd]
    cases A.le b.left x
    · simp only [Bool.false_eq_true, if_false]
      refine ⟨?_, fun h' e => ?_⟩
      · simp only [Res.map_ok, Hist.map, List.map_insertIdx]
      · injection e with e; subst e
        intro c hc
        rcases List.eq_or_mem_of_mem_insertIdx hc with rfl | hc
        · exact ⟨hx, hx⟩
        · exact hl c hc
    · simp only [if_true]
      refine ⟨?_, fun h' e => ?_⟩
      · simp only [Res.map_ok, Hist.map, List.map_set]
      · injection e with e; subst e
        intro c hc
        rcases List.mem_or_eq_of_mem_set hc with hc | rfl
        · exact hl c hc
        · exact hb'

theorem decay_map (h : Hist F) : (h.map g).decayCounts = Hist.map g <$> h.decayCounts := by
  unfold decayCounts
  simp only [List.getElem?_map]
  by_cases h0 : h.total > h.windowSize
  · simp only [h0, if_true]
    cases hw : h.window with
    | nil => rfl
    | cons d w =>
      simp only
      cases hb : h.bins[d]? with
      | none => rfl
      | some b =>
        simp only [Option.map_some, List.length_set, List.length_map]
        by_cases hc : b.count > 0
        · simp only [hc, if_true]
          by_cases hn : h.bins.length > h.numBins
          · simp only [hn, if_true]
            by_cases he : b.count - 1 = 0
            · simp only [he, if_true, Res.map_ok, Hist.map, ← List.eraseIdx_map, List.map_set]
            · simp only [he, if_false, Res.map_ok, Hist.map, List.map_set]
          · simp only [hn, if_false, Res.map_ok, Hist.map, List.map_set]
        · simp only [hc, if_false]
          by_cases hn : h.bins.length > h.numBins
          · simp only [hn, if_true]
            by_cases he : b.count = 0
            · simp only [he, if_true, Res.map_ok, Hist.map, ← List.eraseIdx_map, List.map_set]
            · simp only [he, if_false, Res.map_ok, Hist.map, List.map_set]
          · simp only [hn, if_false, Res.map_ok, Hist.map, List.map_set]
  · simp only [h0, if_false, Res.map_ok]

theorem decay_edges {h h' : Hist F} (hl : Edges P h.bins) (e : h.decayCounts = .ok h') : Edges P h'.bins := by
  unfold decayCounts at e
  split at e
  · split at e
    · cases e
    · rename_i d w hw
      split at e
      · cases e
      · rename_i b hb
        have hb' := hl b (List.mem_of_getElem? hb)
        injection e with e
        have hset : ∀ c ∈ h.bins.set d (if b.count > 0 then { b with count := b.count - 1 } else b), P c.left ∧ P c.right := by
          intro c hc
          rcases List.mem_or_eq_of_mem_set hc with hc | rfl
          · exact hl c hc
          · split <;> exact hb'
        subst e
        intro c hc
        generalize (if b.count > 0 then { b with count := b.count - 1 } else b) = b' at hc hset
        simp only at hc
        split at hc
        · split at hc
          · exact hset c (List.mem_of_mem_eraseIdx hc)
          · exact hset c hc
        · exact hset c hc
  · injection e with e; subst e; exact hl

theorem Sim.add (s : Sim A B g P) {h : Hist F} (hl : Edges P h.bins) {x : F} (hx : P x) :
    (h.map g).add B (g x) = Hist.map g <$> h.add A x ∧ ∀ h', h.add A x = .ok h' → Edges P h'.bins := by
  unfold Hist.add Hist.binSearch Hist.binSearchBin
  have hs := s.search hl (c := ⟨x, x, 1⟩) hx h.bins.length 0 h.bins.length ((0 + h.bins.length) / 2)
  simp only [List.length_map]
  rw [hs]
  cases searchLoop A h.bins ⟨x, x, 1⟩ h.bins.length 0 h.bins.length ((0 + h.bins.length) / 2) with
  | throw m => exact ⟨rfl, fun h' e => by cases e⟩
  | ub u => exact ⟨rfl, fun h' e => by cases e⟩
  | ok i =>
    simp only [Res.ok_bind]
    obtain ⟨p1, p2⟩ := s.place hl hx i
    rw [p1]
    cases hp : h.place A x i with
    | throw m => exact ⟨rfl, fun h' e => by cases e⟩
    | ub u => exact ⟨rfl, fun h' e => by cases e⟩
    | ok h1 =>
      simp only [Res.map_ok, Res.ok_bind]
      exact ⟨decay_map (g := g) ⟨h1.numBins, h1.windowSize, h1.bins, h1.window ++ [i], h1.total + 1, h1.historyCount + 1, h1.live⟩,
        fun h' e => decay_edges (by exact p2 h1 hp) e⟩

theorem Sim.mergeLoop (s : Sim A B g P) {l : List (Bin F)} (hl : Edges P l) (i : ℕ) (m : F) (m' : G) (k : ℕ)
    (hm : (m = A.lit dblMax ∧ m' = B.lit dblMax) ∨ ∃ c d, P c ∧ P d ∧ m = A.sub c d ∧ m' = B.sub (g c) (g d)) :
    mergeLoop B (l.map (Bin.map g)) i m' k = mergeLoop A l i m k := by
  induction l generalizing i m m' k with
  | nil => rfl
  | cons a l ih =>
    cases l with
    | nil => rfl
    | cons b l =>
      have hl' : Edges P (b :: l) := fun c hc => hl c (List.mem_cons_of_mem _ hc)
      have ha := (hl a (by simp)).2
      have hb := (hl b (by simp)).2
      have hd : definitelyLessThan B (B.sub (g b.right) (g a.right)) m' (defaultEps B) =
          definitelyLessThan A (A.sub b.right a.right) m (defaultEps A) := by
        rcases hm with ⟨rfl, rfl⟩ | ⟨c, d, hc, hd, rfl, rfl⟩
        · exact s.diffMax _ _ hb ha
        · exact s.diff _ _ _ _ hb ha hc hd
      simp only [List.map_cons, Hist.mergeLoop, hd]
      split
      · exact ih hl' _ _ _ _ (.inr ⟨_, _, hb, ha, rfl, rfl⟩)
      · exact ih hl' _ _ _ _ hm

theorem Sim.mergeBins (s : Sim A B g P) {l : List (Bin F)} (hl : Edges P l) (i j : ℕ) :
    Hist.mergeBins B (l.map (Bin.map g)) i j = List.map (Bin.map g) <$> Hist.mergeBins A l i j ∧
      ∀ l', Hist.mergeBins A l i j = .ok l' → Edges P l' := by
  unfold Hist.mergeBins
  simp only [List.getElem?_map]
  cases hr : l[j]? with
  | none => exact ⟨rfl, fun l' e => by cases e⟩
  | some r =>
    have hr' := hl r (List.mem_of_getElem? hr)
    have he : Edges P (l.eraseIdx j) := fun c hc => hl c (List.mem_of_mem_eraseIdx hc)
    simp only [Option.map_some]
    cases hb : (l.eraseIdx j)[i]? with
    | none => exact ⟨by simp [List.eraseIdx_map, hb], fun l' e => by cases e⟩
    | some b =>
      have hb' := he b (List.mem_of_getElem? hb)
      have e1 : Bin.add B (b.map g) (r.map g) = (Bin.add A b r).map g := by
        simp only [Bin.add, Bin.map, s.lessPlus _ _ hr'.1 hb'.1, s.greaterPlus _ _ hr'.2 hb'.2]
        congr 1 <;> split <;> rfl
      refine ⟨?_, fun l' e => ?_⟩
      · simp [List.eraseIdx_map, hb, List.map_set, e1]
      · injection e with e; subst e
        intro c hc
        rcases List.mem_or_eq_of_mem_set hc with hc | rfl
        · exact he c hc
        · simp only [Bin.add]
          constructor
          · split
            · exact hr'.1
            · exact hb'.1
          · split
            · exact hr'.2
            · exact hb'.2

theorem Sim.update (s : Sim A B g P) {h : Hist F} (hl : Edges P h.bins) {x : F} (hx : P x) :
    (h.map g).update B (g x) = Hist.map g <$> h.update A x ∧ ∀ h', h.update A x = .ok h' → Edges P h'.bins := by
  unfold Hist.update
  obtain ⟨a1, a2⟩ := s.add hl hx
  rw [a1]
  cases ha : h.add A x with
  | throw m => exact ⟨rfl, fun h' e => by cases e⟩
  | ub u => exact ⟨rfl, fun h' e => by cases e⟩
  | ok h1 =>
    have hl1 := a2 h1 ha
    simp only [Res.map_ok, Res.ok_bind, List.length_map]
    by_cases hn : h1.bins.length > h1.numBins
    · simp only [hn, if_true]
      have hi : mergeIndex B (h1.bins.map (Bin.map g)) = mergeIndex A h1.bins := by
        unfold mergeIndex
        rw [List.length_map]
        exact s.mergeLoop hl1 _ _ _ _ (.inl ⟨rfl, rfl⟩)
      rw [hi]
      obtain ⟨m1, m2⟩ := s.mergeBins hl1 (mergeIndex A h1.bins) (mergeIndex A h1.bins + 1)
      rw [m1]
      cases hm : Hist.mergeBins A h1.bins (mergeIndex A h1.bins) (mergeIndex A h1.bins + 1) with
      | throw m => exact ⟨rfl, fun h' e => by cases e⟩
      | ub u => exact ⟨rfl, fun h' e => by cases e⟩
      | ok l' =>
        simp only [Res.map_ok, Res.ok_bind]
        exact ⟨trivial, fun h' e => by injection e with e; subst e; exact m2 l' hm⟩
    · simp only [hn, if_false, Res.map_ok]
      exact ⟨trivial, fun h' e => by injection e with e; subst e; exact hl1⟩

theorem Sim.run (s : Sim A B g P) (xs : List F) (hx : ∀ x ∈ xs, P x) (h : Hist F) (hl : Edges P h.bins) :
    updateAll (Hist.update B) (h.map g) (xs.map g) = Hist.map g <$> updateAll (Hist.update A) h xs := by
  induction xs generalizing h with
  | nil => rfl
  | cons x xs ih =>
    simp only [List.map_cons, updateAll]
    obtain ⟨u1, u2⟩ := s.update hl (hx x (by simp))
    rw [u1]
    cases hu : h.update A x with
    | throw m => rfl
    | ub u => rfl
    | ok h1 => exact ih (fun y hy => hx y (by simp [hy])) h1 (u2 h1 hu)

end Hist

end KML
