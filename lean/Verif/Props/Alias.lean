import Verif.Model.Alias
import Verif.Model.Float
import Verif.Lemmas.Mean
import Verif.Props.HistHeap

/-!
# C120: an object may be given one of its own values

`update` takes a reference. `mean.update(mean.getWindow()->front())` binds it to the element that a full window is about to
drop.
-/

namespace KML

namespace AMean

variable {F : Type} {A : Arith F}

/-- What holds of every `AMean`: addresses are distinct and in use, the window is no longer than allowed. -/
structure Ok (m : AMean F) : Prop where
  nodup : ∀ w, m.window = some w → (w.map Prod.fst).Nodup
  used : ∀ w, m.window = some w → ∀ c ∈ w, c.1 < m.next
  len : ∀ w, m.window = some w → w.length ≤ m.windowSize ∧ 0 < m.windowSize

theorem Ok.new (W : ℕ) : (AMean.new A W).Ok := by
  unfold AMean.new
  constructor <;> intro w h <;> split at h <;> simp_all

theorem read_mem {w : List (ℕ × F)} (hn : (w.map Prod.fst).Nodup) {c : ℕ × F} (hc : c ∈ w) :
    read (some w) (.cell c.1) = .ok c.2 := by
  have : w.find? (·.1 = c.1) = some c := by
    induction w with
    | nil => simp at hc
    | cons d w ih =>
      rw [List.map_cons, List.nodup_cons] at hn
      rcases List.mem_cons.1 hc with rfl | hc
      · simp
      · have : d.1 ≠ c.1 := fun e => hn.1 (e ▸ List.mem_map_of_mem hc)
        rw [List.find?_cons_of_neg (by simpa using this)]
        exact ih hn.2 hc
  simp [read, this]

theorem read_gone {w : List (ℕ × F)} {a : ℕ} (h : ∀ c ∈ w, c.1 ≠ a) : read (some w) (.cell a) = .ub .useAfterFree := by
  have : w.find? (·.1 = a) = none := by
    rw [List.find?_eq_none]
    intro c hc
    simpa using h c hc
  simp [read, this]

theorem nodup_push {w : List (ℕ × F)} {n : ℕ} {x : F} (hn : (w.map Prod.fst).Nodup) (hu : ∀ c ∈ w, c.1 < n) :
    ((w ++ [(n, x)]).map Prod.fst).Nodup := by
  rw [List.map_append, List.nodup_append]
  refine ⟨hn, by simp, ?_⟩
  intro a ha b hb
  obtain ⟨c, hc, rfl⟩ := List.mem_map.1 ha
  simp only [List.map_cons, List.map_nil, List.mem_singleton] at hb
  subst hb
  exact (hu c hc).ne

/-- The reference `r` gives `x` while the window is `w`, also after elements are appended. -/
theorem update_of_read {m : AMean F} (ho : m.Ok) {r : Ref F} {x : F} (h1 : m.window = none → r = .value x)
    (h2 : ∀ w, m.window = some w → r = .value x ∨
      ∃ a, r = .cell a ∧ (a, x) ∈ (if w.length = m.windowSize then w.drop 1 else w)) :
    ∃ b, m.update A r = .ok b ∧ m.forget.update A x = .ok b.forget ∧ b.Ok := by
  obtain ⟨W, win, next, n, s⟩ := m
  rcases win with _ | w
  · have := h1 rfl
    subst this
    refine ⟨_, rfl, rfl, ?_⟩
    constructor <;> intro w h <;> simp at h
  · have hn := ho.nodup w rfl
    have hu := ho.used w rfl
    obtain ⟨hl, hW⟩ := ho.len w rfl
    simp only at hn hu hl hW
    have h2 := h2 w rfl
    simp only at h2
    by_cases hf : w.length = W
    · rcases w with _ | ⟨c, w⟩
      · simp at hf; omega
      rw [if_pos hf, List.drop_one, List.tail_cons] at h2
      rw [List.map_cons, List.nodup_cons] at hn
      have hu' : ∀ d ∈ w, d.1 < next := fun d hd => hu d (by simp [hd])
      have r1 : read (some w) r = .ok x := by
        rcases h2 with rfl | ⟨a, rfl, h⟩
        · rfl
        · exact read_mem hn.2 h
      have hn' := nodup_push (x := x) hn.2 hu'
      have r2 : read (some (w ++ [(next, x)])) r = .ok x := by
        rcases h2 with rfl | ⟨a, rfl, h⟩
        · rfl
        · exact read_mem (c := (a, x)) hn' (by simp [h])
      refine ⟨⟨W, some (w ++ [(next, x)]), next + 1, n + 1, A.add (A.sub s c.2) x⟩, ?_, ?_, ?_⟩
      · have : (c :: w).length + 1 > W := by omega
        simp only [update]
        rw [if_pos this, r1]
        simp only [Res.ok_bind]
        rw [r2]
        rfl
      · rw [List.length_cons] at hf
        subst hf
        simp [Mean.update, forget]
      · constructor <;> intro w' h <;> simp only [Option.some.injEq] at h <;> subst h
        · exact hn'
        · intro d hd
          rcases List.mem_append.1 hd with hd | hd
          · exact (hu' d hd).trans (Nat.lt_succ_self _)
          · rw [List.mem_singleton.1 hd]; exact Nat.lt_succ_self _
        · simp only [List.length_append, List.length_cons, List.length_nil] at hf ⊢
          omega
    · rw [if_neg hf] at h2
      have r1 : read (some w) r = .ok x := by
        rcases h2 with rfl | ⟨a, rfl, h⟩
        · rfl
        · exact read_mem hn h
      have hn' := nodup_push (x := x) hn hu
      have r2 : read (some (w ++ [(next, x)])) r = .ok x := by
        rcases h2 with rfl | ⟨a, rfl, h⟩
        · rfl
        · exact read_mem (c := (a, x)) hn' (by simp [h])
      refine ⟨⟨W, some (w ++ [(next, x)]), next + 1, n + 1, A.add s x⟩, ?_, ?_, ?_⟩
      · have : ¬ w.length + 1 > W := by omega
        simp only [update]
        rw [if_neg this, r1]
        simp only [Res.ok_bind]
        rw [r2]
        rfl
      · have : ¬ W < w.length + 1 := by omega
        simp [Mean.update, forget, this]
      · constructor <;> intro w' h <;> simp only [Option.some.injEq] at h <;> subst h
        · exact hn'
        · intro d hd
          rcases List.mem_append.1 hd with hd | hd
          · exact (hu d hd).trans (Nat.lt_succ_self _)
          · rw [List.mem_singleton.1 hd]; exact Nat.lt_succ_self _
        · simp only [List.length_append, List.length_cons, List.length_nil]
          omega

theorem call_own {m : AMean F} (ho : m.Ok) {w : List (ℕ × F)} (hw : m.window = some w) {i : ℕ} {c : ℕ × F} (hi : w[i]? = some c)
    (h : i ≠ 0 ∨ w.length ≠ m.windowSize) :
    ∃ b, m.call A (.own i) = .ok b ∧ m.forget.update A c.2 = .ok b.forget ∧ b.Ok := by
  have e : m.bindTo (.own i) = .ok (.cell c.1) := by simp [bindTo, hw, hi]
  unfold call
  rw [e]
  refine update_of_read ho (fun h => by rw [hw] at h; cases h) ?_
  intro w' hw'
  rw [hw] at hw'
  cases hw'
  refine .inr ⟨c.1, rfl, ?_⟩
  split
  · rcases i with _ | i
    · rcases h with h | h
      · exact absurd rfl h
      · contradiction
    · exact List.mem_of_getElem? (i := i) (by rw [List.getElem?_drop, Nat.add_comm]; exact hi)
  · exact List.mem_of_getElem? hi

theorem call_front {m : AMean F} (ho : m.Ok) {w : List (ℕ × F)} (hw : m.window = some w) (h : w.length = m.windowSize) :
    m.call A (.own 0) = .ub .useAfterFree := by
  obtain ⟨W, win, next, n, s⟩ := m
  simp only at hw h
  subst hw
  have hn := ho.nodup w rfl
  obtain ⟨-, hW⟩ := ho.len w rfl
  simp only at hW
  rcases w with _ | ⟨c, w⟩
  · simp at h; omega
  rw [List.map_cons, List.nodup_cons] at hn
  have r1 : read (some w) (.cell c.1) = .ub .useAfterFree :=
    read_gone fun d hd e => hn.1 (e ▸ List.mem_map_of_mem hd)
  have : (c :: w).length + 1 > W := by omega
  have e : bindTo ⟨W, some (c :: w), next, n, s⟩ (.own 0) = .ok (.cell c.1) := rfl
  unfold call
  rw [e]
  simp only [Res.ok_bind, update]
  rw [if_pos this, r1]
  rfl

theorem call_value {m : AMean F} (ho : m.Ok) (x : F) :
    ∃ b, m.call A (.value x) = .ok b ∧ m.forget.update A x = .ok b.forget ∧ b.Ok :=
  update_of_read ho (fun _ => rfl) fun _ _ => .inl rfl

theorem call_ok {m b : AMean F} (ho : m.Ok) {arg : Arg F} (h : m.call A arg = .ok b) : b.Ok := by
  rcases arg with x | i
  · obtain ⟨b', h1, -, h3⟩ := call_value (A := A) ho x
    rw [h] at h1
    cases h1
    exact h3
  · rcases hw : m.window with _ | w
    · simp [call, bindTo, hw] at h
    · rcases hi : w[i]? with _ | c
      · simp [call, bindTo, hw, hi] at h
      · by_cases hc : i ≠ 0 ∨ w.length ≠ m.windowSize
        · obtain ⟨b', h1, -, h3⟩ := call_own (A := A) ho hw hi hc
          rw [h] at h1
          cases h1
          exact h3
        · push Not at hc
          rw [hc.1, call_front ho hw hc.2] at h
          cases h

theorem run_ok {W : ℕ} {args : List (Arg F)} {m : AMean F} (h : updateAll (AMean.call A) (AMean.new A W) args = .ok m) :
    m.Ok := by
  revert h
  generalize AMean.new A W = s, Ok.new (A := A) W = hs
  induction args generalizing s with
  | nil => rintro h; cases h; exact hs
  | cons a args ih =>
    intro h
    obtain ⟨b, h1, h2⟩ := Res.bind_eq_ok.1 h
    exact ih b (call_ok hs h1) h2

theorem update_size {m b : AMean F} {r : Ref F} (h : m.update A r = .ok b) : b.windowSize = m.windowSize := by
  obtain ⟨W, win, next, n, s⟩ := m
  rcases win with _ | w
  · simp only [update, Res.ok_bind] at h
    obtain ⟨x, -, h3⟩ := Res.bind_eq_ok.1 h
    cases h3
    rfl
  · simp only [update] at h
    split at h
    · rcases w with _ | ⟨c, w⟩
      · cases h
      · obtain ⟨x, -, h⟩ := Res.bind_eq_ok.1 h
        simp only [Res.ok_bind] at h
        obtain ⟨x, -, h3⟩ := Res.bind_eq_ok.1 h
        cases h3
        rfl
    · obtain ⟨x, -, h⟩ := Res.bind_eq_ok.1 h
      simp only [Res.ok_bind] at h
      obtain ⟨x, -, h3⟩ := Res.bind_eq_ok.1 h
      cases h3
      rfl

theorem run_size {W : ℕ} {args : List (Arg F)} {m : AMean F}
    (h : updateAll (AMean.call A) (AMean.new A W) args = .ok m) : m.windowSize = W := by
  have key : ∀ (args : List (Arg F)) (s : AMean F), updateAll (AMean.call A) s args = .ok m →
      m.windowSize = s.windowSize := by
    intro args
    induction args with
    | nil => rintro s h; cases h; rfl
    | cons a args ih =>
      intro s h
      obtain ⟨b, h1, h2⟩ := Res.bind_eq_ok.1 h
      obtain ⟨r, -, h3⟩ := Res.bind_eq_ok.1 h1
      rw [ih b h2, update_size h3]
  exact key args _ h

end AMean

/-- **C120**, full statement: giving StreamingMean a reference to element `i` of its own window is as giving it that value. -/
def C120_full : Prop := ∀ (W : ℕ) (xs : List ℚ) (m : AMean ℚ) (w : List (ℕ × ℚ)) (i : ℕ) (c : ℕ × ℚ),
  updateAll (AMean.call (exact ℚ)) (AMean.new (exact ℚ) W) (xs.map .value) = .ok m → m.window = some w → w[i]? = some c →
  ∃ b, m.call (exact ℚ) (.own i) = .ok b ∧ m.forget.update (exact ℚ) c.2 = .ok b.forget

/-- **C120** is violated: `mean.update(mean.getWindow()->front())` with a full window reads the element it has just removed. -/
theorem C120_violated : ¬ C120_full := by
  intro h
  obtain ⟨b, h1, -⟩ := h 1 [5] ⟨1, some [(0, 5)], 1, 1, 5⟩ [(0, 5)] 0 (0, 5) (by decide +kernel) rfl rfl
  have : AMean.call (exact ℚ) ⟨1, some [(0, 5)], 1, 1, 5⟩ (.own 0) = .ub .useAfterFree := by decide +kernel
  rw [this] at h1
  cases h1

/-- **C120**, the part that holds, for any arithmetic and any earlier calls with values and own elements: an element that is
not about to leave the window can be given, and a value of course; `forget` is the object the other theorems are about: it
starts as theirs and has the same sum, number of observations and window. -/
theorem C120_mean_partial {F : Type} (A : Arith F) (W : ℕ) (args : List (AMean.Arg F)) (m : AMean F)
    (hr : updateAll (AMean.call A) (AMean.new A W) args = .ok m) :
    (∀ w i c, m.window = some w → w[i]? = some c → i ≠ 0 ∨ w.length < W →
      ∃ b, m.call A (.own i) = .ok b ∧ m.forget.update A c.2 = .ok b.forget) ∧
    (∀ w, m.window = some w → w.length = W → m.call A (.own 0) = .ub .useAfterFree) ∧
    (∀ x, ∃ b, m.call A (.value x) = .ok b ∧ m.forget.update A x = .ok b.forget) ∧
    (AMean.new A W).forget = Mean.new A W ∧
    m.forget = ⟨m.windowSize, m.window.map (·.map Prod.snd), m.historyCount, m.sum⟩ := by
  have ho := AMean.run_ok hr
  have hW : m.windowSize = W := AMean.run_size hr
  refine ⟨fun w i c hw hi h => ?_, fun w hw h => AMean.call_front ho hw (h.trans hW.symm), fun x => ?_, ?_, rfl⟩
  · obtain ⟨b, h1, h2, -⟩ := AMean.call_own (A := A) ho hw hi (h.imp_right fun h => by omega)
    exact ⟨b, h1, h2⟩
  · obtain ⟨b, h1, h2, -⟩ := AMean.call_value (A := A) ho x
    exact ⟨b, h1, h2⟩
  · unfold AMean.forget AMean.new Mean.new
    cases W <;> rfl

/-- Window 3: after 5, 7 the second element is given, then the third, then the second again. -/
example : (do
    let m ← updateAll (AMean.call b64) (AMean.new b64 3) [.value 5, .value 7, .own 1, .own 2, .own 1]
    .ok m.forget) = updateAll (Mean.update b64) (Mean.new b64 3) [5, 7, 7, 7, 7] := by
  decide +kernel

/-- **C120** for StreamingHistogram: an edge of any bin can be given (`hist.update(hist.getBin(i)->m_left)`), for every
allocator and every arithmetic. -/
theorem C120_histogram_partial {F : Type} (A : Arith F) (al : Allocator F) (hal : al.Sound) (h : HHist F)
    (hf : {p | h.heap p ≠ none}.Finite) (a : ℕ) (b : Bin F) (ha : h.heap a = some b) (right : Bool) :
    h.updateRef A al a right = h.update A al (if right then b.right else b.left) := by
  have hq : a ≠ al h.heap := by
    rintro rfl
    rw [hal h.heap hf] at ha
    cases ha
  have e1 : HHist.edge h.heap a right = .ok (if right then b.right else b.left) := by
    simp [HHist.edge, HHist.deref, ha]
  have e2 : ∀ b', HHist.edge (Function.update h.heap (al h.heap) (some b')) a right =
      .ok (if right then b.right else b.left) := by
    intro b'
    simp [HHist.edge, HHist.deref, Function.update_of_ne hq, ha]
  have : h.addRef A al a right = h.add A al (if right then b.right else b.left) := by
    simp only [HHist.addRef, HHist.add, e1, Res.ok_bind, HHist.placeRef, e2]
    rfl
  unfold HHist.updateRef HHist.update
  rw [this]

/-- The bins 1, 5; the right edge of the second is given. -/
example : (do
    let h ← updateAll (HHist.update b64 scan) (HHist.new (fun _ => none) 4 10) [5, 1]
    let g ← h.updateRef b64 scan 0 true
    .ok (g.bins.map g.heap)) = .ok [some ⟨1, 1, 1⟩, some ⟨5, 5, 2⟩] := by
  decide +kernel

end KML
