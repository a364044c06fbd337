import Verif.Model.Lifetime
import Mathlib.Data.List.Perm.Basic
import Mathlib.Data.List.Nodup

/-! # Constructors and destructors: what they leave allocated -/

namespace KML

open Life

/-- Allocated blocks are distinct and older than the next one. -/
structure Blocks.Wf (h : Blocks) : Prop where
  nodup : h.live.Nodup
  below : ∀ a ∈ h.live, a < h.next

/-- Construction allocates some blocks; destroying the object, whatever else has been allocated or released meanwhile,
releases these and no others. A constructor that throws leaves nothing allocated. Nothing is released twice. `refused` says
that allocations may be refused, `throws` that the constructor may throw. -/
def CleanOn (refused throws : Bool) (ctor : Life Dtor) : Prop := ∀ h : Blocks, h.Wf → (refused = false → h.refuse = []) →
  match ctor h with
  | (.ok d, h') => h'.Wf ∧ h'.refuse = h.refuse ∧ ∃ blocks, h'.live.Perm (blocks ++ h.live) ∧
      ∀ (g : Blocks) (others : List ℕ), g.Wf → g.live.Perm (blocks ++ others) →
        ∃ g', d g = (.ok (), g') ∧ g'.Wf ∧ g'.refuse = g.refuse ∧ g'.live.Perm others
  | (.throw _, h') => throws = true ∧ h'.Wf ∧ h'.refuse = h.refuse ∧ h'.live.Perm h.live
  | (.ub _, _) => False

/-- `CleanOn` as long as there is memory. -/
def Clean (ctor : Life Dtor) : Prop := CleanOn false true ctor

/-- The constructors of the standard containers are clean even if allocations are refused, and do not throw for another
reason. -/
structure Library.Sound (S : Library) : Prop where
  deque : ∀ n, CleanOn true true (S.deque n) ∧ CleanOn false false (S.deque n)
  vector : CleanOn true true S.vector ∧ CleanOn false false S.vector

/-! ## Rules -/

theorem Life.bind_ok {α β : Type} {x : Life α} {f : α → Life β} {h h' : Blocks} {a : α} (hx : x h = (.ok a, h')) :
    (x >>= f) h = f a h' := by
  show (match x h with | (.ok a, h') => f a h' | (.throw m, h') => (.throw m, h') | (.ub u, h') => (.ub u, h')) = _
  rw [hx]

theorem Life.bind_throw {α β : Type} {x : Life α} {f : α → Life β} {h h' : Blocks} {m : String}
    (hx : x h = (.throw m, h')) : (x >>= f) h = (.throw m, h') := by
  show (match x h with | (.ok a, h') => f a h' | (.throw m, h') => (.throw m, h') | (.ub u, h') => (.ub u, h')) = _
  rw [hx]

theorem Life.bind_ub {α β : Type} {x : Life α} {f : α → Life β} {h h' : Blocks} {u : UB}
    (hx : x h = (.ub u, h')) : (x >>= f) h = (.ub u, h') := by
  show (match x h with | (.ok a, h') => f a h' | (.throw m, h') => (.throw m, h') | (.ub u, h') => (.ub u, h')) = _
  rw [hx]

theorem Life.onThrow_ok {α : Type} {x : Life α} {c : Life Unit} {h h' : Blocks} {a : α} (hx : x h = (.ok a, h')) :
    onThrow x c h = (.ok a, h') := by
  unfold onThrow; rw [hx]

theorem Life.onThrow_throw {α : Type} {x : Life α} {c : Life Unit} {h h' h'' : Blocks} {m : String}
    (hx : x h = (.throw m, h')) (hc : c h' = (.ok (), h'')) : onThrow x c h = (.throw m, h'') := by
  unfold onThrow; rw [hx]; simp only [hc]

/-- Releasing a block that is there. -/
theorem free_spec {a : ℕ} {g : Blocks} {others : List ℕ} (hg : g.Wf) (hp : g.live.Perm (a :: others)) :
    ∃ g', free a g = (.ok (), g') ∧ g'.Wf ∧ g'.refuse = g.refuse ∧ g'.live.Perm others := by
  have ha : a ∈ g.live := hp.mem_iff.2 (by simp)
  refine ⟨{ g with live := g.live.erase a }, by unfold free; rw [if_pos ha], ⟨hg.nodup.erase a, ?_⟩, rfl, ?_⟩
  · exact fun b hb => hg.below b (List.mem_of_mem_erase hb)
  · have := hp.erase a
    rwa [List.erase_cons_head] at this

theorem alloc_spec {h : Blocks} (hw : h.Wf) :
    (h.next ∈ h.refuse ∧ ∃ m h', alloc h = (.throw m, h') ∧ h'.Wf ∧ h'.refuse = h.refuse ∧ h'.live = h.live) ∨
    ∃ h', alloc h = (.ok h.next, h') ∧ h'.Wf ∧ h'.refuse = h.refuse ∧ h'.live = h.next :: h.live := by
  by_cases hr : h.next ∈ h.refuse
  · exact Or.inl ⟨hr, _, { h with next := h.next + 1 }, by unfold alloc; rw [if_pos hr],
      ⟨hw.nodup, fun a ha => (hw.below a ha).trans (Nat.lt_succ_self _)⟩, rfl, rfl⟩
  · refine Or.inr ⟨{ h with next := h.next + 1, live := h.next :: h.live }, by unfold alloc; rw [if_neg hr], ⟨?_, ?_⟩, rfl, rfl⟩
    · exact List.nodup_cons.2 ⟨fun hm => absurd (hw.below _ hm) (lt_irrefl _), hw.nodup⟩
    · intro a ha
      rcases List.mem_cons.1 ha with rfl | ha
      · exact Nat.lt_succ_self _
      · exact (hw.below a ha).trans (Nat.lt_succ_self _)

variable {ref thr : Bool}

theorem CleanOn.weaken {ctor : Life Dtor} (hc : CleanOn ref false ctor) : CleanOn ref thr ctor := by
  intro h hw hr
  have := hc h hw hr
  rcases hx : ctor h with ⟨d | m | u, h1⟩
  · rw [hx] at this; exact this
  · rw [hx] at this; exact absurd this.1 (by simp)
  · rw [hx] at this; exact this

theorem clean_nothing : CleanOn ref thr (pure (pure ())) := by
  intro h hw _
  exact ⟨hw, rfl, [], List.Perm.refl _, fun g others hg hp => ⟨g, rfl, hg, rfl, hp⟩⟩

/-- `new` of something clean; it can throw if the constructor can or if memory is refused. -/
theorem clean_new {ctor : Life Dtor} (hc : CleanOn ref thr ctor) (ht : ref = true → thr = true) :
    CleanOn ref thr (new ctor) := by
  intro h hw hr
  unfold new
  rcases alloc_spec hw with ⟨hm, m, h1, e1, w1, r1, l1⟩ | ⟨h1, e1, w1, r1, l1⟩
  · rw [Life.bind_throw e1]
    refine ⟨ht ?_, w1, r1, by rw [l1]⟩
    rcases ref with _ | _
    · rw [hr rfl] at hm; simp at hm
    · rfl
  rw [Life.bind_ok e1]
  have hr := hc h1 w1 (fun e => by rw [r1]; exact hr e)
  rcases hx : ctor h1 with ⟨d | m | u, h2⟩
  · rw [hx] at hr
    obtain ⟨w2, r2, blocks, p2, hd⟩ := hr
    rw [Life.bind_ok (Life.onThrow_ok hx)]
    refine ⟨w2, r2.trans r1, blocks ++ [h.next], ?_, ?_⟩
    · rw [List.append_assoc]
      rw [l1] at p2
      exact p2
    · intro g others hg hp
      rw [List.append_assoc] at hp
      obtain ⟨g1, e2, w3, r3, p3⟩ := hd g (h.next :: others) hg hp
      rw [Life.bind_ok e2]
      obtain ⟨g2, e4, w4, r4, p4⟩ := free_spec w3 p3
      exact ⟨g2, e4, w4, r4.trans r3, p4⟩
  · rw [hx] at hr
    obtain ⟨t2, w2, r2, p2⟩ := hr
    rw [l1] at p2
    obtain ⟨h3, e3, w3, r3, p3⟩ := free_spec w2 p2
    rw [Life.bind_throw (Life.onThrow_throw hx e3)]
    exact ⟨t2, w3, r3.trans (r2.trans r1), p3⟩
  · rw [hx] at hr; exact hr.elim

theorem clean_derived {base body : Life Dtor} (hb : CleanOn ref thr base) (hc : CleanOn ref thr body) :
    CleanOn ref thr (derived base body) := by
  intro h hw hf
  have hr := hb h hw hf
  unfold derived
  rcases hx : base h with ⟨b | m | u, h1⟩
  · rw [hx] at hr
    obtain ⟨w1, r1, bs, p1, hd⟩ := hr
    rw [Life.bind_ok hx]
    have hr2 := hc h1 w1 (fun e => by rw [r1]; exact hf e)
    rcases hy : body h1 with ⟨d | m | u, h2⟩
    · rw [hy] at hr2
      obtain ⟨w2, r2, cs, p2, hd2⟩ := hr2
      rw [Life.bind_ok (Life.onThrow_ok hy)]
      refine ⟨w2, r2.trans r1, cs ++ bs, ?_, ?_⟩
      · rw [List.append_assoc]
        exact p2.trans (List.Perm.append_left _ p1)
      · intro g others hg hp
        rw [List.append_assoc] at hp
        obtain ⟨g1, e1, w3, r3, p3⟩ := hd2 g _ hg hp
        rw [Life.bind_ok e1]
        obtain ⟨g2, e4, w4, r4, p4⟩ := hd g1 others w3 p3
        exact ⟨g2, e4, w4, r4.trans r3, p4⟩
    · rw [hy] at hr2
      obtain ⟨t2, w2, r2, p2⟩ := hr2
      obtain ⟨g', e1, w3, r3, p3⟩ := hd h2 h.live w2 (p2.trans p1)
      rw [Life.bind_throw (Life.onThrow_throw hy e1)]
      exact ⟨t2, w3, r3.trans (r2.trans r1), p3⟩
    · rw [hy] at hr2; exact hr2.elim
  · rw [hx] at hr
    rw [Life.bind_throw hx]
    exact hr
  · rw [hx] at hr; exact hr.elim

/-- Two members one after the other, kept by plain pointers: clean if the second cannot throw. -/
theorem clean_pair {x y : Life Dtor} (hx : CleanOn ref thr x) (hy : CleanOn ref false y) :
    CleanOn ref thr (do
      let a ← x
      let b ← y
      pure do
        a
        b) := by
  intro h hw hf
  have hr := hx h hw hf
  rcases ex : x h with ⟨a | m | u, h1⟩
  · rw [ex] at hr
    obtain ⟨w1, r1, as, p1, hd1⟩ := hr
    rw [Life.bind_ok ex]
    have hr2 := hy h1 w1 (fun e => by rw [r1]; exact hf e)
    rcases ey : y h1 with ⟨b | m | u, h2⟩
    · rw [ey] at hr2
      obtain ⟨w2, r2, bs, p2, hd2⟩ := hr2
      rw [Life.bind_ok ey]
      refine ⟨w2, r2.trans r1, as ++ bs, ?_, ?_⟩
      · refine p2.trans ((List.Perm.append_left _ p1).trans ?_)
        rw [← List.append_assoc]
        exact List.Perm.append_right _ List.perm_append_comm
      · intro g others hg hp
        rw [List.append_assoc] at hp
        obtain ⟨g1, e1, w3, r3, p3⟩ := hd1 g _ hg hp
        rw [Life.bind_ok e1]
        obtain ⟨g2, e4, w4, r4, p4⟩ := hd2 g1 others w3 p3
        exact ⟨g2, e4, w4, r4.trans r3, p4⟩
    · rw [ey] at hr2; exact absurd hr2.1 (by simp)
    · rw [ey] at hr2; exact hr2.elim
  · rw [ex] at hr
    rw [Life.bind_throw ex]
    exact hr
  · rw [ex] at hr; exact hr.elim

/-- A check that may throw, before something else. -/
theorem clean_check {α : Type} {x : Res α} {y : Life Dtor} (hu : ∀ u, x ≠ .ub u) (ht : ∀ m, x = .throw m → thr = true)
    (hy : CleanOn ref thr y) : CleanOn ref thr (do let _ ← lift x; y) := by
  intro h hw hf
  rcases x with a | m | u
  · rw [Life.bind_ok (show lift (Res.ok a) h = (.ok a, h) from rfl)]
    exact hy h hw hf
  · rw [Life.bind_throw (show lift (Res.throw m : Res α) h = (.throw m, h) from rfl)]
    exact ⟨ht m rfl, hw, rfl, List.Perm.refl _⟩
  · exact absurd rfl (hu u)

/-! ## The classes -/

open Lifetime

variable {F : Type} (A : Arith F) {S : Library}

/-- What both sets of flags that matter have in common: if memory may be refused, constructors may throw. -/
theorem Library.Sound.dequeOn (hS : S.Sound) (n : ℕ) (ht : ref = true → thr = true) : CleanOn ref thr (S.deque n) := by
  rcases ref with _ | _
  · exact (hS.deque n).2.weaken
  · rw [ht rfl]; exact (hS.deque n).1

theorem Library.Sound.vectorOn (hS : S.Sound) (ht : ref = true → thr = true) : CleanOn ref thr S.vector := by
  rcases ref with _ | _
  · exact hS.vector.2.weaken
  · rw [ht rfl]; exact hS.vector.1

theorem clean_streaming (hS : S.Sound) (W : ℕ) (ht : ref = true → thr = true) : CleanOn ref thr (streaming S W) := by
  unfold streaming
  split
  · exact clean_new (hS.dequeOn 0 ht) ht
  · exact clean_nothing

theorem clean_mean (hS : S.Sound) (W : ℕ) (ht : ref = true → thr = true) : CleanOn ref thr (mean S W) :=
  clean_derived (clean_streaming hS W ht) clean_nothing

theorem P2.new_not_ub (q : F) (u : UB) : P2.new A q ≠ .ub u := by
  unfold P2.new; split <;> simp

theorem Fame.new_not_ub (s e : F) (u : UB) : Fame.new A s e ≠ .ub u := by
  unfold Fame.new; split <;> simp

theorem clean_p2 (hS : S.Sound) (q : F) (ht : ref = true → thr = true) (hq : ∀ m, P2.new A q = .throw m → thr = true) :
    CleanOn ref thr (p2 S A q) :=
  clean_derived (clean_streaming hS 0 ht) (clean_check (P2.new_not_ub A q) hq
    (clean_derived (hS.vectorOn ht) (clean_derived (hS.vectorOn ht) (hS.vectorOn ht))))

theorem clean_windowedP2 (hS : S.Sound) (q : F) (W : ℕ) (ht : ref = true → thr = true)
    (hq : ∀ m, P2.new A q = .throw m → thr = true) : CleanOn ref thr (windowedP2 S A q W) :=
  clean_derived (clean_streaming hS W ht) (clean_new (clean_p2 A hS q ht hq) ht)

theorem clean_fame (hS : S.Sound) (s e : F) (ht : ref = true → thr = true)
    (hf : ∀ m, Fame.new A s e = .throw m → thr = true) : CleanOn ref thr (fame S A s e) :=
  clean_derived (clean_streaming hS 0 ht) (clean_check (Fame.new_not_ub A s e) hf clean_nothing)

theorem clean_ringBuffer (ht : ref = true → thr = true) : CleanOn ref thr ringBuffer :=
  clean_new (ctor := pure (pure ())) clean_nothing ht

theorem clean_histogram (hS : S.Sound) (W : ℕ) (ht : ref = true → thr = true) : CleanOn ref thr (histogram S W) :=
  clean_new (hS.dequeOn W ht) ht

/-- A library whose containers allocate one block. -/
def oneBlock : Library := ⟨fun _ => new (pure (pure ())), new (pure (pure ()))⟩

theorem oneBlock_sound : oneBlock.Sound :=
  ⟨fun _ => ⟨clean_new clean_nothing (fun _ => rfl), clean_new clean_nothing (fun h => h)⟩,
    ⟨clean_new clean_nothing (fun _ => rfl), clean_new clean_nothing (fun h => h)⟩⟩

end KML
