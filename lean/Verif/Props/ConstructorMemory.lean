import Verif.Lemmas.Lifetime
import Verif.Model.Float

/-! # C122: a constructor that throws leaves nothing allocated -/

namespace KML

open Life Lifetime

/-- Whatever allocations are refused and whatever the arguments are: if the constructor throws, then what is allocated is
what was allocated before. -/
def Releases (ctor : Life Dtor) : Prop :=
  ∀ (h h' : Blocks) (m : String), h.Wf → ctor h = (.throw m, h') → h'.Wf ∧ h'.live.Perm h.live

/-- **C122**, the full claim. -/
def C122_full : Prop := ∀ S : Library, S.Sound →
  (∀ W, Releases (mean S W)) ∧ (∀ W, Releases (variance S W)) ∧ (∀ q, Releases (p2 S (exact ℚ) q)) ∧
  (∀ q W, Releases (windowedP2 S (exact ℚ) q W)) ∧ (∀ low high W, Releases (iqr S (exact ℚ) low high W)) ∧
  (∀ s e, Releases (fame S (exact ℚ) s e)) ∧ Releases (mad S (exact ℚ)) ∧
  (∀ (L : LArith ℚ) W n, Releases (entropy S L W n)) ∧
  Releases ringBuffer ∧ (∀ W, Releases (histogram S W)) ∧
  (∀ W, Releases (bareWrapper (histogram S W))) ∧ Releases (bareWrapper ringBuffer)

theorem CleanOn.releases {ctor : Life Dtor} (hc : CleanOn true true ctor) : Releases ctor := by
  intro h h' m hw e
  have := hc h hw nofun
  rw [e] at this
  exact ⟨this.2.1, this.2.2.2⟩

/-- **C122** is violated: `StreamingVariance` that gets its first mean but not its second loses the first, with its window.
-/
theorem C122_violated : ¬ C122_full := by
  intro hf
  have h := (hf oneBlock oneBlock_sound).2.1 3 ⟨0, [], [5]⟩ ⟨6, [4, 3, 2], [5]⟩ "std::bad_alloc"
    ⟨List.nodup_nil, by simp⟩ rfl
  exact absurd h.2.length_eq (by decide)

/-- **C122**, independently of each other and for any window and arithmetic: so do `StreamingIQR` and `StreamingMAD`. The
refused allocation is the first one for the second member. -/
theorem C122_members_violated :
    (∀ W, ¬ Releases (variance oneBlock W)) ∧
    (∀ W, ¬ Releases (iqr oneBlock (exact ℚ) (1 / 4) (3 / 4) W)) ∧ ¬ Releases (mad oneBlock (exact ℚ)) := by
  refine ⟨fun W h => ?_, fun W h => ?_, fun h => ?_⟩
  · cases W with
    | zero =>
      have := h ⟨0, [], [1]⟩ ⟨2, [0], [1]⟩ "std::bad_alloc" ⟨List.nodup_nil, by simp⟩ rfl
      exact absurd this.2.length_eq (by decide)
    | succ W =>
      have := h ⟨0, [], [5]⟩ ⟨6, [4, 3, 2], [5]⟩ "std::bad_alloc" ⟨List.nodup_nil, by simp⟩ rfl
      exact absurd this.2.length_eq (by decide)
  · have hp : ∃ p, P2.new (exact ℚ) (1 / 4) = .ok p := ⟨_, if_neg (by decide +kernel)⟩
    obtain ⟨p, hp⟩ := hp
    cases W with
    | zero =>
      have := h ⟨0, [], [5]⟩ ⟨6, [4, 3, 2, 1, 0], [5]⟩ "std::bad_alloc" ⟨List.nodup_nil, by simp⟩ (by
        unfold iqr windowedP2 p2
        rw [hp]
        rfl)
      exact absurd this.2.length_eq (by decide)
    | succ W =>
      have := h ⟨0, [], [7]⟩ ⟨8, [6, 5, 4, 3, 2, 1, 0], [7]⟩ "std::bad_alloc" ⟨List.nodup_nil, by simp⟩ (by
        unfold iqr windowedP2 p2
        rw [hp]
        rfl)
      exact absurd this.2.length_eq (by decide)
  · have hp : ∃ f, Fame.new (exact ℚ) ((exact ℚ).lit (1 / 10)) ((exact ℚ).lit 0) = .ok f := ⟨_, if_neg (by decide +kernel)⟩
    obtain ⟨f, hp⟩ := hp
    have := h ⟨0, [], [1]⟩ ⟨2, [0], [1]⟩ "std::bad_alloc" ⟨List.nodup_nil, by simp⟩ (by
      unfold mad fame
      rw [hp]
      rfl)
    exact absurd this.2.length_eq (by decide)

section

variable {F : Type} (A : Arith F) {S : Library} (hS : S.Sound)
include hS

/-- **C122**: the classes with at most one object of their own are clean whatever is refused and whatever arguments they
are given, in any arithmetic, and so are their Python wrappers. Missing: the classes with two (`C122_violated`). -/
theorem C122_classes_partial :
    (∀ W, CleanOn true true (mean S W)) ∧ (∀ q, CleanOn true true (p2 S A q)) ∧
    (∀ q W, CleanOn true true (windowedP2 S A q W)) ∧ (∀ s e, CleanOn true true (fame S A s e)) ∧
    CleanOn true true ringBuffer ∧ (∀ W, CleanOn true true (histogram S W)) ∧
    ∀ ctor, CleanOn true true ctor → CleanOn true true (wrapper ctor) :=
  ⟨fun W => clean_mean hS W fun _ => rfl, fun q => clean_p2 A hS q (fun _ => rfl) fun _ _ => rfl,
    fun q W => clean_windowedP2 A hS q W (fun _ => rfl) fun _ _ => rfl,
    fun s e => clean_fame A hS s e (fun _ => rfl) fun _ _ => rfl, clean_ringBuffer fun _ => rfl,
    fun W => clean_histogram hS W fun _ => rfl, fun _ h => clean_new h fun _ => rfl⟩

/-- **C122**: hence they release everything if they throw. -/
theorem C122_releases_partial :
    (∀ W, Releases (mean S W)) ∧ (∀ q, Releases (p2 S A q)) ∧ (∀ q W, Releases (windowedP2 S A q W)) ∧
    (∀ s e, Releases (fame S A s e)) ∧ Releases ringBuffer ∧ (∀ W, Releases (histogram S W)) ∧
    ∀ ctor, CleanOn true true ctor → Releases (wrapper ctor) := by
  obtain ⟨h1, h2, h3, h4, h5, h6, h7⟩ := C122_classes_partial A hS
  exact ⟨fun W => (h1 W).releases, fun q => (h2 q).releases, fun q W => (h3 q W).releases,
    fun s e => (h4 s e).releases, h5.releases, fun W => (h6 W).releases, fun c hc => (h7 c hc).releases⟩

end

/-- What an object with a base class leaves allocated if its constructor throws. -/
theorem derived_throw {base body : Life Dtor} (hb : CleanOn true true base) {h h' : Blocks} {m : String} (hw : h.Wf)
    (e : derived base body h = (.throw m, h'))
    (hc : ∀ h1 h2 m, h1.Wf → body h1 = (.throw m, h2) → h2.Wf ∧ ∃ lost, h2.live.Perm (lost ++ h1.live)) :
    h'.Wf ∧ (h'.live.Perm h.live ∨ ∃ h1 h2, h1.Wf ∧ body h1 = (.throw m, h2) ∧
      ∀ lost, h2.live.Perm (lost ++ h1.live) → h'.live.Perm (lost ++ h.live)) := by
  have hr := hb h hw nofun
  unfold derived at e
  rcases hx : base h with ⟨b | m' | u, h1⟩
  · rw [hx] at hr
    obtain ⟨w1, r1, bs, p1, hd⟩ := hr
    rw [Life.bind_ok hx] at e
    rcases hy : body h1 with ⟨d | m' | u, h2⟩
    · rw [Life.bind_ok (Life.onThrow_ok hy)] at e
      injection e with e; cases e
    · obtain ⟨w2, lost, hp⟩ := hc _ _ _ w1 hy
      have key : ∀ lost, h2.live.Perm (lost ++ h1.live) → h2.live.Perm (bs ++ (lost ++ h.live)) := fun lost hp =>
        hp.trans ((List.Perm.append_left _ p1).trans (by
          rw [← List.append_assoc, ← List.append_assoc]
          exact List.Perm.append_right _ List.perm_append_comm))
      obtain ⟨g', e1, w3, r3, p3⟩ := hd h2 _ w2 (key lost hp)
      rw [Life.bind_throw (Life.onThrow_throw hy e1)] at e
      injection e with e2 e3
      injection e2 with e2
      subst e2
      rw [← e3]
      refine ⟨w3, Or.inr ⟨h1, h2, w1, hy, fun lost' hp' => ?_⟩⟩
      obtain ⟨g2, e4, -, -, p4⟩ := hd h2 _ w2 (key lost' hp')
      rw [e1] at e4
      injection e4 with _ e4
      rw [e4]; exact p4
    · have : onThrow body b h1 = (.ub u, h2) := by unfold onThrow; rw [hy]
      rw [Life.bind_ub this] at e
      injection e with e; cases e
  · rw [Life.bind_throw hx] at e
    rw [hx] at hr
    injection e with e1 e2
    rw [← e2]; exact ⟨hr.2.1, Or.inl hr.2.2.2⟩
  · rw [Life.bind_ub hx] at e
    injection e with e; cases e

theorem releases_derived {base body : Life Dtor} (hb : CleanOn true true base) (hc : Releases body) :
    Releases (derived base body) := by
  intro h h' m hw e
  obtain ⟨w, h1 | ⟨h1, h2, w1, e1, hl⟩⟩ := derived_throw hb hw e (fun h1 h2 m hw e =>
    ⟨(hc _ _ _ hw e).1, [], (hc _ _ _ hw e).2⟩)
  · exact ⟨w, h1⟩
  · exact ⟨w, hl [] (hc _ _ _ w1 e1).2⟩

/-- An object kept in a plain pointer, in a class without destructor. -/
theorem releases_kept {x : Life Dtor} (hx : CleanOn true true x) : Releases (do let _ ← x; pure (pure ())) := by
  intro h h' m hw e
  have hr := hx h hw nofun
  rcases ex : x h with ⟨a | m' | u, h1⟩
  · rw [Life.bind_ok ex] at e
    injection e with e; cases e
  · rw [Life.bind_throw ex] at e
    rw [ex] at hr
    injection e with e1 e2
    rw [← e2]; exact ⟨hr.2.1, hr.2.2.2⟩
  · rw [Life.bind_ub ex] at e
    injection e with e; cases e

/-- **C122**: `StreamingEntropy` and the Python containers release everything if they cannot be made (only not later on, see
C79), in any arithmetic. -/
theorem C122_kept_partial {F : Type} (L : LArith F) {S : Library} (hS : S.Sound) :
    (∀ W n, Releases (entropy S L W n)) ∧ (∀ W, Releases (bareWrapper (histogram S W))) ∧
    Releases (bareWrapper ringBuffer) := by
  refine ⟨fun W n => ?_, fun W => ?_, ?_⟩
  · refine releases_derived (clean_streaming hS W fun _ => rfl) fun h h' m hw e => ?_
    rcases he : Entropy.new L W n with x | m' | u
    · rw [he, Life.bind_ok (show lift (Res.ok x) h = (.ok x, h) from rfl)] at e
      exact releases_kept (clean_new (clean_histogram hS W fun _ => rfl) fun _ => rfl) h h' m hw e
    · rw [he, Life.bind_throw (show lift (Res.throw m' : Res (Entropy F)) h = (.throw m', h) from rfl)] at e
      injection e with e1 e2
      rw [← e2]; exact ⟨hw, List.Perm.refl _⟩
    · rw [he, Life.bind_ub (show lift (Res.ub u : Res (Entropy F)) h = (.ub u, h) from rfl)] at e
      injection e with e; cases e
  · exact releases_kept (clean_new (clean_histogram hS W fun _ => rfl) fun _ => rfl)
  · exact releases_kept (clean_new (clean_ringBuffer fun _ => rfl) fun _ => rfl)

/-- What is lost if the second of two objects kept in plain pointers cannot be made: nothing, or the whole first object. -/
def LosesFirst (first ctor : Life Dtor) : Prop :=
  ∀ (h h' : Blocks) (m : String), h.Wf → ctor h = (.throw m, h') → h'.live.Perm h.live ∨
    ∃ h1 h2 d lost, first h1 = (.ok d, h2) ∧ h2.live.Perm (lost ++ h1.live) ∧ h'.live.Perm (lost ++ h.live)

theorem losesFirst {base x y : Life Dtor} (hb : CleanOn true true base) (hx : CleanOn true true x)
    (hy : CleanOn true true y) :
    LosesFirst x (derived base do
      let a ← x
      let b ← y
      pure do
        a
        b) := by
  have key : ∀ h1 h2 m, h1.Wf → (do
      let a ← x
      let b ← y
      pure do
        a
        b : Life Dtor) h1 = (.throw m, h2) → h2.Wf ∧ (h2.live.Perm h1.live ∨
        ∃ d h3 lost, x h1 = (.ok d, h3) ∧ h3.live.Perm (lost ++ h1.live) ∧ h2.live.Perm (lost ++ h1.live)) := by
    intro h h' m hw e
    have hr := hx h hw nofun
    rcases ex : x h with ⟨a | m' | u, h1⟩
    · rw [ex] at hr
      obtain ⟨w1, r1, as, p1, hd1⟩ := hr
      rw [Life.bind_ok ex] at e
      have hr2 := hy h1 w1 nofun
      rcases ey : y h1 with ⟨b | m' | u, h2⟩
      · rw [Life.bind_ok ey] at e
        injection e with e; cases e
      · rw [Life.bind_throw ey] at e
        rw [ey] at hr2
        injection e with e1 e2
        rw [← e2]
        exact ⟨hr2.2.1, Or.inr ⟨a, h1, as, rfl, p1, hr2.2.2.2.trans p1⟩⟩
      · rw [Life.bind_ub ey] at e
        injection e with e; cases e
    · rw [Life.bind_throw ex] at e
      rw [ex] at hr
      injection e with e1 e2
      rw [← e2]; exact ⟨hr.2.1, Or.inl hr.2.2.2⟩
    · rw [Life.bind_ub ex] at e
      injection e with e; cases e
  intro h h' m hw e
  obtain ⟨w, h1 | ⟨h1, h2, w1, e1, hl⟩⟩ := derived_throw hb hw e (fun h1 h2 m hw e => by
    obtain ⟨w, hp | ⟨d, h3, lost, -, -, hp⟩⟩ := key h1 h2 m hw e
    · exact ⟨w, [], hp⟩
    · exact ⟨w, lost, hp⟩)
  · exact Or.inl h1
  · obtain ⟨w, hp | ⟨d, h3, lost, e2, hp, hp'⟩⟩ := key h1 h2 m w1 e1
    · exact Or.inl (hl [] hp)
    · exact Or.inr ⟨h1, h3, d, lost, e2, hp, hl lost hp'⟩

/-- **C122**: the classes with two objects of their own lose nothing or exactly the first of them, never more, whatever is
refused and whatever arguments they are given, in any arithmetic. Missing: they should lose nothing. -/
theorem C122_members_partial {F : Type} (A : Arith F) {S : Library} (hS : S.Sound) :
    (∀ W, LosesFirst (new (mean S W)) (variance S W)) ∧
    (∀ low high W, LosesFirst (new (windowedP2 S A low W)) (iqr S A low high W)) ∧
    LosesFirst (new (fame S A (A.lit (1 / 10)) (A.lit 0))) (mad S A) := by
  obtain ⟨h1, h2, h3, h4, h5, h6, h7⟩ := C122_classes_partial A hS
  exact ⟨fun W => losesFirst (clean_streaming hS W fun _ => rfl) (clean_new (h1 W) fun _ => rfl)
      (clean_new (h1 W) fun _ => rfl),
    fun low high W => losesFirst (clean_streaming hS 0 fun _ => rfl) (clean_new (h3 low W) fun _ => rfl)
      (clean_new (h3 high W) fun _ => rfl),
    losesFirst (clean_streaming hS 0 fun _ => rfl) (clean_new (h4 _ _) fun _ => rfl) (clean_new (h4 _ _) fun _ => rfl)⟩

/-- A sound library exists, and a refused allocation makes these constructors throw with nothing left behind. -/
example : oneBlock.Sound ∧
    (windowedP2 oneBlock (exact ℚ) (1 / 4) 3) ⟨0, [], [4]⟩ = (.throw "std::bad_alloc", ⟨5, [], [4]⟩) ∧
    (∃ d, (windowedP2 oneBlock (exact ℚ) (1 / 4) 3) ⟨0, [], [9]⟩ = (.ok d, ⟨6, [5, 4, 3, 2, 1, 0], [9]⟩)) := by
  obtain ⟨p, hp⟩ : ∃ p, P2.new (exact ℚ) (1 / 4) = .ok p := ⟨_, if_neg (by decide +kernel)⟩
  refine ⟨oneBlock_sound, ?_, ?_⟩
  · unfold windowedP2 p2
    rw [hp]
    rfl
  · unfold windowedP2 p2
    rw [hp]
    exact ⟨_, rfl⟩

end KML
