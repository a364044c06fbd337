import Verif.Lemmas.Lifetime
import Verif.Model.Float

/-! # C79: objects release the memory they allocate -/

namespace KML

open Life Lifetime

/-- The full property: with any sound standard library every class is clean, and so is every Python wrapper. -/
def C79_full : Prop := ∀ S : Library, S.Sound →
  (∀ W, Clean (mean S W)) ∧ (∀ W, Clean (variance S W)) ∧ (∀ q, Clean (p2 S (exact ℚ) q)) ∧
  (∀ q W, Clean (windowedP2 S (exact ℚ) q W)) ∧ (∀ low high W, Clean (iqr S (exact ℚ) low high W)) ∧
  (∀ s e, Clean (fame S (exact ℚ) s e)) ∧ Clean (mad S (exact ℚ)) ∧
  (∀ (L : LArith ℚ) W n, 0 < W → Clean (entropy S L W n)) ∧
  Clean ringBuffer ∧ (∀ W, Clean (histogram S W)) ∧ Clean (bareWrapper ringBuffer)

section

variable {F : Type} (A : Arith F) {S : Library} (hS : S.Sound)
include hS

/-- **C79**, `StreamingMean`, for every window. -/
theorem C79_mean_partial (W : ℕ) : Clean (mean S W) := clean_mean hS W nofun

/-- **C79**, `StreamingVariance`, for every window. -/
theorem C79_variance_partial (W : ℕ) : Clean (variance S W) :=
  clean_derived (clean_streaming hS W nofun)
    (clean_pair (clean_new (clean_mean hS W nofun) nofun) (clean_new (clean_mean hS W nofun) nofun))

/-- **C79**, `StreamingP2Quantile`, for every quantile, also those it rejects. -/
theorem C79_p2_partial (q : F) : Clean (p2 S A q) := clean_p2 A hS q nofun fun _ _ => rfl

/-- **C79**, `WindowedP2Quantile`, for every quantile and window: if the quantile is rejected the window is released. -/
theorem C79_windowed_partial (q : F) (W : ℕ) : Clean (windowedP2 S A q W) :=
  clean_windowedP2 A hS q W nofun fun _ _ => rfl

/-- **C79**, `WindowedFAME`, for every step and epsilon, also those it rejects. -/
theorem C79_fame_partial (s e : F) : Clean (fame S A s e) := clean_fame A hS s e nofun fun _ _ => rfl

/-- **C79**, `StreamingIQR`, if the high quantile is not rejected (whether or not the low one is). Missing: a rejected high
quantile (`C79_violated`). -/
theorem C79_iqr_partial (low high : F) (W : ℕ) {p : P2 F} (hp : P2.new A high = .ok p) : Clean (iqr S A low high W) :=
  clean_derived (clean_streaming hS 0 nofun) (clean_pair (clean_new (C79_windowed_partial A hS low W) nofun)
    (clean_new (clean_windowedP2 A hS high W nofun fun m hm => by rw [hp] at hm; cases hm) nofun))

/-- **C79**, `StreamingMAD`: clean in every arithmetic in which its fixed arguments are accepted. -/
theorem C79_mad_partial {f : Fame F} (hf : Fame.new A (A.lit (1 / 10)) (A.lit 0) = .ok f) : Clean (mad S A) :=
  clean_derived (clean_streaming hS 0 nofun) (clean_pair (clean_new (C79_fame_partial A hS _ _) nofun)
    (clean_new (clean_fame A hS _ _ nofun fun m hm => by rw [hf] at hm; cases hm) nofun))

/-- **C79**, the containers as C++ objects, and every Python wrapper with `__dealloc__` around a clean class. -/
theorem C79_containers_partial :
    Clean ringBuffer ∧ (∀ W, Clean (histogram S W)) ∧ ∀ ctor, Clean ctor → Clean (wrapper ctor) :=
  ⟨clean_ringBuffer nofun, fun W => clean_histogram hS W nofun, fun _ h => clean_new h nofun⟩

end

/-! ## The leaks -/

/-- Create and destroy an object, in an empty heap with enough memory; what is left. -/
def leftover (ctor : Life Dtor) : List ℕ :=
  match ctor ⟨0, [], []⟩ with
  | (.ok d, h) => (d h).2.live
  | (_, h) => h.live

theorem Clean.leftover {ctor : Life Dtor} (hc : Clean ctor) : leftover ctor = [] := by
  have hr := hc ⟨0, [], []⟩ ⟨List.nodup_nil, by simp⟩ (fun _ => rfl)
  unfold KML.leftover
  rcases hx : ctor ⟨0, [], []⟩ with ⟨d | m | u, h⟩
  · rw [hx] at hr
    obtain ⟨w, -, bs, hp, hd⟩ := hr
    obtain ⟨g', e1, -, -, p3⟩ := hd h [] w hp
    simp only [e1]
    exact List.perm_nil.1 p3
  · rw [hx] at hr
    exact List.perm_nil.1 hr.2.2.2
  · rw [hx] at hr; exact hr.elim

/-- **C79**, three leaks: `StreamingIQR(0.25, 2)` throws and loses the low quantile object with its window and its P2 object
with three vectors; `StreamingEntropy` never deletes its histogram; a Python container never deletes its C++ object. The
numbers are those of the blocks left allocated, for a library whose containers have one block each. -/
theorem C79_leaks (L : LArith ℚ) (W n : ℕ) (hn : 0 < n) :
    leftover (iqr oneBlock (exact ℚ) (1 / 4) 2 3) = [6, 5, 4, 3, 2, 1, 0] ∧
    leftover (entropy oneBlock L (W + 1) n) = [4, 3, 2] ∧
    leftover (bareWrapper ringBuffer) = [1, 0] ∧ leftover (bareWrapper (histogram oneBlock W)) = [2, 1, 0] := by
  refine ⟨by decide +kernel, ?_, by decide, rfl⟩
  have he : ∃ e, Entropy.new L (W + 1) n = .ok e := by
    unfold Entropy.new
    rw [if_neg (by omega)]
    exact ⟨_, rfl⟩
  obtain ⟨e, he⟩ := he
  unfold leftover entropy
  rw [he]
  rfl

/-- **C79** is violated: by `StreamingIQR`, `StreamingEntropy` and the Python containers. -/
theorem C79_violated : ¬ C79_full := by
  intro h
  obtain ⟨-, -, -, -, h, -, -, -, -, -, -⟩ := h oneBlock oneBlock_sound
  have := (h (1 / 4) 2 3).leftover
  revert this
  decide +kernel

/-- Not only in the exact arithmetic, and independently of each other. -/
theorem C79_entropy_leaks {F : Type} (L : LArith F) (W n : ℕ) (hn : 0 < n) : ¬ Clean (entropy oneBlock L W n) := by
  intro h
  have h1 := h.leftover
  have he : ∃ e, Entropy.new L W n = .ok e := by
    unfold Entropy.new
    rw [if_neg (by omega)]
    exact ⟨_, rfl⟩
  obtain ⟨e, he⟩ := he
  unfold leftover entropy at h1
  rw [he] at h1
  cases W with
  | zero => exact absurd h1 (List.cons_ne_nil 2 [1, 0])
  | succ W => exact absurd h1 (List.cons_ne_nil 4 [3, 2])

theorem C79_python_leaks (W : ℕ) : ¬ Clean (bareWrapper ringBuffer) ∧ ¬ Clean (bareWrapper (histogram oneBlock W)) :=
  ⟨fun h => absurd h.leftover (by decide), fun h => absurd h.leftover (List.cons_ne_nil 2 [1, 0])⟩

/-- **C79**, the objects with fixed arguments, on doubles: the default `StreamingIQR` (any window) and `StreamingMAD` are
clean with any sound library, and there they are made: with enough memory their constructors do not throw. -/
theorem C79_defaults_partial :
    (∀ S : Library, S.Sound → (∀ W, Clean (iqrDefault S Dbl.arith W)) ∧ Clean (mad S Dbl.arith)) ∧
    (∀ W, ∃ d h, iqrDefault oneBlock Dbl.arith W ⟨0, [], []⟩ = (.ok d, h)) ∧
    ∃ d h, mad oneBlock Dbl.arith ⟨0, [], []⟩ = (.ok d, h) := by
  have h1 : ∃ p, P2.new Dbl.arith (Dbl.arith.lit (1 / 4)) = .ok p := ⟨_, if_neg (by decide +kernel)⟩
  have h3 : ∃ p, P2.new Dbl.arith (Dbl.arith.lit (3 / 4)) = .ok p := ⟨_, if_neg (by decide +kernel)⟩
  have hf : ∃ f, Fame.new Dbl.arith (Dbl.arith.lit (1 / 10)) (Dbl.arith.lit 0) = .ok f := ⟨_, if_neg (by decide +kernel)⟩
  obtain ⟨p1, h1⟩ := h1
  obtain ⟨p3, h3⟩ := h3
  obtain ⟨f, hf⟩ := hf
  refine ⟨fun S hS => ⟨fun W => C79_iqr_partial _ hS _ _ W h3, C79_mad_partial _ hS hf⟩, fun W => ?_, ?_⟩
  · unfold iqrDefault iqr windowedP2 p2
    rw [h1, h3]
    cases W with
    | zero => exact ⟨_, _, rfl⟩
    | succ W => exact ⟨_, _, rfl⟩
  · unfold mad fame
    rw [hf]
    exact ⟨_, _, rfl⟩

/-- accepted arguments -/
example : ∃ p, P2.new (exact ℚ) (3 / 4) = .ok p := ⟨_, if_neg (by decide +kernel)⟩
example : ∃ p, P2.new Dbl.arith (.fin (3 / 4)) = .ok p := ⟨_, if_neg (by decide +kernel)⟩
example : ∃ f, Fame.new Dbl.arith (Dbl.arith.lit (1 / 10)) (Dbl.arith.lit 0) = .ok f :=
  ⟨_, if_neg (by decide +kernel)⟩

/-- a rejected quantile: the window that had been allocated is released again -/
example : ((windowedP2 oneBlock (exact ℚ) 2 3) ⟨0, [], []⟩).1 = .throw "Quantile must be in closed interval (0, 1)" ∧
    leftover (windowedP2 oneBlock (exact ℚ) 2 3) = [] := by
  refine ⟨?_, (C79_windowed_partial _ oneBlock_sound 2 3).leftover⟩
  rfl

end KML
