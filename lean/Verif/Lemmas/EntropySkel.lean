import Verif.Model.Entropy
import Verif.Model.Containers

/-! # The control flow of StreamingEntropy does not depend on the logarithm -/

namespace KML
namespace Entropy
variable {F : Type}

/-- Everything except the entropy. -/
def skel (e : Entropy F) : ℕ × Option (List ℕ) × ℕ × Hist F := (e.windowSize, e.window, e.historyCount, e.hist)

theorem skel_eq {e e' : Entropy F} : e.skel = e'.skel ↔
    e.windowSize = e'.windowSize ∧ e.window = e'.window ∧ e.historyCount = e'.historyCount ∧ e.hist = e'.hist := by
  simp [skel]

theorem xlogx_skel (L L' : LArith F) (h : L.toArith = L'.toArith) (x : F) :
    (fun _ => ()) <$> Utils.xlogx L x = (fun _ => ()) <$> Utils.xlogx L' x := by
  unfold Utils.xlogx
  rw [h]
  split
  · rfl
  · split <;> rfl

/-- Outcome shapes carry through `bind` when the continuations agree on shapes whatever the values. -/
theorem bind_skel {α α' β β' γ : Type} {x : Res α} {x' : Res α'} {k : α → Res β} {k' : α' → Res β'} {p : β → γ} {p' : β' → γ}
    (hx : (fun _ => ()) <$> x = (fun _ => ()) <$> x') (hk : ∀ a a', p <$> k a = p' <$> k' a') :
    p <$> (x >>= k) = p' <$> (x' >>= k') := by
  cases x <;> cases x'
  case ok.ok a a' => exact hk a a'
  case throw.throw m m' =>
    have : (Res.throw m : Res Unit) = Res.throw m' := hx
    injection this with this
    subst this
    rfl
  case ub.ub u u' =>
    have : (Res.ub u : Res Unit) = Res.ub u' := hx
    injection this with this
    subst this
    rfl
  all_goals cases hx

theorem bind_same {α β β' γ : Type} {x : Res α} {k : α → Res β} {k' : α → Res β'} {p : β → γ} {p' : β' → γ}
    (hk : ∀ a, p <$> k a = p' <$> k' a) :
    p <$> (x >>= k) = p' <$> (x >>= k') := by
  cases x
  case ok a => exact hk a
  all_goals rfl

theorem increment_skel (L L' : LArith F) (h : L.toArith = L'.toArith) (e e' : Entropy F) (he : e.skel = e'.skel) (i : ℕ) :
    skel <$> e.increment L i = skel <$> e'.increment L' i := by
  obtain ⟨h1, h2, h3, h4⟩ := skel_eq.1 he
  unfold increment
  rw [h4, h]
  refine bind_same fun b => ?_
  refine bind_skel (xlogx_skel L L' h _) fun a a' => ?_
  refine bind_skel (xlogx_skel L L' h _) fun c c' => ?_
  split
  · show Res.ok _ = Res.ok _
    simp only [skel, h1, h2, h3]
  · show Res.ok _ = Res.ok _
    simp only [skel, h1, h2, h3]

theorem decrement_skel (L L' : LArith F) (h : L.toArith = L'.toArith) (e e' : Entropy F) (he : e.skel = e'.skel) (i : ℕ) :
    skel <$> e.decrement L i = skel <$> e'.decrement L' i := by
  obtain ⟨h1, h2, h3, h4⟩ := skel_eq.1 he
  unfold decrement
  rw [h4, h]
  refine bind_same fun b => ?_
  refine bind_skel (xlogx_skel L L' h _) fun a a' => ?_
  refine bind_skel (xlogx_skel L L' h _) fun c c' => ?_
  show Res.ok _ = Res.ok _
  simp only [skel, h1, h2, h3]

theorem bind_map {α β β' γ δ : Type} {x x' : Res α} {k : α → Res β} {k' : α → Res β'} {p : β → γ} {p' : β' → γ} {q : α → δ}
    (hx : q <$> x = q <$> x') (hk : ∀ a a', q a = q a' → p <$> k a = p' <$> k' a') :
    p <$> (x >>= k) = p' <$> (x' >>= k') := by
  cases x <;> cases x'
  case ok.ok a a' =>
    have : Res.ok (q a) = Res.ok (q a') := hx
    injection this with this
    exact hk a a' this
  case throw.throw m m' =>
    have : (Res.throw m : Res δ) = Res.throw m' := hx
    injection this with this
    subst this
    rfl
  case ub.ub u u' =>
    have : (Res.ub u : Res δ) = Res.ub u' := hx
    injection this with this
    subst this
    rfl
  all_goals cases hx

theorem update_skel (L L' : LArith F) (h : L.toArith = L'.toArith) (e e' : Entropy F) (he : e.skel = e'.skel) (x : F) :
    skel <$> e.update L x = skel <$> e'.update L' x := by
  obtain ⟨h1, h2, h3, h4⟩ := skel_eq.1 he
  unfold update
  rw [h4, h2, h1, h]
  refine bind_same fun i => ?_
  cases e'.window with
  | none => rfl
  | some w =>
    simp only
    have tail : ∀ a a' : Entropy F, a.skel = a'.skel → skel <$> (do
        let hist ← a.hist.update L'.toArith x
        let e ← ({ a with hist := hist } : Entropy F).increment L i
        Res.ok { e with historyCount := e.historyCount + 1 }) = skel <$> (do
        let hist ← a'.hist.update L'.toArith x
        let e ← ({ a' with hist := hist } : Entropy F).increment L' i
        Res.ok { e with historyCount := e.historyCount + 1 }) := by
      intro a a' ha
      obtain ⟨g1, g2, g3, g4⟩ := skel_eq.1 ha
      rw [g4]
      refine bind_same fun hh => ?_
      refine bind_map (q := skel) (increment_skel L L' h _ _ (by simp [skel, g1, g2, g3]) i) fun b b' hb => ?_
      obtain ⟨k1, k2, k3, k4⟩ := skel_eq.1 hb
      show Res.ok _ = Res.ok _
      simp only [skel, k1, k2, k3, k4]
    cases hw : w ++ [i] with
    | nil => rfl
    | cons f r =>
      simp only
      split
      · refine bind_map (q := skel) (decrement_skel L L' h e e' he f) fun a a' ha => ?_
        obtain ⟨g1, g2, g3, g4⟩ := skel_eq.1 ha
        exact tail _ _ (by simp only [skel, g1, g3, g4])
      · exact tail _ _ (by simp only [skel, h3])

/-- Which updates are undefined, and everything except the entropy itself, does not depend on the logarithm. -/
theorem run_skel (L L' : LArith F) (h : L.toArith = L'.toArith) (xs : List F) (e e' : Entropy F) (he : e.skel = e'.skel) :
    skel <$> updateAll (update L) e xs = skel <$> updateAll (update L') e' xs := by
  induction xs generalizing e e' with
  | nil => exact congrArg Res.ok he
  | cons x xs ih =>
    simp only [updateAll]
    exact bind_map (q := skel) (update_skel L L' h e e' he x) fun a a' ha => ih a a' ha

end Entropy
end KML
