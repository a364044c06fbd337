import Verif.Lemmas.Histogram
import Verif.Model.RealLog
import Verif.Props.Counts

/-!
# C74: the bins of a histogram are freed
-/

namespace KML

variable {F : Type} {A : Arith F}

/-- Calls that allocate, drop or count bins. -/
inductive HistCall (F : Type) where
  | update (x : F)
  | reset
  deriving DecidableEq

/-- A history of such calls. -/
def Hist.runCalls (A : Arith F) : Hist F → List (HistCall F) → Res (Hist F)
  | h, [] => .ok h
  | h, .update x :: cs => do
    let h ← h.update A x
    Hist.runCalls A h cs
  | h, .reset :: cs => Hist.runCalls A h.reset cs

/-- **C74**, the full property: when the object is destroyed no bin is left allocated. -/
def C74_full : Prop := ∀ (numBins W : ℕ) (cs : List (HistCall ℚ)) (h : Hist ℚ),
  Hist.runCalls (exact ℚ) (Hist.new numBins W) cs = .ok h → h.destroy = 0

/-- **C74** is violated by every single update: the destructor empties `m_bins` before deleting what is in it. -/
theorem C74_violated : ¬ C74_full := by
  intro h
  have := h 2 5 [.update 1] _ rfl
  revert this
  decide +kernel

namespace Hist

theorem update_live {h h' : Hist F} {x : F} (hu : h.update A x = .ok h') :
    h.live ≤ h'.live ∧ h'.live ≤ h.live + 1 ∧ (h.total = 0 → h'.live = h.live + 1) ∧
      ((h.bins.length ≤ h.live) → h'.bins.length ≤ h'.live) := by
  obtain ⟨i, b1, live, e1, e2, hp, hl⟩ := place_spec (A := A) h x
  have hlive : h.live ≤ live ∧ live ≤ h.live + 1 ∧ (h.total = 0 → live = h.live + 1) := by
    unfold place at e2
    split at e2
    · injection e2 with e2; injection e2 with _ _ _ _ _ _ e2; omega
    · split at e2
      · injection e2 with e2; injection e2 with _ _ _ _ _ _ e2; omega
      · split at e2
        · cases e2
        · split at e2
          · injection e2 with e2; injection e2 with _ _ _ _ _ _ e2; omega
          · injection e2 with e2; injection e2 with _ _ _ _ _ _ e2; omega
  have hadd : h.add A x = decayCounts { h with
      bins := b1, live := live, historyCount := h.historyCount + 1, total := h.total + 1,
      window := h.window ++ [i] } := by
    unfold add
    rw [e1, Res.ok_bind, e2, Res.ok_bind]
  have hdec : ∀ g g' : Hist F, decayCounts g = .ok g' → g'.live = g.live ∧ g'.bins.length ≤ g.bins.length := by
    intro g g' hg
    unfold decayCounts at hg
    split at hg
    · split at hg
      · cases hg
      · split at hg
        · cases hg
        · injection hg with hg; subst hg
          refine ⟨rfl, ?_⟩
          simp only
          have : ∀ (l : List (Bin F)) (p q : Prop) [Decidable p] [Decidable q] d, l.length = g.bins.length →
              (if p then if q then l.eraseIdx d else l else l).length ≤ g.bins.length := by
            intro l p q _ _ d hl
            split
            · split
              · exact (List.length_eraseIdx_le _ _).trans hl.le
              · exact hl.le
            · exact hl.le
          exact this _ _ _ _ (List.length_set ..)
    · injection hg with hg; subst hg; exact ⟨rfl, le_rfl⟩
  have hfin : ∀ g g' : Hist F, finish A g = .ok g' → g'.live = g.live ∧ g'.bins.length ≤ g.bins.length := by
    intro g g' hg
    unfold finish at hg
    split at hg
    · obtain ⟨bins, hm, hg⟩ := Res.bind_eq_ok.1 hg
      injection hg with hg; subst hg
      refine ⟨rfl, ?_⟩
      simp only
      unfold mergeBins at hm
      split at hm
      · cases hm
      · simp only at hm
        split at hm
        · cases hm
        · injection hm with hm; subst hm
          rw [List.length_set]
          exact List.length_eraseIdx_le _ _
    · injection hg with hg; subst hg; exact ⟨rfl, le_rfl⟩
  rw [update_eq] at hu
  obtain ⟨g, hg, hu⟩ := Res.bind_eq_ok.1 hu
  rw [hadd] at hg
  obtain ⟨f1, f2⟩ := hdec _ _ hg
  obtain ⟨f3, f4⟩ := hfin _ _ hu
  simp only at f1 f2
  rw [f3, f1]
  refine ⟨hlive.1, hlive.2.1, hlive.2.2, fun hb => ?_⟩
  omega

theorem runCalls_live (cs : List (HistCall F)) : ∀ {h h' : Hist F}, runCalls A h cs = .ok h' →
    h.live ≤ h'.live ∧ h'.live ≤ h.live + (cs.filter fun c => match c with | .update _ => true | _ => false).length ∧
      (h.total = 0 → (∃ x, .update x ∈ cs) → 0 < h'.live) ∧
      (h.bins.length ≤ h.live → h'.bins.length ≤ h'.live) := by
  induction cs with
  | nil => intro h h' e; injection e with e; subst e; simp
  | cons c cs ih =>
    intro h h' e
    cases c with
    | update x =>
      obtain ⟨g, hg, e⟩ := Res.bind_eq_ok.1 e
      obtain ⟨a1, a2, a3, a4⟩ := update_live hg
      obtain ⟨b1, b2, -, b4⟩ := ih e
      refine ⟨a1.trans b1, ?_, fun ht _ => ?_, fun hb => b4 (a4 hb)⟩
      · simp only [List.filter_cons, if_true, List.length_cons]; omega
      · have := a3 ht; omega
    | reset =>
      obtain ⟨b1, b2, b3, b4⟩ := ih e
      refine ⟨b1, by simpa [List.filter_cons, reset] using b2, fun ht hx => b3 ht ?_, fun _ => b4 (by simp [reset])⟩
      obtain ⟨x, hx⟩ := hx
      exact ⟨x, by simpa using hx⟩

end Hist

/-- **C74**, what happens, for every history of updates and resets: every bin ever allocated is still allocated after the
destructor. Nothing is leaked exactly when nothing was ever added; the leak is at most one bin per update, and it
includes all bins held at the end. -/
theorem C74_leak_partial (numBins W : ℕ) (cs : List (HistCall F)) (h : Hist F)
    (hr : Hist.runCalls A (Hist.new numBins W) cs = .ok h) :
    h.destroy = h.live ∧ (h.destroy = 0 ↔ ∀ x, .update x ∉ cs) ∧ h.size ≤ h.destroy ∧
      h.destroy ≤ (cs.filter fun c => match c with | .update _ => true | _ => false).length := by
  obtain ⟨-, h2, h3, h4⟩ := Hist.runCalls_live cs hr
  have hd : h.destroy = h.live := by simp [Hist.destroy, Hist.reset]
  rw [hd]
  simp only [Hist.new, Nat.zero_add] at h2 h3 h4
  refine ⟨rfl, ⟨fun h0 x hx => ?_, fun hno => ?_⟩, h4 (by simp), h2⟩
  · have := h3 trivial ⟨x, hx⟩; omega
  · have : cs.filter (fun c => match c with | .update _ => true | _ => false) = [] := by
      rw [List.filter_eq_nil_iff]
      intro c hc
      cases c with
      | update x => exact absurd hc (hno x)
      | reset => simp
    rw [this] at h2
    simpa using h2

/-- The history 1, 2, reset, 3, 3: three bins are allocated and all three leak, though one remains. -/
example : (match Hist.runCalls (exact ℚ) (Hist.new 2 5) [.update 1, .update 2, .reset, .update 3, .update 3] with
    | .ok h => decide (h.destroy = 3) && decide (h.size = 1)
    | _ => false) = true := by decide +kernel

end KML
