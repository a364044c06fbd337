import Verif.Model.TestMain

/-!
# C149: the listener of the test program
-/

namespace KML

namespace Spec

/-- What an event opens or closes: a kind and a name. -/
inductive Bracket where
  | program | iteration (i : ℕ) | setUp | tearDown | case (name : String) | test (name : String)
  deriving DecidableEq, Repr

/-- `some (b, true)` opens `b`, `some (b, false)` closes it. -/
def bracket : TestEvent → Option (Bracket × Bool)
  | .programStart => some (.program, true)
  | .programEnd => some (.program, false)
  | .iterationStart i => some (.iteration i, true)
  | .iterationEnd i => some (.iteration i, false)
  | .environmentsSetUpStart => some (.setUp, true)
  | .environmentsSetUpEnd => some (.setUp, false)
  | .environmentsTearDownStart => some (.tearDown, true)
  | .environmentsTearDownEnd => some (.tearDown, false)
  | .caseStart n => some (.case n, true)
  | .caseEnd n => some (.case n, false)
  | .testStart n => some (.test n, true)
  | .testEnd n _ => some (.test n, false)
  | .partResult _ => none

/-- Every start has its end, properly nested; `st` is what is open. -/
def nested : List Bracket → List TestEvent → Bool
  | st, [] => st.isEmpty
  | st, e :: es =>
    match bracket e with
    | none => nested st es
    | some (b, true) => nested (b :: st) es
    | some (b, false) =>
      match st with
      | c :: st => c == b && nested st es
      | [] => false

/-- The events of the global environment. -/
def environmental : TestEvent → Bool
  | .environmentsSetUpStart | .environmentsSetUpEnd | .environmentsTearDownStart | .environmentsTearDownEnd => true
  | _ => false

/-- The switch that the comments at main.cc:13-36 name for an event: a test that ends is a success or a failure. -/
def switch : TestEvent → Option (Listener → Bool)
  | .environmentsSetUpStart | .environmentsSetUpEnd | .environmentsTearDownStart | .environmentsTearDownEnd =>
    some Listener.showEnvironment
  | .caseStart _ | .caseEnd _ => some Listener.showTestCases
  | .testStart _ => some Listener.showTestNames
  | .testEnd _ true => some Listener.showInlineFailures
  | .testEnd _ false => some Listener.showSuccesses
  | _ => none

end Spec

open Spec

/-- **C149**, the full claim: whatever the switches, the printer sees every start with its end. -/
def C149_full : Prop := ∀ (l : Listener) (es : List TestEvent), nested [] es = true → nested [] (l.forwarded es) = true

/-- **C149** is violated: without successes a passing test is shown to start and never to end. -/
theorem C149_violated : ¬ C149_full := by
  intro h
  have := h { Listener.new with showSuccesses := false } [.testStart "a", .testEnd "a" false] (by decide)
  revert this
  decide

/-- **C149**, the claim of the comment at main.cc:142-148, "turning everything off so I only see the 3 lines for the result (plus
any failures at the end)": without a failure no event of a case or test is shown. -/
theorem C149_comment_violated : ¬ ∀ es : List TestEvent, (∀ n, .testEnd n true ∉ es) → .partResult true ∉ es →
    ∀ n, .testStart n ∉ Listener.main.forwarded es := by
  intro h
  exact h [.testStart "a", .partResult false, .testEnd "a" false] (by simp) (by simp) "a" (by decide)

theorem Listener.on_eq (l : Listener) (e : TestEvent) : l.on e = [] ∨ l.on e = [e] := by
  cases e <;> simp only [Listener.on] <;> (try split) <;> simp

/-- **C149**, partial: whatever the switches, the printer sees events of the run only, unchanged, each at most once and in
order; and all assertion results, so that no failure is lost. -/
theorem C149_order_partial (l : Listener) (es : List TestEvent) :
    (l.forwarded es).Sublist es ∧
    (l.forwarded es).filter (fun e => e matches .partResult _) = es.filter (fun e => e matches .partResult _) := by
  induction es with
  | nil => exact ⟨List.Sublist.refl _, rfl⟩
  | cons e es ih =>
    rw [Listener.forwarded, List.flatMap_cons] at *
    constructor
    · rcases l.on_eq e with h | h <;> rw [h]
      · exact ih.1.cons e
      · exact ih.1.cons_cons e
    · rw [List.filter_append, ih.2]
      cases e <;> simp only [Listener.on] <;> (try split) <;> simp

/-- **C149**, partial: each switch hides exactly the events its comment names, and nothing else is hidden. -/
theorem C149_switches_partial (l : Listener) (es : List TestEvent) :
    l.forwarded es = es.filter fun e => match switch e with | some s => s l | none => true := by
  induction es with
  | nil => rfl
  | cons e es ih =>
    rw [Listener.forwarded, List.flatMap_cons] at *
    rw [ih, List.filter_cons]
    cases e
    case testEnd n f => cases f <;> simp only [Listener.on, switch] <;> split <;> simp_all
    all_goals (simp only [Listener.on, switch]; (try split) <;> simp_all)

/-- A failing and a passing test, with successes only. -/
example : ({ Listener.new with showInlineFailures := false }).forwarded [.testEnd "a" true, .testEnd "b" false] = [.testEnd "b" false] := by
  decide

/-- **C149**, partial: as set by `main`, all but the events of the environment. -/
theorem C149_main_partial (es : List TestEvent) : Listener.main.forwarded es = es.filter fun e => !environmental e := by
  induction es with
  | nil => rfl
  | cons e es ih =>
    rw [Listener.forwarded, List.flatMap_cons] at *
    rw [ih]
    cases e <;> simp [Listener.on, Listener.main, environmental]

/-- **C149**, partial: if names, successes and failures are all shown or all hidden, starts and ends match. -/
theorem C149_nested_partial (l : Listener) (h1 : l.showSuccesses = l.showTestNames) (h2 : l.showInlineFailures = l.showTestNames)
    (es : List TestEvent) (h : nested [] es = true) : nested [] (l.forwarded es) = true := by
  let keep : Bracket → Bool
    | .setUp | .tearDown => l.showEnvironment
    | .case _ => l.showTestCases
    | .test _ => l.showTestNames
    | _ => true
  have key : ∀ e, (match bracket e with
      | none => l.on e = [e]
      | some (b, _) => l.on e = if keep b then [e] else []) := by
    intro e
    cases e
    case testEnd n f => cases f <;> simp [bracket, Listener.on, keep, h1, h2]
    all_goals simp [bracket, Listener.on, keep]
  suffices hg : ∀ (es : List TestEvent) (st : List Bracket), nested st es = true → nested (st.filter keep) (l.forwarded es) = true from
    hg es [] h
  clear h es
  intro es
  induction es with
  | nil =>
    intro st h
    simp only [nested, List.isEmpty_iff] at h
    subst h
    rfl
  | cons e es ih =>
    intro st h
    rw [Listener.forwarded, List.flatMap_cons, ← Listener.forwarded]
    have hk := key e
    unfold nested at h
    rcases hb : bracket e with _ | ⟨b, o⟩
    · rw [hb] at h hk
      simp only at hk h
      rw [hk]
      simp only [List.cons_append, List.nil_append, nested, hb]
      exact ih st h
    · rw [hb] at h hk
      simp only at hk h
      rw [hk]
      cases o with
      | true =>
        simp only at h
        have := ih (b :: st) h
        by_cases hkb : keep b = true
        · rw [if_pos hkb]
          rw [List.filter_cons_of_pos hkb] at this
          simpa only [List.cons_append, List.nil_append, nested, hb] using this
        · rw [if_neg hkb]
          rw [List.filter_cons_of_neg hkb] at this
          exact this
      | false =>
        rcases st with _ | ⟨c, st⟩
        · simp at h
        · simp only [Bool.and_eq_true, beq_iff_eq] at h
          obtain ⟨rfl, h⟩ := h
          have := ih st h
          by_cases hkb : keep c = true
          · rw [if_pos hkb, List.filter_cons_of_pos hkb]
            simpa [nested, hb] using this
          · rw [if_neg hkb, List.filter_cons_of_neg hkb]
            exact this

/-- A run of one failing test, and what the listener of `main` shows of it. -/
example : nested [] [.programStart, .iterationStart 0, .environmentsSetUpStart, .environmentsSetUpEnd, .caseStart "c", .testStart "t",
      .partResult true, .testEnd "t" true, .caseEnd "c", .iterationEnd 0, .programEnd] = true ∧
    Listener.main.forwarded [.programStart, .iterationStart 0, .environmentsSetUpStart, .environmentsSetUpEnd, .caseStart "c",
      .testStart "t", .partResult true, .testEnd "t" true, .caseEnd "c", .iterationEnd 0, .programEnd] =
      [.programStart, .iterationStart 0, .caseStart "c", .testStart "t", .partResult true, .testEnd "t" true, .caseEnd "c",
        .iterationEnd 0, .programEnd] := by
  decide

end KML
