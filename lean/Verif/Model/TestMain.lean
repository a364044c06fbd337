import Verif.Model.Base

/-!
# The listener of the test program

`tests/main.cc` puts a filter between GoogleTest and its default printer.
-/

namespace KML

/-- The calls GoogleTest makes on a listener; `failed` is `Failed()` of the result. -/
inductive TestEvent where
  | programStart
  | iterationStart (i : ℕ)
  | environmentsSetUpStart
  | environmentsSetUpEnd
  | caseStart (name : String)
  | testStart (name : String)
  | partResult (failed : Bool)
  | testEnd (name : String) (failed : Bool)
  | caseEnd (name : String)
  | environmentsTearDownStart
  | environmentsTearDownEnd
  | iterationEnd (i : ℕ)
  | programEnd
  deriving DecidableEq, Repr

/-- The switches of `ConfigurableEventListener`. /repo/tools/cpp/tests/main.cc:13-36. -/
structure Listener where
  showTestCases : Bool
  showTestNames : Bool
  showSuccesses : Bool
  showInlineFailures : Bool
  showEnvironment : Bool
  deriving DecidableEq, Repr

namespace Listener

/-- Constructor. /repo/tools/cpp/tests/main.cc:38-45. -/
def new : Listener := ⟨true, true, true, true, true⟩

/-- The calls on the wrapped printer for one event. /repo/tools/cpp/tests/main.cc:52-131. -/
def on (l : Listener) (e : TestEvent) : List TestEvent :=
  match e with
  | .programStart => [e]
  | .iterationStart _ => [e]
  | .environmentsSetUpStart => if l.showEnvironment then [e] else []
  | .environmentsSetUpEnd => if l.showEnvironment then [e] else []
  | .caseStart _ => if l.showTestCases then [e] else []
  | .testStart _ => if l.showTestNames then [e] else []
  | .partResult _ => [e]
  | .testEnd _ failed => if (l.showInlineFailures && failed) || (l.showSuccesses && !failed) then [e] else []
  | .caseEnd _ => if l.showTestCases then [e] else []
  | .environmentsTearDownStart => if l.showEnvironment then [e] else []
  | .environmentsTearDownEnd => if l.showEnvironment then [e] else []
  | .iterationEnd _ => [e]
  | .programEnd => [e]

/-- What the printer sees of a run. -/
def forwarded (l : Listener) (es : List TestEvent) : List TestEvent := es.flatMap l.on

/-- The listener as `main` sets it. /repo/tools/cpp/tests/main.cc:149-155. -/
def main : Listener :=
  let l := new
  let l := { l with showEnvironment := false }
  let l := { l with showTestCases := true }
  let l := { l with showTestNames := true }
  let l := { l with showSuccesses := true }
  { l with showInlineFailures := true }

end Listener

end KML
