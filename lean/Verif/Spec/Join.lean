import Verif.Repl.Code
import Verif.Spec.Repl
/-!
Specification for C56: what the text of a session means.
-/
namespace Alda
namespace Spec

mutual
/-- Whether one is inside a voice after the update, given whether one was before. A variable definition whose own events leave a voice
open counts, since it goes on for as long as that voice does. -/
def openAfter : Bool → Upd → Bool
  | _, .voice _ => true
  | _, .voiceEnd => false
  | v, .varDef _ es => v || openAfterAll false es
  | v, _ => v
/-- … after several updates. -/
def openAfterAll : Bool → List Upd → Bool
  | v, [] => v
  | v, e :: es => openAfterAll (openAfter v e) es
end

/-- Two scores that nobody can tell apart by listening, now or after any further updates. -/
structure SameMusic (s t : Score) : Prop where
  events : t.events.Perm s.events
  instances : instances t = instances s
  offsets : ∀ i ∈ s.parts, (t.heap i).offset = (s.heap i).offset
  later : ∀ us, (update us t).err = (update us s).err ∧ (update us t).s.events.Perm (update us s).s.events

/-- Each code on a line, or lines, of its own. -/
def lines : List String → String
  | [] => ""
  | c :: cs => c ++ "\n" ++ lines cs

end Spec

namespace Repl
open Spec

/-- A request to load code. -/
def Loads (req : Request) (code : String) : Prop :=
  req.msg "op" = some (.str "load") ∧ req.msg "code" = some (.str code)

/-- A request to play all or some of the score again, or to export it. -/
def Reevaluates (req : Request) : Prop := req.msg "op" = some (.str "replay") ∨ req.msg "op" = some (.str "export")

/-- A session in which these codes, and no others, have been evaluated since the score was begun or loaded. A text that was loaded counts as one code, or, if it is made
up of lines each of which is accepted, as those. The score may have been replayed or exported at any
time (if the first and the last of the codes were not empty), and there may have been requests that leave the score and its text as they are. -/
inductive Typed (sort : List NoteEvent → List NoteEvent) : List String → Server → Prop where
  | start : Typed sort [] newServer
  | eval {codes s} (w : World) (req : Request) (code : String) : Typed sort codes s → Evaluates req code →
      Succeeded req s (handle parseCode sort w req s) → Typed sort (codes ++ [code]) (handle parseCode sort w req s)
  | load {codes s} (w : World) (req : Request) (code : String) : Typed sort codes s → Loads req code →
      Succeeded req s (handle parseCode sort w req s) → Typed sort [code] (handle parseCode sort w req s)
  | new {codes s} (w : World) (req : Request) : Typed sort codes s → req.msg "op" = some (.str "new-score") →
      Succeeded req s (handle parseCode sort w req s) → Typed sort [] (handle parseCode sort w req s)
  | again {codes s} (w : World) (req : Request) : Typed sort codes s → Reevaluates req → Succeeded req s (handle parseCode sort w req s) →
      codes ≠ [] → codes.head? ≠ some "" → codes.getLast? ≠ some "" → Typed sort codes (handle parseCode sort w req s)
  | text {codes s} (w : World) (req : Request) (codes' : List String) : Typed sort codes s → Loads req (lines codes') →
      Succeeded req s (handle parseCode sort w req s) → (∀ c ∈ codes', ∃ us, parseCode c = .ok us) → codes' ≠ [] → codes'.head? ≠ some "" → codes'.getLast? ≠ some "" →
      Typed sort codes' (handle parseCode sort w req s)
  | other {codes s} (w : World) (req : Request) : Typed sort codes s → (handle parseCode sort w req s).score = s.score →
      (handle parseCode sort w req s).input = s.input → Typed sort codes (handle parseCode sort w req s)

/-- The code means the same on its own as among other lines: it is trimmed, if it ends in the letter `o` it is also accepted with a line break after it, it has no `V0:` other than
after voices of its own, and no definition of a variable that leaves a voice open. -/
structure SelfContained (code : String) : Prop where
  trimmed : trimSpace code = code
  line : code.toList.getLast? = some 'o' → ∃ us, parseCode (code ++ "\n") = .ok us
  voices : ∀ us, parseCode code = .ok us → Upd.voice 0 ∉ us
  definitions : ∀ us x es, parseCode code = .ok us → Upd.varDef x es ∈ us → openAfterAll false es = false

end Repl
end Alda
