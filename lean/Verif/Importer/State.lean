import Verif.Importer.Xml
import Verif.Importer.Nested
/-!
Model of the state of the MusicXML importer, `client/interop/musicxml/importer/importer.go`.

`float64` is `Rat`. Warnings to the user, and the list `unsupported` of tags for which a warning was given (importer.go:163), are left out.
-/
namespace Alda
namespace Importer

/-- Why an import ends without a score. -/
inductive Stop where
  | refused       -- an error message
  | panics        -- a nil pointer is dereferenced, or an index is out of range
  | hangs         -- a loop does not end
  | notFollowed   -- the model does not follow the Go code (numbers that are not finite, numbers in unusual notation, letters that are no notes)
deriving DecidableEq, Repr

/-- `musicXMLVoice`, client/interop/musicxml/importer/importer.go:105-120. `events` are the events of the `EventSequence` that is the only element of
`updates` (`getScoreUpdates`, importer.go:136-138). -/
structure Voice where
  events : List Upd
  beats : Rat
  octave : Int
  slurs : Int
  sectionOctave : Int
  endingOctave : Int

/-- `newMusicXMLVoice`, importer.go:122-134. -/
def newVoice : Voice := { events := [], beats := 0, octave := 4, slurs := 0, sectionOctave := 4, endingOctave := 4 }

/-- What the pointer `currentVoice` points to: nil, the voice with a number in the map `voices`, or a voice that is no longer in the map. -/
inductive Cur where
  | none
  | at (number : Int)
  | old (v : Voice)

/-- `musicXMLPart`, importer.go:17-35. The map `voices` is an association list with different keys, the map `unpitched` an association list, latest entry
first. -/
structure XPart where
  instruments : List String
  divisions : Int
  beats : Rat
  updates : List Upd
  voices : List (Int × Voice)
  cur : Cur
  unpitched : List (String × Int)
  alias : String
  opt : Opt

/-- `newMusicXMLPart`, importer.go:37-46. -/
def newPart : XPart :=
  { instruments := [], divisions := 1, beats := 0, updates := [], voices := [], cur := .none, unpitched := [], alias := "", opt := newOptimizer }

/-- Assignment to a key of a map. -/
def assign {α β : Type} [DecidableEq α] (k : α) (b : β) : List (α × β) → List (α × β)
  | [] => [(k, b)]
  | x :: xs => if x.1 = k then (k, b) :: xs else x :: assign k b xs

/-- `importer.voice()`, importer.go:195-197. -/
def XPart.voice (p : XPart) : Except Stop Voice :=
  match p.cur with
  | .none => .error .panics
  | .at n => match p.voices.lookup n with
    | some v => .ok v
    | none => .error .panics
  | .old v => .ok v

/-- Changing the object that `currentVoice` points to. -/
def XPart.setVoice (p : XPart) (v : Voice) : XPart :=
  match p.cur with
  | .none => p
  | .at n => { p with voices := assign n v p.voices }
  | .old _ => { p with cur := .old v }

/-- `currentVoice = voices[number]`: nil if there is none. -/
def XPart.point (p : XPart) (n : Int) : XPart := { p with cur := if (p.voices.lookup n).isSome then .at n else .none }

/-- `isEffectivelyEmpty`, importer.go:141-154. -/
def Voice.isEmpty (v : Voice) : Bool :=
  match v.events with
  | [] => true
  | [.rep (.seq []) _] => true
  | _ => false

/-- Insertion into a list of voice numbers in the order in which `collapseVoices` meets them: it counts an `int32` up from 1, and so comes to the positive numbers
first, then, after an overflow, to the others. -/
def insertNumber (n : Int) : List Int → List Int
  | [] => [n]
  | m :: ms => if (n - 1) % 2 ^ 32 ≤ (m - 1) % 2 ^ 32 then n :: m :: ms else m :: insertNumber n ms

/-- The order of the loop in `collapseVoices`, importer.go:62-83. -/
def voiceOrder (ns : List Int) : List Int := ns.foldr insertNumber []

/-- The loop of `collapseVoices`, importer.go:62-83, with `anyVoiceUpdates`. -/
def collapseLoop : List Int → XPart → Bool → XPart × Bool
  | [], p, any => (p, any)
  | n :: ns, p, any =>
    match p.voices.lookup n with
    | none => collapseLoop ns p any
    | some v =>
      if v.isEmpty then collapseLoop ns p any
      else
        let r := optimize p.opt v.events
        collapseLoop ns { p with updates := p.updates ++ .voice n :: r.1, opt := r.2, voices := assign n { newVoice with octave := -1 } p.voices } true

/-- `collapseVoices`, importer.go:48-91. With a single voice `currentVoice` is not changed: it then points to a voice that is no longer in the map, if it was the
one with number 1. (In Go that voice is left as the clean-up has changed it, here as it was before the clean-up.) -/
def XPart.collapse (p : XPart) (ending : Bool) : Except Stop XPart :=
  if p.voices.length = 1 then do
    let v ← p.voice
    if v.isEmpty then pure p
    else
      let r := optimize p.opt v.events
      pure { p with
        updates := p.updates ++ r.1, opt := r.2, beats := 0, voices := assign 1 { newVoice with octave := -1 } p.voices,
        cur := match p.cur with | .at n => if n = 1 then .old v else .at n | c => c }
  else
    let r := collapseLoop (voiceOrder (p.voices.map (·.1))) p false
    if r.2 then pure { r.1.point 1 with beats := 0, updates := r.1.updates ++ (if ending then [.voiceEnd] else []) }
    else pure r.1

/-- `generateScoreUpdates` of a part, importer.go:93-102. -/
def XPart.generate (p : XPart) : Except Stop (List Upd) := do
  let p ← p.collapse false
  pure (.partDecl p.instruments p.alias :: p.updates)

/-- `recountBeats`, importer.go:257-263. -/
def XPart.recount (p : XPart) : Except Stop XPart := do
  let v ← p.voice
  let beats := roundIfCloseEnough (beatsSum v.events)
  pure { p.setVoice { v with beats := beats } with beats := beats }

/-- Changing the events of the current voice, then `recountBeats`: `modifyAt`, importer.go:268-303. The list given to `f` has the `EventSequence` as its only
element. -/
def XPart.modifyAt (p : XPart) (path : List Nat) (f : Upd → Upd) : Except Stop XPart := do
  let v ← p.voice
  match modifyPath f path [.seq v.events] with
  | [.seq es] => (p.setVoice { v with events := es }).recount
  | _ => .error .notFollowed

/-- `findLast`, importer.go:325-330. -/
def XPart.findLast (p : XPart) (q : Upd → Bool) : Except Stop (Option (Upd × List Nat)) := do
  let v ← p.voice
  pure (findLastIn q 0 [.seq v.events])

/-- `findLast(filterNestedImportableUpdate)`; there always is one, the `EventSequence` itself at least. -/
def XPart.importInto (p : XPart) : Except Stop (Upd × List Nat) := do
  match ← p.findLast importable with
  | some r => pure r
  | none => .error .panics

/-- `updates()`, importer.go:205-210. -/
def XPart.openUpdates (p : XPart) : Except Stop (List Upd) := do
  let r ← p.importInto
  pure ((nestedUpdates true r.1).getD [])

/-- `append`, importer.go:219-233. -/
def XPart.append (p : XPart) (new : List Upd) : Except Stop XPart := do
  let r ← p.importInto
  p.modifyAt r.2 (modifyNested (fun es => es ++ new))

/-- `setAll`, importer.go:246-255. -/
def XPart.setAll (p : XPart) (new : List Upd) : Except Stop XPart := do
  let r ← p.importInto
  p.modifyAt r.2 (modifyNested (fun _ => new))

/-- `setAt`, importer.go:316-322. -/
def XPart.setAt (p : XPart) (path : List Nat) (u : Upd) : Except Stop XPart := p.modifyAt path (fun _ => u)

/-- `appendPartAttrs`, importer.go:237-243. -/
def XPart.appendAttr (p : XPart) (u : PartUpd) : Except Stop XPart := do
  let p ← p.collapse true
  let r := optimize p.opt [.leaf (.attr u)]
  pure { p with updates := p.updates ++ r.1, opt := r.2 }

/-- `valid`, client/interop/musicxml/importer/nested_index.go:16-21: whether there is something at an index; `getAt` counts the beats again. An
index that was not found is `none`. -/
def XPart.valid (p : XPart) : Option (List Nat) → Except Stop (Bool × XPart)
  | none => pure (false, p)
  | some path => do
    let v ← p.voice
    let p ← p.recount
    pure ((getPath path [.seq v.events]).isSome, p)

/-- `lastDiff`, nested_index.go:28-34. An index that was not found has no entries, and Go panics. -/
def lastDiff (a b : List Nat) : Except Stop Int :=
  match a[min a.length b.length - 1]?, b[min a.length b.length - 1]? with
  | some x, some y => .ok (x - y)
  | _, _ => .error .panics

end Importer
end Alda
