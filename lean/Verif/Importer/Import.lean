import Verif.Importer.Handlers
/-!
Model of the MusicXML importer as a whole: the dispatch of elements in `client/interop/musicxml/importer/handlers.go`, and `ImportMusicXML` in
`client/interop/musicxml/importer/importer.go`.
-/
namespace Alda
namespace Importer

/-- The orders in which Go's loops over maps visit the keys, which Go leaves open: for the `n`-th such loop of an import. -/
structure Orders where
  ofParts : Nat → List String → List String
  ofVoices : Nat → List Int → List Int

/-- Every key is visited once. -/
def Orders.Fair (o : Orders) : Prop := (∀ n l, (o.ofParts n l).Perm l) ∧ ∀ n l, (o.ofVoices n l).Perm l

/-- `musicXMLImporter`, client/interop/musicxml/importer/importer.go:157-164. The map `parts` is an association list with different keys; `currentPart` is the
key of the part it points to (a part that is declared again after its use would lose its music in the Go code as well, but the pointer would still
point to the old part). `rounds` counts the loops over maps. -/
structure Imp where
  parts : List (String × XPart)
  cur : Option String
  rounds : Nat

/-- `newMusicXMLImporter`, importer.go:166-170. -/
def newImporter : Imp := { parts := [], cur := none, rounds := 0 }

/-- Working on the current part. -/
def Imp.onPart (s : Imp) (f : XPart → Except Stop XPart) : Except Stop Imp := do
  let id ← need s.cur
  let p ← need (s.parts.lookup id)
  let p ← f p
  pure { s with parts := assign id p s.parts }

/-! ### Parts -/

/-- `percussionPartNameToAlias`, client/interop/musicxml/importer/util.go:263-265. -/
def percussionAlias (name : String) : String := String.ofList (name.toList.map (fun c => if c = ' ' then '_' else c))

/-- `instrumentsList[instrumentID-1]`, handlers.go:148. -/
def instrumentAt (id : Int) : Except Stop String :=
  if id ≤ 0 then .error .panics else need instrumentsList[(id - 1).toNat]?

/-- The numbers of the instruments of a percussion part, handlers.go:123-131, latest first. -/
def unpitchedOf : List Elem → List (String × Int) → Except Stop (List (String × Int))
  | [], acc => pure acc
  | i :: is, acc => do
    let u ← need (i.find "midi-unpitched")
    unpitchedOf is ((i.attrOr "id" "", parseInt 8 u.text - 1) :: acc)

/-- The instruments of a part, handlers.go:108-152. -/
def describePart (e : Elem) : Except Stop XPart := do
  let is := e.findAll "midi-instrument"
  if is = [] then pure { newPart with instruments := ["piano"] }
  else if (e.findAll2 "midi-instrument" "midi-unpitched") ≠ [] then do
    let name ← need (e.find "part-name")
    let us ← unpitchedOf is []
    pure { newPart with instruments := ["midi-percussion"], alias := percussionAlias name.text, unpitched := us }
  else do
    let names ← is.mapM (fun i => do
      let m ← need (i.find "midi-program")
      instrumentAt (parseInt 8 m.text))
    pure { newPart with instruments := names }

/-- `addIdToAlias`, handlers.go:160-166. -/
def addId (alias id : String) : String := if alias = "" then id else alias ++ "_" ++ id

/-- The loop that makes the aliases different, handlers.go:156-170: over the other parts in the given order. `id`: the new part. -/
def separateAliases (id : String) : List String → List (String × XPart) → List (String × XPart)
  | [], ps => ps
  | k :: ks, ps =>
    match ps.lookup k, ps.lookup id with
    | some v, some p =>
      if k ≠ id ∧ v.instruments = p.instruments ∧ v.alias = p.alias then
        separateAliases id ks (assign id { p with alias := addId p.alias id } (assign k { v with alias := addId v.alias k } ps))
      else separateAliases id ks ps
    | _, _ => separateAliases id ks ps

/-- `scorePartHandler`, handlers.go:102-171. -/
def scorePart (o : Orders) (e : Elem) (s : Imp) : Except Stop Imp := do
  let id ← need (e.attr "id")
  let p ← describePart e
  let ps := assign id p s.parts
  pure { s with parts := separateAliases id (o.ofParts s.rounds (ps.map (·.1))) ps, rounds := s.rounds + 1 }

mutual
/-- `recursivelyCreateVoices`, handlers.go:236-247: the voices after looking through an element. -/
def createVoices : Elem → List (Int × Voice) → List (Int × Voice)
  | .mk tag _ text children, vs => createVoicesIn children (if tag = "voice" then assign (parseInt 32 text) newVoice vs else vs)
/-- The loop over the children, handlers.go:244-246. -/
def createVoicesIn : List Elem → List (Int × Voice) → List (Int × Voice)
  | [], vs => vs
  | e :: es, vs => createVoicesIn es (createVoices e vs)
end

/-- The clean-up after a measure for the voices in the given order, handlers.go:255-265. `more`: there is another measure. -/
def cleanUp (more : Bool) : List Int → XPart → Except Stop XPart
  | [], p => pure p
  | n :: ns, p => do
    let p ← padVoice (p.point n)
    let p ← if more then addBarline p else pure p
    cleanUp more ns p

/-- Voice switching, handlers.go:294-301. -/
def switchVoice (e : Elem) (p : XPart) : Except Stop XPart :=
  match e.find "voice" with
  | none => pure p
  | some v => padVoice (p.point (parseInt 8 v.text))

mutual
/-- `handle`, handlers.go:55-61, with the table of handlers, handlers.go:38-52. -/
def handle (o : Orders) : Elem → Imp → Except Stop Imp
  | .mk tag attrs text children, s =>
    let e := Elem.mk tag attrs text children
    if tag = "score-part" then scorePart o e s
    else if tag = "part" then do
      let id ← need (e.attr "id")
      let p ← need (s.parts.lookup id)
      let p := { p with voices := createVoices e p.voices }
      measures o children { s with cur := some id, parts := assign id (p.point 1) s.parts }
    else if tag = "measure" then measureContent o children s
    else if tag = "barline" then s.onPart (barlineElem e)
    else if tag = "key" then s.onPart (keyElem e)
    else if tag = "dynamics" then s.onPart (dynamics children)
    else if tag = "divisions" then s.onPart (fun p => pure (divisionsElem e p))
    else if tag = "transpose" then s.onPart (transposeElem e)
    else if tag = "note" then s.onPart (noteElem e)
    else if tag = "forward" then s.onPart (forward e)
    else if tag = "backup" then s.onPart (backup e)
    else handleAll o children s
/-- `recurseHandler`, handlers.go:96-100. -/
def handleAll (o : Orders) : List Elem → Imp → Except Stop Imp
  | [], s => pure s
  | e :: es, s => do handleAll o es (← handle o e s)
/-- The loop of `measureHandler`, handlers.go:291-304. -/
def measureContent (o : Orders) : List Elem → Imp → Except Stop Imp
  | [], s => pure s
  | e :: es, s => do
    let s ← if (e.find "voice").isSome then s.onPart (switchVoice e) else pure s
    measureContent o es (← handle o e s)
/-- The loop of `partHandler`, handlers.go:252-266. -/
def measures (o : Orders) : List Elem → Imp → Except Stop Imp
  | [], s => pure s
  | e :: es, s => do
    let s ← handle o e s
    let id ← need s.cur
    let p ← need (s.parts.lookup id)
    let p ← cleanUp (!es.isEmpty) (o.ofVoices s.rounds (p.voices.map (·.1))) p
    measures o es { s with parts := assign id p s.parts, rounds := s.rounds + 1 }
end

/-! ### The whole file -/

/-- Insertion into a sorted list of strings. -/
def insertId (a : String) : List String → List String
  | [] => [a]
  | b :: bs => if a ≤ b then a :: b :: bs else b :: insertId a bs

/-- `sort.Strings` (Go library) on different strings. -/
def sortIds (ids : List String) : List String := ids.foldr insertId []

/-- The loop of `generateScoreUpdates`, importer.go:183-186. -/
def generateAll (ps : List (String × XPart)) : List String → Except Stop (List Upd)
  | [] => pure []
  | id :: ids => do
    let p ← need (ps.lookup id)
    let us ← p.generate
    let rest ← generateAll ps ids
    pure (us ++ rest)

/-- `generateScoreUpdates`, importer.go:172-189. -/
def Imp.generate (s : Imp) : Except Stop (List Upd) := generateAll s.parts (sortIds (s.parts.map (·.1)))

/-- `ImportMusicXML`, importer.go:410-452, from the root elements of the document on. -/
def importMusicXML (o : Orders) (roots : List Elem) : Except Stop (List Upd) :=
  match roots.find? (fun e => e.tag = "score-partwise") with
  | none => .error .refused
  | some e => do
    let s ← handle o e newImporter
    s.generate

end Importer
end Alda
