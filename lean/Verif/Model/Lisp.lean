import Verif.Model.Attributes
/-!
Model of `client/model/lisp.go`. Source contexts and error texts are left out.
-/
namespace Alda

/-- `LispForm` and its implementations (client/model/lisp.go:23-32). `LispAny` and `LispVariadic` occur only in signatures,
see `ArgType`. A `LispFunction` value is identified by its name. -/
inductive LispForm where
  | quoteForm                             -- LispSpecialFormQuote, 40
  | fn (name : String)                    -- LispFunction, 165-168
  | nil                                   -- LispNil, 1380-1382
  | quoted (form : LispForm)              -- LispQuotedForm, 1420-1423
  | sym (name : String)                   -- LispSymbol, 1446-1449
  | num (value : Rat)                     -- LispNumber, 1493-1496
  | str (value : String)                  -- LispString, 1519-1522
  | update (u : Leaf)                     -- LispScoreUpdate, 1545-1547
  | pitch (p : Pitch)                     -- LispPitch, 1570-1572
  | dur (d : DurComp)                     -- LispDuration, 1604-1606
  | list (elements : List LispForm)       -- LispList, 1638-1641

/-- Argument types of a `FunctionSignature` (client/model/lisp.go:83-86), `LispAny` (93) and `LispVariadic` (129-131). -/
inductive ArgType where
  | number | string | symbol | list | pitch | duration | update | any
  | variadic (t : ArgType)
deriving DecidableEq, Repr

/-- `reflect.TypeOf(actual) == reflect.TypeOf(expected)`, client/model/lisp.go:253-256, for the types that occur. -/
def LispForm.hasType : LispForm → ArgType → Bool
  | .num _, .number => true
  | .str _, .string => true
  | .sym _, .symbol => true
  | .list _, .list => true
  | .pitch _, .pitch => true
  | .dur _, .duration => true
  | .update _, .update => true
  | _, _ => false

/-- The comparison at client/model/lisp.go:256 and 270: equal types, or anything is expected. -/
def typeOk (expected : ArgType) (actual : LispForm) : Bool :=
  actual.hasType expected || expected == .any

/-- The loop over the fixed arguments, client/model/lisp.go:252-259. An index beyond the arguments cannot occur, since the
lengths have been checked. -/
def fixedArgsMatch : List ArgType → List LispForm → Bool
  | [], _ => true
  | _ :: _, [] => false
  | t :: ts, a :: as => typeOk t a && fixedArgsMatch ts as

/-- `argumentsMatchSignature`, client/model/lisp.go:225-279. -/
def argumentsMatchSignature (arguments : List LispForm) (types : List ArgType) : Bool :=
  if types.length = 0 ∧ arguments.length = 0 then true
  else
    match types.getLast? with
    | some (.variadic t) =>
      let fixedArgs := types.length - 1
      if arguments.length < fixedArgs then false
      else fixedArgsMatch (types.take fixedArgs) arguments
        && (arguments.drop fixedArgs).all (typeOk t)
    | _ =>
      if arguments.length ≠ types.length then false
      else fixedArgsMatch types arguments

/-- `FunctionSignature`, client/model/lisp.go:83-86. -/
structure Signature where
  types : List ArgType
  impl : List LispForm → Except Err LispForm

/-- The loop of `LispFunction.Operate`, client/model/lisp.go:311-330. -/
def operate (sigs : List Signature) (arguments : List LispForm) : Except Err LispForm :=
  match sigs with
  | [] => .error (.user "provided arguments do not match the signature")
  | s :: rest =>
    if argumentsMatchSignature arguments s.types then s.impl arguments else operate rest arguments

/-! ### Reading numbers and strings -/

/-- `positiveNumber`, client/model/lisp.go:418-429. A failed type assertion panics. -/
def positiveNumber : LispForm → Except Err Rat
  | .num v => if v < 1 then .error (.user "expected positive number") else .ok v
  | _ => .error (.panic "type assertion")

/-- `nonNegativeNumber`, client/model/lisp.go:431-442. -/
def nonNegativeNumber : LispForm → Except Err Rat
  | .num v => if v < 0 then .error (.user "expected non-negative number") else .ok (v / 100)
  | _ => .error (.panic "type assertion")

/-- `integer`, client/model/lisp.go:444-455. Converting a float outside the `int32` range never gives back the same
float, so the test at 447 is "is an integer within `int32`". -/
def integer : LispForm → Except Err Int
  | .num v => if v.den = 1 ∧ InInt32 v.num then .ok v.num else .error (.user "expected integer")
  | _ => .error (.panic "type assertion")

/-- `integerInRange`, client/model/lisp.go:457-479. -/
def integerInRange (form : LispForm) (lower upper : Int) : Except Err Int :=
  match integer form with
  | .error e => .error e
  | .ok n => if n < lower ∨ n > upper then .error (.user "expected integer in range") else .ok n

/-- `percentage`, client/model/lisp.go:481-492. -/
def percentage : LispForm → Except Err Rat
  | .num v => if v < 0 ∨ v > 100 then .error (.user "value not between 0 and 100") else .ok (v / 100)
  | _ => .error (.panic "type assertion")

/-- `isDigit`, client/model/lisp.go:494-496. -/
def isDigit (c : Char) : Bool := '0' ≤ c && c ≤ '9'

/-- Value of a decimal digit. -/
def digitVal (c : Char) : Nat := c.toNat - '0'.toNat

/-- The natural number written by decimal digits. -/
def digitsVal (cs : List Char) : Nat := cs.foldl (fun n c => 10 * n + digitVal c) 0

/-- `strconv.ParseFloat` on digits, optionally followed by a period and more digits; exact. -/
def decimalVal (whole frac : List Char) : Rat :=
  (digitsVal whole : Rat) + (digitsVal frac : Rat) / (10 : Rat) ^ frac.length

/-- Splits off the longest prefix of digits (the loops at client/model/lisp.go:510-513 and 523-526). -/
def spanDigits : List Char → List Char × List Char
  | [] => ([], [])
  | c :: cs =>
    if isDigit c then
      let r := spanDigits cs
      (c :: r.1, r.2)
    else ([], c :: cs)

/-- Counts and drops leading periods (the loop at client/model/lisp.go:533-536). -/
def spanDots : List Char → Nat × List Char
  | [] => (0, [])
  | c :: cs =>
    if c = '.' then
      let r := spanDots cs
      (r.1 + 1, r.2)
    else (0, c :: cs)

/-- The optional decimal part, client/model/lisp.go:518-527: the digits after the period, and the rest. -/
def decimalPart (rest : List Char) : List Char × List Char :=
  match rest with
  | '.' :: d :: rest' => if isDigit d then spanDigits (d :: rest') else ([], rest)
  | _ => ([], rest)

/-- `noteLength`, client/model/lisp.go:498-545, on the characters of the string. The final test is, as in the code,
`i < len(chars)-1` (540): more than one character left over. -/
def noteLength (chars : List Char) : Except Err DurComp :=
  match chars with
  | [] => .error (.user "invalid note length")
  | c :: _ =>
    if !isDigit c then .error (.user "invalid note length")
    else
      let w := spanDigits chars
      let f := decimalPart w.2
      let dots := spanDots f.2
      if dots.2.length > 1 then .error (.user "invalid note length")
      else .ok (.length (decimalVal w.1 f.1) dots.1)

/-- `strings.Split(s, sep)` for a one character separator (Go standard library). -/
def splitChar (sep : Char) : List Char → List (List Char)
  | [] => [[]]
  | c :: cs =>
    match splitChar sep cs with
    | [] => [[c]]
    | w :: ws => if c = sep then [] :: w :: ws else (c :: w) :: ws

/-- The loop of `duration`, client/model/lisp.go:554-564. -/
def noteLengths : List (List Char) → Except Err (List DurComp)
  | [] => .ok []
  | s :: ss =>
    match noteLength s with
    | .error e => .error e
    | .ok c =>
      match noteLengths ss with
      | .error e => .error e
      | .ok cs => .ok (c :: cs)

/-- `duration`, client/model/lisp.go:547-567. -/
def lispDuration : LispForm → Except Err Dur
  | .str s => noteLengths (splitChar '~' s.toList)
  | _ => .error (.panic "type assertion")

/-- `unicode.IsSpace` (Go standard library), used by `strings.Fields`. -/
def isSpace (c : Char) : Bool :=
  let n := c.toNat
  (9 ≤ n && n ≤ 13) || n == 32 || n == 0x85 || n == 0xA0 || n == 0x1680 || (0x2000 ≤ n && n ≤ 0x200a)
    || n == 0x2028 || n == 0x2029 || n == 0x202f || n == 0x205f || n == 0x3000

/-- `strings.Fields` (Go standard library); `cur` is the field being read. -/
def fieldsFrom (cur : List Char) : List Char → List (List Char)
  | [] => if cur = [] then [] else [cur]
  | c :: cs =>
    if isSpace c then (if cur = [] then fieldsFrom [] cs else cur :: fieldsFrom [] cs)
    else fieldsFrom (cur ++ [c]) cs

/-- `strings.Fields`. -/
def fields (cs : List Char) : List (List Char) := fieldsFrom [] cs

/-- The loop over accidental characters, client/model/lisp.go:591-600. -/
def accidentalChars : List Char → Except Err (List Accidental)
  | [] => .ok []
  | c :: cs =>
    if c = '+' then (accidentalChars cs).map (.sharp :: ·)
    else if c = '-' then (accidentalChars cs).map (.flat :: ·)
    else .error (.user "invalid letter and accidentals")

/-- `letterAndAccidentals`, client/model/lisp.go:573-603. `len(str)` counts bytes; for a string of one character that is a
letter both counts are 1, and otherwise the letter test fails anyway. -/
def letterAndAccidentals (chars : List Char) : Except Err (Letter × List Accidental) :=
  match chars with
  | [] => .error (.user "invalid letter and accidentals")
  | [_] => .error (.user "invalid letter and accidentals")
  | c :: cs =>
    match newNoteLetter c with
    | none => .error (.user "invalid letter and accidentals")
    | some l => (accidentalChars cs).map (fun as => (l, as))

/-- The loop of `keySignatureFromString`, client/model/lisp.go:612-622. -/
def keySigFields (ks : KeySig) : List (List Char) → Except Err KeySig
  | [] => .ok ks
  | s :: ss =>
    match letterAndAccidentals s with
    | .error e => .error e
    | .ok (l, as) => keySigFields (ks.set l as) ss

/-- `keySignatureFromString`, client/model/lisp.go:605-625. -/
def keySigFromString : LispForm → Except Err KeySig
  | .str s => keySigFields KeySig.empty (fields s.toList)
  | _ => .error (.panic "type assertion")

/-- `scaleType`, client/model/lisp.go:627-660. -/
def scaleType : List LispForm → Except Err Scale
  | [.sym n] =>
    if n = "major" ∨ n = "ionian" then .ok .ionian
    else if n = "dorian" then .ok .dorian
    else if n = "phrygian" then .ok .phrygian
    else if n = "lydian" then .ok .lydian
    else if n = "mixolydian" then .ok .mixolydian
    else if n = "minor" ∨ n = "aeolian" then .ok .aeolian
    else if n = "locrian" then .ok .locrian
    else .error (.user "invalid scale type")
  | _ => .error (.user "invalid scale type")

/-- The loop over the forms after the tonic's letter, client/model/lisp.go:687-704. Returns the tonic's accidentals and the remaining
forms. -/
def scaleNameLoop (accs : List Accidental) (passed : Bool) (remaining : List LispForm) :
    List LispForm → Except Err (List Accidental × List LispForm)
  | [] => .ok (accs, remaining)
  | .sym n :: fs =>
    match newAccidental n with
    | some a =>
      if passed then .error (.user "invalid scale name")
      else scaleNameLoop (accs ++ [a]) passed remaining fs
    | none => scaleNameLoop accs true (remaining ++ [.sym n]) fs
  | _ :: _ => .error (.user "invalid scale name")

/-- `keySignatureFromScaleName`, client/model/lisp.go:662-712. Callers pass at least two forms. A symbol with an empty name would
panic at 673. -/
def keySigFromScaleName : List LispForm → Except Err KeySig
  | .sym n :: fs =>
    match n.toList with
    | [] => .error (.panic "index out of range")
    | [c] =>
      match newNoteLetter c with
      | none => .error (.user "invalid note letter")
      | some l =>
        match scaleNameLoop [] false [] fs with
        | .error e => .error e
        | .ok (accs, remaining) =>
          match scaleType remaining with
          | .error e => .error e
          | .ok s => .ok (keySigFromScale l accs s)
    | _ :: _ :: _ => .error (.user "invalid scale name")
  | [] => .error (.panic "index out of range")
  | _ :: _ => .error (.user "invalid scale name")

/-- The loop over accidental symbols, client/model/lisp.go:746-760. -/
def accidentalSyms : List LispForm → Except Err (List Accidental)
  | [] => .ok []
  | .sym n :: fs =>
    if n = "flat" then (accidentalSyms fs).map (.flat :: ·)
    else if n = "sharp" then (accidentalSyms fs).map (.sharp :: ·)
    else .error (.user "expected pairs of note letter and accidentals")
  | _ :: _ => .error (.user "expected pairs of note letter and accidentals")

/-- The loop of `keySignatureFromAccidentals`, client/model/lisp.go:727-765. Only the first character of the letter symbol is looked at
(733-734), as in the code. -/
def keySigPairs (ks : KeySig) : List LispForm → Except Err KeySig
  | [] => .ok ks
  | .sym n :: .list as :: fs =>
    match n.toList with
    | [] => .error (.panic "index out of range")
    | c :: _ =>
      match newNoteLetter c with
      | none => .error (.user "invalid note letter")
      | some l =>
        match accidentalSyms as with
        | .error e => .error e
        | .ok accs => keySigPairs (ks.set l accs) fs
  | .sym n :: _ :: _ =>
    match n.toList with
    | [] => .error (.panic "index out of range")
    | c :: _ =>
      match newNoteLetter c with
      | none => .error (.user "invalid note letter")
      | some _ => .error (.user "expected pairs of note letter and accidentals")
  | _ => .error (.user "expected pairs of note letter and accidentals")

/-- `keySignatureFromAccidentals`, client/model/lisp.go:714-768. -/
def keySigFromAccidentals (fs : List LispForm) : Except Err KeySig :=
  if fs.length % 2 ≠ 0 then .error (.user "expected pairs of note letter and accidentals")
  else keySigPairs KeySig.empty fs

/-- `keySignatureFromList`, client/model/lisp.go:770-803. -/
def keySigFromList : LispForm → Except Err KeySig
  | .list fs =>
    match fs with
    | _ :: .sym _ :: _ => keySigFromScaleName fs
    | _ :: .list _ :: _ => keySigFromAccidentals fs
    | _ => .error (.user "invalid key signature")
  | _ => .error (.panic "type assertion")

/-! ### Built-in functions -/

/-- `beats` of a duration given as lisp string or number; a non-finite result stops the model. -/
def finiteBeats (d : Dur) : Except Err Rat :=
  match d.toBeats with
  | .ok q => .ok q
  | .panic => .error (.panic "Beats")
  | .nonFinite => .error .nonFinite

/-- `NoteLength{Denominator: x}.Beats()` for `x` from `positiveNumber`
(client/model/lisp.go:867, 907-908). -/
def numberBeats (f : LispForm) : Except Err Rat :=
  match positiveNumber f with
  | .error e => .error e
  | .ok d => finiteBeats [.length d 0]

/-- `duration(f)` followed by `.Beats()` (client/model/lisp.go:876-886, 921-927). -/
def stringBeats (f : LispForm) : Except Err Rat :=
  match lispDuration f with
  | .error e => .error e
  | .ok d => finiteBeats d

/-- The implementations of `tempo` with two arguments, client/model/lisp.go:855-889: beats of the first times the second. -/
def tempoFrom (beats : LispForm → Except Err Rat) : List LispForm → Except Err PartUpd
  | [a, b] =>
    match beats a with
    | .error e => .error e
    | .ok q =>
      match positiveNumber b with
      | .error e => .error e
      | .ok bpm => .ok (.tempo (q * bpm))
  | _ => .error (.panic "index out of range")

/-- The implementations of `metric-modulation`, client/model/lisp.go:896-968. Dividing by zero beats stops the model. -/
def modulationFrom (old new : LispForm → Except Err Rat) : List LispForm → Except Err PartUpd
  | [a, b] =>
    match old a with
    | .error e => .error e
    | .ok o =>
      match new b with
      | .error e => .error e
      | .ok n => if o = 0 then .error .nonFinite else .ok (.metricModulation (n / o))
  | _ => .error (.panic "index out of range")

/-- A one-argument attribute implementation: convert the argument, then build the update. -/
def attr1 {α : Type} (conv : LispForm → Except Err α) (mk : α → PartUpd) : List LispForm → Except Err PartUpd
  | a :: _ => (conv a).map mk
  | [] => .error (.panic "index out of range")

/-- `octave` applied to a symbol, client/model/lisp.go:818-838. -/
def octaveSym : List LispForm → Except Err PartUpd
  | .sym n :: _ =>
    if n = "up" then .ok .octaveUp else if n = "down" then .ok .octaveDown
    else .error (.user "invalid argument to octave")
  | _ => .error (.panic "type assertion")

/-- The attribute functions defined by `defattribute`, client/model/lisp.go:805-1181: names and signatures. -/
def attributeFns : List (List String × List (List ArgType × (List LispForm → Except Err PartUpd))) :=
  [ (["octave"], [([.number], attr1 integer .octave), ([.symbol], octaveSym)]),
    (["tempo"],
      [([.number], attr1 positiveNumber .tempo),
       ([.number, .number], tempoFrom numberBeats),
       ([.string, .number], tempoFrom stringBeats)]),
    (["metric-modulation"],
      [([.number, .number], modulationFrom numberBeats numberBeats),
       ([.number, .string], modulationFrom numberBeats stringBeats),
       ([.string, .number], modulationFrom stringBeats numberBeats),
       ([.string, .string], modulationFrom stringBeats stringBeats)]),
    (["quantization", "quantize", "quant"], [([.number], attr1 nonNegativeNumber .quantization)]),
    (["volume", "vol"], [([.number], attr1 percentage .volume)]),
    (["track-volume", "track-vol"], [([.number], attr1 percentage .trackVolume)]) ]
  ++ dynamicVolumes.map (fun d => ([d.1], [([], fun _ => .ok (.dynamic d.1))])) ++
  [ (["panning", "pan"], [([.number], attr1 percentage .panning)]),
    (["set-duration"], [([.number], attr1 positiveNumber (fun q => .duration [.beats q]))]),
    (["set-duration-ms"], [([.number], attr1 positiveNumber (fun q => .duration [.ms q]))]),
    (["set-note-length"],
      [([.number], attr1 positiveNumber (fun q => .duration [.length q 0])),
       ([.string], attr1 lispDuration .duration)]),
    (["key-signature", "key-sig"],
      [([.string], attr1 keySigFromString .keySignature), ([.list], attr1 keySigFromList .keySignature)]),
    (["transposition", "transpose"], [([.number], attr1 integer .transposition)]),
    (["reference-pitch", "tuning-constant"], [([.number], attr1 positiveNumber .referencePitch)]),
    (["midi-channel"], [([.number], attr1 (integerInRange · 0 15) .midiChannel)]) ]

/-- A signature of an attribute function as a lisp function signature, client/model/lisp.go:389-409. -/
def attrSignature (mk : PartUpd → Leaf) (s : List ArgType × (List LispForm → Except Err PartUpd)) : Signature :=
  { types := s.1, impl := fun args => (s.2 args).map (fun u => .update (mk u)) }

/-- `defattribute`, client/model/lisp.go:363-416: for every name the local and, with `!`, the global version. -/
def defattribute (a : List String × List (List ArgType × (List LispForm → Except Err PartUpd))) :
    List (String × List Signature) :=
  a.1.flatMap (fun name =>
    [(name, a.2.map (attrSignature .attr)), (name ++ "!", a.2.map (attrSignature .globalAttr))])

/-- The argument loop of `duration`, client/model/lisp.go:1233-1238. -/
def durationArgs : List LispForm → Except Err (List DurComp)
  | [] => .ok []
  | .dur d :: as => (durationArgs as).map (d :: ·)
  | _ :: _ => .error (.panic "type assertion")

/-- The accidentals loop of `pitch`, client/model/lisp.go:1285-1300. -/
def pitchAccidentals : List LispForm → Except Err (List Accidental)
  | [] => .ok []
  | .sym n :: fs =>
    match newAccidental n with
    | none => .error (.user "invalid accidental")
    | some a => (pitchAccidentals fs).map (a :: ·)
  | _ :: _ => .error (.user "invalid letter/accidentals")

/-- The implementation of `pitch`, client/model/lisp.go:1255-1306. -/
def pitchFn : List LispForm → Except Err LispForm
  | [.list (.sym n :: fs)] =>
    match n.toList with
    | [c] =>
      match newNoteLetter c with
      | none => .error (.user "invalid note letter")
      | some l =>
        match fs with
        | [] => .ok (.pitch (.letter l none))
        | _ :: _ => (pitchAccidentals fs).map (fun as => .pitch (.letter l (some as)))
    | _ => .error (.user "invalid letter/accidentals")
  | [.list _] => .error (.user "invalid letter/accidentals")
  | _ => .error (.panic "type assertion")

/-- The functions defined by `defn`, client/model/lisp.go:1183-1376. -/
def plainFns : List (String × List Signature) :=
  [ ("list", [⟨[.variadic .any], fun args => .ok (.list args)⟩]),
    ("ms", [⟨[.number], fun | a :: _ => (positiveNumber a).map (fun q => .dur (.ms q))
                            | [] => .error (.panic "index out of range")⟩]),
    ("note-length",
      [⟨[.number], fun | a :: _ => (positiveNumber a).map (fun q => .dur (.length q 0))
                       | [] => .error (.panic "index out of range")⟩,
       ⟨[.string], fun | .str s :: _ => (noteLength s.toList).map .dur
                       | _ => .error (.panic "type assertion")⟩]),
    ("duration", [⟨[.variadic .duration], fun args => (durationArgs args).map (fun cs => .dur (.nested cs))⟩]),
    ("midi-note", [⟨[.number], fun | a :: _ => (integer a).map (fun n => .pitch (.midi n))
                                   | [] => .error (.panic "index out of range")⟩]),
    ("pitch", [⟨[.list], pitchFn⟩]),
    ("note",
      [⟨[.pitch], fun | [.pitch p] => .ok (.update (.note p [] false))
                      | _ => .error (.panic "type assertion")⟩,
       ⟨[.pitch, .duration], fun | [.pitch p, .dur d] => .ok (.update (.note p [d] false))
                                 | _ => .error (.panic "type assertion")⟩]),
    ("pause",
      [⟨[], fun _ => .ok (.update (.rest []))⟩,
       ⟨[.duration], fun | [.dur d] => .ok (.update (.rest [d]))
                         | _ => .error (.panic "type assertion")⟩]),
    ("slur",
      [⟨[.update], fun | [.update (.note p d _)] => .ok (.update (.note p d true))
                       | [.update _] => .error (.user "only notes can be slurred")
                       | _ => .error (.panic "type assertion")⟩]) ]

/-- `environment`, client/model/lisp.go:336 as filled by `init` (805-1377): later definitions of a name
would replace earlier ones. -/
def environment : List (String × List Signature) :=
  attributeFns.flatMap defattribute ++ plainFns

/-- Lookup in `environment`. -/
def lookupFn (name : String) : Option (List Signature) := environment.reverse.lookup name

/-- `LispSymbol.Eval`, client/model/lisp.go:1474-1489; `specialForms` (332-334) has only `quote`. -/
def evalSym (name : String) : Except Err LispForm :=
  if name = "quote" then .ok .quoteForm
  else match lookupFn name with
    | some _ => .ok (.fn name)
    | none => .error (.user "unresolvable symbol")

mutual
/-- `Eval` of every form, client/model/lisp.go:69, 197, 1409, 1444, 1474-1489, 1517, 1541, 1565, 1596, 1632 and 1666-1713. An empty list
and `(quote)` index out of range (a panic). -/
def LispForm.eval : LispForm → Except Err LispForm
  | .quoteForm => .ok .quoteForm
  | .fn n => .ok (.fn n)
  | .nil => .ok .nil
  | .quoted f => .ok f
  | .sym n => evalSym n
  | .num v => .ok (.num v)
  | .str s => .ok (.str s)
  | .update u => .ok (.update u)
  | .pitch p => .ok (.pitch p)
  | .dur d => .ok (.dur d)
  | .list [] => .error (.panic "index out of range")
  | .list (op :: args) =>
    match op.eval with
    | .error e => .error e
    | .ok .quoteForm =>
      match args with
      | [] => .error (.panic "index out of range")
      | [a] => .ok a
      | _ :: _ :: _ => .error (.user "expected 1 argument to quote")
    | .ok (.fn n) =>
      match LispForm.evalArgs args with
      | .error e => .error e
      | .ok vs =>
        match lookupFn n with
        | some sigs => operate sigs vs
        | none => .error .unreachable
    | .ok _ =>
      match LispForm.evalArgs args with
      | .error e => .error e
      | .ok _ => .error (.user "value is not an Operator")
/-- The argument loop of `LispList.Eval`, client/model/lisp.go:1691-1698. -/
def LispForm.evalArgs : List LispForm → Except Err (List LispForm)
  | [] => .ok []
  | a :: as =>
    match a.eval with
    | .error e => .error e
    | .ok v =>
      match LispForm.evalArgs as with
      | .error e => .error e
      | .ok vs => .ok (v :: vs)
end

/-- `LispList.Eval` followed by `unpackScoreUpdate`, client/model/lisp.go:1715-1725: `none` is `LispNil{}`. -/
def lispUpdate (elements : List LispForm) : Except Err (Option Leaf) :=
  match LispForm.eval (.list elements) with
  | .error e => .error e
  | .ok (.update u) => .ok (some u)
  | .ok _ => .ok none

end Alda
