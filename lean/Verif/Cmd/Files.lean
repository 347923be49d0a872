import Verif.Cmd.Commands
import Verif.Parse.Format
import Verif.Parse.Gen
import Verif.Importer.Import
/-!
Model of the commands that write program text: `alda format` (`client/cmd/format.go`) and `alda import` (`client/cmd/import.go`).

Not modelled: parsing of the command line, the warning, the texts of errors, files that are not UTF-8, other processes that change the files meanwhile.
-/
namespace Alda
namespace Cmd

/-- The text files. -/
abbrev Files := String → Option (List Char)

/-- A file written. -/
def Files.put (fs : Files) (name : String) (text : List Char) : Files := fun n => if n = name then some text else fs n

/-- What can go wrong with a file: it cannot be read, it cannot be opened for writing, or only so many characters can be written (the disk is full). -/
structure Troubles where
  unreadable : String → Bool := fun _ => false
  unopenable : String → Bool := fun _ => false
  written : Option Nat := none

/-- How a command ends: the files, what was written to stdout, and the error if there is one. -/
structure Outcome where
  files : Files
  stdout : List Char := []
  failure : Option Err := none

/-- The options of `alda format`, client/cmd/format.go:14-35. -/
structure FormatFlags where
  file : String := ""
  overwrite : Bool := false
  wrap : Int := 0
  indent : List Char := []

/-- The width that is given to the formatter, client/cmd/format.go:99-120; else its default, client/parser/format.go:44. -/
def FormatFlags.width (f : FormatFlags) : Int := if f.wrap > 0 then f.wrap else 80

/-- The text of an indentation that is given to the formatter, client/cmd/format.go:99-120; else its default, client/parser/format.go:45. -/
def FormatFlags.indentation (f : FormatFlags) : List Char := if f.indent ≠ [] then f.indent else [' ', ' ']

/-- Writing the formatted text at once (`FormatASTToCode`, client/parser/format.go:746-755) to stdout or to a file that has been opened. -/
def writeOut (x : Troubles) (fs : Files) (target : Option String) (text : List Char) : Outcome :=
  match target, x.written with
  | none, _ => { files := fs, stdout := text }
  | some name, none => { files := fs.put name text }
  | some name, some n => if n < text.length then { files := fs.put name (text.take n), failure := some (.user "no space left on device") } else { files := fs.put name text }

/-- `alda format`, client/cmd/format.go:61-130. -/
def formatCmd (x : Troubles) (fs : Files) (f : FormatFlags) : Outcome :=
  match fs f.file with
  | none => { files := fs, failure := some (.user "Failed to open") }                                      -- client/parser/parser.go:1130-1137
  | some text =>
    if x.unreadable f.file then { files := fs, failure := some (.user "permission denied") }                 -- client/parser/parser.go:1139-1141
    else
      match Syn.parse text with
      | .error e => { files := fs, failure := some (Repl.codeError e) }                                     -- 68-71
      | .ok root =>
        if f.overwrite && x.unopenable f.file then { files := fs, failure := some (.user "Issue opening file") }   -- 80-85
        else
          let fs := if f.overwrite then fs.put f.file [] else fs                                             -- 75-79: `O_TRUNC`
          if f.wrap < 0 then { files := fs, failure := some (.user "must be positive") }                      -- 92-97
          else
            match Syn.format f.width f.indentation root with
            | .error e => { files := fs, failure := some e }                                                -- 122-127
            | .ok out => writeOut x fs (if f.overwrite then some f.file else none) out

/-- The options of `alda import`, client/cmd/import.go:15-35. -/
structure ImportFlags where
  file : String := ""
  code : List Char := []
  output : String := ""
  importFormat : String := ""

/-- What is outside of the command `alda import`: standard input; the reading of XML (library etree, client/interop/musicxml/importer/importer.go:410-418); the orders of Go's maps. -/
structure ImportWorld where
  stdin : Stdin := .terminal
  xml : List Char → Except Err (List Importer.Elem)
  orders : Importer.Orders
  order : Syn.MapOrder

/-- The data to be imported, client/cmd/import.go:85-119. -/
def importData (w : ImportWorld) (x : Troubles) (fs : Files) (f : ImportFlags) : Except Err (List Char) :=
  if f.file ≠ "" then
    match fs f.file with
    | none => .error (.user "Failed to open file")
    | some text => if x.unreadable f.file then .error (.user "Failed to open file") else .ok text
  else if f.code ≠ [] then .ok f.code
  else
    match w.stdin with
    | .terminal => .error (.user "Failed to read from stdin")
    | .piped text => .ok text.toList
    | .broken e => .error (.user e)

/-- `ImportMusicXML`; a panic, and what the model does not follow, are errors as well. -/
def importText (w : ImportWorld) (text : List Char) : Except Err (List Upd) :=
  match w.xml text with
  | .error e => .error e
  | .ok roots =>
    match Importer.importMusicXML w.orders roots with
    | .ok us => .ok us
    | .error .refused => .error (.user "not imported")
    | .error _ => .error (.panic "import")

/-- `alda import`, client/cmd/import.go:71-168. -/
def importCmd (w : ImportWorld) (x : Troubles) (fs : Files) (f : ImportFlags) : Outcome :=
  if f.importFormat ≠ "musicxml" then { files := fs, failure := some (.user "not a supported input format") }      -- 72-80
  else
    match importData w x fs f with
    | .error e => { files := fs, failure := some e }
    | .ok text =>
      match importText w text with
      | .error e => { files := fs, failure := some e }
      | .ok us =>
        match Syn.generate w.order us with
        | .error e => { files := fs, failure := some e }                                                          -- 121-127
        | .ok root =>
          if f.output = "" then                                                                                   -- 129-137
            match Syn.format 80 [' ', ' '] root with
            | .error e => { files := fs, failure := some e }
            | .ok out => writeOut x fs none out
          else if x.unopenable f.output then { files := fs, failure := some (.user "Issue opening output file") }   -- 144-149
          else
            let fs := fs.put f.output []                                                                          -- 139-143: `O_TRUNC`
            match Syn.format 80 [' ', ' '] root with                                                              -- 152-158
            | .error e => { files := fs, failure := some e }
            | .ok out => writeOut x fs (some f.output) out

end Cmd
end Alda
