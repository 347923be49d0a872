import Verif.Cmd.AstHuman
import Verif.Cmd.Browser
import Verif.Cmd.Commands
import Verif.Cmd.Confirm
import Verif.Cmd.Doctor
import Verif.Cmd.Files
import Verif.Cmd.Parse
import Verif.Cmd.ReplCommand
import Verif.Cmd.Telemetry
import Verif.Cmd.Terminal
import Verif.Cmd.Update
import Verif.Importer.Handlers
import Verif.Importer.Import
import Verif.Importer.Nested
import Verif.Importer.Optimizer
import Verif.Importer.State
import Verif.Importer.Util
import Verif.Importer.Xml
import Verif.Lemmas.Accept
import Verif.Lemmas.AcceptCheck
import Verif.Lemmas.AcceptFlat
import Verif.Lemmas.AcceptNotes
import Verif.Lemmas.AcceptParts
import Verif.Lemmas.AstJson
import Verif.Lemmas.Attributes
import Verif.Lemmas.Begins
import Verif.Lemmas.Cells
import Verif.Lemmas.Client
import Verif.Lemmas.Demo
import Verif.Lemmas.Endings
import Verif.Lemmas.Enough
import Verif.Lemmas.FormatChord
import Verif.Lemmas.FormatEventRun
import Verif.Lemmas.FormatEvents
import Verif.Lemmas.FormatFits
import Verif.Lemmas.FormatItems
import Verif.Lemmas.FormatLayout
import Verif.Lemmas.FormatLeaves
import Verif.Lemmas.FormatLines
import Verif.Lemmas.FormatNumbers
import Verif.Lemmas.FormatParse
import Verif.Lemmas.FormatParts
import Verif.Lemmas.FormatProgram
import Verif.Lemmas.FormatRun
import Verif.Lemmas.FormatScan
import Verif.Lemmas.FormatSound
import Verif.Lemmas.FormatStream
import Verif.Lemmas.FormatTree
import Verif.Lemmas.FormatWellFormed
import Verif.Lemmas.Frame
import Verif.Lemmas.Gen
import Verif.Lemmas.Globals
import Verif.Lemmas.ImportChords
import Verif.Lemmas.ImportDrums
import Verif.Lemmas.ImportKeys
import Verif.Lemmas.ImportNotes
import Verif.Lemmas.ImportNumbers
import Verif.Lemmas.ImportPasses
import Verif.Lemmas.ImportShape
import Verif.Lemmas.ImportSim
import Verif.Lemmas.Interp
import Verif.Lemmas.JoinEval
import Verif.Lemmas.JoinEvent
import Verif.Lemmas.JoinFuel
import Verif.Lemmas.JoinLine
import Verif.Lemmas.JoinMove
import Verif.Lemmas.JoinNote
import Verif.Lemmas.JoinParse
import Verif.Lemmas.JoinScan
import Verif.Lemmas.JoinSession
import Verif.Lemmas.JoinShift
import Verif.Lemmas.JoinText
import Verif.Lemmas.JoinUpd
import Verif.Lemmas.Json
import Verif.Lemmas.LispNotes
import Verif.Lemmas.Located
import Verif.Lemmas.LocatedTrace
import Verif.Lemmas.Own
import Verif.Lemmas.Parse
import Verif.Lemmas.ParseUpdates
import Verif.Lemmas.Parts
import Verif.Lemmas.PlayerBundle
import Verif.Lemmas.PlayerClock
import Verif.Lemmas.PlayerExport
import Verif.Lemmas.PlayerLive
import Verif.Lemmas.PlayerReceive
import Verif.Lemmas.PlayerScore
import Verif.Lemmas.PlayerSound
import Verif.Lemmas.PlayerTrack
import Verif.Lemmas.Print
import Verif.Lemmas.PrintTree
import Verif.Lemmas.Repeat
import Verif.Lemmas.Repl
import Verif.Lemmas.Scan
import Verif.Lemmas.Settle
import Verif.Lemmas.SettlePlay
import Verif.Lemmas.Sim
import Verif.Lemmas.SimAll
import Verif.Lemmas.SimVoices
import Verif.Lemmas.Spelled
import Verif.Lemmas.Steps
import Verif.Lemmas.Still
import Verif.Lemmas.Text
import Verif.Lemmas.Track
import Verif.Lemmas.TrackChord
import Verif.Lemmas.TrackCram
import Verif.Lemmas.TrackLine
import Verif.Lemmas.TrackStretch
import Verif.Lemmas.TrackVoices
import Verif.Lemmas.Transmit
import Verif.Lemmas.VarComm
import Verif.Lemmas.Variables
import Verif.Lemmas.Voices
import Verif.Lemmas.WF
import Verif.Lemmas.Written
import Verif.Lemmas.XmlDone
import Verif.Lemmas.XmlFile
import Verif.Lemmas.XmlLine
import Verif.Lemmas.XmlMeasures
import Verif.Lemmas.XmlNeat
import Verif.Lemmas.XmlNotes
import Verif.Lemmas.XmlNumbers
import Verif.Lemmas.XmlPart
import Verif.Lemmas.XmlPlay
import Verif.Lemmas.XmlScore
import Verif.Lemmas.XmlSim
import Verif.Lemmas.XmlSing
import Verif.Lemmas.XmlSteps
import Verif.Lemmas.XmlWalk
import Verif.Model.Attributes
import Verif.Model.Duration
import Verif.Model.Instruments
import Verif.Model.Json
import Verif.Model.Key
import Verif.Model.Lisp
import Verif.Model.Located
import Verif.Model.Midi
import Verif.Model.Offsets
import Verif.Model.Pitch
import Verif.Model.Score
import Verif.Model.Update
import Verif.Parse.Ast
import Verif.Parse.AstJson
import Verif.Parse.Format
import Verif.Parse.Gen
import Verif.Parse.Parser
import Verif.Parse.Scanner
import Verif.Player.Engine
import Verif.Player.Expiry
import Verif.Player.Patterns
import Verif.Player.Player
import Verif.Player.TrackThreads
import Verif.Player.Wire
import Verif.Props.Accept
import Verif.Props.Addressed
import Verif.Props.AstHuman
import Verif.Props.Attributes
import Verif.Props.Await
import Verif.Props.Begins
import Verif.Props.Browser
import Verif.Props.Channels
import Verif.Props.Chord
import Verif.Props.Client
import Verif.Props.ClientPlay
import Verif.Props.Commands
import Verif.Props.Confirm
import Verif.Props.Cram
import Verif.Props.Doctor
import Verif.Props.Duration
import Verif.Props.Enough
import Verif.Props.Expiry
import Verif.Props.Export
import Verif.Props.Files
import Verif.Props.Format
import Verif.Props.Gen
import Verif.Props.Globals
import Verif.Props.Group
import Verif.Props.Groups
import Verif.Props.Help
import Verif.Props.Import
import Verif.Props.ImportText
import Verif.Props.Importer
import Verif.Props.Instruments
import Verif.Props.Join
import Verif.Props.Json
import Verif.Props.Line
import Verif.Props.Lisp
import Verif.Props.LispNotes
import Verif.Props.Located
import Verif.Props.Markers
import Verif.Props.MasterTempo
import Verif.Props.MusicXml
import Verif.Props.Offsets
import Verif.Props.Parse
import Verif.Props.Parts
import Verif.Props.Patterns
import Verif.Props.Pitch
import Verif.Props.Player
import Verif.Props.PlayerLive
import Verif.Props.PlayerLiveWitness
import Verif.Props.PlayerWitness
import Verif.Props.Players
import Verif.Props.Pool
import Verif.Props.Print
import Verif.Props.Range
import Verif.Props.Repeat
import Verif.Props.Repl
import Verif.Props.ReplCommand
import Verif.Props.Scan
import Verif.Props.Score
import Verif.Props.StateFiles
import Verif.Props.Telemetry
import Verif.Props.Terminal
import Verif.Props.TrackThreads
import Verif.Props.Transmit
import Verif.Props.Update
import Verif.Props.Variables
import Verif.Props.Voices
import Verif.Props.Wire
import Verif.Props.WireScore
import Verif.Repl.Client
import Verif.Repl.Code
import Verif.Repl.Help
import Verif.Repl.Players
import Verif.Repl.Server
import Verif.Spec.Accept
import Verif.Spec.Attributes
import Verif.Spec.Begins
import Verif.Spec.Client
import Verif.Spec.Commands
import Verif.Spec.Cram
import Verif.Spec.Duration
import Verif.Spec.Expiry
import Verif.Spec.Format
import Verif.Spec.Gen
import Verif.Spec.Globals
import Verif.Spec.Grammar
import Verif.Spec.Import
import Verif.Spec.Instruments
import Verif.Spec.Join
import Verif.Spec.Json
import Verif.Spec.LispNotes
import Verif.Spec.Live
import Verif.Spec.Located
import Verif.Spec.Markers
import Verif.Spec.Music
import Verif.Spec.MusicXml
import Verif.Spec.Notes
import Verif.Spec.Parts
import Verif.Spec.Pitch
import Verif.Spec.Playback
import Verif.Spec.Player
import Verif.Spec.Players
import Verif.Spec.Print
import Verif.Spec.Range
import Verif.Spec.Repeat
import Verif.Spec.Repl
import Verif.Spec.Scan
import Verif.Spec.Telemetry
import Verif.Spec.Text
import Verif.Spec.Update
import Verif.Spec.Variables
import Verif.System.Await
import Verif.System.Pool
import Verif.System.StateFiles
import Verif.Transmit.Osc
