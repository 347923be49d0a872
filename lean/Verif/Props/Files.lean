import Verif.Cmd.Files
import Verif.Props.Format
import Verif.Props.Print
import Verif.Props.ImportText
/-!
C64: what `alda format` and `alda import` write, and what they leave when they fail.
-/
namespace Alda
namespace Cmd
open Spec Syn

theorem put_at (fs : Files) (n : String) (t : List Char) : fs.put n t n = some t := by simp [Files.put]

theorem put_elsewhere (fs : Files) {n m : String} (t : List Char) (h : m ≠ n) : fs.put n t m = fs m := by simp [Files.put, h]

theorem put_twice (fs : Files) (n : String) (t u : List Char) : (fs.put n t).put n u = fs.put n u := by
  funext m
  by_cases h : m = n <;> simp [Files.put, h]

theorem writeOut_elsewhere (x : Troubles) (fs : Files) {n name : String} (t : List Char) (h : n ≠ name) : (writeOut x fs (some name) t).files n = fs n := by
  unfold writeOut
  cases x.written with
  | none => exact put_elsewhere _ _ h
  | some k => simp only; split <;> exact put_elsewhere _ _ h

/-- An indentation given by the user that consists of blanks. -/
def Blank (indent : List Char) : Prop := ∀ c ∈ indent, c ∈ [' ', '\t', '\r', '\n']

theorem indentation_blank {f : FormatFlags} (h : Blank f.indent) : ∀ c ∈ f.indentation, c ∈ [' ', '\t', '\r', '\n'] := by
  unfold FormatFlags.indentation
  split
  · exact h
  · decide

/-- C64, in part: formatting a program (that is clean in the sense of C32) writes a text that is the same program, to the file if it is to be overwritten and to stdout
otherwise, and touches nothing else. -/
theorem c64_format_partial (x : Troubles) (fs : Files) (f : FormatFlags) (text : List Char) (ast : Node) (hfile : fs f.file = some text) (hread : x.unreadable f.file = false)
    (hparse : parse text = .ok ast) (hclean : Clean ast) (hwrap : 0 ≤ f.wrap) (hindent : Blank f.indent) 
    (hopen : f.overwrite = true → x.unopenable f.file = false) (hspace : f.overwrite = true → x.written = none) :
    ∃ out, parse out = .ok ast ∧ (formatCmd x fs f).failure = none ∧
      (f.overwrite = true → (formatCmd x fs f).stdout = [] ∧ (formatCmd x fs f).files f.file = some out ∧ ∀ n, n ≠ f.file → (formatCmd x fs f).files n = fs n) ∧
      (f.overwrite = false → (formatCmd x fs f).stdout = out ∧ (formatCmd x fs f).files = fs) := by
  obtain ⟨out, h1, h2⟩ := c32_partial text ast hparse hclean f.width f.indentation (indentation_blank hindent)
  refine ⟨out, h2, ?_⟩
  unfold formatCmd
  simp only [hfile, hread, hparse, Bool.false_eq_true, if_false, if_neg (Int.not_lt.2 hwrap), h1]
  cases ho : f.overwrite with
  | true =>
    simp only [hopen ho, Bool.and_false, Bool.false_eq_true, if_false, if_true, writeOut, hspace ho, put_twice]
    exact ⟨trivial, fun _ => ⟨trivial, put_at .., fun n hn => put_elsewhere _ _ hn⟩, by simp⟩
  | false => simp [writeOut]

/-- C64: when the user does not ask for the file to be overwritten, no file changes, whatever happens. -/
theorem c64_format_reads (x : Troubles) (fs : Files) (f : FormatFlags) (h : f.overwrite = false) : (formatCmd x fs f).files = fs := by
  unfold formatCmd
  simp only [h, Bool.false_and, Bool.false_eq_true, if_false]
  repeat' split
  all_goals first | rfl | simp [writeOut]

/-- C64: no other file changes, whatever happens. -/
theorem c64_format_others (x : Troubles) (fs : Files) (f : FormatFlags) (n : String) (h : n ≠ f.file) : (formatCmd x fs f).files n = fs n := by
  cases ho : f.overwrite with
  | false => rw [c64_format_reads x fs f ho]
  | true =>
    unfold formatCmd
    simp only [ho, Bool.true_and, if_true]
    repeat' split
    all_goals first
      | rfl
      | exact put_elsewhere _ _ h
      | rw [writeOut_elsewhere _ _ _ h, put_elsewhere _ _ h]

/-- C64, in part: if formatting fails then the file is as it was, unless the width was negative or the disk was full
(`c64_truncated_witness`, `c64_full_witness`). -/
theorem c64_format_failed_partial (x : Troubles) (fs : Files) (f : FormatFlags) (text : List Char) (hfile : fs f.file = some text) (hwrap : 0 ≤ f.wrap)
    (hspace : x.written = none) (h : (formatCmd x fs f).failure ≠ none) : (formatCmd x fs f).files = fs := by
  unfold formatCmd at h ⊢
  simp only [hfile] at h ⊢
  split
  · rfl
  · rename_i hr
    rw [if_neg hr] at h
    cases hp : parse text with
    | error e => rfl
    | ok ast =>
      rw [hp] at h
      simp only [if_neg (Int.not_lt.2 hwrap)] at h ⊢
      split
      · rfl
      · rename_i ho
        rw [if_neg ho] at h
        obtain ⟨out, h1⟩ := c32_succeeds text ast hp f.width f.indentation
        rw [h1] at h
        simp only [writeOut, hspace] at h
        cases hov : f.overwrite <;> simp [hov] at h

/-- C64: importing what can be written down (`PrintableScore`, C48) writes a program that does the same to every score, to the file or to stdout, and touches nothing else. -/
theorem c64_import_partial (w : ImportWorld) (x : Troubles) (fs : Files) (f : ImportFlags) (hfmt : f.importFormat = "musicxml") (ho : AnyOrder w.order) (text : List Char) (us : List Upd)
    (hdata : importData w x fs f = .ok text) (hus : importText w text = .ok us) (hp : PrintableScore us) (hopen : x.unopenable f.output = false) (hspace : x.written = none) :
    ∃ out ast back, parse out = .ok ast ∧ updatesOf ast = .ok back ∧ (∀ s, update back s = update us s) ∧ (importCmd w x fs f).failure = none ∧
      (f.output = "" → (importCmd w x fs f).stdout = out ∧ (importCmd w x fs f).files = fs) ∧
      (f.output ≠ "" → (importCmd w x fs f).stdout = [] ∧ (importCmd w x fs f).files f.output = some out ∧ ∀ n, n ≠ f.output → (importCmd w x fs f).files n = fs n) := by
  obtain ⟨ast, out, ast', back, h1, h2, h3, h4, h5⟩ := c48 w.order ho us hp 80 [' ', ' '] (by decide)
  refine ⟨out, ast', back, h3, h4, h5, ?_⟩
  unfold importCmd
  simp only [hfmt, ne_eq, not_true_eq_false, if_false, hdata, hus, h1, h2, hopen, Bool.false_eq_true, writeOut, hspace, put_twice]
  by_cases h : f.output = ""
  · simp [h]
  · simp only [h, if_false]
    exact ⟨trivial, fun h' => absurd h' id, fun _ => ⟨trivial, put_at .., fun n hn => put_elsewhere _ _ hn⟩⟩

/-- C64: the music of a MusicXML file (of the class of C50) is what the written program plays. -/
theorem c64_import_music_partial (w : ImportWorld) (x : Troubles) (fs : Files) (f : ImportFlags) (hfmt : f.importFormat = "musicxml") (ho : AnyOrder w.order) (fair : w.orders.Fair)
    (text : List Char) (hdata : importData w x fs f = .ok text) (roots : List Importer.Elem) (root : Importer.Elem) (hxml : w.xml text = .ok roots)
    (hroot : roots.find? (fun e => e.tag = "score-partwise") = some root) (players : List XmlPlayer) (h : ScoreOf root players) (few : players.length ≤ 15) (hp : ∀ p ∈ players, p.Playable)
    (hfinite : ∀ us, Importer.importMusicXML w.orders roots = .ok us → ∀ u ∈ us, FiniteLengths u) (hopen : x.unopenable f.output = false) (hspace : x.written = none) :
    ∃ out us t, Repl.parseCode (String.ofList out) = .ok us ∧ update us newScore = .ok t ∧ (t.events.map (heardAs t)).Perm (players.flatMap XmlPlayer.music) ∧
      (importCmd w x fs f).failure = none ∧
      (f.output = "" → (importCmd w x fs f).stdout = out ∧ (importCmd w x fs f).files = fs) ∧
      (f.output ≠ "" → (importCmd w x fs f).stdout = [] ∧ (importCmd w x fs f).files f.output = some out ∧ ∀ n, n ≠ f.output → (importCmd w x fs f).files n = fs n) := by
  obtain ⟨us, ast, out, ast', back, t, h1, h2, h3, h4, h5, h6, h7⟩ := Importer.c50_text_partial w.orders fair w.order ho roots root hroot players h few hp hfinite 80 [' ', ' '] (by decide)
  refine ⟨out, back, t, by simp [Repl.parseCode, h4, h5], h6, h7, ?_⟩
  unfold importCmd
  simp only [hfmt, ne_eq, not_true_eq_false, if_false, hdata, importText, hxml, h1, h2, h3, hopen, Bool.false_eq_true, writeOut, hspace, put_twice]
  by_cases h : f.output = ""
  · simp [h]
  · simp only [h, if_false]
    exact ⟨trivial, fun h' => absurd h' id, fun _ => ⟨trivial, put_at .., fun n hn => put_elsewhere _ _ hn⟩⟩

/-- C64: no other file changes, whatever happens. -/
theorem c64_import_others (w : ImportWorld) (x : Troubles) (fs : Files) (f : ImportFlags) (n : String) (h : n ≠ f.output ∨ f.output = "") : (importCmd w x fs f).files n = fs n := by
  unfold importCmd
  repeat' split
  all_goals first
    | rfl
    | (rcases h with h | h
       · first
         | exact put_elsewhere _ _ h
         | rw [writeOut_elsewhere _ _ _ h, put_elsewhere _ _ h]
       · first | contradiction | (simp only [writeOut]))

/-- C64, in part: if an import fails, the files are as they were, unless what was imported cannot be written or the disk was full (`c64_import_full_witness`). -/
theorem c64_import_failed_partial (w : ImportWorld) (x : Troubles) (fs : Files) (f : ImportFlags) (ho : AnyOrder w.order) (hspace : x.written = none)
    (hprint : ∀ text us, importData w x fs f = .ok text → importText w text = .ok us → PrintableScore us) (h : (importCmd w x fs f).failure ≠ none) :
    (importCmd w x fs f).files = fs := by
  by_cases hfmt : f.importFormat = "musicxml"
  · cases hdata : importData w x fs f with
    | error e => simp [importCmd, hfmt, hdata]
    | ok text =>
      cases hus : importText w text with
      | error e => simp [importCmd, hfmt, hdata, hus]
      | ok us =>
        obtain ⟨ast, out, _, _, h1, h2, _⟩ := c48 w.order ho us (hprint text us hdata hus) 80 [' ', ' '] (by decide)
        cases hop : x.unopenable f.output with
        | true =>
          unfold importCmd
          simp only [hfmt, ne_eq, not_true_eq_false, if_false, hdata, hus, h1, h2, hop, if_true, writeOut]
          split <;> rfl
        | false =>
          obtain ⟨_, _, _, _, _, _, h', _⟩ := c64_import_partial w x fs f hfmt ho text us hdata hus (hprint text us hdata hus) hop hspace
          exact absurd h' h
  · simp [importCmd, hfmt]

/-- C64, in part: formatting a file a second time changes nothing. -/
theorem c64_format_again_partial (x : Troubles) (fs : Files) (f : FormatFlags) (text : List Char) (ast : Node) (hfile : fs f.file = some text) (hread : x.unreadable f.file = false)
    (hparse : parse text = .ok ast) (hclean : Clean ast) (hwrap : 0 ≤ f.wrap) (hindent : Blank f.indent) (hopen : x.unopenable f.file = false) (hspace : x.written = none)
    (hover : f.overwrite = true) : (formatCmd x (formatCmd x fs f).files f).files = (formatCmd x fs f).files ∧ (formatCmd x (formatCmd x fs f).files f).failure = none := by
  obtain ⟨out, h1, h2⟩ := c32_partial text ast hparse hclean f.width f.indentation (indentation_blank hindent)
  have e1 : formatCmd x fs f = { files := fs.put f.file out } := by
    unfold formatCmd
    simp only [hfile, hread, hparse, hopen, Bool.and_false, Bool.false_eq_true, if_false, if_neg (Int.not_lt.2 hwrap), h1, hover, if_true, writeOut, hspace, put_twice]
  rw [e1]
  unfold formatCmd
  simp only [put_at, hread, h2, hopen, Bool.and_false, Bool.false_eq_true, if_false, if_neg (Int.not_lt.2 hwrap), h1, hover, if_true, writeOut, hspace, put_twice]
  exact ⟨trivial, trivial⟩

/-! ### Where it is wrong -/

/-- A directory with one file. -/
def oneFile (name text : String) : Files := fun n => if n = name then some text.toList else none

/-- The full statement about failures is false: with a negative width, `alda format` refuses to work, but only after it has emptied the file, which held a program. -/
theorem c64_truncated_witness : (parse "piano: c d".toList).isOk = true ∧
    (formatCmd {} (oneFile "song.alda" "piano: c d") { file := "song.alda", overwrite := true, wrap := -1 }).failure.isSome = true ∧
    (formatCmd {} (oneFile "song.alda" "piano: c d") { file := "song.alda", overwrite := true, wrap := -1 }).files "song.alda" = some [] := by decide +kernel

/-- When the disk is full, what was in the file is lost. -/
theorem c64_full_witness :
    (formatCmd { written := some 3 } (oneFile "song.alda" "piano: c d") { file := "song.alda", overwrite := true }).failure.isSome = true ∧
    (formatCmd { written := some 3 } (oneFile "song.alda" "piano: c d") { file := "song.alda", overwrite := true }).files "song.alda" = some "pia".toList := by decide +kernel

/-! ### Concrete cases -/

open Importer (ord onePart measureEl attrsEl divEl noteEl)

/-- A MusicXML file. -/
def tinyFile : Importer.Elem := onePart [measureEl [attrsEl [divEl "1"], noteEl "1" "1" "C" "5", noteEl "1" "1" "D" "5", noteEl "1" "2" "E" "4"]]

/-- The reader of XML in this example; its input does not matter. -/
def tinyWorld : ImportWorld := { xml := fun _ => .ok [tinyFile], orders := ord, order := alphabetical }

/-- The files of this example. -/
def tinyFiles : Files := fun n => if n = "song.xml" then some "<score-partwise>".toList else if n = "song.alda" then some "old".toList else none

theorem c64_import_full_witness :
    (importCmd tinyWorld { written := some 3 } tinyFiles { file := "song.xml", output := "song.alda", importFormat := "musicxml" }).failure.isSome = true ∧
    (importCmd tinyWorld { written := some 3 } tinyFiles { file := "song.xml", output := "song.alda", importFormat := "musicxml" }).files "song.alda" = some "pia".toList := by decide +kernel

/-- What `alda import` writes. -/
example : (importCmd tinyWorld {} tinyFiles { file := "song.xml", output := "song.alda", importFormat := "musicxml" }).failure = none ∧
    (importCmd tinyWorld {} tinyFiles { file := "song.xml", output := "song.alda", importFormat := "musicxml" }).files "song.alda" = some "piano:\n  o5 c4 d < e2\n".toList := by
  decide +kernel

/-- What `alda format` writes, and what formatting it again does. -/
example : (formatCmd {} (oneFile "song.alda" "piano:   c  d | e") { file := "song.alda", overwrite := true }).files "song.alda" = some "piano:\n  c d | e\n".toList ∧
    (formatCmd {} (oneFile "song.alda" "piano:   c  d | e") { file := "song.alda" }).stdout = "piano:\n  c d | e\n".toList := by decide +kernel

/-- The hypotheses about formatting are met. -/
example : ∃ ast, parse "piano:   c  d | e".toList = .ok ast ∧ Clean ast := by
  have hx : ((parse "piano:   c  d | e".toList).toOption.map cleanB) = some true := by decide +kernel
  cases h : parse "piano:   c  d | e".toList with
  | error e => rw [h] at hx; cases hx
  | ok ast =>
    rw [h] at hx
    simp [Except.toOption] at hx
    exact ⟨ast, rfl, cleanB_sound hx⟩

/-- Notes and octaves without barlines, with whole numbers: enough for `tinyFile`. -/
def easy : List Upd → Bool
  | [] => true
  | .leaf (.note (.letter _ none) d false) :: us => d.all (fun c => match c with
      | .length q dots => q.den == 1 && decide (0 ≤ q) && decide (0 ≤ dots ∧ dots ≤ 2147483647)
      | _ => false) && easy us
  | .leaf (.attr (.octave n)) :: us => decide (0 ≤ n ∧ n ≤ 2147483647) && easy us
  | .leaf (.attr .octaveUp) :: us | .leaf (.attr .octaveDown) :: us => easy us
  | _ => false

theorem easy_printable {us : List Upd} (h : easy us = true) : PrintableL false false us := by
  fun_induction easy us with
  | case1 => trivial
  | case2 l d us ih =>
    simp only [Bool.and_eq_true, List.all_eq_true] at h
    have hnext : ∀ u' ∈ us.head?, ¬ (LengthLast (.leaf (.note (.letter l none) d false)) ∧ BarlineFirst u') := by
      intro u' hu hb
      cases us with
      | nil => cases hu
      | cons v vs => cases hu; cases u' <;> first | exact hb.2.elim | (cases h.2)
    have hc : ∀ c ∈ d, PrintableComp c := by
      intro c hc
      have := h.1 c hc
      cases c with
      | length q dots =>
        simp only [Bool.and_eq_true, beq_iff_eq, decide_eq_true_eq] at this
        refine ⟨⟨0, q.num, ?_⟩, this.1.2, ?_⟩
        rotate_left
        · constructor <;> omega
        have := Rat.ext (p := q) (q := (q.num : Rat)) rfl (by simp [this.1.1])
        grind
      | _ => cases this
    refine ⟨⟨by simp, ⟨hc, ?_⟩, by simp⟩, fun hr => hr.elim, hnext, ih h.2⟩
    intro hb
    cases d with
    | nil => cases hb
    | cons c cs => cases hb; exact absurd (h.1 _ List.mem_cons_self) (by simp)
  | case3 n us ih =>
    simp only [Bool.and_eq_true, decide_eq_true_eq] at h
    exact ⟨h.1, fun hr => hr.elim, fun _ _ hb => hb.1, ih h.2⟩
  | case4 us ih => exact ⟨trivial, fun hr => hr.elim, fun _ _ hb => hb.1, ih h⟩
  | case5 us ih => exact ⟨trivial, fun hr => hr.elim, fun _ _ hb => hb.1, ih h⟩
  | case6 => cases h

/-- Can these updates be written? -/
def easyScore : List Upd → Bool
  | .partDecl [name] "" :: us => name == "piano" && easy us
  | _ => false

theorem easyScore_printable {us : List Upd} (h : easyScore us = true) : PrintableScore us := by
  fun_cases easyScore us with
  | case1 name us =>
    simp only [easyScore, Bool.and_eq_true, beq_iff_eq] at h
    obtain ⟨rfl, h⟩ := h
    refine .part [] ["piano"] "" us trivial (by decide) ?_ (by simp) (.events _ (easy_printable h))
    intro n hn
    simp only [List.mem_cons, List.not_mem_nil, or_false] at hn
    subst hn
    exact nameText_of rfl (by decide) (by decide) (by decide)
  | case2 h' => simp [easyScore] at h

/-- The hypotheses about importing are met. -/
theorem tinyFile_printable : ∀ us, Importer.importMusicXML ord [tinyFile] = .ok us → PrintableScore us := by
  have hx : (match Importer.importMusicXML ord [tinyFile] with | .ok us => easyScore us | .error _ => false) = true := by decide +kernel
  intro us h
  rw [h] at hx
  exact easyScore_printable hx

/-- The duet of C50, imported from a file. -/
def duetWorld : ImportWorld := { xml := fun _ => .ok [Importer.duet], orders := ord, order := alphabetical }

/-- The hypotheses about the music are met. -/
example : ∃ out us t, Repl.parseCode (String.ofList out) = .ok us ∧ update us newScore = .ok t ∧
    (t.events.map (heardAs t)).Perm ([Importer.duetFlute, Importer.duetPiano].flatMap XmlPlayer.music) ∧
    (importCmd duetWorld {} tinyFiles { file := "song.xml", output := "song.alda", importFormat := "musicxml" }).files "song.alda" = some out := by
  obtain ⟨out, us, t, h1, h2, h3, _, _, h4⟩ := c64_import_music_partial duetWorld {} tinyFiles { file := "song.xml", output := "song.alda", importFormat := "musicxml" } rfl alphabetical_order
    Importer.ord_fair "<score-partwise>".toList (by simp [importData, tinyFiles]) [Importer.duet] Importer.duet rfl rfl _ Importer.duet_is_score (by decide) Importer.duet_playable Importer.duet_finite rfl rfl
  exact ⟨out, us, t, h1, h2, h3, (h4 (by decide)).2.1⟩

end Cmd
end Alda
