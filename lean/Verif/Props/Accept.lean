import Verif.Lemmas.AcceptCheck
import Verif.Props.Parse
/-!
C70: the parser accepts the programs of the grammar.
-/
namespace Alda
namespace Syn
open Spec Accept

/-- C70, for tidy programs: if the tokens of a text make up a program by the grammar, parsing succeeds. Missing from the full
statement: a variable's definition that is not at the end of its line, and repetitions after voices, for which it is false
(`c70_witness`, `c70_parts_witness`, `c70_voices_witness`). -/
theorem c70_partial (input : List Char) (ts : List Token) (eof : Token) (ast : Node) (hs : scan input = .ok (ts ++ [eof]))
    (hg : ProgramG ts ast) (ht : Tidy (ts ++ [eof])) : ∃ ast', parse input = .ok ast' := by
  obtain ⟨⟨init, h1, _⟩, _⟩ := c29_tokens input _ hs
  have he : eof.tok = .eof := by
    have := List.append_inj' h1 rfl
    simp at this
    rw [this.2]
  obtain ⟨ns, hp, rfl⟩ := hg
  obtain ⟨ms, R, h⟩ := topLevels_complete ((ts ++ [eof]).length + 1) (parts_prog hp) he ht (by simp; omega)
  refine ⟨.mk .root .none ms, ?_⟩
  unfold parse parseAST
  rw [hs]
  dsimp only
  rw [h]

/-- So the parser accepts a tidy text exactly if its tokens make up a program. -/
theorem c70_iff (input : List Char) (ts : List Token) (eof : Token) (hs : scan input = .ok (ts ++ [eof]))
    (ht : Tidy (ts ++ [eof])) : (∃ ast, parse input = .ok ast) ↔ ∃ ast, ProgramG ts ast := by
  constructor
  · rintro ⟨ast, h⟩
    obtain ⟨ts', eof', h1, _, h2⟩ := c30_consumes input ast h
    rw [hs] at h1
    have := List.append_inj' (Except.ok.inj h1) rfl
    rw [this.1]
    exact ⟨ast, h2⟩
  · rintro ⟨ast, h⟩
    exact c70_partial input ts eof ast hs h ht

/-- Without variable definitions and voices, every text is tidy. -/
theorem c70_plain (input : List Char) (ts : List Token) (eof : Token) (hs : scan input = .ok (ts ++ [eof]))
    (hp : ∀ t ∈ ts, t.tok ≠ .equals ∧ ∀ k, t.tok ≠ .voiceMarker k) :
    (∃ ast, parse input = .ok ast) ↔ ∃ ast, ProgramG ts ast := by
  obtain ⟨⟨init, h1, _⟩, _⟩ := c29_tokens input _ hs
  have he : eof.tok = .eof := by
    have := List.append_inj' h1 rfl
    simp at this
    rw [this.2]
  have hp' : ∀ t ∈ ts ++ [eof], t.tok ≠ .equals ∧ ∀ k, t.tok ≠ .voiceMarker k := by
    intro t ht
    rcases List.mem_append.1 ht with h | h
    · exact hp t h
    · rw [List.mem_singleton.1 h, he]; simp
  refine c70_iff input ts eof hs ⟨?_, ?_⟩
  · intro pre n eq mid c post e _ h
    exact absurd h (hp' eq (by rw [e]; simp)).1
  · intro pre v k mid c post e h
    exact absurd h ((hp' v (by rw [e]; simp)).2 k)

/-- The full statement. -/
def C70Full : Prop := ∀ input ts eof ast, scan input = .ok (ts ++ [eof]) → ProgramG ts ast → ∃ ast', parse input = .ok ast'

/-- A program of one event. -/
theorem program_event {ts : List Token} {n : Node} (h : EventG ts n) : ∃ ast, ProgramG ts ast := by
  have := PartsG.cons _ _ _ _ (PartG.implicit _ _ (EventsG.cons _ _ _ _ h .nil)) .nil
  exact ⟨_, _, by simpa using this, rfl⟩

/-- An event: the note `c`. -/
theorem event_c (pos : Pos) : ∃ n, EventG [⟨.noteLetter 'c', ['c'], pos⟩] n :=
  ⟨_, .notes _ _ (.single _ _ (.note _ 'c' [] [] [] [] [] [] rfl .nil .none .none))⟩

/-- The definition of a variable whose value is the note `c`. -/
theorem event_def (a b c : Nat) : ∃ n, EventG [⟨.name, "foo".toList, ⟨1, a⟩⟩, ⟨.equals, ['='], ⟨1, b⟩⟩,
    ⟨.noteLetter 'c', ['c'], ⟨1, c⟩⟩] n := by
  obtain ⟨n, h⟩ := event_c ⟨1, c⟩
  have := LineG.cons 1 _ [] _ [] h (by intro t ht; simp at ht; rw [← ht]) (.nil 1)
  exact ⟨_, .varDef _ _ _ _ rfl rfl (by simp) this⟩

/-- The full statement is false: a definition within a sequence that ends on the same line. -/
theorem c70_witness : ¬ C70Full := by
  intro h
  have hs : (scan "[foo = c]".toList).toOption = some ([⟨.eventSeqOpen, ['['], ⟨1, 1⟩⟩, ⟨.name, "foo".toList, ⟨1, 2⟩⟩,
      ⟨.equals, ['='], ⟨1, 6⟩⟩, ⟨.noteLetter 'c', ['c'], ⟨1, 8⟩⟩, ⟨.eventSeqClose, [']'], ⟨1, 9⟩⟩] ++
      [⟨.eof, [], ⟨1, 10⟩⟩]) := by decide +kernel
  have hp : (parse "[foo = c]".toList).toOption.isSome = false := by decide +kernel
  obtain ⟨n, hn⟩ := event_def 2 6 8
  obtain ⟨ast, hg⟩ := program_event (.seq ⟨.eventSeqOpen, ['['], ⟨1, 1⟩⟩ ⟨.eventSeqClose, [']'], ⟨1, 9⟩⟩ _ _ _ _ rfl rfl
    (.cons _ _ _ _ hn .nil) .once)
  cases hc : scan "[foo = c]".toList with
  | error e => rw [hc] at hs; cases hs
  | ok toks =>
    rw [hc] at hs
    obtain ⟨ast', ha⟩ := h _ _ _ ast (by rw [hc, Option.some.inj hs]) (by simpa using hg)
    rw [ha] at hp
    cases hp

/-- It is false as well for a declaration of a part on the line of a definition. -/
theorem c70_parts_witness : ∃ input ts eof ast, scan input = .ok (ts ++ [eof]) ∧ ProgramG ts ast ∧
    errorOf (parse input) = some (.at ⟨1, 16⟩ "in inner events") := by
  have hs : (scan "foo = c  piano : c".toList).toOption = some ([⟨.name, "foo".toList, ⟨1, 1⟩⟩,
      ⟨.equals, ['='], ⟨1, 5⟩⟩, ⟨.noteLetter 'c', ['c'], ⟨1, 7⟩⟩, ⟨.name, "piano".toList, ⟨1, 10⟩⟩, ⟨.colon, [':'], ⟨1, 16⟩⟩,
      ⟨.noteLetter 'c', ['c'], ⟨1, 18⟩⟩] ++ [⟨.eof, [], ⟨1, 19⟩⟩]) := by decide +kernel
  obtain ⟨n, hn⟩ := event_def 1 5 7
  obtain ⟨m, hm⟩ := event_c ⟨1, 18⟩
  cases hc : scan "foo = c  piano : c".toList with
  | error e => rw [hc] at hs; cases hs
  | ok toks =>
    rw [hc] at hs
    have := PartsG.cons _ _ _ _ (PartG.implicit _ _ (EventsG.cons _ _ _ _ hn .nil)) (PartsG.cons _ _ _ _
      (PartG.declared ⟨.name, "piano".toList, ⟨1, 10⟩⟩ ⟨.colon, [':'], ⟨1, 16⟩⟩ [] [] _ [] [] _ rfl .nil .none rfl
        (EventsG.cons _ _ _ _ hm .nil)) .nil)
    exact ⟨_, _, _, _, by rw [hc, Option.some.inj hs], ⟨_, by simpa using this, rfl⟩, by decide +kernel⟩

/-- And for repetitions after voices. -/
theorem c70_voices_witness : ∃ input ts eof ast, scan input = .ok (ts ++ [eof]) ∧ ProgramG ts ast ∧
    errorOf (parse input) = some (.at ⟨1, 7⟩ "in inner events") := by
  have hs : (scan "[V1: c'1]".toList).toOption = some ([⟨.eventSeqOpen, ['['], ⟨1, 1⟩⟩, ⟨.voiceMarker 1, "V1:".toList, ⟨1, 2⟩⟩,
      ⟨.noteLetter 'c', ['c'], ⟨1, 6⟩⟩, ⟨.repetitions [(1, 1)], "'1".toList, ⟨1, 7⟩⟩, ⟨.eventSeqClose, [']'], ⟨1, 9⟩⟩] ++
      [⟨.eof, [], ⟨1, 10⟩⟩]) := by decide +kernel
  obtain ⟨m, hm⟩ := event_c ⟨1, 6⟩
  obtain ⟨ast, hg⟩ := program_event (.seq ⟨.eventSeqOpen, ['['], ⟨1, 1⟩⟩ ⟨.eventSeqClose, [']'], ⟨1, 9⟩⟩ _ _ _ _ rfl rfl
    (.onReps _ _ _ _ ⟨.repetitions [(1, 1)], "'1".toList, ⟨1, 7⟩⟩ [(1, 1)]
      (.voices _ _ (.last ⟨.voiceMarker 1, "V1:".toList, ⟨1, 2⟩⟩ 1 _ _ rfl (.cons _ _ _ _ hm .nil))) rfl .nil) .once)
  cases hc : scan "[V1: c'1]".toList with
  | error e => rw [hc] at hs; cases hs
  | ok toks =>
    rw [hc] at hs
    exact ⟨_, _, _, ast, by rw [hc, Option.some.inj hs], by simpa using hg, by decide +kernel⟩

/-- A concrete case: a definition of several lines of music, in a sequence and on its own, voices and repetitions. -/
def tidySource : List Char :=
  "foo = [c d]\npiano:\n[foo {e f}2 | '1 [V1: g V2: b]]*2\nV1: bar = c4 | ~8\n d/e V2: [r] V0: a".toList

example : ∃ ts eof ast, scan tidySource = .ok (ts ++ [eof]) ∧ ProgramG ts ast ∧ Tidy (ts ++ [eof]) := by
  have hp : (parse tidySource).toOption.isSome = true := by decide +kernel
  have ht : (scan tidySource).toOption.map tidy = some true := by decide +kernel
  cases h : parse tidySource with
  | error e => rw [h] at hp; cases hp
  | ok ast =>
    obtain ⟨ts, eof, h1, _, h2⟩ := c30_consumes _ _ h
    rw [h1] at ht
    exact ⟨ts, eof, ast, h1, h2, tidy_sound _ (Option.some.inj ht)⟩

end Syn
end Alda
