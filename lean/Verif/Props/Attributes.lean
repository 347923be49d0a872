import Verif.Lemmas.Attributes
import Verif.Props.Globals
/-!
C62: an attribute expression changes exactly the attribute that it names, as asked. C06, for scales that are named in a score.
-/
namespace Alda
open Spec

/-! ### Key signatures -/

/-- Putting accidentals on letters, one after the other. -/
def putAll (ks : KeySig) (ps : List (Letter × List Accidental)) : KeySig := ps.foldl (fun k p => k.set p.1 p.2) ks

theorem putAll_on (ps : List (Letter × List Accidental)) (ks : KeySig) (l : Letter) :
    onLetter (putAll ks ps) l = ((ps.filter (fun p => p.1 = l)).getLast?.map (·.2)).getD (onLetter ks l) := by
  induction ps generalizing ks with
  | nil => rfl
  | cons p ps ih =>
    have h : putAll ks (p :: ps) = putAll (ks.set p.1 p.2) ps := rfl
    rw [h, ih]
    by_cases hp : p.1 = l
    · rw [List.filter_cons_of_pos (by simpa using hp)]
      have h1 : onLetter (ks.set p.1 p.2) l = p.2 := by simp [onLetter, KeySig.set, hp]
      rw [h1]
      cases hf : (ps.filter (fun p => p.1 = l)) with
      | nil => rfl
      | cons q qs =>
        rw [List.getLast?_cons_cons, List.getLast?_eq_some_getLast (List.cons_ne_nil q qs)]; rfl
    · rw [List.filter_cons_of_neg (by simpa using hp)]
      have h1 : onLetter (ks.set p.1 p.2) l = onLetter ks l := by simp [onLetter, KeySig.set, Ne.symm hp]
      rw [h1]

theorem putAll_mentioned (ps : List (Letter × List Accidental)) (l : Letter) : onLetter (putAll KeySig.empty ps) l = mentioned ps l := putAll_on ps _ l

theorem letterName_chars (l : Letter) : ∃ c, (letterName l).toList = [c] ∧ newNoteLetter c = some l ∧ isSpace c = false := by
  cases l <;> exact ⟨_, rfl, by decide, by decide⟩

theorem accidentalChars_signs (as : List Accidental) (h : Accidental.natural ∉ as) : accidentalChars (as.map accidentalSign) = .ok as := by
  induction as with
  | nil => rfl
  | cons a as ih =>
    rw [List.mem_cons, not_or] at h
    have ih := ih h.2
    cases a with
    | natural => exact absurd rfl h.1
    | flat => simp only [List.map_cons, accidentalSign, accidentalChars, ih]; rfl
    | sharp => simp only [List.map_cons, accidentalSign, accidentalChars, ih]; rfl

theorem accidentalSyms_names (as : List Accidental) (h : Accidental.natural ∉ as) : accidentalSyms (as.map (fun a => .sym (accidentalName a))) = .ok as := by
  induction as with
  | nil => rfl
  | cons a as ih =>
    rw [List.mem_cons, not_or] at h
    have ih := ih h.2
    cases a with
    | natural => exact absurd rfl h.1
    | flat =>
      rw [List.map_cons, show accidentalName .flat = "flat" from rfl, accidentalSyms, ih]; rfl
    | sharp =>
      rw [List.map_cons, show accidentalName .sharp = "sharp" from rfl, accidentalSyms, ih]; rfl

theorem keyWord (p : Letter × List Accidental) (h : p.2 ≠ [] ∧ Accidental.natural ∉ p.2) :
    letterAndAccidentals ((letterName p.1).toList ++ p.2.map accidentalSign) = .ok p := by
  obtain ⟨c, hc, hl, _⟩ := letterName_chars p.1
  obtain ⟨l, as⟩ := p
  cases as with
  | nil => exact absurd rfl h.1
  | cons a as =>
    have := accidentalChars_signs (a :: as) h.2
    simp only [List.map_cons] at this
    simp only at hc hl
    simp only [hc, List.map_cons, List.cons_append, List.nil_append, letterAndAccidentals, hl, this]; rfl

theorem keySigFields_words (ps : List (Letter × List Accidental)) (h : Signs ps) (ks : KeySig) :
    keySigFields ks (ps.map (fun p => (letterName p.1).toList ++ p.2.map accidentalSign)) = .ok (putAll ks ps) := by
  induction ps generalizing ks with
  | nil => rfl
  | cons p ps ih =>
    simp only [List.map_cons, keySigFields, keyWord p (h p (List.mem_cons_self ..))]
    exact ih (fun q hq => h q (List.mem_cons_of_mem _ hq)) _

theorem keySigPairs_pairs (ps : List (Letter × List Accidental)) (h : Signs ps) (ks : KeySig) :
    keySigPairs ks (ps.flatMap (fun p => [.sym (letterName p.1), .list (p.2.map (fun a => .sym (accidentalName a)))])) = .ok (putAll ks ps) := by
  induction ps generalizing ks with
  | nil => rfl
  | cons p ps ih =>
    obtain ⟨c, hc, hl, _⟩ := letterName_chars p.1
    simp only [List.flatMap_cons, List.cons_append, List.nil_append, keySigPairs, hc, hl, accidentalSyms_names p.2 (h p (List.mem_cons_self ..)).2]
    exact ih (fun q hq => h q (List.mem_cons_of_mem _ hq)) _

theorem spaced_eq (ws : List (List Char)) : spaced ws = Syn.joinSpace ws := by
  induction ws with
  | nil => rfl
  | cons w ws ih =>
    cases ws with
    | nil => rfl
    | cons v ws => simp only [spaced, Syn.joinSpace, ih]

theorem scaleNameLoop_accs (accs acc : List Accidental) (name : String) (h : newAccidental name = none) :
    scaleNameLoop acc false [] (accs.map (fun a => .sym (accidentalName a)) ++ [.sym name]) = .ok (acc ++ accs, [.sym name]) := by
  induction accs generalizing acc with
  | nil => simp only [List.map_nil, List.nil_append, scaleNameLoop, h, List.append_nil]
  | cons a accs ih =>
    have ha : newAccidental (accidentalName a) = some a := by cases a <;> decide
    simp only [List.map_cons, List.cons_append, scaleNameLoop, ha]
    rw [if_neg (by decide), ih]
    simp

theorem mode_name {mode : Scale} {name : String} (h : name ∈ modeNames mode) : scaleType [.sym name] = .ok mode ∧ newAccidental name = none := by
  cases mode <;> simp only [modeNames, List.mem_cons, List.not_mem_nil, or_false] at h
  · rcases h with h | h <;> subst h <;> exact ⟨by simp [scaleType], by decide⟩
  · subst h; exact ⟨by simp [scaleType], by decide⟩
  · subst h; exact ⟨by simp [scaleType], by decide⟩
  · subst h; exact ⟨by simp [scaleType], by decide⟩
  · subst h; exact ⟨by simp [scaleType], by decide⟩
  · rcases h with h | h <;> subst h <;> exact ⟨by simp [scaleType], by decide⟩
  · subst h; exact ⟨by simp [scaleType], by decide⟩

theorem scaleName_reads (t : Letter) (accs : List Accidental) {mode : Scale} {name : String} (h : name ∈ modeNames mode) :
    keySigFromScaleName (.sym (letterName t) :: (accs.map (fun a => .sym (accidentalName a)) ++ [.sym name])) = .ok (keySigFromScale t accs mode) := by
  obtain ⟨c, hc, hl, _⟩ := letterName_chars t
  obtain ⟨h1, h2⟩ := mode_name h
  simp only [keySigFromScaleName, hc, hl, scaleNameLoop_accs accs [] name h2, List.nil_append, h1]

/-! ### What is asked for is what is done -/

theorem numberBeats_value {d : Rat} (h : 1 ≤ d) : numberBeats (.num d) = .ok (4 / d) := by
  have h1 : ¬ d < 1 := by grind
  have h2 : d ≠ 0 := by grind
  have h3 : (4 / d : Rat) * dotted 0 = 4 / d := by simp only [dotted]; grind
  simp only [numberBeats, positiveNumber, if_neg h1, finiteBeats, Dur.toBeats, Dur.toBeatsFrom, DurComp.toBeats, noteLengthBeats, if_neg h2, dotted_eq, h3]
  congr 1; grind

theorem stringBeats_value {s : String} {ls : List (Rat × Nat)} (h : Lengths s.toList ls) (hz : ∀ x ∈ ls, x.1 ≠ 0) :
    stringBeats (.str s) = .ok (tiedBeats ls) := by
  simp only [stringBeats, lispDuration, noteLengths_tied h, finiteBeats, Dur.toBeats, tied_toBeats ls hz]
  congr 1; grind

/-- The numbers among the arguments are not between 0 and 1, or they are percentages. -/
def NoFractions (name : String) (args : List LispForm) : Prop := name ∈ percentages ∨ ∀ v, LispForm.num v ∈ args → ¬ (0 < v ∧ v < 1)

/-- What the expression evaluates to. -/
def Gives (name : String) (args : List LispForm) (R : Attributes → Attributes → Prop) : Prop :=
  ∃ x ∈ attributeFns, name ∈ x.1 ∧ ∃ vs, LispForm.evalArgs args = .ok vs ∧ ∃ u, attrResult vs x.2 = .ok u ∧ u.kind ≠ .midiChannel ∧ ∀ a, R a (change u a)

theorem integer_num (n : Int) (h : InInt32 n) : integer (.num (n : Rat)) = .ok n := by
  have h1 : ((n : Rat).den = 1 ∧ InInt32 (n : Rat).num) := ⟨Rat.den_intCast n, by rw [Rat.num_intCast]; exact h⟩
  rw [integer, if_pos h1, Rat.num_intCast]

theorem evalArgs_one {a v : LispForm} (h : a.eval = .ok v) : LispForm.evalArgs [a] = .ok [v] := by simp only [LispForm.evalArgs, h]

theorem evalArgs_two {a b v w : LispForm} (h : a.eval = .ok v) (h' : b.eval = .ok w) : LispForm.evalArgs [a, b] = .ok [v, w] := by
  simp only [LispForm.evalArgs, h, h']

theorem markings_volumes (i : Nat) (name : String) (h : markings[i]? = some name) :
    ([name], [([], fun _ => .ok (.dynamic name))]) ∈ dynamicVolumes.map (fun d => (([d.1] : List String), ([([], fun _ => .ok (.dynamic d.1))] : List (List ArgType × (List LispForm → Except Err PartUpd))))) ∧
    dynamicVolume name = markingVolume i := by
  have h14 : i < 14 := by
    rw [List.getElem?_eq_some_iff] at h
    exact h.1
  have hall : ∀ i < 14, ∀ n ∈ markings[i]?, n ∈ dynamicVolumes.map (·.1) ∧ dynamicVolume n = markingVolume i := by decide +kernel
  obtain ⟨h1, h2⟩ := hall i h14 name h
  obtain ⟨d, hd, rfl⟩ := List.mem_map.1 h1
  exact ⟨List.mem_map.2 ⟨d, hd, rfl⟩, h2⟩

theorem notSmall {v : Rat} (h : 0 < v) (hf : ¬ (0 < v ∧ v < 1)) : ¬ v < 1 := fun h' => hf ⟨h, h'⟩

/-- An attribute function: its names and signatures. -/
abbrev AttrFn := List String × List (List ArgType × (List LispForm → Except Err PartUpd))

theorem Gives.intro {name : String} {args vs : List LispForm} {R : Attributes → Attributes → Prop} (x : AttrFn) (hx : x ∈ attributeFns) (hn : name ∈ x.1)
    (hv : LispForm.evalArgs args = .ok vs) (u : PartUpd) (hu : attrResult vs x.2 = .ok u) (hk : u.kind ≠ .midiChannel) (hR : ∀ a, R a (change u a)) :
    Gives name args R := ⟨x, hx, hn, vs, hv, u, hu, hk, hR⟩

theorem evalArgs_num (v : Rat) : LispForm.evalArgs [.num v] = .ok [.num v] := evalArgs_one (by simp only [LispForm.eval])

theorem result_num {α : Type} (conv : LispForm → Except Err α) (mk : α → PartUpd) (rest : List (List ArgType × (List LispForm → Except Err PartUpd))) (v : Rat) :
    attrResult [.num v] (([.number], attr1 conv mk) :: rest) = (conv (.num v)).map mk := by
  simp [attrResult, argumentsMatchSignature, fixedArgsMatch, typeOk, LispForm.hasType, attr1]

theorem value_eval {v : LispForm} {q : Rat} (h : Value v q) : v.eval = .ok v := by
  cases h <;> simp only [LispForm.eval]

theorem asks_gives {name : String} {args : List LispForm} {R : Attributes → Attributes → Prop} (h : Asks name args R) (hf : NoFractions name args)
    (he : args ≠ [.quoted (.list [])]) : Gives name args R := by
  cases h with
  | octave n hn =>
    refine .intro (["octave"], [([.number], attr1 integer .octave), ([.symbol], octaveSym)]) (by simp [attributeFns]) (by simp) (evalArgs_num _) (.octave n) ?_
      (by simp [PartUpd.kind]) (fun a => rfl)
    rw [result_num, integer_num n hn]; rfl
  | up =>
    refine .intro (["octave"], [([.number], attr1 integer .octave), ([.symbol], octaveSym)]) (by simp [attributeFns]) (by simp)
      (evalArgs_one (v := .sym "up") (by simp only [LispForm.eval])) .octaveUp ?_ (by simp [PartUpd.kind]) (fun a => rfl)
    simp [attrResult, argumentsMatchSignature, fixedArgsMatch, typeOk, LispForm.hasType, octaveSym]
  | down =>
    refine .intro (["octave"], [([.number], attr1 integer .octave), ([.symbol], octaveSym)]) (by simp [attributeFns]) (by simp)
      (evalArgs_one (v := .sym "down") (by simp only [LispForm.eval])) .octaveDown ?_ (by simp [PartUpd.kind]) (fun a => rfl)
    simp [attrResult, argumentsMatchSignature, fixedArgsMatch, typeOk, LispForm.hasType, octaveSym]
  | tempo bpm hb =>
    have hb' : ¬ bpm < 1 := hf.elim (fun h => absurd h (by decide)) (fun h => notSmall hb (h bpm (by simp)))
    refine .intro (["tempo"], [([.number], attr1 positiveNumber .tempo), ([.number, .number], tempoFrom numberBeats), ([.string, .number], tempoFrom stringBeats)])
      (by simp [attributeFns]) (by simp) (evalArgs_num _) (.tempo bpm) ?_ (by simp [PartUpd.kind]) (fun a => rfl)
    rw [result_num, positiveNumber, if_neg hb']; rfl
  | tempoOf v q bpm hv hb =>
    have hs := hf.elim (fun h => absurd h (by decide)) id
    have hb' : ¬ bpm < 1 := notSmall hb (hs bpm (by simp))
    refine .intro (["tempo"], [([.number], attr1 positiveNumber .tempo), ([.number, .number], tempoFrom numberBeats), ([.string, .number], tempoFrom stringBeats)])
      (by simp [attributeFns]) (by simp) (evalArgs_two (w := .num bpm) (value_eval hv) (by simp only [LispForm.eval])) (.tempo (q * bpm)) ?_ (by simp [PartUpd.kind]) (fun a => rfl)
    cases hv with
    | number d hd =>
      have hd' := numberBeats_value (Rat.not_lt.1 (notSmall hd (hs d (by simp))))
      simp [attrResult, argumentsMatchSignature, fixedArgsMatch, typeOk, LispForm.hasType, tempoFrom, hd', positiveNumber, hb']
    | text s ls h hz =>
      simp [attrResult, argumentsMatchSignature, fixedArgsMatch, typeOk, LispForm.hasType, tempoFrom, stringBeats_value h hz, positiveNumber, hb']
  | modulation v w p q hv hw =>
    have hs := hf.elim (fun h => absurd h (by decide)) id
    have hp := value_pos hv
    have hq := value_pos hw
    have hp0 : p ≠ 0 := by grind
    refine .intro (["metric-modulation"],
      [([.number, .number], modulationFrom numberBeats numberBeats), ([.number, .string], modulationFrom numberBeats stringBeats),
       ([.string, .number], modulationFrom stringBeats numberBeats), ([.string, .string], modulationFrom stringBeats stringBeats)])
      (by simp [attributeFns]) (by simp) (evalArgs_two (value_eval hv) (value_eval hw)) (.metricModulation (q / p)) ?_ (by simp [PartUpd.kind])
      (fun a => ⟨_, ?_, rfl⟩)
    · cases hv with
      | number d hd =>
        have hd' := numberBeats_value (Rat.not_lt.1 (notSmall hd (hs d (by simp))))
        cases hw with
        | number e hpos =>
          have he' := numberBeats_value (Rat.not_lt.1 (notSmall hpos (hs e (by simp))))
          simp [attrResult, argumentsMatchSignature, fixedArgsMatch, typeOk, LispForm.hasType, modulationFrom, hd', he', hp0]
        | text s ls h hz =>
          simp [attrResult, argumentsMatchSignature, fixedArgsMatch, typeOk, LispForm.hasType, modulationFrom, hd', stringBeats_value h hz, hp0]
      | text s ls h hz =>
        cases hw with
        | number e hpos =>
          have he' := numberBeats_value (Rat.not_lt.1 (notSmall hpos (hs e (by simp))))
          simp [attrResult, argumentsMatchSignature, fixedArgsMatch, typeOk, LispForm.hasType, modulationFrom, stringBeats_value h hz, he', hp0]
        | text s' ls' h' hz' =>
          simp [attrResult, argumentsMatchSignature, fixedArgsMatch, typeOk, LispForm.hasType, modulationFrom, stringBeats_value h hz, stringBeats_value h' hz', hp0]
    · by_cases ha : a.tempo = 0
      · rw [ha]; grind
      · grind
  | quantization name v hn hv =>
    refine .intro (["quantization", "quantize", "quant"], [([.number], attr1 nonNegativeNumber .quantization)]) (by simp [attributeFns]) hn (evalArgs_num _)
      (.quantization (v / 100)) ?_ (by simp [PartUpd.kind]) (fun a => rfl)
    rw [result_num, nonNegativeNumber, if_neg (by grind)]; rfl
  | volume name v hn hv hv' =>
    refine .intro (["volume", "vol"], [([.number], attr1 percentage .volume)]) (by simp [attributeFns]) hn (evalArgs_num _)
      (.volume (v / 100)) ?_ (by simp [PartUpd.kind]) (fun a => rfl)
    rw [result_num, percentage, if_neg (by grind)]; rfl
  | trackVolume name v hn hv hv' =>
    refine .intro (["track-volume", "track-vol"], [([.number], attr1 percentage .trackVolume)]) (by simp [attributeFns]) hn (evalArgs_num _)
      (.trackVolume (v / 100)) ?_ (by simp [PartUpd.kind]) (fun a => rfl)
    rw [result_num, percentage, if_neg (by grind)]; rfl
  | dynamic i name hm =>
    obtain ⟨h1, h2⟩ := markings_volumes i name hm
    refine .intro ([name], [([], fun _ => .ok (.dynamic name))]) (List.mem_append_left _ (List.mem_append_right _ h1)) (by simp) (vs := []) (by simp only [LispForm.evalArgs])
      (.dynamic name) ?_ (by simp [PartUpd.kind]) (fun a => by rw [← h2]; rfl)
    simp [attrResult, argumentsMatchSignature]
  | panning name v hn hv hv' =>
    refine .intro (["panning", "pan"], [([.number], attr1 percentage .panning)]) (by simp [attributeFns]) hn (evalArgs_num _)
      (.panning (v / 100)) ?_ (by simp [PartUpd.kind]) (fun a => rfl)
    rw [result_num, percentage, if_neg (by grind)]; rfl
  | beats q hq =>
    have hq' : ¬ q < 1 := hf.elim (fun h => absurd h (by decide)) (fun h => notSmall hq (h q (by simp)))
    refine .intro (["set-duration"], [([.number], attr1 positiveNumber (fun q => .duration [.beats q]))]) (by simp [attributeFns]) (by simp) (evalArgs_num _)
      (.duration [.beats q]) ?_ (by simp [PartUpd.kind]) (fun a => ⟨[.beats q], fun t => ?_, rfl⟩)
    · rw [result_num, positiveNumber, if_neg hq']; rfl
    · simp only [atoms, atomsOf, List.append_nil, total, Atom.length]; grind
  | ms q hq =>
    have hq' : ¬ q < 1 := hf.elim (fun h => absurd h (by decide)) (fun h => notSmall hq (h q (by simp)))
    refine .intro (["set-duration-ms"], [([.number], attr1 positiveNumber (fun q => .duration [.ms q]))]) (by simp [attributeFns]) (by simp) (evalArgs_num _)
      (.duration [.ms q]) ?_ (by simp [PartUpd.kind]) (fun a => ⟨[.ms q], fun t => ?_, rfl⟩)
    · rw [result_num, positiveNumber, if_neg hq']; rfl
    · simp only [atoms, atomsOf, List.append_nil, total, Atom.length]; grind
  | noteLength v q hv =>
    cases hv with
    | number d hd =>
      have hd' : ¬ d < 1 := hf.elim (fun h => absurd h (by decide)) (fun h => notSmall hd (h d (by simp)))
      refine .intro (["set-note-length"], [([.number], attr1 positiveNumber (fun q => .duration [.length q 0])), ([.string], attr1 lispDuration .duration)])
        (by simp [attributeFns]) (by simp) (evalArgs_num _) (.duration [.length d 0]) ?_ (by simp [PartUpd.kind]) (fun a => ⟨[.length d 0], fun t => ?_, rfl⟩)
      · rw [result_num, positiveNumber, if_neg hd']; rfl
      · simp only [atoms, atomsOf, List.append_nil, total, Atom.length, dotted]; grind
    | text s ls h hz =>
      refine .intro (["set-note-length"], [([.number], attr1 positiveNumber (fun q => .duration [.length q 0])), ([.string], attr1 lispDuration .duration)])
        (by simp [attributeFns]) (by simp) (evalArgs_one (v := .str s) (by simp only [LispForm.eval])) (.duration (tiedComps ls)) ?_ (by simp [PartUpd.kind])
        (fun a => ⟨tiedComps ls, tied_total ls, rfl⟩)
      simp [attrResult, argumentsMatchSignature, fixedArgsMatch, typeOk, LispForm.hasType, attr1, lispDuration, noteLengths_tied h, Except.map]
  | key name v says hn hk =>
    let x : AttrFn := (["key-signature", "key-sig"], [([.string], attr1 keySigFromString .keySignature), ([.list], attr1 keySigFromList .keySignature)])
    have hx : x ∈ attributeFns := by simp [attributeFns, x]
    cases hk with
    | words ps s hp hs =>
      refine .intro x hx hn (evalArgs_one (v := .str s) (by simp only [LispForm.eval])) (.keySignature (putAll KeySig.empty ps)) ?_ (by simp [PartUpd.kind])
        (fun a => ⟨_, putAll_mentioned ps, rfl⟩)
      have hfields : fields s.toList = ps.map (fun p => (letterName p.1).toList ++ p.2.map accidentalSign) := by
        rw [hs, spaced_eq]
        apply Syn.fields_join
        intro w hw
        obtain ⟨p, _, rfl⟩ := List.mem_map.1 hw
        obtain ⟨c, hc, _, hsp⟩ := letterName_chars p.1
        rw [hc]
        refine ⟨by simp, fun d hd => ?_⟩
        rcases List.mem_append.1 hd with hd | hd
        · rw [List.mem_singleton.1 hd]; exact hsp
        · obtain ⟨a, _, rfl⟩ := List.mem_map.1 hd
          cases a <;> decide
      simp [x, attrResult, argumentsMatchSignature, fixedArgsMatch, typeOk, LispForm.hasType, attr1, keySigFromString, hfields, keySigFields_words ps hp, Except.map]
    | pairs ps hp =>
      cases ps with
      | nil => exact absurd rfl he
      | cons p ps =>
        refine .intro x hx hn (evalArgs_one (by simp only [LispForm.eval]; rfl)) (.keySignature (putAll KeySig.empty (p :: ps))) ?_ (by simp [PartUpd.kind])
          (fun a => ⟨_, putAll_mentioned (p :: ps), rfl⟩)
        have h1 := keySigPairs_pairs (p :: ps) hp KeySig.empty
        have h2 : keySigFromAccidentals ((p :: ps).flatMap (fun p => [.sym (letterName p.1), .list (p.2.map (fun a => .sym (accidentalName a)))])) =
            .ok (putAll KeySig.empty (p :: ps)) := by
          rw [keySigFromAccidentals, if_neg, h1]
          have : ∀ qs : List (Letter × List Accidental),
              (qs.flatMap (fun p => [LispForm.sym (letterName p.1), .list (p.2.map (fun a => .sym (accidentalName a)))])).length = 2 * qs.length := by
            intro qs
            induction qs with
            | nil => rfl
            | cons q qs ih => simp only [List.flatMap_cons, List.length_append, ih, List.length_cons, List.length_nil]; omega
          rw [this]; omega
        have h3 : keySigFromList (.list ((p :: ps).flatMap (fun p => [.sym (letterName p.1), .list (p.2.map (fun a => .sym (accidentalName a)))]))) =
            .ok (putAll KeySig.empty (p :: ps)) := by
          rw [← h2]; rfl
        simp only [x, attrResult, argumentsMatchSignature, fixedArgsMatch, typeOk, LispForm.hasType, attr1, h3]
        rfl
    | scale t accs mode mname hm =>
      refine .intro x hx hn (evalArgs_one (by simp only [LispForm.eval]; rfl)) (.keySignature (keySigFromScale t accs mode)) ?_ (by simp [PartUpd.kind])
        (fun a => ⟨_, fun i hi octave => c06_scale t accs mode i hi octave, rfl⟩)
      have h3 : keySigFromList (.list (.sym (letterName t) :: (accs.map (fun a => .sym (accidentalName a)) ++ [.sym mname]))) =
          .ok (keySigFromScale t accs mode) := by
        rw [← scaleName_reads t accs hm]
        cases accs <;> rfl
      simp only [x, attrResult, argumentsMatchSignature, fixedArgsMatch, typeOk, LispForm.hasType, attr1, h3]
      rfl
  | transposition name n hn hi =>
    refine .intro (["transposition", "transpose"], [([.number], attr1 integer .transposition)]) (by simp [attributeFns]) hn (evalArgs_num _)
      (.transposition n) ?_ (by simp [PartUpd.kind]) (fun a => rfl)
    rw [result_num, integer_num n hi]; rfl
  | referencePitch name f hn hp =>
    have hp' : ¬ f < 1 := hf.elim (fun h => by
      simp only [List.mem_cons, List.not_mem_nil, or_false] at hn
      rcases hn with rfl | rfl <;> exact absurd h (by decide)) (fun h => notSmall hp (h f (by simp)))
    refine .intro (["reference-pitch", "tuning-constant"], [([.number], attr1 positiveNumber .referencePitch)]) (by simp [attributeFns]) hn (evalArgs_num _)
      (.referencePitch f) ?_ (by simp [PartUpd.kind]) (fun a => rfl)
    rw [result_num, positiveNumber, if_neg hp']; rfl

/-! ### The effect on the score -/

theorem updatePart_ok {u : PartUpd} (h : u.kind ≠ .midiChannel) (g : Bool) (p : Part) : ∃ q, updatePart u g p = .ok q := by
  cases u with
  | midiChannel n => exact absurd rfl h
  | _ => exact ⟨_, rfl⟩

theorem attrParts_effect {u : PartUpd} (hk : u.kind ≠ .midiChannel) : ∀ (ids : List Nat) (s : Score), ids.Nodup →
    (forIds (attrPart u) ids s).err = none ∧ (∃ h, (forIds (attrPart u) ids s).s = { s with heap := h }) ∧
    (∀ i ∈ ids, attributesAt (forIds (attrPart u) ids s).s i = change u (attributesAt s i) ∧
      SameIdentity (s.heap i) ((forIds (attrPart u) ids s).s.heap i)) ∧
    ∀ i, i ∉ ids → (forIds (attrPart u) ids s).s.heap i = s.heap i := by
  intro ids
  induction ids with
  | nil => intro s _; exact ⟨rfl, ⟨s.heap, rfl⟩, by simp, fun _ _ => rfl⟩
  | cons i ids ih =>
    intro s hn
    rw [List.nodup_cons] at hn
    obtain ⟨q, hq⟩ := updatePart_ok hk false (s.heap i)
    have h1 : forIds (attrPart u) (i :: ids) s = forIds (attrPart u) ids (s.setPart i { q with override := some u }) := by
      simp only [forIds, attrPart, hq]; rfl
    obtain ⟨e, ⟨h, hh⟩, hin, hout⟩ := ih (s.setPart i { q with override := some u }) hn.2
    rw [h1]
    refine ⟨e, ⟨h, by rw [hh]; rfl⟩, ?_, ?_⟩
    · intro j hj
      by_cases hji : j = i
      · subst hji
        have hc : (s.setPart j { q with override := some u }).heap j = { q with override := some u } := by simp [Score.setPart]
        have hsame := hout j hn.1
        rw [hc] at hsame
        refine ⟨?_, ?_⟩
        · simp only [attributesAt, hsame]
          exact (updatePart_change hq).1
        · rw [hsame]
          have hi := updatePart_identity hq
          cases hi; constructor <;> assumption
      · have hj' := (List.mem_cons.1 hj).resolve_left hji
        have hc : (s.setPart i { q with override := some u }).heap j = s.heap j := by simp [Score.setPart, hji]
        have := hin j hj'
        simp only [attributesAt, hc] at this ⊢
        exact this
    · intro j hj
      rw [List.mem_cons, not_or] at hj
      rw [hout j hj.2]
      simp [Score.setPart, hj.1]

/-- C62: an attribute expression does what it asks for to every instrument that is being written for, and nothing else: every other attribute, every other
part, and what has been written before stay as they are. Not for numbers between 0 and 1 other than percentages, and not for an empty list as key signature. -/
theorem c62_set_partial {name : String} {args : List LispForm} {R : Attributes → Attributes → Prop} (h : Asks name args R) (hf : NoFractions name args)
    (he : args ≠ [.quoted (.list [])]) {s : Score} (hr : Reachable s) :
    let r := update [.lisp (.sym name :: args)] s
    r.err = none ∧ (∃ heap, r.s = { s with heap := heap }) ∧
    (∀ i ∈ s.current, R (attributesAt s i) (attributesAt r.s i) ∧ SameIdentity (s.heap i) (r.s.heap i)) ∧
    ∀ i, i ∉ s.current → r.s.heap i = s.heap i := by
  intro r
  obtain ⟨x, hx, hn, vs, hv, u, hu, hk, hR⟩ := asks_gives h hf he
  have hl := (lispUpdate_attr hx hn hv).1
  rw [hu] at hl
  obtain ⟨e, hh, hin, hout⟩ := attrParts_effect hk s.current s hr.wf.cur_ids_nodup
  have hr' : r = forIds (attrPart u) s.current s := by
    have : updWith derefUpd (.lisp (.sym name :: args)) s = forIds (attrPart u) s.current s := by
      simp only [updWith, hl, Except.map, leafUpd, attrUpd]
    simp only [r, update, updListWith, this]
    rcases hx : forIds (attrPart u) s.current s with ⟨er, t⟩
    rw [hx] at e
    simp only at e
    subst e
    rfl
  rw [hr']
  refine ⟨e, hh, fun i hi => ⟨?_, (hin i hi).2⟩, hout⟩
  rw [(hin i hi).1]
  exact hR _

/-- C62: with `!`, what is asked for is recorded for all instruments, at the time where it is written (C18 says how it reaches them). -/
theorem c62_global_partial {name : String} {args : List LispForm} {R : Attributes → Attributes → Prop} (h : Asks name args R) (hf : NoFractions name args)
    (he : args ≠ [.quoted (.list [])]) {s : Score} (hr : Reachable s) (o : Rat) (ho : ∀ i ∈ s.current, (s.heap i).offset = o) (ho' : s.current = [] → o = 0) :
    let r := update [.lisp (.sym (name ++ "!") :: args)] s
    r.err = none ∧ ∃ cs u, s.globals = recorded cs ∧ (∀ a, R a (change u a)) ∧ r.s = { s with globals := recorded (cs ++ [(o, u)]) } := by
  intro r
  obtain ⟨x, hx, hn, vs, hv, u, hu, hk, hR⟩ := asks_gives h hf he
  have hl := (lispUpdate_attr hx hn hv).2
  rw [hu] at hl
  have h1 : update [.lisp (.sym (name ++ "!") :: args)] s = update [.leaf (.globalAttr u)] s := by
    simp only [update, updListWith, updWith, hl, Except.map]
  have h2 : (update [.leaf (.globalAttr u)] s).err = none := by
    simp only [update, updListWith, updWith, leafUpd, globalAttrUpd]
    cases hc : s.current with
    | nil => rfl
    | cons i is =>
      simp only
      have : commonOffset s (i :: is) = some (s.heap i).offset := by
        simp only [commonOffset]
        rw [if_pos]
        rw [List.all_eq_true]
        intro j hj
        rw [beq_iff_eq, ho j (by rw [hc]; exact List.mem_cons_of_mem _ hj), ho i (by rw [hc]; exact List.mem_cons_self ..)]
      rw [this]; rfl
  obtain ⟨cs, hcs, hrec⟩ := c18_recorded s hr
  obtain ⟨o', ho1, ho2, hs⟩ := hrec u h2
  have hoo : o' = o := by
    cases hc : s.current with
    | nil => rw [ho2 hc, ho' hc]
    | cons i is => rw [← ho1 i (by rw [hc]; exact List.mem_cons_self ..), ho i (by rw [hc]; exact List.mem_cons_self ..)]
  refine ⟨by rw [show r = _ from h1]; exact h2, cs, u, hcs, hR, ?_⟩
  rw [show r = _ from h1, hs, hoo]

/-! ### What cannot be asked for is refused -/

theorem evalArgs_nums {args : List LispForm} (h : ∀ a ∈ args, ∃ v, a = .num v) : LispForm.evalArgs args = .ok args := by
  induction args with
  | nil => simp only [LispForm.evalArgs]
  | cons a args ih =>
    obtain ⟨v, rfl⟩ := h a (List.mem_cons_self ..)
    simp only [LispForm.evalArgs, LispForm.eval, ih (fun b hb => h b (List.mem_cons_of_mem _ hb))]

/-- Lists of numbers by length. -/
theorem nums_cases {args : List LispForm} (h : ∀ a ∈ args, ∃ v, a = .num v) :
    args = [] ∨ (∃ v, args = [.num v]) ∨ (∃ v w, args = [.num v, .num w]) ∨ ∃ v w u rest, args = .num v :: .num w :: .num u :: rest := by
  match args with
  | [] => exact Or.inl rfl
  | [a] => obtain ⟨v, rfl⟩ := h a (by simp); exact Or.inr (Or.inl ⟨v, rfl⟩)
  | [a, b] => obtain ⟨v, rfl⟩ := h a (by simp); obtain ⟨w, rfl⟩ := h b (by simp); exact Or.inr (Or.inr (Or.inl ⟨v, w, rfl⟩))
  | a :: b :: c :: rest =>
    obtain ⟨v, rfl⟩ := h a (by simp); obtain ⟨w, rfl⟩ := h b (by simp); obtain ⟨u, rfl⟩ := h c (by simp)
    exact Or.inr (Or.inr (Or.inr ⟨v, w, u, rest, rfl⟩))

/-- A function of one number, with other signatures that are for no numbers. -/
theorem one_number {α : Type} (conv : LispForm → Except Err α) (mk : α → PartUpd) (rest : List (List ArgType × (List LispForm → Except Err PartUpd)))
    (hrest : ∀ x ∈ rest, x.1 = [.symbol] ∨ x.1 = [.string] ∨ x.1 = [.list])
    {args : List LispForm} (h : ∀ a ∈ args, ∃ v, a = .num v) (hc : ∀ v, args = [.num v] → ∃ e, conv (.num v) = .error e) :
    ∃ e, attrResult args (([.number], attr1 conv mk) :: rest) = .error e := by
  have hr : ∃ e, attrResult args rest = .error e := by
    clear hc
    induction rest with
    | nil => exact ⟨_, rfl⟩
    | cons x rest ih =>
      obtain ⟨e, ih⟩ := ih (fun y hy => hrest y (List.mem_cons_of_mem _ hy))
      refine ⟨e, ?_⟩
      rw [attrResult, if_neg, ih]
      rcases hrest x (List.mem_cons_self ..) with hx | hx | hx <;> rw [hx] <;>
        rcases nums_cases h with h | ⟨v, h⟩ | ⟨v, w, h⟩ | ⟨v, w, u, r, h⟩ <;> subst h <;>
        simp [argumentsMatchSignature, fixedArgsMatch, typeOk, LispForm.hasType]
  obtain ⟨e, hr⟩ := hr
  rcases nums_cases h with h1 | ⟨v, h1⟩ | ⟨v, w, h1⟩ | ⟨v, w, u, r, h1⟩
  · exact ⟨e, by rw [attrResult, if_neg, hr]; subst h1; simp [argumentsMatchSignature]⟩
  · obtain ⟨e', hc'⟩ := hc v h1
    subst h1
    exact ⟨e', by rw [result_num, hc']; rfl⟩
  · exact ⟨e, by rw [attrResult, if_neg, hr]; subst h1; simp [argumentsMatchSignature]⟩
  · exact ⟨e, by rw [attrResult, if_neg, hr]; subst h1; simp [argumentsMatchSignature]⟩

theorem positive_refused {v : Rat} (h : ¬ 0 < v) : ∃ e, positiveNumber (.num v) = .error e := ⟨_, by rw [positiveNumber, if_pos]; grind⟩

theorem percentage_refused {v : Rat} (h : ¬ (0 ≤ v ∧ v ≤ 100)) : ∃ e, percentage (.num v) = .error e := ⟨_, by rw [percentage, if_pos]; grind⟩

theorem integer_refused {v : Rat} (h : ∀ n : Int, v = n → ¬ InInt32 n) : ∃ e, integer (.num v) = .error e := by
  have hn : ¬ (v.den = 1 ∧ InInt32 v.num) := by
    rintro ⟨h1, h2⟩
    exact h v.num (Rat.ext (by simp) (by simp [h1])) h2
  exact ⟨_, by rw [integer, if_neg hn]⟩

theorem numbers_refused {name : String} (hn : name ∈ attributeNames) {args : List LispForm} (h : ∀ a ∈ args, ∃ v, a = .num v) (hR : ∀ R, ¬ Asks name args R) :
    ∃ x ∈ attributeFns, name ∈ x.1 ∧ ∃ e, attrResult args x.2 = .error e := by
  have hdyn : name ∈ markings → ∃ x ∈ attributeFns, name ∈ x.1 ∧ ∃ e, attrResult args x.2 = .error e := by
    intro hm
    obtain ⟨i, hi⟩ := List.getElem?_of_mem hm
    refine ⟨([name], [([], fun _ => .ok (.dynamic name))]), List.mem_append_left _ (List.mem_append_right _ (markings_volumes i name hi).1), by simp, ?_⟩
    have hne : args ≠ [] := fun he => by subst he; exact hR _ (.dynamic i name hi)
    cases args with
    | nil => exact absurd rfl hne
    | cons a args => simp [attrResult, argumentsMatchSignature]
  have hper : ∀ (names : List String) (mk : Rat → PartUpd), name ∈ names → (names, [([.number], attr1 percentage mk)]) ∈ attributeFns →
      (∀ v, 0 ≤ v → v ≤ 100 → ∃ R, Asks name [.num v] R) → ∃ x ∈ attributeFns, name ∈ x.1 ∧ ∃ e, attrResult args x.2 = .error e := by
    intro names mk hn hx hask
    refine ⟨_, hx, hn, one_number _ _ _ (by simp) h ?_⟩
    intro v hv
    apply percentage_refused
    rintro ⟨h1, h2⟩
    obtain ⟨R, hask⟩ := hask v h1 h2
    exact hR R (by rw [hv]; exact hask)
  have hpos : ∀ (names : List String) (mk : Rat → PartUpd) (rest : List (List ArgType × (List LispForm → Except Err PartUpd))), name ∈ names →
      (names, ([.number], attr1 positiveNumber mk) :: rest) ∈ attributeFns → (∀ x ∈ rest, x.1 = [.symbol] ∨ x.1 = [.string] ∨ x.1 = [.list]) →
      (∀ v, 0 < v → ∃ R, Asks name [.num v] R) → ∃ x ∈ attributeFns, name ∈ x.1 ∧ ∃ e, attrResult args x.2 = .error e := by
    intro names mk rest hn hx hrest hask
    refine ⟨_, hx, hn, one_number _ _ _ hrest h ?_⟩
    intro v hv
    apply positive_refused
    intro h1
    obtain ⟨R, hask⟩ := hask v h1
    exact hR R (by rw [hv]; exact hask)
  simp only [attributeNames, percentages, List.mem_append] at hn
  rcases hn with (hn | hn) | hn
  · simp only [List.mem_cons, List.not_mem_nil, or_false] at hn
    rcases hn with rfl | rfl | rfl | rfl | rfl | rfl | hn | hn | hn | hn | hn | hn
    · refine ⟨(["octave"], [([.number], attr1 integer .octave), ([.symbol], octaveSym)]), by simp [attributeFns], by simp, one_number _ _ _ (by simp) h ?_⟩
      intro v hv
      apply integer_refused
      rintro n rfl hi
      subst hv
      exact hR _ (.octave n hi)
    · refine ⟨(["tempo"], [([.number], attr1 positiveNumber .tempo), ([.number, .number], tempoFrom numberBeats), ([.string, .number], tempoFrom stringBeats)]),
        by simp [attributeFns], by simp, ?_⟩
      rcases nums_cases h with h1 | ⟨v, h1⟩ | ⟨v, w, h1⟩ | ⟨v, w, u, r, h1⟩ <;> subst h1
      · simp [attrResult, argumentsMatchSignature]
      · rw [result_num]
        obtain ⟨e, he⟩ := positive_refused (v := v) (fun hv => hR _ (.tempo v hv))
        exact ⟨e, by rw [he]; rfl⟩
      · have h2 : ¬ (0 < v ∧ 0 < w) := fun hv => hR _ (.tempoOf _ _ w (.number v hv.1) hv.2)
        have h3 : attrResult [.num v, .num w] [([.number], attr1 positiveNumber .tempo), ([.number, .number], tempoFrom numberBeats),
            ([.string, .number], tempoFrom stringBeats)] = tempoFrom numberBeats [.num v, .num w] := by
          simp [attrResult, argumentsMatchSignature, fixedArgsMatch, typeOk, LispForm.hasType]
        simp only [h3, tempoFrom]
        split
        · exact ⟨_, rfl⟩
        · rename_i q hq
          by_cases hv : 0 < v
          · obtain ⟨e, he⟩ := positive_refused (v := w) (fun hw => h2 ⟨hv, hw⟩)
            rw [he]; exact ⟨_, rfl⟩
          · obtain ⟨e, he⟩ := positive_refused hv
            rw [numberBeats, he] at hq
            cases hq
      · simp [attrResult, argumentsMatchSignature]
    · refine ⟨(["metric-modulation"],
        [([.number, .number], modulationFrom numberBeats numberBeats), ([.number, .string], modulationFrom numberBeats stringBeats),
         ([.string, .number], modulationFrom stringBeats numberBeats), ([.string, .string], modulationFrom stringBeats stringBeats)]),
        by simp [attributeFns], by simp, ?_⟩
      rcases nums_cases h with h1 | ⟨v, h1⟩ | ⟨v, w, h1⟩ | ⟨v, w, u, r, h1⟩ <;> subst h1
      · simp [attrResult, argumentsMatchSignature]
      · simp [attrResult, argumentsMatchSignature]
      · have h2 : ¬ (0 < v ∧ 0 < w) := fun hv => hR _ (.modulation _ _ _ _ (.number v hv.1) (.number w hv.2))
        have h3 : attrResult [.num v, .num w] [([.number, .number], modulationFrom numberBeats numberBeats), ([.number, .string], modulationFrom numberBeats stringBeats),
            ([.string, .number], modulationFrom stringBeats numberBeats), ([.string, .string], modulationFrom stringBeats stringBeats)] =
            modulationFrom numberBeats numberBeats [.num v, .num w] := by
          simp [attrResult, argumentsMatchSignature, fixedArgsMatch, typeOk, LispForm.hasType]
        simp only [h3, modulationFrom]
        by_cases hv : 0 < v
        · obtain ⟨e, he⟩ := positive_refused (v := w) (fun hw => h2 ⟨hv, hw⟩)
          cases numberBeats (.num v) with
          | error e => exact ⟨_, rfl⟩
          | ok o => simp only [numberBeats, he]; exact ⟨_, rfl⟩
        · obtain ⟨e, he⟩ := positive_refused hv
          simp only [numberBeats, he]; exact ⟨_, rfl⟩
      · simp [attrResult, argumentsMatchSignature]
    · exact hpos ["set-duration"] (fun q => .duration [.beats q]) [] (by simp) (by simp [attributeFns]) (by simp) (fun v hv => ⟨_, .beats v hv⟩)
    · exact hpos ["set-duration-ms"] (fun q => .duration [.ms q]) [] (by simp) (by simp [attributeFns]) (by simp) (fun v hv => ⟨_, .ms v hv⟩)
    · exact hpos ["set-note-length"] (fun q => .duration [.length q 0]) [([.string], attr1 lispDuration .duration)] (by simp) (by simp [attributeFns]) (by simp)
        (fun v hv => ⟨_, .noteLength _ _ (.number v hv)⟩)
    · have hn' : name ∈ ["key-signature", "key-sig"] := by simp [hn]
      refine ⟨(["key-signature", "key-sig"], [([.string], attr1 keySigFromString .keySignature), ([.list], attr1 keySigFromList .keySignature)]), by simp [attributeFns], hn', ?_⟩
      rcases nums_cases h with h1 | ⟨v, h1⟩ | ⟨v, w, h1⟩ | ⟨v, w, u, r, h1⟩ <;> subst h1 <;>
        simp [attrResult, argumentsMatchSignature, fixedArgsMatch, typeOk, LispForm.hasType]
    · have hn' : name ∈ ["key-signature", "key-sig"] := by simp [hn]
      refine ⟨(["key-signature", "key-sig"], [([.string], attr1 keySigFromString .keySignature), ([.list], attr1 keySigFromList .keySignature)]), by simp [attributeFns], hn', ?_⟩
      rcases nums_cases h with h1 | ⟨v, h1⟩ | ⟨v, w, h1⟩ | ⟨v, w, u, r, h1⟩ <;> subst h1 <;>
        simp [attrResult, argumentsMatchSignature, fixedArgsMatch, typeOk, LispForm.hasType]
    · have hn' : name ∈ ["transposition", "transpose"] := by simp [hn]
      refine ⟨(["transposition", "transpose"], [([.number], attr1 integer .transposition)]), by simp [attributeFns], hn', one_number _ _ _ (by simp) h ?_⟩
      intro v hv
      apply integer_refused
      rintro n rfl hi
      subst hv
      exact hR _ (.transposition name n hn' hi)
    · have hn' : name ∈ ["transposition", "transpose"] := by simp [hn]
      refine ⟨(["transposition", "transpose"], [([.number], attr1 integer .transposition)]), by simp [attributeFns], hn', one_number _ _ _ (by simp) h ?_⟩
      intro v hv
      apply integer_refused
      rintro n rfl hi
      subst hv
      exact hR _ (.transposition name n hn' hi)
    · exact hpos ["reference-pitch", "tuning-constant"] .referencePitch [] (by simp [hn]) (by simp [attributeFns]) (by simp)
        (fun v hv => ⟨_, .referencePitch _ v (by simp [hn]) hv⟩)
    · exact hpos ["reference-pitch", "tuning-constant"] .referencePitch [] (by simp [hn]) (by simp [attributeFns]) (by simp)
        (fun v hv => ⟨_, .referencePitch _ v (by simp [hn]) hv⟩)
  · simp only [List.mem_cons, List.not_mem_nil, or_false] at hn
    rcases hn with hn | hn | hn | hn | hn | hn | hn | hn | hn
    · have hn' : name ∈ ["quantization", "quantize", "quant"] := by simp [hn]
      refine ⟨(["quantization", "quantize", "quant"], [([.number], attr1 nonNegativeNumber .quantization)]), by simp [attributeFns], hn', one_number _ _ _ (by simp) h ?_⟩
      intro v hv
      subst hv
      refine ⟨_, by rw [nonNegativeNumber, if_pos]; exact Rat.not_le.1 (fun h0 => hR _ (.quantization name v hn' h0))⟩
    · have hn' : name ∈ ["quantization", "quantize", "quant"] := by simp [hn]
      refine ⟨(["quantization", "quantize", "quant"], [([.number], attr1 nonNegativeNumber .quantization)]), by simp [attributeFns], hn', one_number _ _ _ (by simp) h ?_⟩
      intro v hv
      subst hv
      refine ⟨_, by rw [nonNegativeNumber, if_pos]; exact Rat.not_le.1 (fun h0 => hR _ (.quantization name v hn' h0))⟩
    · have hn' : name ∈ ["quantization", "quantize", "quant"] := by simp [hn]
      refine ⟨(["quantization", "quantize", "quant"], [([.number], attr1 nonNegativeNumber .quantization)]), by simp [attributeFns], hn', one_number _ _ _ (by simp) h ?_⟩
      intro v hv
      subst hv
      refine ⟨_, by rw [nonNegativeNumber, if_pos]; exact Rat.not_le.1 (fun h0 => hR _ (.quantization name v hn' h0))⟩
    · exact hper ["volume", "vol"] .volume (by simp [hn]) (by simp [attributeFns]) (fun v h1 h2 => ⟨_, .volume _ v (by simp [hn]) h1 h2⟩)
    · exact hper ["volume", "vol"] .volume (by simp [hn]) (by simp [attributeFns]) (fun v h1 h2 => ⟨_, .volume _ v (by simp [hn]) h1 h2⟩)
    · exact hper ["track-volume", "track-vol"] .trackVolume (by simp [hn]) (by simp [attributeFns]) (fun v h1 h2 => ⟨_, .trackVolume _ v (by simp [hn]) h1 h2⟩)
    · exact hper ["track-volume", "track-vol"] .trackVolume (by simp [hn]) (by simp [attributeFns]) (fun v h1 h2 => ⟨_, .trackVolume _ v (by simp [hn]) h1 h2⟩)
    · exact hper ["panning", "pan"] .panning (by simp [hn]) (by simp [attributeFns]) (fun v h1 h2 => ⟨_, .panning _ v (by simp [hn]) h1 h2⟩)
    · exact hper ["panning", "pan"] .panning (by simp [hn]) (by simp [attributeFns]) (fun v h1 h2 => ⟨_, .panning _ v (by simp [hn]) h1 h2⟩)
  · exact hdyn hn

/-- C62: numbers that cannot be asked for are refused: of whatever size and however many there are, the expression fails and changes nothing. -/
theorem c62_refused {name : String} (hn : name ∈ attributeNames) {args : List LispForm} (h : ∀ a ∈ args, ∃ v, a = .num v) (hR : ∀ R, ¬ Asks name args R)
    (s : Score) :
    ((update [.lisp (.sym name :: args)] s).err ≠ none ∧ (update [.lisp (.sym name :: args)] s).s = s) ∧
    (update [.lisp (.sym (name ++ "!") :: args)] s).err ≠ none ∧ (update [.lisp (.sym (name ++ "!") :: args)] s).s = s := by
  obtain ⟨x, hx, hn, e, he⟩ := numbers_refused hn h hR
  obtain ⟨h1, h2⟩ := lispUpdate_attr hx hn (evalArgs_nums h)
  rw [he] at h1 h2
  simp only [update, updListWith, updWith, h1, h2, Except.map]
  exact ⟨⟨by simp [Out.fail, Out.andThen], rfl⟩, by simp [Out.fail, Out.andThen], rfl⟩

/-- C06, as written in a score: after `(key-signature '(tonic accidentals… mode))`, with any of the names of the mode, the seven letters from the tonic up
have the intervals of the mode in every part that is being written for. -/
theorem c06_named (name : String) (hn : name ∈ ["key-signature", "key-sig"]) (t : Letter) (accs : List Accidental) (mode : Scale) (mname : String)
    (hm : mname ∈ modeNames mode) {s : Score} (hr : Reachable s) :
    let r := update [.lisp [.sym name, .quoted (.list (.sym (letterName t) :: (accs.map (fun a => .sym (accidentalName a)) ++ [.sym mname])))]] s
    r.err = none ∧ ∀ i ∈ s.current, ScaleOn t accs mode (r.s.heap i).keySig := by
  intro r
  obtain ⟨e, _, hin, _⟩ := c62_set_partial (.key name _ _ hn (.scale t accs mode mname hm)) (Or.inr (by simp)) (by simp) hr
  refine ⟨e, fun i hi => ?_⟩
  obtain ⟨ks, hks, hb⟩ := (hin i hi).1
  have : (r.s.heap i).keySig = ks := congrArg Attributes.keySig hb
  rw [this]
  exact hks

/-- C62 is false for numbers between 0 and 1: `(set-duration 0.5)`, half a beat, is refused, and so are `(set-note-length 0.5)`, the length of two whole
notes, and `(set-duration-ms 0.5)`: the function `positiveNumber` refuses all numbers less than 1. -/
theorem c62_fraction_witness :
    (∃ R, Asks "set-duration" [.num (1 / 2)] R) ∧ (∃ R, Asks "set-note-length" [.num (1 / 2)] R) ∧ (∃ R, Asks "set-duration-ms" [.num (1 / 2)] R) ∧
    ∀ s name, name ∈ ["set-duration", "set-note-length", "set-duration-ms"] → (update [.lisp [.sym name, .num (1 / 2)]] s).err ≠ none := by
  refine ⟨⟨_, .beats _ (by decide +kernel)⟩, ⟨_, .noteLength _ _ (.number _ (by decide +kernel))⟩, ⟨_, .ms _ (by decide +kernel)⟩, ?_⟩
  intro s name hn
  have hp : positiveNumber (.num (1 / 2)) = .error (.user "expected positive number") := by rw [positiveNumber, if_pos (by decide +kernel)]
  have key : ∀ x : AttrFn, x ∈ attributeFns → name ∈ x.1 → (∃ e, attrResult [.num (1 / 2)] x.2 = .error e) →
      (update [.lisp [.sym name, .num (1 / 2)]] s).err ≠ none := by
    intro x hx hn ⟨e, he⟩
    have h1 := (lispUpdate_attr hx hn (evalArgs_num (1 / 2))).1
    rw [he] at h1
    simp only [update, updListWith, updWith, h1, Except.map]
    simp [Out.fail, Out.andThen]
  simp only [List.mem_cons, List.not_mem_nil, or_false] at hn
  rcases hn with rfl | rfl | rfl
  · exact key (["set-duration"], [([.number], attr1 positiveNumber (fun q => .duration [.beats q]))]) (by simp [attributeFns]) (by simp)
      ⟨_, by rw [result_num, hp]; rfl⟩
  · exact key (["set-note-length"], [([.number], attr1 positiveNumber (fun q => .duration [.length q 0])), ([.string], attr1 lispDuration .duration)])
      (by simp [attributeFns]) (by simp) ⟨_, by rw [result_num, hp]; rfl⟩
  · exact key (["set-duration-ms"], [([.number], attr1 positiveNumber (fun q => .duration [.ms q]))]) (by simp [attributeFns]) (by simp)
      ⟨_, by rw [result_num, hp]; rfl⟩

/-- C62 is false for `(key-signature '())`, the documented initial value of the key signature: it is refused. -/
theorem c62_empty_key_witness : (∃ R, Asks "key-signature" [.quoted (.list [])] R) ∧
    ∀ s, (update [.lisp [.sym "key-signature", .quoted (.list [])]] s).err ≠ none := by
  refine ⟨⟨_, .key _ _ _ (by simp) (.pairs [] (fun _ h => by cases h))⟩, fun s => ?_⟩
  have h1 := (lispUpdate_attr (x := (["key-signature", "key-sig"], [([.string], attr1 keySigFromString .keySignature), ([.list], attr1 keySigFromList .keySignature)]))
    (by simp [attributeFns]) (n := "key-signature") (by simp) (evalArgs_one (a := .quoted (.list [])) (v := .list []) (by simp only [LispForm.eval]))).1
  have h2 : attrResult [.list []] [([.string], attr1 keySigFromString .keySignature), ([.list], attr1 keySigFromList .keySignature)] =
      .error (.user "invalid key signature") := by
    simp [attrResult, argumentsMatchSignature, fixedArgsMatch, typeOk, LispForm.hasType, attr1, keySigFromList, Except.map]
  rw [h2] at h1
  simp only [update, updListWith, updWith, h1, Except.map]
  simp [Out.fail, Out.andThen]

/-! ### Examples -/

-- `(metric-modulation "4." 2)` and `(tempo "4~8" 100)`
example : Asks "metric-modulation" [.str "4.", .num 2] (fun a b => ∃ t, tiedBeats [(4, 1)] * a.tempo⁻¹ = 4 / 2 * t⁻¹ ∧ b = { a with tempo := t }) :=
  .modulation _ _ _ _ (.text "4." [(4, 1)] (.one _ 4 1 (.whole ['4'] 1 (by decide) (by unfold AllDigits; decide))) (by decide +kernel)) (.number 2 (by decide))
example : tiedBeats [(4, 1)] = 3 / 2 := by decide +kernel
example : Asks "tempo" [.str "4~8", .num 100] (fun a b => b = { a with tempo := tiedBeats [(4, 0), (8, 0)] * 100 }) :=
  .tempoOf _ _ _ (.text "4~8" [(4, 0), (8, 0)]
    (.tied ['4'] ['8'] 4 0 [(8, 0)] (.whole ['4'] 0 (by decide) (by unfold AllDigits; decide)) (.one ['8'] 8 0 (.whole ['8'] 0 (by decide) (by unfold AllDigits; decide))))
    (by decide +kernel)) (by decide)

-- `(key-sig "b- e-")` and `(key-sig '(d flat flat minor))`
example : Asks "key-sig" [.str "b- e-"] (fun a b => ∃ ks, (∀ l, onLetter ks l = mentioned [(.B, [.flat]), (.E, [.flat])] l) ∧ b = { a with keySig := ks }) :=
  .key _ _ _ (by simp) (.words [(.B, [.flat]), (.E, [.flat])] "b- e-" (by unfold Signs; decide) (by decide))
example : Asks "key-sig" [.quoted (.list [.sym "d", .sym "flat", .sym "flat", .sym "minor"])] (fun a b => ∃ ks, ScaleOn .D [.flat, .flat] .aeolian ks ∧ b = { a with keySig := ks }) :=
  .key _ _ _ (by simp) (.scale .D [.flat, .flat] .aeolian "minor" (by decide))

-- `(mp)` is about 46.6 percent
example : Asks "mp" [] (fun a b => b = { a with volume := markingVolume 6 }) ∧ markingVolume 6 = 46578 / 100000 := ⟨.dynamic 6 "mp" (by decide), by decide +kernel⟩

-- `(vol 101)` cannot be asked for
example : ∀ R, ¬ Asks "vol" [.num 101] R := by
  intro R h
  generalize hn : "vol" = n at h
  generalize ha : [LispForm.num 101] = a at h
  cases h <;> simp only [List.cons.injEq, LispForm.num.injEq, and_true, reduceCtorEq, and_false] at ha <;>
    first
    | (rename_i hv _; subst ha; exact absurd hv (by decide +kernel))
    | (rename_i hv; subst ha; exact absurd hv (by decide +kernel))
    | (subst hn; rename_i hm _; exact absurd hm (by decide))
    | (subst hn; rename_i hm; exact absurd hm (by decide))
    | (rename_i hm; rw [← hn] at hm; exact absurd hm (by decide))
    | exact absurd hn (by decide)
    | (rename_i hm _; rw [← hn] at hm; exact absurd hm (by decide))

end Alda
